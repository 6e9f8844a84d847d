import Verif.Lemmas.SweepBound

/-! # C82: bounds on the work of the sweep -/
set_option linter.unusedSectionVars false
namespace GeoCrossings
open Spec

variable {K C : Type} [Field K] [LinearOrder K] [IsStrictOrderedRing K]
variable {lineOf : C → Line K} {nextAfter : K → K} {choice : Nat → Nat} {input : List C}
variable {st0 st : Sweep K C} {k : Nat}

section
variable {org : C → Pt K} {pos : Pt K} {X : Abs K C} {cl : List (Pt K)}

theorem new_full (h : Sweep.new lineOf input = some st0) : ∃ pos X,
    Full (fun c => (LineOrPoint.ofLine (lineOf c)).first) lineOf input pos st0 X ∧ ∀ e ∈ X.E, pos < e.point := by
  obtain ⟨pos, st, X, h1, h2, h3, -⟩ := full_init (org := fun c => (LineOrPoint.ofLine (lineOf c)).first) lineOf input (fun _ _ => rfl)
  rw [h, Option.some.injEq] at h1
  subst h1
  exact ⟨pos, X, h2, h3⟩

theorem measure_new (hcl : ∀ r, Critical (input.map lineOf) r → r ∈ cl) (h : Sweep.new lineOf input = some st0)
    (hf : Full org lineOf input pos st0 X) : X.measure cl ≤ 2 * input.length + 3 * incidences (input.map lineOf) cl := by
  have h1 := hf.weights hcl
  have h2 := (new_events h).1
  rw [hf.inv.conc.ev] at h2
  have h3 : (linesOf lineOf input).length ≤ (X.pieces.flatMap Grp.tri).length := by
    obtain ⟨tl, k1, k2, k3⟩ := hf.tiled
    have hne : ∀ e ∈ tl, lo (lineOf e.1) < hi (lineOf e.1) := by
      intro e he
      have : e.1 ∈ linesOf lineOf input := by rw [← k1]; exact List.mem_map_of_mem he
      have := (List.mem_filter.1 this).2
      simp only [ne_eq, decide_not, Bool.not_eq_eq_eq_not, Bool.not_true, decide_eq_false_iff_not] at this
      exact min_lt_max.2 this
    rw [k3.length_eq, ← k1]
    clear k1 k3
    induction tl with
    | nil => simp
    | cons e tl ih =>
      have := ih (fun e he => k2 e (by simp [he])) (fun e he => hne e (by simp [he]))
      rw [List.length_map] at this
      have h1 := hne e (by simp)
      have h2 := k2 e (by simp)
      rw [List.flatMap_cons, List.length_append, List.length_map, List.length_map, List.length_cons]
      cases hl : e.2 with
      | nil => rw [hl] at h2; exact absurd h1 (by rw [show lo (lineOf e.1) = hi (lineOf e.1) from h2]; exact lt_irrefl _)
      | cons x l => rw [List.length_cons]; omega
  have h4 : (linesOf lineOf input).length + (X.Q.flatMap Grp.cs).length = input.length := by
    rw [hf.qcs]
    unfold linesOf
    rw [← List.countP_eq_length_filter, ← List.countP_eq_length_filter, List.length_eq_countP_add_countP (p := fun c => decide ((lineOf c).start ≠ (lineOf c).stop)) (l := input)]
    congr 1
    refine List.countP_congr fun c _ => ?_
    simp
  unfold Abs.measure
  omega

theorem after_full (hcl : ∀ r, Critical (input.map lineOf) r → r ∈ cl) (hf : Full org lineOf input pos st0 X)
    (h : After lineOf nextAfter choice st0 k st) : ∃ pos' X', Full org lineOf input pos' st X' ∧ k + X'.measure cl ≤ X.measure cl ∧ st.clock ≤ st0.clock + 3 * k := by
  induction h with
  | zero => exact ⟨pos, X, hf, by omega, by omega⟩
  | @succ st1 st2 k out p h1 h2 ih =>
    obtain ⟨pos1, X1, i1, i2, i3⟩ := ih
    rcases _root_.GeoCrossings.step lineOf nextAfter choice i1.inv with ⟨-, -, h3⟩ | ⟨e, E', st3, out3, X3, k1, k2, k3, k4, k5⟩
    · rw [h2] at h3; cases h3
    · have hc := k5.code
      rw [h2] at hc
      simp only [Option.some.injEq, Prod.mk.injEq] at hc
      obtain ⟨rfl, rfl, rfl⟩ := hc
      obtain ⟨j1, j2⟩ := i1.step hcl k1 k4 k5
      have := nextEvent_clock h2
      exact ⟨_, X3, j1, by omega, by omega⟩

end

/-- **C82**: each call of `next_event` removes at least one from a stock of work. With `n` inputs, in which the ends of inputs and
the points where inputs meet lie strictly within inputs `I` times in all, there are at most `2 n + 3 I` events to handle, and there
are never more events waiting. One call takes at most three events from the heap. -/
theorem C82_events {cl : List (Pt K)} (hcl : ∀ r, Critical (input.map lineOf) r → r ∈ cl) (h0 : Sweep.new lineOf input = some st0)
    (h : After lineOf nextAfter choice st0 k st) :
    k + st.events.length ≤ 2 * input.length + 3 * incidences (input.map lineOf) cl ∧ st.clock ≤ 3 * k := by
  obtain ⟨pos, X, hf, -⟩ := new_full h0
  obtain ⟨pos', X', i1, i2, i3⟩ := after_full hcl hf h
  have hm := measure_new hcl h0 hf
  have he := (new_events h0).2
  have hx : X'.E.length ≤ X'.measure cl := by unfold Abs.measure; omega
  rw [i1.inv.conc.ev]
  exact ⟨by omega, by omega⟩

/-- **C82**: and after at most so many calls there is no event left. -/
theorem C82_ends {cl : List (Pt K)} (hcl : ∀ r, Critical (input.map lineOf) r → r ∈ cl) (h0 : Sweep.new lineOf input = some st0) :
    ∃ k st, k ≤ 2 * input.length + 3 * incidences (input.map lineOf) cl ∧ After lineOf nextAfter choice st0 k st ∧
      st.events = [] ∧ st.nextEvent lineOf nextAfter choice = some none := by
  obtain ⟨pos, X, hf, -⟩ := new_full h0
  by_contra hcon
  have hgo : ∀ k, ∃ st, After lineOf nextAfter choice st0 k st := by
    intro k
    induction k with
    | zero => exact ⟨st0, .zero _⟩
    | succ k ih =>
      obtain ⟨st, hst⟩ := ih
      obtain ⟨pos', X', i1, -, -⟩ := after_full hcl hf hst
      rcases _root_.GeoCrossings.step lineOf nextAfter choice i1.inv with ⟨h1, h2, h3⟩ | ⟨e, E', st3, out3, X3, k1, k2, k3, k4, k5⟩
      · refine absurd ⟨k, st, ?_, hst, by rw [i1.inv.conc.ev, h1], h3⟩ hcon
        have := (C82_events hcl h0 hst).1
        omega
      · exact ⟨st3, .succ hst k5.code⟩
  obtain ⟨st, hst⟩ := hgo (2 * input.length + 3 * incidences (input.map lineOf) cl + 1)
  have := (C82_events hcl h0 hst).1
  omega

/-- **C82**: the active set never holds more segments than there are inputs. -/
theorem C82_active (h0 : Sweep.new lineOf input = some st0) (h : After lineOf nextAfter choice st0 k st) : st.active.size ≤ input.length := by
  obtain ⟨cl, hcl⟩ := critical_finite (input.map lineOf)
  obtain ⟨pos, X, hf, -⟩ := new_full h0
  obtain ⟨pos', X', i1, -, -⟩ := after_full hcl hf h
  exact i1.active

/-- **C82**: the slab never holds more than `n + I` segments. -/
theorem C82_slab {cl : List (Pt K)} (hcl : ∀ r, Critical (input.map lineOf) r → r ∈ cl) (h0 : Sweep.new lineOf input = some st0)
    (h : After lineOf nextAfter choice st0 k st) {ks : List Nat} (hn : ks.Nodup) (hk : ∀ k ∈ ks, (st.segments.get k).isSome) :
    ks.length ≤ input.length + incidences (input.map lineOf) cl := by
  obtain ⟨pos, X, hf, -⟩ := new_full h0
  obtain ⟨pos', X', i1, -, -⟩ := after_full hcl hf h
  exact i1.stored hcl hn hk

/-! ## In terms of the number of inputs -/

theorem same_line {p q p' q' x r : Pt K} (hne : x ≠ r) (h1 : p < q) (hx : OnSeg p q x) (hr : OnSeg p q r)
    (hx' : OnSeg p' q' x) (hr' : OnSeg p' q' r) (y : Pt K) (hy : det p' q' y = 0) : det p q y = 0 := by
  refine det_trans hne ((onSeg_iff h1).1 hx).1 ((onSeg_iff h1).1 hr).1 ?_
  obtain ⟨s, t, -, k⟩ := det_sub hx' hr'
  rw [k, hy, mul_zero]

/-- A point where two inputs meet within a third is an end of an input, or the third meets one of them there. -/
theorem meet_within {l l1 l2 : Line K} {r : Pt K} (hr : Between l.start l.stop r) (h : MeetAt l1 l2 r) :
    (r = l1.start ∨ r = l1.stop) ∨ (r = l2.start ∨ r = l2.stop) ∨ MeetAt l l1 r ∨ MeetAt l l2 r := by
  by_contra hcon
  simp only [not_or] at hcon
  obtain ⟨⟨a1, a2⟩, ⟨b1, b2⟩, m1, m2⟩ := hcon
  have hr12 := (h r).2 rfl
  have key : ∀ l' : Line K, r ≠ l'.start → r ≠ l'.stop → OnLine l' r → lo l' < r ∧ r < hi l' := by
    intro l' e1 e2 hl
    have hne : l'.start ≠ l'.stop := by
      intro e
      have hl : OnSeg l'.start l'.stop r := hl
      rw [← e] at hl
      exact e1 (onSeg_self.1 hl)
    have hlt : lo l' < hi l' := min_lt_max.2 hne
    have k := (onSeg_iff hlt).1 ((onLine_iff l' r).1 hl)
    have e3 : r ≠ lo l' := by rcases min_choice l'.start l'.stop with e | e <;> unfold lo <;> rw [e] <;> assumption
    have e4 : r ≠ hi l' := by rcases max_choice l'.start l'.stop with e | e <;> unfold hi <;> rw [e] <;> assumption
    exact ⟨lt_of_le_of_ne k.2.1 (Ne.symm e3), lt_of_le_of_ne k.2.2 e4⟩
  have k0 := key l hr.2.1 hr.2.2 hr.1
  have k1 := key l1 a1 a2 hr12.1
  have k2 := key l2 b1 b2 hr12.2
  have other : ∀ l' : Line K, OnLine l' r → ¬ MeetAt l l' r → ∃ x, x ≠ r ∧ OnLine l x ∧ OnLine l' x := by
    intro l' hl hm
    by_contra hc
    refine hm fun x => ⟨fun hx => ?_, ?_⟩
    · by_contra hne; exact hc ⟨x, hne, hx.1, hx.2⟩
    · rintro rfl; exact ⟨hr.1, hl⟩
  obtain ⟨x1, n1, o1, o1'⟩ := other l1 hr12.1 m1
  obtain ⟨x2, n2, o2, o2'⟩ := other l2 hr12.2 m2
  rw [onLine_iff] at o1 o1' o2 o2'
  have w0 := k0.1.trans k0.2
  have w1 := k1.1.trans k1.2
  have w2 := k2.1.trans k2.2
  have r0 := (onLine_iff l r).1 hr.1
  have r1 := (onLine_iff l1 r).1 hr12.1
  have r2 := (onLine_iff l2 r).1 hr12.2
  have fin : ∀ x, r < x → OnLine l1 x → OnLine l2 x → False := fun x hlt h1 h2 => hlt.ne' ((h x).1 ⟨h1, h2⟩)
  rcases le_total (hi l1) (hi l2) with hle | hle
  · have hd := same_line n1 w0 o1 r0 o1' r1 (hi l1) (by unfold det; ring)
    have hd2 := same_line n2 w2 o2' r2 o2 r0 _ hd
    exact fin (hi l1) k1.2 ((onLine_iff _ _).2 (onSeg_right _ _)) ((onLine_iff _ _).2 ((onSeg_iff w2).2 ⟨hd2, (k2.1.trans k1.2).le, hle⟩))
  · have hd := same_line n2 w0 o2 r0 o2' r2 (hi l2) (by unfold det; ring)
    have hd2 := same_line n1 w1 o1' r1 o1 r0 _ hd
    exact fin (hi l2) k2.2 ((onLine_iff _ _).2 ((onSeg_iff w1).2 ⟨hd2, (k1.1.trans k2.2).le, hle⟩)) ((onLine_iff _ _).2 (onSeg_right _ _))

/-- **C82**: `n` lines have at most `3 n²` ends and meeting points within them, each point counted once for each line it lies within. -/
theorem C82_incidences {ls : List (Line K)} {cl : List (Pt K)} (hn : cl.Nodup) (hcl : ∀ r ∈ cl, Critical ls r) :
    incidences ls cl ≤ 3 * ls.length ^ 2 := by
  classical
  have one : ∀ l ∈ ls, cl.countP (fun r => decide (Between l.start l.stop r)) ≤ 3 * ls.length := by
    intro l hl
    rw [List.countP_eq_length_filter]
    have hsub : (cl.filter fun r => decide (Between l.start l.stop r)) ⊆ ls.map (·.start) ++ ls.map (·.stop) ++
        ls.filterMap (fun l2 => if h : ∃ r, MeetAt l l2 r then some h.choose else none) := by
      intro r hr
      obtain ⟨h1, h2⟩ := List.mem_filter.1 hr
      rw [decide_eq_true_iff] at h2
      have pt : ∀ l' ∈ ls, r = l'.start ∨ r = l'.stop → r ∈ ls.map (·.start) ++ ls.map (·.stop) ++
          ls.filterMap (fun l2 => if h : ∃ r, MeetAt l l2 r then some h.choose else none) := by
        rintro l' hl' (rfl | rfl)
        · exact List.mem_append_left _ (List.mem_append_left _ (List.mem_map.2 ⟨l', hl', rfl⟩))
        · exact List.mem_append_left _ (List.mem_append_right _ (List.mem_map.2 ⟨l', hl', rfl⟩))
      have mt : ∀ l' ∈ ls, MeetAt l l' r → r ∈ ls.map (·.start) ++ ls.map (·.stop) ++
          ls.filterMap (fun l2 => if h : ∃ r, MeetAt l l2 r then some h.choose else none) := by
        intro l' hl' hm
        refine List.mem_append_right _ (List.mem_filterMap.2 ⟨l', hl', ?_⟩)
        have h : ∃ r, MeetAt l l' r := ⟨r, hm⟩
        rw [dif_pos h, Option.some.injEq]
        exact (hm _).1 ((h.choose_spec _).2 rfl)
      rcases hcl r h1 with ⟨l', hl', he⟩ | ⟨l1, hl1, l2, hl2, hm⟩
      · exact pt l' hl' he
      · rcases meet_within h2 hm with h | h | h | h
        · exact pt l1 hl1 h
        · exact pt l2 hl2 h
        · exact mt l1 hl1 h
        · exact mt l2 hl2 h
    have := ((hn.filter _).subperm hsub).length_le
    simp only [List.length_append, List.length_map] at this
    have h3 := List.length_filterMap_le (fun l2 => if h : ∃ r, MeetAt l l2 r then some h.choose else none) ls
    omega
  unfold incidences
  have := List.sum_le_card_nsmul (ls.map fun l => cl.countP fun r => decide (Between l.start l.stop r)) (3 * ls.length) (by
    intro x hx
    obtain ⟨l, hl, rfl⟩ := List.mem_map.1 hx
    exact one l hl)
  rw [List.length_map, smul_eq_mul] at this
  rw [pow_two]
  nlinarith

theorem critical_nodup (ls : List (Line K)) : ∃ cl : List (Pt K), cl.Nodup ∧ ∀ r, r ∈ cl ↔ Critical ls r := by
  classical
  obtain ⟨cl, hcl⟩ := critical_finite ls
  refine ⟨(cl.filter fun r => decide (Critical ls r)).dedup, List.nodup_dedup _, fun r => ?_⟩
  rw [List.mem_dedup, List.mem_filter, decide_eq_true_iff]
  exact ⟨fun h => h.2, fun h => ⟨hcl r h, h⟩⟩

/-- **C82**: whatever the inputs, no more than `2 n + 9 n²` events are handled. -/
theorem C82_worst (h0 : Sweep.new lineOf input = some st0) (h : After lineOf nextAfter choice st0 k st) :
    k + st.events.length ≤ 2 * input.length + 9 * input.length ^ 2 := by
  obtain ⟨cl, hn, hcl⟩ := critical_nodup (input.map lineOf)
  have h1 := (C82_events (fun r hr => (hcl r).2 hr) h0 h).1
  have h2 := C82_incidences hn fun r hr => (hcl r).1 hr
  rw [List.length_map] at h2
  omega

/-! ## Examples -/

/-- Some calls of `next_event`. -/
def stepsOf (lineOf : C → Line K) (nextAfter : K → K) (choice : Nat → Nat) (st : Sweep K C) : Nat → Option (Sweep K C)
  | 0 => some st
  | k + 1 => (stepsOf lineOf nextAfter choice st k).bind fun st1 => (st1.nextEvent lineOf nextAfter choice).bind fun o => o.map (·.1)

theorem stepsOf_after : ∀ {k : Nat} {st' : Sweep K C}, stepsOf lineOf nextAfter choice st k = some st' → After lineOf nextAfter choice st k st'
  | 0, st', h => by rw [stepsOf, Option.some.injEq] at h; subst h; exact .zero _
  | k + 1, st', h => by
    rw [stepsOf] at h
    obtain ⟨st1, h1, h⟩ := Option.bind_eq_some_iff.1 h
    obtain ⟨o, h2, h⟩ := Option.bind_eq_some_iff.1 h
    obtain ⟨⟨st2, out, p⟩, h3, rfl⟩ := Option.map_eq_some_iff.1 h
    rw [h3] at h2
    exact .succ (stepsOf_after h1) h2

theorem incidences_of_lt {ls : List (Line K)} (h : ∀ l ∈ ls, l.start < l.stop) (cl : List (Pt K)) :
    incidences ls cl = (ls.map fun l => cl.countP fun r => decide (det l.start l.stop r = 0 ∧ l.start < r ∧ r < l.stop)).sum := by
  classical
  unfold incidences
  congr 1
  refine List.map_congr_left fun l hl => List.countP_congr fun r _ => ?_
  rw [decide_eq_true_iff, decide_eq_true_iff]
  unfold Between
  rw [onSeg_iff (h l hl)]
  constructor
  · rintro ⟨⟨h1, h2, h3⟩, h4, h5⟩; exact ⟨h1, lt_of_le_of_ne h2 (Ne.symm h4), lt_of_le_of_ne h3 h5⟩
  · rintro ⟨h1, h2, h3⟩; exact ⟨⟨h1, h2.le, h3.le⟩, h2.ne', h3.ne⟩

/-- Two lines that cross: all the `2 n + 3 I = 10` events are handled. -/
def crossLines : List (Line ℚ) := [⟨⟨0, 0⟩, ⟨4, 4⟩⟩, ⟨⟨0, 4⟩, ⟨4, 0⟩⟩]

def crossPoints : List (Pt ℚ) := [⟨0, 0⟩, ⟨4, 4⟩, ⟨0, 4⟩, ⟨4, 0⟩, ⟨2, 2⟩]

example : incidences crossLines crossPoints = 2 := by
  rw [incidences_of_lt (by decide +kernel)]
  decide +kernel

/-- Two lines through a point, one that ends there, and one that overlaps the first. -/
def boundLines : List (Line ℚ) := [⟨⟨0, 0⟩, ⟨4, 4⟩⟩, ⟨⟨0, 4⟩, ⟨4, 0⟩⟩, ⟨⟨2, 2⟩, ⟨5, 2⟩⟩, ⟨⟨1, 1⟩, ⟨3, 3⟩⟩]

def boundPoints : List (Pt ℚ) := [⟨0, 0⟩, ⟨4, 4⟩, ⟨0, 4⟩, ⟨4, 0⟩, ⟨2, 2⟩, ⟨5, 2⟩, ⟨1, 1⟩, ⟨3, 3⟩]

example : incidences boundLines boundPoints = 5 := by
  rw [incidences_of_lt (by decide +kernel)]
  decide +kernel

/-- The events waiting, the events taken and the active segments after some calls. -/
def workOf (ls : List (Line ℚ)) (k : Nat) : Option (Nat × Nat × Nat) :=
  ((Sweep.new (id : Line ℚ → _) ls).bind fun st => stepsOf id id (fun _ => 0) st k).map fun st => (st.events.length, st.clock, st.active.size)

theorem workOf_after {ls : List (Line ℚ)} {k : Nat} {w : Nat × Nat × Nat} (h : workOf ls k = some w) : ∃ st0 st, Sweep.new id ls = some st0 ∧
    After id id (fun _ => 0) st0 k st ∧ st.events.length = w.1 ∧ st.clock = w.2.1 ∧ st.active.size = w.2.2 := by
  unfold workOf at h
  obtain ⟨st, h1, rfl⟩ := Option.map_eq_some_iff.1 h
  obtain ⟨st0, h0, h1⟩ := Option.bind_eq_some_iff.1 h1
  exact ⟨st0, st, h0, stepsOf_after h1, rfl, rfl, rfl⟩

example : workOf crossLines 2 = some (8, 2, 2) ∧ workOf crossLines 10 = some (0, 10, 0) := by decide +kernel

/-- One of the calls takes two events, and up to three segments are active. -/
example : workOf boundLines 3 = some (16, 4, 1) ∧ workOf boundLines 12 = some (10, 13, 3) ∧ workOf boundLines 22 = some (0, 23, 0) := by
  decide +kernel

end GeoCrossings

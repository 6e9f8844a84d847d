import Verif.Lemmas.SweepRun
import Mathlib.Algebra.Order.Ring.Rat
import Mathlib.Algebra.Field.Rat

/-!
# Properties of `CrossingsIter`: C19–C26 and C31

All statements quantify over every list of inputs (lines, points, overlaps, duplicates), every way the heap breaks ties (`choice`),
and every `next_after`. The specification notions (`OnLine`, `Critical`, `MeetAt`, `OverlapOn`, `Between`, `Tiling`) are in
`Verif/Spec/Sweep.lean` and mention neither the sweep nor its state.
-/
set_option linter.unusedSectionVars false
namespace GeoCrossings
open Spec

variable {K C : Type} [Field K] [LinearOrder K] [IsStrictOrderedRing K]
variable {lineOf : C → Line K} {nextAfter : K → K} {choice : Nat → Nat} {fuel : Nat} {input : List C}
variable {res : List (Pt K × List (Crossing K C))} {X : Abs K C}

/-! ## From the log to the yields -/

theorem mem_flat {p : Pt K} {x : Crossing K C} : (p, x) ∈ flat res ↔ ∃ b, (p, b) ∈ res ∧ x ∈ b := by
  unfold flat
  simp only [List.mem_flatMap, List.mem_map, Prod.mk.injEq]
  constructor
  · rintro ⟨⟨p', b⟩, h1, x', h2, rfl, rfl⟩; exact ⟨b, h1, h2⟩
  · rintro ⟨b, h1, h2⟩; exact ⟨(p, b), h1, x, h2, rfl, rfl⟩

theorem Final.mem (h : Final lineOf input X res) {e : Pt K × Seg K C × EventType} (he : e ∈ X.log) :
    ∃ b, (e.1, b) ∈ res ∧ Crossing.ofSeg e.2.1 e.2.2 ∈ b := by
  rw [← mem_flat, h.flat]
  exact List.mem_map_of_mem he

theorem Final.of_mem (h : Final lineOf input X res) {p : Pt K} {b : List (Crossing K C)} {x : Crossing K C} (hb : (p, b) ∈ res)
    (hx : x ∈ b) : ∃ s ty, (p, s, ty) ∈ X.log ∧ x = Crossing.ofSeg s ty := by
  have := (mem_flat (res := res)).2 ⟨b, hb, hx⟩
  rw [h.flat] at this
  obtain ⟨⟨p', s, ty⟩, h1, h2⟩ := List.mem_map.1 this
  simp only [Prod.mk.injEq] at h2
  obtain ⟨rfl, rfl⟩ := h2
  exact ⟨s, ty, h1, rfl⟩

theorem Final.yield (h : Final lineOf input X res) {p : Pt K} {b : List (Crossing K C)} (hb : (p, b) ∈ res) :
    ∃ s ty, (p, s, ty) ∈ X.log := by
  obtain ⟨x, hx⟩ := List.exists_mem_of_ne_nil _ (h.ne _ hb)
  obtain ⟨s, ty, h1, -⟩ := h.of_mem hb hx
  exact ⟨s, ty, h1⟩

theorem Final.left_mem (h : Final lineOf input X res) {g : Grp K C} (hg : g ∈ X.D) {c : C} (hc : c ∈ g.cs) :
    ∃ s, (g.p, s, .lineLeft) ∈ X.log ∧ s.crossable = c := by
  have : (c, g.p) ∈ (X.D.flatMap fun g => g.cs.map fun c => (c, g.p)) :=
    List.mem_flatMap.2 ⟨g, hg, List.mem_map.2 ⟨c, hc, rfl⟩⟩
  obtain ⟨⟨p, s, ty⟩, h1, h2⟩ := List.mem_map.1 (h.left.mem_iff.2 this)
  simp only [Prod.mk.injEq] at h2
  obtain ⟨rfl, rfl⟩ := h2
  obtain ⟨h3, h4⟩ := List.mem_filter.1 h1
  simp only [decide_eq_true_eq] at h4
  subst h4
  exact ⟨s, h3, rfl⟩

theorem Final.right_mem (h : Final lineOf input X res) {g : Grp K C} (hg : g ∈ X.D) {c : C} (hc : c ∈ g.cs) :
    ∃ s, (g.q, s, .lineRight) ∈ X.log ∧ s.crossable = c := by
  have : (c, g.geom, g.q) ∈ (X.D.flatMap fun g => g.cs.map fun c => (c, g.geom, g.q)) :=
    List.mem_flatMap.2 ⟨g, hg, List.mem_map.2 ⟨c, hc, rfl⟩⟩
  rw [← h.right] at this
  obtain ⟨⟨p, s, ty⟩, h1, h2⟩ := List.mem_map.1 this
  simp only [Prod.mk.injEq] at h2
  obtain ⟨rfl, -, rfl⟩ := h2
  obtain ⟨h3, h4⟩ := List.mem_filter.1 h1
  simp only [decide_eq_true_eq] at h4
  subst h4
  exact ⟨s, h3, rfl⟩

/-! ## Covering an input by its pieces -/

theorem consecutive_cover {p q z : Pt K} {l : List (Pt K × Pt K)} (h : Consecutive p q l) (hl : p < q) (h1 : p ≤ z) (h2 : z ≤ q) :
    ∃ ab ∈ l, ab.1 ≤ z ∧ z ≤ ab.2 := by
  induction l generalizing p with
  | nil => rw [h] at hl; exact absurd hl (lt_irrefl _)
  | cons x l ih =>
    obtain ⟨a, b⟩ := x
    obtain ⟨rfl, h3, h4⟩ := h
    rcases le_total z b with hz | hz
    · exact ⟨_, List.mem_cons_self, h1, hz⟩
    · by_cases hbq : b < q
      · obtain ⟨ab, i1, i2⟩ := ih h4 hbq hz
        exact ⟨ab, List.mem_cons_of_mem _ i1, i2⟩
      · exact ⟨_, List.mem_cons_self, h1, h2.trans (not_lt.1 hbq)⟩

theorem Final.piece (_ : Final lineOf input X res) {c : C} {a b : Pt K} (hm : (c, a, b) ∈ X.D.flatMap Grp.tri) :
    ∃ g ∈ X.D, c ∈ g.cs ∧ g.p = a ∧ g.q = b := by
  obtain ⟨g, hg, hm⟩ := List.mem_flatMap.1 hm
  obtain ⟨c', hc', he⟩ := List.mem_map.1 hm
  simp only [Prod.mk.injEq] at he
  obtain ⟨rfl, rfl, rfl⟩ := he
  exact ⟨g, hg, hc', rfl, rfl⟩

theorem Final.cover (h : Final lineOf input X res) {c : C} (hc : c ∈ input) (hl : (lineOf c).start ≠ (lineOf c).stop) {z : Pt K}
    (hz : OnLine (lineOf c) z) : ∃ g ∈ X.D, c ∈ g.cs ∧ OnSeg g.p g.q z := by
  have hlt : lo (lineOf c) < hi (lineOf c) := by
    rcases ofLine_cases (lineOf c) with ⟨e, -⟩ | ⟨e, -⟩
    · exact absurd e hl
    · exact e
  obtain ⟨tl, t1, t2, t3⟩ := h.tiled
  have hcl : c ∈ linesOf lineOf input := List.mem_filter.2 ⟨hc, by simpa using hl⟩
  rw [← t1] at hcl
  obtain ⟨e, he, rfl⟩ := List.mem_map.1 hcl
  have hz' := (onLine_iff _ _).1 hz
  have hz2 := (onSeg_iff hlt).1 hz'
  obtain ⟨ab, m1, m2, m3⟩ := consecutive_cover (t2 e he) hlt hz2.2.1 hz2.2.2
  obtain ⟨g, g1, g2, g3, g4⟩ := h.piece (t3.mem_iff.2 (List.mem_flatMap.2 ⟨e, he, List.mem_map.2 ⟨ab, m1, rfl⟩⟩))
  refine ⟨g, g1, g2, ?_⟩
  have hok := h.ok g g1
  have s := hok.sub e.1 g2
  rw [onSeg_iff hok.line.2]
  have p := (onSeg_iff hlt).1 ((onLine_iff _ _).1 s.p)
  have q := (onSeg_iff hlt).1 ((onLine_iff _ _).1 s.q)
  rw [g3] at p ⊢; rw [g4] at q ⊢
  have hd := det_symm hlt.ne p.1 q.1
  exact ⟨det_trans hlt.ne hd.1 hd.2 hz2.1, m2, m3⟩

/-- A point on an input that lies within none of its pieces is reported with it. -/
theorem Final.report (h : Final lineOf input X res) {c : C} (hc : c ∈ input) {z : Pt K} (hz : OnLine (lineOf c) z)
    (hin : ∀ g ∈ X.D, c ∈ g.cs → ¬ Inside g.p g.q z) : ∃ s ty, (z, s, ty) ∈ X.log ∧ s.crossable = c := by
  by_cases hl : (lineOf c).start = (lineOf c).stop
  · rw [OnLine, ← hl, onSeg_self] at hz
    obtain ⟨s, h1, h2⟩ := h.pts c hc hl
    exact ⟨s, _, hz ▸ h1, h2⟩
  · obtain ⟨g, g1, g2, g3⟩ := h.cover hc hl hz
    have hok := h.ok g g1
    have g4 := (onSeg_iff hok.line.2).1 g3
    rcases g4.2.1.eq_or_lt with e | e
    · obtain ⟨s, h1, h2⟩ := h.left_mem g1 g2
      exact ⟨s, _, e ▸ h1, h2⟩
    · rcases g4.2.2.eq_or_lt with e' | e'
      · obtain ⟨s, h1, h2⟩ := h.right_mem g1 g2
        exact ⟨s, _, e' ▸ h1, h2⟩
      · exact absurd ⟨e, e', g4.1⟩ (hin g g1 g2)

theorem Final.report_batch (h : Final lineOf input X res) {z : Pt K} {s : Seg K C} {ty : EventType} (hs : (z, s, ty) ∈ X.log) :
    ∃ b, (z, b) ∈ res ∧ ∃ x ∈ b, x.crossable = s.crossable := by
  obtain ⟨b, h1, h2⟩ := h.mem hs
  exact ⟨b, h1, _, h2, rfl⟩

/-- A point is yielded with one batch only. -/
theorem Final.batch_unique (h : Final lineOf input X res) {z : Pt K} {b b' : List (Crossing K C)} (h1 : (z, b) ∈ res)
    (h2 : (z, b') ∈ res) : b = b' := by
  have hs := h.sorted
  clear h
  induction res with
  | nil => cases h1
  | cons e l ih =>
    rw [List.map_cons, List.pairwise_cons] at hs
    rcases List.mem_cons.1 h1 with rfl | h1 <;> rcases List.mem_cons.1 h2 with h2 | h2
    · cases h2; rfl
    · exact absurd (hs.1 _ (List.mem_map_of_mem h2)) (lt_irrefl _)
    · rw [← h2] at hs
      exact absurd (hs.1 _ (List.mem_map_of_mem h1)) (lt_irrefl _)
    · exact ih h1 h2 hs.2

/-! ## The properties -/

/-- **C26.** On every input the iteration reaches `None` after finitely many events and steps, with no panic: from some number of
steps on, the bounded run is defined and no longer depends on the bound. -/
theorem C26_terminates (lineOf : C → Line K) (nextAfter : K → K) (choice : Nat → Nat) (input : List C) :
    ∃ N res, ∀ fuel, N ≤ fuel → crossingsOf lineOf nextAfter choice fuel input = some res := by
  obtain ⟨N, res, X, h, -⟩ := run_final lineOf nextAfter choice input
  exact ⟨N, res, h⟩

/-- **C19.** The yielded points are strictly increasing. -/
theorem C19_increasing (h : crossingsOf lineOf nextAfter choice fuel input = some res) : (res.map (·.1)).Pairwise (· < ·) := by
  obtain ⟨X, hX⟩ := final_of_run h
  exact hX.sorted

/-- **C20.** Each `Crossing` of a yielded point belongs to an input; if its line is a point it is the yielded point and the input;
otherwise both its ends lie on the input, it starts at the yielded point if `at_left`, and ends there if not. -/
theorem C20_touches (h : crossingsOf lineOf nextAfter choice fuel input = some res) {p : Pt K} {b : List (Crossing K C)}
    (hb : (p, b) ∈ res) {x : Crossing K C} (hx : x ∈ b) :
    x.crossable ∈ input ∧
    ((x.line = .point p ∧ x.atLeft = false ∧ (lineOf x.crossable).start = p ∧ (lineOf x.crossable).stop = p) ∨
     ∃ s t, x.line = .line s t ∧ s < t ∧ OnLine (lineOf x.crossable) s ∧ OnLine (lineOf x.crossable) t ∧
       (if x.atLeft then s = p else t = p)) := by
  obtain ⟨X, hX⟩ := final_of_run h
  obtain ⟨s, ty, h1, rfl⟩ := hX.of_mem hb hx
  have hr := hX.sound _ h1
  refine ⟨hr.mem, ?_⟩
  rcases hr.geom with ⟨h2, q, h3, h4, h5⟩ | ⟨h2, q, h3, h4, h5⟩ | ⟨h2, h3, h4⟩
  · right
    exact ⟨p, q, h3, h4, h5.p, h5.q, by simp only at h2; subst h2; simp [Crossing.ofSeg]⟩
  · right
    exact ⟨q, p, h3, h4, h5.p, h5.q, by simp only at h2; subst h2; simp [Crossing.ofSeg]⟩
  · left
    exact ⟨h3, by simp only at h2; subst h2; simp [Crossing.ofSeg], h4⟩

/-- **C23.** Every yielded point is an end of an input or the only common point of two inputs. -/
theorem C23_critical (h : crossingsOf lineOf nextAfter choice fuel input = some res) {p : Pt K} {b : List (Crossing K C)}
    (hb : (p, b) ∈ res) : Critical (input.map lineOf) p := by
  obtain ⟨X, hX⟩ := final_of_run h
  obtain ⟨s, ty, h1⟩ := hX.yield hb
  exact (hX.sound _ h1).crit

/-- **C21.** Both ends of every input (for a point: the point) are yielded, with a `Crossing` of that input in the batch. -/
theorem C21_endpoints (h : crossingsOf lineOf nextAfter choice fuel input = some res) {c : C} (hc : c ∈ input) {z : Pt K}
    (hz : z = (lineOf c).start ∨ z = (lineOf c).stop) : ∃ b, (z, b) ∈ res ∧ ∃ x ∈ b, x.crossable = c := by
  obtain ⟨X, hX⟩ := final_of_run h
  have hon : OnLine (lineOf c) z := by
    rcases hz with rfl | rfl
    · exact onSeg_left _ _
    · exact onSeg_right _ _
  obtain ⟨s, ty, h1, rfl⟩ := hX.report hc hon (by
    intro g hg hcg hin
    have s := (hX.ok g hg).sub c hcg
    have p := (onSeg_iff s.line).1 ((onLine_iff _ _).1 s.p)
    have q := (onSeg_iff s.line).1 ((onLine_iff _ _).1 s.q)
    have h1 := lt_of_le_of_lt p.2.1 hin.1
    have h2 := lt_of_lt_of_le hin.2.1 q.2.2
    rcases hz with rfl | rfl
    · rcases lt_or_ge (lineOf c).start (lineOf c).stop with e | e
      · rw [lo, min_eq_left e.le] at h1; exact lt_irrefl _ h1
      · rw [hi, max_eq_left e] at h2; exact lt_irrefl _ h2
    · rcases lt_or_ge (lineOf c).start (lineOf c).stop with e | e
      · rw [hi, max_eq_right e.le] at h2; exact lt_irrefl _ h2
      · rw [lo, min_eq_right e] at h1; exact lt_irrefl _ h1)
  exact hX.report_batch h1

theorem Final.common (hX : Final lineOf input X res) {c1 c2 : C} (h2 : c2 ∈ input) {z : Pt K}
    (hz2 : OnLine (lineOf c2) z)
    (hz : ∀ a b, a < z → z < b → ¬ (OnLine (lineOf c1) a ∧ OnLine (lineOf c2) a ∧ OnLine (lineOf c1) b ∧ OnLine (lineOf c2) b)) :
    ∀ g ∈ X.D, c1 ∈ g.cs → ¬ Inside g.p g.q z := by
  intro g hg hcg hin
  by_cases hl : (lineOf c2).start = (lineOf c2).stop
  · have hzz := hz2
    rw [OnLine, ← hl, onSeg_self] at hzz
    obtain ⟨s, k1, k2⟩ := hX.pts c2 h2 hl
    rw [← hzz] at k1
    exact hX.free _ k1 g hg hin
  · obtain ⟨g', g1, g2, g3⟩ := hX.cover h2 hl hz2
    by_cases he : g' = g
    · subst he
      have s1 := (hX.ok g' g1).sub c1 hcg
      have s2 := (hX.ok g' g1).sub c2 g2
      exact hz _ _ hin.1 hin.2.1 ⟨s1.p, s2.p, s1.q, s2.q⟩
    · have hm : ∀ x ∈ X.D, ∀ y ∈ X.D, x ≠ y → Meet x y := by
        intro x hx y hy hne
        have : Std.Symm (Meet (K := K) (C := C)) := ⟨fun _ _ h z h1 h2 => (h z h2 h1).symm⟩
        exact hX.meet.forall hx hy hne
      exact (hm g hg g' g1 (Ne.symm he) z hin.onSeg g3).1 hin

/-- **C22.** The only common point of two inputs, and both ends of an overlap of two inputs, are yielded with both inputs. -/
theorem C22_intersections (h : crossingsOf lineOf nextAfter choice fuel input = some res) {c1 c2 : C} (h1 : c1 ∈ input) (h2 : c2 ∈ input)
    {z : Pt K}
    (hz : MeetAt (lineOf c1) (lineOf c2) z ∨ ∃ s t, OverlapOn (lineOf c1) (lineOf c2) s t ∧ (z = s ∨ z = t)) :
    ∃ b, (z, b) ∈ res ∧ (∃ x ∈ b, x.crossable = c1) ∧ ∃ x ∈ b, x.crossable = c2 := by
  obtain ⟨X, hX⟩ := final_of_run h
  have hon : OnLine (lineOf c1) z ∧ OnLine (lineOf c2) z := by
    rcases hz with hz | ⟨s, t, ⟨hst, hz⟩, rfl | rfl⟩
    · exact (hz z).2 rfl
    · exact (hz _).2 (onSeg_left _ _)
    · exact (hz _).2 (onSeg_right _ _)
  have hno : ∀ a b, a < z → z < b → ¬ (OnLine (lineOf c1) a ∧ OnLine (lineOf c2) a ∧ OnLine (lineOf c1) b ∧ OnLine (lineOf c2) b) := by
    rintro a b ha hb ⟨a1, a2, b1, b2⟩
    rcases hz with hz | ⟨s, t, ⟨hst, hz⟩, rfl | rfl⟩
    · exact ha.ne ((hz a).1 ⟨a1, a2⟩)
    · exact absurd ((onSeg_iff hst).1 ((hz a).1 ⟨a1, a2⟩)).2.1 (not_le.2 ha)
    · exact absurd ((onSeg_iff hst).1 ((hz b).1 ⟨b1, b2⟩)).2.2 (not_le.2 hb)
  obtain ⟨s1, t1, k1, rfl⟩ := hX.report h1 hon.1 (hX.common h2 hon.2 hno)
  obtain ⟨s2, t2, k2, rfl⟩ := hX.report h2 hon.2 (hX.common h1 hon.1 fun a b ha hb hh =>
    hno a b ha hb ⟨hh.2.1, hh.1, hh.2.2.2, hh.2.2.1⟩)
  obtain ⟨b, m1, x, m2, m3⟩ := hX.report_batch k1
  obtain ⟨b', m1', x', m2', m3'⟩ := hX.report_batch k2
  obtain rfl := hX.batch_unique m1 m1'
  exact ⟨b, m1, ⟨x, m2, m3⟩, x', m2', m3'⟩

theorem Final.piece_of_right (hX : Final lineOf input X res) {p : Pt K} {b : List (Crossing K C)} (hb : (p, b) ∈ res) {x : Crossing K C}
    (hx : x ∈ b) (hl : x.atLeft = false) {s t : Pt K} (hg : x.line = .line s t) :
    ∃ g ∈ X.D, x.crossable ∈ g.cs ∧ g.p = s ∧ g.q = t ∧ t = p := by
  obtain ⟨sg, ty, h1, rfl⟩ := hX.of_mem hb hx
  have hr := hX.sound _ h1
  rcases hr.geom with ⟨h2, -⟩ | ⟨h2, q, h3, h4, h5⟩ | ⟨h2, h3, h4⟩
  · simp only at h2; subst h2; simp [Crossing.ofSeg] at hl
  · simp only at h2; subst h2
    have : (sg.crossable, sg.geom, p) ∈ (X.D.flatMap fun g => g.cs.map fun c => (c, g.geom, g.q)) := by
      rw [← hX.right]
      exact List.mem_map.2 ⟨_, List.mem_filter.2 ⟨h1, by simp⟩, rfl⟩
    obtain ⟨g, hgD, hm⟩ := List.mem_flatMap.1 this
    obtain ⟨c, hc, he⟩ := List.mem_map.1 hm
    simp only [Prod.mk.injEq] at he
    obtain ⟨rfl, he, hp⟩ := he
    have hg' : sg.geom = .line s t := hg
    have e1 : g.p = s := by rw [Grp.p, he, hg']; rfl
    have e2 : g.q = t := by rw [Grp.q, he, hg']; rfl
    exact ⟨g, hgD, hc, e1, e2, by rw [← e2, hp]⟩
  · rw [show sg.geom = .line s t from hg] at h3; cases h3

/-- **C24.** No yielded point lies strictly within the line of a `Crossing` that is reported as ended. -/
theorem C24_no_interior (h : crossingsOf lineOf nextAfter choice fuel input = some res) {p : Pt K} {b : List (Crossing K C)}
    (hb : (p, b) ∈ res) {x : Crossing K C} (hx : x ∈ b) (hl : x.atLeft = false) {s t : Pt K} (hg : x.line = .line s t)
    {p' : Pt K} {b' : List (Crossing K C)} (hb' : (p', b') ∈ res) : ¬ Between s t p' := by
  obtain ⟨X, hX⟩ := final_of_run h
  obtain ⟨g, h1, -, rfl, rfl, -⟩ := hX.piece_of_right hb hx hl hg
  obtain ⟨s', ty', h2⟩ := hX.yield hb'
  rintro ⟨h3, h4, h5⟩
  have h6 := (onSeg_iff (hX.ok g h1).line.2).1 h3
  exact hX.free _ h2 g h1 ⟨lt_of_le_of_ne h6.2.1 (Ne.symm h4), lt_of_le_of_ne h6.2.2 h5, h6.1⟩

/-! ### C25 -/

/-- The pieces reported as ended, in the order of the reports, with their inputs. -/
def endedPieces (res : List (Pt K × List (Crossing K C))) : List (C × Pt K × Pt K) :=
  (res.flatMap (·.2)).filterMap fun x =>
    match x.atLeft, x.line with
    | false, .line a b => some (x.crossable, a, b)
    | _, _ => none

/-- The pieces of one input. -/
def endedOf [DecidableEq C] (res : List (Pt K × List (Crossing K C))) (c : C) : List (Pt K × Pt K) :=
  ((endedPieces res).filter fun e => e.1 = c).map (·.2)

theorem Final.ended_aux (hX : Final lineOf input X res) : endedPieces res =
    ((X.log.filter fun e => e.2.2 = .lineRight).map fun e => (e.2.1.crossable, e.2.1.geom.first, e.1)) := by
  have h1 : res.flatMap (·.2) = (flog X.log).map (·.2) := by
    rw [← hX.flat]
    unfold GeoCrossings.flat
    rw [List.map_flatMap]
    simp [Function.comp_def]
  unfold endedPieces
  rw [h1]
  have hs := hX.sound
  generalize X.log = log at hs ⊢
  unfold flog
  clear h1 hX
  induction log with
  | nil => rfl
  | cons e l ih =>
    have ih := ih fun e he => hs e (List.mem_cons_of_mem _ he)
    rw [List.map_cons, List.map_cons, List.filterMap_cons, List.filter_cons]
    have hr := hs e (by simp)
    obtain ⟨p, s, ty⟩ := e
    rcases hr.geom with ⟨h2, q, h3, h4, h5⟩ | ⟨h2, q, h3, h4, h5⟩ | ⟨h2, h3, h4⟩
    · simp only at h2 h3; subst h2
      simpa [Crossing.ofSeg] using ih
    · simp only at h2 h3; subst h2
      rw [if_pos (by simp), List.map_cons, ← ih]
      simp [Crossing.ofSeg, h3, LineOrPoint.first, show (EventType.lineRight == EventType.lineLeft) = false from rfl]
    · simp only at h2 h3; subst h2
      rw [if_neg (by simp), ← ih]
      simp [Crossing.ofSeg, h3, show (EventType.pointLeft == EventType.lineLeft) = false from rfl]

theorem Final.ended (hX : Final lineOf input X res) : endedPieces res = X.D.flatMap Grp.tri := by
  rw [hX.ended_aux]
  have h := congrArg (List.map fun e : C × LineOrPoint K × Pt K => (e.1, e.2.1.first, e.2.2)) hX.right
  rw [List.map_map, List.map_flatMap] at h
  refine Eq.trans ?_ (h.trans ?_)
  · rfl
  · congr 1
    funext g
    rw [List.map_map]
    rfl

theorem consecutive_sorted {p q : Pt K} {l : List (Pt K × Pt K)} (h : Consecutive p q l) :
    (∀ ab ∈ l, p < ab.2) ∧ l.Pairwise fun x y => x.2 < y.2 := by
  induction l generalizing p with
  | nil => simp
  | cons x l ih =>
    obtain ⟨a, b⟩ := x
    obtain ⟨rfl, h1, h2⟩ := h
    obtain ⟨i1, i2⟩ := ih h2
    refine ⟨?_, List.pairwise_cons.2 ⟨i1, i2⟩⟩
    intro ab hab
    rcases List.mem_cons.1 hab with rfl | hab
    · exact h1
    · exact h1.trans (i1 ab hab)

/-- **C25, any inputs.** The pieces reported as ended are exactly those of one subdivision of every input line (as often as the line
occurs in the input) into consecutive pieces lying on it. -/
theorem C25_tiling_all (h : crossingsOf lineOf nextAfter choice fuel input = some res) :
    ∃ tl : List (C × List (Pt K × Pt K)),
      tl.map (·.1) = input.filter (fun c => (lineOf c).start ≠ (lineOf c).stop) ∧
      (∀ e ∈ tl, Tiling (lo (lineOf e.1)) (hi (lineOf e.1)) e.2) ∧
      (endedPieces res).Perm (tl.flatMap fun e => e.2.map fun ab => (e.1, ab)) := by
  obtain ⟨X, hX⟩ := final_of_run h
  obtain ⟨tl, h1, h2, h3⟩ := hX.tiled
  refine ⟨tl, h1, fun e he => ⟨h2 e he, ?_⟩, by rw [hX.ended]; exact h3⟩
  intro ab hab
  obtain ⟨g, g1, g2, g3, g4⟩ := hX.piece (h3.mem_iff.2 (List.mem_flatMap.2 ⟨e, he, List.mem_map.2 ⟨ab, hab, rfl⟩⟩))
  have s := (hX.ok g g1).sub _ g2
  have p := (onLine_iff _ _).1 s.p
  have q := (onLine_iff _ _).1 s.q
  rw [g3] at p; rw [g4] at q
  exact ⟨p, q⟩

theorem Final.ended_sorted (hX : Final lineOf input X res) : (endedPieces res).Pairwise fun x y => x.2.2 ≤ y.2.2 := by
  rw [hX.ended_aux, List.pairwise_map]
  exact (hX.order.imp fun h => h.1).filter _

/-- **C25.** If the inputs are pairwise different, the pieces of each input line reported as ended are, in the order in which they
are reported, consecutive and cover exactly the line. -/
theorem C25_tiling [DecidableEq C] (h : crossingsOf lineOf nextAfter choice fuel input = some res) (hnd : input.Nodup) {c : C}
    (hc : c ∈ input) (hl : (lineOf c).start ≠ (lineOf c).stop) :
    Tiling (lo (lineOf c)) (hi (lineOf c)) (endedOf res c) := by
  obtain ⟨tl, h1, h2, h3⟩ := C25_tiling_all h
  obtain ⟨X, hX⟩ := final_of_run h
  have hcl : c ∈ input.filter (fun c => (lineOf c).start ≠ (lineOf c).stop) := List.mem_filter.2 ⟨hc, by simpa using hl⟩
  rw [← h1] at hcl
  obtain ⟨e, he, rfl⟩ := List.mem_map.1 hcl
  have hnt : (tl.map (·.1)).Nodup := by rw [h1]; exact hnd.filter _
  have key : ((tl.flatMap fun e => e.2.map fun ab => (e.1, ab)).filter fun x => x.1 = e.1) = e.2.map fun ab => (e.1, ab) := by
    clear h1 h2 h3 hcl
    induction tl with
    | nil => cases he
    | cons x l ih =>
      rw [List.map_cons, List.nodup_cons] at hnt
      rw [List.flatMap_cons, List.filter_append]
      have hskip : ∀ y ∈ l, y.1 ≠ x.1 := fun y hy e => hnt.1 (e ▸ List.mem_map_of_mem hy)
      rcases List.mem_cons.1 he with rfl | he
      · have e1 : (e.2.map fun ab => (e.1, ab)).filter (fun x => x.1 = e.1) = e.2.map fun ab => (e.1, ab) := by
          rw [List.filter_eq_self]; intro y hy; obtain ⟨_, _, rfl⟩ := List.mem_map.1 hy; simp
        have e2 : (l.flatMap fun e => e.2.map fun ab => (e.1, ab)).filter (fun x => x.1 = e.1) = [] := by
          rw [List.filter_eq_nil_iff]
          intro y hy
          obtain ⟨z, hz, hy⟩ := List.mem_flatMap.1 hy
          obtain ⟨_, _, rfl⟩ := List.mem_map.1 hy
          simpa using hskip z hz
        rw [e1, e2, List.append_nil]
      · have e1 : (x.2.map fun ab => (x.1, ab)).filter (fun x => x.1 = e.1) = [] := by
          rw [List.filter_eq_nil_iff]; intro y hy; obtain ⟨_, _, rfl⟩ := List.mem_map.1 hy; simpa using (hskip e he).symm
        rw [e1, List.nil_append, ih he hnt.2]
  have hp : (endedOf res e.1).Perm e.2 := by
    have := (h3.filter fun x => x.1 = e.1).map (·.2)
    rw [key, List.map_map] at this
    simpa [endedOf, Function.comp_def] using this
  have hs1 : (endedOf res e.1).Pairwise fun x y => x.2 ≤ y.2 := by
    unfold endedOf
    rw [List.pairwise_map]
    exact hX.ended_sorted.filter _
  have hs2 := (consecutive_sorted (h2 e he).1).2
  have heq : endedOf res e.1 = e.2 := by
    refine hp.eq_of_pairwise ?_ hs1 (hs2.imp fun h => h.le)
    intro a b ha hb h1 h2
    have ha' := hp.mem_iff.1 ha
    by_contra hne
    have hall : ∀ x ∈ e.2, ∀ y ∈ e.2, x ≠ y → x.2 ≠ y.2 := by
      intro x hx y hy hxy
      have hpw : e.2.Pairwise fun x y => x.2 ≠ y.2 := hs2.imp fun h => h.ne
      have : Std.Symm fun x y : Pt K × Pt K => x.2 ≠ y.2 := ⟨fun _ _ h => h.symm⟩
      exact hpw.forall hx hy hxy
    exact hall a ha' b hb hne (_root_.le_antisymm h1 h2)
  rw [heq]; exact h2 e he

/-! ### C31 -/

/-- The states of the sweep between two events. -/
inductive Reachable (lineOf : C → Line K) (nextAfter : K → K) (choice : Nat → Nat) (input : List C) : Sweep K C → Prop
  | new {st} : Sweep.new lineOf input = some st → Reachable lineOf nextAfter choice input st
  | event {st st' out p} : Reachable lineOf nextAfter choice input st → st.nextEvent lineOf nextAfter choice = some (some (st', out, p)) →
    Reachable lineOf nextAfter choice input st'

/-- `k :: ks` are linked in this order by `overlapping`, ending without a link; the first is not marked as a child, the others are;
all have the geometry `geom`. -/
def ChainFrom (slab : Slab (Seg K C)) (geom : LineOrPoint K) : Bool → Nat → List Nat → Prop
  | child, k, [] => ∃ s, slab.get k = some s ∧ s.geom = geom ∧ s.overlapping = none ∧ s.isOverlapping = child
  | child, k, k' :: ks => (∃ s, slab.get k = some s ∧ s.geom = geom ∧ s.overlapping = some k' ∧ s.isOverlapping = child) ∧
    ChainFrom slab geom true k' ks

theorem reachable_full {st : Sweep K C} (h : Reachable lineOf nextAfter choice input st) : ∃ pos X,
    Full (fun c => (LineOrPoint.ofLine (lineOf c)).first) lineOf input pos st X := by
  obtain ⟨cl, hcl⟩ := critical_finite (input.map lineOf)
  induction h with
  | new h =>
    obtain ⟨pos, st, X, h1, h2, -⟩ := full_init (org := fun c => (LineOrPoint.ofLine (lineOf c)).first) lineOf input (fun _ _ => rfl)
    rw [h] at h1; cases h1
    exact ⟨pos, X, h2⟩
  | event _ h ih =>
    obtain ⟨pos, X, hF⟩ := ih
    rcases step lineOf nextAfter choice hF.inv with ⟨-, -, h3⟩ | ⟨e, E', st', out, X', h1, h2, h3, h4, hs⟩
    · rw [h] at h3; cases h3
    · have := hs.code
      rw [h] at this
      cases this
      exact ⟨_, X', (hF.step hcl h1 h4 hs).1⟩

theorem Linked.chainFrom {slab : Slab (Seg K C)} {geom : LineOrPoint K} {b : Bool} {k : Nat} {c : C} {l : List (Nat × C)}
    {org : C → Pt K} (h : Linked org slab geom b ((k, c) :: l)) : ChainFrom slab geom (!b) k (l.map (·.1)) := by
  induction l generalizing b k c with
  | nil =>
    obtain ⟨⟨s, h1, h2, h3, h4, h5, h6⟩, -⟩ := h
    exact ⟨s, h1, h4, h6.1, h5⟩
  | cons x l ih =>
    obtain ⟨⟨s, h1, h2, h3, h4, h5, h6⟩, h7⟩ := h
    exact ⟨⟨s, h1, h4, h6.1, h5⟩, ih h7⟩

theorem outOf.keys {slab : Slab (Seg K C)} {ty : EventType} {geom : LineOrPoint K} {b : Bool} {l : List (Nat × C)} {out : Out K C}
    {org : C → Pt K} (hl : Linked org slab geom b l) (h : Sweep.outOf slab ty l out) : out.map (fun o => o.1.key) = l.map (·.1) := by
  obtain ⟨h, -⟩ := h
  induction l generalizing b out with
  | nil => rw [List.map_nil, List.map_eq_nil_iff] at h; rw [h]; rfl
  | cons x l ih =>
    obtain ⟨k, c⟩ := x
    obtain ⟨⟨s, e1, e2, -⟩, e3⟩ := hl
    cases out with
    | nil => simp at h
    | cons o out =>
      simp only [List.map_cons, List.cons.injEq, e1, Option.some.injEq] at h ⊢
      refine ⟨by rw [h.1, e2], ih e3 h.2⟩

/-- **C31.** In every reachable state the stored segments fall into disjoint finite chains. The members of a chain have the same
geometry and are linked from its root to its end. The reporting loops, started at a root, report every member exactly once: there is
one report per key of the chain, in that order. -/
theorem C31_chains {st : Sweep K C} (h : Reachable lineOf nextAfter choice input st) : ∃ chains : List (Nat × List Nat),
    (chains.flatMap fun ch => ch.1 :: ch.2).Nodup ∧
    (∀ k, st.segments.get k ≠ none ↔ k ∈ chains.flatMap fun ch => ch.1 :: ch.2) ∧
    (∀ ch ∈ chains, ∃ geom, ChainFrom st.segments geom false ch.1 ch.2) ∧
    (∀ ch ∈ chains, ∃ slab out, Sweep.emitLeft (st.segments.size + 1) st.segments (some ch.1) = some (slab, out) ∧
      out.map (fun o => o.1.key) = ch.1 :: ch.2) ∧
    (∀ ch ∈ chains, ∃ slab out, Sweep.emitRight (st.segments.size + 1) st.segments (some ch.1) = some (slab, out) ∧
      out.map (fun o => o.1.key) = ch.1 :: ch.2) := by
  obtain ⟨pos, X, hF⟩ := reachable_full h
  have hrep := hF.inv.conc.rep
  generalize X.live = gs at hrep
  have hk : ∀ g ∈ gs, g.root :: g.keys.tail = g.keys := by
    intro g hg
    obtain ⟨c, l, hm⟩ := Grp.exists_cons (hrep.grp g hg).ne
    have : g.keys = g.root :: l.map (·.1) := by rw [Grp.keys, hm]; rfl
    rw [this]; rfl
  have hfl : ((gs.map fun g => (g.root, g.keys.tail)).flatMap fun ch => ch.1 :: ch.2) = gs.flatMap Grp.keys := by
    rw [List.flatMap_map]
    clear hF h hrep
    induction gs with
    | nil => rfl
    | cons g gs ih =>
      rw [List.flatMap_cons, List.flatMap_cons, ih fun g hg => hk g (List.mem_cons_of_mem _ hg), hk g (by simp)]
  refine ⟨gs.map fun g => (g.root, g.keys.tail), ?_, ?_, ?_, ?_, ?_⟩
  · rw [hfl]; exact hrep.nodup
  · rw [hfl]
    intro k
    refine ⟨hrep.cover k, ?_⟩
    intro hm
    obtain ⟨g, hg, hkm⟩ := List.mem_flatMap.1 hm
    exact (hrep.grp g hg).linked.get_isSome hkm
  · intro ch hch
    obtain ⟨g, hg, rfl⟩ := List.mem_map.1 hch
    obtain ⟨c, l, hm⟩ := Grp.exists_cons (hrep.grp g hg).ne
    have hL := (hrep.grp g hg).linked
    rw [hm] at hL
    refine ⟨g.geom, ?_⟩
    have : g.keys.tail = l.map (·.1) := by rw [Grp.keys, hm]; rfl
    rw [this]
    exact hL.chainFrom
  · intro ch hch
    obtain ⟨g, hg, rfl⟩ := List.mem_map.1 hch
    obtain ⟨l1, l2, hl⟩ := List.append_of_mem hg
    have hrep' := hrep.perm (gs' := g :: (l1 ++ l2)) (by rw [hl]; exact List.perm_middle)
    obtain ⟨slab, out, h1, h2, h3⟩ := Sweep.emitLeft_root hrep'
    refine ⟨slab, out, h1, ?_⟩
    rw [hk g hg]
    exact outOf.keys (hrep.grp g hg).linked h3
  · intro ch hch
    obtain ⟨g, hg, rfl⟩ := List.mem_map.1 hch
    obtain ⟨l1, l2, hl⟩ := List.append_of_mem hg
    have hrep' := hrep.perm (gs' := g :: (l1 ++ l2)) (by rw [hl]; exact List.perm_middle)
    obtain ⟨slab, out, h1, h2, h3⟩ := Sweep.emitRight_root hrep'
    refine ⟨slab, out, h1, ?_⟩
    rw [hk g hg]
    exact outOf.keys (hrep.grp g hg).linked h3

/-! ## Concrete runs -/

/-- Two crossing lines, a third one overlapping the first, and a point on the second. -/
abbrev demoInput : List (Line ℚ) :=
  [⟨⟨0, 0⟩, ⟨4, 4⟩⟩, ⟨⟨0, 4⟩, ⟨4, 0⟩⟩, ⟨⟨1, 1⟩, ⟨3, 3⟩⟩, ⟨⟨1, 3⟩, ⟨1, 3⟩⟩]

/-- The run on `demoInput` ends; its points, and the pieces of the first line. (The hypotheses of C19–C25 are met.) -/
theorem demo_run : (crossingsOf id id (fun _ => 0) 60 demoInput).map (fun res => (res.map (·.1), endedOf res ⟨⟨0, 0⟩, ⟨4, 4⟩⟩)) =
    some ([⟨0, 0⟩, ⟨0, 4⟩, ⟨1, 1⟩, ⟨1, 3⟩, ⟨2, 2⟩, ⟨3, 3⟩, ⟨4, 0⟩, ⟨4, 4⟩],
      [(⟨0, 0⟩, ⟨1, 1⟩), (⟨1, 1⟩, ⟨2, 2⟩), (⟨2, 2⟩, ⟨3, 3⟩), (⟨3, 3⟩, ⟨4, 4⟩)]) := by
  decide +kernel

/-- The first line meets the second in one point and overlaps the third. (The hypotheses of C22 are met.) -/
theorem demo_meet : MeetAt (⟨⟨0, 0⟩, ⟨4, 4⟩⟩ : Line ℚ) ⟨⟨0, 4⟩, ⟨4, 0⟩⟩ ⟨2, 2⟩ ∧
    OverlapOn (⟨⟨0, 0⟩, ⟨4, 4⟩⟩ : Line ℚ) ⟨⟨1, 1⟩, ⟨3, 3⟩⟩ ⟨1, 1⟩ ⟨3, 3⟩ := by
  have lt1 : (⟨0, 0⟩ : Pt ℚ) < ⟨4, 4⟩ := by decide +kernel
  have lt2 : (⟨0, 4⟩ : Pt ℚ) < ⟨4, 0⟩ := by decide +kernel
  have lt3 : (⟨1, 1⟩ : Pt ℚ) < ⟨3, 3⟩ := by decide +kernel
  refine ⟨?_, lt3, ?_⟩
  · intro x
    unfold OnLine
    simp only
    constructor
    · rintro ⟨⟨t, t0, t1, hx, hy⟩, ⟨u, u0, u1, hx', hy'⟩⟩
      obtain ⟨a, b⟩ := x
      simp only at hx hy hx' hy'
      simp only [Pt.mk.injEq]
      constructor <;> linarith
    · rintro rfl
      exact ⟨⟨1 / 2, by norm_num, by norm_num, by norm_num, by norm_num⟩, ⟨1 / 2, by norm_num, by norm_num, by norm_num, by norm_num⟩⟩
  · intro x
    unfold OnLine
    simp only
    constructor
    · exact fun h => h.2
    · rintro ⟨t, t0, t1, hx, hy⟩
      refine ⟨⟨(1 + 2 * t) / 4, by linarith, by linarith, ?_, ?_⟩, ⟨t, t0, t1, hx, hy⟩⟩ <;> simp only at hx hy ⊢ <;> linarith

/-- A state in the middle of the run, where the first and the third line are linked. (The hypothesis of C31 is met.) -/
theorem demo_state : ((do
    let st ← Sweep.new id demoInput
    let s ← (List.range 6).foldlM (fun st _ => do let o ← Sweep.nextEvent id id (fun _ => 0) st; (o.map (·.1))) st
    pure ((List.range 8).map fun k => (s.segments.get k).map fun e => (e.overlapping, e.isOverlapping))) :
      Option (List (Option (Option Nat × Bool)))) =
    some [some (none, false), none, some (none, true), some (none, false), some (none, false), some (none, false),
      some (some 2, false), some (none, false)] := by
  decide +kernel

end GeoCrossings

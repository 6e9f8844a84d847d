import Verif.Props.Sweep
import Mathlib.Data.List.Perm.Basic
import Mathlib.Data.List.Sort

/-! # C78: the result of `CrossingsIter` does not depend on the order of equal events, nor on the order of the inputs -/
set_option linter.unusedSectionVars false
namespace GeoCrossings
open Spec

variable {K C : Type} [Field K] [LinearOrder K] [IsStrictOrderedRing K]
variable {lineOf : C → Line K}

section
variable {nextAfter : K → K} {choice : Nat → Nat} {fuel : Nat} {input : List C}
variable {res : List (Pt K × List (Crossing K C))} {X : Abs K C}

/-- The yielded points are the ends of the inputs and the points where two inputs meet. -/
theorem yield_iff (h : crossingsOf lineOf nextAfter choice fuel input = some res) (p : Pt K) :
    p ∈ res.map (·.1) ↔ Critical (input.map lineOf) p := by
  constructor
  · intro hp
    obtain ⟨e, he, rfl⟩ := List.mem_map.1 hp
    exact C23_critical h he
  · rintro (⟨l, hl, hp⟩ | ⟨l1, h1, l2, h2, hm⟩)
    · obtain ⟨c, hc, rfl⟩ := List.mem_map.1 hl
      obtain ⟨b, hb, -⟩ := C21_endpoints h hc hp
      exact List.mem_map.2 ⟨_, hb, rfl⟩
    · obtain ⟨c1, hc1, rfl⟩ := List.mem_map.1 h1
      obtain ⟨c2, hc2, rfl⟩ := List.mem_map.1 h2
      obtain ⟨b, hb, -⟩ := C22_intersections h hc1 hc2 (.inl hm)
      exact List.mem_map.2 ⟨_, hb, rfl⟩

/-- There is one subdivision whose inner points are all the points with `P`. -/
theorem tiling_unique (P : Pt K → Prop) {p q : Pt K} {l1 l2 : List (Pt K × Pt K)} (h1 : Consecutive p q l1) (h2 : Consecutive p q l2)
    (e1 : ∀ ab ∈ l1, P ab.2 ∧ ∀ x, P x → ¬ (ab.1 < x ∧ x < ab.2)) (e2 : ∀ ab ∈ l2, P ab.2 ∧ ∀ x, P x → ¬ (ab.1 < x ∧ x < ab.2)) : l1 = l2 := by
  have hle : ∀ {p q : Pt K} {l : List (Pt K × Pt K)}, Consecutive p q l → p ≤ q := by
    intro p q l h
    induction l generalizing p with
    | nil => exact le_of_eq h
    | cons x l ih => obtain ⟨a, b⟩ := x; obtain ⟨rfl, h1, h2⟩ := h; exact h1.le.trans (ih h2)
  induction l1 generalizing p l2 with
  | nil =>
    cases l2 with
    | nil => rfl
    | cons y l2 =>
      obtain ⟨a, b⟩ := y
      obtain ⟨rfl, h3, h4⟩ := h2
      have : a = q := h1
      subst this
      exact absurd (h3.trans_le (hle h4)) (lt_irrefl _)
  | cons x l1 ih =>
    obtain ⟨a, b⟩ := x
    obtain ⟨rfl, h3, h4⟩ := h1
    cases l2 with
    | nil =>
      have : a = q := h2
      subst this
      exact absurd (h3.trans_le (hle h4)) (lt_irrefl _)
    | cons y l2 =>
      obtain ⟨a', b'⟩ := y
      obtain ⟨rfl, h5, h6⟩ := h2
      have hb : b = b' := by
        rcases lt_trichotomy b b' with h | h | h
        · exact absurd ⟨h3, h⟩ ((e2 _ List.mem_cons_self).2 b (e1 _ List.mem_cons_self).1)
        · exact h
        · exact absurd ⟨h5, h⟩ ((e1 _ List.mem_cons_self).2 b' (e2 _ List.mem_cons_self).1)
      subst hb
      rw [ih h4 h6 (fun ab hab => e1 ab (List.mem_cons_of_mem _ hab)) fun ab hab => e2 ab (List.mem_cons_of_mem _ hab)]

/-- The critical points on `c`. -/
def CritOn (lineOf : C → Line K) (input : List C) (c : C) (x : Pt K) : Prop := Critical (input.map lineOf) x ∧ OnLine (lineOf c) x

theorem Final.crit_iff (hX : Final lineOf input X res) (h : crossingsOf lineOf nextAfter choice fuel input = some res) {tl : List (C × List (Pt K × Pt K))}
    (ht : (X.D.flatMap Grp.tri).Perm (tl.flatMap fun e => e.2.map fun ab => (e.1, ab))) {e : C × List (Pt K × Pt K)} (he : e ∈ tl) :
    ∀ ab ∈ e.2, CritOn lineOf input e.1 ab.2 ∧ ∀ x, CritOn lineOf input e.1 x → ¬ (ab.1 < x ∧ x < ab.2) := by
  intro ab hab
  obtain ⟨g, g1, g2, g3, g4⟩ := hX.piece (ht.mem_iff.2 (List.mem_flatMap.2 ⟨e, he, List.mem_map.2 ⟨ab, hab, rfl⟩⟩))
  have hok := hX.ok g g1
  have hs := hok.sub e.1 g2
  refine ⟨⟨g4 ▸ hok.cq, g4 ▸ hs.q⟩, fun x hx hlt => ?_⟩
  obtain ⟨y, hy, rfl⟩ := List.mem_map.1 ((yield_iff h x).2 hx.1)
  obtain ⟨s, ty, hlog⟩ := hX.yield hy
  refine hX.free _ hlog g g1 ⟨g3 ▸ hlt.1, g4 ▸ hlt.2, ?_⟩
  have p := (onSeg_iff hs.line).1 ((onLine_iff _ _).1 hs.p)
  have q := (onSeg_iff hs.line).1 ((onLine_iff _ _).1 hs.q)
  have z := (onSeg_iff hs.line).1 ((onLine_iff _ _).1 hx.2)
  have hd := det_symm hs.line.ne p.1 q.1
  exact det_trans hs.line.ne hd.1 hd.2 z.1

end

section
variable {na1 na2 : K → K} {ch1 ch2 : Nat → Nat} {f1 f2 : Nat} {in1 in2 : List C}
variable {res1 res2 : List (Pt K × List (Crossing K C))} {X1 X2 : Abs K C}

theorem critical_perm (hp : in1.Perm in2) (p : Pt K) : Critical (in1.map lineOf) p ↔ Critical (in2.map lineOf) p := by
  have : ∀ l, l ∈ in1.map lineOf ↔ l ∈ in2.map lineOf := fun l => (hp.map lineOf).mem_iff
  unfold Critical
  simp only [this]

/-- The final pieces of two sweeps are the same. -/
theorem pieces_perm (hp : in1.Perm in2) (h1 : crossingsOf lineOf na1 ch1 f1 in1 = some res1) (h2 : crossingsOf lineOf na2 ch2 f2 in2 = some res2)
    (hX1 : Final lineOf in1 X1 res1) (hX2 : Final lineOf in2 X2 res2) : (X1.D.flatMap Grp.tri).Perm (X2.D.flatMap Grp.tri) := by
  classical
  obtain ⟨t1, m1, c1, p1⟩ := hX1.tiled
  obtain ⟨t2, m2, c2, p2⟩ := hX2.tiled
  have hcrit : ∀ c x, CritOn lineOf in1 c x ↔ CritOn lineOf in2 c x := fun c x => and_congr_left' (critical_perm hp x)
  have k2 : ∀ e ∈ t2, ∀ ab ∈ e.2, CritOn lineOf in1 e.1 ab.2 ∧ ∀ x, CritOn lineOf in1 e.1 x → ¬ (ab.1 < x ∧ x < ab.2) := by
    intro e he ab hab
    have := hX2.crit_iff h2 p2 he ab hab
    exact ⟨(hcrit _ _).2 this.1, fun x hx => this.2 x ((hcrit _ _).1 hx)⟩
  have key : ∀ e ∈ t1, ∀ e' ∈ t2, e.1 = e'.1 → e.2 = e'.2 := by
    intro e he e' he' heq
    refine tiling_unique (CritOn lineOf in1 e.1) (c1 e he) (heq ▸ c2 e' he') (hX1.crit_iff h1 p1 he) ?_
    rw [heq]
    exact k2 e' he'
  have key2 : ∀ e ∈ t2, ∀ e' ∈ t2, e.1 = e'.1 → e.2 = e'.2 := by
    intro e he e' he' heq
    refine tiling_unique (CritOn lineOf in1 e.1) (c2 e he) (heq ▸ c2 e' he') (k2 e he) ?_
    rw [heq]
    exact k2 e' he'
  let F : C → List (Pt K × Pt K) := fun c => if h : ∃ e ∈ t2, e.1 = c then (Classical.choose h).2 else []
  have hF : ∀ e ∈ t2, F e.1 = e.2 := by
    intro e he
    have hex : ∃ e' ∈ t2, e'.1 = e.1 := ⟨e, he, rfl⟩
    simp only [F, dif_pos hex]
    have := Classical.choose_spec hex
    exact key2 _ this.1 _ he this.2
  have hm : (t1.map (·.1)).Perm (t2.map (·.1)) := by rw [m1, m2]; exact hp.filter _
  have e2 : t2 = (t2.map (·.1)).map fun c => (c, F c) := by
    rw [List.map_map]
    conv_lhs => rw [← List.map_id t2]
    exact List.map_congr_left fun e he => Prod.ext rfl (hF e he).symm
  have e1 : t1 = (t1.map (·.1)).map fun c => (c, F c) := by
    rw [List.map_map]
    conv_lhs => rw [← List.map_id t1]
    refine List.map_congr_left fun e he => Prod.ext rfl ?_
    obtain ⟨e', he', heq⟩ := List.mem_map.1 (hm.mem_iff.1 (List.mem_map_of_mem he))
    have := hF e' he'
    rw [heq] at this
    exact (key e he e' he' heq.symm).trans this.symm
  have ht : t1.Perm t2 := by
    rw [e1, e2]
    exact hm.map _
  exact p1.trans ((ht.flatMap_right _).trans p2.symm)

/-- What a crossing reports, leaving out the line if the crossing is at its left end: the line can still be split, and how far it goes at that
time depends on the order of events. -/
def Crossing.report (x : Crossing K C) : C × Option (LineOrPoint K) := (x.crossable, if x.atLeft then none else some x.line)

theorem final_reports {input : List C} {res : List (Pt K × List (Crossing K C))} {X : Abs K C} (hX : Final lineOf input X res) : ((flat res).map fun e => (e.1, e.2.report)).Perm
    (((X.D.flatMap Grp.tri).map fun t => (t.2.1, t.1, none)) ++ (((X.D.flatMap Grp.tri).map fun t => (t.2.2, t.1, some (.line t.2.1 t.2.2))) ++
      (input.filter fun c => (lineOf c).start = (lineOf c).stop).map fun c => ((lineOf c).start, c, some (.point (lineOf c).start)))) := by
  rw [hX.flat]
  have hlog : X.log.Perm (X.log.filter (fun e => e.2.2 = .lineLeft) ++ (X.log.filter (fun e => e.2.2 = .lineRight) ++
      X.log.filter (fun e => e.2.2 = .pointLeft))) := by
    have hs := hX.sound
    generalize X.log = log at hs
    induction log with
    | nil => exact .refl _
    | cons e l ih =>
      have ih := ih fun e he => hs e (List.mem_cons_of_mem _ he)
      rcases (hs e (by simp)).geom with ⟨h2, -⟩ | ⟨h2, -⟩ | ⟨h2, -⟩
      · simp only [List.filter_cons, h2, reduceCtorEq, decide_true, decide_false, if_true, Bool.false_eq_true, if_false]
        exact ih.cons e
      · simp only [List.filter_cons, h2, reduceCtorEq, decide_true, decide_false, if_true, Bool.false_eq_true, if_false]
        exact (ih.cons e).trans List.perm_middle.symm
      · simp only [List.filter_cons, h2, reduceCtorEq, decide_true, decide_false, if_true, Bool.false_eq_true, if_false]
        refine (ih.cons e).trans ?_
        rw [← List.append_assoc, ← List.append_assoc]
        exact List.perm_middle.symm
  unfold flog
  rw [List.map_map]
  refine (hlog.map _).trans ?_
  rw [List.map_append, List.map_append]
  refine List.Perm.append ?_ (List.Perm.append ?_ ?_)
  · have h := hX.left.map fun e => (e.2, e.1, (none : Option (LineOrPoint K)))
    rw [List.map_map] at h
    refine (List.Perm.of_eq ?_).trans (h.trans (List.Perm.of_eq ?_))
    · refine List.map_congr_left fun e he => ?_
      have := (List.mem_filter.1 he).2
      simp only [decide_eq_true_eq] at this
      simp [Crossing.report, Crossing.ofSeg, this]
    · rw [List.map_flatMap, List.map_flatMap]
      congr 1
      funext g
      unfold Grp.tri
      rw [List.map_map, List.map_map]
      rfl
  · have h := congrArg (List.map fun e : C × LineOrPoint K × Pt K => (e.2.2, e.1, some e.2.1)) hX.right
    rw [List.map_map] at h
    refine List.Perm.of_eq (Eq.trans ?_ (h.trans ?_))
    · refine List.map_congr_left fun e he => ?_
      have := (List.mem_filter.1 he).2
      simp only [decide_eq_true_eq] at this
      simp [Crossing.report, Crossing.ofSeg, this, show (EventType.lineRight == EventType.lineLeft) = false from rfl]
    · rw [List.map_flatMap, List.map_flatMap]
      refine List.flatMap_congr fun g hg => ?_
      unfold Grp.tri
      rw [List.map_map, List.map_map]
      refine List.map_congr_left fun c hc => ?_
      have := (hX.ok g hg).line.1
      simp [this]
  · have h := hX.points.map fun c => ((lineOf c).start, c, some (LineOrPoint.point (lineOf c).start))
    rw [List.map_map] at h
    refine (List.Perm.of_eq ?_).trans h
    refine List.map_congr_left fun e he => ?_
    obtain ⟨h1, h2⟩ := List.mem_filter.1 he
    simp only [decide_eq_true_eq] at h2
    rcases (hX.sound e h1).geom with ⟨h3, -⟩ | ⟨h3, -⟩ | ⟨-, h4, h5, h6⟩
    · rw [h2] at h3; cases h3
    · rw [h2] at h3; cases h3
    · simp [Crossing.report, Crossing.ofSeg, h2, h4, h5, show (EventType.pointLeft == EventType.lineLeft) = false from rfl]

/-- The entries at a yielded point are its batch. -/
theorem flat_at [DecidableEq (Pt K)] {res : List (Pt K × List (Crossing K C))} (hs : (res.map (·.1)).Pairwise (· < ·)) {p : Pt K}
    {b : List (Crossing K C)} (hb : (p, b) ∈ res) : (flat res).filter (fun e => e.1 = p) = b.map (p, ·) := by
  induction res with
  | nil => cases hb
  | cons e l ih =>
    rw [List.map_cons, List.pairwise_cons] at hs
    have e1 : flat (e :: l) = e.2.map (e.1, ·) ++ flat l := rfl
    rw [e1, List.filter_append]
    rcases List.mem_cons.1 hb with rfl | hb
    · have : (flat l).filter (fun e => e.1 = p) = [] := by
        rw [List.filter_eq_nil_iff]
        rintro ⟨z, x⟩ hx
        obtain ⟨b', hb', -⟩ := mem_flat.1 hx
        have := hs.1 _ (List.mem_map_of_mem hb')
        simpa using this.ne'
      rw [this, List.append_nil, List.filter_eq_self]
      intro y hy
      obtain ⟨_, _, rfl⟩ := List.mem_map.1 hy
      simp
    · have : (e.2.map (e.1, ·)).filter (fun e => e.1 = p) = [] := by
        rw [List.filter_eq_nil_iff]
        intro y hy
        obtain ⟨_, _, rfl⟩ := List.mem_map.1 hy
        have := hs.1 _ (List.mem_map_of_mem hb)
        simpa using this.ne
      rw [this, List.nil_append, ih hs.2 hb]

theorem forall₂_of_map {α β γ : Type} (f : α → γ) (g : β → γ) {R : α → β → Prop} {l1 : List α} {l2 : List β} (h : l1.map f = l2.map g)
    (hR : ∀ a ∈ l1, ∀ b ∈ l2, f a = g b → R a b) : List.Forall₂ R l1 l2 := by
  induction l1 generalizing l2 with
  | nil =>
    cases l2 with
    | nil => exact .nil
    | cons b l2 => cases h
  | cons a l1 ih =>
    cases l2 with
    | nil => cases h
    | cons b l2 =>
      rw [List.map_cons, List.map_cons, List.cons.injEq] at h
      exact .cons (hR a (by simp) b (by simp) h.1) (ih h.2 fun a ha b hb => hR a (by simp [ha]) b (by simp [hb]))

/-- **C78.** Two iterations over the same inputs, in whatever order they are given, with whatever order of equal events in the heap and whatever
`next_after`, yield the same points, and for each the same crossings up to their order: the same inputs start there, the same pieces of inputs end
there, the same degenerate inputs are there. -/
theorem C78_deterministic (hp : in1.Perm in2) (h1 : crossingsOf lineOf na1 ch1 f1 in1 = some res1)
    (h2 : crossingsOf lineOf na2 ch2 f2 in2 = some res2) :
    List.Forall₂ (fun e1 e2 => e1.1 = e2.1 ∧ (e1.2.map Crossing.report).Perm (e2.2.map Crossing.report)) res1 res2 := by
  classical
  obtain ⟨X1, hX1⟩ := final_of_run h1
  obtain ⟨X2, hX2⟩ := final_of_run h2
  have hpts : res1.map (·.1) = res2.map (·.1) := by
    refine List.Perm.eq_of_pairwise (fun a b _ _ hab hba => absurd (hab.trans hba) (lt_irrefl _)) hX1.sorted hX2.sorted ?_
    rw [List.perm_ext_iff_of_nodup (hX1.sorted.imp fun h => h.ne) (hX2.sorted.imp fun h => h.ne)]
    exact fun p => (yield_iff h1 p).trans ((critical_perm hp p).trans (yield_iff h2 p).symm)
  have htri := pieces_perm hp h1 h2 hX1 hX2
  have hall : ((flat res1).map fun e => (e.1, e.2.report)).Perm ((flat res2).map fun e => (e.1, e.2.report)) :=
    (final_reports hX1).trans (((htri.map _).append ((htri.map _).append ((hp.filter _).map _))).trans (final_reports hX2).symm)
  refine forall₂_of_map (·.1) (·.1) hpts ?_
  rintro ⟨p, b1⟩ m1 ⟨p', b2⟩ m2 heq
  have heq : p = p' := heq
  subst heq
  refine ⟨rfl, ?_⟩
  have := (hall.filter fun e => e.1 = p).map (·.2)
  rw [List.filter_map, List.filter_map] at this
  have e1 := flat_at hX1.sorted m1
  have e2 := flat_at hX2.sorted m2
  simp only [Function.comp_def] at this
  rw [e1, e2, List.map_map, List.map_map, List.map_map, List.map_map] at this
  exact this

end

set_option synthInstance.maxSize 1024 in
/-- The first of these orders of three inputs reports the piece from the origin to (4, 4), before it is known that the third input crosses it;
the second one reports the piece from the origin to (3, 3). The pieces that end are the same, in another order. -/
example :
    (crossingsOf (id : Line ℚ → _) id (fun _ => 0) 40 [⟨⟨0, 0⟩, ⟨4, 4⟩⟩, ⟨⟨0, 0⟩, ⟨1, 2⟩⟩, ⟨⟨-1, 3⟩, ⟨5, 3⟩⟩]).map
        (fun res => res.map fun e => (e.1, e.2.map fun x => (x.atLeft, x.line.first, x.line.second))) =
      some [(⟨-1, 3⟩, [(true, ⟨-1, 3⟩, ⟨5, 3⟩)]),
        (⟨0, 0⟩, [(true, ⟨0, 0⟩, ⟨1, 2⟩), (true, ⟨0, 0⟩, ⟨4, 4⟩)]),
        (⟨1, 2⟩, [(false, ⟨0, 0⟩, ⟨1, 2⟩)]),
        (⟨3, 3⟩, [(false, ⟨-1, 3⟩, ⟨3, 3⟩), (false, ⟨0, 0⟩, ⟨3, 3⟩), (true, ⟨3, 3⟩, ⟨5, 3⟩), (true, ⟨3, 3⟩, ⟨4, 4⟩)]),
        (⟨4, 4⟩, [(false, ⟨3, 3⟩, ⟨4, 4⟩)]),
        (⟨5, 3⟩, [(false, ⟨3, 3⟩, ⟨5, 3⟩)])] ∧
    (crossingsOf (id : Line ℚ → _) id (fun _ => 0) 40 [⟨⟨0, 0⟩, ⟨1, 2⟩⟩, ⟨⟨0, 0⟩, ⟨4, 4⟩⟩, ⟨⟨-1, 3⟩, ⟨5, 3⟩⟩]).map
        (fun res => res.map fun e => (e.1, e.2.map fun x => (x.atLeft, x.line.first, x.line.second))) =
      some [(⟨-1, 3⟩, [(true, ⟨-1, 3⟩, ⟨5, 3⟩)]),
        (⟨0, 0⟩, [(true, ⟨0, 0⟩, ⟨3, 3⟩), (true, ⟨0, 0⟩, ⟨1, 2⟩)]),
        (⟨1, 2⟩, [(false, ⟨0, 0⟩, ⟨1, 2⟩)]),
        (⟨3, 3⟩, [(false, ⟨0, 0⟩, ⟨3, 3⟩), (false, ⟨-1, 3⟩, ⟨3, 3⟩), (true, ⟨3, 3⟩, ⟨4, 4⟩), (true, ⟨3, 3⟩, ⟨5, 3⟩)]),
        (⟨4, 4⟩, [(false, ⟨3, 3⟩, ⟨4, 4⟩)]),
        (⟨5, 3⟩, [(false, ⟨3, 3⟩, ⟨5, 3⟩)])] := by
  decide +kernel

end GeoCrossings

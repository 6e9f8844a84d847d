import Verif.Lemmas.SweepRight

/-! # Handling of isolated points -/
set_option linter.unusedSectionVars false
namespace GeoCrossings
open Spec

variable {K C : Type} [Field K] [LinearOrder K] [IsStrictOrderedRing K]
variable {org : C → Pt K} {allow : Prop}
variable {pos : Pt K} {st : Sweep K C} {X : Abs K C} {L R : List (Grp K C)} {g : Grp K C}

/-- Only the first segment on or above the sweep position can pass through it. -/
theorem through_point {a b : Sg K} (ha : a.1 < a.2 ∧ a.1 ≤ pos ∧ pos ≤ a.2) (hb : b.1 < b.2 ∧ b.1 ≤ pos ∧ pos ≤ b.2)
    (hab : a.Lt b ∧ a.Apart pos b) (h0 : det a.1 a.2 pos ≤ 0) : ¬ Inside b.1 b.2 pos := by
  intro hi
  obtain ⟨m1, m2⟩ := mono ha.1 hb.1 hab.1 hab.2 ha.2.1 ha.2.2 hb.2.1 hb.2.2
  rcases h0.lt_or_eq with h | h
  · exact absurd hi.2.2 (m1 h).ne
  · rcases hab.2 pos le_rfl ((onSeg_iff ha.1).2 ⟨h, ha.2.1, ha.2.2⟩) hi.onSeg with ⟨-, e⟩ | ⟨-, -, e⟩
    · exact hi.1.ne e.symm
    · exact hi.2.1.ne e

theorem pcmp_point_line {p q z : Pt K} (h1 : p ≤ z) (h2 : z ≤ q) :
    (LineOrPoint.point z).pcmp (.line p q) = some (if 0 < det p q z then .gt else .lt) ∧
    ((LineOrPoint.line p q).pcmp (.point z)).isSome := by
  have e : pcmpLinePoint p q z = some ((compare 0 (det p q z)).then .gt) := by
    unfold pcmpLinePoint
    rw [if_neg (by rintro (h | h); exacts [absurd h2 (not_le.2 h), absurd h1 (not_le.2 h)]), oao]
  simp only [LineOrPoint.pcmp, e, Option.map_some, Option.isSome_some, and_true, Option.some.injEq]
  by_cases h : 0 < det p q z
  · rw [if_pos h, compare_lt_iff_lt.2 h]; rfl
  · rw [if_neg h]
    rcases (not_lt.1 h).lt_or_eq with h' | h'
    · rw [compare_gt_iff_gt.2 h']; rfl
    · rw [h', compare_eq_iff_eq.2 rfl]; rfl

/-- The neighbours of a point. -/
theorem point_neighbours (hC : Conc org st X) (hK : Core pos X) (hg : g ∈ X.Q) (hp : g.p = pos) :
    ∃ L R st1 st2, X.A = L ++ R ∧ (∀ a ∈ L, 0 < det a.p a.q pos) ∧ (∀ b ∈ R, det b.p b.q pos ≤ 0) ∧
      st.prevKey g.root = some (st1, L.getLast?.map Grp.root) ∧ st1.nextKey g.root = some (st2, R.head?.map Grp.root) ∧
      Conc org st2 X := by
  have hx : ∀ x ∈ X.sgs, x.1 < x.2 ∧ x.1 ≤ pos ∧ pos ≤ x.2 := by
    intro x hx
    obtain ⟨a, ha, rfl⟩ := List.mem_map.1 hx
    obtain ⟨h1, -, h2, h3⟩ := hK.lineA a ha
    exact ⟨h1.2, h2, h3⟩
  obtain ⟨l, r, hlr, h1, h2⟩ := separate_point _ hx hK.order
  unfold Abs.sgs at hlr
  obtain ⟨L, R, hA, rfl, rfl⟩ := List.map_eq_append_iff.1 hlr
  have hgl : g ∈ X.live := by unfold Abs.live; simp [hg]
  obtain ⟨k, c, hge, -⟩ := hK.ptQ g hg
  rw [hp] at hge
  have hcmp : ∀ a ∈ X.A, cmpKeys st.segments g.root a.root = some (if 0 < det a.p a.q pos then .gt else .lt) ∧
      (cmpKeys st.segments a.root g.root).isSome := by
    intro a ha
    have hal : a ∈ X.live := by unfold Abs.live; simp [ha]
    obtain ⟨w, -, w1, w2⟩ := hK.lineA a ha
    obtain ⟨e1, e2⟩ := pcmp_point_line w1 w2
    rw [hC.cmp hgl hal, hC.cmp hal hgl, hge, w.1, e1]
    refine ⟨?_, by simpa using e2⟩
    simp only [Option.map_some]
    split <;> rfl
  have hP : Sweep.Placed st.segments g.root (L.map Grp.root) (R.map Grp.root) := by
    constructor
    · intro e he
      obtain ⟨a, ha, rfl⟩ := List.mem_map.1 he
      have := hcmp a (by rw [hA]; simp [ha])
      have h' : 0 < det a.p a.q pos := h1 a.sg (List.mem_map_of_mem ha)
      rw [if_pos h'] at this
      exact this
    · intro e he
      obtain ⟨a, ha, rfl⟩ := List.mem_map.1 he
      have := hcmp a (by rw [hA]; simp [ha])
      have h' : det a.p a.q pos ≤ 0 := h2 a.sg (List.mem_map_of_mem ha)
      rw [if_neg (not_lt.2 h')] at this
      exact this
  obtain ⟨st1, st2, k1, k2, k3⟩ := hC.prev_next (k := g.root) (L := L) (R := R) (M := []) (by rw [hA]; simp) hP (.inl rfl)
  exact ⟨L, R, st1, st2, hA, fun a ha => h1 a.sg (List.mem_map_of_mem ha), fun a ha => h2 a.sg (List.mem_map_of_mem ha), k1, k2, k3⟩

theorem segmentForEvent_point (hC : Conc org st X) {e : Event K} (ht : e.ty = .pointLeft ∨ e.ty = .pointRight)
    (hg : g ∈ X.Q) (hr : g.root = e.segmentKey) (hp : g.p = e.point) {k : Nat} {c : C} (hge : g.geom = .point g.p)
    (hm : g.mem = [(k, c)]) :
    ∃ s, st.segmentForEvent e = some (some s) ∧ s.key = g.root ∧ s.crossable = c ∧ s.geom = g.geom ∧
      (s.firstSegment = true → g.p = org c) ∧ s.overlapping = none := by
  have hgl : g ∈ X.live := by unfold Abs.live; simp [hg]
  have hL := (hC.rep.grp g hgl).linked
  rw [hm] at hL
  obtain ⟨⟨s, h1, h2, h3, h4, -, h6, h5⟩, -⟩ := hL
  have hk : g.root = k := by simp [Grp.root, hm]
  refine ⟨s, ?_, by rw [h2, hk], h3, h4, h5, h6⟩
  rw [hge] at h4
  rcases ht with ht | ht <;>
  · simp only [Sweep.segmentForEvent, ht, ← hr, hk, h1, Option.bind_eq_bind, Option.bind_some, h4]
    rw [if_pos hp]

/-- **Point, right event**: nothing happens. -/
theorem point_right (lineOf : C → Line K) (nextAfter : K → K) (choice : Nat → Nat) (fuel : Nat) (hC : Conc org st X) {e : Event K}
    (hK : Core pos { X with E := e :: X.E }) (ht : e.ty = .pointRight) (hp : e.point = pos) :
    ∃ st', Sweep.handleEvent lineOf nextAfter choice (fuel + 1) st e = some (st', [], true) ∧ Conc org st' X ∧ Core pos X := by
  obtain ⟨g, hg, hr, hgp⟩ := hK.evQ e (by simp) (.inr ht)
  have hgQ : g ∈ X.Q := hg
  have hK' : Core pos X := hK.pop hp (by rw [ht]; simp) (by
    rintro x - rfl
    simp [Grp.rightEv] at ht)
  obtain ⟨k, c, h1, h2⟩ := hK.ptQ g hg
  obtain ⟨s, s1, s2, -⟩ := segmentForEvent_point hC (.inr ht) hgQ hr hgp h1 h2
  obtain ⟨L, R, st1, st2, -, -, -, n1, n2, n3⟩ := point_neighbours hC hK' hgQ (hgp.trans hp)
  refine ⟨st2, ?_, n3, hK'⟩
  simp only [Sweep.handleEvent, s1, s2, n1, n2, ht, Option.bind_eq_bind, Option.bind_some]
  rfl

theorem inter_point_none (nextAfter : K → K) {p q z : Pt K} (h : p < q) (hn : ¬ OnSeg p q z) :
    (LineOrPoint.point z).intersectLineOrdered nextAfter (.line p q) = some none := by
  rw [(C17_ordered_eq nextAfter (.point z) (.line p q) trivial h).1]
  refine (((C16_intersect_line_exact (.point z) (.line p q) trivial h).2 ⟨p, q, rfl⟩).1).2 ?_
  rintro r ⟨h1, h2⟩
  cases h1
  exact hn h2

theorem inter_point_some (nextAfter : K → K) {p q z : Pt K} (h : p < q) (hn : OnSeg p q z) :
    (LineOrPoint.point z).intersectLineOrdered nextAfter (.line p q) = some (some (.point z)) := by
  rw [(C17_ordered_eq nextAfter (.point z) (.line p q) trivial h).1]
  refine (((C16_intersect_line_exact (.point z) (.line p q) trivial h).2 ⟨p, q, rfl⟩).2.1 z).2 ?_
  intro r
  constructor
  · exact fun h => h.1
  · rintro rfl; exact ⟨rfl, hn⟩

/-- **Point, left event.** -/
theorem point_left (lineOf : C → Line K) (nextAfter : K → K) (choice : Nat → Nat) (fuel : Nat) (hap : allow) (hC : Conc org st X) {e : Event K}
    (hK : Core pos { X with E := e :: X.E }) (ht : e.ty = .pointLeft) (hp : e.point = pos) (hc : X.Chain pos) :
    ∃ st' X' out, Sweep.handleEvent lineOf nextAfter choice (fuel + 1) st e = some (st', out, true) ∧
      Conc org st' X' ∧ Core pos X' ∧ X'.Chain pos ∧ Prims org allow pos X X' ∧ X'.S = X.S ∧ out ≠ [] ∧ X'.log = X.log ++ stamp pos out ∧
      ∃ g ∈ X.Q, g.root = e.segmentKey ∧ g.p = pos ∧ Emits org g g.mem .pointLeft out := by
  obtain ⟨g, hg, hr, hgp⟩ := hK.evQ e (by simp) (.inl ht)
  have hgQ : g ∈ X.Q := hg
  have hK' : Core pos X := hK.pop hp (by rw [ht]; simp) (by
    rintro x - rfl
    simp [Grp.rightEv] at ht)
  have hgp' := hgp.trans hp
  obtain ⟨k, c, h1, h2⟩ := hK.ptQ g hg
  obtain ⟨s, s1, s2, s3, s4, s5, s6⟩ := segmentForEvent_point hC (.inl ht) hgQ hr hgp h1 h2
  obtain ⟨L, R, st1, st2, hA, hL, hR, n1, n2, n3⟩ := point_neighbours hC hK' hgQ hgp'
  have hsg : s.geom = .point pos := by rw [s4, h1, hgp']
  have hemit : Emits org g g.mem .pointLeft [(s, EventType.pointLeft)] := by
    refine ⟨?_, ?_⟩
    · simp [s2, s3, h2, Grp.root]
    · intro o ho
      rw [List.mem_singleton] at ho
      subst ho
      exact ⟨s4, rfl, by rw [s3]; exact s5, fun _ => s6⟩
  have hw : ∀ a ∈ X.A, a.p < a.q ∧ a.p ≤ pos ∧ pos ≤ a.q := fun a ha => by
    obtain ⟨w, -, w1, w2⟩ := hK'.lineA a ha
    exact ⟨w.2, w1, w2⟩
  -- the neighbour below is not touched
  have low : ∀ rest, Sweep.pointLoop lineOf nextAfter ((L.getLast?.map Grp.root).toList ++ rest) st2 s =
      Sweep.pointLoop lineOf nextAfter rest st2 s := by
    intro rest
    rcases List.eq_nil_or_concat L with rfl | ⟨L0, a, rfl⟩
    · rfl
    · rw [List.concat_eq_append] at hA hL ⊢
      have ha : a ∈ X.A := by rw [hA]; simp
      obtain ⟨sa, g1, g2, -⟩ := n3.get (g := a) (by unfold Abs.live; simp [ha])
      have hla := hK'.lineA a ha
      have hd := hL a (by simp)
      simp only [List.getLast?_append_cons, List.getLast?_singleton, Option.map_some, Option.toList_some, List.cons_append,
        List.nil_append]
      rw [Sweep.pointLoop]
      simp only [g1, Option.bind_eq_bind, Option.bind_some, hsg, g2, hla.1.1]
      rw [inter_point_none nextAfter hla.1.2 (fun h => hd.ne' ((onSeg_iff hla.1.2).1 h).1)]
      rfl
  have hout : ([(s, EventType.pointLeft)] : Out K C) ≠ [] := by simp
  have hrun : ∀ st3, Sweep.pointLoop lineOf nextAfter ((R.head?.map Grp.root).toList) st2 s = some st3 →
      Sweep.handleEvent lineOf nextAfter choice (fuel + 1) st e = some (st3, [(s, .pointLeft)], true) := by
    intro st3 h
    simp only [Sweep.handleEvent, s1, s2, n1, n2, ht, Option.bind_eq_bind, Option.bind_some]
    rw [low, h]; rfl
  -- adding the report
  have fin : ∀ {st3 : Sweep K C} {X3 : Abs K C}, Sweep.pointLoop lineOf nextAfter ((R.head?.map Grp.root).toList) st2 s = some st3 →
      Conc org st3 X3 → Core pos X3 → X3.Chain pos → Prims org allow pos X X3 → X3.S = X.S → X3.Q = X.Q → X3.log = X.log →
      (∀ a ∈ X3.A, ¬ Inside a.p a.q pos) →
      ∃ st' X' out, Sweep.handleEvent lineOf nextAfter choice (fuel + 1) st e = some (st', out, true) ∧
      Conc org st' X' ∧ Core pos X' ∧ X'.Chain pos ∧ Prims org allow pos X X' ∧ X'.S = X.S ∧ out ≠ [] ∧ X'.log = X.log ++ stamp pos out ∧
      ∃ g ∈ X.Q, g.root = e.segmentKey ∧ g.p = pos ∧ Emits org g g.mem .pointLeft out := by
    intro st3 X3 f1 f2 f3 f4 f5 f6 f7 f8 f9
    refine ⟨st3, { X3 with log := X3.log ++ stamp pos [(s, .pointLeft)] }, _, hrun st3 f1, ⟨f2.rep, f2.act, f2.size, f2.ev⟩,
      ⟨f3.lineA, f3.lineP, f3.lineS, f3.ptQ, f3.order, f3.evR, f3.evL, f3.evQ, f3.evpos, f3.prodR, f3.prodP⟩, f4,
      f5.trans (.single (.point (g := g) hap (by rw [f7]; exact hgQ) hgp' f9 hemit)), f6, hout, by rw [f8],
      g, hgQ, hr, hgp', hemit⟩
  have hLn : ∀ a ∈ L, ¬ Inside a.p a.q pos := fun a ha hi => (hL a ha).ne' hi.2.2
  cases R with
  | nil =>
    refine fin rfl n3 hK' hc (.refl X) rfl rfl rfl ?_
    intro a ha
    rw [hA, List.append_nil] at ha
    exact hLn a ha
  | cons b R0 =>
    have hb : b ∈ X.A := by rw [hA]; simp
    have hbl : b ∈ X.live := by unfold Abs.live; simp [hb]
    obtain ⟨sb, g1, g2, -⟩ := n3.get hbl
    have hlb := hK'.lineA b hb
    have hd := hR b (by simp)
    have hR0 : ∀ a ∈ R0, ¬ Inside a.p a.q pos := fun a ha =>
      through_point (hw b hb) (hw a (by rw [hA]; simp [ha])) ((hK'.pairs hA).2 a ha) hd
    have hcode : Sweep.pointLoop lineOf nextAfter (((b :: R0).head?.map Grp.root).toList) st2 s =
        (LineOrPoint.point pos).intersectLineOrdered nextAfter (.line b.p b.q) >>= fun inter => match inter with
          | none => some st2
          | some i => (st2.adjustOne lineOf b.root i).bind fun x => if x.2.isNone then some x.1 else none := by
      simp only [List.head?_cons, Option.map_some, Option.toList_some]
      rw [Sweep.pointLoop]
      simp only [g1, Option.bind_eq_bind, Option.bind_some, hsg, g2, hlb.1.1]
      cases (LineOrPoint.point pos).intersectLineOrdered nextAfter (.line b.p b.q) with
      | none => rfl
      | some o =>
        cases o with
        | none => rfl
        | some i =>
          simp only [Option.bind_some]
          cases st2.adjustOne lineOf b.root i <;> rfl
    by_cases hon : OnSeg b.p b.q pos
    · rw [inter_point_some nextAfter hlb.1.2 hon] at hcode
      by_cases hin : Inside b.p b.q pos
      · obtain ⟨st3, b2, a1, a2, a3⟩ := n3.cutA lineOf hA hlb.1 (adjust_inside hin.1 hin.2.1)
        refine fin (st3 := st3) ?_ a3 (hK'.cutA hA hin le_rfl a2) ?_
          (.single (.cutA hA hlb.1 hin (.inr ⟨g, ?_, b, hbl, ?_⟩) le_rfl a2)) rfl rfl rfl ?_
        · rw [hcode]
          simp [a1, ovKey]
        · refine Sg.Shrs.chain (W := X.W) ?_ (fun x hx => List.mem_cons_of_mem _ hx) hc
          unfold Abs.sgs
          rw [hA]
          exact shrs_cut L R0 b hin
        · unfold Abs.live; simp [hgQ]
        · intro x
          rw [h1, hgp', hlb.1.1]
          constructor
          · exact fun h => h.1
          · rintro rfl; exact ⟨rfl, hon⟩
        · intro a ha
          simp only [List.mem_append, List.mem_cons] at ha
          rcases ha with ha | rfl | ha
          · exact hLn a ha
          · exact fun h => absurd h.2.1 (lt_irrefl _)
          · exact hR0 a ha
      · have hend : pos = b.p ∨ pos = b.q := by
          obtain ⟨d1, d2, d3⟩ := (onSeg_iff hlb.1.2).1 hon
          by_contra hne
          push Not at hne
          exact hin ⟨lt_of_le_of_ne d2 (Ne.symm hne.1), lt_of_le_of_ne d3 hne.2, d1⟩
        obtain ⟨st3, a1, a2⟩ := n3.keepA lineOf hbl hlb.1 (adjust_end hlb.1.2.le hend)
        refine fin (st3 := st3) ?_ a2 hK' hc (.refl X) rfl rfl rfl ?_
        · rw [hcode]
          simp [a1]
        · intro a ha
          rw [hA] at ha
          simp only [List.mem_append, List.mem_cons] at ha
          rcases ha with ha | rfl | ha
          · exact hLn a ha
          · exact hin
          · exact hR0 a ha
    · rw [inter_point_none nextAfter hlb.1.2 hon] at hcode
      refine fin hcode n3 hK' hc (.refl X) rfl rfl rfl ?_
      intro a ha
      rw [hA] at ha
      simp only [List.mem_append, List.mem_cons] at ha
      rcases ha with ha | rfl | ha
      · exact hLn a ha
      · exact fun h => hon h.onSeg
      · exact hR0 a ha

end GeoCrossings

import Verif.Lemmas.SweepInsert

/-! # Insertion of a starting segment, and overlaps -/
set_option linter.unusedSectionVars false
namespace GeoCrossings
open Spec

variable {K C : Type} [Field K] [LinearOrder K] [IsStrictOrderedRing K]
variable {org : C → Pt K} {allow : Prop}
variable {pos : Pt K} {st : Sweep K C} {X : Abs K C} {L R : List (Grp K C)} {g s a : Grp K C}

/-- The segment in hand becomes active. -/
theorem activate (h : LInv org pos st X s L R) (hL : LOk pos X s L) (hR : ROk pos X s R) :
    ∃ st1 slab out X', st.addKey s.root = some st1 ∧
      Sweep.emitLeft (st1.segments.size + 1) st1.segments (some s.root) = some (slab, out) ∧
      Conc org { st1 with segments := slab } X' ∧ Core pos X' ∧ X'.Chain pos ∧ Prim org allow pos X X' ∧ X'.S = [] ∧ out ≠ [] ∧
      X'.log = X.log ++ stamp pos out := by
  obtain ⟨hls, hsd, sp⟩ := h.core.lineS s (by rw [h.S]; simp)
  have hsL : s ∈ X.live := by unfold Abs.live; simp [h.S]
  have hmem : ∀ x ∈ L ++ R, x ∈ X.live ∧ x.IsLine := by
    intro x hx
    rw [← h.A] at hx
    exact ⟨by unfold Abs.live; simp [hx], (h.core.lineA x hx).1⟩
  have hP := h.conc.placed hsL hls hmem h.lo hR.lt
  obtain ⟨act, a1, a2, a3⟩ := Sweep.addKey_spec (st := st) (by obtain ⟨x, hx, -⟩ := h.conc.get hsL; rw [hx]; rfl) hP (by rw [h.conc.act, h.A]; simp)
  have hrep : Rep org st.segments (s :: (X.A ++ X.P ++ X.Q)) := h.conc.rep.perm (by
    unfold Abs.live; rw [h.S]; list_perm)
  obtain ⟨slab, out, b1, b2, b3⟩ := Sweep.emitLeft_root hrep
  have hout := Sweep.outOf.spec hrep (g := s) (by simp) (l1 := []) rfl b3
  have hni : ∀ x ∈ X.A, ¬ Inside x.p x.q pos := by
    intro x hx
    rw [h.A] at hx
    rcases List.mem_append.1 hx with hx | hx
    · exact hL.out x hx
    · exact hR.out x hx
  have hsg : ({ s with done := true } : Grp K C).sg = s.sg := rfl
  have hsp : (pos, s.q) = s.sg := by unfold Grp.sg; rw [sp]
  refine ⟨{ st with active := act }, slab, out,
    { X with A := L ++ { s with done := true } :: R, S := [], log := X.log ++ stamp pos out }, a1, b1, ⟨b2.perm ?_, ?_, ?_, h.conc.ev⟩,
    ?_, ?_, .activate h.A h.S sp hni (fun _ ha => h.late.q h.core ha) hout, rfl, ?_, rfl⟩
  · show List.Perm ({ s with done := true } :: (X.A ++ X.P ++ X.Q)) ((L ++ { s with done := true } :: R) ++ X.P ++ [] ++ X.Q)
    rw [h.A]; list_perm
  · show Sweep.actKeys act = _
    rw [a2]; simp; rfl
  · show act.size = _
    rw [a3, h.conc.size, h.A]; simp; omega
  · have hK := h.core
    refine ⟨?_, hK.lineP, by simp, hK.ptQ, ?_, ?_, hK.evL, hK.evQ, hK.evpos, ?_, hK.prodP⟩
    · intro x hx
      simp only [List.mem_append, List.mem_cons] at hx
      rcases hx with hx | rfl | hx
      · exact hK.lineA x (by rw [h.A]; simp [hx])
      · refine ⟨hls, rfl, sp.le, ?_⟩
        show pos ≤ s.q
        rw [← sp]; exact hls.2.le
      · exact hK.lineA x (by rw [h.A]; simp [hx])
    · have ho := hK.order
      unfold Abs.sgs at ho ⊢
      rw [h.A, List.map_append, List.pairwise_append] at ho
      simp only [List.map_append, List.map_cons]
      have hb := h.core.bounds h.late
      have wu : pos < s.q := by rw [← sp]; exact hls.2
      rw [List.pairwise_append, List.pairwise_cons]
      refine ⟨ho.1, ⟨?_, ho.2.1⟩, ?_⟩
      · intro y hy
        obtain ⟨x, hx, rfl⟩ := List.mem_map.1 hy
        have hxA : x ∈ X.A := by rw [h.A]; simp [hx]
        obtain ⟨w1, w2, w3⟩ := hb x hxA
        refine ⟨hR.lt x hx, ?_⟩
        have := apart_start w1 w2 w3 wu (hR.out x hx)
        rw [hsp] at this
        exact Apart.symm this
      · intro y hy z hz
        obtain ⟨x, hx, rfl⟩ := List.mem_map.1 hy
        have hxA : x ∈ X.A := by rw [h.A]; simp [hx]
        obtain ⟨w1, w2, w3⟩ := hb x hxA
        rcases List.mem_cons.1 hz with rfl | hz
        · refine ⟨h.lo x hx, ?_⟩
          have := apart_start w1 w2 w3 wu (hL.out x hx)
          rw [hsp] at this
          exact this
        · exact ho.2.2 _ hy _ hz
    · intro x hx
      have hx' : x ∈ (L ++ { s with done := true } :: R) ++ X.P ++ [] := hx
      have old := hK.evR
      simp only [List.mem_append, List.mem_cons, List.not_mem_nil, or_false] at hx'
      rcases hx' with (hx' | rfl | hx') | hx'
      · exact old x (by rw [h.A]; simp [hx'])
      · exact old s (by rw [h.S]; simp)
      · exact old x (by rw [h.A]; simp [hx'])
      · exact old x (by simp [hx'])
    · intro e he ht hp
      obtain ⟨x, hx, hq⟩ := hK.prodR e he ht hp
      rw [h.A, h.S] at hx
      simp only [List.mem_append, List.mem_singleton] at hx
      rcases hx with ((hx | hx) | hx) | rfl
      · exact ⟨x, by simp [hx], hq⟩
      · exact ⟨x, by simp [hx], hq⟩
      · exact ⟨x, by simp [hx], hq⟩
      · exact ⟨{ x with done := true }, by simp, hq⟩
  · unfold Abs.Chain Abs.sgs
    show Sg.Chain pos X.W ((L ++ { s with done := true } :: R).map Grp.sg)
    rw [show L ++ { s with done := true } :: R = L ++ ([{ s with done := true }] ++ R) from rfl, List.map_append, Sg.chain_append,
      List.map_append, Sg.chain_append]
    refine ⟨h.cL, ⟨List.isChain_singleton _, h.cR, ?_⟩, ?_⟩
    · intro x hx y hy
      simp only [List.map_cons, List.map_nil, List.getLast?_singleton, Option.mem_def, Option.some.injEq] at hx
      subst hx
      rw [List.head?_map] at hy
      simp only [Option.mem_def, Option.map_eq_some_iff] at hy
      obtain ⟨z, hz, rfl⟩ := hy
      exact hR.ok z hz
    · intro x hx y hy
      simp only [List.map_cons, List.map_nil, List.cons_append, List.nil_append, List.head?_cons, Option.mem_def,
        Option.some.injEq] at hy
      subst hy
      rw [List.getLast?_map] at hx
      simp only [Option.mem_def, Option.map_eq_some_iff] at hx
      obtain ⟨z, hz, rfl⟩ := hx
      exact hL.ok z hz
  · rintro rfl
    have := hout.1
    simp at this
    exact (h.conc.rep.grp s hsL).ne this

/-- Two segments on a line, the second one starting within the first. -/
theorem inter_coll (nextAfter : K → K) (hg : g.IsLine) (hs : s.IsLine) (h1 : g.p ≤ s.p) (h2 : s.p < g.q)
    (hc : det g.p g.q s.p = 0 ∧ det g.p g.q s.q = 0) :
    s.geom.intersectLineOrdered nextAfter g.geom = some (some (.line s.p (min s.q g.q))) := by
  rw [hs.1, hg.1, (C17_ordered_eq nextAfter (.line s.p s.q) (.line g.p g.q) hs.2 hg.2).1]
  refine (((C16_intersect_line_exact (.line s.p s.q) (.line g.p g.q) hs.2 hg.2).2 ⟨_, _, rfl⟩).2.2 s.p (min s.q g.q)).2 ?_
  have hu : s.p < min s.q g.q := lt_min hs.2 h2
  refine ⟨hu, ?_⟩
  obtain ⟨c1, c2⟩ := det_symm hg.2.ne hc.1 hc.2
  intro r
  show OnSeg s.p s.q r ∧ OnSeg g.p g.q r ↔ _
  rw [onSeg_iff hs.2, onSeg_iff hg.2, onSeg_iff hu]
  have du : det s.p s.q (min s.q g.q) = 0 ∧ det g.p g.q (min s.q g.q) = 0 := by
    rcases min_choice s.q g.q with e | e <;> rw [e]
    · exact ⟨det_right _ _, hc.2⟩
    · exact ⟨c2, det_right _ _⟩
  constructor
  · rintro ⟨⟨a1, a2, a3⟩, b1, b2, b3⟩
    obtain ⟨d1, d2⟩ := det_symm hs.2.ne (det_left s.p s.q) du.1
    exact ⟨det_trans hs.2.ne d1 d2 a1, a2, le_min a3 b3⟩
  · rintro ⟨a1, a2, a3⟩
    refine ⟨⟨det_trans hu.ne (det_left _ _) du.1 a1, a2, a3.trans (min_le_left _ _)⟩,
      det_trans hu.ne hc.1 du.2 a1, h1.trans a2, a3.trans (min_le_right _ _)⟩

/-- The front of the segment in hand overlaps. -/
theorem adjS (lineOf : C → Line K) (hC : Conc org st X) (hK : Core pos X) (hS : X.S = [s]) {u : Pt K} (hu : OnSeg s.p s.q u)
    (hpu : pos < u) (hX : Cross X u) :
    ∃ st' X' s', st.adjustOne lineOf s.root (.line pos u) = some (st', some s.root) ∧ Conc org st' X' ∧ Core pos X' ∧ Prims org allow pos X X' ∧
      X'.A = X.A ∧ X'.S = [s'] ∧ s.Shr s' ∧ s'.q = u ∧ Grow pos { X with S := [s'] } X' := by
  obtain ⟨hl, -, hp⟩ := hK.lineS s (by rw [hS]; simp)
  obtain ⟨d, -, h2⟩ := (onSeg_iff hl.2).1 hu
  rcases h2.eq_or_lt with e | h2
  · subst e
    obtain ⟨st', h1, h2⟩ := hC.keepA lineOf (g := s) (by unfold Abs.live; rw [hS]; simp) hl (i := .line pos s.q) (b := true)
      (by rw [← hp]; exact adjust_whole)
    refine ⟨st', X, s, by simpa using h1, h2, hK, .refl X, rfl, hS, .inl rfl, rfl, ?_⟩
    rw [← hS]; exact .refl _ _
  · have hI : Inside s.p s.q u := ⟨hp.le.trans_lt hpu, h2, d⟩
    obtain ⟨st', g2, h3, h4, h5⟩ := hC.cutS lineOf hS hl (i := .line pos u) (o := some false) (r := u)
      (by rw [← hp]; exact adjust_front h2)
    refine ⟨st', _, s.cut u, h3, h5, hK.cutS hS hI hpu.le h4, .single (.cutS hS hl hI hX hpu.le h4), rfl, rfl, .inr ⟨u, hI, rfl⟩,
      rfl, rfl, rfl, fun x hx => List.mem_cons_of_mem _ hx, rfl, rfl, ?_, ?_⟩
    · intro e he
      simp only [List.mem_cons] at he
      rcases he with rfl | rfl | rfl | he
      · right; simp only [Grp.rightEv, h4.q]; exact hpu.trans h2
      · right; simp only [Grp.leftEv, h4.p]; exact hpu
      · right; exact hpu
      · exact .inl he
    · intro x hx
      rcases List.mem_cons.1 hx with rfl | hx
      · right; rw [h4.p]; exact hpu
      · exact .inl hx

/-- The front of an active segment that starts at the sweep position overlaps. -/
theorem adjA (lineOf : C → Line K) (hC : Conc org st X) (hK : Core pos X) (hA : X.A = L ++ g :: R) (hp : g.p = pos) {u : Pt K}
    (hu : OnSeg g.p g.q u) (hpu : pos < u) (hX : Cross X u) :
    ∃ st' X' g', st.adjustOne lineOf g.root (.line pos u) = some (st', some g.root) ∧ Conc org st' X' ∧ Core pos X' ∧ Prims org allow pos X X' ∧
      X'.A = L ++ g' :: R ∧ g.Shr g' ∧ g'.q = u ∧ Grow pos X X' := by
  obtain ⟨hl, -, -, -⟩ := hK.lineA g (by rw [hA]; simp)
  obtain ⟨d, -, h2⟩ := (onSeg_iff hl.2).1 hu
  rcases h2.eq_or_lt with e | h2
  · subst e
    obtain ⟨st', h1, h2⟩ := hC.keepA lineOf (g := g) (by unfold Abs.live; rw [hA]; simp) hl (i := .line pos g.q) (b := true)
      (by rw [← hp]; exact adjust_whole)
    exact ⟨st', X, g, by simpa using h1, h2, hK, .refl X, hA, .inl rfl, rfl, .refl _ _⟩
  · have hI : Inside g.p g.q u := ⟨hp.le.trans_lt hpu, h2, d⟩
    obtain ⟨st', g2, h3, h4, h5⟩ := hC.cutA lineOf hA hl (i := .line pos u) (o := some false) (r := u)
      (by rw [← hp]; exact adjust_front h2)
    refine ⟨st', _, g.cut u, h3, h5, hK.cutA hA hI hpu.le h4, .single (.cutA hA hl hI hX hpu.le h4), rfl, .inr ⟨u, hI, rfl⟩, rfl,
      rfl, rfl, fun x hx => List.mem_cons_of_mem _ hx, rfl, rfl, ?_, ?_⟩
    · intro e he
      simp only [List.mem_cons] at he
      rcases he with rfl | rfl | rfl | he
      · right; simp only [Grp.rightEv, h4.q]; exact hpu.trans h2
      · right; simp only [Grp.leftEv, h4.p]; exact hpu
      · right; exact hpu
      · exact .inl he
    · intro x hx
      rcases List.mem_cons.1 hx with rfl | hx
      · right; rw [h4.p]; exact hpu
      · exact .inl hx

/-- An active segment that began earlier overlaps from the sweep position to `u`. -/
theorem adjMid (lineOf : C → Line K) (hC : Conc org st X) (hK : Core pos X) (hA : X.A = L ++ g :: R) (hin : Inside g.p g.q pos)
    {u : Pt K} (hu : OnSeg g.p g.q u) (hpu : pos < u) (hX : Cross X u) (hX' : Cross X pos) :
    ∃ st' X' gx E0, st.adjustOne lineOf g.root (.line pos u) = some (st', some gx.root) ∧ Conc org st' X' ∧ Core pos X' ∧ Prims org allow pos X X' ∧
      X'.A = L ++ g.cut pos :: R ∧ gx ∈ X'.P ∧ gx.geom = .line pos u ∧ X'.S = X.S ∧ X'.Q = X.Q ∧ X'.log = X.log ∧ X.P ⊆ X'.P ∧
      X'.E.Perm ((g.cut pos).rightEv :: E0) ∧ ∀ e ∈ E0, e ∈ X.E ∨ pos < e.point ∨ e.ty = .lineLeft := by
  obtain ⟨hl, -, -, -⟩ := hK.lineA g (by rw [hA]; simp)
  obtain ⟨d, -, h2⟩ := (onSeg_iff hl.2).1 hu
  rcases h2.eq_or_lt with e | h2
  · subst e
    obtain ⟨st', g2, h3, h4, h5⟩ := hC.cutA lineOf hA hl (i := .line pos g.q) (o := some true) (r := pos) (adjust_back hin.1)
    refine ⟨st', _, g2, g2.rightEv :: g2.leftEv :: X.E, h3, h5, hK.cutA hA hin le_rfl h4, .single (.cutA hA hl hin hX' le_rfl h4), rfl,
      by simp, h4.geom, rfl, rfl, rfl, fun x hx => List.mem_cons_of_mem _ hx, by list_perm, ?_⟩
    intro e he
    simp only [List.mem_cons] at he
    rcases he with rfl | rfl | he
    · right; left; simp only [Grp.rightEv, h4.q]; exact hpu
    · right; right; rfl
    · exact .inl he
  · have hI : Inside g.p g.q u := ⟨hin.1.trans hpu, h2, d⟩
    obtain ⟨st', g2, g3, h3, h4, h4', h5⟩ := hC.cutA2 lineOf hA hl hin.1 h2
    refine ⟨st', _, g3, g3.rightEv :: g3.leftEv :: g2.rightEv :: g2.leftEv :: X.E, h3, h5,
      hK.cutA2 hA hin hI hpu le_rfl h4 h4', .single (.cutA2 hA hl hin hI hpu hX' hX le_rfl h4 h4'), rfl,
      by simp, h4'.geom, rfl, rfl, rfl, fun x hx => by simp [hx], by list_perm, ?_⟩
    intro e he
    simp only [List.mem_cons] at he
    rcases he with rfl | rfl | rfl | rfl | he
    · right; left; simp only [Grp.rightEv, h4'.q]; exact hpu
    · right; right; rfl
    · right; left; simp only [Grp.rightEv, h4.q]; exact hpu.trans h2
    · right; right; rfl
    · exact .inl he

theorem Grp.root_merge (hm : g.mem ≠ []) : ({ g with mem := g.mem ++ s.mem } : Grp K C).root = g.root := by
  obtain ⟨c, l, e⟩ := Grp.exists_cons hm
  refine Grp.root_cons _ (k := g.root) (c := c) (l := l ++ s.mem) ?_
  show g.mem ++ s.mem = _
  rw [e]; rfl

/-- The segment in hand joins an active one with the same geometry. -/
theorem Conc.mergeA (hC : Conc org st X) (hK : Core pos X) (hA : X.A = L ++ g :: R) (hS : X.S = [s]) (hge : g.geom = s.geom)
    (hl : ∀ a ∈ X.A, ¬ Inside a.p a.q pos) (hl2 : ∀ a ∈ X.A, pos < a.q) (hc : X.Chain pos) :
    ∃ st1 sg slab out X', st.chainOverlap g.root s.root = some st1 ∧ st1.segments.get g.root = some sg ∧ sg.leftEventDone = true ∧
      Sweep.emitLeft (st1.segments.size + 1) st1.segments (some s.root) = some (slab, out) ∧
      Conc org { st1 with segments := slab } X' ∧ Core pos X' ∧ X'.Chain pos ∧ Prim org allow pos X X' ∧ X'.S = [] ∧ out ≠ [] ∧
      X'.log = X.log ++ stamp pos out := by
  have hgL : g ∈ X.live := by unfold Abs.live; rw [hA]; simp
  have hsL : s ∈ X.live := by unfold Abs.live; rw [hS]; simp
  have hgm := (hC.rep.grp g hgL).ne
  have hsm := (hC.rep.grp s hsL).ne
  obtain ⟨hls, hsd, sp⟩ := hK.lineS s (by rw [hS]; simp)
  have hgA := hK.lineA g (by rw [hA]; simp)
  have hrep : Rep org st.segments (g :: s :: (L ++ R ++ X.P ++ X.Q)) := hC.rep.perm (by
    unfold Abs.live; rw [hA, hS]; list_perm)
  obtain ⟨st1, a1, a2, a3, a4⟩ := Sweep.chainOverlap_spec hrep hge
  have a2' : Rep org st1.segments ({ g with mem := g.mem ++ s.mem } :: (L ++ R ++ X.P ++ X.Q)) := a2
  obtain ⟨c, l, hsc⟩ := Grp.exists_cons hsm
  obtain ⟨slab, out, b1, b2, b3⟩ := Sweep.emitLeft_suffix a2' (l1 := g.mem) (l2 := s.mem) rfl hgm (k := s.root) (by rw [hsc]; rfl)
  have hout := Sweep.outOf.spec a2' (g := { g with mem := g.mem ++ s.mem }) (by simp) (l1 := g.mem) rfl b3
  obtain ⟨sg, e1, -, -, -, e2, -⟩ := Sweep.rootSeg a2'
  rw [Grp.root_merge hgm] at e1
  have hemit : Emits org s s.mem .lineLeft out := ⟨hout.1, fun o ho => ⟨(hout.2 o ho).1.trans hge, (hout.2 o ho).2.1, fun hf => by
      have := (hout.2 o ho).2.2.1 hf
      unfold Grp.p; rw [← hge]; exact this, (hout.2 o ho).2.2.2⟩⟩
  have hsgs : ({ X with A := L ++ { g with mem := g.mem ++ s.mem } :: R, S := [], log := X.log ++ stamp pos out } : Abs K C).sgs = X.sgs := by
    unfold Abs.sgs
    rw [hA]
    simp only [List.map_append, List.map_cons]
    rfl
  refine ⟨st1, sg, slab, out, { X with A := L ++ { g with mem := g.mem ++ s.mem } :: R, S := [], log := X.log ++ stamp pos out }, a1, e1, ?_, b1,
    ⟨b2.perm ?_, ?_, ?_, a3.trans hC.ev⟩, ?_, ?_, .mergeA hA hS hge sp hl hl2 hemit, rfl, ?_, rfl⟩
  · rw [e2]; exact hgA.2.1
  · show List.Perm ({ g with mem := g.mem ++ s.mem } :: (L ++ R ++ X.P ++ X.Q)) ((L ++ { g with mem := g.mem ++ s.mem } :: R) ++ X.P ++ [] ++ X.Q)
    list_perm
  · show Sweep.actKeys st1.active = _
    rw [a4.1, hC.act, hA]
    simp [Grp.root_merge hgm]
  · show st1.active.size = _
    rw [a4.1, hC.size, hA]; simp
  · refine ⟨?_, hK.lineP, by simp, hK.ptQ, ?_, ?_, hK.evL, hK.evQ, hK.evpos, ?_, hK.prodP⟩
    · intro x hx
      simp only [List.mem_append, List.mem_cons] at hx
      rcases hx with hx | rfl | hx
      · exact hK.lineA x (by rw [hA]; simp [hx])
      · exact hgA
      · exact hK.lineA x (by rw [hA]; simp [hx])
    · rw [hsgs]; exact hK.order
    · intro x hx
      have hx' : x ∈ (L ++ { g with mem := g.mem ++ s.mem } :: R) ++ X.P ++ [] := hx
      have old := hK.evR
      simp only [List.mem_append, List.mem_cons, List.not_mem_nil, or_false] at hx'
      rcases hx' with (hx' | rfl | hx') | hx'
      · exact old x (by rw [hA]; simp [hx'])
      · have := old g (by rw [hA]; simp)
        unfold Grp.rightEv at this ⊢
        rw [Grp.root_merge hgm]; exact this
      · exact old x (by rw [hA]; simp [hx'])
      · exact old x (by simp [hx'])
    · intro e he ht hp
      obtain ⟨x, hx, hq⟩ := hK.prodR e he ht hp
      rw [hA, hS] at hx
      simp only [List.mem_append, List.mem_cons, List.not_mem_nil, or_false] at hx
      rcases hx with ((hx | rfl | hx) | hx) | rfl
      · exact ⟨x, by simp [hx], hq⟩
      · exact ⟨{ x with mem := x.mem ++ s.mem }, by simp, hq⟩
      · exact ⟨x, by simp [hx], hq⟩
      · exact ⟨x, by simp [hx], hq⟩
      · refine ⟨{ g with mem := g.mem ++ x.mem }, by simp, ?_⟩
        rw [← hq]
        show g.geom.second = x.geom.second
        rw [hge]
  · show Sg.Chain pos X.W _
    rw [hsgs]; exact hc
  · rintro rfl
    have := hout.1
    simp at this
    exact hsm this

/-- The segment in hand joins a pending one with the same geometry. -/
theorem Conc.mergeP (hC : Conc org st X) (hK : Core pos X) {gx : Grp K C} (hgx : gx ∈ X.P) (hS : X.S = [s]) (hge : gx.geom = s.geom)
    (hc : X.Chain pos) :
    ∃ st1 sg X', st.chainOverlap gx.root s.root = some st1 ∧ st1.segments.get gx.root = some sg ∧ sg.leftEventDone = false ∧
      Conc org st1 X' ∧ Core pos X' ∧ X'.Chain pos ∧ Prim org allow pos X X' ∧ X'.S = [] ∧ X'.log = X.log := by
  obtain ⟨P1, P2, hP⟩ := List.append_of_mem hgx
  have hgL : gx ∈ X.live := by unfold Abs.live; simp [hgx]
  have hgm := (hC.rep.grp gx hgL).ne
  have hgP := hK.lineP gx hgx
  have hrep : Rep org st.segments (gx :: s :: (X.A ++ P1 ++ P2 ++ X.Q)) := hC.rep.perm (by
    unfold Abs.live; rw [hP, hS]; list_perm)
  obtain ⟨st1, a1, a2, a3, a4⟩ := Sweep.chainOverlap_spec hrep hge
  have a2' : Rep org st1.segments ({ gx with mem := gx.mem ++ s.mem } :: (X.A ++ P1 ++ P2 ++ X.Q)) := a2
  obtain ⟨sg, e1, -, -, -, e2, -⟩ := Sweep.rootSeg a2'
  rw [Grp.root_merge hgm] at e1
  have hroot := Grp.root_merge (s := s) hgm
  have hW : ({ X with P := P1 ++ { gx with mem := gx.mem ++ s.mem } :: P2, S := [] } : Abs K C).W = X.W := by
    unfold Abs.W
    rw [hP]
    simp only [List.map_append, List.map_cons]
    rfl
  refine ⟨st1, sg, { X with P := P1 ++ { gx with mem := gx.mem ++ s.mem } :: P2, S := [] }, a1, e1, ?_,
    ⟨a2'.perm ?_, ?_, ?_, a3.trans hC.ev⟩, ?_, ?_, .mergeP hP hS hge, rfl, rfl⟩
  · rw [e2]; exact hgP.2.1
  · show List.Perm ({ gx with mem := gx.mem ++ s.mem } :: (X.A ++ P1 ++ P2 ++ X.Q)) (X.A ++ (P1 ++ { gx with mem := gx.mem ++ s.mem } :: P2) ++ [] ++ X.Q)
    list_perm
  · rw [a4.1, hC.act]
  · rw [a4.1, hC.size]
  · refine ⟨hK.lineA, ?_, by simp, hK.ptQ, hK.order, ?_, ?_, hK.evQ, hK.evpos, ?_, hK.prodP⟩
    · intro x hx
      simp only [List.mem_append, List.mem_cons] at hx
      rcases hx with hx | rfl | hx
      · exact hK.lineP x (by rw [hP]; simp [hx])
      · exact hgP
      · exact hK.lineP x (by rw [hP]; simp [hx])
    · intro x hx
      have hx' : x ∈ X.A ++ (P1 ++ { gx with mem := gx.mem ++ s.mem } :: P2) ++ [] := hx
      have old := hK.evR
      simp only [List.mem_append, List.mem_cons, List.not_mem_nil, or_false] at hx'
      rcases hx' with hx' | hx' | rfl | hx'
      · exact old x (by simp [hx'])
      · exact old x (by rw [hP]; simp [hx'])
      · have := old gx (by simp [hgx])
        unfold Grp.rightEv at this ⊢
        rw [hroot]; exact this
      · exact old x (by rw [hP]; simp [hx'])
    · have := hK.evL
      rw [hP, List.map_append, List.map_cons] at this
      show List.Perm _ ((P1 ++ { gx with mem := gx.mem ++ s.mem } :: P2).map Grp.leftEv)
      rw [List.map_append, List.map_cons]
      have e : ({ gx with mem := gx.mem ++ s.mem } : Grp K C).leftEv = gx.leftEv := by
        unfold Grp.leftEv; rw [hroot]; rfl
      rw [e]; exact this
    · intro e he ht hp
      obtain ⟨x, hx, hq⟩ := hK.prodR e he ht hp
      rw [hP, hS] at hx
      simp only [List.mem_append, List.mem_cons, List.not_mem_nil, or_false] at hx
      rcases hx with (hx | hx | rfl | hx) | rfl
      · exact ⟨x, by simp [hx], hq⟩
      · exact ⟨x, by simp [hx], hq⟩
      · exact ⟨{ x with mem := x.mem ++ s.mem }, by simp, hq⟩
      · exact ⟨x, by simp [hx], hq⟩
      · refine ⟨{ gx with mem := gx.mem ++ x.mem }, by simp, ?_⟩
        rw [← hq]
        show gx.geom.second = x.geom.second
        rw [hge]
  · unfold Abs.Chain
    rw [hW]; exact hc

end GeoCrossings

import Verif.Lemmas.SweepMeasure

/-! # The state `Sweep::new` builds -/
set_option linter.unusedSectionVars false
namespace GeoCrossings
open Spec

variable {K C : Type} [Field K] [LinearOrder K] [IsStrictOrderedRing K]
variable {org : C → Pt K} {allow : Prop}
variable {lineOf : C → Line K} {input : List C} {pos : Pt K} {st : Sweep K C} {X X' : Abs K C}

/-- The inputs with two different ends. -/
def linesOf (lineOf : C → Line K) (cs : List C) : List C := cs.filter fun c => (lineOf c).start ≠ (lineOf c).stop

/-- The state after the inputs `seen` have been added. -/
structure Init (org : C → Pt K) (lineOf : C → Line K) (input : List C) (st : Sweep K C) (X : Abs K C) (seen : List C) : Prop where
  conc : Conc org st X
  A : X.A = []
  S : X.S = []
  D : X.D = []
  log : X.log = []
  pieces : Pieces lineOf input X
  done : ∀ g ∈ X.P, g.done = false
  single : ∀ g ∈ X.Q, ∃ k c, g.mem = [(k, c)]
  evR : ∀ g ∈ X.P, g.rightEv ∈ X.E
  evL : (X.E.filter fun e => e.ty = .lineLeft).Perm (X.P.map Grp.leftEv)
  evQ : ∀ e ∈ X.E, e.ty = .pointLeft ∨ e.ty = .pointRight → ∃ g ∈ X.Q, g.root = e.segmentKey ∧ g.p = e.point
  prodR : ∀ e ∈ X.E, e.ty = .lineRight → ∃ g ∈ X.P, g.q = e.point
  prodP : ∀ e ∈ X.E, e.ty = .pointRight → ⟨e.point, .pointLeft, e.segmentKey⟩ ∈ X.E
  tiled : Tiled lineOf (linesOf lineOf seen) (X.P.flatMap Grp.tri)
  evP : ∀ g ∈ X.Q, ⟨g.p, .pointLeft, g.root⟩ ∈ X.E
  pts : ∀ c ∈ seen, (lineOf c).start = (lineOf c).stop → ∃ g ∈ X.Q, c ∈ g.cs
  evP1 : ((X.E.filter fun e => e.ty = .pointLeft).map fun e => (e.point, e.segmentKey)).Perm (X.Q.map fun g => (g.p, g.root))
  ptl : (X.Q.flatMap Grp.cs) = seen.filter fun c => (lineOf c).start = (lineOf c).stop

def Abs.empty : Abs K C := ⟨[], [], [], [], [], [], []⟩

theorem Init.empty : Init org lineOf input
    ({ segments := Slab.empty, events := [], active := Splay.SplayTree.new, clock := 0 } : Sweep K C) Abs.empty [] := by
  refine ⟨⟨⟨⟨by simp [Slab.empty], by simp [Slab.empty], by simp [Slab.empty]⟩, by simp [Abs.empty, Abs.live],
    by simp [Abs.empty, Abs.live], ?_⟩, rfl, rfl, rfl⟩,
    rfl, rfl, rfl, rfl, ⟨by simp [Abs.empty, Abs.pieces], by simp [Abs.empty]⟩, ?_, ?_, ?_, ?_, ?_, ?_, ?_, ?_, ?_, ?_, ?_, ?_⟩
  case refine_9 => exact ⟨[], rfl, by simp, by simp [Abs.empty]⟩
  · intro k hk; simp [Slab.empty, Slab.get] at hk
  all_goals simp [Abs.empty]

theorem tiled_add {cs : List C} {t : List (C × Pt K × Pt K)} (h : Tiled lineOf cs t) {c : C} (hc : lo (lineOf c) < hi (lineOf c)) :
    Tiled lineOf (cs ++ [c]) (t ++ [(c, lo (lineOf c), hi (lineOf c))]) := by
  obtain ⟨tl, h1, h2, h3⟩ := h
  refine ⟨tl ++ [(c, [(lo (lineOf c), hi (lineOf c))])], by simp [h1], ?_, ?_⟩
  · intro e he
    rcases List.mem_append.1 he with he | he
    · exact h2 e he
    · rw [List.mem_singleton] at he; subst he; exact ⟨rfl, hc, rfl⟩
  · rw [List.flatMap_append]
    exact h3.append_right _

theorem Init.add {seen : List C} (h : Init org lineOf input st X seen) (hor : ∀ c ∈ input, (LineOrPoint.ofLine (lineOf c)).first = org c) {c : C} (hc : c ∈ input) :
    ∃ st' k X', st.createSegment lineOf c none none = some (st', k) ∧ Init org lineOf input st' X' (seen ++ [c]) := by
  have hrep := h.conc.rep.insert lineOf c none (fun _ => hor c hc)
  obtain ⟨hA, hS, hD, hlog⟩ := And.intro h.A (And.intro h.S (And.intro h.D h.log))
  rcases ofLine_cases (lineOf c) with ⟨he, hg⟩ | ⟨hlt, hg⟩
  · -- a point
    refine ⟨_, _, { X with
      Q := X.Q ++ [⟨.point (lineOf c).start, [((Seg.new lineOf st.segments c none).2.key, c)], false⟩],
      E := ⟨(lineOf c).start, .pointRight, (Seg.new lineOf st.segments c none).2.key⟩ ::
        ⟨(lineOf c).start, .pointLeft, (Seg.new lineOf st.segments c none).2.key⟩ :: X.E }, rfl, ?_⟩
    simp only [Option.getD_none, hg] at hrep
    have hsg : (Seg.new lineOf st.segments c none).2.geom = .point (lineOf c).start := by simp [Seg.new, hg]
    have hp : (⟨.point (lineOf c).start, [((Seg.new lineOf st.segments c none).2.key, c)], false⟩ : Grp K C).p = (lineOf c).start := rfl
    refine ⟨⟨?_, h.conc.act, h.conc.size, ?_⟩, hA, hS, hD, hlog, ⟨h.pieces.ok, ?_⟩, h.done, ?_, ?_, ?_, ?_, ?_, ?_, ?_, ?_, ?_, ?_, ?_⟩
    · refine hrep.perm ?_
      unfold Abs.live
      simp only
      list_perm
    · simp only [Seg.new, heapPush, Seg.rightEvent, Seg.leftEvent, Option.getD_none, hg, h.conc.ev]
    · intro g hg
      rcases List.mem_append.1 hg with hg | hg
      · exact h.pieces.pt g hg
      · rw [List.mem_singleton] at hg; subst hg
        refine ⟨rfl, by simp [Grp.cs], ?_⟩
        intro c' hc'
        simp only [Grp.cs, List.map_cons, List.map_nil, List.mem_singleton] at hc'
        subst hc'
        exact ⟨hc, rfl, he.symm⟩
    · intro g hg
      rcases List.mem_append.1 hg with hg | hg
      · exact h.single g hg
      · rw [List.mem_singleton] at hg; subst hg; exact ⟨_, _, rfl⟩
    · intro g hg
      simp [h.evR g hg]
    · simpa using h.evL
    · intro e he' ht
      simp only [List.mem_cons] at he'
      rcases he' with rfl | rfl | he'
      · exact ⟨_, List.mem_append_right _ (List.mem_singleton_self _), rfl, rfl⟩
      · exact ⟨_, List.mem_append_right _ (List.mem_singleton_self _), rfl, rfl⟩
      · obtain ⟨g, h1, h2⟩ := h.evQ e he' ht
        exact ⟨g, List.mem_append_left _ h1, h2⟩
    · intro e he' ht
      simp only [List.mem_cons] at he'
      rcases he' with rfl | rfl | he'
      · cases ht
      · cases ht
      · exact h.prodR e he' ht
    · intro e he' ht
      simp only [List.mem_cons] at he'
      rcases he' with rfl | rfl | he'
      · simp
      · cases ht
      · have := h.prodP e he' ht
        simp [this]
    · have : linesOf lineOf (seen ++ [c]) = linesOf lineOf seen := by
        unfold linesOf; rw [List.filter_append]; simp [he]
      rw [this]; exact h.tiled
    · intro g hg
      rcases List.mem_append.1 hg with hg | hg
      · have := h.evP g hg
        simp [this]
      · rw [List.mem_singleton] at hg; subst hg; simp [Grp.root, hp]
    · intro c' hc' he'
      rcases List.mem_append.1 hc' with hc' | hc'
      · obtain ⟨g, h1, h2⟩ := h.pts c' hc' he'
        exact ⟨g, List.mem_append_left _ h1, h2⟩
      · rw [List.mem_singleton] at hc'; subst hc'
        exact ⟨_, List.mem_append_right _ (List.mem_singleton_self _), by simp [Grp.cs]⟩
    · have := h.evP1
      rw [List.map_append]
      simp only [List.filter_cons]
      simp only [reduceCtorEq, decide_false, Bool.false_eq_true, if_false, decide_true, if_true, List.map_cons, List.map_nil]
      refine (this.cons _).trans ?_
      simp only [Grp.root, hp, List.head?_cons, Option.map_some, Option.getD_some]
      list_perm
    · rw [List.filter_append, ← h.ptl, List.flatMap_append]
      simp [Grp.cs, he]
  · -- a line
    have hne : (lineOf c).start ≠ (lineOf c).stop := by
      intro e
      rw [lo, hi, e] at hlt
      simp at hlt
    obtain ⟨g, hgdef⟩ : ∃ g : Grp K C, g = ⟨.line (lo (lineOf c)) (hi (lineOf c)), [((Seg.new lineOf st.segments c none).2.key, c)], false⟩ :=
      ⟨_, rfl⟩
    have hgp : g.p = lo (lineOf c) := by subst hgdef; rfl
    have hgq : g.q = hi (lineOf c) := by subst hgdef; rfl
    have hgr : g.root = (Seg.new lineOf st.segments c none).2.key := by subst hgdef; rfl
    have hgc : g.cs = [c] := by subst hgdef; rfl
    have hgd : g.done = false := by subst hgdef; rfl
    have hgl : g.IsLine := by subst hgdef; exact ⟨rfl, hlt⟩
    refine ⟨_, _, { X with P := X.P ++ [g], E := g.rightEv :: g.leftEv :: X.E }, rfl, ?_⟩
    simp only [Option.getD_none, hg, ← hgdef] at hrep
    have hsg : (Seg.new lineOf st.segments c none).2.geom = .line (lo (lineOf c)) (hi (lineOf c)) := by simp [Seg.new, hg]
    refine ⟨⟨?_, h.conc.act, h.conc.size, ?_⟩, hA, hS, hD, hlog, ⟨?_, h.pieces.pt⟩, ?_, h.single, ?_, ?_, ?_, ?_, ?_, ?_, ?_, ?_, ?_, ?_⟩
    · refine hrep.perm ?_
      unfold Abs.live
      simp only
      list_perm
    · simp only [Grp.rightEv, Grp.leftEv, hgp, hgq, hgr]
      simp only [Seg.new, heapPush, Seg.rightEvent, Seg.leftEvent, Option.getD_none, hg, h.conc.ev]
    · intro g' hg'
      unfold Abs.pieces at hg'
      simp only [List.mem_append, List.mem_singleton] at hg'
      have hall : g' ∈ X.pieces ∨ g' = g := by
        unfold Abs.pieces; simp only [List.mem_append]; tauto
      rcases hall with hall | rfl
      · exact h.pieces.ok g' hall
      · refine ⟨hgl, by simp [hgc], ?_, ?_, ?_⟩
        · intro c' hc'
          rw [hgc, List.mem_singleton] at hc'
          subst hc'
          refine ⟨hc, hlt, ?_, ?_⟩
          · rw [onLine_iff, hgp]; exact onSeg_left _ _
          · rw [onLine_iff, hgq]; exact onSeg_right _ _
        · rw [hgp]; exact .inl ⟨_, List.mem_map_of_mem hc, lo_end _⟩
        · rw [hgq]; exact .inl ⟨_, List.mem_map_of_mem hc, hi_end _⟩
    · intro g' hg'
      rcases List.mem_append.1 hg' with hg' | hg'
      · exact h.done g' hg'
      · rw [List.mem_singleton] at hg'; subst hg'; exact hgd
    · intro g' hg'
      rcases List.mem_append.1 hg' with hg' | hg'
      · simp [h.evR g' hg']
      · rw [List.mem_singleton] at hg'; subst hg'; simp
    · have := h.evL
      rw [List.map_append]
      simp only [List.filter_cons, Grp.rightEv, Grp.leftEv]
      simp only [reduceCtorEq, decide_false, Bool.false_eq_true, if_false, decide_true, if_true, List.map_cons, List.map_nil]
      exact (this.cons _).trans (List.perm_append_singleton _ _).symm
    · intro e he' ht
      simp only [List.mem_cons] at he'
      rcases he' with rfl | rfl | he'
      · rcases ht with ht | ht <;> cases ht
      · rcases ht with ht | ht <;> cases ht
      · exact h.evQ e he' ht
    · intro e he' ht
      simp only [List.mem_cons] at he'
      rcases he' with rfl | rfl | he'
      · exact ⟨g, by simp, rfl⟩
      · cases ht
      · obtain ⟨g', h1, h2⟩ := h.prodR e he' ht
        exact ⟨g', List.mem_append_left _ h1, h2⟩
    · intro e he' ht
      simp only [List.mem_cons] at he'
      rcases he' with rfl | rfl | he'
      · cases ht
      · cases ht
      · have := h.prodP e he' ht
        simp [this]
    · have : linesOf lineOf (seen ++ [c]) = linesOf lineOf seen ++ [c] := by
        unfold linesOf; rw [List.filter_append]; simp [hne]
      rw [this, List.flatMap_append]
      have := tiled_add h.tiled hlt
      simpa [Grp.tri, hgc, hgp, hgq] using this
    · intro g' hg'
      simp [h.evP g' hg']
    · intro c' hc' he'
      rcases List.mem_append.1 hc' with hc' | hc'
      · exact h.pts c' hc' he'
      · rw [List.mem_singleton] at hc'; subst hc'; exact absurd he' hne
    · simpa [Grp.rightEv, Grp.leftEv] using h.evP1
    · rw [List.filter_append, ← h.ptl]
      simp [hne]

theorem Init.fold (hor : ∀ c ∈ input, (LineOrPoint.ofLine (lineOf c)).first = org c) : ∀ (l seen : List C) (st : Sweep K C) (X : Abs K C), (∀ c ∈ l, c ∈ input) → Init org lineOf input st X seen →
    ∃ st' X', l.foldlM (fun st c => do let (st, _) ← st.createSegment lineOf c none none; pure st) st = some st' ∧
      Init org lineOf input st' X' (seen ++ l) := by
  intro l
  induction l with
  | nil => intro seen st X _ h; exact ⟨st, X, rfl, by simpa using h⟩
  | cons c l ih =>
    intro seen st X hl h
    obtain ⟨st1, k, X1, h1, h2⟩ := h.add hor (hl c (by simp))
    obtain ⟨st', X', h3, h4⟩ := ih (seen ++ [c]) st1 X1 (fun c hc => hl c (by simp [hc])) h2
    refine ⟨st', X', ?_, by simpa using h4⟩
    rw [List.foldlM_cons, h1]
    exact h3

theorem exists_below (l : List (Pt K)) : ∃ pos : Pt K, ∀ p ∈ l, pos < p := by
  induction l with
  | nil => exact ⟨⟨0, 0⟩, by simp⟩
  | cons p l ih =>
    obtain ⟨q, hq⟩ := ih
    have hp : (⟨p.x - 1, p.y⟩ : Pt K) < p := by rw [Pt.lt_def]; left; simp
    refine ⟨min q ⟨p.x - 1, p.y⟩, ?_⟩
    intro x hx
    rcases List.mem_cons.1 hx with rfl | hx
    · exact lt_of_le_of_lt (min_le_right _ _) hp
    · exact lt_of_le_of_lt (min_le_left _ _) (hq x hx)

/-- `Sweep::new` succeeds and establishes the invariants before the first event. -/
theorem init_exists (lineOf : C → Line K) (input : List C)
    (hor : ∀ c ∈ input, (LineOrPoint.ofLine (lineOf c)).first = org c) : ∃ pos st X, Sweep.new lineOf input = some st ∧
    Init org lineOf input st X input ∧ Inv org pos st X ∧ Hist org lineOf input pos X ∧ ∀ e ∈ X.E, pos < e.point := by
  obtain ⟨st, X, h1, h2⟩ := Init.fold (lineOf := lineOf) (input := input) hor input [] _ _ (fun _ h => h) Init.empty
  obtain ⟨pos, hpos⟩ := exists_below (X.E.map Event.point)
  have hpos' : ∀ e ∈ X.E, pos < e.point := fun e he => hpos _ (List.mem_map_of_mem he)
  rw [List.nil_append] at h2
  refine ⟨pos, st, X, h1, h2, ⟨h2.conc, ?_, ?_, h2.S⟩, ?_, hpos'⟩
  · refine ⟨?_, ?_, ?_, ?_, ?_, ?_, h2.evL, h2.evQ, fun e he => (hpos' e he).le, ?_, fun e he ht _ => h2.prodP e he ht⟩
    · rw [h2.A]; simp
    · intro g hg
      have hok := h2.pieces.ok g (by unfold Abs.pieces; simp [hg])
      refine ⟨hok.line, h2.done g hg, ?_⟩
      have hm : g.leftEv ∈ X.E := (List.mem_filter.1 (h2.evL.mem_iff.2 (List.mem_map_of_mem hg))).1
      exact (hpos' _ hm).le
    · rw [h2.S]; simp
    · intro g hg
      obtain ⟨k, c, hm⟩ := h2.single g hg
      exact ⟨k, c, (h2.pieces.pt g hg).geom, hm⟩
    · unfold Abs.sgs; rw [h2.A]; simp
    · rw [h2.A, h2.S]
      simpa using h2.evR
    · rw [h2.A, h2.S]
      intro e he ht _
      simpa using h2.prodR e he ht
  · unfold Abs.Chain Abs.sgs; rw [h2.A]; exact List.isChain_nil
  · refine ⟨?_, ?_, ?_, ?_, ?_, ?_, ?_, ?_, ?_, ?_, ?_, ?_⟩ <;> simp [h2.A, h2.D, h2.log, Blk]

end GeoCrossings

import Verif.Lemmas.SweepAbs
import Verif.Lemmas.SweepCut
import Verif.Spec.Sweep

/-! # The pieces the input lines are cut into -/
set_option linter.unusedSectionVars false
namespace GeoCrossings
open Spec

variable {K C : Type} [Field K] [LinearOrder K] [IsStrictOrderedRing K]
variable {org : C → Pt K} {allow : Prop}

/-! ## Input lines -/

theorem onSeg_comm {p q x : Pt K} : OnSeg p q x ↔ OnSeg q p x := by
  constructor <;> rintro ⟨t, h0, h1, hx, hy⟩ <;> exact ⟨1 - t, by linarith, by linarith, by rw [hx]; ring, by rw [hy]; ring⟩

theorem onSeg_self {p x : Pt K} : OnSeg p p x ↔ x = p := by
  constructor
  · rintro ⟨t, h0, h1, hx, hy⟩
    cases x; cases p
    simp_all
  · rintro rfl; exact onSeg_left _ _

theorem ofLine_cases (l : Line K) :
    (l.start = l.stop ∧ LineOrPoint.ofLine l = .point l.start) ∨ (lo l < hi l ∧ LineOrPoint.ofLine l = .line (lo l) (hi l)) := by
  unfold LineOrPoint.ofLine lo hi
  rcases lt_trichotomy l.start l.stop with h | h | h
  · right; rw [compare_lt_iff_lt.2 h, min_eq_left h.le, max_eq_right h.le]; exact ⟨h, rfl⟩
  · left; rw [compare_eq_iff_eq.2 h]; exact ⟨h, rfl⟩
  · right; rw [compare_gt_iff_gt.2 h, min_eq_right h.le, max_eq_left h.le]; exact ⟨h, rfl⟩

theorem onLine_iff (l : Line K) (x : Pt K) : OnLine l x ↔ OnSeg (lo l) (hi l) x := by
  unfold OnLine lo hi
  rcases le_total l.start l.stop with h | h
  · rw [min_eq_left h, max_eq_right h]
  · rw [min_eq_right h, max_eq_left h, onSeg_comm]

theorem lo_end (l : Line K) : lo l = l.start ∨ lo l = l.stop := min_choice _ _
theorem hi_end (l : Line K) : hi l = l.start ∨ hi l = l.stop := max_choice _ _

theorem on_ofLine (l : Line K) (x : Pt K) : On (.ofLine l) x ↔ OnLine l x := by
  rcases ofLine_cases l with ⟨h, e⟩ | ⟨h, e⟩
  · rw [e, OnLine, ← h, onSeg_self]; rfl
  · rw [e, onLine_iff]; rfl

/-- Two ends on a segment: everything between them is on it. -/
theorem onSeg_trans {a b p q x : Pt K} (hab : a < b) (hpq : p < q) (hp : OnSeg a b p) (hq : OnSeg a b q) (hx : OnSeg p q x) :
    OnSeg a b x := by
  rw [onSeg_iff hab] at hp hq ⊢
  rw [onSeg_iff hpq] at hx
  exact ⟨det_trans hpq.ne hp.1 hq.1 hx.1, hp.2.1.trans hx.2.1, hx.2.2.trans hq.2.2⟩

/-- A common point of two segments on one line that is the only one is an end. -/
theorem coll_common {p1 q1 p2 q2 r : Pt K} (w1 : p1 < q1) (w2 : p2 < q2) (hc : det p1 q1 p2 = 0 ∧ det p1 q1 q2 = 0)
    (h : ∀ x, OnSeg p1 q1 x ∧ OnSeg p2 q2 x ↔ x = r) : r = p1 ∨ r = p2 := by
  have hr := (h r).2 rfl
  rw [onSeg_iff w1, onSeg_iff w2] at hr
  obtain ⟨c1, c2⟩ := det_symm w1.ne hc.1 hc.2
  rcases max_choice p1 p2 with e | e
  · left
    refine ((h p1).1 ⟨onSeg_left _ _, (onSeg_iff w2).2 ⟨c1, by rw [← e]; exact le_max_right _ _, hr.1.2.1.trans hr.2.2.2⟩⟩).symm
  · right
    refine ((h p2).1 ⟨(onSeg_iff w1).2 ⟨hc.1, by rw [← e]; exact le_max_left _ _, hr.2.2.1.trans hr.1.2.2⟩, onSeg_left _ _⟩).symm

section
variable (lineOf : C → Line K) (input : List C)

/-- The piece from `p` to `q` is part of the input `c`. -/
structure SubOf (c : C) (p q : Pt K) : Prop where
  mem : c ∈ input
  line : lo (lineOf c) < hi (lineOf c)
  p : OnLine (lineOf c) p
  q : OnLine (lineOf c) q

structure PieceOk (g : Grp K C) : Prop where
  line : g.IsLine
  ne : g.cs ≠ []
  sub : ∀ c ∈ g.cs, SubOf lineOf input c g.p g.q
  cp : Critical (input.map lineOf) g.p
  cq : Critical (input.map lineOf) g.q

structure PointOk (g : Grp K C) : Prop where
  geom : g.geom = .point g.p
  ne : g.cs ≠ []
  sub : ∀ c ∈ g.cs, c ∈ input ∧ (lineOf c).start = g.p ∧ (lineOf c).stop = g.p

end

variable {lineOf : C → Line K} {input : List C}

theorem PointOk.crit {g : Grp K C} (h : PointOk lineOf input g) : Critical (input.map lineOf) g.p := by
  obtain ⟨c, hc⟩ := List.exists_mem_of_ne_nil _ h.ne
  obtain ⟨h1, h2, h3⟩ := h.sub c hc
  exact .inl ⟨_, List.mem_map_of_mem h1, .inl h2.symm⟩

/-- Where two pieces meet in one point, something happens in the input. -/
theorem crit_of_pieces {g1 g2 : Grp K C} {r : Pt K} (h1 : PieceOk lineOf input g1) (h2 : PieceOk lineOf input g2)
    (h : ∀ x, OnSeg g1.p g1.q x ∧ OnSeg g2.p g2.q x ↔ x = r) : Critical (input.map lineOf) r := by
  by_cases hc : det g1.p g1.q g2.p = 0 ∧ det g1.p g1.q g2.q = 0
  · rcases coll_common h1.line.2 h2.line.2 hc h with e | e
    · rw [e]; exact h1.cp
    · rw [e]; exact h2.cp
  · obtain ⟨c1, m1⟩ := List.exists_mem_of_ne_nil _ h1.ne
    obtain ⟨c2, m2⟩ := List.exists_mem_of_ne_nil _ h2.ne
    have s1 := h1.sub c1 m1
    have s2 := h2.sub c2 m2
    refine .inr ⟨_, List.mem_map_of_mem s1.mem, _, List.mem_map_of_mem s2.mem, ?_⟩
    have hr := (h r).2 rfl
    have p1 := s1.p; have q1 := s1.q; have p2 := s2.p; have q2 := s2.q
    rw [onLine_iff] at p1 q1 p2 q2
    have r1 := onSeg_trans s1.line h1.line.2 p1 q1 hr.1
    have r2 := onSeg_trans s2.line h2.line.2 p2 q2 hr.2
    intro x
    rw [onLine_iff, onLine_iff]
    constructor
    · rintro ⟨x1, x2⟩
      by_contra hne
      rw [onSeg_iff s1.line] at p1 q1 r1 x1
      rw [onSeg_iff s2.line] at p2 q2 r2 x2
      apply hc
      -- the line through `x` and `r` carries everything
      obtain ⟨a1, b1⟩ := det_symm s1.line.ne x1.1 r1.1
      obtain ⟨a2, b2⟩ := det_symm s2.line.ne x2.1 r2.1
      have e1 := det_trans s1.line.ne a1 b1 p1.1
      have e2 := det_trans s1.line.ne a1 b1 q1.1
      have e3 := det_trans s2.line.ne a2 b2 p2.1
      have e4 := det_trans s2.line.ne a2 b2 q2.1
      obtain ⟨f1, f2⟩ := det_symm hne e1 e2
      exact ⟨det_trans hne f1 f2 e3, det_trans hne f1 f2 e4⟩
    · rintro rfl; exact ⟨r1, r2⟩

/-! ## How the pieces change -/

def Abs.pieces (X : Abs K C) : List (Grp K C) := X.D ++ X.A ++ X.P ++ X.S

/-- One change of the pieces; `ok` holds of all points where something is cut. -/
inductive PStep (ok : Pt K → Prop) : List (Grp K C) → List (Grp K C) → Prop
  | cut {l l' rest g g2 r} : l.Perm (g :: rest) → g.IsLine → Inside g.p g.q r → ok r → Piece g g2 r g.q →
    l'.Perm (g.cut r :: g2 :: rest) → PStep ok l l'
  | done {l l' rest g} : l.Perm (g :: rest) → l'.Perm ({ g with done := true } :: rest) → PStep ok l l'
  | merge {l l' rest g s} : l.Perm (g :: s :: rest) → g.geom = s.geom →
    l'.Perm ({ g with mem := g.mem ++ s.mem } :: rest) → PStep ok l l'

inductive PSteps (ok : Pt K → Prop) : List (Grp K C) → List (Grp K C) → Prop
  | refl {l l'} : l.Perm l' → PSteps ok l l'
  | tail {l l' l''} : PSteps ok l l' → PStep ok l' l'' → PSteps ok l l''

theorem Prim.pieces {pos : Pt K} {X X' : Abs K C} (h : Prim org allow pos X X') : X'.Q = X.Q ∧ PSteps (Cross X) X.pieces X'.pieces := by
  unfold Abs.pieces
  cases h with
  | @cutA L g R r g2 hA hg hr hX hpos hp =>
    refine ⟨rfl, .tail (.refl (.refl _)) (.cut (g := g) (g2 := g2) (r := r) (rest := X.D ++ (L ++ R) ++ X.P ++ X.S) ?_ hg hr hX hp ?_)⟩
    · rw [hA]; list_perm
    · list_perm
  | @cutA2 L g R r1 r2 g2 g3 hA hg h1 h2 h12 hX1 hX2 hpos hp2 hp3 =>
    refine ⟨rfl, .tail (.tail (.refl (.refl _)) (.cut (g := g) (g2 := g2) (r := r2) (rest := X.D ++ (L ++ R) ++ X.P ++ X.S)
      (l' := g.cut r2 :: g2 :: (X.D ++ (L ++ R) ++ X.P ++ X.S)) ?_ hg h2 hX2 hp2 (.refl _)))
      (.cut (g := g.cut r2) (g2 := g3) (r := r1) (rest := g2 :: (X.D ++ (L ++ R) ++ X.P ++ X.S)) (.refl _)
        (g.cut_isLine h2.1) ⟨h1.1, h12, ?_⟩ hX1 ⟨hp3.geom, hp3.done, hp3.cs, hp3.ne⟩ ?_)⟩
    · rw [hA]; list_perm
    · exact det_trans hg.2.ne (det_left _ _) (by rw [Grp.cut_q, Grp.cut_p, det_swap, h2.2.2, neg_zero]) h1.2.2
    · show List.Perm _ (g.cut r1 :: g3 :: g2 :: _)
      list_perm
  | @cutS s r g2 hS hg hr hX hpos hp =>
    refine ⟨rfl, .tail (.refl (.refl _)) (.cut (g := s) (g2 := g2) (r := r) (rest := X.D ++ X.A ++ X.P) ?_ hg hr hX hp ?_)⟩
    · rw [hS]; list_perm
    · list_perm
  | drop => exact ⟨rfl, .refl (.refl _)⟩
  | @take L g R hP hS hp => 
    refine ⟨rfl, .refl ?_⟩
    rw [hP, hS]; list_perm
  | @mergeA L g R s out hA hS hge sp hl hl2 hem =>
    refine ⟨rfl, .tail (.refl (.refl _)) (.merge (g := g) (s := s) (rest := X.D ++ (L ++ R) ++ X.P) ?_ hge ?_)⟩
    · rw [hA, hS]; list_perm
    · list_perm
  | @mergeP L g R s hP hS hge =>
    refine ⟨rfl, .tail (.refl (.refl _)) (.merge (g := g) (s := s) (rest := X.D ++ X.A ++ (L ++ R)) ?_ hge ?_)⟩
    · rw [hP, hS]; list_perm
    · list_perm
  | @activate L R s out hA hS sp hl hl2 hem =>
    refine ⟨rfl, .tail (.refl (.refl _)) (.done (g := s) (rest := X.D ++ (L ++ R) ++ X.P) ?_ ?_)⟩
    · rw [hA, hS]; list_perm
    · list_perm
  | @finish L g R out hA hq hap hem =>
    refine ⟨rfl, .refl ?_⟩
    rw [hA]; list_perm
  | point => exact ⟨rfl, .refl (.refl _)⟩

/-- All pieces and points are accounted for. -/
structure Pieces (lineOf : C → Line K) (input : List C) (X : Abs K C) : Prop where
  ok : ∀ g ∈ X.pieces, PieceOk lineOf input g
  pt : ∀ g ∈ X.Q, PointOk lineOf input g

theorem Pieces.cross {X : Abs K C} (h : Pieces lineOf input X) {r : Pt K} (hr : Cross X r) : Critical (input.map lineOf) r := by
  have hlive : ∀ g ∈ X.live, PieceOk lineOf input g ∨ PointOk lineOf input g := by
    intro g hg
    unfold Abs.live at hg
    simp only [List.mem_append] at hg
    have h1 := h.ok g
    unfold Abs.pieces at h1
    simp only [List.mem_append] at h1
    rcases hg with ((hg | hg) | hg) | hg
    · exact .inl (h1 (by simp [hg]))
    · exact .inl (h1 (by simp [hg]))
    · exact .inl (h1 (by simp [hg]))
    · exact .inr (h.pt g hg)
  rcases hr with ⟨g, hg, hr⟩ | ⟨g1, hg1, g2, hg2, hr⟩
  · rcases hlive g hg with h1 | h1
    · rcases hr with rfl | rfl
      · exact h1.cp
      · exact h1.cq
    · have : g.q = g.p := by
        have := h1.geom
        rw [Grp.q, this]; rfl
      rw [this, or_self] at hr
      rw [hr]; exact h1.crit
  · have hon : ∀ {g : Grp K C}, PointOk lineOf input g → ∀ x, On g.geom x → x = g.p := by
      intro g h1 x hx
      rw [h1.geom] at hx; exact hx
    rcases hlive g1 hg1 with h1 | h1
    · rcases hlive g2 hg2 with h2 | h2
      · refine crit_of_pieces h1 h2 ?_
        intro x
        rw [← hr x, h1.line.1, h2.line.1]; rfl
      · rw [hon h2 r ((hr r).2 rfl).2]; exact h2.crit
    · rw [hon h1 r ((hr r).2 rfl).1]; exact h1.crit

theorem PStep.ok {ok : Pt K → Prop} {l l' : List (Grp K C)} (h : PStep ok l l') (hok : ∀ r, ok r → Critical (input.map lineOf) r)
    (hl : ∀ g ∈ l, PieceOk lineOf input g) : ∀ g ∈ l', PieceOk lineOf input g := by
  cases h with
  | @cut rest g g2 r h1 hg hr hX hp h2 =>
    have hgo := hl g (h1.mem_iff.2 (by simp))
    have hsub : ∀ c ∈ g.cs, OnLine (lineOf c) r := by
      intro c hc
      have s := hgo.sub c hc
      have p := s.p; have q := s.q
      rw [onLine_iff] at p q ⊢
      exact onSeg_trans s.line hg.2 p q hr.onSeg
    intro x hx
    rcases List.mem_cons.1 (h2.mem_iff.1 hx) with rfl | hx
    · exact ⟨g.cut_isLine hr.1, hgo.ne, fun c hc => ⟨(hgo.sub c hc).mem, (hgo.sub c hc).line, (hgo.sub c hc).p, hsub c hc⟩, hgo.cp, hok r hX⟩
    · rcases List.mem_cons.1 hx with rfl | hx
      · refine ⟨hp.isLine hr.2.1, ?_, ?_, ?_, ?_⟩
        · rw [hp.cs]; exact hgo.ne
        · rw [hp.cs, hp.p, hp.q]
          exact fun c hc => ⟨(hgo.sub c hc).mem, (hgo.sub c hc).line, hsub c hc, (hgo.sub c hc).q⟩
        · rw [hp.p]; exact hok r hX
        · rw [hp.q]; exact hgo.cq
      · exact hl x (h1.mem_iff.2 (by simp [hx]))
  | @done rest g h1 h2 =>
    intro x hx
    rcases List.mem_cons.1 (h2.mem_iff.1 hx) with rfl | hx
    · have := hl g (h1.mem_iff.2 (by simp))
      exact ⟨this.line, this.ne, this.sub, this.cp, this.cq⟩
    · exact hl x (h1.mem_iff.2 (by simp [hx]))
  | @merge rest g s h1 hge h2 =>
    intro x hx
    rcases List.mem_cons.1 (h2.mem_iff.1 hx) with rfl | hx
    · have a := hl g (h1.mem_iff.2 (by simp))
      have b := hl s (h1.mem_iff.2 (by simp))
      have hcs : ({ g with mem := g.mem ++ s.mem } : Grp K C).cs = g.cs ++ s.cs := by simp [Grp.cs]
      have hp : g.p = s.p := by rw [Grp.p, Grp.p, hge]
      have hq : g.q = s.q := by rw [Grp.q, Grp.q, hge]
      refine ⟨a.line, ?_, ?_, a.cp, a.cq⟩
      · rw [hcs]; simp [a.ne]
      · rw [hcs]
        intro c hc
        rcases List.mem_append.1 hc with hc | hc
        · exact a.sub c hc
        · have := b.sub c hc
          rw [← hp, ← hq] at this
          exact this
    · exact hl x (h1.mem_iff.2 (by simp [hx]))

theorem PSteps.ok {ok : Pt K → Prop} {l l' : List (Grp K C)} (h : PSteps ok l l') (hok : ∀ r, ok r → Critical (input.map lineOf) r)
    (hl : ∀ g ∈ l, PieceOk lineOf input g) : ∀ g ∈ l', PieceOk lineOf input g := by
  induction h with
  | refl h => exact fun g hg => hl g (h.mem_iff.2 hg)
  | tail _ h2 ih => exact h2.ok hok ih

theorem Pieces.prim {pos : Pt K} {X X' : Abs K C} (h : Pieces lineOf input X) (hp : Prim org allow pos X X') : Pieces lineOf input X' := by
  obtain ⟨hQ, hP⟩ := hp.pieces
  exact ⟨hP.ok (fun r hr => h.cross hr) h.ok, by rw [hQ]; exact h.pt⟩

/-! ## Tilings -/

def Grp.tri (g : Grp K C) : List (C × Pt K × Pt K) := g.cs.map fun c => (c, g.p, g.q)

/-- The triples are the pieces of consecutive subdivisions of all the lines `cs`. -/
def Tiled (lineOf : C → Line K) (cs : List C) (tri : List (C × Pt K × Pt K)) : Prop :=
  ∃ tl : List (C × List (Pt K × Pt K)), tl.map (·.1) = cs ∧ (∀ e ∈ tl, Consecutive (lo (lineOf e.1)) (hi (lineOf e.1)) e.2) ∧
    tri.Perm (tl.flatMap fun e => e.2.map fun ab => (e.1, ab))

theorem Tiled.perm {cs : List C} {t t' : List (C × Pt K × Pt K)} (h : Tiled lineOf cs t) (hp : t.Perm t') : Tiled lineOf cs t' := by
  obtain ⟨tl, h1, h2, h3⟩ := h
  exact ⟨tl, h1, h2, hp.symm.trans h3⟩

theorem consecutive_split {p q a b r : Pt K} {l1 l2 : List (Pt K × Pt K)} (h : Consecutive p q (l1 ++ (a, b) :: l2)) (h1 : a < r)
    (h2 : r < b) : Consecutive p q (l1 ++ (a, r) :: (r, b) :: l2) := by
  induction l1 generalizing p with
  | nil => exact ⟨h.1, h1, rfl, h2, h.2.2⟩
  | cons x l ih => exact ⟨h.1, h.2.1, ih h.2.2⟩

theorem Tiled.split {cs : List C} {c : C} {a b r : Pt K} {rest : List (C × Pt K × Pt K)}
    (h : Tiled lineOf cs ((c, a, b) :: rest)) (h1 : a < r) (h2 : r < b) : Tiled lineOf cs ((c, a, r) :: (c, r, b) :: rest) := by
  obtain ⟨tl, e1, e2, e3⟩ := h
  have hm := e3.mem_iff.1 (List.mem_cons_self)
  obtain ⟨e, he, hm⟩ := List.mem_flatMap.1 hm
  obtain ⟨ab, hab, heq⟩ := List.mem_map.1 hm
  obtain ⟨c', l⟩ := e
  simp only [Prod.mk.injEq] at heq
  obtain ⟨rfl, rfl⟩ := heq
  obtain ⟨t1, t2, rfl⟩ := List.append_of_mem he
  obtain ⟨l1, l2, hl⟩ := List.append_of_mem hab
  simp only at hl
  subst hl
  refine ⟨t1 ++ (c', l1 ++ (a, r) :: (r, b) :: l2) :: t2, ?_, ?_, ?_⟩
  · rw [← e1]; simp
  · intro e he'
    simp only [List.mem_append, List.mem_cons] at he'
    rcases he' with he' | rfl | he'
    · exact e2 e (by simp [he'])
    · exact consecutive_split (e2 _ he) h1 h2
    · exact e2 e (by simp [he'])
  · simp only [List.flatMap_append, List.flatMap_cons, List.map_append, List.map_cons] at e3 ⊢
    have e4 : rest.Perm (List.flatMap (fun e => e.2.map fun ab => (e.1, ab)) t1 ++
        ((l1.map fun ab => (c', ab)) ++ (l2.map fun ab => (c', ab))) ++ List.flatMap (fun e => e.2.map fun ab => (e.1, ab)) t2) := by
      refine (e3.trans ?_).cons_inv (a := (c', a, b))
      list_perm
    refine ((e4.cons _).cons _).trans ?_
    list_perm

theorem Tiled.cut {cs : List C} {l : List C} {a b r : Pt K} (h1 : a < r) (h2 : r < b) : ∀ {rest : List (C × Pt K × Pt K)},
    Tiled lineOf cs ((l.map fun c => (c, a, b)) ++ rest) →
    Tiled lineOf cs ((l.map fun c => (c, a, r)) ++ ((l.map fun c => (c, r, b)) ++ rest)) := by
  induction l with
  | nil => intro rest h; exact h
  | cons c l ih =>
    intro rest h
    have h3 : Tiled lineOf cs ((c, a, b) :: ((l.map fun c => (c, a, b)) ++ rest)) := h
    have h4 := h3.split h1 h2
    have h5 : Tiled lineOf cs ((l.map fun c => (c, a, b)) ++ ((c, a, r) :: (c, r, b) :: rest)) := h4.perm (by list_perm)
    refine (ih h5).perm ?_
    simp only [List.map_cons]
    list_perm

theorem PStep.tiled {ok : Pt K → Prop} {l l' : List (Grp K C)} {cs : List C} (h : PStep ok l l')
    (ht : Tiled lineOf cs (l.flatMap Grp.tri)) : Tiled lineOf cs (l'.flatMap Grp.tri) := by
  cases h with
  | @cut rest g g2 r h1 hg hr hX hp h2 =>
    have h3 : Tiled lineOf cs ((g.cs.map fun c => (c, g.p, g.q)) ++ rest.flatMap Grp.tri) := ht.perm (by
      have := h1.flatMap_right Grp.tri
      rw [List.flatMap_cons] at this
      exact this)
    refine (h3.cut hr.1 hr.2.1).perm ?_
    refine List.Perm.trans ?_ (h2.flatMap_right Grp.tri).symm
    simp [List.flatMap_cons, Grp.tri, hp.cs, hp.p, hp.q]
  | @done rest g h1 h2 =>
    refine ht.perm ((h1.flatMap_right Grp.tri).trans ((h2.flatMap_right Grp.tri).symm))
  | @merge rest g s h1 hge h2 =>
    refine ht.perm ((h1.flatMap_right Grp.tri).trans (List.Perm.trans ?_ ((h2.flatMap_right Grp.tri).symm)))
    have hp : s.p = g.p := by rw [Grp.p, Grp.p, hge]
    have hq : s.q = g.q := by rw [Grp.q, Grp.q, hge]
    simp [List.flatMap_cons, Grp.tri, Grp.cs, hp, hq]
    rfl

theorem PSteps.tiled {ok : Pt K → Prop} {l l' : List (Grp K C)} {cs : List C} (h : PSteps ok l l')
    (ht : Tiled lineOf cs (l.flatMap Grp.tri)) : Tiled lineOf cs (l'.flatMap Grp.tri) := by
  induction h with
  | refl h => exact ht.perm (h.flatMap_right _)
  | tail _ h2 ih => exact h2.tiled ih

end GeoCrossings

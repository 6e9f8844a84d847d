import Verif.Lemmas.MonoSweep
import Verif.Lemmas.MonoWedge
import Verif.Lemmas.MonoOps2

/-!
# The chains of every gap

In a plain gap there is one piece; in a gap whose helper is a merge vertex there are two, that meet at this vertex.
-/
set_option linter.unusedSectionVars false
namespace GeoCrossings.Monotone
open Spec

variable {K : Type} [Field K] [LinearOrder K] [IsStrictOrderedRing K]

/-- No vertex lies inside the segment. -/
def Clear (n : Nat) (ed : Nat → Sg K) (e : Sg K) : Prop :=
  ∀ k, 1 ≤ k → k ≤ n → ∀ x, EndOf (ed k) x → e.1 < x → x < e.2 → det e.1 e.2 x ≠ 0

def ClearL (n : Nat) (ed : Nat → Sg K) (l : List (Pt K)) : Prop := ∀ e ∈ es l, Clear n ed e

structure PieceOk (n : Nat) (ed : Nat → Sg K) (p : Piece K) : Prop where
  incT : Incr p.T
  incB : Incr p.B
  head : p.T.head? = p.B.head?
  goodT : ClearL n ed p.T
  goodB : ClearL n ed p.B

/-- The chain ends in an edge with label `s`, or in a diagonal that starts at a vertex where no edge starts. -/
def Tail (n : Nat) (ed : Nat → Sg K) (top : Nat → Bool) (s : Bool) (l : List (Pt K)) : Prop :=
  (∃ k, 1 ≤ k ∧ k ≤ n ∧ top k = s ∧ EndsIn l (ed k).1 (ed k).2) ∨ (∃ x y, EndsIn l x y ∧ ∀ k, 1 ≤ k → k ≤ n → (ed k).1 ≠ x)

structure Plain (n : Nat) (ed : Nat → Sg K) (w : Pt K) (g : Gap K) (p : Piece K) : Prop where
  ok : PieceOk n ed p
  tp : EndsIn p.T (ed g.t).1 (ed g.t).2
  bt : EndsIn p.B (ed g.b).1 (ed g.b).2
  above : AboveTo w p.T p.B
  apex : (ed g.b).1 = (ed g.t).1 → p.T.head? = some (ed g.t).1

structure Merged (n : Nat) (ed : Nat → Sg K) (top : Nat → Bool) (g : Gap K) (lo up : Piece K) : Prop where
  okl : PieceOk n ed lo
  oku : PieceOk n ed up
  tp : EndsIn up.T (ed g.t).1 (ed g.t).2
  bt : EndsIn lo.B (ed g.b).1 (ed g.b).2
  lkT : lo.T.getLast? = some g.h
  lkB : up.B.getLast? = some g.h
  tlT : Tail n ed top true lo.T
  tlB : Tail n ed top false up.B
  abl : AboveTo g.h lo.T lo.B
  abu : AboveTo g.h up.T up.B
  hb : 0 < det (ed g.b).1 (ed g.b).2 g.h
  ht : det (ed g.t).1 (ed g.t).2 g.h < 0

abbrev Cell (K : Type) := Gap K × List (Piece K)

def CellOk (n : Nat) (ed : Nat → Sg K) (top : Nat → Bool) (w : Pt K) (c : Cell K) : Prop :=
  (c.1.mg = false ∧ ∃ p, c.2 = [p] ∧ Plain n ed w c.1 p) ∨ (c.1.mg = true ∧ ∃ lo up, c.2 = [lo, up] ∧ Merged n ed top c.1 lo up)

structure DoneOk (n : Nat) (ed : Nat → Sg K) (p : Piece K) : Prop where
  ok : PieceOk n ed p
  last : p.T.getLast? = p.B.getLast?
  two : 2 ≤ p.T.length
  above : ∀ x, p.T.getLast? ≠ some x → WPass x p.T → Pass x p.B
  full : ∃ x, Pass x p.B ∧ ¬ Pass x p.T

def opens (cells : List (Cell K)) : List (Piece K) := cells.flatMap (·.2)

@[simp] theorem opens_nil : opens ([] : List (Cell K)) = [] := rfl
@[simp] theorem opens_cons (c : Cell K) (cs : List (Cell K)) : opens (c :: cs) = c.2 ++ opens cs := rfl
@[simp] theorem opens_append (a b : List (Cell K)) : opens (a ++ b) = opens a ++ opens b := List.flatMap_append

def edgeSum (ed : Nat → Sg K) (top : Nat → Bool) (f : Sg K → K) (S : List Nat) : K :=
  (S.map fun k => if top k then f (ed k) else - f (ed k)).sum

structure CInv (n : Nat) (ed : Nat → Sg K) (top : Nat → Bool) (u : Pt K) (cells : List (Cell K)) (d : List (Piece K)) (S : List Nat)
    (chains : List (Chain K)) : Prop where
  rep : Rep chains (opens cells) d
  cell : ∀ c ∈ cells, CellOk n ed top u c
  done : ∀ p ∈ d, DoneOk n ed p
  nodup : S.Nodup
  mem : ∀ k, k ∈ S ↔ 1 ≤ k ∧ k ≤ n ∧ (ed k).1 ≤ u
  bal : ∀ f : Sg K → K, tot f (opens cells) + tot f d = edgeSum ed top f S

variable {n : Nat} {ed : Nat → Sg K} {top : Nat → Bool} {u v w : Pt K} {gs gs' : List (Gap K)} {cells : List (Cell K)}
  {d : List (Piece K)} {S : List Nat} {chains : List (Chain K)}

/-! ## Segments without vertices inside -/

theorem ClearL.snoc {l : List (Pt K)} {a b : Pt K} (h : ClearL n ed l) (ha : l.getLast? = some a) (hg : Clear n ed (a, b)) :
    ClearL n ed (l ++ [b]) := by
  intro e he
  rw [es_snoc ha, List.mem_append, List.mem_singleton] at he
  rcases he with he | rfl
  · exact h e he
  · exact hg

theorem ClearL.init {l : List (Pt K)} {a b : Pt K} (h : ClearL n ed (l ++ [b])) (ha : l.getLast? = some a) : ClearL n ed l := fun e he =>
  h e (by rw [es_snoc ha]; exact List.mem_append_left _ he)

theorem ClearL.pair {a b : Pt K} (hg : Clear n ed (a, b)) : ClearL n ed [a, b] := by
  intro e he
  simp only [es, List.tail_cons, List.zip_cons_cons, List.zip_nil_right, List.mem_singleton] at he
  exact he ▸ hg

theorem Edges.good (E : Edges n ed top) {j : Nat} (rj : 1 ≤ j ∧ j ≤ n) : Clear n ed (ed j) := by
  intro k k1 k2 x hx h1 h2 h0
  rcases E.end_of_det k1 k2 rj.1 rj.2 hx h1.le h2.le h0 with h | h
  · exact h1.ne' h
  · exact h2.ne h

theorem Edges.good' (E : Edges n ed top) {j : Nat} (rj : 1 ≤ j ∧ j ≤ n) (ej : (ed j).1 = v) : Clear n ed (v, (ed j).2) := by
  have := E.good rj
  rwa [show ed j = (v, (ed j).2) by rw [← ej]] at this

/-! ## Geometry of a gap -/

structure GapAt (n : Nat) (ed : Nat → Sg K) (v : Pt K) (g : Gap K) : Prop where
  b1 : 1 ≤ g.b
  b2 : g.b ≤ n
  t1 : 1 ≤ g.t
  t2 : g.t ≤ n
  ne : g.b ≠ g.t
  bl : (ed g.b).1 < v
  br : v ≤ (ed g.b).2
  tl : (ed g.t).1 < v
  tr : v ≤ (ed g.t).2
  hl : g.h < v
  lt : (ed g.b).Lt (ed g.t)

theorem GInv.at (hI : GInv n ed top u gs) (hv : Next n ed u v) {g : Gap K} (hg : g ∈ gs) : GapAt n ed v g := by
  obtain ⟨mb, mt⟩ := mem_flat_of hg
  obtain ⟨b1, b2, b3, b4⟩ := hI.act.spans hv mb
  obtain ⟨t1, t2, t3, t4⟩ := hI.act.spans hv mt
  have ok := hI.ok g hg
  refine ⟨b1, b2, t1, t2, ?_, b3, b4, t3, t4, ok.le.trans_lt hv.lt, ?_⟩
  · intro h; have := ok.labB; rw [h, ok.labT] at this; cases this
  · have := (List.pairwise_flatMap.1 hI.act.sorted).1 g hg
    simpa using this

theorem GapAt.det_b (E : Edges n ed top) {g : Gap K} (h : GapAt n ed v g) (ht : (ed g.t).2 = v) : 0 ≤ det (ed g.b).1 (ed g.b).2 v := by
  by_contra hc
  have := (mono (E.lt _ h.b1 h.b2) (E.lt _ h.t1 h.t2) h.lt (E.apart h.b1 h.b2 h.t1 h.t2 h.ne h.bl h.br h.tl h.tr) h.bl.le h.br h.tl.le h.tr).1
    (not_le.1 hc)
  rw [← ht, det_right] at this
  exact lt_irrefl _ this

theorem GapAt.det_t (E : Edges n ed top) {g : Gap K} (h : GapAt n ed v g) (hb : (ed g.b).2 = v) : det (ed g.t).1 (ed g.t).2 v ≤ 0 :=
  (mono (E.lt _ h.b1 h.b2) (E.lt _ h.t1 h.t2) h.lt (E.apart h.b1 h.b2 h.t1 h.t2 h.ne h.bl h.br h.tl h.tr) h.bl.le h.br h.tl.le h.tr).2
    (by rw [← hb, det_right])

/-- No vertex lies inside the diagonal from the helper of a gap to the next vertex. -/
theorem GOk.good {g : Gap K} (go : GOk n ed top u g) (hv : Next n ed u v) (ha : GapAt n ed v g)
    (hb : 0 ≤ det (ed g.b).1 (ed g.b).2 g.h) (db : 0 ≤ det (ed g.b).1 (ed g.b).2 v)
    (sb : 0 < det (ed g.b).1 (ed g.b).2 g.h ∨ 0 < det (ed g.b).1 (ed g.b).2 v)
    (ht : det (ed g.t).1 (ed g.t).2 g.h ≤ 0) (dt : det (ed g.t).1 (ed g.t).2 v ≤ 0)
    (st : det (ed g.t).1 (ed g.t).2 g.h < 0 ∨ det (ed g.t).1 (ed g.t).2 v < 0) : Clear n ed (g.h, v) := by
  intro k k1 k2 x hx h1 h2 h0
  simp only at h1 h2 h0
  have hu : x ≤ u := by
    rcases hx with rfl | rfl
    · exact (hv.left k k1 k2).resolve_right (not_le.2 h2)
    · exact (hv.right k k1 k2).resolve_right (not_le.2 h2)
  refine go.empty k k1 k2 x hx h1 hu ⟨?_, ?_⟩
  · exact (diag_above go.leftB ha.br hb db sb h2 ⟨h1, h2.le, h0.ge⟩).2.2
  · by_contra hc
    exact absurd (diag_below go.leftT ha.tr ht dt st h1 h2 (not_lt.1 hc)).2.2 (not_lt.2 h0.le)

/-- An edge that does not end at `v` does not contain an end at `v` of another edge. -/
theorem Edges.off (E : Edges n ed top) {i j : Nat} (i1 : 1 ≤ i) (i2 : i ≤ n) (j1 : 1 ≤ j) (j2 : j ≤ n) (hij : i ≠ j) (h1 : (ed i).1 < v)
    (h2 : v ≤ (ed i).2) (h3 : (ed i).2 ≠ v) (h4 : (ed j).2 = v) : det (ed i).1 (ed i).2 v ≠ 0 := by
  intro h0
  have := E.meet i j i1 i2 j1 j2 hij v ((onSeg_iff (E.lt i i1 i2)).2 ⟨h0, h1.le, h2⟩) (h4 ▸ E.onSeg_right j1 j2)
  rcases this.1 with h | h
  · exact absurd h1 (by rw [← h]; exact lt_irrefl _)
  · exact h3 h.symm

theorem GapAt.det_b_pos (E : Edges n ed top) {g : Gap K} (h : GapAt n ed v g) (ht : (ed g.t).2 = v) (hb : (ed g.b).2 ≠ v) :
    0 < det (ed g.b).1 (ed g.b).2 v :=
  lt_of_le_of_ne (h.det_b E ht) (E.off h.b1 h.b2 h.t1 h.t2 h.ne h.bl h.br hb ht).symm

theorem GapAt.det_t_neg (E : Edges n ed top) {g : Gap K} (h : GapAt n ed v g) (hb : (ed g.b).2 = v) (ht : (ed g.t).2 ≠ v) :
    det (ed g.t).1 (ed g.t).2 v < 0 :=
  lt_of_le_of_ne (h.det_t E hb) (E.off h.t1 h.t2 h.b1 h.b2 h.ne.symm h.tl h.tr ht hb)

theorem Edges.apart' (E : Edges n ed top) {i j : Nat} (i1 : 1 ≤ i) (i2 : i ≤ n) (j1 : 1 ≤ j) (j2 : j ≤ n) (hij : i ≠ j) {x : Pt K}
    (bi : x < (ed i).2) (bj : x < (ed j).2) : (ed i).Apart x (ed j) := by
  intro r hr m1 m2
  obtain ⟨h1, h2⟩ := E.meet i j i1 i2 j1 j2 hij r m1 m2
  rcases h1 with h1 | h1 <;> rcases h2 with h2 | h2
  · exact .inl ⟨h1, h2⟩
  · exact absurd (h2 ▸ hr) (not_le.2 bj)
  · exact absurd (h1 ▸ hr) (not_le.2 bi)
  · exact absurd (h1 ▸ hr) (not_le.2 bi)

theorem Plain.advance (E : Edges n ed top) {g : Gap K} {p : Piece K} (hp : Plain n ed u g p) (h : GapAt n ed v g)
    (lb : (ed g.b).1 ≤ u) (lt : (ed g.t).1 ≤ u) : Plain n ed v g p where
  ok := hp.ok
  tp := hp.tp
  bt := hp.bt
  apex := hp.apex
  above := by
    intro x hx hP
    rcases lt_or_ge x u with hu | hu
    · exact hp.above x hu hP
    · refine pass_of_edge hp.bt ?_
      have hm := mono (E.lt _ h.b1 h.b2) (E.lt _ h.t1 h.t2) h.lt (E.apart' h.b1 h.b2 h.t1 h.t2 h.ne (hx.trans_le h.br) (hx.trans_le h.tr))
        (lb.trans hu) (hx.trans_le h.br).le (lt.trans hu) (hx.trans_le h.tr).le
      have hnb : (ed g.b).2 ≠ x := fun e => absurd (e ▸ h.br) (not_le.2 hx)
      have hnt : (ed g.t).2 ≠ x := fun e => absurd (e ▸ h.tr) (not_le.2 hx)
      have hd : 0 ≤ det (ed g.t).1 (ed g.t).2 x ∧ ((ed g.b).1 = x → (ed g.t).1 ≠ x) := by
        rcases (lt.trans hu).lt_or_eq with ht | ht
        · exact ⟨(wpass_edge hp.ok.incT hp.tp ht hP).2.2, fun _ => ht.ne⟩
        · refine ⟨by rw [← ht, det_left], fun hb _ => ?_⟩
          have := wpass_head hp.ok.incT (hp.apex (hb.trans ht.symm)) hP
          exact absurd ht this.ne
      have h0 : det (ed g.b).1 (ed g.b).2 x ≠ 0 := by
        intro h0
        have h0' := le_antisymm (hm.2 h0) hd.1
        obtain ⟨m1, m2⟩ := E.meet _ _ h.b1 h.b2 h.t1 h.t2 h.ne x ((onSeg_iff (E.lt _ h.b1 h.b2)).2 ⟨h0, lb.trans hu, (hx.trans_le h.br).le⟩)
          ((onSeg_iff (E.lt _ h.t1 h.t2)).2 ⟨h0', lt.trans hu, (hx.trans_le h.tr).le⟩)
        rcases m1 with m1 | m1
        · rcases m2 with m2 | m2
          · exact hd.2 m1.symm m2.symm
          · exact hnt m2.symm
        · exact hnb m1.symm
      refine ⟨lt_of_le_of_ne (lb.trans hu) ?_, hx.trans_le h.br, ?_⟩
      · intro e
        simp only at e
        rw [← e, det_left] at h0
        exact h0 rfl
      · rcases lt_trichotomy (det (ed g.b).1 (ed g.b).2 x) 0 with h | h | h
        · exact absurd hd.1 (not_le.2 (hm.1 h))
        · exact absurd h h0
        · exact h

theorem CellOk.advance (E : Edges n ed top) {c : Cell K} (hc : CellOk n ed top u c) (h : GapAt n ed v c.1)
    (lb : (ed c.1.b).1 ≤ u) (lt : (ed c.1.t).1 ≤ u) : CellOk n ed top v c := by
  rcases hc with ⟨m, p, e, hp⟩ | hc
  · exact .inl ⟨m, p, e, hp.advance E h lb lt⟩
  · exact .inr hc

theorem Merged.lo_above {g : Gap K} {lo up : Piece K} (h : Merged n ed top g lo up) (lb : (ed g.b).1 ≤ g.h) (rb : v ≤ (ed g.b).2)
    (db : 0 ≤ det (ed g.b).1 (ed g.b).2 v) : AboveTo v (lo.T ++ [v]) lo.B := by
  intro x hx hP
  rcases (wpass_snoc h.lkT v).1 hP with hP | hP
  · rcases (wpass_le h.okl.incT h.lkT hP).lt_or_eq with hl | rfl
    · exact h.abl x hl hP
    · refine pass_of_edge h.bt ⟨lt_of_le_of_ne lb ?_, hx.trans_le rb, h.hb⟩
      intro e
      have := h.hb
      rw [← show (ed g.b).1 = g.h from e, det_left] at this
      exact lt_irrefl _ this
  · exact pass_of_edge h.bt (diag_above lb rb h.hb.le db (.inl h.hb) hx hP)

theorem Merged.up_above {g : Gap K} {lo up : Piece K} (h : Merged n ed top g lo up) (lt : (ed g.t).1 ≤ g.h) (rt : v ≤ (ed g.t).2)
    (dt : det (ed g.t).1 (ed g.t).2 v ≤ 0) : AboveTo v up.T (up.B ++ [v]) := by
  intro x hx hP
  rw [pass_snoc h.lkB v]
  rcases lt_or_ge x g.h with hu | hu
  · exact .inl (h.abu x hu hP)
  · have hlt : (ed g.t).1 < g.h := lt_of_le_of_ne lt fun e => by
      have := h.ht
      rw [← e, det_left] at this
      exact lt_irrefl _ this
    have hP' := wpass_edge h.oku.incT h.tp (hlt.trans_le hu) hP
    rcases hu.lt_or_eq with hu | rfl
    · exact .inr (diag_below lt rt h.ht.le dt (.inl h.ht) hu hx hP'.2.2)
    · exact absurd hP'.2.2 (not_le.2 h.ht)

theorem Merged.good {g : Gap K} {lo up : Piece K} (h : Merged n ed top g lo up) (go : GOk n ed top u g) (hv : Next n ed u v)
    (ha : GapAt n ed v g) (db : 0 ≤ det (ed g.b).1 (ed g.b).2 v) (dt : det (ed g.t).1 (ed g.t).2 v ≤ 0) : Clear n ed (g.h, v) :=
  go.good hv ha h.hb.le db (.inl h.hb) h.ht.le dt (.inl h.ht)

theorem head_snoc {l : List (Pt K)} {a b : Pt K} (h : l.getLast? = some a) : (l ++ [b]).head? = l.head? := by
  cases l with
  | nil => simp at h
  | cons x l => rfl

/-- The pieces on the two sides of the diagonal from a merge vertex to `v` are not empty. -/
theorem Merged.lo_full {g : Gap K} {lo up : Piece K} (h : Merged n ed top g lo up) (ha : GapAt n ed v g) (eb : (ed g.b).2 = v) :
    ∃ x, Pass x lo.B ∧ ¬ Pass x (lo.T ++ [v]) := by
  refine wedge_between (h.okl.incT.snoc h.lkT ha.hl) h.okl.incB ?_ (EndsIn.snoc h.lkT v) (eb ▸ h.bt) (by have := h.hb; rwa [eb] at this)
  rw [head_snoc h.lkT]; exact h.okl.head

theorem Merged.up_full {g : Gap K} {lo up : Piece K} (h : Merged n ed top g lo up) (ha : GapAt n ed v g) (et : (ed g.t).2 = v) :
    ∃ x, Pass x (up.B ++ [v]) ∧ ¬ Pass x up.T := by
  refine wedge_between h.oku.incT (h.oku.incB.snoc h.lkB ha.hl) ?_ (et ▸ h.tp) (EndsIn.snoc h.lkB v) ?_
  · rw [head_snoc h.lkB]; exact h.oku.head
  · have := h.ht
    rw [et] at this
    have e : det g.h v (ed g.t).1 = - det (ed g.t).1 v g.h := by unfold det; ring
    rw [e]; linarith

/-! ## Who looks where -/

theorem CellOk.lasts {c : Cell K} (hc : CellOk n ed top w c) {p : Piece K} (hp : p ∈ c.2) :
    (p.T.getLast? = some (ed c.1.t).2 ∨ c.1.mg = true ∧ p.T.getLast? = some c.1.h) ∧
    (p.B.getLast? = some (ed c.1.b).2 ∨ c.1.mg = true ∧ p.B.getLast? = some c.1.h) := by
  rcases hc with ⟨m, q, e, hq⟩ | ⟨m, lo, up, e, hq⟩
  · rw [e, List.mem_singleton] at hp
    subst hp
    exact ⟨.inl hq.tp.last, .inl hq.bt.last⟩
  · rw [e] at hp
    simp only [List.mem_cons, List.not_mem_nil, or_false] at hp
    rcases hp with rfl | rfl
    · exact ⟨.inr ⟨m, hq.lkT⟩, .inl hq.bt.last⟩
    · exact ⟨.inl hq.tp.last, .inr ⟨m, hq.lkB⟩⟩

theorem noLook {C : List (Cell K)} {m : Pt K} (h : ∀ c ∈ C, CellOk n ed top w c)
    (hr : ∀ c ∈ C, (ed c.1.b).2 ≠ m ∧ (ed c.1.t).2 ≠ m ∧ (c.1.mg = true → c.1.h ≠ m)) : NoLook m (opens C) := by
  intro p hp
  obtain ⟨c, hc, hp⟩ := List.mem_flatMap.1 hp
  obtain ⟨h1, h2⟩ := (h c hc).lasts hp
  obtain ⟨r1, r2, r3⟩ := hr c hc
  constructor
  · rcases h1 with h1 | ⟨h0, h1⟩ <;> rw [h1] <;> intro e
    · exact r2 (Option.some.inj e)
    · exact r3 h0 (Option.some.inj e)
  · rcases h2 with h2 | ⟨h0, h2⟩ <;> rw [h2] <;> intro e
    · exact r1 (Option.some.inj e)
    · exact r3 h0 (Option.some.inj e)

/-- Exactly two edges end at a vertex. -/
theorem Edges.two_ends (E : Edges n ed top) {a b k : Nat} (ra : 1 ≤ a ∧ a ≤ n) (rb : 1 ≤ b ∧ b ≤ n) (hab : a ≠ b) (ha : EndOf (ed a) v)
    (hb : EndOf (ed b) v) (k1 : 1 ≤ k) (k2 : k ≤ n) (hk : EndOf (ed k) v) : k = a ∨ k = b := by
  obtain ⟨j, -, -, hj, -, hu⟩ := E.deg a ra.1 ra.2 v ha
  rcases hu b rb.1 rb.2 hb with h | h
  · exact absurd h.symm hab
  · rw [h]; exact hu k k1 k2 hk

/-! ## The change at one place -/

/-- What stays and what changes at the vertex. -/
theorem CInv.local {C1 Cm Cm' C2 : List (Cell K)} {A : List (Piece K)} {N : List Nat} {chains' : List (Chain K)}
    (hC : CInv n ed top u (C1 ++ Cm ++ C2) d S chains) (hv : Next n ed u v) (ho : ∀ c ∈ C1 ++ C2, CellOk n ed top v c)
    (R : Rep chains' (opens Cm' ++ opens (C1 ++ C2)) (A ++ d)) (hm : ∀ c ∈ Cm', CellOk n ed top v c) (hA : ∀ p ∈ A, DoneOk n ed p)
    (hN : N.Nodup) (hN' : ∀ k, k ∈ N ↔ 1 ≤ k ∧ k ≤ n ∧ (ed k).1 = v)
    (hb : ∀ f : Sg K → K, tot f (opens Cm') + tot f A = tot f (opens Cm) + edgeSum ed top f N) :
    CInv n ed top v (C1 ++ Cm' ++ C2) (A ++ d) (N ++ S) chains' where
  rep := by
    refine R.perm ?_ (List.Perm.refl _)
    simp only [opens_append]
    exact (List.perm_append_comm_assoc _ _ _).trans (by rw [List.append_assoc])
  cell := by
    intro c hc
    simp only [List.mem_append] at hc
    rcases hc with (hc | hc) | hc
    · exact ho c (by simp [hc])
    · exact hm c hc
    · exact ho c (by simp [hc])
  done := by
    intro p hp
    rcases List.mem_append.1 hp with hp | hp
    · exact hA p hp
    · exact hC.done p hp
  nodup := by
    refine List.Nodup.append hN hC.nodup ?_
    intro k h1 h2
    have := ((hC.mem k).1 h2).2.2
    rw [((hN' k).1 h1).2.2] at this
    exact absurd hv.lt (not_lt.2 this)
  mem := by
    intro k
    rw [List.mem_append, hN', hC.mem]
    constructor
    · rintro (⟨h1, h2, h3⟩ | ⟨h1, h2, h3⟩)
      · exact ⟨h1, h2, h3.le⟩
      · exact ⟨h1, h2, h3.trans hv.lt.le⟩
    · rintro ⟨h1, h2, h3⟩
      rcases hv.left k h1 h2 with h | h
      · exact .inr ⟨h1, h2, h⟩
      · exact .inl ⟨h1, h2, le_antisymm h3 h⟩
  bal := by
    intro f
    have h1 := hC.bal f
    have h2 := hb f
    simp only [opens_append, tot_append] at h1 h2 ⊢
    have : edgeSum ed top f (N ++ S) = edgeSum ed top f N + edgeSum ed top f S := by simp [edgeSum]
    rw [this, ← h1]
    linear_combination h2

theorem CInv.rep' {C1 Cm C2 : List (Cell K)} (hC : CInv n ed top u (C1 ++ Cm ++ C2) d S chains) :
    Rep chains (opens Cm ++ opens (C1 ++ C2)) d := by
  refine hC.rep.perm ?_ (List.Perm.refl _)
  simp only [opens_append]
  rw [List.append_assoc]
  exact List.perm_append_comm_assoc _ _ _

/-! ## Stages -/

theorem fold_append (dbg : Bool) (ty : VertexType) {a b : List (Link K)} {s s' : List (Chain K) × Option Nat}
    (h : a.foldlM (applyLink dbg v ty) s = some s') : (a ++ b).foldlM (applyLink dbg v ty) s = b.foldlM (applyLink dbg v ty) s' := by
  rw [List.foldlM_append, h]; rfl

theorem fold_one (dbg : Bool) (ty : VertexType) {a : Link K} {s s' : List (Chain K) × Option Nat}
    (h : applyLink dbg v ty s a = some s') : [a].foldlM (applyLink dbg v ty) s = some s' := by
  simp [h]

theorem EndsIn.length {l : List (Pt K)} {a b : Pt K} (h : EndsIn l a b) : 2 ≤ l.length := by
  obtain ⟨pre, rfl⟩ := h
  simp

/-- The lower part of a gap whose upper edge ends at `v`. -/
structure Low (n : Nat) (ed : Nat → Sg K) (top : Nat → Bool) (v : Pt K) (b : Nat) (lo : Piece K) : Prop where
  ok : PieceOk n ed lo
  bt : EndsIn lo.B (ed b).1 (ed b).2
  lk : lo.T.getLast? = some v
  tl : Tail n ed top true lo.T
  ab : AboveTo v lo.T lo.B
  wedge : (ed b).2 = v → ∃ a, EndsIn lo.T a v ∧ 0 < det (ed b).1 v a

structure Upp (n : Nat) (ed : Nat → Sg K) (top : Nat → Bool) (v : Pt K) (t : Nat) (up : Piece K) : Prop where
  ok : PieceOk n ed up
  tp : EndsIn up.T (ed t).1 (ed t).2
  lk : up.B.getLast? = some v
  tl : Tail n ed top false up.B
  ab : AboveTo v up.T up.B

/-- The pieces are complete at `v`. -/
def Closed (n : Nat) (ed : Nat → Sg K) (v : Pt K) (A : List (Piece K)) : Prop := ∀ p ∈ A, DoneOk n ed p ∧ p.T.getLast? = some v ∧ p.B.getLast? = some v

theorem Closed.count {A : List (Piece K)} (h : Closed n ed v A) : looksCount v A % 2 = 0 := by
  induction A with
  | nil => rfl
  | cons p A ih =>
    rw [looksCount_cons, if_pos (h p (by simp)).2.1, if_pos (h p (by simp)).2.2]
    have := ih fun q hq => h q (by simp [hq])
    omega

theorem tot_grow (f : Sg K → K) {p q : Piece K} {a b : Pt K} (ha : p.T.getLast? = some a) (hb : q.B.getLast? = some a) :
    val f ⟨p.ti, p.bi, p.T ++ [b], p.B⟩ + val f ⟨q.ti, q.bi, q.T, q.B ++ [b]⟩ = val f p + val f q := by
  simp only [val, wt_snoc f ha, wt_snoc f hb]; ring

theorem lowStage (E : Edges n ed top) (dbg : Bool) {g : Gap K} {ps O : List (Piece K)} (hc : CellOk n ed top v (g, ps)) (ha : GapAt n ed v g)
    (go : GOk n ed top u g) (hv : Next n ed u v)
    (lb : (ed g.b).1 ≤ g.h) (lt : (ed g.t).1 ≤ g.h) (hm : g.mg = true → ∀ k, 1 ≤ k → k ≤ n → (ed k).1 ≠ g.h) (lab : top g.t = true)
    (et : (ed g.t).2 = v) (hO : g.mg = true → NoLook g.h O) (R : Rep chains (ps ++ O) d) {ty : VertexType} (hty : ty ≠ .split)
    (cur : Option Nat) (limbs : Option (Pt K × Pt K)) :
    ∃ chains' lo A, (if g.mg then [Link.merge g.h v limbs] else []).foldlM (applyLink dbg v ty) (chains, cur) = some (chains', cur) ∧
      Rep chains' (A ++ lo :: O) d ∧ Closed n ed v A ∧ Low n ed top v g.b lo ∧ ∀ f : Sg K → K, tot f A + val f lo = tot f ps := by
  rcases hc with ⟨m, p, e, hp⟩ | ⟨m, lo, up, e, hp⟩ <;> simp only at m e
  · subst e
    refine ⟨chains, p, [], by rw [m]; rfl, R, by simp [Closed], ⟨hp.ok, hp.bt, et ▸ hp.tp.last, ?_, hp.above, fun eb => ?_⟩, by simp⟩
    · exact .inl ⟨g.t, ha.t1, ha.t2, lab, hp.tp⟩
    · refine ⟨(ed g.t).1, by have := hp.tp; rwa [et] at this, ?_⟩
      have := lt_left_wedge eb et ha.lt
      rwa [det_rot] at this
  · subst e
    have hne : ∀ {x : Pt K}, v ≤ x → (some x : Option (Pt K)) ≠ some g.h := by
      intro x hx h
      exact absurd ha.hl (not_lt.2 (Option.some.inj h ▸ hx))
    obtain ⟨ch, e1, R1⟩ := R.merge' (v := v) dbg hty cur limbs hp.lkT (by rw [hp.bt.last]; exact hne ha.br)
      (by rw [hp.tp.last]; exact hne ha.tr) hp.lkB (hO m)
    have db := ha.det_b E et
    have dt : det (ed g.t).1 (ed g.t).2 v ≤ 0 := by rw [← et, det_right]
    have gd := hp.good go hv ha db dt
    refine ⟨ch, ⟨lo.ti, lo.bi, lo.T ++ [v], lo.B⟩, [⟨up.ti, up.bi, up.T, up.B ++ [v]⟩], ?_, R1.perm (List.Perm.swap _ _ _) (List.Perm.refl _), ?_, ?_, ?_⟩
    · rw [m]; exact fold_one dbg ty e1
    · intro p hpp
      rw [List.mem_singleton] at hpp
      subst hpp
      have hl : up.T.getLast? = some v := et ▸ hp.tp.last
      refine ⟨⟨⟨hp.oku.incT, hp.oku.incB.snoc hp.lkB ha.hl, ?_, hp.oku.goodT, hp.oku.goodB.snoc hp.lkB gd⟩, by simp [hl], hp.tp.length, ?_, hp.up_full ha et⟩, hl, by simp⟩
      · rw [head_snoc hp.lkB]; exact hp.oku.head
      · intro x hne hx
        exact hp.up_above lt ha.tr dt x (lt_of_le_of_ne (wpass_le hp.oku.incT hl hx) fun e => hne (e ▸ hl)) hx
    · refine ⟨⟨hp.okl.incT.snoc hp.lkT ha.hl, hp.okl.incB, ?_, hp.okl.goodT.snoc hp.lkT gd, hp.okl.goodB⟩, hp.bt, by simp, .inr ⟨g.h, v, EndsIn.snoc hp.lkT v, hm m⟩, hp.lo_above lb ha.br db, fun eb => ?_⟩
      · rw [head_snoc hp.lkT]; exact hp.okl.head
      · exact ⟨g.h, EndsIn.snoc hp.lkT v, by have := hp.hb; rwa [eb] at this⟩
    · intro f
      have := tot_grow f (b := v) hp.lkT hp.lkB
      simp only [tot_cons, tot_nil, add_zero]
      rw [← this]; ring

theorem uppStage (E : Edges n ed top) (dbg : Bool) {g : Gap K} {ps O : List (Piece K)} (hc : CellOk n ed top v (g, ps)) (ha : GapAt n ed v g)
    (go : GOk n ed top u g) (hv : Next n ed u v)
    (lb : (ed g.b).1 ≤ g.h) (lt : (ed g.t).1 ≤ g.h) (hm : g.mg = true → ∀ k, 1 ≤ k → k ≤ n → (ed k).1 ≠ g.h) (lab : top g.b = false)
    (eb : (ed g.b).2 = v) (hO : g.mg = true → NoLook g.h O) (R : Rep chains (ps ++ O) d) {ty : VertexType} (hty : ty ≠ .split)
    (cur : Option Nat) (limbs : Option (Pt K × Pt K)) :
    ∃ chains' up A, (if g.mg then [Link.merge g.h v limbs] else []).foldlM (applyLink dbg v ty) (chains, cur) = some (chains', cur) ∧
      Rep chains' (A ++ up :: O) d ∧ Closed n ed v A ∧ Upp n ed top v g.t up ∧ ∀ f : Sg K → K, tot f A + val f up = tot f ps := by
  rcases hc with ⟨m, p, e, hp⟩ | ⟨m, lo, up, e, hp⟩ <;> simp only at m e
  · subst e
    refine ⟨chains, p, [], by rw [m]; rfl, R, by simp [Closed], ⟨hp.ok, hp.tp, eb ▸ hp.bt.last, ?_, hp.above⟩, by simp⟩
    exact .inl ⟨g.b, ha.b1, ha.b2, lab, hp.bt⟩
  · subst e
    have hne : ∀ {x : Pt K}, v ≤ x → (some x : Option (Pt K)) ≠ some g.h := by
      intro x hx h
      exact absurd ha.hl (not_lt.2 (Option.some.inj h ▸ hx))
    obtain ⟨ch, e1, R1⟩ := R.merge' (v := v) dbg hty cur limbs hp.lkT (by rw [hp.bt.last]; exact hne ha.br)
      (by rw [hp.tp.last]; exact hne ha.tr) hp.lkB (hO m)
    have dt := ha.det_t E eb
    have db : 0 ≤ det (ed g.b).1 (ed g.b).2 v := by rw [← eb, det_right]
    have gd := hp.good go hv ha db dt
    refine ⟨ch, ⟨up.ti, up.bi, up.T, up.B ++ [v]⟩, [⟨lo.ti, lo.bi, lo.T ++ [v], lo.B⟩], ?_, R1, ?_, ?_, ?_⟩
    · rw [m]; exact fold_one dbg ty e1
    · intro p hpp
      rw [List.mem_singleton] at hpp
      subst hpp
      have hl : lo.B.getLast? = some v := eb ▸ hp.bt.last
      refine ⟨⟨⟨hp.okl.incT.snoc hp.lkT ha.hl, hp.okl.incB, ?_, hp.okl.goodT.snoc hp.lkT gd, hp.okl.goodB⟩, by simp [hl], (EndsIn.snoc hp.lkT v).length, ?_, hp.lo_full ha eb⟩, by simp, hl⟩
      · rw [head_snoc hp.lkT]; exact hp.okl.head
      · intro x hne hx
        exact hp.lo_above lb ha.br db x (lt_of_le_of_ne (wpass_le (hp.okl.incT.snoc hp.lkT ha.hl) (by simp) hx) fun e => hne (by simp [e])) hx
    · refine ⟨⟨hp.oku.incT, hp.oku.incB.snoc hp.lkB ha.hl, ?_, hp.oku.goodT, hp.oku.goodB.snoc hp.lkB gd⟩, hp.tp, by simp, .inr ⟨g.h, v, EndsIn.snoc hp.lkB v, hm m⟩, hp.up_above lt ha.tr dt⟩
      rw [head_snoc hp.lkB]; exact hp.oku.head
    · intro f
      have := tot_grow f (b := v) hp.lkT hp.lkB
      simp only [tot_cons, tot_nil, add_zero]
      rw [← this]

end GeoCrossings.Monotone

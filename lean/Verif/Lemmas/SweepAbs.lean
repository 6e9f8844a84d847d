import Verif.Lemmas.SweepSet
import Verif.Props.Events

/-!
# The sweep state as lists of groups

`Abs` is what the sweep knows, without the slab: the active groups from bottom to top, the pending ones, the one being inserted,
the points, the groups already removed, the events and everything reported so far. `Conc` ties it to the model's state, `Core` is
the invariant (apart from adjacency), `Prim` the elementary changes.
-/
set_option linter.unusedSectionVars false
namespace GeoCrossings
open Spec

variable {K C : Type} [Field K] [LinearOrder K]
variable {org : C → Pt K} {allow : Prop}

namespace Grp
def sg (g : Grp K C) : Sg K := (g.p, g.q)
def IsLine (g : Grp K C) : Prop := g.geom = .line g.p g.q ∧ g.p < g.q
def cut (g : Grp K C) (r : Pt K) : Grp K C := { g with geom := .line g.p r }
def rightEv (g : Grp K C) : Event K := ⟨g.q, .lineRight, g.root⟩
def leftEv (g : Grp K C) : Event K := ⟨g.p, .lineLeft, g.root⟩

@[simp] theorem cut_p (g : Grp K C) (r : Pt K) : (g.cut r).p = g.p := rfl
@[simp] theorem cut_q (g : Grp K C) (r : Pt K) : (g.cut r).q = r := rfl
@[simp] theorem cut_root (g : Grp K C) (r : Pt K) : (g.cut r).root = g.root := rfl
@[simp] theorem cut_cs (g : Grp K C) (r : Pt K) : (g.cut r).cs = g.cs := rfl
@[simp] theorem cut_mem (g : Grp K C) (r : Pt K) : (g.cut r).mem = g.mem := rfl
@[simp] theorem cut_done (g : Grp K C) (r : Pt K) : (g.cut r).done = g.done := rfl
@[simp] theorem cut_geom (g : Grp K C) (r : Pt K) : (g.cut r).geom = .line g.p r := rfl

theorem cut_isLine (g : Grp K C) {r : Pt K} (h : g.p < r) : (g.cut r).IsLine := ⟨rfl, h⟩
theorem IsLine.cut_self {g : Grp K C} (h : g.IsLine) : g.cut g.q = g := by
  cases g; simp only [cut]; rw [← h.1]
theorem isLine_of {g : Grp K C} {a b : Pt K} (h : g.geom = .line a b) (hab : a < b) : g.IsLine ∧ g.p = a ∧ g.q = b := by
  simp [IsLine, Grp.p, Grp.q, h, LineOrPoint.first, LineOrPoint.second, hab]
end Grp

/-- `g2` is a fresh piece with the crossables of `g`. -/
structure Piece (g g2 : Grp K C) (a b : Pt K) : Prop where
  geom : g2.geom = .line a b
  done : g2.done = false
  cs : g2.cs = g.cs
  ne : g2.mem ≠ []

theorem Piece.p {g g2 : Grp K C} {a b : Pt K} (h : Piece g g2 a b) : g2.p = a := by simp [Grp.p, h.geom, LineOrPoint.first]
theorem Piece.q {g g2 : Grp K C} {a b : Pt K} (h : Piece g g2 a b) : g2.q = b := by simp [Grp.q, h.geom, LineOrPoint.second]
theorem Piece.isLine {g g2 : Grp K C} {a b : Pt K} (h : Piece g g2 a b) (hab : a < b) : g2.IsLine := by
  rw [Grp.IsLine, h.p, h.q]; exact ⟨h.geom, hab⟩

/-- The sweep state, abstractly. -/
structure Abs (K C : Type) where
  A : List (Grp K C)
  P : List (Grp K C)
  S : List (Grp K C)
  Q : List (Grp K C)
  D : List (Grp K C)
  E : List (Event K)
  log : List (Pt K × Seg K C × EventType)

namespace Abs
def live (X : Abs K C) : List (Grp K C) := X.A ++ X.P ++ X.S ++ X.Q
def sgs (X : Abs K C) : List (Sg K) := X.A.map Grp.sg
/-- Segments that may still be inserted at the sweep position. -/
def W (X : Abs K C) : List (Sg K) := X.P.map Grp.sg
end Abs

/-- The model state holds exactly `X`. -/
structure Conc (org : C → Pt K) (st : Sweep K C) (X : Abs K C) : Prop where
  rep : Rep org st.segments X.live
  act : Sweep.actKeys st.active = X.A.map Grp.root
  size : st.active.size = X.A.length
  ev : st.events = X.E

/-- The invariant at the sweep position `pos`, apart from adjacent pairs being tidy. -/
structure Core (pos : Pt K) (X : Abs K C) : Prop where
  lineA : ∀ g ∈ X.A, g.IsLine ∧ g.done = true ∧ g.p ≤ pos ∧ pos ≤ g.q
  lineP : ∀ g ∈ X.P, g.IsLine ∧ g.done = false ∧ pos ≤ g.p
  lineS : ∀ g ∈ X.S, g.IsLine ∧ g.done = false ∧ g.p = pos
  ptQ : ∀ g ∈ X.Q, ∃ k c, g.geom = .point g.p ∧ g.mem = [(k, c)]
  order : X.sgs.Pairwise fun a b => a.Lt b ∧ a.Apart pos b
  evR : ∀ g ∈ X.A ++ X.P ++ X.S, g.rightEv ∈ X.E
  evL : (X.E.filter fun e => e.ty = .lineLeft).Perm (X.P.map Grp.leftEv)
  evQ : ∀ e ∈ X.E, e.ty = .pointLeft ∨ e.ty = .pointRight → ∃ g ∈ X.Q, g.root = e.segmentKey ∧ g.p = e.point
  evpos : ∀ e ∈ X.E, pos ≤ e.point
  prodR : ∀ e ∈ X.E, e.ty = .lineRight → pos < e.point → ∃ g ∈ X.A ++ X.P ++ X.S, g.q = e.point
  prodP : ∀ e ∈ X.E, e.ty = .pointRight → pos < e.point → ⟨e.point, .pointLeft, e.segmentKey⟩ ∈ X.E

/-- Adjacent active segments are tidy, or something is still to be put between them. -/
def Abs.Chain (pos : Pt K) (X : Abs K C) : Prop := Sg.Chain pos X.W X.sgs

/-- What is reported for the members of a group. -/
def Emits (org : C → Pt K) (g : Grp K C) (mem : List (Nat × C)) (ty : EventType) (out : Out K C) : Prop :=
  out.map (fun o => (o.1.key, o.1.crossable)) = mem ∧
    ∀ o ∈ out, o.1.geom = g.geom ∧ o.2 = ty ∧ (o.1.firstSegment = true → g.p = org o.1.crossable) ∧
      (out.getLast? = some o → o.1.overlapping = none)

def stamp (pos : Pt K) (out : Out K C) : List (Pt K × Seg K C × EventType) := out.map (pos, ·)

/-- `r` is an end of a stored segment or the only common point of two of them. -/
def Cross (X : Abs K C) (r : Pt K) : Prop :=
  (∃ g ∈ X.live, r = g.p ∨ r = g.q) ∨
  ∃ g1 ∈ X.live, ∃ g2 ∈ X.live, ∀ x, On g1.geom x ∧ On g2.geom x ↔ x = r

/-- Elementary changes of the state at the sweep position `pos`. -/
inductive Prim (org : C → Pt K) (allow : Prop) (pos : Pt K) : Abs K C → Abs K C → Prop
  /-- an active group is cut at `r` -/
  | cutA {X : Abs K C} {L g R r g2} : X.A = L ++ g :: R → g.IsLine → Inside g.p g.q r → Cross X r → pos ≤ r → Piece g g2 r g.q →
    Prim org allow pos X { X with
      A := L ++ g.cut r :: R, P := g2 :: X.P, E := g2.rightEv :: g2.leftEv :: (g.cut r).rightEv :: X.E }
  /-- an active group is cut at `r1` and `r2` -/
  | cutA2 {X : Abs K C} {L g R r1 r2 g2 g3} : X.A = L ++ g :: R → g.IsLine → Inside g.p g.q r1 → Inside g.p g.q r2 → r1 < r2 →
    Cross X r1 → Cross X r2 → pos ≤ r1 → Piece g g2 r2 g.q → Piece g g3 r1 r2 →
    Prim org allow pos X { X with
      A := L ++ g.cut r1 :: R, P := g2 :: g3 :: X.P,
      E := g3.rightEv :: g3.leftEv :: g2.rightEv :: g2.leftEv :: (g.cut r1).rightEv :: X.E }
  /-- the group in hand is cut at `r` -/
  | cutS {X : Abs K C} {s r g2} : X.S = [s] → s.IsLine → Inside s.p s.q r → Cross X r → pos ≤ r → Piece s g2 r s.q →
    Prim org allow pos X { X with
      S := [s.cut r], P := g2 :: X.P, E := g2.rightEv :: g2.leftEv :: (s.cut r).rightEv :: X.E }
  /-- a right event is consumed -/
  | drop {X : Abs K C} {e E'} : X.E.Perm (e :: E') → e.ty = .lineRight → Prim org allow pos X { X with E := E' }
  /-- a pending group is taken in hand -/
  | take {X : Abs K C} {L g R} : X.P = L ++ g :: R → X.S = [] → g.p = pos → Prim org allow pos X { X with P := L ++ R, S := [g] }
  /-- the group in hand joins an active one -/
  | mergeA {X : Abs K C} {L g R s out} : X.A = L ++ g :: R → X.S = [s] → g.geom = s.geom → s.p = pos →
    (∀ a ∈ X.A, ¬ Inside a.p a.q pos) → (∀ a ∈ X.A, pos < a.q) → Emits org s s.mem .lineLeft out →
    Prim org allow pos X { X with A := L ++ { g with mem := g.mem ++ s.mem } :: R, S := [], log := X.log ++ stamp pos out }
  /-- the group in hand joins a pending one -/
  | mergeP {X : Abs K C} {L g R s} : X.P = L ++ g :: R → X.S = [s] → g.geom = s.geom →
    Prim org allow pos X { X with P := L ++ { g with mem := g.mem ++ s.mem } :: R, S := [] }
  /-- the group in hand becomes active -/
  | activate {X : Abs K C} {L R s out} : X.A = L ++ R → X.S = [s] → s.p = pos →
    (∀ a ∈ X.A, ¬ Inside a.p a.q pos) → (∀ a ∈ X.A, pos < a.q) → Emits org s s.mem .lineLeft out →
    Prim org allow pos X { X with A := L ++ { s with done := true } :: R, S := [], log := X.log ++ stamp pos out }
  /-- an active group ends -/
  | finish {X : Abs K C} {L g R out} : X.A = L ++ g :: R → g.q = pos → (∀ a ∈ L ++ R, Apart pos g.p g.q a.p a.q) →
    Emits org g g.mem .lineRight out →
    Prim org allow pos X { X with A := L ++ R, D := X.D ++ [g], log := X.log ++ stamp pos out }
  /-- a point is reported -/
  | point {X : Abs K C} {g out} : allow → g ∈ X.Q → g.p = pos → (∀ a ∈ X.A, ¬ Inside a.p a.q pos) → Emits org g g.mem .pointLeft out →
    Prim org allow pos X { X with log := X.log ++ stamp pos out }

/-- Any number of elementary changes. -/
inductive Prims (org : C → Pt K) (allow : Prop) (pos : Pt K) : Abs K C → Abs K C → Prop
  | refl (X) : Prims org allow pos X X
  | tail {X Y Z} : Prims org allow pos X Y → Prim org allow pos Y Z → Prims org allow pos X Z

theorem Prims.trans {pos : Pt K} {X Y Z : Abs K C} (h : Prims org allow pos X Y) (h' : Prims org allow pos Y Z) : Prims org allow pos X Z := by
  induction h' with
  | refl => exact h
  | tail _ h2 ih => exact .tail ih h2

theorem Prims.single {pos : Pt K} {X Y : Abs K C} (h : Prim org allow pos X Y) : Prims org allow pos X Y := .tail (.refl X) h

section conc
variable {st : Sweep K C} {X : Abs K C}

/-- The slab entry of a root. -/
theorem Conc.get (h : Conc org st X) {g : Grp K C} (hg : g ∈ X.live) : ∃ s, st.segments.get g.root = some s ∧ s.geom = g.geom ∧
    s.isOverlapping = false ∧ s.key = g.root ∧ s.leftEventDone = g.done := by
  have hgo := h.rep.grp g hg
  obtain ⟨c, l, hm⟩ := Grp.exists_cons hgo.ne
  have hL := hgo.linked
  rw [hm] at hL
  obtain ⟨⟨s, e1, e2, e3, e4, e5, e6⟩, e7⟩ := hL
  exact ⟨s, e1, e4, by simpa using e5, e2, hgo.done s e1⟩

theorem Conc.cmp (h : Conc org st X) {g g' : Grp K C} (hg : g ∈ X.live) (hg' : g' ∈ X.live) :
    cmpKeys st.segments g.root g'.root = (g.geom.pcmp g'.geom).map (·.then (compare g.root g'.root)) := by
  obtain ⟨s, h1, h2, -, h3, -⟩ := h.get hg
  obtain ⟨s', h1', h2', -, h3', -⟩ := h.get hg'
  simp only [cmpKeys, h1, h1', Option.bind_eq_bind, Option.bind_some, h2, h2', h3, h3']
  cases g.geom.pcmp g'.geom <;> rfl

/-- Different groups have different roots. -/
theorem Rep.root_ne {slab : Slab (Seg K C)} {l1 l2 l3 : List (Grp K C)} {g g' : Grp K C}
    (h : Rep org slab (l1 ++ g :: l2 ++ g' :: l3)) : g.root ≠ g'.root := by
  intro e
  have h1 := Grp.root_mem (h.grp g (by simp)).ne
  have h2 := Grp.root_mem (h.grp g' (by simp)).ne
  have hn := h.nodup
  simp only [List.flatMap_append, List.flatMap_cons] at hn
  rw [List.nodup_append'] at hn
  have m1 : g.root ∈ l1.flatMap Grp.keys ++ (g.keys ++ l2.flatMap Grp.keys) := by simp [h1]
  have m2 : g.root ∈ g'.keys ++ l3.flatMap Grp.keys := by simp [e, h2]
  exact hn.2.2 m1 m2

theorem Rep.root_inj {slab : Slab (Seg K C)} {l l1 l2 : List (Grp K C)} {g g' : Grp K C}
    (h : Rep org slab l) (hl : l.Perm (l1 ++ g :: l2)) (hg' : g' ∈ l1 ++ l2) : g'.root ≠ g.root := by
  have h' := h.perm hl
  rcases List.mem_append.1 hg' with hm | hm
  · obtain ⟨a, b, rfl⟩ := List.append_of_mem hm
    exact Rep.root_ne (l1 := a) (l2 := b) (l3 := l2) (by simpa using h')
  · obtain ⟨a, b, rfl⟩ := List.append_of_mem hm
    exact (Rep.root_ne (l1 := l1) (l2 := a) (l3 := b) (by simpa using h')).symm

theorem Rep.root_eq {slab : Slab (Seg K C)} {l : List (Grp K C)} {g g' : Grp K C}
    (h : Rep org slab l) (hg : g ∈ l) (hg' : g' ∈ l) (e : g.root = g'.root) : g = g' := by
  by_contra hne
  obtain ⟨l1, l2, rfl⟩ := List.append_of_mem hg'
  refine h.root_inj (l1 := l1) (l2 := l2) (g := g') .rfl ?_ e
  simp only [List.mem_append, List.mem_cons] at hg ⊢
  tauto

end conc

section conc2
variable [IsStrictOrderedRing K] {st : Sweep K C} {X : Abs K C}

theorem Conc.cmp_self (h : Conc org st X) {g : Grp K C} (hg : g ∈ X.live) (hl : g.IsLine) :
    cmpKeys st.segments g.root g.root = some .eq := by
  rw [h.cmp hg hg, hl.1, (pcmp_eq_iff hl.2 hl.2).2 ⟨det_left _ _, det_right _ _⟩]
  simp

theorem Conc.cmp_gt (h : Conc org st X) {g g' : Grp K C} (hg : g ∈ X.live) (hg' : g' ∈ X.live) (hl : g.IsLine) (hl' : g'.IsLine)
    (hlt : g'.sg.Lt g.sg) :
    cmpKeys st.segments g.root g'.root = some .gt ∧ (cmpKeys st.segments g'.root g.root).isSome := by
  rw [h.cmp hg hg', h.cmp hg' hg, hl.1, hl'.1, (pcmp_gt_iff hl.2 hl'.2).2 hlt, (pcmp_lt_iff hl'.2 hl.2).2 hlt]
  simp

theorem Conc.cmp_lt (h : Conc org st X) {g g' : Grp K C} (hg : g ∈ X.live) (hg' : g' ∈ X.live) (hl : g.IsLine) (hl' : g'.IsLine)
    (hlt : g.sg.Lt g'.sg) :
    cmpKeys st.segments g.root g'.root = some .lt ∧ (cmpKeys st.segments g'.root g.root).isSome := by
  rw [h.cmp hg hg', h.cmp hg' hg, hl.1, hl'.1, (pcmp_lt_iff hl.2 hl'.2).2 hlt, (pcmp_gt_iff hl'.2 hl.2).2 hlt]
  simp

/-- A group knows its place among others below and above it. -/
theorem Conc.placed (h : Conc org st X) {g : Grp K C} (hg : g ∈ X.live) (hl : g.IsLine) {L R : List (Grp K C)}
    (hLl : ∀ a ∈ L ++ R, a ∈ X.live ∧ a.IsLine) (hL : ∀ a ∈ L, a.sg.Lt g.sg) (hR : ∀ a ∈ R, g.sg.Lt a.sg) :
    Sweep.Placed st.segments g.root (L.map Grp.root) (R.map Grp.root) := by
  constructor
  · intro e he
    obtain ⟨a, ha, rfl⟩ := List.mem_map.1 he
    obtain ⟨h1, h2⟩ := hLl a (List.mem_append_left _ ha)
    exact h.cmp_gt hg h1 hl h2 (hL a ha)
  · intro e he
    obtain ⟨a, ha, rfl⟩ := List.mem_map.1 he
    obtain ⟨h1, h2⟩ := hLl a (List.mem_append_right _ ha)
    exact h.cmp_lt hg h1 hl h2 (hR a ha)

theorem Core.pairs {pos : Pt K} (h : Core pos X) {L R : List (Grp K C)} {g : Grp K C} (hA : X.A = L ++ g :: R) :
    (∀ a ∈ L, a.sg.Lt g.sg ∧ a.sg.Apart pos g.sg) ∧ (∀ a ∈ R, g.sg.Lt a.sg ∧ g.sg.Apart pos a.sg) := by
  have ho := h.order
  unfold Abs.sgs at ho
  rw [hA, List.map_append, List.map_cons, List.pairwise_append, List.pairwise_cons] at ho
  exact ⟨fun a ha => ho.2.2 _ (List.mem_map_of_mem ha) _ (by simp), fun a ha => ho.2.1.1 _ (List.mem_map_of_mem ha)⟩

theorem Conc.prev_next (h : Conc org st X) {k : Nat} {L R : List (Grp K C)} {M : List Nat}
    (hA : X.A.map Grp.root = L.map Grp.root ++ M ++ R.map Grp.root)
    (hP : Sweep.Placed st.segments k (L.map Grp.root) (R.map Grp.root)) (hM : Sweep.Mid st.segments k M) :
    ∃ st1 st2, st.prevKey k = some (st1, L.getLast?.map Grp.root) ∧ st1.nextKey k = some (st2, R.head?.map Grp.root) ∧
      Conc org st2 X := by
  obtain ⟨a, h1, h2, h3⟩ := Sweep.prevKey_spec hP hM (h.act.trans hA)
  obtain ⟨b, h4, h5, h6⟩ := Sweep.nextKey_spec (st := { st with active := a }) (k := k) (M := M) hP hM h2
  refine ⟨{ st with active := a }, { st with active := b }, ?_, ?_, ?_⟩
  · rw [h1, List.getLast?_map]
  · rw [h4, List.head?_map]
  · exact ⟨h.rep, h5.trans hA.symm, h6.trans (h3.trans h.size), h.ev⟩

end conc2

end GeoCrossings

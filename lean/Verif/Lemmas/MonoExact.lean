import Verif.Lemmas.SortBlocks
import Verif.Lemmas.MonoInit
import Verif.Props.MonoVertices
import Mathlib.Data.List.Forall2
import Mathlib.Data.List.Perm.Basic

/-!
# `monotone_chains` looks at points only by comparing two of them and by the turn at three of them

A relation `R` between the points of two planes that preserves these two tests relates the results of every function of the model.
Used for C100.
-/
set_option linter.unusedSectionVars false
namespace GeoCrossings.Monotone
open List

/-! ## Relations between lists and options -/
section gen
variable {α α' β β' γ γ' : Type} {A : α → α' → Prop} {B : β → β' → Prop}

theorem orel_bind {x : Option α} {x' : Option α'} {f : α → Option β} {f' : α' → Option β'} (h : Option.Rel A x x')
    (hf : ∀ a a', A a a' → Option.Rel B (f a) (f' a')) : Option.Rel B (x >>= f) (x' >>= f') := by
  cases h with
  | none => exact .none
  | some h => exact hf _ _ h

theorem orel_obind {x : Option α} {x' : Option α'} {f : α → Option β} {f' : α' → Option β'} (h : Option.Rel A x x')
    (hf : ∀ a a', A a a' → Option.Rel B (f a) (f' a')) : Option.Rel B (x.bind f) (x'.bind f') := orel_bind h hf

theorem orel_same {x x' : Option γ} {f : γ → Option β} {f' : γ → Option β'} (h : x = x')
    (hf : ∀ a, Option.Rel B (f a) (f' a)) : Option.Rel B (x >>= f) (x' >>= f') := by
  subst h
  cases x with
  | none => exact .none
  | some a => exact hf a

theorem orel_map {x : Option α} {x' : Option α'} {f : α → β} {f' : α' → β'} (h : Option.Rel A x x')
    (hf : ∀ a a', A a a' → B (f a) (f' a')) : Option.Rel B (x.map f) (x'.map f') := by
  cases h with
  | none => exact .none
  | some h => exact .some (hf _ _ h)

theorem orel_ite {c c' : Prop} [Decidable c] [Decidable c'] {x y : Option α} {x' y' : Option α'} (hc : c' ↔ c)
    (h1 : c → Option.Rel A x x') (h2 : ¬ c → Option.Rel A y y') : Option.Rel A (if c then x else y) (if c' then x' else y') := by
  by_cases h : c
  · rw [if_pos h, if_pos (hc.2 h)]; exact h1 h
  · rw [if_neg h, if_neg fun k => h (hc.1 k)]; exact h2 h

theorem f2_get {l : List α} {l' : List α'} (h : Forall₂ A l l') (i : Nat) : Option.Rel A l[i]? l'[i]? := by
  induction h generalizing i with
  | nil => exact .none
  | cons h _ ih =>
    cases i with
    | zero => exact .some h
    | succ i => simpa using ih i

theorem f2_of_get : ∀ {l : List α} {l' : List α'}, (∀ i : Nat, Option.Rel A l[i]? l'[i]?) → Forall₂ A l l'
  | [], [], _ => .nil
  | [], _ :: _, h => by have := h 0; simp at this
  | _ :: _, [], h => by have := h 0; simp at this
  | a :: l, a' :: l', h => .cons (by have := h 0; simp only [List.getElem?_cons_zero] at this; cases this; assumption)
      (f2_of_get fun i => by simpa using h (i + 1))

theorem f2_set {l : List α} {l' : List α'} (h : Forall₂ A l l') (i : Nat) {a : α} {a' : α'} (ha : A a a') :
    Forall₂ A (l.set i a) (l'.set i a') := by
  induction h generalizing i with
  | nil => exact .nil
  | cons h t ih =>
    cases i with
    | zero => exact .cons ha t
    | succ i => exact .cons h (ih i)

theorem f2_append {l m : List α} {l' m' : List α'} (h : Forall₂ A l l') (k : Forall₂ A m m') : Forall₂ A (l ++ m) (l' ++ m') := by
  induction h with
  | nil => exact k
  | cons h _ ih => exact .cons h ih

theorem f2_reverse {l : List α} {l' : List α'} (h : Forall₂ A l l') : Forall₂ A l.reverse l'.reverse := List.forall₂_reverse_iff.2 h

theorem f2_last {l : List α} {l' : List α'} (h : Forall₂ A l l') : Option.Rel A l.getLast? l'.getLast? := by
  rw [List.getLast?_eq_getElem?, List.getLast?_eq_getElem?, h.length_eq]
  exact f2_get h _

theorem f2_head {l : List α} {l' : List α'} (h : Forall₂ A l l') : Option.Rel A l.head? l'.head? := by
  cases h with
  | nil => exact .none
  | cons h _ => exact .some h

theorem f2_take {l : List α} {l' : List α'} (h : Forall₂ A l l') (n : Nat) : Forall₂ A (l.take n) (l'.take n) := List.forall₂_take n h

theorem f2_drop {l : List α} {l' : List α'} (h : Forall₂ A l l') (n : Nat) : Forall₂ A (l.drop n) (l'.drop n) := List.forall₂_drop n h

theorem f2_dropLast {l : List α} {l' : List α'} (h : Forall₂ A l l') : Forall₂ A l.dropLast l'.dropLast := by
  rw [List.dropLast_eq_take, List.dropLast_eq_take, h.length_eq]
  exact f2_take h _

theorem f2_findIdx {l : List α} {l' : List α'} (h : Forall₂ A l l') {p : α → Bool} {p' : α' → Bool}
    (hp : ∀ a a', A a a' → p a = p' a') : l.findIdx? p = l'.findIdx? p' := by
  induction h with
  | nil => rfl
  | cons h _ ih => rw [List.findIdx?_cons, List.findIdx?_cons, hp _ _ h, ih]

theorem f2_countP {l : List α} {l' : List α'} (h : Forall₂ A l l') {p : α → Bool} {p' : α' → Bool}
    (hp : ∀ a a', A a a' → p a = p' a') : l.countP p = l'.countP p' := by
  induction h with
  | nil => rfl
  | cons h _ ih => rw [List.countP_cons, List.countP_cons, hp _ _ h, ih]

theorem f2_all {l : List α} {l' : List α'} (h : Forall₂ A l l') {p : α → Bool} {p' : α' → Bool}
    (hp : ∀ a a', A a a' → p a = p' a') : l.all p = l'.all p' := by
  induction h with
  | nil => rfl
  | cons h _ ih => rw [List.all_cons, List.all_cons, hp _ _ h, ih]

theorem f2_takeWhile_length {l : List α} {l' : List α'} (h : Forall₂ A l l') {p : α → Bool} {p' : α' → Bool}
    (hp : ∀ a a', A a a' → p a = p' a') : (l.takeWhile p).length = (l'.takeWhile p').length := by
  induction h with
  | nil => rfl
  | @cons a a' _ _ h _ ih =>
    rw [List.takeWhile_cons, List.takeWhile_cons, hp _ _ h]
    split
    · simp [ih]
    · rfl

theorem f2_find {l : List α} {l' : List α'} (h : Forall₂ A l l') {p : α → Bool} {p' : α' → Bool}
    (hp : ∀ a a', A a a' → p a = p' a') : Option.Rel A (l.find? p) (l'.find? p') := by
  induction h with
  | nil => exact .none
  | @cons a a' _ _ h _ ih =>
    rw [List.find?_cons, List.find?_cons, hp _ _ h]
    split
    · exact .some h
    · exact ih

theorem f2_mapM {l : List α} {l' : List α'} (h : Forall₂ A l l') {f : α → Option β} {f' : α' → Option β'}
    (hf : ∀ a a', A a a' → Option.Rel B (f a) (f' a')) : Option.Rel (Forall₂ B) (l.mapM f) (l'.mapM f') := by
  induction h with
  | nil => exact .some .nil
  | cons h _ ih =>
    rw [List.mapM_cons, List.mapM_cons]
    exact orel_bind (hf _ _ h) fun b b' hb => orel_bind ih fun t t' ht => .some (.cons hb ht)

theorem f2_foldlM {l : List α} {l' : List α'} (h : Forall₂ A l l') {f : β → α → Option β} {f' : β' → α' → Option β'} {s : β} {s' : β'}
    (hs : B s s') (hf : ∀ s s' a a', B s s' → A a a' → Option.Rel B (f s a) (f' s' a')) :
    Option.Rel B (l.foldlM f s) (l'.foldlM f' s') := by
  induction h generalizing s s' with
  | nil => exact .some hs
  | cons h _ ih =>
    rw [List.foldlM_cons, List.foldlM_cons]
    exact orel_bind (hf _ _ _ _ hs h) fun b b' hb => ih hb

theorem f2_foldl {l : List α} {l' : List α'} (h : Forall₂ A l l') {f : β → α → β} {f' : β' → α' → β'} {s : β} {s' : β'}
    (hs : B s s') (hf : ∀ s s' a a', B s s' → A a a' → B (f s a) (f' s' a')) : B (l.foldl f s) (l'.foldl f' s') := by
  induction h generalizing s s' with
  | nil => exact hs
  | cons h _ ih => exact ih (hf _ _ _ _ hs h)

theorem f2_zipIdx {l : List α} {l' : List α'} (h : Forall₂ A l l') (n : Nat) :
    Forall₂ (fun x y => A x.1 y.1 ∧ x.2 = y.2) (l.zipIdx n) (l'.zipIdx n) := by
  induction h generalizing n with
  | nil => exact .nil
  | cons h _ ih => exact .cons ⟨h, rfl⟩ (ih _)

theorem f2_filterMap {l : List α} {l' : List α'} (h : Forall₂ A l l') {f : α → Option γ} {f' : α' → Option γ}
    (hf : ∀ a a', A a a' → f a = f' a') : l.filterMap f = l'.filterMap f' := by
  induction h with
  | nil => rfl
  | cons h _ ih => rw [List.filterMap_cons, List.filterMap_cons, hf _ _ h, ih]

theorem f2_map {l : List α} {l' : List α'} (h : Forall₂ A l l') {f : α → β} {f' : α' → β'}
    (hf : ∀ a a', A a a' → B (f a) (f' a')) : Forall₂ B (l.map f) (l'.map f') := by
  induction h with
  | nil => exact .nil
  | cons h _ ih => exact .cons (hf _ _ h) ih

theorem f2_refl (l : List γ) : Forall₂ (fun a b => a = b) l l := by
  induction l with
  | nil => exact .nil
  | cons a l ih => exact .cons rfl ih

theorem orel_any {x : Option α} {x' : Option α'} (h : Option.Rel A x x') {p : α → Bool} {p' : α' → Bool}
    (hp : ∀ a a', A a a' → p a = p' a') : x.any p = x'.any p' := by
  cases h with
  | none => rfl
  | some h => exact hp _ _ h

end gen

variable {K L : Type} [Field K] [LinearOrder K] [IsStrictOrderedRing K] [Field L] [LinearOrder L] [IsStrictOrderedRing L]

/-- Related points compare and turn alike. -/
structure Same (R : Pt K → Pt L → Prop) : Prop where
  lt : ∀ {a b : Pt K} {a' b' : Pt L}, R a a' → R b b' → (a' < b' ↔ a < b)
  ori : ∀ {a b c : Pt K} {a' b' c' : Pt L}, R a a' → R b b' → R c c' → orient2d a' b' c' = orient2d a b c

section defs
variable (R : Pt K → Pt L → Prop)

def GR : LineOrPoint K → LineOrPoint L → Prop
  | .point p, .point p' => R p p'
  | .line p q, .line p' q' => R p p' ∧ R q q'
  | _, _ => False

def LR (l : Line K) (l' : Line L) : Prop := R l.start l'.start ∧ R l.stop l'.stop

structure HR (h : Helper K) (h' : Helper L) : Prop where
  point : R h.point h'.point
  isMerge : h.isMerge = h'.isMerge

structure SR (s : Seg K) (s' : Seg L) : Prop where
  key : s.key = s'.key
  geom : GR R s.geom s'.geom
  helper : Option.Rel (HR R) s.helper s'.helper

structure ER (e : Event K) (e' : Event L) : Prop where
  point : R e.point e'.point
  ty : e.ty = e'.ty
  key : e.segmentKey = e'.segmentKey
  pos : e.segmentKey ≠ 0

def PR (x : Pt K × Pt K) (x' : Pt L × Pt L) : Prop := R x.1 x'.1 ∧ R x.2 x'.2

def KR : Link K → Link L → Prop
  | .start a b c, .start a' b' c' => R a a' ∧ R b b' ∧ R c c'
  | .cont a b c w, .cont a' b' c' w' => R a a' ∧ R b b' ∧ R c c' ∧ w = w'
  | .merge a b o, .merge a' b' o' => R a a' ∧ R b b' ∧ Option.Rel (PR R) o o'
  | .split a b c d, .split a' b' c' d' => R a a' ∧ R b b' ∧ R c c' ∧ R d d'
  | .finish a b c, .finish a' b' c' => R a a' ∧ R b b' ∧ R c c'
  | _, _ => False

structure IR (i : Ixn K) (i' : Ixn L) : Prop where
  ty : i.ty = i'.ty
  event1 : ER R i.event1 i'.event1
  event2 : ER R i.event2 i'.event2
  other1 : R i.other1 i'.other1
  other2 : R i.other2 i'.other2
  orientation : i.orientation = i'.orientation
  interior : i.interior = i'.interior

structure CR (c : Chain K) (c' : Chain L) : Prop where
  interior : c.interior = c'.interior
  other : c.other = c'.other
  coords : Forall₂ R c.coords c'.coords
  done : c.done = c'.done

/-- Segments other than the first are related. -/
structure SegR1 (l : List (Seg K)) (l' : List (Seg L)) : Prop where
  len : l.length = l'.length
  pos : 1 ≤ l.length
  get : ∀ i, i ≠ 0 → Option.Rel (SR R) l[i]? l'[i]?

structure SwR1 (s : Sweep K) (s' : Sweep L) : Prop where
  segs : SegR1 R s.segments s'.segments
  evs : Forall₂ (ER R) s.events s'.events
  act : s.active = s'.active

structure SwR (s : Sweep K) (s' : Sweep L) : Prop where
  segs : Forall₂ (SR R) s.segments s'.segments
  pos : 1 ≤ s.segments.length
  evs : Forall₂ (ER R) s.events s'.events
  act : s.active = s'.active

def SLR (x : Sweep K × List (Link K)) (x' : Sweep L × List (Link L)) : Prop := SwR R x.1 x'.1 ∧ Forall₂ (KR R) x.2 x'.2

structure VR (e : SweepEvent K) (e' : SweepEvent L) : Prop where
  pt : R e.pt e'.pt
  ty : e.ty = e'.ty
  links : Forall₂ (KR R) e.links e'.links

def MR (m : MonoPoly K) (m' : MonoPoly L) : Prop := Forall₂ R m.top m'.top ∧ Forall₂ R m.bot m'.bot

end defs

variable {R : Pt K → Pt L → Prop}

section
variable (H : Same R)
include H

theorem Same.eq {a b : Pt K} {a' b' : Pt L} (h1 : R a a') (h2 : R b b') : a' = b' ↔ a = b := by
  have e1 := H.lt h1 h2
  have e2 := H.lt h2 h1
  constructor
  · rintro rfl
    rcases lt_trichotomy a b with h | h | h
    · exact absurd (e1.2 h) (lt_irrefl _)
    · exact h
    · exact absurd (e2.2 h) (lt_irrefl _)
  · rintro rfl
    rcases lt_trichotomy a' b' with h | h | h
    · exact absurd (e1.1 h) (lt_irrefl _)
    · exact h
    · exact absurd (e2.1 h) (lt_irrefl _)

theorem Same.le {a b : Pt K} {a' b' : Pt L} (h1 : R a a') (h2 : R b b') : a' ≤ b' ↔ a ≤ b := by
  rw [← not_lt, ← not_lt, H.lt h2 h1]

theorem Same.oeq {a b : Option (Pt K)} {a' b' : Option (Pt L)} (h1 : Option.Rel R a a') (h2 : Option.Rel R b b') : a' = b' ↔ a = b := by
  cases h1 <;> cases h2 <;> simp
  rename_i h1 _ _ h2
  exact H.eq h1 h2

theorem Same.cmp {a b : Pt K} {a' b' : Pt L} (h1 : R a a') (h2 : R b b') : compare a' b' = compare a b := by
  rcases lt_trichotomy a b with h | h | h
  · rw [compare_lt_iff_lt.2 h, compare_lt_iff_lt.2 ((H.lt h1 h2).2 h)]
  · rw [compare_eq_iff_eq.2 h, compare_eq_iff_eq.2 ((H.eq h1 h2).2 h)]
  · rw [compare_gt_iff_gt.2 h, compare_gt_iff_gt.2 ((H.lt h2 h1).2 h)]

theorem pcmpLinePoint_rel {p q r : Pt K} {p' q' r' : Pt L} (hp : R p p') (hq : R q q') (hr : R r r') :
    pcmpLinePoint p' q' r' = pcmpLinePoint p q r := by
  unfold pcmpLinePoint
  simp only [gt_iff_lt, H.lt hq hr, H.lt hr hp, H.ori hp hq hr]

theorem pcmpLineLine_rel {p q r s : Pt K} {p' q' r' s' : Pt L} (hp : R p p') (hq : R q q') (hr : R r r') (hs : R s s') :
    pcmpLineLine p' q' r' s' = pcmpLineLine p q r s := by
  unfold pcmpLineLine
  simp only [ge_iff_le, H.le hs hp, H.le hs hr, H.ori hp hq hr, H.ori hp hq hs]

theorem pcmp_rel {g k : LineOrPoint K} {g' k' : LineOrPoint L} (hg : GR R g g') (hk : GR R k k') : g'.pcmp k' = g.pcmp k := by
  cases g <;> cases g' <;> simp only [GR] at hg <;> cases k <;> cases k' <;> simp only [GR] at hk <;> simp only [LineOrPoint.pcmp]
  · simp only [H.eq hg hk]
  · rw [pcmpLinePoint_rel H hk.1 hk.2 hg]
  · rw [pcmpLinePoint_rel H hg.1 hg.2 hk]
  · simp only [gt_iff_lt, H.lt hk.1 hg.1, pcmpLineLine_rel H hg.1 hg.2 hk.1 hk.2, pcmpLineLine_rel H hk.1 hk.2 hg.1 hg.2]

theorem cmpSegs_rel {l : List (Seg K)} {l' : List (Seg L)} (h : Forall₂ (SR R) l l') (a b : Nat) : cmpSegs l' a b = cmpSegs l a b := by
  unfold cmpSegs
  have ha := f2_get h a
  have hb := f2_get h b
  revert ha hb
  generalize l[a]? = x, l'[a]? = x', l[b]? = y, l'[b]? = y'
  intro ha hb
  cases ha with
  | none => rfl
  | some ha =>
    cases hb with
    | none => rfl
    | some hb =>
      simp only [Option.bind_eq_bind, Option.bind_some, pcmp_rel H ha.geom hb.geom, ha.key, hb.key]

theorem comparable_rel {l : List (Seg K)} {l' : List (Seg L)} (h : Forall₂ (SR R) l l') (act : List Nat) (k : Nat) :
    comparable l' act k = comparable l act k := by
  simp only [comparable, cmpSegs_rel H h]

theorem nextKey_rel {l : List (Seg K)} {l' : List (Seg L)} (h : Forall₂ (SR R) l l') (act : List Nat) (k : Nat) :
    nextKey l' act k = nextKey l act k := by
  simp only [nextKey, cmpSegs_rel H h, comparable_rel H h]

theorem addKey_rel {l : List (Seg K)} {l' : List (Seg L)} (h : Forall₂ (SR R) l l') (act : List Nat) (k : Nat) :
    addKey l' act k = addKey l act k := by
  simp only [addKey, cmpSegs_rel H h, comparable_rel H h]

theorem removeKey_rel {l : List (Seg K)} {l' : List (Seg L)} (h : Forall₂ (SR R) l l') (act : List Nat) (k : Nat) :
    removeKey l' act k = removeKey l act k := by
  simp only [removeKey, cmpSegs_rel H h, comparable_rel H h]

/-! ## Reading the polygon -/

theorem new_rel (k : Nat) {l : Line K} {l' : Line L} (h : LR R l l') (w : Winding) : SR R (Seg.new k l w) (Seg.new k l' w) := by
  have e := H.lt h.2 h.1
  have hh : ∀ (w : Winding) {a : Pt K} {a' : Pt L}, R a a' → Option.Rel (HR R) (if w = .clockwise then some ⟨a, false⟩ else none)
      (if w = .clockwise then some ⟨a', false⟩ else none) := fun w a a' ha => by
    cases w
    · exact .some ⟨ha, rfl⟩
    · exact .none
  unfold Seg.new
  by_cases c : l.stop < l.start
  · simp only [gt_iff_lt, e, c, if_true]
    exact ⟨rfl, ⟨h.2, h.1⟩, hh _ h.2⟩
  · simp only [gt_iff_lt, e, c, if_false]
    exact ⟨rfl, ⟨h.1, h.2⟩, hh _ h.1⟩

theorem events_rel {s : Seg K} {s' : Seg L} (h : SR R s s') (hk : s.key ≠ 0) : Option.Rel (Forall₂ (ER R)) s.events s'.events := by
  obtain ⟨key, geom, helper⟩ := s
  obtain ⟨key', geom', helper'⟩ := s'
  obtain ⟨h1, h2, -⟩ := h
  unfold Seg.events
  cases geom <;> cases geom' <;> simp only [GR] at h2
  · exact .none
  · exact .some (.cons ⟨h2.1, rfl, h1, hk⟩ (.cons ⟨h2.2, rfl, h1, hk⟩ .nil))

theorem addLine_rel (w : Winding) {s : Sweep K} {s' : Sweep L} {l : Line K} {l' : Line L} (hs : SwR1 R s s') (hl : LR R l l') :
    Option.Rel (SwR1 R) (addLine w s l) (addLine w s' l') := by
  unfold addLine
  refine orel_ite (H.eq hl.1 hl.2) (fun _ => .some hs) fun _ => ?_
  have hn := new_rel H s.segments.length hl w
  rw [← hs.segs.len]
  refine orel_map (events_rel H hn (by
    have := hs.segs.pos
    show (Seg.new _ _ _).key ≠ 0
    unfold Seg.new
    simp only
    omega)) fun ev ev' he => ⟨⟨by simp [hs.segs.len], by simp, fun i hi => ?_⟩, f2_append hs.evs he, hs.act⟩
  show Option.Rel _ (s.segments ++ _)[i]? (s'.segments ++ _)[i]?
  rw [List.getElem?_append, List.getElem?_append, ← hs.segs.len]
  split
  · exact hs.segs.get i hi
  · exact f2_get (.cons hn .nil) _

theorem ringLines_rel {l : List (Pt K)} {l' : List (Pt L)} (h : Forall₂ R l l') : Forall₂ (LR R) (ringLines l) (ringLines l') := by
  induction h with
  | nil => exact .nil
  | @cons a a' t t' ha ht ih =>
    cases ht with
    | nil => exact .nil
    | cons hb ht => exact .cons ⟨ha, hb⟩ ih

theorem leastIndex_rel {l : List (Pt K)} {l' : List (Pt L)} (h : Forall₂ R l l') : leastIndex l' = leastIndex l := by
  cases h with
  | nil => rfl
  | @cons a a' t t' ha ht =>
    have := f2_foldl (B := fun (x : Pt K × Nat) (y : Pt L × Nat) => R x.1 y.1 ∧ x.2 = y.2) (f2_zipIdx ht 1)
      (f := fun m e => if e.1 < m.1 then e else m) (f' := fun m e => if e.1 < m.1 then e else m) (s := (a, 0)) (s' := (a', 0)) ⟨ha, rfl⟩
      (fun s s' x x' hs hx => by
        by_cases c : x.1 < s.1
        · simp only [c, (H.lt hx.1 hs.1).2 c, if_true]; exact hx
        · have c' : ¬ x'.1 < s'.1 := fun k => c ((H.lt hx.1 hs.1).1 k)
          simp only [c, c', if_false]; exact hs)
    exact this.2.symm

theorem findOther_rel {a : Pt K} {a' : Pt L} (ha : R a a') {l : List (Pt K)} {l' : List (Pt L)} (h : Forall₂ R l l') :
    Option.Rel R (findOther a l) (findOther a' l') := by
  refine f2_find h fun b b' hb => ?_
  simp only [ne_eq, H.eq hb ha]

theorem windingOrder_rel {l : List (Pt K)} {l' : List (Pt L)} (h : Forall₂ R l l') : windingOrder l' = windingOrder l := by
  have e : Option.Rel (fun w w' : Winding => w' = w) (windingOrder l) (windingOrder l') := by
    unfold windingOrder
    refine orel_ite (by rw [← h.length_eq, ne_eq, ne_eq, H.oeq (f2_head h) (f2_last h)]) (fun _ => .none) fun _ => ?_
    simp only [leastIndex_rel H h]
    refine orel_obind (f2_get h _) fun a a' ha => ?_
    refine orel_obind (findOther_rel H ha (f2_append (f2_drop h _) (f2_take h _))) fun n n' hn => ?_
    refine orel_obind (findOther_rel H ha (f2_append (f2_reverse (f2_take h _)) (f2_reverse (f2_drop h _)))) fun p p' hp => ?_
    rw [H.ori hp ha hn]
    cases orient2d p a n
    · exact .some rfl
    · exact .some rfl
    · exact .none
  revert e
  generalize windingOrder l = x, windingOrder l' = x'
  intro e
  cases e with
  | none => rfl
  | some h => rw [h]

theorem addClosedRing_rel {s : Sweep K} {s' : Sweep L} (hs : SwR1 R s s') {l : List (Pt K)} {l' : List (Pt L)} (h : Forall₂ R l l')
    (b : Bool) : Option.Rel (SwR1 R) (addClosedRing s l b) (addClosedRing s' l' b) := by
  unfold addClosedRing
  refine orel_ite (by rw [← h.length_eq, H.oeq (f2_head h) (f2_last h)]) (fun _ => ?_) fun _ => .none
  rw [windingOrder_rel H h]
  refine orel_same rfl fun w => ?_
  exact f2_foldlM (ringLines_rel H h) hs fun s s' a a' hs ha => addLine_rel H _ hs ha

theorem evCmp_rel {a b : Event K} {a' b' : Event L} (ha : ER R a a') (hb : ER R b b') : Event.cmp a' b' = Event.cmp a b := by
  unfold Event.cmp
  rw [H.cmp ha.point hb.point, ha.ty, hb.ty]

theorem isSortedBy_rel {l : List (Event K)} {l' : List (Event L)} (h : Forall₂ (ER R) l l') :
    isSortedBy (fun a b => some (Event.cmp a b)) l = isSortedBy (fun a b => some (Event.cmp a b)) l' := by
  induction h with
  | nil => rfl
  | cons h t ih =>
    unfold isSortedBy
    rw [ih]
    congr 1
    exact f2_all t fun b b' hb => by rw [evCmp_rel H h hb]

/-- Whatever a sort of the events of the image does, a sort of the events does. -/
theorem sort_rel (srt' : List (Event L) → List (Event L)) {l : List (Event K)} {l' : List (Event L)} (h : Forall₂ (ER R) l l') :
    ∃ srt : List (Event K) → List (Event K), Option.Rel (Forall₂ (ER R)) (sortBy (fun a b => some (Event.cmp a b)) srt l)
      (sortBy (fun a b => some (Event.cmp a b)) srt' l') := by
  have all : ∀ {M : Type} [LinearOrder M] (l : List (Event M)),
      (l.all fun a => l.all fun b => (some (Event.cmp a b)).isSome) = true := by
    intro M _ l
    rw [List.all_eq_true]; intro a _
    rw [List.all_eq_true]; intro b _
    rfl
  obtain ⟨r', h1, h2, h3⟩ : ∃ r', sortBy (fun a b : Event L => some (Event.cmp a b)) srt' l' = some r' ∧ r'.Perm l' ∧
      isSortedBy (fun a b : Event L => some (Event.cmp a b)) r' = true := by
    unfold sortBy
    rw [if_pos (all l')]
    by_cases k : (srt' l').isPerm l' && isSortedBy (fun a b => some (Event.cmp a b)) (srt' l')
    · rw [if_pos k]
      rw [Bool.and_eq_true] at k
      exact ⟨_, rfl, List.isPerm_iff.1 k.1, k.2⟩
    · rw [if_neg k]
      refine ⟨_, rfl, insertionSortBy_perm l', isSortedBy_iff.2 ?_⟩
      have : ∀ m : List (Event L), (insertionSortBy (fun a b => some (Event.cmp a b)) m).Pairwise (fun x y => Event.cmp x y ≠ .gt) := by
        intro m
        induction m with
        | nil => exact List.Pairwise.nil
        | cons a m ih => exact insertBy_events a ih
      exact (this l').imp fun h => by simpa using h
  obtain ⟨r, h4, h5⟩ : ∃ r, l.Perm r ∧ Forall₂ (ER R) r r' := by
    have : Relation.Comp (Forall₂ (ER R)) Perm l r' := ⟨l', h, h2.symm⟩
    rw [List.forall₂_comp_perm_eq_perm_comp_forall₂] at this
    exact this
  refine ⟨fun _ => r, ?_⟩
  rw [h1]
  unfold sortBy
  rw [if_pos (all l), if_pos (by rw [Bool.and_eq_true, List.isPerm_iff, isSortedBy_rel H h5]; exact ⟨h4.symm, h3⟩)]
  exact .some h5

theorem fromPolygon_rel (srt' : List (Event L) → List (Event L)) {p : Polygon K} {p' : Polygon L} (he : Forall₂ R p.ext p'.ext)
    (hi : Forall₂ (Forall₂ R) p.ints p'.ints) :
    ∃ srt, Option.Rel (SwR1 R) (Sweep.fromPolygon srt p) (Sweep.fromPolygon srt' p') := by
  have h0 : SwR1 R (⟨[Seg.newPoint 0 ⟨0, 0⟩], [], []⟩ : Sweep K) (⟨[Seg.newPoint 0 ⟨0, 0⟩], [], []⟩ : Sweep L) := by
    refine ⟨⟨rfl, le_refl _, fun i hi => ?_⟩, .nil, rfl⟩
    obtain ⟨i, rfl⟩ := Nat.exists_eq_succ_of_ne_zero hi
    exact .none
  have h1 := addClosedRing_rel H h0 he false
  have h2 : Option.Rel (SwR1 R)
      ((addClosedRing ⟨[Seg.newPoint 0 ⟨0, 0⟩], [], []⟩ p.ext false) >>= fun sw => p.ints.foldlM (fun sw r => addClosedRing sw r true) sw)
      ((addClosedRing ⟨[Seg.newPoint 0 ⟨0, 0⟩], [], []⟩ p'.ext false) >>= fun sw => p'.ints.foldlM (fun sw r => addClosedRing sw r true) sw) :=
    orel_bind h1 fun s s' hs => f2_foldlM hi hs fun s s' a a' hs ha => addClosedRing_rel H hs ha true
  unfold Sweep.fromPolygon
  simp only [Option.bind_eq_bind] at h2 ⊢
  simp only [← Option.bind_assoc]
  revert h2
  generalize (Option.bind (addClosedRing _ p.ext false) fun sw => p.ints.foldlM (fun sw r => addClosedRing sw r true) sw) = x,
    (Option.bind (addClosedRing _ p'.ext false) fun sw => p'.ints.foldlM (fun sw r => addClosedRing sw r true) sw) = x'
  intro h2
  cases h2 with
  | none => exact ⟨id, .none⟩
  | @some s s' h =>
    obtain ⟨srt, hs⟩ := sort_rel H srt' h.evs
    refine ⟨srt, ?_⟩
    simp only [Option.bind_some]
    refine orel_obind (B := SwR1 R) hs fun e e' he => ?_
    exact .some ⟨h.segs, he, h.act⟩

/-! ## The sweep -/

theorem getNextSegments_rel {l : List (Event K)} {l' : List (Event L)} (h : Forall₂ (ER R) l l') :
    Option.Rel (fun (x : Pt K × Nat) (y : Pt L × Nat) => R x.1 y.1 ∧ x.2 = y.2) (getNextSegments l) (getNextSegments l') := by
  refine orel_map (f2_last h) fun e e' he => ⟨he.point, ?_⟩
  show l.length - _ = l'.length - _
  rw [h.length_eq, f2_takeWhile_length (f2_reverse h) fun f f' hf => ?_]
  simp only [H.eq hf.point he.point]

theorem otherEnd_rel {s : Seg K} {s' : Seg L} (h : SR R s s') (t : EventType) : Option.Rel R (otherEnd s t) (otherEnd s' t) := by
  obtain ⟨key, geom, helper⟩ := s
  obtain ⟨key', geom', helper'⟩ := s'
  have h2 := h.geom
  cases geom <;> cases geom' <;> simp only [GR] at h2 <;> cases t <;>
    first | exact .none | exact .some h2 | exact .some h2.1 | exact .some h2.2

theorem interiorWinding_rel {s : Seg K} {s' : Seg L} (h : SR R s s') : s.interiorWinding = s'.interiorWinding := by
  obtain ⟨key, geom, helper⟩ := s
  obtain ⟨key', geom', helper'⟩ := s'
  have h2 := h.helper
  simp only at h2
  cases h2 <;> rfl

theorem classify_rel {l : List (Seg K)} {l' : List (Seg L)} (h : SegR1 R l l') {pt : Pt K} {pt' : Pt L} (hp : R pt pt')
    {e f : Event K} {e' f' : Event L} (he : ER R e e') (hf : ER R f f') :
    Option.Rel (IR R) (classify l pt e f) (classify l' pt' e' f') := by
  unfold classify
  rw [← he.key, ← hf.key, ← he.ty, ← hf.ty]
  refine orel_bind (h.get _ he.pos) fun s s' hs => ?_
  refine orel_bind (h.get _ hf.pos) fun t t' ht => ?_
  refine orel_bind (otherEnd_rel H hs _) fun a a' ha => ?_
  refine orel_bind (otherEnd_rel H ht _) fun b b' hb => ?_
  simp only [H.ori ha hp hb, ← interiorWinding_rel H hs]
  exact orel_same rfl fun ty => .some ⟨rfl, he, hf, ha, hb, rfl, rfl⟩

theorem findIntersectionType_rel {s : Sweep K} {s' : Sweep L} (h : SwR1 R s s') {pt : Pt K} {pt' : Pt L} (hp : R pt pt') (i : Nat) :
    Option.Rel (fun (x : Ixn K × List (Event K)) (y : Ixn L × List (Event L)) => IR R x.1 y.1 ∧ Forall₂ (ER R) x.2 y.2)
      (findIntersectionType s pt i) (findIntersectionType s' pt' i) := by
  unfold findIntersectionType
  refine orel_ite (by rw [h.evs.length_eq]) (fun _ => ?_) fun _ => .none
  have hr := f2_reverse h.evs
  revert hr
  generalize s.events.reverse = x, s'.events.reverse = x'
  intro hr
  cases hr with
  | nil => exact .none
  | cons ha hr =>
    cases hr with
    | nil => exact .none
    | cons hb hr => exact orel_map (classify_rel H h.segs hp ha hb) fun i i' hi => ⟨hi, f2_reverse hr⟩

theorem storePoint_rel {s : Sweep K} {s' : Sweep L} (h : SwR1 R s s') {pt : Pt K} {pt' : Pt L} (hp : R pt pt')
    {ev : List (Event K)} {ev' : List (Event L)} (he : Forall₂ (ER R) ev ev') :
    SwR R (storePoint { s with events := ev } pt) (storePoint { s' with events := ev' } pt') := by
  refine ⟨f2_of_get fun i => ?_, by simpa [storePoint] using h.segs.pos, he, h.act⟩
  show Option.Rel _ (s.segments.set 0 _)[i]? (s'.segments.set 0 _)[i]?
  rw [List.getElem?_set, List.getElem?_set]
  split
  · rw [if_pos (by have := h.segs.pos; omega), if_pos (by have := h.segs.pos; have := h.segs.len; omega)]
    exact .some ⟨rfl, hp, .none⟩
  · exact h.segs.get i (by omega)

theorem SwR.one {s : Sweep K} {s' : Sweep L} (h : SwR R s s') : SwR1 R s s' :=
  ⟨⟨h.segs.length_eq, h.pos, fun i _ => f2_get h.segs i⟩, h.evs, h.act⟩

theorem handleRemove_rel {pt : Pt K} {pt' : Pt L} (hp : R pt pt') {s : Sweep K} {s' : Sweep L} (h : SwR R s s')
    {ls : List (Link K)} {ls' : List (Link L)} (hl : Forall₂ (KR R) ls ls') {e : Event K} {e' : Event L} (he : ER R e e') :
    Option.Rel (SLR R) (handleRemove pt s ls e) (handleRemove pt' s' ls' e') := by
  unfold handleRemove
  rw [← he.key, ← he.ty, ← h.act]
  refine orel_ite Iff.rfl (fun _ => .some ⟨h, hl⟩) fun _ => ?_
  refine orel_bind (f2_get h.segs _) fun g g' hg => ?_
  obtain ⟨key, geom, helper⟩ := g
  obtain ⟨key', geom', helper'⟩ := g'
  obtain ⟨h1, h2, h3⟩ := hg
  simp only at h1 h2 h3
  cases h3 with
  | none => exact orel_same (removeKey_rel H h.segs _ _).symm fun act => .some ⟨⟨h.segs, h.pos, h.evs, rfl⟩, hl⟩
  | @some a a' ha =>
    obtain ⟨q, b⟩ := a
    obtain ⟨q', b'⟩ := a'
    obtain ⟨ha, hb⟩ := ha
    simp only at ha hb
    subst hb
    cases b with
    | false => exact orel_same (removeKey_rel H h.segs _ _).symm fun act => .some ⟨⟨h.segs, h.pos, h.evs, rfl⟩, hl⟩
    | true =>
      have hs : Forall₂ (SR R) (s.segments.set e.segmentKey ⟨key, geom, some ⟨q, false⟩⟩)
          (s'.segments.set e.segmentKey ⟨key', geom', some ⟨q', false⟩⟩) := f2_set h.segs _ ⟨h1, h2, .some ⟨ha, rfl⟩⟩
      exact orel_same (removeKey_rel H hs _ _).symm fun act => .some ⟨⟨hs, by simpa using h.pos, h.evs, rfl⟩,
        f2_append hl (.cons ⟨ha, hp, .none⟩ .nil)⟩

theorem fixUp_rel {pt : Pt K} {pt' : Pt L} (hp : R pt pt') {i : Ixn K} {i' : Ixn L} (hi : IR R i i') {s : Sweep K} {s' : Sweep L}
    (h : SwR R s s') {ls : List (Link K)} {ls' : List (Link L)} (hl : Forall₂ (KR R) ls ls') (force m : Bool) :
    Option.Rel (SLR R) (fixUp pt i s ls force m) (fixUp pt' i' s' ls' force m) := by
  unfold fixUp
  rw [← h.act, nextKey_rel H h.segs, ← hi.interior]
  refine orel_same rfl fun o => orel_same rfl fun next => ?_
  refine orel_bind (f2_get h.segs _) fun g g' hg => ?_
  refine orel_bind hg.helper fun a a' ha => ?_
  obtain ⟨q, b⟩ := a
  obtain ⟨q', b'⟩ := a'
  obtain ⟨ha, hb⟩ := ha
  simp only at ha hb
  subst hb
  have hs : ∀ flag, Forall₂ (SR R) (s.segments.set next { g with helper := some ⟨pt, flag⟩ })
      (s'.segments.set next { g' with helper := some ⟨pt', flag⟩ }) := fun flag => f2_set h.segs _ ⟨hg.key, hg.geom, .some ⟨hp, rfl⟩⟩
  have key : ∀ (t t' : Pt K) (u u' : Pt L), R t u → R t' u' → Forall₂ (KR R)
      (if (b || force) = true then ls ++ [if b = true then .merge q pt (some (t, t')) else .split q pt t t'] else ls)
      (if (b || force) = true then ls' ++ [if b = true then .merge q' pt' (some (u, u')) else .split q' pt' u u'] else ls') := by
    intro t t' u u' ht ht'
    cases b
    · cases force
      · exact hl
      · exact f2_append hl (.cons ⟨ha, hp, ht, ht'⟩ .nil)
    · exact f2_append hl (.cons ⟨ha, hp, .some ⟨ht, ht'⟩⟩ .nil)
  by_cases c : i.interior ≠ .clockwise
  · simp only [if_pos c]
    exact .some ⟨⟨hs _, by simpa using h.pos, h.evs, rfl⟩, key _ _ _ _ hi.other1 hi.other2⟩
  · simp only [if_neg c]
    exact .some ⟨⟨hs _, by simpa using h.pos, h.evs, rfl⟩, key _ _ _ _ hi.other2 hi.other1⟩

theorem handleVertex_rel {pt : Pt K} {pt' : Pt L} (hp : R pt pt') {i : Ixn K} {i' : Ixn L} (hi : IR R i i') (w : Winding) {s : Sweep K}
    {s' : Sweep L} (h : SwR R s s') {ls : List (Link K)} {ls' : List (Link L)} (hl : Forall₂ (KR R) ls ls') :
    Option.Rel (SLR R) (handleVertex pt i w s ls) (handleVertex pt' i' w s' ls') := by
  unfold handleVertex
  rw [← hi.ty]
  cases i.ty with
  | cont =>
    refine orel_ite Iff.rfl (fun _ => orel_bind (fixUp_rel H hp hi h hl _ _) fun x x' hx => ?_) fun _ =>
      orel_bind (A := SLR R) (.some ⟨h, hl⟩) fun x x' hx => ?_
    all_goals
      obtain ⟨s, ls⟩ := x
      obtain ⟨s', ls'⟩ := x'
      obtain ⟨hs, hl⟩ := hx
      dsimp only
      rw [← hi.interior]
      refine orel_ite (H.lt hi.other2 hi.other1) (fun _ => .some ⟨hs, f2_append hl (.cons ⟨hi.other2, hp, hi.other1, rfl⟩ .nil)⟩) fun _ => ?_
      exact orel_ite (H.lt hi.other1 hi.other2) (fun _ => .some ⟨hs, f2_append hl (.cons ⟨hi.other1, hp, hi.other2, rfl⟩ .nil)⟩) fun _ => .none
  | split => exact fixUp_rel H hp hi h hl _ _
  | merge => exact fixUp_rel H hp hi h hl _ _
  | finish =>
    simp only [← hi.interior]
    by_cases c : i.interior = .clockwise
    · simp only [if_pos c]
      exact .some ⟨h, f2_append hl (.cons ⟨hi.other1, hi.other2, hp⟩ .nil)⟩
    · simp only [if_neg c]
      exact .some ⟨h, f2_append hl (.cons ⟨hi.other2, hi.other1, hp⟩ .nil)⟩
  | start =>
    simp only [← hi.interior]
    by_cases c : i.interior = .clockwise
    · simp only [if_pos c]
      exact .some ⟨h, f2_append hl (.cons ⟨hp, hi.other1, hi.other2⟩ .nil)⟩
    · simp only [if_neg c]
      exact .some ⟨h, f2_append hl (.cons ⟨hp, hi.other2, hi.other1⟩ .nil)⟩

theorem handleInsert_rel {s : Sweep K} {s' : Sweep L} (h : SwR R s s') {e : Event K} {e' : Event L} (he : ER R e e') :
    Option.Rel (SwR R) (handleInsert s e) (handleInsert s' e') := by
  unfold handleInsert
  rw [← he.key, ← he.ty, ← h.act, addKey_rel H h.segs]
  refine orel_ite Iff.rfl (fun _ => .some h) fun _ => ?_
  cases addKey s.segments s.active e.segmentKey with
  | none => exact .none
  | some a => exact .some ⟨h.segs, h.pos, h.evs, rfl⟩

theorem processEvent_rel {s : Sweep K} {s' : Sweep L} (h : SwR1 R s s') :
    Option.Rel (fun (x : Sweep K × Option (SweepEvent K)) (y : Sweep L × Option (SweepEvent L)) =>
      SwR1 R x.1 y.1 ∧ Option.Rel (VR R) x.2 y.2) (processEvent s) (processEvent s') := by
  unfold processEvent
  have hn := getNextSegments_rel H h.evs
  revert hn
  generalize getNextSegments s.events = x, getNextSegments s'.events = x'
  intro hn
  cases hn with
  | none => exact .some ⟨h, .none⟩
  | @some x x' hx =>
    obtain ⟨pt, idx⟩ := x
    obtain ⟨pt', idx'⟩ := x'
    obtain ⟨hp, hi⟩ := hx
    simp only at hp hi
    subst hi
    refine orel_bind (findIntersectionType_rel H h hp idx) fun x x' hx => ?_
    obtain ⟨i, evs⟩ := x
    obtain ⟨i', evs'⟩ := x'
    obtain ⟨hi, he⟩ := hx
    refine orel_bind (handleRemove_rel H hp (storePoint_rel H h hp he) .nil hi.event1) fun x x' hx => ?_
    obtain ⟨s, ls⟩ := x
    obtain ⟨s', ls'⟩ := x'
    obtain ⟨hs, hl⟩ := hx
    refine orel_bind (handleRemove_rel H hp hs hl hi.event2) fun x x' hx => ?_
    obtain ⟨s, ls⟩ := x
    obtain ⟨s', ls'⟩ := x'
    obtain ⟨hs, hl⟩ := hx
    dsimp only
    rw [← hi.event1.key, ← hi.event2.key, ← hi.ty]
    refine orel_bind (f2_get hs.segs _) fun a a' ha => ?_
    refine orel_bind (f2_get hs.segs _) fun b b' hb => ?_
    rw [← interiorWinding_rel H ha, ← interiorWinding_rel H hb]
    refine orel_ite Iff.rfl (fun _ => .none) fun _ => orel_same rfl fun _ => ?_
    refine orel_bind (handleVertex_rel H hp hi _ hs hl) fun x x' hx => ?_
    obtain ⟨s, ls⟩ := x
    obtain ⟨s', ls'⟩ := x'
    obtain ⟨hs, hl⟩ := hx
    refine orel_bind (handleInsert_rel H hs hi.event1) fun s s' hs => ?_
    refine orel_bind (handleInsert_rel H hs hi.event2) fun s s' hs => ?_
    exact .some ⟨hs.one H, .some ⟨hp, rfl, hl⟩⟩

/-! ## The chains -/

theorem CR.next {c : Chain K} {c' : Chain L} (h : CR R c c') : Option.Rel R c.next c'.next := f2_last h.coords

theorem CR.curr {c : Chain K} {c' : Chain L} (h : CR R c c') : Option.Rel R c.curr c'.curr := by
  unfold Chain.curr
  rw [← h.coords.length_eq]
  exact orel_ite Iff.rfl (fun _ => .none) fun _ => f2_get h.coords _

theorem CR.looksAt {c : Chain K} {c' : Chain L} (h : CR R c c') {p : Pt K} {p' : Pt L} (hp : R p p') : c.looksAt p = c'.looksAt p' := by
  unfold Chain.looksAt
  simp only [h.done, ← H.oeq (h.next H) (.some hp)]

theorem CR.advance {c : Chain K} {c' : Chain L} (h : CR R c c') {p : Pt K} {p' : Pt L} (hp : R p p') : CR R (c.advance p) (c'.advance p') :=
  ⟨h.interior, h.other, f2_append h.coords (.cons hp .nil), h.done⟩

theorem CR.pop {c : Chain K} {c' : Chain L} (h : CR R c c') :
    Option.Rel (fun (x : Pt K × Chain K) (y : Pt L × Chain L) => R x.1 y.1 ∧ CR R x.2 y.2) c.pop c'.pop :=
  orel_map (f2_last h.coords) fun _ _ hp => ⟨hp, h.interior, h.other, f2_dropLast h.coords, h.done⟩

theorem CR.finish (dbg : Bool) {c : Chain K} {c' : Chain L} (h : CR R c c') : Option.Rel (CR R) (c.finish dbg) (c'.finish dbg) := by
  unfold Chain.finish
  exact orel_same (by rw [h.done]) fun _ => .some ⟨h.interior, h.other, h.coords, rfl⟩

theorem chainNew_rel (w : Winding) (o : Nat) {l : List (Pt K)} {l' : List (Pt L)} (h : Forall₂ R l l') :
    Option.Rel (CR R) (Chain.new w o l) (Chain.new w o l') := by
  unfold Chain.new
  exact orel_ite (by rw [h.length_eq]) (fun _ => .some ⟨rfl, rfl, h, rfl⟩) fun _ => .none

variable {cs : List (Chain K)} {cs' : List (Chain L)}

theorem applyCont_rel (h : Forall₂ (CR R) cs cs') {p c n : Pt K} {p' c' n' : Pt L} (hp : R p p') (hc : R c c') (hn : R n n') :
    Option.Rel (fun (x : List (Chain K) × Nat) (y : List (Chain L) × Nat) => Forall₂ (CR R) x.1 y.1 ∧ x.2 = y.2)
      (applyCont cs p c n) (applyCont cs' p' c' n') := by
  unfold applyCont
  refine orel_same (f2_findIdx h fun a a' ha => ?_) fun i => ?_
  · rw [ha.looksAt H hc]
    simp only [← H.oeq (ha.curr H) (.some hp)]
  · refine orel_bind (f2_get h i) fun a a' ha => .some ⟨f2_set h i (ha.advance H hn), rfl⟩

theorem mergeChain_rel (ty : VertexType) {n : Pt K} {n' : Pt L} (hn : R n n') {o : Option (Pt K × Pt K)} {o' : Option (Pt L × Pt L)}
    (ho : Option.Rel (PR R) o o') {c : Chain K} {c' : Chain L} (hc : CR R c c') :
    Option.Rel (CR R) (mergeChain ty n o c) (mergeChain ty n' o' c') := by
  unfold mergeChain
  refine orel_ite Iff.rfl (fun _ => orel_map ho fun l l' hl => ?_) fun _ => .some (hc.advance H hn)
  have h1 := hc.advance H hn
  rw [← h1.interior]
  split
  · exact h1.advance H hl.2
  · exact h1.advance H hl.1

theorem applyMerge_rel (dbg : Bool) (ty : VertexType) (h : Forall₂ (CR R) cs cs') {p n : Pt K} {p' n' : Pt L} (hp : R p p') (hn : R n n')
    {o : Option (Pt K × Pt K)} {o' : Option (Pt L × Pt L)} (ho : Option.Rel (PR R) o o') :
    Option.Rel (Forall₂ (CR R)) (applyMerge dbg ty cs p n o) (applyMerge dbg ty cs' p' n' o') := by
  unfold applyMerge
  refine orel_bind (f2_mapM h fun c c' hc => orel_ite (by rw [hc.looksAt H hp]) (fun _ => mergeChain_rel H ty hn ho hc) fun _ => .some hc)
    fun ds ds' hd => ?_
  rw [f2_countP h fun c c' hc => hc.looksAt H hp]
  exact orel_same rfl fun _ => .some hd

theorem splitIdx_rel (dbg : Bool) (h : Forall₂ (CR R) cs cs') {p n : Pt K} {p' n' : Pt L} (hp : R p p') (hn : R n n') :
    splitIdx dbg cs' p' n' = splitIdx dbg cs p n := by
  have e : Option.Rel (fun a b : Nat => b = a) (splitIdx dbg cs p n) (splitIdx dbg cs' p' n') := by
    unfold splitIdx
    have e : ((List.range cs.length).filter fun i => (cs'[i]?).any fun c => !c.done && c.curr = some p') =
        (List.range cs.length).filter fun i => (cs[i]?).any fun c => !c.done && c.curr = some p :=
      List.filter_congr fun i _ => (orel_any (f2_get h i) fun c c' hc => by
        simp only [hc.done, ← H.oeq (hc.curr H) (.some hp)]).symm
    rw [← h.length_eq, e]
    split
    · exact .some rfl
    next i j _ =>
      refine orel_bind (f2_get h i) fun a a' ha => orel_bind (f2_get h j) fun b b' hb => ?_
      rw [← ha.interior, ← hb.interior]
      refine orel_ite Iff.rfl (fun _ => orel_same rfl fun x => ?_) fun _ => orel_same rfl fun x => ?_
      all_goals
        obtain ⟨u, v⟩ := x
        refine orel_bind (f2_get h u) fun c c' hc => orel_bind (hc.next H) fun q q' hq => ?_
        rw [H.ori hn hp hq]
        exact .some rfl
    · exact .none
  revert e
  generalize splitIdx dbg cs p n = x, splitIdx dbg cs' p' n' = x'
  intro e
  cases e with
  | none => rfl
  | some h => rw [h]

theorem applySplit_rel (dbg : Bool) (h : Forall₂ (CR R) cs cs') {p n t b : Pt K} {p' n' t' b' : Pt L} (hp : R p p') (hn : R n n')
    (ht : R t t') (hb : R b b') : Option.Rel (Forall₂ (CR R)) (applySplit dbg cs p n t b) (applySplit dbg cs' p' n' t' b') := by
  unfold applySplit
  rw [splitIdx_rel H dbg h hp hn]
  refine orel_same rfl fun i => orel_bind (f2_get h i) fun c c' hc => orel_bind (hc.pop H) fun x x' hx => ?_
  obtain ⟨q, c⟩ := x
  obtain ⟨q', c'⟩ := x'
  obtain ⟨hq, hc⟩ := hx
  have h1 := hc.advance H hn
  have key : ∀ (d : Chain K) (d' : Chain L) (o : Pt K) (o' : Pt L), CR R d d' → R o o' → Option.Rel (Forall₂ (CR R))
      (do
        let chains := cs.set i d
        let tdx := chains.length
        let bdx := tdx + 1
        let chain1 ← Chain.new d.interior bdx [p, q]
        let chain2 ← Chain.new d.interior.inverse tdx [p, n, o]
        pure (chains ++ [chain1, chain2]))
      (do
        let chains := cs'.set i d'
        let tdx := chains.length
        let bdx := tdx + 1
        let chain1 ← Chain.new d'.interior bdx [p', q']
        let chain2 ← Chain.new d'.interior.inverse tdx [p', n', o']
        pure (chains ++ [chain1, chain2])) := by
    intro d d' o o' hd ho
    have hs := f2_set h i hd
    simp only [← hd.interior, ← hs.length_eq]
    refine orel_bind (chainNew_rel H _ _ (.cons hp (.cons hq .nil))) fun x x' hx => ?_
    refine orel_bind (chainNew_rel H _ _ (.cons hp (.cons hn (.cons ho .nil)))) fun y y' hy => ?_
    exact .some (f2_append hs (.cons hx (.cons hy .nil)))
  simp only [← h1.interior]
  by_cases k : (c.advance n).interior = .clockwise
  · simp only [if_pos k]
    exact key _ _ _ _ (h1.advance H hb) ht
  · simp only [if_neg k]
    exact key _ _ _ _ (h1.advance H ht) hb

theorem applyLink_rel (dbg : Bool) {pt : Pt K} {pt' : Pt L} (hp : R pt pt') (ty : VertexType) {s : List (Chain K) × Option Nat}
    {s' : List (Chain L) × Option Nat} (hs : Forall₂ (CR R) s.1 s'.1 ∧ s.2 = s'.2) {l : Link K} {l' : Link L} (hl : KR R l l') :
    Option.Rel (fun (x : List (Chain K) × Option Nat) (y : List (Chain L) × Option Nat) => Forall₂ (CR R) x.1 y.1 ∧ x.2 = y.2)
      (applyLink dbg pt ty s l) (applyLink dbg pt' ty s' l') := by
  obtain ⟨cs, o⟩ := s
  obtain ⟨cs', o'⟩ := s'
  obtain ⟨hs, ho⟩ := hs
  simp only at hs ho
  subst ho
  unfold applyLink
  cases l <;> cases l' <;> simp only [KR] at hl <;> dsimp only
  · obtain ⟨h1, h2, h3⟩ := hl
    refine orel_same (by simp only [← H.eq h1 hp]) fun _ => ?_
    rw [← hs.length_eq]
    refine orel_bind (chainNew_rel H _ _ (.cons h1 (.cons h2 .nil))) fun x x' hx => ?_
    refine orel_bind (chainNew_rel H _ _ (.cons h1 (.cons h3 .nil))) fun y y' hy => ?_
    exact .some ⟨f2_append hs (.cons hx (.cons hy .nil)), rfl⟩
  · obtain ⟨h1, h2, h3, -⟩ := hl
    refine orel_same (by simp only [← H.eq h2 hp]) fun _ => ?_
    refine orel_bind (applyCont_rel H hs h1 h2 h3) fun x x' hx => ?_
    exact .some ⟨hx.1, congrArg some hx.2⟩
  · obtain ⟨h1, h2, h3⟩ := hl
    refine orel_same (by simp only [← H.eq h2 hp]) fun _ => ?_
    exact orel_bind (applyMerge_rel H dbg ty hs h1 h2 h3) fun x x' hx => .some ⟨hx, rfl⟩
  · obtain ⟨h1, h2, h3, h4⟩ := hl
    refine orel_same (by simp only [← H.eq h2 hp]) fun _ => ?_
    exact orel_bind (applySplit_rel H dbg hs h1 h2 h3 h4) fun x x' hx => .some ⟨hx, rfl⟩
  · obtain ⟨-, -, h3⟩ := hl
    exact orel_same (by simp only [← H.eq h3 hp]) fun _ => .some ⟨hs, rfl⟩

theorem finishPair_rel (dbg : Bool) (h : Forall₂ (CR R) cs cs') (i j : Nat) :
    Option.Rel (Forall₂ (CR R)) (finishPair dbg cs i j) (finishPair dbg cs' i j) := by
  unfold finishPair
  refine orel_bind (f2_get h i) fun a a' ha => orel_bind (ha.finish H dbg) fun a a' ha => ?_
  have h1 := f2_set h i ha
  refine orel_bind (f2_get h1 j) fun b b' hb => orel_bind (hb.finish H dbg) fun b b' hb => ?_
  have h2 := f2_set h1 j hb
  refine orel_bind (f2_get h2 i) fun c c' hc => ?_
  rw [← hb.interior, ← hc.interior]
  exact orel_same rfl fun _ => .some h2

theorem reduceCont_rel (dbg : Bool) (h : Forall₂ (CR R) cs cs') (i : Nat) (looks : List Nat) :
    Option.Rel (Forall₂ (CR R)) (reduceCont dbg cs i looks) (reduceCont dbg cs' i looks) := by
  unfold reduceCont
  refine orel_same rfl fun _ => orel_same rfl fun l0 => orel_bind (f2_get h l0) fun c c' hc => ?_
  rw [← hc.other]
  have key : ∀ u v : Nat, Option.Rel (Forall₂ (CR R))
      (do
        let c ← cs[i]?
        let (newNext, c) ← c.pop
        let chains := cs.set i c
        let cp ← chains[u]?
        dassert dbg (c.next = cp.next)
        let chains ← finishPair dbg chains i u
        let co ← chains[v]?
        pure (chains.set v (co.advance newNext)))
      (do
        let c ← cs'[i]?
        let (newNext, c) ← c.pop
        let chains := cs'.set i c
        let cp ← chains[u]?
        dassert dbg (c.next = cp.next)
        let chains ← finishPair dbg chains i u
        let co ← chains[v]?
        pure (chains.set v (co.advance newNext))) := by
    intro u v
    refine orel_bind (f2_get h i) fun d d' hd => orel_bind (hd.pop H) fun y y' hy => ?_
    obtain ⟨q, d⟩ := y
    obtain ⟨q', d'⟩ := y'
    obtain ⟨hq, hd⟩ := hy
    have h1 := f2_set h i hd
    refine orel_bind (f2_get h1 u) fun e e' he => ?_
    refine orel_same (by simp only [← H.oeq (hd.next H) (he.next H)]) fun _ => ?_
    refine orel_bind (finishPair_rel H dbg h1 i u) fun es es' hes => orel_bind (f2_get hes v) fun f f' hf => ?_
    exact .some (f2_set hes v (hf.advance H hq))
  refine orel_ite Iff.rfl (fun _ => orel_same rfl fun x => key x.1 x.2) fun _ => ?_
  refine orel_same rfl fun l1 => orel_bind (f2_get h l1) fun d d' hd => ?_
  rw [← hd.other]
  refine orel_ite Iff.rfl (fun _ => orel_same rfl fun x => key x.1 x.2) fun _ => .none

theorem reduceOne_rel (dbg : Bool) (h : Forall₂ (CR R) cs cs') (i : Nat) :
    Option.Rel (Forall₂ (CR R)) (reduceOne dbg cs i) (reduceOne dbg cs' i) := by
  unfold reduceOne
  refine orel_bind (f2_get h i) fun a a' ha => ?_
  simp only [← ha.other]
  refine orel_bind (f2_get h _) fun b b' hb => ?_
  rw [← ha.done, ← hb.done]
  refine orel_same rfl fun _ => orel_ite Iff.rfl (fun _ => .some h) fun _ => ?_
  exact orel_ite (H.oeq (ha.next H) (hb.next H)) (fun _ => finishPair_rel H dbg h _ _) fun _ => .some h

theorem reduce_rel (dbg : Bool) {pt : Pt K} {pt' : Pt L} (hp : R pt pt') (h : Forall₂ (CR R) cs cs') (o : Option Nat) :
    Option.Rel (Forall₂ (CR R)) (reduce dbg pt cs o) (reduce dbg pt' cs' o) := by
  unfold reduce
  rw [← h.length_eq]
  have e : ((List.range cs.length).filter fun i => (cs'[i]?).any fun c => c.looksAt pt') =
      (List.range cs.length).filter fun i => (cs[i]?).any fun c => c.looksAt pt :=
    List.filter_congr fun i _ => (orel_any (f2_get h i) fun c c' hc => hc.looksAt H hp).symm
  simp only [e]
  refine orel_same rfl fun _ => ?_
  cases o with
  | none => exact f2_foldlM (f2_refl _) h fun s s' a a' hs ha => by subst ha; exact reduceOne_rel H dbg hs _
  | some c => exact orel_ite Iff.rfl (fun _ => .some h) fun _ => reduceCont_rel H dbg h _ _

theorem applyEvent_rel (dbg : Bool) (h : Forall₂ (CR R) cs cs') {e : SweepEvent K} {e' : SweepEvent L} (he : VR R e e') :
    Option.Rel (Forall₂ (CR R)) (applyEvent dbg cs e) (applyEvent dbg cs' e') := by
  unfold applyEvent
  rw [← he.ty]
  refine orel_bind (f2_foldlM he.links (B := fun (x : List (Chain K) × Option Nat) (y : List (Chain L) × Option Nat) =>
    Forall₂ (CR R) x.1 y.1 ∧ x.2 = y.2) ⟨h, rfl⟩ fun s s' a a' hs ha => applyLink_rel H dbg he.pt _ hs ha) fun x x' hx => ?_
  obtain ⟨ds, o⟩ := x
  obtain ⟨ds', o'⟩ := x'
  obtain ⟨hd, ho⟩ := hx
  simp only at ho
  subst ho
  exact reduce_rel H dbg he.pt hd _

theorem run_rel (dbg : Bool) : ∀ (n : Nat) {s : Sweep K} {s' : Sweep L} {cs : List (Chain K)} {cs' : List (Chain L)}, SwR1 R s s' →
    Forall₂ (CR R) cs cs' → Option.Rel (Forall₂ (CR R)) (run dbg n s cs) (run dbg n s' cs')
  | 0, _, _, _, _, _, _ => .none
  | n + 1, s, s', cs, cs', hs, h => by
    rw [run, run]
    have hp := processEvent_rel H hs
    revert hp
    generalize processEvent s = x, processEvent s' = x'
    intro hp
    cases hp with
    | none => exact .none
    | @some x x' hx =>
      obtain ⟨t, o⟩ := x
      obtain ⟨t', o'⟩ := x'
      obtain ⟨ht, ho⟩ := hx
      simp only at ht ho
      cases ho with
      | none => exact .some h
      | some he => exact orel_obind (applyEvent_rel H dbg h he) fun ds ds' hd => run_rel dbg n ht hd

theorem allIncreasing_rel {l : List (Pt K)} {l' : List (Pt L)} (h : Forall₂ R l l') : allIncreasing l' = allIncreasing l := by
  induction h with
  | nil => rfl
  | @cons a a' t t' ha ht ih =>
    cases ht with
    | nil => rfl
    | cons hb ht =>
      unfold allIncreasing
      simp only [H.lt ha hb, ih]

theorem monoNew_rel {l m : List (Pt K)} {l' m' : List (Pt L)} (h : Forall₂ R l l') (k : Forall₂ R m m') :
    Option.Rel (MR R) (MonoPoly.new l m) (MonoPoly.new l' m') := by
  unfold MonoPoly.new
  rw [allIncreasing_rel H h, allIncreasing_rel H k]
  refine orel_ite (H.oeq (f2_head h) (f2_head k)) (fun _ => ?_) fun _ => .none
  refine orel_ite (H.oeq (f2_last h) (f2_last k)) (fun _ => ?_) fun _ => .none
  refine orel_ite (not_congr (H.oeq (f2_head h) (f2_last h))) (fun _ => ?_) fun _ => .none
  exact orel_ite Iff.rfl (fun _ => .some ⟨h, k⟩) fun _ => .none

theorem takePair_rel {s : List (List (Pt K)) × List (MonoPoly K)} {s' : List (List (Pt L)) × List (MonoPoly L)}
    (h : Forall₂ (Forall₂ R) s.1 s'.1 ∧ Forall₂ (MR R) s.2 s'.2) (p : Nat × Nat) :
    Option.Rel (fun (x : List (List (Pt K)) × List (MonoPoly K)) (y : List (List (Pt L)) × List (MonoPoly L)) =>
      Forall₂ (Forall₂ R) x.1 y.1 ∧ Forall₂ (MR R) x.2 y.2) (takePair s p) (takePair s' p) := by
  obtain ⟨l, o⟩ := s
  obtain ⟨l', o'⟩ := s'
  obtain ⟨h1, h2⟩ := h
  unfold takePair
  dsimp only
  refine orel_bind (f2_get h1 _) fun t t' ht => ?_
  have h3 := f2_set h1 p.1 (Forall₂.nil (R := R))
  refine orel_bind (f2_get h3 _) fun b b' hb => ?_
  refine orel_bind (monoNew_rel H ht hb) fun m m' hm => ?_
  exact .some ⟨f2_set h3 _ .nil, f2_append h2 (.cons hm .nil)⟩

theorem collect_rel (dbg : Bool) (h : Forall₂ (CR R) cs cs') : Option.Rel (Forall₂ (MR R)) (collect dbg cs) (collect dbg cs') := by
  unfold collect
  rw [f2_all h fun c c' hc => hc.done, ← h.length_eq, f2_filterMap (f2_zipIdx h 0) (f := fun x => if x.1.interior = .clockwise then
    some (x.2, x.1.other) else none) (f' := fun x => if x.1.interior = .clockwise then some (x.2, x.1.other) else none)
    fun x x' hx => by rw [hx.1.interior, hx.1.other, hx.2]]
  refine orel_same rfl fun _ => orel_same rfl fun _ => ?_
  refine orel_bind (f2_foldlM (f2_refl _) (B := fun (x : List (List (Pt K)) × List (MonoPoly K))
    (y : List (List (Pt L)) × List (MonoPoly L)) => Forall₂ (Forall₂ R) x.1 y.1 ∧ Forall₂ (MR R) x.2 y.2)
    ⟨f2_map h fun c c' hc => hc.coords, .nil⟩ fun s s' a a' hs ha => by subst ha; exact takePair_rel H hs _) fun x x' hx => ?_
  exact .some hx.2

/-- `monotone_chains` on two polygons with related points. -/
theorem monotoneChains_rel (dbg : Bool) (srt' : List (Event L) → List (Event L)) {p : Polygon K} {p' : Polygon L}
    (he : Forall₂ R p.ext p'.ext) (hi : Forall₂ (Forall₂ R) p.ints p'.ints) :
    ∃ srt, Option.Rel (Forall₂ (MR R)) (monotoneChains dbg srt p) (monotoneChains dbg srt' p') := by
  obtain ⟨srt, h⟩ := fromPolygon_rel H srt' he hi
  refine ⟨srt, ?_⟩
  unfold monotoneChains
  refine orel_bind h fun s s' hs => ?_
  rw [← hs.evs.length_eq]
  exact orel_bind (run_rel H dbg _ hs .nil) fun cs cs' hc => collect_rel H dbg hc

end

end GeoCrossings.Monotone

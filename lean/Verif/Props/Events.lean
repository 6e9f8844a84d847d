import Verif.Model.Events
import Mathlib.Order.Compare
import Mathlib.Data.List.Perm.Basic

/-! # C09, C10: sweep points and the event queue -/
namespace GeoCrossings

variable {K : Type _}

/-! ## C09 -/

/-- Laws of a scalar's `partial_cmp`/`==` that hold for floats: it is undefined exactly on "NaN"
values (`¬ ok`), and on the others it is a linear order for which `==` is comparison `Equal`.
(`+0.0` and `-0.0` are different values that compare equal, so this is an order up to `Equal`.) -/
structure FloatLike (ok : K → Prop) (pc : K → K → Option Ordering) (pe : K → K → Bool) : Prop where
  defined : ∀ a b, pc a b ≠ none ↔ ok a ∧ ok b
  swap : ∀ a b, pc b a = (pc a b).map Ordering.swap
  eq_iff : ∀ a b, pe a b = true ↔ pc a b = some .eq
  trans : ∀ a b c, pc a b = some .lt → pc b c = some .lt → pc a c = some .lt
  congr : ∀ a b c, pc a b = some .eq → pc a c = pc b c

section
variable {ok : K → Prop} {pc : K → K → Option Ordering} {pe : K → K → Bool}

theorem FloatLike.congr' (h : FloatLike ok pc pe) {a b c : K} (hab : pc a b = some .eq) : pc c a = pc c b := by
  rw [h.swap a c, h.swap b c, h.congr a b c hab]

/-- **C09 (order).** On points without NaN the comparison is defined, antisymmetric (swapping the
arguments reverses it), transitive, total, agrees with `==`, and is lexicographic. -/
theorem C09_sweep_point_order (h : FloatLike ok pc pe) :
    (∀ a b : Pt K, a.pcmpWith pc b = some .lt ↔
        pc a.x b.x = some .lt ∨ (pc a.x b.x = some .eq ∧ pc a.y b.y = some .lt)) ∧
    (∀ a b : Pt K, b.pcmpWith pc a = (a.pcmpWith pc b).map Ordering.swap) ∧
    (∀ a b : Pt K, a.pcmpWith pc b = some .eq ↔ a.eqWith pe b = true) ∧
    (∀ a b c : Pt K, a.pcmpWith pc b = some .lt → b.pcmpWith pc c = some .lt → a.pcmpWith pc c = some .lt) ∧
    (∀ a b : Pt K, ok a.x → ok a.y → ok b.x → ok b.y → a.pcmpWith pc b ≠ none) := by
  have hlt : ∀ a b : Pt K, a.pcmpWith pc b = some .lt ↔
        pc a.x b.x = some .lt ∨ (pc a.x b.x = some .eq ∧ pc a.y b.y = some .lt) := by
    intro a b
    unfold Pt.pcmpWith
    rcases hx : pc a.x b.x with _ | (_ | _ | _) <;> simp
  refine ⟨hlt, ?_, ?_, ?_, ?_⟩
  · intro a b
    unfold Pt.pcmpWith
    rw [h.swap a.x b.x, h.swap a.y b.y]
    rcases hx : pc a.x b.x with _ | (_ | _ | _) <;> simp
  · intro a b
    simp only [Pt.eqWith, Bool.and_eq_true, h.eq_iff, Pt.pcmpWith]
    rcases hx : pc a.x b.x with _ | (_ | _ | _) <;> simp
  · intro a b c h1 h2
    rw [hlt] at *
    rcases h1 with h1 | ⟨h1, h1'⟩ <;> rcases h2 with h2 | ⟨h2, h2'⟩
    · exact .inl (h.trans _ _ _ h1 h2)
    · exact .inl (by rw [← h.congr' h2]; exact h1)
    · exact .inl (by rw [h.congr _ _ _ h1]; exact h2)
    · exact .inr ⟨by rw [h.congr _ _ _ h1]; exact h2, h.trans _ _ _ h1' h2'⟩
  · intro a b h1 h2 h3 h4
    have hx := (h.defined a.x b.x).2 ⟨h1, h3⟩
    have hy := (h.defined a.y b.y).2 ⟨h2, h4⟩
    unfold Pt.pcmpWith
    rcases hx' : pc a.x b.x with _ | (_ | _ | _) <;> simp_all

/-- **C09 (panic).** `Ord::cmp` panics exactly when an `x` is NaN, or the `x`s are equal and a `y` is
NaN: a NaN `y` goes unnoticed when the `x`s differ. -/
theorem C09_cmp_panics_iff (h : FloatLike ok pc pe) (a b : Pt K) :
    a.cmpWith pc b = none ↔ (¬ ok a.x ∨ ¬ ok b.x) ∨ (pc a.x b.x = some .eq ∧ (¬ ok a.y ∨ ¬ ok b.y)) := by
  have hx := h.defined a.x b.x
  have hy := h.defined a.y b.y
  unfold Pt.cmpWith Pt.pcmpWith
  rcases hx' : pc a.x b.x with _ | (_ | _ | _) <;> simp [hx'] at hx ⊢
  · by_cases h1 : ok a.x
    · exact .inr (hx h1)
    · exact .inl h1
  · exact hx
  · simp only [hx, not_true, false_or]
    rw [← not_and_or, ← hy]
    simp
  · exact hx

end

/-- The order used in the rest of the model is this one, for a linearly ordered scalar. -/
theorem pcmpWith_linear [LinearOrder K] (a b : Pt K) :
    a.pcmpWith (fun s t => some (compare s t)) b = some (compare a b) := by
  unfold Pt.pcmpWith
  rcases lt_trichotomy a.x b.x with hx | hx | hx
  · have h : a < b := .inl hx
    simp only [compare_lt_iff_lt.2 hx, compare_lt_iff_lt.2 h]
  · simp only [compare_eq_iff_eq.2 hx]
    rcases lt_trichotomy a.y b.y with hy | hy | hy
    · have h : a < b := .inr ⟨hx, hy⟩
      simp only [compare_lt_iff_lt.2 hy, compare_lt_iff_lt.2 h]
    · have h : a = b := by cases a; cases b; simp_all
      simp only [compare_eq_iff_eq.2 hy, compare_eq_iff_eq.2 h]
    · have h : b < a := .inr ⟨hx.symm, hy⟩
      simp only [compare_gt_iff_gt.2 hy, compare_gt_iff_gt.2 h]
  · have h : b < a := .inl hx
    simp only [compare_gt_iff_gt.2 hx, compare_gt_iff_gt.2 h]

/-- Non-vacuity of C09: naturals with one NaN value (`none`), whose order is `FloatLike`. -/
theorem optNat_floatLike : FloatLike (K := Option Nat) (fun a => a.isSome)
    (fun a b => match a, b with | some a, some b => some (compare a b) | _, _ => none)
    (fun a b => match a, b with | some a, some b => a == b | _, _ => false) where
  defined a b := by cases a <;> cases b <;> simp
  swap a b := by cases a <;> cases b <;> simp [Nat.compare_swap]
  eq_iff a b := by cases a <;> cases b <;> simp
  trans a b c := by
    cases a <;> cases b <;> cases c <;> simp [Nat.compare_eq_lt]
    omega
  congr a b c := by
    cases a <;> cases b <;> cases c <;> simp
    intro h; rw [h]

/-- A NaN `y` is noticed only if the `x`s are equal. -/
example :
    let pc : Option Nat → Option Nat → Option Ordering :=
      fun a b => match a, b with | some a, some b => some (compare a b) | _, _ => none
    (Pt.mk (some 1) none).cmpWith pc ⟨some 2, some 0⟩ = some .lt ∧
    (Pt.mk (some 1) none).cmpWith pc ⟨some 1, some 0⟩ = none := by decide

/-! ## C10 -/

section heap
variable [LinearOrder K]

/-- Event types at one point, in the order in which the sweep must see them: point-left, line-right,
line-left, point-right. -/
inductive TyBefore : EventType → EventType → Prop
  | refl (t) : TyBefore t t
  | pl_lr : TyBefore .pointLeft .lineRight
  | pl_ll : TyBefore .pointLeft .lineLeft
  | pl_pr : TyBefore .pointLeft .pointRight
  | lr_ll : TyBefore .lineRight .lineLeft
  | lr_pr : TyBefore .lineRight .pointRight
  | ll_pr : TyBefore .lineLeft .pointRight

/-- The order in which the sweep must see events: from left to right, upwards on a vertical, then by type. -/
def Event.InOrder (a b : Event K) : Prop :=
  a.point.x < b.point.x ∨ (a.point.x = b.point.x ∧ a.point.y < b.point.y) ∨ (a.point = b.point ∧ TyBefore a.ty b.ty)

theorem tyBefore_iff (a b : EventType) : TyBefore a b ↔ a.idx ≤ b.idx := by
  constructor
  · intro h; cases h <;> simp [EventType.idx]
  · intro h
    cases a <;> cases b <;> simp [EventType.idx] at h <;> constructor

/-- The same order through the model's helpers, for use in proofs. -/
def Event.Before (a b : Event K) : Prop :=
  a.point < b.point ∨ (a.point = b.point ∧ a.ty.idx ≤ b.ty.idx)

theorem Event.before_iff {a b : Event K} : Event.Before a b ↔ Event.InOrder a b := by
  unfold Event.Before Event.InOrder
  rw [tyBefore_iff, Pt.lt_def, or_assoc]

theorem Event.cmp_ne_gt {a b : Event K} : Event.cmp a b ≠ .gt ↔ Event.Before b a := by
  unfold Event.cmp Event.Before
  rcases lt_trichotomy a.point b.point with h | h | h
  · have h1 := compare_lt_iff_lt.2 h
    simp only [h1, Ordering.then, Ordering.swap, ne_eq, not_true, false_iff]
    rintro (h2 | ⟨h2, -⟩)
    · exact lt_asymm h h2
    · exact h.ne h2.symm
  · have h1 := compare_eq_iff_eq.2 h
    simp only [Ordering.then, h, lt_self_iff_false, true_and, false_or]
    rw [← not_lt, ← Nat.compare_eq_lt]
    cases compare a.ty.idx b.ty.idx <;> simp
  · have h1 := compare_gt_iff_gt.2 h
    simp only [h1, Ordering.then, Ordering.swap]
    simp [h]

theorem Event.Before.trans {a b c : Event K} (h1 : a.Before b) (h2 : b.Before c) : a.Before c := by
  rcases h1 with h1 | ⟨h1, h1'⟩ <;> rcases h2 with h2 | ⟨h2, h2'⟩
  · exact .inl (h1.trans h2)
  · exact .inl (h2 ▸ h1)
  · exact .inl (h1 ▸ h2)
  · exact .inr ⟨h1.trans h2, h1'.trans h2'⟩

theorem Event.Before.total (a b : Event K) : a.Before b ∨ b.Before a := by
  rcases lt_trichotomy a.point b.point with h | h | h
  · exact .inl (.inl h)
  · rcases le_total a.ty.idx b.ty.idx with h' | h'
    · exact .inl (.inr ⟨h, h'⟩)
    · exact .inr (.inr ⟨h.symm, h'⟩)
  · exact .inr (.inl h)

theorem exists_first (h : List (Event K)) (hne : h ≠ []) : ∃ e ∈ h, ∀ e' ∈ h, e.Before e' := by
  induction h with
  | nil => contradiction
  | cons a h ih =>
    by_cases hh : h = []
    · subst hh; exact ⟨a, by simp, by simp [Event.Before]⟩
    · obtain ⟨e, he, hmin⟩ := ih hh
      rcases Event.Before.total a e with hae | hea
      · refine ⟨a, by simp, ?_⟩
        intro e' he'
        rcases List.mem_cons.1 he' with rfl | he'
        · exact .inr ⟨rfl, le_refl _⟩
        · exact hae.trans (hmin e' he')
      · refine ⟨e, by simp [he], ?_⟩
        intro e' he'
        rcases List.mem_cons.1 he' with rfl | he'
        exacts [hea, hmin e' he']

theorem isMaxAt_iff {h : List (Event K)} {i : Nat} :
    isMaxAt h i = true ↔ ∃ e, h[i]? = some e ∧ ∀ e' ∈ h, e.Before e' := by
  unfold isMaxAt
  cases hi : h[i]? with
  | none => simp
  | some e => simp [Event.cmp_ne_gt]

theorem firstMax_isMax {h : List (Event K)} (hne : h ≠ []) : isMaxAt h (firstMax h) = true := by
  obtain ⟨e, he, hmin⟩ := exists_first h hne
  obtain ⟨i, hi, hget⟩ := List.mem_iff_getElem.1 he
  unfold firstMax
  cases hf : (List.range h.length).find? (isMaxAt h) with
  | some j => simpa using List.find?_some hf
  | none =>
    rw [List.find?_eq_none] at hf
    have := hf i (by simpa using hi)
    rw [isMaxAt_iff] at this
    exact absurd ⟨e, by simp [hi, hget], hmin⟩ this

/-- What `pop` guarantees: it fails exactly on the empty heap; otherwise it removes one event that is
first in sweep order. -/
theorem heapPop_spec (choice : Nat) (h : List (Event K)) :
    (heapPop choice h = none ↔ h = []) ∧
    ∀ e h', heapPop choice h = some (e, h') →
      h.Perm (e :: h') ∧ ∀ e' ∈ h, e.Before e' := by
  by_cases hne : h = []
  · subst hne
    simp [heapPop, isMaxAt, firstMax]
  · have key : ∃ i e, (if isMaxAt h choice then choice else firstMax h) = i ∧ h[i]? = some e ∧
        ∀ e' ∈ h, e.Before e' := by
      by_cases hc : isMaxAt h choice = true
      · obtain ⟨e, h1, h2⟩ := isMaxAt_iff.1 hc
        exact ⟨choice, e, by simp [hc], h1, h2⟩
      · obtain ⟨e, h1, h2⟩ := isMaxAt_iff.1 (firstMax_isMax hne)
        exact ⟨_, e, by simp [hc], h1, h2⟩
    obtain ⟨i, e, h1, h2, h3⟩ := key
    have heq : heapPop choice h = some (e, h.eraseIdx i) := by
      simp only [heapPop, h1, h2]
    refine ⟨by simp [heq, hne], ?_⟩
    intro e1 h' he
    rw [heq] at he
    simp only [Option.some.injEq, Prod.mk.injEq] at he
    obtain ⟨rfl, rfl⟩ := he
    obtain ⟨hi, hget⟩ := List.getElem?_eq_some_iff.1 h2
    refine ⟨?_, h3⟩
    rw [← hget]
    exact (List.getElem_cons_eraseIdx_perm hi).symm

/-- Pop until empty, with a choice number for every pop. -/
def drain (choice : Nat → Nat) : Nat → List (Event K) → List (Event K)
  | 0, _ => []
  | n + 1, h =>
    match heapPop (choice n) h with
    | none => []
    | some (e, h') => e :: drain choice n h'

theorem drain_before (choice : Nat → Nat) (h : List (Event K)) :
    (drain choice h.length h).Perm h ∧ (drain choice h.length h).Pairwise Event.Before := by
  induction hn : h.length generalizing h with
  | zero => rw [List.length_eq_zero_iff] at hn; subst hn; simp [drain]
  | succ n ih =>
    obtain ⟨h1, h2⟩ := heapPop_spec (choice n) h
    cases hp : heapPop (choice n) h with
    | none => rw [h1] at hp; subst hp; simp at hn
    | some p =>
      obtain ⟨e, h'⟩ := p
      obtain ⟨hperm, hmin⟩ := h2 e h' hp
      have hl : h'.length = n := by have := hperm.length_eq; simp [hn] at this; omega
      obtain ⟨i1, i2⟩ := ih h' hl
      simp only [drain, hp]
      refine ⟨(List.Perm.cons e i1).trans hperm.symm, List.pairwise_cons.2 ⟨?_, i2⟩⟩
      intro e' he'
      exact hmin e' (hperm.symm.subset (by simp [i1.subset he']))

/-- **C10.** Whatever events are in the queue and however it breaks ties, popping everything gives
each event exactly once, in sweep order. -/
theorem C10_drain_in_sweep_order (choice : Nat → Nat) (h : List (Event K)) :
    (drain choice h.length h).Perm h ∧ (drain choice h.length h).Pairwise Event.InOrder :=
  ⟨(drain_before choice h).1, (drain_before choice h).2.imp Event.before_iff.1⟩

/-- Non-vacuity of C10: with ties, different choices give different orders, all of them in sweep order. -/
example :
    let a : Event Nat := ⟨⟨1, 1⟩, .lineLeft, 0⟩
    let b : Event Nat := ⟨⟨1, 1⟩, .lineLeft, 1⟩
    let c : Event Nat := ⟨⟨1, 1⟩, .lineRight, 2⟩
    let d : Event Nat := ⟨⟨0, 5⟩, .pointRight, 3⟩
    (drain (fun _ => 0) 4 [a, b, c, d] = [d, c, a, b]) ∧ (drain (fun _ => 1) 4 [a, b, c, d] = [d, c, b, a]) := by
  decide +kernel

end heap
end GeoCrossings

import Mathlib.Order.Lattice
import Mathlib.Order.Defs.LinearOrder
import Mathlib.Tactic.Common

/-!
# Model of `src/events.rs`: sweep points and events

Coordinates are of an arbitrary type. The comparison of scalars is a parameter `pc` (Rust's
`PartialOrd::partial_cmp`, `none` when undefined, e.g. NaN) in the `…With` versions. For a linearly
ordered scalar the instance of `LinearOrder (Pt K)` below is the same order (theorem
`pcmpWith_linear`), and the rest of the model uses that instance.
-/
namespace GeoCrossings

/-- `geo::Coordinate<T>`; also `SweepPoint<T>`, a newtype around it — events.rs:68-69. -/
structure Pt (K : Type _) where
  x : K
  y : K
deriving DecidableEq, Repr

section
variable {K : Type _}

/-- `PartialOrd for SweepPoint` — events.rs:82-89. -/
def Pt.pcmpWith (pc : K → K → Option Ordering) (a b : Pt K) : Option Ordering :=
  match pc a.x b.x with
  | some .eq => pc a.y b.y
  | o => o

/-- `Ord for SweepPoint` — events.rs:92-96: `partial_cmp(..).unwrap()`; `none` is the panic. -/
def Pt.cmpWith (pc : K → K → Option Ordering) (a b : Pt K) : Option Ordering := a.pcmpWith pc b

/-- The derived `PartialEq` for `SweepPoint` (events.rs:68) on top of the scalar `==`. -/
def Pt.eqWith (pe : K → K → Bool) (a b : Pt K) : Bool := pe a.x b.x && pe a.y b.y

/-- `SweepPoint` order for a linearly ordered scalar: lexicographic — events.rs:82-96. -/
instance [LinearOrder K] : LinearOrder (Pt K) where
  le a b := a.x < b.x ∨ (a.x = b.x ∧ a.y ≤ b.y)
  lt a b := a.x < b.x ∨ (a.x = b.x ∧ a.y < b.y)
  le_refl a := .inr ⟨rfl, le_refl _⟩
  le_trans a b c := by
    rintro (h | ⟨h, h'⟩) (k | ⟨k, k'⟩)
    · exact .inl (h.trans k)
    · exact .inl (k ▸ h)
    · exact .inl (h ▸ k)
    · exact .inr ⟨h.trans k, h'.trans k'⟩
  lt_iff_le_not_ge a b := by
    constructor
    · rintro (h | ⟨h, h'⟩)
      · refine ⟨.inl h, ?_⟩
        rintro (k | ⟨k, k'⟩)
        · exact absurd (h.trans k) (lt_irrefl _)
        · rw [k] at h; exact lt_irrefl _ h
      · refine ⟨.inr ⟨h, h'.le⟩, ?_⟩
        rintro (k | ⟨k, k'⟩)
        · rw [h] at k; exact lt_irrefl _ k
        · exact absurd k' (not_le.2 h')
    · rintro ⟨h | ⟨h, h'⟩, k⟩
      · exact .inl h
      · refine .inr ⟨h, ?_⟩
        rw [← not_le]; intro h2; exact k (.inr ⟨h.symm, h2⟩)
  le_antisymm a b := by
    rintro (h | ⟨h, h'⟩) (k | ⟨k, k'⟩)
    · exact absurd (h.trans k) (lt_irrefl _)
    · rw [k] at h; exact absurd h (lt_irrefl _)
    · rw [h] at k; exact absurd k (lt_irrefl _)
    · cases a; cases b; simp only [Pt.mk.injEq]; exact ⟨h, le_antisymm h' k'⟩
  le_total a b := by
    rcases lt_trichotomy a.x b.x with h | h | h
    · exact .inl (.inl h)
    · rcases le_total a.y b.y with k | k
      · exact .inl (.inr ⟨h, k⟩)
      · exact .inr (.inr ⟨h.symm, k⟩)
    · exact .inr (.inl h)
  toDecidableLE a b := inferInstanceAs (Decidable (_ ∨ _))
  toDecidableLT a b := inferInstanceAs (Decidable (_ ∨ _))
  toDecidableEq := inferInstance

theorem Pt.lt_def [LinearOrder K] {a b : Pt K} : a < b ↔ a.x < b.x ∨ (a.x = b.x ∧ a.y < b.y) := Iff.rfl
theorem Pt.le_def [LinearOrder K] {a b : Pt K} : a ≤ b ↔ a.x < b.x ∨ (a.x = b.x ∧ a.y ≤ b.y) := Iff.rfl

/-- `EventType` — events.rs:50-56. -/
inductive EventType where
  | pointLeft
  | lineRight
  | lineLeft
  | pointRight
deriving DecidableEq, Repr

/-- Position of a variant; the derived `Ord` (events.rs:50) compares these. -/
def EventType.idx : EventType → Nat
  | .pointLeft => 0
  | .lineRight => 1
  | .lineLeft => 2
  | .pointRight => 3

/-- `Event` — events.rs:5-10. -/
structure Event (K : Type _) where
  point : Pt K
  ty : EventType
  segmentKey : Nat
deriving DecidableEq, Repr

/-- `Ord for Event` — events.rs:33-41: compare points, then types, then reverse. -/
def Event.cmp [LinearOrder K] (a b : Event K) : Ordering :=
  ((compare a.point b.point).then (compare a.ty.idx b.ty.idx)).swap

/-- `PartialEq for Event` — events.rs:14-18. -/
def Event.beq [LinearOrder K] (a b : Event K) : Bool := a.point == b.point && a.ty == b.ty

/-- Position `i` of `h` holds a greatest element. -/
def isMaxAt [LinearOrder K] (h : List (Event K)) (i : Nat) : Bool :=
  match h[i]? with
  | none => false
  | some e => h.all fun e' => Event.cmp e' e != .gt

/-- First position holding a greatest element. -/
def firstMax [LinearOrder K] (h : List (Event K)) : Nat :=
  ((List.range h.length).find? (isMaxAt h)).getD 0

/-- `std::collections::BinaryHeap::pop`, by documented behaviour: the heap is a multiset (kept as a
list), `pop` takes *some* greatest element. Which one among equal ones is unspecified, so it is chosen
by an external number `choice`, honoured if it names a greatest element. Theorems quantify over all choices. -/
def heapPop [LinearOrder K] (choice : Nat) (h : List (Event K)) : Option (Event K × List (Event K)) :=
  let i := if isMaxAt h choice then choice else firstMax h
  match h[i]? with
  | none => none
  | some e => some (e, h.eraseIdx i)

/-- `BinaryHeap::push`. -/
def heapPush (h : List (Event K)) (e : Event K) : List (Event K) := e :: h

end
end GeoCrossings

import Verif.Lemmas.MonoExact
import Verif.Props.MonoSame
import Verif.Spec.Affine

/-!
# `monotone_chains` depends only on the order of the vertices and on their turns (C100)
-/
set_option linter.unusedSectionVars false
namespace GeoCrossings.Monotone
open Spec

variable {K L : Type} [Field K] [LinearOrder K] [IsStrictOrderedRing K] [Field L] [LinearOrder L] [IsStrictOrderedRing L]

/-- A point of a ring of the polygon. -/
def Vert (p : Polygon K) (q : Pt K) : Prop := ∃ r ∈ p.ext :: p.ints, q ∈ r

/-- Moving the points of `p` by `φ`, even into another number system, changes no comparison of two of them and no turn at three of them. -/
structure KeepsTests (p : Polygon K) (φ : Pt K → Pt L) : Prop where
  lt : ∀ a b, Vert p a → Vert p b → (φ a < φ b ↔ a < b)
  ori : ∀ a b c, Vert p a → Vert p b → Vert p c → orient2d (φ a) (φ b) (φ c) = orient2d a b c

/-- The polygon with its points moved. -/
def movedPolygon (φ : Pt K → Pt L) (p : Polygon K) : Polygon L := ⟨p.ext.map φ, p.ints.map (List.map φ)⟩

/-- The piece with its points moved. -/
def movedPiece (φ : Pt K → Pt L) (m : MonoPoly K) : MonoPoly L := ⟨m.top.map φ, m.bot.map φ⟩

theorem forall₂_move {α β : Type} {P : α → Prop} {φ : α → β} : ∀ {l : List α}, (∀ a ∈ l, P a) →
    List.Forall₂ (fun a b => P a ∧ b = φ a) l (l.map φ)
  | [], _ => .nil
  | a :: l, h => .cons ⟨h a (by simp), rfl⟩ (forall₂_move fun b hb => h b (by simp [hb]))

theorem eq_move {α β : Type} {P : α → Prop} {φ : α → β} {l : List α} {l' : List β} (h : List.Forall₂ (fun a b => P a ∧ b = φ a) l l') :
    l' = l.map φ := by
  induction h with
  | nil => rfl
  | cons h _ ih => rw [List.map_cons, ← ih, ← h.2]

/-- **C100.** If the points of a polygon are moved so that no comparison of two and no turn at three of them changes, then `monotone_chains`
does for the moved polygon what it does for the polygon: it panics if it did, and otherwise returns the same pieces with their points moved.
The polygon need not be valid. (Sorts of equal events may differ: for each sort of the one there is a sort of the other.) -/
theorem C100_moved {p : Polygon K} {φ : Pt K → Pt L} (h : KeepsTests p φ) (dbg : Bool) (srt' : List (Event L) → List (Event L)) :
    ∃ srt, monotoneChains dbg srt' (movedPolygon φ p) = (monotoneChains dbg srt p).map (List.map (movedPiece φ)) := by
  have H : Same (fun a b => Vert p a ∧ b = φ a) := by
    refine ⟨?_, ?_⟩
    · rintro a b _ _ ⟨ha, rfl⟩ ⟨hb, rfl⟩
      exact h.lt a b ha hb
    · rintro a b c _ _ _ ⟨ha, rfl⟩ ⟨hb, rfl⟩ ⟨hc, rfl⟩
      exact h.ori a b c ha hb hc
  obtain ⟨srt, hr⟩ := monotoneChains_rel H dbg srt' (p := p) (p' := movedPolygon φ p)
    (forall₂_move fun a ha => ⟨_, by simp, ha⟩) (by
      have : ∀ l : List (List (Pt K)), (∀ r ∈ l, r ∈ p.ints) →
          List.Forall₂ (List.Forall₂ fun a b => Vert p a ∧ b = φ a) l (l.map (List.map φ)) := by
        intro l
        induction l with
        | nil => exact fun _ => .nil
        | cons r l ih =>
          exact fun hl => .cons (forall₂_move fun a ha => ⟨r, by simp [hl r (by simp)], ha⟩) (ih fun s hs => hl s (by simp [hs]))
      exact this p.ints fun r hr => hr)
  refine ⟨srt, ?_⟩
  revert hr
  generalize monotoneChains dbg srt p = x, monotoneChains dbg srt' (movedPolygon φ p) = x'
  intro hr
  cases hr with
  | none => rfl
  | @some x x' hx =>
    rw [Option.map_some]
    congr 1
    induction hx with
    | nil => rfl
    | @cons m m' t t' hm _ ih =>
      rw [List.map_cons, ← ih]
      congr 1
      obtain ⟨a, b⟩ := m
      obtain ⟨a', b'⟩ := m'
      obtain ⟨h1, h2⟩ := hm
      simp only at h1 h2
      rw [eq_move h1, eq_move h2]
      rfl

/-- **C100 (valid).** For a valid polygon the pieces are those of the polygon, moved, whatever the sorts do, and in debug and release builds.
So `monotone_chains` is exact as soon as comparisons and turns are, as they are for `f64` with a robust `orient2d`. -/
theorem C100_valid {p : Polygon K} {φ : Pt K → Pt L} (hv : ValidPolygon p.ext p.ints) (h : KeepsTests p φ) (dbg dbg' : Bool)
    (srt : List (Event K) → List (Event K)) (srt' : List (Event L) → List (Event L)) :
    ∃ out, monotoneChains dbg srt p = some out ∧ monotoneChains dbg' srt' (movedPolygon φ p) = some (out.map (movedPiece φ)) := by
  obtain ⟨s, hs⟩ := C100_moved h dbg' srt'
  obtain ⟨out, h1, h2⟩ := C87_sides dbg dbg' srt s hv hv (fun _ _ => Iff.rfl)
  exact ⟨out, h1, by rw [hs, h2]; rfl⟩

/-- **C100 (affine maps).** In particular this holds for `(x, y) ↦ (a x + e, c x + d y + f)` with positive `a` and `d`: translations, positive
scalings and vertical shears. -/
theorem C100_affine (T : Affine K) (hb : T.b = 0) (ha : 0 < T.a) (hd : 0 < T.d) (p : Polygon K) : KeepsTests p T.app := by
  refine ⟨fun u v _ _ => ?_, fun u v w _ _ _ => ?_⟩
  · rw [Pt.lt_def, Pt.lt_def]
    unfold Affine.app
    simp only [hb, zero_mul, add_zero, add_lt_add_iff_right, mul_lt_mul_iff_right₀ ha, add_left_inj, mul_right_inj' ha.ne']
    refine or_congr Iff.rfl (and_congr_right fun e => ?_)
    rw [e, add_lt_add_iff_left, mul_lt_mul_iff_right₀ hd]
  · have e : det (T.app u) (T.app v) (T.app w) = T.a * T.d * det u v w := by
      unfold det Affine.app
      simp only [hb]
      ring
    have hm : 0 < T.a * T.d := mul_pos ha hd
    unfold orient2d
    rw [e]
    have h2 : T.a * T.d * det u v w < 0 ↔ det u v w < 0 := by rw [mul_neg_iff]; simp [hm, _root_.lt_asymm hm]
    simp only [mul_pos_iff_of_pos_left hm, h2]

/-- The point with its coordinates in a larger number system. -/
def embedPt (f : K →+* L) (q : Pt K) : Pt L := ⟨f q.x, f q.y⟩

/-- **C100 (number systems).** And for an embedding of number systems that keeps the order: results computed in one hold in the other. -/
theorem C100_embed (f : K →+* L) (hf : StrictMono f) (p : Polygon K) : KeepsTests p (embedPt f) := by
  refine ⟨fun u v _ _ => ?_, fun u v w _ _ _ => ?_⟩
  · rw [Pt.lt_def, Pt.lt_def]
    unfold embedPt
    simp only [hf.lt_iff_lt, hf.injective.eq_iff]
  · have e : det (embedPt f u) (embedPt f v) (embedPt f w) = f (det u v w) := by
      unfold det embedPt
      simp only [map_sub, map_mul]
    unfold orient2d
    rw [e]
    have h1 : 0 < f (det u v w) ↔ 0 < det u v w := by rw [← map_zero f, hf.lt_iff_lt]
    have h2 : f (det u v w) < 0 ↔ det u v w < 0 := by rw [← map_zero f, hf.lt_iff_lt]
    simp only [h1, h2]

/-- The tests on the points of a list. -/
def testsOn (l : List (Pt K)) (φ : Pt K → Pt L) : Bool :=
  l.all fun a => l.all fun b => decide (φ a < φ b ↔ a < b) && l.all fun c => decide (orient2d (φ a) (φ b) (φ c) = orient2d a b c)

theorem keepsTests_of {p : Polygon K} {φ : Pt K → Pt L} (h : testsOn (p.ext :: p.ints).flatten φ = true) : KeepsTests p φ := by
  have hm : ∀ a, Vert p a → a ∈ (p.ext :: p.ints).flatten := fun a ⟨r, hr, ha⟩ => List.mem_flatten.2 ⟨r, hr, ha⟩
  unfold testsOn at h
  simp only [List.all_eq_true, Bool.and_eq_true, decide_eq_true_eq] at h
  exact ⟨fun a b ha hb => (h a (hm a ha) b (hm b hb)).1, fun a b c ha hb hc => (h a (hm a ha) b (hm b hb)).2 c (hm c hc)⟩

namespace Demo

/-- A polygon with a split vertex and a merge vertex. -/
def bent : Polygon ℚ := ⟨[⟨0, 0⟩, ⟨4, -4⟩, ⟨3, 0⟩, ⟨6, 1⟩, ⟨5, 4⟩, ⟨1, 3⟩, ⟨2, 1⟩, ⟨0, 0⟩], []⟩

/-- Rounding of a kind: each point is moved by its own amount. -/
def jiggle (q : Pt ℚ) : Pt ℚ := ⟨q.x + q.y / 50 + q.x * q.y / 40, q.y - q.x * q.x / 60 + q.y * q.y / 70⟩

/-- The map is not affine, yet all the tests on the vertices come out the same: C100 applies. -/
example : KeepsTests bent jiggle := keepsTests_of (by decide +kernel)

/-- What it says in this case. -/
example : ValidPolygon bent.ext bent.ints ∧ (monotoneChains true id bent).map List.length = some 2 ∧
    monotoneChains true id (movedPolygon jiggle bent) = (monotoneChains true id bent).map (List.map (movedPiece jiggle)) :=
  ⟨validPolygon_of_check (K := ℚ) (by decide +kernel), by decide +kernel, by decide +kernel⟩

/-- This moves one vertex past another. -/
def push (q : Pt ℚ) : Pt ℚ := if q = ⟨3, 0⟩ then ⟨9 / 2, 0⟩ else q

/-- The condition is needed: the polygon is still valid, but is cut along another diagonal. -/
theorem C100_needs_tests : ¬ KeepsTests bent push ∧ ValidPolygon (movedPolygon push bent).ext (movedPolygon push bent).ints ∧
    monotoneChains true id (movedPolygon push bent) ≠ (monotoneChains true id bent).map (List.map (movedPiece push)) := by
  refine ⟨fun h => ?_, validPolygon_of_check (K := ℚ) (by decide +kernel), by decide +kernel⟩
  have := (h.lt ⟨3, 0⟩ ⟨4, -4⟩ ⟨bent.ext, by simp, by decide +kernel⟩ ⟨bent.ext, by simp, by decide +kernel⟩).2 (by decide +kernel)
  exact absurd this (by decide +kernel)

end Demo

end GeoCrossings.Monotone

import Verif.Spec.ValidPolygon
import Verif.Lemmas.Geom
import Mathlib.Tactic.LinearCombination

/-!
# A sufficient criterion for valid polygons, by computation
-/
set_option linter.unusedSectionVars false
namespace GeoCrossings
open Spec

variable {K : Type _} [Field K] [LinearOrder K] [IsStrictOrderedRing K]

/-- The ends of `f` are strictly on one side of `e`. -/
def sepEdges (e f : Pt K × Pt K) : Bool :=
  (decide (0 < det e.1 e.2 f.1) && decide (0 < det e.1 e.2 f.2)) || (decide (det e.1 e.2 f.1 < 0) && decide (det e.1 e.2 f.2 < 0))

/-- One end of `f` is an end of `e`, the other one is not on the line through `e`. -/
def jointEdges (e f : Pt K × Pt K) : Bool :=
  (decide (f.1 = e.1 ∨ f.1 = e.2) && decide (det e.1 e.2 f.2 ≠ 0)) || (decide (f.2 = e.1 ∨ f.2 = e.2) && decide (det e.1 e.2 f.1 ≠ 0))

def okEdges (e f : Pt K × Pt K) : Bool := sepEdges e f || sepEdges f e || jointEdges e f

theorem pt_eq {a b : Pt K} (hx : a.x = b.x) (hy : a.y = b.y) : a = b := by
  cases a; cases b; simp only at hx hy; rw [hx, hy]

theorem det_mix {a b c d x : Pt K} {t : K} (tx : x.x = (1 - t) * c.x + t * d.x) (ty : x.y = (1 - t) * c.y + t * d.y) :
    det a b x = (1 - t) * det a b c + t * det a b d := by
  unfold det; rw [tx, ty]; ring

theorem det_onSeg {a b x : Pt K} (h : OnSeg a b x) : det a b x = 0 := by
  obtain ⟨t, -, -, tx, ty⟩ := h
  unfold det; rw [tx, ty]; ring

theorem sepEdges_meet {e f : Pt K × Pt K} (h : sepEdges e f = true) {x : Pt K} (h1 : OnSeg e.1 e.2 x) (h2 : OnSeg f.1 f.2 x) : False := by
  have h0 := det_onSeg h1
  obtain ⟨t, t0, t1, tx, ty⟩ := h2
  have hd := det_mix (a := e.1) (b := e.2) (c := f.1) (d := f.2) (x := x) (t := t) (by rw [tx]; ring) (by rw [ty]; ring)
  rw [h0] at hd
  simp only [sepEdges, Bool.or_eq_true, Bool.and_eq_true, decide_eq_true_eq] at h
  rcases h with ⟨p, q⟩ | ⟨p, q⟩
  · rcases t0.eq_or_lt with rfl | t0
    · simp at hd; rw [← hd] at p; exact lt_irrefl _ p
    · have := mul_pos t0 q
      have := mul_nonneg (sub_nonneg.2 t1) p.le
      linarith
  · rcases t0.eq_or_lt with rfl | t0
    · simp at hd; rw [← hd] at p; exact lt_irrefl _ p
    · have := mul_neg_of_pos_of_neg t0 q
      have := mul_nonpos_of_nonneg_of_nonpos (sub_nonneg.2 t1) p.le
      linarith

theorem jointEdges_meet {e f : Pt K × Pt K} (h : jointEdges e f = true) {x : Pt K} (h1 : OnSeg e.1 e.2 x) (h2 : OnSeg f.1 f.2 x) :
    (x = e.1 ∨ x = e.2) ∧ (x = f.1 ∨ x = f.2) := by
  have h0 := det_onSeg h1
  obtain ⟨t, t0, t1, tx, ty⟩ := h2
  have hd := det_mix (a := e.1) (b := e.2) (c := f.1) (d := f.2) (x := x) (t := t) (by rw [tx]; ring) (by rw [ty]; ring)
  rw [h0] at hd
  have self : ∀ c, c = e.1 ∨ c = e.2 → det e.1 e.2 c = 0 := by
    rintro c (rfl | rfl) <;> unfold det <;> ring
  simp only [jointEdges, Bool.or_eq_true, Bool.and_eq_true, decide_eq_true_eq] at h
  rcases h with ⟨p, q⟩ | ⟨p, q⟩
  · rw [self _ p] at hd
    have : t = 0 := by
      rcases mul_eq_zero.1 (by linarith : t * det e.1 e.2 f.2 = 0) with h | h
      · exact h
      · exact absurd h q
    subst this
    have : x = f.1 := pt_eq (by rw [tx]; ring) (by rw [ty]; ring)
    exact ⟨this ▸ p, .inl this⟩
  · rw [self _ p] at hd
    have : t = 1 := by
      rcases mul_eq_zero.1 (by linarith : (1 - t) * det e.1 e.2 f.1 = 0) with h | h
      · linarith
      · exact absurd h q
    subst this
    have : x = f.2 := pt_eq (by rw [tx]; ring) (by rw [ty]; ring)
    exact ⟨this ▸ p, .inr this⟩

theorem okEdges_meet {e f : Pt K × Pt K} (h : okEdges e f = true) {x : Pt K} (h1 : OnSeg e.1 e.2 x) (h2 : OnSeg f.1 f.2 x) :
    (x = e.1 ∨ x = e.2) ∧ (x = f.1 ∨ x = f.2) := by
  simp only [okEdges, Bool.or_eq_true] at h
  rcases h with (h | h) | h
  · exact (sepEdges_meet h h1 h2).elim
  · exact (sepEdges_meet h h2 h1).elim
  · exact jointEdges_meet h h1 h2

/-- The criterion. -/
def checkPolygon (ext : List (Pt K)) (holes : List (List (Pt K))) : Bool :=
  decide (∀ ring ∈ ext :: holes, ring.head? = ring.getLast? ∧ 4 ≤ ring.length) &&
  decide ((ext :: holes).flatMap List.dropLast).Nodup &&
  (let es := (ext :: holes).flatMap ringEdges; es.all fun e => es.all fun f => decide (e = f) || okEdges e f) &&
  decide (∀ h ∈ holes, ∀ v ∈ h, EvenOdd [ext] v) &&
  decide (holes.Pairwise fun h h' => (∀ v ∈ h, ¬ EvenOdd [h'] v) ∧ ∀ v ∈ h', ¬ EvenOdd [h] v)

theorem validPolygon_of_check {ext : List (Pt K)} {holes : List (List (Pt K))} (h : checkPolygon ext holes = true) : ValidPolygon ext holes := by
  simp only [checkPolygon, Bool.and_eq_true, decide_eq_true_eq] at h
  obtain ⟨⟨⟨⟨h1, h2⟩, h3⟩, h4⟩, h5⟩ := h
  refine ⟨h1, h2, ?_, h4, h5⟩
  intro e he f hf hne x hx hx'
  rw [List.all_eq_true] at h3
  have h3 := h3 e he
  rw [List.all_eq_true] at h3
  have h3 := h3 f hf
  rw [Bool.or_eq_true] at h3
  rcases h3 with h3 | h3
  · exact absurd (of_decide_eq_true h3) hne
  · exact okEdges_meet h3 hx hx'

end GeoCrossings

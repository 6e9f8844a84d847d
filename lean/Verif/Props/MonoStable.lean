import Verif.Props.MonoOrderType
import Mathlib.Tactic.Linarith
import Mathlib.Tactic.Positivity
import Mathlib.Tactic.FieldSimp

/-!
# Small errors in the coordinates do not change the decomposition of a polygon in general position (C102)
-/
set_option linter.unusedSectionVars false
namespace GeoCrossings.Monotone
open Spec OrderType

variable {K : Type} [Field K] [LinearOrder K] [IsStrictOrderedRing K]

/-- The map moves no vertex by more than `ε` in any coordinate. -/
def Near (ε : K) (p : Polygon K) (φ : Pt K → Pt K) : Prop := ∀ v, Vert p v → |(φ v).x - v.x| ≤ ε ∧ |(φ v).y - v.y| ≤ ε

/-- No two vertices have the same `x`, and no three are on a line. -/
structure GeneralPosition (p : Polygon K) : Prop where
  x : ∀ a b, Vert p a → Vert p b → a ≠ b → a.x ≠ b.x
  line : ∀ a b c, Vert p a → Vert p b → Vert p c → a ≠ b → b ≠ c → c ≠ a → det a b c ≠ 0

/-- By how much a product of two differences changes. -/
theorem mul_near {u v u' v' D e : K} (hu : |u| ≤ D) (hv : |v| ≤ D) (hu' : |u' - u| ≤ e) (hv' : |v' - v| ≤ e) : |u' * v' - u * v| ≤ 2 * D * e + e * e := by
  have e1 : u' * v' - u * v = u * (v' - v) + (u' - u) * v + (u' - u) * (v' - v) := by ring
  have hD := (abs_nonneg u).trans hu
  have he := (abs_nonneg _).trans hu'
  have h1 : |u * (v' - v)| ≤ D * e := by rw [abs_mul]; exact mul_le_mul hu hv' (abs_nonneg _) hD
  have h2 : |(u' - u) * v| ≤ e * D := by rw [abs_mul]; exact mul_le_mul hu' hv (abs_nonneg _) he
  have h3 : |(u' - u) * (v' - v)| ≤ e * e := by rw [abs_mul]; exact mul_le_mul hu' hv' (abs_nonneg _) he
  rw [e1]
  refine ((abs_add_le _ _).trans (add_le_add (abs_add_le _ _) le_rfl)).trans ?_
  linarith

theorem sub_near {a b a' b' ε : K} (ha : |a' - a| ≤ ε) (hb : |b' - b| ≤ ε) : |(b' - a') - (b - a)| ≤ 2 * ε := by
  have : (b' - a') - (b - a) = (b' - b) - (a' - a) := by ring
  rw [this]
  refine (abs_sub _ _).trans ?_
  linarith

theorem det_near {a b c a' b' c' : Pt K} {D ε : K} (hab : |b.x - a.x| ≤ D ∧ |b.y - a.y| ≤ D) (hac : |c.x - a.x| ≤ D ∧ |c.y - a.y| ≤ D)
    (ha : |a'.x - a.x| ≤ ε ∧ |a'.y - a.y| ≤ ε) (hb : |b'.x - b.x| ≤ ε ∧ |b'.y - b.y| ≤ ε) (hc : |c'.x - c.x| ≤ ε ∧ |c'.y - c.y| ≤ ε) :
    |det a' b' c' - det a b c| ≤ 8 * D * ε + 8 * ε * ε := by
  have h1 := mul_near hab.1 hac.2 (sub_near ha.1 hb.1) (sub_near ha.2 hc.2)
  have h2 := mul_near hab.2 hac.1 (sub_near ha.2 hb.2) (sub_near ha.1 hc.1)
  have e : det a' b' c' - det a b c = ((b'.x - a'.x) * (c'.y - a'.y) - (b.x - a.x) * (c.y - a.y)) -
      ((b'.y - a'.y) * (c'.x - a'.x) - (b.y - a.y) * (c.x - a.x)) := by
    unfold det
    ring
  rw [e]
  refine (abs_sub _ _).trans ?_
  nlinarith [h1, h2]

theorem orient2d_near {a b c a' b' c' : Pt K} (h : |det a' b' c' - det a b c| < |det a b c|) : orient2d a' b' c' = orient2d a b c := by
  have h0 : det a b c ≠ 0 := fun k => by rw [k, abs_zero] at h; exact absurd h (not_lt.2 (abs_nonneg _))
  rw [abs_lt] at h
  rcases lt_or_gt_of_ne h0 with k | k
  · rw [abs_of_neg k] at h
    rw [orient2d_neg.2 k, orient2d_neg]
    linarith
  · rw [abs_of_pos k] at h
    rw [orient2d_pos.2 k, orient2d_pos]
    linarith

theorem orient2d_repeat (a b : Pt K) : orient2d a a b = .collinear ∧ orient2d a b a = .collinear ∧ orient2d b a a = .collinear := by
  have : det a a b = 0 ∧ det a b a = 0 ∧ det b a a = 0 := by
    unfold det
    refine ⟨?_, ?_, ?_⟩ <;> ring
  unfold orient2d
  rw [this.1, this.2.1, this.2.2]
  simp

/-- **C102 (how small).** If the vertices are at most `D` apart in each coordinate, their `x` differ by more than `2 ε`, and the triangles of three
vertices have twice an area of more than `8 D ε + 8 ε²`, then no errors of at most `ε` in the coordinates change any test. -/
theorem C102_quantified {p : Polygon K} {D ε : K} (hD : ∀ a b, Vert p a → Vert p b → |b.x - a.x| ≤ D ∧ |b.y - a.y| ≤ D)
    (hx : ∀ a b, Vert p a → Vert p b → a ≠ b → 2 * ε < |b.x - a.x|)
    (hl : ∀ a b c, Vert p a → Vert p b → Vert p c → a ≠ b → b ≠ c → c ≠ a → 8 * D * ε + 8 * ε * ε < |det a b c|)
    {φ : Pt K → Pt K} (h : Near ε p φ) : KeepsTests p φ := by
  have key : ∀ a b, Vert p a → Vert p b → a < b → φ a < φ b := by
    intro a b ha hb hab
    have h1 := hx a b ha hb hab.ne
    have h2 := (h a ha).1
    have h3 := (h b hb).1
    have he := (abs_nonneg _).trans h2
    rw [abs_le] at h2 h3
    rw [Pt.lt_def] at hab ⊢
    rcases hab with k | k
    · left
      rw [abs_of_pos (by linarith)] at h1
      linarith
    · rw [k.1, sub_self, abs_zero] at h1
      linarith
  refine ⟨fun a b ha hb => ⟨fun k => ?_, key a b ha hb⟩, fun a b c ha hb hc => ?_⟩
  · rcases lt_trichotomy a b with k' | k' | k'
    · exact k'
    · rw [k'] at k; exact absurd k (lt_irrefl _)
    · exact absurd k (_root_.lt_asymm (key b a hb ha k'))
  · by_cases h1 : a = b
    · rw [h1, (orient2d_repeat _ _).1, (orient2d_repeat _ _).1]
    by_cases h2 : b = c
    · rw [h2, (orient2d_repeat _ _).2.2, (orient2d_repeat _ _).2.2]
    by_cases h3 : c = a
    · rw [h3, (orient2d_repeat _ _).2.1, (orient2d_repeat _ _).2.1]
    exact orient2d_near ((det_near (hD a b ha hb) (hD a c ha hc) (h a ha) (h b hb) (h c hc)).trans_lt (hl a b c ha hb hc h1 h2 h3))

/-- Below finitely many positive numbers there is one. -/
theorem exists_below : ∀ l : List K, (∀ x ∈ l, 0 < x) → ∃ m, 0 < m ∧ ∀ x ∈ l, m ≤ x
  | [], _ => ⟨1, one_pos, by simp⟩
  | x :: l, h => by
    obtain ⟨m, h1, h2⟩ := exists_below l fun y hy => h y (by simp [hy])
    refine ⟨min x m, lt_min (h x (by simp)) h1, fun y hy => ?_⟩
    rcases List.mem_cons.1 hy with rfl | hy
    · exact min_le_left _ _
    · exact (min_le_right _ _).trans (h2 y hy)

/-- Above finitely many numbers there is one. -/
theorem exists_above : ∀ l : List K, ∃ m, 0 < m ∧ ∀ x ∈ l, x ≤ m
  | [] => ⟨1, one_pos, by simp⟩
  | x :: l => by
    obtain ⟨m, h1, h2⟩ := exists_above l
    refine ⟨max x m, lt_max_of_lt_right h1, fun y hy => ?_⟩
    rcases List.mem_cons.1 hy with rfl | hy
    · exact le_max_left _ _
    · exact (h2 y hy).trans (le_max_right _ _)

theorem vert_iff {p : Polygon K} {a : Pt K} : Vert p a ↔ a ∈ (p.ext :: p.ints).flatten :=
  ⟨fun ⟨r, hr, ha⟩ => List.mem_flatten.2 ⟨r, hr, ha⟩, fun h => List.mem_flatten.1 h⟩

/-- **C102 (tests).** Small errors in the coordinates change no test if and only if the vertices are in general position. -/
theorem C102_general_iff (p : Polygon K) : GeneralPosition p ↔ ∃ ε, 0 < ε ∧ ∀ φ, Near ε p φ → KeepsTests p φ := by
  classical
  constructor
  · intro g
    let V := (p.ext :: p.ints).flatten
    obtain ⟨D, hD0, hD⟩ := exists_above ((V ×ˢ V).map fun e => max |e.2.x - e.1.x| |e.2.y - e.1.y|)
    obtain ⟨δ, hδ0, hδ⟩ := exists_below (((V ×ˢ V).filter fun e => decide (e.1 ≠ e.2)).map fun e => |e.2.x - e.1.x|) (by
      intro x hx
      obtain ⟨e, he, rfl⟩ := List.mem_map.1 hx
      obtain ⟨h1, h2⟩ := List.mem_filter.1 he
      obtain ⟨h3, h4⟩ := List.mem_product.1 h1
      exact abs_pos.2 (sub_ne_zero.2 (g.x _ _ (vert_iff.2 h3) (vert_iff.2 h4) (of_decide_eq_true h2)).symm))
    obtain ⟨μ, hμ0, hμ⟩ := exists_below (((V ×ˢ V ×ˢ V).filter fun e : Pt K × Pt K × Pt K => decide (e.1 ≠ e.2.1 ∧ e.2.1 ≠ e.2.2 ∧ e.2.2 ≠ e.1)).map
      fun e : Pt K × Pt K × Pt K => |det e.1 e.2.1 e.2.2|) (by
      intro x hx
      obtain ⟨e, he, rfl⟩ := List.mem_map.1 hx
      obtain ⟨h1, h2⟩ := List.mem_filter.1 he
      obtain ⟨h3, h4⟩ := List.mem_product.1 h1
      obtain ⟨h4, h5⟩ := List.mem_product.1 h4
      obtain ⟨k1, k2, k3⟩ := of_decide_eq_true h2
      exact abs_pos.2 (g.line _ _ _ (vert_iff.2 h3) (vert_iff.2 h4) (vert_iff.2 h5) k1 k2 k3))
    have hden : 0 < 8 * D + 8 := by linarith
    refine ⟨min (δ / 3) (min 1 (μ / (2 * (8 * D + 8)))), lt_min (by linarith) (lt_min one_pos (by positivity)), fun φ hφ => ?_⟩
    generalize hε : min (δ / 3) (min 1 (μ / (2 * (8 * D + 8)))) = ε at hφ
    have e1 : ε ≤ δ / 3 := hε ▸ min_le_left _ _
    have e2 : ε ≤ 1 := hε ▸ (min_le_right _ _).trans (min_le_left _ _)
    have e3 : ε ≤ μ / (2 * (8 * D + 8)) := hε ▸ (min_le_right _ _).trans (min_le_right _ _)
    have e0 : 0 < ε := hε ▸ lt_min (by linarith) (lt_min one_pos (by positivity))
    refine C102_quantified (D := D) (fun a b ha hb => ?_) (fun a b ha hb hab => ?_) (fun a b c ha hb hc h1 h2 h3 => ?_) hφ
    · have := hD _ (List.mem_map.2 ⟨(a, b), List.mem_product.2 ⟨vert_iff.1 ha, vert_iff.1 hb⟩, rfl⟩)
      exact ⟨(le_max_left _ _).trans this, (le_max_right _ _).trans this⟩
    · have := hδ _ (List.mem_map.2 ⟨(a, b), List.mem_filter.2 ⟨List.mem_product.2 ⟨vert_iff.1 ha, vert_iff.1 hb⟩, decide_eq_true hab⟩, rfl⟩)
      refine lt_of_lt_of_le ?_ this
      linarith
    · have := hμ _ (List.mem_map.2 ⟨(a, b, c), List.mem_filter.2 ⟨List.mem_product.2 ⟨vert_iff.1 ha, List.mem_product.2 ⟨vert_iff.1 hb, vert_iff.1 hc⟩⟩,
        decide_eq_true ⟨h1, h2, h3⟩⟩, rfl⟩)
      refine lt_of_lt_of_le ?_ this
      rw [le_div_iff₀ (by linarith)] at e3
      have : ε * ε ≤ ε * 1 := mul_le_mul_of_nonneg_left e2 e0.le
      nlinarith
  · rintro ⟨ε, h0, h⟩
    have near : ∀ (a : Pt K) (u v : K), |u| ≤ ε → |v| ≤ ε → Near ε p (Function.update id a ⟨a.x + u, a.y + v⟩) := by
      intro a u v hu hv w _
      by_cases hw : w = a
      · subst hw
        rw [Function.update_self]
        simpa using ⟨hu, hv⟩
      · rw [Function.update_of_ne hw]
        simpa using h0.le
    have hx : ∀ a b, Vert p a → Vert p b → a < b → a.x ≠ b.x := by
      intro a b ha hb hab k
      have := ((h _ (near a ε 0 (abs_of_pos h0).le (by simpa using h0.le))).lt a b ha hb).2 hab
      rw [Function.update_self, Function.update_of_ne hab.ne', Pt.lt_def] at this
      rcases this with q | q
      · change a.x + ε < b.x at q
        linarith
      · have := q.1
        change a.x + ε = b.x at this
        linarith
    have hx' : ∀ a b, Vert p a → Vert p b → a ≠ b → a.x ≠ b.x := fun a b ha hb hab =>
      (lt_or_gt_of_ne hab).elim (hx a b ha hb) fun k => (hx b a hb ha k).symm
    refine ⟨hx', fun a b c ha hb hc h1 h2 h3 k => ?_⟩
    have H := h _ (near c 0 ε (by simpa using h0.le) (abs_of_pos h0).le)
    have := (H.zero ha hb hc).2 k
    rw [Function.update_self, Function.update_of_ne (Ne.symm h3), Function.update_of_ne h2] at this
    have e : det a b ⟨c.x + 0, c.y + ε⟩ = det a b c + (b.x - a.x) * ε := by
      unfold det
      ring
    change det a b ⟨c.x + 0, c.y + ε⟩ = 0 at this
    rw [e, k, zero_add] at this
    rcases mul_eq_zero.1 this with q | q
    · exact hx' a b ha hb h1 (sub_eq_zero.1 q).symm
    · exact h0.ne' q

/-- **C102.** If the vertices of a valid polygon are in general position then there is an amount by which all coordinates may be wrong, each by
itself: the polygon stays valid, and `monotone_chains` returns the same pieces with the wrong coordinates in place of the right ones, in debug
and release builds and whatever the sorts do. -/
theorem C102_stable {p : Polygon K} (hv : ValidPolygon p.ext p.ints) (hg : GeneralPosition p) :
    ∃ ε, 0 < ε ∧ ∀ φ, Near ε p φ → ValidPolygon (movedPolygon φ p).ext (movedPolygon φ p).ints ∧
      ∀ (dbg dbg' : Bool) (srt srt' : List (Event K) → List (Event K)),
        ∃ out, monotoneChains dbg srt p = some out ∧ monotoneChains dbg' srt' (movedPolygon φ p) = some (out.map (movedPiece φ)) := by
  obtain ⟨ε, h0, h⟩ := (C102_general_iff p).1 hg
  exact ⟨ε, h0, fun φ hφ => ⟨(C101_valid_iff (h φ hφ)).2 hv, fun dbg dbg' srt srt' => C100_valid hv (h φ hφ) dbg dbg' srt srt'⟩⟩

namespace Demo

theorem general_of {p : Polygon ℚ} (h : ((p.ext :: p.ints).flatten.all fun a => (p.ext :: p.ints).flatten.all fun b => decide (a = b) ||
    (decide (a.x ≠ b.x) && (p.ext :: p.ints).flatten.all fun c => decide (b = c ∨ c = a ∨ det a b c ≠ 0))) = true) : GeneralPosition p := by
  simp only [List.all_eq_true, Bool.and_eq_true, Bool.or_eq_true, decide_eq_true_eq] at h
  refine ⟨fun a b ha hb hab => ((h a (vert_iff.1 ha) b (vert_iff.1 hb)).resolve_left hab).1, fun a b c ha hb hc h1 h2 h3 => ?_⟩
  have := ((h a (vert_iff.1 ha) b (vert_iff.1 hb)).resolve_left h1).2 c (vert_iff.1 hc)
  exact (this.resolve_left h2).resolve_left h3

/-- The polygon with a split vertex and a merge vertex, and the one with a hole, are in general position: C102 applies to them. -/
example : GeneralPosition bent ∧ ValidPolygon bent.ext bent.ints ∧ GeneralPosition pierced ∧ ValidPolygon pierced.ext pierced.ints :=
  ⟨general_of (by decide +kernel), validPolygon_of_check (K := ℚ) (by decide +kernel), general_of (by decide +kernel),
    validPolygon_of_check (K := ℚ) (by decide +kernel)⟩

/-- Coordinates of the polygon with the hole may be wrong by a hundredth. -/
theorem pierced_near {φ : Pt ℚ → Pt ℚ} (h : Near (1 / 100) pierced φ) : KeepsTests pierced φ := by
  have key : ∀ a ∈ (pierced.ext :: pierced.ints).flatten, ∀ b ∈ (pierced.ext :: pierced.ints).flatten, (|b.x - a.x| ≤ 10 ∧ |b.y - a.y| ≤ 10) ∧
      (a ≠ b → 2 * (1 / 100) < |b.x - a.x|) ∧ ∀ c ∈ (pierced.ext :: pierced.ints).flatten, a ≠ b → b ≠ c → c ≠ a →
        8 * 10 * (1 / 100) + 8 * (1 / 100) * (1 / 100) < |det a b c| := by
    decide +kernel
  exact C102_quantified (D := 10) (ε := 1 / 100) (fun a b ha hb => (key a (vert_iff.1 ha) b (vert_iff.1 hb)).1)
    (fun a b ha hb => (key a (vert_iff.1 ha) b (vert_iff.1 hb)).2.1)
    (fun a b c ha hb hc => (key a (vert_iff.1 ha) b (vert_iff.1 hb)).2.2 c (vert_iff.1 hc)) h

end Demo

end GeoCrossings.Monotone

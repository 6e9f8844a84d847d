import Verif.Model.BenchRandom
import Verif.Lemmas.ValidMap
import Mathlib.Analysis.SpecialFunctions.Complex.Arg
import Mathlib.Data.Rat.Floor

/-!
# The random polygons of the benchmarks are valid (C94)
-/
set_option linter.unusedSectionVars false
namespace GeoCrossings
open Spec

section
variable {K : Type} [Field K] [LinearOrder K] [IsStrictOrderedRing K]

/-- A closed ring given by its vertices is valid if different sides have at most a common vertex. -/
theorem valid_of_vertices {n : Nat} (hn : 3 ≤ n) {V : Nat → Pt K} (hcl : V n = V 0) (hinj : ∀ i < n, ∀ j < n, V i = V j → i = j)
    (hmeet : ∀ i j, i < j → j < n → ∀ x, OnSeg (V i) (V (i + 1)) x → OnSeg (V j) (V (j + 1)) x → j = i + 1 ∧ x = V j ∨ i = 0 ∧ j + 1 = n ∧ x = V 0) :
    ValidPolygon ((List.range (n + 1)).map V) [] := by
  have hedge : ∀ e ∈ ringEdges ((List.range (n + 1)).map V), ∃ i < n, e = (V i, V (i + 1)) := by
    intro e he
    unfold ringEdges at he
    obtain ⟨i, hi, rfl⟩ := List.getElem_of_mem he
    have hi' : i < n := by
      simp only [List.length_zip, List.length_tail, List.length_map, List.length_range] at hi
      omega
    exact ⟨i, hi', by simp⟩
  refine ⟨?_, ?_, ?_, ?_, ?_⟩
  · intro ring hr
    rw [List.mem_singleton.1 hr]
    refine ⟨?_, by simp; omega⟩
    rw [List.head?_map, List.getLast?_map, List.getLast?_range, List.head?_range]
    simp [hcl]
  · have : ((List.range (n + 1)).map V).dropLast = (List.range n).map V := by
      rw [List.range_succ, List.map_append, List.map_singleton, List.dropLast_concat]
    simp only [List.flatMap_cons, List.flatMap_nil, List.append_nil, this]
    refine List.Nodup.map_on ?_ List.nodup_range
    intro i hi j hj
    exact hinj i (List.mem_range.1 hi) j (List.mem_range.1 hj)
  · intro e he e' he' hne x hx hx'
    simp only [List.flatMap_cons, List.flatMap_nil, List.append_nil] at he he'
    obtain ⟨i, hi, rfl⟩ := hedge e he
    obtain ⟨j, hj, rfl⟩ := hedge e' he'
    rcases lt_trichotomy i j with h | h | h
    · rcases hmeet i j h hj x hx hx' with ⟨rfl, rfl⟩ | ⟨rfl, rfl, rfl⟩
      · exact ⟨Or.inr rfl, Or.inl rfl⟩
      · exact ⟨Or.inl rfl, Or.inr hcl.symm⟩
    · exact absurd (by rw [h]) hne
    · rcases hmeet j i h hi x hx' hx with ⟨rfl, rfl⟩ | ⟨rfl, rfl, rfl⟩
      · exact ⟨Or.inl rfl, Or.inr rfl⟩
      · exact ⟨Or.inr hcl.symm, Or.inl rfl⟩
  · intro h hh; cases hh
  · exact List.Pairwise.nil

theorem closeRing_vertices {n : Nat} (hn : 2 ≤ n) {V : Nat → Pt K} (hcl : V n = V 0) (hinj : ∀ i < n, ∀ j < n, V i = V j → i = j) :
    closeRing ((List.range n).map V) = (List.range (n + 1)).map V := by
  unfold closeRing
  rw [List.head?_map, List.head?_range, if_neg (by omega), Option.map_some]
  simp only
  rw [if_neg, List.range_succ, List.map_append, List.map_singleton, hcl]
  rw [List.getLast?_map, List.getLast?_range, if_neg (by omega), Option.map_some, Option.some.injEq]
  intro k
  have := hinj (n - 1) (by omega) 0 (by omega) k
  omega

theorem onSeg_end_left {a b x : Pt K} (h : OnSeg a b x) (hy : x.y = a.y) (hne : a.y ≠ b.y) : x = a := by
  obtain ⟨t, -, -, h1, h2⟩ := h
  rw [hy] at h2
  have : t * (b.y - a.y) = 0 := by linarith
  rcases mul_eq_zero.1 this with k | k
  · obtain ⟨x1, x2⟩ := x
    simp only [k, zero_mul, add_zero] at h1 hy
    cases a
    simp only at h1 hy
    rw [h1, hy]
  · exact absurd (by linarith) hne

theorem onSeg_end_right {a b x : Pt K} (h : OnSeg a b x) (hy : x.y = b.y) (hne : a.y ≠ b.y) : x = b := onSeg_end_left (onSeg_comm.1 h) hy (Ne.symm hne)

theorem onSeg_y_between {a b x : Pt K} (h : OnSeg a b x) (hab : a.y ≤ b.y) : a.y ≤ x.y ∧ x.y ≤ b.y := by
  obtain ⟨t, t0, t1, -, h⟩ := h
  rw [h]
  have := mul_nonneg t0 (sub_nonneg.2 hab)
  have := mul_le_mul_of_nonneg_right t1 (sub_nonneg.2 hab)
  constructor <;> linarith

theorem onSeg_x_le {a b x : Pt K} (h : OnSeg a b x) {c : K} (ha : a.x ≤ c) (hb : b.x ≤ c) : x.x ≤ c := by
  obtain ⟨t, t0, t1, h, -⟩ := h
  rw [h]
  have := mul_le_mul_of_nonneg_left hb t0
  have := mul_le_mul_of_nonneg_left ha (sub_nonneg.2 t1)
  linarith

theorem onSeg_x_ge {a b x : Pt K} (h : OnSeg a b x) {c : K} (ha : c ≤ a.x) (hb : c ≤ b.x) : c ≤ x.x := by
  obtain ⟨t, t0, t1, h, -⟩ := h
  rw [h]
  have := mul_le_mul_of_nonneg_left hb t0
  have := mul_le_mul_of_nonneg_left ha (sub_nonneg.2 t1)
  linarith

/-! ## Steps -/

/-- The vertices of a polygon between a left side that rises in unit steps and a right side that falls in unit steps. -/
def stepV (l r : Nat → K) (s k : Nat) : Pt K :=
  if k ≤ s then ⟨l k, k⟩ else if k ≤ 2 * s + 1 then ⟨r (k - (s + 1)), (s : K) - ((k - (s + 1) : Nat) : K)⟩ else ⟨l 0, 0⟩

theorem step_valid {l r : Nat → K} {s : Nat} (hs : 0 < s) {c d : K} (hcd : c < d) (hl : ∀ k ≤ s, l k ≤ c) (hr : ∀ k ≤ s, d ≤ r k) :
    ValidPolygon (closeRing ((List.range (2 * s + 2)).map (stepV l r s))) [] := by
  have eL : ∀ {k}, k ≤ s → stepV l r s k = ⟨l k, k⟩ := fun h => if_pos h
  have eR : ∀ {k}, s < k → k ≤ 2 * s + 1 → stepV l r s k = ⟨r (k - (s + 1)), 2 * (s : K) + 1 - (k : K)⟩ := fun {k} h h' => by
    unfold stepV
    rw [if_neg (by omega), if_pos h', Nat.cast_sub (by omega)]
    push_cast
    congr 1
    ring
  have eN : stepV l r s (2 * s + 2) = ⟨l 0, 0⟩ := by
    unfold stepV
    rw [if_neg (by omega), if_neg (by omega)]
  have hcl : stepV l r s (2 * s + 2) = stepV l r s 0 := by
    rw [eN, eL (Nat.zero_le _), Nat.cast_zero]
  have hinj : ∀ i < 2 * s + 2, ∀ j < 2 * s + 2, stepV l r s i = stepV l r s j → i = j := by
    intro i hi j hj h
    by_cases h1 : i ≤ s <;> by_cases h2 : j ≤ s
    · rw [eL h1, eL h2, Pt.mk.injEq] at h
      exact_mod_cast h.2
    · rw [eL h1, eR (by omega) (by omega), Pt.mk.injEq] at h
      have := hl i h1
      have := hr (j - (s + 1)) (by omega)
      linarith [h.1]
    · rw [eR (by omega) (by omega), eL h2, Pt.mk.injEq] at h
      have := hl j h2
      have := hr (i - (s + 1)) (by omega)
      linarith [h.1]
    · rw [eR (by omega) (by omega), eR (by omega) (by omega), Pt.mk.injEq] at h
      have : (i : K) = (j : K) := by linarith [h.2]
      exact_mod_cast this
  rw [closeRing_vertices (by omega) hcl hinj]
  refine valid_of_vertices (by omega) hcl hinj ?_
  have hL : ∀ {k}, k < s → ∀ {x}, OnSeg (stepV l r s k) (stepV l r s (k + 1)) x → x.x ≤ c ∧ ((k : K) ≤ x.y ∧ x.y ≤ (k : K) + 1) ∧
      (x.y = (k : K) → x = stepV l r s k) ∧ (x.y = (k : K) + 1 → x = stepV l r s (k + 1)) := by
    intro k hk x hx
    rw [eL hk.le, eL hk] at hx ⊢
    have hlt : (k : K) < ((k + 1 : Nat) : K) := by push_cast; linarith
    have := onSeg_y_between hx hlt.le
    refine ⟨onSeg_x_le hx (hl k hk.le) (hl (k + 1) hk), ⟨this.1, by simpa using this.2⟩, fun h => onSeg_end_left hx h hlt.ne, fun h => onSeg_end_right hx ?_ hlt.ne⟩
    rw [h]; push_cast; rfl
  have hR : ∀ {k}, s < k → k < 2 * s + 1 → ∀ {x}, OnSeg (stepV l r s k) (stepV l r s (k + 1)) x → d ≤ x.x ∧
      (2 * (s : K) - (k : K) ≤ x.y ∧ x.y ≤ 2 * (s : K) + 1 - (k : K)) ∧
      (x.y = 2 * (s : K) + 1 - (k : K) → x = stepV l r s k) ∧ (x.y = 2 * (s : K) - (k : K) → x = stepV l r s (k + 1)) := by
    intro k hk hk' x hx
    rw [eR hk hk'.le, eR (by omega) (by omega)] at hx ⊢
    have hlt : 2 * (s : K) + 1 - ((k + 1 : Nat) : K) < 2 * (s : K) + 1 - (k : K) := by push_cast; linarith
    have := onSeg_y_between (onSeg_comm.1 hx) hlt.le
    refine ⟨onSeg_x_ge hx (hr _ (by omega)) (hr _ (by omega)), ⟨?_, this.2⟩, fun h => onSeg_end_left hx h hlt.ne', fun h => onSeg_end_right hx ?_ hlt.ne'⟩
    · have := this.1; push_cast at this; linarith
    · rw [h]; push_cast; ring
  have hT : ∀ {x}, OnSeg (stepV l r s s) (stepV l r s (s + 1)) x → x.y = (s : K) := by
    intro x hx
    rw [eL le_rfl, eR (by omega) (by omega)] at hx
    obtain ⟨t, -, -, -, h⟩ := hx
    simp only at h
    rw [h]; push_cast; ring
  have hB : ∀ {x}, OnSeg (stepV l r s (2 * s + 1)) (stepV l r s (2 * s + 1 + 1)) x → x.y = 0 := by
    intro x hx
    rw [eN, eR (by omega) (by omega)] at hx
    obtain ⟨t, -, -, -, h⟩ := hx
    simp only at h
    rw [h]; push_cast; ring
  have hs' : (0 : K) < (s : K) := by exact_mod_cast hs
  intro i j hij hj x hx hx'
  rcases lt_trichotomy i s with h1 | rfl | h1
  · obtain ⟨a1, a2, a3, a4⟩ := hL h1 hx
    rcases lt_trichotomy j s with h2 | rfl | h2
    · obtain ⟨-, b2, b3, -⟩ := hL h2 hx'
      have hle : (j : K) ≤ (i : K) + 1 := b2.1.trans a2.2
      have hji : j = i + 1 := by
        have : j ≤ i + 1 := by exact_mod_cast hle
        omega
      refine Or.inl ⟨hji, b3 (le_antisymm ?_ b2.1)⟩
      rw [hji]; push_cast; exact a2.2
    · have hy := hT hx'
      have hle : (j : K) ≤ (i : K) + 1 := hy ▸ a2.2
      have hji : j = i + 1 := by
        have : j ≤ i + 1 := by exact_mod_cast hle
        omega
      refine Or.inl ⟨hji, ?_⟩
      have := a4 (by rw [hy, hji]; push_cast; rfl)
      rw [← hji] at this; exact this
    · rcases Nat.lt_or_ge j (2 * s + 1) with h3 | h3
      · obtain ⟨b1, -⟩ := hR h2 h3 hx'
        exact absurd (b1.trans a1) (not_le.2 hcd)
      · obtain rfl : j = 2 * s + 1 := by omega
        have hy := hB hx'
        have hi0 : i = 0 := by
          have : (i : K) ≤ 0 := hy ▸ a2.1
          have : i ≤ 0 := by exact_mod_cast this
          omega
        subst hi0
        exact Or.inr ⟨rfl, rfl, a3 (by rw [hy]; simp)⟩
  · have hy := hT hx
    rcases Nat.lt_or_ge j (2 * i + 1) with h3 | h3
    · obtain ⟨-, b2, b3, -⟩ := hR hij h3 hx'
      have hji : j = i + 1 := by
        have h := b2.2
        rw [hy] at h
        have : (j : K) ≤ (i : K) + 1 := by linarith
        have : j ≤ i + 1 := by exact_mod_cast this
        omega
      refine Or.inl ⟨hji, b3 ?_⟩
      rw [hy, hji]; push_cast; ring
    · obtain rfl : j = 2 * i + 1 := by omega
      have hy' := hB hx'
      rw [hy] at hy'
      exact absurd hy' hs'.ne'
  · obtain ⟨-, a2, -, a4⟩ := hR h1 (by omega) hx
    rcases Nat.lt_or_ge j (2 * s + 1) with h3 | h3
    · obtain ⟨-, b2, b3, -⟩ := hR (h1.trans hij) h3 hx'
      have hji : j = i + 1 := by
        have h := a2.1.trans b2.2
        have : (j : K) ≤ (i : K) + 1 := by linarith
        have : j ≤ i + 1 := by exact_mod_cast this
        omega
      refine Or.inl ⟨hji, ?_⟩
      have : x.y = 2 * (s : K) - (i : K) := by
        refine le_antisymm ?_ a2.1
        have := b2.2
        rw [hji] at this
        push_cast at this
        linarith
      rw [hji]
      exact a4 this
    · obtain rfl : j = 2 * s + 1 := by omega
      have hy := hB hx'
      have hi2 : i = 2 * s := by
        have h := a2.1
        rw [hy] at h
        have : (2 * s : K) ≤ (i : K) := by linarith
        have : 2 * s ≤ i := by exact_mod_cast this
        omega
      subst hi2
      exact Or.inl ⟨rfl, a4 (by rw [hy]; push_cast; ring)⟩

variable [FloorSemiring K]

theorem truncTenth_le {x : K} (hx : 0 ≤ x) : truncTenth x ≤ x := by
  unfold truncTenth
  have := Nat.floor_le (a := x * 10) (by linarith)
  rw [div_le_iff₀ (by norm_num)]
  exact this

theorem truncTenth_nonneg (x : K) : 0 ≤ truncTenth x := by
  unfold truncTenth
  positivity

/-- **C94, first part.** The polygons that `steppy_polygon` makes are valid, whatever is drawn from the unit interval. -/
theorem C94_steppy {sample : Nat → K} (h : ∀ i, 0 ≤ sample i ∧ sample i < 1) {steps : Nat} (hs : 0 < steps) :
    ValidPolygon (steppyPolygon sample steps).ext (steppyPolygon sample steps).ints := by
  set l : Nat → K := fun k => if k = 0 then 0 else truncTenth (sample (k - 1) * 50 / 2) with hl
  set r : Nat → K := fun k => 50 + if k = 0 then 0 else truncTenth (sample (steps + (k - 1)) * 50) with hr
  have f1 : ∀ k ≤ steps, (List.range k).foldl (fun (st : List (Pt K) × K) i => (st.1 ++ [(⟨truncTenth (sample i * 50 / 2), st.2 + 1⟩ : Pt K)], st.2 + 1)) ([⟨0, 0⟩], 0) =
      ((List.range (k + 1)).map (stepV l r steps), (k : K)) := by
    intro k
    induction k with
    | zero =>
      intro _
      simp [stepV, hl]
    | succ k ih =>
      intro hk
      rw [List.range_succ, List.foldl_append, ih (by omega), List.foldl_cons, List.foldl_nil, List.range_succ (n := k + 1), List.map_append, List.map_singleton]
      unfold stepV
      rw [if_pos hk]
      simp [hl]
  have f2 : ∀ k ≤ steps, (List.range k).foldl (fun (st : List (Pt K) × K) i => (st.1 ++ [(⟨50 + truncTenth (sample (steps + i) * 50), st.2 - 1⟩ : Pt K)], st.2 - 1))
      ((List.range (steps + 1)).map (stepV l r steps) ++ [⟨50, (steps : K)⟩], (steps : K)) =
      ((List.range (steps + 1 + (k + 1))).map (stepV l r steps), (steps : K) - (k : K)) := by
    intro k
    induction k with
    | zero =>
      intro _
      rw [← Nat.add_assoc, List.range_succ (n := steps + 1 + 0), List.map_append, List.map_singleton]
      have : stepV l r steps (steps + 1 + 0) = ⟨50, (steps : K)⟩ := by
        unfold stepV
        rw [if_neg (by omega), if_pos (by omega)]
        simp [hr]
      rw [this]
      simp
    | succ k ih =>
      intro hk
      rw [List.range_succ (n := k), List.foldl_append, ih (by omega), List.foldl_cons, List.foldl_nil, show steps + 1 + (k + 1 + 1) = steps + 1 + (k + 1) + 1 from rfl,
        List.range_succ (n := steps + 1 + (k + 1)), List.map_append,
        List.map_singleton]
      have : stepV l r steps (steps + 1 + (k + 1)) = ⟨50 + truncTenth (sample (steps + k) * 50), (steps : K) - (k : K) - 1⟩ := by
        unfold stepV
        rw [if_neg (by omega), if_pos (by omega), Nat.add_sub_cancel_left]
        simp [hr]
        ring
      rw [this]
      push_cast
      rw [sub_sub]
  have key : steppyPolygon sample steps = Polygon.ofRing ((List.range (2 * steps + 2)).map (stepV l r steps)) := by
    unfold steppyPolygon
    simp only
    rw [f1 steps le_rfl]
    simp only
    rw [f2 steps le_rfl]
    rw [show steps + 1 + (steps + 1) = 2 * steps + 2 by omega]
  rw [key]
  refine step_valid hs (c := 25) (d := 50) (by norm_num) (fun k _ => ?_) (fun k _ => ?_)
  · simp only [hl]
    split
    · norm_num
    · obtain ⟨h1, h2⟩ := h (k - 1)
      refine (truncTenth_le (by linarith)).trans (by linarith)
  · simp only [hr]
    split
    · simp
    · have := truncTenth_nonneg (sample (steps + (k - 1)) * 50)
      linarith

/-- Some samples. -/
def someSamples (i : Nat) : ℚ := ((7 * i + 3) % 10 : Nat) / 10

/-- A polygon of four steps. -/
example : (∀ i, 0 ≤ someSamples i ∧ someSamples i < 1) ∧ ValidPolygon (steppyPolygon someSamples 4).ext (steppyPolygon someSamples 4).ints ∧
    (steppyPolygon someSamples 4).ext =
      [⟨0, 0⟩, ⟨15 / 2, 1⟩, ⟨0, 2⟩, ⟨35 / 2, 3⟩, ⟨10, 4⟩, ⟨50, 4⟩, ⟨55, 3⟩, ⟨90, 2⟩, ⟨75, 1⟩, ⟨60, 0⟩, ⟨0, 0⟩] := by
  have h : ∀ i, 0 ≤ someSamples i ∧ someSamples i < 1 := by
    intro i
    unfold someSamples
    refine ⟨by positivity, ?_⟩
    rw [div_lt_one (by norm_num)]
    exact_mod_cast Nat.mod_lt _ (by norm_num)
  exact ⟨h, C94_steppy h (by decide), by decide +kernel⟩

end

/-! ## Around a centre -/

/-- A point of the segment between points in directions `α` and `α + θ` is in a direction between them, and in that of an end only if it is that end. -/
theorem polar {r s α θ : ℝ} (hr : 0 < r) (hs : 0 < s) (h0 : 0 < θ) (h1 : θ < Real.pi) {x : Pt ℝ}
    (hx : OnSeg ⟨r * Real.cos α, r * Real.sin α⟩ ⟨s * Real.cos (α + θ), s * Real.sin (α + θ)⟩ x) :
    ∃ ρ ψ, 0 < ρ ∧ 0 ≤ ψ ∧ ψ ≤ θ ∧ x = ⟨ρ * Real.cos (α + ψ), ρ * Real.sin (α + ψ)⟩ ∧ (ψ = 0 → x = ⟨r * Real.cos α, r * Real.sin α⟩) ∧
      (ψ = θ → x = ⟨s * Real.cos (α + θ), s * Real.sin (α + θ)⟩) := by
  obtain ⟨t, t0, t1, hx1, hx2⟩ := hx
  simp only at hx1 hx2
  have sθ : 0 < Real.sin θ := Real.sin_pos_of_pos_of_lt_pi h0 h1
  set z : ℂ := ⟨(1 - t) * r + t * s * Real.cos θ, t * s * Real.sin θ⟩ with hz
  have him : 0 ≤ z.im := mul_nonneg (mul_nonneg t0 hs.le) sθ.le
  have hz0 : z ≠ 0 := by
    intro k
    have k1 := congrArg Complex.im k
    have k2 := congrArg Complex.re k
    simp only [hz, Complex.zero_im, Complex.zero_re] at k1 k2
    have : t = 0 := by
      rcases mul_eq_zero.1 k1 with k | k
      · rcases mul_eq_zero.1 k with k | k
        · exact k
        · exact absurd k hs.ne'
      · exact absurd k sθ.ne'
    rw [this] at k2
    simp at k2
    exact hr.ne' k2
  have hρ : 0 < ‖z‖ := norm_pos_iff.2 hz0
  have hc : ‖z‖ * Real.cos z.arg = (1 - t) * r + t * s * Real.cos θ := Complex.norm_mul_cos_arg z
  have hsn : ‖z‖ * Real.sin z.arg = t * s * Real.sin θ := Complex.norm_mul_sin_arg z
  have hψ0 : 0 ≤ z.arg := Complex.arg_nonneg_iff.2 him
  have hψ1 : z.arg ≤ Real.pi := Complex.arg_le_pi z
  have hdiff : ‖z‖ * Real.sin (θ - z.arg) = (1 - t) * r * Real.sin θ := by
    rw [Real.sin_sub]
    linear_combination Real.sin θ * hc - Real.cos θ * hsn
  have hx : x = ⟨‖z‖ * Real.cos (α + z.arg), ‖z‖ * Real.sin (α + z.arg)⟩ := by
    obtain ⟨x1, x2⟩ := x
    simp only at hx1 hx2
    rw [hx1, hx2, Pt.mk.injEq, Real.cos_add, Real.sin_add, Real.cos_add, Real.sin_add]
    constructor
    · linear_combination (-Real.cos α) * hc + Real.sin α * hsn
    · linear_combination (-Real.sin α) * hc - Real.cos α * hsn
  refine ⟨‖z‖, z.arg, hρ, hψ0, ?_, hx, fun h => ?_, fun h => ?_⟩
  · by_contra k
    have k := not_le.1 k
    have : Real.sin (θ - z.arg) < 0 := Real.sin_neg_of_neg_of_neg_pi_lt (by linarith) (by linarith)
    have h1 : ‖z‖ * Real.sin (θ - z.arg) < 0 := mul_neg_of_pos_of_neg hρ this
    rw [hdiff] at h1
    exact absurd h1 (not_lt.2 (mul_nonneg (mul_nonneg (sub_nonneg.2 t1) hr.le) sθ.le))
  · rw [h, Real.sin_zero, mul_zero] at hsn
    have ht : t = 0 := by
      rcases mul_eq_zero.1 hsn.symm with k | k
      · rcases mul_eq_zero.1 k with k | k
        · exact k
        · exact absurd k hs.ne'
      · exact absurd k sθ.ne'
    obtain ⟨x1, x2⟩ := x
    simp only at hx1 hx2
    rw [hx1, hx2, ht]
    simp
  · rw [h, sub_self, Real.sin_zero, mul_zero] at hdiff
    have ht : 1 - t = 0 := by
      rcases mul_eq_zero.1 hdiff.symm with k | k
      · rcases mul_eq_zero.1 k with k | k
        · exact k
        · exact absurd k hr.ne'
      · exact absurd k sθ.ne'
    have ht : t = 1 := by linarith
    obtain ⟨x1, x2⟩ := x
    simp only at hx1 hx2
    rw [hx1, hx2, ht]
    simp

/-- Two points in directions that differ by a turn at most are equal only if the directions are equal or differ by a turn. -/
theorem polar_unique {ρ ρ' φ φ' : ℝ} (h : 0 < ρ) (h' : 0 < ρ') (h1 : φ ≤ φ') (h2 : φ' ≤ φ + 2 * Real.pi) (hx : ρ * Real.cos φ = ρ' * Real.cos φ')
    (hy : ρ * Real.sin φ = ρ' * Real.sin φ') : ρ = ρ' ∧ (φ' = φ ∨ φ' = φ + 2 * Real.pi) := by
  have e : ρ = ρ' := by
    have a := Real.sin_sq_add_cos_sq φ
    have b := Real.sin_sq_add_cos_sq φ'
    have : ρ ^ 2 = ρ' ^ 2 := by
      calc ρ ^ 2 = (ρ * Real.cos φ) ^ 2 + (ρ * Real.sin φ) ^ 2 := by linear_combination (-ρ ^ 2) * a
        _ = (ρ' * Real.cos φ') ^ 2 + (ρ' * Real.sin φ') ^ 2 := by rw [hx, hy]
        _ = ρ' ^ 2 := by linear_combination (ρ' ^ 2) * b
    nlinarith
  subst e
  refine ⟨rfl, ?_⟩
  have hc := mul_left_cancel₀ h.ne' hx
  have hs := mul_left_cancel₀ h.ne' hy
  have h1' : Real.cos (φ' - φ) = 1 := by
    rw [Real.cos_sub, ← hc, ← hs]
    linear_combination Real.sin_sq_add_cos_sq φ
  rcases eq_or_lt_of_le h2 with k | k
  · exact Or.inr k
  · have := (Real.cos_eq_one_iff_of_lt_of_lt (x := φ' - φ) (by linarith [Real.pi_pos]) (by linarith)).1 h1'
    exact Or.inl (by linarith)

/-- The points at distances `r k` from the origin in `n` directions. -/
noncomputable def starV (r : Nat → ℝ) (n k : Nat) : Pt ℝ :=
  ⟨r (k % n) * Real.cos (k * (2 * Real.pi / n)), r (k % n) * Real.sin (k * (2 * Real.pi / n))⟩

theorem star_valid {r : Nat → ℝ} (hr : ∀ k, 0 < r k) {n : Nat} (hn : 3 ≤ n) : ValidPolygon (closeRing ((List.range n).map (starV r n))) [] := by
  have hn0 : (0 : ℝ) < (n : ℝ) := by exact_mod_cast (by omega : 0 < n)
  set θ := 2 * Real.pi / (n : ℝ) with hθ
  have hnθ : (n : ℝ) * θ = 2 * Real.pi := by rw [hθ]; field_simp
  have h0 : 0 < θ := div_pos (by linarith [Real.pi_pos]) hn0
  have h1 : θ < Real.pi := by
    have h3 : (3 : ℝ) ≤ (n : ℝ) := by exact_mod_cast hn
    have := mul_le_mul_of_nonneg_right h3 h0.le
    linarith [Real.pi_pos]
  have hcl : starV r n n = starV r n 0 := by
    unfold starV
    rw [← hθ, hnθ, Nat.mod_self, Nat.zero_mod]
    simp
  have hinj : ∀ i < n, ∀ j < n, starV r n i = starV r n j → i = j := by
    have key : ∀ i j, i ≤ j → j < n → starV r n i = starV r n j → i = j := by
      intro i j hij hj h
      unfold starV at h
      rw [Pt.mk.injEq] at h
      have hij' : (i : ℝ) ≤ (j : ℝ) := by exact_mod_cast hij
      have hj' : (j : ℝ) < (n : ℝ) := by exact_mod_cast hj
      have hi' : (0 : ℝ) ≤ (i : ℝ) * θ := mul_nonneg (Nat.cast_nonneg _) h0.le
      have hlt : (j : ℝ) * θ < 2 * Real.pi := by rw [← hnθ]; exact mul_lt_mul_of_pos_right hj' h0
      obtain ⟨-, k | k⟩ := polar_unique (hr _) (hr _) (mul_le_mul_of_nonneg_right hij' h0.le) (by linarith) h.1 h.2
      · have := mul_right_cancel₀ h0.ne' k
        exact_mod_cast this.symm
      · linarith
    intro i hi j hj h
    rcases le_total i j with k | k
    · exact key i j k hj h
    · exact (key j i k hi h.symm).symm
  rw [closeRing_vertices (by omega) hcl hinj]
  refine valid_of_vertices hn hcl hinj ?_
  have hedge : ∀ i < n, ∀ x, OnSeg (starV r n i) (starV r n (i + 1)) x → ∃ ρ φ, 0 < ρ ∧ (i : ℝ) * θ ≤ φ ∧ φ ≤ ((i : ℝ) + 1) * θ ∧
      x = ⟨ρ * Real.cos φ, ρ * Real.sin φ⟩ ∧ (φ = (i : ℝ) * θ → x = starV r n i) ∧ (φ = ((i : ℝ) + 1) * θ → x = starV r n (i + 1)) := by
    intro i hi x hx
    have e : starV r n (i + 1) = ⟨r ((i + 1) % n) * Real.cos ((i : ℝ) * θ + θ), r ((i + 1) % n) * Real.sin ((i : ℝ) * θ + θ)⟩ := by
      unfold starV
      rw [← hθ]
      push_cast
      rw [add_mul, one_mul]
    rw [e] at hx ⊢
    obtain ⟨ρ, ψ, p1, p2, p3, p4, p5, p6⟩ := polar (hr _) (hr _) h0 h1 hx
    exact ⟨ρ, (i : ℝ) * θ + ψ, p1, by linarith, by linarith, p4, fun h => p5 (by linarith), fun h => p6 (by linarith)⟩
  intro i j hij hj x hx hx'
  obtain ⟨ρ, φ, a1, a2, a3, a4, a5, a6⟩ := hedge i (by omega) x hx
  obtain ⟨ρ', φ', b1, b2, b3, b4, b5, b6⟩ := hedge j hj x hx'
  have hij' : (i : ℝ) + 1 ≤ (j : ℝ) := by exact_mod_cast hij
  have hj' : (j : ℝ) + 1 ≤ (n : ℝ) := by exact_mod_cast hj
  have c1 := mul_le_mul_of_nonneg_right hij' h0.le
  have c2 := mul_le_mul_of_nonneg_right hj' h0.le
  have c3 : 0 ≤ (i : ℝ) * θ := mul_nonneg (Nat.cast_nonneg _) h0.le
  rw [hnθ] at c2
  have hxx := a4.symm.trans b4
  rw [Pt.mk.injEq] at hxx
  obtain ⟨-, k | k⟩ := polar_unique a1 b1 (by linarith) (by linarith) hxx.1 hxx.2
  · left
    have e1 : φ = ((i : ℝ) + 1) * θ := by linarith
    have e2 : ((i : ℝ) + 1) * θ = (j : ℝ) * θ := by linarith
    have e3 := mul_right_cancel₀ h0.ne' e2
    have hji : j = i + 1 := by
      have : ((i + 1 : Nat) : ℝ) = (j : ℝ) := by push_cast; exact e3
      exact_mod_cast this.symm
    exact ⟨hji, by rw [hji]; exact a6 e1⟩
  · right
    have e1 : (i : ℝ) * θ = 0 := by linarith
    have hi0 : i = 0 := by
      rcases mul_eq_zero.1 e1 with z | z
      · exact_mod_cast z
      · exact absurd z h0.ne'
    have e2 : ((j : ℝ) + 1) * θ = (n : ℝ) * θ := by linarith
    have e3 := mul_right_cancel₀ h0.ne' e2
    have hjn : j + 1 = n := by exact_mod_cast e3
    refine ⟨hi0, hjn, ?_⟩
    subst hi0
    exact a5 (by linarith)

/-- **C94, second part.** The polygons that `circular_polygon` makes are valid, whatever is drawn, if there are at least three steps. -/
theorem C94_circular (sample : Nat → ℝ) {steps : Nat} (hs : 3 ≤ steps) :
    ValidPolygon (circularPolygon sample steps).ext (circularPolygon sample steps).ints := by
  set r : Nat → ℝ := fun k => |sample (2 * k)| + 1 / 10 with hr
  have f : ∀ k ≤ steps, (List.range k).foldl (fun (st : List (Pt ℝ) × ℝ) i =>
      (st.1 ++ [(⟨(|sample (2 * i)| + 1 / 10) * Real.cos st.2, (|sample (2 * i)| + 1 / 10) * Real.sin st.2⟩ : Pt ℝ)], st.2 + 2 * Real.pi / (steps : ℝ))) ([], 0) =
      ((List.range k).map (starV r steps), (k : ℝ) * (2 * Real.pi / (steps : ℝ))) := by
    intro k
    induction k with
    | zero => intro _; simp
    | succ k ih =>
      intro hk
      rw [List.range_succ, List.foldl_append, ih (by omega), List.foldl_cons, List.foldl_nil, List.map_append, List.map_singleton]
      simp only [Prod.mk.injEq]
      refine ⟨?_, by push_cast; ring⟩
      unfold starV
      rw [Nat.mod_eq_of_lt hk]
  have key : circularPolygon sample steps = Polygon.ofRing ((List.range steps).map (starV r steps)) := by
    unfold circularPolygon
    simp only
    rw [f steps le_rfl]
  rw [key]
  exact star_valid (fun k => by simp only [hr]; positivity) hs

/-- **C94, rotated.** So are their images under rotations, and all other affine maps. -/
theorem C94_rotated (T : Affine ℝ) (sample : Nat → ℝ) {steps : Nat} :
    ((∀ i, 0 ≤ sample i ∧ sample i < 1) → 0 < steps → ValidPolygon ((steppyPolygon sample steps).ext.map T.app) ((steppyPolygon sample steps).ints.map (List.map T.app))) ∧
    (3 ≤ steps → ValidPolygon ((circularPolygon sample steps).ext.map T.app) ((circularPolygon sample steps).ints.map (List.map T.app))) :=
  ⟨fun h hs => (C94_steppy h hs).image T, fun hs => (C94_circular sample hs).image T⟩

end GeoCrossings

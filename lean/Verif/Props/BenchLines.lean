import Verif.Model.BenchLines
import Verif.Props.BenchCount
import Mathlib.Data.List.Perm.Basic
import Mathlib.Data.List.Nodup
import Mathlib.Analysis.SpecialFunctions.Trigonometric.Bounds
import Mathlib.Analysis.Real.Pi.Bounds

/-!
# Counting with the tree, and the random lines of the benchmarks (C105, C106)
-/
set_option linter.unusedSectionVars false
namespace GeoCrossings
open Spec

section
variable {K : Type} [Field K] [LinearOrder K] [IsStrictOrderedRing K]

/-- A point of a segment is in its envelope. -/
theorem OnSeg.envelope {l : Line K} {z : Pt K} (h : OnSeg l.start l.stop z) :
    l.envelope.minX ≤ z.x ∧ z.x ≤ l.envelope.maxX ∧ l.envelope.minY ≤ z.y ∧ z.y ≤ l.envelope.maxY := by
  obtain ⟨t, h0, h1, hx, hy⟩ := h
  have key : ∀ a b : K, min a b ≤ a + t * (b - a) ∧ a + t * (b - a) ≤ max a b := by
    intro a b
    rcases le_total a b with h | h
    · rw [min_eq_left h, max_eq_right h]
      constructor <;> nlinarith
    · rw [min_eq_right h, max_eq_left h]
      constructor <;> nlinarith
  rw [hx, hy]
  exact ⟨(key _ _).1, (key _ _).2, (key _ _).1, (key _ _).2⟩

/-- Lines that intersect have envelopes that do. -/
theorem meets_of_inter {a b : Line K} (h : (lineIntersection a b).isSome = true) : a.envelope.meets b.envelope = true := by
  have hi := lineIntersection_isInter a b
  obtain ⟨i, e⟩ := Option.isSome_iff_exists.1 h
  rw [e] at hi
  obtain ⟨z, h1, h2⟩ := inter_common hi
  obtain ⟨a1, a2, a3, a4⟩ := OnSeg.envelope h1
  obtain ⟨b1, b2, b3, b4⟩ := OnSeg.envelope h2
  unfold Rect.meets
  simp only [Bool.and_eq_true, decide_eq_true_eq]
  exact ⟨⟨⟨a1.trans b2, b1.trans a2⟩, a3.trans b4⟩, b3.trans a4⟩

theorem mem_pairsOf_iff {α : Type} {l : List (α × Nat)} (h : l.Pairwise fun a b => a.2 < b.2) (a b : α × Nat) :
    (a, b) ∈ pairsOf l ↔ a ∈ l ∧ b ∈ l ∧ a.2 < b.2 := by
  induction l with
  | nil => simp [pairsOf]
  | cons c l ih =>
    rw [List.pairwise_cons] at h
    rw [pairsOf, List.mem_append, ih h.2, List.mem_cons, List.mem_cons]
    constructor
    · rintro (h' | ⟨h1, h2, h3⟩)
      · obtain ⟨b', h1, h2⟩ := List.mem_map.1 h'
        obtain ⟨rfl, rfl⟩ := Prod.mk.inj h2
        exact ⟨.inl rfl, .inr h1, h.1 _ h1⟩
      · exact ⟨.inr h1, .inr h2, h3⟩
    · rintro ⟨rfl | h1, rfl | h2, h3⟩
      · exact absurd h3 (lt_irrefl _)
      · exact .inl (List.mem_map.2 ⟨b, h2, rfl⟩)
      · exact absurd h3 (h.1 _ h1).not_gt
      · exact .inr ⟨h1, h2, h3⟩

theorem nodup_pairsOf {α : Type} {l : List α} (h : l.Nodup) : (pairsOf l).Nodup := by
  induction l with
  | nil => exact List.nodup_nil
  | cons c l ih =>
    rw [List.nodup_cons] at h
    rw [pairsOf, List.nodup_append]
    refine ⟨h.2.map fun x y e => (Prod.mk.inj e).2, ih h.2, ?_⟩
    rintro ⟨a, b⟩ h1 ⟨a', b'⟩ h2 e
    obtain ⟨b'', -, h4⟩ := List.mem_map.1 h1
    obtain ⟨rfl, rfl⟩ := Prod.mk.inj h4
    obtain ⟨rfl, rfl⟩ := Prod.mk.inj e
    exact h.1 (mem_pairsOf h2).1

theorem zipIdx_pairwise {α : Type} (l : List α) (n : Nat) : (l.zipIdx n).Pairwise fun a b => a.2 < b.2 := by
  induction l generalizing n with
  | nil => exact .nil
  | cons a l ih =>
    rw [List.zipIdx_cons, List.pairwise_cons]
    refine ⟨fun b hb => ?_, ih _⟩
    obtain ⟨x, i⟩ := b
    have := List.le_snd_of_mem_zipIdx hb
    exact Nat.lt_of_succ_le this

/-- **C105.** Whatever the order in which the tree reports the candidates, `count_rtree` returns the number that `count_brute` does: it misses no
pair that intersects, and counts none twice, although the tree is searched for pairs with itself. -/
theorem C105_rtree {lines : List (Line K)} {cs : List ((Line K × Nat) × (Line K × Nat))} (h : Candidates (treeElems lines) cs) :
    countRtree cs = countBrute lines := by
  have hp := zipIdx_pairwise lines 0
  have hn : lines.zipIdx.Nodup := hp.imp fun {a b} h e => by rw [e] at h; exact lt_irrefl _ h
  have e1 : countRtree cs = cs.countP fun ab => decide (ab.1.2 < ab.2.2) && (lineIntersection ab.1.1 ab.2.1).isSome := by
    unfold countRtree
    clear h
    induction cs with
    | nil => rfl
    | cons ab cs ih =>
      rw [List.filterMap_cons, List.countP_cons, ← ih]
      by_cases k : ab.1.2 ≥ ab.2.2
      · simp [k, not_lt.2 k]
      · rw [if_neg k]
        have k' := not_le.1 k
        cases e : lineIntersection ab.1.1 ab.2.1 <;> simp [k']
  have e2 : countBrute lines = (pairsOf lines.zipIdx).countP fun ab => (lineIntersection ab.1.1 ab.2.1).isSome := by
    rw [countBrute_eq]
    conv_lhs => rw [← List.zipIdx_map_fst 0 lines, pairsOf_map, List.countP_map]
    rfl
  rw [e1, e2, List.countP_eq_length_filter, List.countP_eq_length_filter]
  refine List.Perm.length_eq ((List.perm_ext_iff_of_nodup (h.nodup.filter _) ((nodup_pairsOf hn).filter _)).2 ?_)
  rintro ⟨a, b⟩
  simp only [List.mem_filter, h.mem, mem_pairsOf_iff hp, Bool.and_eq_true, decide_eq_true_eq, treeElems]
  constructor
  · rintro ⟨⟨h1, h2, -⟩, h3, h4⟩
    exact ⟨⟨h1, h2, h3⟩, h4⟩
  · rintro ⟨⟨h1, h2, h3⟩, h4⟩
    exact ⟨⟨h1, h2, meets_of_inter h4⟩, h3, h4⟩

/-- **C105.** With C91: all three counts agree for lines of which any two that meet do so in one point, the first end of neither. -/
theorem C105_all_counts (nextAfter : K → K) (choice : Nat → Nat) {lines : List (Line K)} {cs : List ((Line K × Nat) × (Line K × Nat))}
    (hc : Candidates (treeElems lines) cs)
    (h : lines.Pairwise fun l l' => ∀ x, OnLine l x ∧ OnLine l' x → MeetAt l l' x ∧ x ≠ min l.start l.stop ∧ x ≠ min l'.start l'.stop) :
    ∃ N, ∀ fuel, N ≤ fuel → countBo nextAfter choice fuel lines = some (countRtree cs) := by
  rw [C105_rtree hc]
  exact C91_counts nextAfter choice h

/-- There are candidates for all lines: all pairs with envelopes that meet, in the order of the elements. -/
theorem exists_candidates (lines : List (Line K)) :
    Candidates (treeElems lines) (((treeElems lines).product (treeElems lines)).filter fun ab => ab.1.1.envelope.meets ab.2.1.envelope) := by
  have hp := zipIdx_pairwise lines 0
  have hn : lines.zipIdx.Nodup := hp.imp fun {a b} h e => by rw [e] at h; exact lt_irrefl _ h
  refine ⟨(hn.product hn).filter _, fun a b => ?_⟩
  rw [List.mem_filter, List.pair_mem_product]
  exact and_assoc

/-- The example of the documentation: 9 candidates, 3 intersections. -/
example : ∃ cs, Candidates (treeElems docLines) cs ∧ cs.length = 9 ∧ countRtree cs = 3 :=
  ⟨_, exists_candidates docLines, by decide +kernel, by decide +kernel⟩

/-! ## The generators of lines -/

/-- The point is in the rectangle. -/
def Rect.Has (b : Rect K) (p : Pt K) : Prop := b.minX ≤ p.x ∧ p.x ≤ b.maxX ∧ b.minY ≤ p.y ∧ p.y ≤ b.maxY

/-- A sample of `Standard`: at least 0 and below 1. -/
def IsSample (s : K) : Prop := 0 ≤ s ∧ s < 1

theorem uniformPoint_has {b : Rect K} (hx : b.minX ≤ b.maxX) (hy : b.minY ≤ b.maxY) {s : K × K} (h1 : IsSample s.1) (h2 : IsSample s.2) :
    b.Has (uniformPoint s b) := by
  obtain ⟨h1, h1'⟩ := h1
  obtain ⟨h2, h2'⟩ := h2
  have hx' := sub_nonneg.2 hx
  have hy' := sub_nonneg.2 hy
  refine ⟨?_, ?_, ?_, ?_⟩ <;> simp only [uniformPoint] <;> nlinarith

/-- **C106 (uniform_line).** The lines have both ends in the rectangle. -/
theorem C106_uniform_line {b : Rect K} (hx : b.minX ≤ b.maxX) (hy : b.minY ≤ b.maxY) {s t : K × K} (h1 : IsSample s.1) (h2 : IsSample s.2)
    (h3 : IsSample t.1) (h4 : IsSample t.2) : b.Has (uniformLine s t b).start ∧ b.Has (uniformLine s t b).stop :=
  ⟨uniformPoint_has hx hy h1 h2, uniformPoint_has hx hy h3 h4⟩

/-- **C106 (scaled_generator).** The lines stay in the rectangle of the given dimensions, and in each direction are at most the `2 ^ scale`-th part
of it long. -/
theorem C106_scaled {dims : Pt K} (hx : 0 ≤ dims.x) (hy : 0 ≤ dims.y) (scale : Nat) {s t u : K × K} (h1 : IsSample s.1) (h2 : IsSample s.2)
    (h3 : IsSample t.1) (h4 : IsSample t.2) (h5 : IsSample u.1) (h6 : IsSample u.2) :
    let l := scaledLine dims scale s t u
    Rect.Has ⟨0, dims.x, 0, dims.y⟩ l.start ∧ Rect.Has ⟨0, dims.x, 0, dims.y⟩ l.stop ∧
      |l.stop.x - l.start.x| ≤ dims.x / 2 ^ scale ∧ |l.stop.y - l.start.y| ≤ dims.y / 2 ^ scale := by
  have h2s : (1 : K) ≤ 2 ^ scale := one_le_pow₀ one_le_two
  have gx0 : 0 ≤ dims.x / 2 ^ scale := div_nonneg hx (zero_le_one.trans h2s)
  have gy0 : 0 ≤ dims.y / 2 ^ scale := div_nonneg hy (zero_le_one.trans h2s)
  have gx1 : 0 ≤ dims.x - dims.x / 2 ^ scale := sub_nonneg.2 (div_le_self hx h2s)
  have gy1 : 0 ≤ dims.y - dims.y / 2 ^ scale := sub_nonneg.2 (div_le_self hy h2s)
  have e1 : Rect.new (⟨0, 0⟩ : Pt K) ⟨dims.x / 2 ^ scale, dims.y / 2 ^ scale⟩ = ⟨0, dims.x / 2 ^ scale, 0, dims.y / 2 ^ scale⟩ := by
    simp [Rect.new, gx0, gy0]
  have e2 : Rect.new (⟨0, 0⟩ : Pt K) ⟨dims.x - dims.x / 2 ^ scale, dims.y - dims.y / 2 ^ scale⟩ =
      ⟨0, dims.x - dims.x / 2 ^ scale, 0, dims.y - dims.y / 2 ^ scale⟩ := by
    simp only [Rect.new, min_eq_left gx1, max_eq_right gx1, min_eq_left gy1, max_eq_right gy1]
  obtain ⟨a1, a2, a3, a4⟩ := uniformPoint_has (b := ⟨0, dims.x - dims.x / 2 ^ scale, 0, dims.y - dims.y / 2 ^ scale⟩) gx1 gy1 h1 h2
  obtain ⟨b1, b2, b3, b4⟩ := uniformPoint_has (b := ⟨0, dims.x / 2 ^ scale, 0, dims.y / 2 ^ scale⟩) gx0 gy0 h3 h4
  obtain ⟨c1, c2, c3, c4⟩ := uniformPoint_has (b := ⟨0, dims.x / 2 ^ scale, 0, dims.y / 2 ^ scale⟩) gx0 gy0 h5 h6
  intro l
  have hl : l = scaledLine dims scale s t u := rfl
  unfold scaledLine at hl
  simp only [e1, e2, uniformLine] at hl
  rw [hl]
  refine ⟨⟨?_, ?_, ?_, ?_⟩, ⟨?_, ?_, ?_, ?_⟩, abs_le.2 ⟨?_, ?_⟩, abs_le.2 ⟨?_, ?_⟩⟩ <;> simp only at * <;> linarith

end

/-- **C106 (uniform_line_with_length).** The line starts in the rectangle, has the length, and — as `rotate_around_point` of geo takes degrees, and
the angle is drawn from 0 to 2π — is close to horizontal: it rises, by at most a ninth of what it goes to the right. -/
theorem C106_with_length {b : Rect ℝ} (hx : b.minX ≤ b.maxX) (hy : b.minY ≤ b.maxY) {s : ℝ × ℝ} {a : ℝ} (h1 : IsSample s.1) (h2 : IsSample s.2)
    (h3 : IsSample a) {length : ℝ} (hl : 0 ≤ length) :
    let l := uniformLineWithLength s a b length
    b.Has l.start ∧ (l.stop.x - l.start.x) ^ 2 + (l.stop.y - l.start.y) ^ 2 = length ^ 2 ∧
      0 ≤ l.stop.y - l.start.y ∧ l.stop.y - l.start.y ≤ (l.stop.x - l.start.x) / 9 := by
  obtain ⟨ha0, ha1⟩ := h3
  set th : ℝ := a * 2 * Real.pi * (Real.pi / 180) with hth
  have p3 : Real.pi < 3.15 := Real.pi_lt_d2
  have p0 : 0 < Real.pi := Real.pi_pos
  have t0 : 0 ≤ th := by rw [hth]; positivity
  have t1 : th ≤ 0.11025 := by
    have : Real.pi * Real.pi ≤ 3.15 * 3.15 := by nlinarith
    have e : th = a * (Real.pi * Real.pi / 90) := by rw [hth]; ring
    rw [e]
    nlinarith [mul_pos p0 p0]
  have hs : Real.sin th ≤ th := Real.sin_le t0
  have hs0 : 0 ≤ Real.sin th := Real.sin_nonneg_of_nonneg_of_le_pi t0 (by linarith [Real.pi_gt_three])
  have hc : 1 - th ^ 2 / 2 ≤ Real.cos th := Real.one_sub_sq_div_two_le_cos
  have key : Real.sin th ≤ Real.cos th / 9 := by nlinarith
  intro l
  have hst : l.start = uniformPoint s b := by
    simp [l, uniformLineWithLength, rotateAround]
  have hxx : l.stop.x - l.start.x = Real.cos th * length := by
    rw [hst]
    simp [l, uniformLineWithLength, rotateAround, ← hth]
  have hyy : l.stop.y - l.start.y = Real.sin th * length := by
    rw [hst]
    simp [l, uniformLineWithLength, rotateAround, ← hth]
  rw [hxx, hyy]
  refine ⟨hst ▸ uniformPoint_has hx hy h1 h2, ?_, mul_nonneg hs0 hl, ?_⟩
  · rw [mul_pow, mul_pow, ← add_mul, Real.cos_sq_add_sin_sq, one_mul]
  · rw [mul_div_right_comm]
    exact mul_le_mul_of_nonneg_right key hl

/-! ## Samples -/

/-- **C106 (Samples).** A sampler of at least one sample never fails, and returns the samples in order, again and again; with no samples the first
call panics. -/
theorem C106_sampler {α : Type} (v : List α) (n : Nat) :
    (v ≠ [] → ∃ xs, samplerRun v n 0 = some xs ∧ xs.length = n ∧ ∀ k, k < n → xs[k]? = v[k % v.length]?) ∧
      (v = [] → 0 < n → samplerRun v n 0 = none) := by
  constructor
  · intro hv
    have hpos : 0 < v.length := List.length_pos_of_ne_nil hv
    have key : ∀ n c, c < v.length → ∃ xs, samplerRun v n c = some xs ∧ xs.length = n ∧ ∀ k, k < n → xs[k]? = v[(c + k) % v.length]? := by
      intro n
      induction n with
      | zero => exact fun c _ => ⟨[], rfl, rfl, fun k hk => absurd hk (Nat.not_lt_zero _)⟩
      | succ n ih =>
        intro c hc
        obtain ⟨xs, h1, h2, h3⟩ := ih ((c + 1) % v.length) (Nat.mod_lt _ hpos)
        refine ⟨v[c] :: xs, ?_, by simp [h2], fun k hk => ?_⟩
        · simp [samplerRun, sampler, hpos.ne', hc, h1]
        · cases k with
          | zero => simp [Nat.mod_eq_of_lt hc, hc]
          | succ k =>
            rw [List.getElem?_cons_succ, h3 k (by omega), Nat.mod_add_mod, show c + 1 + k = c + (k + 1) by omega]
    obtain ⟨xs, h1, h2, h3⟩ := key n 0 hpos
    exact ⟨xs, h1, h2, fun k hk => by simpa using h3 k hk⟩
  · rintro rfl hn
    cases n with
    | zero => exact absurd hn (lt_irrefl _)
    | succ n => rfl

example : samplerRun [1, 2, 3] 7 0 = some [1, 2, 3, 1, 2, 3, 1] := rfl

/-- The hypotheses of C106 are met. -/
example : IsSample (1 / 2 : ℚ) ∧ scaledLine (⟨8, 4⟩ : Pt ℚ) 1 (1 / 2, 1 / 2) (0, 0) (1 / 2, 3 / 4) = ⟨⟨2, 1⟩, ⟨4, 5 / 2⟩⟩ := by
  refine ⟨⟨by norm_num, by norm_num⟩, by decide +kernel⟩

end GeoCrossings

import Verif.Lemmas.SweepCost
import Verif.Props.Events

/-! # A sweep that makes quadratically many comparisons -/

set_option linter.unusedSectionVars false
namespace GeoCrossings.Slow
open Splay Splay.Tree

/-! ## The trees that occur -/

/-- A tree with the keys below `i` that has no right children. -/
def spine : Nat → Tree Nat Unit
  | 0 => nil
  | i + 1 => node (spine i) i () nil

theorem spine_mem {i : Nat} {e : Nat × Unit} (h : e ∈ (spine i).toList) : e.1 < i := by
  induction i with
  | zero => cases h
  | succ i ih =>
    simp only [spine, toList, List.mem_append, List.mem_cons, List.not_mem_nil, or_false] at h
    rcases h with h | rfl
    · exact (ih h).trans (Nat.lt_succ_self i)
    · exact Nat.lt_succ_self i

/-- How many nodes there are on the way to the leftmost one. -/
def lspine : Tree Nat Unit → Nat
  | nil => 0
  | node l _ _ _ => lspine l + 1

def AllK (P : Nat → Prop) (t : Tree Nat Unit) : Prop := ∀ e ∈ t.toList, P e.1

theorem allK_nil {P : Nat → Prop} : AllK P nil := fun _ he => absurd he List.not_mem_nil

theorem allK_node {P : Nat → Prop} {l k v r} : AllK P (node l k v r) ↔ AllK P l ∧ P k ∧ AllK P r := by
  unfold AllK
  constructor
  · intro h
    exact ⟨fun e he => h e (by simp [toList, he]), h (k, v) (by simp [toList]), fun e he => h e (by simp [toList, he])⟩
  · rintro ⟨h1, h2, h3⟩ e he
    simp only [toList, List.mem_append, List.mem_cons] at he
    rcases he with he | rfl | he
    · exact h1 e he
    · exact h2
    · exact h3 e he

theorem plugR_all {P : Nat → Prop} (R : List (Nat × Unit × Tree Nat Unit)) {t : Tree Nat Unit} (ht : AllK P t)
    (hR : ∀ e ∈ R, P e.1 ∧ AllK P e.2.2) : AllK P (plugR R t) := by
  induction R generalizing t with
  | nil => exact ht
  | cons e R ih =>
    obtain ⟨k, v, r⟩ := e
    have := hR (k, v, r) (by simp)
    exact ih (allK_node.2 ⟨ht, this.1, this.2⟩) fun e he => hR e (by simp [he])

theorem plugR_lspine (R : List (Nat × Unit × Tree Nat Unit)) (t : Tree Nat Unit) : lspine (plugR R t) = R.length + lspine t := by
  induction R generalizing t with
  | nil => simp [plugR]
  | cons e R ih => simp only [plugR, ih, lspine, List.length_cons]; omega

variable {cmp : Nat → Nat → Ordering}

theorem splay_above {i : Nat} (h : ∀ k < i, cmp i k = .gt) : splay cmp i (spine i) = spine i := by
  cases i with
  | zero => rfl
  | succ i =>
    rw [splay, spine, splayLoop.eq_def]
    dsimp only
    rw [h i (Nat.lt_succ_self i)]
    rfl

/-- The predecessor among `0 … i - 1`. -/
def pre : Nat → Option Nat
  | 0 => none
  | i + 1 => some i

theorem prevLoop_above {i : Nat} (h : ∀ k < i, cmp i k = .gt) : (prevLoop cmp i (spine i) none).map (·.1) = pre i := by
  cases i with
  | zero => rfl
  | succ i =>
    rw [spine, prevLoop, h i (Nat.lt_succ_self i)]
    rfl

theorem nextLoop_above {i : Nat} (h : ∀ k < i, cmp i k = .gt) : nextLoop cmp i (spine i) none = none := by
  cases i with
  | zero => rfl
  | succ i =>
    rw [spine, nextLoop, h i (Nat.lt_succ_self i)]
    rfl

/-- Looking for a key `2 m` places down the spine. -/
theorem splay_down {p : Nat} {P : Nat → Prop} (m : Nat) (heq : cmp p p = .eq) (hlt : ∀ k, p < k → k < p + 1 + 2 * m → cmp p k = .lt ∧ P k)
    (R : List (Nat × Unit × Tree Nat Unit)) (hR : ∀ e ∈ R, P e.1 ∧ AllK P e.2.2) :
    ∃ r, splayLoop cmp p (spine (p + 1 + 2 * m)) [] R = node (spine p) p () r ∧ AllK P r ∧ lspine r = m + R.length := by
  induction m generalizing R with
  | zero =>
    refine ⟨plugR R nil, ?_, plugR_all R allK_nil hR, by rw [plugR_lspine]; simp [lspine]⟩
    rw [Nat.mul_zero, Nat.add_zero, spine, splayLoop.eq_def]
    dsimp only
    rw [heq]
    rfl
  | succ m ih =>
    have e1 : p + 1 + 2 * (m + 1) = (p + 1 + 2 * m) + 1 + 1 := by omega
    obtain ⟨a1, a2⟩ := hlt (p + 1 + 2 * m) (by omega) (by omega)
    obtain ⟨b1, b2⟩ := hlt (p + 1 + 2 * m + 1) (by omega) (by omega)
    obtain ⟨r, h1, h2, h3⟩ := ih (fun k k1 k2 => hlt k k1 (by omega)) ((p + 1 + 2 * m, (), node nil (p + 1 + 2 * m + 1) () nil) :: R) (by
      intro e he
      rcases List.mem_cons.1 he with rfl | he
      · exact ⟨a2, allK_node.2 ⟨allK_nil, b2, allK_nil⟩⟩
      · exact hR e he)
    refine ⟨r, ?_, h2, by rw [h3, List.length_cons]; omega⟩
    rw [← h1, e1, spine, splayLoop.eq_def]
    dsimp only
    rw [b1, spine]
    dsimp only
    rw [if_pos a1]
    rw [show p + 1 + 2 * m = (p + 2 * m) + 1 by omega, spine]

/-- The walk of `next` from the root down the left side of the right tree. -/
theorem nextLoop_walk {j : Nat} {r : Tree Nat Unit} (h : AllK (fun k => cmp j k = .lt) r) (o : Option (Nat × Unit)) (n : Nat) :
    (nextLoopT cmp j r o n).2 = n + lspine r ∧
      ∀ e, nextLoop cmp j r o = some e → e ∈ r.toList ∨ o = some e := by
  induction r generalizing o n with
  | nil => exact ⟨rfl, fun e he => .inr he⟩
  | node l k v r ihl _ =>
    obtain ⟨h1, h2, -⟩ := allK_node.1 h
    obtain ⟨i1, i2⟩ := ihl h1 (some (k, v)) (n + 1)
    rw [nextLoopT, nextLoop, h2]
    refine ⟨by dsimp only; rw [i1, lspine]; omega, fun e he => ?_⟩
    rcases i2 e he with h | h
    · exact .inl (by simp [toList, h])
    · rw [Option.some.injEq] at h
      exact .inl (by simp [toList, h])

theorem splay_root {j : Nat} {l r : Tree Nat Unit} (h : cmp j j = .eq) : splay cmp j (node l j () r) = node l j () r := by
  rw [splay, splayLoop.eq_def]; dsimp only; rw [h]; rfl

/-! ## The segments -/

section
variable {K : Type} [Field K] [LinearOrder K] [IsStrictOrderedRing K]

/-- Where segment `i` ends. -/
def stop (n h i : Nat) : Nat := if i < n then (n + 2 * h) + (n - 1 - i) else 2 * (n + 2 * h) + i

theorem le_stop {n h i : Nat} : n + 2 * h ≤ stop n h i := by unfold stop; split <;> omega

theorem stop_lt {n h j i : Nat} (hj : j < n) (hi : i < j ∨ n ≤ i) : stop n h j < stop n h i := by
  unfold stop
  rw [if_pos hj]
  split <;> omega

variable (K) in
/-- Horizontal segments: the first `n` are nested, the longest at the bottom; then there are `2 h` longer ones above. -/
def slow (n h i : Nat) : Line K := ⟨⟨i, i⟩, ⟨stop n h i, i⟩⟩

variable (K) in
def geom (n h i : Nat) : LineOrPoint K := .line ⟨i, i⟩ ⟨stop n h i, i⟩

theorem pt_lt {a b c d : Nat} (h : a < c) : (⟨a, b⟩ : Pt K) < ⟨c, d⟩ := .inl (Nat.cast_lt.2 h)

variable {n h : Nat}

theorem ofLine_slow {i : Nat} (hi : i < n + 2 * h) : LineOrPoint.ofLine (slow K n h i) = geom K n h i := by
  have : (slow K n h i).start < (slow K n h i).stop := pt_lt (hi.trans_le le_stop)
  unfold LineOrPoint.ofLine
  rw [compare_lt_iff_lt.2 this]
  rfl

theorem det_slow {i j : Nat} (c : K) : det (⟨i, i⟩ : Pt K) ⟨stop n h i, i⟩ ⟨c, j⟩ = ((stop n h i : K) - i) * ((j : K) - i) := by
  unfold det; ring

theorem orient_slow {i j : Nat} (c : K) (hi : i < n + 2 * h) (hij : i < j) :
    orient2d (⟨i, i⟩ : Pt K) ⟨stop n h i, i⟩ ⟨c, j⟩ = .counterClockwise := by
  unfold orient2d
  rw [det_slow, if_pos]
  have h1 : (i : K) < stop n h i := by exact_mod_cast hi.trans_le le_stop
  have h2 : (i : K) < j := by exact_mod_cast hij
  exact mul_pos (sub_pos.2 h1) (sub_pos.2 h2)

theorem pcmp_slow {i j : Nat} (hi : i < n + 2 * h) (hj : j < n + 2 * h) : (geom K n h i).pcmp (geom K n h j) = some (compare i j) := by
  have key : ∀ {i j : Nat}, i < n + 2 * h → j < n + 2 * h → i < j →
      pcmpLineLine (⟨i, i⟩ : Pt K) ⟨stop n h i, i⟩ ⟨j, j⟩ ⟨stop n h j, j⟩ = some .lt := by
    intro i j hi hj hij
    unfold pcmpLineLine
    rw [if_neg, orient_slow _ hi hij, orient_slow _ hi hij]
    · rfl
    · rw [not_or, ge_iff_le, ge_iff_le, not_le, not_le]
      exact ⟨pt_lt (hi.trans_le le_stop), pt_lt (hj.trans_le le_stop)⟩
  unfold geom LineOrPoint.pcmp
  dsimp only
  rcases lt_trichotomy i j with hij | rfl | hij
  · rw [if_neg (not_lt.2 (pt_lt hij).le), key hi hj hij, compare_lt_iff_lt.2 hij]
  · rw [if_neg (lt_irrefl _), compare_eq_iff_eq.2 rfl]
    unfold pcmpLineLine
    have e : ∀ c : K, orient2d (⟨i, i⟩ : Pt K) ⟨stop n h i, i⟩ ⟨c, i⟩ = .collinear := by
      intro c
      unfold orient2d
      rw [det_slow, sub_self, mul_zero, if_neg (lt_irrefl _), if_neg (lt_irrefl _)]
    rw [if_neg, e, e]
    · rfl
    · rw [not_or, ge_iff_le, not_le]
      exact ⟨pt_lt (hi.trans_le le_stop), pt_lt (hi.trans_le le_stop)⟩
  · rw [if_pos (pt_lt hij), key hj hi hij, compare_gt_iff_gt.2 hij]
    rfl

theorem inter_slow {i j : Nat} (nextAfter : K → K) (hij : i ≠ j) :
    (geom K n h i).intersectLineOrdered nextAfter (geom K n h j) = some none := by
  have : rectsMeet (⟨⟨i, i⟩, ⟨stop n h i, i⟩⟩ : Line K) ⟨⟨j, j⟩, ⟨stop n h j, j⟩⟩ = false := by
    unfold rectsMeet
    simp only [min_self, max_self]
    rw [Bool.and_eq_false_iff]
    right
    rw [decide_eq_false_iff_not, not_le, min_lt_max]
    exact_mod_cast hij
  have h2 : (geom K n h i).intersectLine (geom K n h j) = some none := by
    unfold geom LineOrPoint.intersectLine lineIntersection
    simp only [LineOrPoint.isLine, LineOrPoint.toLine, this, Bool.not_true, Bool.not_false, if_true, Option.map_none, Bool.false_eq_true, if_false]
  unfold LineOrPoint.intersectLineOrdered
  rw [h2]

end
end GeoCrossings.Slow

import Verif.Spec.SweepCount
import Verif.Lemmas.SweepCost
import Verif.Props.SweepBound
import Verif.Lemmas.SweepSlowRun
import Mathlib.Data.Nat.Log

/-! # C89: the comparisons made by the sweep -/
set_option linter.unusedSectionVars false
namespace GeoCrossings
open Spec Splay

variable {K C : Type} [Field K] [LinearOrder K] [IsStrictOrderedRing K]
variable {lineOf : C → Line K} {nextAfter : K → K} {choice : Nat → Nat} {input : List C}
variable {st0 st : Sweep K C} {k c : Nat}

theorem afterC_after (h : AfterC lineOf nextAfter choice st0 k st c) : After lineOf nextAfter choice st0 k st := by
  induction h with
  | zero => exact .zero _
  | @succ st1 st2 k c1 c2 out p _ h2 ih =>
    refine .succ ih (out := out) (p := p) ?_
    have := Sweep.nextEventC_erases lineOf nextAfter choice st1 c1
    rw [h2] at this
    exact this.symm

/-- **C89**: counting changes nothing: the states reached by the calls are the same, and each of them is reached with exactly one count. -/
theorem C89_erase : (After lineOf nextAfter choice st0 k st ↔ ∃ c, AfterC lineOf nextAfter choice st0 k st c) ∧
    ∀ {st' c c'}, AfterC lineOf nextAfter choice st0 k st c → AfterC lineOf nextAfter choice st0 k st' c' → st = st' ∧ c = c' := by
  refine ⟨⟨fun h => ?_, fun ⟨c, h⟩ => afterC_after h⟩, ?_⟩
  · induction h with
    | zero => exact ⟨0, .zero _⟩
    | @succ st1 st2 k out p _ h2 ih =>
      obtain ⟨c, ih⟩ := ih
      have := Sweep.nextEventC_erases lineOf nextAfter choice st1 c
      rw [h2] at this
      obtain ⟨⟨r, c'⟩, h3, h4⟩ := Option.map_eq_some_iff.1 this
      cases h4
      exact ⟨c', .succ ih h3⟩
  · intro st' c c' h
    induction h generalizing st' c' with
    | zero => intro h'; cases h'; exact ⟨rfl, rfl⟩
    | succ _ h2 ih =>
      intro h'
      cases h' with
      | succ j1 j2 =>
        obtain ⟨rfl, rfl⟩ := ih j1
        rw [h2] at j2
        cases j2
        exact ⟨rfl, rfl⟩

theorem active_root {org : C → Pt K} {pos : Pt K} {X : Abs K C} (h : Full org lineOf input pos st X) :
    st.sz ≤ input.length + 1 := by
  have h1 := h.active
  have h2 := congrArg List.length h.inv.conc.act
  have h3 := h.inv.conc.size
  unfold Sweep.actKeys at h2
  rw [List.length_map, List.length_map] at h2
  rw [Sweep.sz, size1_eq]
  omega

/-- **C89**: with `n` inputs, no event takes more than `10 (n + 4)` comparisons. -/
theorem C89_upper (h0 : Sweep.new lineOf input = some st0) (h : AfterC lineOf nextAfter choice st0 k st c) :
    c ≤ 10 * st.clock * (input.length + 4) := by
  obtain ⟨cl, hcl⟩ := critical_finite (input.map lineOf)
  obtain ⟨pos, X, hf, -⟩ := new_full h0
  induction h with
  | zero => exact Nat.zero_le _
  | @succ st1 st2 k c1 c2 out p h1 h2 ih =>
    obtain ⟨pos', X', i1, -, -⟩ := after_full hcl hf (afterC_after h1)
    have hs := active_root i1
    obtain ⟨d, j1, j2⟩ := Sweep.nextEventC_cost h2
    have he := Sweep.nextEventC_erases lineOf nextAfter choice st1 c1
    rw [h2] at he
    have hc := nextEvent_clock he.symm
    have := j2 (input.length + 4) (by omega)
    rw [j1]
    have e : 10 * (st1.clock + d) * (input.length + 4) = 10 * st1.clock * (input.length + 4) + 10 * d * (input.length + 4) := by ring
    omega

/-- **C89**: so the sweep over `n` inputs, with `I` as in C82, makes at most `30 (2 n + 3 I) (n + 4)` comparisons in all. -/
theorem C89_total {cl : List (Pt K)} (hcl : ∀ r, Critical (input.map lineOf) r → r ∈ cl) (h0 : Sweep.new lineOf input = some st0)
    (h : AfterC lineOf nextAfter choice st0 k st c) :
    c ≤ 30 * (2 * input.length + 3 * incidences (input.map lineOf) cl) * (input.length + 4) := by
  have h1 := C89_upper h0 h
  have h2 := C82_events hcl h0 (afterC_after h)
  refine h1.trans (Nat.mul_le_mul_right _ ?_)
  omega

/-! ## The documented running time -/

theorem slow_disjoint (n h : Nat) : NoneMeet ((List.range (n + 2 * h)).map (Slow.slow K n h)) := by
  unfold NoneMeet
  rw [List.pairwise_map]
  refine (List.nodup_range (n := n + 2 * h)).imp fun {i j} hij r hr => hij ?_
  obtain ⟨⟨t, -, -, -, h1⟩, ⟨u, -, -, -, h2⟩⟩ := hr
  simp only [Slow.slow, sub_self, mul_zero, add_zero] at h1 h2
  exact_mod_cast h1.symm.trans h2

theorem slow_phase1 {n h : Nat} (st0 : Sweep K (Line K)) (h0 : Slow.Phase1 n h 0 st0) (i : Nat) (hi : i ≤ n + 2 * h) :
    ∃ st c, AfterC id nextAfter choice st0 i st c ∧ Slow.Phase1 n h i st := by
  induction i with
  | zero => exact ⟨st0, 0, .zero _, h0⟩
  | succ i ih =>
    obtain ⟨st, c, h1, h2⟩ := ih (by omega)
    obtain ⟨st', out, p, h3, h4⟩ := Slow.step1 (nextAfter := nextAfter) (choice := choice) h2 (by omega)
    have := Sweep.nextEventC_erases id nextAfter choice st c
    rw [h3] at this
    obtain ⟨⟨r, c'⟩, h5, h6⟩ := Option.map_eq_some_iff.1 this
    cases h6
    exact ⟨st', c', .succ h1 h5, h4⟩

theorem slow_phase2 {n h : Nat} (st0 : Sweep K (Line K)) {k c : Nat} {j : Nat} {st : Sweep K (Line K)} (h0 : AfterC id nextAfter choice st0 k st c)
    (h1 : Slow.Phase2 n h j st) (hj : j < n) : ∃ st' c', AfterC id nextAfter choice st0 (k + (j + 1)) st' c' ∧ c + (j + 1) * h ≤ c' := by
  induction j generalizing k c st with
  | zero =>
    obtain ⟨st', out, p, c', h2, h3, -⟩ := Slow.step2 (nextAfter := nextAfter) (choice := choice) h1 hj c
    exact ⟨st', c', .succ h0 h2, by omega⟩
  | succ j ih =>
    obtain ⟨st', out, p, c', h2, h3, h4⟩ := Slow.step2 (nextAfter := nextAfter) (choice := choice) h1 hj c
    obtain ⟨st2, c2, h5, h6⟩ := ih (.succ h0 h2) (h4 j rfl) (by omega)
    refine ⟨st2, c2, by rw [show k + (j + 1 + 1) = k + 1 + (j + 1) by omega]; exact h5, ?_⟩
    have : (j + 1 + 1) * h = (j + 1) * h + h := by ring
    omega

/-- **C89**: for every `h` there are `4 h` pairwise disjoint lines for which the sweep makes at least `2 h²` comparisons, whichever
events the heap prefers. -/
theorem C89_quadratic (h : Nat) : ∃ input : List (Line K), input.length = 4 * h ∧ NoneMeet input ∧
    ∃ st0, Sweep.new id input = some st0 ∧ ∀ nextAfter choice, ∃ k st c, AfterC id nextAfter choice st0 k st c ∧ 2 * h ^ 2 ≤ c := by
  refine ⟨(List.range (2 * h + 2 * h)).map (Slow.slow K (2 * h) h), by simp; omega, slow_disjoint _ _, ?_⟩
  obtain ⟨st0, h0, h1⟩ := Slow.init (K := K) (n := 2 * h) (h := h)
  refine ⟨st0, h0, fun nextAfter choice => ?_⟩
  obtain ⟨st, c, h2, h3⟩ := slow_phase1 (nextAfter := nextAfter) (choice := choice) st0 h1 _ le_rfl
  cases h with
  | zero => exact ⟨_, st, c, h2, by simp⟩
  | succ m =>
    have e : 2 * (m + 1) = (2 * m + 1) + 1 := by omega
    have h4 : Slow.Phase2 (2 * (m + 1)) (m + 1) (2 * m + 1) st := by
      rw [e] at h3 ⊢
      exact Slow.turn h3
    obtain ⟨st', c', h5, h6⟩ := slow_phase2 st0 h2 h4 (by omega)
    refine ⟨_, st', c', h5, ?_⟩
    have : 2 * (m + 1) ^ 2 = (2 * m + 1 + 1) * (m + 1) := by ring
    omega

/-- **C89**: the number of comparisons is not `O((n + k) log n)`, where `k` is the number of intersections: not even for inputs without
intersections is there a constant `A` with at most `A n log n` comparisons. -/
theorem C89_refutation : ¬ ∃ A : Nat, ∀ input : List (Line K), NoneMeet input → ∀ nextAfter choice st0 k st c,
    Sweep.new id input = some st0 → AfterC id nextAfter choice st0 k st c → c ≤ A * (input.length * Nat.log 2 input.length) := by
  rintro ⟨A, hA⟩
  let t := 4 * A
  let h := 2 ^ (2 * t)
  obtain ⟨input, h1, h2, st0, h3, h4⟩ := C89_quadratic (K := K) h
  obtain ⟨k, st, c, h5, h6⟩ := h4 (fun x => x) (fun _ => 0)
  have h7 := hA input h2 _ _ _ _ _ _ h3 h5
  have hlog : Nat.log 2 input.length = 2 * t + 2 := by
    rw [h1, show 4 * h = 2 ^ (2 * t + 2) by simp only [h]; ring]
    exact Nat.log_pow (by norm_num) _
  rw [hlog, h1] at h7
  have hp : 0 < h := by positivity
  have hsq : (t + 1) ^ 2 ≤ h := by
    have : t + 1 ≤ 2 ^ t := Nat.lt_two_pow_self
    calc (t + 1) ^ 2 ≤ (2 ^ t) ^ 2 := Nat.pow_le_pow_left this 2
      _ = h := by simp only [h]; rw [← pow_mul, mul_comm]
  have h8 : h * (2 * h) ≤ h * (2 * t * (t + 1)) := by
    calc h * (2 * h) = 2 * h ^ 2 := by ring
      _ ≤ c := h6
      _ ≤ A * (4 * h * (2 * t + 2)) := h7
      _ = h * (2 * t * (t + 1)) := by simp only [t]; ring
  have h9 := Nat.le_of_mul_le_mul_left h8 hp
  nlinarith

/-- Four hundred disjoint segments and more than twenty thousand comparisons; the bound of `C89_upper` applies to the same run. -/
example : ∃ (input : List (Line ℚ)) (st0 st : Sweep ℚ (Line ℚ)) (k c : Nat), input.length = 400 ∧ NoneMeet input ∧
    Sweep.new id input = some st0 ∧ AfterC id id (fun _ => 0) st0 k st c ∧ 20000 ≤ c ∧ c ≤ 10 * st.clock * 404 := by
  obtain ⟨input, h1, h2, st0, h3, h4⟩ := C89_quadratic (K := ℚ) 100
  obtain ⟨k, st, c, h5, h6⟩ := h4 id fun _ => 0
  have h7 := C89_upper h3 h5
  rw [h1] at h7
  exact ⟨input, st0, st, k, c, h1, h2, h3, h5, h6, h7⟩

end GeoCrossings

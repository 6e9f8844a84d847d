import Verif.Lemmas.SplayM
import Verif.Spec.SplayCost

/-!
# What a history of calls of the splay tree costs

The cost is the number of calls of the comparator. No assumption on the comparator is made.
-/

set_option linter.ambiguousOpen false
namespace GeoCrossings.Splay
open Tree Spec

variable {K V : Type}

/-- Counting the calls does not change the results. -/
theorem C74_same_results (cmp : K → K → Ordering) (ops : List (Op K V)) :
    ((runM (counting cmp) SplayTree.new ops).run 0).1 = run cmp SplayTree.new ops := by rw [runM_counting]

theorem comparisons_eq (cmp : K → K → Ordering) (ops : List (Op K V)) : comparisons cmp ops = runCost cmp SplayTree.new ops := by
  unfold comparisons; rw [runM_counting]; exact Nat.zero_add _

/-- **C74, one call.** With twice the sum of the logarithms of the sizes of the subtrees as the savings, a call that finds, adds or
removes an entry costs at most `14 * log (n + 2) + 1`; a search for a neighbour costs up to `n` more. -/
theorem step_pot (cmp : K → K → Ordering) (s : SplayTree K V) (hs : size1 s.root ≤ s.size + 1) (N : Nat) (op : Op K V)
    (hN : size1 s.root + inserts1 op ≤ N + 1) :
    (stepCost cmp s op : ℝ) + 2 * pot (step cmp s op).1.root ≤ 2 * pot s.root + (calls1 op * (14 * lg (N + 2) + 1) + walks1 op * N) ∧
      size1 (step cmp s op).1.root ≤ (step cmp s op).1.size + 1 ∧
      size1 (step cmp s op).1.root ≤ size1 s.root + inserts1 op := by
  have hp := size1_pos s.root
  have hB : ∀ s' : SplayTree K V, size1 s'.root ≤ N + 1 → bound s' ≤ 14 * lg (N + 2) + 1 := fun s' h => by
    have := lg_mono (a := size1 s'.root + 1) (b := N + 2) (by omega) (by omega)
    unfold bound; linarith
  have h0 : 0 ≤ 14 * lg (N + 2) + 1 := by
    have := lg_nonneg (a := N + 2) (by omega)
    linarith
  have hb := hB s (by omega)
  cases op with
  | insert k v =>
    have h := insert_pot cmp s k v
    simp only [step, stepCost, calls1, walks1, inserts1]
    refine ⟨?_, (insert_size cmp s k v hs).1, (insert_size cmp s k v hs).2⟩
    push_cast; linarith
  | remove k =>
    obtain ⟨s', o, h, h1, h2⟩ := remove_size cmp s k hs
    have := remove_pot cmp s k h
    simp only [step, stepCost, calls1, walks1, inserts1, h]
    refine ⟨?_, h1, h2⟩
    push_cast; linarith
  | get k =>
    have := access_pot cmp s k
    simp only [step, stepCost, calls1, walks1, inserts1, get_root, splay_size]
    refine ⟨?_, hs, le_rfl⟩
    push_cast; linarith
  | write k v =>
    have := access_pot cmp s k
    obtain ⟨h1, h2, h3⟩ := getMut_root cmp s k (fun _ => v)
    simp only [step, stepCost, calls1, walks1, inserts1, h1, h2, h3, splay_size]
    refine ⟨?_, hs, le_rfl⟩
    push_cast; linarith
  | contains k =>
    have := access_pot cmp s k
    simp only [step, stepCost, calls1, walks1, inserts1, SplayTree.contains, findKey_root, splay_size]
    refine ⟨?_, hs, le_rfl⟩
    push_cast; linarith
  | findKey k =>
    have := access_pot cmp s k
    simp only [step, stepCost, calls1, walks1, inserts1, findKey_root, splay_size]
    refine ⟨?_, hs, le_rfl⟩
    push_cast; linarith
  | next k =>
    have := access_pot cmp s k
    have h1 : splayCost cmp k s.root ≤ accessCost cmp s k := by unfold accessCost; split <;> omega
    have h2 := nextLoopT_le cmp k (splay cmp k s.root) none 0
    rw [splay_size] at h2
    simp only [inserts1] at hN
    have h3 : nextCost cmp s k ≤ accessCost cmp s k + N := by unfold nextCost; omega
    have h3' : (nextCost cmp s k : ℝ) ≤ accessCost cmp s k + N := by exact_mod_cast h3
    simp only [step, stepCost, calls1, walks1, inserts1, SplayTree.next, splay_size]
    refine ⟨?_, hs, le_rfl⟩
    push_cast; linarith
  | prev k =>
    have := access_pot cmp s k
    have h1 : splayCost cmp k s.root ≤ accessCost cmp s k := by unfold accessCost; split <;> omega
    have h2 := prevLoopT_le cmp k (splay cmp k s.root) none 0
    rw [splay_size] at h2
    simp only [inserts1] at hN
    have h3 : prevCost cmp s k ≤ accessCost cmp s k + N := by unfold prevCost; omega
    have h3' : (prevCost cmp s k : ℝ) ≤ accessCost cmp s k + N := by exact_mod_cast h3
    simp only [step, stepCost, calls1, walks1, inserts1, SplayTree.prev, splay_size]
    refine ⟨?_, hs, le_rfl⟩
    push_cast; linarith
  | min | max | len | isEmpty =>
    simp only [step, stepCost, calls1, walks1, inserts1]
    refine ⟨?_, hs, le_rfl⟩
    push_cast; linarith
  | clear =>
    have := pot_nonneg s.root
    simp only [step, stepCost, calls1, walks1, inserts1, SplayTree.clear, pot, size1]
    refine ⟨?_, le_rfl, by omega⟩
    push_cast; linarith
  | extend l =>
    simp only [step, stepCost, calls1, walks1, inserts1] at hN ⊢
    clear hb hp
    induction l generalizing s with
    | nil => simp only [extendCost, SplayTree.extend, List.foldl, List.length]; exact ⟨by push_cast; linarith, hs, by omega⟩
    | cons e l ih =>
      obtain ⟨k, v⟩ := e
      simp only [List.length_cons] at hN
      have h := insert_pot cmp s k v
      obtain ⟨i1, i2⟩ := insert_size cmp s k v hs
      have hb := hB s (by omega)
      obtain ⟨j1, j2, j3⟩ := ih (s.insert cmp k v).1 i1 (by omega)
      simp only [SplayTree.extend] at j1 j2 j3
      simp only [extendCost, SplayTree.extend, List.foldl, List.length_cons]
      refine ⟨?_, j2, by omega⟩
      push_cast at j1 ⊢; linarith

theorem run_pot (cmp : K → K → Ordering) (ops : List (Op K V)) (N : Nat) (s : SplayTree K V) (hs : size1 s.root ≤ s.size + 1)
    (hN : size1 s.root + inserts ops ≤ N + 1) :
    (runCost cmp s ops : ℝ) ≤ 2 * pot s.root + (calls ops * (14 * lg (N + 2) + 1) + walks ops * N) := by
  induction ops generalizing s with
  | nil =>
    have := pot_nonneg s.root
    simp only [runCost, calls, walks, List.map_nil, List.sum_nil]; push_cast; linarith
  | cons op ops ih =>
    have e : inserts (op :: ops) = inserts1 op + inserts ops := by simp [inserts]
    have e1 : calls (op :: ops) = calls1 op + calls ops := by simp [calls]
    have e2 : walks (op :: ops) = walks1 op + walks ops := by simp [walks]
    obtain ⟨h1, h2, h3⟩ := step_pot cmp s hs N op (by omega)
    have := ih (step cmp s op).1 h2 (by omega)
    rw [e1, e2, runCost]
    push_cast at h1 this ⊢
    linarith

/-- **C74.** Any history of calls on a new tree makes at most `14 * log₂ (n + 2) + 1` comparisons per call on average, where `n` is
the number of entries inserted in it, apart from the searches for a neighbour, which make up to `n` more each. -/
theorem C74_amortised (cmp : K → K → Ordering) (ops : List (Op K V)) :
    (comparisons cmp ops : ℝ) ≤
      calls ops * (14 * Real.logb 2 (inserts ops + 2) + 1) + walks ops * inserts ops := by
  rw [comparisons_eq]
  have h := run_pot cmp ops (inserts ops) SplayTree.new le_rfl (by simp only [SplayTree.new, size1]; omega)
  have e : lg (inserts ops + 2) = Real.logb 2 (inserts ops + 2) := by unfold lg; push_cast; rfl
  rw [e] at h
  simpa [SplayTree.new, pot] using h

/-! ## The searches for a neighbour -/

/-- Insert `a + n`, …, `a`. -/
def descending (a : Nat) : Nat → List (Op Nat Unit)
  | 0 => [.insert a ()]
  | n + 1 => .insert (a + n + 1) () :: descending a n

/-- Keys `a`, …, `a + n - 1`, each in the right child of the one before. -/
def spine : Nat → Nat → Tree Nat Unit
  | _, 0 => nil
  | a, n + 1 => node nil a () (spine (a + 1) n)

/-- The spine after the splaying of its last key. -/
def comb : Nat → Nat → Tree Nat Unit
  | _, 0 => nil
  | a, m + 1 => node (node nil a () nil) (a + 1) () (comb (a + 2) m)

theorem insert_spine (a n : Nat) (z : Nat) :
    (SplayTree.insert compare ⟨spine (a + 1) n, z⟩ a ()).1 = ⟨spine a (n + 1), z + 1⟩ := by
  cases n with
  | zero => rfl
  | succ n =>
    have h : compare a (a + 1) = .lt := by rw [compare_lt_iff_lt]; omega
    simp only [SplayTree.insert, splay, spine]
    rw [splayLoop.eq_def]
    simp [h, splayFinish, plugL, plugR]

theorem run_append_fst (cmp : K → K → Ordering) (s : SplayTree K V) (xs ys : List (Op K V)) :
    (run cmp s (xs ++ ys)).1 = (run cmp (run cmp s xs).1 ys).1 := by
  induction xs generalizing s with
  | nil => rfl
  | cons x xs ih => simp only [List.cons_append, run, ih]

theorem runCost_append (cmp : K → K → Ordering) (s : SplayTree K V) (xs ys : List (Op K V)) :
    runCost cmp s (xs ++ ys) = runCost cmp s xs + runCost cmp (run cmp s xs).1 ys := by
  induction xs generalizing s with
  | nil => simp [runCost, run]
  | cons x xs ih => simp only [List.cons_append, run, runCost, ih]; omega

theorem run_descending (a n c z : Nat) :
    (run compare ⟨spine (a + n + 1) c, z⟩ (descending a n)).1 = ⟨spine a (c + n + 1), z + n + 1⟩ := by
  induction n generalizing c z with
  | zero => simp only [descending, run, step]; exact insert_spine a c z
  | succ n ih =>
    have h := insert_spine (a + n + 1) c z
    have h' := ih (c + 1) (z + 1)
    simp only [descending, run, step]
    rw [show a + (n + 1) + 1 = a + n + 1 + 1 by omega, h, h']
    congr 1
    · congr 1; omega
    · omega

theorem splay_spine (a m : Nat) (L : List (Tree Nat Unit × Nat × Unit)) :
    splayLoop compare (a + 2 * m) (spine a (2 * m + 1)) L [] = node (plugL L (comb a m)) (a + 2 * m) () nil := by
  induction m generalizing a L with
  | zero => simp [spine, splayLoop, splayFinish, comb, plugR]
  | succ m ih =>
    have h1 : compare (a + 2 * (m + 1)) a = .gt := by rw [compare_gt_iff_gt]; omega
    have h2 : compare (a + 2 * (m + 1)) (a + 1) = .gt := by rw [compare_gt_iff_gt]; omega
    have := ih (a + 2) ((node nil a () nil, a + 1, ()) :: L)
    rw [show a + 2 + 2 * m = a + 2 * (m + 1) by omega] at this
    simp only [spine] at this
    rw [show 2 * (m + 1) + 1 = (2 * m + 1) + 1 + 1 by omega]
    simp only [spine, show a + 1 + 1 = a + 2 from rfl, splayLoop.eq_def compare (a + 2 * (m + 1)) (node nil a () _), h1, h2, if_true]
    rw [this]
    simp only [plugL, comb]

theorem prev_comb (a m x : Nat) (hx : a + 2 * m ≤ x) (o : Option (Nat × Unit)) (n : Nat) : (prevLoopT compare x (comb a m) o n).2 = n + m := by
  induction m generalizing a o n with
  | zero => rfl
  | succ m ih =>
    have h : compare x (a + 1) = .gt := by rw [compare_gt_iff_gt]; omega
    simp only [comb, prevLoopT, h]
    rw [ih (a + 2) (by omega)]; omega

/-- The tree in which `prev` of the greatest key is slow. -/
def slow (m z : Nat) : SplayTree Nat Unit := ⟨node (comb 0 m) (2 * m) () nil, z⟩

theorem slow_step (m z : Nat) : (step compare (slow m z) (.prev (2 * m))).1 = slow m z ∧
    stepCost compare (slow m z) (.prev (2 * m)) = m + 2 := by
  have h : compare (2 * m) (2 * m) = .eq := by rw [compare_eq_iff_eq]
  have h1 : splay compare (2 * m) (slow m z).root = (slow m z).root := by
    unfold splay slow
    rw [splayLoop.eq_def]
    simp [splayFinish, plugL, plugR]
  have h2 : splayCost compare (2 * m) (slow m z).root = 1 := by
    unfold splayCost slow
    rw [splayLoopT.eq_def]
    simp
  refine ⟨?_, ?_⟩
  · simp only [step, SplayTree.prev, h1]
  · simp only [stepCost, prevCost, h1, h2]
    simp only [slow, prevLoopT, h, prev_comb 0 m (2 * m) (by omega)]
    omega

theorem slow_run (m z q : Nat) : runCost compare (slow m z) (List.replicate q (.prev (2 * m))) = q * (m + 2) := by
  induction q with
  | zero => simp [runCost]
  | succ q ih =>
    rw [List.replicate_succ, runCost, (slow_step m z).1, (slow_step m z).2, ih]
    ring

/-- **C74, the searches are not amortised.** After `2 m + 1` insertions, `prev` of the greatest key takes `m + 2` comparisons, however
often it is repeated: it leaves the tree as it is. -/
theorem C74_prev_linear (m q : Nat) :
    let ops := descending 0 (2 * m) ++ List.replicate (q + 1) (.prev (2 * m))
    inserts ops = 2 * m + 1 ∧ walks ops = q + 1 ∧ q * (m + 2) ≤ comparisons compare ops := by
  have hi : ∀ a n, inserts (descending a n) = n + 1 := by
    intro a n
    induction n with
    | zero => rfl
    | succ n ih => simp only [descending, inserts, List.map_cons, List.sum_cons, inserts1] at ih ⊢; omega
  have hw : ∀ a n, walks (descending a n) = 0 := by
    intro a n
    induction n with
    | zero => rfl
    | succ n ih => simp only [descending, walks, List.map_cons, List.sum_cons, walks1] at ih ⊢; omega
  refine ⟨?_, ?_, ?_⟩
  · have := hi 0 (2 * m)
    simp only [inserts, List.map_append, List.sum_append, List.map_replicate, inserts1, List.sum_replicate] at this ⊢
    simpa using this
  · have := hw 0 (2 * m)
    simp only [walks, List.map_append, List.sum_append, List.map_replicate, walks1, List.sum_replicate] at this ⊢
    simpa using this
  · rw [comparisons_eq]
    have h := run_descending 0 (2 * m) 0 0
    have h1 : (run compare SplayTree.new (descending 0 (2 * m))).1 = (⟨spine 0 (2 * m + 1), 2 * m + 1⟩ : SplayTree Nat Unit) := by
      simpa [SplayTree.new, spine] using h
    rw [runCost_append, h1, List.replicate_succ, runCost]
    have h2 : (step compare (⟨spine 0 (2 * m + 1), 2 * m + 1⟩ : SplayTree Nat Unit) (.prev (2 * m))).1 = slow m (2 * m + 1) := by
      have := splay_spine 0 m []
      simp only [Nat.zero_add] at this
      simp only [step, SplayTree.prev, splay, this, slow, plugL]
    rw [h2, slow_run]
    omega

/-- **C74, the last term is needed.** No multiple of the logarithm bounds the average cost of all histories. -/
theorem C74_no_log_bound : ¬ ∃ c : ℝ, ∀ ops : List (Op Nat Unit),
    (comparisons compare ops : ℝ) ≤ c * calls ops * Real.logb 2 (inserts ops + 2) := by
  rintro ⟨c, hc⟩
  have hcalls : ∀ a n, calls (descending a n) = n + 1 := by
    intro a n
    induction n with
    | zero => rfl
    | succ n ih => simp only [descending, calls, List.map_cons, List.sum_cons, calls1] at ih ⊢; omega
  have key : ∀ i : Nat, (i : ℝ) + 1 ≤ 9 * max c 0 := by
    intro i
    obtain ⟨m, hm⟩ : ∃ m, m = 2 ^ (2 * i) := ⟨_, rfl⟩
    have hm1 : 1 ≤ m := hm ▸ Nat.one_le_two_pow
    obtain ⟨h1, -, h2⟩ := C74_prev_linear m (2 * m + 1)
    have h3 := hc (descending 0 (2 * m) ++ List.replicate (2 * m + 1 + 1) (.prev (2 * m)))
    have h4 : calls (descending 0 (2 * m) ++ List.replicate (2 * m + 1 + 1) (.prev (2 * m))) = 4 * m + 3 := by
      have := hcalls 0 (2 * m)
      simp only [calls, List.map_append, List.sum_append, List.map_replicate, calls1, List.sum_replicate, smul_eq_mul] at this ⊢
      omega
    rw [h1, h4] at h3
    have h2' : ((2 * m + 1 : ℝ)) * (m + 2) ≤ comparisons compare
        (descending 0 (2 * m) ++ List.replicate (2 * m + 1 + 1) (.prev (2 * m))) := by exact_mod_cast h2
    have hmr : (1 : ℝ) ≤ m := by exact_mod_cast hm1
    have h5 : Real.logb 2 (((2 * m + 1 : ℕ) : ℝ) + 2) ≤ 2 * i + 3 := by
      have : Real.logb 2 ((2 : ℝ) ^ (2 * i + 3)) = 2 * i + 3 := by
        rw [Real.logb_pow, Real.logb_self_eq_one (by norm_num)]; push_cast; ring
      rw [← this]
      apply Real.logb_le_logb_of_le (by norm_num) (by positivity)
      have e : (2 : ℝ) ^ (2 * i + 3) = 8 * m := by rw [hm, pow_add]; push_cast; ring
      rw [e]; push_cast; linarith
    have h6 : 0 ≤ Real.logb 2 (((2 * m + 1 : ℕ) : ℝ) + 2) := Real.logb_nonneg (by norm_num) (by push_cast; linarith)
    have h0 : 0 ≤ max c 0 := le_max_right _ _
    have h7 : c * ((4 * m + 3 : ℕ) : ℝ) * Real.logb 2 (((2 * m + 1 : ℕ) : ℝ) + 2) ≤ max c 0 * (3 * (2 * m + 1)) * (2 * i + 3) := by
      have a1 : c * ((4 * m + 3 : ℕ) : ℝ) ≤ max c 0 * (3 * (2 * m + 1)) := by
        have : c * ((4 * m + 3 : ℕ) : ℝ) ≤ max c 0 * ((4 * m + 3 : ℕ) : ℝ) := mul_le_mul_of_nonneg_right (le_max_left _ _) (by positivity)
        refine this.trans (mul_le_mul_of_nonneg_left ?_ h0)
        push_cast; linarith
      calc _ ≤ max c 0 * (3 * (2 * m + 1)) * Real.logb 2 (((2 * m + 1 : ℕ) : ℝ) + 2) := mul_le_mul_of_nonneg_right a1 h6
        _ ≤ _ := mul_le_mul_of_nonneg_left h5 (by positivity)
    have h8 : (2 * m + 1 : ℝ) * (m + 2) ≤ (2 * m + 1) * (3 * max c 0 * (2 * i + 3)) := by
      calc _ ≤ _ := h2'.trans (h3.trans h7)
        _ = _ := by ring
    have h9 : (m : ℝ) + 2 ≤ 3 * max c 0 * (2 * i + 3) := le_of_mul_le_mul_left h8 (by linarith)
    have h10 : ((i : ℝ) + 1) * (i + 1) ≤ m := by
      have : i + 1 ≤ 2 ^ i := Nat.lt_two_pow_self
      have : (i + 1) * (i + 1) ≤ m := by
        rw [hm, two_mul, pow_add]; exact Nat.mul_le_mul this this
      exact_mod_cast this
    have h11 : ((i : ℝ) + 1) * (i + 1) ≤ (9 * max c 0) * (i + 1) := by
      have : 3 * max c 0 * (2 * (i : ℝ) + 3) ≤ 9 * max c 0 * (i + 1) := by nlinarith [Nat.cast_nonneg (α := ℝ) i]
      linarith
    exact le_of_mul_le_mul_right h11 (by positivity)
  obtain ⟨n, hn⟩ := exists_nat_gt (9 * max c 0)
  have := key n
  linarith

/-- Seven insertions in descending order take twelve comparisons; looking for the greatest key takes eight the first time and two the
second time, and `prev` of it takes five every time. -/
example : comparisons compare (descending 0 6) = 12 ∧
    comparisons compare (descending 0 6 ++ [.get 6]) = 20 ∧
    comparisons compare (descending 0 6 ++ [.get 6, .get 6]) = 22 ∧
    comparisons compare (descending 0 6 ++ [.get 6, .prev 6]) = 25 ∧
    comparisons compare (descending 0 6 ++ [.get 6, .prev 6, .prev 6]) = 30 := by decide +kernel

/-- The bound holds for every comparator, even for one without any law. -/
example (ops : List (Op Nat Unit)) (h : walks ops = 0) :
    (comparisons (fun _ _ => Ordering.lt) ops : ℝ) ≤ calls ops * (14 * Real.logb 2 (inserts ops + 2) + 1) := by
  simpa [h] using C74_amortised (fun _ _ => Ordering.lt) ops

end GeoCrossings.Splay

import Verif.Model.SplayEnds
import Verif.Props.SplayDrop

/-!
# The steps of `min` and `max` of a splay tree (C107)

`min` and `max` walk down one side of the tree without splaying and without comparing, so the comparisons that C74 counts do not show their work.
-/
namespace GeoCrossings.Splay
open Tree Spec

variable {K V : Type _} {cmp : K → K → Ordering}

theorem minNodeC_run : ∀ t : Tree K V, (minNodeC t).1 = minNode t ∧ (minNodeC t).2 ≤ t.toList.length
  | nil => ⟨rfl, le_rfl⟩
  | node nil k v r => ⟨rfl, by simp [minNodeC, toList]⟩
  | node (node ll lk lv lr) k v r => by
    obtain ⟨h1, h2⟩ := minNodeC_run (node ll lk lv lr)
    refine ⟨by rw [minNodeC, minNode]; exact h1, ?_⟩
    rw [minNodeC, toList, List.length_append, List.length_cons]
    simp only
    omega

theorem maxNodeC_run : ∀ t : Tree K V, (maxNodeC t).1 = maxNode t ∧ (maxNodeC t).2 ≤ t.toList.length
  | nil => ⟨rfl, le_rfl⟩
  | node l k v nil => ⟨rfl, by simp [maxNodeC, toList]⟩
  | node l k v (node rl rk rv rr) => by
    obtain ⟨h1, h2⟩ := maxNodeC_run (node rl rk rv rr)
    refine ⟨by rw [maxNodeC, maxNode]; exact h1, ?_⟩
    rw [maxNodeC, toList, List.length_append, List.length_cons]
    simp only
    omega

/-- **C107 (bound).** Counting does not change the results, and after any history a call of `min` or `max` visits at most all the nodes. -/
theorem C107_bound (hc : LawfulCmp cmp) (ops : List (Op K V)) :
    let s := (run cmp SplayTree.new ops).1
    ((minNodeC s.root).1.map Prod.fst = s.min ∧ (minNodeC s.root).2 ≤ s.len) ∧ (maxNodeC s.root).1.map Prod.fst = s.max ∧ (maxNodeC s.root).2 ≤ s.len := by
  intro s
  have h := (Rep.new.run hc ops).1
  have e : s.root.toList.length = s.len := by
    rw [SplayTree.len, h.size]
    exact congrArg List.length h.toList
  obtain ⟨h1, h2⟩ := minNodeC_run s.root
  obtain ⟨h3, h4⟩ := maxNodeC_run s.root
  exact ⟨⟨by rw [h1]; rfl, e ▸ h2⟩, by rw [h3]; rfl, e ▸ h4⟩

theorem minNodeC_leftPath (l : List (K × V)) : (minNodeC (leftPath l)).2 = l.length := by
  induction l using List.reverseRecOn with
  | nil => rfl
  | append_singleton l e ih =>
    rw [leftPath_snoc, List.length_append, List.length_singleton]
    rcases List.eq_nil_or_concat l with rfl | ⟨m, b, rfl⟩
    · rfl
    · rw [List.concat_eq_append, leftPath_snoc] at ih ⊢
      rw [minNodeC]
      exact congrArg (· + 1) ih

theorem maxNodeC_leftPath (l : List (K × V)) : (maxNodeC (leftPath l)).2 ≤ 1 := by
  induction l using List.reverseRecOn with
  | nil => exact Nat.zero_le _
  | append_singleton l e ih => rw [leftPath_snoc, maxNodeC]

theorem endSteps_append (s : SplayTree K V) (ops ops' : List (Op K V)) :
    endSteps cmp s (ops ++ ops') = endSteps cmp s ops + endSteps cmp (run cmp s ops).1 ops' := by
  induction ops generalizing s with
  | nil => simp [endSteps, run]
  | cons op ops ih =>
    rw [List.cons_append, endSteps, endSteps, ih, Nat.add_assoc]
    rfl

theorem endSteps_mins (s : SplayTree K V) (q : Nat) :
    endSteps cmp s (List.replicate q .min) = q * (minNodeC s.root).2 := by
  induction q with
  | zero => simp [endSteps]
  | succ q ih =>
    rw [List.replicate_succ, endSteps, Nat.succ_mul, Nat.add_comm (q * _)]
    exact congrArg (_ + ·) ih

theorem endSteps_inserts (s : SplayTree K V) (l : List (K × V)) : endSteps cmp s (inserts l) = 0 := by
  induction l generalizing s with
  | nil => rfl
  | cons e l ih =>
    rw [inserts, List.map_cons, endSteps]
    exact (Nat.zero_add _).trans (ih _)

/-- **C107 (not amortised).** After the entries have been inserted in increasing order, every call of `min` visits all the nodes, however often it
is called: `q` calls take `q * n` steps. -/
theorem C107_min_linear (hc : LawfulCmp cmp) {l : List (K × V)} (h : SortedBy cmp l) (q : Nat) :
    endSteps cmp SplayTree.new (inserts l ++ List.replicate q .min) = q * l.length := by
  rw [endSteps_append, endSteps_inserts, Nat.zero_add, run_inserts hc h, endSteps_mins, minNodeC_leftPath]

theorem endSteps_maxs (s : SplayTree K V) (q : Nat) :
    endSteps cmp s (List.replicate q .max) = q * (maxNodeC s.root).2 := by
  induction q with
  | zero => simp [endSteps]
  | succ q ih =>
    rw [List.replicate_succ, endSteps, Nat.succ_mul, Nat.add_comm (q * _)]
    exact congrArg (_ + ·) ih

/-- **C107 (the other end).** In the same tree every call of `max` visits the root only. -/
theorem C107_max_constant (hc : LawfulCmp cmp) {l : List (K × V)} (h : SortedBy cmp l) (hl : l ≠ []) (q : Nat) :
    endSteps cmp SplayTree.new (inserts l ++ List.replicate q .max) = q := by
  have e : (maxNodeC (leftPath l)).2 = 1 := by
    rcases List.eq_nil_or_concat l with rfl | ⟨m, b, rfl⟩
    · exact absurd rfl hl
    · rw [List.concat_eq_append, leftPath_snoc, maxNodeC]
  rw [endSteps_append, endSteps_inserts, Nat.zero_add, run_inserts hc h, endSteps_maxs, e, Nat.mul_one]

/-- **C107 (no bound).** The steps per call are not bounded on average: for every `c` and `n` there is a history of at least `n` calls whose steps
exceed `c` times the number of calls. -/
theorem C107_no_constant (c n : Nat) : ∃ ops : List (Op Nat Unit), n ≤ ops.length ∧ c * ops.length < endSteps compare SplayTree.new ops := by
  have hc : LawfulCmp (compare : Nat → Nat → Ordering) :=
    ⟨fun a b => by rw [Nat.compare_swap], fun a b c => by simp only [ne_eq, Nat.compare_eq_gt]; omega⟩
  set l := (List.range (2 * c + n + 1)).map fun i => (i, ()) with hl
  have len : l.length = 2 * c + n + 1 := by simp [hl]
  have h : SortedBy compare l := by
    rw [SortedBy, List.pairwise_map]
    exact List.pairwise_lt_range.imp fun h => Nat.compare_eq_lt.2 h
  refine ⟨inserts l ++ List.replicate l.length .min, ?_, ?_⟩
  · rw [List.length_append, inserts, List.length_map, len]
    omega
  · rw [C107_min_linear hc h, List.length_append, inserts, List.length_map, List.length_replicate, len]
    have : 2 * c < 2 * c + n + 1 := by omega
    calc c * (2 * c + n + 1 + (2 * c + n + 1)) = 2 * c * (2 * c + n + 1) := by ring
      _ < (2 * c + n + 1) * (2 * c + n + 1) := Nat.mul_lt_mul_of_pos_right this (by omega)

/-- Five entries in increasing order, and three calls. -/
example : endSteps compare SplayTree.new (inserts [(1, ()), (2, ()), (3, ()), (4, ()), (5, ())] ++ List.replicate 3 .min) = 15 ∧
    endSteps compare SplayTree.new (inserts [(1, ()), (2, ()), (3, ()), (4, ()), (5, ())] ++ List.replicate 3 .max) = 3 := by
  decide +kernel

end GeoCrossings.Splay

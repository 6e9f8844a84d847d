import Verif.Model.SplayM
import Verif.Lemmas.SplayCost

/-! # The counts are those of a comparator that counts its calls -/

set_option linter.ambiguousOpen false
set_option linter.unnecessarySeqFocus false
namespace GeoCrossings.Splay
open Tree

variable {K V : Type}

theorem splayLoopM_counting (cmp : K → K → Ordering) (key : K) (t : Tree K V) (L R) (n : Nat) :
    (splayLoopM (counting cmp) key t L R).run n = splayLoopT cmp key t L R n := by
  fun_induction splayLoopT cmp key t L R n <;> rw [splayLoopM.eq_def] <;> simp_all [counting] <;> rfl

theorem splayLoopT_add (cmp : K → K → Ordering) (key : K) (t : Tree K V) (L R) (n : Nat) :
    (splayLoopT cmp key t L R n).2 = n + (splayLoopT cmp key t [] [] 0).2 := by
  by_cases ht : t = nil
  · subst ht; rfl
  · obtain ⟨l, k, v, r, c, h, -, -⟩ := splays cmp key (size1 t) t le_rfl ht
    rw [h L R n, h [] [] 0]
    simp

theorem splayM_counting (cmp : K → K → Ordering) (key : K) (t : Tree K V) (n : Nat) :
    (splayM (counting cmp) key t).run n = (splay cmp key t, n + splayCost cmp key t) := by
  unfold splayM
  rw [splayLoopM_counting]
  exact Prod.ext (splayLoopT_fst _ _ _ _ _ _) (splayLoopT_add _ _ _ _ _ _)

theorem run_bind' {α β : Type} (x : StateM Nat α) (f : α → StateM Nat β) (n : Nat) :
    (x >>= f).run n = (f (x.run n).1).run (x.run n).2 := rfl

theorem run_pure' {α : Type} (x : α) (n : Nat) : (pure x : StateM Nat α).run n = (x, n) := rfl

theorem counting_run (cmp : K → K → Ordering) (a b : K) (n : Nat) : (counting cmp a b).run n = (cmp a b, n + 1) := rfl

theorem getM_counting (cmp : K → K → Ordering) (s : SplayTree K V) (key : K) (n : Nat) :
    (s.getM (counting cmp) key).run n = (s.get cmp key, n + accessCost cmp s key) := by
  unfold SplayTree.getM SplayTree.get accessCost
  simp only [run_bind', splayM_counting]
  cases splay cmp key s.root <;> simp <;> rfl

theorem getMutM_counting (cmp : K → K → Ordering) (s : SplayTree K V) (key : K) (f : V → V) (n : Nat) :
    (s.getMutM (counting cmp) key f).run n = (s.getMut cmp key f, n + accessCost cmp s key) := by
  unfold SplayTree.getMutM SplayTree.getMut accessCost
  simp only [run_bind', splayM_counting]
  cases h : splay cmp key s.root with
  | nil => rfl
  | node l k v r =>
    simp only [run_bind', counting_run]
    by_cases hk : cmp key k = .eq <;> simp [hk] <;> rfl

theorem findKeyM_counting (cmp : K → K → Ordering) (s : SplayTree K V) (key : K) (n : Nat) :
    (s.findKeyM (counting cmp) key).run n = (s.findKey cmp key, n + accessCost cmp s key) := by
  unfold SplayTree.findKeyM SplayTree.findKey accessCost
  simp only [run_bind', splayM_counting]
  cases splay cmp key s.root <;> simp <;> rfl

theorem containsM_counting (cmp : K → K → Ordering) (s : SplayTree K V) (key : K) (n : Nat) :
    (s.containsM (counting cmp) key).run n = (s.contains cmp key, n + accessCost cmp s key) := by
  unfold SplayTree.containsM SplayTree.contains
  simp only [run_bind', findKeyM_counting]
  rfl

theorem nextLoopM_counting (cmp : K → K → Ordering) (key : K) (t : Tree K V) (o : Option (K × V)) (n : Nat) :
    (nextLoopM (counting cmp) key t o).run n = nextLoopT cmp key t o n := by
  fun_induction nextLoopT cmp key t o n <;> rw [nextLoopM.eq_def] <;> simp_all [counting] <;> rfl

theorem prevLoopM_counting (cmp : K → K → Ordering) (key : K) (t : Tree K V) (o : Option (K × V)) (n : Nat) :
    (prevLoopM (counting cmp) key t o).run n = prevLoopT cmp key t o n := by
  fun_induction prevLoopT cmp key t o n <;> rw [prevLoopM.eq_def] <;> simp_all [counting] <;> rfl

theorem nextLoopT_add (cmp : K → K → Ordering) (key : K) (t : Tree K V) (o : Option (K × V)) (n : Nat) :
    (nextLoopT cmp key t o n).2 = n + (nextLoopT cmp key t o 0).2 := by
  induction t generalizing o n with
  | nil => rfl
  | node l k v r ihl ihr =>
    simp only [nextLoopT]
    cases cmp key k <;> dsimp only <;> first
      | (rw [ihl _ (n + 1), ihl _ (0 + 1)]; omega)
      | (rw [ihr _ (n + 1), ihr _ (0 + 1)]; omega)

theorem prevLoopT_add (cmp : K → K → Ordering) (key : K) (t : Tree K V) (o : Option (K × V)) (n : Nat) :
    (prevLoopT cmp key t o n).2 = n + (prevLoopT cmp key t o 0).2 := by
  induction t generalizing o n with
  | nil => rfl
  | node l k v r ihl ihr =>
    simp only [prevLoopT]
    cases cmp key k <;> dsimp only <;> first
      | (rw [ihl _ (n + 1), ihl _ (0 + 1)]; omega)
      | (rw [ihr _ (n + 1), ihr _ (0 + 1)]; omega)

theorem nextM_counting (cmp : K → K → Ordering) (s : SplayTree K V) (key : K) (n : Nat) :
    (s.nextM (counting cmp) key).run n = (s.next cmp key, n + nextCost cmp s key) := by
  unfold SplayTree.nextM SplayTree.next nextCost
  simp only [run_bind', splayM_counting]
  simp only [nextLoopM_counting]
  refine Prod.ext (Prod.ext rfl (nextLoopT_fst _ _ _ _ _)) ?_
  exact (nextLoopT_add _ _ _ _ _).trans (by omega)

theorem prevM_counting (cmp : K → K → Ordering) (s : SplayTree K V) (key : K) (n : Nat) :
    (s.prevM (counting cmp) key).run n = (s.prev cmp key, n + prevCost cmp s key) := by
  unfold SplayTree.prevM SplayTree.prev prevCost
  simp only [run_bind', splayM_counting]
  simp only [prevLoopM_counting]
  refine Prod.ext (Prod.ext rfl (prevLoopT_fst _ _ _ _ _)) ?_
  exact (prevLoopT_add _ _ _ _ _).trans (by omega)

theorem insertM_counting (cmp : K → K → Ordering) (s : SplayTree K V) (key : K) (v : V) (n : Nat) :
    (s.insertM (counting cmp) key v).run n = (s.insert cmp key v, n + accessCost cmp s key) := by
  unfold SplayTree.insertM SplayTree.insert accessCost
  simp only [run_bind', splayM_counting]
  cases h : splay cmp key s.root with
  | nil => rfl
  | node l k v r =>
    simp only [run_bind', counting_run]
    cases cmp key k <;> rfl

theorem joinAfterRemoveM_counting (cmp : K → K → Ordering) (key : K) (l r : Tree K V) (n : Nat) :
    (joinAfterRemoveM (counting cmp) key l r).run n = (joinAfterRemove cmp key l r, n + splayCost cmp key l) := by
  unfold joinAfterRemoveM joinAfterRemove
  simp only [run_bind', splayM_counting]
  cases h : splay cmp key l <;> rfl

theorem removeM_counting (cmp : K → K → Ordering) (s : SplayTree K V) (key : K) (n : Nat) :
    (s.removeM (counting cmp) key).run n = (s.remove cmp key, n + removeCost cmp s key) := by
  unfold SplayTree.removeM SplayTree.remove removeCost
  simp only [run_bind', splayM_counting]
  cases h : splay cmp key s.root with
  | nil => rfl
  | node l k v r =>
    simp only [run_bind', counting_run]
    by_cases hk : cmp key k = .eq
    · simp only [hk, ne_eq, not_true, if_false, if_true]
      simp only [run_bind', joinAfterRemoveM_counting]
      cases hs : s.size <;> simp only [run_pure', Nat.add_assoc]
    · simp only [hk, ne_eq, not_false_eq_true, if_false, if_true]
      exact Prod.ext rfl rfl

theorem extendM_counting (cmp : K → K → Ordering) (s : SplayTree K V) (l : List (K × V)) (n : Nat) :
    (s.extendM (counting cmp) l).run n = (s.extend cmp l, n + extendCost cmp s l) := by
  induction l generalizing s n with
  | nil => rfl
  | cons e l ih =>
    obtain ⟨k, v⟩ := e
    simp only [SplayTree.extendM, SplayTree.extend, List.foldl, extendCost]
    simp only [run_bind', insertM_counting]
    simp only [ih]
    simp only [Nat.add_assoc]; rfl

theorem stepM_counting (cmp : K → K → Ordering) (s : SplayTree K V) (op : Op K V) (n : Nat) :
    (stepM (counting cmp) s op).run n = (step cmp s op, n + stepCost cmp s op) := by
  cases op <;> simp only [stepM, step, stepCost, run_bind', run_pure', insertM_counting, removeM_counting, getM_counting,
    getMutM_counting, findKeyM_counting, containsM_counting, nextM_counting, prevM_counting, extendM_counting, Nat.add_zero]
  case remove k => cases s.remove cmp k <;> rfl

/-- Running a history with a comparator that counts its calls gives the results of `run`, and `runCost` is the number of calls. -/
theorem runM_counting (cmp : K → K → Ordering) (s : SplayTree K V) (ops : List (Op K V)) (n : Nat) :
    (runM (counting cmp) s ops).run n = (run cmp s ops, n + runCost cmp s ops) := by
  induction ops generalizing s n with
  | nil => rfl
  | cons op ops ih =>
    simp only [runM, run, runCost]
    simp only [run_bind', stepM_counting]
    simp only [ih]
    simp only [run_pure', Nat.add_assoc]

end GeoCrossings.Splay

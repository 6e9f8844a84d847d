import Verif.Model.SplayDrop
import Verif.Props.Splay
import Mathlib.Data.List.Induction
import Mathlib.Tactic.Ring

/-!
# Dropping a splay tree, and the work of its owned iterator (C103)
-/
namespace GeoCrossings.Splay
open Tree Spec

variable {K V : Type _} {cmp : K → K → Ordering}

/-! ## Dropping -/

theorem dropGlue_perm : ∀ (d : Nat) (t : Tree K V), ((dropGlue d t).map Prod.fst).Perm t.toList
  | _, nil => .nil
  | d, node l k v r => by
    rw [dropGlue, List.map_cons, List.map_append, toList]
    exact (((dropGlue_perm (d + 1) l).append (dropGlue_perm (d + 1) r)).cons _).trans List.perm_middle.symm

theorem dropGlue_depth : ∀ (d : Nat) (t : Tree K V), ∀ x ∈ dropGlue d t, x.2 ≤ d + t.toList.length
  | _, nil => by simp [dropGlue]
  | d, node l k v r => by
    intro x hx
    simp only [dropGlue, List.mem_cons, List.mem_append] at hx
    rw [toList, List.length_append, List.length_cons]
    rcases hx with rfl | hx | hx
    · simp only; omega
    · have := dropGlue_depth (d + 1) l x hx; omega
    · have := dropGlue_depth (d + 1) r x hx; omega

theorem depthOf_le {l : List ((K × V) × Nat)} {n : Nat} (h : ∀ x ∈ l, x.2 ≤ n) : depthOf l ≤ n := by
  induction l with
  | nil => exact Nat.zero_le _
  | cons x l ih => exact max_le (h x (by simp)) (ih fun y hy => h y (by simp [hy]))

/-- **C103 (once).** After any history, `clear` and `drop` drop every stored entry once, and nothing else. -/
theorem C103_drop_once (hc : LawfulCmp cmp) (ops : List (Op K V)) :
    (((run cmp SplayTree.new ops).1.dropped).map Prod.fst).Perm (mapRun cmp [] ops).1 := by
  have h := (Rep.new.run hc ops).1
  rw [← h.toList]
  exact dropGlue_perm 0 _

/-- **C103 (depth).** The drop of one entry is never nested deeper than the number of entries. -/
theorem C103_drop_depth_le (hc : LawfulCmp cmp) (ops : List (Op K V)) :
    depthOf (run cmp SplayTree.new ops).1.dropped ≤ (run cmp SplayTree.new ops).1.len := by
  have h := (Rep.new.run hc ops).1
  refine depthOf_le fun x hx => ?_
  have := dropGlue_depth 0 _ x hx
  rw [h.toList, Nat.zero_add] at this
  rw [SplayTree.len, h.size]
  exact this

/-- The tree in which no node has a right child. -/
def leftPath (l : List (K × V)) : Tree K V := l.foldl (fun t e => node t e.1 e.2 nil) nil

theorem leftPath_snoc (l : List (K × V)) (e : K × V) : leftPath (l ++ [e]) = node (leftPath l) e.1 e.2 nil := by
  rw [leftPath, List.foldl_append]
  rfl

theorem leftPath_toList (l : List (K × V)) : (leftPath l).toList = l := by
  induction l using List.reverseRecOn with
  | nil => rfl
  | append_singleton l e ih => rw [leftPath_snoc, toList, ih, toList]

theorem insert_leftPath (hc : LawfulCmp cmp) {l : List (K × V)} {e : K × V} (h : SortedBy cmp (l ++ [e])) (n : Nat) :
    (SplayTree.insert cmp ⟨leftPath l, n⟩ e.1 e.2).1 = ⟨leftPath (l ++ [e]), n + 1⟩ := by
  rw [leftPath_snoc]
  rcases List.eq_nil_or_concat l with rfl | ⟨m, b, rfl⟩
  · rfl
  · have hb : cmp e.1 b.1 = .gt := by
      have := (List.pairwise_append.1 h).2.2 b (by simp) e (by simp)
      rw [hc.swap, this]
      rfl
    rw [List.concat_eq_append, leftPath_snoc, SplayTree.insert, splay, splayLoop.eq_def]
    simp only [splayFinish, plugL, plugR, hb]

/-- The calls that insert the entries one after the other. -/
def inserts (l : List (K × V)) : List (Op K V) := l.map fun e => .insert e.1 e.2

theorem run_snoc (s : SplayTree K V) (ops : List (Op K V)) (op : Op K V) : (run cmp s (ops ++ [op])).1 = (step cmp (run cmp s ops).1 op).1 := by
  induction ops generalizing s with
  | nil => rfl
  | cons o ops ih => exact ih _

theorem run_inserts (hc : LawfulCmp cmp) {l : List (K × V)} (h : SortedBy cmp l) :
    (run cmp SplayTree.new (inserts l)).1 = ⟨leftPath l, l.length⟩ := by
  induction l using List.reverseRecOn with
  | nil => rfl
  | append_singleton l e ih =>
    have := ih (List.pairwise_append.1 h).1
    rw [inserts, List.map_append, List.map_singleton, run_snoc]
    rw [inserts] at this
    rw [this, List.length_append]
    exact insert_leftPath hc h _

theorem dropGlue_leftPath (d : Nat) (l : List (K × V)) : dropGlue d (leftPath l) = l.reverse.zipIdx (d + 1) := by
  induction l using List.reverseRecOn generalizing d with
  | nil => rfl
  | append_singleton l e ih => rw [leftPath_snoc, dropGlue, ih, dropGlue, List.append_nil, List.reverse_append]; rfl

/-- **C103 (no bound on the stack).** After `n` inserts in increasing order the drop of the tree is nested `n` deep: the entries are dropped from
the last to the first, each within the drop of those before. `clear` does the same. No fixed stack is enough for all trees. -/
theorem C103_drop_deep (hc : LawfulCmp cmp) {l : List (K × V)} (h : SortedBy cmp l) :
    (run cmp SplayTree.new (inserts l)).1.dropped = l.reverse.zipIdx 1 ∧ depthOf (run cmp SplayTree.new (inserts l)).1.dropped = l.length := by
  have e : (run cmp SplayTree.new (inserts l)).1.dropped = l.reverse.zipIdx 1 := by
    rw [run_inserts hc h, SplayTree.dropped, dropGlue_leftPath]
  refine ⟨e, ?_⟩
  rw [e]
  have : ∀ (m : List (K × V)) (i : Nat), depthOf (m.zipIdx (i + 1)) = if m = [] then 0 else i + m.length := by
    intro m
    induction m with
    | nil => intro i; rfl
    | cons a m ih =>
      intro i
      have : depthOf ((a :: m).zipIdx (i + 1)) = max (i + 1) (depthOf (m.zipIdx (i + 1 + 1))) := rfl
      rw [this, ih]
      split_ifs with h1 h2 h2 <;> (simp_all; try omega)
  rw [this]
  split_ifs with h1
  · rw [List.reverse_eq_nil_iff] at h1
    rw [h1]
    rfl
  · rw [List.length_reverse, Nat.zero_add]

/-- **C103 (stack overflow).** For every size of the stack there is a tree whose drop needs more. -/
theorem C103_drop_unbounded (B : Nat) : ∃ ops : List (Op Nat Unit), B < depthOf (run compare SplayTree.new ops).1.dropped := by
  refine ⟨inserts ((List.range (B + 1)).map fun i => (i, ())), ?_⟩
  have hc : LawfulCmp (compare : Nat → Nat → Ordering) :=
    ⟨fun a b => by rw [Nat.compare_swap], fun a b c => by simp only [ne_eq, Nat.compare_eq_gt]; omega⟩
  rw [(C103_drop_deep hc ?_).2]
  · simp
  · rw [SortedBy, List.pairwise_map]
    exact List.pairwise_lt_range.imp fun h => Nat.compare_eq_lt.2 h

/-! ## Iterating -/

theorem popFrontC_run : ∀ (l : Tree K V) (k : K) (v : V) (r : Tree K V), (popFrontC l k v r).1 = popFront l k v r
  | nil, _, _, _ => rfl
  | node ll lk lv lr, k, v, r => by rw [popFrontC, popFront, popFrontC_run ll]

theorem popBackC_run : ∀ (l : Tree K V) (k : K) (v : V) (r : Tree K V), (popBackC l k v r).1 = popBack l k v r
  | l, k, v, nil => by rw [popBackC, popBack]
  | l, k, v, node rl rk rv rr => by rw [popBackC, popBack, popBackC_run _ _ _ rr]
termination_by _ _ _ r => sizeOf r

/-- Counting rounds does not change what the iterator does. -/
theorem C103_nextC_run (it : IntoIter K V) : it.nextC.map Prod.fst = it.next ∧ it.nextBackC.map Prod.fst = it.nextBack := by
  obtain ⟨cur, rem⟩ := it
  cases cur with
  | nil => exact ⟨rfl, rfl⟩
  | node l k v r =>
    cases rem with
    | zero => exact ⟨rfl, rfl⟩
    | succ n =>
      constructor
      · simp only [IntoIter.nextC, IntoIter.next, Option.map_some, popFrontC_run]
      · simp only [IntoIter.nextBackC, IntoIter.nextBack, Option.map_some, popBackC_run]

/-- The number of nodes on the way from the root that always goes right. -/
def rightSpine : Tree K V → Nat
  | nil => 0
  | node _ _ _ r => rightSpine r + 1

/-- The number of nodes on the way from the root that always goes left. -/
def leftSpine : Tree K V → Nat
  | nil => 0
  | node l _ _ _ => leftSpine l + 1

theorem rightSpine_le : ∀ t : Tree K V, rightSpine t ≤ t.toList.length
  | nil => Nat.le_refl _
  | node l k v r => by
    have := rightSpine_le r
    rw [rightSpine, toList, List.length_append, List.length_cons]
    omega

theorem leftSpine_le : ∀ t : Tree K V, leftSpine t ≤ t.toList.length
  | nil => Nat.le_refl _
  | node l k v r => by
    have := leftSpine_le l
    rw [leftSpine, toList, List.length_append, List.length_cons]
    omega

/-- Every round but the last makes the right spine longer by one node; the last takes one away. -/
theorem popFrontC_spine : ∀ (l : Tree K V) (k : K) (v : V) (r : Tree K V),
    rightSpine (popFrontC l k v r).1.2 + 1 = rightSpine r + (popFrontC l k v r).2 ∧
      (popFrontC l k v r).1.2.toList.length = l.toList.length + r.toList.length
  | nil, _, _, _ => by simp [popFrontC, toList]
  | node ll lk lv lr, k, v, r => by
    obtain ⟨h1, h2⟩ := popFrontC_spine ll lk lv (node lr k v r)
    simp only [popFrontC, toList, rightSpine, List.length_append, List.length_cons] at h1 h2 ⊢
    omega

theorem popBackC_spine : ∀ (l : Tree K V) (k : K) (v : V) (r : Tree K V),
    leftSpine (popBackC l k v r).1.2 + 1 = leftSpine l + (popBackC l k v r).2 ∧
      (popBackC l k v r).1.2.toList.length = l.toList.length + r.toList.length
  | l, k, v, nil => by simp [popBackC, toList]
  | l, k, v, node rl rk rv rr => by
    obtain ⟨h1, h2⟩ := popBackC_spine (node l k v rl) rk rv rr
    rw [popBackC]
    simp only [toList, leftSpine, List.length_append, List.length_cons] at h1 h2 ⊢
    omega
termination_by _ _ _ r => sizeOf r

theorem front_rounds (m : Nat) (it : IntoIter K V) (h : it.remaining = it.cur.toList.length) :
    ∃ c, iterRounds it (List.replicate m true) = some c ∧ c + rightSpine it.cur ≤ 2 * it.remaining ∧
      (it.remaining ≤ m → c + rightSpine it.cur = 2 * it.remaining) := by
  induction m generalizing it with
  | zero =>
    have := rightSpine_le it.cur
    exact ⟨0, rfl, by omega, fun k => by omega⟩
  | succ m ih =>
    obtain ⟨cur, rem⟩ := it
    cases cur with
    | nil =>
      obtain ⟨c, h1, h2, h3⟩ := ih ⟨nil, rem⟩ h
      refine ⟨c, ?_, h2, fun _ => h3 ?_⟩
      · rw [List.replicate_succ, iterRounds]
        simp [IntoIter.nextC, h1]
      · rw [h]; exact Nat.zero_le _
    | node l k v r =>
      simp only [toList, List.length_append, List.length_cons] at h
      obtain ⟨n, rfl⟩ : ∃ n, rem = n + 1 := ⟨rem - 1, by omega⟩
      obtain ⟨k1, k2⟩ := popFrontC_spine l k v r
      obtain ⟨c, h1, h2, h3⟩ := ih ⟨(popFrontC l k v r).1.2, n⟩ (by simp only; omega)
      refine ⟨(popFrontC l k v r).2 + c, ?_, ?_, fun q => ?_⟩
      · rw [List.replicate_succ, iterRounds]
        simp [IntoIter.nextC, h1]
      · simp only [rightSpine] at h2 ⊢
        omega
      · have h3 := h3 (by simp only at q ⊢; omega)
        simp only [rightSpine] at h3 ⊢
        omega

theorem back_rounds (m : Nat) (it : IntoIter K V) (h : it.remaining = it.cur.toList.length) :
    ∃ c, iterRounds it (List.replicate m false) = some c ∧ c + leftSpine it.cur ≤ 2 * it.remaining ∧
      (it.remaining ≤ m → c + leftSpine it.cur = 2 * it.remaining) := by
  induction m generalizing it with
  | zero =>
    have := leftSpine_le it.cur
    exact ⟨0, rfl, by omega, fun k => by omega⟩
  | succ m ih =>
    obtain ⟨cur, rem⟩ := it
    cases cur with
    | nil =>
      obtain ⟨c, h1, h2, h3⟩ := ih ⟨nil, rem⟩ h
      refine ⟨c, ?_, h2, fun _ => h3 ?_⟩
      · rw [List.replicate_succ, iterRounds]
        simp [IntoIter.nextBackC, h1]
      · rw [h]; exact Nat.zero_le _
    | node l k v r =>
      simp only [toList, List.length_append, List.length_cons] at h
      obtain ⟨n, rfl⟩ : ∃ n, rem = n + 1 := ⟨rem - 1, by omega⟩
      obtain ⟨k1, k2⟩ := popBackC_spine l k v r
      obtain ⟨c, h1, h2, h3⟩ := ih ⟨(popBackC l k v r).1.2, n⟩ (by simp only; omega)
      refine ⟨(popBackC l k v r).2 + c, ?_, ?_, fun q => ?_⟩
      · rw [List.replicate_succ, iterRounds]
        simp [IntoIter.nextBackC, h1]
      · simp only [leftSpine] at h2 ⊢
        omega
      · have h3 := h3 (by simp only at q ⊢; omega)
        simp only [leftSpine] at h3 ⊢
        omega

/-- **C103 (linear).** After any history, taking the entries from one end, however many, costs at most two rounds of the loop for each stored entry. -/
theorem C103_iter_linear (hc : LawfulCmp cmp) (ops : List (Op K V)) (b : Bool) (m : Nat) :
    ∃ c, iterRounds (run cmp SplayTree.new ops).1.intoIter (List.replicate m b) = some c ∧ c ≤ 2 * (run cmp SplayTree.new ops).1.len := by
  have h := (Rep.new.run hc ops).1
  have hs : (run cmp SplayTree.new ops).1.intoIter.remaining = (run cmp SplayTree.new ops).1.intoIter.cur.toList.length := by
    simp [SplayTree.intoIter, h.size, h.toList]
  cases b with
  | true =>
    obtain ⟨c, h1, h2, -⟩ := front_rounds m _ hs
    exact ⟨c, h1, (Nat.le_add_right _ _).trans h2⟩
  | false =>
    obtain ⟨c, h1, h2, -⟩ := back_rounds m _ hs
    exact ⟨c, h1, (Nat.le_add_right _ _).trans h2⟩

/-- A path of nodes without left child that ends in `t`. -/
def rightPath (l : List (K × V)) (t : Tree K V) : Tree K V := l.foldr (fun e t => node nil e.1 e.2 t) t

/-- A path of nodes without right child that ends in `t`. -/
def leftOn (t : Tree K V) (l : List (K × V)) : Tree K V := l.foldl (fun t e => node t e.1 e.2 nil) t

theorem popFrontC_leftPath (l : List (K × V)) : ∀ (e a : K × V) (m : List (K × V)) (r : Tree K V), l ++ [e] = a :: m →
    popFrontC (leftPath l) e.1 e.2 r = ((a, rightPath m r), l.length + 1) := by
  induction l using List.reverseRecOn with
  | nil =>
    intro e a m r h
    rw [List.nil_append, List.cons.injEq] at h
    obtain ⟨rfl, rfl⟩ := h
    rfl
  | append_singleton l b ih =>
    intro e a m r h
    rcases List.eq_nil_or_concat m with rfl | ⟨m', c, rfl⟩
    · have := congrArg List.length h
      simp at this
    · rw [List.concat_eq_append] at h ⊢
      rw [← List.cons_append] at h
      obtain ⟨h1, h2⟩ := List.append_inj' h rfl
      rw [List.cons.injEq] at h2
      obtain ⟨rfl, -⟩ := h2
      rw [leftPath_snoc, popFrontC, ih b a m' _ h1]
      simp [rightPath]

theorem popBackC_rightPath (l : List (K × V)) : ∀ (e : K × V) (t : Tree K V),
    popBackC t e.1 e.2 (rightPath l nil) = (((e :: l).getLast (by simp), leftOn t (e :: l).dropLast), l.length + 1) := by
  induction l with
  | nil => intro e t; rw [rightPath, List.foldr_nil, popBackC]; rfl
  | cons a l ih =>
    intro e t
    have : rightPath (a :: l) nil = node nil a.1 a.2 (rightPath l nil) := rfl
    rw [this, popBackC, ih a]
    simp [leftOn]

/-- `next` and `next_back` in turns, `n` calls in all. -/
def turns : Bool → Nat → List Bool
  | _, 0 => []
  | b, n + 1 => b :: turns (!b) n

theorem turns_rounds (n : Nat) : ∀ l : List (K × V), l.length = n →
    iterRounds ⟨leftPath l, n⟩ (turns true n) = some (n * (n + 1) / 2) ∧ iterRounds ⟨rightPath l nil, n⟩ (turns false n) = some (n * (n + 1) / 2) := by
  induction n with
  | zero => exact fun l _ => ⟨rfl, rfl⟩
  | succ n ih =>
    intro l hl
    have hn : n + 1 + n * (n + 1) / 2 = (n + 1) * (n + 1 + 1) / 2 := by
      have : (n + 1) * (n + 1 + 1) = n * (n + 1) + (n + 1) * 2 := by ring
      rw [this, Nat.add_mul_div_right _ _ (by omega)]
      omega
    constructor
    · obtain ⟨l', e, rfl⟩ : ∃ l' e, l = l' ++ [e] := by
        rcases List.eq_nil_or_concat l with rfl | ⟨l', e, rfl⟩
        · simp at hl
        · exact ⟨l', e, List.concat_eq_append⟩
      obtain ⟨a, m, hm⟩ : ∃ a m, l' ++ [e] = a :: m := by
        cases l' with
        | nil => exact ⟨e, [], rfl⟩
        | cons a t => exact ⟨a, t ++ [e], rfl⟩
      have hlen : m.length = n := by
        have := congrArg List.length hm
        simp only [List.length_cons] at this
        omega
      have hl' : l'.length = n := by simpa using hl
      rw [turns, iterRounds, leftPath_snoc]
      simp only [IntoIter.nextC, popFrontC_leftPath l' e a m nil hm, if_true, Option.bind_eq_bind, Option.bind_some, Bool.not_true,
        (ih m hlen).2, Option.pure_def]
      rw [hl', hn]
    · cases l with
      | nil => simp at hl
      | cons e l =>
        have hl' : l.length = n := by simpa using hl
        have : rightPath (e :: l) nil = node nil e.1 e.2 (rightPath l nil) := rfl
        have h2 := (ih (e :: l).dropLast (by simp [hl'])).1
        rw [leftPath] at h2
        rw [turns, iterRounds, this]
        simp only [IntoIter.nextBackC, popBackC_rightPath, leftOn, Bool.false_eq_true, if_false, Option.bind_eq_bind, Option.bind_some, Bool.not_false, h2,
          Option.pure_def]
        rw [hl', hn]

/-- **C103 (quadratic).** After `n` inserts in increasing order, taking the entries from both ends in turns costs `n (n + 1) / 2` rounds: the
iterator rotates the whole tree from one side to the other in each call. -/
theorem C103_iter_turns (hc : LawfulCmp cmp) {l : List (K × V)} (h : SortedBy cmp l) :
    iterRounds (run cmp SplayTree.new (inserts l)).1.intoIter (turns true l.length) = some (l.length * (l.length + 1) / 2) := by
  rw [run_inserts hc h]
  exact (turns_rounds l.length l rfl).1

/-- A case: five entries, from the front, and from both ends in turns; and how deep their drop is nested. -/
example : SortedBy halfCmp [(0, 'a'), (2, 'b'), (4, 'c'), (6, 'd'), (8, 'e')] ∧
    iterRounds (run halfCmp SplayTree.new (inserts [(0, 'a'), (2, 'b'), (4, 'c'), (6, 'd'), (8, 'e')])).1.intoIter (List.replicate 5 true) = some 9 ∧
    iterRounds (run halfCmp SplayTree.new (inserts [(0, 'a'), (2, 'b'), (4, 'c'), (6, 'd'), (8, 'e')])).1.intoIter [true, false, true, false, true] = some 15 ∧
    depthOf (run halfCmp SplayTree.new (inserts [(0, 'a'), (2, 'b'), (4, 'c'), (6, 'd'), (8, 'e')])).1.dropped = 5 ∧
    depthOf (run halfCmp SplayTree.new (inserts [(4, 'c'), (0, 'a'), (2, 'b'), (8, 'e'), (6, 'd')])).1.dropped = 4 := by
  refine ⟨?_, by decide +kernel, by decide +kernel, by decide +kernel, by decide +kernel⟩
  unfold SortedBy
  decide +kernel

end GeoCrossings.Splay

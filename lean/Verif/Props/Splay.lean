import Verif.Lemmas.Splay
import Verif.Spec.MapMachine

/-!
# Properties of the splay tree (C01–C08)
-/
namespace GeoCrossings.Splay
open Tree Spec

variable {K V : Type _} {cmp : K → K → Ordering}

/-! ## Invariant linking the tree to the sorted list -/

/-- The tree represents the sorted list `l`. -/
structure Rep (cmp : K → K → Ordering) (s : SplayTree K V) (l : List (K × V)) : Prop where
  toList : s.root.toList = l
  size : s.size = l.length
  sorted : SortedBy cmp l

theorem mem_ordInsert {k v} {l : List (K × V)} {e} (h : e ∈ OrdMap.insert cmp k v l) :
    e = (k, v) ∨ ∃ e' ∈ l, e'.1 = e.1 := by
  induction l with
  | nil => simp [OrdMap.insert] at h; exact .inl h
  | cons a l ih =>
    obtain ⟨k', v'⟩ := a
    simp only [OrdMap.insert] at h
    cases hc : cmp k k' <;> rw [hc] at h <;> simp at h
    · rcases h with h | h | h
      · exact .inl h
      · exact .inr ⟨(k', v'), by simp, by rw [h]⟩
      · exact .inr ⟨e, by simp [h], rfl⟩
    · rcases h with h | h
      · exact .inr ⟨(k', v'), by simp, by rw [h]⟩
      · exact .inr ⟨e, by simp [h], rfl⟩
    · rcases h with h | h
      · exact .inr ⟨(k', v'), by simp, by rw [h]⟩
      · rcases ih h with h | ⟨e', h1, h2⟩
        · exact .inl h
        · exact .inr ⟨e', by simp [h1], h2⟩

theorem sorted_insert (hc : LawfulCmp cmp) {l : List (K × V)} (hs : SortedBy cmp l) (k : K) (v : V) :
    SortedBy cmp (OrdMap.insert cmp k v l) := by
  induction l with
  | nil => simp [OrdMap.insert, SortedBy]
  | cons a l ih =>
    obtain ⟨k', v'⟩ := a
    simp only [SortedBy, List.pairwise_cons] at hs
    simp only [OrdMap.insert]
    cases h : cmp k k' <;> simp only [SortedBy, List.pairwise_cons]
    · refine ⟨?_, hs⟩
      intro b hb
      rcases List.mem_cons.1 hb with rfl | hb
      · exact h
      · exact hc.lt_of_lt_of_le h (by simp [hs.1 b hb])
    · exact hs
    · refine ⟨?_, ih hs.2⟩
      intro b hb
      rcases mem_ordInsert hb with rfl | ⟨e', h1, h2⟩
      · exact (hc.gt_iff _ _).1 h
      · rw [← h2]; exact hs.1 e' h1

theorem find_cons (k : K) (e : K × V) (l : List (K × V)) :
    OrdMap.find cmp k (e :: l) = if cmp k e.1 = .eq then some e else OrdMap.find cmp k l := by
  unfold OrdMap.find
  rw [List.find?_cons]
  by_cases h : cmp k e.1 = .eq <;> simp [h]

theorem length_insert (l : List (K × V)) (k v) (hs : Sep cmp k l) :
    (OrdMap.insert cmp k v l).length =
      if (OrdMap.find cmp k l).isSome then l.length else l.length + 1 := by
  induction l with
  | nil => simp [OrdMap.insert, OrdMap.find]
  | cons a l ih =>
    obtain ⟨k', v'⟩ := a
    have hs' := List.pairwise_cons.1 hs
    have ih := ih hs'.2
    rw [find_cons]
    simp only [OrdMap.insert]
    rcases h : cmp k k' with _ | _ | _
    · have : OrdMap.find cmp k l = none := by
        unfold OrdMap.find
        rw [List.find?_eq_none]
        intro e he
        have := hs'.1 e he
        simp only [h, reduceCtorEq, false_or] at this
        simp [this]
      simp [this]
    · simp
    · simp only [List.length_cons, ih, reduceCtorEq, if_false]
      split <;> rfl

theorem sorted_erase {l : List (K × V)} (hs : SortedBy cmp l) (k : K) :
    SortedBy cmp (OrdMap.erase cmp k l) := hs.filter _

theorem sorted_write {l : List (K × V)} (hs : SortedBy cmp l) (k : K) (v : V) :
    SortedBy cmp (OrdMap.write cmp k v l) := by
  refine List.Pairwise.map _ ?_ hs
  intro a b hab
  by_cases h1 : cmp k a.1 = .eq <;> by_cases h2 : cmp k b.1 = .eq <;> simpa [h1, h2] using hab

theorem Rep.insert (hc : LawfulCmp cmp) {s : SplayTree K V} {l} (h : Rep cmp s l) (k v) :
    Rep cmp (s.insert cmp k v).1 (OrdMap.insert cmp k v l) ∧
      (s.insert cmp k v).2 = (OrdMap.find cmp k l).map (·.2) := by
  obtain ⟨rfl, h2, h3⟩ := h
  have hs := hc.sep h3 k
  obtain ⟨a1, a2, a3⟩ := insert_spec s v hs
  refine ⟨⟨a2, ?_, sorted_insert hc h3 k v⟩, a1⟩
  rw [a3, length_insert _ _ _ hs, h2]

theorem Rep.extend (hc : LawfulCmp cmp) (es : List (K × V)) {s : SplayTree K V} {l}
    (h : Rep cmp s l) :
    Rep cmp (s.extend cmp es) (es.foldl (fun l e => OrdMap.insert cmp e.1 e.2 l) l) := by
  induction es generalizing s l with
  | nil => exact h
  | cons e es ih => exact ih (h.insert hc e.1 e.2).1

/-- One call keeps the representation and gives the specified answer. -/
theorem Rep.step (hc : LawfulCmp cmp) {s : SplayTree K V} {l} (h : Rep cmp s l) (op : Op K V) :
    Rep cmp (step cmp s op).1 (mapStep cmp l op).1 ∧ (step cmp s op).2 = (mapStep cmp l op).2 := by
  have hsep := fun k => hc.sep h.sorted k
  have h0 := h
  obtain ⟨rfl, hsz, hso⟩ := h
  cases op with
  | insert k v =>
    have := h0.insert hc k v
    exact ⟨this.1, congrArg _ this.2⟩
  | remove k =>
    obtain ⟨s', e, e1, e2⟩ := remove_spec s (hsep k) hsz
    simp only [Splay.step, e, mapStep]
    exact ⟨⟨e1, e1 ▸ e2, sorted_erase hso k⟩, trivial⟩
  | get k =>
    refine ⟨⟨?_, ?_, hso⟩, congrArg _ (get_spec s (hsep k))⟩
    · have := toList_splay cmp k s.root
      simp only [Splay.step, SplayTree.get, mapStep]
      cases ht : splay cmp k s.root <;> simp_all
    · simp only [Splay.step, SplayTree.get, mapStep]
      cases ht : splay cmp k s.root <;> simp_all
  | write k v =>
    obtain ⟨a1, a2, a3⟩ := getMut_spec (cmp := cmp) s v (hsep k)
    refine ⟨⟨a2, ?_, sorted_write hso k v⟩, congrArg _ a1⟩
    simp only [Splay.step, mapStep, a3, hsz, OrdMap.write, List.length_map]
  | contains k =>
    have hf := findKey_spec s (hsep k)
    refine ⟨⟨?_, ?_, hso⟩, ?_⟩
    · have := toList_splay cmp k s.root
      simp only [Splay.step, SplayTree.contains, SplayTree.findKey, mapStep]
      cases ht : splay cmp k s.root <;> simp_all
    · simp only [Splay.step, SplayTree.contains, SplayTree.findKey, mapStep]
      cases ht : splay cmp k s.root <;> simp_all
    · simp only [Splay.step, SplayTree.contains, mapStep, hf, Option.isSome_map]
  | findKey k =>
    refine ⟨⟨?_, ?_, hso⟩, congrArg _ (findKey_spec s (hsep k))⟩
    · have := toList_splay cmp k s.root
      simp only [Splay.step, SplayTree.findKey, mapStep]
      cases ht : splay cmp k s.root <;> simp_all
    · simp only [Splay.step, SplayTree.findKey, mapStep]
      cases ht : splay cmp k s.root <;> simp_all
  | next k => exact ⟨⟨toList_splay _ _ _, hsz, hso⟩, congrArg _ (next_spec s (hsep k))⟩
  | prev k => exact ⟨⟨toList_splay _ _ _, hsz, hso⟩, congrArg _ (prev_spec s (hsep k))⟩
  | min => exact ⟨h0, by simp [Splay.step, mapStep, SplayTree.min, minNode_spec]⟩
  | max => exact ⟨h0, by simp [Splay.step, mapStep, SplayTree.max, maxNode_spec]⟩
  | len => exact ⟨h0, by simp [Splay.step, mapStep, SplayTree.len, hsz]⟩
  | isEmpty =>
    refine ⟨h0, ?_⟩
    simp only [Splay.step, mapStep, SplayTree.isEmpty, SplayTree.len, hsz]
    cases s.root.toList <;> simp
  | clear => exact ⟨⟨rfl, rfl, by simp [SortedBy, mapStep]⟩, rfl⟩
  | extend es => exact ⟨h0.extend hc es, rfl⟩

theorem Rep.run (hc : LawfulCmp cmp) (ops : List (Op K V)) {s : SplayTree K V} {l}
    (h : Rep cmp s l) :
    Rep cmp (run cmp s ops).1 (mapRun cmp l ops).1 ∧ (run cmp s ops).2 = (mapRun cmp l ops).2 := by
  induction ops generalizing s l with
  | nil => exact ⟨h, rfl⟩
  | cons op ops ih =>
    have h1 := h.step hc op
    have h2 := ih h1.1
    exact ⟨h2.1, by simp only [Splay.run, mapRun, h1.2, h2.2]⟩

theorem Rep.new : Rep cmp (SplayTree.new : SplayTree K V) [] := ⟨rfl, rfl, by simp [SortedBy]⟩

/-! ## C01 -/

/-- **C01.** Any history on an empty splay tree with a lawful comparator answers exactly as a sorted
association list does, and ends with the same entries. -/
theorem C01_history_refines_sorted_map (hc : LawfulCmp cmp) (ops : List (Op K V)) :
    (run cmp SplayTree.new ops).2 = (mapRun cmp [] ops).2 ∧
    (run cmp SplayTree.new ops).1.root.toList = (mapRun cmp [] ops).1 :=
  ⟨(Rep.new.run hc ops).2, (Rep.new.run hc ops).1.toList⟩

/-- The comparator `fun a b => compare (a / 2) (b / 2)` on naturals: lawful and equating distinct keys. -/
def halfCmp (a b : Nat) : Ordering := compare (a / 2) (b / 2)

theorem halfCmp_lawful : LawfulCmp halfCmp where
  swap a b := by simp only [halfCmp, Nat.compare_swap]
  trans a b c := by
    simp only [halfCmp, ne_eq, Nat.compare_eq_gt]
    omega

/-- Non-vacuity of C01: a history in which keys collide, with its answers. -/
example : (run halfCmp SplayTree.new
      [.insert 4 "a", .insert 8 "b", .insert 2 "c", .insert 5 "d", .findKey 4, .next 4, .remove 9,
       .max, .len]).2 =
    [.val none, .val none, .val none, .val (some "a"), .key (some 4), .entry (some (8, "b")),
     .val (some "b"), .key (some 4), .nat 2] := by decide +kernel

/-! ## C02 -/

/-- **C02.** No lookup changes the stored entries or the length, whatever the comparator. -/
theorem C02_lookups_preserve_entries (cmp : K → K → Ordering) (s : SplayTree K V) (k : K) :
    ((s.get cmp k).1.root.toList = s.root.toList ∧ (s.get cmp k).1.size = s.size) ∧
    ((s.contains cmp k).1.root.toList = s.root.toList ∧ (s.contains cmp k).1.size = s.size) ∧
    ((s.findKey cmp k).1.root.toList = s.root.toList ∧ (s.findKey cmp k).1.size = s.size) ∧
    ((s.next cmp k).1.root.toList = s.root.toList ∧ (s.next cmp k).1.size = s.size) ∧
    ((s.prev cmp k).1.root.toList = s.root.toList ∧ (s.prev cmp k).1.size = s.size) := by
  have h := toList_splay cmp k s.root
  refine ⟨?_, ?_, ?_, ⟨h, rfl⟩, ⟨h, rfl⟩⟩
  · unfold SplayTree.get; cases ht : splay cmp k s.root <;> simp_all
  · unfold SplayTree.contains SplayTree.findKey; cases ht : splay cmp k s.root <;> simp_all
  · unfold SplayTree.findKey; cases ht : splay cmp k s.root <;> simp_all

/-- A comparator that is no ordering at all. -/
def oddCmp (a b : Nat) : Ordering := if (a + b) % 3 = 0 then .lt else if (a + b) % 3 = 1 then .gt else .lt

/-- Non-vacuity of C02: the lookup does restructure the tree. -/
example :
    let s : SplayTree Nat Nat := (run oddCmp SplayTree.new [.insert 0 0, .insert 1 1, .insert 2 2]).1
    (s.get oddCmp 5).1.root ≠ s.root ∧ (s.get oddCmp 5).1.root.toList = s.root.toList := by
  decide +kernel

/-! ## C03 -/

/-- **C03.** After splaying for `key` the root is equal to `key` if some entry is; otherwise it is
the greatest entry below `key` or the least entry above it. -/
theorem C03_splay_brings_nearest (hc : LawfulCmp cmp) (t : Tree K V) (hs : SortedBy cmp t.toList)
    (key : K) (hne : t ≠ nil) :
    ∃ l k v r, splay cmp key t = node l k v r ∧ (k, v) ∈ t.toList ∧
      ((∃ e ∈ t.toList, cmp key e.1 = .eq) → cmp key k = .eq) ∧
      (cmp key k = .gt → ∀ e ∈ t.toList, cmp key e.1 = .gt → cmp e.1 k ≠ .gt) ∧
      (cmp key k = .lt → ∀ e ∈ t.toList, cmp key e.1 = .lt → cmp k e.1 ≠ .gt) := by
  obtain ⟨l, k, v, r, e1, e2, h1, h2⟩ := splay_parts cmp key t hne (hc.sep hs key)
  refine ⟨l, k, v, r, e1, by simp [e2], ?_, ?_, ?_⟩
  · rintro ⟨e, he, hk⟩
    rw [e2] at he
    rcases List.mem_append.1 he with he | he
    · rw [h1 e he] at hk; cases hk
    · rcases List.mem_cons.1 he with rfl | he
      · exact hk
      · rw [h2 e he] at hk; cases hk
  · intro hk e he hek
    rw [e2] at he hs
    rcases List.mem_append.1 he with he | he
    · rw [(List.pairwise_append.1 hs).2.2 e he (k, v) (by simp)]; simp
    · rcases List.mem_cons.1 he with rfl | he
      · rw [hc.refl]; simp
      · rw [h2 e he] at hek; cases hek
  · intro hk e he hek
    rw [e2] at he hs
    rcases List.mem_append.1 he with he | he
    · rw [h1 e he] at hek; cases hek
    · rcases List.mem_cons.1 he with rfl | he
      · rw [hc.refl]; simp
      · rw [(List.pairwise_cons.1 (List.pairwise_append.1 hs).2.1).1 e he]; simp

/-- Non-vacuity of C03: a tree reached by inserts, searched for an absent key. -/
example :
    let t := (run halfCmp SplayTree.new [.insert 0 (), .insert 4 (), .insert 8 (), .insert 12 ()]).1.root
    t ≠ nil ∧ SortedBy halfCmp t.toList ∧ splay halfCmp 6 t ≠ t := by
  refine ⟨by decide +kernel, ?_, by decide +kernel⟩
  exact (Rep.new.run halfCmp_lawful _).1.toList ▸ (Rep.new.run halfCmp_lawful _).1.sorted

/-! ## C04 -/

/-- `e` is the least entry of `l` strictly above `k`. -/
def IsSucc (cmp : K → K → Ordering) (k : K) (l : List (K × V)) (e : K × V) : Prop :=
  e ∈ l ∧ cmp k e.1 = .lt ∧ ∀ e' ∈ l, cmp k e'.1 = .lt → e' = e ∨ cmp e.1 e'.1 = .lt

/-- `e` is the greatest entry of `l` strictly below `k`. -/
def IsPred (cmp : K → K → Ordering) (k : K) (l : List (K × V)) (e : K × V) : Prop :=
  e ∈ l ∧ cmp k e.1 = .gt ∧ ∀ e' ∈ l, cmp k e'.1 = .gt → e' = e ∨ cmp e'.1 e.1 = .lt

theorem succ_isSucc {k : K} {l : List (K × V)} (hs : SortedBy cmp l) :
    (∀ e, OrdMap.succ cmp k l = some e → IsSucc cmp k l e) ∧
    (OrdMap.succ cmp k l = none → ∀ e ∈ l, cmp k e.1 ≠ .lt) := by
  constructor
  · intro e he
    unfold OrdMap.succ at he
    rw [List.find?_eq_some_iff_append] at he
    obtain ⟨h1, as, bs, rfl, h2⟩ := he
    simp at h1
    refine ⟨by simp, h1, ?_⟩
    intro e' he' hk
    rcases List.mem_append.1 he' with he' | he'
    · have := h2 e' he'; simp [hk] at this
    · rcases List.mem_cons.1 he' with rfl | he'
      · exact .inl rfl
      · exact .inr ((List.pairwise_cons.1 (List.pairwise_append.1 hs).2.1).1 e' he')
  · intro h e he
    unfold OrdMap.succ at h
    rw [List.find?_eq_none] at h
    simpa using h e he

theorem pred_isPred {k : K} {l : List (K × V)} (hs : SortedBy cmp l) :
    (∀ e, OrdMap.pred cmp k l = some e → IsPred cmp k l e) ∧
    (OrdMap.pred cmp k l = none → ∀ e ∈ l, cmp k e.1 ≠ .gt) := by
  constructor
  · intro e he
    unfold OrdMap.pred at he
    rw [List.getLast?_eq_some_iff] at he
    obtain ⟨ys, hys⟩ := he
    have hmem : ∀ x, x ∈ l ∧ cmp k x.1 = .gt ↔ x ∈ ys ++ [e] := by
      intro x; rw [← hys]; simp
    have he := (hmem e).2 (by simp)
    refine ⟨he.1, he.2, ?_⟩
    intro e' he' hk
    have h3 := (hmem e').1 ⟨he', hk⟩
    have hs' : SortedBy cmp (ys ++ [e]) := hys ▸ hs.filter _
    rcases List.mem_append.1 h3 with h3 | h3
    · exact .inr ((List.pairwise_append.1 hs').2.2 e' h3 e (by simp))
    · exact .inl (by simpa using h3)
  · intro h e he
    unfold OrdMap.pred at h
    rw [List.getLast?_eq_none_iff, List.filter_eq_nil_iff] at h
    simpa using h e he

/-- **C04.** `next` is the strict successor, `prev` the strict predecessor, in every reachable tree,
and `None` is returned exactly if there is none. -/
theorem C04_next_prev (hc : LawfulCmp cmp) (s : SplayTree K V)
    (hs : SortedBy cmp s.root.toList) (k : K) :
    (∀ e, (s.next cmp k).2 = some e → IsSucc cmp k s.root.toList e) ∧
    ((s.next cmp k).2 = none ↔ ∀ e ∈ s.root.toList, cmp k e.1 ≠ .lt) ∧
    (∀ e, (s.prev cmp k).2 = some e → IsPred cmp k s.root.toList e) ∧
    ((s.prev cmp k).2 = none ↔ ∀ e ∈ s.root.toList, cmp k e.1 ≠ .gt) := by
  rw [next_spec s (hc.sep hs k), prev_spec s (hc.sep hs k)]
  refine ⟨(succ_isSucc hs).1, ⟨(succ_isSucc hs).2, ?_⟩, (pred_isPred hs).1,
    ⟨(pred_isPred hs).2, ?_⟩⟩
  · intro h
    unfold OrdMap.succ; rw [List.find?_eq_none]; intro e he; simpa using h e he
  · intro h
    unfold OrdMap.pred
    rw [List.getLast?_eq_none_iff, List.filter_eq_nil_iff]; intro e he; simpa using h e he

/-- Every tree reached by a history satisfies the hypothesis of C03 and C04. -/
theorem reachable_sorted (hc : LawfulCmp cmp) (ops : List (Op K V)) :
    SortedBy cmp (run cmp SplayTree.new ops).1.root.toList :=
  (Rep.new.run hc ops).1.toList ▸ (Rep.new.run hc ops).1.sorted

/-- Non-vacuity of C04. -/
example :
    let s := (run halfCmp SplayTree.new [.insert 0 "a", .insert 4 "b", .insert 8 "c"]).1
    (s.next halfCmp 5).2 = some (8, "c") ∧ (s.prev halfCmp 5).2 = some (0, "a") ∧
    (s.next halfCmp 8).2 = none := by decide +kernel

/-! ## C05 -/

/-- Run an interleaving of `next` (`true`) and `next_back` (`false`) on an owned iterator, recording
each answer and the size hint after it; `none` if a call panics. -/
def iterRun : IntoIter K V → List Bool → Option (List (Option (K × V) × Nat))
  | _, [] => some []
  | it, b :: bs => do
    let (it', o) ← if b then it.next else it.nextBack
    let os ← iterRun it' bs
    pure ((o, it'.sizeHint.1) :: os)

theorem iterRun_spec (bs : List Bool) (it : IntoIter K V) (h : it.remaining = it.cur.toList.length) :
    iterRun it bs = some (dequeRun it.cur.toList bs) := by
  induction bs generalizing it with
  | nil => rfl
  | cons b bs ih =>
    obtain ⟨cur, rem⟩ := it
    simp only at h
    cases cur with
    | nil =>
      simp only [toList, List.length_nil] at h
      subst h
      have ih := ih ⟨nil, 0⟩ rfl
      cases b <;>
        simp [iterRun, IntoIter.next, IntoIter.nextBack, ih, dequeRun, toList, IntoIter.sizeHint]
    | node l k v r =>
      cases rem with
      | zero => simp [toList] at h
      | succ n =>
        cases b with
        | true =>
          have h1 := popFront_spec l k v r
          rw [← h1, List.length_cons] at h
          have hn : n = (popFront l k v r).2.toList.length := by omega
          simp only [iterRun, IntoIter.next, if_true]
          rw [← h1]
          subst hn
          have ih := ih ⟨(popFront l k v r).2, (popFront l k v r).2.toList.length⟩ rfl
          simp [ih, dequeRun, IntoIter.sizeHint]
        | false =>
          have h1 := popBack_spec l k v r
          rw [← h1] at h
          simp only [List.length_append, List.length_singleton] at h
          have hn : n = (popBack l k v r).2.toList.length := by omega
          simp only [iterRun, IntoIter.nextBack]
          rw [← h1]
          subst hn
          have ih := ih ⟨(popBack l k v r).2, (popBack l k v r).2.toList.length⟩ rfl
          simp [ih, dequeRun, IntoIter.sizeHint]

/-- **C05.** After any history, any interleaving of `next` and `next_back` on `into_iter` behaves as
a double-ended queue of the stored entries in ascending order, with an exact size hint, and never
panics. -/
theorem C05_into_iter_is_deque (hc : LawfulCmp cmp) (ops : List (Op K V)) (bs : List Bool) :
    iterRun (run cmp SplayTree.new ops).1.intoIter bs =
      some (dequeRun (mapRun cmp [] ops).1 bs) := by
  have h := (Rep.new.run hc ops).1
  have := iterRun_spec bs (run cmp SplayTree.new ops).1.intoIter
    (by simp [SplayTree.intoIter, h.size, h.toList])
  rw [this, SplayTree.intoIter, h.toList]

/-- Non-vacuity of C05: front, back, front, then exhausted. -/
example :
    iterRun (run halfCmp SplayTree.new [.insert 4 "a", .insert 0 "b", .insert 8 "c"]).1.intoIter
      [true, false, true, false] =
    some [(some (0, "b"), 2), (some (8, "c"), 1), (some (4, "a"), 0), (none, 0)] := by
  decide +kernel

/-! ## C06 -/

/-- **C06 (insert).** In every reachable set, `insert` answers `true` iff no stored element is
equal; then it adds exactly that element in order. Otherwise the stored elements do not change, so
the old representative stays. -/
theorem C06_set_insert (hc : LawfulCmp cmp) (ops : List (Op K Unit)) (t : K) :
    let s : SplaySet K := (run cmp SplayTree.new ops).1
    let elems := fun (s : SplaySet K) => s.root.toList.map (·.1)
    let s' := (SplaySet.insert cmp s t).1
    ((SplaySet.insert cmp s t).2 = true ↔ ∀ x ∈ elems s, cmp t x ≠ .eq) ∧
    ((SplaySet.insert cmp s t).2 = false → elems s' = elems s) ∧
    ((SplaySet.insert cmp s t).2 = true → ∃ A B, elems s = A ++ B ∧ elems s' = A ++ t :: B ∧
        (∀ x ∈ A, cmp x t = .lt) ∧ (∀ x ∈ B, cmp t x = .lt)) := by
  intro s elems s'
  have hs : SortedBy cmp s.root.toList := reachable_sorted hc ops
  have hsep := hc.sep hs t
  obtain ⟨a1, a2, -⟩ := insert_spec s () hsep
  have e2 : (SplaySet.insert cmp s t).2 = (OrdMap.find cmp t s.root.toList).isNone := by
    simp [SplaySet.insert, a1]
  have e1 : s'.root.toList = OrdMap.insert cmp t () s.root.toList := a2
  have hnone : (OrdMap.find cmp t s.root.toList).isNone = true ↔ ∀ x ∈ elems s, cmp t x ≠ .eq := by
    simp [elems, OrdMap.find]
  rw [e2]
  refine ⟨hnone, ?_, ?_⟩
  · intro hf
    by_cases hnil : s.root = nil
    · simp [hnil, toList, OrdMap.find] at hf
    · obtain ⟨l, k, v, r, -, p2, p3, p4⟩ := splay_parts cmp t s.root hnil hsep
      show s'.root.toList.map (·.1) = s.root.toList.map (·.1)
      rw [p2, find_parts p3 p4] at hf
      rw [e1, p2, insert_parts p3 p4]
      by_cases hk : cmp t k = .eq
      · simp [hk]
      · simp [hk] at hf
  · intro hf
    show ∃ A B, s.root.toList.map (·.1) = A ++ B ∧ s'.root.toList.map (·.1) = _ ∧ _
    rw [e1]
    by_cases hnil : s.root = nil
    · exact ⟨[], [], by simp [hnil, toList], by simp [hnil, toList, OrdMap.insert], by simp, by simp⟩
    · obtain ⟨l, k, v, r, -, p2, p3, p4⟩ := splay_parts cmp t s.root hnil hsep
      rw [p2, find_parts p3 p4] at hf
      rw [p2, insert_parts p3 p4]
      have q3 : ∀ x ∈ l.toList.map (·.1), cmp x t = .lt := by
        intro x hx
        obtain ⟨e, he, rfl⟩ := List.mem_map.1 hx
        exact (hc.gt_iff _ _).1 (p3 e he)
      have q4 : ∀ x ∈ r.toList.map (·.1), cmp t x = .lt := by
        intro x hx
        obtain ⟨e, he, rfl⟩ := List.mem_map.1 hx
        exact p4 e he
      cases hk : cmp t k with
      | eq => simp [hk] at hf
      | lt =>
        refine ⟨l.toList.map (·.1), k :: r.toList.map (·.1), by simp, by simp, q3, ?_⟩
        intro x hx
        rcases List.mem_cons.1 hx with rfl | hx
        exacts [hk, q4 x hx]
      | gt =>
        refine ⟨l.toList.map (·.1) ++ [k], r.toList.map (·.1), by simp, by simp, ?_, q4⟩
        intro x hx
        rcases List.mem_append.1 hx with hx | hx
        · exact q3 x hx
        · rw [List.mem_singleton.1 hx]; exact (hc.gt_iff _ _).1 hk

/-- **C06 (remove).** In every reachable set `remove` does not panic, answers `true` iff an equal
element is stored, and then exactly that element disappears. -/
theorem C06_set_remove (hc : LawfulCmp cmp) (ops : List (Op K Unit)) (t : K) :
    let s : SplaySet K := (run cmp SplayTree.new ops).1
    let elems := fun (s : SplaySet K) => s.root.toList.map (·.1)
    ∃ s' b, SplaySet.remove cmp s t = some (s', b) ∧
      (b = true ↔ ∃ x ∈ elems s, cmp t x = .eq) ∧
      (b = false → elems s' = elems s) ∧
      (b = true → ∃ A x B, elems s = A ++ x :: B ∧ cmp t x = .eq ∧ elems s' = A ++ B) := by
  intro s elems
  have hrep := (Rep.new.run hc ops).1
  have hs : SortedBy cmp s.root.toList := reachable_sorted hc ops
  have hsep := hc.sep hs t
  have hsz : s.size = s.root.toList.length := by
    show (run cmp SplayTree.new ops).1.size = (run cmp SplayTree.new ops).1.root.toList.length
    rw [hrep.size, hrep.toList]
  obtain ⟨s', e, e1, -⟩ := remove_spec s hsep hsz
  refine ⟨s', _, by rw [SplaySet.remove, e]; rfl, ?_, ?_, ?_⟩
  · simp [elems, OrdMap.find, Option.isSome_map]
  · intro hf
    show s'.root.toList.map (·.1) = s.root.toList.map (·.1)
    rw [e1]
    congr 1
    unfold OrdMap.erase
    rw [List.filter_eq_self]
    intro x hx
    simp [OrdMap.find] at hf
    have := hf x.1 x.2 hx
    simpa using this
  · intro hf
    by_cases hnil : s.root = nil
    · simp [hnil, toList, OrdMap.find] at hf
    · obtain ⟨l, k, v, r, -, p2, p3, p4⟩ := splay_parts cmp t s.root hnil hsep
      rw [p2, find_parts p3 p4] at hf
      have hk : cmp t k = .eq := by
        by_contra hk; simp [hk] at hf
      refine ⟨l.toList.map (·.1), k, r.toList.map (·.1), by simp [elems, p2], hk, ?_⟩
      show s'.root.toList.map (·.1) = _
      rw [e1, p2, erase_parts p3 p4]; simp [hk]

/-- Non-vacuity of C06: the comparator equates 4 and 5. -/
example :
    let s : SplaySet Nat := (run halfCmp SplayTree.new [.insert 4 ()]).1
    (SplaySet.insert halfCmp s 5).2 = false ∧ (SplaySet.find halfCmp (SplaySet.insert halfCmp s 5).1 5).2 = some 4 ∧
    ((SplaySet.remove halfCmp s 5).map (·.2)) = some true := by decide +kernel

/-! ## C07 -/

/-- **C07.** In every reachable state `len` is the number of stored entries, and no call of the
history panicked (the size never underflows). -/
theorem C07_len_counts (hc : LawfulCmp cmp) (ops : List (Op K V)) :
    (run cmp SplayTree.new ops).1.len = (run cmp SplayTree.new ops).1.root.toList.length ∧
    Out.panic ∉ (run cmp SplayTree.new ops).2 := by
  have h := Rep.new.run hc ops
  constructor
  · rw [SplayTree.len, h.1.size, h.1.toList]
  · rw [h.2]
    generalize ([] : List (K × V)) = l
    induction ops generalizing l with
    | nil => simp [mapRun]
    | cons op ops ih =>
      have h1 := ih (h := Rep.new.run hc ops) (l := (mapStep cmp l op).1)
      simp only [mapRun, List.mem_cons, not_or]
      refine ⟨?_, h1⟩
      cases op <;> simp [mapStep]

/-! ## C08 -/

/-- **C08 (insert).** With any comparator, lawful or not, `insert` either adds exactly the new entry
somewhere in the sequence, or replaces exactly one value, which it returns. -/
theorem C08_insert_any_comparator (cmp : K → K → Ordering) (s : SplayTree K V) (k : K) (v : V) :
    (∃ A B, s.root.toList = A ++ B ∧ (s.insert cmp k v).1.root.toList = A ++ (k, v) :: B ∧
        (s.insert cmp k v).2 = none ∧ (s.insert cmp k v).1.size = s.size + 1) ∨
    (∃ A k' v' B, s.root.toList = A ++ (k', v') :: B ∧ cmp k k' = .eq ∧
        (s.insert cmp k v).1.root.toList = A ++ (k', v) :: B ∧
        (s.insert cmp k v).2 = some v' ∧ (s.insert cmp k v).1.size = s.size) := by
  have h := toList_splay cmp k s.root
  unfold SplayTree.insert
  cases ht : splay cmp k s.root with
  | nil => rw [ht] at h; exact .inl ⟨[], [], by simp [← h, toList], by simp [toList], rfl, rfl⟩
  | node l k' v' r =>
    rw [ht] at h
    simp only
    cases hk : cmp k k' with
    | eq => exact .inr ⟨l.toList, k', v', r.toList, by simp [← h, toList], hk, by simp [toList], rfl, rfl⟩
    | lt => exact .inl ⟨l.toList, (k', v') :: r.toList, by simp [← h, toList], by simp [toList], rfl, rfl⟩
    | gt =>
      exact .inl ⟨l.toList ++ [(k', v')], r.toList, by simp [← h, toList], by simp [toList], rfl, rfl⟩

/-- **C08 (remove, any comparator).** `remove` invents nothing: what remains is a subsequence of what
was stored; if it answers `None`, nothing changed. -/
theorem C08_remove_any_comparator (cmp : K → K → Ordering) (s s' : SplayTree K V) (k : K) (o : Option V)
    (h : s.remove cmp k = some (s', o)) :
    s'.root.toList.Sublist s.root.toList ∧ (o = none → s'.root.toList = s.root.toList) := by
  have h0 := toList_splay cmp k s.root
  unfold SplayTree.remove at h
  cases ht : splay cmp k s.root with
  | nil =>
    rw [ht] at h; simp only [Option.some.injEq, Prod.mk.injEq] at h
    obtain ⟨rfl, rfl⟩ := h; simp
  | node l k' v' r =>
    rw [ht] at h h0
    simp only at h
    by_cases hk : cmp k k' = .eq
    · simp only [hk, ne_eq, not_true, if_false] at h
      cases hz : s.size with
      | zero => simp [hz] at h
      | succ n =>
        simp only [hz, Option.some.injEq, Prod.mk.injEq] at h
        obtain ⟨rfl, rfl⟩ := h
        refine ⟨?_, by simp⟩
        rw [← h0]
        simp only [toList, joinAfterRemove]
        have h1 := toList_splay cmp k l
        cases hl : splay cmp k l with
        | nil => simp
        | node ll lk lv lr =>
          rw [hl] at h1
          rw [← h1]
          simp only [toList, List.append_assoc, List.cons_append]
          refine List.Sublist.append_left (List.Sublist.cons_cons _ ?_) _
          exact (List.sublist_append_right [(k', v')] r.toList |>.trans (by simp)).trans
            (List.sublist_append_right lr.toList _)
    · simp only [hk, ne_eq, not_false_iff, if_true, Option.some.injEq, Prod.mk.injEq] at h
      obtain ⟨rfl, rfl⟩ := h
      rw [← h0]; simp

/-- A comparator that answers consistently on swapped arguments for no pair with 2:
0 and 1 are in order, but 0 > 2, 2 > 0, 1 < 2 and 2 < 1. -/
def tangledCmp : Nat → Nat → Ordering
  | 0, 1 => .lt | 0, 2 => .gt | 1, 0 => .gt | 1, 2 => .lt | 2, 0 => .gt | 2, 1 => .lt | _, _ => .eq

/-- **C08 (loss).** With an unlawful comparator `remove` can drop an entry it was not asked for: after
a history of inserts and lookups, removing 1 also loses another entry, and `len` no longer counts
what is stored. -/
theorem C08_remove_can_lose :
    ∃ (cmp : Nat → Nat → Ordering) (ops : List (Op Nat Unit)),
      let s := (run cmp SplayTree.new ops).1
      s.root.toList.length = 3 ∧
      ∃ s', s.remove cmp 1 = some (s', some ()) ∧ s'.root.toList.length = 1 ∧ s'.len = 2 := by
  refine ⟨tangledCmp, [.insert 0 (), .insert 1 (), .insert 2 (), .get 2, .get 0], by decide +kernel,
    ?_⟩
  exact ⟨_, rfl, by decide +kernel, by decide +kernel⟩

/-- **C08 (lawful).** With a lawful comparator `remove` takes out the matched entry and nothing else. -/
theorem C08_remove_lawful (hc : LawfulCmp cmp) (s : SplayTree K V)
    (hs : SortedBy cmp s.root.toList) (hn : s.len = s.root.toList.length) (k : K) :
    ∃ s' o, s.remove cmp k = some (s', o) ∧
      ∀ e ∈ s.root.toList, (e ∈ s'.root.toList ↔ cmp k e.1 ≠ .eq) := by
  obtain ⟨s', e, e1, -⟩ := remove_spec s (hc.sep hs k) hn
  refine ⟨s', _, e, ?_⟩
  intro x hx
  rw [e1, OrdMap.erase]
  simp [hx]

end GeoCrossings.Splay

import Mathlib.Tactic.Common
import Verif.Model.Splay
import Verif.Spec.OrdMap

/-! # Lemmas about the splay loop -/
namespace GeoCrossings.Splay
open Tree Spec

variable {K V : Type _}

/-- In-order sequence of the part hung on the left spine. -/
def flatL : List (Tree K V × K × V) → List (K × V)
  | [] => []
  | (lt, k, v) :: c => flatL c ++ (lt.toList ++ [(k, v)])

/-- In-order sequence of the part hung on the right spine. -/
def flatR : List (K × V × Tree K V) → List (K × V)
  | [] => []
  | (k, v, rt) :: c => (k, v) :: rt.toList ++ flatR c

theorem toList_plugL (L : List (Tree K V × K × V)) (t : Tree K V) :
    (plugL L t).toList = flatL L ++ t.toList := by
  induction L generalizing t with
  | nil => simp [plugL, flatL]
  | cons h c ih => obtain ⟨lt, k, v⟩ := h; simp [plugL, flatL, ih, toList]

theorem toList_plugR (R : List (K × V × Tree K V)) (t : Tree K V) :
    (plugR R t).toList = t.toList ++ flatR R := by
  induction R generalizing t with
  | nil => simp [plugR, flatR]
  | cons h c ih => obtain ⟨k, v, rt⟩ := h; simp [plugR, flatR, ih, toList]

theorem toList_splayFinish (L : List (Tree K V × K × V)) (R) (l : Tree K V) (k v r) :
    (splayFinish L R l k v r).toList = flatL L ++ (node l k v r).toList ++ flatR R := by
  simp [splayFinish, toList, toList_plugL, toList_plugR]

/-- The splay loop keeps the in-order sequence, for any comparator whatsoever. -/
theorem toList_splayLoop (cmp : K → K → Ordering) (key : K) (t : Tree K V) (L R) (h : t ≠ nil) :
    (splayLoop cmp key t L R).toList = flatL L ++ t.toList ++ flatR R := by
  fun_induction splayLoop cmp key t L R <;>
    simp_all [toList_splayFinish, toList, flatL, flatR]

theorem toList_splay (cmp : K → K → Ordering) (key : K) (t : Tree K V) :
    (splay cmp key t).toList = t.toList := by
  cases t with
  | nil => simp [splay, splayLoop]
  | node l k v r => simp [splay, toList_splayLoop, flatL, flatR]

/-- `key` separates the sequence: entries below `key`, then at most one entry equal to it, then
entries above. This is all the splay loop needs. -/
def Sep (cmp : K → K → Ordering) (key : K) (l : List (K × V)) : Prop :=
  l.Pairwise fun a b => cmp key a.1 = .gt ∨ cmp key b.1 = .lt

/-- Shape of a splayed tree. -/
structure SplitAt (cmp : K → K → Ordering) (key : K) (t : Tree K V)
    (l : Tree K V) (k : K) (v : V) (r : Tree K V) : Prop where
  eq : t = node l k v r
  below : ∀ e ∈ l.toList, cmp key e.1 = .gt
  above : ∀ e ∈ r.toList, cmp key e.1 = .lt

theorem splitAt_finish {cmp : K → K → Ordering} {key : K} {L R} {l : Tree K V} {k v r}
    (hL : ∀ e ∈ flatL L, cmp key e.1 = .gt) (hR : ∀ e ∈ flatR R, cmp key e.1 = .lt)
    (hl : ∀ e ∈ l.toList, cmp key e.1 = .gt) (hr : ∀ e ∈ r.toList, cmp key e.1 = .lt) :
    ∃ l' k' v' r', SplitAt cmp key (splayFinish L R l k v r) l' k' v' r' := by
  refine ⟨_, _, _, _, rfl, ?_, ?_⟩
  · intro e he
    rw [toList_plugL, List.mem_append] at he
    exact he.elim (hL e) (hl e)
  · intro e he
    rw [toList_plugR, List.mem_append] at he
    exact he.elim (hr e) (hR e)

theorem Sep.node {cmp : K → K → Ordering} {key : K} {l : Tree K V} {k v r}
    (h : Sep cmp key (node l k v r).toList) :
    Sep cmp key l.toList ∧ Sep cmp key r.toList ∧
    (cmp key k ≠ .lt → ∀ e ∈ l.toList, cmp key e.1 = .gt) ∧
    (cmp key k ≠ .gt → ∀ e ∈ r.toList, cmp key e.1 = .lt) := by
  simp only [Sep, toList, List.pairwise_append, List.pairwise_cons] at h ⊢
  obtain ⟨h1, ⟨h2, h3⟩, h4⟩ := h
  refine ⟨h1, h3, ?_, ?_⟩
  · intro hk e he
    exact (h4 e he (k, v) (by simp)).resolve_right hk
  · intro hk e he
    exact (h2 e he).resolve_left hk

theorem splayLoop_split (cmp : K → K → Ordering) (key : K) (t : Tree K V) (L R) (h : t ≠ nil)
    (hs : Sep cmp key t.toList)
    (hL : ∀ e ∈ flatL L, cmp key e.1 = .gt) (hR : ∀ e ∈ flatR R, cmp key e.1 = .lt) :
    ∃ l k v r, SplitAt cmp key (splayLoop cmp key t L R) l k v r := by
  fun_induction splayLoop cmp key t L R with
  | case1 => contradiction
  | case2 l k v r L R hc =>
    obtain ⟨-, -, h3, h4⟩ := hs.node
    exact splitAt_finish hL hR (h3 (by simp [hc])) (h4 (by simp [hc]))
  | case3 k v r L R hc =>
    obtain ⟨-, -, h3, h4⟩ := hs.node
    exact splitAt_finish hL hR (by simp [toList]) (h4 (by simp [hc]))
  | case4 k v r L R hc lk lv lr hc' =>
    obtain ⟨s1, -, -, h4⟩ := hs.node
    obtain ⟨-, -, -, h6⟩ := s1.node
    have h4 := h4 (by simp [hc]); have h6 := h6 (by simp [hc'])
    refine splitAt_finish hL hR (by simp [toList]) ?_
    simp only [toList, List.mem_append, List.mem_cons]
    rintro e (he | rfl | he)
    exacts [h6 e he, hc, h4 e he]
  | case5 k v r L R hc lk lv lr hc' lll llk llv llr ih =>
    obtain ⟨s1, -, -, h4⟩ := hs.node
    obtain ⟨s2, -, -, h6⟩ := s1.node
    have h4 := h4 (by simp [hc]); have h6 := h6 (by simp [hc'])
    refine ih (by simp) s2 hL ?_
    simp only [flatR, toList, List.mem_append, List.mem_cons, List.cons_append]
    rintro e (rfl | (he | rfl | he) | he)
    · exact hc'
    · exact h6 e he
    · exact hc
    · exact h4 e he
    · exact hR e he
  | case6 k v r L R hc ll lk lv lr hc' ih =>
    obtain ⟨s1, -, -, h4⟩ := hs.node
    have h4 := h4 (by simp [hc])
    refine ih (by simp) s1 hL ?_
    simp only [flatR, List.mem_append, List.mem_cons, List.cons_append]
    rintro e (rfl | he | he)
    · exact hc
    · exact h4 e he
    · exact hR e he
  | case7 l k v L R hc =>
    obtain ⟨-, -, h3, h4⟩ := hs.node
    exact splitAt_finish hL hR (h3 (by simp [hc])) (by simp [toList])
  | case8 l k v L R hc rl rk rv hc' =>
    obtain ⟨-, s1, h3, -⟩ := hs.node
    obtain ⟨-, -, h5, -⟩ := s1.node
    have h3 := h3 (by simp [hc]); have h5 := h5 (by simp [hc'])
    refine splitAt_finish hL hR ?_ (by simp [toList])
    simp only [toList, List.mem_append, List.mem_cons]
    rintro e (he | rfl | he)
    exacts [h3 e he, hc, h5 e he]
  | case9 l k v L R hc rl rk rv hc' rrl rrk rrv rrr ih =>
    obtain ⟨-, s1, h3, -⟩ := hs.node
    obtain ⟨-, s2, h5, -⟩ := s1.node
    have h3 := h3 (by simp [hc]); have h5 := h5 (by simp [hc'])
    refine ih (by simp) s2 ?_ hR
    simp only [flatL, toList, List.mem_append, List.mem_cons, List.append_assoc]
    rintro e (he | he | (rfl | he) | he)
    · exact hL e he
    · exact h3 e he
    · exact hc
    · exact h5 e he
    · simp at he; rcases he with rfl; exact hc'
  | case10 l k v L R hc rl rk rv rr hc' ih =>
    obtain ⟨-, s1, h3, -⟩ := hs.node
    have h3 := h3 (by simp [hc])
    refine ih (by simp) s1 ?_ hR
    simp only [flatL, List.mem_append]
    rintro e (he | he | he)
    · exact hL e he
    · exact h3 e he
    · simp at he; rcases he with rfl; exact hc

/-- After splaying a non-empty tree, everything left of the root is below `key` and everything
right of it is above `key`. -/
theorem splay_split (cmp : K → K → Ordering) (key : K) (t : Tree K V) (h : t ≠ nil)
    (hs : Sep cmp key t.toList) : ∃ l k v r, SplitAt cmp key (splay cmp key t) l k v r :=
  splayLoop_split cmp key t [] [] h hs (by simp [flatL]) (by simp [flatR])

theorem _root_.GeoCrossings.Spec.LawfulCmp.refl {cmp : K → K → Ordering} (h : LawfulCmp cmp) (a : K) : cmp a a = .eq := by
  have := h.swap a a
  cases hc : cmp a a <;> simp_all

theorem _root_.GeoCrossings.Spec.LawfulCmp.gt_iff {cmp : K → K → Ordering} (h : LawfulCmp cmp) (a b : K) :
    cmp a b = .gt ↔ cmp b a = .lt := by
  rw [h.swap a b]; cases cmp a b <;> simp

theorem _root_.GeoCrossings.Spec.LawfulCmp.eq_comm {cmp : K → K → Ordering} (h : LawfulCmp cmp) (a b : K) :
    cmp a b = .eq ↔ cmp b a = .eq := by
  rw [h.swap a b]; cases cmp a b <;> simp

theorem _root_.GeoCrossings.Spec.LawfulCmp.lt_of_le_of_lt {cmp : K → K → Ordering} (h : LawfulCmp cmp) {a b c : K}
    (h1 : cmp a b ≠ .gt) (h2 : cmp b c = .lt) : cmp a c = .lt := by
  by_contra hc
  have h3 : cmp c a ≠ .gt := by rw [Ne, h.gt_iff]; exact hc
  have := h.trans c a b h3 h1
  rw [Ne, h.gt_iff] at this; exact this h2

theorem _root_.GeoCrossings.Spec.LawfulCmp.lt_of_lt_of_le {cmp : K → K → Ordering} (h : LawfulCmp cmp) {a b c : K}
    (h1 : cmp a b = .lt) (h2 : cmp b c ≠ .gt) : cmp a c = .lt := by
  by_contra hc
  have h3 : cmp c a ≠ .gt := by rw [Ne, h.gt_iff]; exact hc
  have := h.trans b c a h2 h3
  rw [Ne, h.gt_iff] at this; exact this h1

theorem _root_.GeoCrossings.Spec.LawfulCmp.sep {cmp : K → K → Ordering} (h : LawfulCmp cmp) {l : List (K × V)}
    (hs : SortedBy cmp l) (key : K) : Sep cmp key l := by
  refine hs.imp ?_
  intro a b hab
  by_cases hk : cmp key a.1 = .gt
  · exact .inl hk
  · exact .inr (h.lt_of_le_of_lt hk hab)


/-- The in-order sequence seen from a splay: entries below, the root, entries above. -/
theorem splay_parts (cmp : K → K → Ordering) (key : K) (t : Tree K V) (h : t ≠ nil)
    (hs : Sep cmp key t.toList) :
    ∃ l k v r, splay cmp key t = node l k v r ∧ t.toList = l.toList ++ (k, v) :: r.toList ∧
      (∀ e ∈ l.toList, cmp key e.1 = .gt) ∧ (∀ e ∈ r.toList, cmp key e.1 = .lt) := by
  obtain ⟨l, k, v, r, h1, h2, h3⟩ := splay_split cmp key t h hs
  refine ⟨l, k, v, r, h1, ?_, h2, h3⟩
  rw [← toList_splay cmp key t, h1, toList]

theorem splay_nil (cmp : K → K → Ordering) (key : K) : splay cmp key (nil : Tree K V) = nil := rfl

theorem splay_eq_nil {cmp : K → K → Ordering} {key : K} {t : Tree K V} :
    splay cmp key t = nil ↔ t = nil := by
  constructor
  · intro h
    have := toList_splay cmp key t
    rw [h] at this
    cases t with
    | nil => rfl
    | node => simp [toList] at this
  · rintro rfl; rfl

theorem toList_eq_nil {t : Tree K V} : t.toList = [] ↔ t = nil := by
  cases t <;> simp [toList]

theorem Sep.of_all_gt {cmp : K → K → Ordering} {key : K} {l : List (K × V)}
    (h : ∀ e ∈ l, cmp key e.1 = .gt) : Sep cmp key l := by
  rw [Sep, List.pairwise_iff_forall_sublist]
  intro a b hab
  exact .inl (h a (hab.subset (by simp)))

theorem toList_join {cmp : K → K → Ordering} {key : K} {l r : Tree K V}
    (h : ∀ e ∈ l.toList, cmp key e.1 = .gt) :
    (joinAfterRemove cmp key l r).toList = l.toList ++ r.toList := by
  unfold joinAfterRemove
  by_cases hl : l = nil
  · subst hl; simp [splay_nil, toList]
  · obtain ⟨l', k, v, r', e1, e2, h1, h2⟩ := splay_parts cmp key l hl (.of_all_gt h)
    rw [e1]
    have : r'.toList = [] := by
      rw [List.eq_nil_iff_forall_not_mem]
      intro e he
      have h3 := h2 e he
      have h4 := h e (by rw [e2]; simp [he])
      rw [h3] at h4; cases h4
    simp [toList, e2, this]

section ops
variable {cmp : K → K → Ordering} {key : K}

theorem find_parts {A B : List (K × V)} {k v} (hA : ∀ e ∈ A, cmp key e.1 = .gt)
    (hB : ∀ e ∈ B, cmp key e.1 = .lt) :
    OrdMap.find cmp key (A ++ (k, v) :: B) = if cmp key k = .eq then some (k, v) else none := by
  unfold OrdMap.find
  have h1 : A.find? (fun e => cmp key e.1 = .eq) = none := by
    rw [List.find?_eq_none]; intro e he; simp [hA e he]
  have h2 : B.find? (fun e => cmp key e.1 = .eq) = none := by
    rw [List.find?_eq_none]; intro e he; simp [hB e he]
  rw [List.find?_append, h1, List.find?_cons, h2]
  by_cases hk : cmp key k = .eq <;> simp [hk]

theorem insert_parts {A B : List (K × V)} {k v val} (hA : ∀ e ∈ A, cmp key e.1 = .gt)
    (hB : ∀ e ∈ B, cmp key e.1 = .lt) :
    OrdMap.insert cmp key val (A ++ (k, v) :: B) =
      match cmp key k with
      | .lt => A ++ (key, val) :: (k, v) :: B
      | .eq => A ++ (k, val) :: B
      | .gt => A ++ (k, v) :: (key, val) :: B := by
  induction A with
  | nil =>
    simp only [List.nil_append, OrdMap.insert]
    cases hk : cmp key k <;> simp
    cases B with
    | nil => rfl
    | cons e B => simp [OrdMap.insert, hB e (by simp)]
  | cons e A ih =>
    simp only [List.cons_append, OrdMap.insert, hA e (by simp)]
    rw [ih fun e he => hA e (by simp [he])]
    cases cmp key k <;> rfl

theorem erase_parts {A B : List (K × V)} {k v} (hA : ∀ e ∈ A, cmp key e.1 = .gt)
    (hB : ∀ e ∈ B, cmp key e.1 = .lt) :
    OrdMap.erase cmp key (A ++ (k, v) :: B) =
      if cmp key k = .eq then A ++ B else A ++ (k, v) :: B := by
  unfold OrdMap.erase
  have h1 : A.filter (fun e => cmp key e.1 ≠ .eq) = A := by
    rw [List.filter_eq_self]; intro e he; simp [hA e he]
  have h2 : B.filter (fun e => cmp key e.1 ≠ .eq) = B := by
    rw [List.filter_eq_self]; intro e he; simp [hB e he]
  rw [List.filter_append, h1, List.filter_cons, h2]
  by_cases hk : cmp key k = .eq <;> simp [hk]

theorem write_parts {A B : List (K × V)} {k v val} (hA : ∀ e ∈ A, cmp key e.1 = .gt)
    (hB : ∀ e ∈ B, cmp key e.1 = .lt) :
    OrdMap.write cmp key val (A ++ (k, v) :: B) =
      A ++ (if cmp key k = .eq then (k, val) else (k, v)) :: B := by
  unfold OrdMap.write
  have h1 : A.map (fun e => if cmp key e.1 = .eq then (e.1, val) else e) = A := by
    conv_rhs => rw [← List.map_id A]
    apply List.map_congr_left; intro e he; simp [hA e he]
  have h2 : B.map (fun e => if cmp key e.1 = .eq then (e.1, val) else e) = B := by
    conv_rhs => rw [← List.map_id B]
    apply List.map_congr_left; intro e he; simp [hB e he]
  rw [List.map_append, h1, List.map_cons, h2]

theorem nextLoop_spec (t : Tree K V) (acc : Option (K × V)) (hs : Sep cmp key t.toList) :
    nextLoop cmp key t acc = (OrdMap.succ cmp key t.toList).or acc := by
  induction t generalizing acc with
  | nil => simp [nextLoop, OrdMap.succ, toList]
  | node l k v r ihl ihr =>
    obtain ⟨s1, s2, h3, h4⟩ := hs.node
    simp only [nextLoop, OrdMap.succ, toList, List.find?_append, List.find?_cons]
    cases hk : cmp key k with
    | lt => simp [ihl _ s1, OrdMap.succ]
    | eq =>
      have : l.toList.find? (fun e => cmp key e.1 = .lt) = none := by
        rw [List.find?_eq_none]; intro e he; simp [h3 (by simp [hk]) e he]
      simp [ihr _ s2, OrdMap.succ, this]
    | gt =>
      have : l.toList.find? (fun e => cmp key e.1 = .lt) = none := by
        rw [List.find?_eq_none]; intro e he; simp [h3 (by simp [hk]) e he]
      simp [ihr _ s2, OrdMap.succ, this]

theorem prevLoop_spec (t : Tree K V) (acc : Option (K × V)) (hs : Sep cmp key t.toList) :
    prevLoop cmp key t acc = (OrdMap.pred cmp key t.toList).or acc := by
  induction t generalizing acc with
  | nil => simp [prevLoop, OrdMap.pred, toList]
  | node l k v r ihl ihr =>
    obtain ⟨s1, s2, h3, h4⟩ := hs.node
    simp only [prevLoop, OrdMap.pred, toList, List.filter_append, List.filter_cons]
    cases hk : cmp key k with
    | lt =>
      have : r.toList.filter (fun e => cmp key e.1 = .gt) = [] := by
        rw [List.filter_eq_nil_iff]; intro e he; simp [h4 (by simp [hk]) e he]
      simp [ihl _ s1, OrdMap.pred, this]
    | eq =>
      have : r.toList.filter (fun e => cmp key e.1 = .gt) = [] := by
        rw [List.filter_eq_nil_iff]; intro e he; simp [h4 (by simp [hk]) e he]
      simp [ihl _ s1, OrdMap.pred, this]
    | gt =>
      simp only [ihr _ s2, OrdMap.pred, decide_true, if_true, List.getLast?_append, List.getLast?_cons]
      cases (List.filter (fun e => decide (cmp key e.1 = .gt)) r.toList).getLast? <;> simp

/-! ### Each operation against the specification, under the separation condition -/

theorem get_spec (s : SplayTree K V) (hs : Sep cmp key s.root.toList) :
    (s.get cmp key).2 = (OrdMap.find cmp key s.root.toList).map (·.2) := by
  unfold SplayTree.get
  by_cases h : s.root = nil
  · simp [h, splay_nil, toList, OrdMap.find]
  · obtain ⟨l, k, v, r, e1, e2, h1, h2⟩ := splay_parts cmp key s.root h hs
    rw [e1, e2, find_parts h1 h2]
    by_cases hk : cmp key k = .eq <;> simp [hk]

theorem getMut_spec (s : SplayTree K V) (w : V) (hs : Sep cmp key s.root.toList) :
    (s.getMut cmp key fun _ => w).2 = (OrdMap.find cmp key s.root.toList).map (·.2) ∧
    (s.getMut cmp key fun _ => w).1.root.toList = OrdMap.write cmp key w s.root.toList ∧
    (s.getMut cmp key fun _ => w).1.size = s.size := by
  unfold SplayTree.getMut
  by_cases h : s.root = nil
  · simp [h, splay_nil, toList, OrdMap.find, OrdMap.write]
  · obtain ⟨l, k, v, r, e1, e2, h1, h2⟩ := splay_parts cmp key s.root h hs
    rw [e1, e2, find_parts h1 h2, write_parts h1 h2]
    by_cases hk : cmp key k = .eq <;> simp [hk, toList]

theorem findKey_spec (s : SplayTree K V) (hs : Sep cmp key s.root.toList) :
    (s.findKey cmp key).2 = (OrdMap.find cmp key s.root.toList).map (·.1) := by
  unfold SplayTree.findKey
  by_cases h : s.root = nil
  · simp [h, splay_nil, toList, OrdMap.find]
  · obtain ⟨l, k, v, r, e1, e2, h1, h2⟩ := splay_parts cmp key s.root h hs
    rw [e1, e2, find_parts h1 h2]
    by_cases hk : cmp key k = .eq <;> simp [hk]

theorem next_spec (s : SplayTree K V) (hs : Sep cmp key s.root.toList) :
    (s.next cmp key).2 = OrdMap.succ cmp key s.root.toList := by
  unfold SplayTree.next
  rw [← toList_splay cmp key] at hs ⊢
  simp [nextLoop_spec _ _ hs]

theorem prev_spec (s : SplayTree K V) (hs : Sep cmp key s.root.toList) :
    (s.prev cmp key).2 = OrdMap.pred cmp key s.root.toList := by
  unfold SplayTree.prev
  rw [← toList_splay cmp key] at hs ⊢
  simp [prevLoop_spec _ _ hs]

theorem insert_spec (s : SplayTree K V) (w : V) (hs : Sep cmp key s.root.toList) :
    (s.insert cmp key w).2 = (OrdMap.find cmp key s.root.toList).map (·.2) ∧
    (s.insert cmp key w).1.root.toList = OrdMap.insert cmp key w s.root.toList ∧
    (s.insert cmp key w).1.size =
      if (OrdMap.find cmp key s.root.toList).isSome then s.size else s.size + 1 := by
  unfold SplayTree.insert
  by_cases h : s.root = nil
  · simp [h, splay_nil, toList, OrdMap.find, OrdMap.insert]
  · obtain ⟨l, k, v, r, e1, e2, h1, h2⟩ := splay_parts cmp key s.root h hs
    rw [e1, e2, find_parts h1 h2, insert_parts h1 h2]
    cases hk : cmp key k <;> simp [hk, toList]

theorem remove_spec (s : SplayTree K V) (hs : Sep cmp key s.root.toList)
    (hn : s.size = s.root.toList.length) :
    ∃ s', s.remove cmp key = some (s', (OrdMap.find cmp key s.root.toList).map (·.2)) ∧
      s'.root.toList = OrdMap.erase cmp key s.root.toList ∧ s'.size = s'.root.toList.length := by
  unfold SplayTree.remove
  by_cases h : s.root = nil
  · exact ⟨s, by simp [h, splay_nil, toList, OrdMap.find], by simp [h, toList, OrdMap.erase], hn⟩
  · obtain ⟨l, k, v, r, e1, e2, h1, h2⟩ := splay_parts cmp key s.root h hs
    rw [e1, e2, find_parts h1 h2, erase_parts h1 h2]
    by_cases hk : cmp key k = .eq
    · simp only [hk, ne_eq, not_true, if_false, if_true]
      rw [e2] at hn
      cases hz : s.size with
      | zero => simp [hz] at hn
      | succ n =>
        refine ⟨⟨joinAfterRemove cmp key l r, n⟩, by simp, toList_join h1, ?_⟩
        simp [hz] at hn
        simp [toList_join h1]; omega
    · refine ⟨{ s with root := node l k v r }, by simp [hk], by simp [hk, toList], ?_⟩
      simp [hn, e2, toList]

end ops

theorem minNode_spec (t : Tree K V) : minNode t = t.toList.head? := by
  fun_induction minNode t with
  | case1 => rfl
  | case2 => simp [toList]
  | case3 _ _ _ ll lk lv lr ih => rw [ih]; simp [toList, List.head?_append]

theorem maxNode_spec (t : Tree K V) : maxNode t = t.toList.getLast? := by
  fun_induction maxNode t with
  | case1 => rfl
  | case2 => simp [toList]
  | case3 l k v rl rk rv rr ih => rw [ih]; simp [toList, List.getLast?_append, List.getLast?_cons]

theorem popFront_spec (l : Tree K V) (k : K) (v : V) (r : Tree K V) :
    (popFront l k v r).1 :: (popFront l k v r).2.toList = (node l k v r).toList := by
  fun_induction popFront l k v r with
  | case1 => simp [toList]
  | case2 k v r ll lk lv lr ih => rw [ih]; simp [toList]

theorem popBack_spec (l : Tree K V) (k : K) (v : V) (r : Tree K V) :
    (popBack l k v r).2.toList ++ [(popBack l k v r).1] = (node l k v r).toList := by
  fun_induction popBack l k v r with
  | case1 => simp [toList]
  | case2 l k v rl rk rv rr ih => rw [ih]; simp [toList]

end GeoCrossings.Splay

import Verif.Lemmas.BopDegree
import Verif.Props.Rings

/-! # `Rings::finish` on the edges of a run of `Op::sweep` -/
set_option linter.unusedSectionVars false
namespace GeoCrossings
open Spec BoolOp Rings

section
variable {K : Type _}

theorem cycEdges_append {P Q : List (Pt K)} (hP : P ≠ []) (hQ : Q ≠ []) : cycEdges (P ++ Q) = cycEdges (Q ++ P) := by
  obtain ⟨p1, p1h⟩ : ∃ x, P.head? = some x := ⟨P.head hP, List.head?_eq_some_head hP⟩
  obtain ⟨p2, p2h⟩ : ∃ x, P.getLast? = some x := ⟨P.getLast hP, List.getLast?_eq_some_getLast hP⟩
  obtain ⟨q1, q1h⟩ : ∃ x, Q.head? = some x := ⟨Q.head hQ, List.head?_eq_some_head hQ⟩
  obtain ⟨q2, q2h⟩ : ∃ x, Q.getLast? = some x := ⟨Q.getLast hQ, List.getLast?_eq_some_getLast hQ⟩
  rw [cycEdges_eq (a := p1) (b := q2) (by simp [p1h]) (by simp [q2h]), cycEdges_eq (a := q1) (b := p2) (by simp [q1h]) (by simp [p2h]),
    pathEdges_append p2h q1h, pathEdges_append q2h p1h]
  abel

theorem cycEdges_rotate (pre post : List (Pt K)) (a : Pt K) : cycEdges (pre ++ a :: post) = cycEdges (a :: (post ++ pre)) := by
  cases pre with
  | nil => simp
  | cons x pre => exact cycEdges_append (by simp) (by simp)

theorem perm_pair_or {α : Type _} {a b c d : α} (h : [a, b].Perm [c, d]) : (a = c ∧ b = d) ∨ (a = d ∧ b = c) := by
  have hc : a = c ∨ a = d := by simpa using h.subset (List.mem_cons_self ..)
  rcases hc with rfl | rfl
  · left
    have := List.Perm.cons_inv h
    exact ⟨rfl, by simpa using this⟩
  · right
    have := List.Perm.cons_inv (h.trans (List.Perm.swap _ _ _))
    exact ⟨rfl, by simpa using this⟩

theorem exists_min {α : Type _} [LinearOrder α] : ∀ {l : List α}, l ≠ [] → ∃ a ∈ l, ∀ q ∈ l, a ≤ q
  | [], h => absurd rfl h
  | [a], _ => ⟨a, by simp, by simp⟩
  | a :: b :: l, _ => by
    obtain ⟨m, h1, h2⟩ := exists_min (l := b :: l) (by simp)
    rcases le_total a m with k | k
    · refine ⟨a, by simp, ?_⟩
      intro q hq
      rcases List.mem_cons.1 hq with rfl | hq
      · exact le_rfl
      · exact k.trans (h2 q hq)
    · refine ⟨m, List.mem_cons_of_mem _ h1, ?_⟩
      intro q hq
      rcases List.mem_cons.1 hq with rfl | hq
      · exact k
      · exact h2 q hq

end

variable {K : Type} [Field K] [LinearOrder K] [IsStrictOrderedRing K]

/-- Edges that meet in even numbers, and of which no two start in the same direction, make proper rings. -/
theorem finish_total (es : List (LineOrPoint K × Winding)) (h1 : ∀ e ∈ es, e.1.first < e.1.second)
    (h2 : ∀ v, Even (es.countP (fun e => e.1.first = v) + es.countP (fun e => e.1.second = v)))
    (h3 : es.Pairwise fun a b => a.1.first = b.1.first → det a.1.first a.1.second b.1.second ≠ 0) :
    ∃ r rings, ofEdges es = some r ∧ r.finish = some rings := by
  have hne : ∀ e ∈ es, e.1.first ≠ e.1.second := fun e he => (h1 e he).ne
  obtain ⟨r, hr⟩ := C36_add_edge_total es hne
  obtain ⟨loops, hl, hf⟩ := (C36_finish_iff_even es hne hr).2.2 (by
    intro p
    have := h2 p
    unfold degree
    rw [List.countP_map, List.countP_map]
    exact this)
  obtain ⟨r', i1, H, -⟩ := ofEdges_inv es hne
  rw [hr] at i1; simp only [Option.some.injEq] at i1; subst i1
  obtain ⟨-, k2, k3⟩ := rawLoops_spec H hl
  cases hfin : r.finish with
  | some rings => exact ⟨r, rings, hr, hfin⟩
  | none =>
    exfalso
    obtain ⟨x, hx, hw⟩ := hf.1 hfin
    obtain ⟨hn, hnx⟩ := k2 x hx
    -- two edges of the loop at its least vertex
    have key : ∀ a b c : Pt K, a < b → a < c → ({s(a, b), s(a, c)} : Multiset (Sym2 (Pt K))) ≤ cycEdges x.2 → det a b c ≠ 0 := by
      intro a b c hb hc hle hd
      have hle2 : ({s(a, b), s(a, c)} : Multiset (Sym2 (Pt K))) ≤ ((es.map fun e => edgeOf e.1 : List _) : Multiset _) := by
        rw [k3]
        exact hle.trans (Multiset.single_le_sum (fun _ _ => Multiset.zero_le _) _ (Multiset.mem_coe.2 (List.mem_map_of_mem hx)))
      have hsp : List.Subperm [s(a, b), s(a, c)] (es.map fun e => edgeOf e.1) := by
        rw [← Multiset.coe_le]; exact hle2
      obtain ⟨l, l1, l2⟩ := hsp
      obtain ⟨l', l3, rfl⟩ := List.sublist_map_iff.1 l2
      have hp := h3.sublist l3
      have hmem : ∀ e ∈ l', ∀ z, a < z → edgeOf e.1 = s(a, z) → e.1.first = a ∧ e.1.second = z := by
        intro e he z hz hez
        have := h1 e (l3.subset he)
        unfold edgeOf at hez
        rw [Sym2.eq_iff] at hez
        rcases hez with k | ⟨k, k'⟩
        · exact k
        · rw [k, k'] at this; exact absurd this (_root_.lt_asymm hz)
      have hlen : l'.length = 2 := by simpa using l1.length_eq
      match l', hlen with
      | [e1, e2], _ =>
        simp only [List.map_cons, List.map_nil] at l1
        simp only [List.pairwise_cons, List.mem_singleton, forall_eq] at hp
        have hp := hp.1
        have hdd : det a c b = 0 := by unfold det at hd ⊢; linear_combination -hd
        rcases perm_pair_or l1 with k | k
        · obtain ⟨m1, m2⟩ := hmem e1 (by simp) b hb k.1
          obtain ⟨n1, n2⟩ := hmem e2 (by simp) c hc k.2
          rw [m1, m2, n1, n2] at hp
          exact hp rfl hd
        · obtain ⟨m1, m2⟩ := hmem e1 (by simp) c hc k.1
          obtain ⟨n1, n2⟩ := hmem e2 (by simp) b hb k.2
          rw [m1, m2, n1, n2] at hp
          exact hp rfl hdd
    obtain ⟨a, ha, hmin⟩ : ∃ a ∈ x.2, ∀ q ∈ x.2, a ≤ q := by
      exact exists_min hnx
    obtain ⟨pre, post, e⟩ := List.append_of_mem ha
    rw [e, cycEdges_rotate] at key
    have hlt : ∀ q ∈ post ++ pre, a < q := by
      intro q hq
      have hn' := hn
      rw [e] at hn'
      rw [List.nodup_append] at hn'
      have hqa : q ∈ x.2 := by
        rw [e]; simp only [List.mem_append, List.mem_cons] at hq ⊢; tauto
      refine lt_of_le_of_ne (hmin q hqa) ?_
      rintro rfl
      rcases List.mem_append.1 hq with k | k
      · exact (List.nodup_cons.1 hn'.2.1).1 k
      · exact hn'.2.2 _ k _ (by simp) rfl
    rcases hpp : post ++ pre with _ | ⟨nx, rest⟩
    · -- a single vertex
      have : s(a, a) ∈ ((es.map fun e => edgeOf e.1 : List _) : Multiset _) := by
        rw [k3]
        refine Multiset.mem_of_le (Multiset.single_le_sum (fun _ _ => Multiset.zero_le _) _ (Multiset.mem_coe.2 (List.mem_map_of_mem hx))) ?_
        rw [e, cycEdges_rotate, hpp]
        simp [cycEdges, pathEdges]
      simp only [Multiset.mem_coe, List.mem_map] at this
      obtain ⟨e', he', hea⟩ := this
      unfold edgeOf at hea
      rw [Sym2.eq_iff] at hea
      rcases hea with ⟨a1, a2⟩ | ⟨a1, a2⟩ <;> exact hne e' he' (a1.trans a2.symm)
    · rw [hpp] at hlt key
      rcases List.eq_nil_or_concat rest with hr0 | ⟨m, pv, hr0⟩
      · subst hr0
        refine key a nx nx (hlt nx (by simp)) (hlt nx (by simp)) ?_ (by unfold det; ring)
        simp [cycEdges, pathEdges, Sym2.eq_swap]
      · rw [List.concat_eq_append] at hr0
        subst hr0
        have hd := key a nx pv (hlt nx (by simp)) (hlt pv (by simp)) (by
          have e2 : cycEdges (a :: nx :: (m ++ [pv])) = pathEdges (nx :: (m ++ [pv])) + {s(a, nx)} + {s(pv, a)} := by
            rw [cycEdges_eq (a := a) (b := pv) rfl (by rw [← List.cons_append, ← List.cons_append, List.getLast?_concat])]
            simp [pathEdges, ← Multiset.singleton_add, add_comm]
          rw [e2, Sym2.eq_swap (a := pv), add_assoc]
          exact Multiset.le_add_left _ _)
        rw [windingOrder_closeRing hn e hpp hmin] at hw
        have h0 : orient2d pv a nx ≠ .collinear := by
          unfold orient2d
          have : det pv a nx ≠ 0 := by
            intro h; apply hd; unfold det at h ⊢; linear_combination h
          rcases lt_trichotomy (det pv a nx) 0 with k | k | k
          · rw [if_neg (not_lt.2 k.le), if_pos k]; simp
          · exact absurd k this
          · rw [if_pos k]; simp
        cases ho : orient2d pv a nx <;> rw [ho] at hw h0 <;> simp at hw h0

end GeoCrossings

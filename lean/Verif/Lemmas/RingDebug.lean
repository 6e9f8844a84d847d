import Verif.Lemmas.BopHoles

/-! # The debug assertions of `Rings::add_edge` -/
set_option linter.unusedSectionVars false
namespace GeoCrossings
open Spec Rings

section
variable {K : Type _} [LinearOrder K]

theorem endOk_of {cs : List (Chain K)} {l : Link} {w : Winding} (h1 : nxtAt cs l = none) (h2 : effAt cs l = some w.inverse) :
    endOk cs l w = true := by
  unfold effAt at h2
  unfold nxtAt Chain.nxt at h1
  unfold endOk
  cases hc : cs[l.idx]? with
  | none => rw [hc] at h2; simp at h2
  | some c =>
    rw [hc] at h1 h2
    simp only [Option.map_some, Option.some.injEq, Option.bind_some] at h1 h2
    cases hb : l.toFront <;> rw [hb] at h1 h2
    · simp only [Bool.false_eq_true, if_false] at h1 h2 ⊢
      have := congrArg Winding.inverse h2
      simp only [Winding.inverse_inverse] at this
      simp [h1, this]
    · simp only [if_true] at h1 h2 ⊢
      simp [h1, h2]

/-- The ends to which an edge is attached are free, and the windings agree. -/
theorem addEdgeOk_of {D : Pt K → Pt K → Prop} {em : List (LineOrPoint K × Winding)} {r : Rings K} {E} (R : RInv E r) (H : DInv D em r)
    {e : LineOrPoint K × Winding} (hne : e.1.first ≠ e.1.second)
    (hp : ∀ v, e.1.first = v ∨ e.1.second = v → PairedAt (em ++ [e]) v) : r.addEdgeOk e.1 e.2 = true := by
  obtain ⟨o1, o2⟩ := outgoing_ends hne
  have f : ∀ i, r.endPoints e.1.first = some i → nxtAt r.chains i = none ∧ effAt r.chains i = some e.2.inverse := by
    intro i hi
    obtain ⟨w, w1, w2⟩ := H.go (.inl rfl) (hp _ (.inl rfl)) hi
    rw [o1] at w2
    refine ⟨((R.ends _ _).1 hi).2, w1.trans (congrArg some ?_)⟩
    cases w <;> cases h : e.2 <;> simp_all [Winding.inverse]
  have s : ∀ i, r.endPoints e.1.second = some i → nxtAt r.chains i = none ∧ effAt r.chains i = some e.2.inverse.inverse := by
    intro i hi
    obtain ⟨w, w1, w2⟩ := H.go (.inr rfl) (hp _ (.inr rfl)) hi
    rw [o2] at w2
    refine ⟨((R.ends _ _).1 hi).2, w1.trans (congrArg some ?_)⟩
    cases w <;> cases h : e.2 <;> simp_all [Winding.inverse]
  unfold addEdgeOk
  cases hi : r.endPoints e.1.first with
  | none =>
    cases hj : r.endPoints e.1.second with
    | none => rfl
    | some j => exact endOk_of (s j hj).1 (s j hj).2
  | some i =>
    have hfi := endOk_of (f i hi).1 (f i hi).2
    cases hj : r.endPoints e.1.second with
    | none => exact hfi
    | some j =>
      have hij : j ≠ i := by
        rintro rfl
        have h1 := ((R.ends _ _).1 hi).1
        rw [((R.ends _ _).1 hj).1, Option.some.injEq] at h1
        exact hne h1.symm
      simp only [hfi, Bool.true_and]
      unfold modifyChain
      cases hc : r.chains[i.idx]? with
      | none =>
        have := (f i hi).2
        unfold effAt at this
        rw [hc] at this
        simp at this
      | some c =>
        obtain ⟨-, a2, a3, -⟩ := setNext_spec (j := j) hc
        simp only [Option.map_some]
        refine endOk_of ?_ ?_
        · rw [a2, if_neg hij]; exact (s j hj).1
        · rw [a3]; exact (s j hj).2

theorem effAt_of_endOk {cs : List (Chain K)} {l : Link} {w : Winding} (h : endOk cs l w = true) : effAt cs l = some w.inverse := by
  unfold endOk at h
  unfold effAt
  cases hc : cs[l.idx]? with
  | none => rw [hc] at h; simp at h
  | some c =>
    rw [hc] at h
    simp only at h
    simp only [Option.map_some]
    cases hb : l.toFront <;> rw [hb] at h <;> simp at h <;> simp [h.2]

/-- What the assertions say about the windings. -/
theorem of_addEdgeOk {r : Rings K} {e : LineOrPoint K × Winding} (h : r.addEdgeOk e.1 e.2 = true) :
    (∀ l, r.endPoints e.1.first = some l → effAt r.chains l = some e.2.inverse) ∧
      ∀ l, r.endPoints e.1.second = some l → effAt r.chains l = some e.2 := by
  unfold addEdgeOk at h
  cases hi : r.endPoints e.1.first with
  | none =>
    refine ⟨fun l hl => by simp at hl, fun l hl => ?_⟩
    rw [hi, hl] at h
    simpa using effAt_of_endOk h
  | some i =>
    cases hj : r.endPoints e.1.second with
    | none =>
      rw [hi, hj] at h
      refine ⟨fun l hl => ?_, fun l hl => by simp at hl⟩
      rw [Option.some.injEq] at hl
      subst hl
      exact effAt_of_endOk h
    | some j =>
      rw [hi, hj] at h
      simp only [Bool.and_eq_true] at h
      obtain ⟨h1, h2⟩ := h
      refine ⟨fun l hl => ?_, fun l hl => ?_⟩
      · rw [Option.some.injEq] at hl
        subst hl
        exact effAt_of_endOk h1
      · rw [Option.some.injEq] at hl
        subst hl
        unfold modifyChain at h2
        cases hc : r.chains[i.idx]? with
        | none => rw [hc] at h2; simp at h2
        | some c =>
          rw [hc] at h2
          obtain ⟨-, -, a3, -⟩ := setNext_spec (j := j) hc
          have := effAt_of_endOk h2
          rw [a3] at this
          simpa using this

/-- Edges stay paired if the new one is paired with the one that waits. -/
theorem PairedAt.snoc {em : List (LineOrPoint K × Winding)} {v : Pt K} (h : PairedAt em v) {e : LineOrPoint K × Winding}
    (hl : e.1.first = v ∨ e.1.second = v → Odd (atV em v).length → ∀ e', (atV em v).getLast? = some e' → outgoing e' v ≠ outgoing e v) :
    PairedAt (em ++ [e]) v := by
  intro pre a b post hat hpre
  rw [atV_snoc] at hat
  split at hat
  · rename_i hv
    rcases List.eq_nil_or_concat post with rfl | ⟨post', x, rfl⟩
    · have e1 : pre ++ [a, b] = (pre ++ [a]) ++ [b] := by simp
      rw [e1] at hat
      obtain ⟨h1, h2⟩ := List.append_inj' hat rfl
      simp only [List.cons.injEq, and_true] at h2
      subst h2
      exact hl hv (by rw [h1]; simpa [Nat.odd_add_one] using hpre) a (by rw [h1]; simp)
    · have e1 : pre ++ a :: b :: post'.concat x = (pre ++ a :: b :: post') ++ [x] := by simp
      rw [e1] at hat
      exact h pre a b post' (List.append_inj' hat rfl).1 hpre
  · exact h pre a b post hat hpre

/-- The assertions make sure that the new edge is paired with those before it. -/
theorem paired_of_addEdgeOk {D : Pt K → Pt K → Prop} {em : List (LineOrPoint K × Winding)} {r : Rings K} (H : DInv D em r)
    {e : LineOrPoint K × Winding} (hne : e.1.first ≠ e.1.second) (hok : r.addEdgeOk e.1 e.2 = true) {v : Pt K} (hp : PairedAt em v) :
    PairedAt (em ++ [e]) v := by
  refine hp.snoc fun hv ho e' he' => ?_
  obtain ⟨o1, o2⟩ := outgoing_ends hne
  obtain ⟨k1, k2⟩ := of_addEdgeOk hok
  obtain ⟨l, hl⟩ := Option.isSome_iff_exists.1 ((H.deg v).2 ho)
  obtain ⟨e2, w, h1, h2, h3⟩ := H.pend v l hl
  rw [he', Option.some.injEq] at h1
  subst h1
  rcases hv with rfl | rfl
  · rw [k1 l hl, Option.some.injEq] at h2
    subst h2
    cases h : e.2 <;> simp_all [Winding.inverse]
  · rw [k2 l hl, Option.some.injEq] at h2
    subst h2
    cases h : e.2 <;> simp_all [Winding.inverse]

end

section
variable {K : Type} [Field K] [LinearOrder K] [IsStrictOrderedRing K]

/-- No debug assertion fails while the edges are added, if they are paired at every vertex. -/
theorem addAll_debug (em : List (LineOrPoint K × Winding)) (hne : ∀ e ∈ em, e.1.first ≠ e.1.second) (hp : ∀ v, PairedAt em v) :
    addAll true em (Rings.default : Rings K) = ofEdges em := by
  induction em using List.reverseRecOn with
  | nil => rfl
  | append_singleton em e ih =>
    obtain ⟨r0, h1, h2, -⟩ := ofEdges_inv em fun e he => hne e (by simp [he])
    have ih := ih (fun e he => hne e (by simp [he])) fun v => (hp v).prefix
    have hd := ofEdges_dinv em (fun e he => hne e (by simp [he])) (fun e he => dir_edge he) (fun v => (hp v).prefix) h1
    have hok := addEdgeOk_of h2 hd (hne e (by simp)) fun v _ => hp v
    rw [addAll_append, ih, h1]
    unfold ofEdges at h1 ⊢
    rw [List.foldlM_append, h1]
    simp [addAll, addEdgeD, hok]

/-- If no debug assertion fails while the edges are added, they are paired at every vertex. -/
theorem paired_of_debug (em : List (LineOrPoint K × Winding)) (hne : ∀ e ∈ em, e.1.first ≠ e.1.second) {r : Rings K}
    (h : addAll true em (Rings.default : Rings K) = some r) (v : Pt K) : PairedAt em v := by
  induction em using List.reverseRecOn generalizing r v with
  | nil => intro pre a b post hat; simp [atV] at hat
  | append_singleton em e ih =>
    rw [addAll_append] at h
    obtain ⟨r0, h1, h2⟩ := Option.bind_eq_some_iff.1 h
    have ih := fun v => ih (fun e he => hne e (by simp [he])) h1 v
    have h3 := addAll_debug em (fun e he => hne e (by simp [he])) ih
    rw [h1] at h3
    have hd := ofEdges_dinv em (fun e he => hne e (by simp [he])) (fun e he => dir_edge he) ih h3.symm
    refine paired_of_addEdgeOk hd (hne e (by simp)) ?_ (ih v)
    by_contra hok
    simp [addAll, addEdgeD, hok] at h2

end

end GeoCrossings

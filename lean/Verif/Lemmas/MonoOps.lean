import Verif.Lemmas.MonoRep

/-!
# The operations of `chains.rs` on pieces
-/
set_option linter.unusedSectionVars false
namespace GeoCrossings.Monotone

variable {K : Type} [Field K] [LinearOrder K]
variable {chains chains' : List (Chain K)} {o d o' d' : List (Piece K)} {p p' q : Piece K} {v : Pt K}

theorem looksAt_iff {w : Winding} {i : Nat} {l : List (Pt K)} : (Chain.mk w i l false).looksAt v = true ↔ l.getLast? = some v := by
  unfold Chain.looksAt Chain.next
  rw [Bool.not_false, Bool.true_and]
  exact decide_eq_true_iff

theorem dassert_true {dbg c : Bool} (h : c = true) : dassert dbg c = some () := by simp [dassert, h]

/-- `finish` on both chains of a piece. -/
theorem Rep.finishPair (dbg : Bool) (h : Rep chains (p :: o) d) {i j : Nat}
    (hij : i = p.ti ∧ j = p.bi ∨ i = p.bi ∧ j = p.ti) :
    ∃ chains', Monotone.finishPair dbg chains i j = some chains' ∧ Rep chains' o (p :: d) := by
  obtain ⟨h1, h2⟩ := h.opn p (by simp)
  obtain ⟨l1, l2⟩ := h.lt (p := p) (by simp)
  have hne := h.ne (p := p) (by simp)
  have res : ∀ (a b : Nat) (ca cb : Chain K), a ≠ b → chains[a]? = some ca → chains[b]? = some cb → a < chains.length →
      b < chains.length → ca.done = false → cb.done = false → ca.interior ≠ cb.interior →
      Monotone.finishPair dbg chains a b = some ((chains.set a { ca with done := true }).set b { cb with done := true }) := by
    intro a b ca cb hab ea eb la lb da db hi
    have g1 : (chains.set a { ca with done := true })[b]? = some cb := by rw [List.getElem?_set_ne hab]; exact eb
    have g2 : ((chains.set a { ca with done := true }).set b { cb with done := true })[a]? = some { ca with done := true } := by
      rw [List.getElem?_set_ne hab.symm, List.getElem?_set_self la]
    simp only [Monotone.finishPair, ea, Option.bind_eq_bind, Option.bind_some, Chain.finish, dassert_true (show (!ca.done) = true by simp [da]),
      g1, dassert_true (show (!cb.done) = true by simp [db]), Option.pure_def, g2]
    rw [dassert_true (by simp [hi])]
    rfl
  rcases hij with ⟨rfl, rfl⟩ | ⟨rfl, rfl⟩
  · refine ⟨_, res p.ti p.bi _ _ hne h1 h2 l1 l2 rfl rfl (by simp), ?_⟩
    refine h.close (p' := p) (by simp) rfl rfl ⟨?_, ?_⟩ ?_
    · rw [List.getElem?_set_ne hne.symm, List.getElem?_set_self l1]
    · rw [List.getElem?_set_self (by simpa using l2)]
    · intro i i1 i2
      rw [List.getElem?_set_ne i2.symm, List.getElem?_set_ne i1.symm]
  · refine ⟨_, res p.bi p.ti _ _ hne.symm h2 h1 l2 l1 rfl rfl (by simp), ?_⟩
    refine h.close (p' := p) (by simp) rfl rfl ⟨?_, ?_⟩ ?_
    · rw [List.getElem?_set_self (by simpa using l1)]
    · rw [List.getElem?_set_ne hne, List.getElem?_set_self l2]
    · intro i i1 i2
      rw [List.getElem?_set_ne i1.symm, List.getElem?_set_ne i2.symm]

/-- The piece is complete: both chains end in the same point. -/
def Piece.Met (p : Piece K) : Prop := p.T.getLast? = p.B.getLast?

theorem reduceOne_eq {dbg : Bool} {i j : Nat} {c1 c2 : Chain K} (h1 : chains[i]? = some c1) (hj : c1.other = j) (h2 : chains[j]? = some c2)
    (hd : c1.done = c2.done) : reduceOne dbg chains i =
      if c1.done then some chains else if c1.next = c2.next then Monotone.finishPair dbg chains i j else some chains := by
  subst hj
  simp only [reduceOne, h1, Option.bind_eq_bind, Option.bind_some, h2, dassert_true (show decide (c1.done = c2.done) = true by simp [hd])]
  rfl

theorem Rep.reduceOne (dbg : Bool) (h : Rep chains o d) {i : Nat} (hi : i < chains.length) :
    ∃ chains', Monotone.reduceOne dbg chains i = some chains' ∧ ∃ o' cl, o.Perm (cl ++ o') ∧ Rep chains' o' (cl ++ d) ∧
      (∀ p ∈ cl, (i = p.ti ∨ i = p.bi) ∧ p.Met) ∧ (∀ p ∈ o', i = p.ti ∨ i = p.bi → ¬ p.Met) := by
  obtain ⟨p, hp, hpi⟩ := h.index hi
  rcases List.mem_append.1 hp with hp' | hp'
  · obtain ⟨h1, h2⟩ := h.opn p hp'
    have heq : Monotone.reduceOne dbg chains i = if p.T.getLast? = p.B.getLast? then
        Monotone.finishPair dbg chains i (if i = p.ti then p.bi else p.ti) else some chains := by
      rcases hpi with rfl | rfl
      · rw [reduceOne_eq h1 rfl h2 rfl, if_pos rfl]; rfl
      · rw [reduceOne_eq h2 rfl h1 rfl, if_neg (h.ne hp).symm]
        simp only [Bool.false_eq_true, if_false, Chain.next, eq_comm]
    by_cases hm : p.T.getLast? = p.B.getLast?
    · obtain ⟨s, t, rfl⟩ := List.append_of_mem hp'
      have hR : Rep chains (p :: (s ++ t)) d := h.perm List.perm_middle (List.Perm.refl _)
      obtain ⟨chains', e1, e2⟩ := hR.finishPair dbg (i := i) (j := if i = p.ti then p.bi else p.ti) (by
        rcases hpi with rfl | rfl
        · rw [if_pos rfl]; exact .inl ⟨rfl, rfl⟩
        · rw [if_neg (h.ne hp).symm]; exact .inr ⟨rfl, rfl⟩)
      refine ⟨chains', by rw [heq, if_pos hm]; exact e1, s ++ t, [p], List.perm_middle, e2, ?_, ?_⟩
      · intro q hq
        rw [List.mem_singleton] at hq
        subst hq
        exact ⟨hpi, hm⟩
      · intro q hq hqi
        have hn := hR.nodup
        have : p = q := hR.unique (by simp) (by simp at hq ⊢; tauto) hpi hqi
        subst this
        rw [List.cons_append, idxs_cons, List.nodup_cons] at hn
        exact absurd (List.mem_cons_of_mem _ (mem_idxs.2 ⟨p, by simp at hq ⊢; tauto, .inl rfl⟩)) hn.1
    · refine ⟨chains, by rw [heq, if_neg hm], o, [], List.Perm.refl _, h, by simp, ?_⟩
      intro q hq hqi
      have : p = q := h.unique hp (by simp [hq]) hpi hqi
      subst this
      exact hm
  · obtain ⟨h1, h2⟩ := h.dn p hp'
    refine ⟨chains, ?_, o, [], List.Perm.refl _, h, by simp, ?_⟩
    · rcases hpi with rfl | rfl
      · rw [reduceOne_eq h1 rfl h2 rfl]; simp
      · rw [reduceOne_eq h2 rfl h1 rfl]; simp
    · intro q hq hqi
      have : p = q := h.unique hp (by simp [hq]) hpi hqi
      subst this
      have hn := h.nodup
      rw [idxs_append, List.nodup_append] at hn
      exact absurd rfl (hn.2.2 p.ti (mem_idxs.2 ⟨p, hq, .inl rfl⟩) p.ti (mem_idxs.2 ⟨p, hp', .inl rfl⟩))

theorem Rep.length (h : Rep chains o d) : chains.length = 2 * (o.length + d.length) := by
  have := h.idx.length_eq
  rw [List.length_range] at this
  rw [← this]
  have : ∀ l : List (Piece K), (idxs l).length = 2 * l.length := by
    intro l
    induction l with
    | nil => rfl
    | cons p l ih => simp [ih]; omega
  rw [this, List.length_append]

theorem Rep.reduceAll (dbg : Bool) : ∀ (L : List Nat) {chains : List (Chain K)} {o d : List (Piece K)}, Rep chains o d →
    (∀ i ∈ L, i < chains.length) →
    ∃ chains', L.foldlM (Monotone.reduceOne dbg) chains = some chains' ∧ ∃ o' cl, o.Perm (cl ++ o') ∧ Rep chains' o' (cl ++ d) ∧
      (∀ p ∈ cl, (∃ i ∈ L, i = p.ti ∨ i = p.bi) ∧ p.Met) ∧ (∀ p ∈ o', ∀ i ∈ L, i = p.ti ∨ i = p.bi → ¬ p.Met)
  | [], chains, o, d, h, _ => ⟨chains, rfl, o, [], List.Perm.refl _, h, by simp, by simp⟩
  | i :: L, chains, o, d, h, hL => by
    obtain ⟨c1, e1, o1, cl1, p1, R1, a1, b1⟩ := h.reduceOne dbg (hL i (by simp))
    have hlen : c1.length = chains.length := by
      rw [R1.length, h.length, p1.length_eq]; simp; omega
    obtain ⟨c2, e2, o2, cl2, p2, R2, a2, b2⟩ := Rep.reduceAll dbg L R1 (fun j hj => by rw [hlen]; exact hL j (by simp [hj]))
    refine ⟨c2, by rw [List.foldlM_cons, e1]; exact e2, o2, cl2 ++ cl1, ?_, ?_, ?_, ?_⟩
    · refine p1.trans (((List.Perm.refl cl1).append p2).trans ?_)
      rw [← List.append_assoc]
      exact List.Perm.append_right _ List.perm_append_comm
    · rw [List.append_assoc]; exact R2
    · intro p hp
      rcases List.mem_append.1 hp with hp | hp
      · obtain ⟨⟨j, hj, hji⟩, hm⟩ := a2 p hp
        exact ⟨⟨j, by simp [hj], hji⟩, hm⟩
      · exact ⟨⟨i, by simp, (a1 p hp).1⟩, (a1 p hp).2⟩
    · intro p hp j hj hji
      rcases List.mem_cons.1 hj with rfl | hj
      · exact b1 p (p2.mem_iff.2 (by simp [hp])) hji
      · exact b2 p hp j hj hji

/-- The piece is complete at `v`. -/
def Piece.closed (v : Pt K) (p : Piece K) : Bool := p.T.getLast? = some v && p.B.getLast? = some v

/-- **Reduction without a `Continue` link**: the pieces that are complete at the point are closed. -/
theorem Rep.reduce_none (dbg : Bool) (h : Rep chains o d) (v : Pt K) (hev : looksCount v o % 2 = 0) :
    ∃ chains', Monotone.reduce dbg v chains none = some chains' ∧
      Rep chains' (o.filter fun p => !p.closed v) (o.filter (fun p => p.closed v) ++ d) := by
  obtain ⟨c', e, o', cl, hp, R, ha, hb⟩ := h.reduceAll dbg ((List.range chains.length).filter fun i => (chains[i]?).any fun c => c.looksAt v)
    (fun i hi => List.mem_range.1 (List.mem_filter.1 hi).1)
  have hcl : ∀ p ∈ cl, p.closed v = true := by
    intro p hpc
    obtain ⟨⟨i, hi, hpi⟩, hm⟩ := ha p hpc
    obtain ⟨h1, h2⟩ := h.opn p (hp.mem_iff.2 (by simp [hpc]))
    have := (List.mem_filter.1 hi).2
    unfold Piece.Met at hm
    rcases hpi with rfl | rfl
    · rw [h1, Option.any_some, looksAt_iff] at this
      simp [Piece.closed, ← hm, this]
    · rw [h2, Option.any_some, looksAt_iff] at this
      simp [Piece.closed, hm, this]
  have hop : ∀ p ∈ o', p.closed v = false := by
    intro p hpo
    by_contra hc
    rw [Bool.not_eq_false, Piece.closed, Bool.and_eq_true, decide_eq_true_eq, decide_eq_true_eq] at hc
    have hpo' : p ∈ o := hp.mem_iff.2 (by simp [hpo])
    obtain ⟨h1, h2⟩ := h.opn p hpo'
    refine hb p hpo p.ti ?_ (.inl rfl) (hc.1.trans hc.2.symm)
    rw [List.mem_filter, List.mem_range]
    exact ⟨(h.lt (by simp [hpo'])).1, by rw [h1, Option.any_some, looksAt_iff]; exact hc.1⟩
  refine ⟨c', ?_, R.perm ?_ ?_⟩
  · simp only [Monotone.reduce, Option.bind_eq_bind]
    rw [dassert_true (by rw [h.count]; simp [hev])]
    exact e
  · have := (hp.filter fun p => !p.closed v).symm
    rw [List.filter_append, List.filter_eq_nil_iff.2 (fun p hp => by simp [hcl p hp]), List.filter_eq_self.2 (fun p hp => by simp [hop p hp])] at this
    exact this
  · have := (hp.filter fun p => p.closed v).symm
    rw [List.filter_append, List.filter_eq_self.2 (fun p hp => by simp [hcl p hp]), List.filter_eq_nil_iff.2 (fun p hp => by simp [hop p hp]),
      List.append_nil] at this
    exact this.append_right d

/-! ## The links -/

/-- `Link::Start`. -/
theorem Rep.start (dbg : Bool) (h : Rep chains o d) (ty : VertexType) (cur : Option Nat) (t b : Pt K) :
    ∃ chains', applyLink dbg v ty (chains, cur) (.start v t b) = some (chains', cur) ∧
      Rep chains' (⟨chains.length, chains.length + 1, [v, t], [v, b]⟩ :: o) d := by
  refine ⟨chains ++ [⟨.clockwise, chains.length + 1, [v, t], false⟩, ⟨.counterClockwise, chains.length, [v, b], false⟩], ?_, ?_⟩
  · simp [applyLink, dassert, Chain.new]
  · refine h.push (by simp) (.inl ⟨rfl, rfl⟩) ⟨?_, ?_⟩ ?_
    · simp
    · simp
    · intro i hi; rw [List.getElem?_append_left hi]

theorem mapM_some {α : Type _} (f : α → Option α) (g : α → α) : ∀ (l : List α), (∀ a ∈ l, f a = some (g a)) → l.mapM f = some (l.map g)
  | [], _ => rfl
  | a :: l, h => by
    rw [List.mapM_cons, h a (by simp), mapM_some f g l fun b hb => h b (by simp [hb])]
    rfl

/-- What `Link::Merge` does to one chain with the points `l`: `e` is the limb. -/
def growAt (m v : Pt K) (e : List (Pt K)) (l : List (Pt K)) : List (Pt K) := if l.getLast? = some m then l ++ v :: e else l

/-- `Link::Merge` at another vertex than a split vertex. -/
theorem Rep.merge (dbg : Bool) (h : Rep chains o d) {ty : VertexType} (hty : ty ≠ .split) (cur : Option Nat) (m : Pt K)
    (limbs : Option (Pt K × Pt K)) (hc : looksCount m o = 2) :
    ∃ chains', applyLink dbg v ty (chains, cur) (.merge m v limbs) = some (chains', cur) ∧
      Rep chains' (o.map fun p => ⟨p.ti, p.bi, growAt m v [] p.T, growAt m v [] p.B⟩) d := by
  refine ⟨chains.map fun c => if c.looksAt m then c.advance v else c, ?_, ?_⟩
  · simp only [applyLink, applyMerge, Option.bind_eq_bind]
    rw [dassert_true (by simp), mapM_some _ (fun c => if c.looksAt m then c.advance v else c)]
    · simp only [Option.bind_some]
      rw [dassert_true (by rw [h.countP]; simp [hc])]
      rfl
    · intro c _
      simp only [mergeChain, if_neg hty]
      split_ifs <;> rfl
  · refine h.map _ _ ?_ ?_
    · intro p _
      refine ⟨?_, ?_, rfl, rfl⟩
      · simp only [looksAt_iff, Chain.advance, growAt]
        split_ifs <;> simp
      · simp only [looksAt_iff, Chain.advance, growAt]
        split_ifs <;> simp
    · intro c hc
      simp [Chain.looksAt, hc]

/-- `Link::Merge` at a split vertex. -/
theorem Rep.merge_split (dbg : Bool) (h : Rep chains o d) (cur : Option Nat) (m t b : Pt K) (hc : looksCount m o = 2) :
    ∃ chains', applyLink dbg v .split (chains, cur) (.merge m v (some (t, b))) = some (chains', cur) ∧
      Rep chains' (o.map fun p => ⟨p.ti, p.bi, growAt m v [b] p.T, growAt m v [t] p.B⟩) d := by
  refine ⟨chains.map fun c => if c.looksAt m then (c.advance v).advance (if c.interior = .clockwise then b else t) else c, ?_, ?_⟩
  · simp only [applyLink, applyMerge, Option.bind_eq_bind]
    rw [dassert_true (by simp), mapM_some _ (fun c => if c.looksAt m then (c.advance v).advance (if c.interior = .clockwise then b else t) else c)]
    · simp only [Option.bind_some]
      rw [dassert_true (by rw [h.countP]; simp [hc])]
      rfl
    · intro c _
      simp only [mergeChain, if_true, Option.map_some]
      split_ifs with h1 h2 h3 h3 <;> first | rfl | exact absurd h3 h2 | exact absurd h2 h3
  · refine h.map _ _ ?_ ?_
    · intro p _
      refine ⟨?_, ?_, rfl, rfl⟩
      · simp only [looksAt_iff, Chain.advance, growAt, if_true]
        split_ifs <;> simp
      · simp only [looksAt_iff, Chain.advance, growAt, reduceCtorEq, if_false]
        split_ifs <;> simp
    · intro c hc
      simp [Chain.looksAt, hc]

/-- The last two points. -/
def EndsIn (l : List (Pt K)) (a b : Pt K) : Prop := ∃ pre, l = pre ++ [a, b]

theorem EndsIn.last {l : List (Pt K)} {a b : Pt K} (h : EndsIn l a b) : l.getLast? = some b := by
  obtain ⟨pre, rfl⟩ := h
  simp

theorem EndsIn.curr {l : List (Pt K)} {a b : Pt K} (h : EndsIn l a b) (w : Winding) (i : Nat) (x : Bool) :
    (Chain.mk w i l x).curr = some a := by
  obtain ⟨pre, rfl⟩ := h
  simp [Chain.curr]

theorem curr_endsIn {w : Winding} {i : Nat} {l : List (Pt K)} {x : Bool} {a b : Pt K} (h : (Chain.mk w i l x).curr = some a)
    (hb : l.getLast? = some b) : EndsIn l a b := by
  rcases List.eq_nil_or_concat l with rfl | ⟨l', c, rfl⟩
  · simp at hb
  · rcases List.eq_nil_or_concat l' with rfl | ⟨l'', c', rfl⟩
    · simp [Chain.curr] at h
    · simp [Chain.curr] at h hb
      subst h hb
      exact ⟨l'', by simp⟩

/-- `Link::Continue`, on the upper chain of a piece. -/
theorem Rep.cont_top (dbg : Bool) (h : Rep chains (p :: o) d) (ty : VertexType) (cur : Option Nat) {a r : Pt K} (w : Winding)
    (he : EndsIn p.T a v) (hb : ¬ EndsIn p.B a v) (ho : ∀ q ∈ o, ¬ EndsIn q.T a v ∧ ¬ EndsIn q.B a v) :
    ∃ chains', applyLink dbg v ty (chains, cur) (.cont a v r w) = some (chains', some p.ti) ∧
      Rep chains' (⟨p.ti, p.bi, p.T ++ [r], p.B⟩ :: o) d := by
  obtain ⟨h1, h2⟩ := h.opn p (by simp)
  obtain ⟨l1, l2⟩ := h.lt (p := p) (by simp)
  have hne := h.ne (p := p) (by simp)
  have hidx : chains.findIdx? (fun c => c.looksAt v && c.curr = some a) = some p.ti := by
    refine findIdx_unique h1 ?_ ?_
    · simp [Chain.looksAt, Chain.next, he.last, he.curr]
    · intro j c hj hq
      simp only [Bool.and_eq_true, Chain.looksAt, Bool.not_eq_true', Chain.next, decide_eq_true_eq] at hq
      obtain ⟨q, hq', ⟨rfl, rfl⟩ | ⟨rfl, rfl⟩⟩ := h.get hj hq.1.1
      · rcases List.mem_cons.1 hq' with rfl | hq'
        · rfl
        · exact absurd (curr_endsIn hq.2 (of_decide_eq_true hq.1.2)) (ho q hq').1
      · rcases List.mem_cons.1 hq' with rfl | hq'
        · exact absurd (curr_endsIn hq.2 (of_decide_eq_true hq.1.2)) hb
        · exact absurd (curr_endsIn hq.2 (of_decide_eq_true hq.1.2)) (ho q hq').2
  refine ⟨chains.set p.ti ⟨.clockwise, p.bi, p.T ++ [r], false⟩, ?_, ?_⟩
  · simp only [applyLink, applyCont, Option.bind_eq_bind, hidx, h1, Option.bind_some]
    rw [dassert_true (by simp)]
    rfl
  · refine h.replace (by simp) rfl rfl ⟨?_, ?_⟩ ?_
    · rw [List.getElem?_set_self l1]
    · rw [List.getElem?_set_ne hne]; exact h2
    · intro i i1 _
      rw [List.getElem?_set_ne i1.symm]

/-- `Link::Continue`, on the lower chain of a piece. -/
theorem Rep.cont_bot (dbg : Bool) (h : Rep chains (p :: o) d) (ty : VertexType) (cur : Option Nat) {a r : Pt K} (w : Winding)
    (he : EndsIn p.B a v) (hb : ¬ EndsIn p.T a v) (ho : ∀ q ∈ o, ¬ EndsIn q.T a v ∧ ¬ EndsIn q.B a v) :
    ∃ chains', applyLink dbg v ty (chains, cur) (.cont a v r w) = some (chains', some p.bi) ∧
      Rep chains' (⟨p.ti, p.bi, p.T, p.B ++ [r]⟩ :: o) d := by
  obtain ⟨h1, h2⟩ := h.opn p (by simp)
  obtain ⟨l1, l2⟩ := h.lt (p := p) (by simp)
  have hne := h.ne (p := p) (by simp)
  have hidx : chains.findIdx? (fun c => c.looksAt v && c.curr = some a) = some p.bi := by
    refine findIdx_unique h2 ?_ ?_
    · simp [Chain.looksAt, Chain.next, he.last, he.curr]
    · intro j c hj hq
      simp only [Bool.and_eq_true, Chain.looksAt, Bool.not_eq_true', Chain.next, decide_eq_true_eq] at hq
      obtain ⟨q, hq', ⟨rfl, rfl⟩ | ⟨rfl, rfl⟩⟩ := h.get hj hq.1.1
      · rcases List.mem_cons.1 hq' with rfl | hq'
        · exact absurd (curr_endsIn hq.2 (of_decide_eq_true hq.1.2)) hb
        · exact absurd (curr_endsIn hq.2 (of_decide_eq_true hq.1.2)) (ho q hq').1
      · rcases List.mem_cons.1 hq' with rfl | hq'
        · rfl
        · exact absurd (curr_endsIn hq.2 (of_decide_eq_true hq.1.2)) (ho q hq').2
  refine ⟨chains.set p.bi ⟨.counterClockwise, p.ti, p.B ++ [r], false⟩, ?_, ?_⟩
  · simp only [applyLink, applyCont, Option.bind_eq_bind, hidx, h2, Option.bind_some]
    rw [dassert_true (by simp)]
    rfl
  · refine h.replace (by simp) rfl rfl ⟨?_, ?_⟩ ?_
    · rw [List.getElem?_set_ne hne.symm]; exact h1
    · rw [List.getElem?_set_self l2]
    · intro i _ i2
      rw [List.getElem?_set_ne i2.symm]

/-- `Link::End` changes nothing. -/
theorem applyLink_finish (dbg : Bool) (ty : VertexType) (s : List (Chain K) × Option Nat) (a b : Pt K) :
    applyLink dbg v ty s (.finish a b v) = some s := by
  simp [applyLink, dassert]

/-- Reduction after a `Continue` link if no chain looks at the point. -/
theorem Rep.reduce_cont_none (dbg : Bool) (h : Rep chains o d) (v : Pt K) (i : Nat) (hc : looksCount v o = 0) :
    Monotone.reduce dbg v chains (some i) = some chains := by
  have := h.count v
  rw [hc, List.length_eq_zero_iff] at this
  simp only [Monotone.reduce, this]
  rw [dassert_true (by simp)]
  rfl

theorem set_pop {c : Chain K} {l : List (Pt K)} {r : Pt K} (h : c.coords = l ++ [r]) : c.pop = some (r, { c with coords := l }) := by
  simp [Chain.pop, h]

theorem reduceCont_eq {dbg : Bool} {ci pi oi : Nat} {looks : List Nat} {c cp co : Chain K} {l : List (Pt K)} {r : Pt K}
    (hc : chains[ci]? = some c) (hl : c.coords = l ++ [r]) (hp : chains[pi]? = some cp) (hpo : cp.other = ci) (hne : ci ≠ pi)
    (ho : chains[oi]? = some co) (hoo : co.other ≠ ci) (hlk : looks = [pi, oi] ∨ looks = [oi, pi])
    (hm : l.getLast? = cp.coords.getLast?) :
    reduceCont dbg chains ci looks = (Monotone.finishPair dbg (chains.set ci { c with coords := l }) ci pi).bind fun ch =>
      (ch[oi]?).bind fun co => some (ch.set oi (co.advance r)) := by
  have hp' : (chains.set ci { c with coords := l })[pi]? = some cp := by rw [List.getElem?_set_ne hne]; exact hp
  have hmm : decide ((Chain.next { c with coords := l }) = cp.next) = true := by
    rw [decide_eq_true_eq]; exact hm
  rcases hlk with rfl | rfl
  · simp only [reduceCont, Option.bind_eq_bind, List.length_cons, List.length_nil, Option.bind_some, List.getElem?_cons_zero, List.getElem?_cons_succ, hp, hpo, if_true, Option.map_some, hc, set_pop hl, hp',
      dassert_true hmm]
    rw [dassert_true (by simp), Option.bind_some]
    rfl
  · simp only [reduceCont, Option.bind_eq_bind, List.length_cons, List.length_nil, Option.bind_some, List.getElem?_cons_zero, List.getElem?_cons_succ, ho, if_neg hoo, hp, hpo, if_true, hc, set_pop hl, hp',
      dassert_true hmm]
    rw [dassert_true (by simp), Option.bind_some]
    rfl

theorem list_two {L : List Nat} {a b : Nat} (hl : L.length = 2) (ha : a ∈ L) (hb : b ∈ L) (hne : a ≠ b) : L = [a, b] ∨ L = [b, a] := by
  match L, hl with
  | [x, y], _ =>
    simp at ha hb
    rcases ha with rfl | rfl <;> rcases hb with rfl | rfl
    · exact absurd rfl hne
    · exact .inl rfl
    · exact .inr rfl
    · exact absurd rfl hne

/-- Reduction after a `Continue` link on the upper chain of `p`, whose lower chain looks at the point, together with the upper chain of
`q`: `p` is closed, and `q` is continued instead. -/
theorem Rep.reduce_cont_top (dbg : Bool) {p q : Piece K} {T : List (Pt K)} {r : Pt K} (h : Rep chains (p :: q :: o) d) (hT : p.T = T ++ [r])
    (hTv : T.getLast? = some v) (hB : p.B.getLast? = some v) (hq : q.T.getLast? = some v) (hc : looksCount v (p :: q :: o) = 2) :
    ∃ chains', Monotone.reduce dbg v chains (some p.ti) = some chains' ∧
      Rep chains' (⟨q.ti, q.bi, q.T ++ [r], q.B⟩ :: o) (⟨p.ti, p.bi, T, p.B⟩ :: d) := by
  obtain ⟨h1, h2⟩ := h.opn p (by simp)
  obtain ⟨q1, q2⟩ := h.opn q (by simp)
  obtain ⟨l1, l2⟩ := h.lt (p := p) (by simp)
  obtain ⟨l3, l4⟩ := h.lt (p := q) (by simp)
  have hne := h.ne (p := p) (by simp)
  have hnd := h.nodup
  simp only [List.cons_append, idxs_cons, List.nodup_cons, List.mem_cons, not_or] at hnd
  obtain ⟨⟨-, n1, n2, -⟩, ⟨n3, n4, -⟩, -⟩ := hnd
  have hlk := list_two ((h.count v).trans hc) (a := p.bi) (b := q.ti)
    (List.mem_filter.2 ⟨List.mem_range.2 l2, by rw [h2, Option.any_some, looksAt_iff]; exact hB⟩)
    (List.mem_filter.2 ⟨List.mem_range.2 l3, by rw [q1, Option.any_some, looksAt_iff]; exact hq⟩) n3
  have R1 : Rep (chains.set p.ti ⟨.clockwise, p.bi, T, false⟩) (⟨p.ti, p.bi, T, p.B⟩ :: q :: o) d := by
    refine h.replace (by simp) rfl rfl ⟨?_, ?_⟩ ?_
    · rw [List.getElem?_set_self l1]
    · rw [List.getElem?_set_ne hne]; exact h2
    · intro i i1 _
      rw [List.getElem?_set_ne i1.symm]
  obtain ⟨ch, e, R2⟩ := R1.finishPair dbg (i := p.ti) (j := p.bi) (.inl ⟨rfl, rfl⟩)
  obtain ⟨a1, a2⟩ := R2.opn q (by simp)
  obtain ⟨m1, m2⟩ := R2.lt (p := q) (by simp)
  have hneq := R2.ne (p := q) (by simp)
  refine ⟨ch.set q.ti ⟨.clockwise, q.bi, q.T ++ [r], false⟩, ?_, ?_⟩
  · simp only [Monotone.reduce, Option.bind_eq_bind]
    rw [dassert_true (by rw [h.count, hc]; rfl), Option.bind_some, if_neg (by rcases hlk with h | h <;> rw [h] <;> simp)]
    rw [reduceCont_eq h1 hT h2 rfl hne q1 (Ne.symm n2) hlk (hTv.trans hB.symm), e, Option.bind_some, a1]
    rfl
  · refine R2.replace (by simp) rfl rfl ⟨?_, ?_⟩ ?_
    · rw [List.getElem?_set_self m1]
    · rw [List.getElem?_set_ne hneq]; exact a2
    · intro i i1 _
      rw [List.getElem?_set_ne i1.symm]

/-- The same on the lower chain. -/
theorem Rep.reduce_cont_bot (dbg : Bool) {p q : Piece K} {B : List (Pt K)} {r : Pt K} (h : Rep chains (p :: q :: o) d) (hT : p.B = B ++ [r])
    (hTv : B.getLast? = some v) (hB : p.T.getLast? = some v) (hq : q.B.getLast? = some v) (hc : looksCount v (p :: q :: o) = 2) :
    ∃ chains', Monotone.reduce dbg v chains (some p.bi) = some chains' ∧
      Rep chains' (⟨q.ti, q.bi, q.T, q.B ++ [r]⟩ :: o) (⟨p.ti, p.bi, p.T, B⟩ :: d) := by
  obtain ⟨h1, h2⟩ := h.opn p (by simp)
  obtain ⟨q1, q2⟩ := h.opn q (by simp)
  obtain ⟨l1, l2⟩ := h.lt (p := p) (by simp)
  obtain ⟨l3, l4⟩ := h.lt (p := q) (by simp)
  have hne := h.ne (p := p) (by simp)
  have hnd := h.nodup
  simp only [List.cons_append, idxs_cons, List.nodup_cons, List.mem_cons, not_or] at hnd
  obtain ⟨⟨-, n1, n2, -⟩, ⟨n3, n4, -⟩, -⟩ := hnd
  have hlk := list_two ((h.count v).trans hc) (a := p.ti) (b := q.bi)
    (List.mem_filter.2 ⟨List.mem_range.2 l1, by rw [h1, Option.any_some, looksAt_iff]; exact hB⟩)
    (List.mem_filter.2 ⟨List.mem_range.2 l4, by rw [q2, Option.any_some, looksAt_iff]; exact hq⟩) n2
  have R1 : Rep (chains.set p.bi ⟨.counterClockwise, p.ti, B, false⟩) (⟨p.ti, p.bi, p.T, B⟩ :: q :: o) d := by
    refine h.replace (by simp) rfl rfl ⟨?_, ?_⟩ ?_
    · rw [List.getElem?_set_ne hne.symm]; exact h1
    · rw [List.getElem?_set_self l2]
    · intro i _ i2
      rw [List.getElem?_set_ne i2.symm]
  obtain ⟨ch, e, R2⟩ := R1.finishPair dbg (i := p.bi) (j := p.ti) (.inr ⟨rfl, rfl⟩)
  obtain ⟨a1, a2⟩ := R2.opn q (by simp)
  obtain ⟨m1, m2⟩ := R2.lt (p := q) (by simp)
  have hneq := R2.ne (p := q) (by simp)
  refine ⟨ch.set q.bi ⟨.counterClockwise, q.ti, q.B ++ [r], false⟩, ?_, ?_⟩
  · simp only [Monotone.reduce, Option.bind_eq_bind]
    rw [dassert_true (by rw [h.count, hc]; rfl), Option.bind_some, if_neg (by rcases hlk with h | h <;> rw [h] <;> simp)]
    rw [reduceCont_eq h2 hT h1 rfl hne.symm q2 (Ne.symm n3) hlk (hTv.trans hB.symm), e, Option.bind_some, a2]
    rfl
  · refine R2.replace (by simp) rfl rfl ⟨?_, ?_⟩ ?_
    · rw [List.getElem?_set_ne hneq.symm]; exact a1
    · rw [List.getElem?_set_self m2]
    · intro i _ i2
      rw [List.getElem?_set_ne i2.symm]

/-! ## `Link::Split` -/

/-- The candidates for a split. -/
def cands (chains : List (Chain K)) (h : Pt K) : List Nat :=
  (List.range chains.length).filter fun i => (chains[i]?).any fun c => !c.done && c.curr = some h

theorem splitIdx_one {dbg : Bool} {hpt : Pt K} {i : Nat} (h : cands chains hpt = [i]) : splitIdx dbg chains hpt v = some i := by
  unfold splitIdx
  rw [show ((List.range chains.length).filter fun i => (chains[i]?).any fun c => !c.done && c.curr = some hpt) = [i] from h]

/-- `Link::Split` on the upper chain of `p`. -/
theorem Rep.split_top (dbg : Bool) (h : Rep chains (p :: o) d) (ty : VertexType) (cur : Option Nat) {hpt r t b : Pt K} {pre : List (Pt K)}
    (he : p.T = pre ++ [hpt, r]) (hs : splitIdx dbg chains hpt v = some p.ti) :
    ∃ chains' ti bi, applyLink dbg v ty (chains, cur) (.split hpt v t b) = some (chains', cur) ∧
      Rep chains' (⟨p.ti, p.bi, pre ++ [hpt, v, b], p.B⟩ :: ⟨ti, bi, [hpt, r], [hpt, v, t]⟩ :: o) d := by
  obtain ⟨h1, h2⟩ := h.opn p (by simp)
  obtain ⟨l1, l2⟩ := h.lt (p := p) (by simp)
  have hne := h.ne (p := p) (by simp)
  have R1 : Rep (chains.set p.ti ⟨.clockwise, p.bi, pre ++ [hpt, v, b], false⟩) (⟨p.ti, p.bi, pre ++ [hpt, v, b], p.B⟩ :: o) d := by
    refine h.replace (by simp) rfl rfl ⟨?_, ?_⟩ ?_
    · rw [List.getElem?_set_self l1]
    · rw [List.getElem?_set_ne hne]; exact h2
    · intro i i1 _
      rw [List.getElem?_set_ne i1.symm]
  have hpop : (Chain.mk .clockwise p.bi p.T false).pop = some (r, ⟨.clockwise, p.bi, pre ++ [hpt], false⟩) :=
    set_pop (l := pre ++ [hpt]) (by simp [he])
  refine ⟨(chains.set p.ti ⟨.clockwise, p.bi, pre ++ [hpt, v, b], false⟩) ++
    [⟨.clockwise, chains.length + 1, [hpt, r], false⟩, ⟨.counterClockwise, chains.length, [hpt, v, t], false⟩],
    chains.length, chains.length + 1, ?_, ?_⟩
  · simp only [applyLink, applySplit, hs, h1, hpop, Option.bind_eq_bind, Option.bind_some]
    rw [dassert_true (by simp)]
    simp [Chain.advance, Chain.new, Winding.inverse]
  · refine (R1.push (p := ⟨chains.length, chains.length + 1, [hpt, r], [hpt, v, t]⟩) (by simp) (.inl ⟨by simp, by simp⟩) ⟨?_, ?_⟩ ?_).perm
      (List.Perm.swap _ _ _) (List.Perm.refl _)
    · rw [List.getElem?_append_right (by simp)]; simp
    · rw [List.getElem?_append_right (by simp)]; simp
    · intro i hi; rw [List.getElem?_append_left hi]

/-- `Link::Split` on the lower chain of `p`. -/
theorem Rep.split_bot (dbg : Bool) (h : Rep chains (p :: o) d) (ty : VertexType) (cur : Option Nat) {hpt r t b : Pt K} {pre : List (Pt K)}
    (he : p.B = pre ++ [hpt, r]) (hs : splitIdx dbg chains hpt v = some p.bi) :
    ∃ chains' ti bi, applyLink dbg v ty (chains, cur) (.split hpt v t b) = some (chains', cur) ∧
      Rep chains' (⟨ti, bi, [hpt, v, b], [hpt, r]⟩ :: ⟨p.ti, p.bi, p.T, pre ++ [hpt, v, t]⟩ :: o) d := by
  obtain ⟨h1, h2⟩ := h.opn p (by simp)
  obtain ⟨l1, l2⟩ := h.lt (p := p) (by simp)
  have hne := h.ne (p := p) (by simp)
  have R1 : Rep (chains.set p.bi ⟨.counterClockwise, p.ti, pre ++ [hpt, v, t], false⟩) (⟨p.ti, p.bi, p.T, pre ++ [hpt, v, t]⟩ :: o) d := by
    refine h.replace (by simp) rfl rfl ⟨?_, ?_⟩ ?_
    · rw [List.getElem?_set_ne hne.symm]; exact h1
    · rw [List.getElem?_set_self l2]
    · intro i _ i2
      rw [List.getElem?_set_ne i2.symm]
  have hpop : (Chain.mk .counterClockwise p.ti p.B false).pop = some (r, ⟨.counterClockwise, p.ti, pre ++ [hpt], false⟩) :=
    set_pop (l := pre ++ [hpt]) (by simp [he])
  refine ⟨(chains.set p.bi ⟨.counterClockwise, p.ti, pre ++ [hpt, v, t], false⟩) ++
    [⟨.counterClockwise, chains.length + 1, [hpt, r], false⟩, ⟨.clockwise, chains.length, [hpt, v, b], false⟩],
    chains.length + 1, chains.length, ?_, ?_⟩
  · simp only [applyLink, applySplit, hs, h2, hpop, Option.bind_eq_bind, Option.bind_some]
    rw [dassert_true (by simp)]
    simp [Chain.advance, Chain.new, Winding.inverse]
  · refine R1.push (p := ⟨chains.length + 1, chains.length, [hpt, v, b], [hpt, r]⟩) (by simp) (.inr ⟨by simp, by simp⟩) ⟨?_, ?_⟩ ?_
    · rw [List.getElem?_append_right (by simp)]; simp
    · rw [List.getElem?_append_right (by simp)]; simp
    · intro i hi; rw [List.getElem?_append_left hi]

end GeoCrossings.Monotone

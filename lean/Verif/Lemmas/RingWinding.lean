import Verif.Props.Rings

/-! # The windings of chains: every loop that `finish` finds runs along the edges, or against all of them

An edge has a direction: it runs from left to right if its winding is counter-clockwise (the region lies above it), and from
right to left otherwise. So the region lies to its left. -/
set_option linter.unusedSectionVars false
namespace GeoCrossings
open Spec Rings

section
variable {K : Type _}

/-- A directed edge, walked with a winding: along it if counter-clockwise, against it otherwise. -/
def Dir (D : Pt K → Pt K → Prop) (w : Winding) (a b : Pt K) : Prop :=
  match w with
  | .counterClockwise => D a b
  | .clockwise => D b a

theorem Dir.inverse {D : Pt K → Pt K → Prop} {w : Winding} {a b : Pt K} (h : Dir D w a b) : Dir D w.inverse b a := by
  cases w <;> exact h

@[simp] theorem Winding.inverse_inverse (w : Winding) : w.inverse.inverse = w := by cases w <;> rfl

theorem isChain_reverse_dir {D : Pt K → Pt K → Prop} {w : Winding} {l : List (Pt K)} (h : l.IsChain (Dir D w)) :
    l.reverse.IsChain (Dir D w.inverse) := by
  rw [List.isChain_reverse]
  exact h.imp fun _ _ h => h.inverse

variable [LinearOrder K]

/-- The winding with which a chain is walked when entered at a link. -/
def effAt (cs : List (Chain K)) (l : Link) : Option Winding := (cs[l.idx]?).map fun c => if l.toFront then c.winding else c.winding.inverse

theorem effAt_other {cs : List (Chain K)} {l : Link} {w : Winding} (h : effAt cs l = some w) : effAt cs l.other = some w.inverse := by
  unfold effAt at h ⊢
  obtain ⟨i, b⟩ := l
  simp only [Link.other] at h ⊢
  cases hc : cs[i]? with
  | none => rw [hc] at h; simp at h
  | some c =>
    rw [hc] at h
    cases b <;> simp at h ⊢ <;> subst h <;> simp

/-- Leaves its end `v`. -/
def outgoing (e : LineOrPoint K × Winding) (v : Pt K) : Bool :=
  if e.1.first = v then decide (e.2 = .counterClockwise) else decide (e.2 = .clockwise)

/-- The edges at a vertex, in the order in which they are added. -/
def atV (em : List (LineOrPoint K × Winding)) (v : Pt K) : List (LineOrPoint K × Winding) := em.filter fun e => e.1.first = v ∨ e.1.second = v

/-- The first, third, ... edge added at a vertex leaves it iff the next one does not. -/
def PairedAt (em : List (LineOrPoint K × Winding)) (v : Pt K) : Prop :=
  ∀ pre a b post, atV em v = pre ++ a :: b :: post → Even pre.length → outgoing a v ≠ outgoing b v

/-- The directed edges. -/
def dirOf (em : List (LineOrPoint K × Winding)) (a b : Pt K) : Prop :=
  ∃ e ∈ em, (e.2 = .counterClockwise ∧ e.1.first = a ∧ e.1.second = b) ∨ (e.2 = .clockwise ∧ e.1.first = b ∧ e.1.second = a)

theorem dir_edge {em : List (LineOrPoint K × Winding)} {e : LineOrPoint K × Winding} (he : e ∈ em) : Dir (dirOf em) e.2 e.1.first e.1.second := by
  cases h : e.2
  · exact ⟨e, he, .inr ⟨h, rfl, rfl⟩⟩
  · exact ⟨e, he, .inl ⟨h, rfl, rfl⟩⟩

/-- The windings of the chains agree with the directed edges `D`; `em` are the edges added so far. -/
structure DInv (D : Pt K → Pt K → Prop) (em : List (LineOrPoint K × Winding)) (r : Rings K) : Prop where
  inner : ∀ (k : Nat) (c : Chain K), r.chains[k]? = some c → c.items.IsChain (Dir D c.winding)
  link : ∀ l l' p q, nxtAt r.chains l = some l' → ptAt r.chains l = some p → ptAt r.chains l' = some q →
    ∃ w, effAt r.chains l' = some w ∧ effAt r.chains l = some w.inverse ∧ Dir D w p q
  pend : ∀ p l, r.endPoints p = some l → ∃ e w, (atV em p).getLast? = some e ∧ effAt r.chains l = some w ∧
    (outgoing e p = true ↔ w = .counterClockwise)
  deg : ∀ p, (r.endPoints p).isSome = true ↔ Odd (atV em p).length

theorem DInv.empty (D : Pt K → Pt K → Prop) : DInv D [] (Rings.default : Rings K) := by
  refine ⟨by simp [Rings.default], ?_, by simp [Rings.default], by simp [Rings.default, atV]⟩
  intro l l' p q h; simp [Rings.default, nxtAt] at h

theorem pushLink_spec {cs cs' : List (Chain K)} {i : Link} {new : Pt K} (hne : ∀ c ∈ cs, c.items ≠ []) (h : pushLink cs i new = some cs') :
    (∀ l, ptAt cs' l = if l = i then some new else ptAt cs l) ∧ (∀ l, nxtAt cs' l = nxtAt cs l) ∧ (∀ l, effAt cs' l = effAt cs l) ∧
    ∃ c : Chain K, cs[i.idx]? = some c ∧ ∀ (k : Nat) (c' : Chain K), cs'[k]? = some c' → cs[k]? = some c' ∨ k = i.idx ∧ c'.winding = c.winding ∧
      c'.items = if i.toFront then new :: c.items else c.items ++ [new] := by
  unfold pushLink modifyChain at h
  cases hc : cs[i.idx]? with
  | none => rw [hc] at h; simp at h
  | some c =>
    have hi : i.idx < cs.length := (List.getElem?_eq_some_iff.1 hc).1
    have hcne : c.items ≠ [] := hne c (List.mem_of_getElem? hc)
    rw [hc] at h
    simp only [Option.map_some, Option.some.injEq] at h
    subst h
    set c' : Chain K := if i.toFront then c.pushFront new else c.pushBack new with hc'
    have w' : c'.winding = c.winding := by rw [hc']; split <;> rfl
    refine ⟨?_, ?_, ?_, c, rfl, ?_⟩
    · intro l
      rw [ptAt_set hi]
      by_cases h : l.idx = i.idx
      · rw [if_pos h]
        by_cases h' : l.toFront = i.toFront
        · rw [if_pos (Link.ext' h h'), hc', h']
          cases i.toFront <;> simp [Chain.pushFront, Chain.pushBack, Chain.endPt]
        · rw [if_neg (by rintro rfl; exact h' rfl)]
          unfold ptAt
          rw [h, hc]
          obtain ⟨a, t, e⟩ := List.exists_cons_of_ne_nil hcne
          cases hb : i.toFront <;> cases hl : l.toFront <;> simp_all [Chain.pushFront, Chain.pushBack, Chain.endPt]
      · rw [if_neg h, if_neg (by rintro rfl; exact h rfl)]
    · intro l
      rw [nxtAt_set hi]
      by_cases h : l.idx = i.idx
      · rw [if_pos h]
        unfold nxtAt
        rw [h, hc, hc']
        cases i.toFront <;> rfl
      · rw [if_neg h]
    · intro l
      unfold effAt
      rw [List.getElem?_set]
      by_cases h : i.idx = l.idx
      · rw [if_pos h, if_pos hi, ← h, hc]; simp [w']
      · rw [if_neg h]
    · intro k d hd
      rw [List.getElem?_set] at hd
      by_cases h : i.idx = k
      · rw [if_pos h, if_pos hi] at hd
        simp only [Option.some.injEq] at hd
        subst hd
        refine .inr ⟨h.symm, w', ?_⟩
        rw [hc']; split <;> rfl
      · rw [if_neg h] at hd; exact .inl hd

theorem setNext_spec {cs : List (Chain K)} {i j : Link} {c : Chain K} (hc : cs[i.idx]? = some c) :
    let cs' := cs.set i.idx (if i.toFront then c.linkFront j else c.linkBack j)
    (∀ l, ptAt cs' l = ptAt cs l) ∧ (∀ l, nxtAt cs' l = if l = i then some j else nxtAt cs l) ∧ (∀ l, effAt cs' l = effAt cs l) ∧
    ∀ (k : Nat) (c' : Chain K), cs'[k]? = some c' → ∃ c : Chain K, cs[k]? = some c ∧ c'.winding = c.winding ∧ c'.items = c.items := by
  have hi : i.idx < cs.length := (List.getElem?_eq_some_iff.1 hc).1
  generalize hc' : (if i.toFront then c.linkFront j else c.linkBack j) = c'
  replace hc' := hc'.symm
  intro cs'
  have w' : c'.winding = c.winding := by rw [hc']; split <;> rfl
  have i' : c'.items = c.items := by rw [hc']; split <;> rfl
  refine ⟨?_, ?_, ?_, ?_⟩
  · intro l
    rw [ptAt_set hi]
    by_cases h : l.idx = i.idx
    · rw [if_pos h]
      unfold ptAt
      rw [h, hc]
      simp [Chain.endPt, i']
    · rw [if_neg h]
  · intro l
    rw [nxtAt_set hi]
    by_cases h : l.idx = i.idx
    · rw [if_pos h]
      have e2 : nxtAt cs l = c.nxt l.toFront := by unfold nxtAt; rw [h, hc]; rfl
      by_cases h' : l.toFront = i.toFront
      · rw [if_pos (Link.ext' h h'), hc', h']
        cases i.toFront <;> simp [Chain.linkFront, Chain.linkBack, Chain.nxt]
      · rw [if_neg (by rintro rfl; exact h' rfl), e2]
        cases hb : i.toFront <;> cases hl : l.toFront <;> rw [hb, hl] at h' <;> simp [hc', hb, Chain.linkFront, Chain.linkBack, Chain.nxt] <;> exact absurd rfl h'
    · rw [if_neg h, if_neg (by rintro rfl; exact h rfl)]
  · intro l
    unfold effAt
    rw [List.getElem?_set]
    by_cases h : i.idx = l.idx
    · rw [if_pos h, if_pos hi, ← h, hc]; simp [w']
    · rw [if_neg h]
  · intro k d hd
    rw [List.getElem?_set] at hd
    by_cases h : i.idx = k
    · rw [if_pos h, if_pos hi] at hd
      simp only [Option.some.injEq] at hd
      subst hd
      exact ⟨c, h ▸ hc, w', i'⟩
    · rw [if_neg h] at hd; exact ⟨d, hd, rfl, rfl⟩

theorem linkChains_spec {cs cs' : List (Chain K)} {i j : Link} (h : linkChains cs i j = some cs') :
    (∀ l, ptAt cs' l = ptAt cs l) ∧ (∀ l, nxtAt cs' l = if l = j then some i else if l = i then some j else nxtAt cs l) ∧
    (∀ l, effAt cs' l = effAt cs l) ∧
    ∀ (k : Nat) (c' : Chain K), cs'[k]? = some c' → ∃ c : Chain K, cs[k]? = some c ∧ c'.winding = c.winding ∧ c'.items = c.items := by
  unfold linkChains modifyChain at h
  simp only [Option.bind_eq_bind, Option.bind_eq_some_iff, Option.map_eq_some_iff] at h
  obtain ⟨cs1, ⟨c, hc, rfl⟩, d, hd, rfl⟩ := h
  obtain ⟨a1, a2, a3, a4⟩ := setNext_spec (j := j) hc
  obtain ⟨b1, b2, b3, b4⟩ := setNext_spec (j := i) hd
  refine ⟨fun l => (b1 l).trans (a1 l), fun l => (b2 l).trans (by rw [a2 l]), fun l => (b3 l).trans (a3 l), ?_⟩
  intro k c' hk
  obtain ⟨x, x1, x2, x3⟩ := b4 k c' hk
  obtain ⟨y, y1, y2, y3⟩ := a4 k x x1
  exact ⟨y, y1, x2.trans y2, x3.trans y3⟩

/-- The new edge goes on from an end where a chain waits. -/
theorem DInv.go {D : Pt K → Pt K → Prop} {em : List (LineOrPoint K × Winding)} {r : Rings K} (H : DInv D em r) {e : LineOrPoint K × Winding}
    {v : Pt K} (hv : e.1.first = v ∨ e.1.second = v) (hp : PairedAt (em ++ [e]) v) {l : Link} (hl : r.endPoints v = some l) :
    ∃ w, effAt r.chains l = some w ∧ (outgoing e v = true ↔ w = .clockwise) := by
  obtain ⟨e', w, h1, h2, h3⟩ := H.pend v l hl
  have ho := (H.deg v).1 (by rw [hl]; rfl)
  refine ⟨w, h2, ?_⟩
  obtain ⟨pre, hpre⟩ := List.getLast?_eq_some_iff.1 h1
  have hat : atV (em ++ [e]) v = pre ++ e' :: e :: [] := by
    unfold atV at hpre ⊢
    rw [List.filter_append, hpre]
    simp [hv]
  have := hp pre e' e [] hat (by
    rw [hpre] at ho
    simp only [List.length_append, List.length_singleton] at ho
    exact Nat.odd_add_one.1 ho |> Nat.not_odd_iff_even.1)
  cases w <;> cases h4 : outgoing e v <;> cases h5 : outgoing e' v <;> simp_all

theorem outgoing_ends {e : LineOrPoint K × Winding} (hne : e.1.first ≠ e.1.second) :
    (outgoing e e.1.first = true ↔ e.2 = .counterClockwise) ∧ (outgoing e e.1.second = true ↔ e.2 = .clockwise) := by
  unfold outgoing
  rw [if_pos rfl, if_neg hne]
  simp

theorem atV_snoc (em : List (LineOrPoint K × Winding)) (e : LineOrPoint K × Winding) (v : Pt K) :
    atV (em ++ [e]) v = if e.1.first = v ∨ e.1.second = v then atV em v ++ [e] else atV em v := by
  unfold atV
  rw [List.filter_append]
  split <;> simp_all

theorem atV_length (em : List (LineOrPoint K × Winding)) (e : LineOrPoint K × Winding) (hne : e.1.first ≠ e.1.second) (v : Pt K) :
    (Odd (atV (em ++ [e]) v).length ↔ (decide (Odd (atV em v).length) ^^ (decide (e.1.first = v) ^^ decide (e.1.second = v))) = true) := by
  rw [atV_snoc]
  by_cases h1 : e.1.first = v <;> by_cases h2 : e.1.second = v
  · exact absurd (h1.trans h2.symm) hne
  · simp [h1, h2, Nat.odd_add_one]
  · simp [h1, h2, Nat.odd_add_one]
  · simp [h1, h2]

/-- Adding an edge that is paired with those before it. -/
theorem DInv.addEdge {D : Pt K → Pt K → Prop} {em : List (LineOrPoint K × Winding)} {r r' : Rings K} {E} (R : RInv E r) (H : DInv D em r)
    {e : LineOrPoint K × Winding} (hne : e.1.first ≠ e.1.second) (hD : Dir D e.2 e.1.first e.1.second)
    (hp : ∀ v, e.1.first = v ∨ e.1.second = v → PairedAt (em ++ [e]) v) (h : r.addEdge e.1 e.2 = some r') : DInv D (em ++ [e]) r' := by
  obtain ⟨o1, o2⟩ := outgoing_ends hne
  have hdeg : ∀ p, (r'.endPoints p).isSome = true ↔ Odd (atV (em ++ [e]) p).length := by
    intro p
    rw [addEdge_endPoints hne h p, atV_length em e hne p]
    have e1 : decide (Odd (atV em p).length) = (r.endPoints p).isSome := by
      have := H.deg p
      cases hh : (r.endPoints p).isSome <;> rw [hh] at this
      · exact decide_eq_false fun k => by simpa using this.2 k
      · exact decide_eq_true (this.1 rfl)
    rw [e1]
  have hnew : ∀ v, e.1.first = v ∨ e.1.second = v → (atV (em ++ [e]) v).getLast? = some e := by
    intro v hv; rw [atV_snoc, if_pos hv]; simp
  have hold : ∀ v, v ≠ e.1.first → v ≠ e.1.second → atV (em ++ [e]) v = atV em v := by
    intro v h1 h2; rw [atV_snoc, if_neg]; rintro (k | k)
    · exact h1 k.symm
    · exact h2 k.symm
  have hrem : ∀ (m m' : Pt K → Option Link) q, removeEnd m q = some m' → m' = fun p => if p = q then none else m p := by
    intro m m' q h
    unfold removeEnd at h
    cases hq : m q with
    | none => rw [hq] at h; simp at h
    | some l => rw [hq] at h; simpa using h.symm
  -- pushing `new` at the chain that waits at `old`
  have push : ∀ old new : Pt K, (e.1.first = old ∧ e.1.second = new ∨ e.1.first = new ∧ e.1.second = old) → ∀ i, r.endPoints old = some i →
      r.endPoints new = none → ∀ cs, pushLink r.chains i new = some cs → ∀ m, removeEnd r.endPoints old = some m →
      (∀ p, ((⟨cs, insertEnd m new i⟩ : Rings K).endPoints p).isSome = true ↔ Odd (atV (em ++ [e]) p).length) →
      DInv D (em ++ [e]) ⟨cs, insertEnd m new i⟩ := by
    intro old new hon i hi hn cs hcs m hm hdg
    obtain ⟨s1, s2, s3, c, s4, s5⟩ := pushLink_spec R.ne hcs
    have hpi := ((R.ends _ _).1 hi).1
    have hni := ((R.ends _ _).1 hi).2
    have hno : new ≠ old := by
      rcases hon with ⟨k1, k2⟩ | ⟨k1, k2⟩
      · rw [← k1, ← k2]; exact hne.symm
      · rw [← k1, ← k2]; exact hne
    have hold' : e.1.first = old ∨ e.1.second = old := by rcases hon with h | h <;> simp [h]
    have hnew' : e.1.first = new ∨ e.1.second = new := by rcases hon with h | h <;> simp [h]
    obtain ⟨w, w1, w2⟩ := H.go hold' (hp old hold') hi
    have hout : outgoing e new = true ↔ w = .counterClockwise := by
      rcases hon with ⟨k1, k2⟩ | ⟨k1, k2⟩
      · rw [← k1, o1] at w2
        rw [← k2, o2]
        cases w <;> cases h : e.2 <;> simp_all
      · rw [← k2, o2] at w2
        rw [← k1, o1]
        cases w <;> cases h : e.2 <;> simp_all
    have hdir : Dir D w new old := by
      rcases hon with ⟨k1, k2⟩ | ⟨k1, k2⟩
      · rw [← k1, o1] at w2
        have : w = e.2.inverse := by cases w <;> cases h : e.2 <;> simp_all [Winding.inverse]
        rw [this, ← k1, ← k2]; exact hD.inverse
      · rw [← k2, o2] at w2
        have : w = e.2 := by cases w <;> cases h : e.2 <;> simp_all
        rw [this, ← k1, ← k2]; exact hD
    refine ⟨?_, ?_, ?_, hdg⟩
    · intro k c' hk
      rcases s5 k c' hk with k1 | ⟨rfl, k2, k3⟩
      · exact H.inner k c' k1
      · have hin := H.inner i.idx c s4
        have hw : w = if i.toFront then c.winding else c.winding.inverse := by
          unfold effAt at w1; rw [s4] at w1; simpa using w1.symm
        have hpt : c.endPt i.toFront = some old := by
          unfold ptAt at hpi; rw [s4] at hpi; simpa using hpi
        rw [k2, k3]
        cases hb : i.toFront
        · rw [hb] at hw hpt
          simp only [Bool.false_eq_true, if_false] at hw ⊢
          unfold Chain.endPt at hpt
          simp only [Bool.false_eq_true, if_false] at hpt
          rw [List.isChain_append]
          refine ⟨hin, by simp, ?_⟩
          intro x hx y hy
          rw [hpt] at hx
          simp only [Option.mem_def, Option.some.injEq, List.head?_cons] at hx hy
          subst hx hy
          have := hdir.inverse
          rw [hw] at this
          simpa using this
        · rw [hb] at hw hpt
          simp only [if_true] at hw ⊢
          unfold Chain.endPt at hpt
          simp only [if_true] at hpt
          rw [List.isChain_cons]
          refine ⟨?_, hin⟩
          intro y hy
          rw [hpt] at hy
          simp only [Option.mem_def, Option.some.injEq] at hy
          subst hy
          rw [← hw]; exact hdir
    · intro l l' p q h1 h2 h3
      simp only at h1 h2 h3 ⊢
      rw [s2] at h1
      have n1 : l ≠ i := by rintro rfl; rw [hni] at h1; cases h1
      have n2 : l' ≠ i := by rintro rfl; rw [(R.sym _ _ h1).2] at hni; cases hni
      rw [s1, if_neg n1] at h2
      rw [s1, if_neg n2] at h3
      rw [s3, s3]
      exact H.link l l' p q h1 h2 h3
    · intro p l hpl
      simp only at hpl ⊢
      rw [hrem _ _ _ hm, insertEnd_apply] at hpl
      by_cases h1 : p = new
      · rw [if_pos h1] at hpl
        simp only [Option.some.injEq] at hpl
        subst hpl h1
        exact ⟨e, w, hnew _ hnew', by rw [s3]; exact w1, hout⟩
      · rw [if_neg h1] at hpl
        by_cases h2 : p = old
        · rw [if_pos h2] at hpl; cases hpl
        · rw [if_neg h2] at hpl
          rw [s3]
          have : atV (em ++ [e]) p = atV em p := by
            apply hold
            · rcases hon with ⟨k1, k2⟩ | ⟨k1, k2⟩ <;> rw [k1] <;> assumption
            · rcases hon with ⟨k1, k2⟩ | ⟨k1, k2⟩ <;> rw [k2] <;> assumption
          rw [this]
          exact H.pend p l hpl
  unfold Rings.addEdge at h
  simp only at h
  cases h1 : r.endPoints e.1.first with
  | none =>
    cases h2 : r.endPoints e.1.second with
    | none =>
      rw [h1, h2] at h; simp only [Option.some.injEq] at h; subst h
      have hget : ∀ k : Nat, (r.chains ++ [Chain.new e.1.first e.1.second e.2])[k]? =
          if k = r.chains.length then some (Chain.new e.1.first e.1.second e.2) else r.chains[k]? := by
        intro k
        by_cases h : k = r.chains.length
        · rw [if_pos h, h]; simp
        · rw [if_neg h]
          rcases Nat.lt_or_ge k r.chains.length with h' | h'
          · rw [List.getElem?_append_left h']
          · rw [List.getElem?_eq_none (by simp; omega), List.getElem?_eq_none h']
      refine ⟨?_, ?_, ?_, hdeg⟩
      · intro k c hk
        simp only at hk
        rw [hget] at hk
        split at hk
        · simp only [Option.some.injEq] at hk
          subst hk
          simpa [Chain.new] using hD
        · exact H.inner k c hk
      · intro l l' p q a1 a2 a3
        have hl : l.idx ≠ r.chains.length := by
          intro h
          simp only [nxtAt, hget, h, if_true, Option.bind_some] at a1
          cases hb : l.toFront <;> rw [hb] at a1 <;> simp [Chain.nxt, Chain.new] at a1
        have a1' : nxtAt r.chains l = some l' := by
          simp only [nxtAt, hget, if_neg hl] at a1; exact a1
        have hl' : l'.idx ≠ r.chains.length := (idx_lt_of_nxtAt ((R.sym _ _ a1').2)).ne
        simp only [ptAt, hget, if_neg hl] at a2
        simp only [ptAt, hget, if_neg hl'] at a3
        obtain ⟨w, b1, b2, b3⟩ := H.link l l' p q a1' a2 a3
        refine ⟨w, ?_, ?_, b3⟩
        · simp only [effAt, hget, if_neg hl']; exact b1
        · simp only [effAt, hget, if_neg hl]; exact b2
      · intro p l hpl
        simp only [insertEnd_apply] at hpl
        by_cases k2 : p = e.1.second
        · rw [if_pos k2] at hpl
          simp only [Option.some.injEq] at hpl
          subst hpl k2
          refine ⟨e, e.2.inverse, hnew _ (.inr rfl), ?_, ?_⟩
          · simp [effAt, Chain.new]
          · rw [o2]; cases e.2 <;> simp [Winding.inverse]
        · rw [if_neg k2] at hpl
          by_cases k1 : p = e.1.first
          · rw [if_pos k1] at hpl
            simp only [Option.some.injEq] at hpl
            subst hpl k1
            exact ⟨e, e.2, hnew _ (.inl rfl), by simp [effAt, Chain.new], o1⟩
          · rw [if_neg k1] at hpl
            obtain ⟨e', w, b1, b2, b3⟩ := H.pend p l hpl
            have hl := idx_lt_of_ptAt ((R.ends _ _).1 hpl).1
            refine ⟨e', w, by rw [hold p k1 k2]; exact b1, ?_, b3⟩
            simp only [effAt, hget, if_neg hl.ne]; exact b2
    | some i =>
      rw [h1, h2] at h
      simp only [Option.bind_eq_bind, Option.bind_eq_some_iff, Option.pure_def, Option.some.injEq] at h
      obtain ⟨cs, hcs, m, hm, rfl⟩ := h
      exact push _ _ (.inr ⟨rfl, rfl⟩) i h2 h1 cs hcs m hm hdeg
  | some i =>
    cases h2 : r.endPoints e.1.second with
    | none =>
      rw [h1, h2] at h
      simp only [Option.bind_eq_bind, Option.bind_eq_some_iff, Option.pure_def, Option.some.injEq] at h
      obtain ⟨cs, hcs, m, hm, rfl⟩ := h
      exact push _ _ (.inl ⟨rfl, rfl⟩) i h1 h2 cs hcs m hm hdeg
    | some j =>
      rw [h1, h2] at h
      simp only [Option.bind_eq_bind, Option.bind_eq_some_iff, Option.pure_def, Option.some.injEq] at h
      obtain ⟨cs, hcs, m, hm, m', hm', rfl⟩ := h
      obtain ⟨s1, s2, s3, s4⟩ := linkChains_spec hcs
      obtain ⟨wi, i1, i2⟩ := H.go (.inl rfl) (hp _ (.inl rfl)) h1
      obtain ⟨wj, j1, j2⟩ := H.go (.inr rfl) (hp _ (.inr rfl)) h2
      rw [o1] at i2
      rw [o2] at j2
      have ewi : wi = e.2.inverse := by cases wi <;> cases h : e.2 <;> simp_all [Winding.inverse]
      have ewj : wj = e.2 := by cases wj <;> cases h : e.2 <;> simp_all
      have hpi := (R.ends _ _).1 h1
      have hpj := (R.ends _ _).1 h2
      refine ⟨?_, ?_, ?_, hdeg⟩
      · intro k c hk
        obtain ⟨c0, a1, a2, a3⟩ := s4 k c hk
        rw [a2, a3]; exact H.inner k c0 a1
      · intro l l' p q a1 a2 a3
        simp only at a1 a2 a3 ⊢
        rw [s2] at a1
        rw [s1] at a2 a3
        rw [s3, s3]
        by_cases k : l = j
        · rw [if_pos k] at a1
          simp only [Option.some.injEq] at a1
          subst a1 k
          rw [hpj.1] at a2
          rw [hpi.1] at a3
          simp only [Option.some.injEq] at a2 a3
          subst a2 a3
          exact ⟨wi, i1, by rw [j1, ewi, ewj]; simp, ewi ▸ hD.inverse⟩
        · rw [if_neg k] at a1
          by_cases k' : l = i
          · rw [if_pos k'] at a1
            simp only [Option.some.injEq] at a1
            subst a1 k'
            rw [hpi.1] at a2
            rw [hpj.1] at a3
            simp only [Option.some.injEq] at a2 a3
            subst a2 a3
            exact ⟨wj, j1, by rw [i1, ewi, ewj], ewj ▸ hD⟩
          · rw [if_neg k'] at a1
            exact H.link l l' p q a1 a2 a3
      · intro p l hpl
        simp only at hpl ⊢
        rw [hrem _ _ _ hm'] at hpl
        by_cases k2 : p = e.1.second
        · simp only [if_pos k2] at hpl; cases hpl
        · simp only [if_neg k2] at hpl
          rw [hrem _ _ _ hm] at hpl
          by_cases k1 : p = e.1.first
          · simp only [if_pos k1] at hpl; cases hpl
          · simp only [if_neg k1] at hpl
            rw [s3, hold p k1 k2]
            exact H.pend p l hpl

/-! ## The loops -/

/-- Cyclically consecutive vertices are joined. -/
def CycChain (R : Pt K → Pt K → Prop) (l : List (Pt K)) : Prop := (l ++ l.head?.toList).IsChain R

theorem pathLoop_dir {E} {D : Pt K → Pt K → Prop} {em : List (LineOrPoint K × Winding)} {r : Rings K} (R0 : RInv E r) (H : DInv D em r)
    {start : Nat} (fuel : Nat) {V : Finset Nat} {cs cs' : List (Chain K)}
    {e : Link} {W : List (Pt K)} {pc : Pt K} (hpc : ptAt r.chains ⟨start, true⟩ = some pc) {w : Winding}
    (M : Mid r.chains start V e) (R : Rel r.chains V cs) (hw : effAt r.chains e = some w) (h : pathLoop start fuel cs e = some (cs', W)) :
    W.head? = ptAt r.chains e ∧ (W ++ [pc]).IsChain (Dir D w) := by
  induction fuel generalizing V cs e W with
  | zero => simp [pathLoop] at h
  | succ fuel ih =>
    have hlt := M.lt
    have hget : r.chains[e.idx]? = some r.chains[e.idx] := List.getElem?_eq_getElem hlt
    generalize hcc : r.chains[e.idx] = c at hget
    have hcne : c.items ≠ [] := R0.ne c (hcc ▸ List.getElem_mem M.lt)
    have hcs : cs[e.idx]? = some c := by rw [R, hget]; simp [M.fresh]
    have hnx : (if e.toFront then c.nextBack else c.nextFront) = nxtAt r.chains e.other := by
      unfold nxtAt Chain.nxt Link.other
      simp only [hget, Option.bind_some]
      cases e.toFront <;> simp
    have hpe : ptAt r.chains e = (if e.toFront then c.items else c.items.reverse).head? := by
      unfold ptAt Chain.endPt; rw [hget]
      cases e.toFront <;> simp
    have hpl : ptAt r.chains e.other = (if e.toFront then c.items else c.items.reverse).getLast? := by
      unfold ptAt Chain.endPt Link.other; simp only [hget]
      cases e.toFront <;> simp
    have hch : (if e.toFront then c.items else c.items.reverse).IsChain (Dir D w) := by
      have := H.inner e.idx c hget
      unfold effAt at hw
      rw [hget] at hw
      cases hb : e.toFront <;> rw [hb] at hw <;> simp at hw ⊢ <;> subst hw
      · exact isChain_reverse_dir this
      · exact this
    have hR' := R.set hcs
    rw [pathLoop, hcs] at h
    simp only [hnx] at h
    generalize hits : (if e.toFront then c.items else c.items.reverse) = its at *
    have hitne : its ≠ [] := by rw [← hits]; cases e.toFront <;> simp [hcne]
    obtain ⟨zl, hzl⟩ : ∃ zl, its.getLast? = some zl := ⟨_, List.getLast?_eq_some_getLast hitne⟩
    rw [hzl] at hpl
    cases hn : nxtAt r.chains e.other with
    | none => rw [hn] at h; simp at h
    | some e' =>
      rw [hn] at h
      simp only at h
      obtain ⟨pe', hpe'⟩ := ptAt_isSome R0 (l := e') (idx_lt_of_nxtAt (R0.sym _ _ hn).2)
      obtain ⟨w', b1, b2, b3⟩ := H.link _ _ _ _ hn hpl hpe'
      rw [effAt_other hw] at b2
      have hww : w' = w := by
        simp only [Option.some.injEq] at b2
        have := congrArg Winding.inverse b2
        simpa using this.symm
      subst hww
      rcases M.step R0 hn with ⟨h1, h2, h3⟩ | ⟨h1, h2⟩
      · rw [if_pos h1] at h
        subst h2
        simp only [if_true, Option.some.injEq, Prod.mk.injEq] at h
        obtain ⟨rfl, rfl⟩ := h
        rw [hpc] at hpe'
        simp only [Option.some.injEq] at hpe'
        subst hpe'
        refine ⟨hpe.symm, ?_⟩
        rw [List.isChain_append]
        refine ⟨hch, by simp, ?_⟩
        intro x hx y hy
        rw [hzl] at hx
        simp only [Option.mem_def, Option.some.injEq, List.head?_cons] at hx hy
        subst hx hy
        exact b3
      · rw [if_neg h1] at h
        cases hrec : pathLoop start fuel (cs.set e.idx { c with items := [] }) e' with
        | none => rw [hrec] at h; simp at h
        | some res =>
          obtain ⟨cs1, W1⟩ := res
          rw [hrec] at h
          simp only [Option.map_some, Option.some.injEq, Prod.mk.injEq] at h
          obtain ⟨rfl, rfl⟩ := h
          obtain ⟨a1, a2⟩ := ih h2 hR' b1 hrec
          refine ⟨?_, ?_⟩
          · rw [List.head?_append, hpe]
            cases its with
            | nil => exact absurd rfl hitne
            | cons a l => simp
          · rw [List.append_assoc, List.isChain_append]
            refine ⟨hch, a2, ?_⟩
            intro x hx y hy
            rw [hzl] at hx
            rw [List.head?_append, a1, hpe'] at hy
            simp only [Option.mem_def, Option.some.injEq, Option.some_or] at hx hy
            subst hx hy
            exact b3

theorem splitPt_dir {R : Pt K → Pt K → Prop} (W : List (Pt K)) (h : W.IsChain R) :
    let s := W.foldl splitPt ([], [])
    s.1.IsChain R ∧ ∀ l ∈ s.2, CycChain R l := by
  induction W using List.reverseRecOn with
  | nil => simp
  | append_singleton W p ih =>
    obtain ⟨f1, f2, f3, -⟩ := splitPt_fold W
    rw [List.isChain_append] at h
    obtain ⟨hW, -, hlast⟩ := h
    have ih := ih hW
    simp only [List.foldl_append, List.foldl_cons, List.foldl_nil]
    simp only at ih
    generalize hs : W.foldl splitPt ([], []) = s at ih f1 f2 f3
    obtain ⟨ls, out⟩ := s
    obtain ⟨i1, i2⟩ := ih
    simp only at i1 i2 f1 f2 f3
    have hsn : (ls ++ [p]).IsChain R := by
      rw [List.isChain_append]
      refine ⟨i1, by simp, ?_⟩
      intro x hx y hy
      rw [f3] at hx
      exact hlast x hx y hy
    cases hidx : ls.idxOf? p with
    | none =>
      simp only [splitPt, hidx]
      exact ⟨hsn, i2⟩
    | some i =>
      have hidx' := hidx
      rw [List.idxOf?, List.findIdx?_eq_some_iff_getElem] at hidx'
      obtain ⟨hil, he, -⟩ := hidx'
      simp at he
      have hd : ls.drop i = p :: ls.drop (i + 1) := by rw [List.drop_eq_getElem_cons hil, he]
      simp only [splitPt, hidx]
      refine ⟨?_, ?_⟩
      · have : ls = (ls.take i ++ [p]) ++ ls.drop (i + 1) := by
          rw [List.append_assoc, List.singleton_append, ← hd, List.take_append_drop]
        rw [this] at i1
        exact i1.left_of_append
      · intro l hl
        rw [List.mem_append] at hl
        rcases hl with hl | hl
        · exact i2 l hl
        · simp at hl; subst hl
          unfold CycChain
          have : (ls.drop i).head?.toList = [p] := by rw [hd]; rfl
          rw [this]
          have e : ls ++ [p] = ls.take i ++ (ls.drop i ++ [p]) := by rw [← List.append_assoc, List.take_append_drop]
          rw [e] at hsn
          exact hsn.right_of_append

theorem loopsOf_dir {R : Pt K → Pt K → Prop} {W : List (Pt K)} {a : Pt K} (h1 : W.head? = some a) (h2 : (W ++ [a]).IsChain R) :
    ∀ l ∈ loopsOf W, CycChain R l := by
  have hW := h2.left_of_append
  obtain ⟨i1, i2, i3, i4, -⟩ := splitPt_fold W
  obtain ⟨j1, j2⟩ := splitPt_dir W hW
  intro l hl
  unfold loopsOf at hl
  rw [List.mem_append] at hl
  rcases hl with hl | hl
  · exact j2 l hl
  · simp only [List.mem_singleton] at hl
    subst hl
    unfold CycChain
    rw [i2, h1]
    rw [List.isChain_append] at h2 ⊢
    refine ⟨j1, by simp, ?_⟩
    intro x hx y hy
    rw [i3] at hx
    exact h2.2.2 x hx y (by simpa using hy)

theorem allLoops_dir {E} {D : Pt K → Pt K → Prop} {em : List (LineOrPoint K × Winding)} {r : Rings K} (H0 : RInv E r) (H : DInv D em r)
    (curr : Nat) (hcurr : curr ≤ r.chains.length) {V : Finset Nat} {cs : List (Chain K)}
    (hC : ClosedV r.chains V) (R : Rel r.chains V cs) {loops} (h : allLoops curr cs = some loops) :
    ∀ x ∈ loops, CycChain (Dir D x.1) x.2 := by
  induction curr generalizing V cs loops with
  | zero =>
    simp only [allLoops, Option.some.injEq] at h
    subst h
    simp
  | succ curr ih =>
    have hlt : curr < r.chains.length := hcurr
    have hget : r.chains[curr]? = some r.chains[curr] := List.getElem?_eq_getElem hlt
    generalize hcc : r.chains[curr] = c at hget
    have hcne : c.items ≠ [] := H0.ne c (hcc ▸ List.getElem_mem hlt)
    have hcs := R curr
    rw [hget, Option.map_some] at hcs
    rw [allLoops, hcs] at h
    by_cases hm : curr ∈ V
    · simp only [if_pos hm, List.length_nil, if_true] at h
      exact ih (by omega) hC R h
    · simp only [if_neg hm, List.length_eq_zero_iff, hcne, if_false] at h
      cases hp : pathLoop curr (cs.length + 1) cs ⟨curr, true⟩ with
      | none => rw [hp] at h; simp at h
      | some x =>
        obtain ⟨cs', W⟩ := x
        rw [hp] at h
        simp only [Option.bind_some] at h
        cases ha : allLoops curr cs' with
        | none => rw [ha] at h; simp at h
        | some rest =>
          rw [ha] at h
          simp only [Option.map_some, Option.some.injEq] at h
          subst h
          obtain ⟨pc, hpc⟩ := ptAt_isSome H0 (l := ⟨curr, true⟩) hlt
          have M := Mid.init hC hm hlt
          obtain ⟨V', z, lz, a1, a2, a3, a4, a5, -⟩ := pathLoop_spec H0 _ hpc M R hp
          have hw : effAt r.chains ⟨curr, true⟩ = some c.winding := by unfold effAt; simp [hget]
          obtain ⟨b1, b2⟩ := pathLoop_dir H0 H _ hpc M R hw hp
          intro x hx
          rw [List.mem_append] at hx
          rcases hx with hx | hx
          · obtain ⟨l, hl, rfl⟩ := List.mem_map.1 hx
            exact loopsOf_dir (b1.trans hpc) b2 l hl
          · exact ih (by omega) a5 a4 ha x hx

end
end GeoCrossings

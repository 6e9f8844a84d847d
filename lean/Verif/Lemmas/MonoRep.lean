import Verif.Model.Monotone
import Mathlib.Data.List.Perm.Basic
import Mathlib.Data.List.Nodup
import Mathlib.Data.List.Pairwise
import Mathlib.Data.List.Induction

/-!
# The list of chains as a set of pieces

A piece is a pair of chains that name each other. Pieces are open or done.
-/
set_option linter.unusedSectionVars false
namespace GeoCrossings.Monotone

variable {K : Type} [Field K] [LinearOrder K]

/-- A piece: the indices of its chains, and their points. -/
structure Piece (K : Type) where
  ti : Nat
  bi : Nat
  T : List (Pt K)
  B : List (Pt K)

def idxs (ps : List (Piece K)) : List Nat := ps.flatMap fun p => [p.ti, p.bi]

@[simp] theorem idxs_nil : idxs ([] : List (Piece K)) = [] := rfl
@[simp] theorem idxs_cons (p : Piece K) (ps : List (Piece K)) : idxs (p :: ps) = p.ti :: p.bi :: idxs ps := rfl
@[simp] theorem idxs_append (a b : List (Piece K)) : idxs (a ++ b) = idxs a ++ idxs b := List.flatMap_append

theorem mem_idxs {ps : List (Piece K)} {i : Nat} : i ∈ idxs ps ↔ ∃ p ∈ ps, i = p.ti ∨ i = p.bi := by
  simp [idxs]

/-- Where the chains of a piece are. -/
def Piece.At (chains : List (Chain K)) (d : Bool) (p : Piece K) : Prop :=
  chains[p.ti]? = some ⟨.clockwise, p.bi, p.T, d⟩ ∧ chains[p.bi]? = some ⟨.counterClockwise, p.ti, p.B, d⟩

structure Rep (chains : List (Chain K)) (o d : List (Piece K)) : Prop where
  opn : ∀ p ∈ o, p.At chains false
  dn : ∀ p ∈ d, p.At chains true
  idx : (idxs (o ++ d)).Perm (List.range chains.length)

theorem Rep.nil : Rep ([] : List (Chain K)) [] [] := ⟨by simp, by simp, by simp⟩

section
variable {chains chains' : List (Chain K)} {o d o' d' : List (Piece K)} {p p' q : Piece K}

theorem Rep.perm (h : Rep chains o d) (ho : o.Perm o') (hd : d.Perm d') : Rep chains o' d' where
  opn p hp := h.opn p (ho.mem_iff.2 hp)
  dn p hp := h.dn p (hd.mem_iff.2 hp)
  idx := ((ho.append hd).symm.flatMap_right _).trans h.idx

theorem Rep.nodup (h : Rep chains o d) : (idxs (o ++ d)).Nodup := h.idx.nodup_iff.2 List.nodup_range

theorem Rep.index (h : Rep chains o d) {i : Nat} (hi : i < chains.length) : ∃ p ∈ o ++ d, i = p.ti ∨ i = p.bi :=
  mem_idxs.1 (h.idx.mem_iff.2 (List.mem_range.2 hi))

theorem Rep.lt (h : Rep chains o d) (hp : p ∈ o ++ d) : p.ti < chains.length ∧ p.bi < chains.length :=
  ⟨List.mem_range.1 (h.idx.mem_iff.1 (mem_idxs.2 ⟨p, hp, .inl rfl⟩)), List.mem_range.1 (h.idx.mem_iff.1 (mem_idxs.2 ⟨p, hp, .inr rfl⟩))⟩

theorem Rep.ne (h : Rep chains o d) (hp : p ∈ o ++ d) : p.ti ≠ p.bi := by
  have := (List.nodup_flatMap.1 h.nodup).1 p hp
  simpa using this

/-- Pieces that share an index are the same. -/
theorem Rep.unique (h : Rep chains o d) (hp : p ∈ o ++ d) (hq : q ∈ o ++ d) {i : Nat} (i1 : i = p.ti ∨ i = p.bi)
    (i2 : i = q.ti ∨ i = q.bi) : p = q := by
  have hpw := (List.nodup_flatMap.1 h.nodup).2
  by_contra hne
  have hs : Std.Symm (fun a b : Piece K => List.Disjoint [a.ti, a.bi] [b.ti, b.bi]) := ⟨fun a b h x hx hy => h hy hx⟩
  have := hpw.forall hp hq hne
  exact this (a := i) (by simpa using i1) (by simpa using i2)

/-- A side of a piece. -/
inductive Side | top | bot

theorem Rep.replace (h : Rep chains (p :: o) d) (hl : chains'.length = chains.length) (ht : p'.ti = p.ti) (hb : p'.bi = p.bi)
    (hat : p'.At chains' false) (hrest : ∀ i, i ≠ p.ti → i ≠ p.bi → chains'[i]? = chains[i]?) : Rep chains' (p' :: o) d := by
  have hne : ∀ q ∈ o ++ d, q.ti ≠ p.ti ∧ q.ti ≠ p.bi ∧ q.bi ≠ p.ti ∧ q.bi ≠ p.bi := by
    have := h.nodup
    rw [List.cons_append, idxs_cons, List.nodup_cons, List.nodup_cons] at this
    simp only [List.mem_cons, not_or] at this
    intro q hq
    have m1 : q.ti ∈ idxs (o ++ d) := mem_idxs.2 ⟨q, hq, .inl rfl⟩
    have m2 : q.bi ∈ idxs (o ++ d) := mem_idxs.2 ⟨q, hq, .inr rfl⟩
    refine ⟨?_, ?_, ?_, ?_⟩ <;> intro he
    · exact this.1.2 (he ▸ m1)
    · exact this.2.1 (he ▸ m1)
    · exact this.1.2 (he ▸ m2)
    · exact this.2.1 (he ▸ m2)
  have keep : ∀ q ∈ o ++ d, ∀ b, q.At chains b → q.At chains' b := by
    intro q hq b ⟨h1, h2⟩
    obtain ⟨n1, n2, n3, n4⟩ := hne q hq
    exact ⟨by rw [hrest _ n1 n2]; exact h1, by rw [hrest _ n3 n4]; exact h2⟩
  refine ⟨?_, ?_, ?_⟩
  · intro q hq
    rcases List.mem_cons.1 hq with rfl | hq
    · exact hat
    · exact keep q (by simp [hq]) _ (h.opn q (by simp [hq]))
  · intro q hq
    exact keep q (by simp [hq]) _ (h.dn q hq)
  · have := h.idx
    rw [hl]
    simpa [ht, hb] using this

theorem Rep.close (h : Rep chains (p :: o) d) (hl : chains'.length = chains.length) (ht : p'.ti = p.ti) (hb : p'.bi = p.bi)
    (hat : p'.At chains' true) (hrest : ∀ i, i ≠ p.ti → i ≠ p.bi → chains'[i]? = chains[i]?) : Rep chains' o (p' :: d) := by
  have hne : ∀ q ∈ o ++ d, q.ti ≠ p.ti ∧ q.ti ≠ p.bi ∧ q.bi ≠ p.ti ∧ q.bi ≠ p.bi := by
    have := h.nodup
    rw [List.cons_append, idxs_cons, List.nodup_cons, List.nodup_cons] at this
    simp only [List.mem_cons, not_or] at this
    intro q hq
    have m1 : q.ti ∈ idxs (o ++ d) := mem_idxs.2 ⟨q, hq, .inl rfl⟩
    have m2 : q.bi ∈ idxs (o ++ d) := mem_idxs.2 ⟨q, hq, .inr rfl⟩
    refine ⟨?_, ?_, ?_, ?_⟩ <;> intro he
    · exact this.1.2 (he ▸ m1)
    · exact this.2.1 (he ▸ m1)
    · exact this.1.2 (he ▸ m2)
    · exact this.2.1 (he ▸ m2)
  have keep : ∀ q ∈ o ++ d, ∀ b, q.At chains b → q.At chains' b := by
    intro q hq b ⟨h1, h2⟩
    obtain ⟨n1, n2, n3, n4⟩ := hne q hq
    exact ⟨by rw [hrest _ n1 n2]; exact h1, by rw [hrest _ n3 n4]; exact h2⟩
  refine ⟨?_, ?_, ?_⟩
  · intro q hq
    exact keep q (by simp [hq]) _ (h.opn q (by simp [hq]))
  · intro q hq
    rcases List.mem_cons.1 hq with rfl | hq
    · exact hat
    · exact keep q (by simp [hq]) _ (h.dn q hq)
  · have h2 : (idxs (o ++ p' :: d)).Perm (idxs (p' :: (o ++ d))) := List.Perm.flatMap_right _ List.perm_middle
    rw [hl]
    refine h2.trans ?_
    have := h.idx
    simpa [ht, hb] using this

theorem Rep.push (h : Rep chains o d) (hl : chains'.length = chains.length + 2)
    (hi : p.ti = chains.length ∧ p.bi = chains.length + 1 ∨ p.ti = chains.length + 1 ∧ p.bi = chains.length)
    (hat : p.At chains' false) (hrest : ∀ i < chains.length, chains'[i]? = chains[i]?) : Rep chains' (p :: o) d := by
  have keep : ∀ q ∈ o ++ d, ∀ b, q.At chains b → q.At chains' b := by
    intro q hq b ⟨h1, h2⟩
    obtain ⟨l1, l2⟩ := h.lt hq
    exact ⟨by rw [hrest _ l1]; exact h1, by rw [hrest _ l2]; exact h2⟩
  refine ⟨?_, ?_, ?_⟩
  · intro q hq
    rcases List.mem_cons.1 hq with rfl | hq
    · exact hat
    · exact keep q (by simp [hq]) _ (h.opn q hq)
  · intro q hq
    exact keep q (by simp [hq]) _ (h.dn q hq)
  · rw [hl, List.range_succ, List.range_succ, List.cons_append, idxs_cons]
    have : (List.range chains.length ++ [chains.length] ++ [chains.length + 1]).Perm
        (chains.length :: (chains.length + 1) :: List.range chains.length) := by
      rw [List.append_assoc]
      exact List.perm_append_comm
    refine List.Perm.trans ?_ this.symm
    rcases hi with ⟨e1, e2⟩ | ⟨e1, e2⟩ <;> rw [e1, e2]
    · exact (h.idx.cons _).cons _
    · exact (List.Perm.swap _ _ _).trans ((h.idx.cons _).cons _)

/-- Applying a function to every chain. -/
theorem Rep.map (h : Rep chains o d) (f : Chain K → Chain K) (g : Piece K → Piece K)
    (hg : ∀ p ∈ o, f ⟨.clockwise, p.bi, p.T, false⟩ = ⟨.clockwise, (g p).bi, (g p).T, false⟩ ∧
      f ⟨.counterClockwise, p.ti, p.B, false⟩ = ⟨.counterClockwise, (g p).ti, (g p).B, false⟩ ∧ (g p).ti = p.ti ∧ (g p).bi = p.bi)
    (hd : ∀ c, c.done = true → f c = c) : Rep (chains.map f) (o.map g) d := by
  refine ⟨?_, ?_, ?_⟩
  · intro q hq
    obtain ⟨p, hp, rfl⟩ := List.mem_map.1 hq
    obtain ⟨h1, h2⟩ := h.opn p hp
    obtain ⟨g1, g2, g3, g4⟩ := hg p hp
    refine ⟨?_, ?_⟩
    · rw [g3, List.getElem?_map, h1, Option.map_some, g1, g4]
    · rw [g4, List.getElem?_map, h2, Option.map_some, g2, g3]
  · intro p hp
    obtain ⟨h1, h2⟩ := h.dn p hp
    refine ⟨?_, ?_⟩
    · rw [List.getElem?_map, h1, Option.map_some, hd _ rfl]
    · rw [List.getElem?_map, h2, Option.map_some, hd _ rfl]
  · have : idxs (o.map g ++ d) = idxs (o ++ d) := by
      rw [idxs_append, idxs_append]
      congr 1
      rw [idxs, List.flatMap_map, idxs]
      apply List.flatMap_congr
      intro p hp
      obtain ⟨-, -, g3, g4⟩ := hg p hp
      rw [g3, g4]
    rw [this, List.length_map]
    exact h.idx

/-- The chain at an index. -/
theorem Rep.get (h : Rep chains o d) {i : Nat} {c : Chain K} (hc : chains[i]? = some c) (hd : c.done = false) :
    ∃ p ∈ o, (i = p.ti ∧ c = ⟨.clockwise, p.bi, p.T, false⟩) ∨ (i = p.bi ∧ c = ⟨.counterClockwise, p.ti, p.B, false⟩) := by
  have hi : i < chains.length := by
    by_contra hn
    rw [List.getElem?_eq_none (not_lt.1 hn)] at hc
    cases hc
  obtain ⟨p, hp, hpi⟩ := h.index hi
  rcases List.mem_append.1 hp with hp | hp
  · refine ⟨p, hp, ?_⟩
    obtain ⟨h1, h2⟩ := h.opn p hp
    rcases hpi with rfl | rfl
    · rw [h1] at hc; exact .inl ⟨rfl, (Option.some.inj hc).symm⟩
    · rw [h2] at hc; exact .inr ⟨rfl, (Option.some.inj hc).symm⟩
  · obtain ⟨h1, h2⟩ := h.dn p hp
    rcases hpi with rfl | rfl
    · rw [h1] at hc; rw [← Option.some.inj hc] at hd; cases hd
    · rw [h2] at hc; rw [← Option.some.inj hc] at hd; cases hd

theorem findIdx_unique {α : Type _} {q : α → Bool} {l : List α} {i : Nat} {a : α} (hi : l[i]? = some a) (hq : q a = true)
    (hu : ∀ j b, l[j]? = some b → q b = true → j = i) : l.findIdx? q = some i := by
  have hlt : i < l.length := by
    by_contra hn
    rw [List.getElem?_eq_none (not_lt.1 hn)] at hi
    cases hi
  rw [List.findIdx?_eq_some_iff_getElem]
  refine ⟨hlt, ?_, ?_⟩
  · rw [List.getElem?_eq_getElem hlt] at hi
    rw [Option.some.inj hi]; exact hq
  · intro j hj hqj
    exact absurd (hu j _ (List.getElem?_eq_getElem (hj.trans hlt)) hqj) (Nat.ne_of_lt hj)

/-! ## Counting the chains that look at a point -/

/-- The number of open chains that end in `v`. -/
def looksCount (v : Pt K) (o : List (Piece K)) : Nat := (o.flatMap fun p => [p.T, p.B]).countP fun l => l.getLast? = some v

@[simp] theorem looksCount_nil (v : Pt K) : looksCount v [] = 0 := rfl

theorem looksCount_cons (v : Pt K) (p : Piece K) (o : List (Piece K)) : looksCount v (p :: o) =
    (if p.T.getLast? = some v then 1 else 0) + (if p.B.getLast? = some v then 1 else 0) + looksCount v o := by
  simp only [looksCount, List.flatMap_cons, List.countP_append, List.countP_cons, List.countP_nil, decide_eq_true_eq]
  omega

theorem looksCount_append (v : Pt K) (a b : List (Piece K)) : looksCount v (a ++ b) = looksCount v a + looksCount v b := by
  simp [looksCount]

theorem looksCount_eq_zero (v : Pt K) (o : List (Piece K)) (h : ∀ p ∈ o, p.T.getLast? ≠ some v ∧ p.B.getLast? ≠ some v) :
    looksCount v o = 0 := by
  induction o with
  | nil => rfl
  | cons p o ih =>
    rw [looksCount_cons, if_neg (h p (by simp)).1, if_neg (h p (by simp)).2, ih fun q hq => h q (by simp [hq])]

theorem countP_range (q : Chain K → Bool) (chains : List (Chain K)) :
    chains.countP q = ((List.range chains.length).filter fun i => (chains[i]?).any q).length := by
  rw [← List.countP_eq_length_filter]
  induction chains using List.reverseRecOn with
  | nil => rfl
  | append_singleton l a ih =>
    rw [List.length_append, List.length_singleton, List.range_succ, List.countP_append, List.countP_append, ih]
    congr 1
    · apply List.countP_congr
      intro i hi
      rw [List.mem_range] at hi
      rw [List.getElem?_append_left hi]
    · simp

theorem Rep.count (h : Rep chains o d) (v : Pt K) :
    ((List.range chains.length).filter fun i => (chains[i]?).any fun c => c.looksAt v).length = looksCount v o := by
  rw [← List.countP_eq_length_filter, ← h.idx.countP_eq, idxs_append, List.countP_append]
  have hd : (idxs d).countP (fun i => (chains[i]?).any fun c => c.looksAt v) = 0 := by
    rw [List.countP_eq_zero]
    intro i hi
    obtain ⟨p, hp, hpi⟩ := mem_idxs.1 hi
    obtain ⟨h1, h2⟩ := h.dn p hp
    rcases hpi with rfl | rfl
    · simp [h1, Chain.looksAt]
    · simp [h2, Chain.looksAt]
  rw [hd, Nat.add_zero, looksCount]
  have : ∀ o' : List (Piece K), (∀ p ∈ o', p ∈ o) → (idxs o').countP (fun i => (chains[i]?).any fun c => c.looksAt v) =
      (o'.flatMap fun p => [p.T, p.B]).countP fun l => l.getLast? = some v := by
    intro o' ho'
    induction o' with
    | nil => rfl
    | cons p o' ih =>
      obtain ⟨h1, h2⟩ := h.opn p (ho' p (by simp))
      rw [idxs_cons, List.flatMap_cons, List.countP_append, List.countP_cons, List.countP_cons, ih fun q hq => ho' q (by simp [hq])]
      simp only [h1, h2, Chain.looksAt, Chain.next, Option.any_some, Bool.not_false, Bool.true_and, decide_eq_true_eq, List.countP_cons,
        List.countP_nil]
      by_cases a : p.T.getLast? = some v <;> by_cases b : p.B.getLast? = some v <;> simp [a, b] <;> omega
  exact this o fun _ h => h

theorem Rep.countP (h : Rep chains o d) (v : Pt K) : chains.countP (·.looksAt v) = looksCount v o := by
  rw [countP_range, h.count]

end
end GeoCrossings.Monotone

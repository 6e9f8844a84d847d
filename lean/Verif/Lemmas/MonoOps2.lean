import Verif.Lemmas.MonoOps

/-!
# The operations on chains, in the form in which the events use them
-/
set_option linter.unusedSectionVars false
namespace GeoCrossings.Monotone

variable {K : Type} [Field K] [LinearOrder K] {v : Pt K} {chains : List (Chain K)} {o d : List (Piece K)} {p lo up : Piece K}

/-- No chain of `o` looks at `m`. -/
def NoLook (m : Pt K) (o : List (Piece K)) : Prop := ∀ q ∈ o, q.T.getLast? ≠ some m ∧ q.B.getLast? ≠ some m

theorem NoLook.count {m : Pt K} (h : NoLook m o) : looksCount m o = 0 := looksCount_eq_zero m o h

theorem growAt_look {m : Pt K} {e l : List (Pt K)} (h : l.getLast? = some m) : growAt m v e l = l ++ v :: e := if_pos h
theorem growAt_no {m : Pt K} {e l : List (Pt K)} (h : l.getLast? ≠ some m) : growAt m v e l = l := if_neg h

theorem map_grow {m : Pt K} {e e' : List (Pt K)} (h : NoLook m o) :
    (o.map fun p => (⟨p.ti, p.bi, growAt m v e p.T, growAt m v e' p.B⟩ : Piece K)) = o := by
  conv_rhs => rw [← List.map_id o]
  refine List.map_congr_left fun q hq => ?_
  rw [growAt_no (h q hq).1, growAt_no (h q hq).2]
  rfl

theorem count_two {m : Pt K} (l1 : lo.T.getLast? = some m) (l2 : lo.B.getLast? ≠ some m) (u1 : up.T.getLast? ≠ some m)
    (u2 : up.B.getLast? = some m) (ho : NoLook m o) : looksCount m (lo :: up :: o) = 2 := by
  rw [looksCount_cons, looksCount_cons, ho.count, if_pos l1, if_neg l2, if_neg u1, if_pos u2]

theorem Rep.merge' (dbg : Bool) (h : Rep chains (lo :: up :: o) d) {ty : VertexType} (hty : ty ≠ .split) (cur : Option Nat) {m : Pt K}
    (limbs : Option (Pt K × Pt K)) (l1 : lo.T.getLast? = some m) (l2 : lo.B.getLast? ≠ some m) (u1 : up.T.getLast? ≠ some m)
    (u2 : up.B.getLast? = some m) (ho : NoLook m o) :
    ∃ chains', applyLink dbg v ty (chains, cur) (.merge m v limbs) = some (chains', cur) ∧
      Rep chains' (⟨lo.ti, lo.bi, lo.T ++ [v], lo.B⟩ :: ⟨up.ti, up.bi, up.T, up.B ++ [v]⟩ :: o) d := by
  obtain ⟨ch, e, R⟩ := h.merge (v := v) dbg hty cur m limbs (count_two l1 l2 u1 u2 ho)
  refine ⟨ch, e, ?_⟩
  rwa [List.map_cons, List.map_cons, map_grow ho, growAt_look l1, growAt_no l2, growAt_no u1, growAt_look u2] at R

theorem Rep.merge_split' (dbg : Bool) (h : Rep chains (lo :: up :: o) d) (cur : Option Nat) {m : Pt K} (t b : Pt K)
    (l1 : lo.T.getLast? = some m) (l2 : lo.B.getLast? ≠ some m) (u1 : up.T.getLast? ≠ some m)
    (u2 : up.B.getLast? = some m) (ho : NoLook m o) :
    ∃ chains', applyLink dbg v .split (chains, cur) (.merge m v (some (t, b))) = some (chains', cur) ∧
      Rep chains' (⟨lo.ti, lo.bi, lo.T ++ [v, b], lo.B⟩ :: ⟨up.ti, up.bi, up.T, up.B ++ [v, t]⟩ :: o) d := by
  obtain ⟨ch, e, R⟩ := h.merge_split (v := v) dbg cur m t b (count_two l1 l2 u1 u2 ho)
  refine ⟨ch, e, ?_⟩
  rwa [List.map_cons, List.map_cons, map_grow ho, growAt_look l1, growAt_no l2, growAt_no u1, growAt_look u2] at R

/-- The reduction after an event without `Continue` link: `A` is closed, `N` is not. -/
theorem Rep.reduce_close (dbg : Bool) {A N : List (Piece K)} (h : Rep chains (A ++ N) d)
    (hA : ∀ p ∈ A, p.T.getLast? = some v ∧ p.B.getLast? = some v)
    (hN : ∀ p ∈ N, ¬ (p.T.getLast? = some v ∧ p.B.getLast? = some v)) (hev : looksCount v (A ++ N) % 2 = 0) :
    ∃ chains', Monotone.reduce dbg v chains none = some chains' ∧ Rep chains' N (A ++ d) := by
  obtain ⟨ch, e, R⟩ := h.reduce_none dbg v hev
  refine ⟨ch, e, ?_⟩
  have f1 : (A ++ N).filter (fun p => !p.closed v) = N := by
    rw [List.filter_append, List.filter_eq_nil_iff.2, List.filter_eq_self.2, List.nil_append]
    · intro p hp
      have := hN p hp
      simp only [Piece.closed, Bool.not_eq_true', Bool.and_eq_false_iff, decide_eq_false_iff_not]
      by_contra hc
      push Not at hc
      exact this hc
    · intro p hp
      simp [Piece.closed, hA p hp]
  have f2 : (A ++ N).filter (Piece.closed v) = A := by
    rw [List.filter_append, List.filter_eq_self.2, List.filter_eq_nil_iff.2, List.append_nil]
    · intro p hp hc
      simp only [Piece.closed, Bool.and_eq_true, decide_eq_true_eq] at hc
      exact hN p hp hc
    · intro p hp
      simp [Piece.closed, hA p hp]
  rwa [f1, f2] at R

theorem NoLook.open_ {o : List (Piece K)} (h : NoLook v o) : ∀ p ∈ o, ¬ (p.T.getLast? = some v ∧ p.B.getLast? = some v) :=
  fun p hp hc => (h p hp).1 hc.1

/-! ## The choice of the chain to split -/

def Curr (l : List (Pt K)) (h : Pt K) : Prop := ∃ b, EndsIn l h b

theorem curr_iff {w : Winding} {i : Nat} {l : List (Pt K)} {x : Bool} {h : Pt K} : (Chain.mk w i l x).curr = some h ↔ Curr l h := by
  constructor
  · intro hc
    rcases List.eq_nil_or_concat l with rfl | ⟨l', c, rfl⟩
    · simp [Chain.curr] at hc
    · exact ⟨c, curr_endsIn hc (by simp)⟩
  · rintro ⟨b, hb⟩
    exact hb.curr _ _ _

theorem Rep.mem_cands (h : Rep chains o d) {hpt : Pt K} {i : Nat} : i ∈ cands chains hpt ↔
    ∃ q ∈ o, (i = q.ti ∧ Curr q.T hpt) ∨ (i = q.bi ∧ Curr q.B hpt) := by
  unfold cands
  rw [List.mem_filter, List.mem_range]
  constructor
  · rintro ⟨hi, hc⟩
    rw [Option.any_eq_true] at hc
    obtain ⟨c, e, hc⟩ := hc
    rw [Bool.and_eq_true, Bool.not_eq_true'] at hc
    obtain ⟨q, hq, ⟨rfl, rfl⟩ | ⟨rfl, rfl⟩⟩ := h.get e hc.1
    · exact ⟨q, hq, .inl ⟨rfl, curr_iff.1 (of_decide_eq_true hc.2)⟩⟩
    · exact ⟨q, hq, .inr ⟨rfl, curr_iff.1 (of_decide_eq_true hc.2)⟩⟩
  · rintro ⟨q, hq, ⟨rfl, hc⟩ | ⟨rfl, hc⟩⟩
    · refine ⟨(h.lt (by simp [hq])).1, ?_⟩
      rw [(h.opn q hq).1, Option.any_some, Bool.and_eq_true]
      exact ⟨rfl, decide_eq_true (curr_iff.2 hc)⟩
    · refine ⟨(h.lt (by simp [hq])).2, ?_⟩
      rw [(h.opn q hq).2, Option.any_some, Bool.and_eq_true]
      exact ⟨rfl, decide_eq_true (curr_iff.2 hc)⟩

theorem cands_nodup (hpt : Pt K) : (cands chains hpt).Nodup := List.nodup_range.filter _

theorem nodup_one {L : List Nat} {a : Nat} (hn : L.Nodup) (h : ∀ x, x ∈ L ↔ x = a) : L = [a] := by
  match L, hn, h with
  | [], _, h => simpa using (h a).2 rfl
  | [x], _, h => rw [(h x).1 (by simp)]
  | x :: y :: L, hn, h =>
    have e1 := (h x).1 (by simp)
    have e2 := (h y).1 (by simp)
    subst e1; subst e2
    simp at hn

theorem nodup_two {L : List Nat} {a b : Nat} (hn : L.Nodup) (hab : a ≠ b) (h : ∀ x, x ∈ L ↔ x = a ∨ x = b) : L = [a, b] ∨ L = [b, a] := by
  refine list_two ?_ ((h a).2 (.inl rfl)) ((h b).2 (.inr rfl)) hab
  have : L.Perm [a, b] := (List.perm_ext_iff_of_nodup hn (by simp [hab])).2 (by simpa using h)
  simpa using this.length_eq

theorem splitIdx_two {dbg : Bool} {hpt r : Pt K} {i j : Nat} {ci cj : Chain K} (h : cands chains hpt = [i, j] ∨ cands chains hpt = [j, i])
    (h1 : chains[i]? = some ci) (h2 : chains[j]? = some cj) (w1 : ci.interior = .clockwise) (w2 : cj.interior = .counterClockwise)
    (hr : cj.next = some r) :
    splitIdx dbg chains hpt v = some (if orient2d v hpt r = .counterClockwise then j else i) := by
  unfold splitIdx
  rcases h with h | h
  · rw [show ((List.range chains.length).filter fun i => (chains[i]?).any fun c => !c.done && c.curr = some hpt) = [i, j] from h]
    simp only [h1, h2, w1, w2, Option.bind_eq_bind, Option.bind_some, reduceCtorEq, if_false]
    rw [dassert_true (by simp)]
    simp [h2, hr]
  · rw [show ((List.range chains.length).filter fun i => (chains[i]?).any fun c => !c.done && c.curr = some hpt) = [j, i] from h]
    simp [h1, h2, w1, w2, hr]

/-- The choice, if the upper chain of `p` starts from `hpt`. `hq`: what the other candidate is. -/
theorem Rep.splitIdx_top (dbg : Bool) {hpt : Pt K} (h : Rep chains o d) (hp : p ∈ o) (hc : Curr p.T hpt)
    (hT : ∀ q ∈ o, Curr q.T hpt → q = p) (hB : ∀ q ∈ o, ∀ q' ∈ o, Curr q.B hpt → Curr q'.B hpt → q = q')
    (hq : ∀ q ∈ o, ∀ r, EndsIn q.B hpt r → orient2d v hpt r = .counterClockwise → q = p) :
    splitIdx dbg chains hpt v = some p.ti ∨ (splitIdx dbg chains hpt v = some p.bi ∧ Curr p.B hpt) := by
  by_cases hx : ∃ q ∈ o, Curr q.B hpt
  · obtain ⟨q, qo, r, hr⟩ := hx
    have hne : p.ti ≠ q.bi := by
      intro e
      have : p = q := h.unique (i := p.ti) (by simp [hp]) (by simp [qo]) (.inl rfl) (.inr e)
      subst this
      exact h.ne (by simp [hp]) e
    have hL := nodup_two (cands_nodup (chains := chains) hpt) hne (fun x => by
      rw [h.mem_cands]
      constructor
      · rintro ⟨q', q'o, ⟨rfl, hc'⟩ | ⟨rfl, hc'⟩⟩
        · rw [hT q' q'o hc']; exact .inl rfl
        · rw [hB q' q'o q qo hc' ⟨r, hr⟩]; exact .inr rfl
      · rintro (rfl | rfl)
        · exact ⟨p, hp, .inl ⟨rfl, hc⟩⟩
        · exact ⟨q, qo, .inr ⟨rfl, r, hr⟩⟩)
    have := splitIdx_two (v := v) (dbg := dbg) hL (h.opn p hp).1 (h.opn q qo).2 rfl rfl (r := r) hr.last
    by_cases ho : orient2d v hpt r = .counterClockwise
    · rw [if_pos ho] at this
      have e := hq q qo r hr ho
      subst e
      exact .inr ⟨this, r, hr⟩
    · rw [if_neg ho] at this
      exact .inl this
  · left
    refine splitIdx_one (nodup_one (cands_nodup hpt) fun x => ?_)
    rw [h.mem_cands]
    constructor
    · rintro ⟨q', q'o, ⟨rfl, hc'⟩ | ⟨rfl, hc'⟩⟩
      · rw [hT q' q'o hc']
      · exact absurd ⟨q', q'o, hc'⟩ hx
    · rintro rfl
      exact ⟨p, hp, .inl ⟨rfl, hc⟩⟩

/-- The choice, if the lower chain of `p` starts from `hpt`. -/
theorem Rep.splitIdx_bot (dbg : Bool) {hpt : Pt K} (h : Rep chains o d) (hp : p ∈ o) {r : Pt K} (hc : EndsIn p.B hpt r)
    (hB : ∀ q ∈ o, Curr q.B hpt → q = p) (hT : ∀ q ∈ o, ∀ q' ∈ o, Curr q.T hpt → Curr q'.T hpt → q = q')
    (hq : ∀ q ∈ o, Curr q.T hpt → orient2d v hpt r ≠ .counterClockwise → q = p) :
    splitIdx dbg chains hpt v = some p.bi ∨ (splitIdx dbg chains hpt v = some p.ti ∧ Curr p.T hpt) := by
  by_cases hx : ∃ q ∈ o, Curr q.T hpt
  · obtain ⟨q, qo, hqT⟩ := hx
    have hne : q.ti ≠ p.bi := by
      intro e
      have : q = p := h.unique (i := q.ti) (by simp [qo]) (by simp [hp]) (.inl rfl) (.inr e)
      subst this
      exact h.ne (by simp [hp]) e
    have hL := nodup_two (cands_nodup (chains := chains) hpt) hne (fun x => by
      rw [h.mem_cands]
      constructor
      · rintro ⟨q', q'o, ⟨rfl, hc'⟩ | ⟨rfl, hc'⟩⟩
        · rw [hT q' q'o q qo hc' hqT]; exact .inl rfl
        · rw [hB q' q'o hc']; exact .inr rfl
      · rintro (rfl | rfl)
        · exact ⟨q, qo, .inl ⟨rfl, hqT⟩⟩
        · exact ⟨p, hp, .inr ⟨rfl, r, hc⟩⟩)
    have := splitIdx_two (v := v) (dbg := dbg) hL (h.opn q qo).1 (h.opn p hp).2 rfl rfl (r := r) hc.last
    by_cases ho : orient2d v hpt r = .counterClockwise
    · rw [if_pos ho] at this
      exact .inl this
    · rw [if_neg ho] at this
      have e := hq q qo hqT ho
      subst e
      exact .inr ⟨this, hqT⟩
  · left
    refine splitIdx_one (nodup_one (cands_nodup hpt) fun x => ?_)
    rw [h.mem_cands]
    constructor
    · rintro ⟨q', q'o, ⟨rfl, hc'⟩ | ⟨rfl, hc'⟩⟩
      · exact absurd ⟨q', q'o, hc'⟩ hx
      · rw [hB q' q'o hc']
    · rintro rfl
      exact ⟨p, hp, .inr ⟨rfl, r, hc⟩⟩

end GeoCrossings.Monotone

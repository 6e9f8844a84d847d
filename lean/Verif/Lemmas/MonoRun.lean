import Verif.Lemmas.MonoSplit
import Verif.Props.MonoPoly

/-!
# The whole run of `monotone_chains` on the edges of a valid polygon
-/
set_option linter.unusedSectionVars false
namespace GeoCrossings.Monotone
open Spec

variable {K : Type} [Field K] [LinearOrder K] [IsStrictOrderedRing K]
variable {n : Nat} {ed : Nat → Sg K} {top : Nat → Bool} {u v w : Pt K} {gs gs' : List (Gap K)}
  {d : List (Piece K)} {S : List Nat} {chains : List (Chain K)}

/-- The loop over the events returns; then all pieces are done. -/
theorem run_ok (E : Edges n ed top) (dbg : Bool) : ∀ (fuel : Nat) {u : Pt K} {gs : List (Gap K)} {sw : Sweep K} {cells : List (Cell K)}
    {d : List (Piece K)} {S : List Nat} {chains : List (Chain K)}, sw.events.length < fuel → GInv n ed top u gs → SInv n ed top u gs sw →
    CInv n ed top u cells d S chains → cells.map Prod.fst = gs →
    ∃ chains' d', run dbg fuel sw chains = some chains' ∧ Rep chains' [] d' ∧ (∀ p ∈ d', DoneOk n ed p) ∧
      (∀ f : Sg K → K, tot f d' = edgeSum ed top f (List.range' 1 n)) ∧
      ∀ r, u < r → ∃ u' gs', GInv n ed top u' gs' ∧ u' < r ∧ ∀ k, 1 ≤ k → k ≤ n → ∀ x, EndOf (ed k) x → x ≤ u' ∨ r ≤ x
  | 0, _, _, _, _, _, _, _, h, _, _, _, _ => absurd h (Nat.not_lt_zero _)
  | fuel + 1, u, gs, sw, cells, d, S, chains, hf, hI, hS, hC, hg => by
    by_cases hne : sw.events = []
    · obtain ⟨h1, h2⟩ := hS.last E hI hne
      have hle : ∀ k, 1 ≤ k → k ≤ n → ∀ x, EndOf (ed k) x → x ≤ u := by
        intro k k1 k2 x hx
        by_contra hlt
        rw [not_le] at hlt
        rcases hx with rfl | rfl
        · have := (hS.mem (evL ed k)).2 ⟨⟨k, k1, k2, .inl rfl⟩, hlt⟩
          rw [hne] at this; simp at this
        · have := (hS.mem (evR ed k)).2 ⟨⟨k, k1, k2, .inr rfl⟩, hlt⟩
          rw [hne] at this; simp at this
      have hc : cells = [] := by
        rw [h2] at hg
        simpa using hg
      subst hc
      refine ⟨chains, d, by simp [run, h1], hC.rep, hC.done, fun f => ?_, fun r hr => ⟨u, gs, hI, hr, fun k k1 k2 x hx => .inl (hle k k1 k2 x hx)⟩⟩
      have hb := hC.bal f
      rw [opens_nil, tot_nil, zero_add] at hb
      rw [hb]
      have hp : S.Perm (List.range' 1 n) := by
        refine (List.perm_ext_iff_of_nodup hC.nodup List.nodup_range').2 fun k => ?_
        rw [hC.mem, List.mem_range'_1]
        constructor
        · rintro ⟨h1, h2, -⟩; omega
        · rintro ⟨h1, h2⟩
          exact ⟨h1, by omega, hle k h1 (by omega) _ (.inl rfl)⟩
      exact (hp.map _).sum_eq
    · obtain ⟨v, gs', sw', ev, hv, hI', hS', hp, hpt, hL, hlen⟩ := hS.step E hI hne
      obtain ⟨chains', cells', d', S', he, hC', hg'⟩ := hC.step E dbg hv hI hI' hL hg
      obtain ⟨ch, dd, r1, r2, r3, r4, r5⟩ := run_ok E dbg fuel (by omega) hI' hS' hC' hg'
      refine ⟨ch, dd, ?_, r2, r3, r4, fun r hr => ?_⟩
      · have : applyEvent dbg chains ev = some chains' := by
          simp only [applyEvent, hpt]
          exact he
        simp [run, hp, this, r1]
      · rcases lt_or_ge v r with h | h
        · exact r5 r h
        · refine ⟨u, gs, hI, hr, ?_⟩
          rintro k k1 k2 x (rfl | rfl)
          · exact (hv.left k k1 k2).imp_right h.trans
          · exact (hv.right k k1 k2).imp_right h.trans

/-! ## The end of `monotone_chains` -/

theorem DoneOk.pair {p : Piece K} (h : DoneOk n ed p) : MonotonePair p.T p.B := by
  obtain ⟨⟨h1, h2, h3, -, -⟩, h4, h5, -⟩ := h
  cases hT : p.T with
  | nil => simp [hT] at h5
  | cons a l =>
    rw [hT] at h1 h3 h4 h5
    obtain ⟨e, he⟩ : ∃ e, (a :: l).getLast? = some e := ⟨_, List.getLast?_eq_some_getLast (by simp)⟩
    refine ⟨a, e, ?_, ⟨rfl, he⟩, ⟨h3.symm, h4.symm.trans he⟩, h1, h2⟩
    cases l with
    | nil => simp at h5
    | cons b l =>
      rw [Incr, List.pairwise_cons] at h1
      have : e ∈ b :: l := by
        rw [List.getLast?_cons_cons] at he
        exact List.mem_of_getLast? he
      exact (h1.1 e this).ne

def Piece.poly (p : Piece K) : MonoPoly K := ⟨p.T, p.B⟩

theorem takePairs : ∀ (d : List (Piece K)) (lines : List (List (Pt K))) (out : List (MonoPoly K)), (idxs d).Nodup →
    (∀ p ∈ d, lines[p.ti]? = some p.T ∧ lines[p.bi]? = some p.B ∧ MonotonePair p.T p.B) →
    ∃ lines', (d.map fun p => (p.ti, p.bi)).foldlM takePair (lines, out) = some (lines', out ++ d.map Piece.poly)
  | [], lines, out, _, _ => ⟨lines, by simp⟩
  | p :: d, lines, out, hn, hd => by
    obtain ⟨h1, h2, h3⟩ := hd p (by simp)
    rw [idxs_cons, List.nodup_cons, List.nodup_cons] at hn
    obtain ⟨n1, n2, n3⟩ := hn
    have ne : p.ti ≠ p.bi := fun h => n1 (by simp [h])
    obtain ⟨lines', hl⟩ := takePairs d ((lines.set p.ti []).set p.bi []) (out ++ [⟨p.T, p.B⟩]) n3 (by
      intro q hq
      obtain ⟨g1, g2, g3⟩ := hd q (by simp [hq])
      have a1 : p.ti ≠ q.ti := fun h => n1 (List.mem_cons_of_mem _ (mem_idxs.2 ⟨q, hq, .inl h⟩))
      have a2 : p.ti ≠ q.bi := fun h => n1 (List.mem_cons_of_mem _ (mem_idxs.2 ⟨q, hq, .inr h⟩))
      have a3 : p.bi ≠ q.ti := fun h => n2 (mem_idxs.2 ⟨q, hq, .inl h⟩)
      have a4 : p.bi ≠ q.bi := fun h => n2 (mem_idxs.2 ⟨q, hq, .inr h⟩)
      rw [List.getElem?_set_ne a3, List.getElem?_set_ne a1, List.getElem?_set_ne a4, List.getElem?_set_ne a2]
      exact ⟨g1, g2, g3⟩)
    refine ⟨lines', ?_⟩
    have e : takePair (lines, out) (p.ti, p.bi) = some ((lines.set p.ti []).set p.bi [], out ++ [⟨p.T, p.B⟩]) := by
      simp [takePair, h1, List.getElem?_set_ne ne, h2, (C42_new_accepts_iff p.T p.B ⟨p.T, p.B⟩).2 ⟨rfl, h3⟩]
    rw [List.map_cons, List.foldlM_cons, e]
    simpa [Piece.poly] using hl

theorem collect_ok (dbg : Bool) (h : Rep chains [] d) (hd : ∀ p ∈ d, DoneOk n ed p) :
    ∃ d' : List (Piece K), d'.Perm d ∧ collect dbg chains = some (d'.map Piece.poly) := by
  have hidx : (idxs d).Perm (List.range chains.length) := by simpa using h.idx
  have hnd : (idxs d).Nodup := hidx.nodup_iff.2 List.nodup_range
  have len : ∀ d : List (Piece K), (idxs d).length = d.length * 2 := by
    intro d
    induction d with
    | nil => rfl
    | cons p d ih => simp [ih]; omega
  have hlen : d.length * 2 = chains.length := by rw [← len, hidx.length_eq, List.length_range]
  have hat : ∀ i c, chains[i]? = some c → ∃ p ∈ d, (i = p.ti ∧ c = ⟨.clockwise, p.bi, p.T, true⟩) ∨ (i = p.bi ∧ c = ⟨.counterClockwise, p.ti, p.B, true⟩) := by
    intro i c hc
    obtain ⟨hi, -⟩ := List.getElem?_eq_some_iff.1 hc
    obtain ⟨p, hp, h'⟩ := h.index hi
    have hp' : p ∈ d := by simpa using hp
    obtain ⟨a1, a2⟩ := h.dn p hp'
    rcases h' with rfl | rfl
    · rw [a1] at hc; exact ⟨p, hp', .inl ⟨rfl, (Option.some.inj hc).symm⟩⟩
    · rw [a2] at hc; exact ⟨p, hp', .inr ⟨rfl, (Option.some.inj hc).symm⟩⟩
  have hall : chains.all (·.done) = true := by
    rw [List.all_eq_true]
    intro c hc
    obtain ⟨i, hi⟩ := List.mem_iff_getElem?.1 hc
    obtain ⟨p, -, ⟨-, rfl⟩ | ⟨-, rfl⟩⟩ := hat i c hi <;> rfl
  let pairs := chains.zipIdx.filterMap fun x => if x.1.interior = .clockwise then some (x.2, x.1.other) else none
  have hpairs : pairs = chains.zipIdx.filterMap fun x => if x.1.interior = .clockwise then some (x.2, x.1.other) else none := rfl
  have mp : ∀ q, q ∈ pairs ↔ ∃ p ∈ d, q = (p.ti, p.bi) := by
    intro q
    rw [hpairs, List.mem_filterMap]
    constructor
    · rintro ⟨⟨c, i⟩, hm, hq⟩
      have := List.mem_zipIdx_iff_getElem?.1 hm
      obtain ⟨p, hp, ⟨rfl, rfl⟩ | ⟨rfl, rfl⟩⟩ := hat i c this
      · exact ⟨p, hp, by simpa using hq.symm⟩
      · simp at hq
    · rintro ⟨p, hp, rfl⟩
      exact ⟨(⟨.clockwise, p.bi, p.T, true⟩, p.ti), List.mem_zipIdx_iff_getElem?.2 (h.dn p hp).1, by simp⟩
  have hfst : (pairs.map Prod.fst).Sublist (chains.zipIdx.map Prod.snd) := by
    rw [hpairs]
    generalize chains.zipIdx = l
    induction l with
    | nil => simp
    | cons x l ih =>
      by_cases hx : x.1.interior = .clockwise
      · simp only [List.filterMap_cons, if_pos hx, List.map_cons]
        exact ih.cons_cons _
      · simp only [List.filterMap_cons, if_neg hx, List.map_cons]
        exact ih.cons _
  have hpn : pairs.Nodup := by
    refine List.Nodup.of_map Prod.fst (hfst.nodup ?_)
    rw [List.zipIdx_map_snd]
    exact List.nodup_range'
  obtain ⟨d', e1, e2⟩ : ∃ d' : List (Piece K), pairs = d'.map (fun p : Piece K => (p.ti, p.bi)) ∧ ∀ p ∈ d', p ∈ d := by
    have : ∀ l : List (Nat × Nat), (∀ q ∈ l, ∃ p ∈ d, q = (p.ti, p.bi)) → ∃ d' : List (Piece K), l = d'.map (fun p : Piece K => (p.ti, p.bi)) ∧ ∀ p ∈ d', p ∈ d := by
      intro l
      induction l with
      | nil => intro _; exact ⟨[], rfl, by simp⟩
      | cons q l ih =>
        intro hl
        obtain ⟨p, hp, rfl⟩ := hl q (by simp)
        obtain ⟨d', rfl, h2⟩ := ih fun x hx => hl x (by simp [hx])
        exact ⟨p :: d', rfl, by simpa [hp] using h2⟩
    exact this pairs fun q hq => (mp q).1 hq
  have inj : ∀ p ∈ d, ∀ q ∈ d, p.ti = q.ti → p = q := fun p hp q hq e => h.unique (by simpa using hp) (by simpa using hq) (i := p.ti) (.inl rfl) (.inl e)
  have nd : d.Nodup := by
    have : ∀ d : List (Piece K), (idxs d).Nodup → d.Nodup := by
      intro d
      induction d with
      | nil => simp
      | cons p d ih =>
        intro hn
        rw [idxs_cons, List.nodup_cons, List.nodup_cons] at hn
        exact List.nodup_cons.2 ⟨fun hp => hn.1 (List.mem_cons_of_mem _ (mem_idxs.2 ⟨p, hp, .inl rfl⟩)), ih hn.2.2⟩
    exact this d hnd
  have hperm : d'.Perm d := by
    refine (List.perm_ext_iff_of_nodup (List.Nodup.of_map _ (e1 ▸ hpn)) nd).2 fun p => ⟨e2 p, fun hp => ?_⟩
    have := (mp _).2 ⟨p, hp, rfl⟩
    rw [e1, List.mem_map] at this
    obtain ⟨q, hq, he⟩ := this
    rw [← inj q (e2 q hq) p hp (congrArg Prod.fst he)]
    exact hq
  refine ⟨d', hperm, ?_⟩
  obtain ⟨lines', hl⟩ := takePairs d' (chains.map (·.coords)) [] ((hperm.flatMap_right _).nodup_iff.2 hnd) (by
    intro p hp
    obtain ⟨a1, a2⟩ := h.dn p (e2 p hp)
    exact ⟨by simp [a1], by simp [a2], (hd p (e2 p hp)).pair⟩)
  have hl2 : pairs.length * 2 = chains.length := by rw [e1, List.length_map, hperm.length_eq, hlen]
  have : pairs.foldlM takePair (chains.map (·.coords), []) = some (lines', d'.map Piece.poly) := by rw [e1]; simpa using hl
  simp only [collect, hall, ← hpairs, hl2, this]
  cases dbg <;> rfl

/-- What is proved of a result. -/
structure Decomposed (n : Nat) (ed : Nat → Sg K) (top : Nat → Bool) (out : List (MonoPoly K)) : Prop where
  pair : ∀ m ∈ out, MonotonePair m.top m.bot
  strict : ∀ m ∈ out, ∀ x, m.top.getLast? ≠ some x → WPass x m.top → Pass x m.bot
  full : ∀ m ∈ out, ∃ x, Pass x m.bot ∧ ¬ Pass x m.top
  good : ∀ m ∈ out, ClearL n ed m.top ∧ ClearL n ed m.bot
  bal : ∀ f : Sg K → K, (out.map fun m => wt f m.top - wt f m.bot).sum = edgeSum ed top f (List.range' 1 n)
  gaps : ∀ r, ∃ u' gs', GInv n ed top u' gs' ∧ ∀ k, 1 ≤ k → k ≤ n → ∀ x, EndOf (ed k) x → (x ≤ u' ∧ u' < r) ∨ r ≤ x

theorem Decomposed.above {out : List (MonoPoly K)} (h : Decomposed n ed top out) : ∀ m ∈ out, ∀ x, Pass x m.top → Pass x m.bot := by
  intro m hm x hx
  refine h.strict m hm x (fun e => ?_) hx.weak
  obtain ⟨_, _, -, -, -, hi, -⟩ := h.pair m hm
  exact lt_irrefl _ (pass_lt hi e hx)

theorem GInv.init (hu : ∀ k, 1 ≤ k → k ≤ n → u < (ed k).1) : GInv n ed top u [] where
  act := ⟨fun k => by
    constructor
    · intro h; simp [flat] at h
    · rintro ⟨h1, h2, h3, -⟩
      exact absurd (hu k h1 h2) (not_lt.2 h3), List.Pairwise.nil⟩
  ok := by simp
  diff := List.Pairwise.nil

theorem run_collect (E : Edges n ed top) (dbg : Bool) {sw : Sweep K} (hu : ∀ k, 1 ≤ k → k ≤ n → u < (ed k).1) (hS : SInv n ed top u [] sw) :
    ∃ out, (run dbg (sw.events.length + 1) sw []).bind (collect dbg) = some out ∧ Decomposed n ed top out := by
  have hC : CInv n ed top u ([] : List (Cell K)) [] [] ([] : List (Chain K)) := by
    refine ⟨Rep.nil, by simp, by simp, List.nodup_nil, fun k => ?_, fun f => by simp [edgeSum]⟩
    constructor
    · intro h; simp at h
    · rintro ⟨h1, h2, h3⟩
      exact absurd (hu k h1 h2) (not_lt.2 h3)
  obtain ⟨ch, d, r1, r2, r3, r4, r5⟩ := run_ok E dbg (sw.events.length + 1) (by omega) (GInv.init hu) hS hC rfl
  obtain ⟨d', p1, p2⟩ := collect_ok dbg r2 r3
  refine ⟨_, by rw [r1]; exact p2, ⟨?_, ?_, ?_, ?_, fun f => ?_, fun r => ?_⟩⟩
  · intro m hm
    obtain ⟨p, hp, rfl⟩ := List.mem_map.1 hm
    exact (r3 p (p1.mem_iff.1 hp)).pair
  · intro m hm
    obtain ⟨p, hp, rfl⟩ := List.mem_map.1 hm
    exact (r3 p (p1.mem_iff.1 hp)).above
  · intro m hm
    obtain ⟨p, hp, rfl⟩ := List.mem_map.1 hm
    exact (r3 p (p1.mem_iff.1 hp)).full
  · intro m hm
    obtain ⟨p, hp, rfl⟩ := List.mem_map.1 hm
    exact ⟨(r3 p (p1.mem_iff.1 hp)).ok.goodT, (r3 p (p1.mem_iff.1 hp)).ok.goodB⟩
  · rw [← r4 f, List.map_map]
    exact (p1.map _).sum_eq
  · rcases lt_or_ge u r with h | h
    · obtain ⟨u', gs', h1, h2, h3⟩ := r5 r h
      exact ⟨u', gs', h1, fun k k1 k2 x hx => (h3 k k1 k2 x hx).imp_left fun h => ⟨h, h2⟩⟩
    · refine ⟨u, [], GInv.init hu, fun k k1 k2 x hx => .inr ?_⟩
      rcases hx with rfl | rfl
      · exact h.trans (hu k k1 k2).le
      · exact h.trans ((hu k k1 k2).trans (E.lt k k1 k2)).le

end GeoCrossings.Monotone

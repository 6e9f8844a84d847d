import Verif.Lemmas.SafeSweep

/-!
# No event leads to an access out of bounds or an endless walk, in any arithmetic

The condition is that an overlap found for a starting segment begins where the segment begins.
-/
set_option linter.unusedSectionVars false
namespace GeoCrossings
open Splay Fault Sweep

variable {K C : Type} [LinearOrder K]

/-- The slab holds the chains `gs`; the keys `ks` and the heads of the chains `prot` are distinct and are heads of chains. -/
structure Heads (slab : Slab (Seg K C)) (gs : List (List Nat)) (ks : List Nat) (prot : List (Nat × List Nat)) : Prop where
  chains : Chains slab gs
  prt : ∀ g ∈ prot, g.1 :: g.2 ∈ gs
  nodup : (ks ++ prot.map (·.1)).Nodup
  head : ∀ k ∈ ks, ∃ l, k :: l ∈ gs

namespace Heads
variable {slab : Slab (Seg K C)} {gs : List (List Nat)} {ks ks' : List Nat} {prot : List (Nat × List Nat)}

theorem perm (h : Heads slab gs ks prot) (hp : ks.Perm ks') : Heads slab gs ks' prot :=
  ⟨h.chains, h.prt, (hp.append_right _).nodup_iff.1 h.nodup, fun k hk => h.head k (hp.mem_iff.2 hk)⟩

theorem sub (h : Heads slab gs ks prot) (hp : ks'.Sublist ks) : Heads slab gs ks' prot :=
  ⟨h.chains, h.prt, (hp.append_right _).nodup h.nodup, fun k hk => h.head k (hp.subset hk)⟩

theorem same {slab' : Slab (Seg K C)} (h : Heads slab gs ks prot) (hs : SameChains slab slab') : Heads slab' gs ks prot :=
  ⟨h.chains.same hs, h.prt, h.nodup, h.head⟩

theorem live (h : Heads slab gs ks prot) {k : Nat} (hk : k ∈ ks) : Live slab k := by
  obtain ⟨l, hl⟩ := h.head k hk
  exact h.chains.live hl (by simp)

theorem live_prot (h : Heads slab gs ks prot) {g : Nat × List Nat} (hg : g ∈ prot) {k : Nat} (hk : k ∈ g.1 :: g.2) : Live slab k :=
  h.chains.live (h.prt g hg) hk

theorem notProt (h : Heads slab gs ks prot) {k : Nat} (hk : k ∈ ks) {g : Nat × List Nat} (hg : g ∈ prot) : k ∉ g.1 :: g.2 := by
  intro hm
  obtain ⟨l, hl⟩ := h.head k hk
  have := h.chains.uniq hl (h.prt g hg) (k := k) (by simp) hm
  simp only [List.cons.injEq] at this
  have hn := (List.nodup_append.1 h.nodup).2.2
  exact hn k hk g.1 (List.mem_map.2 ⟨g, hg, rfl⟩) this.1

theorem prot_disjoint {p : Nat × List Nat} (h : Heads slab gs ks (p :: prot)) {g : Nat × List Nat} (hg : g ∈ prot) : p.1 ∉ g.1 :: g.2 := by
  intro hm
  have := h.chains.uniq (h.prt p (by simp)) (h.prt g (by simp [hg])) (k := p.1) (by simp) hm
  simp only [List.cons.injEq] at this
  have hn := (List.nodup_append.1 h.nodup).2.1
  rw [List.map_cons, List.nodup_cons] at hn
  exact hn.1 (List.mem_map.2 ⟨g, hg, this.1.symm⟩)

/-- The head of a chain moves between the keys and the protected chains. -/
theorem protect {k : Nat} (h : Heads slab gs (k :: ks) prot) : ∃ l, Heads slab gs ks ((k, l) :: prot) := by
  obtain ⟨l, hl⟩ := h.head k (by simp)
  refine ⟨l, h.chains, ?_, ?_, fun j hj => h.head j (by simp [hj])⟩
  · intro g hg
    rcases List.mem_cons.1 hg with rfl | hg
    · exact hl
    · exact h.prt g hg
  · have : (k :: ks ++ prot.map (·.1)).Perm (ks ++ ((k, l) :: prot).map (·.1)) := by
      simp only [List.map_cons, List.cons_append]
      exact List.perm_middle.symm
    exact this.nodup_iff.1 h.nodup

theorem unprotect {k : Nat} {l : List Nat} (h : Heads slab gs ks ((k, l) :: prot)) : Heads slab gs (k :: ks) prot := by
  refine ⟨h.chains, fun g hg => h.prt g (by simp [hg]), ?_, ?_⟩
  · have : (k :: ks ++ prot.map (·.1)).Perm (ks ++ ((k, l) :: prot).map (·.1)) := by
      simp only [List.map_cons, List.cons_append]
      exact List.perm_middle.symm
    exact this.nodup_iff.2 h.nodup
  · intro j hj
    rcases List.mem_cons.1 hj with rfl | hj
    · exact ⟨l, h.prt (j, l) (by simp)⟩
    · exact h.head j hj

/-- New chains, of keys that were vacant. -/
theorem fresh {slab' : Slab (Seg K C)} {fr : List (Nat × List Nat)} (h : Heads slab gs ks prot)
    (hc : Chains slab' (fr.map (fun g => g.1 :: g.2) ++ gs)) :
    Heads slab' (fr.map (fun g => g.1 :: g.2) ++ gs) (fr.map (·.1) ++ ks) prot := by
  have hn := hc.nodup
  rw [List.flatten_append, List.nodup_append] at hn
  have hfl : ∀ k ∈ fr.map (·.1), k ∈ (fr.map (fun g => g.1 :: g.2)).flatten := by
    intro k hk
    obtain ⟨g, hg, rfl⟩ := List.mem_map.1 hk
    exact List.mem_flatten.2 ⟨g.1 :: g.2, List.mem_map.2 ⟨g, hg, rfl⟩, by simp⟩
  refine ⟨hc, fun g hg => List.mem_append_right _ (h.prt g hg), ?_, ?_⟩
  · rw [List.append_assoc, List.nodup_append]
    refine ⟨?_, h.nodup, ?_⟩
    · have h1 := hn.1
      clear hn hfl hc
      induction fr with
      | nil => simp
      | cons g fr ih =>
        simp only [List.map_cons, List.flatten_cons] at h1 ⊢
        rw [List.nodup_append] at h1
        rw [List.nodup_cons]
        refine ⟨fun hm => ?_, ih h1.2.1⟩
        obtain ⟨g', hg', he⟩ := List.mem_map.1 hm
        exact h1.2.2 g.1 (by simp) g.1
          (List.mem_flatten.2 ⟨g'.1 :: g'.2, List.mem_map.2 ⟨g', hg', rfl⟩, by simp [he]⟩) rfl
    · intro a ha b hb
      refine hn.2.2 a (hfl a ha) b ?_
      rcases List.mem_append.1 hb with hb | hb
      · obtain ⟨l, hl⟩ := h.head b hb
        exact List.mem_flatten.2 ⟨_, hl, by simp⟩
      · obtain ⟨g, hg, rfl⟩ := List.mem_map.1 hb
        exact List.mem_flatten.2 ⟨_, h.prt g hg, by simp⟩
  · intro k hk
    rcases List.mem_append.1 hk with hk | hk
    · obtain ⟨g, hg, rfl⟩ := List.mem_map.1 hk
      exact ⟨g.2, List.mem_append_left _ (List.mem_map.2 ⟨g, hg, rfl⟩)⟩
    · obtain ⟨l, hl⟩ := h.head k hk
      exact ⟨l, List.mem_append_right _ hl⟩

end Heads

/-- The invariant of the sweep. -/
abbrev Sweep.Inv (st : Sweep K C) (gs : List (List Nat)) (prot : List (Nat × List Nat)) : Prop :=
  Heads st.segments gs (st.actives ++ lefts st.events) prot

/-- The chains `prot` are as before. -/
def Frame (slab slab' : Slab (Seg K C)) (prot : List (Nat × List Nat)) : Prop :=
  ∀ g ∈ prot, ∀ j ∈ g.1 :: g.2, slab'.get j = slab.get j

theorem Frame.refl {slab : Slab (Seg K C)} {prot : List (Nat × List Nat)} : Frame slab slab prot := fun _ _ _ _ => rfl

theorem Frame.trans {a b c : Slab (Seg K C)} {prot : List (Nat × List Nat)} (h : Frame a b prot) (h' : Frame b c prot) : Frame a c prot :=
  fun g hg j hj => (h' g hg j hj).trans (h g hg j hj)

/-- Nothing is removed. -/
def StillThere (slab slab' : Slab (Seg K C)) : Prop := ∀ j, slab.get j ≠ none → slab'.get j ≠ none

theorem StillThere.trans {a b c : Slab (Seg K C)} (h : StillThere a b) (h' : StillThere b c) : StillThere a c := fun j hj => h' j (h j hj)

namespace Sweep

theorem Inv.adjust {debug : Bool} {lineOf : C → Line K} {st : Sweep K C} {k : Nat} {i : LineOrPoint K} {gs : List (List Nat)}
    {prot : List (Nat × List Nat)} {s : Seg K C} (h : st.Inv gs prot) (hs : st.segments.get k = some s) :
    Safe (adjustOneF debug lineOf st k i) fun r => (∃ gs', r.1.Inv gs' prot) ∧ StillThere st.segments r.1.segments ∧
      (∀ g ∈ prot, k ∉ g.1 :: g.2 → ∀ j ∈ g.1 :: g.2, r.1.segments.get j = st.segments.get j) ∧
      (∃ s', r.1.segments.get k = some s' ∧ s'.geom.first = s.geom.first) ∧
      ∀ x, r.2 = some x → i.isLine ∧ (x = k ∧ s.geom.first = i.first ∨ x ∈ lefts r.1.events ∧ s.geom.first ≠ i.first) := by
  obtain ⟨l', l, hg⟩ := h.chains.mem_of_live (k := k) (by rw [hs]; simp)
  refine (adjustOneF_safe h.chains hg hs).mono fun r hr => ?_
  obtain ⟨fr, h1, h2, h3, h4, h5, h6⟩ := hr
  refine ⟨⟨_, (h.fresh h1).perm ?_⟩, ?_, ?_, h5, ?_⟩
  · unfold actives
    rw [h2, h3, ← List.append_assoc, ← List.append_assoc]
    exact List.perm_append_comm.append_right _
  · intro j hj
    obtain ⟨m, m', hm⟩ := h.chains.mem_of_live hj
    obtain ⟨s', hs', -⟩ := h1.live (List.mem_append_right _ hm) (k := j) (by simp)
    rw [hs']; simp
  · intro g hgp hk j hj
    refine h4 j ?_ ?_
    · obtain ⟨s', hs', -⟩ := h.live_prot hgp hj
      rw [hs']; simp
    · intro hm
      have := h.chains.uniq (h.prt g hgp) hg hj (by simp only [List.mem_append]; exact .inr hm)
      exact hk (by rw [this]; simp)
  · intro x hx
    obtain ⟨h7, h8⟩ := h6 x hx
    refine ⟨h7, ?_⟩
    rcases h8 with h8 | ⟨h8, h9⟩
    · exact .inl h8
    · exact .inr ⟨by rw [h3]; exact List.mem_append_left _ h8, h9⟩

theorem chainOverlapF_safe {st : Sweep K C} {a ek : Nat} {gs : List (List Nat)} {L0 : List Nat} (hc : Chains st.segments gs)
    (ha : st.segments.get a ≠ none) (hek : ek :: L0 ∈ gs) (hn : a ∉ ek :: L0) : Safe (chainOverlapF st a ek) fun st' =>
      ∃ ga gs', a ∈ ga ∧ gs.Perm (ga :: (ek :: L0) :: gs') ∧ Chains st'.segments ((ga ++ ek :: L0) :: gs') ∧ st'.active = st.active ∧
        st'.events = st.events ∧ (∀ j, j ∉ ga → j ∉ ek :: L0 → st'.segments.get j = st.segments.get j) := by
  obtain ⟨l', l, hg⟩ := hc.mem_of_live ha
  have hne : ek :: L0 ≠ l' ++ a :: l := by
    intro h; apply hn; rw [h]; simp
  have hp : gs.Perm ((l' ++ a :: l) :: (ek :: L0) :: (gs.erase (l' ++ a :: l)).erase (ek :: L0)) :=
    (List.perm_cons_erase hg).trans ((List.perm_cons_erase ((List.mem_erase_of_ne hne).2 hek)).cons _)
  have c1 := hc.perm hp
  obtain ⟨b, hb⟩ := (c1.lk _ List.mem_cons_self).suffix
  have hlen := c1.length_le (g := l' ++ a :: l) List.mem_cons_self
  simp only [List.length_append, List.length_cons] at hlen
  refine Safe.bind (chainEndF_safe hb (by omega)) fun e he => ?_
  obtain ⟨x, hx⟩ := he
  have hga : l' ++ a :: l = (l' ++ x) ++ [e] := by rw [hx]; simp
  obtain ⟨se, h1, -⟩ := c1.live (g := l' ++ a :: l) List.mem_cons_self (k := e) (by rw [hga]; simp)
  obtain ⟨s', h2, -⟩ := c1.live (g := ek :: L0) (by simp) (k := ek) (by simp)
  have hen : ek ≠ e := by
    rintro rfl
    exact hne (c1.uniq (k := ek) (by simp) List.mem_cons_self (by simp) (by rw [hga]; simp))
  refine Safe.bind (Safe.modifyU h1 _) fun slab1 e1 => ?_
  subst e1
  have h3 : (st.segments.put e (some { se with overlapping := some ek })).get ek = some s' := by
    rw [Slab.get_put, if_neg hen, h2]
  refine Safe.bind (Safe.modifyU h3 _) fun slab2 e2 => Safe.pure ?_
  subst e2
  have c2 := c1
  rw [hga] at c2
  have c3 := c2.link h1 h2
  refine ⟨l' ++ a :: l, _, by simp, hp, ?_, rfl, rfl, ?_⟩
  · dsimp only
    have : l' ++ a :: l ++ ek :: L0 = l' ++ x ++ e :: ek :: L0 := by rw [hga]; simp
    rw [this]
    simpa [hga] using c3
  · intro j h4 h5
    dsimp only
    rw [Slab.get_put, if_neg (by rintro rfl; simp at h5), Slab.get_put, if_neg]
    rintro rfl; exact h4 (by rw [hga]; simp)

/-- Chaining the starting segment behind another one. -/
theorem Inv.chain {st : Sweep K C} {a ek : Nat} {gs : List (List Nat)} {L0 : List Nat} {prot : List (Nat × List Nat)}
    (h : st.Inv gs ((ek, L0) :: prot)) (ha : st.segments.get a ≠ none) (hn : ∀ g ∈ (ek, L0) :: prot, a ∉ g.1 :: g.2) :
    Safe (chainOverlapF st a ek) fun st' => (∃ gs' pre, st'.Inv gs' prot ∧ pre ++ ek :: L0 ∈ gs') ∧ StillThere st.segments st'.segments ∧
      Frame st.segments st'.segments prot := by
  have hek : ek :: L0 ∈ gs := h.prt (ek, L0) (by simp)
  refine (chainOverlapF_safe h.chains ha hek (hn (ek, L0) (by simp))).mono fun st' hr => ?_
  obtain ⟨ga, gs', h1, h2, h3, h4, h5, h6⟩ := hr
  have hgs : ∀ g ∈ gs, g ≠ ga → g ≠ ek :: L0 → g ∈ gs' := by
    intro g hg e1 e2
    have := h2.mem_iff.1 hg
    simpa [e1, e2] using this
  have hpne : ∀ g ∈ prot, g.1 :: g.2 ≠ ga ∧ g.1 :: g.2 ≠ ek :: L0 := by
    intro g hg
    constructor
    · intro e; exact hn g (by simp [hg]) (e ▸ h1)
    · intro e
      exact h.prot_disjoint hg (by rw [e]; simp)
  refine ⟨⟨_, ga, ⟨h3, ?_, ?_, ?_⟩, List.mem_cons_self⟩, ?_, ?_⟩
  · intro g hg
    exact List.mem_cons_of_mem _ (hgs _ (h.prt g (by simp [hg])) (hpne g hg).1 (hpne g hg).2)
  · have := h.nodup
    unfold actives at this ⊢
    rw [h4, h5]
    refine List.Nodup.sublist ?_ this
    exact (List.sublist_cons_self _ _).append_left _
  · intro k hk
    have hk' : k ∈ st.actives ++ lefts st.events := by
      unfold actives at hk ⊢; rwa [h4, h5] at hk
    obtain ⟨l, hl⟩ := h.head k hk'
    by_cases e : k :: l = ga
    · exact ⟨l ++ ek :: L0, by rw [← e]; simp⟩
    · refine ⟨l, List.mem_cons_of_mem _ (hgs _ hl e ?_)⟩
      intro e2
      refine h.notProt hk' (g := (ek, L0)) (by simp) ?_
      dsimp only
      rw [← e2]; simp
  · intro j hj
    have := h2.flatten.mem_iff.1 (h.chains.cover j hj)
    have h7 : j ∈ ((ga ++ ek :: L0) :: gs').flatten := by
      simpa using this
    obtain ⟨g, hg, hjg⟩ := List.mem_flatten.1 h7
    obtain ⟨s, hs, -⟩ := h3.live hg hjg
    rw [hs]; simp
  · intro g hg j hj
    have hp := hpne g hg
    have hm := h.prt g (by simp [hg])
    refine h6 j (fun hj' => hp.1 ?_) (fun hj' => hp.2 ?_)
    · exact h.chains.uniq hm (h2.mem_iff.2 (by simp)) hj hj'
    · exact h.chains.uniq hm (h2.mem_iff.2 (by simp)) hj hj'

/-- What is known after an event. -/
def Post (st st' : Sweep K C) (prot : List (Nat × List Nat)) : Prop :=
  (∃ gs', st'.Inv gs' prot) ∧ Frame st.segments st'.segments prot

variable {ovl : Prop} {A : Arith K} {debug : Bool} {lineOf : C → Line K} {choice : Nat → Nat}
  {rec : Sweep K C → Event K → Except Fault (Sweep K C × Out K C × Bool)}

theorem leftLoopF_safe (hov : ∀ a b r1 r2, A.start a b = some (some (.line r1 r2)) → ovl ∧ r1 = a.first)
    (hrec : ∀ st e gs prot, Heads st.segments gs (st.actives ++ lefts (e :: st.events)) prot →
      Safe (rec st e) fun r => Post st r.1 prot ∧ (ovl → ∀ x ∈ lefts (e :: st.events), r.1.segments.get x ≠ none))
    {ek : Nat} {L0 : List Nat} {prot : List (Nat × List Nat)} (rest : List Nat) (st : Sweep K C) (seg : Seg K C) (gs : List (List Nat))
    (h : st.Inv gs ((ek, L0) :: prot)) (hseg : st.segments.get ek = some seg) (hadj : ∀ j ∈ rest, ∀ g ∈ (ek, L0) :: prot, j ∉ g.1 :: g.2) :
    Safe (leftLoopF debug A lineOf choice rec ek rest st seg) fun r =>
      Frame st.segments r.1.segments prot ∧ ((∀ st e x, rec st e ≠ .ok x) → StillThere st.segments r.1.segments) ∧
      ((r.2.2 = .add ∧ ∃ gs', r.1.Inv gs' ((ek, L0) :: prot)) ∨
        (r.2.2 ≠ .add ∧ ∃ gs' pre, r.1.Inv gs' prot ∧ pre ++ ek :: L0 ∈ gs')) := by
  induction rest generalizing st seg gs with
  | nil => exact Safe.ok ⟨.refl, fun _ _ h => h, .inl ⟨rfl, gs, h⟩⟩
  | cons adj rest ih =>
    unfold leftLoopF
    refine Safe.bind Safe.orPanic fun adjSeg h1 => ?_
    refine Safe.bind Safe.orPanic fun inter h2 => ?_
    cases inter with
    | none => exact ih st seg gs h hseg fun j hj => hadj j (by simp [hj])
    | some i =>
      dsimp only
      have hadj0 : ∀ g ∈ (ek, L0) :: prot, adj ∉ g.1 :: g.2 := hadj adj (by simp)
      have hline : i.isLine = true → ovl ∧ i.first = seg.geom.first := by
        intro hl
        cases i with
        | point p => cases hl
        | line r1 r2 => exact hov _ _ _ _ h2
      refine Safe.bind (h.adjust h1) fun r hr => ?_
      obtain ⟨st1, adjOv⟩ := r
      obtain ⟨⟨gs1, i1⟩, k1, f1, ⟨adjSeg1, a1, a2⟩, o1⟩ := hr
      dsimp only at i1 k1 f1 a1 a2 o1 ⊢
      have f1' : Frame st.segments st1.segments ((ek, L0) :: prot) := fun g hg j hj => f1 g hg (hadj0 g hg) j hj
      refine Safe.bind (Safe.getU a1) fun s e => ?_
      subst e
      -- the other segment that is to be chained
      have hgood : ∀ a, adjOv = some a → ∀ g ∈ (ek, L0) :: prot, a ∉ g.1 :: g.2 := by
        intro a ha g hg
        rcases (o1 a ha).2 with ⟨rfl, -⟩ | ⟨hm, -⟩
        · exact hadj0 g hg
        · exact i1.notProt (List.mem_append_right _ hm) hg
      have hP : Safe (recurseF debug choice rec st1 (i.first ≠ s.geom.first ∧ i.first = seg.geom.first)) fun r => (∃ gs2, r.1.Inv gs2 ((ek, L0) :: prot)) ∧ Frame st1.segments r.1.segments ((ek, L0) :: prot) ∧
            (∀ a, adjOv = some a → r.1.segments.get a ≠ none) ∧ ((∀ st e x, rec st e ≠ .ok x) → StillThere st1.segments r.1.segments) := by
        unfold recurseF
        split
        · next hcond =>
          replace hcond := of_decide_eq_true hcond
          refine Safe.bind Safe.orPanic fun r hr => ?_
          obtain ⟨e, st2⟩ := r
          obtain ⟨p1, p2, p3⟩ := popEvent_perm hr
          dsimp only
          have i2 : Heads st2.segments gs1 (st2.actives ++ lefts (e :: st2.events)) ((ek, L0) :: prot) := by
            rw [p1]
            refine i1.perm ?_
            unfold actives
            rw [p2]
            exact (lefts_perm p3).append_left _
          have hr2 := hrec st2 e gs1 _ i2
          cases hx : rec st2 e with
          | error er => rw [hx] at hr2; exact hr2
          | ok x =>
            rw [hx] at hr2
            obtain ⟨st3, out, done⟩ := x
            obtain ⟨⟨i3, f3⟩, R⟩ := hr2
            show Safe (if debug ∧ ¬ done then .error .panic else pure (st3, out)) _
            split
            · exact Safe.panic
            · refine Safe.pure ⟨i3, by rw [← p1]; exact f3, ?_, fun hno => absurd hx (hno _ _ _)⟩
              intro a ha
              obtain ⟨q1, q2⟩ := o1 a ha
              rcases q2 with ⟨-, q3⟩ | ⟨q3, -⟩
              · exact absurd (a2.trans q3).symm hcond.1
              · exact R (hline q1).1 a ((lefts_perm p3).mem_iff.1 q3)
        · refine Safe.pure ⟨⟨gs1, i1⟩, .refl, ?_, fun _ _ h => h⟩
          intro a ha
          rcases (o1 a ha).2 with ⟨rfl, -⟩ | ⟨hm, -⟩
          · rw [a1]; simp
          · obtain ⟨s, hs, -⟩ := i1.live (List.mem_append_right _ hm)
            rw [hs]; simp
      refine Safe.bind hP fun r hr => ?_
      obtain ⟨st2, out1⟩ := r
      obtain ⟨⟨gs2, i2⟩, f2, l2, k2⟩ := hr
      dsimp only at i2 f2 l2 k2 ⊢
      have hseg2 : st2.segments.get ek = some seg := by
        rw [f2 (ek, L0) (by simp) ek (by simp), f1' (ek, L0) (by simp) ek (by simp), hseg]
      refine Safe.bind (i2.adjust hseg2) fun r hr => ?_
      obtain ⟨st3, segOv⟩ := r
      obtain ⟨⟨gs3, i3⟩, k3, f3, ⟨seg3, a3, a4⟩, o3⟩ := hr
      dsimp only at i3 k3 f3 a3 a4 o3 ⊢
      have f3' : Frame st2.segments st3.segments prot := fun g hg j hj => f3 g (by simp [hg]) (i2.prot_disjoint hg) j hj
      have frm : Frame st.segments st3.segments prot :=
        Frame.trans (fun g hg => f1' g (by simp [hg])) (Frame.trans (fun g hg => f2 g (by simp [hg])) f3')
      have kpt : (∀ st e x, rec st e ≠ .ok x) → StillThere st.segments st3.segments := fun hno => k1.trans ((k2 hno).trans k3)
      refine Safe.bind (Safe.getU a3) fun s3 e => ?_
      subst e
      cases adjOv with
      | none =>
        cases segOv with
        | some t => exact Safe.panic
        | none =>
          dsimp only
          refine Safe.bind (ih st3 s3 gs3 i3 a3 fun j hj => hadj j (by simp [hj])) fun r hr => Safe.pure ?_
          obtain ⟨r1, r2, r3⟩ := hr
          exact ⟨frm.trans r1, fun hno => (kpt hno).trans (r2 hno), r3⟩
      | some a =>
        cases segOv with
        | none => exact Safe.panic
        | some t =>
          dsimp only
          obtain ⟨q1, q2⟩ := o3 t rfl
          have ht : t = ek := by
            rcases q2 with ⟨q, -⟩ | ⟨-, q⟩
            · exact q
            · exact absurd (hline q1).2.symm q
          subst ht
          refine Safe.bind (i3.chain (k3 a (l2 a rfl)) (hgood a rfl)) fun st4 hr => ?_
          obtain ⟨i4, k4, f4⟩ := hr
          rw [if_pos rfl]
          have hlive := k4 a (k3 a (l2 a rfl))
          cases ha : st4.segments.get a with
          | none => exact absurd ha hlive
          | some as =>
            refine Safe.bind (Safe.getU ha) fun as' e => Safe.pure ?_
            subst e
            refine ⟨frm.trans f4, fun hno => (kpt hno).trans k4, .inr ⟨?_, i4⟩⟩
            dsimp only
            split <;> simp

theorem pointLoopF_safe {prot : List (Nat × List Nat)} (rest : List Nat) (st : Sweep K C) (seg : Seg K C) (gs : List (List Nat))
    (h : st.Inv gs prot) (hadj : ∀ j ∈ rest, ∀ g ∈ prot, j ∉ g.1 :: g.2) :
    Safe (pointLoopF debug A lineOf rest st seg) fun st' =>
      (∃ gs', st'.Inv gs' prot) ∧ Frame st.segments st'.segments prot ∧ StillThere st.segments st'.segments := by
  induction rest generalizing st gs with
  | nil => exact Safe.ok ⟨⟨gs, h⟩, .refl, fun _ h => h⟩
  | cons adj rest ih =>
    unfold pointLoopF
    refine Safe.bind Safe.orPanic fun adjSeg h1 => ?_
    refine Safe.bind Safe.orPanic fun inter h2 => ?_
    cases inter with
    | none => exact ih st gs h fun j hj => hadj j (by simp [hj])
    | some i =>
      dsimp only
      refine Safe.bind (h.adjust h1) fun r hr => ?_
      obtain ⟨st1, ov⟩ := r
      obtain ⟨⟨gs1, i1⟩, k1, f1, -, -⟩ := hr
      dsimp only at i1 k1 f1 ⊢
      split
      · exact Safe.panic
      · refine (ih st1 gs1 i1 fun j hj => hadj j (by simp [hj])).mono fun st' hr => ?_
        obtain ⟨r1, r2, r3⟩ := hr
        exact ⟨r1, Frame.trans (fun g hg j hj => f1 g hg (hadj adj (by simp) g hg) j hj) r2, k1.trans r3⟩

theorem segmentForEvent_some {st : Sweep K C} {e : Event K} {seg : Seg K C} (h : st.segmentForEvent e = some (some seg)) :
    st.segments.get e.segmentKey = some seg := by
  unfold segmentForEvent at h
  cases hg : st.segments.get e.segmentKey with
  | none => rw [hg] at h; cases he : e.ty <;> simp [he] at h
  | some s =>
    rw [hg] at h
    cases he : e.ty <;> simp only [he, Option.bind_eq_bind, Option.bind_some] at h
    · split at h
      · split at h
        · cases h; rfl
        · cases h
      · cases h
    · split at h
      · cases h
      · split at h
        · split at h
          · cases h; rfl
          · cases h
        · cases h
    all_goals
      split at h
      · split at h
        · cases h; rfl
        · cases h
      · cases h

end Sweep
end GeoCrossings

import Verif.Lemmas.SafeHandle

/-!
# Whole sweeps are memory safe, in any arithmetic
-/
set_option linter.unusedSectionVars false
namespace GeoCrossings
open Splay Fault Sweep

variable {K C : Type} [LinearOrder K]

theorem Chains.remove {slab slab' : Slab (Seg K C)} {g : List Nat} {gs : List (List Nat)} (h : Chains slab (g :: gs)) (ho : slab'.Ok)
    (he : ∀ j, slab'.get j = if j ∈ g then none else slab.get j) : Chains slab' gs := by
  have hn := h.nodup
  rw [List.flatten_cons, List.nodup_append] at hn
  refine ⟨ho, fun x hx => h.ne x (by simp [hx]), fun x hx => (h.lk x (by simp [hx])).congr fun k hk => ?_, hn.2.1, fun k hk => ?_⟩
  · rw [he, if_neg]
    intro hm
    exact hn.2.2 k hm k (List.mem_flatten.2 ⟨x, hx, hk⟩) rfl
  · rw [he] at hk
    split at hk
    · exact absurd rfl hk
    · next hm =>
      have := h.cover k hk
      rw [List.flatten_cons, List.mem_append] at this
      exact this.resolve_left hm

namespace Sweep

variable {ovl : Prop} {A : Arith K} {debug : Bool} {lineOf : C → Line K} {choice : Nat → Nat}

theorem emitLeft_safe {slab : Slab (Seg K C)} {gs : List (List Nat)} {ks pre L0 : List Nat} {ek : Nat} {prot : List (Nat × List Nat)}
    (h : Heads slab gs ks prot) (hg : pre ++ ek :: L0 ∈ gs) (hp : ∀ g ∈ prot, ek ∉ g.1 :: g.2) :
    Safe (emitLeftF (slab.size + 1) slab (some ek)) fun r => SameChains slab r.1 ∧ Frame slab r.1 prot := by
  obtain ⟨b, hb⟩ := (h.chains.lk _ hg).suffix
  have hlen := h.chains.length_le hg
  simp only [List.length_append, List.length_cons] at hlen
  refine (emitLeftF_safe (l := ek :: L0) h.chains.ok hb (by simp only [List.length_cons]; omega)).mono fun r hr => ⟨hr.1, fun g hg' j hj => hr.2 j fun hm => ?_⟩
  have := h.chains.uniq (h.prt g hg') hg hj (List.mem_append_right _ hm)
  exact hp g hg' (by rw [this]; simp)

theorem handleEventF_step (hA : ∀ g, A.cmp g g = none ∨ A.cmp g g = some .eq)
    (hov : ∀ a b r1 r2, A.start a b = some (some (.line r1 r2)) → ovl ∧ r1 = a.first) {depth : Nat}
    (hrec : ∀ (st : Sweep K C) e gs prot, Heads st.segments gs (st.actives ++ lefts (e :: st.events)) prot →
      Safe (handleEventF debug A lineOf choice depth st e) fun r =>
        Post st r.1 prot ∧ (ovl → ∀ x ∈ lefts (e :: st.events), r.1.segments.get x ≠ none))
    (st : Sweep K C) (e : Event K) (gs : List (List Nat)) (prot : List (Nat × List Nat))
    (h : Heads st.segments gs (st.actives ++ lefts (e :: st.events)) prot) :
    Safe (handleEventF debug A lineOf choice (depth + 1) st e) fun r => Post st r.1 prot ∧
      ((∀ st e x, handleEventF debug A lineOf choice depth st e ≠ .ok x) → ∀ x ∈ lefts (e :: st.events), r.1.segments.get x ≠ none) := by
  rw [handleEventF.eq_def]
  dsimp only
  have hsub : (st.actives ++ lefts st.events).Sublist (st.actives ++ lefts (e :: st.events)) := by
    rw [lefts_cons]
    exact (List.sublist_append_right _ _).append_left _
  have hlive : ∀ x ∈ lefts (e :: st.events), st.segments.get x ≠ none := by
    intro x hx
    obtain ⟨s, hs, -⟩ := h.live (List.mem_append_right _ hx)
    rw [hs]; simp
  refine Safe.bind Safe.orPanic fun o ho => ?_
  cases o with
  | none => exact Safe.pure ⟨⟨⟨gs, h.sub hsub⟩, .refl⟩, fun _ => hlive⟩
  | some seg =>
    dsimp only
    have hseg := segmentForEvent_some ho
    have hkey : seg.key = e.segmentKey := by
      obtain ⟨l', l, hl⟩ := h.chains.mem_of_live (k := e.segmentKey) (by rw [hseg]; simp)
      obtain ⟨s, hs, h1⟩ := h.chains.live hl (k := e.segmentKey) (by simp)
      rw [hseg] at hs; cases hs; exact h1
    have hact : ∀ j ∈ st.actives, Live st.segments j := fun j hj => h.live (List.mem_append_left _ hj)
    rw [hkey]
    refine Safe.bind (prevKeyF_safe hA ⟨seg, hseg, hkey⟩ hact) fun r hr => ?_
    obtain ⟨st1, prev⟩ := r
    obtain ⟨p1, p2, p3, p4⟩ := hr
    dsimp only at p1 p2 p3 p4 ⊢
    refine Safe.bind (nextKeyF_safe hA (by rw [p1]; exact ⟨seg, hseg, hkey⟩) (by rw [p1, p3]; exact hact)) fun r hr => ?_
    obtain ⟨st2, next⟩ := r
    obtain ⟨q1, q2, q3, q4⟩ := hr
    dsimp only at q1 q2 q3 q4 ⊢
    rw [p1] at q1
    rw [p2] at q2
    rw [p3] at q3 q4
    rw [← q1, ← q2, ← q3] at h
    rw [← q2, ← q3] at hsub
    rw [← q1, ← q2] at hlive
    rw [← q1, ← q3] at hact
    rw [← q1] at hseg
    rw [← q2]
    rw [← q3] at p4 q4
    have hPost : ∀ st' : Sweep K C, Post st2 st' prot → Post st st' prot := by
      rintro st' ⟨a, b⟩
      exact ⟨a, by rw [← q1]; exact b⟩
    clear p1 p2 p3 q1 q2 q3 ho
    have hnb : ∀ j ∈ prev.toList ++ next.toList, j ∈ st2.actives ∧ j ≠ e.segmentKey := by
      intro j hj
      rcases List.mem_append.1 hj with hj | hj
      · exact p4 j (by simpa using hj)
      · exact q4 j (by simpa using hj)
    have hnp : ∀ j ∈ prev.toList ++ next.toList, ∀ g ∈ prot, j ∉ g.1 :: g.2 :=
      fun j hj g hg => h.notProt (List.mem_append_left _ (hnb j hj).1) hg
    cases hty : e.ty with
    | lineLeft =>
      dsimp only
      have hll : lefts (e :: st2.events) = e.segmentKey :: lefts st2.events := by rw [lefts_cons, if_pos hty]; rfl
      have h' := h
      rw [hll] at h'
      obtain ⟨L0, hI⟩ := (h'.perm List.perm_middle).protect
      have hpd : ∀ g ∈ prot, e.segmentKey ∉ g.1 :: g.2 := fun g hg => hI.prot_disjoint hg
      refine Safe.bind (leftLoopF_safe hov hrec _ st2 seg gs hI hseg ?_) fun r hr => ?_
      · intro j hj g hg
        exact hI.notProt (List.mem_append_left _ (hnb j hj).1) hg
      obtain ⟨st3, out1, x⟩ := r
      obtain ⟨f3, k3, i3⟩ := hr
      dsimp only at f3 k3 i3 ⊢
      -- the rest, once the segment is in the tree or in a chain
      have fin : ∀ (st4 : Sweep K C) gs4 pre, st4.segments = st3.segments → st4.Inv gs4 prot → pre ++ e.segmentKey :: L0 ∈ gs4 →
          Safe (do
            let (slab, out2) ← emitLeftF (st4.segments.size + 1) st4.segments (some e.segmentKey)
            pure (({ st4 with segments := slab } : Sweep K C), out1 ++ out2, true)) fun r => Post st r.1 prot ∧
            ((∀ st e x, handleEventF debug A lineOf choice depth st e ≠ .ok x) → ∀ x ∈ lefts (e :: st2.events), r.1.segments.get x ≠ none) := by
        intro st4 gs4 pre e4 i4 hg4
        refine Safe.bind (emitLeft_safe i4 hg4 hpd) fun r hr => Safe.pure ⟨hPost _ ⟨⟨gs4, i4.same hr.1⟩, ?_⟩, fun hno y hy => ?_⟩
        · exact f3.trans (e4 ▸ hr.2)
        · exact hr.1.live (e4 ▸ k3 hno y (hlive y hy))
      rcases i3 with ⟨hx, gs3, i3⟩ | ⟨hx, gs3, pre, i3, hg3⟩
      · subst hx
        dsimp only
        rw [if_pos rfl]
        have hl3 : ∀ j ∈ st3.actives, Live st3.segments j := fun j hj => i3.live (List.mem_append_left _ hj)
        refine Safe.bind (addKeyF_safe hA (i3.live_prot (g := (e.segmentKey, L0)) (by simp) (by simp)) hl3) fun st4 hr => ?_
        obtain ⟨a1, a2, a3⟩ := hr
        refine fin st4 gs3 [] a1 ?_ (i3.prt (e.segmentKey, L0) (by simp))
        have := i3.unprotect
        unfold Inv
        rw [a1, a2]
        exact this.perm (a3.append_right _).symm
      · cases x with
        | add => exact absurd rfl hx
        | noAdd =>
          dsimp only
          rw [if_neg (by decide)]
          exact Safe.bind (Safe.pure (P := fun s => s = st3) rfl) fun st4 e4 => by subst e4; exact fin st4 gs3 pre rfl i3 hg3
        | ret =>
          exact Safe.pure ⟨hPost _ ⟨⟨gs3, i3⟩, f3⟩, fun hno y hy => k3 hno y (hlive y hy)⟩
    | lineRight =>
      dsimp only
      have hll : lefts (e :: st2.events) = lefts st2.events := by rw [lefts_cons, if_neg (by rw [hty]; decide)]; rfl
      rw [hll] at h ⊢
      refine Safe.bind (removeKeyF_safe hA ⟨seg, hseg, hkey⟩ hact) fun st3 hr => ?_
      obtain ⟨a1, a2, L, R, a3, a4⟩ := hr
      have hek : e.segmentKey ∈ st2.actives := by rw [a3]; simp
      obtain ⟨L0, hL0⟩ := h.head e.segmentKey (List.mem_append_left _ hek)
      have hp := List.perm_cons_erase hL0
      have c1 := h.chains.perm hp
      have hlen := h.chains.length_le hL0
      have hcs : Lk st3.segments true (e.segmentKey :: L0) := by rw [a1]; exact h.chains.lk _ hL0
      refine Safe.bind (emitRightF_safe (l := e.segmentKey :: L0) (by rw [a1]; exact h.chains.ok) hcs (h.chains.group_nodup hL0)
        (by rw [a1]; omega)) fun r hr => ?_
      obtain ⟨slab, out⟩ := r
      obtain ⟨b1, b2⟩ := hr
      dsimp only at b1 b2 ⊢
      rw [a1] at b2
      have c2 := c1.remove b1 b2
      have hother : ∀ j l, j :: l ∈ gs → j ≠ e.segmentKey → j :: l ∈ gs.erase (e.segmentKey :: L0) := by
        intro j l hj hne
        refine (List.mem_erase_of_ne ?_).2 hj
        intro he
        exact hne (by simpa using (List.cons.inj he).1)
      have hne : ∀ g ∈ prot, g.1 ≠ e.segmentKey := by
        intro g hg he
        exact h.notProt (List.mem_append_left _ hek) hg (by rw [he]; simp)
      have hn := h.nodup
      rw [a3] at hn
      have hdup : (e.segmentKey :: ((L ++ R) ++ lefts st2.events ++ prot.map (·.1))).Nodup := by
        refine List.Perm.nodup (l := L ++ e.segmentKey :: R ++ lefts st2.events ++ prot.map (·.1)) ?_ hn
        simp only [List.append_assoc, List.cons_append]
        exact List.perm_middle
      rw [List.nodup_cons] at hdup
      let st4 : Sweep K C := { st3 with segments := slab }
      have hsl : (st4.actives ++ lefts st4.events).Sublist ((L ++ R) ++ lefts st2.events) := by
        show (st3.actives ++ lefts st3.events).Sublist _
        rw [a2]
        exact a4.append_right _
      have i4 : st4.Inv (gs.erase (e.segmentKey :: L0)) prot := by
        refine ⟨c2, fun g hg => hother _ _ (h.prt g hg) (hne g hg), ?_, ?_⟩
        · exact (hsl.append_right _).nodup hdup.2
        · intro k hk
          have hk2 := hsl.subset hk
          have hk3 : k ∈ st2.actives ++ lefts st2.events := by
            rw [a3]; simp only [List.mem_append, List.mem_cons] at hk2 ⊢; tauto
          obtain ⟨l, hl⟩ := h.head k hk3
          refine ⟨l, hother k l hl ?_⟩
          rintro rfl
          exact hdup.1 (List.mem_append_left _ hk2)
      have hlv4 : ∀ x ∈ lefts st2.events, slab.get x ≠ none := by
        intro x hx
        obtain ⟨s, hs, -⟩ := i4.live (k := x) (List.mem_append_right _ (by show x ∈ lefts st3.events; rw [a2]; exact hx))
        exact fun hc => by rw [show st4.segments = slab from rfl, hc] at hs; cases hs
      have f4 : Frame st2.segments slab prot := by
        intro g hg j hj
        rw [b2, if_neg]
        intro hm
        have := h.chains.uniq (h.prt g hg) hL0 hj hm
        exact hne g hg (List.cons.inj this).1
      have done : Safe (pure (st4, out, true) : Except Fault (Sweep K C × Out K C × Bool)) fun r => Post st r.1 prot ∧
          ((∀ st e x, handleEventF debug A lineOf choice depth st e ≠ .ok x) → ∀ x ∈ lefts st2.events, r.1.segments.get x ≠ none) :=
        Safe.pure ⟨hPost _ ⟨⟨_, i4⟩, f4⟩, fun _ => hlv4⟩
      cases prev with
      | none => exact done
      | some pk =>
        cases next with
        | none => exact done
        | some nk =>
          dsimp only
          have hlv : ∀ j ∈ [pk, nk], ∃ s, slab.get j = some s := by
            intro j hj
            have hj' := hnb j (by simpa using hj)
            obtain ⟨l, hl⟩ := h.head j (List.mem_append_left _ hj'.1)
            obtain ⟨s, hs, -⟩ := c2.live (hother j l hl hj'.2) (k := j) (by simp)
            exact ⟨s, hs⟩
          obtain ⟨ps, hps⟩ := hlv pk (by simp)
          obtain ⟨ns, hns⟩ := hlv nk (by simp)
          refine Safe.bind (Safe.getU hps) fun ps' e1 => ?_
          subst e1
          refine Safe.bind (Safe.getU hns) fun ns' e1 => ?_
          subst e1
          refine Safe.bind Safe.orPanic fun o ho => ?_
          cases o with
          | none => exact done
          | some i =>
            dsimp only
            refine Safe.bind (i4.adjust hps) fun r hr => ?_
            obtain ⟨st5, first⟩ := r
            obtain ⟨⟨gs5, i5⟩, k5, f5, -, -⟩ := hr
            dsimp only at i5 k5 f5 ⊢
            cases hn5 : st5.segments.get nk with
            | none => exact absurd hn5 (k5 nk (by show slab.get nk ≠ none; rw [hns]; simp))
            | some s5 =>
              refine Safe.bind (i5.adjust hn5) fun r hr => ?_
              obtain ⟨st6, second⟩ := r
              obtain ⟨⟨gs6, i6⟩, k6, f6, -, -⟩ := hr
              dsimp only at i6 k6 f6 ⊢
              split
              · exact Safe.panic
              · refine Safe.pure ⟨hPost _ ⟨⟨gs6, i6⟩, ?_⟩, fun _ x hx => k6 x (k5 x (hlv4 x hx))⟩
                intro g hg j hj
                dsimp only
                rw [f6 g hg (hnp nk (by simp) g hg) j hj, f5 g hg (hnp pk (by simp) g hg) j hj]
                exact f4 g hg j hj
    | pointLeft =>
      dsimp only
      refine Safe.bind (pointLoopF_safe _ st2 seg gs (h.sub hsub) hnp) fun st3 hr => Safe.pure ?_
      exact ⟨hPost _ ⟨hr.1, hr.2.1⟩, fun _ x hx => hr.2.2 x (hlive x hx)⟩
    | pointRight =>
      exact Safe.pure ⟨hPost _ ⟨⟨gs, h.sub hsub⟩, .refl⟩, fun _ => hlive⟩

/-- With recursion of depth one at most, as in exact arithmetic, an event is handled safely. -/
theorem handleEventF_two (hA : ∀ g, A.cmp g g = none ∨ A.cmp g g = some .eq)
    (hov : ∀ a b r1 r2, A.start a b = some (some (.line r1 r2)) → r1 = a.first)
    (st : Sweep K C) (e : Event K) (gs : List (List Nat)) (prot : List (Nat × List Nat))
    (h : Heads st.segments gs (st.actives ++ lefts (e :: st.events)) prot) :
    Safe (handleEventF debug A lineOf choice 2 st e) fun r => Post st r.1 prot := by
  have hov' : ∀ a b r1 r2, A.start a b = some (some (.line r1 r2)) → True ∧ r1 = a.first := fun a b r1 r2 h => ⟨trivial, hov a b r1 r2 h⟩
  have h0 : ∀ (st : Sweep K C) e x, handleEventF debug A lineOf choice 0 st e ≠ .ok x := by
    intro st e x hx; rw [handleEventF.eq_def] at hx; cases hx
  refine (handleEventF_step hA hov' (fun st e gs prot h => ?_) st e gs prot h).mono fun r hr => hr.1
  refine (handleEventF_step hA hov' (fun st e gs prot h => ?_) st e gs prot h).mono fun r hr => ⟨hr.1, fun _ => hr.2 h0⟩
  rw [handleEventF.eq_def]
  exact Or.inr rfl

/-- Without overlaps an event is handled safely whatever the depth of the recursion. -/
theorem handleEventF_any (hA : ∀ g, A.cmp g g = none ∨ A.cmp g g = some .eq)
    (hov : ∀ a b r1 r2, A.start a b ≠ some (some (.line r1 r2))) (depth : Nat)
    (st : Sweep K C) (e : Event K) (gs : List (List Nat)) (prot : List (Nat × List Nat))
    (h : Heads st.segments gs (st.actives ++ lefts (e :: st.events)) prot) :
    Safe (handleEventF debug A lineOf choice depth st e) fun r => Post st r.1 prot := by
  induction depth generalizing st e gs prot with
  | zero => rw [handleEventF.eq_def]; exact Or.inr rfl
  | succ depth ih =>
    have hov' : ∀ a b r1 r2, A.start a b = some (some (.line r1 r2)) → False ∧ r1 = a.first := fun a b r1 r2 h => absurd h (hov a b r1 r2)
    exact (handleEventF_step hA hov' (fun st e gs prot h => (ih st e gs prot h).mono fun r hr => ⟨hr, False.elim⟩) st e gs prot h).mono
      fun r hr => hr.1

theorem createSegmentF_inv {st : Sweep K C} {gs : List (List Nat)} (h : st.Inv gs []) (c : C) :
    Safe (createSegmentF lineOf st c none none) fun r => ∃ gs', r.1.Inv gs' [] := by
  refine (createSegmentF_safe h.chains (fun p hp => by cases hp)).mono fun r hr => ?_
  obtain ⟨more, h1, h2, h3, -⟩ := hr
  have := h.fresh (fr := [(r.2, more)]) h1
  refine ⟨_, (this.perm (ks' := st.actives ++ (r.2 :: lefts st.events)) (by simpa using List.perm_middle.symm)).sub ?_⟩
  unfold actives
  rw [h2, h3]
  refine List.Sublist.append_left ?_ _
  split
  · exact List.Sublist.refl _
  · exact List.sublist_cons_self _ _

theorem newF_safe (input : List C) : Safe (newF (K := K) lineOf input) fun st => ∃ gs, st.Inv gs [] := by
  unfold newF
  have h0 : ({ segments := Slab.empty, events := [], active := SplayTree.new, clock := 0 } : Sweep K C).Inv [] [] := by
    refine ⟨⟨⟨by simp [Slab.empty], by simp [Slab.empty], by simp [Slab.empty]⟩, by simp, by simp, by simp, ?_⟩, by simp, by simp [actives, SplayTree.new, lefts, Splay.Tree.toList], by
      simp [actives, SplayTree.new, lefts, Splay.Tree.toList]⟩
    intro k hk
    exact absurd rfl hk
  generalize ({ segments := Slab.empty, events := [], active := SplayTree.new, clock := 0 } : Sweep K C) = st at h0 ⊢
  generalize ([] : List (List Nat)) = gs at h0
  induction input generalizing st gs with
  | nil => exact Safe.pure ⟨gs, h0⟩
  | cons c input ih =>
    rw [List.foldlM_cons]
    refine Safe.bind (Safe.bind (createSegmentF_inv h0 c) fun r hr => Safe.pure (P := fun st' : Sweep K C => ∃ gs, st'.Inv gs []) hr) fun st' hr => ?_
    obtain ⟨gs', h'⟩ := hr
    exact ih st' gs' h'

theorem eventsF_safe {depth : Nat}
    (hh : ∀ (st : Sweep K C) e gs prot, Heads st.segments gs (st.actives ++ lefts (e :: st.events)) prot →
      Safe (handleEventF debug A lineOf choice depth st e) fun r => Post st r.1 prot)
    (n : Nat) (st : Sweep K C) (gs : List (List Nat)) (h : st.Inv gs []) :
    Safe (eventsF debug A lineOf choice depth n st) fun r => ∃ gs', r.1.Inv gs' [] := by
  induction n generalizing st gs with
  | zero => exact Safe.ok ⟨gs, h⟩
  | succ n ih =>
    unfold eventsF
    cases hp : st.popEvent choice with
    | none => exact Safe.ok ⟨gs, h⟩
    | some r =>
      obtain ⟨e, st1⟩ := r
      obtain ⟨p1, p2, p3⟩ := popEvent_perm hp
      dsimp only
      refine Safe.bind (hh st1 e gs [] ?_) fun r hr => ?_
      · rw [p1]
        refine h.perm ?_
        unfold actives
        rw [p2]
        exact (lefts_perm p3).append_left _
      · obtain ⟨⟨gs', i'⟩, -⟩ := hr
        exact Safe.bind (ih _ gs' i') fun r hr => Safe.pure hr

theorem sweepF_safe {depth : Nat}
    (hh : ∀ (st : Sweep K C) e gs prot, Heads st.segments gs (st.actives ++ lefts (e :: st.events)) prot →
      Safe (handleEventF debug A lineOf choice depth st e) fun r => Post st r.1 prot)
    (n : Nat) (input : List C) :
    Safe (sweepF debug A lineOf choice depth n input) fun r => ∃ gs', r.1.Inv gs' [] :=
  Safe.bind (newF_safe input) fun st hst => by
    obtain ⟨gs, h⟩ := hst
    exact eventsF_safe hh n st gs h

end Sweep
end GeoCrossings

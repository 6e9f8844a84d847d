import Verif.Model.SweepF
import Verif.Lemmas.SweepRep
import Mathlib.Data.Fintype.Pigeonhole
import Mathlib.Data.Fintype.Card

/-!
# The fault `endless` means what it says

The walks of `Model/SweepF.lean` along overlap links give up after as many steps as the slab has slots, and one. Here: a walk that is given up
would be given up after any number of steps.
-/
set_option linter.unusedSectionVars false
namespace GeoCrossings
open Fault

variable {K C : Type} [LinearOrder K]

/-- The link of the segment in slot `k`. -/
def Slab.link (slab : Slab (Seg K C)) (k : Nat) : Option Nat := (slab.get k).bind (·.overlapping)

/-- At least `n` links can be followed from `k`. -/
def Slab.Walk (slab : Slab (Seg K C)) : Nat → Nat → Prop
  | 0, _ => True
  | n + 1, k => ∃ k', slab.link k = some k' ∧ Slab.Walk slab n k'

theorem Slab.Walk.congr {slab slab' : Slab (Seg K C)} (he : ∀ k, slab'.link k = slab.link k) {n k : Nat} : slab'.Walk n k ↔ slab.Walk n k := by
  induction n generalizing k with
  | zero => exact Iff.rfl
  | succ n ih =>
    constructor
    · rintro ⟨k', h1, h2⟩; exact ⟨k', by rw [← he]; exact h1, ih.1 h2⟩
    · rintro ⟨k', h1, h2⟩; exact ⟨k', by rw [he]; exact h1, ih.2 h2⟩

theorem Slab.Walk.seq {slab : Slab (Seg K C)} {n k : Nat} (h : slab.Walk n k) :
    ∃ v : Nat → Nat, v 0 = k ∧ ∀ i < n, slab.link (v i) = some (v (i + 1)) := by
  induction n generalizing k with
  | zero => exact ⟨fun _ => k, rfl, fun i hi => absurd hi (Nat.not_lt_zero _)⟩
  | succ n ih =>
    obtain ⟨k', h1, h2⟩ := h
    obtain ⟨v, v0, hv⟩ := ih h2
    refine ⟨fun i => if i = 0 then k else v (i - 1), rfl, fun i hi => ?_⟩
    rcases i with _ | i
    · simp [v0, h1]
    · simpa using hv i (by omega)

/-- A walk through more links than there are slots never ends. -/
theorem Slab.Walk.forever {slab : Slab (Seg K C)} (ho : slab.Ok) {n k : Nat} (h : slab.Walk n k) (hn : slab.size < n) (m : Nat) : slab.Walk m k := by
  obtain ⟨v, v0, hv⟩ := h.seq
  have hlt : ∀ i < n, v i < slab.size := fun i hi => Slab.lt_size ho fun h0 => by
    have := hv i hi
    unfold Slab.link at this
    rw [h0] at this; cases this
  obtain ⟨a, b, hab, hbn, he⟩ : ∃ a b, a < b ∧ b < n ∧ v a = v b := by
    obtain ⟨a, b, hab, he⟩ := Fintype.exists_ne_map_eq_of_card_lt (fun i : Fin n => (⟨v i, hlt i i.2⟩ : Fin slab.size)) (by simpa using hn)
    have he : v a = v b := by simpa using he
    rcases lt_or_gt_of_ne (Fin.val_ne_of_ne hab) with h | h
    · exact ⟨a, b, h, b.2, he⟩
    · exact ⟨b, a, h, a.2, he.symm⟩
  have key : ∀ m i, i < b → slab.Walk m (v i) := by
    intro m
    induction m with
    | zero => exact fun _ _ => trivial
    | succ m ih =>
      intro i hi
      refine ⟨_, hv i (by omega), ?_⟩
      by_cases hi' : i + 1 < b
      · exact ih _ hi'
      · rw [show i + 1 = b by omega, ← he]
        exact ih a hab
  rw [← v0]
  exact key m 0 (by omega)

theorem Slab.link_put {slab : Slab (Seg K C)} {k : Nat} {s s' : Seg K C} (h : slab.get k = some s) (ho : s'.overlapping = s.overlapping) (j : Nat) :
    (slab.put k (some s')).link j = slab.link j := by
  unfold Slab.link Slab.get Slab.put
  dsimp only
  split
  · next hj => subst hj; unfold Slab.get at h; rw [h]; exact ho
  · rfl

namespace Sweep

theorem emitLeftF_endless (n : Nat) (slab : Slab (Seg K C)) (k : Nat) : emitLeftF n slab (some k) = .error .endless ↔ slab.Walk n k := by
  induction n generalizing slab k with
  | zero => exact ⟨fun _ => trivial, fun _ => rfl⟩
  | succ n ih =>
    unfold emitLeftF Slab.Walk
    cases hg : slab.get k with
    | none => simp [Slab.getU, Slab.link, hg, bind, Except.bind]
    | some s =>
      simp only [Slab.getU, Slab.modifyU, Slab.link, hg, Slab.modify_some hg, bind, Except.bind, Option.bind_some]
      cases ho : s.overlapping with
      | none =>
        unfold emitLeftF
        simp [pure, Except.pure]
      | some k' =>
        simp only [Option.some.injEq, exists_eq_left']
        rw [← Slab.Walk.congr (Slab.link_put (s' := { s with leftEventDone := true }) hg rfl), ← ih]
        rw [ho]
        generalize emitLeftF n (slab.put k _) (some k') = x
        cases x with
        | error e => exact Iff.rfl
        | ok r => simp [pure, Except.pure]

theorem setChainF_endless (g : LineOrPoint K) (n : Nat) (slab : Slab (Seg K C)) (k : Nat) :
    setChainF g n slab (some k) = .error .endless ↔ slab.Walk n k := by
  induction n generalizing slab k with
  | zero => exact ⟨fun _ => trivial, fun _ => rfl⟩
  | succ n ih =>
    unfold setChainF Slab.Walk
    cases hg : slab.get k with
    | none => simp [Slab.getU, Slab.link, hg, bind, Except.bind]
    | some s =>
      simp only [Slab.getU, Slab.modifyU, Slab.link, hg, Slab.modify_some hg, bind, Except.bind, Option.bind_some]
      cases ho : s.overlapping with
      | none =>
        unfold setChainF
        simp
      | some k' =>
        simp only [Option.some.injEq, exists_eq_left']
        rw [← Slab.Walk.congr (Slab.link_put (s' := { s with geom := g }) hg rfl), ← ih, ho]

theorem chainEndF_endless (n : Nat) (slab : Slab (Seg K C)) (k : Nat) : chainEndF slab n k = .error .endless ↔ slab.Walk n k := by
  induction n generalizing k with
  | zero => exact ⟨fun _ => trivial, fun _ => rfl⟩
  | succ n ih =>
    unfold chainEndF Slab.Walk
    cases hg : slab.get k with
    | none => simp [Slab.getU, Slab.link, hg, bind, Except.bind]
    | some s =>
      simp only [Slab.getU, Slab.link, hg, bind, Except.bind, Option.bind_some]
      cases ho : s.overlapping with
      | none => simp [pure, Except.pure]
      | some k' =>
        simp only [Option.some.injEq, exists_eq_left']
        exact ih k'

/-- The walk of a right event removes what it visits, so it never visits a slot twice and is never endless. -/
theorem emitRightF_ends (n : Nat) (slab : Slab (Seg K C)) (o : Option Nat) (ho : slab.Ok) 
    (hn : ((Finset.range slab.size).filter fun k => slab.get k ≠ none).card < n) :
    emitRightF n slab o ≠ .error .endless := by
  induction n generalizing slab o with
  | zero => omega
  | succ n ih =>
    cases o with
    | none => unfold emitRightF; simp
    | some k =>
      unfold emitRightF
      cases hg : slab.get k with
      | none => simp [Slab.getU, hg, bind, Except.bind]
      | some s =>
        have hne : slab.get k ≠ none := by rw [hg]; simp
        simp only [Slab.getU, Slab.remove, hg, orPanic, bind, Except.bind, Option.map_some]
        have := ih { slab.put k none with free := k :: slab.free } s.overlapping (ho.remove hne) ?_
        · revert this
          cases emitRightF n { slab.put k none with free := k :: slab.free } s.overlapping <;> simp [pure, Except.pure]
        · refine Nat.lt_of_lt_of_le (Finset.card_lt_card ?_) (Nat.lt_succ_iff.1 hn)
          rw [Finset.ssubset_iff_of_subset]
          · refine ⟨k, by simp only [Finset.mem_filter, Finset.mem_range]; exact ⟨Slab.lt_size ho hne, hne⟩, ?_⟩
            simp [Slab.get, Slab.put]
          · intro j hj
            rw [Finset.mem_filter, Finset.mem_range] at hj ⊢
            refine ⟨hj.1, fun h0 => hj.2 ?_⟩
            unfold Slab.get Slab.put
            dsimp only
            split
            · rfl
            · exact h0

/-- The walks that the model gives up are endless: of left events, … -/
theorem emitLeftF_forever {slab : Slab (Seg K C)} (ho : slab.Ok) {k : Nat} (h : emitLeftF (slab.size + 1) slab (some k) = .error .endless) (n : Nat) :
    emitLeftF n slab (some k) = .error .endless :=
  (emitLeftF_endless _ _ _).2 (((emitLeftF_endless _ _ _).1 h).forever ho (Nat.lt_succ_self _) n)

/-- … of `chain_overlap`, … -/
theorem chainEndF_forever {slab : Slab (Seg K C)} (ho : slab.Ok) {k : Nat} (h : chainEndF slab (slab.size + 1) k = .error .endless) (n : Nat) :
    chainEndF slab n k = .error .endless :=
  (chainEndF_endless _ _ _).2 (((chainEndF_endless _ _ _).1 h).forever ho (Nat.lt_succ_self _) n)

/-- … and of `adjust_for_intersection`, which starts at the second segment of a chain. -/
theorem setChainF_forever {slab : Slab (Seg K C)} (ho : slab.Ok) {g : LineOrPoint K} {k k' : Nat} (hk : slab.link k = some k')
    (h : setChainF g slab.size slab (some k') = .error .endless) (n : Nat) : setChainF g n slab (some k') = .error .endless := by
  have h1 : slab.Walk (slab.size + 1) k := ⟨k', hk, (setChainF_endless _ _ _ _).1 h⟩
  obtain ⟨k'', e, h2⟩ := h1.forever ho (Nat.lt_succ_self _) (n + 1)
  rw [hk] at e; cases e
  exact (setChainF_endless _ _ _ _).2 h2

end Sweep
end GeoCrossings

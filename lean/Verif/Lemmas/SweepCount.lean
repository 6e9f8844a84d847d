import Verif.Model.SweepCount
import Verif.Lemmas.SplayM

/-! # The sweep with comparisons counted does what the sweep does -/

set_option linter.unusedSectionVars false
namespace GeoCrossings
open Splay

/-- Forgetting the count. -/
def Erases {α : Type} (x : StateT Nat Option α) (y : Option α) : Prop := ∀ n, (x.run n).map Prod.fst = y

namespace Erases
variable {α β : Type}

theorem pure (a : α) : Erases (Pure.pure a) (some a) := fun _ => rfl
theorem failure : Erases (failure : StateT Nat Option α) none := fun _ => rfl
theorem lift (y : Option α) : Erases (liftM y) y := by
  intro n; cases y <;> rfl

theorem bind {x : StateT Nat Option α} {y : Option α} {f : α → StateT Nat Option β} {g : α → Option β} (h : Erases x y)
    (hf : ∀ a, Erases (f a) (g a)) : Erases (x >>= f) (y >>= g) := by
  intro n
  have h1 := h n
  rw [StateT.run_bind]
  cases hx : x.run n with
  | none => rw [hx] at h1; subst h1; rfl
  | some p =>
    rw [hx] at h1
    subst h1
    exact hf p.1 p.2

theorem ite {c : Prop} [Decidable c] {x x' : StateT Nat Option α} {y y' : Option α} (h : c → Erases x y) (h' : ¬ c → Erases x' y') :
    Erases (if c then x else x') (if c then y else y') := by
  by_cases hc : c
  · rw [if_pos hc, if_pos hc]; exact h hc
  · rw [if_neg hc, if_neg hc]; exact h' hc

end Erases

namespace Sweep
variable {K C : Type} [Field K] [LinearOrder K]

/-- `prevKeyC` in terms of `prevKey`. -/
theorem prevKeyC_run (st : Sweep K C) (k n : Nat) :
    (st.prevKeyC k).run n = (st.prevKey k).map fun r => (r, n + prevCost (cmpD st.segments) st.active k) := by
  unfold prevKeyC prevKey
  by_cases h : comparable st.segments st.active k
  · rw [if_pos h, if_pos h, StateT.run_bind]
    change ((some _ : Option _) >>= _) = _
    rw [prevM_counting]
    rfl
  · rw [if_neg h, if_neg h]; rfl

theorem nextKeyC_run (st : Sweep K C) (k n : Nat) :
    (st.nextKeyC k).run n = (st.nextKey k).map fun r => (r, n + nextCost (cmpD st.segments) st.active k) := by
  unfold nextKeyC nextKey
  by_cases h : comparable st.segments st.active k
  · rw [if_pos h, if_pos h, StateT.run_bind]
    change ((some _ : Option _) >>= _) = _
    rw [nextM_counting]
    rfl
  · rw [if_neg h, if_neg h]; rfl

theorem addKeyC_run (st : Sweep K C) (k n : Nat) :
    (st.addKeyC k).run n = (st.addKey k).map fun r => (r, n + accessCost (cmpD st.segments) st.active k) := by
  unfold addKeyC addKey
  by_cases h : (st.segments.get k).isSome ∧ comparable st.segments st.active k
  · rw [if_pos h, if_pos h, StateT.run_bind]
    change ((some _ : Option _) >>= _) = _
    rw [insertM_counting]
    unfold SplaySet.insert
    rcases SplayTree.insert (cmpD st.segments) st.active k () with ⟨a, o⟩
    cases o <;> rfl
  · rw [if_neg h, if_neg h]; rfl

theorem removeKeyC_run (st : Sweep K C) (k n : Nat) :
    (st.removeKeyC k).run n = (st.removeKey k).map fun r => (r, n + removeCost (cmpD st.segments) st.active k) := by
  unfold removeKeyC removeKey
  by_cases h : (st.segments.get k).isSome ∧ comparable st.segments st.active k
  · rw [if_pos h, if_pos h, StateT.run_bind]
    change ((some _ : Option _) >>= _) = _
    rw [removeM_counting]
    unfold SplaySet.remove
    rcases SplayTree.remove (cmpD st.segments) st.active k with _ | ⟨a, _ | o⟩ <;> rfl
  · rw [if_neg h, if_neg h]; rfl

theorem erases_of_run {α : Type} {x : StateT Nat Option α} {y : Option α} {c : Nat} (h : ∀ n, x.run n = y.map fun r => (r, n + c)) :
    Erases x y := by
  intro n
  rw [h n]
  cases y <;> rfl

theorem prevKeyC_erases (st : Sweep K C) (k : Nat) : Erases (st.prevKeyC k) (st.prevKey k) := erases_of_run (prevKeyC_run st k)
theorem nextKeyC_erases (st : Sweep K C) (k : Nat) : Erases (st.nextKeyC k) (st.nextKey k) := erases_of_run (nextKeyC_run st k)
theorem addKeyC_erases (st : Sweep K C) (k : Nat) : Erases (st.addKeyC k) (st.addKey k) := erases_of_run (addKeyC_run st k)
theorem removeKeyC_erases (st : Sweep K C) (k : Nat) : Erases (st.removeKeyC k) (st.removeKey k) := erases_of_run (removeKeyC_run st k)

variable (lineOf : C → Line K) (nextAfter : K → K) (choice : Nat → Nat)

theorem leftLoopC_erases {rec : Sweep K C → Event K → StateT Nat Option (Sweep K C × Out K C × Bool)}
    {rec' : Sweep K C → Event K → Option (Sweep K C × Out K C × Bool)} (hrec : ∀ st e, Erases (rec st e) (rec' st e)) (ek : Nat)
    (l : List Nat) (st : Sweep K C) (seg : Seg K C) :
    Erases (leftLoopC lineOf nextAfter choice rec ek l st seg) (leftLoop lineOf nextAfter choice rec' ek l st seg) := by
  induction l generalizing st seg with
  | nil => exact .pure _
  | cons adj rest ih =>
    rw [leftLoopC, leftLoop]
    refine (Erases.lift _).bind fun adjSeg => (Erases.lift _).bind fun inter => ?_
    cases inter with
    | none => exact ih st seg
    | some i =>
      dsimp only
      refine (Erases.lift _).bind fun p => ?_
      obtain ⟨st1, adjOv⟩ := p
      dsimp only
      refine (Erases.lift _).bind fun adjSeg => ?_
      have tail : ∀ q : Sweep K C × Out K C, Erases (do
          let r ← liftM (adjustOne lineOf q.1 ek i)
          let seg ← liftM (r.1.segments.get ek)
          match adjOv, r.2 with
          | none, none => do
            let s ← leftLoopC lineOf nextAfter choice rec ek rest r.1 seg
            pure (s.1, q.2 ++ s.2.1, s.2.2)
          | some a, some t => do
            let st ← liftM (r.1.chainOverlap a t)
            if t = ek then do
              let as ← liftM (st.segments.get a)
              pure (st, q.2, if as.leftEventDone = true then LeftExit.noAdd else LeftExit.ret)
            else do
              let s ← leftLoopC lineOf nextAfter choice rec ek rest st seg
              pure (s.1, q.2 ++ s.2.1, s.2.2)
          | _, _ => failure) (do
          let r ← adjustOne lineOf q.1 ek i
          let seg ← r.1.segments.get ek
          match adjOv, r.2 with
          | none, none => do
            let s ← leftLoop lineOf nextAfter choice rec' ek rest r.1 seg
            pure (s.1, q.2 ++ s.2.1, s.2.2)
          | some a, some t => do
            let st ← r.1.chainOverlap a t
            if t = ek then do
              let as ← st.segments.get a
              pure (st, q.2, if as.leftEventDone = true then LeftExit.noAdd else LeftExit.ret)
            else do
              let s ← leftLoop lineOf nextAfter choice rec' ek rest st seg
              pure (s.1, q.2 ++ s.2.1, s.2.2)
          | _, _ => none) := by
        intro q
        refine (Erases.lift _).bind fun r => (Erases.lift _).bind fun seg => ?_
        obtain ⟨st2, segOv⟩ := r
        rcases adjOv with _ | a <;> rcases segOv with _ | t <;> dsimp only
        · exact (ih _ _).bind fun s => .pure _
        · exact .failure
        · exact .failure
        · refine (Erases.lift _).bind fun st => .ite (fun _ => ?_) fun _ => ?_
          · exact (Erases.lift _).bind fun s => .pure _
          · exact (ih _ _).bind fun s => .pure _
      refine .ite (fun hc => ?_) fun hc => ?_
      · refine (Erases.lift _).bind fun p => (hrec _ _).bind fun q => .ite (fun _ => ?_) fun _ => ?_
        · exact (Erases.pure _).bind tail
        · exact Erases.failure.bind tail
      · exact (Erases.pure _).bind tail

theorem handleEventC_erases (fuel : Nat) (st : Sweep K C) (e : Event K) :
    Erases (handleEventC lineOf nextAfter choice fuel st e) (handleEvent lineOf nextAfter choice fuel st e) := by
  induction fuel generalizing st e with
  | zero => exact .failure
  | succ fuel ih =>
    rw [handleEventC, handleEvent]
    refine (Erases.lift _).bind fun o => ?_
    cases o with
    | none => exact .pure _
    | some seg =>
      dsimp only
      refine (prevKeyC_erases _ _).bind fun p => ?_
      obtain ⟨st1, prev⟩ := p
      dsimp only
      refine (nextKeyC_erases _ _).bind fun p => ?_
      obtain ⟨st2, next⟩ := p
      dsimp only
      cases e.ty with
      | lineLeft =>
        dsimp only
        refine (leftLoopC_erases lineOf nextAfter choice ih _ _ _ _).bind fun p => ?_
        obtain ⟨st3, out1, x⟩ := p
        dsimp only
        have tail : ∀ st : Sweep K C, Erases (do
            let p ← liftM (emitLeft (st.segments.size + 1) st.segments (some e.segmentKey))
            pure (({ st with segments := p.1 } : Sweep K C), out1 ++ p.2, true)) (do
            let p ← emitLeft (st.segments.size + 1) st.segments (some e.segmentKey)
            pure (({ st with segments := p.1 } : Sweep K C), out1 ++ p.2, true)) :=
          fun st => (Erases.lift _).bind fun p => .pure _
        cases x with
        | ret => exact .pure _
        | add => exact .ite (fun _ => (addKeyC_erases _ _).bind tail) fun _ => (Erases.pure _).bind tail
        | noAdd => exact .ite (fun _ => (addKeyC_erases _ _).bind tail) fun _ => (Erases.pure _).bind tail
      | lineRight =>
        dsimp only
        exact (removeKeyC_erases _ _).bind fun st3 => Erases.lift _
      | pointLeft =>
        dsimp only
        exact (Erases.lift _).bind fun st3 => .pure _
      | pointRight => exact .pure _

/-- The results are those of `Model/Sweep.lean`. -/
theorem nextEventC_erases (st : Sweep K C) : Erases (st.nextEventC lineOf nextAfter choice) (st.nextEvent lineOf nextAfter choice) := by
  unfold nextEventC nextEvent
  cases st.popEvent choice with
  | none => exact .pure _
  | some p => exact (handleEventC_erases lineOf nextAfter choice 2 _ _).bind fun q => .pure _

end Sweep
end GeoCrossings

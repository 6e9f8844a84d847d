import Verif.Lemmas.RefineF

/-!
# In exact arithmetic, the sweep with faults does what the sweep of `Model/Sweep.lean` does: the sweep
-/
set_option linter.unusedSectionVars false
namespace GeoCrossings
open Fault Splay

variable {K C : Type} [Field K] [LinearOrder K]

/-- `A` compares exactly, and finds the intersections that exact arithmetic finds. -/
structure Arith.Exact (A : Arith K) (nextAfter : K → K) : Prop where
  cmp : A.cmp = LineOrPoint.pcmp
  start : ∀ a b o, LineOrPoint.intersectLineOrdered nextAfter a b = some o → A.start a b = some o
  other : ∀ a b o, LineOrPoint.intersectLineOrdered nextAfter a b = some o → A.other a b = some o

namespace Sweep
variable {A : Arith K} {nextAfter : K → K} {debug : Bool} {lineOf : C → Line K} {choice : Nat → Nat}

theorem cmpKeysF_ref (hA : A.Exact nextAfter) (slab : Slab (Seg K C)) (a b : Nat) : Ref (cmpKeys slab a b) (cmpKeysF A slab a b) := by
  unfold cmpKeys cmpKeysF
  refine (Ref.getU _ _).bind fun sa _ => (Ref.getU _ _).bind fun sb _ => ?_
  rw [hA.cmp]
  exact (Ref.orPanic _).bind fun o _ => Ref.pure _

theorem comparable_ok (hA : A.Exact nextAfter) {slab : Slab (Seg K C)} {act : SplaySet Nat} {k : Nat} (h : comparable slab act k = true) :
    ∀ e ∈ act.root.toList, cmpKeysF A slab k e.1 = .ok (cmpD slab k e.1) := by
  intro e he
  have := List.all_eq_true.1 h e he
  rw [Bool.and_eq_true] at this
  obtain ⟨o, ho⟩ := Option.isSome_iff_exists.1 this.1
  rw [cmpKeysF_ref hA slab k e.1 o ho]
  unfold cmpD
  rw [ho]; rfl

theorem prevKeyF_ref (hA : A.Exact nextAfter) (st : Sweep K C) (k : Nat) : Ref (st.prevKey k) (st.prevKeyF A k) := by
  intro r h
  unfold prevKey at h
  split at h
  · next hc =>
    cases h
    unfold prevKeyF
    rw [prevM_ok st.active (comparable_ok hA hc)]
    rfl
  · cases h

theorem nextKeyF_ref (hA : A.Exact nextAfter) (st : Sweep K C) (k : Nat) : Ref (st.nextKey k) (st.nextKeyF A k) := by
  intro r h
  unfold nextKey at h
  split at h
  · next hc =>
    cases h
    unfold nextKeyF
    rw [nextM_ok st.active (comparable_ok hA hc)]
    rfl
  · cases h

theorem addKeyF_ref (hA : A.Exact nextAfter) (st : Sweep K C) (k : Nat) : Ref (st.addKey k) (st.addKeyF debug A k) := by
  intro r h
  unfold addKey at h
  split at h
  · next hc =>
    unfold SplaySet.insert at h
    dsimp only at h
    unfold addKeyF
    rw [if_neg (by rw [Option.isNone_iff_eq_none]; intro hd; rw [hd.2] at hc; simp at hc), insertM_ok st.active () (comparable_ok hA hc.2)]
    split at h
    · next hn =>
      cases h
      rw [ok_bind]
      generalize SplayTree.insert (cmpD st.segments) st.active k () = x at hn ⊢
      obtain ⟨a, o⟩ := x
      dsimp only at hn ⊢
      rw [if_pos hn]; rfl
    · cases h
  · cases h

theorem removeKeyF_ref (hA : A.Exact nextAfter) (st : Sweep K C) (k : Nat) : Ref (st.removeKey k) (st.removeKeyF debug A k) := by
  intro r h
  unfold removeKey at h
  split at h
  · next hc =>
    unfold SplaySet.remove at h
    dsimp only at h
    unfold removeKeyF
    rw [if_neg (by rw [Option.isNone_iff_eq_none]; intro hd; rw [hd.2] at hc; simp at hc), removeM_ok st.active (comparable_ok hA hc.2)]
    cases hr : SplayTree.remove (cmpD st.segments) st.active k with
    | none => rw [hr] at h; simp at h
    | some x =>
      obtain ⟨a, o⟩ := x
      rw [hr] at h
      cases o with
      | none => simp at h
      | some u => simp at h; subst h; rfl
  · cases h

theorem copyChainF_ref (geom : LineOrPoint K) (fuel : Nat) (slab : Slab (Seg K C)) (o : Option Nat) (t : Nat) :
    Ref (copyChain lineOf geom fuel slab o t) (copyChainF lineOf geom fuel slab o t) := by
  induction fuel generalizing slab o t with
  | zero => cases o <;> first | exact Ref.some _ | exact Ref.none _
  | succ n ih =>
    cases o with
    | none => exact Ref.some _
    | some k =>
      exact (Ref.getU _ _).bind fun cs _ => (Ref.modifyU _ _ _).bind fun s1 _ => (Ref.modifyU _ _ _).bind fun s2 _ => ih _ _ _

theorem createSegmentF_ref (st : Sweep K C) (c : C) (geom : Option (LineOrPoint K)) (parent : Option Nat) :
    Ref (st.createSegment lineOf c geom parent) (st.createSegmentF lineOf c geom parent) := by
  cases parent with
  | none => exact Ref.some _
  | some p => exact (Ref.getU _ _).bind fun ps _ => (copyChainF_ref _ _ _ _ _).bind fun s _ => Ref.pure _

theorem setChainF_ref (geom : LineOrPoint K) (fuel : Nat) (slab : Slab (Seg K C)) (o : Option Nat) :
    Ref (setChain geom fuel slab o) (setChainF geom fuel slab o) := by
  induction fuel generalizing slab o with
  | zero => cases o <;> first | exact Ref.some _ | exact Ref.none _
  | succ n ih =>
    cases o with
    | none => exact Ref.some _
    | some k => exact (Ref.getU _ _).bind fun cs _ => (Ref.modifyU _ _ _).bind fun s1 _ => ih _ _

theorem adjustF_ref (s : Seg K C) (i : LineOrPoint K) : Ref (s.adjust i) (s.adjustF debug i) := by
  intro r h
  unfold Seg.adjust at h
  unfold Seg.adjustF
  cases hg : s.geom with
  | point p => rw [hg] at h; cases h
  | line p q =>
    rw [hg] at h
    cases i with
    | point r1 =>
      dsimp only at h ⊢
      split at h
      · cases h
      · next h1 =>
        rw [if_neg (fun hd => h1 hd.2)]
        split at h <;> cases h
        · next h2 => rw [if_pos h2]
        · next h2 => rw [if_neg h2]
    | line r1 r2 =>
      dsimp only at h ⊢
      split at h
      · cases h
      · next h1 =>
        rw [if_neg (fun hd => h1 hd.2)]
        split at h
        · next h2 =>
          rw [if_pos h2]
          split at h <;> cases h
          · next h3 => rw [if_pos h3]
          · next h3 => rw [if_neg h3]
        · next h2 =>
          rw [if_neg h2]
          split at h <;> cases h
          · next h3 => rw [if_pos h3]
          · next h3 => rw [if_neg h3]

theorem adjustForF_ref (st : Sweep K C) (k : Nat) (i : LineOrPoint K) : Ref (st.adjustFor k i) (st.adjustForF debug k i) := by
  refine (Ref.getU _ _).bind fun s _ => (adjustF_ref _ _).bind fun r _ => ?_
  refine (Ref.modifyU _ _ _).bind fun slab _ => ?_
  exact (setChainF_ref _ _ _ _).bind fun _ _ => Ref.pure _

theorem adjustOneF_ref (st : Sweep K C) (k : Nat) (i : LineOrPoint K) :
    Ref (st.adjustOne lineOf k i) (st.adjustOneF debug lineOf k i) := by
  refine (Ref.getU _ _).bind fun s _ => (adjustForF_ref _ _ _).bind fun r _ => ?_
  obtain ⟨st1, o⟩ := r
  cases o with
  | unchanged ov => exact Ref.pure _
  | splitOnce ov right => exact (createSegmentF_ref _ _ _ _).bind fun _ _ => Ref.pure _
  | splitTwice right => exact (createSegmentF_ref _ _ _ _).bind fun _ _ => (createSegmentF_ref _ _ _ _).bind fun _ _ => Ref.pure _

theorem chainEndF_ref (slab : Slab (Seg K C)) (fuel k : Nat) : Ref (chainEnd slab fuel k) (chainEndF slab fuel k) := by
  induction fuel generalizing k with
  | zero => exact Ref.none _
  | succ n ih =>
    refine (Ref.getU _ _).bind fun s _ => ?_
    cases s.overlapping with
    | none => exact Ref.pure _
    | some k' => exact ih k'

theorem chainOverlapF_ref (st : Sweep K C) (a t : Nat) : Ref (st.chainOverlap a t) (st.chainOverlapF a t) := by
  refine (chainEndF_ref _ _ _).bind fun last _ => ?_
  intro r h
  unfold modifySeg at h
  simp only [Option.bind_eq_bind, Option.pure_def, Option.bind_eq_some_iff, Option.some.injEq] at h
  obtain ⟨st1, ⟨s1, h1, rfl⟩, s2, h2, rfl⟩ := h
  rw [Ref.modifyU _ _ _ _ h1]
  show (do let slab ← s1.modifyU t _; pure _) = _
  rw [Ref.modifyU _ _ _ _ h2]
  rfl

theorem emitLeftF_ref (fuel : Nat) (slab : Slab (Seg K C)) (o : Option Nat) : Ref (emitLeft fuel slab o) (emitLeftF fuel slab o) := by
  induction fuel generalizing slab o with
  | zero => cases o <;> first | exact Ref.some _ | exact Ref.none _
  | succ n ih =>
    cases o with
    | none => exact Ref.some _
    | some k =>
      exact (Ref.getU _ _).bind fun cs _ => (Ref.modifyU _ _ _).bind fun s1 _ => (ih _ _).bind fun _ _ => Ref.pure _

theorem emitRightF_ref (fuel : Nat) (slab : Slab (Seg K C)) (o : Option Nat) : Ref (emitRight fuel slab o) (emitRightF fuel slab o) := by
  induction fuel generalizing slab o with
  | zero => cases o <;> first | exact Ref.some _ | exact Ref.none _
  | succ n ih =>
    cases o with
    | none => exact Ref.some _
    | some k =>
      exact (Ref.getU _ _).bind fun cs _ => (Ref.orPanic _).bind fun s1 _ => (ih _ _).bind fun _ _ => Ref.pure _

section
variable {rec : Sweep K C → Event K → Option (Sweep K C × Out K C × Bool)}
  {recF : Sweep K C → Event K → Except Fault (Sweep K C × Out K C × Bool)}

theorem leftLoopF_ref (hA : A.Exact nextAfter) (hrec : ∀ st e, Ref (rec st e) (recF st e)) (ek : Nat) (rest : List Nat) (st : Sweep K C)
    (seg : Seg K C) : Ref (leftLoop lineOf nextAfter choice rec ek rest st seg) (leftLoopF debug A lineOf choice recF ek rest st seg) := by
  induction rest generalizing st seg with
  | nil => exact Ref.some _
  | cons adj rest ih =>
    unfold leftLoop leftLoopF
    refine (Ref.orPanic _).bind fun adjSeg _ => ?_
    refine Ref.bind (fun o ho => by rw [hA.start _ _ o ho]; rfl) fun inter _ => ?_
    cases inter with
    | none => exact ih st seg
    | some i =>
      dsimp only
      refine (adjustOneF_ref _ _ _).bind fun r _ => ?_
      obtain ⟨st1, adjOv⟩ := r
      refine (Ref.getU _ _).bind fun adjSeg _ => ?_
      -- what comes after the recursive call
      have tail : ∀ (st : Sweep K C) (out1 : Out K C), Ref (do
            let (st, segOv) ← st.adjustOne lineOf ek i
            let seg ← st.segments.get ek
            match adjOv, segOv with
            | none, none => do
              let (st, out2, x) ← leftLoop lineOf nextAfter choice rec ek rest st seg
              pure (st, out1 ++ out2, x)
            | some a, some t => do
              let st ← st.chainOverlap a t
              if t = ek then do
                let as ← st.segments.get a
                pure (st, out1, if as.leftEventDone then LeftExit.noAdd else .ret)
              else do
                let (st, out2, x) ← leftLoop lineOf nextAfter choice rec ek rest st seg
                pure (st, out1 ++ out2, x)
            | _, _ => none)
          (do
            let (st, segOv) ← st.adjustOneF debug lineOf ek i
            let seg ← st.segments.getU ek
            match adjOv, segOv with
            | none, none => do
              let (st, out2, x) ← leftLoopF debug A lineOf choice recF ek rest st seg
              pure (st, out1 ++ out2, x)
            | some a, some t => do
              let st ← st.chainOverlapF a t
              if t = ek then do
                let as ← st.segments.getU a
                pure (st, out1, if as.leftEventDone then LeftExit.noAdd else .ret)
              else do
                let (st, out2, x) ← leftLoopF debug A lineOf choice recF ek rest st seg
                pure (st, out1 ++ out2, x)
            | _, _ => .error .panic) := by
        intro st out1
        refine (adjustOneF_ref _ _ _).bind fun r _ => (Ref.getU _ _).bind fun seg _ => ?_
        cases adjOv with
        | none =>
          cases r.2 with
          | none => exact (ih _ _).bind fun _ _ => Ref.pure _
          | some t => exact Ref.none _
        | some a =>
          cases r.2 with
          | none => exact Ref.none _
          | some t =>
            refine (chainOverlapF_ref _ _ _).bind fun st4 _ => ?_
            dsimp only
            split
            · exact (Ref.getU _ _).bind fun _ _ => Ref.pure _
            · exact (ih _ _).bind fun _ _ => Ref.pure _
      unfold recurseF
      by_cases hc : i.first ≠ adjSeg.geom.first ∧ i.first = seg.geom.first
      · rw [if_pos hc, if_pos (decide_eq_true hc)]
        intro res h
        obtain ⟨⟨e, st2⟩, h1, h⟩ := Option.bind_eq_some_iff.1 h
        obtain ⟨⟨st3, out, done⟩, h2, h⟩ := Option.bind_eq_some_iff.1 h
        rw [Ref.orPanic _ _ h1]
        simp only [ok_bind, hrec _ _ _ h2]
        dsimp only at h
        cases done with
        | false => simp at h
        | true =>
          rw [if_neg (by simp)]
          exact tail st3 out res h
      · rw [if_neg hc, if_neg (by simpa using hc)]
        exact tail st1 []

end

theorem pointLoopF_ref (hA : A.Exact nextAfter) (rest : List Nat) (st : Sweep K C) (seg : Seg K C) :
    Ref (pointLoop lineOf nextAfter rest st seg) (pointLoopF debug A lineOf rest st seg) := by
  induction rest generalizing st with
  | nil => exact Ref.some _
  | cons adj rest ih =>
    unfold pointLoop pointLoopF
    refine (Ref.orPanic _).bind fun adjSeg _ => ?_
    refine Ref.bind (fun o ho => by rw [hA.other _ _ o ho]; rfl) fun inter _ => ?_
    cases inter with
    | none => exact ih st
    | some i =>
      dsimp only
      refine (adjustOneF_ref _ _ _).bind fun r _ => ?_
      obtain ⟨st1, ov⟩ := r
      dsimp only
      cases ov with
      | none => rw [if_pos (by rfl), if_neg (by simp)]; exact ih st1
      | some x => rw [if_neg (by simp)]; exact Ref.none _

theorem handleEventF_ref (hA : A.Exact nextAfter) (depth : Nat) (st : Sweep K C) (e : Event K) :
    Ref (handleEvent lineOf nextAfter choice depth st e) (handleEventF debug A lineOf choice depth st e) := by
  induction depth generalizing st e with
  | zero => rw [handleEvent.eq_def]; exact Ref.none _
  | succ n ih =>
    rw [handleEvent.eq_def, handleEventF.eq_def]
    dsimp only
    refine (Ref.orPanic _).bind fun o _ => ?_
    cases o with
    | none => exact Ref.pure _
    | some seg =>
      dsimp only
      refine (prevKeyF_ref hA _ _).bind fun r1 _ => (nextKeyF_ref hA _ _).bind fun r2 _ => ?_
      obtain ⟨st1, prev⟩ := r1
      obtain ⟨st2, next⟩ := r2
      dsimp only
      cases e.ty with
      | lineLeft =>
        dsimp only
        refine (leftLoopF_ref hA ih _ _ _ _).bind fun r _ => ?_
        obtain ⟨st3, out1, x⟩ := r
        dsimp only
        cases x with
        | ret => exact Ref.pure _
        | add =>
          dsimp only
          rw [if_pos rfl, if_pos rfl]
          exact (addKeyF_ref hA _ _).bind fun st4 _ => (emitLeftF_ref _ _ _).bind fun _ _ => Ref.pure _
        | noAdd =>
          dsimp only
          rw [if_neg (by decide), if_neg (by decide)]
          exact (Ref.pure _).bind fun st4 _ => (emitLeftF_ref _ _ _).bind fun _ _ => Ref.pure _
      | lineRight =>
        dsimp only
        refine (removeKeyF_ref hA _ _).bind fun st3 _ => (emitRightF_ref _ _ _).bind fun r _ => ?_
        obtain ⟨slab, out⟩ := r
        dsimp only
        cases prev with
        | none => exact Ref.pure _
        | some pk =>
          cases next with
          | none => exact Ref.pure _
          | some nk =>
            dsimp only
            refine (Ref.getU _ _).bind fun ps _ => (Ref.getU _ _).bind fun ns _ => ?_
            refine Ref.bind (fun o ho => by rw [hA.other _ _ o ho]; rfl) fun inter _ => ?_
            cases inter with
            | none => exact Ref.pure _
            | some i =>
              dsimp only
              refine (adjustOneF_ref _ _ _).bind fun r1 _ => (adjustOneF_ref _ _ _).bind fun r2 _ => ?_
              by_cases hc : r1.2.isNone = true ∧ r2.2.isNone = true
              · rw [if_pos hc, if_neg (fun hd => hd.2 hc)]; exact Ref.pure _
              · rw [if_neg hc]; exact Ref.none _
      | pointLeft => exact (pointLoopF_ref hA _ _ _).bind fun _ _ => Ref.pure _
      | pointRight => exact Ref.pure _

theorem newF_ref (input : List C) : Ref (Sweep.new lineOf input) (newF lineOf input) := by
  unfold Sweep.new newF
  generalize ({ segments := Slab.empty, events := [], active := SplayTree.new, clock := 0 } : Sweep K C) = st
  induction input generalizing st with
  | nil => exact Ref.pure _
  | cons c input ih =>
    rw [List.foldlM_cons, List.foldlM_cons]
    refine Ref.bind ((createSegmentF_ref _ _ _ _).bind fun r _ => Ref.pure _) fun st' _ => ih st'

end Sweep
end GeoCrossings

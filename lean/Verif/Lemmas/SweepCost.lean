import Verif.Lemmas.SweepCount
import Verif.Lemmas.SweepBound

/-! # How many comparisons an event takes -/

set_option linter.unusedSectionVars false
namespace GeoCrossings
open Splay Splay.Tree

section
variable {K V : Type}

theorem splayLoopT_le (cmp : K → K → Ordering) (key : K) (t : Tree K V) (L R) (n : Nat) :
    (splayLoopT cmp key t L R n).2 + 2 ≤ n + 2 * size1 t := by
  fun_induction splayLoopT cmp key t L R n <;> simp only [size1_eq, toList, List.length_append, List.length_cons, List.length_nil] at * <;> omega

theorem splayCost_le (cmp : K → K → Ordering) (key : K) (t : Tree K V) : splayCost cmp key t + 2 ≤ 2 * size1 t := by
  have := splayLoopT_le cmp key t [] [] 0
  unfold splayCost
  omega

theorem prevCost_le (cmp : K → K → Ordering) (s : SplayTree K V) (key : K) : prevCost cmp s key ≤ 3 * size1 s.root := by
  have h1 := splayCost_le cmp key s.root
  have h2 := prevLoopT_le cmp key (splay cmp key s.root) none 0
  rw [splay_size] at h2
  unfold prevCost
  omega

theorem nextCost_le (cmp : K → K → Ordering) (s : SplayTree K V) (key : K) : nextCost cmp s key ≤ 3 * size1 s.root := by
  have h1 := splayCost_le cmp key s.root
  have h2 := nextLoopT_le cmp key (splay cmp key s.root) none 0
  rw [splay_size] at h2
  unfold nextCost
  omega

theorem accessCost_le (cmp : K → K → Ordering) (s : SplayTree K V) (key : K) : accessCost cmp s key ≤ 2 * size1 s.root := by
  have h1 := splayCost_le cmp key s.root
  unfold accessCost
  split <;> omega

theorem removeCost_le (cmp : K → K → Ordering) (s : SplayTree K V) (key : K) : removeCost cmp s key ≤ 4 * size1 s.root := by
  have h1 := splayCost_le cmp key s.root
  have h2 := splay_size cmp key s.root
  unfold removeCost
  split
  · omega
  · next l k v r h =>
    have h3 := splayCost_le cmp key l
    rw [h] at h2
    simp only [size1] at h2
    have := size1_pos r
    split <;> omega

theorem insert_size' (cmp : K → K → Ordering) (s : SplayTree K V) (key : K) (val : V) :
    size1 (s.insert cmp key val).1.root ≤ size1 s.root + 1 := by
  have hs := splay_size cmp key s.root
  unfold SplayTree.insert
  cases ht : splay cmp key s.root with
  | nil => rw [ht] at hs; simp only [size1] at hs ⊢; omega
  | node l k v r =>
    rw [ht] at hs
    simp only [size1] at hs
    dsimp only
    cases cmp key k <;> simp only [size1] <;> omega

theorem remove_size' (cmp : K → K → Ordering) (s : SplayTree K V) (key : K) {s' o} (h : s.remove cmp key = some (s', o)) :
    size1 s'.root ≤ size1 s.root := by
  have hs := splay_size cmp key s.root
  unfold SplayTree.remove at h
  cases ht : splay cmp key s.root with
  | nil => rw [ht] at h; simp only [Option.some.injEq, Prod.mk.injEq] at h; rw [h.1]
  | node l k v r =>
    rw [ht] at h hs
    simp only [size1] at hs
    have pl := size1_pos l
    have pr := size1_pos r
    dsimp only at h
    by_cases hk : cmp key k = .eq
    · simp only [hk, ne_eq, not_true, if_false] at h
      cases hn : s.size with
      | zero => rw [hn] at h; cases h
      | succ n =>
        rw [hn] at h
        simp only [Option.some.injEq, Prod.mk.injEq] at h
        rw [← h.1]
        have hl := splay_size cmp key l
        dsimp only
        unfold joinAfterRemove
        cases hj : splay cmp key l with
        | nil => dsimp only; omega
        | node a b c d =>
          rw [hj] at hl
          have := size1_pos d
          simp only [size1] at hl ⊢
          omega
    · simp only [hk, ne_eq, not_false_eq_true, if_true, Option.some.injEq, Prod.mk.injEq] at h
      rw [← h.1]
      simp only [size1]
      omega

end

variable {K C : Type} [Field K] [LinearOrder K] [IsStrictOrderedRing K]
variable {lineOf : C → Line K} {nextAfter : K → K} {choice : Nat → Nat}

theorem createSegment_act {st st' : Sweep K C} {c g p k} (h : st.createSegment lineOf c g p = some (st', k)) : st'.active = st.active := by
  unfold Sweep.createSegment at h
  cases p with
  | none => simp only [Option.some.injEq, Prod.mk.injEq] at h; rw [← h.1]
  | some par =>
    simp only [Option.bind_eq_bind, Option.pure_def] at h
    obtain ⟨ps, -, h⟩ := Option.bind_eq_some_iff.1 h
    obtain ⟨slab, -, h⟩ := Option.bind_eq_some_iff.1 h
    simp only [Option.some.injEq, Prod.mk.injEq] at h; rw [← h.1]

theorem adjustFor_act {st st' : Sweep K C} {k i o} (h : st.adjustFor k i = some (st', o)) : st'.active = st.active := by
  unfold Sweep.adjustFor at h
  simp only [Option.bind_eq_bind, Option.pure_def] at h
  obtain ⟨seg, -, h⟩ := Option.bind_eq_some_iff.1 h
  obtain ⟨⟨seg', out⟩, -, h⟩ := Option.bind_eq_some_iff.1 h
  obtain ⟨slab, -, h⟩ := Option.bind_eq_some_iff.1 h
  obtain ⟨slab', -, h⟩ := Option.bind_eq_some_iff.1 h
  simp only [Option.some.injEq, Prod.mk.injEq] at h
  rw [← h.1]
  cases out <;> rfl

theorem adjustOne_act {st st' : Sweep K C} {k i o} (h : st.adjustOne lineOf k i = some (st', o)) : st'.active = st.active := by
  unfold Sweep.adjustOne at h
  simp only [Option.bind_eq_bind, Option.pure_def] at h
  obtain ⟨seg, -, h⟩ := Option.bind_eq_some_iff.1 h
  obtain ⟨⟨st1, out⟩, h1, h⟩ := Option.bind_eq_some_iff.1 h
  have k1 := adjustFor_act h1
  cases out with
  | unchanged ov => simp only [Option.some.injEq, Prod.mk.injEq] at h; rw [← h.1, k1]
  | splitOnce ov right =>
    obtain ⟨⟨st2, nk⟩, h2, h⟩ := Option.bind_eq_some_iff.1 h
    simp only [Option.some.injEq, Prod.mk.injEq] at h
    rw [← h.1, createSegment_act h2, k1]
  | splitTwice right =>
    obtain ⟨⟨st2, nk⟩, h2, h⟩ := Option.bind_eq_some_iff.1 h
    obtain ⟨⟨st3, nk3⟩, h3, h⟩ := Option.bind_eq_some_iff.1 h
    simp only [Option.some.injEq, Prod.mk.injEq] at h
    rw [← h.1, createSegment_act h3, createSegment_act h2, k1]

theorem chainOverlap_act {st st' : Sweep K C} {a b} (h : st.chainOverlap a b = some st') : st'.active = st.active := by
  unfold Sweep.chainOverlap at h
  simp only [Option.bind_eq_bind] at h
  have m : ∀ {s s' : Sweep K C} {k f}, s.modifySeg k f = some s' → s'.active = s.active := by
    intro s s' k f h
    unfold Sweep.modifySeg at h
    obtain ⟨x, -, h⟩ := Option.bind_eq_some_iff.1 h
    rw [Option.pure_def, Option.some.injEq] at h
    rw [← h]
  obtain ⟨last, -, h⟩ := Option.bind_eq_some_iff.1 h
  obtain ⟨s1, h1, h⟩ := Option.bind_eq_some_iff.1 h
  rw [m h, m h1]

theorem pointLoop_act : ∀ {l : List Nat} {st st' : Sweep K C} {seg}, Sweep.pointLoop lineOf nextAfter l st seg = some st' → st'.active = st.active
  | [], st, st', seg, h => by rw [Sweep.pointLoop, Option.some.injEq] at h; rw [h]
  | adj :: rest, st, st', seg, h => by
    rw [Sweep.pointLoop] at h
    simp only [Option.bind_eq_bind] at h
    obtain ⟨as, -, h⟩ := Option.bind_eq_some_iff.1 h
    obtain ⟨i, -, h⟩ := Option.bind_eq_some_iff.1 h
    cases i with
    | none => exact pointLoop_act h
    | some i =>
      obtain ⟨⟨s1, ov⟩, h1, h⟩ := Option.bind_eq_some_iff.1 h
      simp only at h
      split at h
      · rw [pointLoop_act h, adjustOne_act h1]
      · cases h

theorem popEvent_act {st st' : Sweep K C} {e} (h : st.popEvent choice = some (e, st')) : st'.active = st.active := by
  unfold Sweep.popEvent at h
  simp only [Option.bind_eq_bind, Option.pure_def] at h
  obtain ⟨x, -, h⟩ := Option.bind_eq_some_iff.1 h
  simp only [Option.some.injEq, Prod.mk.injEq] at h
  rw [← h.2]

/-- One more than the number of active segments. -/
abbrev Sweep.sz (st : Sweep K C) : Nat := size1 st.active.root

/-- What `x`, started in state `st`, costs: with `d` events popped on the way the active set grows by at most `d + a`, and, while there
are fewer than `B` active segments, `x` makes at most `(10 d + w) B` comparisons. -/
def Bnd {α : Type} (a w : Nat) (st : Sweep K C) (g : α → Sweep K C) (x : StateT Nat Option α) : Prop :=
  ∀ n r n', x.run n = some (r, n') → ∃ d, (g r).clock = st.clock + d ∧ (g r).sz ≤ st.sz + d + a ∧
    ∀ B, st.sz + d + a ≤ B → n' ≤ n + (10 * d + w) * B

namespace Bnd
variable {α β : Type} {a a' w w' : Nat} {st : Sweep K C} {g : α → Sweep K C} {g' : β → Sweep K C}

theorem bind {x : StateT Nat Option α} {f : α → StateT Nat Option β} (h : Bnd a w st g x) (hf : ∀ r, Bnd a' w' (g r) g' (f r)) :
    Bnd (a + a') (w + w') st g' (x >>= f) := by
  intro n r n' hr
  rw [StateT.run_bind] at hr
  obtain ⟨⟨r1, n1⟩, h1, h2⟩ := Option.bind_eq_some_iff.1 hr
  obtain ⟨d, i1, i2, i3⟩ := h n r1 n1 h1
  obtain ⟨d', j1, j2, j3⟩ := hf r1 n1 r n' h2
  refine ⟨d + d', by omega, by omega, fun B hB => ?_⟩
  have k1 := i3 B (by omega)
  have k2 := j3 B (by omega)
  have : (10 * (d + d') + (w + w')) * B = (10 * d + w) * B + (10 * d' + w') * B := by ring
  omega

theorem mono {x : StateT Nat Option α} (h : Bnd a w st g x) (ha : a ≤ a') (hw : w ≤ w') : Bnd a' w' st g x := by
  intro n r n' hr
  obtain ⟨d, i1, i2, i3⟩ := h n r n' hr
  refine ⟨d, i1, by omega, fun B hB => (i3 B (by omega)).trans ?_⟩
  have := Nat.mul_le_mul_right B (show 10 * d + w ≤ 10 * d + w' by omega)
  omega

theorem bind0 {x : StateT Nat Option α} {f : α → StateT Nat Option β} (h : Bnd 0 0 st g x) (hf : ∀ r, Bnd a w (g r) g' (f r)) :
    Bnd a w st g' (x >>= f) := (h.bind hf).mono (by omega) (by omega)

theorem bindr {x : StateT Nat Option α} {f : α → StateT Nat Option β} (h : Bnd a w st g x) (hf : ∀ r, Bnd 0 0 (g r) g' (f r)) :
    Bnd a w st g' (x >>= f) := (h.bind hf).mono (by omega) (by omega)

theorem lift {y : Option α} (h : ∀ r, y = some r → (g r).clock = st.clock ∧ (g r).active = st.active) : Bnd 0 0 st g (liftM y) := by
  intro n r n' hr
  cases y with
  | none => cases hr
  | some r1 =>
    cases hr
    obtain ⟨h1, h2⟩ := h _ rfl
    refine ⟨0, h1, ?_, fun B hB => by omega⟩
    unfold Sweep.sz
    rw [h2]
    omega

theorem pure {r : α} (h : (g r).clock = st.clock ∧ (g r).active = st.active) : Bnd 0 0 st g (Pure.pure r) :=
  lift (y := some r) fun _ e => by cases e; exact h

theorem failure : Bnd a w st g failure := fun _ _ _ h => by cases h

theorem ite {c : Prop} [Decidable c] {x y : StateT Nat Option α} (h : c → Bnd a w st g x) (h' : ¬ c → Bnd a w st g y) :
    Bnd a w st g (if c then x else y) := by
  by_cases hc : c
  · rw [if_pos hc]; exact h hc
  · rw [if_neg hc]; exact h' hc

/-- A pop pays for what is done with the event. -/
theorem pop {f : Event K × Sweep K C → StateT Nat Option β} (hf : ∀ e st1, Bnd 1 10 st1 g' (f (e, st1))) :
    Bnd 0 0 st g' (liftM (st.popEvent choice) >>= f) := by
  intro n r n' hr
  rw [StateT.run_bind] at hr
  obtain ⟨⟨r1, n1⟩, h1, h2⟩ := Option.bind_eq_some_iff.1 hr
  cases hp : st.popEvent choice with
  | none => rw [hp] at h1; cases h1
  | some q =>
    obtain ⟨e, st1⟩ := q
    rw [hp] at h1
    cases h1
    have k1 := popEvent_clock hp
    have k2 := popEvent_act hp
    obtain ⟨d, i1, i2, i3⟩ := hf e st1 n r n' h2
    have k3 : st1.sz = st.sz := by unfold Sweep.sz; rw [k2]
    refine ⟨d + 1, by omega, by omega, fun B hB => ?_⟩
    have := i3 B (by omega)
    rw [show 10 * (d + 1) + 0 = 10 * d + 10 from by ring]
    exact this

end Bnd

namespace Sweep

theorem bnd_of_run {α : Type} {x : StateT Nat Option α} {y : Option α} {c a w : Nat} {st : Sweep K C} {g : α → Sweep K C}
    (h : ∀ n, x.run n = y.map fun r => (r, n + c)) (h1 : ∀ r, y = some r → (g r).clock = st.clock ∧ (g r).sz ≤ st.sz + a)
    (hc : c ≤ w * st.sz) : Bnd a w st g x := by
  intro n r n' hr
  rw [h n] at hr
  cases y with
  | none => cases hr
  | some r1 =>
    cases hr
    obtain ⟨k1, k2⟩ := h1 _ rfl
    refine ⟨0, k1, k2, fun B hB => ?_⟩
    have := Nat.mul_le_mul_left w (show st.sz ≤ B by omega)
    rw [show 10 * 0 + w = w by omega]
    omega

theorem prevKeyC_bnd (st : Sweep K C) (k : Nat) : Bnd 0 3 st Prod.fst (st.prevKeyC k) := by
  refine bnd_of_run (prevKeyC_run st k) (fun r hr => ⟨prevKey_clock hr, ?_⟩) (prevCost_le _ _ _)
  unfold prevKey at hr
  split at hr
  · rw [Option.some.injEq] at hr
    rw [← hr]
    exact (splay_size _ _ _).le
  · cases hr

theorem nextKeyC_bnd (st : Sweep K C) (k : Nat) : Bnd 0 3 st Prod.fst (st.nextKeyC k) := by
  refine bnd_of_run (nextKeyC_run st k) (fun r hr => ⟨nextKey_clock hr, ?_⟩) (nextCost_le _ _ _)
  unfold nextKey at hr
  split at hr
  · rw [Option.some.injEq] at hr
    rw [← hr]
    exact (splay_size _ _ _).le
  · cases hr

theorem addKeyC_bnd (st : Sweep K C) (k : Nat) : Bnd 1 2 st id (st.addKeyC k) := by
  refine bnd_of_run (addKeyC_run st k) (fun r hr => ⟨addKey_clock hr, ?_⟩) (accessCost_le _ _ _)
  unfold addKey at hr
  split at hr
  · simp only at hr
    split at hr
    · rw [Option.some.injEq] at hr
      rw [← hr]
      exact insert_size' _ _ _ _
    · cases hr
  · cases hr

theorem removeKeyC_bnd (st : Sweep K C) (k : Nat) : Bnd 0 4 st id (st.removeKeyC k) := by
  refine bnd_of_run (removeKeyC_run st k) (fun r hr => ⟨removeKey_clock hr, ?_⟩) (removeCost_le _ _ _)
  unfold removeKey at hr
  split at hr
  · split at hr
    · next h =>
      unfold SplaySet.remove at h
      obtain ⟨⟨s', o⟩, h1, h2⟩ := Option.map_eq_some_iff.1 h
      rw [Option.some.injEq] at hr
      rw [← hr]
      simp only [Prod.mk.injEq] at h2
      rw [h2.1] at h1
      exact remove_size' _ _ _ h1
    · cases hr
  · cases hr

theorem adjustOne_bnd (lineOf : C → Line K) (st : Sweep K C) (k : Nat) (i : LineOrPoint K) : Bnd 0 0 st Prod.fst (liftM (st.adjustOne lineOf k i)) :=
  .lift fun _ h => ⟨adjustOne_clock h, adjustOne_act h⟩

theorem same_bnd {α : Type} (st : Sweep K C) (y : Option α) : Bnd 0 0 st (fun _ => st) (liftM y) := .lift fun _ _ => ⟨rfl, rfl⟩

theorem leftLoopC_bnd {rec : Sweep K C → Event K → StateT Nat Option (Sweep K C × Out K C × Bool)}
    (hrec : ∀ st e, Bnd 1 10 st Prod.fst (rec st e)) (ek : Nat)
    (l : List Nat) (st : Sweep K C) (seg : Seg K C) :
    Bnd 0 0 st Prod.fst (leftLoopC lineOf nextAfter choice rec ek l st seg) := by
  induction l generalizing st seg with
  | nil => exact .pure ⟨rfl, rfl⟩
  | cons adj rest ih =>
    rw [leftLoopC]
    refine (same_bnd st _).bind0 fun adjSeg => (same_bnd st _).bind0 fun inter => ?_
    cases inter with
    | none => exact ih st seg
    | some i =>
      dsimp only
      refine (adjustOne_bnd lineOf _ _ _).bind0 fun p => ?_
      obtain ⟨st1, adjOv⟩ := p
      dsimp only
      refine (same_bnd st1 _).bind0 fun adjSeg => ?_
      have tail : ∀ q : Sweep K C × Out K C, Bnd 0 0 q.1 Prod.fst (do
          let r ← liftM (adjustOne lineOf q.1 ek i)
          let seg ← liftM (r.1.segments.get ek)
          match adjOv, r.2 with
          | none, none => do
            let s ← leftLoopC lineOf nextAfter choice rec ek rest r.1 seg
            pure (s.1, q.2 ++ s.2.1, s.2.2)
          | some a, some t => do
            let st ← liftM (r.1.chainOverlap a t)
            if t = ek then do
              let as ← liftM (st.segments.get a)
              pure (st, q.2, if as.leftEventDone = true then LeftExit.noAdd else LeftExit.ret)
            else do
              let s ← leftLoopC lineOf nextAfter choice rec ek rest st seg
              pure (s.1, q.2 ++ s.2.1, s.2.2)
          | _, _ => failure) := by
        intro q
        refine (adjustOne_bnd lineOf _ _ _).bind0 fun r => (same_bnd r.1 _).bind0 fun seg => ?_
        obtain ⟨st2, segOv⟩ := r
        rcases adjOv with _ | a <;> rcases segOv with _ | t <;> dsimp only
        · exact (ih _ _).bind0 fun s => .pure ⟨rfl, rfl⟩
        · exact .failure
        · exact .failure
        · refine (Bnd.lift (g := id) fun _ h => ⟨chainOverlap_clock h, chainOverlap_act h⟩).bind0 fun st => .ite (fun _ => ?_) fun _ => ?_
          · exact (same_bnd st _).bind0 fun s => .pure ⟨rfl, rfl⟩
          · exact (ih _ _).bind0 fun s => .pure ⟨rfl, rfl⟩
      refine .ite (fun hc => ?_) fun hc => ?_
      · refine .pop fun e st2 => (hrec _ _).bindr fun q => .ite (fun _ => ?_) fun _ => ?_
        · exact (Bnd.pure (g := Prod.fst) ⟨rfl, rfl⟩).bind0 tail
        · exact (Bnd.failure (g := Prod.fst) (a := 0) (w := 0)).bind0 tail
      · exact (Bnd.pure (g := Prod.fst) ⟨rfl, rfl⟩).bind0 tail

theorem rightTail_bnd (st : Sweep K C) (k : Nat) (prev next : Option Nat) :
    Bnd 0 0 st Prod.fst (liftM (rightTail lineOf nextAfter st k prev next)) := by
  refine .lift fun r h => ?_
  unfold rightTail at h
  simp only [Option.bind_eq_bind, Option.pure_def] at h
  obtain ⟨⟨slab, out⟩, -, h⟩ := Option.bind_eq_some_iff.1 h
  have triv : ∀ {r : Sweep K C × Out K C × Bool}, some (({ st with segments := slab } : Sweep K C), out, true) = some r →
      r.1.clock = st.clock ∧ r.1.active = st.active := by
    intro r h; cases h; exact ⟨rfl, rfl⟩
  cases prev with
  | none => exact triv h
  | some pk =>
    cases next with
    | none => exact triv h
    | some nk =>
      dsimp only at h
      obtain ⟨ps, -, h⟩ := Option.bind_eq_some_iff.1 h
      obtain ⟨ns, -, h⟩ := Option.bind_eq_some_iff.1 h
      obtain ⟨i, -, h⟩ := Option.bind_eq_some_iff.1 h
      cases i with
      | none => exact triv h
      | some i =>
        dsimp only at h
        obtain ⟨⟨st1, o1⟩, h1, h⟩ := Option.bind_eq_some_iff.1 h
        obtain ⟨⟨st2, o2⟩, h2, h⟩ := Option.bind_eq_some_iff.1 h
        dsimp only at h h2
        split at h
        · cases h
          exact ⟨(adjustOne_clock h2).trans (by rw [adjustOne_clock h1]), (adjustOne_act h2).trans (by rw [adjustOne_act h1])⟩
        · cases h

theorem pointLoop_bnd (lineOf : C → Line K) (nextAfter : K → K) (l : List Nat) (st : Sweep K C) (seg : Seg K C) : Bnd 0 0 st id (liftM (pointLoop lineOf nextAfter l st seg)) :=
  .lift fun _ h => ⟨pointLoop_clock h, pointLoop_act h⟩

theorem handleEventC_bnd (fuel : Nat) (st : Sweep K C) (e : Event K) :
    Bnd 1 10 st Prod.fst (handleEventC lineOf nextAfter choice fuel st e) := by
  induction fuel generalizing st e with
  | zero => exact .failure
  | succ fuel ih =>
    rw [handleEventC]
    refine (same_bnd st _).bind0 fun o => ?_
    cases o with
    | none => exact (Bnd.pure ⟨rfl, rfl⟩).mono (by omega) (by omega)
    | some seg =>
      dsimp only
      refine Bnd.mono (a := 0 + 1) (w := 3 + 7) ((prevKeyC_bnd _ _).bind fun p => ?_) le_rfl le_rfl
      refine Bnd.mono (a := 0 + 1) (w := 3 + 4) ((nextKeyC_bnd _ _).bind fun q => ?_) le_rfl le_rfl
      obtain ⟨st2, next⟩ := q
      dsimp only
      cases e.ty with
      | lineLeft =>
        dsimp only
        refine Bnd.mono (a := 0 + 1) (w := 0 + 4) ((leftLoopC_bnd ih _ _ _ _).bind fun s => ?_) le_rfl le_rfl
        obtain ⟨st3, out1, x⟩ := s
        dsimp only
        have tail : ∀ st : Sweep K C, Bnd 0 0 st Prod.fst (do
            let p ← liftM (emitLeft (st.segments.size + 1) st.segments (some e.segmentKey))
            pure (({ st with segments := p.1 } : Sweep K C), out1 ++ p.2, true)) :=
          fun st => (same_bnd st _).bind0 fun p => .pure ⟨rfl, rfl⟩
        have fin : Bnd 1 4 st3 Prod.fst (if x = LeftExit.add then (do
            let st ← st3.addKeyC e.segmentKey
            let p ← liftM (emitLeft (st.segments.size + 1) st.segments (some e.segmentKey))
            pure (({ st with segments := p.1 } : Sweep K C), out1 ++ p.2, true)) else (do
            let st ← pure st3
            let p ← liftM (emitLeft (st.segments.size + 1) st.segments (some e.segmentKey))
            pure (({ st with segments := p.1 } : Sweep K C), out1 ++ p.2, true))) :=
          .ite (fun _ => ((addKeyC_bnd _ _).bindr tail).mono (by omega) (by omega))
            fun _ => ((Bnd.pure (st := st3) (g := id) ⟨rfl, rfl⟩).bind0 tail).mono (by omega) (by omega)
        cases x with
        | ret => exact (Bnd.pure ⟨rfl, rfl⟩).mono (by omega) (by omega)
        | add => exact fin
        | noAdd => exact fin
      | lineRight =>
        dsimp only
        exact ((removeKeyC_bnd _ _).bindr fun st3 => rightTail_bnd _ _ _ _).mono (by omega) (by omega)
      | pointLeft =>
        dsimp only
        have := (pointLoop_bnd lineOf nextAfter (p.2.toList ++ next.toList) st2 seg).bind0 (a := 0) (w := 0) (g' := Prod.fst)
          (f := fun st => pure (st, [(seg, EventType.pointLeft)], true)) fun st3 => .pure ⟨rfl, rfl⟩
        exact this.mono (by omega) (by omega)
      | pointRight => exact (Bnd.pure ⟨rfl, rfl⟩).mono (by omega) (by omega)

/-- The comparisons of one call of `next_event`. -/
theorem nextEventC_cost {st st' : Sweep K C} {n n' out p} (h : (st.nextEventC lineOf nextAfter choice).run n = some (some (st', out, p), n')) :
    ∃ d, st'.clock = st.clock + d ∧ ∀ B, st.sz + d ≤ B → n' ≤ n + 10 * d * B := by
  unfold nextEventC at h
  cases hp : st.popEvent choice with
  | none => rw [hp] at h; cases h
  | some q =>
    obtain ⟨e, st1⟩ := q
    rw [hp] at h
    dsimp only at h
    rw [StateT.run_bind] at h
    obtain ⟨⟨⟨st2, o2, b⟩, n2⟩, h1, h2⟩ := Option.bind_eq_some_iff.1 h
    obtain ⟨d, i1, -, i3⟩ := handleEventC_bnd 2 st1 e n _ n2 h1
    cases h2
    have k1 := popEvent_clock hp
    have k2 := popEvent_act hp
    have k3 : st1.sz = st.sz := by unfold Sweep.sz; rw [k2]
    have k4 : st2.clock = st1.clock + d := i1
    refine ⟨d + 1, by change st2.clock = _; omega, fun B hB => ?_⟩
    have := i3 B (by omega)
    rw [show 10 * (d + 1) = 10 * d + 10 from by ring]
    exact this

end Sweep
end GeoCrossings

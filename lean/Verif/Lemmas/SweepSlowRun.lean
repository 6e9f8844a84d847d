import Verif.Lemmas.SweepSlow

/-! # The run of the sweep over these segments -/

set_option linter.unusedSectionVars false
namespace GeoCrossings.Slow
open Splay Splay.Tree

variable {K : Type} [Field K] [LinearOrder K] [IsStrictOrderedRing K]
variable {n h : Nat} {nextAfter : K → K} {choice : Nat → Nat}

def Good (n h i : Nat) (s : Seg K (Line K)) : Prop :=
  s.geom = geom K n h i ∧ s.key = i ∧ s.overlapping = none ∧ s.isOverlapping = false

/-- The keys in `S` are in the slab, with their segments. -/
def Live (n h : Nat) (S : Nat → Prop) (slab : Slab (Seg K (Line K))) : Prop := ∀ i, S i → i < n + 2 * h ∧ ∃ s, slab.get i = some s ∧ Good n h i s

variable {S : Nat → Prop} {slab : Slab (Seg K (Line K))}

theorem cmp_live (hl : Live n h S slab) {i j : Nat} (hi : S i) (hj : S j) : cmpKeys slab i j = some (compare i j) := by
  obtain ⟨i1, s, i2, i3⟩ := hl i hi
  obtain ⟨j1, t, j2, j3⟩ := hl j hj
  unfold cmpKeys
  rw [i2, j2]
  change (s.geom.pcmp t.geom).bind (fun o => some (o.then (compare s.key t.key))) = _
  rw [i3.1, j3.1, pcmp_slow i1 j1, i3.2.1, j3.2.1]
  change some ((compare i j).then (compare i j)) = _
  cases compare i j <;> rfl

theorem cmpD_live (hl : Live n h S slab) {i j : Nat} (hi : S i) (hj : S j) : Sweep.cmpD slab i j = compare i j := by
  unfold Sweep.cmpD
  rw [cmp_live hl hi hj]
  rfl

theorem comparable_live (hl : Live n h S slab) {i : Nat} (hi : S i) {act : SplaySet Nat} (ha : AllK S act.root) :
    Sweep.comparable slab act i = true := by
  unfold Sweep.comparable
  rw [List.all_eq_true]
  intro e he
  rw [cmp_live hl hi (ha e he), cmp_live hl (ha e he) hi]
  rfl

theorem Live.put (hl : Live n h S slab) {i : Nat} {v : Option (Seg K (Line K))} {S' : Nat → Prop} (hS : ∀ j, S' j → S j)
    (hv : S' i → ∃ s, v = some s ∧ Good n h i s) : Live n h S' (slab.put i v) := by
  intro j hj
  obtain ⟨j1, s, j2, j3⟩ := hl j (hS j hj)
  refine ⟨j1, ?_⟩
  unfold Slab.get Slab.put
  by_cases e : j = i
  · subst e
    simpa using hv hj
  · simp only [if_neg e]
    exact ⟨s, j2, j3⟩

variable (K) in
def evL (i : Nat) : Event K := ⟨⟨i, i⟩, .lineLeft, i⟩
variable (K) in
def evR (n h i : Nat) : Event K := ⟨⟨stop n h i, i⟩, .lineRight, i⟩

/-- The heap gives out the event that comes first, if there is only one. -/
theorem pop_first {st : Sweep K (Line K)} {e : Event K} {rest : List (Event K)} (hp : st.events.Perm (e :: rest))
    (hmin : ∀ e' ∈ rest, e.point < e'.point) :
    ∃ evs, st.popEvent choice = some (e, { st with events := evs, clock := st.clock + 1 }) ∧ evs.Perm rest := by
  obtain ⟨h1, h2⟩ := heapPop_spec (choice st.clock) st.events
  unfold Sweep.popEvent
  cases hh : heapPop (choice st.clock) st.events with
  | none => rw [h1.1 hh] at hp; exact absurd hp.symm (by simp)
  | some p =>
    obtain ⟨e1, evs⟩ := p
    obtain ⟨k1, k2⟩ := h2 e1 evs hh
    have he : e1 = e := by
      rcases List.mem_cons.1 (hp.subset (k1.symm.subset (List.mem_cons_self))) with h | h
      · exact h
      · have a := hmin _ h
        have b := k2 e (hp.symm.subset List.mem_cons_self)
        rcases b with b | ⟨b, -⟩
        · exact absurd (a.trans b) (lt_irrefl _)
        · rw [b] at a; exact absurd a (lt_irrefl _)
    subst he
    exact ⟨evs, rfl, (List.perm_cons _).1 (k1.symm.trans hp)⟩

/-! ## The left ends -/

structure Phase1 (n h i : Nat) (st : Sweep K (Line K)) : Prop where
  live : Live n h (fun j => j < n + 2 * h) st.segments
  act : st.active = ⟨spine i, i⟩
  ev : st.events.Perm ((List.range' i (n + 2 * h - i)).map (evL K) ++ (List.range (n + 2 * h)).map (evR K n h))

theorem init : ∃ st, Sweep.new id ((List.range (n + 2 * h)).map (slow K n h)) = some st ∧ Phase1 n h 0 st := by
  have key : ∀ m ≤ n + 2 * h, ∃ st, Sweep.new id ((List.range m).map (slow K n h)) = some st ∧ st.segments.free = [] ∧
      st.segments.size = m ∧ Live n h (fun j => j < m) st.segments ∧ st.active = ⟨nil, 0⟩ ∧
      st.events.Perm ((List.range m).map (evL K) ++ (List.range m).map (evR K n h)) := by
    intro m
    induction m with
    | zero => intro _; exact ⟨_, rfl, rfl, rfl, fun i hi => absurd hi (Nat.not_lt_zero i), rfl, .refl _⟩
    | succ m ih =>
      intro hm
      obtain ⟨st, h1, h2, h3, h4, h5, h6⟩ := ih (by omega)
      let seg : Seg K (Line K) := ⟨geom K n h m, m, slow K n h m, true, false, none, false⟩
      have hnew : Seg.new id st.segments (slow K n h m) none = ({ st.segments.put m (some seg) with size := m + 1 }, seg) := by
        unfold Seg.new
        simp only [Slab.vacantKey, Slab.insert, h2, h3, Option.getD_none, Option.isNone_none, id]
        rw [ofLine_slow (by omega)]
      have hstep : st.createSegment id (slow K n h m) none none =
          some ({ st with segments := { st.segments.put m (some seg) with size := m + 1 }, events := evR K n h m :: evL K m :: st.events }, m) := by
        unfold Sweep.createSegment
        rw [hnew]
        rfl
      refine ⟨{ st with segments := { st.segments.put m (some seg) with size := m + 1 }, events := evR K n h m :: evL K m :: st.events }, ?_, ?_, ?_, ?_, ?_, ?_⟩
      · unfold Sweep.new at h1 ⊢
        rw [List.range_succ, List.map_append, List.foldlM_append, h1]
        simp only [List.map_cons, List.map_nil, Option.bind_eq_bind, Option.bind_some, List.foldlM_cons, List.foldlM_nil, hstep]
        rfl
      · exact h2
      · rfl
      · intro j hj
        refine ⟨by omega, ?_⟩
        by_cases e : j = m
        · subst e
          exact ⟨seg, by simp [Slab.get, Slab.put], rfl, rfl, rfl, rfl⟩
        · obtain ⟨-, s, j2, j3⟩ := h4 j (by omega)
          refine ⟨s, ?_, j3⟩
          simp only [Slab.get, Slab.put, if_neg e]
          exact j2
      · exact h5
      · rw [List.range_succ, List.map_append, List.map_append]
        simp only [List.map_cons, List.map_nil]
        refine ((List.Perm.cons _ (List.Perm.cons _ h6))).trans ?_
        rw [List.perm_iff_count]
        intro a
        simp only [List.count_cons, List.count_append, List.count_nil]
        omega
  obtain ⟨st, h1, -, -, h4, h5, h6⟩ := key _ le_rfl
  exact ⟨st, h1, h4, h5, by rw [← List.range_eq_range']; exact h6⟩

theorem step1 {i : Nat} {st : Sweep K (Line K)} (hs : Phase1 n h i st) (hi : i < n + 2 * h) :
    ∃ st' out p, st.nextEvent id nextAfter choice = some (some (st', out, p)) ∧ Phase1 n h (i + 1) st' := by
  obtain ⟨hl, ha, hev⟩ := hs
  have hr : n + 2 * h - i = (n + 2 * h - (i + 1)) + 1 := by omega
  rw [hr, List.range'_succ, List.map_cons, List.cons_append] at hev
  obtain ⟨evs, hp, hperm⟩ := pop_first (choice := choice) hev (by
    intro e' he'
    rcases List.mem_append.1 he' with he' | he'
    · obtain ⟨j, hj, rfl⟩ := List.mem_map.1 he'
      rw [List.mem_range'_1] at hj
      exact pt_lt (by omega)
    · obtain ⟨j, hj, rfl⟩ := List.mem_map.1 he'
      exact pt_lt (hi.trans_le le_stop))
  obtain ⟨-, s, hs1, hg⟩ := hl i hi
  let st1 : Sweep K (Line K) := { st with events := evs, clock := st.clock + 1 }
  have hgt : ∀ k < i, Sweep.cmpD st.segments i k = .gt := by
    intro k hk
    rw [cmpD_live hl hi (show k < n + 2 * h by omega), compare_gt_iff_gt]
    exact hk
  have hall : AllK (fun j => j < n + 2 * h) (spine i) := fun e he => (spine_mem he).trans hi
  have hcmp : Sweep.comparable st.segments (⟨spine i, i⟩ : SplaySet Nat) i = true := comparable_live hl hi hall
  have hprev : st1.prevKey i = some (st1, pre i) := by
    unfold Sweep.prevKey
    simp only [st1, ha, hcmp, if_true, SplaySet.prev, SplayTree.prev, splay_above hgt, prevLoop_above hgt]
  have hnext : st1.nextKey i = some (st1, none) := by
    unfold Sweep.nextKey
    simp only [st1, ha, hcmp, if_true, SplaySet.next, SplayTree.next, splay_above hgt, nextLoop_above hgt, Option.map_none]
  have hseg : st1.segmentForEvent (evL K i) = some (some s) := by
    unfold Sweep.segmentForEvent
    simp only [st1, evL, hs1, Option.bind_eq_bind, Option.bind_some, hg.1, geom, if_true]
  have hloop : ∀ rec, Sweep.leftLoop id nextAfter choice rec i ((pre i).toList ++ (none : Option Nat).toList) st1 s = some (st1, [], .add) := by
    intro rec
    cases i with
    | zero => rfl
    | succ i =>
      obtain ⟨-, t, ht1, ht2⟩ := hl i (by omega)
      change Sweep.leftLoop id nextAfter choice rec (i + 1) [i] st1 s = _
      rw [Sweep.leftLoop]
      have : st1.segments.get i = some t := ht1
      rw [this]
      simp only [Option.bind_eq_bind, Option.bind_some, hg.1, ht2.1]
      rw [inter_slow nextAfter (by omega)]
      rfl
  have hadd : st1.addKey i = some { st1 with active := ⟨spine (i + 1), i + 1⟩ } := by
    unfold Sweep.addKey
    have : (st1.segments.get i).isSome ∧ Sweep.comparable st1.segments st1.active i = true := by
      refine ⟨by simp only [st1, hs1]; rfl, ?_⟩
      simp only [st1, ha]
      exact hcmp
    rw [if_pos this]
    have hins : SplaySet.insert (Sweep.cmpD st1.segments) st1.active i = (⟨spine (i + 1), i + 1⟩, true) := by
      simp only [st1, ha, SplaySet.insert, SplayTree.insert, splay_above hgt]
      cases i with
      | zero => rfl
      | succ i =>
        simp only [spine, hgt i (Nat.lt_succ_self i)]
        rfl
    rw [hins]
    rfl
  have hemit : Sweep.emitLeft (st1.segments.size + 1) st1.segments (some i) =
      some (st.segments.put i (some { s with leftEventDone := true }), [(s, .lineLeft)]) := by
    rw [Sweep.emitLeft]
    simp only [st1, hs1, Slab.modify, Option.map_some, Option.bind_eq_bind, Option.bind_some, hg.2.2.1]
    cases st.segments.size <;> rfl
  refine ⟨{ st1 with active := ⟨spine (i + 1), i + 1⟩, segments := st.segments.put i (some { s with leftEventDone := true }) }, [(s, .lineLeft)], ⟨i, i⟩, ?_, ?_⟩
  · unfold Sweep.nextEvent
    rw [hp]
    change (Sweep.handleEvent id nextAfter choice 2 st1 (evL K i)).bind _ = _
    have : Sweep.handleEvent id nextAfter choice 2 st1 (evL K i) =
        some ({ st1 with active := ⟨spine (i + 1), i + 1⟩, segments := st.segments.put i (some { s with leftEventDone := true }) }, [(s, .lineLeft)], true) := by
      rw [Sweep.handleEvent]
      rw [hseg]
      simp only [Option.bind_eq_bind, Option.bind_some, hg.2.1, hprev, hnext]
      simp only [evL, hloop, Option.bind_some, if_true, hadd]
      rw [hemit]
      simp only [hg.2.1]
      rfl
    rw [this]
    rfl
  · refine ⟨hl.put (fun _ => id) fun _ => ⟨_, rfl, hg⟩, rfl, hperm⟩

/-! ## The right ends -/

/-- The segments still active at the right end of segment `j`. -/
def At (n h j k : Nat) : Prop := k ≤ j ∨ n ≤ k ∧ k < n + 2 * h

structure Phase2 (n h j : Nat) (st : Sweep K (Line K)) : Prop where
  live : Live n h (At n h j) st.segments
  size : st.active.size = j + 1 + 2 * h
  keys : AllK (At n h j) st.active.root
  tree : ∀ cmp : Nat → Nat → Ordering, (∀ k, At n h j k → cmp j k = compare j k) →
    ∃ r, h ≤ lspine r ∧ AllK (fun k => n ≤ k ∧ k < n + 2 * h) r ∧ splay cmp j st.active.root = node (spine j) j () r
  ev : st.events.Perm ((List.range (j + 1)).map (evR K n h) ++ (List.range' n (2 * h)).map (evR K n h))

theorem turn {j : Nat} {st : Sweep K (Line K)} (hs : Phase1 (j + 1) h (j + 1 + 2 * h) st) : Phase2 (j + 1) h j st := by
  obtain ⟨hl, ha, hev⟩ := hs
  have hS : ∀ k, At (j + 1) h j k ↔ k < j + 1 + 2 * h := by intro k; unfold At; omega
  refine ⟨fun k hk => hl k ((hS k).1 hk), by rw [ha], ?_, ?_, ?_⟩
  · rw [ha]; exact fun e he => (hS _).2 (spine_mem he)
  · intro cmp hcmp
    rw [ha]
    obtain ⟨r, h1, h2, h3⟩ := splay_down (cmp := cmp) (p := j) (P := fun k => j + 1 ≤ k ∧ k < j + 1 + 2 * h) h
      (by rw [hcmp j (.inl le_rfl), compare_eq_iff_eq]) (fun k k1 k2 => ⟨by rw [hcmp k ((hS k).2 k2), compare_lt_iff_lt]; exact k1, k1, k2⟩) []
      (by simp)
    exact ⟨r, by rw [h3]; simp, h2, h1⟩
  · rw [Nat.sub_self, List.range'_zero, List.map_nil, List.nil_append] at hev
    rw [← List.map_append]
    convert hev using 2
    rw [List.range_eq_range', List.range_eq_range']
    have := List.range'_append (s := 0) (m := j + 1) (n := 2 * h) (step := 1)
    rwa [Nat.one_mul, Nat.zero_add] at this

theorem run_some {α β : Type} {x : StateT Nat Option α} {f : α → StateT Nat Option β} {c c' : Nat} {a : α} (hx : x.run c = some (a, c')) :
    (x >>= f).run c = (f a).run c' := by
  rw [StateT.run_bind, hx]; rfl

theorem run_lift {α : Type} {y : Option α} {a : α} (hy : y = some a) (c : Nat) : (liftM y : StateT Nat Option α).run c = some (a, c) := by
  rw [hy]; rfl

theorem step2 {j : Nat} {st : Sweep K (Line K)} (hs : Phase2 n h j st) (hj : j < n) (c : Nat) :
    ∃ st' out p c', (st.nextEventC id nextAfter choice).run c = some (some (st', out, p), c') ∧ c + h ≤ c' ∧
      (∀ i, j = i + 1 → Phase2 n h i st') := by
  obtain ⟨hl, hsz, hk, ht, hev⟩ := hs
  have hjS : At n h j j := .inl le_rfl
  have hev' : st.events.Perm (evR K n h j :: ((List.range j).map (evR K n h) ++ (List.range' n (2 * h)).map (evR K n h))) := by
    refine hev.trans ?_
    rw [List.range_succ, List.map_append, List.map_cons, List.map_nil, List.append_assoc]
    exact List.perm_middle
  obtain ⟨evs, hp, hperm⟩ := pop_first (choice := choice) hev' (by
    intro e' he'
    rcases List.mem_append.1 he' with he' | he'
    · obtain ⟨i, hi, rfl⟩ := List.mem_map.1 he'
      exact pt_lt (stop_lt hj (.inl (List.mem_range.1 hi)))
    · obtain ⟨i, hi, rfl⟩ := List.mem_map.1 he'
      exact pt_lt (stop_lt hj (.inr (List.mem_range'_1.1 hi).1)))
  obtain ⟨-, s, hs1, hg⟩ := hl j hjS
  have hcmp : ∀ k, At n h j k → Sweep.cmpD st.segments j k = compare j k := fun k hk => cmpD_live hl hjS hk
  obtain ⟨r, hr1, hr2, hr3⟩ := ht _ hcmp
  have heq : Sweep.cmpD st.segments j j = .eq := by rw [hcmp j hjS, compare_eq_iff_eq]
  have hgt : ∀ k < j, Sweep.cmpD st.segments j k = .gt := by
    intro k hk
    rw [hcmp k (.inl hk.le), compare_gt_iff_gt]; exact hk
  have hrlt : AllK (fun k => Sweep.cmpD st.segments j k = .lt) r := by
    intro e he
    obtain ⟨a, b⟩ := hr2 e he
    rw [hcmp _ (.inr ⟨a, b⟩), compare_lt_iff_lt]
    omega
  have hrS : AllK (At n h j) (node (spine j) j () r) :=
    allK_node.2 ⟨fun e he => .inl (spine_mem he).le, hjS, fun e he => .inr (hr2 e he)⟩
  let st1 : Sweep K (Line K) := { st with events := evs, clock := st.clock + 1 }
  let st2 : Sweep K (Line K) := { st1 with active := ⟨node (spine j) j () r, st.active.size⟩ }
  have hprev : st1.prevKey j = some (st2, pre j) := by
    unfold Sweep.prevKey
    have : Sweep.comparable st1.segments st1.active j = true := comparable_live hl hjS hk
    simp only [this, if_true, SplaySet.prev, SplayTree.prev]
    simp only [st1, st2, hr3, prevLoop, heq, prevLoop_above hgt]
  obtain ⟨w1, w2⟩ := nextLoop_walk hrlt none 1
  have hnext : ∃ nx, st2.nextKey j = some (st2, nx) ∧ ∀ k, nx = some k → n ≤ k ∧ k < n + 2 * h := by
    refine ⟨(nextLoop (Sweep.cmpD st.segments) j r none).map (·.1), ?_, ?_⟩
    · unfold Sweep.nextKey
      have : Sweep.comparable st2.segments st2.active j = true := comparable_live hl hjS hrS
      simp only [this, if_true, SplaySet.next, SplayTree.next]
      simp only [st1, st2, splay_root heq, nextLoop, heq]
    · intro k hk
      obtain ⟨e, he, rfl⟩ := Option.map_eq_some_iff.1 hk
      rcases w2 e he with h | h
      · exact hr2 e h
      · cases h
  obtain ⟨nx, hn1, hn2⟩ := hnext
  have hcost : h ≤ nextCost (Sweep.cmpD st2.segments) st2.active j := by
    unfold nextCost
    simp only [st2, st1, splay_root heq]
    rw [nextLoopT, heq]
    dsimp only
    rw [w1]
    omega
  have hseg : st1.segmentForEvent (evR K n h j) = some (some s) := by
    unfold Sweep.segmentForEvent
    simp only [st1, evR, hs1, hg.1, hg.2.2.2, geom, if_true, Bool.false_eq_true, if_false]
  obtain ⟨t', htj, htk⟩ : ∃ t', joinAfterRemove (Sweep.cmpD st.segments) j (spine j) r = t' ∧
      (∀ i, j = i + 1 → t' = node (spine i) i () r) := by
    refine ⟨_, rfl, ?_⟩
    rintro i rfl
    unfold joinAfterRemove
    rw [splay_above hgt]
    rfl
  have hrem : st2.removeKey j = some { st2 with active := ⟨t', j + 2 * h⟩ } := by
    unfold Sweep.removeKey
    have : (st2.segments.get j).isSome ∧ Sweep.comparable st2.segments st2.active j = true :=
      ⟨by simp only [st2, st1, hs1]; rfl, comparable_live hl hjS hrS⟩
    rw [if_pos this]
    have hr : SplaySet.remove (Sweep.cmpD st2.segments) st2.active j = some (⟨t', j + 2 * h⟩, true) := by
      have e : st.active.size = (j + 2 * h) + 1 := by omega
      simp only [st2, st1, SplaySet.remove, SplayTree.remove, splay_root heq, heq, e, htj, ne_eq, not_true, if_false]
      rfl
    rw [hr]
  let st3 : Sweep K (Line K) := { st2 with active := ⟨t', j + 2 * h⟩ }
  let slab : Slab (Seg K (Line K)) := { st.segments.put j none with free := j :: st.segments.free }
  have hemit : Sweep.emitRight (st3.segments.size + 1) st3.segments (some j) = some (slab, [(s, .lineRight)]) := by
    rw [Sweep.emitRight]
    simp only [st3, st2, st1, hs1, Slab.remove, Option.map_some, Option.bind_eq_bind, Option.bind_some, hg.2.2.1]
    cases st.segments.size <;> rfl
  have hlive : ∀ S' : Nat → Prop, (∀ k, S' k → At n h j k ∧ k ≠ j) → Live n h S' slab := by
    intro S' hS' k hk
    obtain ⟨a, b⟩ := hS' k hk
    obtain ⟨k1, s', k2, k3⟩ := hl k a
    refine ⟨k1, s', ?_, k3⟩
    simp only [slab, Slab.get, Slab.put, if_neg b]
    exact k2
  have htail : Sweep.rightTail id nextAfter st3 j (pre j) nx = some ({ st3 with segments := slab }, [(s, .lineRight)], true) := by
    unfold Sweep.rightTail
    rw [hemit]
    cases j with
    | zero => rfl
    | succ i =>
      cases nx with
      | none => rfl
      | some k =>
        obtain ⟨k1, k2⟩ := hn2 k rfl
        obtain ⟨-, s1, a1, a2⟩ := hlive (fun x => x = i ∨ x = k) (by
          rintro x (rfl | rfl)
          · exact ⟨.inl (by omega), by omega⟩
          · exact ⟨.inr ⟨k1, k2⟩, by omega⟩) i (.inl rfl)
        obtain ⟨-, s2, b1, b2⟩ := hlive (fun x => x = i ∨ x = k) (by
          rintro x (rfl | rfl)
          · exact ⟨.inl (by omega), by omega⟩
          · exact ⟨.inr ⟨k1, k2⟩, by omega⟩) k (.inr rfl)
        simp only [Option.bind_eq_bind, Option.bind_some, pre, a1, b1, a2.1, b2.1]
        rw [inter_slow nextAfter (by omega)]
        rfl
  have hrun : ∃ c', c + h ≤ c' ∧ (Sweep.handleEventC id nextAfter choice 2 st1 (evR K n h j)).run c =
      some (({ st3 with segments := slab }, [(s, .lineRight)], true), c') := by
    refine ⟨c + prevCost (Sweep.cmpD st1.segments) st1.active j + nextCost (Sweep.cmpD st2.segments) st2.active j +
      removeCost (Sweep.cmpD st2.segments) st2.active j, by omega, ?_⟩
    rw [Sweep.handleEventC, run_some (run_lift hseg c)]
    dsimp only
    rw [hg.2.1]
    have e1 : (st1.prevKeyC j).run c = some ((st2, pre j), c + prevCost (Sweep.cmpD st1.segments) st1.active j) := by
      rw [Sweep.prevKeyC_run, hprev]; rfl
    rw [run_some e1]
    dsimp only
    have e2 := Sweep.nextKeyC_run st2 j (c + prevCost (Sweep.cmpD st1.segments) st1.active j)
    rw [hn1] at e2
    rw [run_some e2]
    dsimp only [evR]
    have e3 := Sweep.removeKeyC_run st2 j (c + prevCost (Sweep.cmpD st1.segments) st1.active j + nextCost (Sweep.cmpD st2.segments) st2.active j)
    rw [hrem] at e3
    rw [run_some e3]
    exact run_lift htail _
  obtain ⟨c', hc, hrun⟩ := hrun
  refine ⟨{ st3 with segments := slab }, [(s, .lineRight)], ⟨stop n h j, j⟩, c', ?_, hc, ?_⟩
  · unfold Sweep.nextEventC
    rw [hp]
    dsimp only
    rw [run_some hrun]
    rfl
  · rintro i rfl
    have hS : ∀ k, At n h i k → At n h (i + 1) k ∧ k ≠ i + 1 := by
      unfold At
      rintro k (h | h)
      · exact ⟨.inl (by omega), by omega⟩
      · exact ⟨.inr h, by omega⟩
    have hr' : AllK (At n h i) (node (spine i) i () r) :=
      allK_node.2 ⟨fun e he => .inl (spine_mem he).le, .inl le_rfl, fun e he => .inr (hr2 e he)⟩
    refine ⟨hlive _ hS, rfl, ?_, ?_, hperm⟩
    · change AllK _ t'
      rw [htk i rfl]
      exact hr'
    · intro cmp hcmp
      refine ⟨r, hr1, hr2, ?_⟩
      change splay cmp i t' = _
      rw [htk i rfl]
      exact splay_root (by rw [hcmp i (.inl le_rfl), compare_eq_iff_eq])

end GeoCrossings.Slow

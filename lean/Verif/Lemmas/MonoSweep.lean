import Verif.Lemmas.MonoActive
import Verif.Props.Events

/-!
# One call of `process_event` on the edges of a valid polygon
-/
set_option linter.unusedSectionVars false
namespace GeoCrossings.Monotone
open Spec

variable {K : Type} [Field K] [LinearOrder K] [IsStrictOrderedRing K]

/-- The events of edge `k`. -/
def evL (ed : Nat → Sg K) (k : Nat) : Event K := ⟨(ed k).1, .lineLeft, k⟩
def evR (ed : Nat → Sg K) (k : Nat) : Event K := ⟨(ed k).2, .lineRight, k⟩

/-- `e` is an event of one of the edges. -/
def IsEv (n : Nat) (ed : Nat → Sg K) (e : Event K) : Prop := ∃ k, 1 ≤ k ∧ k ≤ n ∧ (e = evL ed k ∨ e = evR ed k)

/-- The helpers fit the gaps. -/
structure HInv (n : Nat) (ed : Nat → Sg K) (top : Nat → Bool) (u : Pt K) (gs : List (Gap K)) (hp : Nat → Option (Helper K)) : Prop where
  lab : ∀ k, 1 ≤ k → k ≤ n → (hp k).isSome = top k
  fresh : ∀ k, 1 ≤ k → k ≤ n → top k = true → u < (ed k).1 → hp k = some ⟨(ed k).1, false⟩
  gap : ∀ g ∈ gs, hp g.t = some ⟨g.h, g.mg⟩

/-- The state of the sweep fits the gaps. -/
structure SInv (n : Nat) (ed : Nat → Sg K) (top : Nat → Bool) (u : Pt K) (gs : List (Gap K)) (sw : Sweep K) : Prop where
  segs : ∃ c hp, sw.segments = sl n ed c hp ∧ HInv n ed top u gs hp
  active : sw.active = flat gs
  nodup : sw.events.Nodup
  mem : ∀ e, e ∈ sw.events ↔ IsEv n ed e ∧ u < e.point
  sorted : sw.events.Pairwise fun a b => b.point ≤ a.point

/-- What a call of `process_event` reports, in terms of gaps. -/
inductive LStep (n : Nat) (ed : Nat → Sg K) (top : Nat → Bool) (v : Pt K) :
    List (Gap K) → VertexType → List (Link K) → List (Gap K) → Prop
  | start (G1 G2 : List (Gap K)) (i j : Nat) (ri : 1 ≤ i ∧ i ≤ n) (rj : 1 ≤ j ∧ j ≤ n)
    (ei : (ed i).1 = v) (ej : (ed j).1 = v) (hi : top i = false) (hj : top j = true) (hd : 0 < det v (ed i).2 (ed j).2) :
    LStep n ed top v (G1 ++ G2) .start [.start v (ed j).2 (ed i).2] (G1 ++ ⟨i, j, v, false⟩ :: G2)
  | split (G1 : List (Gap K)) (g : Gap K) (G2 : List (Gap K)) (i j : Nat) (ri : 1 ≤ i ∧ i ≤ n) (rj : 1 ≤ j ∧ j ≤ n)
    (ei : (ed i).1 = v) (ej : (ed j).1 = v) (hi : top i = true) (hj : top j = false)
    (hd : 0 < det v (ed i).2 (ed j).2)
    (hsel : g.mg = false → ∀ x y, 1 ≤ x → x ≤ n → 1 ≤ y → y ≤ n → (ed x).1 = g.h → (ed y).1 = g.h → top x = false → top y = true →
      if 0 < det g.h (ed x).2 v then x = g.b else y = g.t) :
    LStep n ed top v (G1 ++ g :: G2) .split
      [if g.mg then .merge g.h v (some ((ed j).2, (ed i).2)) else .split g.h v (ed j).2 (ed i).2]
      (G1 ++ ⟨g.b, i, v, false⟩ :: ⟨j, g.t, v, false⟩ :: G2)
  | contBot (G1 : List (Gap K)) (g : Gap K) (G2 : List (Gap K)) (j : Nat) (rj : 1 ≤ j ∧ j ≤ n) (ej : (ed j).1 = v)
    (eb : (ed g.b).2 = v) (hj : top j = false) (limbs : Option (Pt K × Pt K))
    (w : Winding) :
    LStep n ed top v (G1 ++ g :: G2) .cont
      ((if g.mg then [.merge g.h v limbs] else []) ++ [.cont (ed g.b).1 v (ed j).2 w]) (G1 ++ ⟨j, g.t, v, false⟩ :: G2)
  | contTop (G1 : List (Gap K)) (g : Gap K) (G2 : List (Gap K)) (j : Nat) (rj : 1 ≤ j ∧ j ≤ n) (ej : (ed j).1 = v)
    (et : (ed g.t).2 = v) (hj : top j = true) (limbs : Option (Pt K × Pt K))
    (w : Winding) :
    LStep n ed top v (G1 ++ g :: G2) .cont
      ((if g.mg then [.merge g.h v limbs] else []) ++ [.cont (ed g.t).1 v (ed j).2 w]) (G1 ++ ⟨g.b, j, v, false⟩ :: G2)
  | finish (G1 : List (Gap K)) (g : Gap K) (G2 : List (Gap K)) (eb : (ed g.b).2 = v) (et : (ed g.t).2 = v) (limbs : Option (Pt K × Pt K)) (a b : Pt K) :
    LStep n ed top v (G1 ++ g :: G2) .finish ((if g.mg then [.merge g.h v limbs] else []) ++ [.finish a b v]) (G1 ++ G2)
  | merge (G1 : List (Gap K)) (g g' : Gap K) (G2 : List (Gap K)) (et : (ed g.t).2 = v) (eb : (ed g'.b).2 = v)
    (limbs limbs' : Option (Pt K × Pt K)) :
    LStep n ed top v (G1 ++ g :: g' :: G2) .merge
      ((if g.mg then [.merge g.h v limbs] else []) ++ if g'.mg then [.merge g'.h v limbs'] else [])
      (G1 ++ ⟨g.b, g'.t, v, true⟩ :: G2)

variable {n : Nat} {ed : Nat → Sg K} {top : Nat → Bool} {u v c : Pt K} {hp : Nat → Option (Helper K)}

/-! ## The two events -/

theorem takeWhile_two {α : Type _} (p : α → Bool) {a b : α} {l : List α} (ha : p a = true) (hb : p b = true) (hl : ∀ x ∈ l, p x = false) :
    (a :: b :: l).takeWhile p = [a, b] := by
  rw [List.takeWhile_cons, if_pos ha, List.takeWhile_cons, if_pos hb]
  cases l with
  | nil => rfl
  | cons x l => rw [List.takeWhile_cons, if_neg (by simp [hl x])]

/-- `process_event` when exactly two events are left for the next point. -/
theorem processEvent_eq {sw : Sweep K} {e1 e2 : Event K} {rest : List (Event K)} (h : sw.events.reverse = e1 :: e2 :: rest)
    (h1 : e1.point = v) (h2 : e2.point = v) (hr : ∀ e ∈ rest, e.point ≠ v) :
    processEvent sw = (classify sw.segments v e1 e2).bind fun ixn =>
      (handleRemove v (storePoint { sw with events := rest.reverse } v) [] ixn.event1).bind fun r1 =>
      (handleRemove v r1.1 r1.2 ixn.event2).bind fun r2 =>
      (r2.1.segments[ixn.event1.segmentKey]?).bind fun s1 =>
      (r2.1.segments[ixn.event2.segmentKey]?).bind fun s2 =>
      if ixn.ty = .cont ∧ s1.interiorWinding ≠ s2.interiorWinding then none else
      (handleVertex v ixn s1.interiorWinding r2.1 r2.2).bind fun r3 =>
      (handleInsert r3.1 ixn.event1).bind fun sw =>
      (handleInsert sw ixn.event2).bind fun sw => some (sw, some ⟨v, ixn.ty, r3.2⟩) := by
  have hl : sw.events = rest.reverse ++ [e2, e1] := by
    rw [← List.reverse_reverse sw.events, h]; simp
  have g1 : sw.events.getLast? = some e1 := by rw [hl]; simp
  have g2 : getNextSegments sw.events = some (v, sw.events.length - 2) := by
    rw [getNextSegments, g1, Option.map_some, h]
    rw [takeWhile_two]
    · simp [h1]
    · simp
    · simp [h1, h2]
    · intro x hx; simp [h1, hr x hx]
  have hlen : 2 ≤ sw.events.length := by rw [hl]; simp
  have g3 : findIntersectionType sw v (sw.events.length - 2) =
      (classify sw.segments v e1 e2).map fun i => (i, rest.reverse) := by
    rw [findIntersectionType, if_pos (by omega), h]
  rw [processEvent, g2]
  simp only [g3]
  cases classify sw.segments v e1 e2 with
  | none => rfl
  | some ixn => rfl

/-- The next vertex, and the two events there. -/
theorem SInv.next (E : Edges n ed top) {gs : List (Gap K)} {sw : Sweep K} (h : SInv n ed top u gs sw) (hne : sw.events ≠ []) :
    ∃ v, Next n ed u v ∧ ∃ e1 e2 rest, sw.events.reverse = e1 :: e2 :: rest ∧ e1 ≠ e2 ∧ e1.point = v ∧ e2.point = v ∧
      IsEv n ed e1 ∧ IsEv n ed e2 ∧ rest.reverse.Nodup ∧ (∀ e, e ∈ rest.reverse ↔ IsEv n ed e ∧ v < e.point) ∧
      rest.reverse.Pairwise (fun a b => b.point ≤ a.point) := by
  have hmem : ∀ e, e ∈ sw.events.reverse ↔ IsEv n ed e ∧ u < e.point := fun e => by rw [List.mem_reverse]; exact h.mem e
  have hnd : sw.events.reverse.Nodup := List.nodup_reverse.2 h.nodup
  have hs : sw.events.reverse.Pairwise fun a b => a.point ≤ b.point := List.pairwise_reverse.2 h.sorted
  have hne' : sw.events.reverse ≠ [] := by simpa using hne
  generalize sw.events.reverse = l at hmem hnd hs hne'
  match l, hne' with
  | e1 :: l, _ =>
    rw [List.pairwise_cons] at hs
    obtain ⟨⟨k1, k11, k12, hk1⟩, hu⟩ := (hmem e1).1 (by simp)
    have hvx : EndOf (ed k1) e1.point := by rcases hk1 with rfl | rfl; exacts [.inl rfl, .inr rfl]
    have hle : ∀ e, IsEv n ed e → u < e.point → e1.point ≤ e.point := by
      intro e he hue
      rcases List.mem_cons.1 ((hmem e).2 ⟨he, hue⟩) with rfl | he
      · exact le_rfl
      · exact hs.1 e he
    have hnext : Next n ed u e1.point := by
      refine ⟨hu, ?_, ?_, k1, k11, k12, hvx⟩
      · intro k h1 h2
        rcases le_or_gt (ed k).1 u with h | h
        · exact .inl h
        · exact .inr (hle (evL ed k) ⟨k, h1, h2, .inl rfl⟩ h)
      · intro k h1 h2
        rcases le_or_gt (ed k).2 u with h | h
        · exact .inl h
        · exact .inr (hle (evR ed k) ⟨k, h1, h2, .inr rfl⟩ h)
    obtain ⟨k2, k21, k22, hne, hk2, hun⟩ := E.deg k1 k11 k12 _ hvx
    obtain ⟨e2, hk2e, hk2v⟩ : ∃ e2, (e2 = evL ed k2 ∨ e2 = evR ed k2) ∧ e2.point = e1.point := by
      rcases hk2 with h | h
      · exact ⟨evL ed k2, .inl rfl, h.symm⟩
      · exact ⟨evR ed k2, .inr rfl, h.symm⟩
    have key : ∀ k (e : Event K), e = evL ed k ∨ e = evR ed k → e.segmentKey = k := by
      rintro k e (rfl | rfl) <;> rfl
    have huniq : ∀ e, IsEv n ed e → e.point = e1.point → e = e1 ∨ e = e2 := by
      rintro e ⟨k, h1, h2, hk⟩ hv
      have hx : EndOf (ed k) e1.point := by rw [← hv]; rcases hk with rfl | rfl; exacts [.inl rfl, .inr rfl]
      have same : ∀ e' : Event K, (e' = evL ed k ∨ e' = evR ed k) → e'.point = e.point → e = e' := by
        intro e' he' hp
        rcases hk with rfl | rfl <;> rcases he' with rfl | rfl
        · rfl
        · exact absurd hp (E.lt k h1 h2).ne'
        · exact absurd hp (E.lt k h1 h2).ne
        · rfl
      rcases hun k h1 h2 hx with rfl | rfl
      · exact .inl (same e1 hk1 hv.symm)
      · exact .inr (same e2 hk2e (hk2v.trans hv.symm))
    have h12 : e1 ≠ e2 := by
      intro he
      apply hne
      rw [← key k1 e1 hk1, ← key k2 e2 hk2e, he]
    have hm2 : e2 ∈ l := by
      rcases List.mem_cons.1 ((hmem e2).2 ⟨⟨k2, k21, k22, hk2e⟩, hk2v ▸ hu⟩) with h | h
      · exact absurd h.symm h12
      · exact h
    rw [List.nodup_cons] at hnd
    match l, hm2 with
    | e3 :: l, hm2 =>
      rw [List.nodup_cons] at hnd
      rw [List.pairwise_cons] at hs
      obtain ⟨i3, u3⟩ := (hmem e3).1 (by simp)
      have h3 : e3 = e2 := by
        have h3v : e3.point = e1.point := by
          refine le_antisymm ?_ (hs.1 e3 (by simp))
          rcases List.mem_cons.1 hm2 with rfl | hm
          · exact hk2v.le
          · exact hk2v ▸ hs.2.1 e2 hm
        rcases huniq e3 i3 h3v with h | h
        · exact absurd (by rw [h]; simp) hnd.1
        · exact h
      subst h3
      refine ⟨_, hnext, e1, e3, l, rfl, h12, rfl, hk2v, ⟨k1, k11, k12, hk1⟩, i3, List.nodup_reverse.2 hnd.2.2, ?_,
        List.pairwise_reverse.2 hs.2.2⟩
      intro e
      rw [List.mem_reverse]
      constructor
      · intro he
        obtain ⟨ie, ue⟩ := (hmem e).1 (by simp [he])
        refine ⟨ie, lt_of_le_of_ne (hs.1 e (by simp [he])) ?_⟩
        intro hv
        rcases huniq e ie hv.symm with rfl | rfl
        · exact hnd.1 (by simp [he])
        · exact hnd.2.1 he
      · rintro ⟨ie, ve⟩
        have := (hmem e).2 ⟨ie, hu.trans ve⟩
        rcases List.mem_cons.1 this with rfl | h
        · exact absurd ve (lt_irrefl _)
        · rcases List.mem_cons.1 h with rfl | h
          · rw [hk2v] at ve; exact absurd ve (lt_irrefl _)
          · exact h

/-! ## The parts of `process_event` -/

/-- The far end of the edge of an event. -/
def far (ed : Nat → Sg K) (e : Event K) : Pt K := if e.ty = .lineLeft then (ed e.segmentKey).2 else (ed e.segmentKey).1

def wdOf (b : Bool) : Winding := if b then .clockwise else .counterClockwise

theorem interior_eq (k : Nat) (l : LineOrPoint K) (h : Option (Helper K)) : Seg.interiorWinding ⟨k, l, h⟩ = wdOf h.isSome := rfl

theorem classify_eq {e1 e2 : Event K} (h1 : IsEv n ed e1) (h2 : IsEv n ed e2) :
    classify (sl n ed c hp) v e1 e2 =
      (vertexType e1.ty e2.ty (windingOfOrientation (orient2d (far ed e1) v (far ed e2))) (wdOf (hp e1.segmentKey).isSome)).map fun ty =>
        ⟨ty, e1, e2, far ed e1, far ed e2, orient2d (far ed e1) v (far ed e2), wdOf (hp e1.segmentKey).isSome⟩ := by
  obtain ⟨k1, k11, k12, rfl | rfl⟩ := h1 <;> obtain ⟨k2, k21, k22, rfl | rfl⟩ := h2 <;>
    simp only [classify, evL, evR, sl_get k11 k12, sl_get k21 k22, Option.bind_eq_bind, Option.bind_some, otherEnd, far, interior_eq,
      if_true, reduceCtorEq, if_false, LineOrPoint.toLine, Option.map_eq_bind] <;> rfl

/-- The helpers after the removal of edge `k`, and the link that is reported. -/
def dropMerge (hp : Nat → Option (Helper K)) (k : Nat) : Nat → Option (Helper K) :=
  match hp k with
  | some h => if h.isMerge then Function.update hp k (some { h with isMerge := false }) else hp
  | none => hp

def mergeLinks (v : Pt K) (o : Option (Helper K)) : List (Link K) :=
  match o with
  | some h => if h.isMerge then [.merge h.point v none] else []
  | none => []

theorem dropMerge_isSome (hp : Nat → Option (Helper K)) (k i : Nat) : (dropMerge hp k i).isSome = (hp i).isSome := by
  unfold dropMerge
  cases h : hp k with
  | none => rfl
  | some x =>
    simp only
    split_ifs
    · by_cases e : i = k
      · subst e; simp [h]
      · rw [Function.update_of_ne e]
    · rfl

theorem dropMerge_ne (hp : Nat → Option (Helper K)) {k i : Nat} (hi : i ≠ k) : dropMerge hp k i = hp i := by
  unfold dropMerge
  cases h : hp k with
  | none => rfl
  | some x =>
    simp only
    split_ifs
    · rw [Function.update_of_ne hi]
    · rfl

theorem remove_left (sw : Sweep K) (links : List (Link K)) (k : Nat) : handleRemove v sw links (evL ed k) = some (sw, links) := by
  rw [handleRemove, if_pos (by simp [evL])]

theorem remove_right (E : Edges n ed top) {ev : List (Event K)} {B T : List Nat} {k : Nat} (hr : ∀ a ∈ B ++ k :: T, 1 ≤ a ∧ a ≤ n)
    (hs : (B ++ k :: T).Pairwise fun i j => (ed i).Lt (ed j)) (links : List (Link K)) :
    handleRemove v ⟨sl n ed c hp, ev, B ++ k :: T⟩ links (evR ed k) =
      some (⟨sl n ed c (dropMerge hp k), ev, B ++ T⟩, links ++ mergeLinks v (hp k)) := by
  obtain ⟨k1, k2⟩ := hr k (by simp)
  rw [handleRemove, if_neg (by simp [evR])]
  simp only [evR, sl_get k1 k2, Option.bind_eq_bind, Option.bind_some, dropMerge, mergeLinks]
  cases h : hp k with
  | none => simp [removeKey_spec E hr hs]
  | some x =>
    simp only
    by_cases hm : x.isMerge = true
    · simp only [hm, if_true, sl_set k1 k2, removeKey_spec E hr hs, Option.bind_some]; rfl
    · simp [hm, removeKey_spec E hr hs]

theorem insert_right (sw : Sweep K) (k : Nat) : handleInsert sw (evR ed k) = some sw := by
  rw [handleInsert, if_pos (by simp [evR])]

theorem insert_left (E : Edges n ed top) {ev : List (Event K)} {B T : List Nat} {k : Nat} (hr : ∀ a ∈ B ++ k :: T, 1 ≤ a ∧ a ≤ n)
    (hB : ∀ a ∈ B, (ed a).Lt (ed k)) (hT : ∀ a ∈ T, (ed k).Lt (ed a)) :
    handleInsert ⟨sl n ed c hp, ev, B ++ T⟩ (evL ed k) = some ⟨sl n ed c hp, ev, B ++ k :: T⟩ := by
  rw [handleInsert, if_neg (by simp [evL])]
  simp [evL, addKey_spec E hr hB hT]

theorem fixUp_spec {ev : List (Event K)} {B T : List Nat} {t : Nat} {h : Helper K} (hB : ∀ k ∈ B, 1 ≤ k ∧ k ≤ n ∧ Passes v (ed k))
    (hT : ∀ k ∈ t :: T, 1 ≤ k ∧ k ≤ n ∧ (ed k).1 < v ∧ v < (ed k).2 ∧ det (ed k).1 (ed k).2 v < 0) (ht : hp t = some h)
    (ixn : Ixn K) (links : List (Link K)) (force isMerge : Bool) :
    fixUp v ixn ⟨sl n ed v hp, ev, B ++ t :: T⟩ links force isMerge =
      some (⟨sl n ed v (Function.update hp t (some ⟨v, isMerge⟩)), ev, B ++ t :: T⟩,
        if h.isMerge || force then
          links ++ [if h.isMerge then
              .merge h.point v (some (if ixn.interior ≠ .clockwise then (ixn.other1, ixn.other2) else (ixn.other2, ixn.other1)))
            else .split h.point v (if ixn.interior ≠ .clockwise then ixn.other1 else ixn.other2)
              (if ixn.interior ≠ .clockwise then ixn.other2 else ixn.other1)]
        else links) := by
  obtain ⟨k1, k2, -⟩ := hT t (by simp)
  simp only [fixUp, nextKey_spec hB hT, List.head?_cons, Option.bind_eq_bind, Option.bind_some, sl_get k1 k2, ht, sl_set k1 k2]
  cases force <;> cases isMerge <;> cases hm : h.isMerge <;> by_cases hc : ixn.interior = .clockwise <;> simp [hc]

theorem HInv.change {gs gs' : List (Gap K)} {hp' : Nat → Option (Helper K)} (h : HInv n ed top u gs hp) (hv : Next n ed u v)
    (h1 : ∀ k, (hp' k).isSome = (hp k).isSome) (h2 : ∀ k, 1 ≤ k → k ≤ n → v < (ed k).1 → hp' k = hp k)
    (h3 : ∀ g ∈ gs', hp' g.t = some ⟨g.h, g.mg⟩) : HInv n ed top v gs' hp' where
  lab k k1 k2 := by rw [h1]; exact h.lab k k1 k2
  fresh k k1 k2 ht hl := by rw [h2 k k1 k2 hl]; exact h.fresh k k1 k2 ht (hv.lt.trans hl)
  gap := h3

/-- The two events at `v`, from the edges that end and start there. -/
theorem events_shape {M N : List Nat} {e1 e2 : Event K} (hM : ∀ k, k ∈ M ↔ 1 ≤ k ∧ k ≤ n ∧ (ed k).2 = v)
    (hN : ∀ k, k ∈ N ↔ 1 ≤ k ∧ k ≤ n ∧ (ed k).1 = v) (h1 : IsEv n ed e1) (h2 : IsEv n ed e2) (v1 : e1.point = v) (v2 : e2.point = v) :
    ((∃ k ∈ M, e1 = evR ed k) ∨ ∃ k ∈ N, e1 = evL ed k) ∧ ((∃ k ∈ M, e2 = evR ed k) ∨ ∃ k ∈ N, e2 = evL ed k) := by
  have : ∀ e : Event K, IsEv n ed e → e.point = v → (∃ k ∈ M, e = evR ed k) ∨ ∃ k ∈ N, e = evL ed k := by
    rintro e ⟨k, k1, k2, rfl | rfl⟩ hv
    · exact .inr ⟨k, (hN k).2 ⟨k1, k2, hv⟩, rfl⟩
    · exact .inl ⟨k, (hM k).2 ⟨k1, k2, hv⟩, rfl⟩
  exact ⟨this e1 h1 v1, this e2 h2 v2⟩

theorem shape_ll {i j : Nat} {e1 e2 : Event K} (s1 : (∃ k ∈ ([] : List Nat), e1 = evR ed k) ∨ ∃ k ∈ [i, j], e1 = evL ed k)
    (s2 : (∃ k ∈ ([] : List Nat), e2 = evR ed k) ∨ ∃ k ∈ [i, j], e2 = evL ed k) (h : e1 ≠ e2) :
    (e1 = evL ed i ∧ e2 = evL ed j) ∨ (e1 = evL ed j ∧ e2 = evL ed i) := by
  simp only [List.not_mem_nil, false_and, exists_false, false_or, List.mem_cons, or_false, exists_eq_or_imp, exists_eq_left] at s1 s2
  rcases s1 with rfl | rfl <;> rcases s2 with rfl | rfl
  · exact absurd rfl h
  · exact .inl ⟨rfl, rfl⟩
  · exact .inr ⟨rfl, rfl⟩
  · exact absurd rfl h

theorem shape_rr {i j : Nat} {e1 e2 : Event K} (s1 : (∃ k ∈ [i, j], e1 = evR ed k) ∨ ∃ k ∈ ([] : List Nat), e1 = evL ed k)
    (s2 : (∃ k ∈ [i, j], e2 = evR ed k) ∨ ∃ k ∈ ([] : List Nat), e2 = evL ed k) (h : e1 ≠ e2) :
    (e1 = evR ed i ∧ e2 = evR ed j) ∨ (e1 = evR ed j ∧ e2 = evR ed i) := by
  simp only [List.not_mem_nil, false_and, exists_false, or_false, List.mem_cons, exists_eq_or_imp, exists_eq_left] at s1 s2
  rcases s1 with rfl | rfl <;> rcases s2 with rfl | rfl
  · exact absurd rfl h
  · exact .inl ⟨rfl, rfl⟩
  · exact .inr ⟨rfl, rfl⟩
  · exact absurd rfl h

theorem shape_rl {i j : Nat} {e1 e2 : Event K} (s1 : (∃ k ∈ [i], e1 = evR ed k) ∨ ∃ k ∈ [j], e1 = evL ed k)
    (s2 : (∃ k ∈ [i], e2 = evR ed k) ∨ ∃ k ∈ [j], e2 = evL ed k) (h : e1 ≠ e2) :
    (e1 = evR ed i ∧ e2 = evL ed j) ∨ (e1 = evL ed j ∧ e2 = evR ed i) := by
  simp only [List.mem_cons, List.not_mem_nil, or_false, exists_eq_left] at s1 s2
  rcases s1 with rfl | rfl <;> rcases s2 with rfl | rfl
  · exact absurd rfl h
  · exact .inl ⟨rfl, rfl⟩
  · exact .inr ⟨rfl, rfl⟩
  · exact absurd rfl h

theorem mergeLinks_some (v p : Pt K) (b : Bool) : mergeLinks v (some ⟨p, b⟩) = if b then [.merge p v none] else [] := rfl

theorem assemble {sw : Sweep K} {e1 e2 : Event K} {rest : List (Event K)} (h : sw.events.reverse = e1 :: e2 :: rest)
    (v1 : e1.point = v) (v2 : e2.point = v) (hr : ∀ e ∈ rest, e.point ≠ v) (ie1 : IsEv n ed e1) (ie2 : IsEv n ed e2)
    (hseg : sw.segments = sl n ed c hp) {ty : VertexType} {hp1 hp2 hp3 : Nat → Option (Helper K)} {A1 A2 A3 A4 : List Nat}
    {L1 L2 L3 : List (Link K)}
    (hty : vertexType e1.ty e2.ty (windingOfOrientation (orient2d (far ed e1) v (far ed e2))) (wdOf (hp e1.segmentKey).isSome) = some ty)
    (r1 : handleRemove v ⟨sl n ed v hp, rest.reverse, sw.active⟩ [] e1 = some (⟨sl n ed v hp1, rest.reverse, A1⟩, L1))
    (r2 : handleRemove v ⟨sl n ed v hp1, rest.reverse, A1⟩ L1 e2 = some (⟨sl n ed v hp2, rest.reverse, A2⟩, L2))
    (hsome : ∀ k, (hp2 k).isSome = (hp k).isSome)
    (hc : ty = .cont → (hp e1.segmentKey).isSome = (hp e2.segmentKey).isSome)
    (r3 : handleVertex v ⟨ty, e1, e2, far ed e1, far ed e2, orient2d (far ed e1) v (far ed e2), wdOf (hp e1.segmentKey).isSome⟩
      (wdOf (hp e1.segmentKey).isSome) ⟨sl n ed v hp2, rest.reverse, A2⟩ L2 = some (⟨sl n ed v hp3, rest.reverse, A2⟩, L3))
    (i1 : handleInsert ⟨sl n ed v hp3, rest.reverse, A2⟩ e1 = some ⟨sl n ed v hp3, rest.reverse, A3⟩)
    (i2 : handleInsert ⟨sl n ed v hp3, rest.reverse, A3⟩ e2 = some ⟨sl n ed v hp3, rest.reverse, A4⟩) :
    processEvent sw = some (⟨sl n ed v hp3, rest.reverse, A4⟩, some ⟨v, ty, L3⟩) := by
  have hst : storePoint { sw with events := rest.reverse } v = ⟨sl n ed v hp, rest.reverse, sw.active⟩ := by
    simp only [storePoint, hseg, sl_store]
  rw [processEvent_eq h v1 v2 hr, hst, hseg, classify_eq ie1 ie2, hty]
  obtain ⟨k1, k11, k12, hk1⟩ := ie1
  obtain ⟨k2, k21, k22, hk2⟩ := ie2
  have e1k : e1.segmentKey = k1 := by rcases hk1 with rfl | rfl <;> rfl
  have e2k : e2.segmentKey = k2 := by rcases hk2 with rfl | rfl <;> rfl
  simp only [Option.map_some, Option.bind_some, r1, r2, e1k, e2k] at r3 hc ⊢
  simp only [sl_get k11 k12, sl_get k21 k22, Option.bind_some, interior_eq, hsome]
  rw [if_neg]
  · simp only [r3, Option.bind_some, i1, i2]
  · rintro ⟨h1, h2⟩
    exact h2 (by rw [hc h1])

/-- Two edges that start at `v` are inserted, in either order. -/
theorem insert_two (E : Edges n ed top) {ev : List (Event K)} {B T : List Nat} {i j : Nat}
    (hr : ∀ a ∈ B ++ i :: j :: T, 1 ≤ a ∧ a ≤ n) (hs : (B ++ i :: j :: T).Pairwise fun i j => (ed i).Lt (ed j)) {e1 e2 : Event K}
    (he : (e1 = evL ed i ∧ e2 = evL ed j) ∨ (e1 = evL ed j ∧ e2 = evL ed i)) :
    ∃ A, handleInsert ⟨sl n ed c hp, ev, B ++ T⟩ e1 = some ⟨sl n ed c hp, ev, A⟩ ∧
      handleInsert ⟨sl n ed c hp, ev, A⟩ e2 = some ⟨sl n ed c hp, ev, B ++ i :: j :: T⟩ := by
  rw [List.pairwise_append, List.pairwise_cons, List.pairwise_cons] at hs
  obtain ⟨-, ⟨hi, hj, -⟩, hB⟩ := hs
  rcases he with ⟨rfl, rfl⟩ | ⟨rfl, rfl⟩
  · refine ⟨B ++ i :: T, insert_left E (fun a ha => hr a (by simp at ha ⊢; tauto)) (fun a ha => hB a ha i (by simp))
      (fun a ha => hi a (by simp [ha])), ?_⟩
    have := insert_left (c := c) (hp := hp) (ev := ev) E (B := B ++ [i]) (T := T) (k := j) (by simpa using hr)
      (by
        intro a ha
        rcases List.mem_append.1 ha with ha | ha
        · exact hB a ha j (by simp)
        · simp at ha; subst ha; exact hi j (by simp)) hj
    simpa using this
  · exact ⟨B ++ j :: T, insert_left E (fun a ha => hr a (by simp at ha ⊢; tauto)) (fun a ha => hB a ha j (by simp)) hj,
      insert_left E hr (fun a ha => hB a ha i (by simp)) hi⟩

theorem dropMerge_none {k : Nat} (h : hp k = none) : dropMerge hp k = hp := by
  unfold dropMerge; rw [h]

/-- Two edges that end at `v` are removed, in either order; one of them has no helper. -/
theorem remove_two (E : Edges n ed top) {ev : List (Event K)} {B T : List Nat} {i j : Nat}
    (hr : ∀ a ∈ B ++ i :: j :: T, 1 ≤ a ∧ a ≤ n) (hs : (B ++ i :: j :: T).Pairwise fun i j => (ed i).Lt (ed j)) {e1 e2 : Event K}
    (he : (e1 = evR ed i ∧ e2 = evR ed j) ∨ (e1 = evR ed j ∧ e2 = evR ed i)) {k : Nat}
    (hk : k = i ∧ hp j = none ∨ k = j ∧ hp i = none) :
    ∃ hp1 A L, handleRemove v ⟨sl n ed c hp, ev, B ++ i :: j :: T⟩ [] e1 = some (⟨sl n ed c hp1, ev, A⟩, L) ∧
      handleRemove v ⟨sl n ed c hp1, ev, A⟩ L e2 = some (⟨sl n ed c (dropMerge hp k), ev, B ++ T⟩, mergeLinks v (hp k)) := by
  have hij : i ≠ j := by
    rintro rfl
    rw [List.pairwise_append, List.pairwise_cons] at hs
    obtain ⟨h1, h2⟩ := hr i (by simp)
    have := hs.2.1.1 i (by simp)
    exact lt_asymm (E.lt i h1 h2) (E.lt i h1 h2) this this
  have hsi : (B ++ i :: T).Pairwise fun i j => (ed i).Lt (ed j) :=
    hs.sublist (List.Sublist.append_left (List.Sublist.cons_cons i (List.sublist_cons_self j T)) B)
  have hsj : (B ++ j :: T).Pairwise fun i j => (ed i).Lt (ed j) :=
    hs.sublist (List.Sublist.append_left (List.sublist_cons_self i (j :: T)) B)
  have hri : ∀ a ∈ B ++ i :: T, 1 ≤ a ∧ a ≤ n := fun a ha => hr a (by simp at ha ⊢; tauto)
  have hrj : ∀ a ∈ B ++ j :: T, 1 ≤ a ∧ a ≤ n := fun a ha => hr a (by simp at ha ⊢; tauto)
  have ij : (B ++ [i]) ++ j :: T = B ++ i :: j :: T := by simp
  have rj : ∀ L, handleRemove v ⟨sl n ed c hp, ev, B ++ i :: j :: T⟩ L (evR ed j) =
      some (⟨sl n ed c (dropMerge hp j), ev, B ++ i :: T⟩, L ++ mergeLinks v (hp j)) := by
    intro L
    have := remove_right (v := v) (c := c) (hp := hp) (ev := ev) E (B := B ++ [i]) (T := T) (k := j) (by rw [ij]; exact hr)
      (by rw [ij]; exact hs) L
    simpa using this
  rcases he with ⟨rfl, rfl⟩ | ⟨rfl, rfl⟩ <;> rcases hk with ⟨rfl, hn⟩ | ⟨rfl, hn⟩
  · refine ⟨_, _, _, remove_right E hr hs [], ?_⟩
    rw [remove_right E hrj hsj]
    have : dropMerge hp k j = none := by rw [dropMerge_ne hp hij.symm]; exact hn
    simp [dropMerge_none this, this, mergeLinks]
  · refine ⟨_, _, _, remove_right E hr hs [], ?_⟩
    rw [remove_right E hrj hsj]
    simp [dropMerge_none hn, hn, mergeLinks]
  · refine ⟨_, _, _, rj [], ?_⟩
    rw [remove_right E hri hsi]
    simp [dropMerge_none hn, hn, mergeLinks]
  · refine ⟨_, _, _, rj [], ?_⟩
    rw [remove_right E hri hsi]
    have : dropMerge hp k i = none := by rw [dropMerge_ne hp hij]; exact hn
    simp [dropMerge_none this, this, mergeLinks]

theorem remove_one (E : Edges n ed top) {ev : List (Event K)} {B T : List Nat} {i j : Nat}
    (hr : ∀ a ∈ B ++ i :: T, 1 ≤ a ∧ a ≤ n) (hs : (B ++ i :: T).Pairwise fun i j => (ed i).Lt (ed j)) {e1 e2 : Event K}
    (he : (e1 = evR ed i ∧ e2 = evL ed j) ∨ (e1 = evL ed j ∧ e2 = evR ed i)) :
    ∃ hp1 A L, handleRemove v ⟨sl n ed c hp, ev, B ++ i :: T⟩ [] e1 = some (⟨sl n ed c hp1, ev, A⟩, L) ∧
      handleRemove v ⟨sl n ed c hp1, ev, A⟩ L e2 = some (⟨sl n ed c (dropMerge hp i), ev, B ++ T⟩, mergeLinks v (hp i)) := by
  rcases he with ⟨rfl, rfl⟩ | ⟨rfl, rfl⟩
  · exact ⟨_, _, _, remove_right E hr hs [], by rw [remove_left, List.nil_append]⟩
  · exact ⟨_, _, _, remove_left _ _ _, by rw [remove_right E hr hs, List.nil_append]⟩

theorem insert_one (E : Edges n ed top) {ev : List (Event K)} {B T : List Nat} {i j : Nat}
    (hr : ∀ a ∈ B ++ j :: T, 1 ≤ a ∧ a ≤ n) (hs : (B ++ j :: T).Pairwise fun i j => (ed i).Lt (ed j)) {e1 e2 : Event K}
    (he : (e1 = evR ed i ∧ e2 = evL ed j) ∨ (e1 = evL ed j ∧ e2 = evR ed i)) :
    ∃ A, handleInsert ⟨sl n ed c hp, ev, B ++ T⟩ e1 = some ⟨sl n ed c hp, ev, A⟩ ∧
      handleInsert ⟨sl n ed c hp, ev, A⟩ e2 = some ⟨sl n ed c hp, ev, B ++ j :: T⟩ := by
  rw [List.pairwise_append, List.pairwise_cons] at hs
  have := insert_left (c := c) (hp := hp) (ev := ev) E hr (fun a ha => hs.2.2 a ha j (by simp)) hs.2.1.1
  rcases he with ⟨rfl, rfl⟩ | ⟨rfl, rfl⟩
  · exact ⟨_, insert_right _ _, this⟩
  · exact ⟨_, this, insert_right _ _⟩

theorem insert_none {sw : Sweep K} {i j : Nat} {e1 e2 : Event K}
    (he : (e1 = evR ed i ∧ e2 = evR ed j) ∨ (e1 = evR ed j ∧ e2 = evR ed i)) : handleInsert sw e1 = some sw ∧ handleInsert sw e2 = some sw := by
  rcases he with ⟨rfl, rfl⟩ | ⟨rfl, rfl⟩ <;> exact ⟨insert_right _ _, insert_right _ _⟩

theorem gaps_t_ne {G1 G2 : List (Gap K)} {g : Gap K} (hnd : (flat (G1 ++ g :: G2)).Nodup) : ∀ g' ∈ G1 ++ G2, g'.t ≠ g.t := by
  intro g' hg' he
  rw [flat_append, flat_cons, List.nodup_append] at hnd
  rcases List.mem_append.1 hg' with h | h
  · exact hnd.2.2 g'.t (mem_flat_of h).2 g.t (by simp) he
  · have := hnd.2.1
    simp only [List.nodup_cons] at this
    exact this.2.1 (he ▸ (mem_flat_of h).2)

set_option maxHeartbeats 2000000 in
/-- **One call of `process_event`**: it returns, and reports what happens to the gaps. -/
theorem SInv.step (E : Edges n ed top) {gs : List (Gap K)} {sw : Sweep K} (hI : GInv n ed top u gs) (hS : SInv n ed top u gs sw)
    (hne : sw.events ≠ []) :
    ∃ v gs' sw' ev, Next n ed u v ∧ GInv n ed top v gs' ∧ SInv n ed top v gs' sw' ∧ processEvent sw = some (sw', some ev) ∧
      ev.pt = v ∧ LStep n ed top v gs ev.ty ev.links gs' ∧ sw'.events.length + 2 = sw.events.length := by
  obtain ⟨v, hv, e1, e2, rest, hrev, h12, v1, v2, ie1, ie2, rnd, rmem, rsort⟩ := hS.next E hne
  obtain ⟨B, M, N, T, gs', hG, hI', hfl, hB, hM, hT, hN⟩ := hI.step E hv
  obtain ⟨c, hp, hseg, hH⟩ := hS.segs
  have hrest : ∀ e ∈ rest, e.point ≠ v := fun e he h => by
    have := ((rmem e).1 (by simpa using he)).2
    rw [h] at this; exact lt_irrefl _ this
  have hlen : rest.reverse.length + 2 = sw.events.length := by
    rw [← List.length_reverse (as := sw.events), hrev]; simp
  have hr : ∀ a ∈ B ++ M ++ T, 1 ≤ a ∧ a ≤ n := by
    intro a ha
    rw [← hfl] at ha
    obtain ⟨h1, h2, -⟩ := (hI.act.mem a).1 ha
    exact ⟨h1, h2⟩
  have hsrt : (B ++ M ++ T).Pairwise fun i j => (ed i).Lt (ed j) := hfl ▸ hI.act.sorted
  have hnd : (flat gs).Nodup := hI.act.nodup E
  have hBB := fun k hk => (hB k).1 hk
  have hTT := fun k hk => (hT k).1 hk
  have hr' : ∀ k ∈ flat gs', 1 ≤ k ∧ k ≤ n := by
    intro a ha
    obtain ⟨h1, h2, -⟩ := (hI'.act.mem a).1 ha
    exact ⟨h1, h2⟩
  have hs' := hI'.act.sorted
  have asm := @assemble K _ _ _ n ed v c hp sw e1 e2 rest hrev v1 v2 hrest ie1 ie2 hseg
  have hact : sw.active = B ++ M ++ T := hS.active.trans hfl
  rw [hact] at asm
  have done : ∀ (hp' : Nat → Option (Helper K)) (ty : VertexType) (links : List (Link K)),
      processEvent sw = some (⟨sl n ed v hp', rest.reverse, flat gs'⟩, some ⟨v, ty, links⟩) →
      (∀ k, (hp' k).isSome = (hp k).isSome) → (∀ k, 1 ≤ k → k ≤ n → v < (ed k).1 → hp' k = hp k) →
      (∀ g ∈ gs', hp' g.t = some ⟨g.h, g.mg⟩) → LStep n ed top v gs ty links gs' →
      ∃ v gs' sw' ev, Next n ed u v ∧ GInv n ed top v gs' ∧ SInv n ed top v gs' sw' ∧ processEvent sw = some (sw', some ev) ∧
        ev.pt = v ∧ LStep n ed top v gs ev.ty ev.links gs' ∧ sw'.events.length + 2 = sw.events.length := by
    intro hp' ty links hpr h1 h2 h3 hL
    exact ⟨v, gs', _, _, hv, hI', ⟨⟨v, hp', rfl, hH.change hv h1 h2 h3⟩, rfl, rnd, rmem, rsort⟩, hpr, rfl, hL, hlen⟩
  obtain ⟨s1, s2⟩ := events_shape hM hN ie1 ie2 v1 v2
  have lab := hH.lab
  have none_of : ∀ k, 1 ≤ k → k ≤ n → top k = false → hp k = none := by
    intro k h1 h2 h
    have := lab k h1 h2
    rw [h] at this
    exact Option.not_isSome_iff_eq_none.1 (by simp [this])
  have hgap := hH.gap
  have lt_of : ∀ k ∈ flat gs, (ed k).1 < v := fun k hk => (hI.act.spans hv hk).2.2.1
  cases hG with
  | start G1 G2 i j hi hj hd =>
    obtain ⟨i1, i2, i3⟩ := (hN i).1 (by simp)
    obtain ⟨j1, j2, j3⟩ := (hN j).1 (by simp)
    have li := none_of i i1 i2 hi
    have lj := hH.fresh j j1 j2 hj (by rw [j3]; exact hv.lt)
    have he := shape_ll s1 s2 h12
    obtain ⟨A, q1, q2⟩ := insert_two (c := v) (hp := hp) (ev := rest.reverse) E (B := flat G1) (T := flat G2) (i := i) (j := j)
      (by simpa using hr') (by simpa using hs') he
    have hd' : det (ed i).2 v (ed j).2 < 0 := by
      have : det (ed i).2 v (ed j).2 = - det v (ed i).2 (ed j).2 := by unfold det; ring
      rw [this]; linarith
    have hd'' : 0 < det (ed j).2 v (ed i).2 := by
      have : det (ed j).2 v (ed i).2 = det v (ed i).2 (ed j).2 := by unfold det; ring
      rw [this]; exact hd
    refine done hp .start [.start v (ed j).2 (ed i).2] ?_ (fun _ => rfl) (fun _ _ _ _ => rfl) ?_
      (.start G1 G2 i j ⟨i1, i2⟩ ⟨j1, j2⟩ i3 j3 hi hj hd)
    · rcases he with ⟨rfl, rfl⟩ | ⟨rfl, rfl⟩
      · have := asm (ty := .start) (hp1 := hp) (hp2 := hp) (hp3 := hp) (L1 := []) (L2 := []) (A1 := flat G1 ++ flat G2)
          (L3 := [.start v (ed j).2 (ed i).2])
          (by simp [evL, far, vertexType, (orient2d_cw _ _ _).2 hd', windingOfOrientation, li, wdOf])
          (by rw [remove_left]; simp) (remove_left _ _ _) (fun _ => rfl) (by simp)
          (by simp [handleVertex, far, evL, li, wdOf]) q1 q2
        simpa using this
      · have := asm (ty := .start) (hp1 := hp) (hp2 := hp) (hp3 := hp) (L1 := []) (L2 := []) (A1 := flat G1 ++ flat G2)
          (L3 := [.start v (ed j).2 (ed i).2])
          (by simp [evL, far, vertexType, (orient2d_ccw _ _ _).2 hd'', windingOfOrientation, lj, wdOf])
          (by rw [remove_left]; simp) (remove_left _ _ _) (fun _ => rfl) (by simp)
          (by simp [handleVertex, far, evL, lj, wdOf]) q1 q2
        simpa using this
    · intro g hg
      rcases List.mem_append.1 hg with hg | hg
      · exact hgap g (by simp [hg])
      · rcases List.mem_cons.1 hg with rfl | hg
        · rw [lj, j3]
        · exact hgap g (by simp [hg])
  | split G1 g G2 i j hi hj hd hsel =>
    obtain ⟨i1, i2, i3⟩ := (hN i).1 (by simp)
    obtain ⟨j1, j2, j3⟩ := (hN j).1 (by simp)
    have lj := none_of j j1 j2 hj
    have li := hH.fresh i i1 i2 hi (by rw [i3]; exact hv.lt)
    have he := shape_ll s1 s2 h12
    have ht := hgap g (by simp)
    have fx := fun (ixn : Ixn K) => fixUp_spec (ev := rest.reverse) hBB hTT ht ixn [] true false
    obtain ⟨A, q1, q2⟩ := insert_two (c := v) (hp := Function.update hp g.t (some ⟨v, false⟩)) (ev := rest.reverse) E
      (B := flat G1 ++ [g.b]) (T := g.t :: flat G2) (i := i) (j := j)
      (by simpa using hr') (by simpa using hs') he
    have hd' : det (ed i).2 v (ed j).2 < 0 := by
      have : det (ed i).2 v (ed j).2 = - det v (ed i).2 (ed j).2 := by unfold det; ring
      rw [this]; linarith
    have hd'' : 0 < det (ed j).2 v (ed i).2 := by
      have : det (ed j).2 v (ed i).2 = det v (ed i).2 (ed j).2 := by unfold det; ring
      rw [this]; exact hd
    refine done (Function.update hp g.t (some ⟨v, false⟩)) .split
      [if g.mg then .merge g.h v (some ((ed j).2, (ed i).2)) else .split g.h v (ed j).2 (ed i).2] ?_ ?_ ?_ ?_
      (.split G1 g G2 i j ⟨i1, i2⟩ ⟨j1, j2⟩ i3 j3 hi hj hd hsel)
    · rcases he with ⟨rfl, rfl⟩ | ⟨rfl, rfl⟩
      · have := asm (ty := .split) (hp1 := hp) (hp2 := hp) (L1 := []) (L2 := [])
          (A1 := flat G1 ++ [g.b] ++ g.t :: flat G2)
          (L3 := [if g.mg then .merge g.h v (some ((ed j).2, (ed i).2)) else .split g.h v (ed j).2 (ed i).2])
          (by simp [evL, far, vertexType, (orient2d_cw _ _ _).2 hd', windingOfOrientation, li, wdOf])
          (by rw [remove_left]; simp) (remove_left _ _ _) (fun _ => rfl) (by simp)
          (by simp only [handleVertex, fx]; simp [far, evL, li, wdOf]) q1 q2
        simpa using this
      · have := asm (ty := .split) (hp1 := hp) (hp2 := hp) (L1 := []) (L2 := [])
          (A1 := flat G1 ++ [g.b] ++ g.t :: flat G2)
          (L3 := [if g.mg then .merge g.h v (some ((ed j).2, (ed i).2)) else .split g.h v (ed j).2 (ed i).2])
          (by simp [evL, far, vertexType, (orient2d_ccw _ _ _).2 hd'', windingOfOrientation, lj, wdOf])
          (by rw [remove_left]; simp) (remove_left _ _ _) (fun _ => rfl) (by simp)
          (by simp only [handleVertex, fx]; simp [far, evL, lj, wdOf]) q1 q2
        simpa using this
    · intro k
      by_cases e : k = g.t
      · subst e; simp [ht]
      · rw [Function.update_of_ne e]
    · intro k _ _ hk
      rw [Function.update_of_ne]
      rintro rfl
      exact absurd (lt_of g.t (by simp)) (not_lt.2 hk.le)
    · have hnt := gaps_t_ne hnd
      intro g' hg
      have hit : i ≠ g.t := by
        rintro rfl
        have := lt_of g.t (by simp)
        rw [i3] at this; exact lt_irrefl _ this
      rcases List.mem_append.1 hg with hg | hg
      · rw [Function.update_of_ne (hnt g' (by simp [hg]))]
        exact hgap g' (by simp [hg])
      · rcases List.mem_cons.1 hg with rfl | hg
        · simp only
          rw [Function.update_of_ne hit, li, i3]
        · rcases List.mem_cons.1 hg with rfl | hg
          · simp
          · rw [Function.update_of_ne (hnt g' (by simp [hg]))]
            exact hgap g' (by simp [hg])
  | contBot G1 g G2 j hj =>
    obtain ⟨i1, i2, i3⟩ := (hM g.b).1 (by simp)
    obtain ⟨j1, j2, j3⟩ := (hN j).1 (by simp)
    have okg := hI.ok g (by simp)
    have lj := none_of j j1 j2 hj
    have li := none_of g.b i1 i2 okg.labB
    have he := shape_rl s1 s2 h12
    have ht := hgap g (by simp)
    have fx := fun (ixn : Ixn K) => fixUp_spec (ev := rest.reverse) hBB hTT ht ixn [] false false
    obtain ⟨hp1, A, L, q1, q2⟩ := remove_one (v := v) (c := v) (hp := hp) (ev := rest.reverse) E (B := flat G1) (i := g.b) (T := g.t :: flat G2)
      (by simpa using hr) (by simpa using hsrt) he
    rw [dropMerge_none li, li] at q2
    obtain ⟨A', q3, q4⟩ := insert_one (c := v) (hp := Function.update hp g.t (some ⟨v, false⟩)) (ev := rest.reverse) E
      (B := flat G1) (T := g.t :: flat G2) (i := g.b) (j := j) (by simpa using hr') (by simpa using hs') he
    have hlt : (ed g.b).1 < (ed j).2 := by
      have h1 := E.lt g.b i1 i2
      have h2 := E.lt j j1 j2
      rw [i3] at h1; rw [j3] at h2; exact h1.trans h2
    obtain ⟨limbs, w, hpr⟩ : ∃ limbs w, processEvent sw = some (⟨sl n ed v (Function.update hp g.t (some ⟨v, false⟩)), rest.reverse,
        flat (G1 ++ ⟨j, g.t, v, false⟩ :: G2)⟩,
        some ⟨v, .cont, (if g.mg then [.merge g.h v limbs] else []) ++ [.cont (ed g.b).1 v (ed j).2 w]⟩) := by
      rcases he with ⟨rfl, rfl⟩ | ⟨rfl, rfl⟩
      · refine ⟨some ((ed g.b).1, (ed j).2), .counterClockwise, ?_⟩
        have := asm (ty := .cont) (hp1 := hp1) (hp2 := hp) (L1 := L) (L2 := []) (A1 := A)
          (L3 := (if g.mg then [.merge g.h v (some ((ed g.b).1, (ed j).2))] else []) ++ [.cont (ed g.b).1 v (ed j).2 .counterClockwise])
          (by simp [evL, evR, vertexType]) (by simpa using q1) q2 (fun _ => rfl) (by simp [evL, evR, li, lj])
          (by
            simp only [handleVertex, fx]
            simp [far, evL, evR, li, wdOf, hlt.not_gt, hlt]
            cases g.mg <;> simp) q3 q4
        simpa using this
      · refine ⟨some ((ed j).2, (ed g.b).1), .counterClockwise, ?_⟩
        have := asm (ty := .cont) (hp1 := hp1) (hp2 := hp) (L1 := L) (L2 := []) (A1 := A)
          (L3 := (if g.mg then [.merge g.h v (some ((ed j).2, (ed g.b).1))] else []) ++ [.cont (ed g.b).1 v (ed j).2 .counterClockwise])
          (by simp [evL, evR, vertexType]) (by simpa using q1) q2 (fun _ => rfl) (by simp [evL, evR, li, lj])
          (by
            simp only [handleVertex, fx]
            simp [far, evL, evR, lj, wdOf, hlt]
            cases g.mg <;> simp) q3 q4
        simpa using this
    refine done (Function.update hp g.t (some ⟨v, false⟩)) .cont _ hpr ?_ ?_ ?_
      (.contBot G1 g G2 j ⟨j1, j2⟩ j3 i3 hj limbs w)
    · intro k
      by_cases e : k = g.t
      · subst e; simp [ht]
      · rw [Function.update_of_ne e]
    · intro k _ _ hk
      rw [Function.update_of_ne]
      rintro rfl
      exact absurd (lt_of g.t (by simp)) (not_lt.2 hk.le)
    · intro g' hg
      rcases List.mem_append.1 hg with hg | hg
      · rw [Function.update_of_ne (gaps_t_ne hnd g' (by simp [hg]))]
        exact hgap g' (by simp [hg])
      · rcases List.mem_cons.1 hg with rfl | hg
        · simp
        · rw [Function.update_of_ne (gaps_t_ne hnd g' (by simp [hg]))]
          exact hgap g' (by simp [hg])
  | contTop G1 g G2 j hj =>
    obtain ⟨i1, i2, i3⟩ := (hM g.t).1 (by simp)
    obtain ⟨j1, j2, j3⟩ := (hN j).1 (by simp)
    have lj := hH.fresh j j1 j2 hj (by rw [j3]; exact hv.lt)
    have he := shape_rl s1 s2 h12
    have ht := hgap g (by simp)
    obtain ⟨hp1, A, L, q1, q2⟩ := remove_one (v := v) (c := v) (hp := hp) (ev := rest.reverse) E (B := flat G1 ++ [g.b]) (i := g.t)
      (T := flat G2) (by simpa using hr) (by simpa using hsrt) he
    rw [ht, mergeLinks_some] at q2
    obtain ⟨A', q3, q4⟩ := insert_one (c := v) (hp := dropMerge hp g.t) (ev := rest.reverse) E
      (B := flat G1 ++ [g.b]) (T := flat G2) (i := g.t) (j := j) (by simpa using hr') (by simpa using hs') he
    have hlt : (ed g.t).1 < (ed j).2 := by
      have h1 := E.lt g.t i1 i2
      have h2 := E.lt j j1 j2
      rw [i3] at h1; rw [j3] at h2; exact h1.trans h2
    have hjt : j ≠ g.t := by
      rintro rfl
      have := lt_of g.t (by simp)
      rw [j3] at this; exact lt_irrefl _ this
    refine done (dropMerge hp g.t) .cont _ ?_ (dropMerge_isSome hp g.t) ?_ ?_
      (.contTop G1 g G2 j ⟨j1, j2⟩ j3 i3 hj none .clockwise)
    · rcases he with ⟨rfl, rfl⟩ | ⟨rfl, rfl⟩
      · have := asm (ty := .cont) (hp1 := hp1) (hp2 := dropMerge hp g.t) (L1 := L) (A1 := A)
          (L3 := (if g.mg then [.merge g.h v none] else []) ++ [.cont (ed g.t).1 v (ed j).2 .clockwise])
          (by simp [evL, evR, vertexType]) (by simpa using q1) q2 (dropMerge_isSome hp g.t) (by simp [evL, evR, ht, lj])
          (by simp [handleVertex, far, evL, evR, ht, wdOf, hlt.not_gt, hlt]) q3 q4
        simpa using this
      · have := asm (ty := .cont) (hp1 := hp1) (hp2 := dropMerge hp g.t) (L1 := L) (A1 := A)
          (L3 := (if g.mg then [.merge g.h v none] else []) ++ [.cont (ed g.t).1 v (ed j).2 .clockwise])
          (by simp [evL, evR, vertexType]) (by simpa using q1) q2 (dropMerge_isSome hp g.t) (by simp [evL, evR, ht, lj])
          (by simp [handleVertex, far, evL, evR, lj, wdOf, hlt]) q3 q4
        simpa using this
    · intro k _ _ hk
      rw [dropMerge_ne]
      rintro rfl
      exact absurd (lt_of g.t (by simp)) (not_lt.2 hk.le)
    · intro g' hg
      rcases List.mem_append.1 hg with hg | hg
      · rw [dropMerge_ne hp (gaps_t_ne hnd g' (by simp [hg]))]
        exact hgap g' (by simp [hg])
      · rcases List.mem_cons.1 hg with rfl | hg
        · simp only
          rw [dropMerge_ne hp hjt, lj, j3]
        · rw [dropMerge_ne hp (gaps_t_ne hnd g' (by simp [hg]))]
          exact hgap g' (by simp [hg])
  | finish G1 g G2 hd =>
    obtain ⟨i1, i2, i3⟩ := (hM g.b).1 (by simp)
    obtain ⟨j1, j2, j3⟩ := (hM g.t).1 (by simp)
    have okg := hI.ok g (by simp)
    have li := none_of g.b i1 i2 okg.labB
    have he := shape_rr s1 s2 h12
    have ht := hgap g (by simp)
    obtain ⟨hp1, A, L, q1, q2⟩ := remove_two (v := v) (c := v) (hp := hp) (ev := rest.reverse) E (B := flat G1) (i := g.b) (j := g.t)
      (T := flat G2) (by simpa using hr) (by simpa using hsrt) he (k := g.t) (.inr ⟨rfl, li⟩)
    rw [ht, mergeLinks_some] at q2
    obtain ⟨q3, q4⟩ := insert_none (sw := ⟨sl n ed v (dropMerge hp g.t), rest.reverse, flat G1 ++ flat G2⟩) he
    have hd' : det (ed g.t).1 v (ed g.b).1 < 0 := by
      have : det (ed g.t).1 v (ed g.b).1 = - det (ed g.b).1 v (ed g.t).1 := by unfold det; ring
      rw [this]; linarith
    refine done (dropMerge hp g.t) .finish _ ?_ (dropMerge_isSome hp g.t) ?_ ?_
      (.finish G1 g G2 i3 j3 none (ed g.t).1 (ed g.b).1)
    · rcases he with ⟨rfl, rfl⟩ | ⟨rfl, rfl⟩
      · have := asm (ty := .finish) (hp1 := hp1) (hp2 := dropMerge hp g.t) (L1 := L) (A1 := A)
          (L3 := (if g.mg then [.merge g.h v none] else []) ++ [.finish (ed g.t).1 (ed g.b).1 v])
          (by simp [evR, far, vertexType, (orient2d_ccw _ _ _).2 hd, windingOfOrientation, li, wdOf])
          (by simpa using q1) q2 (dropMerge_isSome hp g.t) (by simp)
          (by simp [handleVertex, far, evR, li, wdOf]) q3 q4
        simpa using this
      · have := asm (ty := .finish) (hp1 := hp1) (hp2 := dropMerge hp g.t) (L1 := L) (A1 := A)
          (L3 := (if g.mg then [.merge g.h v none] else []) ++ [.finish (ed g.t).1 (ed g.b).1 v])
          (by simp [evR, far, vertexType, (orient2d_cw _ _ _).2 hd', windingOfOrientation, ht, wdOf])
          (by simpa using q1) q2 (dropMerge_isSome hp g.t) (by simp)
          (by simp [handleVertex, far, evR, ht, wdOf]) q3 q4
        simpa using this
    · intro k _ _ hk
      rw [dropMerge_ne]
      rintro rfl
      exact absurd (lt_of g.t (by simp)) (not_lt.2 hk.le)
    · intro g' hg
      rw [dropMerge_ne hp (gaps_t_ne hnd g' hg)]
      exact hgap g' (by simp at hg ⊢; tauto)
  | merge G1 g g' G2 hd =>
    obtain ⟨i1, i2, i3⟩ := (hM g.t).1 (by simp)
    obtain ⟨j1, j2, j3⟩ := (hM g'.b).1 (by simp)
    have okg := hI.ok g' (by simp)
    have lj := none_of g'.b j1 j2 okg.labB
    have he := shape_rr s1 s2 h12
    have ht := hgap g (by simp)
    have ht' := hgap g' (by simp)
    have hne1 : g'.t ≠ g.t := gaps_t_ne hnd g' (by simp)
    have hne2 : ∀ x ∈ G1 ++ G2, x.t ≠ g'.t ∧ x.t ≠ g.t := by
      intro x hx
      refine ⟨?_, gaps_t_ne hnd x (by simp at hx ⊢; tauto)⟩
      have e : G1 ++ g :: g' :: G2 = (G1 ++ [g]) ++ g' :: G2 := by simp
      rw [e] at hnd
      exact gaps_t_ne hnd x (by simp at hx ⊢; tauto)
    obtain ⟨hp1, A, L, q1, q2⟩ := remove_two (v := v) (c := v) (hp := hp) (ev := rest.reverse) E (B := flat G1 ++ [g.b]) (i := g.t)
      (j := g'.b) (T := g'.t :: flat G2) (by simpa using hr) (by simpa using hsrt) he (k := g.t) (.inl ⟨rfl, lj⟩)
    rw [ht, mergeLinks_some] at q2
    obtain ⟨q3, q4⟩ := insert_none
      (sw := ⟨sl n ed v (Function.update (dropMerge hp g.t) g'.t (some ⟨v, true⟩)), rest.reverse, flat G1 ++ [g.b] ++ g'.t :: flat G2⟩) he
    have hd' : det (ed g'.b).1 v (ed g.t).1 < 0 := by
      have : det (ed g'.b).1 v (ed g.t).1 = - det (ed g.t).1 v (ed g'.b).1 := by unfold det; ring
      rw [this]; linarith
    have ht'' : dropMerge hp g.t g'.t = some ⟨g'.h, g'.mg⟩ := by rw [dropMerge_ne hp hne1]; exact ht'
    have fx := fun (ixn : Ixn K) (L : List (Link K)) => fixUp_spec (ev := rest.reverse) hBB hTT ht'' ixn L false true
    obtain ⟨limbs, hpr⟩ : ∃ limbs, processEvent sw = some (⟨sl n ed v (Function.update (dropMerge hp g.t) g'.t (some ⟨v, true⟩)),
        rest.reverse, flat (G1 ++ ⟨g.b, g'.t, v, true⟩ :: G2)⟩,
        some ⟨v, .merge, (if g.mg then [.merge g.h v none] else []) ++ if g'.mg then [.merge g'.h v limbs] else []⟩) := by
      rcases he with ⟨rfl, rfl⟩ | ⟨rfl, rfl⟩
      · refine ⟨some ((ed g'.b).1, (ed g.t).1), ?_⟩
        have := asm (ty := .merge) (hp1 := hp1) (hp2 := dropMerge hp g.t) (L1 := L) (A1 := A)
          (L3 := (if g.mg then [.merge g.h v none] else []) ++ if g'.mg then [.merge g'.h v (some ((ed g'.b).1, (ed g.t).1))] else [])
          (by simp [evR, far, vertexType, (orient2d_ccw _ _ _).2 hd, windingOfOrientation, ht, wdOf])
          (by simpa using q1) q2 (dropMerge_isSome hp g.t) (by simp)
          (by
            simp only [handleVertex, fx]
            simp [far, evR, ht, wdOf]
            cases g'.mg <;> simp) q3 q4
        simpa using this
      · refine ⟨some ((ed g'.b).1, (ed g.t).1), ?_⟩
        have := asm (ty := .merge) (hp1 := hp1) (hp2 := dropMerge hp g.t) (L1 := L) (A1 := A)
          (L3 := (if g.mg then [.merge g.h v none] else []) ++ if g'.mg then [.merge g'.h v (some ((ed g'.b).1, (ed g.t).1))] else [])
          (by simp [evR, far, vertexType, (orient2d_cw _ _ _).2 hd', windingOfOrientation, lj, wdOf])
          (by simpa using q1) q2 (dropMerge_isSome hp g.t) (by simp)
          (by
            simp only [handleVertex, fx]
            simp [far, evR, lj, wdOf]
            cases g'.mg <;> simp) q3 q4
        simpa using this
    refine done (Function.update (dropMerge hp g.t) g'.t (some ⟨v, true⟩)) .merge _ hpr ?_ ?_ ?_
      (.merge G1 g g' G2 i3 j3 none limbs)
    · intro k
      by_cases e : k = g'.t
      · subst e; simp [ht']
      · rw [Function.update_of_ne e, dropMerge_isSome]
    · intro k _ _ hk
      rw [Function.update_of_ne, dropMerge_ne]
      · rintro rfl
        exact absurd (lt_of g.t (by simp)) (not_lt.2 hk.le)
      · rintro rfl
        exact absurd (lt_of g'.t (by simp)) (not_lt.2 hk.le)
    · intro x hg
      rcases List.mem_append.1 hg with hg | hg
      · obtain ⟨n1, n2⟩ := hne2 x (by simp [hg])
        rw [Function.update_of_ne n1, dropMerge_ne hp n2]
        exact hgap x (by simp [hg])
      · rcases List.mem_cons.1 hg with rfl | hg
        · simp
        · obtain ⟨n1, n2⟩ := hne2 x (by simp [hg])
          rw [Function.update_of_ne n1, dropMerge_ne hp n2]
          exact hgap x (by simp [hg])

/-- At the end of the events, `process_event` reports the end, and no gap is open. -/
theorem SInv.last (_E : Edges n ed top) {gs : List (Gap K)} {sw : Sweep K} (hI : GInv n ed top u gs) (hS : SInv n ed top u gs sw)
    (hne : sw.events = []) : processEvent sw = some (sw, none) ∧ gs = [] := by
  constructor
  · simp [processEvent, getNextSegments, hne]
  · rw [List.eq_nil_iff_forall_not_mem]
    intro g hg
    obtain ⟨h1, h2, -, h4⟩ := (hI.act.mem g.b).1 (mem_flat_of hg).1
    have := (hS.mem (evR ed g.b)).2 ⟨⟨g.b, h1, h2, .inr rfl⟩, h4⟩
    rw [hne] at this
    simp at this

end GeoCrossings.Monotone

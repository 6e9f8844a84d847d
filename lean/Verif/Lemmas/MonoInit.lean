import Verif.Lemmas.MonoBase
import Verif.Lemmas.MonoRun
import Verif.Lemmas.SortBlocks
import Verif.Props.Events

/-!
# `Sweep::from_polygon` on a valid polygon, and `monotone_chains` as a whole
-/
set_option linter.unusedSectionVars false
namespace GeoCrossings.Monotone
open Spec

variable {K : Type} [Field K] [LinearOrder K] [IsStrictOrderedRing K] {R : List (List (Pt K) × Winding)}

/-! ## Sorting events -/

theorem insertBy_events (a : Event K) : ∀ {l : List (Event K)}, l.Pairwise (fun x y => Event.cmp x y ≠ .gt) →
    (insertBy (fun a b => some (Event.cmp a b)) a l).Pairwise (fun x y => Event.cmp x y ≠ .gt)
  | [], _ => by simp [insertBy]
  | b :: l, h => by
    rw [List.pairwise_cons] at h
    unfold insertBy
    by_cases k : Event.cmp a b = .gt
    · rw [if_pos (by rw [k]), List.pairwise_cons]
      refine ⟨fun x hx => ?_, insertBy_events a h.2⟩
      rcases List.mem_cons.1 ((insertBy_perm a l).mem_iff.1 hx) with rfl | hx
      · rw [Event.cmp_ne_gt]
        rcases Event.Before.total x b with h' | h'
        · exact h'
        · exact absurd k (Event.cmp_ne_gt.2 h')
      · exact h.1 x hx
    · rw [if_neg (by simpa using k), List.pairwise_cons]
      refine ⟨fun x hx => ?_, List.pairwise_cons.2 h⟩
      rcases List.mem_cons.1 hx with rfl | hx
      · exact k
      · exact Event.cmp_ne_gt.2 ((Event.cmp_ne_gt.1 (h.1 x hx)).trans (Event.cmp_ne_gt.1 k))

theorem sort_events (srt : List (Event K) → List (Event K)) (l : List (Event K)) :
    ∃ l', sortBy (fun a b => some (Event.cmp a b)) srt l = some l' ∧ l'.Perm l ∧ l'.Pairwise (fun a b => b.point ≤ a.point) := by
  have key : ∀ l' : List (Event K), l'.Pairwise (fun x y => Event.cmp x y ≠ .gt) → l'.Pairwise (fun a b => b.point ≤ a.point) := by
    intro l' h
    refine h.imp fun {a b} h => ?_
    rcases Event.cmp_ne_gt.1 h with h | ⟨h, -⟩
    · exact h.le
    · exact h.le
  unfold sortBy
  rw [if_pos (by
    rw [List.all_eq_true]; intro a _
    rw [List.all_eq_true]; intro b _
    rfl)]
  by_cases k : (srt l).isPerm l && isSortedBy (fun a b => some (Event.cmp a b)) (srt l)
  · rw [if_pos k]
    rw [Bool.and_eq_true] at k
    refine ⟨_, rfl, List.isPerm_iff.1 k.1, key _ ?_⟩
    exact (isSortedBy_iff.1 k.2).imp fun h => by simpa using h
  · rw [if_neg k]
    refine ⟨_, rfl, insertionSortBy_perm l, key _ ?_⟩
    clear k
    induction l with
    | nil => exact List.Pairwise.nil
    | cons a l ih => exact insertBy_events a ih

/-! ## The segments and events -/

def segOf (x : (Sg K × Winding) × Nat) : Seg K :=
  ⟨x.2, .line (norm x.1.1).1 (norm x.1.1).2, if lab x.1 then some ⟨(norm x.1.1).1, false⟩ else none⟩

def evsOf (x : (Sg K × Winding) × Nat) : List (Event K) := [⟨(norm x.1.1).1, .lineLeft, x.2⟩, ⟨(norm x.1.1).2, .lineRight, x.2⟩]

def build (L : List (Sg K × Winding)) : Sweep K :=
  ⟨Seg.newPoint 0 ⟨0, 0⟩ :: (L.zipIdx 1).map segOf, (L.zipIdx 1).flatMap evsOf, []⟩

theorem segNew_eq (k : Nat) (e : Sg K) (w : Winding) : Seg.new k ⟨e.1, e.2⟩ w = segOf ((e, w), k) := by
  unfold Seg.new segOf norm lab
  by_cases h : e.2 < e.1
  · simp [h]
  · simp [h]

theorem addLine_build (L : List (Sg K × Winding)) {e : Sg K} (he : e.1 ≠ e.2) (w : Winding) :
    addLine w (build L) ⟨e.1, e.2⟩ = some (build (L ++ [(e, w)])) := by
  unfold addLine
  simp only [if_neg he, segNew_eq]
  have : (build L).segments.length = 1 + L.length := by simp [build]; omega
  rw [this]
  simp [Seg.events, segOf, LineOrPoint.isLine, LineOrPoint.toLine, build, List.zipIdx_append, evsOf]

theorem ringLines_es : ∀ r : List (Pt K), ringLines r = (es r).map fun e => ⟨e.1, e.2⟩
  | [] => rfl
  | [_] => rfl
  | a :: b :: l => by rw [ringLines, es_cons, List.map_cons, ringLines_es (b :: l)]

theorem addLines_build (w : Winding) : ∀ (es : List (Sg K)) (L : List (Sg K × Winding)), (∀ e ∈ es, e.1 ≠ e.2) →
    (es.map fun e => (⟨e.1, e.2⟩ : Line K)).foldlM (addLine w) (build L) = some (build (L ++ es.map fun e => (e, w)))
  | [], L, _ => by simp
  | e :: es, L, h => by
    have ih := addLines_build w es (L ++ [(e, w)]) fun x hx => h x (by simp [hx])
    rw [List.map_cons, List.foldlM_cons, addLine_build L (h e (by simp))]
    simpa using ih

theorem addClosedRing_build {r : List (Pt K)} {w : Winding} (hole : Bool) (L : List (Sg K × Winding)) (hc : r.head? = r.getLast?)
    (h4 : 4 ≤ r.length) (hn : r.dropLast.Nodup) (hw : windingOrder r = some w) :
    addClosedRing (build L) r hole = some (build (L ++ (es r).map fun e => (e, if hole then w.inverse else w))) := by
  unfold addClosedRing
  rw [if_pos ⟨hc, by omega⟩, hw, ringLines_es]
  exact addLines_build _ _ L fun e he => es_ne hc h4 hn he

variable {ext : List (Pt K)} {holes : List (List (Pt K))}

theorem rings_build (h : ValidPolygon ext holes) :
    ((addClosedRing (⟨[Seg.newPoint 0 ⟨0, 0⟩], [], []⟩ : Sweep K) ext false).bind fun sw => holes.foldlM (fun sw r => addClosedRing sw r true) sw) =
      some (build (dir (ringsOf ext holes))) := by
  have nd : ∀ r ∈ ext :: holes, r.dropLast.Nodup := by
    have := h.distinct
    rw [List.nodup_flatMap] at this
    exact this.1
  have e0 := addClosedRing_build (w := wOf ext) false [] (h.closed ext (by simp)).1 (h.closed ext (by simp)).2 (nd ext (by simp))
    (windingOrder_valid h (by simp))
  have key : ∀ (hs : List (List (Pt K))) (L : List (Sg K × Winding)), (∀ r ∈ hs, r ∈ holes) →
      hs.foldlM (fun sw r => addClosedRing sw r true) (build L) = some (build (L ++ dir (hs.map fun h => (h, (wOf h).inverse)))) := by
    intro hs
    induction hs with
    | nil => intro L _; simp [dir]
    | cons r hs ih =>
      intro L hm
      have hr : r ∈ ext :: holes := List.mem_cons_of_mem _ (hm r (by simp))
      rw [List.foldlM_cons, addClosedRing_build true L (h.closed r hr).1 (h.closed r hr).2 (nd r hr) (windingOrder_valid h hr)]
      have := ih (L ++ (es r).map fun e => (e, (wOf r).inverse)) fun x hx => hm x (by simp [hx])
      simpa [dir] using this
  have eb : (⟨[Seg.newPoint 0 ⟨0, 0⟩], [], []⟩ : Sweep K) = build [] := rfl
  rw [eb, e0]
  have := key holes ([] ++ (es ext).map fun e => (e, if false = true then (wOf ext).inverse else wOf ext)) fun _ h => h
  simpa [dir, ringsOf] using this

theorem exists_before (l : List (Pt K)) : ∃ u, ∀ q ∈ l, u < q := by
  by_cases h : l = []
  · exact ⟨⟨0, 0⟩, by simp [h]⟩
  · obtain ⟨a, -, ha⟩ := exists_least h
    refine ⟨⟨a.x - 1, a.y⟩, fun q hq => lt_of_lt_of_le ?_ (ha q hq)⟩
    left
    simp

def hpOf (R : List (List (Pt K) × Winding)) (k : Nat) : Option (Helper K) := if numTop R k then some ⟨(numEd R k).1, false⟩ else none

theorem zipIdx_range (L : List (Sg K × Winding)) (x : Sg K × Winding) : L.zipIdx 1 = (List.range' 1 L.length).map fun k => (L.getD (k - 1) x, k) := by
  refine List.ext_getElem (by simp) fun i h1 h2 => ?_
  simp only [List.length_zipIdx] at h1
  simp [List.getElem?_eq_getElem h1]

theorem SInv.init {u : Pt K} (hu : ∀ k, 1 ≤ k → k ≤ (dir R).length → u < (numEd R k).1)
    (hlt : ∀ k, 1 ≤ k → k ≤ (dir R).length → (numEd R k).1 < (numEd R k).2)
    {evs : List (Event K)} (hp : evs.Perm (build (dir R)).events) (hs : evs.Pairwise fun a b => b.point ≤ a.point) :
    SInv (dir R).length (numEd R) (numTop R) u [] { build (dir R) with events := evs } where
  segs := by
    refine ⟨⟨0, 0⟩, hpOf R, ?_, ⟨fun k _ _ => ?_, fun k _ _ ht _ => ?_, by simp⟩⟩
    · simp only [build, sl]
      rw [zipIdx_range (dir R) ((⟨0, 0⟩, ⟨0, 0⟩), .clockwise), List.map_map]
      rfl
    · unfold hpOf
      cases numTop R k <;> rfl
    · unfold hpOf; rw [if_pos ht]
  active := rfl
  nodup := by
    rw [hp.nodup_iff]
    show ((dir R).zipIdx 1 |>.flatMap evsOf).Nodup
    rw [zipIdx_range (dir R) ((⟨0, 0⟩, ⟨0, 0⟩), .clockwise), List.flatMap_map, List.nodup_flatMap]
    refine ⟨fun k _ => by simp [evsOf], ?_⟩
    refine (List.nodup_range' (s := 1) (n := (dir R).length)).imp fun {a b} hab => ?_
    simp only [Function.onFun, evsOf, List.disjoint_left]
    intro e h1 h2
    simp only [List.mem_cons, List.not_mem_nil, or_false] at h1 h2
    rcases h1 with rfl | rfl <;> rcases h2 with h2 | h2 <;> simp at h2 <;> exact hab h2.2
  mem := by
    intro e
    have hx : e ∈ evs ↔ IsEv (dir R).length (numEd R) e := by
      rw [hp.mem_iff]
      show e ∈ ((dir R).zipIdx 1 |>.flatMap evsOf) ↔ _
      rw [zipIdx_range (dir R) ((⟨0, 0⟩, ⟨0, 0⟩), .clockwise), List.flatMap_map, List.mem_flatMap]
      unfold IsEv
      constructor
      · rintro ⟨k, hk, he⟩
        rw [List.mem_range'_1] at hk
        refine ⟨k, hk.1, by omega, ?_⟩
        simp only [evsOf, List.mem_cons, List.not_mem_nil, or_false] at he
        exact he
      · rintro ⟨k, k1, k2, he⟩
        refine ⟨k, List.mem_range'_1.2 ⟨k1, by omega⟩, ?_⟩
        simp only [evsOf, List.mem_cons, List.not_mem_nil, or_false]
        exact he
    simp only
    rw [hx]
    refine ⟨fun h => ⟨h, ?_⟩, fun h => h.1⟩
    obtain ⟨k, k1, k2, rfl | rfl⟩ := h
    · exact hu k k1 k2
    · exact (hu k k1 k2).trans (hlt k k1 k2)
  sorted := hs

/-- The state that `from_polygon` builds fits no gap, before the first vertex. -/
theorem fromPolygon_ok (srt : List (Event K) → List (Event K)) {p : Polygon K} (h : ValidPolygon p.ext p.ints) :
    ∃ sw u, Sweep.fromPolygon srt p = some sw ∧ sw.segments = (build (dir (ringsOf p.ext p.ints))).segments ∧
      (∀ k, 1 ≤ k → k ≤ (dir (ringsOf p.ext p.ints)).length → u < (numEd (ringsOf p.ext p.ints) k).1) ∧
      SInv (dir (ringsOf p.ext p.ints)).length (numEd (ringsOf p.ext p.ints)) (numTop (ringsOf p.ext p.ints)) u [] sw := by
  obtain ⟨evs, e1, e2, e3⟩ := sort_events srt (build (dir (ringsOf p.ext p.ints))).events
  obtain ⟨u, hu⟩ := exists_before ((List.range' 1 (dir (ringsOf p.ext p.ints)).length).map fun k => (numEd (ringsOf p.ext p.ints) k).1)
  have hu' : ∀ k, 1 ≤ k → k ≤ (dir (ringsOf p.ext p.ints)).length → u < (numEd (ringsOf p.ext p.ints) k).1 := fun k k1 k2 =>
    hu _ (List.mem_map.2 ⟨k, List.mem_range'_1.2 ⟨k1, by omega⟩, rfl⟩)
  refine ⟨{ build (dir (ringsOf p.ext p.ints)) with events := evs }, u, ?_, rfl, hu', SInv.init hu' (edges_valid h).lt e2 e3⟩
  have := rings_build h
  unfold Sweep.fromPolygon
  rw [Option.bind_eq_some_iff] at this
  obtain ⟨sw, h1, h2⟩ := this
  simp [h1, h2, e1]

theorem monotoneChains_ok (dbg : Bool) (srt : List (Event K) → List (Event K)) {p : Polygon K} (h : ValidPolygon p.ext p.ints) :
    ∃ out, monotoneChains dbg srt p = some out ∧
      Decomposed (dir (ringsOf p.ext p.ints)).length (numEd (ringsOf p.ext p.ints)) (numTop (ringsOf p.ext p.ints)) out := by
  obtain ⟨sw, u, hf, -, hu, hS⟩ := fromPolygon_ok srt h
  obtain ⟨out, o1, o2⟩ := run_collect (edges_valid h) dbg hu hS
  refine ⟨out, ?_, o2⟩
  simp only [monotoneChains, hf]
  exact o1

end GeoCrossings.Monotone

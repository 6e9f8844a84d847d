import Verif.Props.MonoVertices
import Verif.Props.Scanner
import Verif.Props.Monotone

/-!
# C64: the debug assertions of `monotone`

The `debug_assert`s of `mono_poly.rs` and `monotone.rs` are part of the model (`Model/MonoPoly.lean`): here it is said that none of
them fails. Those of `chains.rs` are executed with `dbg = true` (C50). Those of `find_intersection_type` (sweep.rs:323, 325, 336, 337)
and of `Segment::new` (segment.rs:90) are shown to hold in every state the sweep can reach from any polygon.
-/
set_option linter.unusedSectionVars false
namespace GeoCrossings.Monotone

section sweep
variable {K : Type _} [Field K] [LinearOrder K]

/-- Up to the helpers, and the position of the sweep at 0, the segments are the same. -/
def SameGeom (a b : List (Seg K)) : Prop := ∀ i, i ≠ 0 → (b[i]?).map Seg.geom = (a[i]?).map Seg.geom

theorem SameGeom.trans {a b c : List (Seg K)} (h : SameGeom a b) (h' : SameGeom b c) : SameGeom a c := fun i hi => (h' i hi).trans (h i hi)

theorem SameGeom.set {a b : List (Seg K)} (h : SameGeom a b) {k : Nat} {s s' : Seg K} (hs : b[k]? = some s) (hg : s'.geom = s.geom) :
    SameGeom a (b.set k s') := by
  intro i hi
  rw [← h i hi, List.getElem?_set]
  split_ifs with h1 h2
  · subst h1; rw [hs]; simp [hg]
  · subst h1; exact absurd (List.getElem?_eq_some_iff.1 hs).1 h2
  · rfl

theorem handleRemove_geom {pt : Pt K} {sw : Sweep K} {links : List (Link K)} {e : Event K} {r : Sweep K × List (Link K)}
    (h : handleRemove pt sw links e = some r) : SameGeom sw.segments r.1.segments ∧ r.1.events = sw.events := by
  unfold handleRemove at h
  split_ifs at h with c
  · rw [← Option.some.inj h]; exact ⟨fun _ _ => rfl, rfl⟩
  · simp only [Option.bind_eq_bind, Option.bind_eq_some_iff] at h
    obtain ⟨s, g1, h⟩ := h
    cases hh : s.helper with
    | none =>
      simp only [hh] at h
      obtain ⟨act, -, h⟩ := h
      rw [← Option.some.inj h]
      exact ⟨fun _ _ => rfl, rfl⟩
    | some x =>
      simp only [hh] at h
      by_cases cm : x.isMerge = true
      · simp only [if_pos cm] at h
        obtain ⟨act, -, h⟩ := h
        rw [← Option.some.inj h]
        exact ⟨SameGeom.set (fun _ _ => rfl) g1 rfl, rfl⟩
      · simp only [if_neg cm] at h
        obtain ⟨act, -, h⟩ := h
        rw [← Option.some.inj h]
        exact ⟨fun _ _ => rfl, rfl⟩

theorem fixUp_geom {pt : Pt K} {ixn : Ixn K} {sw : Sweep K} {links : List (Link K)} {force isMerge : Bool} {r : Sweep K × List (Link K)}
    (h : fixUp pt ixn sw links force isMerge = some r) : SameGeom sw.segments r.1.segments ∧ r.1.events = sw.events := by
  unfold fixUp at h
  simp only [Option.bind_eq_bind, Option.bind_eq_some_iff] at h
  obtain ⟨o, -, next, -, s, g1, hh, g2, h⟩ := h
  rw [← Option.some.inj h]
  exact ⟨SameGeom.set (fun _ _ => rfl) g1 rfl, rfl⟩

theorem handleVertex_geom {pt : Pt K} {ixn : Ixn K} {w : Winding} {sw : Sweep K} {links : List (Link K)} {r : Sweep K × List (Link K)}
    (h : handleVertex pt ixn w sw links = some r) : SameGeom sw.segments r.1.segments ∧ r.1.events = sw.events := by
  unfold handleVertex at h
  split at h
  · have fin : ∀ (sw1 : Sweep K) (l1 : List (Link K)),
        (if ixn.other1 > ixn.other2 then some (sw1, l1 ++ [Link.cont ixn.other2 pt ixn.other1 ixn.interior])
         else if ixn.other1 < ixn.other2 then some (sw1, l1 ++ [Link.cont ixn.other1 pt ixn.other2 ixn.interior])
         else none) = some r → r.1 = sw1 := by
      intro sw1 l1 h
      split_ifs at h
      · rw [← Option.some.inj h]
      · rw [← Option.some.inj h]
    by_cases cw : w = .counterClockwise
    · rw [if_pos cw] at h
      obtain ⟨⟨sw1, l1⟩, h1, h⟩ := Option.bind_eq_some_iff.1 h
      rw [fin sw1 l1 h]
      exact fixUp_geom h1
    · rw [if_neg cw] at h
      obtain ⟨⟨sw1, l1⟩, h1, h⟩ := Option.bind_eq_some_iff.1 h
      have := Option.some.inj h1
      rw [Prod.mk.injEq] at this
      rw [fin sw1 l1 h, ← this.1]
      exact ⟨fun _ _ => rfl, rfl⟩
  · exact fixUp_geom h
  · exact fixUp_geom h
  · rw [← Option.some.inj h]; exact ⟨fun _ _ => rfl, rfl⟩
  · rw [← Option.some.inj h]; exact ⟨fun _ _ => rfl, rfl⟩

theorem handleInsert_geom {sw sw' : Sweep K} {e : Event K} (h : handleInsert sw e = some sw') :
    sw'.segments = sw.segments ∧ sw'.events = sw.events := by
  unfold handleInsert at h
  split_ifs at h
  · rw [← Option.some.inj h]; exact ⟨rfl, rfl⟩
  · obtain ⟨act, -, rfl⟩ := Option.map_eq_some_iff.1 h
    exact ⟨rfl, rfl⟩

/-- An event belongs to a segment that is a line, and is one of its two events. -/
def EventOk (segs : List (Seg K)) (e : Event K) : Prop :=
  e.segmentKey ≠ 0 ∧ ∃ lo hi, (segs[e.segmentKey]?).map Seg.geom = some (.line lo hi) ∧ lo < hi ∧
    (e.ty = .lineLeft ∧ e.point = lo ∨ e.ty = .lineRight ∧ e.point = hi)

theorem EventOk.same {a b : List (Seg K)} (h : SameGeom a b) {e : Event K} (he : EventOk a e) : EventOk b e := by
  obtain ⟨h0, lo, hi, h1, h2⟩ := he
  exact ⟨h0, lo, hi, by rw [h _ h0, h1], h2⟩

theorem addLine_ok {w : Winding} {sw sw' : Sweep K} {l : Line K} (h : addLine w sw l = some sw')
    (hi : (∀ e ∈ sw.events, EventOk sw.segments e) ∧ 1 ≤ sw.segments.length) :
    (∀ e ∈ sw'.events, EventOk sw'.segments e) ∧ 1 ≤ sw'.segments.length := by
  unfold addLine at h
  split_ifs at h with c
  · rw [← Option.some.inj h]; exact hi
  · obtain ⟨ev, he, rfl⟩ := Option.map_eq_some_iff.1 h
    refine ⟨fun e hm => ?_, by simp⟩
    rcases List.mem_append.1 hm with hm | hm
    · obtain ⟨h0, lo, hi', h1, h2⟩ := hi.1 e hm
      refine ⟨h0, lo, hi', ?_, h2⟩
      obtain ⟨s, hs, hg⟩ := Option.map_eq_some_iff.1 h1
      rw [List.getElem?_append_left (List.getElem?_eq_some_iff.1 hs).1, h1]
    · unfold Seg.events at he
      split_ifs at he
      rw [← Option.some.inj he] at hm
      have h0 : sw.segments.length ≠ 0 := by have := hi.2; omega
      have key : ∃ lo hi, (Seg.new sw.segments.length l w).geom = .line lo hi ∧ lo < hi := by
        unfold Seg.new
        by_cases c' : l.start > l.stop
        · rw [if_pos c']; exact ⟨_, _, rfl, c'⟩
        · rw [if_neg c']; exact ⟨_, _, rfl, lt_of_le_of_ne (not_lt.1 c') c⟩
      have hk : (Seg.new sw.segments.length l w).key = sw.segments.length := rfl
      obtain ⟨lo, hi', hg, hlt⟩ := key
      simp only [hg, hk, LineOrPoint.toLine, List.mem_cons, List.not_mem_nil, or_false] at hm
      have hget : ((sw.segments ++ [Seg.new sw.segments.length l w])[sw.segments.length]?).map Seg.geom = some (.line lo hi') := by
        simp [hg]
      rcases hm with rfl | rfl
      · exact ⟨h0, lo, hi', hget, hlt, .inl ⟨rfl, rfl⟩⟩
      · exact ⟨h0, lo, hi', hget, hlt, .inr ⟨rfl, rfl⟩⟩

theorem fromPolygon_events {srt : List (Event K) → List (Event K)} {p : Polygon K} {sw : Sweep K} (h : Sweep.fromPolygon srt p = some sw) :
    ∀ e ∈ sw.events, EventOk sw.segments e := by
  unfold Sweep.fromPolygon at h
  simp only [Option.bind_eq_bind, Option.bind_eq_some_iff] at h
  obtain ⟨s1, h1, s2, h2, evs, h3, h4⟩ := h
  have ring : ∀ (sw sw' : Sweep K) (ring : List (Pt K)) (hole : Bool), addClosedRing sw ring hole = some sw' →
      (∀ e ∈ sw.events, EventOk sw.segments e) ∧ 1 ≤ sw.segments.length → (∀ e ∈ sw'.events, EventOk sw'.segments e) ∧ 1 ≤ sw'.segments.length := by
    intro sw sw' r hole h hi
    unfold addClosedRing at h
    split_ifs at h
    all_goals
      obtain ⟨w, -, h⟩ := Option.bind_eq_some_iff.1 h
      exact foldlM_inv (Q := fun sw : Sweep K => (∀ e ∈ sw.events, EventOk sw.segments e) ∧ 1 ≤ sw.segments.length) h hi
        fun l hl b b' hb hq => addLine_ok hb hq
  have i1 := ring _ _ _ _ h1 ⟨by simp, by simp⟩
  have i2 := foldlM_inv (Q := fun sw : Sweep K => (∀ e ∈ sw.events, EventOk sw.segments e) ∧ 1 ≤ sw.segments.length) h2 i1
    fun r hr b b' hb hq => ring _ _ _ _ hb hq
  rw [← Option.some.inj h4]
  exact fun e he => i2.1 e (sortBy_mem h3 e he)

theorem processEvent_ok {sw sw' : Sweep K} {ev : Option (SweepEvent K)} (h : processEvent sw = some (sw', ev))
    (hs : ∀ e ∈ sw.events, EventOk sw.segments e) : ∀ e ∈ sw'.events, EventOk sw'.segments e := by
  unfold processEvent at h
  split at h
  · have := Option.some.inj h
    rw [Prod.mk.injEq] at this
    rw [← this.1]; exact hs
  next pt idx hg =>
    simp only [Option.bind_eq_bind, Option.bind_eq_some_iff] at h
    obtain ⟨⟨ixn, evs⟩, h1, ⟨sw1, l1⟩, h2, ⟨sw2, l2⟩, h3, s1, -, s2, -, h⟩ := h
    split_ifs at h
    · cases h
    simp only [Option.bind_eq_some_iff] at h
    obtain ⟨-, -, ⟨sw3, l3⟩, h5, sw4, h6, sw5, h7, h8⟩ := h
    have hix : ∀ e ∈ evs, e ∈ sw.events := by
      unfold findIntersectionType at h1
      split_ifs at h1
      split at h1
      next e1 e2 rest hrev =>
        obtain ⟨i, hi, h'⟩ := Option.map_eq_some_iff.1 h1
        rw [Prod.mk.injEq] at h'
        intro e he
        rw [← h'.2, List.mem_reverse] at he
        rw [← List.mem_reverse, hrev]
        simp [he]
      · cases h1
    have g0 : SameGeom sw.segments (storePoint { sw with events := evs } pt).segments := by
      intro i hi
      simp only [storePoint]
      rw [List.getElem?_set_ne (Ne.symm hi)]
    have g1 := handleRemove_geom h2
    have g2 := handleRemove_geom h3
    have g3 := handleVertex_geom h5
    have g4 := handleInsert_geom h6
    have g5 := handleInsert_geom h7
    have e := Option.some.inj h8
    rw [Prod.mk.injEq] at e
    intro x hx
    rw [← e.1, g5.2, g4.2, g3.2, g2.2, g1.2] at hx
    rw [← e.1, g5.1, g4.1]
    exact (hs x (hix x hx)).same (((g0.trans g1.1).trans g2.1).trans g3.1)

/-- **C64.** The assertions of `find_intersection_type` never fail: in every state of the sweep over any polygon, once the assertion
that exactly two events remain for the next point has been passed, both of these events are at that point, and belong to segments
that are lines, of which the point is the end that the type of the event says (sweep.rs:323, 325, 336, 337; the `unreachable!`s of
lines 329 and 334 are not reached either; the ends differ as segment.rs:90 asserts). -/
theorem C64_sweep_asserts {srt : List (Event K) → List (Event K)} {p : Polygon K} {sw : Sweep K} (h : Reached srt p sw)
    {pt : Pt K} {idx : Nat} (hn : getNextSegments sw.events = some (pt, idx)) (h2 : idx + 2 = sw.events.length) :
    ∃ e1 e2 rest, sw.events.reverse = e1 :: e2 :: rest ∧ e1.point = pt ∧ e2.point = pt ∧
      ∀ e ∈ [e1, e2], ∃ s, sw.segments[e.segmentKey]? = some s ∧ s.geom.isLine = true ∧ s.geom.toLine.start < s.geom.toLine.stop ∧
        (e.ty = .lineLeft ∧ s.geom.toLine.start = pt ∨ e.ty = .lineRight ∧ s.geom.toLine.stop = pt) := by
  have hok : ∀ e ∈ sw.events, EventOk sw.segments e := by
    clear hn h2
    induction h with
    | init h => exact fromPolygon_events h
    | step _ hp ih => exact processEvent_ok hp ih
  unfold getNextSegments at hn
  obtain ⟨e1, he1, hn⟩ := Option.map_eq_some_iff.1 hn
  rw [Prod.mk.injEq] at hn
  obtain ⟨rfl, hn⟩ := hn
  rw [← List.head?_reverse] at he1
  have hle := (List.takeWhile_sublist (fun f : Event K => decide (f.point = e1.point)) (l := sw.events.reverse)).length_le
  rw [List.length_reverse] at hle
  have hlen : (sw.events.reverse.takeWhile fun f => decide (f.point = e1.point)).length = 2 := by omega
  have hmem : ∀ e ∈ sw.events.reverse, EventOk sw.segments e := fun e he => hok e (List.mem_reverse.1 he)
  generalize sw.events.reverse = l at he1 hlen hmem
  match l, he1 with
  | e :: l, he1 =>
    rw [List.head?_cons, Option.some.injEq] at he1
    subst he1
    match l with
    | [] => simp at hlen
    | e2 :: rest =>
      have h2 : e2.point = e.point := by
        by_contra hc
        simp [hc] at hlen
      refine ⟨e, e2, rest, rfl, rfl, h2, fun x hx => ?_⟩
      have hxp : x.point = e.point := by
        rcases List.mem_cons.1 hx with rfl | hx
        · rfl
        · rw [List.mem_singleton.1 hx, h2]
      obtain ⟨-, lo, hi, h3, hlt, h4⟩ := hmem x (by simp only [List.mem_cons, List.not_mem_nil, or_false] at hx ⊢; tauto)
      obtain ⟨s, h5, h6⟩ := Option.map_eq_some_iff.1 h3
      refine ⟨s, h5, by rw [h6]; rfl, by rw [h6]; exact hlt, ?_⟩
      rw [h6, ← hxp]
      rcases h4 with ⟨a, b⟩ | ⟨a, b⟩
      · exact .inl ⟨a, b.symm⟩
      · exact .inr ⟨a, b.symm⟩

/-- The hypotheses are met in the first state for a polygon that crosses itself. -/
example : ((Sweep.fromPolygon id ⟨[(⟨0, 0⟩ : Pt ℚ), ⟨5, 4⟩, ⟨4, 0⟩, ⟨1, 4⟩, ⟨0, 0⟩], []⟩).map fun sw =>
    (getNextSegments sw.events, sw.events.length)) = some (some (⟨0, 0⟩, 6), 8) := by decide +kernel

end sweep

section scanner
open Spec
variable {K : Type _} [Field K] [LinearOrder K] [IsStrictOrderedRing K]

/-- **C64.** The assertions of `mono_poly.rs` and `monotone.rs` never fail on a polygon that `MonoPoly::new` has accepted: neither in
`into_polygon` (line 93), nor in `Scanner::new` (line 119), nor, in any state the scanner can reach and for any limit to the right of
it, in `advance_next` (lines 168, 220, 249, 253); nor, if the top chain is nowhere below the bottom chain (as in every result of
`monotone_chains`, C51), in `Trapz::area` (monotone.rs:54) of a trapezoid the scanner has delivered. -/
theorem C64_scanner_asserts {top bot : List (Pt K)} {m : MonoPoly K} (hm : MonoPoly.new top bot = some m) :
    m.intoPolygon ≠ none ∧ Scanner.new m ≠ none ∧
    ∀ s ts, Reach m s ts →
      (∀ til, s.curr.x < til → s.advanceNext til ≠ none) ∧
      (NowhereBelow m.top m.bot → ∀ t ∈ ts, t.areaChecked = some t.area) := by
  have hm : MonotonePair m.top m.bot := by
    obtain ⟨rfl, h⟩ := (C42_new_accepts_iff top bot m).1 hm
    exact h
  refine ⟨?_, ?_, fun s ts h => ⟨fun til ht => ?_, fun ha t htm => ?_⟩⟩
  · obtain ⟨r, hr, -⟩ := C43_into_polygon m hm
    rw [hr]; simp
  · obtain ⟨s, hs, -⟩ := scanner_new hm
    rw [hs]; simp
  · rcases advanceNext_spec (reach_inv hm h).1 ht with ⟨h, -⟩ | ⟨s', r, h, -⟩ <;> rw [h] <;> simp
  · obtain ⟨h1, h2, h3, h4, -⟩ := reach_inv hm h
    have hw : ∀ (a b : K) (ts : List (Trapz K)), Contiguous a ts b → ∀ t ∈ ts, t.left.x < t.right.x := by
      intro a b ts
      induction ts generalizing a with
      | nil => intro _ t ht; simp at ht
      | cons z ts ih =>
        intro h t ht
        rcases List.mem_cons.1 ht with rfl | ht
        · exact h.2.1
        · exact ih _ h.2.2 t ht
    obtain ⟨p, e, -, lt, -⟩ := id hm
    obtain ⟨k1, k2⟩ := follows_nowhere hm ha (h4 t htm) (hw _ _ _ (h3 p lt.1) t htm)
    rw [Trapz.areaChecked, if_pos ⟨sub_nonneg.2 k1, sub_nonneg.2 k2⟩]

/-- A state from which a step is taken, for the polygon `demo`. -/
example : ∃ s, Reach demo s [] ∧ s.curr.x < 1 ∧ (s.advanceNext 1).isSome = true :=
  ⟨⟨demo, ⟨0, 0, 0⟩, 0, 0⟩, .init (by decide +kernel), by decide +kernel⟩

/-- Without acceptance the assertions do fail: chains with different starts, and chains with different ends. -/
example : Scanner.new (⟨[⟨0, 0⟩, ⟨1, 1⟩], [⟨0, 1⟩, ⟨1, 1⟩]⟩ : MonoPoly ℚ) = none ∧
    ((Scanner.new (⟨[⟨0, 0⟩, ⟨1, 1⟩], [⟨0, 0⟩, ⟨1, 0⟩, ⟨2, 0⟩]⟩ : MonoPoly ℚ)).bind fun s => s.advanceTo s.rounds 5) = none := by
  decide +kernel

end scanner
end GeoCrossings.Monotone

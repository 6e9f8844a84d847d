import Verif.Props.MonoSides
import Verif.Props.MonoVertices

/-!
# The pieces of `monotone_chains` are simple polygons, fit together edge to edge, and are not cut again (C97, C98)
-/
set_option linter.unusedSectionVars false
namespace GeoCrossings.Monotone
open Spec

variable {K : Type} [Field K] [LinearOrder K] [IsStrictOrderedRing K]

/-- Every point of `top` that is not one of its ends has an edge of `bot` strictly below it. -/
def StrictlyAbove (top bot : List (Pt K)) : Prop :=
  ∀ r, OnChain top r → top.head? ≠ some r → top.getLast? ≠ some r → ChainBelow bot r

/-! ## Edges of increasing chains -/

theorem Incr.edges_apart : ∀ {l : List (Pt K)}, Incr l → ∀ {e e' : Sg K}, e ∈ es l → e' ∈ es l → e ≠ e' → e.2 ≤ e'.1 ∨ e'.2 ≤ e.1
  | [], _, e, _, he, _, _ => by simp [es] at he
  | [_], _, e, _, he, _, _ => by simp [es] at he
  | a :: b :: l, h, e, e', he, he', hne => by
    have h2 := (List.pairwise_cons.1 h).2
    have hb : ∀ q ∈ b :: l, b ≤ q := by
      intro q hq
      rcases List.mem_cons.1 hq with rfl | hq
      · exact le_rfl
      · exact ((List.pairwise_cons.1 h2).1 q hq).le
    rw [es_cons, List.mem_cons] at he he'
    rcases he with rfl | he <;> rcases he' with rfl | he'
    · exact absurd rfl hne
    · exact .inl (hb _ (mem_es he').1)
    · exact .inr (hb _ (mem_es he).1)
    · exact Incr.edges_apart h2 he he' hne

theorem Incr.nodup {l : List (Pt K)} (h : Incr l) : l.Nodup := h.imp fun h => h.ne

theorem Incr.head_le {l : List (Pt K)} {a x : Pt K} (h : Incr l) (ha : l.head? = some a) (hx : x ∈ l) : a ≤ x := by
  cases l with
  | nil => simp at ha
  | cons c l =>
    simp only [List.head?_cons, Option.some.injEq] at ha
    subst ha
    rcases List.mem_cons.1 hx with h' | h'
    · exact h'.ge
    · exact ((List.pairwise_cons.1 h).1 _ h').le

/-- Every point of a chain but the first is the end of an edge, and every one but the last is the start of one. -/
theorem mem_stop {l : List (Pt K)} {x : Pt K} (hx : x ∈ l) (h : l.head? ≠ some x) : ∃ a, (a, x) ∈ es l := by
  have : x ∈ (es l).map Prod.snd := by
    rw [es_snd]
    cases l with
    | nil => simp at hx
    | cons c l =>
      rcases List.mem_cons.1 hx with rfl | hx
      · simp at h
      · exact hx
  obtain ⟨e, he, rfl⟩ := List.mem_map.1 this
  exact ⟨e.1, he⟩

theorem mem_start {l : List (Pt K)} {x : Pt K} (hx : x ∈ l) (h : l.getLast? ≠ some x) : ∃ a, (x, a) ∈ es l := by
  have : x ∈ (es l).map Prod.fst := by
    rw [es_fst]
    rcases List.eq_nil_or_concat l with rfl | ⟨k, c, rfl⟩
    · simp at hx
    · rw [List.concat_eq_append] at hx h ⊢
      rw [List.dropLast_concat]
      rcases List.mem_append.1 hx with hx | hx
      · exact hx
      · simp only [List.mem_singleton] at hx
        simp [hx] at h
  obtain ⟨e, he, rfl⟩ := List.mem_map.1 this
  exact ⟨e.2, he⟩

theorem Incr.onChain {l : List (Pt K)} (h : Incr l) {r : Pt K} : OnChain l r ↔ ∃ e ∈ es l, det e.1 e.2 r = 0 ∧ e.1 ≤ r ∧ r ≤ e.2 := by
  constructor
  · rintro ⟨a, b, h1, h2⟩
    rw [edgeOf_es] at h1
    exact ⟨_, h1, (onSeg_iff (h.edge_lt h1)).1 h2⟩
  · rintro ⟨e, h1, h2⟩
    exact ⟨e.1, e.2, edgeOf_es.2 h1, (onSeg_iff (h.edge_lt h1)).2 h2⟩

/-- A point of an increasing chain is not strictly above it. -/
theorem Incr.on_not_pass {l : List (Pt K)} (h : Incr l) {r : Pt K} (h1 : OnChain l r) : ¬ Pass r l := by
  rintro ⟨e, he, p1, p2, p3⟩
  obtain ⟨f, hf, q1, q2, q3⟩ := h.onChain.1 h1
  by_cases hne : e = f
  · subst hne
    exact absurd q1 p3.ne'
  · rcases h.edges_apart he hf hne with k | k
    · exact absurd (k.trans q2) (not_le.2 p2)
    · exact absurd (q3.trans k) (not_le.2 p1)

theorem Incr.on_wpass {l : List (Pt K)} (h : Incr l) {r : Pt K} (h1 : OnChain l r) (h2 : l.head? ≠ some r) : WPass r l := by
  obtain ⟨e, he, q1, q2, q3⟩ := h.onChain.1 h1
  rcases q2.lt_or_eq with q | rfl
  · exact ⟨e, he, q, q3, q1.ge⟩
  · obtain ⟨a, ha⟩ := mem_stop (mem_es he).1 h2
    exact ⟨_, ha, h.edge_lt ha, le_rfl, (det_right _ _).ge⟩

theorem mem_onChain {l : List (Pt K)} {x s e : Pt K} (hl : Leads l s e) (hse : s ≠ e) (hx : x ∈ l) : OnChain l x := by
  by_cases h : l.head? = some x
  · obtain ⟨a, ha⟩ := mem_start hx fun k => hse (by rw [hl.1] at h; rw [hl.2] at k; exact (Option.some.inj h).trans (Option.some.inj k).symm)
    exact ⟨x, a, edgeOf_es.2 ha, 0, le_rfl, zero_le_one, by simp, by simp⟩
  · obtain ⟨a, ha⟩ := mem_stop hx h
    exact ⟨a, x, edgeOf_es.2 ha, 1, zero_le_one, le_rfl, by simp, by simp⟩

/-- The chains meet only in their ends. -/
theorem StrictlyAbove.apart {top bot : List (Pt K)} (h : StrictlyAbove top bot) (hb : Incr bot) {r : Pt K} (h1 : OnChain top r)
    (h2 : OnChain bot r) : top.head? = some r ∨ top.getLast? = some r := by
  by_contra hc
  rw [not_or] at hc
  exact hb.on_not_pass h2 ((chainBelow_iff hb).1 (h r h1 hc.1 hc.2))

theorem Decomposed.strictly {n : Nat} {ed : Nat → Sg K} {top : Nat → Bool} {out : List (MonoPoly K)} (D : Decomposed n ed top out)
    {m : MonoPoly K} (hm : m ∈ out) : StrictlyAbove m.top m.bot := by
  obtain ⟨-, -, -, -, -, h1, h2⟩ := D.pair m hm
  intro r hr k1 k2
  exact (chainBelow_iff h2).2 (D.strict m hm r k2 (Incr.on_wpass h1 hr k1))

/-! ## The ring of a piece -/

theorem mem_ring {m : MonoPoly K} {ring : List (Pt K)} (hr : m.intoPolygon = some ring) {e : Sg K} :
    e ∈ ringEdges ring ↔ e ∈ es m.top ∨ (e.2, e.1) ∈ es m.bot := by
  show e ∈ es ring ↔ _
  rw [(es_ring hr).mem_iff, List.mem_append, List.mem_map]
  refine or_congr Iff.rfl ⟨?_, fun h => ⟨_, h, rfl⟩⟩
  rintro ⟨f, hf, rfl⟩
  exact hf

theorem meet_incr {l : List (Pt K)} (h : Incr l) {e e' : Sg K} (he : e ∈ es l) (he' : e' ∈ es l) (hne : e ≠ e') {x : Pt K}
    (h1 : OnSeg e.1 e.2 x) (h2 : OnSeg e'.1 e'.2 x) : (x = e.1 ∨ x = e.2) ∧ (x = e'.1 ∨ x = e'.2) := by
  obtain ⟨-, a1, a2⟩ := (onSeg_iff (h.edge_lt he)).1 h1
  obtain ⟨-, b1, b2⟩ := (onSeg_iff (h.edge_lt he')).1 h2
  rcases h.edges_apart he he' hne with k | k
  · exact ⟨.inr (le_antisymm a2 (k.trans b1)), .inl (le_antisymm (a2.trans k) b1)⟩
  · exact ⟨.inl (le_antisymm (b2.trans k) a1), .inr (le_antisymm b2 (k.trans a1))⟩

theorem end_incr {l : List (Pt K)} (h : Incr l) {s t : Pt K} (hl : Leads l s t) {e : Sg K} (he : e ∈ es l) {x : Pt K}
    (h1 : OnSeg e.1 e.2 x) (hx : x = s ∨ x = t) : x = e.1 ∨ x = e.2 := by
  obtain ⟨-, a1, a2⟩ := (onSeg_iff (h.edge_lt he)).1 h1
  rcases hx with rfl | rfl
  · exact .inl (le_antisymm (h.head_le hl.1 (mem_es he).1) a1)
  · exact .inr (le_antisymm a2 (h.le_last hl.2 (mem_es he).2))

theorem swap_or {x a b : Pt K} : (x = a ∨ x = b) ↔ (x = b ∨ x = a) := or_comm

/-- The ring of two increasing chains that meet only in their ends is a valid polygon. -/
theorem valid_ring {m : MonoPoly K} (hm : MonotonePair m.top m.bot) (ha : StrictlyAbove m.top m.bot) :
    ∃ ring, m.intoPolygon = some ring ∧ ValidPolygon ring [] := by
  obtain ⟨ring, hr, ⟨rest, x, e1, e2⟩, e3, e4, -, -, -⟩ := C43_into_polygon m hm
  obtain ⟨s, t, hst, lt, lb, it, ib⟩ := hm
  replace it : Incr m.top := it
  replace ib : Incr m.bot := ib
  have common : ∀ r, OnChain m.top r → OnChain m.bot r → r = s ∨ r = t := by
    intro r h1 h2
    rcases ha.apart ib h1 h2 with h | h
    · rw [lt.1] at h; exact .inl (Option.some.inj h).symm
    · rw [lt.2] at h; exact .inr (Option.some.inj h).symm
  have two : ∀ {l : List (Pt K)}, Leads l s t → 2 ≤ l.length := by
    intro l hl
    match l, hl with
    | [], hl => simp [Leads] at hl
    | [a], hl => simp only [Leads, List.head?_cons, List.getLast?_singleton, Option.some.injEq] at hl; exact absurd (hl.1.symm.trans hl.2) hst
    | _ :: _ :: _, _ => simp
  have short : ∀ {l : List (Pt K)}, Leads l s t → l.length ≤ 2 → l = [s, t] := by
    intro l hl h
    match l, hl, h with
    | [], hl, _ => simp [Leads] at hl
    | [a], hl, _ => simp only [Leads, List.head?_cons, List.getLast?_singleton, Option.some.injEq] at hl; exact absurd (hl.1.symm.trans hl.2) hst
    | [a, b], hl, _ => simp [Leads] at hl; rw [hl.1, hl.2]
  have l1 := two lt
  have l2 := two lb
  refine ⟨ring, hr, ⟨?_, ?_, ?_, by simp, by simp⟩⟩
  · intro r hr'
    simp only [List.mem_singleton] at hr'
    subst hr'
    refine ⟨e3, ?_⟩
    by_contra hc
    have k1 := short lt (by omega)
    have k2 := short lb (by omega)
    have hlt : s < t := by rw [k1] at it; simpa [Incr] using it
    obtain ⟨y, y1, y2, y3⟩ := exists_between (e := (s, t)) hlt
    have hy : OnChain [s, t] y := ⟨s, t, ⟨[], [], rfl⟩, (onSeg_iff hlt).2 ⟨y3, y1.le, y2.le⟩⟩
    rcases common y (k1 ▸ hy) (k2 ▸ hy) with rfl | rfl
    · exact lt_irrefl _ y1
    · exact lt_irrefl _ y2
  · simp only [List.flatMap_cons, List.flatMap_nil, List.append_nil]
    have hb : m.bot = rest.reverse ++ [x] := by
      have := congrArg List.reverse e1
      simpa using this
    have hx : x = t := by have := lb.2; rw [hb] at this; simpa using this
    subst hx
    have hne : rest ≠ [] := by rintro rfl; rw [hb] at l2; simp at l2
    obtain ⟨rest', y, rfl⟩ : ∃ rest' y, rest = rest' ++ [y] := ⟨_, _, (List.dropLast_append_getLast hne).symm⟩
    have hy : y = s := by have := lb.1; rw [hb] at this; simpa using this
    subst hy
    rw [e2, ← List.append_assoc, List.dropLast_concat]
    have hn := ib.nodup
    rw [hb] at hn
    simp only [List.reverse_append, List.reverse_cons, List.reverse_nil, List.nil_append, List.cons_append, List.nodup_cons,
      List.mem_append, List.mem_reverse, List.mem_singleton, not_or] at hn
    rw [List.nodup_append] at hn
    refine List.nodup_append.2 ⟨it.nodup, by simpa using hn.2.1, ?_⟩
    intro a ha' b hb' hab
    subst hab
    have hmem : a ∈ m.bot := by rw [hb]; simp [hb']
    rcases common a (mem_onChain lt hst ha') (mem_onChain lb hst hmem) with rfl | rfl
    · exact hn.1.1 hb'
    · exact hn.2.2.2 a (by simpa using hb') a (by simp) rfl
  · simp only [List.flatMap_cons, List.flatMap_nil, List.append_nil]
    intro e he e' he' hne z h1 h2
    rw [mem_ring hr] at he he'
    rcases he with he | he <;> rcases he' with he' | he'
    · exact meet_incr it he he' hne h1 h2
    · have hz := common z ⟨_, _, edgeOf_es.2 he, h1⟩ ⟨_, _, edgeOf_es.2 he', onSeg_swap h2⟩
      exact ⟨end_incr it lt he h1 hz, swap_or.1 (end_incr ib lb he' (onSeg_swap h2) hz)⟩
    · have hz := common z ⟨_, _, edgeOf_es.2 he', h2⟩ ⟨_, _, edgeOf_es.2 he, onSeg_swap h1⟩
      exact ⟨swap_or.1 (end_incr ib lb he (onSeg_swap h1) hz), end_incr it lt he' h2 hz⟩
    · have := meet_incr ib he he' (fun k => hne (by
        rw [Prod.mk.injEq] at k
        exact Prod.ext k.2 k.1)) (onSeg_swap h1) (onSeg_swap h2)
      exact ⟨swap_or.1 this.1, swap_or.1 this.2⟩

/-- **C97.** On a valid polygon, the chains of every piece that `monotone_chains` returns meet only in their ends: the upper chain is
strictly above the lower one otherwise. So every piece is itself a valid polygon: no vertex occurs twice, and its sides meet only in
common ends. -/
theorem C97_simple (dbg : Bool) (srt : List (Event K) → List (Event K)) {p : Polygon K} (hp : ValidPolygon p.ext p.ints) :
    ∃ out, monotoneChains dbg srt p = some out ∧ ∀ m ∈ out, StrictlyAbove m.top m.bot ∧
      (∀ r, OnChain m.top r → OnChain m.bot r → m.top.head? = some r ∨ m.top.getLast? = some r) ∧
      ∃ ring, m.intoPolygon = some ring ∧ ValidPolygon ring [] := by
  obtain ⟨out, h, D⟩ := monotoneChains_ok dbg srt hp
  refine ⟨out, h, fun m hm => ⟨D.strictly hm, fun r h1 h2 => ?_, valid_ring (D.pair m hm) (D.strictly hm)⟩⟩
  obtain ⟨-, -, -, -, -, -, hb⟩ := D.pair m hm
  exact (D.strictly hm).apart hb h1 h2

/-! ## Edge to edge -/

theorem es_nodup {l : List (Pt K)} (h : Incr l) : (es l).Nodup := by
  refine List.Nodup.of_map Prod.fst ?_
  rw [es_fst]
  exact h.nodup.sublist (List.dropLast_sublist l)

theorem Decomposed.in_top {n : Nat} {ed : Nat → Sg K} {top : Nat → Bool} {out : List (MonoPoly K)} (D : Decomposed n ed top out)
    {m : MonoPoly K} (hm : m ∈ out) {e : Sg K} (he : e ∈ es m.top) {r : Pt K} (r1 : e.1 < r) (r2 : r < e.2) (r3 : det e.1 e.2 r = 0)
    {ring : List (Pt K)} (hr : m.intoPolygon = some ring) : EvenOdd [ring] r := by
  obtain ⟨s, t, -, lt, -, it, ib⟩ := D.pair m hm
  replace it : Incr m.top := it
  have on : OnChain m.top r := it.onChain.2 ⟨e, he, r3, r1.le, r2.le⟩
  refine ((evenOdd_ring (D.pair m hm) (D.above m hm) hr r).1).2 ⟨(chainBelow_iff ib).1 (D.strictly hm r on ?_ ?_), it.on_not_pass on⟩
  · intro k
    exact absurd (it.head_le k (mem_es he).1) (not_le.2 r1)
  · intro k
    exact absurd (it.le_last k (mem_es he).2) (not_le.2 r2)

theorem topCount_le {e : Sg K} {r : Pt K} : ∀ {out : List (MonoPoly K)} {rings : List (List (Pt K))}, out.mapM MonoPoly.intoPolygon = some rings →
    (∀ m ∈ out, Incr m.top) → (∀ m ∈ out, ∀ ring, m.intoPolygon = some ring → e ∈ es m.top → EvenOdd [ring] r) →
    topCount out e ≤ rings.countP fun ring => EvenOdd [ring] r
  | [], _, _, _, _ => by simp [topCount]
  | m :: out, rings, h, hi, hs => by
    rw [List.mapM_cons] at h
    cases h1 : m.intoPolygon with
    | none => rw [h1] at h; simp at h
    | some x =>
      cases h2 : out.mapM MonoPoly.intoPolygon with
      | none => rw [h1, h2] at h; simp at h
      | some xs =>
        rw [h1, h2] at h
        simp only [Option.pure_def, Option.bind_eq_bind, Option.bind_some, Option.some.injEq] at h
        subst h
        have ih := topCount_le h2 (fun m hm => hi m (by simp [hm])) fun m hm => hs m (by simp [hm])
        have c : topCount (m :: out) e = (es m.top).count e + topCount out e := by simp [topCount, es]
        rw [c, List.countP_cons]
        by_cases he : e ∈ es m.top
        · have := List.nodup_iff_count_le_one.1 (es_nodup (hi m (by simp))) e
          rw [if_pos (by simpa using hs m (by simp) x h1 he)]
          omega
        · rw [List.count_eq_zero_of_not_mem he]
          split <;> omega

theorem topCount_pos {e : Sg K} {out : List (MonoPoly K)} (h : 0 < topCount out e) : ∃ m ∈ out, e ∈ es m.top := by
  induction out with
  | nil => simp [topCount] at h
  | cons m out ih =>
    have c : topCount (m :: out) e = (es m.top).count e + topCount out e := by simp [topCount, es]
    by_cases he : e ∈ es m.top
    · exact ⟨m, by simp, he⟩
    · rw [c, List.count_eq_zero_of_not_mem he] at h
      obtain ⟨m', hm, h'⟩ := ih (by omega)
      exact ⟨m', by simp [hm], h'⟩

theorem Decomposed.once {p : Polygon K} (hp : ValidPolygon p.ext p.ints) {out : List (MonoPoly K)}
    (D : Decomposed (dir (ringsOf p.ext p.ints)).length (numEd (ringsOf p.ext p.ints)) (numTop (ringsOf p.ext p.ints)) out) (e : Sg K) :
    topCount out e ≤ 1 ∧ (0 < topCount out e → e.1 < e.2 ∧ ∀ r, Within e.1 e.2 r → EvenOdd (p.ext :: p.ints) r) := by
  obtain ⟨rings, h1, h2, -⟩ := D.cover (edges_valid hp)
  have inc : ∀ m ∈ out, Incr m.top := fun m hm => by
    obtain ⟨-, -, -, -, -, h, -⟩ := D.pair m hm
    exact h
  by_cases h0 : 0 < topCount out e
  · obtain ⟨m, hm, he⟩ := topCount_pos h0
    have hlt := (inc m hm).edge_lt he
    have le : ∀ r, Within e.1 e.2 r → topCount out e ≤ if EvenOdd (p.ext :: p.ints) r then 1 else 0 := by
      intro r hw
      obtain ⟨r1, r2, r3⟩ := within_lt hlt hw
      simp only [evenOdd_count]
      rw [← h2 r]
      exact topCount_le h1 inc fun m hm ring hr he => D.in_top hm he r1 r2 r3 hr
    refine ⟨?_, fun _ => ⟨hlt, fun r hw => ?_⟩⟩
    · obtain ⟨r, r1, r2, r3⟩ := exists_between hlt
      have := le r ⟨(onSeg_iff hlt).2 ⟨r3, r1.le, r2.le⟩, r1.ne', r2.ne⟩
      split at this <;> omega
    · have := le r hw
      by_contra hc
      rw [if_neg hc] at this
      omega
  · exact ⟨by omega, fun h => absurd h h0⟩

/-- **C97.** The pieces fit together edge to edge: every side of the polygon with the interior below it occurs once in the upper chains and
not in the lower ones, every side with the interior above it once in the lower chains and not in the upper ones. -/
theorem C97_sides (dbg : Bool) (srt : List (Event K) → List (Event K)) {p : Polygon K} (hp : ValidPolygon p.ext p.ints) :
    ∃ out, monotoneChains dbg srt p = some out ∧ ∀ a b, ((a, b) ∈ (p.ext :: p.ints).flatMap ringEdges ∨ (b, a) ∈ (p.ext :: p.ints).flatMap ringEdges) →
      a < b → ((∀ r, Within a b r → EvenOdd (p.ext :: p.ints) r) ∧ topCount out (a, b) = 1 ∧ botCount out (a, b) = 0) ∨
        ((∀ r, Within a b r → ¬ EvenOdd (p.ext :: p.ints) r) ∧ topCount out (a, b) = 0 ∧ botCount out (a, b) = 1) := by
  obtain ⟨out, h, D⟩ := monotoneChains_ok dbg srt hp
  obtain ⟨out', h', H⟩ := C96_sides dbg srt hp
  rw [h, Option.some.injEq] at h'
  subst h'
  refine ⟨out, h, fun a b hs hab => ?_⟩
  obtain ⟨o1, o2⟩ := D.once hp (a, b)
  rcases H a b hs hab with ⟨h1, h2⟩ | ⟨h1, h2⟩
  · exact .inl ⟨h1, by omega, by omega⟩
  · have : ¬ 0 < topCount out (a, b) := by
      intro h0
      obtain ⟨r, r1, r2, r3⟩ := exists_between (e := (a, b)) hab
      have hw : Within a b r := ⟨(onSeg_iff hab).2 ⟨r3, r1.le, r2.le⟩, r1.ne', r2.ne⟩
      exact h1 r hw ((o2 h0).2 r hw)
    exact .inr ⟨h1, by omega, by omega⟩

/-- **C97.** A segment of a chain that is not a side of the polygon is in one upper and in one lower chain, and inside the polygon but for
its ends. -/
theorem C97_diagonals (dbg : Bool) (srt : List (Event K) → List (Event K)) {p : Polygon K} (hp : ValidPolygon p.ext p.ints) :
    ∃ out, monotoneChains dbg srt p = some out ∧ ∀ a b, (a, b) ∉ (p.ext :: p.ints).flatMap ringEdges → (b, a) ∉ (p.ext :: p.ints).flatMap ringEdges →
      (topCount out (a, b) = 0 ∧ botCount out (a, b) = 0) ∨
        (topCount out (a, b) = 1 ∧ botCount out (a, b) = 1 ∧ ∀ r, Within a b r → EvenOdd (p.ext :: p.ints) r) := by
  obtain ⟨out, h, D⟩ := monotoneChains_ok dbg srt hp
  obtain ⟨out', h', H⟩ := C96_diagonals dbg srt hp
  rw [h, Option.some.injEq] at h'
  subst h'
  refine ⟨out, h, fun a b h1 h2 => ?_⟩
  obtain ⟨o1, o2⟩ := D.once hp (a, b)
  have := H a b h1 h2
  rcases Nat.eq_zero_or_pos (topCount out (a, b)) with h0 | h0
  · exact .inl ⟨h0, by omega⟩
  · exact .inr ⟨by omega, by omega, (o2 h0).2⟩

/-! ## Monotone polygons are returned as they are -/

theorem chain_eq : ∀ {l l' : List (Pt K)}, Incr l → Incr l' → l ≠ [] → l.head? = l'.head? → l.getLast? = l'.getLast? → (∀ e ∈ es l, e ∈ es l') → l = l'
  | [], _, _, _, h, _, _, _ => absurd rfl h
  | [s], l', _, h', _, h1, h2, _ => by
    match l' with
    | [] => simp at h1
    | [a] => simpa using h1
    | a :: b :: k =>
      simp only [List.head?_cons, Option.some.injEq] at h1
      subst h1
      have : s ∈ b :: k := by
        refine List.mem_of_getLast? (l := b :: k) ?_
        rw [← List.getLast?_cons_cons (a := s), ← h2]; rfl
      exact absurd ((List.pairwise_cons.1 h').1 _ this) (lt_irrefl _)
  | s :: a :: k, l', h, h', _, h1, h2, h3 => by
    match l' with
    | [] => simp at h1
    | [c] => have := h3 (s, a) (by simp [es_cons]); simp [es] at this
    | c :: b :: k' =>
      simp only [List.head?_cons, Option.some.injEq] at h1
      subst h1
      have hh := h3 (s, a) (by simp [es_cons])
      rw [es_cons, List.mem_cons] at hh
      rcases hh with hh | hh
      · rw [Prod.mk.injEq] at hh
        obtain ⟨-, rfl⟩ := hh
        congr 1
        refine chain_eq (List.pairwise_cons.1 h).2 (List.pairwise_cons.1 h').2 (by simp) rfl (by simpa using h2) fun e he => ?_
        have := h3 e (by rw [es_cons]; exact List.mem_cons_of_mem _ he)
        rw [es_cons, List.mem_cons] at this
        rcases this with rfl | this
        · exact absurd ((List.pairwise_cons.1 h).1 _ (mem_es he).1) (lt_irrefl _)
        · exact this
      · exact absurd ((List.pairwise_cons.1 h').1 _ (mem_es hh).1) (lt_irrefl _)

/-- A ring made of two increasing chains turns around from left to right once. -/
theorem turns_ring {m : MonoPoly K} (hm : MonotonePair m.top m.bot) (ha : StrictlyAbove m.top m.bot) {ring : List (Pt K)}
    (hr : m.intoPolygon = some ring) (hv : ValidPolygon ring []) : turns [ring] ≤ 1 := by
  obtain ⟨s, t, hst, lt, lb, it, ib⟩ := hm
  replace it : Incr m.top := it
  replace ib : Incr m.bot := ib
  have hn := first_nodup hv
  refine le_trans (List.countP_mono_left ?_) (countP_first Prod.fst s hn)
  intro e he hT
  simp only [decide_eq_true_eq] at hT ⊢
  obtain ⟨h1, e', he', h2, h3⟩ := hT
  simp only [List.flatMap_cons, List.flatMap_nil, List.append_nil] at he he'
  rw [mem_ring hr] at he he'
  rcases he with he | he
  · rcases he' with he' | he'
    · exact absurd (h3.trans (it.edge_lt he')) (by rw [h2]; exact lt_irrefl _)
    · have m1 := (mem_es he).1
      have m2 := (mem_es he').1
      simp only [h2] at m2
      rcases ha.apart ib (mem_onChain lt hst m1) (mem_onChain lb hst m2) with k | k
      · rw [lt.1] at k; exact (Option.some.inj k).symm
      · exact absurd (it.le_last k (mem_es he).2) (not_le.2 h1)
  · exact absurd (h1.trans (ib.edge_lt he)) (lt_irrefl _)

/-- **C98.** A polygon that consists of two increasing chains with common ends, one strictly above the other, is returned as it is: as one
piece, with these chains. -/
theorem C98_fixed (dbg : Bool) (srt : List (Event K) → List (Event K)) {m : MonoPoly K} (hm : MonotonePair m.top m.bot)
    (ha : StrictlyAbove m.top m.bot) :
    ∃ ring, m.intoPolygon = some ring ∧ monotoneChains dbg srt ⟨ring, []⟩ = some [m] := by
  obtain ⟨ring, hr, hv⟩ := valid_ring hm ha
  refine ⟨ring, hr, ?_⟩
  obtain ⟨m', ring', o1, hr', -⟩ := C95_monotone (p := ⟨ring, []⟩) dbg srt hv (turns_ring hm ha hr hv)
  obtain ⟨out, o2, H⟩ := C97_sides (p := ⟨ring, []⟩) dbg srt hv
  obtain ⟨out', o3, D⟩ := monotoneChains_ok (p := ⟨ring, []⟩) dbg srt hv
  rw [o1, Option.some.injEq] at o2 o3
  subst o2 o3
  have V := C52_vertices o1 m' (by simp)
  have below := fun r => edgesBelow_ring hm hr r
  obtain ⟨_, hr2, -, -, -, mem, -, -⟩ := C43_into_polygon m hm
  rw [hr, Option.some.injEq] at hr2
  subst hr2
  obtain ⟨s, t, hst, lt, lb, it, ib⟩ := hm
  obtain ⟨s', t', hst', lt', lb', it', ib'⟩ := D.pair m' (by simp)
  replace it : Incr m.top := it
  replace ib : Incr m.bot := ib
  replace it' : Incr m'.top := it'
  replace ib' : Incr m'.bot := ib'
  have T : ∀ e, topCount [m'] e = (es m'.top).count e := by intro e; simp [topCount, es]
  have B : ∀ e, botCount [m'] e = (es m'.bot).count e := by intro e; simp [botCount, es]
  have flat : ([ring] : List (List (Pt K))).flatMap ringEdges = ringEdges ring := by simp
  -- the upper edges are in the upper chain
  have up : ∀ e ∈ es m.top, e ∈ es m'.top := by
    intro e he
    have hlt := it.edge_lt he
    rcases H e.1 e.2 (.inl (by rw [flat]; exact (mem_ring hr).2 (.inl he))) hlt with ⟨-, h, -⟩ | ⟨h, -, -⟩
    · rw [T] at h
      exact List.count_pos_iff.1 (by rw [h]; exact Nat.one_pos)
    · exfalso
      obtain ⟨r, r1, r2, r3⟩ := exists_between hlt
      have on : OnChain m.top r := it.onChain.2 ⟨e, he, r3, r1.le, r2.le⟩
      refine h r ⟨(onSeg_iff hlt).2 ⟨r3, r1.le, r2.le⟩, r1.ne', r2.ne⟩ ?_
      have c1 := it.on_not_pass on
      have c2 : Pass r m.bot := (chainBelow_iff ib).1 (ha r on (fun k => absurd (it.head_le k (mem_es he).1) (not_le.2 r1))
        fun k => absurd (it.le_last k (mem_es he).2) (not_le.2 r2))
      rw [pass_iff_cnt] at c1 c2
      have c3 : cnt r m.bot ≤ 1 := ib.cnt_le
      show Odd (edgesBelow [ring] r)
      rw [below, show cnt r m.top = 0 by omega, show cnt r m.bot = 1 by omega]
      decide
  -- the ends
  have hd : ∀ {l : List (Pt K)}, Leads l s t → ∃ a, (s, a) ∈ es l := fun hl =>
    mem_start (List.mem_of_head? hl.1) fun k => hst (by rw [hl.2] at k; exact (Option.some.inj k).symm)
  have tl : ∀ {l : List (Pt K)}, Leads l s t → ∃ a, (a, t) ∈ es l := fun hl =>
    mem_stop (List.mem_of_getLast? hl.2) fun k => hst (by rw [hl.1] at k; exact Option.some.inj k)
  have range : ∀ q ∈ m'.top, s ≤ q ∧ q ≤ t := by
    intro q hq
    obtain ⟨r, hr', hq'⟩ := V q (.inl hq)
    simp only [List.mem_singleton] at hr'
    subst hr'
    rcases (mem q).1 hq' with h | h
    · exact ⟨it.head_le lt.1 h, it.le_last lt.2 h⟩
    · exact ⟨ib.head_le lb.1 h, ib.le_last lb.2 h⟩
  obtain ⟨a, ha'⟩ := hd lt
  obtain ⟨b, hb'⟩ := tl lt
  have es1 : s' = s := le_antisymm (it'.head_le lt'.1 (mem_es (up _ ha')).1) (range _ (List.mem_of_head? lt'.1)).1
  have es2 : t' = t := le_antisymm (range _ (List.mem_of_getLast? lt'.2)).2 (it'.le_last lt'.2 (mem_es (up _ hb')).2)
  subst es1 es2
  have top_eq : m.top = m'.top := chain_eq it it' (by intro k; rw [k] at ha'; simp [es] at ha') (lt.1.trans lt'.1.symm) (lt.2.trans lt'.2.symm) up
  -- the lower edges are in the lower chain
  have dn : ∀ e ∈ es m.bot, e ∈ es m'.bot := by
    intro e he
    have hlt := ib.edge_lt he
    rcases H e.1 e.2 (.inr (by rw [flat]; exact (mem_ring hr).2 (.inr he))) hlt with ⟨-, h, -⟩ | ⟨-, -, h⟩
    · exfalso
      rw [T, ← top_eq] at h
      have he' : e ∈ es m.top := List.count_pos_iff.1 (by rw [h]; exact Nat.one_pos)
      obtain ⟨r, r1, r2, r3⟩ := exists_between hlt
      rcases ha.apart ib (it.onChain.2 ⟨e, he', r3, r1.le, r2.le⟩) (ib.onChain.2 ⟨e, he, r3, r1.le, r2.le⟩) with k | k
      · exact absurd (it.head_le k (mem_es he').1) (not_le.2 r1)
      · exact absurd (it.le_last k (mem_es he').2) (not_le.2 r2)
    · rw [B] at h
      exact List.count_pos_iff.1 (by rw [h]; exact Nat.one_pos)
  obtain ⟨c, hc⟩ := hd lb
  have bot_eq : m.bot = m'.bot := chain_eq ib ib' (by intro k; rw [k] at hc; simp [es] at hc) (lb.1.trans lb'.1.symm) (lb.2.trans lb'.2.symm) dn
  rw [o1]
  congr 2
  cases m; cases m'
  simp only at top_eq bot_eq
  rw [top_eq, bot_eq]

/-- **C98.** So the decomposition of a piece is the piece. -/
theorem C98_idempotent (dbg dbg' : Bool) (srt srt' : List (Event K) → List (Event K)) {p : Polygon K} (hp : ValidPolygon p.ext p.ints) :
    ∃ out, monotoneChains dbg srt p = some out ∧ ∀ m ∈ out, ∃ ring, m.intoPolygon = some ring ∧ monotoneChains dbg' srt' ⟨ring, []⟩ = some [m] := by
  obtain ⟨out, h, D⟩ := monotoneChains_ok dbg srt hp
  exact ⟨out, h, fun m hm => C98_fixed dbg' srt' (D.pair m hm) (D.strictly hm)⟩

namespace Demo

/-- The bow satisfies the hypotheses of C97, and is cut in two. -/
theorem bow_valid : ValidPolygon bow [] := validPolygon_of_check (by decide +kernel)

theorem bow_pieces : monotoneChains true id ⟨bow, []⟩ = some
    [⟨[⟨0, -3⟩, ⟨2, 0⟩, ⟨5, 0⟩, ⟨7, -3⟩], [⟨0, -3⟩, ⟨7, -3⟩]⟩, ⟨[⟨0, 3⟩, ⟨7, 3⟩], [⟨0, 3⟩, ⟨2, 0⟩, ⟨5, 0⟩, ⟨7, 3⟩]⟩] := by decide +kernel

/-- The lower piece of the bow satisfies the hypotheses of C98. -/
example : ∃ m : MonoPoly ℚ, m.top = [⟨0, -3⟩, ⟨2, 0⟩, ⟨5, 0⟩, ⟨7, -3⟩] ∧ m.bot = [⟨0, -3⟩, ⟨7, -3⟩] ∧ MonotonePair m.top m.bot ∧
    StrictlyAbove m.top m.bot := by
  obtain ⟨out, h, H⟩ := C97_simple (p := ⟨bow, []⟩) true id bow_valid
  rw [bow_pieces, Option.some.injEq] at h
  subst h
  refine ⟨⟨[⟨0, -3⟩, ⟨2, 0⟩, ⟨5, 0⟩, ⟨7, -3⟩], [⟨0, -3⟩, ⟨7, -3⟩]⟩, rfl, rfl, ⟨⟨0, -3⟩, ⟨7, -3⟩, ?_⟩, (H _ (by simp)).1⟩
  simp only [Leads]
  decide +kernel

/-- The lower piece of the bow is returned as it is. -/
example : monotoneChains true id ⟨[⟨0, -3⟩, ⟨2, 0⟩, ⟨5, 0⟩, ⟨7, -3⟩, (⟨0, -3⟩ : Pt ℚ)], []⟩ =
    some [⟨[⟨0, -3⟩, ⟨2, 0⟩, ⟨5, 0⟩, ⟨7, -3⟩], [⟨0, -3⟩, ⟨7, -3⟩]⟩] := by decide +kernel

end Demo

end GeoCrossings.Monotone

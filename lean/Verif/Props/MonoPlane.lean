import Verif.Props.MonoSimple

/-!
# The segments of the pieces of `monotone_chains` form a plane graph on the vertices of the polygon (C99)
-/
set_option linter.unusedSectionVars false
namespace GeoCrossings.Monotone
open Spec

variable {K : Type} [Field K] [LinearOrder K] [IsStrictOrderedRing K]

/-- A segment of one of the chains of a piece. -/
def SegOf (m : MonoPoly K) (a b : Pt K) : Prop := EdgeOf m.top a b ∨ EdgeOf m.bot a b

/-- A vertex of a closed ring is the start of an edge. -/
theorem start_of_closed {ring : List (Pt K)} (h : ring.head? = ring.getLast?) (hl : 4 ≤ ring.length) {w : Pt K} (hw : w ∈ ring) :
    ∃ b, (w, b) ∈ ringEdges ring := by
  by_cases hc : ring.getLast? = some w
  · rw [← h] at hc
    match ring, hl, hc with
    | _ :: b :: l, _, hc =>
      simp only [List.head?_cons, Option.some.injEq] at hc
      subst hc
      exact ⟨b, by simp [ringEdges]⟩
  · exact mem_start hw hc

theorem vertex_num {p : Polygon K} (hp : ValidPolygon p.ext p.ints) {ring : List (Pt K)} (hr : ring ∈ p.ext :: p.ints) {w : Pt K} (hw : w ∈ ring) :
    ∃ k, 1 ≤ k ∧ k ≤ (dir (ringsOf p.ext p.ints)).length ∧ EndOf (numEd (ringsOf p.ext p.ints) k) w := by
  obtain ⟨h1, h2⟩ := hp.closed ring hr
  obtain ⟨b, hb⟩ := start_of_closed h1 h2 hw
  exact side_num (e := (w, b)) (List.mem_flatMap.2 ⟨ring, hr, hb⟩)

section
variable {p : Polygon K} {out : List (MonoPoly K)}

theorem Decomposed.seg_lt {n : Nat} {ed : Nat → Sg K} {top : Nat → Bool} (D : Decomposed n ed top out) {m : MonoPoly K} (hm : m ∈ out) {a b : Pt K}
    (h : SegOf m a b) : a < b := by
  obtain ⟨-, -, -, -, -, h1, h2⟩ := D.pair m hm
  rcases h with h | h
  · exact Incr.edge_lt (show Incr m.top from h1) (edgeOf_es.1 h)
  · exact Incr.edge_lt (show Incr m.bot from h2) (edgeOf_es.1 h)

theorem Decomposed.no_vertex (hp : ValidPolygon p.ext p.ints)
    (D : Decomposed (dir (ringsOf p.ext p.ints)).length (numEd (ringsOf p.ext p.ints)) (numTop (ringsOf p.ext p.ints)) out) {m : MonoPoly K}
    (hm : m ∈ out) {a b : Pt K} (h : SegOf m a b) {ring : List (Pt K)} (hr : ring ∈ p.ext :: p.ints) {w : Pt K} (hw : w ∈ ring) :
    ¬ Within a b w := by
  intro hc
  obtain ⟨c1, c2, c3⟩ := within_lt (D.seg_lt hm h) hc
  obtain ⟨k, k1, k2, k3⟩ := vertex_num hp hr hw
  rcases h with h | h
  · exact (D.good m hm).1 _ (edgeOf_es.1 h) k k1 k2 w k3 c1 c2 c3
  · exact (D.good m hm).2 _ (edgeOf_es.1 h) k k1 k2 w k3 c1 c2 c3

end

/-- **C99.** On a valid polygon, no vertex of the polygon lies inside a segment of a chain that `monotone_chains` returns. -/
theorem C99_vertices (dbg : Bool) (srt : List (Event K) → List (Event K)) {p : Polygon K} (hp : ValidPolygon p.ext p.ints) :
    ∃ out, monotoneChains dbg srt p = some out ∧ ∀ m ∈ out, ∀ a b, SegOf m a b → ∀ ring ∈ p.ext :: p.ints, ∀ w ∈ ring, ¬ Within a b w := by
  obtain ⟨out, h, D⟩ := monotoneChains_ok dbg srt hp
  exact ⟨out, h, fun m hm a b hs ring hr w hw => D.no_vertex hp hm hs hr hw⟩

/-- **C99.** So a vertex of the polygon that lies on a chain of a piece is one of the vertices of this chain. -/
theorem C99_conforming (dbg : Bool) (srt : List (Event K) → List (Event K)) {p : Polygon K} (hp : ValidPolygon p.ext p.ints) :
    ∃ out, monotoneChains dbg srt p = some out ∧ ∀ m ∈ out, ∀ ring ∈ p.ext :: p.ints, ∀ w ∈ ring,
      (OnChain m.top w → w ∈ m.top) ∧ (OnChain m.bot w → w ∈ m.bot) := by
  obtain ⟨out, h, H⟩ := C99_vertices dbg srt hp
  refine ⟨out, h, fun m hm ring hr w hw => ⟨?_, ?_⟩⟩ <;> rintro ⟨a, b, h1, h2⟩ <;> by_contra hc
  · have := mem_es (edgeOf_es.1 h1)
    exact H m hm a b (.inl h1) ring hr w hw ⟨h2, fun e => hc (e ▸ this.1), fun e => hc (e ▸ this.2)⟩
  · have := mem_es (edgeOf_es.1 h1)
    exact H m hm a b (.inr h1) ring hr w hw ⟨h2, fun e => hc (e ▸ this.1), fun e => hc (e ▸ this.2)⟩

/-! ## Two segments -/

theorem count_two_rings {r : Pt K} : ∀ {out : List (MonoPoly K)} {rings : List (List (Pt K))}, out.mapM MonoPoly.intoPolygon = some rings →
    (∀ m ∈ out, (∃ ring, m.intoPolygon = some ring ∧ EvenOdd [ring] r) → 1 ≤ rings.countP fun ring => EvenOdd [ring] r) ∧
    ∀ m ∈ out, ∀ m' ∈ out, m ≠ m' → (∃ ring, m.intoPolygon = some ring ∧ EvenOdd [ring] r) →
      (∃ ring, m'.intoPolygon = some ring ∧ EvenOdd [ring] r) → 2 ≤ rings.countP fun ring => EvenOdd [ring] r
  | [], _, _ => ⟨by simp, by simp⟩
  | m :: out, rings, h => by
    rw [List.mapM_cons] at h
    cases h1 : m.intoPolygon with
    | none => rw [h1] at h; simp at h
    | some x =>
      cases h2 : out.mapM MonoPoly.intoPolygon with
      | none => rw [h1, h2] at h; simp at h
      | some xs =>
        rw [h1, h2] at h
        simp only [Option.pure_def, Option.bind_eq_bind, Option.bind_some, Option.some.injEq] at h
        subst h
        obtain ⟨i1, i2⟩ := count_two_rings (r := r) h2
        have one : (∃ ring, m.intoPolygon = some ring ∧ EvenOdd [ring] r) → EvenOdd [x] r := by
          rintro ⟨ring, e, hr⟩
          rw [h1, Option.some.injEq] at e
          exact e ▸ hr
        rw [List.countP_cons]
        constructor
        · intro a ha hs
          rcases List.mem_cons.1 ha with rfl | ha
          · rw [if_pos (by simpa using one hs)]; omega
          · have := i1 a ha hs
            split <;> omega
        · intro a ha b hb hab hs hs'
          rcases List.mem_cons.1 ha with rfl | ka <;> rcases List.mem_cons.1 hb with rfl | kb
          · exact absurd rfl hab
          · have := i1 b kb hs'
            rw [if_pos (by simpa using one hs)]; omega
          · have := i1 a ka hs
            rw [if_pos (by simpa using one hs')]; omega
          · have := i2 a ka b kb hab hs hs'
            split <;> omega

theorem topCount_of {e : Sg K} {out : List (MonoPoly K)} {m : MonoPoly K} (hm : m ∈ out) (he : e ∈ es m.top) : 0 < topCount out e := by
  have h1 : 0 < (es m.top).count e := List.count_pos_iff.2 he
  have h2 : (es m.top).count e ≤ topCount out e := List.single_le_sum (fun _ _ => Nat.zero_le _) _ (List.mem_map.2 ⟨m, hm, rfl⟩)
  omega

theorem botCount_of {e : Sg K} {out : List (MonoPoly K)} {m : MonoPoly K} (hm : m ∈ out) (he : e ∈ es m.bot) : 0 < botCount out e := by
  have h1 : 0 < (es m.bot).count e := List.count_pos_iff.2 he
  have h2 : (es m.bot).count e ≤ botCount out e := List.single_le_sum (fun _ _ => Nat.zero_le _) _ (List.mem_map.2 ⟨m, hm, rfl⟩)
  omega

/-- **C99.** Two different segments of chains, of the same piece or of two pieces, have at most ends in common. With C52 and
`C99_vertices`: the segments are the edges of a plane graph on the vertices of the polygon. -/
theorem C99_plane (dbg : Bool) (srt : List (Event K) → List (Event K)) {p : Polygon K} (hp : ValidPolygon p.ext p.ints) :
    ∃ out, monotoneChains dbg srt p = some out ∧ ∀ m ∈ out, ∀ m' ∈ out, ∀ a b c d, SegOf m a b → SegOf m' c d → (a, b) ≠ (c, d) →
      ∀ x, OnSeg a b x → OnSeg c d x → (x = a ∨ x = b) ∧ (x = c ∨ x = d) := by
  obtain ⟨out, h, D⟩ := monotoneChains_ok dbg srt hp
  obtain ⟨out1, h1, HS⟩ := C97_sides dbg srt hp
  obtain ⟨out2, h2, HD⟩ := C97_diagonals dbg srt hp
  rw [h, Option.some.injEq] at h1 h2
  subst h1 h2
  refine ⟨out, h, fun m hm m' hm' a b c d s1 s2 hne x x1 x2 => ?_⟩
  have V : ∀ {m : MonoPoly K} {a b : Pt K}, m ∈ out → SegOf m a b → (∃ r ∈ p.ext :: p.ints, a ∈ r) ∧ ∃ r ∈ p.ext :: p.ints, b ∈ r := by
    intro m a b hm hs
    have v := C52_vertices h m hm
    rcases hs with hs | hs
    · have := mem_es (edgeOf_es.1 hs)
      exact ⟨v _ (.inl this.1), v _ (.inl this.2)⟩
    · have := mem_es (edgeOf_es.1 hs)
      exact ⟨v _ (.inr this.1), v _ (.inr this.2)⟩
  -- an end of one is not inside the other
  have ends : ∀ {m m' : MonoPoly K} {a b c d : Pt K}, m ∈ out → m' ∈ out → SegOf m a b → SegOf m' c d → OnSeg c d x → (x = a ∨ x = b) →
      (x = c ∨ x = d) := by
    intro m m' a b c d hm hm' s1 s2 x2 hx
    have : ∃ r ∈ p.ext :: p.ints, x ∈ r := by
      rcases hx with rfl | rfl
      · exact (V hm s1).1
      · exact (V hm s1).2
    obtain ⟨r, hr, hxr⟩ := this
    by_contra hc
    rw [not_or] at hc
    exact D.no_vertex hp hm' s2 hr hxr ⟨x2, hc.1, hc.2⟩
  by_cases e1 : x = a ∨ x = b
  · exact ⟨e1, ends hm hm' s1 s2 x2 e1⟩
  by_cases e2 : x = c ∨ x = d
  · exact ⟨ends hm' hm s2 s1 x1 e2, e2⟩
  exfalso
  rw [not_or] at e1 e2
  have w1 : Within a b x := ⟨x1, e1.1, e1.2⟩
  have w2 : Within c d x := ⟨x2, e2.1, e2.2⟩
  -- a segment is in an upper chain, or a side with the interior above it
  have kind : ∀ {m : MonoPoly K} {a b : Pt K}, m ∈ out → SegOf m a b → (∃ m ∈ out, (a, b) ∈ es m.top) ∨
      (((a, b) ∈ (p.ext :: p.ints).flatMap ringEdges ∨ (b, a) ∈ (p.ext :: p.ints).flatMap ringEdges) ∧
        ∀ r, Within a b r → ¬ EvenOdd (p.ext :: p.ints) r) := by
    intro m a b hm hs
    rcases hs with hs' | hs'
    · exact .inl ⟨m, hm, edgeOf_es.1 hs'⟩
    · have hb := botCount_of hm (edgeOf_es.1 hs')
      by_cases hc : (a, b) ∈ (p.ext :: p.ints).flatMap ringEdges ∨ (b, a) ∈ (p.ext :: p.ints).flatMap ringEdges
      · rcases HS a b hc (D.seg_lt hm (.inr hs')) with ⟨-, -, k⟩ | ⟨k, -, -⟩
        · omega
        · exact .inr ⟨hc, k⟩
      · rw [not_or] at hc
        rcases HD a b hc.1 hc.2 with ⟨-, k⟩ | ⟨k, -, -⟩
        · omega
        · exact .inl (topCount_pos (by omega))
  have inside : ∀ {m : MonoPoly K} {a b : Pt K}, m ∈ out → (a, b) ∈ es m.top → Within a b x → EvenOdd (p.ext :: p.ints) x := fun hm he hw =>
    ((D.once hp _).2 (topCount_of hm he)).2 x hw
  rcases kind hm s1 with ⟨n1, m1, t1⟩ | ⟨g1, o1⟩ <;> rcases kind hm' s2 with ⟨n2, m2, t2⟩ | ⟨g2, o2⟩
  · obtain ⟨rings, r1, r2, -⟩ := D.cover (edges_valid hp)
    have inc : ∀ {m}, m ∈ out → Incr m.top := fun {m} hm => by
      obtain ⟨-, -, -, -, -, h, -⟩ := D.pair m hm
      exact h
    have q1 := within_lt ((inc m1).edge_lt t1) w1
    have q2 := within_lt ((inc m2).edge_lt t2) w2
    have hr : ∀ {m e}, m ∈ out → e ∈ es m.top → (e.1 < x ∧ x < e.2 ∧ det e.1 e.2 x = 0) → ∃ ring, m.intoPolygon = some ring ∧ EvenOdd [ring] x := by
      intro m e hm he hx
      obtain ⟨ring, hr, -⟩ := valid_ring (D.pair m hm) (D.strictly hm)
      exact ⟨ring, hr, D.in_top hm he hx.1 hx.2.1 hx.2.2 hr⟩
    by_cases e : n1 = n2
    · subst e
      rcases (inc m1).edges_apart t1 t2 hne with k | k
      · exact absurd (q1.2.1.trans_le k) (_root_.lt_asymm q2.1)
      · exact absurd (q2.2.1.trans_le k) (_root_.lt_asymm q1.1)
    · have := (count_two_rings r1).2 n1 m1 n2 m2 e (hr m1 t1 q1) (hr m2 t2 q2)
      rw [r2 x] at this
      split at this <;> omega
  · exact o2 x w2 (inside m1 t1 w1)
  · exact o1 x w1 (inside m2 t2 w2)
  · have l1 := D.seg_lt hm s1
    have l2 := D.seg_lt hm' s2
    have opp : ¬ (a = d ∧ b = c) := by
      rintro ⟨rfl, rfl⟩
      exact absurd l1 (_root_.lt_asymm l2)
    have ne : ¬ (a = c ∧ b = d) := by
      rintro ⟨rfl, rfl⟩
      exact hne rfl
    rcases g1 with g1 | g1 <;> rcases g2 with g2 | g2
    · exact absurd (hp.meet _ g1 _ g2 (by simpa using ne) x x1 x2).1 (by simpa using e1)
    · exact absurd (hp.meet _ g1 _ g2 (by simpa using opp) x x1 (onSeg_swap x2)).1 (by simpa using e1)
    · exact absurd (hp.meet _ g1 _ g2 (by simp only [ne_eq, Prod.mk.injEq]; tauto) x (onSeg_swap x1) x2).1 (by simp only; tauto)
    · exact absurd (hp.meet _ g1 _ g2 (by simp only [ne_eq, Prod.mk.injEq]; tauto) x (onSeg_swap x1) (onSeg_swap x2)).1 (by simp only; tauto)

namespace Demo

/-- The pieces of the bow have the diagonal from (2, 0) to (5, 0) in common. -/
example : ∃ out, monotoneChains true id ⟨bow, []⟩ = some out ∧ ∃ m ∈ out, ∃ m' ∈ out, m ≠ m' ∧ SegOf m ⟨2, 0⟩ ⟨5, 0⟩ ∧ SegOf m' ⟨2, 0⟩ ⟨5, 0⟩ := by
  refine ⟨_, bow_pieces, _, List.mem_cons_self, _, List.mem_cons_of_mem _ List.mem_cons_self, by decide +kernel, .inl ?_, .inr ?_⟩
  · exact ⟨[⟨0, -3⟩], [⟨7, -3⟩], rfl⟩
  · exact ⟨[⟨0, 3⟩], [⟨7, 3⟩], rfl⟩

/-- Of the segments of the bow, that from (0, -3) to (2, 0) and that from (2, 0) to (5, 0) have the point (2, 0) in common. -/
example : SegOf (⟨[⟨0, -3⟩, ⟨2, 0⟩, ⟨5, 0⟩, ⟨7, -3⟩], [⟨0, -3⟩, ⟨7, -3⟩]⟩ : MonoPoly ℚ) ⟨0, -3⟩ ⟨2, 0⟩ := .inl ⟨[], [⟨5, 0⟩, ⟨7, -3⟩], rfl⟩

end Demo

end GeoCrossings.Monotone

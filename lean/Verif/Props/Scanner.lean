import Verif.Lemmas.Scanner
import Verif.Props.MonoPoly

/-! # The scanner over a monotone polygon (C45, C46, C47) -/
set_option linter.unusedSectionVars false
namespace GeoCrossings
open Spec

variable {K : Type _} [Field K] [LinearOrder K] [IsStrictOrderedRing K]

/-- The scanner states that can arise from `Scanner::new(m)` by pulling items from iterators returned by `advance_to` /
`advance_upto`, with arbitrary limits and dropping iterators at any time; with the trapezoids produced on the way. -/
inductive Reach (m : MonoPoly K) : Scanner K → List (Trapz K) → Prop
  | init {s} : Scanner.new m = some s → Reach m s []
  | round {s ts til s' r} : Reach m s ts → s.curr.x < til → s.advanceNext til = some (some (s', r)) → Reach m s' (ts ++ r.toList)

theorem scanner_new {m : MonoPoly K} (h : MonotonePair m.top m.bot) :
    ∃ s, Scanner.new m = some s ∧ ScanInv s ∧ s.poly = m ∧ scanRest s = areaUnder m.top - areaUnder m.bot ∧
      (∀ t, m.top.head? = some t → s.curr.x = t.x) := by
  obtain ⟨p, e, hse, lt, lb, st, sb⟩ := id h
  have h1 : m.top[0]? = some p := by rw [← List.head?_eq_getElem?]; exact lt.1
  have h2 : m.bot[0]? = some p := by rw [← List.head?_eq_getElem?]; exact lb.1
  refine ⟨⟨m, ⟨p.x, p.y, p.y⟩, 0, 0⟩, by simp [Scanner.new, h1, h2], ⟨h, ⟨p, at_vertex st h1⟩, ⟨p, at_vertex sb h2⟩⟩, rfl, ?_, ?_⟩
  · have aux : ∀ l : List (Pt K), l[0]? = some p → restArea l 0 p.x p.y = areaUnder l := by
      intro l hl
      unfold restArea
      cases l with
      | nil => cases hl
      | cons a l => simp at hl; subst hl; rfl
    unfold scanRest
    simp only
    rw [aux _ h1, aux _ h2]
  · intro t ht
    rw [lt.1] at ht; cases ht; rfl

theorem contiguous_append {a b c : K} {ts us : List (Trapz K)} (h1 : Contiguous a ts b) (h2 : Contiguous b us c) :
    Contiguous a (ts ++ us) c := by
  induction ts generalizing a with
  | nil => cases h1; exact h2
  | cons t ts ih => exact ⟨h1.1, h1.2.1, ih h1.2.2⟩

theorem stepOk_contiguous {s s' : Scanner K} {til : K} {r : Option (Trapz K)} (h : StepOk s til s' r) :
    Contiguous s.curr.x r.toList s'.curr.x := by
  cases r with
  | none => exact (h.none_x rfl).symm
  | some t =>
    obtain ⟨a, b, c, -⟩ := h.some_x t rfl
    exact ⟨by rw [a], by rw [a, b]; exact c, by rw [b]; rfl⟩

/-- Everything that holds in a reachable state. -/
theorem reach_inv {m : MonoPoly K} (hm : MonotonePair m.top m.bot) {s : Scanner K} {ts : List (Trapz K)} (h : Reach m s ts) :
    ScanInv s ∧ s.poly = m ∧ (∀ p, m.top.head? = some p → Contiguous p.x ts s.curr.x) ∧ (∀ t ∈ ts, Follows m t) ∧
      (ts.map Trapz.area).sum + scanRest s = areaUnder m.top - areaUnder m.bot := by
  induction h with
  | init h =>
    obtain ⟨s, h1, h2, h3, h4, h5⟩ := scanner_new hm
    rw [h] at h1; cases h1
    exact ⟨h2, h3, fun p hp => (h5 p hp).symm, by simp, by simpa using h4⟩
  | @round s ts til s' r _ hx h ih =>
    obtain ⟨i1, i2, i3, i4, i5⟩ := ih
    rcases advanceNext_spec i1 hx with ⟨e, -⟩ | ⟨s'', r', e, ok⟩
    · rw [h] at e; cases e
    rw [h] at e
    cases e
    refine ⟨ok.inv, ok.poly.trans i2, fun p hp => contiguous_append (i3 p hp) (stepOk_contiguous ok), ?_, ?_⟩
    · intro t ht
      rcases List.mem_append.1 ht with ht | ht
      · exact i4 t ht
      · rw [Option.mem_toList] at ht
        rw [← i2]; exact (ok.some_x t ht).2.2.2
    · rw [← i5, ok.area, List.map_append, List.sum_append, add_assoc]
      congr 2
      cases r <;> simp

/-- The right end of a polygon. -/
theorem advanceTo_spec {m : MonoPoly K} (hm : MonotonePair m.top m.bot) {e : Pt K} (he : m.top.getLast? = some e) {til : K} :
    ∀ (fuel : Nat) (s : Scanner K) (ts : List (Trapz K)), Reach m s ts → (s.curr.x < til → scanLeft s + 2 ≤ fuel) → 1 ≤ fuel →
    ∃ s' us, Scanner.advanceTo fuel s til = some (s', us) ∧ Reach m s' (ts ++ us) ∧ Contiguous s.curr.x us s'.curr.x ∧
      (∀ t ∈ us, t.right.x ≤ til) ∧ s'.curr.x = (if s.curr.x < til then min til e.x else s.curr.x) := by
  intro fuel
  induction fuel with
  | zero => intro s ts _ _ h; omega
  | succ fuel ih =>
    intro s ts hr hf _
    obtain ⟨hi, hp, -⟩ := reach_inv hm hr
    unfold Scanner.advanceTo
    by_cases hx : s.curr.x < til
    · rw [if_pos hx, if_pos hx]
      obtain ⟨ps, pe, hse, lt, lb, st, sb⟩ := hm
      have hpe : pe = e := by have := lt.2; rw [he] at this; exact (Option.some.inj this).symm
      subst hpe
      rcases advanceNext_spec hi hx with ⟨h, hT, hB⟩ | ⟨s', r, h, ok⟩
      · refine ⟨s, [], by rw [h]; rfl, by simpa using hr, rfl, by simp, ?_⟩
        obtain ⟨t, ht⟩ := hi.top
        rw [hp] at hT ht
        have := (at_last_x lt ht hT).1
        rw [min_eq_right (this ▸ hx.le)]; exact this
      · have hr' := Reach.round hr hx h
        have hend : s'.curr.x ≤ pe.x := by
          obtain ⟨t, ht⟩ := ok.inv.top
          rw [ok.poly, hp] at ht
          exact at_le_end lt st ht
        obtain ⟨s'', us, g1, g2, g3, g4, g5⟩ := ih s' _ hr' (by
          intro hx'
          rcases ok.progress with hlt | heq
          · have := hf hx; omega
          · exact absurd heq hx'.ne) (by have := hf hx; omega)
        refine ⟨s'', r.toList ++ us, ?_, by rw [← List.append_assoc]; exact g2,
          contiguous_append (stepOk_contiguous ok) g3, ?_, ?_⟩
        · rw [h]
          show (do let (s'', rest) ← Scanner.advanceTo fuel s' til; pure (s'', r.toList ++ rest)) = _
          rw [g1]; rfl
        · intro t ht
          rcases List.mem_append.1 ht with ht | ht
          · rw [Option.mem_toList] at ht
            rw [(ok.some_x t ht).2.1]; exact ok.le_til
          · exact g4 t ht
        · rw [g5]
          split_ifs with hc
          · rfl
          · have : s'.curr.x = til := le_antisymm ok.le_til (not_lt.1 hc)
            rw [this] at hend ⊢
            exact (min_eq_left hend).symm
    · rw [if_neg hx, if_neg hx]
      exact ⟨s, [], rfl, by simpa using hr, rfl, by simp, rfl⟩

/-- **C45.** For any history of the scanner and any next limit: the trapezoids delivered by `advance_to` / `advance_upto` have
positive width, follow each other without gap starting where the scanner stands (in fact without gap from the polygon's left
end), none passes the limit, and the scanner ends at the limit or at the polygon's right end, whichever comes first (it does not
move if it already stands at or past the limit). -/
theorem C45_contiguous {m : MonoPoly K} (hm : MonotonePair m.top m.bot) {p e : Pt K} (hp : m.top.head? = some p)
    (he : m.top.getLast? = some e) {s : Scanner K} {ts : List (Trapz K)} (h : Reach m s ts) (til : K) :
    Contiguous p.x ts s.curr.x ∧
    ∃ s' us, Scanner.advanceTo s.rounds s til = some (s', us) ∧ Reach m s' (ts ++ us) ∧ Contiguous s.curr.x us s'.curr.x ∧
      (∀ t ∈ us, t.right.x ≤ til) ∧ s'.curr.x = (if s.curr.x < til then min til e.x else s.curr.x) := by
  refine ⟨(reach_inv hm h).2.2.1 p hp, advanceTo_spec hm he _ s ts h (fun _ => ?_) ?_⟩
  · unfold scanLeft Scanner.rounds; omega
  · unfold Scanner.rounds; omega

theorem areaUnder_vertical {x : K} : ∀ (l : List (Pt K)), (∀ p ∈ l, p.x = x) → areaUnder l = 0
  | [], _ => rfl
  | [a], _ => rfl
  | a :: b :: l, h => by
    unfold areaUnder
    rw [h a (by simp), h b (by simp), areaUnder_vertical (b :: l) (fun p hp => h p (by simp [hp]))]
    ring

theorem restArea_end {l : List (Pt K)} {p e : Pt K} (hl : Leads l p e) (hs : l.Pairwise (· < ·)) {i : Nat} {t : Pt K} {x y : K}
    (h : At l i t x y) (hx : x = e.x) : restArea l i x y = 0 := by
  unfold restArea
  apply areaUnder_vertical (x := x)
  intro q hq
  rcases List.mem_cons.1 hq with rfl | hq
  · rfl
  · have hm := List.mem_of_mem_drop hq
    have h1 := Pt.x_le_of_le (sorted_bounds hl hs hm).2
    refine le_antisymm (hx ▸ h1) ?_
    obtain ⟨j, hj⟩ := List.mem_iff_getElem?.1 hq
    rw [List.getElem?_drop] at hj
    cases hn : l[i + 1]? with
    | none => rw [List.getElem?_eq_none_iff] at hn; have := getElem?_lt hj; omega
    | some t' =>
      refine (h.edge t' hn).1.trans ?_
      rcases Nat.eq_zero_or_pos j with rfl | hjp
      · rw [Nat.add_zero, hn] at hj; cases hj; exact le_rfl
      · have := List.pairwise_iff_getElem.1 hs (i + 1) (i + 1 + j) (getElem?_lt hn) (getElem?_lt hj) (by omega)
        rw [(List.getElem?_eq_some_iff.1 hn).2, (List.getElem?_eq_some_iff.1 hj).2] at this
        exact Pt.x_le_of_le this.le

/-- **C46.** Each trapezoid's upper side lies on an edge of the top chain and its lower side on an edge of the bottom chain; and
once the scanner has reached the right end, however it was driven there, the areas of the trapezoids add up exactly to the area
of the polygon: the area under the top chain minus the area under the bottom chain, which is the (clockwise) shoelace area of the
ring that `into_polygon` returns. -/
theorem C46_follows_and_area {m : MonoPoly K} (hm : MonotonePair m.top m.bot) {s : Scanner K} {ts : List (Trapz K)}
    (h : Reach m s ts) :
    (∀ t ∈ ts, Follows m t) ∧
    (∀ e, m.top.getLast? = some e → s.curr.x = e.x →
      (ts.map Trapz.area).sum = areaUnder m.top - areaUnder m.bot ∧
      ∀ ring, m.intoPolygon = some ring → (ts.map Trapz.area).sum = -ringArea ring) := by
  obtain ⟨hi, hp, -, hf, ha⟩ := reach_inv hm h
  refine ⟨hf, fun e he hx => ?_⟩
  obtain ⟨ps, pe, hse, lt, lb, st, sb⟩ := id hm
  have hpe : pe = e := by have := lt.2; rw [he] at this; exact (Option.some.inj this).symm
  subst hpe
  obtain ⟨t, ht⟩ := hi.top
  obtain ⟨b, hb⟩ := hi.bot
  have e0 : (ts.map Trapz.area).sum = areaUnder m.top - areaUnder m.bot := by
    rw [← ha]
    unfold scanRest
    rw [hp] at ht hb ⊢
    rw [restArea_end lt st ht hx, restArea_end lb sb hb hx]
    ring
  refine ⟨e0, fun ring hr => ?_⟩
  obtain ⟨ring', h1, -, -, -, -, h2, -⟩ := C43_into_polygon m hm
  rw [hr] at h1; cases h1
  rw [e0, h2]; ring

theorem at_onChain {l : List (Pt K)} (hs : l.Pairwise (· < ·)) (h2 : 2 ≤ l.length) {i : Nat} {t : Pt K} {x y : K} (h : At l i t x y) :
    OnChain l ⟨x, y⟩ := by
  cases hn : l[i + 1]? with
  | none =>
    obtain ⟨rfl, rfl⟩ := h.last hn
    exact onChain_vertex h2 (List.mem_of_getElem? h.cur)
  | some t' => exact ⟨t, t', edgeOf_get h.cur hn, onSeg_at hs h hn⟩

/-- **C47.** From any state a scanner over a polygon accepted by `MonoPoly::new` can get into: a round never panics (no index is
out of range), and either reports the end of both chains, or passes at least one vertex, or stops at the limit; so `advance_to`
terminates, within as many rounds as the chains have vertices, plus two. The scanner's position is always on both chains, so the
interpolation never leaves its edge. -/
theorem C47_terminates {top bot : List (Pt K)} {m : MonoPoly K} (hm : MonoPoly.new top bot = some m) {s : Scanner K}
    {ts : List (Trapz K)} (h : Reach m s ts) (til : K) :
    (s.curr.x < til →
      (s.advanceNext til = some none ∧ s.poly.top.length = s.topIdx + 1 ∧ s.poly.bot.length = s.botIdx + 1) ∨
      ∃ s' r, s.advanceNext til = some (some (s', r)) ∧
        (s'.curr.x = til ∨ s.topIdx < s'.topIdx ∨ s.botIdx < s'.botIdx) ∧
        OnChain m.top ⟨s'.curr.x, s'.curr.top⟩ ∧ OnChain m.bot ⟨s'.curr.x, s'.curr.bot⟩) ∧
    ∃ out, Scanner.advanceTo (m.top.length + m.bot.length + 2) s til = some out := by
  have hm := ((C42_new_accepts_iff top bot m).1 hm).elim fun a b => show MonotonePair m.top m.bot by rw [a]; exact b
  obtain ⟨hi, hp, -⟩ := reach_inv hm h
  refine ⟨fun hx => ?_, ?_⟩
  · rcases advanceNext_spec hi hx with ⟨e, hT, hB⟩ | ⟨s', r, e, ok⟩
    · obtain ⟨t, ht⟩ := hi.top
      obtain ⟨b, hb⟩ := hi.bot
      have := getElem?_lt ht.cur
      have := getElem?_lt hb.cur
      rw [List.getElem?_eq_none_iff] at hT hB
      exact .inl ⟨e, by omega, by omega⟩
    · have h2 := hp ▸ ok.poly
      have h3 := ok.inv
      obtain ⟨ps, pe, hse, lt, lb, st, sb⟩ := hm
      refine .inr ⟨s', r, e, ?_, ?_, ?_⟩
      · rcases ok.progress with k | k
        · right
          by_contra hc
          unfold scanLeft at k
          rw [ok.poly] at k
          omega
        · exact .inl k
      · obtain ⟨t, ht⟩ := h3.top
        rw [h2] at ht
        exact at_onChain st (two_le_length lt hse) ht
      · obtain ⟨t, ht⟩ := h3.bot
        rw [h2] at ht
        exact at_onChain sb (two_le_length lb hse) ht
  · obtain ⟨ps, pe, hse, lt, lb, st, sb⟩ := id hm
    obtain ⟨s', us, e, -⟩ := (C45_contiguous hm lt.1 lt.2 h til).2
    exact ⟨_, by rw [Scanner.rounds, hp] at e; exact e⟩

/-- With `top` above `bot`, so is the upper side of every trapezoid. -/
theorem follows_above {m : MonoPoly K} (ha : LiesAbove m.top m.bot) {t : Trapz K} (h : Follows m t) :
    t.left.bot ≤ t.left.top ∧ t.right.bot ≤ t.right.top := by
  obtain ⟨⟨a, b, h1, h2, h3⟩, ⟨c, d, h4, h5, h6⟩⟩ := h
  exact ⟨ha _ _ _ ⟨a, b, h1, h2⟩ ⟨c, d, h4, h5⟩, ha _ _ _ ⟨a, b, h1, h3⟩ ⟨c, d, h4, h6⟩⟩

/-- `scan_lines` yields a reachable state standing at `left` (or at an end of the polygon). -/
theorem scanLines_reach {m : MonoPoly K} (hm : MonotonePair m.top m.bot) {p e : Pt K} (hp : m.top.head? = some p)
    (he : m.top.getLast? = some e) (left : K) :
    ∃ s ts, m.scanLines left = some s ∧ Reach m s ts ∧ s.curr.x = if p.x < left then min left e.x else p.x := by
  obtain ⟨s, h1, -, -, -, h2⟩ := scanner_new hm
  obtain ⟨-, s', us, g1, g2, -, -, g5⟩ := C45_contiguous hm hp he (.init h1) left
  exact ⟨s', _, by simp [MonoPoly.scanLines, h1, g1], g2, by rw [g5, h2 p hp]⟩

section examples
/-- A triangle with a vertical edge at its right end. -/
def demo : MonoPoly ℚ := ⟨[⟨0, 0⟩, ⟨2, 3⟩, ⟨4, 5⟩], [⟨0, 0⟩, ⟨3, -1⟩, ⟨4, 2⟩, ⟨4, 5⟩]⟩

example : MonoPoly.new demo.top demo.bot = some demo := by decide +kernel
/-- Drive it to 1, then to 5/2, then past the end. -/
def demoRun : Option (ℚ × List ℚ) := do
  let s ← Scanner.new demo
  let (s, a) ← s.advanceTo s.rounds 1
  let (s, b) ← s.advanceTo s.rounds (5/2)
  let (s, c) ← s.advanceTo s.rounds 9
  pure (s.curr.x, (a ++ b ++ c).map Trapz.area)

/-- The hypotheses of C45, C46 and C47 are met, and the scan does something: five trapezoids, of total area 12. -/
example : demoRun = some (4, [11 / 12, 11 / 4, 2, 7 / 3, 4]) ∧ areaUnder demo.top - areaUnder demo.bot = 12 := by
  decide +kernel

theorem edgeOf_cons_iff {K : Type _} {a b c d : Pt K} {l : List (Pt K)} :
    EdgeOf (a :: b :: l) c d ↔ (c = a ∧ d = b) ∨ EdgeOf (b :: l) c d := by
  constructor
  · rintro ⟨pre, post, h⟩
    cases pre with
    | nil => simp at h; exact .inl ⟨h.1.symm, h.2.1.symm⟩
    | cons p pre => simp at h; exact .inr ⟨pre, post, h.2⟩
  · rintro (⟨rfl, rfl⟩ | ⟨pre, post, h⟩)
    · exact ⟨[], l, rfl⟩
    · exact ⟨a :: pre, post, by rw [h]; rfl⟩

theorem edgeOf_singleton {K : Type _} {a c d : Pt K} : ¬EdgeOf [a] c d := by
  rintro ⟨pre, post, h⟩
  have := congrArg List.length h
  simp at this
  omega

/-- The hypothesis of C44 (`top` above `bot`) is met by `demo`. -/
theorem demo_above : LiesAbove demo.top demo.bot := by
  rintro x y y' ⟨a, b, h1, t, t0, t1, hx, hy⟩ ⟨c, d, h2, u, u0, u1, hx', hy'⟩
  simp only [demo, edgeOf_cons_iff, edgeOf_singleton, or_false] at h1 h2
  rcases h1 with ⟨rfl, rfl⟩ | ⟨rfl, rfl⟩ <;> rcases h2 with ⟨rfl, rfl⟩ | ⟨rfl, rfl⟩ | ⟨rfl, rfl⟩ <;> simp only at hx hy hx' hy' <;> linarith
end examples

end GeoCrossings

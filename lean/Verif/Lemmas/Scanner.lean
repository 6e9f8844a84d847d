import Verif.Lemmas.Mono

/-! # The scanner's invariant -/
set_option linter.unusedSectionVars false
namespace GeoCrossings
open Spec

variable {K : Type _} [Field K] [LinearOrder K] [IsStrictOrderedRing K]

theorem edgeOf_iff {l : List (Pt K)} {a b : Pt K} : EdgeOf l a b ↔ ∃ i : Nat, l[i]? = some a ∧ l[i + 1]? = some b := by
  constructor
  · rintro ⟨pre, post, rfl⟩
    exact ⟨pre.length, by simp, by simp⟩
  · rintro ⟨i, h1, h2⟩; exact edgeOf_get h1 h2

/-- Position `(x, y)` lies on the edge `i` of the chain, at its left end if the edge is vertical; or it is the last vertex. -/
structure At (l : List (Pt K)) (i : Nat) (t : Pt K) (x y : K) : Prop where
  cur : l[i]? = some t
  le : t.x ≤ x
  edge : ∀ t', l[i + 1]? = some t' → x ≤ t'.x ∧ (t.x = t'.x → y = t.y) ∧ (y - t.y) * (t'.x - t.x) = (x - t.x) * (t'.y - t.y)
  last : l[i + 1]? = none → x = t.x ∧ y = t.y

/-- Area under the rest of the chain from `(x, y)` on edge `i`. -/
def restArea (l : List (Pt K)) (i : Nat) (x y : K) : K := areaUnder (⟨x, y⟩ :: l.drop (i + 1))

theorem restArea_next {l : List (Pt K)} {i : Nat} {t' : Pt K} (h : l[i + 1]? = some t') (x y : K) :
    restArea l i x y = (t'.x - x) * (y + t'.y) / 2 + restArea l (i + 1) t'.x t'.y := by
  unfold restArea
  have : l.drop (i + 1) = t' :: l.drop (i + 2) := by
    rw [List.drop_eq_getElem?_toList_append, h]; rfl
  rw [this]
  simp only [areaUnder]

theorem restArea_last {l : List (Pt K)} {i : Nat} (h : l[i + 1]? = none) (x y : K) : restArea l i x y = 0 := by
  unfold restArea
  rw [List.getElem?_eq_none_iff] at h
  rw [List.drop_eq_nil_of_le h]
  rfl

theorem sorted_get {l : List (Pt K)} (hs : l.Pairwise (· < ·)) {i : Nat} {a b : Pt K} (h1 : l[i]? = some a)
    (h2 : l[i + 1]? = some b) : a < b := edgeOf_lt hs (edgeOf_get h1 h2)

theorem at_vertex {l : List (Pt K)} (hs : l.Pairwise (· < ·)) {i : Nat} {t : Pt K} (h : l[i]? = some t) :
    At l i t t.x t.y :=
  ⟨h, le_rfl, fun t' h' => ⟨Pt.x_le_of_le (sorted_get hs h h').le, fun _ => rfl, by ring⟩, fun _ => ⟨rfl, rfl⟩⟩

/-- On a non-vertical edge `interpolate` is the exact height of the edge (the clamping has no effect). -/
theorem interpolate_eq {t t' : Pt K} {x : K} (h1 : t.x ≤ x) (h2 : x ≤ t'.x) (h3 : t.x < t'.x) :
    (Scanner.interpolate t t' x - t.y) * (t'.x - t.x) = (x - t.x) * (t'.y - t.y) := by
  have hd : 0 < t'.x - t.x := sub_pos.2 h3
  have f0 : 0 ≤ (x - t.x) / (t'.x - t.x) := div_nonneg (sub_nonneg.2 h1) hd.le
  have f1 : (x - t.x) / (t'.x - t.x) ≤ 1 := (div_le_one hd).2 (by linarith)
  have e : Scanner.interpolate t t' x = (x - t.x) / (t'.x - t.x) * (t'.y - t.y) + t.y := by
    unfold Scanner.interpolate
    rw [if_neg h3.ne']
    simp only
    by_cases hy : t.y > t'.y
    · simp only [if_pos hy]
      rw [max_eq_left, min_eq_left]
      · nlinarith
      · nlinarith
    · push Not at hy
      simp only [if_neg (not_lt.2 hy)]
      rw [max_eq_left, min_eq_left]
      · nlinarith
      · nlinarith
  rw [e]
  field_simp
  ring

theorem at_interpolate {l : List (Pt K)} {i : Nat} {t t' : Pt K} {x y x' : K} (h : At l i t x y) (h' : l[i + 1]? = some t')
    (hx : x ≤ x') (hx' : x' < t'.x) : At l i t x' (Scanner.interpolate t t' x') := by
  refine ⟨h.cur, h.le.trans hx, fun t'' h'' => ?_, fun hn => by rw [h'] at hn; cases hn⟩
  rw [h'] at h''
  cases h''
  have h3 : t.x < t'.x := lt_of_le_of_lt (h.le.trans hx) hx'
  exact ⟨hx'.le, fun e => absurd e h3.ne, interpolate_eq (h.le.trans hx) hx'.le h3⟩

/-- Two positions on the same edge: the area in between. -/
theorem restArea_move {l : List (Pt K)} {i : Nat} {t t' : Pt K} {x y x' y' : K} (h1 : At l i t x y) (h2 : At l i t x' y')
    (h' : l[i + 1]? = some t') (hlt : t.x < t'.x) :
    restArea l i x y = (x' - x) * (y + y') / 2 + restArea l i x' y' := by
  rw [restArea_next h', restArea_next h']
  obtain ⟨-, -, e1⟩ := h1.edge t' h'
  obtain ⟨-, -, e2⟩ := h2.edge t' h'
  have hd : t'.x - t.x ≠ 0 := (sub_pos.2 hlt).ne'
  have y1 : y = t.y + (x - t.x) * (t'.y - t.y) / (t'.x - t.x) := by field_simp; linear_combination e1
  have y2 : y' = t.y + (x' - t.x) * (t'.y - t.y) / (t'.x - t.x) := by field_simp; linear_combination e2
  rw [y1, y2]
  field_simp
  ring

theorem onSeg_at {l : List (Pt K)} (hs : l.Pairwise (· < ·)) {i : Nat} {t t' : Pt K} {x y : K} (h : At l i t x y)
    (h' : l[i + 1]? = some t') : OnSeg t t' ⟨x, y⟩ := by
  obtain ⟨a, b, c⟩ := h.edge t' h'
  have hlt := sorted_get hs h.cur h'
  by_cases hv : t.x = t'.x
  · have hx : x = t.x := le_antisymm (hv ▸ a) h.le
    rw [b hv, hx]
    exact onSeg_left _ _
  · have hlt := Pt.x_lt_of_lt_of_ne hlt hv
    rw [onSeg_iff (.inl hlt)]
    refine ⟨by unfold det; simp only; linear_combination c, ?_, ?_⟩
    · rcases h.le.lt_or_eq with k | k
      · exact .inl k
      · refine .inr ⟨k, ?_⟩
        rw [← k, sub_self, zero_mul] at c
        rcases mul_eq_zero.1 c with c | c
        · exact (sub_eq_zero.1 c).ge
        · exact absurd (sub_eq_zero.1 c).symm hv
    · rcases a.lt_or_eq with k | k
      · exact .inl k
      · refine .inr ⟨k, ?_⟩
        have : (y - t'.y) * (t'.x - t.x) = 0 := by rw [k] at c; linear_combination c
        rcases mul_eq_zero.1 this with c | c
        · exact (sub_eq_zero.1 c).le
        · exact absurd (sub_eq_zero.1 c).symm hv

/-- The scanner's invariant. -/
structure ScanInv (s : Scanner K) : Prop where
  mono : MonotonePair s.poly.top s.poly.bot
  top : ∃ t, At s.poly.top s.topIdx t s.curr.x s.curr.top
  bot : ∃ b, At s.poly.bot s.botIdx b s.curr.x s.curr.bot

/-- The scanner's remaining signed area. -/
def scanRest (s : Scanner K) : K :=
  restArea s.poly.top s.topIdx s.curr.x s.curr.top - restArea s.poly.bot s.botIdx s.curr.x s.curr.bot

/-- Vertices not yet passed. -/
def scanLeft (s : Scanner K) : Nat := (s.poly.top.length - s.topIdx) + (s.poly.bot.length - s.botIdx)

theorem at_last_x {l : List (Pt K)} {s e : Pt K} (hl : Leads l s e) {i : Nat} {t : Pt K} {x y : K} (h : At l i t x y)
    (hn : l[i + 1]? = none) : x = e.x ∧ y = e.y := by
  obtain ⟨h1, h2⟩ := h.last hn
  have : t = e := by
    have h3 := h.cur
    rw [List.getElem?_eq_none_iff] at hn
    have hi : i < l.length := by
      by_contra hc
      rw [List.getElem?_eq_none (by omega)] at h3; cases h3
    have := hl.2
    rw [List.getLast?_eq_getElem?, show l.length - 1 = i by omega, h3] at this
    exact Option.some.inj this
  rw [h1, h2, this]; exact ⟨rfl, rfl⟩

theorem at_le_end {l : List (Pt K)} {s e : Pt K} (hl : Leads l s e) (hs : l.Pairwise (· < ·)) {i : Nat} {t : Pt K} {x y : K}
    (h : At l i t x y) : x ≤ e.x := by
  cases hn : l[i + 1]? with
  | none => exact (at_last_x hl h hn).1.le
  | some t' =>
    exact (h.edge t' hn).1.trans (Pt.x_le_of_le (sorted_bounds hl hs (List.mem_of_getElem? hn)).2)

/-- What one round of the scanner does. -/
structure StepOk (s : Scanner K) (til : K) (s' : Scanner K) (r : Option (Trapz K)) : Prop where
  inv : ScanInv s'
  poly : s'.poly = s.poly
  mono_x : s.curr.x ≤ s'.curr.x
  le_til : s'.curr.x ≤ til
  area : scanRest s = (r.map Trapz.area).getD 0 + scanRest s'
  none_x : r = none → s'.curr.x = s.curr.x
  some_x : ∀ t, r = some t → t.left = s.curr ∧ t.right = s'.curr ∧ s.curr.x < s'.curr.x ∧ Follows s.poly t
  progress : scanLeft s' < scanLeft s ∨ s'.curr.x = til

theorem getElem?_lt {α : Type _} {l : List α} {i : Nat} {a : α} (h : l[i]? = some a) : i < l.length := by
  by_contra hc
  rw [List.getElem?_eq_none (by omega)] at h; cases h

omit [IsStrictOrderedRing K] in
theorem trapz_area (a b : Trip K) : Trapz.area ⟨a, b⟩ = (b.x - a.x) * (a.top + b.top) / 2 - (b.x - a.x) * (a.bot + b.bot) / 2 := by
  unfold Trapz.area; simp only; rw [one_add_one_eq_two]; ring

/-- Assembling a step from what happens on the two chains. -/
theorem step_ok {s : Scanner K} {til : K} {next : Trip K} {s' : Scanner K} (hs' : s'.curr = next) (hp : s'.poly = s.poly)
    (hi : ScanInv s) (hx : s.curr.x ≤ next.x) (htil : next.x ≤ til)
    (ht : ∃ t, At s.poly.top s'.topIdx t next.x next.top)
    (hb : ∃ b, At s.poly.bot s'.botIdx b next.x next.bot)
    (at_ : restArea s.poly.top s.topIdx s.curr.x s.curr.top =
      (next.x - s.curr.x) * (s.curr.top + next.top) / 2 + restArea s.poly.top s'.topIdx next.x next.top)
    (ab : restArea s.poly.bot s.botIdx s.curr.x s.curr.bot =
      (next.x - s.curr.x) * (s.curr.bot + next.bot) / 2 + restArea s.poly.bot s'.botIdx next.x next.bot)
    (hf : s.curr.x < next.x → Follows s.poly ⟨s.curr, next⟩)
    (hpr : scanLeft s' < scanLeft s ∨ next.x = til) :
    StepOk s til s' (if s.curr.x < next.x then some ⟨s.curr, next⟩ else none) where
  inv := ⟨by rw [hp]; exact hi.mono, by rw [hp, hs']; exact ht, by rw [hp, hs']; exact hb⟩
  poly := hp
  mono_x := by rw [hs']; exact hx
  le_til := by rw [hs']; exact htil
  area := by
    unfold scanRest
    rw [at_, ab, hp, hs']
    by_cases h : s.curr.x < next.x
    · rw [if_pos h]; simp only [Option.map_some, Option.getD_some]; rw [trapz_area]; ring
    · rw [if_neg h]
      have : next.x = s.curr.x := le_antisymm (not_lt.1 h) hx
      simp only [Option.map_none, Option.getD_none, this]; ring
  none_x h := by
    rw [hs']
    split_ifs at h with hc
    exact le_antisymm (not_lt.1 hc) hx
  some_x t h := by
    split_ifs at h with hc
    cases h
    rw [hs']
    exact ⟨rfl, rfl, hc, hf hc⟩
  progress := by rw [hs']; exact hpr

omit [IsStrictOrderedRing K] in
theorem interpolateChecked_some {p1 p2 : Pt K} {x : K} (h1 : p1.x ≤ x) (h2 : x ≤ p2.x) :
    Scanner.interpolateChecked p1 p2 x = some (Scanner.interpolate p1 p2 x) := by
  rw [Scanner.interpolateChecked, if_pos ⟨h1, h2⟩]

/-- One round: it ends exactly at the end of both chains, and otherwise makes an admissible step. -/
theorem advanceNext_spec {s : Scanner K} (hi : ScanInv s) {til : K} (htil : s.curr.x < til) :
    (s.advanceNext til = some none ∧ s.poly.top[s.topIdx + 1]? = none ∧ s.poly.bot[s.botIdx + 1]? = none) ∨
    ∃ s' r, s.advanceNext til = some (some (s', r)) ∧ StepOk s til s' r := by
  obtain ⟨⟨ps, pe, hse, lt, lb, st, sb⟩, ⟨t, ht⟩, ⟨b, hb⟩⟩ := id hi
  have hti := getElem?_lt ht.cur
  have hbi := getElem?_lt hb.cur
  cases hT : s.poly.top[s.topIdx + 1]? with
  | none =>
    obtain ⟨xe, ye⟩ := at_last_x lt ht hT
    cases hB : s.poly.bot[s.botIdx + 1]? with
    | none => exact .inl ⟨by simp [Scanner.advanceNext, Scanner.peekNext, Scanner.targets, hT, hB, htil], rfl, rfl⟩
    | some nb =>
      right
      have nbx : nb.x = s.curr.x := by
        refine le_antisymm ?_ (hb.edge nb hB).1
        rw [xe]; exact Pt.x_le_of_le (sorted_bounds lb sb (List.mem_of_getElem? hB)).2
      have nbi := getElem?_lt hB
      obtain ⟨e1, e2⟩ := ht.last hT
      have hint : Scanner.interpolate t t nb.x = t.y := by simp [Scanner.interpolate]
      refine ⟨{ s with curr := ⟨nb.x, t.y, nb.y⟩, botIdx := s.botIdx + 1 }, ?_, ?_, ?_⟩
      rotate_left 2
      · refine step_ok (s := s) (s' := { s with curr := ⟨nb.x, t.y, nb.y⟩, botIdx := s.botIdx + 1 }) (next := ⟨nb.x, t.y, nb.y⟩) rfl rfl hi nbx.ge (nbx ▸ htil.le) ⟨t, ?_⟩ ⟨nb, at_vertex sb hB⟩ ?_ ?_ ?_ ?_
        · simp only; rw [nbx, ← e2]; exact ht
        · simp only; rw [nbx, restArea_last hT, restArea_last hT]; ring
        · exact restArea_next hB _ _
        · intro h; exact absurd h (by simp [nbx])
        · left; simp only [scanLeft]; omega
      · simp only [Scanner.advanceNext, Scanner.peekNext, Scanner.targets, hT, hB, ht.cur, hb.cur]
        simp [not_lt.2 htil.le, nbx ▸ hint, htil, nbx, interpolateChecked_some e1.ge e1.le]
  | some nt =>
    have nti := getElem?_lt hT
    cases hB : s.poly.bot[s.botIdx + 1]? with
    | none =>
      right
      obtain ⟨xe, ye⟩ := at_last_x lb hb hB
      have ntx : nt.x = s.curr.x := by
        refine le_antisymm ?_ (ht.edge nt hT).1
        rw [xe]; exact Pt.x_le_of_le (sorted_bounds lt st (List.mem_of_getElem? hT)).2
      obtain ⟨e1, e2⟩ := hb.last hB
      have hint : Scanner.interpolate b b nt.x = b.y := by simp [Scanner.interpolate]
      refine ⟨{ s with curr := ⟨nt.x, nt.y, b.y⟩, topIdx := s.topIdx + 1 }, ?_, ?_, ?_⟩
      rotate_left 2
      · refine step_ok (s := s) (s' := { s with curr := ⟨nt.x, nt.y, b.y⟩, topIdx := s.topIdx + 1 }) (next := ⟨nt.x, nt.y, b.y⟩) rfl rfl hi ntx.ge (ntx ▸ htil.le) ⟨nt, at_vertex st hT⟩ ⟨b, ?_⟩ ?_ ?_ ?_ ?_
        · simp only; rw [ntx, ← e2]; exact hb
        · exact restArea_next hT _ _
        · simp only; rw [ntx, restArea_last hB, restArea_last hB]; ring
        · intro h; exact absurd h (by simp [ntx])
        · left; simp only [scanLeft]; omega
      · simp only [Scanner.advanceNext, Scanner.peekNext, Scanner.targets, hT, hB, ht.cur, hb.cur]
        simp [not_lt.2 htil.le, ntx ▸ hint, htil, ntx, interpolateChecked_some e1.ge e1.le]
    | some nb =>
      right
      have nbi := getElem?_lt hB
      have ct := (ht.edge nt hT).1
      have cb := (hb.edge nb hB).1
      have et := edgeOf_get ht.cur hT
      have eb := edgeOf_get hb.cur hB
      have ot := onSeg_at st ht hT
      have ob := onSeg_at sb hb hB
      by_cases hu : til < nt.x ∧ til < nb.x
      · -- stop at the limit, inside both edges
        have at' := at_interpolate ht hT htil.le hu.1
        have ab' := at_interpolate hb hB htil.le hu.2
        refine ⟨{ s with curr := ⟨til, Scanner.interpolate t nt til, Scanner.interpolate b nb til⟩ }, ?_, ?_, ?_⟩
        rotate_left 2
        · exact step_ok (s := s) (s' := { s with curr := ⟨til, Scanner.interpolate t nt til, Scanner.interpolate b nb til⟩ }) (next := ⟨til, Scanner.interpolate t nt til, Scanner.interpolate b nb til⟩) rfl rfl hi htil.le le_rfl
            ⟨t, at'⟩ ⟨b, ab'⟩
            (restArea_move ht at' hT (ht.le.trans_lt (htil.trans hu.1)))
            (restArea_move hb ab' hB (hb.le.trans_lt (htil.trans hu.2)))
            (fun _ => ⟨⟨t, nt, et, ot, onSeg_at st at' hT⟩, ⟨b, nb, eb, ob, onSeg_at sb ab' hB⟩⟩)
            (.inr rfl)
        · simp only [Scanner.advanceNext, Scanner.peekNext, Scanner.targets, hT, hB, ht.cur, hb.cur]
          have i1 := interpolateChecked_some (ht.le.trans htil.le) hu.1.le
          have i2 := interpolateChecked_some (hb.le.trans htil.le) hu.2.le
          rcases lt_trichotomy nt.x nb.x with h | h | h
          · simp [compare_lt_iff_lt.2 h, hu.1, htil, i1, i2]
          · simp [compare_eq_iff_eq.2 h, hu.2, htil, i1, i2]
          · simp [compare_gt_iff_gt.2 h, hu.2, htil, i1, i2]
      · rcases lt_trichotomy nt.x nb.x with h | h | h
        · -- the vertex of the top chain comes first
          have hle : nt.x ≤ til := by
            by_contra hc; push Not at hc; exact hu ⟨hc, hc.trans h⟩
          have ab' := at_interpolate hb hB ct h
          refine ⟨{ s with curr := ⟨nt.x, nt.y, Scanner.interpolate b nb nt.x⟩, topIdx := s.topIdx + 1 }, ?_, ?_, ?_⟩
          rotate_left 2
          · exact step_ok (s := s) (s' := { s with curr := ⟨nt.x, nt.y, Scanner.interpolate b nb nt.x⟩, topIdx := s.topIdx + 1 }) (next := ⟨nt.x, nt.y, Scanner.interpolate b nb nt.x⟩) rfl rfl hi ct hle
              ⟨nt, at_vertex st hT⟩ ⟨b, ab'⟩ (restArea_next hT _ _)
              (restArea_move hb ab' hB (hb.le.trans_lt (ct.trans_lt h)))
              (fun _ => ⟨⟨t, nt, et, ot, onSeg_right _ _⟩, ⟨b, nb, eb, ob, onSeg_at sb ab' hB⟩⟩)
              (.inl (by simp only [scanLeft]; omega))
          · simp only [Scanner.advanceNext, Scanner.peekNext, Scanner.targets, hT, hB, ht.cur, hb.cur]
            simp [compare_lt_iff_lt.2 h, not_lt.2 hle, htil, interpolateChecked_some (hb.le.trans ct) h.le]
        · have hle : nb.x ≤ til := by
            by_contra hc; push Not at hc; exact hu ⟨h ▸ hc, hc⟩
          refine ⟨{ s with curr := ⟨nt.x, nt.y, nb.y⟩, topIdx := s.topIdx + 1, botIdx := s.botIdx + 1 }, ?_, ?_, ?_⟩
          rotate_left 2
          · exact step_ok (s := s) (s' := { s with curr := ⟨nt.x, nt.y, nb.y⟩, topIdx := s.topIdx + 1, botIdx := s.botIdx + 1 }) (next := ⟨nt.x, nt.y, nb.y⟩) rfl rfl hi ct (h ▸ hle)
              ⟨nt, at_vertex st hT⟩ ⟨nb, by simp only; rw [h]; exact at_vertex sb hB⟩ (restArea_next hT _ _)
              (by simp only; rw [h]; exact restArea_next hB _ _)
              (fun _ => ⟨⟨t, nt, et, ot, onSeg_right _ _⟩, ⟨b, nb, eb, ob, by simp only; rw [h]; exact onSeg_right _ _⟩⟩)
              (.inl (by simp only [scanLeft]; omega))
          · simp only [Scanner.advanceNext, Scanner.peekNext, Scanner.targets, hT, hB, ht.cur, hb.cur]
            simp [compare_eq_iff_eq.2 h, not_lt.2 hle, htil]
        · have hle : nb.x ≤ til := by
            by_contra hc; push Not at hc; exact hu ⟨hc.trans h, hc⟩
          have at' := at_interpolate ht hT cb h
          refine ⟨{ s with curr := ⟨nb.x, Scanner.interpolate t nt nb.x, nb.y⟩, botIdx := s.botIdx + 1 }, ?_, ?_, ?_⟩
          rotate_left 2
          · exact step_ok (s := s) (s' := { s with curr := ⟨nb.x, Scanner.interpolate t nt nb.x, nb.y⟩, botIdx := s.botIdx + 1 }) (next := ⟨nb.x, Scanner.interpolate t nt nb.x, nb.y⟩) rfl rfl hi cb hle
              ⟨t, at'⟩ ⟨nb, at_vertex sb hB⟩ 
              (restArea_move ht at' hT (ht.le.trans_lt (cb.trans_lt h))) (restArea_next hB _ _)
              (fun _ => ⟨⟨t, nt, et, ot, onSeg_at st at' hT⟩, ⟨b, nb, eb, ob, onSeg_right _ _⟩⟩)
              (.inl (by simp only [scanLeft]; omega))
          · simp only [Scanner.advanceNext, Scanner.peekNext, Scanner.targets, hT, hB, ht.cur, hb.cur]
            simp [compare_gt_iff_gt.2 h, not_lt.2 hle, htil, interpolateChecked_some (ht.le.trans cb) h.le]

end GeoCrossings

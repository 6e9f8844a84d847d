import Verif.Lemmas.Intersect
import Verif.Lemmas.ValidCheck
import Verif.Props.Affine

/-!
# What is determined by comparisons and turns: points on segments, meeting segments, and the even-odd rule

Used for C101.
-/
set_option linter.unusedSectionVars false
namespace GeoCrossings.OrderType
open Spec

variable {K : Type} [Field K] [LinearOrder K] [IsStrictOrderedRing K]

/-! ## Two segments that meet -/

/-- A point of `l` that is not one of its ends. -/
def Within (a b x : Pt K) : Prop := OnSeg a b x ∧ x ≠ a ∧ x ≠ b

/-- The two points are strictly on different sides of the line through `a` and `b`. -/
def Opp (a b c d : Pt K) : Prop := (0 < det a b c ∧ det a b d < 0) ∨ (det a b c < 0 ∧ 0 < det a b d)

theorem within_param {a b x : Pt K} (h : Within a b x) :
    ∃ t : K, 0 < t ∧ t < 1 ∧ x.x = a.x + t * (b.x - a.x) ∧ x.y = a.y + t * (b.y - a.y) := by
  obtain ⟨⟨t, t0, t1, tx, ty⟩, h1, h2⟩ := h
  refine ⟨t, lt_of_le_of_ne t0 fun e => h1 ?_, lt_of_le_of_ne t1 fun e => h2 ?_, tx, ty⟩
  · exact pt_eq (by rw [tx, ← e]; ring) (by rw [ty, ← e]; ring)
  · exact pt_eq (by rw [tx, e]; ring) (by rw [ty, e]; ring)

theorem within_of_param {a b x : Pt K} (hab : a ≠ b) {t : K} (t0 : 0 < t) (t1 : t < 1) (tx : x.x = a.x + t * (b.x - a.x))
    (ty : x.y = a.y + t * (b.y - a.y)) : Within a b x := by
  refine ⟨⟨t, t0.le, t1.le, tx, ty⟩, fun e => hab ?_, fun e => hab ?_⟩
  · rw [e] at tx ty
    have h1 : t * (b.x - a.x) = 0 := by linarith
    have h2 : t * (b.y - a.y) = 0 := by linarith
    have h1 := (mul_eq_zero.1 h1).resolve_left t0.ne'
    have h2 := (mul_eq_zero.1 h2).resolve_left t0.ne'
    exact pt_eq (by linarith) (by linarith)
  · rw [e] at tx ty
    have h1 : (1 - t) * (b.x - a.x) = 0 := by linarith
    have h2 : (1 - t) * (b.y - a.y) = 0 := by linarith
    have hn : 1 - t ≠ 0 := (sub_pos.2 t1).ne'
    have h1 := (mul_eq_zero.1 h1).resolve_left hn
    have h2 := (mul_eq_zero.1 h2).resolve_left hn
    exact pt_eq (by linarith) (by linarith)

/-- Segments whose ends are on different sides of each other cross. -/
theorem cross_of_opp {a b c d : Pt K} (h1 : Opp a b c d) (h2 : Opp c d a b) : ∃ x, Within a b x ∧ OnSeg c d x := by
  have hw : det a b d - det a b c = det c d a - det c d b := by unfold det; ring
  have hab : a ≠ b := by
    rintro rfl
    rcases h1 with ⟨h, -⟩ | ⟨h, -⟩
    all_goals
      unfold det at h
      simp at h
  have hne : det a b d - det a b c ≠ 0 := by
    rcases h1 with ⟨p, q⟩ | ⟨p, q⟩
    · exact (by linarith : det a b d - det a b c < 0).ne
    · exact (by linarith : 0 < det a b d - det a b c).ne'
  have key : ∀ {u v w : K}, w = v - u → ((0 < u ∧ v < 0) ∨ (u < 0 ∧ 0 < v)) → 0 < -u / w ∧ -u / w < 1 := by
    rintro u v w rfl (⟨p, q⟩ | ⟨p, q⟩)
    · have : v - u < 0 := by linarith
      exact ⟨div_pos_of_neg_of_neg (by linarith) this, (div_lt_one_of_neg this).2 (by linarith)⟩
    · have : 0 < v - u := by linarith
      exact ⟨div_pos (by linarith) this, (div_lt_one this).2 (by linarith)⟩
  obtain ⟨t0, t1⟩ := key rfl h1
  have h2' : (0 < det c d a ∧ det c d b < 0) ∨ (det c d a < 0 ∧ 0 < det c d b) := h2
  obtain ⟨s0, s1⟩ := key (w := det c d b - det c d a) rfl h2'
  have hne' : det c d b - det c d a ≠ 0 := by
    intro h
    exact hne (by linarith)
  refine ⟨⟨a.x + -det c d a / (det c d b - det c d a) * (b.x - a.x), a.y + -det c d a / (det c d b - det c d a) * (b.y - a.y)⟩,
    within_of_param hab s0 s1 rfl rfl, -det a b c / (det a b d - det a b c), t0.le, t1.le, ?_, ?_⟩
  · have e : det c d b - det c d a = -(det a b d - det a b c) := by linarith
    simp only [e]
    field_simp
    unfold det
    ring
  · have e : det c d b - det c d a = -(det a b d - det a b c) := by linarith
    simp only [e]
    field_simp
    unfold det
    ring

/-- Overlapping segments on a common line. -/
theorem overlap {a b c d : Pt K} (hab : a ≠ b) {u v s : K} (cx : c.x = a.x + u * (b.x - a.x)) (cy : c.y = a.y + u * (b.y - a.y))
    (dx : d.x = a.x + v * (b.x - a.x)) (dy : d.y = a.y + v * (b.y - a.y)) (us : u < s) (sv : s < v) (s0 : 0 < s) (s1 : s < 1) :
    Within a b c ∨ Within a b d ∨ Within c d a ∨ Within c d b ∨ (c = a ∧ d = b) := by
  by_cases h1 : 0 < u
  · exact .inl (within_of_param hab h1 (by linarith) cx cy)
  by_cases h2 : v < 1
  · exact .inr (.inl (within_of_param hab (by linarith) h2 dx dy))
  have huv : 0 < v - u := by linarith
  have hcd : c ≠ d := by
    rintro rfl
    have e1 : (v - u) * (b.x - a.x) = 0 := by linarith
    have e2 : (v - u) * (b.y - a.y) = 0 := by linarith
    have e1 := (mul_eq_zero.1 e1).resolve_left huv.ne'
    have e2 := (mul_eq_zero.1 e2).resolve_left huv.ne'
    exact hab (pt_eq (by linarith) (by linarith))
  rcases (not_lt.1 h1).lt_or_eq with h1 | h1
  · refine .inr (.inr (.inl (within_of_param hcd (t := -u / (v - u)) (div_pos (by linarith) huv) ((div_lt_one huv).2 (by linarith)) ?_ ?_)))
    · rw [cx, dx]; field_simp; ring
    · rw [cy, dy]; field_simp; ring
  rcases (not_lt.1 h2).lt_or_eq with h2 | h2
  · refine .inr (.inr (.inr (.inl (within_of_param hcd (t := (1 - u) / (v - u)) (div_pos (by linarith) huv)
      ((div_lt_one huv).2 (by linarith)) ?_ ?_))))
    · rw [cx, dx]; field_simp; ring
    · rw [cy, dy]; field_simp; ring
  · exact .inr (.inr (.inr (.inr ⟨pt_eq (by rw [cx, h1]; ring) (by rw [cy, h1]; ring), pt_eq (by rw [dx, ← h2]; ring) (by rw [dy, ← h2]; ring)⟩)))

theorem param_of_det {a b c : Pt K} (hab : a ≠ b) (h : det a b c = 0) : ∃ u : K, c.x = a.x + u * (b.x - a.x) ∧ c.y = a.y + u * (b.y - a.y) := by
  unfold det at h
  by_cases hx : b.x - a.x = 0
  · have hy : b.y - a.y ≠ 0 := fun hy => hab (pt_eq (by linarith) (by linarith))
    refine ⟨(c.y - a.y) / (b.y - a.y), ?_, by field_simp; ring⟩
    rw [hx, zero_mul, zero_sub, neg_eq_zero] at h
    have := (mul_eq_zero.1 h).resolve_left hy
    rw [hx]; linarith
  · refine ⟨(c.x - a.x) / (b.x - a.x), by field_simp; ring, ?_⟩
    field_simp
    linarith

theorem overlap_of_det {a b c d x : Pt K} (hab : a ≠ b) (hcd : c ≠ d) (hx : Within a b x) (hx' : Within c d x) (hc : det a b c = 0)
    (hd : det a b d = 0) :
    Within a b c ∨ Within a b d ∨ Within c d a ∨ Within c d b ∨ (c = a ∧ d = b) ∨ (c = b ∧ d = a) := by
  obtain ⟨u, cx, cy⟩ := param_of_det hab hc
  obtain ⟨v, dx, dy⟩ := param_of_det hab hd
  obtain ⟨s, s0, s1, sx, sy⟩ := within_param hx
  obtain ⟨t, t0, t1, tx, ty⟩ := within_param hx'
  have hs : s = u + t * (v - u) := by
    have e1 : (s - (u + t * (v - u))) * (b.x - a.x) = 0 := by rw [sx, cx, dx] at tx; linarith
    have e2 : (s - (u + t * (v - u))) * (b.y - a.y) = 0 := by rw [sy, cy, dy] at ty; linarith
    by_contra hne
    have hne : s - (u + t * (v - u)) ≠ 0 := sub_ne_zero.2 hne
    have e1 := (mul_eq_zero.1 e1).resolve_left hne
    have e2 := (mul_eq_zero.1 e2).resolve_left hne
    exact hab (pt_eq (by linarith) (by linarith))
  rcases lt_trichotomy u v with h | h | h
  · have := overlap hab cx cy dx dy (s := s) (by rw [hs]; linarith [mul_pos t0 (sub_pos.2 h)])
      (by rw [hs]; nlinarith [mul_pos (sub_pos.2 t1) (sub_pos.2 h)]) s0 s1
    rcases this with h | h | h | h | h
    · exact .inl h
    · exact .inr (.inl h)
    · exact .inr (.inr (.inl h))
    · exact .inr (.inr (.inr (.inl h)))
    · exact .inr (.inr (.inr (.inr (.inl h))))
  · exact absurd (pt_eq (by rw [cx, dx, h]) (by rw [cy, dy, h])) hcd
  · have := overlap hab dx dy cx cy (s := s) (by rw [hs]; nlinarith [mul_pos (sub_pos.2 t1) (sub_pos.2 h)])
      (by rw [hs]; nlinarith [mul_pos t0 (sub_pos.2 h)]) s0 s1
    have swap : ∀ {y}, Within d c y → Within c d y := fun h => ⟨onSeg_swap.1 h.1, h.2.2, h.2.1⟩
    rcases this with h | h | h | h | h
    · exact .inr (.inl h)
    · exact .inl h
    · exact .inr (.inr (.inl (swap h)))
    · exact .inr (.inr (.inr (.inl (swap h))))
    · exact .inr (.inr (.inr (.inr (.inr ⟨h.2, h.1⟩))))

theorem zero_or_opp {a b c d x : Pt K} (h : det a b x = 0) (hx : Within c d x) : (det a b c = 0 ∧ det a b d = 0) ∨ Opp a b c d := by
  obtain ⟨t, t0, t1, tx, ty⟩ := within_param hx
  have e := det_mix (a := a) (b := b) (c := c) (d := d) (x := x) (t := t) (by rw [tx]; ring) (by rw [ty]; ring)
  rw [h] at e
  have t1 := sub_pos.2 t1
  rcases lt_trichotomy (det a b c) 0 with p | p | p
  · rcases lt_trichotomy (det a b d) 0 with q | q | q
    · linarith [mul_neg_of_pos_of_neg t1 p, mul_neg_of_pos_of_neg t0 q]
    · rw [q] at e; linarith [mul_neg_of_pos_of_neg t1 p]
    · exact .inr (.inr ⟨p, q⟩)
  · rw [p, mul_zero, zero_add] at e
    exact .inl ⟨p, (mul_eq_zero.1 e.symm).resolve_left t0.ne'⟩
  · rcases lt_trichotomy (det a b d) 0 with q | q | q
    · exact .inr (.inl ⟨p, q⟩)
    · rw [q] at e; linarith [mul_pos t1 p]
    · linarith [mul_pos t1 p, mul_pos t0 q]

/-- How two segments can have a point in common that is not an end of both. -/
theorem meet_cases {a b c d x : Pt K} (hab : a ≠ b) (hcd : c ≠ d) (h1 : OnSeg a b x) (h2 : OnSeg c d x)
    (hn : ¬ ((x = a ∨ x = b) ∧ (x = c ∨ x = d))) :
    (Within a b c ∨ Within a b d) ∨ (Within c d a ∨ Within c d b) ∨ ((c = a ∧ d = b) ∨ (c = b ∧ d = a)) ∨ (Opp a b c d ∧ Opp c d a b) := by
  by_cases k1 : x = a ∨ x = b
  · have k2 : ¬ (x = c ∨ x = d) := fun h => hn ⟨k1, h⟩
    rw [not_or] at k2
    rcases k1 with rfl | rfl
    · exact .inr (.inl (.inl ⟨h2, k2⟩))
    · exact .inr (.inl (.inr ⟨h2, k2⟩))
  by_cases k2 : x = c ∨ x = d
  · rw [not_or] at k1
    rcases k2 with rfl | rfl
    · exact .inl (.inl ⟨h1, k1⟩)
    · exact .inl (.inr ⟨h1, k1⟩)
  rw [not_or] at k1 k2
  have w1 : Within a b x := ⟨h1, k1⟩
  have w2 : Within c d x := ⟨h2, k2⟩
  rcases zero_or_opp (det_onSeg h1) w2 with ⟨p, q⟩ | o1
  · rcases overlap_of_det hab hcd w1 w2 p q with h | h | h | h | h
    · exact .inl (.inl h)
    · exact .inl (.inr h)
    · exact .inr (.inl (.inl h))
    · exact .inr (.inl (.inr h))
    · exact .inr (.inr (.inl h))
  rcases zero_or_opp (det_onSeg h2) w1 with ⟨p, q⟩ | o2
  · rcases overlap_of_det hcd hab w2 w1 p q with h | h | h | h | h | h
    · exact .inr (.inl (.inl h))
    · exact .inr (.inl (.inr h))
    · exact .inl (.inl h)
    · exact .inl (.inr h)
    · exact .inr (.inr (.inl (.inl ⟨h.1.symm, h.2.symm⟩)))
    · exact .inr (.inr (.inl (.inr ⟨h.2.symm, h.1.symm⟩)))
  · exact .inr (.inr (.inr ⟨o1, o2⟩))

/-! ## The even-odd rule -/

/-- The side is below `r` and its ends are to the left and to the right of `r`, in the order of the sweep. -/
def LexBelow (r a b : Pt K) : Prop := (a ≤ r ∧ r < b ∧ 0 < det a b r) ∨ (b ≤ r ∧ r < a ∧ 0 < det b a r)

instance (r a b : Pt K) : Decidable (LexBelow r a b) := by unfold LexBelow; infer_instance

theorem small (l : List (Pt K × Pt K)) : ∃ ε : K, 0 < ε ∧ ∀ δ, 0 < δ → δ ≤ ε → ∀ p ∈ l, p.1 < p.2 → p.1.x + δ * p.1.y < p.2.x + δ * p.2.y := by
  induction l with
  | nil => exact ⟨1, one_pos, by simp⟩
  | cons p l ih =>
    obtain ⟨ε, h0, h⟩ := ih
    have : ∃ η : K, 0 < η ∧ ∀ δ, 0 < δ → δ ≤ η → p.1 < p.2 → p.1.x + δ * p.1.y < p.2.x + δ * p.2.y := by
      by_cases hx : p.1.x < p.2.x
      · have hd : 0 < p.2.x - p.1.x := sub_pos.2 hx
        have hp : 0 < |p.1.y - p.2.y| + 1 := by positivity
        refine ⟨(p.2.x - p.1.x) / (|p.1.y - p.2.y| + 1), div_pos hd hp, fun δ d0 d1 _ => ?_⟩
        rw [le_div_iff₀ hp] at d1
        have := le_abs_self (p.1.y - p.2.y)
        nlinarith [mul_le_mul_of_nonneg_left this d0.le]
      · refine ⟨1, one_pos, fun δ d0 _ hlt => ?_⟩
        rw [Pt.lt_def] at hlt
        rcases hlt with h | ⟨e, h⟩
        · exact absurd h hx
        · rw [e]; linarith [mul_lt_mul_of_pos_left h d0]
    obtain ⟨η, n0, n⟩ := this
    refine ⟨min ε η, lt_min h0 n0, fun δ d0 d1 q hq => ?_⟩
    rcases List.mem_cons.1 hq with rfl | hq
    · exact n δ d0 (d1.trans (min_le_right _ _))
    · exact h δ d0 (d1.trans (min_le_left _ _)) q hq

/-- The even-odd rule may be taken with the order of the sweep in place of that of the columns. -/
theorem evenOdd_lex {R : List (List (Pt K))} (hc : ∀ l ∈ R, Closed l) {r : Pt K} (hr : ¬ OnRings R r) :
    EvenOdd R r ↔ Odd (R.map fun ring => (ringEdges ring).countP fun e => LexBelow r e.1 e.2).sum := by
  let S := r :: R.flatten
  obtain ⟨ε, h0, h⟩ := small (S.flatMap fun a => S.map fun b => (a, b))
  have hlt : ∀ a ∈ S, ∀ b ∈ S, a < b → a.x + ε * a.y < b.x + ε * b.y := fun a ha b hb =>
    h ε h0 le_rfl (a, b) (List.mem_flatMap.2 ⟨a, ha, List.mem_map.2 ⟨b, hb, rfl⟩⟩)
  have hiff : ∀ a ∈ S, ∀ b ∈ S, (a.x + ε * a.y < b.x + ε * b.y ↔ a < b) := by
    intro a ha b hb
    refine ⟨fun k => ?_, hlt a ha b hb⟩
    rcases lt_trichotomy a b with h | h | h
    · exact h
    · rw [h] at k; exact absurd k (lt_irrefl _)
    · exact absurd k (_root_.lt_asymm (hlt b hb a ha h))
  let T : Affine K := ⟨1, ε, 0, 1, 0, 0, by simp⟩
  rw [← C90_inside T hc hr]
  unfold EvenOdd edgesBelow Affine.rings
  rw [List.map_map]
  have hdet : ∀ a b c, det (T.app a) (T.app b) (T.app c) = det a b c := by
    intro a b c
    simp only [det, Affine.app, T]
    ring
  have hx : ∀ a, (T.app a).x = a.x + ε * a.y := by
    intro a
    simp only [Affine.app, T]
    ring
  have : (List.map ((fun ring => (ring.zip ring.tail).countP fun e => decide (PassesBelow (T.app r) e.1 e.2)) ∘ List.map T.app) R) =
      R.map fun ring => (ringEdges ring).countP fun e => decide (LexBelow r e.1 e.2) := by
    refine List.map_congr_left fun ring hring => ?_
    simp only [Function.comp]
    rw [← List.map_tail, List.zip_map, List.countP_map]
    refine List.countP_congr fun e he => ?_
    have m1 : e.1 ∈ S := List.mem_cons_of_mem _ (List.mem_flatten.2 ⟨ring, hring, (List.of_mem_zip he).1⟩)
    have m2 : e.2 ∈ S := List.mem_cons_of_mem _ (List.mem_flatten.2 ⟨ring, hring, List.mem_of_mem_tail (List.of_mem_zip he).2⟩)
    have m0 : r ∈ S := List.mem_cons_self
    simp only [Function.comp, decide_eq_true_eq, Prod.map]
    rw [passesBelow_iff, hdet, hdet, hx, hx, hx]
    unfold LexBelow
    rw [← not_lt, hiff _ m0 _ m1, hiff _ m0 _ m2, ← not_lt, hiff _ m0 _ m2, not_lt, not_lt]
  rw [this]

end GeoCrossings.OrderType

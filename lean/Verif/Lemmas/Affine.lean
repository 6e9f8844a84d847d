import Verif.Spec.Affine
import Verif.Spec.Boundary
import Mathlib.Tactic.Linarith
import Mathlib.Tactic.Ring
import Mathlib.Tactic.FieldSimp
import Mathlib.Tactic.LinearCombination

/-!
# The even-odd rule does not depend on the direction of the ray

`EvenOdd` counts along the ray that goes straight down. For closed rings and a point on none of their sides the parity is the same for the
ray in any direction, which is: the parity is invariant under affine maps. It is shown for the maps that generate them.
-/
set_option linter.unusedSectionVars false
set_option linter.unusedSimpArgs false
set_option linter.unusedTactic false
set_option linter.unreachableTactic false
namespace GeoCrossings.Spec

variable {K : Type _} [Field K] [LinearOrder K] [IsStrictOrderedRing K]

/-! ## Along a ring -/

theorem even_path {X Y : Pt K → Pt K → Prop} [∀ a b, Decidable (X a b)] [∀ a b, Decidable (Y a b)] {q : Pt K → Prop} [DecidablePred q] :
    ∀ (v : Pt K) (l : List (Pt K)), (∀ e ∈ (v :: l).zip l, (X e.1 e.2 ↔ Y e.1 e.2) ↔ (q e.1 ↔ q e.2)) →
      (Even (((v :: l).zip l).countP (fun e => X e.1 e.2) + ((v :: l).zip l).countP fun e => Y e.1 e.2) ↔ (q v ↔ q ((v :: l).getLast (by simp))))
  | v, [], _ => by simp
  | v, w :: l, h => by
    have ih := even_path w l fun e he => h e (by simp [he])
    have h0 := h (v, w) (by simp)
    rw [List.zip_cons_cons, List.countP_cons, List.countP_cons, List.getLast_cons (by simp)]
    simp only at h0
    by_cases hx : X v w <;> by_cases hy : Y v w <;> simp only [hx, hy, decide_true, decide_false, if_true, Bool.false_eq_true, if_false, iff_self, iff_true, true_iff, iff_false, false_iff, not_true] at h0 ⊢
    · rw [show ∀ a b : Nat, a + 1 + (b + 1) = a + b + 2 by intros; omega, Nat.even_add, ih]
      simp only [even_two, iff_true]
      rw [h0]
    · rw [show ∀ a b : Nat, a + 1 + (b + 0) = a + b + 1 by intros; omega, Nat.even_add_one, ih]
      tauto
    · rw [show ∀ a b : Nat, a + 0 + (b + 1) = a + b + 1 by intros; omega, Nat.even_add_one, ih]
      tauto
    · rw [show ∀ a b : Nat, a + 0 + (b + 0) = a + b by intros; omega, ih]
      rw [h0]

theorem even_ring {X Y : Pt K → Pt K → Prop} [∀ a b, Decidable (X a b)] [∀ a b, Decidable (Y a b)] {q : Pt K → Prop} [DecidablePred q]
    {l : List (Pt K)} (hc : l.head? = l.getLast?) (h : ∀ e ∈ l.zip l.tail, (X e.1 e.2 ↔ Y e.1 e.2) ↔ (q e.1 ↔ q e.2)) :
    Even ((l.zip l.tail).countP (fun e => X e.1 e.2) + (l.zip l.tail).countP fun e => Y e.1 e.2) := by
  cases l with
  | nil => simp
  | cons v l =>
    refine (even_path v l h).2 ?_
    rw [List.head?_cons, List.getLast?_eq_getLast_of_ne_nil (by simp), Option.some.injEq] at hc
    rw [← hc]

/-! ## One side, relative to the point -/

/-- With `a` and `b` relative to the point. -/
def Dn (ax ay bx b_y : K) : Prop := (ax ≤ 0 ∧ 0 < bx ∧ 0 < ax * b_y - ay * bx) ∨ (bx ≤ 0 ∧ 0 < ax ∧ ax * b_y - ay * bx < 0)

instance (ax ay bx b_y : K) : Decidable (Dn ax ay bx b_y) := by unfold Dn; infer_instance

theorem passesBelow_dn {r a b : Pt K} : PassesBelow r a b ↔ Dn (a.x - r.x) (a.y - r.y) (b.x - r.x) (b.y - r.y) := by
  rw [passesBelow_iff]
  have e : (a.x - r.x) * (b.y - r.y) - (a.y - r.y) * (b.x - r.x) = det a b r := by unfold det; ring
  unfold Dn
  rw [e, sub_nonpos, sub_nonpos, sub_pos, sub_pos, det_swap12 a b, neg_pos]

/-- The point is not on the side. -/
theorem off_of {r a b : Pt K} (h : ¬ OnSeg a b r) (hd : (a.x - r.x) * (b.y - r.y) - (a.y - r.y) * (b.x - r.x) = 0) :
    0 < (a.x - r.x) * (b.x - r.x) + (a.y - r.y) * (b.y - r.y) := by
  by_contra hc
  apply h
  obtain ⟨ax, hax⟩ : ∃ t, t = a.x - r.x := ⟨_, rfl⟩
  obtain ⟨ay, hay⟩ : ∃ t, t = a.y - r.y := ⟨_, rfl⟩
  obtain ⟨bx, hbx⟩ : ∃ t, t = b.x - r.x := ⟨_, rfl⟩
  obtain ⟨b_y, hby⟩ : ∃ t, t = b.y - r.y := ⟨_, rfl⟩
  rw [← hax, ← hay, ← hbx, ← hby] at hc hd
  rw [not_lt] at hc
  have ea : a.x = r.x + ax := by rw [hax]; ring
  have eb : b.x = r.x + bx := by rw [hbx]; ring
  have ec : a.y = r.y + ay := by rw [hay]; ring
  have ed : b.y = r.y + b_y := by rw [hby]; ring
  by_cases hz : (ax - bx) * (ax - bx) + (ay - b_y) * (ay - b_y) = 0
  · have h1 : ax - bx = 0 := by
      have := mul_self_nonneg (ax - bx); have := mul_self_nonneg (ay - b_y)
      exact mul_self_eq_zero.1 (by linarith)
    have h2 : ay - b_y = 0 := by
      have := mul_self_nonneg (ax - bx); have := mul_self_nonneg (ay - b_y)
      exact mul_self_eq_zero.1 (by linarith)
    have h3 : bx = ax := by linarith
    have h4 : b_y = ay := by linarith
    rw [h3, h4] at hc
    have h5 : ax = 0 := by
      have := mul_self_nonneg ax; have := mul_self_nonneg ay
      exact mul_self_eq_zero.1 (by linarith)
    have h6 : ay = 0 := by
      have := mul_self_nonneg ax; have := mul_self_nonneg ay
      exact mul_self_eq_zero.1 (by linarith)
    exact ⟨0, le_refl _, zero_le_one, by rw [ea, h5]; ring, by rw [ec, h6]; ring⟩
  · have hp : 0 < (ax - bx) * (ax - bx) + (ay - b_y) * (ay - b_y) :=
      lt_of_le_of_ne (add_nonneg (mul_self_nonneg _) (mul_self_nonneg _)) (Ne.symm hz)
    refine ⟨(ax * (ax - bx) + ay * (ay - b_y)) / ((ax - bx) * (ax - bx) + (ay - b_y) * (ay - b_y)), ?_, ?_, ?_, ?_⟩
    · refine div_nonneg ?_ hp.le
      nlinarith [mul_self_nonneg ax, mul_self_nonneg ay]
    · rw [div_le_one hp]
      nlinarith [mul_self_nonneg bx, mul_self_nonneg b_y]
    · rw [ea, eb]
      have : ax * ((ax - bx) * (ax - bx) + (ay - b_y) * (ay - b_y)) = (ax * (ax - bx) + ay * (ay - b_y)) * (ax - bx) := by
        linear_combination (-(ay - b_y)) * hd
      have : (ax * (ax - bx) + ay * (ay - b_y)) / ((ax - bx) * (ax - bx) + (ay - b_y) * (ay - b_y)) * (ax - bx) = ax := by
        rw [div_mul_eq_mul_div, ← this, mul_div_assoc, div_self hz, mul_one]
      linear_combination this
    · rw [ec, ed]
      have : ay * ((ax - bx) * (ax - bx) + (ay - b_y) * (ay - b_y)) = (ax * (ax - bx) + ay * (ay - b_y)) * (ay - b_y) := by
        linear_combination (ax - bx) * hd
      have : (ax * (ax - bx) + ay * (ay - b_y)) / ((ax - bx) * (ax - bx) + (ay - b_y) * (ay - b_y)) * (ay - b_y) = ay := by
        rw [div_mul_eq_mul_div, ← this, mul_div_assoc, div_self hz, mul_one]
      linear_combination this

section
variable {ax ay bx b_y : K} (h : ax * b_y - ay * bx = 0 → 0 < ax * bx + ay * b_y)
include h

set_option maxHeartbeats 1600000 in
/-- Downwards and to the left. -/
theorem dn_swap : (Dn ax ay bx b_y ↔ Dn ay ax b_y bx) ↔ (ax ≤ 0 ∧ ay ≤ 0 ↔ bx ≤ 0 ∧ b_y ≤ 0) := by
  have e : ay * bx - ax * b_y = -(ax * b_y - ay * bx) := by ring
  unfold Dn
  rw [e]
  obtain ⟨D, hD⟩ : ∃ t, t = ax * b_y - ay * bx := ⟨_, rfl⟩
  rw [← hD] at h ⊢
  rcases lt_trichotomy ax 0 with h1 | h1 | h1 <;> rcases lt_trichotomy ay 0 with h2 | h2 | h2 <;> rcases lt_trichotomy bx 0 with h3 | h3 | h3 <;>
    rcases lt_trichotomy b_y 0 with h4 | h4 | h4 <;> rcases lt_trichotomy D 0 with h5 | h5 | h5 <;>
    first
    | (simp [h1, h2, h3, h4, h5, h1.le, h2.le, h3.le, h4.le, not_lt_of_gt, not_le_of_gt]; done)
    | (exfalso; simp_all; done)
    | (exfalso; nlinarith [h h5])
    | (exfalso; nlinarith)

set_option maxHeartbeats 1600000 in
/-- Reflected at a vertical line: the columns of an edge change an end. -/
theorem dn_xneg : (Dn ax ay bx b_y ↔ Dn (-ax) ay (-bx) b_y) ↔ (ax = 0 ∧ ay < 0 ↔ bx = 0 ∧ b_y < 0) := by
  have e : -ax * b_y - ay * -bx = -(ax * b_y - ay * bx) := by ring
  unfold Dn
  rw [e]
  obtain ⟨D, hD⟩ : ∃ t, t = ax * b_y - ay * bx := ⟨_, rfl⟩
  rw [← hD] at h ⊢
  rcases lt_trichotomy ax 0 with h1 | h1 | h1 <;> rcases lt_trichotomy ay 0 with h2 | h2 | h2 <;> rcases lt_trichotomy bx 0 with h3 | h3 | h3 <;>
    rcases lt_trichotomy b_y 0 with h4 | h4 | h4 <;> rcases lt_trichotomy D 0 with h5 | h5 | h5 <;>
    first
    | (simp [h1, h2, h3, h4, h5, h1.le, h2.le, h3.le, h4.le, not_lt_of_gt, not_le_of_gt, ne_of_lt, ne_of_gt]; done)
    | (exfalso; simp_all; done)
    | (exfalso; nlinarith [h h5])
    | (exfalso; nlinarith)

/-- Downwards and upwards. -/
theorem dn_yneg : (Dn ax ay bx b_y ↔ Dn ax (-ay) bx (-b_y)) ↔ (ax ≤ 0 ↔ bx ≤ 0) := by
  have e : ax * -b_y - -ay * bx = -(ax * b_y - ay * bx) := by ring
  unfold Dn
  rw [e]
  obtain ⟨D, hD⟩ : ∃ t, t = ax * b_y - ay * bx := ⟨_, rfl⟩
  rw [← hD] at h ⊢
  rcases lt_trichotomy ax 0 with h1 | h1 | h1 <;> rcases lt_trichotomy ay 0 with h2 | h2 | h2 <;> rcases lt_trichotomy bx 0 with h3 | h3 | h3 <;>
    rcases lt_trichotomy b_y 0 with h4 | h4 | h4 <;> rcases lt_trichotomy D 0 with h5 | h5 | h5 <;>
    first
    | (simp [h1, h2, h3, h4, h5, h1.le, h2.le, h3.le, h4.le, not_lt_of_gt, not_le_of_gt, ne_of_lt, ne_of_gt]; done)
    | (exfalso; simp_all; done)
    | (exfalso; nlinarith [h h5])
    | (exfalso; nlinarith)

end

/-! ## Maps -/

/-- The map keeps sides and the even-odd rule. -/
structure KeepsParity (T : Pt K → Pt K) : Prop where
  onSeg : ∀ a b r, OnSeg (T a) (T b) (T r) ↔ OnSeg a b r
  evenOdd : ∀ rings : List (List (Pt K)), (∀ l ∈ rings, l.head? = l.getLast?) → ∀ r, ¬ OnRings rings r →
    (EvenOdd (rings.map (List.map T)) (T r) ↔ EvenOdd rings r)

theorem zip_map_tail (T : Pt K → Pt K) (l : List (Pt K)) : (l.map T).zip (l.map T).tail = (l.zip l.tail).map fun e => (T e.1, T e.2) := by
  rw [← List.map_tail, List.zip_map]
  rfl

theorem KeepsParity.comp {S T : Pt K → Pt K} (hS : KeepsParity S) (hT : KeepsParity T) : KeepsParity (S ∘ T) := by
  refine ⟨fun a b r => (hS.onSeg _ _ _).trans (hT.onSeg _ _ _), fun rings hc r hr => ?_⟩
  rw [← hT.evenOdd rings hc r hr]
  have := hS.evenOdd (rings.map (List.map T)) ?_ (T r) ?_
  · rw [← this, List.map_map, List.map_comp_map]; rfl
  · intro l hl
    obtain ⟨l', h1, rfl⟩ := List.mem_map.1 hl
    rw [List.head?_map, List.getLast?_map, hc l' h1]
  · rintro ⟨l, hl, e, he, ho⟩
    obtain ⟨l', h1, rfl⟩ := List.mem_map.1 hl
    unfold ringEdges at he
    rw [zip_map_tail] at he
    obtain ⟨e', h2, rfl⟩ := List.mem_map.1 he
    exact hr ⟨l', h1, e', h2, (hT.onSeg _ _ _).1 ho⟩

/-- A map keeps the rule if it does so along every side up to something that depends on the ends of the side. -/
theorem KeepsParity.of {T : Pt K → Pt K} (h : ∀ a b r, OnSeg (T a) (T b) (T r) ↔ OnSeg a b r) {q : Pt K → Pt K → Prop}
    (hq : ∀ a b r, ¬ OnSeg a b r → ((PassesBelow r a b ↔ PassesBelow (T r) (T a) (T b)) ↔ (q r a ↔ q r b))) : KeepsParity T := by
  classical
  refine ⟨h, fun rings hc r hr => ?_⟩
  unfold EvenOdd edgesBelow
  rw [List.map_map]
  induction rings with
  | nil => simp
  | cons l rings ih =>
    have ih := ih (fun l hl => hc l (by simp [hl])) fun ⟨l, hl, k⟩ => hr ⟨l, by simp [hl], k⟩
    have h0 := even_ring (X := fun a b => PassesBelow r a b) (Y := fun a b => PassesBelow (T r) (T a) (T b)) (q := q r) (hc l (by simp))
      fun e he => hq e.1 e.2 r fun ho => hr ⟨l, by simp, e, he, ho⟩
    rw [List.map_cons, List.map_cons, List.sum_cons, List.sum_cons, Nat.odd_add, Nat.odd_add]
    rw [← Nat.not_odd_iff_even, ← Nat.not_odd_iff_even, ih]
    have e : ((List.map T l).zip (List.map T l).tail).countP (fun e => decide (PassesBelow (T r) e.1 e.2)) =
        (l.zip l.tail).countP fun e => decide (PassesBelow (T r) (T e.1) (T e.2)) := by
      rw [zip_map_tail, List.countP_map]; rfl
    rw [Function.comp_apply, e]
    rw [Nat.even_add, ← Nat.not_odd_iff_even, ← Nat.not_odd_iff_even, not_iff_not] at h0
    rw [← h0]

theorem onSeg_map {T : Affine K} {a b r : Pt K} (h : OnSeg a b r) : OnSeg (T.app a) (T.app b) (T.app r) := by
  obtain ⟨t, t0, t1, tx, ty⟩ := h
  refine ⟨t, t0, t1, ?_, ?_⟩ <;> simp only [Affine.app, tx, ty] <;> ring

/-- The inverse map. -/
def Affine.inv (T : Affine K) : Affine K where
  a := T.d / (T.a * T.d - T.b * T.c)
  b := -T.b / (T.a * T.d - T.b * T.c)
  c := -T.c / (T.a * T.d - T.b * T.c)
  d := T.a / (T.a * T.d - T.b * T.c)
  e := (T.b * T.f - T.d * T.e) / (T.a * T.d - T.b * T.c)
  f := (T.c * T.e - T.a * T.f) / (T.a * T.d - T.b * T.c)
  ne := by
    have := T.ne
    have e : T.d / (T.a * T.d - T.b * T.c) * (T.a / (T.a * T.d - T.b * T.c)) - -T.b / (T.a * T.d - T.b * T.c) * (-T.c / (T.a * T.d - T.b * T.c)) =
        1 / (T.a * T.d - T.b * T.c) := by
      rw [div_mul_div_comm, div_mul_div_comm, ← sub_div, neg_mul_neg, mul_comm T.d, ← div_div, div_self this]
    rw [e]
    exact one_div_ne_zero this

theorem Affine.inv_app (T : Affine K) (p : Pt K) : T.inv.app (T.app p) = p := by
  have h := T.ne
  unfold Affine.inv Affine.app
  show (⟨_, _⟩ : Pt K) = ⟨p.x, p.y⟩
  rw [Pt.mk.injEq]
  have hi := mul_inv_cancel₀ h
  exact ⟨by linear_combination p.x * hi, by linear_combination p.y * hi⟩

theorem Affine.app_inv (T : Affine K) (p : Pt K) : T.app (T.inv.app p) = p := by
  have h := T.ne
  unfold Affine.inv Affine.app
  show (⟨_, _⟩ : Pt K) = ⟨p.x, p.y⟩
  rw [Pt.mk.injEq]
  have hi := mul_inv_cancel₀ h
  exact ⟨by linear_combination (p.x - T.e) * hi, by linear_combination (p.y - T.f) * hi⟩

theorem Affine.app_inj (T : Affine K) {p q : Pt K} : T.app p = T.app q ↔ p = q :=
  ⟨fun h => by rw [← T.inv_app p, h, T.inv_app], fun h => by rw [h]⟩

theorem Affine.onSeg (T : Affine K) (a b r : Pt K) : OnSeg (T.app a) (T.app b) (T.app r) ↔ OnSeg a b r :=
  ⟨fun h => by have := onSeg_map (T := T.inv) h; rwa [T.inv_app, T.inv_app, T.inv_app] at this, onSeg_map⟩

theorem keeps_swap : KeepsParity (Affine.app (⟨0, 1, 1, 0, 0, 0, by simp⟩ : Affine K)) := by
  refine .of (Affine.onSeg _) (q := fun r a => a.x - r.x ≤ 0 ∧ a.y - r.y ≤ 0) fun a b r h => ?_
  rw [passesBelow_dn, passesBelow_dn]
  simp only [Affine.app, zero_mul, one_mul, add_zero, zero_add]
  exact dn_swap (off_of h)

theorem keeps_xneg : KeepsParity (Affine.app (⟨-1, 0, 0, 1, 0, 0, by simp⟩ : Affine K)) := by
  refine .of (Affine.onSeg _) (q := fun r a => a.x - r.x = 0 ∧ a.y - r.y < 0) fun a b r h => ?_
  rw [passesBelow_dn, passesBelow_dn]
  have e : ∀ s t : K, -1 * s - -1 * t = -(s - t) := by intros; ring
  simp only [Affine.app, zero_mul, one_mul, add_zero, zero_add, e]
  exact dn_xneg (off_of h)

theorem keeps_yneg : KeepsParity (Affine.app (⟨1, 0, 0, -1, 0, 0, by simp⟩ : Affine K)) := by
  refine .of (Affine.onSeg _) (q := fun r a => a.x - r.x ≤ 0) fun a b r h => ?_
  rw [passesBelow_dn, passesBelow_dn]
  have e : ∀ s t : K, -1 * s - -1 * t = -(s - t) := by intros; ring
  simp only [Affine.app, zero_mul, one_mul, add_zero, zero_add, e]
  exact dn_yneg (off_of h)

/-- Maps that keep the order of columns and the order in a column. -/
theorem keeps_pos {a c d e f : K} (ha : 0 < a) (hd : 0 < d) (hn : a * d - 0 * c ≠ 0) : KeepsParity (Affine.app (⟨a, 0, c, d, e, f, hn⟩ : Affine K)) := by
  refine .of (Affine.onSeg _) (q := fun _ _ => True) fun p q r h => ?_
  rw [iff_self, iff_true, passesBelow_dn, passesBelow_dn]
  have e1 : ∀ s s' t t' : K, a * s + 0 * s' + e - (a * t + 0 * t' + e) = a * (s - t) := by intros; ring
  have e2 : ∀ s s' t t' : K, c * s + d * s' + f - (c * t + d * t' + f) = c * (s - t) + d * (s' - t') := by intros; ring
  simp only [Affine.app, e1, e2]
  generalize p.x - r.x = ax
  generalize p.y - r.y = ay
  generalize q.x - r.x = bx
  generalize q.y - r.y = b_y
  unfold Dn
  have e3 : a * ax * (c * bx + d * b_y) - (c * ax + d * ay) * (a * bx) = a * d * (ax * b_y - ay * bx) := by ring
  have hp := mul_pos ha hd
  rw [e3, mul_pos_iff_of_pos_left ha, mul_pos_iff_of_pos_left ha, mul_pos_iff_of_pos_left hp, ← not_lt (b := a * ax), ← not_lt (b := a * bx),
    mul_pos_iff_of_pos_left ha, mul_pos_iff_of_pos_left ha, ← neg_pos (a := a * d * _), ← mul_neg, mul_pos_iff_of_pos_left hp, neg_pos, not_lt, not_lt]

/-- Maps that keep the vertical direction. -/
theorem keeps_vertical {a c d e f : K} (hn : a * d - 0 * c ≠ 0) : KeepsParity (Affine.app (⟨a, 0, c, d, e, f, hn⟩ : Affine K)) := by
  have ha : a ≠ 0 := by rintro rfl; simp at hn
  have hd : d ≠ 0 := by rintro rfl; simp at hn
  rcases lt_or_gt_of_ne ha with ha | ha <;> rcases lt_or_gt_of_ne hd with hd | hd
  · have h0 : -a * -d - 0 * -c ≠ 0 := by rw [neg_mul_neg]; simpa using hn
    have := ((keeps_pos (e := e) (f := f) (neg_pos.2 ha) (neg_pos.2 hd) h0).comp keeps_xneg).comp keeps_yneg
    convert this using 1
    funext p
    simp [Affine.app]
  · have h0 : -a * d - 0 * -c ≠ 0 := by rw [neg_mul]; simpa using hn
    have := (keeps_pos (e := e) (f := f) (neg_pos.2 ha) hd h0).comp keeps_xneg
    convert this using 1
    funext p
    simp [Affine.app]
  · have h0 : a * -d - 0 * c ≠ 0 := by rw [mul_neg]; simpa using hn
    have := (keeps_pos (e := e) (f := f) ha (neg_pos.2 hd) h0).comp keeps_yneg
    convert this using 1
    funext p
    simp [Affine.app]
  · exact keeps_pos ha hd hn

/-- **The even-odd rule is invariant under affine maps.** -/
theorem Affine.keeps (T : Affine K) : KeepsParity T.app := by
  obtain ⟨a, b, c, d, e, f, hn⟩ := T
  by_cases hb : b = 0
  · subst hb
    exact keeps_vertical hn
  · have h1 : (1 : K) * 1 - 0 * (d / b) ≠ 0 := by simp
    have h2 : (c - d * a / b) * b - 0 * a ≠ 0 := by
      have : (c - d * a / b) * b - 0 * a = -(a * d - b * c) := by field_simp; ring
      rw [this]
      exact neg_ne_zero.2 hn
    have := ((keeps_vertical (e := e) (f := f) h1).comp keeps_swap).comp (keeps_vertical (e := 0) (f := 0) h2)
    convert this using 1
    funext p
    simp only [Affine.app, Function.comp_apply]
    rw [Pt.mk.injEq]
    constructor
    · ring
    · field_simp
      ring

end GeoCrossings.Spec

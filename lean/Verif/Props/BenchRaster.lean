import Verif.Props.BenchArea
import Verif.Props.Rasterize
import Verif.Props.MonoVertices

/-!
# The raster computed by the benchmark (C93)

`our_rasterize` marks the cells of a raster that a polygon meets. All coordinates below are swapped, as in the function: strips are rows of the
raster.
-/
set_option linter.unusedSectionVars false
namespace GeoCrossings
open Spec GeoCrossings.Monotone

variable {K : Type} [Field K] [LinearOrder K] [IsStrictOrderedRing K] [FloorSemiring K]

theorem contiguous_find {a b : K} {ts : List (Trapz K)} (h : Contiguous a ts b) {x : K} (h1 : a ≤ x) (h2 : x < b) :
    ∃ t ∈ ts, t.left.x ≤ x ∧ x < t.right.x := by
  induction ts generalizing a with
  | nil => exact absurd (h ▸ h1) (not_le.2 h2)
  | cons t ts ih =>
    obtain ⟨rfl, -, h⟩ := h
    rcases lt_or_ge x t.right.x with k | k
    · exact ⟨t, by simp, h1, k⟩
    · obtain ⟨u, hu, hu'⟩ := ih h k
      exact ⟨u, by simp [hu], hu'⟩

theorem contiguous_within {a b : K} {ts : List (Trapz K)} (h : Contiguous a ts b) : ∀ t ∈ ts, a ≤ t.left.x ∧ t.left.x < t.right.x ∧ t.right.x ≤ b := by
  induction ts generalizing a with
  | nil => intro t ht; cases ht
  | cons t ts ih =>
    obtain ⟨rfl, hw, h⟩ := h
    intro u hu
    rcases List.mem_cons.1 hu with rfl | hu
    · exact ⟨le_rfl, hw, contiguous_le h⟩
    · obtain ⟨h1, h2, h3⟩ := ih h u hu
      exact ⟨hw.le.trans h1, h2, h3⟩

/-- The trapezoids of a strip are in it. -/
theorem Swept.within {a b : K} {m : MonoPoly K} {ts : List (Trapz K)} (h : Swept a b m ts) : ∀ t ∈ ts, a ≤ t.left.x ∧ t.left.x < t.right.x ∧ t.right.x ≤ b := by
  intro t ht
  obtain ⟨p, e, -, -, hc⟩ := h.cont
  obtain ⟨h1, h2, h3⟩ := contiguous_within hc t ht
  have hl := h1.trans_lt (h2.trans_le h3)
  refine ⟨?_, h2, ?_⟩
  · refine le_trans ?_ h1
    by_contra k
    have e1 : e.x < a := by
      rcases min_lt_iff.1 (max_lt_iff.1 (not_le.1 k)).2 with z | z
      · exact absurd z (lt_irrefl _)
      · exact z
    have : max p.x (min b e.x) ≤ max p.x (min a e.x) := by
      rw [min_eq_right e1.le]
      exact max_le_max le_rfl (min_le_right _ _)
    exact absurd hl (not_lt.2 this)
  · refine h3.trans (max_le ?_ (min_le_left _ _))
    by_contra k
    have : max p.x (min b e.x) ≤ max p.x (min a e.x) := by
      rw [max_eq_left ((min_le_left _ _).trans (not_le.1 k).le)]
      exact le_max_left _ _
    exact absurd hl (not_lt.2 this)

theorem Swept.of_le {a b : K} {m : MonoPoly K} {ts : List (Trapz K)} (h : Swept a b m ts) (hba : b ≤ a) : ts = [] := by
  cases ts with
  | nil => rfl
  | cons t ts =>
    obtain ⟨h1, h2, h3⟩ := h.within t (by simp)
    exact absurd (h1.trans_lt (h2.trans_le h3)) (not_lt.2 hba)

/-- Before the first vertex nothing is swept. -/
theorem Swept.before {a b : K} {m : MonoPoly K} {ts : List (Trapz K)} (h : Swept a b m ts) {p : Pt K} (hp : m.top.head? = some p) (hb : b ≤ p.x) :
    ts = [] := by
  cases ts with
  | nil => rfl
  | cons t ts =>
    obtain ⟨h1, h2, h3⟩ := h.within t (by simp)
    obtain ⟨p', e, hp', -, hc⟩ := h.cont
    rw [hp] at hp'
    obtain rfl := Option.some.inj hp'
    have := (contiguous_within hc t (by simp)).1
    exact absurd ((le_max_left _ _).trans this) (not_le.2 (h2.trans_le (h3.trans hb)))

theorem onSeg_y_ge {a b r : Pt K} (h : OnSeg a b r) {c : K} (ha : c ≤ a.y) (hb : c ≤ b.y) : c ≤ r.y := by
  obtain ⟨t, t0, t1, -, h⟩ := h
  rw [h]
  have k1 := mul_le_mul_of_nonneg_left hb t0
  have k2 := mul_le_mul_of_nonneg_left ha (sub_nonneg.2 t1)
  linarith

/-- A point inside a piece is in a trapezoid of its strip, and there is a height strictly between the sides. -/
theorem Swept.visible {a b : K} {m : MonoPoly K} {ts : List (Trapz K)} (h : Swept a b m ts) {ring : List (Pt K)} (hr : m.intoPolygon = some ring) {q : Pt K}
    (hq : EvenOdd [ring] q) (h1 : a ≤ q.x) (h2 : q.x < b) {cmin cmax : K} (hlow : ∀ v ∈ m.bot, cmin ≤ v.y) (hy : q.y < cmax) :
    (∃ t ∈ ts, InTrapz t q) ∧ ∃ y, cmin < y ∧ y < cmax ∧ StrictlyWithin ts y := by
  obtain ⟨p, e, hp, he, hc⟩ := h.cont
  obtain ⟨r1, r2⟩ := inside_range h.pair h.nowhere hr hp he hq
  obtain ⟨t, ht, x1, x2⟩ := contiguous_find hc (x := q.x) (max_le r1 ((min_le_left _ _).trans h1)) ((lt_min h2 r2).trans_le (le_max_right _ _))
  have hf := h.follows t ht
  obtain ⟨hin, hb⟩ := (inTrapz_inside h.pair h.nowhere hr hf x1 x2).2 hq
  refine ⟨⟨t, ht, hin⟩, ?_⟩
  obtain ⟨-, b1, b2⟩ := (inTrapz_iff (x1.trans_lt x2)).1 hin
  have b1 := lt_of_le_of_ne b1 (Ne.symm hb)
  have hd : 0 < t.right.x - t.left.x := by linarith
  set s := (q.x - t.left.x) / (t.right.x - t.left.x) with hs
  have s0 : 0 ≤ s := div_nonneg (by linarith) hd.le
  have s1 : s ≤ 1 := (div_le_one hd).2 (by linarith)
  have hbot : t.botAt q.x = (1 - s) * t.left.bot + s * t.right.bot := by unfold Trapz.botAt; rw [← hs]; ring
  have htop : t.topAt q.x = (1 - s) * t.left.top + s * t.right.top := by unfold Trapz.topAt; rw [← hs]; ring
  obtain ⟨-, ⟨c, d, g1, g2, g3⟩⟩ := hf
  have c1 := onSeg_y_ge g2 (hlow _ (edgeOf_mem g1).1) (hlow _ (edgeOf_mem g1).2)
  have c2 := onSeg_y_ge g3 (hlow _ (edgeOf_mem g1).1) (hlow _ (edgeOf_mem g1).2)
  simp only at c1 c2
  have hge : cmin ≤ t.botAt q.x := by
    rw [hbot]
    have := mul_le_mul_of_nonneg_left c1 (sub_nonneg.2 s1)
    have := mul_le_mul_of_nonneg_left c2 s0
    linarith
  obtain ⟨y, y1, y2⟩ := exists_between (show t.botAt q.x < min (t.topAt q.x) cmax from lt_min (b1.trans_le b2) (b1.trans hy))
  refine ⟨y, hge.trans_lt y1, y2.trans_le (min_le_right _ _), ⟨t, ht, ?_⟩, ⟨t, ht, ?_⟩⟩
  · by_contra k
    push Not at k
    rw [hbot] at y1
    have := mul_le_mul_of_nonneg_left k.1 (sub_nonneg.2 s1)
    have := mul_le_mul_of_nonneg_left k.2 s0
    linarith
  · by_contra k
    push Not at k
    have y2 := y2.trans_le (min_le_left _ _)
    rw [htop] at y2
    have := mul_le_mul_of_nonneg_left k.1 (sub_nonneg.2 s1)
    have := mul_le_mul_of_nonneg_left k.2 s0
    linarith

/-- The rows `lo` to `hi` are those of the trapezoids `ts`; there are none if `hi < lo`. -/
structure Column (cmin cmax : K) (n : Nat) (ts : List (Trapz K)) (lo hi : Nat) : Prop where
  seen : lo ≤ hi ↔ ∃ y, cmin < y ∧ y < cmax ∧ StrictlyWithin ts y
  lt : lo ≤ hi → hi < n
  rows : lo ≤ hi → ∀ t ∈ ts, ∀ p, InTrapz t p → cmin ≤ p.y → p.y < cmax → ∃ j, InRow cmin cmax n j p.y ∧ lo ≤ j ∧ j ≤ hi
  low : lo ≤ hi → ∃ bMin, LowestBot ts bMin ∧ bMin < rowLine cmin cmax n (lo + 1)
  high : lo ≤ hi → ∃ tMax, HighestTop ts tMax ∧ rowLine cmin cmax n hi ≤ tMax

theorem crossUbounds_scanned {m : MonoPoly K} (hm : MonotonePair m.top m.bot) (ha : NowhereBelow m.top m.bot) {a b : K} (hab : a ≤ b)
    {s : Scanner K} (hs : ScannedTo a m s) {cmin cmax : K} (hc : cmin < cmax) {n : Nat} (hn : 0 < n) :
    ∃ s' ts lo hi, s.crossUbounds b cmin cmax n = some (s', (lo, hi)) ∧ ScannedTo b m s' ∧ Swept a b m ts ∧ Column cmin cmax n ts lo hi := by
  obtain ⟨ts0, p, e, h1, h2, h3, h4⟩ := hs
  obtain ⟨s', ts, g1, g2⟩ := C48_cross_bounds hm h1 b hc hn
  obtain ⟨-, s'', ts', k1, k2, k3, -, k5⟩ := C45_contiguous hm h2 h3 h1 b
  rw [g1, Option.some.injEq, Prod.mk.injEq] at k1
  obtain ⟨rfl, rfl⟩ := k1
  obtain ⟨p', e', -, lt, -, st, -⟩ := id hm
  rw [lt.1] at h2
  rw [lt.2] at h3
  obtain rfl := Option.some.inj h2
  obtain rfl := Option.some.inj h3
  have pe : p'.x ≤ e'.x := Pt.x_le_of_le (sorted_bounds lt st (List.mem_of_head? lt.1)).2
  have hx : s'.curr.x = max p'.x (min b e'.x) := by
    rw [k5]
    by_cases h : s.curr.x < b
    · rw [if_pos h, max_eq_right]
      exact le_min (((le_max_left _ _).trans h4.ge).trans h.le) pe
    · rw [if_neg h, h4]
      have h := not_lt.1 h
      rw [h4] at h
      apply le_antisymm
      · exact max_le_max le_rfl (min_le_min hab le_rfl)
      · refine max_le (le_max_left _ _) ((min_le_left _ _).trans h)
  have hsc : ScannedTo b m s' := ⟨_, p', e', k2, lt.1, lt.2, hx⟩
  have hsw : Swept a b m ts := by
    refine ⟨hm, ha, ⟨p', e', lt.1, lt.2, ?_⟩, fun t ht => (C46_follows_and_area hm k2).1 t (by simp [ht])⟩
    rw [← hx, ← h4]; exact k3
  rcases g2 with ⟨g2, g3, -⟩ | ⟨g2, lo, hi, bMax, tMin, g3, -, g4, g5, g6, ⟨bMin, g7, g8⟩, ⟨tMax, g9, g10, -⟩, -⟩
  · have hz : ¬ n ≤ 0 := by omega
    exact ⟨s', ts, n, 0, g3, hsc, hsw, ⟨⟨fun h => absurd h hz, fun h => absurd h g2⟩, fun h => absurd h hz, fun h => absurd h hz,
      fun h => absurd h hz, fun h => absurd h hz⟩⟩
  · exact ⟨s', ts, lo, hi, g3, hsc, hsw, ⟨⟨fun _ => g2, fun _ => g4⟩, fun _ => g5, fun _ => g6,
      fun _ => ⟨bMin, g7, (le_max_left _ _).trans_lt g8.2⟩, fun _ => ⟨tMax, g9, g10.trans (min_le_left _ _)⟩⟩⟩

/-- The loop that marks cells. -/
theorem markRow_spec {n start lo hi : Nat} {arr : List Bool} (h1 : start + n ≤ arr.length) (h2 : hi < n) :
    ∃ arr', markRow n start lo hi arr = some arr' ∧ arr'.length = arr.length ∧
      ∀ t, arr'.getD t false = true ↔ arr.getD t false = true ∨ ∃ j, lo ≤ j ∧ j ≤ hi ∧ t = start + j := by
  unfold markRow
  rw [if_pos h1]
  suffices ∀ k, lo + k ≤ hi + 1 → ∃ arr', (List.range' lo k).foldlM (fun (a : List Bool) j => if j < n then some (a.set (start + j) true) else none) arr = some arr' ∧
      arr'.length = arr.length ∧ ∀ t, arr'.getD t false = true ↔ arr.getD t false = true ∨ ∃ j, lo ≤ j ∧ j < lo + k ∧ t = start + j by
    by_cases hle : lo ≤ hi + 1
    · obtain ⟨arr', k1, k2, k3⟩ := this (hi + 1 - lo) (by omega)
      refine ⟨arr', k1, k2, fun t => (k3 t).trans (or_congr Iff.rfl (exists_congr fun j => ?_))⟩
      rw [show j < lo + (hi + 1 - lo) ↔ j ≤ hi by omega]
    · refine ⟨arr, ?_, rfl, fun t => ⟨Or.inl, ?_⟩⟩
      · rw [show hi + 1 - lo = 0 by omega]; rfl
      · rintro (k | ⟨j, k1, k2, -⟩)
        · exact k
        · omega
  intro k
  induction k with
  | zero =>
    intro _
    refine ⟨arr, rfl, rfl, fun t => ⟨Or.inl, ?_⟩⟩
    rintro (k | ⟨j, k1, k2, -⟩)
    · exact k
    · omega
  | succ k ih =>
    intro hk
    obtain ⟨arr', k1, k2, k3⟩ := ih (by omega)
    refine ⟨arr'.set (start + (lo + k)) true, ?_, by rw [List.length_set, k2], fun t => ?_⟩
    · rw [List.range'_1_concat, List.foldlM_append, k1]
      simp only [Option.bind_eq_bind, Option.bind_some, List.foldlM_cons, List.foldlM_nil, if_pos (show lo + k < n by omega)]
      rfl
    · by_cases e : t = start + (lo + k)
      · subst e
        have : start + (lo + k) < arr'.length := by omega
        simp only [List.getD_eq_getElem?_getD, List.getElem?_set_self this, Option.getD_some, true_iff]
        exact Or.inr ⟨lo + k, by omega, by omega, rfl⟩
      · rw [List.getD_eq_getElem?_getD, List.getElem?_set_ne (Ne.symm e), ← List.getD_eq_getElem?_getD, k3]
        refine or_congr Iff.rfl ⟨?_, ?_⟩
        · rintro ⟨j, a, b, c⟩
          exact ⟨j, a, by omega, c⟩
        · rintro ⟨j, a, b, c⟩
          refine ⟨j, a, ?_, c⟩
          rcases Nat.lt_or_ge j (lo + k) with z | z
          · exact z
          · exact absurd (c.trans (by rw [show j = lo + k by omega])) e

/-- The number of strips before the `i`-th in which something is seen. -/
def seenBefore (lo hi : Nat → Nat) (i : Nat) : Nat := (List.range i).countP fun i => decide (lo i ≤ hi i)

theorem seenBefore_succ (lo hi : Nat → Nat) (i : Nat) : seenBefore lo hi (i + 1) = seenBefore lo hi i + if lo i ≤ hi i then 1 else 0 := by
  unfold seenBefore
  rw [List.range_succ, List.countP_append]
  simp [List.countP_cons]

theorem seenBefore_le (lo hi : Nat → Nat) (i : Nat) : seenBefore lo hi i ≤ i := by
  unfold seenBefore
  exact List.countP_le_length.trans (by simp)

theorem seenBefore_congr {lo hi lo' hi' : Nat → Nat} {i : Nat} (h : ∀ j < i, lo j = lo' j ∧ hi j = hi' j) : seenBefore lo hi i = seenBefore lo' hi' i := by
  unfold seenBefore
  refine List.countP_congr fun j hj => ?_
  obtain ⟨h1, h2⟩ := h j (List.mem_range.1 hj)
  rw [h1, h2]

/-- The bounds found in the first `k` steps for the piece `m`; step `i` is for the strip that ends at line `i`. -/
def Steps (left w cmin cmax : K) (W : Nat) (m : MonoPoly K) (lo hi : Nat → Nat) (k : Nat) : Prop :=
  ∀ i < k, ∃ ts, Swept (left + w * ((i - 1 : Nat) : K)) (left + w * (i : K)) m ts ∧ Column cmin cmax W ts (lo i) (hi i)

/-- The cells marked in the first `k` steps. -/
def Marks (W : Nat) (lo hi : Nat → Nat) (k t : Nat) : Prop := ∃ i < k, ∃ j, lo i ≤ j ∧ j ≤ hi i ∧ t = W * seenBefore lo hi i + j

theorem rasterColumns_spec {m : MonoPoly K} (hm : MonotonePair m.top m.bot) (ha : NowhereBelow m.top m.bot) {left w cmin cmax : K} (hw : 0 ≤ w)
    (hc : cmin < cmax) {H W : Nat} (hW : 0 < W) {arr : List Bool} (hsh : arr.length = H * W) {s : Scanner K} (hs : ScannedTo left m s) :
    ∀ k ≤ H, ∃ s' arr' lo hi, (List.range k).foldlM (rasterColumn left w cmin cmax W) (s, 0, arr) = some (s', W * seenBefore lo hi k, arr') ∧
      ScannedTo (left + w * ((k - 1 : Nat) : K)) m s' ∧ arr'.length = H * W ∧ Steps left w cmin cmax W m lo hi k ∧
      ∀ t, arr'.getD t false = true ↔ arr.getD t false = true ∨ Marks W lo hi k t := by
  intro k
  induction k with
  | zero =>
    refine fun _ => ⟨s, arr, fun _ => 0, fun _ => 0, rfl, by simpa using hs, hsh, fun i hi => absurd hi (Nat.not_lt_zero _), fun t => ⟨Or.inl, ?_⟩⟩
    rintro (h | ⟨i, hi, -⟩)
    · exact h
    · exact absurd hi (Nat.not_lt_zero _)
  | succ k ih =>
    intro hk
    obtain ⟨s', arr', lo, hi, h1, h2, h3, h4, h5⟩ := ih (by omega)
    have hle : left + w * ((k - 1 : Nat) : K) ≤ left + w * (k : K) := by
      have : ((k - 1 : Nat) : K) ≤ (k : K) := by exact_mod_cast Nat.sub_le k 1
      have := mul_le_mul_of_nonneg_left this hw
      linarith
    obtain ⟨s'', ts, l, g, g1, g2, g3, g4⟩ := crossUbounds_scanned hm ha hle h2 hc hW
    set lo' : Nat → Nat := fun i => if i = k then l else lo i with hlo
    set hi' : Nat → Nat := fun i => if i = k then g else hi i with hhi
    have elo : lo' k = l := by simp [hlo]
    have ehi : hi' k = g := by simp [hhi]
    have hag : ∀ i < k, lo' i = lo i ∧ hi' i = hi i := fun i hi => by simp [hlo, hhi, hi.ne]
    have hb : ∀ i ≤ k, seenBefore lo' hi' i = seenBefore lo hi i := fun i hi => seenBefore_congr fun j hj => hag j (by omega)
    have hsteps : Steps left w cmin cmax W m lo' hi' (k + 1) := by
      intro i hi
      by_cases e : i = k
      · subst e
        rw [elo, ehi]
        exact ⟨ts, g3, g4⟩
      · rw [(hag i (by omega)).1, (hag i (by omega)).2]
        exact h4 i (by omega)
    have hmk : ∀ t, Marks W lo' hi' (k + 1) t ↔ Marks W lo hi k t ∨ ∃ j, l ≤ j ∧ j ≤ g ∧ t = W * seenBefore lo hi k + j := by
      intro t
      constructor
      · rintro ⟨i, hi, j, j1, j2, j3⟩
        by_cases e : i = k
        · subst e
          rw [elo] at j1
          rw [ehi] at j2
          rw [hb i le_rfl] at j3
          exact Or.inr ⟨j, j1, j2, j3⟩
        · have hik : i < k := by omega
          rw [(hag i hik).1] at j1
          rw [(hag i hik).2] at j2
          rw [hb i hik.le] at j3
          exact Or.inl ⟨i, hik, j, j1, j2, j3⟩
      · rintro (⟨i, hik, j, j1, j2, j3⟩ | ⟨j, j1, j2, j3⟩)
        · exact ⟨i, by omega, j, by rw [(hag i hik).1]; exact j1, by rw [(hag i hik).2]; exact j2, by rw [hb i hik.le]; exact j3⟩
        · exact ⟨k, by omega, j, by rw [elo]; exact j1, by rw [ehi]; exact j2, by rw [hb k le_rfl]; exact j3⟩
    have hfold : (List.range (k + 1)).foldlM (rasterColumn left w cmin cmax W) (s, 0, arr) = rasterColumn left w cmin cmax W (s', W * seenBefore lo hi k, arr') k := by
      rw [List.range_succ, List.foldlM_append, h1]
      simp
    rw [hfold]
    unfold rasterColumn
    simp only [Option.bind_eq_bind, g1, Option.bind_some]
    by_cases hlg : l ≤ g
    · rw [if_neg (by omega)]
      have hsk := seenBefore_le lo hi k
      obtain ⟨arr'', m1, m2, m3⟩ := markRow_spec (n := W) (start := W * seenBefore lo hi k) (lo := l) (hi := g) (arr := arr') (by
        rw [h3]
        calc W * seenBefore lo hi k + W = (seenBefore lo hi k + 1) * W := by ring
          _ ≤ H * W := Nat.mul_le_mul_right _ (by omega)) (g4.lt hlg)
      refine ⟨s'', arr'', lo', hi', ?_, by simpa using g2, by rw [m2, h3], hsteps, fun t => ?_⟩
      · rw [m1, seenBefore_succ, hb k le_rfl, elo, ehi, if_pos hlg]
        rfl
      · rw [m3, h5, hmk, or_assoc]
    · rw [if_pos (by omega)]
      refine ⟨s'', arr', lo', hi', ?_, by simpa using g2, h3, hsteps, fun t => ?_⟩
      · rw [seenBefore_succ, hb k le_rfl, elo, ehi, if_neg hlg]
        rfl
      · rw [h5, hmk]
        refine or_congr Iff.rfl ⟨Or.inl, ?_⟩
        rintro (h | ⟨j, j1, j2, -⟩)
        · exact h
        · omega

/-- The loop over the pieces. -/
theorem rasterPieces_spec {left w cmin cmax : K} (hw : 0 ≤ w) (hc : cmin < cmax) {H W : Nat} (hW : 0 < W) : ∀ {out : List (MonoPoly K)} {arr : List Bool},
    (∀ m ∈ out, MonotonePair m.top m.bot ∧ NowhereBelow m.top m.bot) → arr.length = H * W →
    ∃ arr', out.foldlM (rasterPiece left w cmin cmax H W) arr = some arr' ∧ arr'.length = H * W ∧
      (∀ t, arr.getD t false = true → arr'.getD t false = true) ∧
      (∀ t, arr'.getD t false = true → arr.getD t false = true ∨ ∃ m ∈ out, ∃ lo hi, Steps left w cmin cmax W m lo hi H ∧ Marks W lo hi H t) ∧
      ∀ m ∈ out, ∃ lo hi, Steps left w cmin cmax W m lo hi H ∧ ∀ t, Marks W lo hi H t → arr'.getD t false = true
  | [], arr, _, hsh => ⟨arr, rfl, hsh, fun _ h => h, fun _ h => Or.inl h, fun m hm => by cases hm⟩
  | m :: out, arr, h, hsh => by
    obtain ⟨hm, ha⟩ := h m (by simp)
    obtain ⟨s, s1, s2⟩ := scanLines_scannedTo hm left
    obtain ⟨s', arr1, lo, hi, h1, -, h3, h4, h5⟩ := rasterColumns_spec hm ha hw hc hW hsh s2 H le_rfl
    obtain ⟨arr2, k1, k2, k3, k4, k5⟩ := rasterPieces_spec hw hc hW (fun m hm => h m (by simp [hm])) h3 (out := out)
    refine ⟨arr2, ?_, k2, fun t ht => k3 t ((h5 t).2 (Or.inl ht)), fun t ht => ?_, fun m' hm' => ?_⟩
    · rw [List.foldlM_cons]
      have : rasterPiece left w cmin cmax H W arr m = some arr1 := by
        unfold rasterPiece
        simp only [Option.bind_eq_bind, s1, Option.bind_some, h1]
        rfl
      rw [this]
      exact k1
    · rcases k4 t ht with z | ⟨m', hm', z⟩
      · rcases (h5 t).1 z with z | z
        · exact Or.inl z
        · exact Or.inr ⟨m, by simp, lo, hi, h4, z⟩
      · exact Or.inr ⟨m', by simp [hm'], z⟩
    · rcases List.mem_cons.1 hm' with rfl | hm'
      · exact ⟨lo, hi, h4, fun t ht => k3 t ((h5 t).2 (Or.inr ht))⟩
      · exact k5 m' hm'

theorem not_seen_nil {cmin cmax : K} {n lo hi : Nat} (h : Column cmin cmax n [] lo hi) : ¬ lo ≤ hi := by
  intro k
  obtain ⟨y, -, -, ⟨t, ht, -⟩, -⟩ := h.seen.1 k
  cases ht

/-- **C93.** On a valid polygon `our_rasterize` returns an array of `height` rows of `width` entries. In swapped coordinates, let `m` be a monotone
piece and let strip `c` be the part of the plane between lines `c` and `c + 1` of the `height + 1` that divide the bounding rectangle.

If an entry `(r, j)` is marked, then some piece has, in a strip `c ≥ r` other than the last one, a point of its lower chain below the upper end
of column `j` and a point of its upper chain not below the lower end. In particular the last row of the array is not marked.

If the piece begins at or after line `k`, and has points inside in all strips from `k` to `c`, `c` not being the last one, then the cells
of its points in strip `c` are marked in row `c - k`: the piece is drawn `k` rows away from its place. -/
theorem C93_raster (dbg : Bool) (srt : List (Event K) → List (Event K)) {p : Polygon K} (h : ValidPolygon p.ext p.ints) {width height : Nat} (hw : 0 < width) :
    ∃ b out arr, p.swapXY.boundingRect = some b ∧ monotoneChains dbg srt p.swapXY = some out ∧ ourRasterize dbg srt p width height = some arr ∧
      arr.length = height * width ∧
      (∀ r j, j < width → arr.getD (r * width + j) false = true → ∃ m ∈ out, ∃ c, r ≤ c ∧ c + 1 < height ∧ ∃ u v, OnChain m.bot u ∧ OnChain m.top v ∧
        (rowLine b.minX b.maxX height c ≤ u.x ∧ u.x ≤ rowLine b.minX b.maxX height (c + 1)) ∧
        (rowLine b.minX b.maxX height c ≤ v.x ∧ v.x ≤ rowLine b.minX b.maxX height (c + 1)) ∧
        u.y < rowLine b.minY b.maxY width (j + 1) ∧ rowLine b.minY b.maxY width j ≤ v.y) ∧
      ∀ m ∈ out, ∀ ring, m.intoPolygon = some ring → ∀ p0, m.top.head? = some p0 → ∀ k c, k ≤ c → c + 1 < height → rowLine b.minX b.maxX height k ≤ p0.x →
        (∀ i, k ≤ i → i ≤ c → ∃ q, EvenOdd [ring] q ∧ InRow b.minX b.maxX height i q.x ∧ q.y < b.maxY) →
        ∀ q j, EvenOdd [ring] q → InRow b.minX b.maxX height c q.x → j < width → InRow b.minY b.maxY width j q.y → arr.getD ((c - k) * width + j) false = true := by
  have hv : ValidPolygon p.swapXY.ext p.swapXY.ints := by
    rw [swapXY_eq]; exact h.image swapMap
  obtain ⟨b, hb, hbx, hby, hbox⟩ := boundingRect_valid hv
  obtain ⟨out, -, h1, -, h3, -⟩ := C51_monotone_chains dbg srt hv
  have hlow : ∀ m ∈ out, ∀ v ∈ m.bot, b.minY ≤ v.y := by
    intro m hm v hvm
    obtain ⟨r, hr, hq⟩ := C52_vertices h1 m hm v (Or.inr hvm)
    exact (vertices_range hv hbox r hr v hq).2.2
  set w := (b.maxX - b.minX) / (height : K) with hwd
  have hw0 : 0 ≤ w := div_nonneg (by linarith) (Nat.cast_nonneg _)
  have hline : ∀ i : Nat, b.minX + w * (i : K) = rowLine b.minX b.maxX height i := fun i => by unfold rowLine; rw [mul_comm w]
  have hmono : ∀ {i i' : Nat}, i ≤ i' → rowLine b.minX b.maxX height i ≤ rowLine b.minX b.maxX height i' := by
    intro i i' hi
    rw [← hline, ← hline]
    have : (i : K) ≤ (i' : K) := by exact_mod_cast hi
    have := mul_le_mul_of_nonneg_left this hw0
    linarith
  have hcross : ∀ {i i' : Nat}, i ≤ i' → rowLine b.minY b.maxY width i ≤ rowLine b.minY b.maxY width i' := by
    intro i i' hi
    unfold rowLine
    have : (i : K) ≤ (i' : K) := by exact_mod_cast hi
    have := mul_le_mul_of_nonneg_right this (div_nonneg (sub_nonneg.2 hby.le) (Nat.cast_nonneg width))
    linarith
  obtain ⟨arr, k1, k2, -, k4, k5⟩ := rasterPieces_spec (left := b.minX) (arr := List.replicate (height * width) false) (H := height) hw0 hby hw h3 (by simp)
  have step0 : ∀ {m lo hi}, Steps b.minX w b.minY b.maxY width m lo hi height → 0 < height → ¬ lo 0 ≤ hi 0 := by
    intro m lo hi hst h0
    obtain ⟨ts, g1, g2⟩ := hst 0 h0
    obtain rfl := g1.of_le (by simp)
    exact not_seen_nil g2
  refine ⟨b, out, arr, hb, h1, ?_, k2, fun r j hj hmk => ?_, fun m hm ring hring p0 hp0 k c hkc hch hbeg hall q j hq hqx hj hqy => ?_⟩
  · unfold ourRasterize
    simp only [Option.bind_eq_bind, hb, Option.bind_some, h1]
    exact k1
  · rcases k4 _ hmk with z | ⟨m, hm, lo, hi, hst, i, hi', j', j1, j2, j3⟩
    · rw [List.getD_eq_getElem?_getD, List.getElem?_replicate] at z
      split at z <;> simp at z
    · have hs : lo i ≤ hi i := j1.trans j2
      obtain ⟨ts, g1, g2⟩ := hst i hi'
      have hjw : j' < width := j2.trans_lt (g2.lt hs)
      have hi0 : i ≠ 0 := by
        rintro rfl
        exact step0 hst hi' hs
      obtain ⟨c, rfl⟩ : ∃ c, i = c + 1 := ⟨i - 1, by omega⟩
      have er : r = seenBefore lo hi (c + 1) := by
        have : (r * width + j) / width = (width * seenBefore lo hi (c + 1) + j') / width := by rw [j3]
        rw [Nat.mul_comm r, Nat.mul_add_div hw, Nat.mul_add_div hw, Nat.div_eq_of_lt hj, Nat.div_eq_of_lt hjw] at this
        simpa using this
      have ej : j = j' := by
        rw [← er, Nat.mul_comm] at j3
        omega
      subst ej
      have hrc : r ≤ c := by
        rw [er]
        clear er j3 g1 g2 hs j1 j2 hi0 hmk
        have h0 := step0 hst (by omega)
        induction c with
        | zero => rw [seenBefore_succ, if_neg h0]; exact Nat.le_refl _
        | succ c ih => rw [seenBefore_succ]; have := ih (by omega); split <;> omega
      refine ⟨m, hm, c, hrc, hi', ?_⟩
      rw [Nat.add_sub_cancel, hline, hline] at g1
      obtain ⟨bMin, ⟨⟨t, ht, e1⟩, -⟩, l1⟩ := g2.low hs
      obtain ⟨tMax, ⟨⟨t', ht', e2⟩, -⟩, l2⟩ := g2.high hs
      have l1 := l1.trans_le (hcross (Nat.succ_le_succ j1))
      have l2 := (hcross j2).trans l2
      obtain ⟨w1, w2, w3⟩ := g1.within t ht
      obtain ⟨w1', w2', w3'⟩ := g1.within t' ht'
      obtain ⟨-, ⟨a, a', f1, f2, f3⟩⟩ := g1.follows t ht
      obtain ⟨⟨d, d', f1', f2', f3'⟩, -⟩ := g1.follows t' ht'
      have hu : ∃ u, OnChain m.bot u ∧ (rowLine b.minX b.maxX height c ≤ u.x ∧ u.x ≤ rowLine b.minX b.maxX height (c + 1)) ∧ u.y < rowLine b.minY b.maxY width (j + 1) := by
        rcases e1 with e1 | e1
        · exact ⟨_, ⟨a, a', f1, f2⟩, ⟨w1, w2.le.trans w3⟩, by rw [e1] at l1; exact l1⟩
        · exact ⟨_, ⟨a, a', f1, f3⟩, ⟨w1.trans w2.le, w3⟩, by rw [e1] at l1; exact l1⟩
      have hv : ∃ v, OnChain m.top v ∧ (rowLine b.minX b.maxX height c ≤ v.x ∧ v.x ≤ rowLine b.minX b.maxX height (c + 1)) ∧ rowLine b.minY b.maxY width j ≤ v.y := by
        rcases e2 with e2 | e2
        · exact ⟨_, ⟨d, d', f1', f2'⟩, ⟨w1', w2'.le.trans w3'⟩, by rw [e2] at l2; exact l2⟩
        · exact ⟨_, ⟨d, d', f1', f3'⟩, ⟨w1'.trans w2'.le, w3'⟩, by rw [e2] at l2; exact l2⟩
      obtain ⟨u, u1, u2, u3⟩ := hu
      obtain ⟨v, v1, v2, v3⟩ := hv
      exact ⟨u, v, u1, v1, u2, v2, u3, v3⟩
  · obtain ⟨lo, hi, hst, hmk⟩ := k5 m hm
    have hseen : ∀ i, k ≤ i → i ≤ c → lo (i + 1) ≤ hi (i + 1) := by
      intro i h1 h2
      obtain ⟨ts, g1, g2⟩ := hst (i + 1) (by omega)
      rw [Nat.add_sub_cancel, hline, hline] at g1
      obtain ⟨q', q1, q2, q3⟩ := hall i h1 h2
      exact g2.seen.2 (g1.visible hring q1 q2.1 q2.2 (hlow m hm) q3).2
    have hnot : ∀ i ≤ k, ¬ lo i ≤ hi i := by
      intro i hik
      obtain ⟨ts, g1, g2⟩ := hst i (by omega)
      rw [hline, hline] at g1
      obtain rfl := g1.before hp0 ((hmono hik).trans hbeg)
      exact not_seen_nil g2
    have hcount1 : ∀ i ≤ k + 1, seenBefore lo hi i = 0 := by
      intro i hi'
      induction i with
      | zero => rfl
      | succ i ih => rw [seenBefore_succ, ih (by omega), if_neg (hnot i (by omega))]
    have hcount2 : ∀ i, k ≤ i → i ≤ c → seenBefore lo hi (i + 1) = i - k := by
      intro i h1
      induction i, h1 using Nat.le_induction with
      | base => intro _; rw [hcount1 _ le_rfl, Nat.sub_self]
      | succ i hi' ih =>
        intro h2
        rw [seenBefore_succ, ih (by omega), if_pos (hseen i hi' (by omega))]
        omega
    obtain ⟨ts, g1, g2⟩ := hst (c + 1) hch
    rw [Nat.add_sub_cancel, hline, hline] at g1
    have hwy : q.y < b.maxY := by
      refine hqy.2.trans_le ((hcross (show j + 1 ≤ width by omega)).trans (le_of_eq ?_))
      have hwr : (width : K) ≠ 0 := by exact_mod_cast hw.ne'
      unfold rowLine
      rw [mul_div_cancel₀ _ hwr]
      ring
    have hyb : b.minY ≤ q.y := by
      refine le_trans ?_ hqy.1
      have := hcross (Nat.zero_le j)
      refine le_trans (le_of_eq ?_) this
      simp [rowLine]
    obtain ⟨⟨t, ht, hin⟩, -⟩ := g1.visible hring hq hqx.1 hqx.2 (hlow m hm) hwy
    have hs := hseen c hkc le_rfl
    obtain ⟨j', r1, r2, r3⟩ := g2.rows hs t ht q hin hyb hwy
    have ej : j' = j := by
      rcases lt_trichotomy j' j with z | z | z
      · exact absurd (r1.2.trans_le (hcross (Nat.succ_le_of_lt z))) (not_lt.2 hqy.1)
      · exact z
      · exact absurd (hqy.2.trans_le (hcross (Nat.succ_le_of_lt z))) (not_lt.2 r1.1)
    subst ej
    exact hmk _ ⟨c + 1, hch, j', r2, r3, by rw [hcount2 c hkc le_rfl, Nat.mul_comm]⟩

/-! ## An example -/

/-- What `our_rasterize` returns for the polygon `prongs`. -/
def prongsRaster : List Bool :=
  [true, true, false, false, true,
   true, true, false, false, true,
   true, true, false, false, true,
   true, true, false, false, false,
   true, true, false, false, false,
   true, true, false, false, false,
   true, true, false, false, false,
   false, false, false, false, false]

theorem prongs_valid : ValidPolygon prongs.ext prongs.ints := validPolygon_of_check (K := ℚ) (by decide +kernel)

theorem prongs_raster : ourRasterize true id prongs 5 8 = some prongsRaster := by decide +kernel

/-- The raster of a valid polygon can be wrong in both directions: on `prongs`, with unit cells, the cell of row 0 and column 4 is marked, though no point
of the polygon is in it, and that of row 4 and column 4 is not, though all of its points are inside the polygon. -/
theorem C93_wrong_raster : ValidPolygon prongs.ext prongs.ints ∧ prongs.boundingRect = some ⟨0, 5, 0, 8⟩ ∧ ourRasterize true id prongs 5 8 = some prongsRaster ∧
    (prongsRaster.getD (0 * 5 + 4) false = true ∧ ∀ q : Pt ℚ, 4 ≤ q.x → q.x < 5 → 0 ≤ q.y → q.y < 1 → ¬ EvenOdd (prongs.ext :: prongs.ints) q) ∧
    (prongsRaster.getD (4 * 5 + 4) false = false ∧ ∀ q : Pt ℚ, 4 ≤ q.x → q.x < 5 → 4 < q.y → q.y < 5 → EvenOdd (prongs.ext :: prongs.ints) q) := by
  refine ⟨prongs_valid, by decide +kernel, prongs_raster, ⟨rfl, fun q h1 h2 h3 h4 => ?_⟩, ⟨rfl, fun q h1 h2 h3 h4 => ?_⟩⟩
  · have e0 : ¬ PassesBelow q ⟨0, 0⟩ ⟨0, 8⟩ := by
      rw [passesBelow_iff]
      simp only [det]
      rintro (⟨a, b, c⟩ | ⟨a, b, c⟩) <;> linarith
    have e1 : ¬ PassesBelow q ⟨0, 8⟩ ⟨5, 8⟩ := by
      rw [passesBelow_iff]
      simp only [det]
      rintro (⟨a, b, c⟩ | ⟨a, b, c⟩) <;> linarith
    have e2 : ¬ PassesBelow q ⟨5, 8⟩ ⟨5, 4⟩ := by
      rw [passesBelow_iff]
      simp only [det]
      rintro (⟨a, b, c⟩ | ⟨a, b, c⟩) <;> linarith
    have e3 : ¬ PassesBelow q ⟨5, 4⟩ ⟨4, 4⟩ := by
      rw [passesBelow_iff]
      simp only [det]
      rintro (⟨a, b, c⟩ | ⟨a, b, c⟩) <;> linarith
    have e4 : ¬ PassesBelow q ⟨4, 4⟩ ⟨4, 7⟩ := by
      rw [passesBelow_iff]
      simp only [det]
      rintro (⟨a, b, c⟩ | ⟨a, b, c⟩) <;> linarith
    have e5 : ¬ PassesBelow q ⟨4, 7⟩ ⟨1, 7⟩ := by
      rw [passesBelow_iff]
      simp only [det]
      rintro (⟨a, b, c⟩ | ⟨a, b, c⟩) <;> linarith
    have e6 : ¬ PassesBelow q ⟨1, 7⟩ ⟨1, 0⟩ := by
      rw [passesBelow_iff]
      simp only [det]
      rintro (⟨a, b, c⟩ | ⟨a, b, c⟩) <;> linarith
    have e7 : ¬ PassesBelow q ⟨1, 0⟩ ⟨0, 0⟩ := by
      rw [passesBelow_iff]
      simp only [det]
      rintro (⟨a, b, c⟩ | ⟨a, b, c⟩) <;> linarith
    have h0 : edgesBelow (prongs.ext :: prongs.ints) q = 0 := by
      simp [edgesBelow, prongs, e0, e1, e2, e3, e4, e5, e6, e7]
    unfold EvenOdd
    rw [h0]
    decide
  · have e0 : ¬ PassesBelow q ⟨0, 0⟩ ⟨0, 8⟩ := by
      rw [passesBelow_iff]
      simp only [det]
      rintro (⟨a, b, c⟩ | ⟨a, b, c⟩) <;> linarith
    have e1 : ¬ PassesBelow q ⟨0, 8⟩ ⟨5, 8⟩ := by
      rw [passesBelow_iff]
      simp only [det]
      rintro (⟨a, b, c⟩ | ⟨a, b, c⟩) <;> linarith
    have e2 : ¬ PassesBelow q ⟨5, 8⟩ ⟨5, 4⟩ := by
      rw [passesBelow_iff]
      simp only [det]
      rintro (⟨a, b, c⟩ | ⟨a, b, c⟩) <;> linarith
    have e3 : PassesBelow q ⟨5, 4⟩ ⟨4, 4⟩ := by
      rw [passesBelow_iff]
      simp only [det]
      exact Or.inr ⟨by linarith, by linarith, by linarith⟩
    have e4 : ¬ PassesBelow q ⟨4, 4⟩ ⟨4, 7⟩ := by
      rw [passesBelow_iff]
      simp only [det]
      rintro (⟨a, b, c⟩ | ⟨a, b, c⟩) <;> linarith
    have e5 : ¬ PassesBelow q ⟨4, 7⟩ ⟨1, 7⟩ := by
      rw [passesBelow_iff]
      simp only [det]
      rintro (⟨a, b, c⟩ | ⟨a, b, c⟩) <;> linarith
    have e6 : ¬ PassesBelow q ⟨1, 7⟩ ⟨1, 0⟩ := by
      rw [passesBelow_iff]
      simp only [det]
      rintro (⟨a, b, c⟩ | ⟨a, b, c⟩) <;> linarith
    have e7 : ¬ PassesBelow q ⟨1, 0⟩ ⟨0, 0⟩ := by
      rw [passesBelow_iff]
      simp only [det]
      rintro (⟨a, b, c⟩ | ⟨a, b, c⟩) <;> linarith
    have h0 : edgesBelow (prongs.ext :: prongs.ints) q = 1 := by
      simp [edgesBelow, prongs, e0, e1, e2, e3, e4, e5, e6, e7]
    unfold EvenOdd
    rw [h0]
    decide

/-- The second piece of the decomposition begins at line 4, and is seen in strips 4 to 6: it is drawn in rows 0 to 2. -/
example : ∃ m ∈ ((monotoneChains true id prongs.swapXY).getD []), ∃ ring p0, m.intoPolygon = some ring ∧ m.top.head? = some p0 ∧
    rowLine (0 : ℚ) 8 8 4 ≤ p0.x ∧ (EvenOdd [ring] ⟨9 / 2, 9 / 2⟩ ∧ EvenOdd [ring] ⟨11 / 2, 9 / 2⟩ ∧ EvenOdd [ring] ⟨13 / 2, 9 / 2⟩) := by
  refine ⟨⟨[⟨4, 4⟩, ⟨4, 5⟩, ⟨8, 5⟩], [⟨4, 4⟩, ⟨7, 4⟩, ⟨8, 0⟩, ⟨8, 5⟩]⟩, by decide +kernel, [⟨4, 4⟩, ⟨4, 5⟩, ⟨8, 5⟩, ⟨8, 0⟩, ⟨7, 4⟩, ⟨4, 4⟩], ⟨4, 4⟩, ?_⟩
  decide +kernel

end GeoCrossings

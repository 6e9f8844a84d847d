import Verif.Lemmas.MonoValid

/-!
# The labels of the edges of a valid polygon are right

`Good` holds for the lower edge at the least vertex of each ring, and hence for all edges.
-/
set_option linter.unusedSectionVars false
namespace GeoCrossings.Monotone
open Spec

variable {K : Type} [Field K] [LinearOrder K] [IsStrictOrderedRing K] {R : List (List (Pt K) × Winding)}

theorem exists_least : ∀ {l : List (Pt K)}, l ≠ [] → ∃ a ∈ l, ∀ q ∈ l, a ≤ q
  | [], h => absurd rfl h
  | [a], _ => ⟨a, by simp, by simp⟩
  | a :: b :: l, _ => by
    obtain ⟨c, hc, h⟩ := exists_least (l := b :: l) (by simp)
    rcases le_total a c with hac | hac
    · refine ⟨a, by simp, fun q hq => ?_⟩
      rcases List.mem_cons.1 hq with rfl | hq
      · exact le_rfl
      · exact hac.trans (h q hq)
    · refine ⟨c, List.mem_cons_of_mem _ hc, fun q hq => ?_⟩
      rcases List.mem_cons.1 hq with rfl | hq
      · exact hac
      · exact h q hq

theorem Plane.low_ll {M : List (Sg K)} {e e' : Sg K} (h : Plane M) (he : e ∈ M) (he' : e' ∈ M) (hv : e.1 = e'.1)
    (hd : 0 < det e.1 e.2 e'.2) (ho : ∀ g ∈ M, EndOf g e.1 → g = e ∨ g = e') : lowL M e = below M e.1 := by
  have : M.countP (fun f => f.1 = e.1 ∧ f.Lt e) = 0 := by
    rw [List.countP_eq_zero]
    intro f hf hc
    obtain ⟨h1, h2⟩ := of_decide_eq_true hc
    rcases ho f hf (.inl h1.symm) with rfl | rfl
    · exact Sg.lt_irrefl (h.lt _ he) h2
    · refine GeoCrossings.lt_asymm (h.lt _ hf) (h.lt _ he) h2 ?_
      rw [lt_right_iff hv.le]
      right
      rw [← hv, det_left]
      exact ⟨rfl, hd⟩
  rw [lowL, this]; rfl

/-- The least vertex of a ring, and the lower edge there. -/
theorem RingsOk.least (h : RingsOk R) {r : List (Pt K)} {w' : Winding} (hr : (r, w') ∈ R) :
    ∃ w a z, windingOrder r = some w ∧ a ∈ r ∧ (∀ q ∈ r, a ≤ q) ∧ z ∈ es r ∧ lowL (und R) (norm z) = below (und R) a ∧
      lab (z, w) = false ∧ lab (z, w.inverse) = true := by
  obtain ⟨c1, c2⟩ := h.closed _ hr
  obtain ⟨a0, m, e0, hm⟩ := ring_shape c1 c2
  simp only at e0
  have hn : (a0 :: m).Nodup := by
    have := h.distinct
    rw [List.nodup_flatMap] at this
    have := this.1 _ hr
    simp only [e0, List.dropLast_concat] at this
    exact this
  obtain ⟨a, ha, hmin⟩ := exists_least (l := a0 :: m) (by simp)
  obtain ⟨pre, post, hl⟩ := List.append_of_mem ha
  obtain ⟨next, mm, prev, hc⟩ : ∃ next mm prev, post ++ pre = next :: (mm ++ [prev]) := by
    have hlen : 2 ≤ (post ++ pre).length := by
      have := congrArg List.length hl
      simp only [List.length_cons, List.length_append] at this ⊢
      omega
    cases hq : post ++ pre with
    | nil => rw [hq] at hlen; simp at hlen
    | cons x t =>
      rcases List.eq_nil_or_concat t with rfl | ⟨mm, y, rfl⟩
      · rw [hq] at hlen; simp at hlen
      · exact ⟨x, mm, y, by simp⟩
  have hcl : closeRing (a0 :: m) = r := by
    have : (a0 :: m).getLast? ≠ some a0 := by
      cases m with
      | nil => simp at hm
      | cons b m =>
        rw [List.getLast?_cons_cons]
        exact fun he => (List.nodup_cons.1 hn).1 (List.mem_of_getLast? he)
    simp only [closeRing, List.head?_cons, if_neg this]
    exact e0.symm
  have hw := windingOrder_closeRing hn hl hc hmin
  rw [hcl] at hw
  have har := es_around hl (h := a0) (by simp) hc
  rw [← e0] at har
  obtain ⟨m1, m2⟩ := har
  have hx : ((a, next), w') ∈ dir R := mem_dir.2 ⟨_, hr, m1, rfl⟩
  have hy : ((prev, a), w') ∈ dir R := mem_dir.2 ⟨_, hr, m2, rfl⟩
  have hmin' : ∀ q ∈ r, a ≤ q := by
    intro q hq
    rw [e0] at hq
    rcases List.mem_append.1 hq with hq | hq
    · exact hmin q hq
    · simp only [List.mem_singleton] at hq
      exact hq ▸ hmin a0 (by simp)
  have l1 : a < next := lt_of_le_of_ne (hmin' _ (mem_es m1).2) (h.ne hx)
  have l2 : a < prev := lt_of_le_of_ne (hmin' _ (mem_es m2).1) (h.ne hy).symm
  have nx : norm (a, next) = (a, next) := norm_fwd l1
  have ny : norm (prev, a) = (a, prev) := norm_bwd l2
  have ho := h.others hy hx rfl
  have ux := mem_und hx
  have uy := mem_und hy
  simp only [nx, ny] at ho ux uy
  have hne : ((a, next) : Sg K) ≠ (a, prev) := by
    intro h'
    have h'' : norm ((a, next) : Sg K) = norm (prev, a) := by rw [nx, ny, h']
    have := h.norm_inj hx hy h''
    exact h.loop hy hx rfl this.symm
  have hd : det a next prev ≠ 0 := (h.plane.meet _ ux _ uy hne).det_ll l1 l2 rfl
  have hrot : det a next prev = det prev a next := det_rot prev a next
  have har : a ∈ r := (mem_es m1).1
  rcases lt_trichotomy (det prev a next) 0 with hs | hs | hs
  · rw [(orient2d_cw _ _ _).2 hs] at hw
    refine ⟨.clockwise, a, (prev, a), hw, har, hmin', m2, ?_, ?_, ?_⟩
    · rw [ny]
      refine h.plane.low_ll uy ux rfl ?_ ho
      rw [det_swap]
      simp only
      rw [hrot]; linarith
    · rw [lab_bwd l2]; rfl
    · rw [lab_bwd l2]; rfl
  · exact absurd (hrot.trans hs) hd
  · rw [(orient2d_ccw _ _ _).2 hs] at hw
    refine ⟨.counterClockwise, a, (a, next), hw, har, hmin', m1, ?_, ?_, ?_⟩
    · rw [nx]
      refine h.plane.low_ll ux uy rfl ?_ (fun g hg hv => (ho g hg hv).symm)
      simp only
      rw [hrot]; exact hs
    · rw [lab_fwd l1]; rfl
    · rw [lab_fwd l1]; rfl

/-! ## The two ways to say that an edge passes below a point -/

theorem passes_fwd {e : Sg K} {v : Pt K} (h : e.1 ≤ e.2) : Passes v e ↔ PassesBelow v e.1 e.2 := by
  rw [passesBelow_iff]
  have hx := Pt.x_le_of_le h
  constructor
  · rintro ⟨h1, h2, h3⟩
    left
    refine ⟨Pt.x_le_of_le h1.le, lt_of_le_of_ne (Pt.x_le_of_le h2.le) fun he => ?_, h3⟩
    have hy := Pt.y_lt_of_lt_of_eq h2 he
    unfold det at h3
    rw [he] at h3
    have : (e.2.x - e.1.x) * (v.y - e.2.y) ≤ 0 := mul_nonpos_of_nonneg_of_nonpos (by linarith) (by linarith)
    nlinarith
  · rintro (⟨h1, h2, h3⟩ | ⟨h1, h2, -⟩)
    · refine ⟨?_, .inl h2, h3⟩
      rcases h1.lt_or_eq with h1 | h1
      · exact .inl h1
      · refine .inr ⟨h1, ?_⟩
        unfold det at h3
        rw [h1] at h3
        have h4 : 0 < (e.2.x - v.x) * (v.y - e.1.y) := by linarith
        have := (mul_pos_iff_of_pos_left (by linarith : 0 < e.2.x - v.x)).1 h4
        linarith
    · exact absurd (h1.trans_lt h2) (not_lt.2 hx)

theorem passes_norm {e : Sg K} {v : Pt K} : Passes v (norm e) ↔ PassesBelow v e.1 e.2 := by
  unfold norm
  split_ifs with h
  · rw [passes_fwd (e := (e.2, e.1)) h.le]
    exact ⟨PassesBelow.symm, PassesBelow.symm⟩
  · exact passes_fwd (not_lt.1 h)

theorem below_eq (R : List (List (Pt K) × Winding)) (v : Pt K) : below (und R) v = edgesBelow (R.map Prod.fst) v := by
  unfold below und dir edgesBelow
  rw [List.countP_map]
  induction R with
  | nil => rfl
  | cons r R ih =>
    rw [List.flatMap_cons, List.countP_append, ih, List.map_cons, List.map_cons, List.sum_cons]
    congr 1
    rw [List.countP_map]
    refine List.countP_congr fun e _ => ?_
    simp only [Function.comp, decide_eq_true_eq]
    exact passes_norm

theorem edgesBelow_cons (r : List (Pt K)) (rs : List (List (Pt K))) (v : Pt K) : edgesBelow (r :: rs) v = edgesBelow [r] v + edgesBelow rs v := by
  simp [edgesBelow]

theorem edgesBelow_append (rs rs' : List (List (Pt K))) (v : Pt K) : edgesBelow (rs ++ rs') v = edgesBelow rs v + edgesBelow rs' v := by
  simp [edgesBelow]

theorem edgesBelow_zero {r : List (Pt K)} {v : Pt K} (h : ∀ q ∈ r, v ≤ q) : edgesBelow [r] v = 0 := by
  simp only [edgesBelow, List.map_cons, List.map_nil, List.sum_cons, List.sum_nil, Nat.add_zero, List.countP_eq_zero]
  intro e he hc
  have hp := passes_norm.2 (of_decide_eq_true hc)
  have hm := mem_es he
  have : v ≤ (norm e).1 := by
    unfold norm
    split_ifs
    · exact h _ hm.2
    · exact h _ hm.1
  exact absurd hp.1 (not_lt.2 this)

theorem exists_of_evenOdd {r : List (Pt K)} {v : Pt K} (h : EvenOdd [r] v) : ∃ q ∈ r, q < v := by
  by_contra hc
  push Not at hc
  unfold EvenOdd at h
  rw [edgesBelow_zero hc] at h
  exact absurd h (by decide)

/-! ## The rings of a valid polygon -/

def wOf (r : List (Pt K)) : Winding := (windingOrder r).getD .clockwise

/-- The rings with the winding that `from_polygon` uses. -/
def ringsOf (ext : List (Pt K)) (holes : List (List (Pt K))) : List (List (Pt K) × Winding) :=
  (ext, wOf ext) :: holes.map fun h => (h, (wOf h).inverse)

theorem ringsOf_fst (ext : List (Pt K)) (holes : List (List (Pt K))) : (ringsOf ext holes).map Prod.fst = ext :: holes := by
  simp [ringsOf, Function.comp_def]

variable {ext : List (Pt K)} {holes : List (List (Pt K))}

theorem ringsOk_of_valid (h : ValidPolygon ext holes) : RingsOk (ringsOf ext holes) where
  closed := by
    intro r hr
    have : r.1 ∈ ext :: holes := by rw [← ringsOf_fst]; exact List.mem_map_of_mem hr
    exact h.closed _ this
  distinct := by
    have := h.distinct
    rw [← ringsOf_fst, List.flatMap_map] at this
    exact this
  meet := by
    have mem : ∀ x ∈ dir (ringsOf ext holes), x.1 ∈ (ext :: holes).flatMap ringEdges := by
      intro x hx
      obtain ⟨r, hr, he, -⟩ := mem_dir.1 hx
      refine List.mem_flatMap.2 ⟨r.1, ?_, he⟩
      rw [← ringsOf_fst]; exact List.mem_map_of_mem hr
    intro x hx y hy hne z h1 h2
    exact h.meet x.1 (mem x hx) y.1 (mem y hy) hne z h1 h2

/-- Inside a hole: the number of edges below is odd; at the leftmost vertex it is zero. -/
theorem edgesBelow_hole (h : ValidPolygon ext holes) {hole : List (Pt K)} (hh : hole ∈ holes) {v : Pt K} (hv : v ∈ hole)
    (hmin : ∀ q ∈ hole, v ≤ q) : Odd (edgesBelow (ext :: holes) v) := by
  obtain ⟨h1, h2, rfl⟩ := List.append_of_mem hh
  have hap := h.apart
  rw [List.pairwise_append, List.pairwise_cons] at hap
  obtain ⟨-, ⟨p2, -⟩, p3⟩ := hap
  have ev : ∀ hs : List (List (Pt K)), (∀ x ∈ hs, ¬ EvenOdd [x] v) → Even (edgesBelow hs v) := by
    intro hs
    induction hs with
    | nil => intro _; simp [edgesBelow]
    | cons x hs ih =>
      intro hx
      rw [edgesBelow_cons]
      exact (Nat.not_odd_iff_even.1 (hx x (by simp))).add (ih fun y hy => hx y (by simp [hy]))
  have e1 := ev h1 fun x hx => (p3 x hx hole (by simp)).2 v hv
  have e2 := ev h2 fun x hx => (p2 x hx).1 v hv
  have e3 : Odd (edgesBelow [ext] v) := h.inside hole hh v hv
  rw [edgesBelow_cons, edgesBelow_append, edgesBelow_cons hole h2, edgesBelow_zero hmin, Nat.zero_add]
  exact e3.add_even (e1.add e2)

theorem edgesBelow_ext (h : ValidPolygon ext holes) {v : Pt K} (hmin : ∀ q ∈ ext, v ≤ q) : edgesBelow (ext :: holes) v = 0 := by
  have ev : ∀ hs : List (List (Pt K)), (∀ x ∈ hs, ∀ q ∈ x, v ≤ q) → edgesBelow hs v = 0 := by
    intro hs
    induction hs with
    | nil => intro _; rfl
    | cons x hs ih =>
      intro hx
      rw [edgesBelow_cons, edgesBelow_zero (hx x (by simp)), ih fun y hy => hx y (by simp [hy])]
  refine ev _ fun x hx => ?_
  rcases List.mem_cons.1 hx with rfl | hx
  · exact hmin
  · intro q hq
    obtain ⟨p, hp, hlt⟩ := exists_of_evenOdd (h.inside x hx q hq)
    exact (hmin p hp).trans hlt.le

theorem windingOrder_valid (h : ValidPolygon ext holes) {r : List (Pt K)} (hr : r ∈ ext :: holes) : windingOrder r = some (wOf r) := by
  obtain ⟨x, hx, rfl⟩ := List.mem_map.1 (by rw [ringsOf_fst]; exact hr : r ∈ (ringsOf ext holes).map Prod.fst)
  obtain ⟨w, a, z, hw, -⟩ := (ringsOk_of_valid h).least (r := x.1) (w' := x.2) hx
  rw [wOf, hw]; rfl

theorem good_valid (h : ValidPolygon ext holes) : ∀ x ∈ dir (ringsOf ext holes), Good (ringsOf ext holes) x := by
  have hR := ringsOk_of_valid h
  refine hR.good fun r hr => ?_
  obtain ⟨w, a, z, hw, ha, hmin, hz, hl, hf, ht⟩ := hR.least (r := r.1) (w' := r.2) hr
  refine ⟨z, hz, ?_⟩
  unfold Good
  simp only
  rw [hl, below_eq, ringsOf_fst]
  rcases List.mem_cons.1 hr with rfl | hr
  · simp only at hw hmin
    rw [edgesBelow_ext h hmin]
    have : wOf ext = w := by rw [wOf, hw]; rfl
    simp only [this, hf, true_iff]
    exact ⟨0, rfl⟩
  · obtain ⟨hole, hh, rfl⟩ := List.mem_map.1 hr
    simp only at hw hmin ha
    have : wOf hole = w := by rw [wOf, hw]; rfl
    simp only [this, ht]
    have := edgesBelow_hole h hh ha hmin
    simpa using this

theorem edges_valid (h : ValidPolygon ext holes) :
    Edges (dir (ringsOf ext holes)).length (numEd (ringsOf ext holes)) (numTop (ringsOf ext holes)) :=
  (ringsOk_of_valid h).edges (good_valid h)

end GeoCrossings.Monotone

import Verif.Lemmas.BopDegree
import Verif.Lemmas.MonoWedge

/-! # Two edges that cross: the edges of the result at the crossing -/
set_option linter.unusedSectionVars false
namespace GeoCrossings
open Spec BoolOp

variable {K : Type} [Field K] [LinearOrder K] [IsStrictOrderedRing K]
variable {ty : OpType} {geom : Nat → LineOrPoint K} {isFirst : Nat → Bool} {input : List Nat}

/-- Seen from `v`, the points `x` and `y` are in opposite directions. -/
theorem det_opposite {v x y : Pt K} (hx : x < v) (hy : v < y) (h : det v x y = 0) : ∃ t, 0 < t ∧ ∀ z, det v y z = -(t * det v x z) := by
  rcases (Pt.x_le_of_le hx.le).lt_or_eq with k | k
  · have k0 : 0 < v.x - x.x := by linarith
    have k1 : v.x < y.x := by
      rcases (Pt.x_le_of_le hy.le).lt_or_eq with k' | k'
      · exact k'
      · exfalso
        have h2 := Pt.y_lt_of_lt_of_eq hy k'
        have : det v x y = (x.x - v.x) * (y.y - v.y) := by unfold det; rw [← k']; ring
        rw [this] at h
        rcases mul_eq_zero.1 h with h | h <;> linarith
    refine ⟨(y.x - v.x) / (v.x - x.x), div_pos (by linarith) k0, fun z => ?_⟩
    rw [div_mul_eq_mul_div, ← neg_div, eq_div_iff k0.ne']
    unfold det at h ⊢
    linear_combination (z.x - v.x) * h
  · have h1 := Pt.y_lt_of_lt_of_eq hx k
    have k1 : v.x = y.x := by
      have : det v x y = (v.y - x.y) * (y.x - v.x) := by unfold det; rw [k]; ring
      rw [this] at h
      rcases mul_eq_zero.1 h with h | h <;> linarith
    have h2 := Pt.y_lt_of_lt_of_eq hy k1
    refine ⟨(y.y - v.y) / (v.y - x.y), div_pos (by linarith) (by linarith), fun z => ?_⟩
    have h3 : (0:K) < v.y - x.y := by linarith
    rw [div_mul_eq_mul_div, ← neg_div, eq_div_iff h3.ne']
    unfold det
    rw [k, ← k1]
    ring

theorem table_cross (hty : ty ≠ .xor) {R : Region} {a1 b1 a2 b2 c1 d1 : Bool}
    (h1 : (Region.mk (R.isFirst ^^ a1) (R.isSecond ^^ b1)).isTy ty ≠ R.isTy ty)
    (h2 : (Region.mk ((R.isFirst ^^ a1) ^^ a2) ((R.isSecond ^^ b1) ^^ b2)).isTy ty ≠ (Region.mk (R.isFirst ^^ a1) (R.isSecond ^^ b1)).isTy ty)
    (h3 : (Region.mk (R.isFirst ^^ c1) (R.isSecond ^^ d1)).isTy ty ≠ R.isTy ty) :
    (a1 = true ∧ a2 = true ∨ b1 = true ∧ b2 = true) ∨ (a1 = true ∧ c1 = true ∨ b1 = true ∧ d1 = true) := by
  obtain ⟨x, y⟩ := R
  revert h1 h2 h3
  cases ty <;> first | exact absurd rfl hty | (clear hty; revert x y a1 b1 a2 b2 c1 d1; decide)

theorem emit_len (R R' : Region) (g : LineOrPoint K) : (emit ty R R' g).length ≤ 1 ∧ ((emit ty R R' g).length = 1 → R'.isTy ty ≠ R.isTy ty) := by
  unfold emit
  split
  · rename_i h
    refine ⟨by simp, fun _ k => ?_⟩
    rw [k] at h; simp at h
  · simp

theorem emits_le (l : List (Grp K Nat)) : ∀ R, (emits ty isFirst R l).length ≤ l.length := by
  induction l with
  | nil => intro R; simp [emits]
  | cons g l ih =>
    intro R
    simp only [emits, List.length_append, List.length_cons]
    have := ih (crossAll isFirst R g.cs)
    have := (emit_len (ty := ty) R (crossAll isFirst R g.cs) g.geom).1
    omega

theorem mem_of_oddly {f : Bool} {cs : List Nat} (h : oddly f (cs.map isFirst) = true) : ∃ c ∈ cs, isFirst c = f := by
  unfold oddly at h
  have h := of_decide_eq_true h
  have : 0 < (cs.map isFirst).count f := by omega
  obtain ⟨c, h1, h2⟩ := List.mem_map.1 (List.count_pos_iff.1 this)
  exact ⟨c, h1, h2⟩

section
variable (he : EdgesOk geom isFirst input) {v : Pt K}
include he

theorem ending {g : Grp K Nat} (hg : PieceOk (fun i => (geom i).toLine) input g) (hq : g.q = v) {c : Nat} (hc : c ∈ g.cs) :
    c ∈ input ∧ OnSeg (geom c).first (geom c).second v ∧ OnSeg (geom c).first (geom c).second g.p ∧ g.p < v ∧ (geom c).first < v := by
  have hs := hg.sub c hc
  obtain ⟨e1, e2, e3⟩ := he.ends hs.mem
  have h1 := hs.q
  have h0 := hs.p
  rw [onLine_iff, e1, e2] at h1 h0
  have hl : g.p < v := hq ▸ hg.line.2
  exact ⟨hs.mem, hq ▸ h1, h0, hl, ((onSeg_iff e3).1 h0).2.1.trans_lt hl⟩

theorem starting {g : Grp K Nat} (hg : PieceOk (fun i => (geom i).toLine) input g) (hp : g.p = v) {c : Nat} (hc : c ∈ g.cs) :
    c ∈ input ∧ OnSeg (geom c).first (geom c).second v ∧ OnSeg (geom c).first (geom c).second g.q ∧ v < g.q ∧ v < (geom c).second := by
  have hs := hg.sub c hc
  obtain ⟨e1, e2, e3⟩ := he.ends hs.mem
  have h1 := hs.q
  have h0 := hs.p
  rw [onLine_iff, e1, e2] at h1 h0
  have hl : v < g.q := hp ▸ hg.line.2
  exact ⟨hs.mem, hp ▸ h0, h1, hl, hl.trans_le ((onSeg_iff e3).1 h1).2.2⟩

theorem on_det {c : Nat} (hc : c ∈ input) {x y : Pt K} (hv : OnSeg (geom c).first (geom c).second v)
    (hx : OnSeg (geom c).first (geom c).second x) (hy : OnSeg (geom c).first (geom c).second y) : det v x y = 0 := by
  obtain ⟨-, -, e3⟩ := he.ends hc
  have d1 := ((onSeg_iff e3).1 hv).1
  have d2 := ((onSeg_iff e3).1 hx).1
  have d3 := ((onSeg_iff e3).1 hy).1
  exact det_trans e3.ne (det_symm e3.ne d1 d2).1 (det_symm e3.ne d1 d2).2 d3

theorem ending_ne {g g' : Grp K Nat} (hg : PieceOk (fun i => (geom i).toLine) input g) (hq : g.q = v)
    (hg' : PieceOk (fun i => (geom i).toLine) input g') (hq' : g'.q = v) (hlt : g.sg.Lt g'.sg) {c c' : Nat} (hc : c ∈ g.cs) (hc' : c' ∈ g'.cs) :
    geom c ≠ geom c' := by
  intro e
  obtain ⟨m, o1, o2, -, -⟩ := ending he hg hq hc
  obtain ⟨-, -, o2', -, -⟩ := ending he hg' hq' hc'
  rw [← e] at o2'
  have := Monotone.lt_left_wedge (v := v) hq hq' hlt
  rw [show det v g'.sg.1 g.sg.1 = 0 from on_det he m o1 o2' o2] at this
  exact lt_irrefl _ this

theorem starting_det {g g' : Grp K Nat} (hp : g.p = v) (hp' : g'.p = v) (hlt : g.sg.Lt g'.sg) : 0 < det v g.q g'.q := by
  have hab : Lt g.p g.q g'.p g'.q := hlt
  rw [hp, hp', lt_right_iff le_rfl, det_left] at hab
  simpa using hab

theorem starting_ne {g g' : Grp K Nat} (hg : PieceOk (fun i => (geom i).toLine) input g) (hp : g.p = v)
    (hg' : PieceOk (fun i => (geom i).toLine) input g') (hp' : g'.p = v) (hlt : g.sg.Lt g'.sg) {c c' : Nat} (hc : c ∈ g.cs) (hc' : c' ∈ g'.cs) :
    geom c ≠ geom c' := by
  intro e
  obtain ⟨m, o1, o2, -, -⟩ := starting he hg hp hc
  obtain ⟨-, -, o2', -, -⟩ := starting he hg' hp' hc'
  rw [← e] at o2'
  have := starting_det he hp hp' hlt
  rw [on_det he m o1 o2 o2'] at this
  exact lt_irrefl _ this

/-- At a point through which at most two lines pass, and these from different operands if they cross there, at most two edges of the result meet. -/
theorem AtVertex.two (hty : ty ≠ .xor)
    (h3 : ∀ i ∈ input, ∀ j ∈ input, ∀ k ∈ input, OnSeg (geom i).first (geom i).second v → OnSeg (geom j).first (geom j).second v →
      OnSeg (geom k).first (geom k).second v → geom i = geom j ∨ geom i = geom k ∨ geom j = geom k)
    (h2 : ∀ i ∈ input, ∀ j ∈ input, isFirst i = isFirst j → Inside (geom i).first (geom i).second v → Inside (geom j).first (geom j).second v →
      geom i = geom j) {nl nr : Nat} (h : AtVertex ty geom isFirst input v nl nr) : nr + nl ≤ 2 := by
  obtain ⟨R, E, S, rfl, rfl, hR, oE, oS, pE, pS⟩ := h
  have lE : E.length ≤ 2 := by
    match E, oE, pE with
    | [], _, _ => simp
    | [_], _, _ => simp
    | [_, _], _, _ => simp
    | g1 :: g2 :: g3 :: _, oE, pE =>
      exfalso
      simp only [List.pairwise_cons, List.mem_cons] at oE
      obtain ⟨p1, q1⟩ := pE g1 (by simp)
      obtain ⟨p2, q2⟩ := pE g2 (by simp)
      obtain ⟨p3, q3⟩ := pE g3 (by simp)
      obtain ⟨c1, m1⟩ := List.exists_mem_of_ne_nil _ p1.ne
      obtain ⟨c2, m2⟩ := List.exists_mem_of_ne_nil _ p2.ne
      obtain ⟨c3, m3⟩ := List.exists_mem_of_ne_nil _ p3.ne
      have w1 := ending he p1 q1 m1
      have w2 := ending he p2 q2 m2
      have w3 := ending he p3 q3 m3
      rcases h3 c1 w1.1 c2 w2.1 c3 w3.1 w1.2.1 w2.2.1 w3.2.1 with k | k | k
      · exact ending_ne he p1 q1 p2 q2 (oE.1 g2 (by simp)) m1 m2 k
      · exact ending_ne he p1 q1 p3 q3 (oE.1 g3 (by simp)) m1 m3 k
      · exact ending_ne he p2 q2 p3 q3 (oE.2.1 g3 (by simp)) m2 m3 k
  have lS : S.length ≤ 2 := by
    match S, oS, pS with
    | [], _, _ => simp
    | [_], _, _ => simp
    | [_, _], _, _ => simp
    | g1 :: g2 :: g3 :: _, oE, pE =>
      exfalso
      simp only [List.pairwise_cons, List.mem_cons] at oE
      obtain ⟨p1, q1⟩ := pE g1 (by simp)
      obtain ⟨p2, q2⟩ := pE g2 (by simp)
      obtain ⟨p3, q3⟩ := pE g3 (by simp)
      obtain ⟨c1, m1⟩ := List.exists_mem_of_ne_nil _ p1.ne
      obtain ⟨c2, m2⟩ := List.exists_mem_of_ne_nil _ p2.ne
      obtain ⟨c3, m3⟩ := List.exists_mem_of_ne_nil _ p3.ne
      have w1 := starting he p1 q1 m1
      have w2 := starting he p2 q2 m2
      have w3 := starting he p3 q3 m3
      rcases h3 c1 w1.1 c2 w2.1 c3 w3.1 w1.2.1 w2.2.1 w3.2.1 with k | k | k
      · exact starting_ne he p1 q1 p2 q2 (oE.1 g2 (by simp)) m1 m2 k
      · exact starting_ne he p1 q1 p3 q3 (oE.1 g3 (by simp)) m1 m3 k
      · exact starting_ne he p2 q2 p3 q3 (oE.2.1 g3 (by simp)) m2 m3 k
  by_contra hgt
  have e1 := emits_len (ty := ty) (isFirst := isFirst) E R
  have e2 := emits_len (ty := ty) (isFirst := isFirst) S R
  rw [hR, ← e2] at e1
  have nE := emits_le (ty := ty) (isFirst := isFirst) E R
  have nS := emits_le (ty := ty) (isFirst := isFirst) S R
  have fE : (emits ty isFirst R E).length = 2 := by omega
  have fS : (emits ty isFirst R S).length = 2 := by omega
  obtain ⟨g1, g2, rfl⟩ := List.length_eq_two.1 (show E.length = 2 by omega)
  obtain ⟨s1, s2, rfl⟩ := List.length_eq_two.1 (show S.length = 2 by omega)
  obtain ⟨pg1, qg1⟩ := pE g1 (by simp)
  obtain ⟨pg2, qg2⟩ := pE g2 (by simp)
  obtain ⟨ps1, qs1⟩ := pS s1 (by simp)
  obtain ⟨ps2, qs2⟩ := pS s2 (by simp)
  have og : g1.sg.Lt g2.sg := by simpa using oE
  have os : s1.sg.Lt s2.sg := by simpa using oS
  simp only [emits, List.length_append, List.length_nil, Nat.zero_add] at fE fS
  have t1 := emit_len (ty := ty) R (crossAll isFirst R g1.cs) g1.geom
  have t2 := emit_len (ty := ty) (crossAll isFirst R g1.cs) (crossAll isFirst (crossAll isFirst R g1.cs) g2.cs) g2.geom
  have t3 := emit_len (ty := ty) R (crossAll isFirst R s1.cs) s1.geom
  have t4 := emit_len (ty := ty) (crossAll isFirst R s1.cs) (crossAll isFirst (crossAll isFirst R s1.cs) s2.cs) s2.geom
  have u1 := t1.2 (by omega)
  have u2 := t2.2 (by omega)
  have u3 := t3.2 (by omega)
  rw [crossAll_eq (crossAll isFirst R g1.cs), crossAll_eq] at u2
  rw [crossAll_eq] at u1 u3
  have hin : ∀ {c : Nat}, c ∈ input → OnSeg (geom c).first (geom c).second v → (geom c).first < v → v < (geom c).second →
      Inside (geom c).first (geom c).second v := fun hc ho k1 k2 => ⟨k1, k2, ((onSeg_iff (he.ends hc).2.2).1 ho).1⟩
  obtain ⟨k1, mk1⟩ := List.exists_mem_of_ne_nil _ ps1.ne
  obtain ⟨k2, mk2⟩ := List.exists_mem_of_ne_nil _ ps2.ne
  have wk1 := starting he ps1 qs1 mk1
  have wk2 := starting he ps2 qs2 mk2
  -- an edge that ends at `v` would be the third one
  have third : ∀ {c : Nat}, c ∈ input → OnSeg (geom c).first (geom c).second v → v < (geom c).second := by
    intro c hc ho
    by_contra hle
    have hne : ∀ {k : Nat}, v < (geom k).second → geom c ≠ geom k := fun hk e => hle (e ▸ hk)
    rcases h3 c hc k1 wk1.1 k2 wk2.1 ho wk1.2.1 wk2.2.1 with k | k | k
    · exact hne wk1.2.2.2.2 k
    · exact hne wk2.2.2.2.2 k
    · exact starting_ne he ps1 qs1 ps2 qs2 os mk1 mk2 k
  -- two edges of one operand do not cross
  have hA : ∀ f, oddly f (g1.cs.map isFirst) = true → oddly f (g2.cs.map isFirst) = true → False := by
    intro f o1 o2
    obtain ⟨i, mi, fi⟩ := mem_of_oddly o1
    obtain ⟨j, mj, fj⟩ := mem_of_oddly o2
    have wi := ending he pg1 qg1 mi
    have wj := ending he pg2 qg2 mj
    exact ending_ne he pg1 qg1 pg2 qg2 og mi mj (h2 i wi.1 j wj.1 (fi.trans fj.symm) (hin wi.1 wi.2.1 wi.2.2.2.2 (third wi.1 wi.2.1))
      (hin wj.1 wj.2.1 wj.2.2.2.2 (third wj.1 wj.2.1)))
  have hB : ∀ f, oddly f (g1.cs.map isFirst) = true → oddly f (s1.cs.map isFirst) = true → False := by
    intro f o1 o2
    obtain ⟨i, mi, fi⟩ := mem_of_oddly o1
    obtain ⟨j, mj, fj⟩ := mem_of_oddly o2
    obtain ⟨i', mi'⟩ := List.exists_mem_of_ne_nil _ pg2.ne
    have wi := ending he pg1 qg1 mi
    have wi' := ending he pg2 qg2 mi'
    have wj := starting he ps1 qs1 mj
    have n1 := ending_ne he pg1 qg1 pg2 qg2 og mi mi'
    have n2 := starting_ne he ps1 qs1 ps2 qs2 os mj mk2
    rcases h3 i wi.1 i' wi'.1 j wj.1 wi.2.1 wi'.2.1 wj.2.1 with k | k | k
    · exact n1 k
    · -- the lower edge on the left is the lower one on the right
      have k' : geom i' = geom k2 := by
        rcases h3 i wi.1 i' wi'.1 k2 wk2.1 wi.2.1 wi'.2.1 wk2.2.1 with e | e | e
        · exact absurd e n1
        · exact absurd (k.symm.trans e) n2
        · exact e
      have a1 := Monotone.lt_left_wedge (v := v) qg1 qg2 og
      have a2 := starting_det he qs1 qs2 os
      have c1 := wj.2.2.1
      have c2 := wk2.2.2.1
      rw [← k] at c1
      rw [← k'] at c2
      obtain ⟨t, t0, d1⟩ := det_opposite wi.2.2.2.1 wj.2.2.2.1 (on_det he wi.1 wi.2.1 wi.2.2.1 c1)
      obtain ⟨t', t0', d2⟩ := det_opposite wi'.2.2.2.1 wk2.2.2.2.1 (on_det he wi'.1 wi'.2.1 wi'.2.2.1 c2)
      have e1 : det v s1.q s2.q = - (t * (t' * det v g2.p g1.p)) := by
        rw [d1, show det v g1.p s2.q = - det v s2.q g1.p by unfold det; ring, d2]; ring
      have := mul_pos t0 (mul_pos t0' a1)
      rw [e1] at a2
      have : 0 < t * (t' * det v g2.p g1.p) := this
      linarith
    · have wj' : Inside (geom j).first (geom j).second v := hin wj.1 wj.2.1 (k ▸ wi'.2.2.2.2) wj.2.2.2.2
      exact n1 ((h2 i wi.1 j wj.1 (fi.trans fj.symm) (hin wi.1 wi.2.1 wi.2.2.2.2 (third wi.1 wi.2.1)) wj').trans k.symm)
  rcases table_cross hty u1 u2 u3 with (⟨x, y⟩ | ⟨x, y⟩) | (⟨x, y⟩ | ⟨x, y⟩)
  · exact hA _ x y
  · exact hA _ x y
  · exact hB _ x y
  · exact hB _ x y

end

end GeoCrossings

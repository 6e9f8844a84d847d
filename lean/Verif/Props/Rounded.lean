import Verif.Model.Rounded
import Verif.Spec.Rounded
import Verif.Props.Intersect
import Verif.Props.SplitSegment
import Mathlib.Algebra.Order.Floor.Ring
import Mathlib.Data.Rat.Floor

/-! # C75: intersections in rounded arithmetic -/
set_option linter.unusedSectionVars false
namespace GeoCrossings
open Spec

variable {K C : Type _} [Field K] [LinearOrder K] [IsStrictOrderedRing K]

theorem lineIntersectionR_exact : lineIntersectionR (K := K) properIntersection = lineIntersection := rfl

theorem intersectLineR_exact : LineOrPoint.intersectLineR (K := K) properIntersection = LineOrPoint.intersectLine := rfl

/-- An end point of what `line_intersection` returns. -/
def LineIntersection.anEnd : LineIntersection K → Pt K
  | .singlePoint r => r
  | .collinear l => l.start

theorem collinearIntersection_end {p1 p2 q1 q2 : Pt K} {i : LineIntersection K} (h : collinearIntersection ⟨p1, p2⟩ ⟨q1, q2⟩ = some i) :
    i.anEnd = p1 ∨ i.anEnd = p2 ∨ i.anEnd = q1 ∨ i.anEnd = q2 := by
  unfold collinearIntersection at h
  dsimp only at h
  split_ifs at h <;> simp only [Option.some.injEq] at h <;> subst h <;> simp [LineIntersection.anEnd]

/-- Rounding changes crossing points only; the other points are end points. -/
theorem lineIntersectionR_cases (ip : Line K → Line K → Pt K) {p1 p2 q1 q2 : Pt K} (hp : p1 ≠ p2) (hq : q1 ≠ q2) :
    (lineIntersectionR ip ⟨p1, p2⟩ ⟨q1, q2⟩ = lineIntersection ⟨p1, p2⟩ ⟨q1, q2⟩ ∧
      ∀ i, lineIntersection ⟨p1, p2⟩ ⟨q1, q2⟩ = some i → i.anEnd = p1 ∨ i.anEnd = p2 ∨ i.anEnd = q1 ∨ i.anEnd = q2) ∨
    ∃ z, CrossAt ⟨p1, p2⟩ ⟨q1, q2⟩ z ∧ lineIntersection ⟨p1, p2⟩ ⟨q1, q2⟩ = some (.singlePoint z) ∧
      lineIntersectionR ip ⟨p1, p2⟩ ⟨q1, q2⟩ = some (.singlePoint (ip ⟨p1, p2⟩ ⟨q1, q2⟩)) := by
  have hI := lineIntersection_ne hp hq
  unfold lineIntersectionR
  unfold lineIntersection at hI ⊢
  simp only at hI ⊢
  by_cases c0 : (!rectsMeet ⟨p1, p2⟩ ⟨q1, q2⟩) = true
  · simp only [if_pos c0]; exact .inl ⟨trivial, by simp⟩
  by_cases c1 : orient2d p1 p2 q1 = orient2d p1 p2 q2 ∧ orient2d p1 p2 q1 ≠ .collinear
  · simp only [if_neg c0, if_pos c1]; exact .inl ⟨trivial, by simp⟩
  by_cases c2 : orient2d q1 q2 p1 = orient2d q1 q2 p2 ∧ orient2d q1 q2 p1 ≠ .collinear
  · simp only [if_neg c0, if_neg c1, if_pos c2]; exact .inl ⟨trivial, by simp⟩
  by_cases c3 : orient2d p1 p2 q1 = .collinear ∧ orient2d p1 p2 q2 = .collinear ∧
      orient2d q1 q2 p1 = .collinear ∧ orient2d q1 q2 p2 = .collinear
  · simp only [if_neg c0, if_neg c1, if_neg c2, if_pos c3]
    exact .inl ⟨trivial, fun r h => collinearIntersection_end h⟩
  by_cases c4 : orient2d p1 p2 q1 = .collinear ∨ orient2d p1 p2 q2 = .collinear ∨
      orient2d q1 q2 p1 = .collinear ∨ orient2d q1 q2 p2 = .collinear
  · rw [if_neg c0, if_neg c1, if_neg c2, if_neg c3, if_pos c4, if_neg c0, if_neg c1, if_neg c2, if_neg c3, if_pos c4]
    refine .inl ⟨rfl, fun r h => ?_⟩
    simp only [Option.some.injEq] at h
    rw [← h]
    clear h hI
    dsimp only [LineIntersection.anEnd]
    split_ifs <;> simp
  rw [if_neg c0, if_neg c1, if_neg c2, if_neg c3, if_neg c4] at hI
  rw [if_neg c0, if_neg c1, if_neg c2, if_neg c3, if_neg c4, if_neg c0, if_neg c1, if_neg c2, if_neg c3, if_neg c4]
  right
  refine ⟨_, ?_, rfl, rfl⟩
  obtain ⟨-, hI⟩ := hI
  simp only [orient2d_coll] at c4
  push Not at c4
  have hz := (hI _).1 rfl
  refine ⟨fun r => (hI r).symm, ?_, ?_, ?_, ?_⟩
  · intro h; rw [h] at hz; exact c4.2.2.1 (onSeg_det hz.2)
  · intro h; rw [h] at hz; exact c4.2.2.2 (onSeg_det hz.2)
  · intro h; rw [h] at hz; exact c4.1 (onSeg_det hz.1)
  · intro h; rw [h] at hz; exact c4.2.1 (onSeg_det hz.1)

/-- **C75, the kind of the intersection is exact.** Whatever the rounding, an intersection is found exactly if there is one; it is the
exact one, unless that is a crossing point in the interior of both lines. -/
theorem C75_kind (ip : Line K → Line K → Pt K) (a : LineOrPoint K) {p q : Pt K} (ha : a.WF) (hb : p < q) :
    (a.intersectLineR ip (.line p q) = a.intersectLine (.line p q) ∧
      ∀ r, a.intersectLine (.line p q) = some (some (.point r)) → r = a.first ∨ r = a.second ∨ r = p ∨ r = q) ∨
    ∃ s t z, a = .line s t ∧ CrossAt ⟨s, t⟩ ⟨p, q⟩ z ∧ a.intersectLine (.line p q) = some (some (.point z)) ∧
      a.intersectLineR ip (.line p q) = some (some (.point (ip ⟨s, t⟩ ⟨p, q⟩))) := by
  cases a with
  | point z =>
    refine .inl ⟨rfl, fun r h => .inl ?_⟩
    unfold LineOrPoint.intersectLine at h
    dsimp only [LineOrPoint.isLine] at h
    simp only [Bool.not_true, Bool.false_eq_true, if_false] at h
    split_ifs at h <;> simp_all [LineOrPoint.first]
  | line s t =>
    have e1 : (LineOrPoint.line s t).intersectLineR ip (.line p q) = some ((lineIntersectionR ip ⟨s, t⟩ ⟨p, q⟩).map fun
        | .singlePoint i => .ofCoord i
        | .collinear l => .ofLine l) := rfl
    have e2 : (LineOrPoint.line s t).intersectLine (.line p q) = some ((lineIntersection ⟨s, t⟩ ⟨p, q⟩).map fun
        | .singlePoint i => .ofCoord i
        | .collinear l => .ofLine l) := rfl
    rcases lineIntersectionR_cases ip (p1 := s) (p2 := t) (q1 := p) (q2 := q) (ne_of_lt ha) hb.ne with ⟨h, h'⟩ | ⟨z, h1, h2, h3⟩
    · refine .inl ⟨by rw [e1, e2, h], fun r hr => ?_⟩
      rw [e2] at hr
      cases hl : lineIntersection (⟨s, t⟩ : Line K) ⟨p, q⟩ with
      | none => rw [hl] at hr; simp at hr
      | some l =>
        rw [hl] at hr
        cases l with
        | singlePoint i =>
          simp only [Option.map_some, LineOrPoint.ofCoord, Option.some.injEq, LineOrPoint.point.injEq] at hr
          subst hr
          exact h' _ hl
        | collinear l =>
          simp only [Option.map_some, Option.some.injEq] at hr
          have := h' _ hl
          unfold LineOrPoint.ofLine at hr
          split at hr <;> simp only [reduceCtorEq, LineOrPoint.point.injEq] at hr
          subst hr
          exact this
    · right
      refine ⟨s, t, z, rfl, h1, ?_, ?_⟩
      · rw [e2, h2]; rfl
      · rw [e1, h3]; rfl

theorem inBox_x {p q r : Pt K} (h : p < q) (hr : InBox ⟨p, q⟩ r) : p.x ≤ r.x ∧ r.x ≤ q.x ∧ (p.x = q.x → p.y ≤ r.y) := by
  obtain ⟨h1, h2, h3, -⟩ := hr
  have hx : p.x ≤ q.x := by rcases h with h | h; exacts [h.le, h.1.le]
  dsimp only at h1 h2 h3
  rw [min_eq_left hx] at h1
  rw [max_eq_right hx] at h2
  refine ⟨h1, h2, fun e => ?_⟩
  have hy : p.y ≤ q.y := by rcases h with h | h; exacts [absurd e h.ne, h.2.le]
  rwa [min_eq_left hy] at h3

/-- A crossing point is strictly to the right of the left end of a line that is not vertical. -/
theorem crossAt_x {s t p q z : Pt K} (hst : s < t) (hpq : p < q) (h : CrossAt ⟨s, t⟩ ⟨p, q⟩ z) (hx : s.x < t.x) : s.x < q.x := by
  obtain ⟨h1, h2⟩ := (h.1 z).2 rfl
  have hne := h.2.1
  dsimp only at h1 h2 hne
  have b2 := ((onSeg_iff hpq).1 h2).2.2
  have b1 := (onSeg_iff hst).1 h1
  have hzq : z.x ≤ q.x := by rcases b2 with h | h; exacts [h.le, h.1.le]
  refine lt_of_lt_of_le ?_ hzq
  rcases b1.2.1 with h | h
  · exact h
  · exfalso
    obtain ⟨u, u0, u1, ex, ey⟩ := h1
    have : u = 0 := by
      have : u * (t.x - s.x) = 0 := by linarith [h.1]
      rcases mul_eq_zero.1 this with h | h
      · exact h
      · linarith
    apply hne
    rw [this] at ex ey
    exact Pt.ext' (by simpa using ex) (by simpa using ey)

/-- **C75.** With crossing points computed in any way that keeps them in the bounding boxes, `intersect_line_ordered` of a release
build finds an intersection exactly if there is one. The point it returns can be represented, does not come before `self` starts, and is
in the range of abscissas of both operands. If `self` does not start before `other` does, it does not come before the start of `other`
either, and a debug build returns the same. -/
theorem C75_ordered (G : Grid K) (ip : Line K → Line K → Pt K) (hip : Boxed G ip) (a : LineOrPoint K) {p q : Pt K} (ha : a.WF)
    (hb : p < q) (ra : G.RepGeom a) (rp : G.RepPt p) (rq : G.RepPt q) :
    ∃ res, a.intersectLineOrderedR false ip G.up (.line p q) = some res ∧
      (res = none ↔ ∀ r, ¬ (On a r ∧ OnSeg p q r)) ∧
      (∀ s t, res = some (.line s t) ↔ a.intersectLine (.line p q) = some (some (.line s t))) ∧
      (∀ r, res = some (.point r) → G.RepPt r ∧ a.first ≤ r ∧ a.first.x ≤ r.x ∧ p.x ≤ r.x ∧ r.x ≤ a.second.x ∧ r.x ≤ q.x) ∧
      (p ≤ a.first → a.intersectLineOrderedR true ip G.up (.line p q) = some res ∧ ∀ r, res = some (.point r) → p ≤ r) := by
  have hex := C16_intersect_line_exact a (.line p q) ha hb
  have h17 := C17_ordered_eq G.up a (.line p q) ha hb
  obtain ⟨-, hex⟩ := hex
  obtain ⟨x1, x2, x3⟩ := hex ⟨p, q, rfl⟩
  rcases C75_kind ip a ha hb with ⟨h, hend⟩ | ⟨s, t, z, rfl, hc, h1, h2⟩
  · -- no crossing point
    obtain ⟨res, hres, hI⟩ := intersectLine_isInter a ha hb
    have hd : ∀ d, a.intersectLineOrderedR d ip G.up (.line p q) = some res := by
      intro d
      unfold LineOrPoint.intersectLineOrderedR
      rw [h, hres]
      match res, hres, hI with
      | none, _, _ => rfl
      | some (.line s t), _, _ => rfl
      | some (.point r), hres, _ =>
        obtain ⟨e1, e2⟩ := h17
        have := e2 (.point r) (by rw [e1, hres])
        simp only [LineOrPoint.first, LineOrPoint.second] at this
        have hn : ¬ (r.x = a.first.x ∧ r.y < a.first.y) := by
          rintro ⟨u, v⟩
          exact absurd this.1 (not_le.2 (.inr ⟨u, v⟩))
        dsimp only
        rw [if_neg hn, if_neg]
        rintro ⟨-, u⟩
        exact u ⟨this.1, this.2.1⟩
    refine ⟨res, hd false, ?_, ?_, ?_, fun hpa => ⟨hd true, ?_⟩⟩
    · rw [hres] at x1; exact ⟨fun h => x1.1 (by rw [h]), fun h => by simpa using x1.2 h⟩
    · intro s t; rw [hres]; simp
    · rintro r rfl
      obtain ⟨e1, e2⟩ := h17
      have := e2 (.point r) (by rw [e1, hres])
      simp only [LineOrPoint.first, LineOrPoint.second] at this
      obtain ⟨t1, t2, t3, t4⟩ := this
      have px : ∀ {u v : Pt K}, u ≤ v → u.x ≤ v.x := fun h => by rcases h with h | h; exacts [h.le, h.1.le]
      refine ⟨?_, t1, px t1, px t2, px t3, px t4⟩
      rcases hend r hres with e | e | e | e <;> rw [e]
      exacts [ra.1, ra.2, rp, rq]
    · rintro r rfl
      obtain ⟨e1, e2⟩ := h17
      exact (e2 (.point r) (by rw [e1, hres])).2.1
  · -- a crossing point
    obtain ⟨k1, k2, k3⟩ := hip _ _ z hc ra.1 ra.2 rp rq
    obtain ⟨i, hi⟩ : ∃ i, ip ⟨s, t⟩ ⟨p, q⟩ = i := ⟨_, rfl⟩
    rw [hi] at k1 k2 k3 h2
    have ha' : s < t := ha
    obtain ⟨b1, b2, b3⟩ := inBox_x ha' k2
    obtain ⟨b4, b5, -⟩ := inBox_x hb k3
    obtain ⟨x, hx⟩ : ∃ x, (if i.x = s.x ∧ i.y < s.y then G.up i.x else i.x) = x := ⟨_, rfl⟩
    have hxx : G.rep x ∧ i.x ≤ x ∧ x ≤ t.x ∧ x ≤ q.x ∧ s ≤ ⟨x, i.y⟩ := by
      by_cases hc' : i.x = s.x ∧ i.y < s.y
      · rw [if_pos hc'] at hx
        have hst : s.x < t.x := by
          rcases ha' with h | h
          · exact h
          · exact absurd (b3 h.1) (not_le.2 hc'.2)
        have hsq := crossAt_x ha' hb hc hst
        have hlt := G.lt_up i.x k1.1
        rw [← hx]
        refine ⟨G.rep_up _ k1.1, hlt.le, G.up_le _ _ k1.1 ra.2.1 (by rw [hc'.1]; exact hst),
          G.up_le _ _ k1.1 rq.1 (by rw [hc'.1]; exact hsq), .inl ?_⟩
        dsimp only
        rw [← hc'.1]; exact hlt
      · rw [if_neg hc'] at hx
        rw [← hx]
        refine ⟨k1.1, le_rfl, b2, b5, ?_⟩
        rcases b1.lt_or_eq with h | h
        · exact .inl h
        · exact .inr ⟨h, not_lt.1 fun h' => hc' ⟨h.symm, h'⟩⟩
    obtain ⟨y1, y2, y3, y4, y5⟩ := hxx
    have hd : ∀ d : Bool, (d = true → p ≤ s) →
        (LineOrPoint.line s t).intersectLineOrderedR d ip G.up (.line p q) = some (some (.point ⟨x, i.y⟩)) := by
      intro d hd
      unfold LineOrPoint.intersectLineOrderedR
      rw [h2]
      dsimp only [LineOrPoint.first]
      rw [hx]
      exact if_neg fun h => h.2 ⟨y5, le_trans (hd h.1) y5⟩
    refine ⟨some (.point ⟨x, i.y⟩), hd false (by simp), ?_, ?_, ?_, fun hpa => ⟨hd true fun _ => hpa, ?_⟩⟩
    · simp only [reduceCtorEq, false_iff, not_forall, not_not]
      exact ⟨z, (hc.1 z).2 rfl⟩
    · intro u v; rw [h1]; simp
    · rintro r hr
      simp only [Option.some.injEq, LineOrPoint.point.injEq] at hr
      subst hr
      exact ⟨⟨y1, k1.2⟩, y5, b1.trans y2, b4.trans y2, y3, y4⟩
    · rintro r hr
      simp only [Option.some.injEq, LineOrPoint.point.injEq] at hr
      subst hr
      exact le_trans hpa y5

/-- **C75, splitting.** A line that is split at a point not before its start gives well-formed pieces that start where the line does,
also if the point is not on the line or comes after its end. -/
theorem C75_split (s : Seg K C) {p q r : Pt K} (hs : s.geom = .line p q) (hpq : p < q) (hr : p ≤ r) :
    ∃ s' out, s.adjust (.point r) = some (s', out) ∧ s'.geom.first = p ∧ (∀ g ∈ piecesOf s'.geom (.point r) out, g.WF) ∧
      ((r = p ∨ r = q) ∧ s' = s ∧ out = .unchanged false ∨
        s'.geom = .line p r ∧ out = .splitOnce none (.line (min q r) (max q r))) := by
  unfold Seg.adjust
  rw [hs]
  dsimp only
  rw [if_neg (not_not.2 hr)]
  by_cases h : p = r ∨ q = r
  · rw [if_pos h]
    refine ⟨s, _, rfl, by rw [hs]; rfl, ?_, .inl ⟨h.imp Eq.symm Eq.symm, rfl, rfl⟩⟩
    simp only [piecesOf, List.mem_singleton, forall_eq, hs]
    exact hpq
  · rw [if_neg h]
    push Not at h
    have h1 : p < r := lt_of_le_of_ne hr h.1
    refine ⟨_, _, rfl, rfl, ?_, .inr ⟨rfl, ?_⟩⟩
    · simp only [piecesOf, List.mem_cons, List.not_mem_nil, or_false, forall_eq_or_imp, forall_eq]
      refine ⟨h1, ?_⟩
      split_ifs with h2
      · exact h2
      · exact lt_of_le_of_ne (not_lt.1 h2) h.2
    · split_ifs with h2
      · rw [min_eq_right (le_of_lt h2), max_eq_left (le_of_lt h2)]
      · rw [min_eq_left (not_lt.1 h2), max_eq_right (not_lt.1 h2)]

theorem crossAt_proper {a b : Line K} {z : Pt K} (h : CrossAt a b z) : properIntersection a b = z := by
  obtain ⟨p1, p2⟩ := a
  obtain ⟨q1, q2⟩ := b
  obtain ⟨hu, n1, n2, n3, n4⟩ := h
  dsimp only at hu n1 n2 n3 n4
  obtain ⟨o1, o2⟩ := (hu z).2 rfl
  have hp : p1 ≠ p2 := by rintro rfl; exact n1 (onSeg_refl_iff.1 o1)
  have hq : q1 ≠ q2 := by rintro rfl; exact n3 (onSeg_refl_iff.1 o2)
  have hI := lineIntersection_ne hp hq
  have key : ∀ i, lineIntersection ⟨p1, p2⟩ ⟨q1, q2⟩ = some i → i.toGeom = .point z := by
    intro i hi
    rw [hi] at hI
    obtain ⟨w, hI⟩ := hI
    exact geom_ext w trivial fun r => (hI r).trans (hu r)
  rcases lineIntersectionR_cases properIntersection hp hq with ⟨-, h⟩ | ⟨z', -, h1, h2⟩
  · exfalso
    cases hi : lineIntersection ⟨p1, p2⟩ ⟨q1, q2⟩ with
    | none => rw [hi] at hI; exact hI z ⟨o1, o2⟩
    | some i =>
      have e : i.anEnd = z := by
        have := key i hi
        cases i with
        | singlePoint r => simpa [LineIntersection.toGeom, LineOrPoint.ofCoord, LineIntersection.anEnd] using this
        | collinear l =>
          simp only [LineIntersection.toGeom, LineOrPoint.ofLine] at this
          split at this <;> simp only [reduceCtorEq, LineOrPoint.point.injEq] at this
          exact this
      have := h i hi
      rw [e] at this
      rcases this with e | e | e | e
      exacts [n1 e, n2 e, n3 e, n4 e]
  · rw [lineIntersectionR_exact] at h2
    have := key _ h2
    simpa [LineIntersection.toGeom, LineOrPoint.ofCoord] using this

/-- The exact crossing point, each coordinate rounded. -/
def roundedIp (rd : K → K) (a b : Line K) : Pt K := ⟨rd (properIntersection a b).x, rd (properIntersection a b).y⟩

/-- Crossing points that are rounded correctly, in whatever direction, meet what is asked of them. -/
theorem boxed_of_rounding (G : Grid K) (rd : K → K) (mono : Monotone rd) (hfix : ∀ x, G.rep x → rd x = x) (hrep : ∀ x, G.rep (rd x)) :
    Boxed G (roundedIp rd) := by
  intro a b z h r1 r2 r3 r4
  have hz := (h.1 z).2 rfl
  have key : ∀ {s t : Pt K}, G.RepPt s → G.RepPt t → OnSeg s t z → InBox ⟨s, t⟩ ⟨rd z.x, rd z.y⟩ := by
    intro s t rs rt hst
    obtain ⟨⟨b1, b2⟩, b3, b4⟩ := onSeg_bounds hst
    have rmin : ∀ {u v : K}, G.rep u → G.rep v → rd (min u v) = min u v := fun {u v} hu hv => by
      rcases min_choice u v with h | h <;> rw [h] <;> exact hfix _ ‹_›
    have rmax : ∀ {u v : K}, G.rep u → G.rep v → rd (max u v) = max u v := fun {u v} hu hv => by
      rcases max_choice u v with h | h <;> rw [h] <;> exact hfix _ ‹_›
    refine ⟨?_, ?_, ?_, ?_⟩
    · dsimp only; rw [← rmin rs.1 rt.1]; exact mono b1
    · dsimp only; rw [← rmax rs.1 rt.1]; exact mono b2
    · dsimp only; rw [← rmin rs.2 rt.2]; exact mono b3
    · dsimp only; rw [← rmax rs.2 rt.2]; exact mono b4
  unfold roundedIp
  rw [crossAt_proper h]
  exact ⟨⟨hrep _, hrep _⟩, key r1 r2 hz.1, key r3 r4 hz.2⟩

/-! ## The integers as an example -/

/-- The integers. -/
def intGrid : Grid ℚ where
  rep x := ∃ n : ℤ, x = n
  up x := x + 1
  rep_up := by rintro _ ⟨n, rfl⟩; exact ⟨n + 1, by push_cast; rfl⟩
  lt_up x _ := by linarith
  up_le := by rintro _ _ ⟨n, rfl⟩ ⟨m, rfl⟩ h; exact_mod_cast h

/-- Rounding down. -/
def rdFloor (x : ℚ) : ℚ := (⌊x⌋ : ℤ)

theorem boxed_floor : Boxed intGrid (roundedIp rdFloor) :=
  boxed_of_rounding _ _ (fun _ _ h => by unfold rdFloor; exact_mod_cast Int.floor_mono h)
    (by rintro _ ⟨n, rfl⟩; simp [rdFloor]) (fun x => ⟨_, rfl⟩)

/-- A steep line that starts to the right of the other one: its crossing with the axis is rounded to a point before `self`. The branch
with `next_after` moves it to the right. -/
example : (LineOrPoint.line ⟨1, 1⟩ ⟨2, -1⟩ : LineOrPoint ℚ).intersectLineR (roundedIp rdFloor) (.line ⟨0, 0⟩ ⟨3, 0⟩) = some (some (.point ⟨1, 0⟩)) ∧
    (LineOrPoint.line ⟨1, 1⟩ ⟨2, -1⟩ : LineOrPoint ℚ).intersectLineOrderedR true (roundedIp rdFloor) intGrid.up (.line ⟨0, 0⟩ ⟨3, 0⟩) =
      some (some (.point ⟨2, 0⟩)) := by decide +kernel

/-- **C75, the comment on the branch is wrong about `other`.** "We detect and force r to be greater than both end-points" holds for
`self` only: with the operands of the example above exchanged, as they can be when the segment between them is removed
(`crossings/sweep.rs:528`), the point is before the start of `other`. A debug build panics, there and in the split of `other`; a release
build would store a line whose end points are in the wrong order. -/
theorem C75_other_before_start :
    ∃ (G : Grid ℚ) (ip : Line ℚ → Line ℚ → Pt ℚ) (a b : LineOrPoint ℚ) (r : Pt ℚ), Boxed G ip ∧ a.WF ∧ b.WF ∧ a.isLine ∧ b.isLine ∧
      G.RepGeom a ∧ G.RepGeom b ∧ a.pcmp b = some .lt ∧
      a.intersectLineOrderedR false ip G.up b = some (some (.point r)) ∧ r < b.first ∧
      a.intersectLineOrderedR true ip G.up b = none ∧
      ∀ s : Seg ℚ Unit, s.geom = b → s.adjust (.point r) = none := by
  refine ⟨intGrid, roundedIp rdFloor, .line ⟨0, 0⟩ ⟨3, 0⟩, .line ⟨1, 1⟩ ⟨2, -1⟩, ⟨1, 0⟩, boxed_floor, ?_, ?_, rfl, rfl, ?_, ?_, ?_, ?_, ?_, ?_, ?_⟩
  · exact .inl (by norm_num)
  · exact .inl (by norm_num)
  · exact ⟨⟨⟨0, by simp [LineOrPoint.first]⟩, ⟨0, by simp [LineOrPoint.first]⟩⟩, ⟨3, by simp [LineOrPoint.second]⟩, ⟨0, by simp [LineOrPoint.second]⟩⟩
  · exact ⟨⟨⟨1, by simp [LineOrPoint.first]⟩, ⟨1, by simp [LineOrPoint.first]⟩⟩, ⟨2, by simp [LineOrPoint.second]⟩, ⟨-1, by simp [LineOrPoint.second]⟩⟩
  · decide +kernel
  · decide +kernel
  · exact .inr ⟨rfl, by norm_num [LineOrPoint.first]⟩
  · decide +kernel
  · intro s hs
    unfold Seg.adjust
    rw [hs]
    dsimp only
    rw [if_pos (by decide +kernel)]

end GeoCrossings

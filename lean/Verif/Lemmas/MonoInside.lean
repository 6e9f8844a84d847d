import Verif.Lemmas.MonoArea

/-!
# Inside a valid polygon: inside the exterior and outside the holes; reversed rings
-/
set_option linter.unusedSectionVars false
namespace GeoCrossings.Monotone
open Spec

variable {K : Type} [Field K] [LinearOrder K] [IsStrictOrderedRing K] {n : Nat} {ed : Nat → Sg K} {top : Nat → Bool}
  {R : List (List (Pt K) × Winding)} {ext : List (Pt K)} {holes : List (List (Pt K))}

theorem evenOdd_count (ext : List (Pt K)) (holes : List (List (Pt K))) (r : Pt K) :
    EvenOdd (ext :: holes) r ↔ Odd ((List.range' 1 (dir (ringsOf ext holes)).length).countP fun k => Passes r (numEd (ringsOf ext holes) k)) := by
  have : (List.range' 1 (dir (ringsOf ext holes)).length).countP (fun k => Passes r (numEd (ringsOf ext holes) k)) = edgesBelow (ext :: holes) r := by
    rw [← ringsOf_fst ext holes, ← below_eq, below, und_eq, List.countP_map]
    rfl
  rw [this]
  rfl

/-- The number of edges below `r`, counted with the side of the interior. -/
def signed (r : Pt K) (L : List (Sg K × Winding)) : K := (L.map fun x => if lab x then ind r (norm x.1) else - ind r (norm x.1)).sum

theorem signed_eq (R : List (List (Pt K) × Winding)) (r : Pt K) :
    signed r (dir R) = edgeSum (numEd R) (numTop R) (ind r) (List.range' 1 (dir R).length) := by
  unfold edgeSum numEd numTop signed
  congr 1
  refine List.ext_getElem (by simp) fun i h1 h2 => ?_
  simp only [List.length_map] at h1
  simp [List.getElem?_eq_getElem h1]

theorem signed_append (r : Pt K) (L L' : List (Sg K × Winding)) : signed r (L ++ L') = signed r L + signed r L' := by
  simp [signed]

theorem signed_valid (h : ValidPolygon ext holes) (r : Pt K) :
    signed r (dir (ringsOf ext holes)) = - if EvenOdd (ext :: holes) r then 1 else 0 := by
  obtain ⟨out, -, D⟩ := monotoneChains_ok false id (p := ⟨ext, holes⟩) h
  obtain ⟨u, gs, hI, hr⟩ := D.gaps r
  rw [signed_eq, hI.edgeSum (edges_valid h) hr]
  simp only [evenOdd_count]

theorem lab_inverse {e : Sg K} (w : Winding) : lab (e, w.inverse) = !lab (e, w) := by
  unfold lab
  simp only
  split_ifs <;> cases w <;> rfl

theorem signed_inverse (r : Pt K) (w : Winding) (l : List (Sg K)) :
    signed r (l.map fun e => (e, w.inverse)) = - signed r (l.map fun e => (e, w)) := by
  unfold signed
  induction l with
  | nil => simp
  | cons e l ih =>
    simp only [List.map_cons, List.sum_cons, List.map_map] at ih ⊢
    rw [ih, lab_inverse]
    cases lab (e, w) <;> simp <;> ring

theorem signed_ring (h : ValidPolygon ext holes) {hole : List (Pt K)} (hh : hole ∈ ext :: holes) (r : Pt K) :
    signed r ((es hole).map fun e => (e, wOf hole)) = - if EvenOdd [hole] r then 1 else 0 := by
  have := signed_valid (valid_single h hh) r
  simpa [dir, ringsOf] using this

/-- How often `r` is inside the exterior, less how often it is inside holes. -/
theorem inside_sum (h : ValidPolygon ext holes) (r : Pt K) :
    (if EvenOdd [ext] r then 1 else 0) = (if EvenOdd (ext :: holes) r then 1 else 0) + holes.countP fun hole => EvenOdd [hole] r := by
  have h0 := signed_valid h r
  have e : dir (ringsOf ext holes) = ((es ext).map fun e => (e, wOf ext)) ++ dir (holes.map fun h => (h, (wOf h).inverse)) := by
    simp [dir, ringsOf]
  have key : ∀ hs : List (List (Pt K)), (∀ x ∈ hs, x ∈ ext :: holes) →
      signed r (dir (hs.map fun h => (h, (wOf h).inverse))) = ((hs.countP fun hole => EvenOdd [hole] r : Nat) : K) := by
    intro hs
    induction hs with
    | nil => intro _; simp [dir, signed]
    | cons a hs ih =>
      intro hm
      have e : dir ((a :: hs).map fun h => (h, (wOf h).inverse)) = ((es a).map fun e => (e, (wOf a).inverse)) ++ dir (hs.map fun h => (h, (wOf h).inverse)) := by
        simp [dir]
      rw [e, signed_append, ih fun x hx => hm x (by simp [hx]), signed_inverse, signed_ring h (hm a (by simp)), List.countP_cons]
      split_ifs <;> simp_all [add_comm]
  rw [e, signed_append, signed_ring h (by simp), key holes fun x hx => by simp [hx]] at h0
  have : ((if EvenOdd [ext] r then 1 else 0 : Nat) : K) =
      (((if EvenOdd (ext :: holes) r then 1 else 0) + holes.countP fun hole => EvenOdd [hole] r : Nat) : K) := by
    push_cast
    have c1 : ((if EvenOdd [ext] r then 1 else 0 : Nat) : K) = if EvenOdd [ext] r then 1 else 0 := by split_ifs <;> simp
    have c2 : ((if EvenOdd (ext :: holes) r then 1 else 0 : Nat) : K) = if EvenOdd (ext :: holes) r then 1 else 0 := by split_ifs <;> simp
    push_cast at c1 c2
    rw [c1, c2]
    linarith
  exact Nat.cast_injective this

/-- A point is inside a valid polygon, by the even-odd rule, iff it is inside the exterior and outside the holes. -/
theorem evenOdd_valid (h : ValidPolygon ext holes) (r : Pt K) :
    EvenOdd (ext :: holes) r ↔ EvenOdd [ext] r ∧ ∀ hole ∈ holes, ¬ EvenOdd [hole] r := by
  have hs := inside_sum h r
  constructor
  · intro hr
    rw [if_pos hr] at hs
    by_cases he : EvenOdd [ext] r
    · rw [if_pos he] at hs
      refine ⟨he, fun hole hh hin => ?_⟩
      have : 0 < holes.countP fun hole => EvenOdd [hole] r := List.countP_pos_iff.2 ⟨hole, hh, decide_eq_true hin⟩
      omega
    · rw [if_neg he] at hs; omega
  · rintro ⟨he, hh⟩
    have : (holes.countP fun hole => EvenOdd [hole] r) = 0 := List.countP_eq_zero.2 fun x hx h => hh x hx (of_decide_eq_true h)
    rw [if_pos he, this] at hs
    by_contra hc
    rw [if_neg hc] at hs
    omega

/-! ## Reversed rings -/

/-- Each ring is the same, or reversed. -/
def SameRings (rs rs' : List (List (Pt K))) : Prop := List.Forall₂ (fun r r' => r' = r ∨ r' = r.reverse) rs rs'

theorem edgesBelow_reverse (l : List (Pt K)) (r : Pt K) : edgesBelow [l.reverse] r = edgesBelow [l] r := by
  unfold edgesBelow
  rw [List.map_singleton, List.sum_singleton, List.map_singleton, List.sum_singleton]
  show (es l.reverse).countP _ = (es l).countP _
  rw [(es_reverse l).countP_eq, List.countP_map]
  refine List.countP_congr fun e _ => ?_
  simp only [Function.comp_apply, decide_eq_true_eq]
  exact ⟨PassesBelow.symm, PassesBelow.symm⟩

theorem evenOdd_reverse (l : List (Pt K)) (r : Pt K) : EvenOdd [l.reverse] r ↔ EvenOdd [l] r := by
  unfold EvenOdd; rw [edgesBelow_reverse]

theorem evenOdd_same {l l' : List (Pt K)} (h : l' = l ∨ l' = l.reverse) (r : Pt K) : EvenOdd [l'] r ↔ EvenOdd [l] r := by
  rcases h with rfl | rfl
  · exact Iff.rfl
  · exact evenOdd_reverse l r

theorem mem_same {l l' : List (Pt K)} (h : l' = l ∨ l' = l.reverse) (v : Pt K) : v ∈ l' ↔ v ∈ l := by
  rcases h with rfl | rfl
  · exact Iff.rfl
  · exact List.mem_reverse

theorem closed_dropLast_reverse {l : List (Pt K)} (h : l.head? = l.getLast?) : l.reverse.dropLast.Perm l.dropLast := by
  cases l with
  | nil => exact List.Perm.refl _
  | cons a t =>
    rcases List.eq_nil_or_concat t with rfl | ⟨m, c, rfl⟩
    · exact List.Perm.refl _
    · rw [List.concat_eq_append] at h ⊢
      have : c = a := by
        have e : (a :: (m ++ [c])).getLast? = some c := by rw [show a :: (m ++ [c]) = (a :: m) ++ [c] from rfl, List.getLast?_concat]
        rw [e] at h
        simpa using h.symm
      subst this
      have e1 : (c :: (m ++ [c])).reverse = (c :: m.reverse) ++ [c] := by simp
      have e2 : c :: (m ++ [c]) = (c :: m) ++ [c] := rfl
      rw [e1, e2, List.dropLast_concat, List.dropLast_concat]
      exact (List.reverse_perm m).cons c

theorem ringEdges_same {l l' : List (Pt K)} (h : l' = l ∨ l' = l.reverse) {e : Pt K × Pt K} (he : e ∈ ringEdges l') :
    e ∈ ringEdges l ∨ (e.2, e.1) ∈ ringEdges l := by
  rcases h with rfl | rfl
  · exact .inl he
  · right
    have : e ∈ (es l).map fun e => (e.2, e.1) := (es_reverse l).mem_iff.1 he
    obtain ⟨x, hx, rfl⟩ := List.mem_map.1 this
    exact hx

theorem forall₂_mem {α β : Type _} {P : α → β → Prop} {l : List α} {l' : List β} (h : List.Forall₂ P l l') : ∀ b ∈ l', ∃ a ∈ l, P a b := by
  induction h with
  | nil => simp
  | cons h1 _ ih =>
    intro b hb
    rcases List.mem_cons.1 hb with rfl | hb
    · exact ⟨_, by simp, h1⟩
    · obtain ⟨a, ha, hp⟩ := ih b hb
      exact ⟨a, by simp [ha], hp⟩

theorem forall₂_pairwise {α β : Type _} {P : α → β → Prop} {Q : α → α → Prop} {Q' : β → β → Prop} {l : List α} {l' : List β}
    (h : List.Forall₂ P l l') (hQ : ∀ a b a' b', P a a' → P b b' → Q a b → Q' a' b') (hl : l.Pairwise Q) : l'.Pairwise Q' := by
  induction h with
  | nil => exact List.Pairwise.nil
  | cons h1 h2 ih =>
    rw [List.pairwise_cons] at hl ⊢
    refine ⟨fun b hb => ?_, ih hl.2⟩
    obtain ⟨a, ha, hp⟩ := forall₂_mem h2 b hb
    exact hQ _ _ _ _ h1 hp (hl.1 a ha)

theorem same_edges {rs rs' : List (List (Pt K))} (h : SameRings rs rs') {e : Pt K × Pt K} (he : e ∈ rs'.flatMap ringEdges) :
    e ∈ rs.flatMap ringEdges ∨ (e.2, e.1) ∈ rs.flatMap ringEdges := by
  obtain ⟨r', hr', he⟩ := List.mem_flatMap.1 he
  obtain ⟨r, hr, hs⟩ := forall₂_mem h r' hr'
  exact (ringEdges_same hs he).imp (fun h => List.mem_flatMap.2 ⟨r, hr, h⟩) fun h => List.mem_flatMap.2 ⟨r, hr, h⟩

theorem closed_same {ext' : List (Pt K)} {holes' : List (List (Pt K))} (h : ValidPolygon ext holes)
    (hs : SameRings (ext :: holes) (ext' :: holes')) : ∀ r ∈ ext' :: holes', r.head? = r.getLast? ∧ 4 ≤ r.length := by
  intro r' hr'
  obtain ⟨r, hr, rfl | rfl⟩ := forall₂_mem hs r' hr'
  · exact h.closed _ hr
  · have := h.closed _ hr
    simp [this.1, this.2]

theorem distinct_same {ext' : List (Pt K)} {holes' : List (List (Pt K))} (h : ValidPolygon ext holes)
    (hs : SameRings (ext :: holes) (ext' :: holes')) : ((ext' :: holes').flatMap List.dropLast).Nodup := by
  have hp : ((ext' :: holes').flatMap List.dropLast).Perm ((ext :: holes).flatMap List.dropLast) := by
    have : ∀ rs rs' : List (List (Pt K)), (∀ r ∈ rs, r.head? = r.getLast?) → SameRings rs rs' →
        (rs'.flatMap List.dropLast).Perm (rs.flatMap List.dropLast) := by
      intro rs rs' hc hs
      induction hs with
      | nil => exact List.Perm.refl _
      | @cons a b l l' h1 _ ih =>
        simp only [List.flatMap_cons]
        refine List.Perm.append ?_ (ih fun r hr => hc r (by simp [hr]))
        rcases h1 with rfl | rfl
        · exact List.Perm.refl _
        · exact closed_dropLast_reverse (hc _ (by simp))
    exact this _ _ (fun r hr => (h.closed r hr).1) hs
  rw [hp.nodup_iff]
  exact h.distinct

/-- No edge is there in both directions. -/
theorem no_double {ext' : List (Pt K)} {holes' : List (List (Pt K))} (h : ValidPolygon ext holes)
    (hs : SameRings (ext :: holes) (ext' :: holes')) {e e' : Pt K × Pt K} (he : e ∈ (ext' :: holes').flatMap ringEdges)
    (he' : e' ∈ (ext' :: holes').flatMap ringEdges) : e ≠ (e'.2, e'.1) := by
  intro k
  have hc := closed_same h hs
  have hd := distinct_same h hs
  obtain ⟨r, hr, hre⟩ := List.mem_flatMap.1 he
  obtain ⟨f, hf, hfe⟩ := List.mem_map.1 ((es_perm (hc r hr).1 (hc r hr).2).mem_iff.1 (List.mem_map_of_mem (f := Prod.snd) hre))
  have hfs : ((ext' :: holes').flatMap ringEdges).map Prod.fst = (ext' :: holes').flatMap List.dropLast := by
    rw [List.map_flatMap]
    exact List.flatMap_congr fun r _ => es_fst r
  have hfr : f ∈ (ext' :: holes').flatMap ringEdges := List.mem_flatMap.2 ⟨r, hr, hf⟩
  have : f = e' := List.inj_on_of_nodup_map (f := Prod.fst) (by rw [hfs]; exact hd) hfr he' (by rw [hfe, k])
  subst this
  have hne : e.1 ≠ e.2 := by
    rw [List.nodup_flatMap] at hd
    exact es_ne (hc r hr).1 (hc r hr).2 (hd.1 r hr) hre
  have both : e ∈ (ext :: holes).flatMap ringEdges ∧ f ∈ (ext :: holes).flatMap ringEdges := by
    obtain ⟨q, hq, rfl | rfl⟩ := forall₂_mem hs r hr
    · exact ⟨List.mem_flatMap.2 ⟨_, hq, hre⟩, List.mem_flatMap.2 ⟨_, hq, hf⟩⟩
    · obtain ⟨x, hx, ex⟩ := List.mem_map.1 ((es_reverse q).mem_iff.1 hre)
      obtain ⟨y, hy, ey⟩ := List.mem_map.1 ((es_reverse q).mem_iff.1 hf)
      subst ex
      subst ey
      rw [Prod.mk.injEq] at k
      have e1 : x = (y.2, y.1) := Prod.ext k.2 k.1
      have e2 : y = (x.2, x.1) := by rw [e1]
      exact ⟨List.mem_flatMap.2 ⟨_, hq, e2 ▸ hy⟩, List.mem_flatMap.2 ⟨_, hq, e1 ▸ hx⟩⟩
  obtain ⟨m, m1, m2⟩ := exists_mid (g := e) hne
  refine m2 (h.meet e both.1 f both.2 ?_ m m1 ?_).1
  · intro h'
    rw [← h'] at k
    exact hne (congrArg Prod.fst k)
  · rw [k] at m1
    exact onSeg_swap m1

/-- Reversing rings keeps a polygon valid. -/
theorem valid_same {ext' : List (Pt K)} {holes' : List (List (Pt K))} (h : ValidPolygon ext holes)
    (hs : SameRings (ext :: holes) (ext' :: holes')) : ValidPolygon ext' holes' where
  closed := closed_same h hs
  distinct := distinct_same h hs
  meet := by
    intro e he e' he' hne x hx hx'
    rcases same_edges hs he with a | a <;> rcases same_edges hs he' with b | b
    · exact h.meet e a e' b hne x hx hx'
    · exact (h.meet e a _ b (no_double h hs he he') x hx (onSeg_swap hx')).imp_right Or.symm
    · exact (h.meet _ a e' b (fun h' => no_double h hs he' he h'.symm) x (onSeg_swap hx) hx').imp_left Or.symm
    · have k : (e.2, e.1) ≠ (e'.2, e'.1) := by
        intro h
        rw [Prod.mk.injEq] at h
        exact hne (Prod.ext h.2 h.1)
      exact (h.meet _ a _ b k x (onSeg_swap hx) (onSeg_swap hx')).imp Or.symm Or.symm
  inside := by
    rw [SameRings, List.forall₂_cons] at hs
    intro r' hr' v hv
    obtain ⟨r, hr, hs'⟩ := forall₂_mem hs.2 r' hr'
    rw [evenOdd_same hs.1]
    exact h.inside r hr v ((mem_same hs' v).1 hv)
  apart := by
    rw [SameRings, List.forall₂_cons] at hs
    refine forall₂_pairwise hs.2 ?_ h.apart
    intro a b a' b' ha hb hq
    refine ⟨fun v hv => ?_, fun v hv => ?_⟩
    · rw [evenOdd_same hb]; exact hq.1 v ((mem_same ha v).1 hv)
    · rw [evenOdd_same ha]; exact hq.2 v ((mem_same hb v).1 hv)

theorem areaUnder_reverse (l : List (Pt K)) : areaUnder l.reverse = - areaUnder l := by
  rw [← wt_trap, ← wt_trap]
  unfold wt
  rw [((es_reverse l).map _).sum_eq, List.map_map]
  induction es l with
  | nil => simp
  | cons e t ih =>
    rw [List.map_cons, List.sum_cons, ih, List.map_cons, List.sum_cons, Function.comp_apply, trap_swap]
    ring

theorem wOf_reverse (h : ValidPolygon ext []) : wOf ext.reverse = (wOf ext).inverse := by
  have h' : ValidPolygon ext.reverse [] := valid_same h (by simp [SameRings])
  have a1 := areaUnder_ring (h.closed ext (by simp)).1
  have a2 := areaUnder_ring (h'.closed ext.reverse (by simp)).1
  rw [areaUnder_reverse, a1] at a2
  rcases winding_area h with ⟨e1, e2⟩ | ⟨e1, e2⟩ <;> rcases winding_area h' with ⟨e3, e4⟩ | ⟨e3, e4⟩
  · exfalso; linarith
  · rw [e1, e3]; rfl
  · rw [e1, e3]; rfl
  · exfalso; linarith

/-- What `Segment::new` keeps of an edge. -/
def kept (x : Sg K × Winding) : Sg K × Bool := (norm x.1, lab x)

theorem kept_swap {e : Sg K} (he : e.1 ≠ e.2) (w : Winding) : kept ((e.2, e.1), w.inverse) = kept (e, w) := by
  unfold kept norm lab
  rcases lt_or_gt_of_ne he with h | h
  · simp only [h, if_true, h.not_gt, if_false]
    cases w <;> rfl
  · simp only [h, if_true, h.not_gt, if_false]

theorem kept_ring (h : ValidPolygon ext holes) {r r' : List (Pt K)} (hr : r ∈ ext :: holes) (hs : r' = r ∨ r' = r.reverse) (i : Bool) :
    ((es r').map fun e => kept (e, if i then (wOf r').inverse else wOf r')).Perm ((es r).map fun e => kept (e, if i then (wOf r).inverse else wOf r)) := by
  rcases hs with rfl | rfl
  · exact List.Perm.refl _
  · refine ((es_reverse r).map _).trans ?_
    rw [List.map_map, wOf_reverse (valid_single h hr)]
    have hd := h.distinct
    rw [List.nodup_flatMap] at hd
    refine List.Perm.of_eq (List.map_congr_left fun e he => ?_)
    have hne := es_ne (h.closed r hr).1 (h.closed r hr).2 (hd.1 r hr) he
    have := kept_swap hne (if i then (wOf r).inverse else wOf r)
    cases i
    · exact this
    · exact this

/-- Reversing rings does not change the segments of the sweep, up to their order. -/
theorem kept_same {ext' : List (Pt K)} {holes' : List (List (Pt K))} (h : ValidPolygon ext holes)
    (hs : SameRings (ext :: holes) (ext' :: holes')) :
    ((dir (ringsOf ext' holes')).map kept).Perm ((dir (ringsOf ext holes)).map kept) := by
  have e : ∀ (ext : List (Pt K)) (holes : List (List (Pt K))), (dir (ringsOf ext holes)).map kept =
      ((es ext).map fun e => kept (e, wOf ext)) ++ holes.flatMap fun r => (es r).map fun e => kept (e, (wOf r).inverse) := by
    intro ext holes
    simp [dir, ringsOf, List.map_flatMap, List.flatMap_map, Function.comp_def]
  rw [e, e]
  rw [SameRings, List.forall₂_cons] at hs
  refine List.Perm.append (kept_ring h (by simp) hs.1 false) ?_
  obtain ⟨-, hs⟩ := hs
  have hm : ∀ x ∈ holes, ValidPolygon x [] := fun x hx => valid_single h (by simp [hx])
  clear h
  revert hm
  induction hs with
  | nil => intro _; exact List.Perm.refl _
  | @cons a b l l' h1 _ ih =>
    intro hm
    rw [List.flatMap_cons, List.flatMap_cons]
    exact (kept_ring (hm a (by simp)) (by simp) h1 true).append (ih fun x hx => hm x (by simp [hx]))

end GeoCrossings.Monotone

import Verif.Lemmas.MonoInside
import Verif.Spec.SameSides

/-!
# Rings drawn in another way
-/
set_option linter.unusedSectionVars false
namespace GeoCrossings.Monotone
open Spec

variable {K : Type} [Field K] [LinearOrder K] [IsStrictOrderedRing K] {ext : List (Pt K)} {holes : List (List (Pt K))}

/-- What stays the same. -/
structure Alike (r r' : List (Pt K)) : Prop where
  closed : r'.head? = r'.getLast?
  len : r'.length = r.length
  verts : r'.dropLast.Perm r.dropLast
  mem : ∀ v, v ∈ r' ↔ v ∈ r
  edges : (ringEdges r').Perm (ringEdges r) ∨ (ringEdges r').Perm ((ringEdges r).map fun e => (e.2, e.1))

theorem ringEdges_rotate (x y : Pt K) (l : List (Pt K)) : (ringEdges (y :: l ++ [x, y])).Perm (ringEdges (x :: (y :: l ++ [x]))) := by
  have h1 : ringEdges (y :: l ++ [x, y]) = ringEdges (y :: l ++ [x]) ++ [(x, y)] := by
    have := es_snoc (l := y :: l ++ [x]) (a := x) List.getLast?_concat y
    simpa [es, ringEdges] using this
  have h2 : ringEdges (x :: (y :: l ++ [x])) = (x, y) :: ringEdges (y :: l ++ [x]) := rfl
  rw [h1, h2]
  exact List.perm_append_singleton _ _

theorem Redrawn.alike {r r' : List (Pt K)} (h : Redrawn r r') (hc : r.head? = r.getLast?) : Alike r r' := by
  induction h with
  | same => exact ⟨hc, rfl, .refl _, fun _ => Iff.rfl, .inl (.refl _)⟩
  | @reverse r' h ih =>
    refine ⟨by simp [ih.closed], by simp [ih.len], (closed_dropLast_reverse ih.closed).trans ih.verts, fun v => by simp [ih.mem], ?_⟩
    have e : (ringEdges r'.reverse).Perm ((ringEdges r').map fun e => (e.2, e.1)) := es_reverse r'
    rcases ih.edges with k | k
    · exact .inr (e.trans (k.map _))
    · refine .inl (e.trans ((k.map _).trans ?_))
      rw [List.map_map]
      simp [Function.comp_def]
  | @rotate l x y h ih =>
    refine ⟨by rw [show y :: l ++ [x, y] = (y :: l ++ [x]) ++ [y] by simp, List.getLast?_concat]; rfl, by rw [← ih.len]; simp, ?_, fun v => ?_, ?_⟩
    · refine List.Perm.trans ?_ ih.verts
      have e1 : (y :: l ++ [x, y]).dropLast = y :: l ++ [x] := by
        rw [show y :: l ++ [x, y] = (y :: l ++ [x]) ++ [y] by simp, List.dropLast_concat]
      have e2 : (x :: (y :: l ++ [x])).dropLast = x :: (y :: l) := by
        rw [← List.cons_append, List.dropLast_concat]
      rw [e1, e2]
      exact List.perm_append_singleton _ _
    · rw [← ih.mem]; simp; tauto
    · exact ih.edges.imp (ringEdges_rotate x y l).trans (ringEdges_rotate x y l).trans

theorem Alike.edge {r r' : List (Pt K)} (h : Alike r r') {a b : Pt K} :
    ((a, b) ∈ ringEdges r' ∨ (b, a) ∈ ringEdges r') ↔ (a, b) ∈ ringEdges r ∨ (b, a) ∈ ringEdges r := by
  have sw : ∀ a b : Pt K, (a, b) ∈ (ringEdges r).map (fun e => (e.2, e.1)) ↔ (b, a) ∈ ringEdges r := by
    intro a b
    rw [List.mem_map]
    constructor
    · rintro ⟨e, he, k⟩
      rw [Prod.mk.injEq] at k
      rwa [← k.1, ← k.2]
    · intro h
      exact ⟨(b, a), h, rfl⟩
  rcases h.edges with k | k
  · rw [k.mem_iff, k.mem_iff]
  · rw [k.mem_iff, k.mem_iff, sw, sw, or_comm]

theorem Alike.evenOdd {r r' : List (Pt K)} (h : Alike r r') (v : Pt K) : EvenOdd [r'] v ↔ EvenOdd [r] v := by
  have : edgesBelow [r'] v = edgesBelow [r] v := by
    simp only [edgesBelow, List.map_cons, List.map_nil, List.sum_cons, List.sum_nil, add_zero]
    show (ringEdges r').countP _ = (ringEdges r).countP _
    rcases h.edges with k | k
    · exact k.countP_eq _
    · rw [k.countP_eq, List.countP_map]
      refine List.countP_congr fun e _ => ?_
      simp only [Function.comp, decide_eq_true_eq]
      exact ⟨PassesBelow.symm, PassesBelow.symm⟩
  rw [EvenOdd, this]
  rfl

/-- Rings drawn in another way keep a polygon valid. -/
theorem valid_alike {ext' : List (Pt K)} {holes' : List (List (Pt K))} (h : ValidPolygon ext holes)
    (hs : List.Forall₂ Alike (ext :: holes) (ext' :: holes')) : ValidPolygon ext' holes' := by
  have hc : ∀ r ∈ ext' :: holes', r.head? = r.getLast? ∧ 4 ≤ r.length := by
    intro r' hr'
    obtain ⟨r, hr, ha⟩ := forall₂_mem hs r' hr'
    exact ⟨ha.closed, by rw [ha.len]; exact (h.closed r hr).2⟩
  have hd : ((ext' :: holes').flatMap List.dropLast).Nodup := by
    have : ∀ {rs rs' : List (List (Pt K))}, List.Forall₂ Alike rs rs' → (rs'.flatMap List.dropLast).Perm (rs.flatMap List.dropLast) := by
      intro rs rs' hs
      induction hs with
      | nil => exact List.Perm.refl _
      | cons h1 _ ih =>
        simp only [List.flatMap_cons]
        exact h1.verts.append ih
    rw [(this hs).nodup_iff]
    exact h.distinct
  have hin : ∀ e ∈ (ext' :: holes').flatMap ringEdges, e ∈ (ext :: holes).flatMap ringEdges ∨ (e.2, e.1) ∈ (ext :: holes).flatMap ringEdges := by
    intro e he
    obtain ⟨r', hr', he⟩ := List.mem_flatMap.1 he
    obtain ⟨r, hr, ha⟩ := forall₂_mem hs r' hr'
    exact (ha.edge.1 (.inl he)).imp (fun k => List.mem_flatMap.2 ⟨r, hr, k⟩) fun k => List.mem_flatMap.2 ⟨r, hr, k⟩
  have nd : ∀ e ∈ (ext' :: holes').flatMap ringEdges, ∀ e' ∈ (ext' :: holes').flatMap ringEdges, e ≠ (e'.2, e'.1) := by
    intro e he e' he' k
    obtain ⟨r, hr, hre⟩ := List.mem_flatMap.1 he
    obtain ⟨f, hf, hfe⟩ := List.mem_map.1 ((es_perm (hc r hr).1 (hc r hr).2).mem_iff.1 (List.mem_map_of_mem (f := Prod.snd) hre))
    have hfs : ((ext' :: holes').flatMap ringEdges).map Prod.fst = (ext' :: holes').flatMap List.dropLast := by
      rw [List.map_flatMap]
      exact List.flatMap_congr fun r _ => es_fst r
    have hfr : f ∈ (ext' :: holes').flatMap ringEdges := List.mem_flatMap.2 ⟨r, hr, hf⟩
    have : f = e' := List.inj_on_of_nodup_map (f := Prod.fst) (by rw [hfs]; exact hd) hfr he' (by rw [hfe, k])
    subst this
    have hne : e.1 ≠ e.2 := by
      rw [List.nodup_flatMap] at hd
      exact es_ne (hc r hr).1 (hc r hr).2 (hd.1 r hr) hre
    have both : e ∈ (ext :: holes).flatMap ringEdges ∧ f ∈ (ext :: holes).flatMap ringEdges := by
      obtain ⟨q, hq, ha⟩ := forall₂_mem hs r hr
      rcases ha.edges with p | p
      · exact ⟨List.mem_flatMap.2 ⟨_, hq, p.mem_iff.1 hre⟩, List.mem_flatMap.2 ⟨_, hq, p.mem_iff.1 hf⟩⟩
      · obtain ⟨x, hx, ex⟩ := List.mem_map.1 (p.mem_iff.1 hre)
        obtain ⟨y, hy, ey⟩ := List.mem_map.1 (p.mem_iff.1 hf)
        subst ex
        subst ey
        rw [Prod.mk.injEq] at k
        have e1 : x = (y.2, y.1) := Prod.ext k.2 k.1
        have e2 : y = (x.2, x.1) := by rw [e1]
        exact ⟨List.mem_flatMap.2 ⟨_, hq, e2 ▸ hy⟩, List.mem_flatMap.2 ⟨_, hq, e1 ▸ hx⟩⟩
    obtain ⟨m, m1, m2⟩ := exists_mid (g := e) hne
    refine m2 (h.meet e both.1 f both.2 ?_ m m1 ?_).1
    · intro h'
      rw [← h'] at k
      exact hne (congrArg Prod.fst k)
    · rw [k] at m1
      exact onSeg_swap m1
  have hsw : ∀ {e e' : Pt K × Pt K}, e ≠ e' → (e.2, e.1) ≠ (e'.2, e'.1) := by
    intro e e' hne h
    rw [Prod.mk.injEq] at h
    exact hne (Prod.ext h.2 h.1)
  obtain ⟨hx, hh⟩ := List.forall₂_cons.1 hs
  refine ⟨hc, hd, ?_, ?_, ?_⟩
  · intro e he e' he' hne x hx hx'
    rcases hin e he with a | a <;> rcases hin e' he' with b | b
    · exact h.meet e a e' b hne x hx hx'
    · exact (h.meet e a _ b (nd e he e' he') x hx (onSeg_swap hx')).imp_right Or.symm
    · exact (h.meet _ a e' b (fun h' => nd e' he' e he h'.symm) x (onSeg_swap hx) hx').imp_left Or.symm
    · exact (h.meet _ a _ b (hsw hne) x (onSeg_swap hx) (onSeg_swap hx')).imp Or.symm Or.symm
  · intro r' hr' v hv
    obtain ⟨r, hr, ha⟩ := forall₂_mem hh r' hr'
    rw [hx.evenOdd]
    exact h.inside r hr v ((ha.mem v).1 hv)
  · refine forall₂_pairwise hh ?_ h.apart
    intro a b a' b' ha hb hq
    refine ⟨fun v hv => ?_, fun v hv => ?_⟩
    · rw [hb.evenOdd]; exact hq.1 v ((ha.mem v).1 hv)
    · rw [ha.evenOdd]; exact hq.2 v ((hb.mem v).1 hv)

/-- The order of the holes does not matter. -/
theorem valid_perm {holes' : List (List (Pt K))} (h : ValidPolygon ext holes) (hp : holes.Perm holes') : ValidPolygon ext holes' where
  closed := fun r hr => h.closed r ((hp.cons ext).mem_iff.2 hr)
  distinct := ((hp.cons ext).flatMap_right _).nodup_iff.1 h.distinct
  meet := fun e he e' he' => h.meet e (((hp.cons ext).flatMap_right _).mem_iff.2 he) e' (((hp.cons ext).flatMap_right _).mem_iff.2 he')
  inside := fun r hr => h.inside r (hp.mem_iff.2 hr)
  apart := (hp.pairwise_iff fun h => ⟨h.2, h.1⟩).1 h.apart

theorem sameSides_alike {rs rs' : List (List (Pt K))} (hs : List.Forall₂ Alike rs rs') : SameSides rs rs' := by
  intro a b
  unfold IsSide
  induction hs with
  | nil => simp
  | cons h1 _ ih =>
    simp only [List.mem_cons, exists_eq_or_imp, h1.edge]
    exact or_congr_right ih

theorem sameSides_perm {rs rs' : List (List (Pt K))} (hp : rs.Perm rs') : SameSides rs rs' := by
  intro a b
  unfold IsSide
  simp only [hp.mem_iff]

end GeoCrossings.Monotone

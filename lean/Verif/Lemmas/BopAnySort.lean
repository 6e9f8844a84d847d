import Verif.Lemmas.BopTrace

/-! # Without overlapping edges the sort of the crossings has one result -/
set_option linter.unusedSectionVars false
namespace GeoCrossings
open Spec BoolOp

variable {K : Type} [Field K] [LinearOrder K] [IsStrictOrderedRing K]

/-- A sort has only one result if no two elements of the list are equal for it. -/
theorem sortBy_unique {α : Type _} [DecidableEq α] {cmp : α → α → Option Ordering} {idx : α → Nat} {l : List α}
    (h : ∀ x ∈ l, ∀ y ∈ l, cmp x y = some (compare (idx x) (idx y))) (hinj : ∀ x ∈ l, ∀ y ∈ l, idx x = idx y → x = y) (srt srt' : List α → List α) :
    sortBy cmp srt l = sortBy cmp srt' l := by
  obtain ⟨l1, a1, a2, a3, -⟩ := sortBy_spec (srt := srt) h
  obtain ⟨l2, b1, b2, b3, -⟩ := sortBy_spec (srt := srt') h
  rw [a1, b1, Option.some.injEq]
  have conv : ∀ {m : List α}, m.Perm l → m.Pairwise (fun a b => cmp a b ≠ some .gt) → m.Pairwise (fun a b => idx a ≤ idx b) := by
    intro m hm hp
    refine hp.imp_of_mem fun {a b} ha hb hab => ?_
    rw [h a (hm.mem_iff.1 ha) b (hm.mem_iff.1 hb)] at hab
    simp only [ne_eq, Option.some.injEq, compare_gt_iff_gt] at hab
    omega
  refine List.Perm.eq_of_pairwise (le := fun a b => idx a ≤ idx b) ?_ (conv a2 a3) (conv b2 b3) (a2.trans b2.symm)
  intro a b ha hb h1 h2
  exact hinj a (a2.mem_iff.1 ha) b (b2.mem_iff.1 hb) (by omega)

/-- If no groups of more than one edge start or end, the sorted batch does not depend on the sort. -/
theorem batch_sort_unique {C : Type} [DecidableEq C] {pt : Pt K} {X X' : Abs K C} {out : Out K C} {L0 E0 U0 L E U S D1 : List (Grp K C)} {T : List (Out K C)}
    (h : Shape pt X X' out L0 E0 U0 L E U S D1 T) (hty : ∀ o ∈ out, o.2 = .lineLeft ∨ o.2 = .lineRight)
    (h1E : ∀ g ∈ E, g.mem.length ≤ 1) (h1S : ∀ g ∈ S, g.mem.length ≤ 1) (srt srt' : List (Crossing K C) → List (Crossing K C)) :
    sortBy compareCrossings srt (batchOf out) = sortBy compareCrossings srt' (batchOf out) := by
  obtain ⟨RE, RS, h1, h2, h3, h4, h5⟩ := batch_blocks h hty
  obtain ⟨c1, c2⟩ := blocks_cmp h2 h3 (fun g hg => (h.endE g hg).1) h.startS h.ordE h.ordS
  obtain ⟨idx, hidx⟩ := blocks_idx c1 c2
  have hlen : ∀ t ∈ RE ++ RS, t.length ≤ 1 := by
    intro t ht
    rcases List.mem_append.1 ht with ht | ht
    · obtain ⟨g, hg, hgt⟩ := forall₂_mem_right' h2 ht
      have := hgt.cs.length_eq
      have h1 := h1E g (List.mem_reverse.1 hg)
      unfold Grp.cs at this
      simp only [List.length_map] at this
      omega
    · obtain ⟨g, hg, hgt⟩ := forall₂_mem_right' h3 ht
      have := hgt.cs.length_eq
      have h1 := h1S g hg
      unfold Grp.cs at this
      simp only [List.length_map] at this
      omega
  refine sortBy_unique (idx := idx) (fun x hx y hy => hidx x (h1.mem_iff.1 hx) y (h1.mem_iff.1 hy)) ?_ srt srt'
  intro x hx y hy hxy
  obtain ⟨s, hs, hxs⟩ := List.mem_flatten.1 (h1.mem_iff.1 hx)
  obtain ⟨t, ht, hyt⟩ := List.mem_flatten.1 (h1.mem_iff.1 hy)
  have heq : compareCrossings x y = some .eq := by
    rw [hidx x (h1.mem_iff.1 hx) y (h1.mem_iff.1 hy), hxy, compare_eq_iff_eq.2 rfl]
  obtain ⟨i, hi, rfl⟩ := List.mem_iff_getElem.1 hs
  obtain ⟨j, hj, rfl⟩ := List.mem_iff_getElem.1 ht
  have hP := List.pairwise_iff_getElem.1 c2
  rcases lt_trichotomy i j with k | rfl | k
  · rw [(hP i j hi hj k x hxs y hyt).1] at heq; cases heq
  · have hl := hlen _ hs
    generalize (RE ++ RS)[i] = t at hl hxs hyt
    match t, hl with
    | [z], _ =>
      rw [List.mem_singleton] at hxs hyt
      rw [hxs, hyt]
  · rw [(hP j i hj hi k y hyt x hxs).2] at heq; cases heq

variable {org : Nat → Pt K} {ty : OpType} {geom : Nat → LineOrPoint K} {isFirst : Nat → Bool} {input : List Nat}

/-- The loop does not depend on the sort. -/
theorem sweepLoop_any (he : EdgesOk geom isFirst input) (hap : Apart2 geom input) (srt srt' : List (Crossing K Nat) → List (Crossing K Nat))
    (nextAfter : K → K) (choice : Nat → Nat) {cl : List (Pt K)} (hcl : ∀ r, Critical (input.map fun i => (geom i).toLine) r → r ∈ cl) (m : Nat) :
    ∀ {pos st X cells}, X.measure cl < m → Full org (fun i => (geom i).toLine) input pos st X → (∀ e ∈ X.E, pos < e.point) →
      RegInv ty isFirst X cells → ∀ fuel n, X.measure cl < fuel → X.measure cl < n → ∀ dbg segs rings,
          sweepLoop dbg ty geom isFirst nextAfter choice srt fuel n ⟨st, segs⟩ cells rings =
          sweepLoop dbg ty geom isFirst nextAfter choice srt' fuel n ⟨st, segs⟩ cells rings := by
  induction m with
  | zero => intro _ _ _ _ h; omega
  | succ m ih =>
    intro pos st X cells hm hF hgt hR fuel n hf hn dbg segs rings
    obtain ⟨n, rfl⟩ : ∃ k, n = k + 1 := ⟨n - 1, by omega⟩
    rcases next_full (nextAfter := nextAfter) (choice := choice) hcl hF hgt with ⟨h1, h2⟩ | ⟨pt, st', X', out, i1, i2, i3, i4, i5, i6, i7, i8, i9, i10⟩
    · rw [sweepLoop, sweepLoop, h2 fuel hf segs]
    · obtain ⟨L0, E0, U0, L, E, U, S, D1, T, hs⟩ := shape hF i2 i9 i4 i5 i6 i3 i8
      obtain ⟨st2, cells', k1, k2, k3⟩ := batchStep_spec (srt := srt) he ty hF i2 i4 i5 hs i6 hR (.inr hap)
      have hsort : sortBy compareCrossings srt (batchOf out) = sortBy compareCrossings srt' (batchOf out) := by
        refine batch_sort_unique hs (batch_types he i4 i6) ?_ ?_ srt srt'
        · intro g hg
          have hok : PieceOk (fun i => (geom i).toLine) input g := by
            refine i4.pieces.ok g ?_
            unfold Abs.pieces; rw [hs.dn]
            simp [hs.en.mem_iff.2 hg]
          obtain ⟨g0, hg0, hgs⟩ := forall₂_mem_right' hs.sE hg
          have hgA : g0 ∈ X.A := by rw [hs.before]; simp [hg0]
          refine single_member he hap hok ?_
          rw [Same.cs hgs]
          exact (List.nodup_flatMap.1 (active_nodup he hF hgt)).1 g0 hgA
        · intro g hg
          have hgA : g ∈ X'.A := by rw [hs.after]; simp [hg]
          exact single_member he hap (i4.pieces.ok g (by unfold Abs.pieces; simp [hgA])) ((List.nodup_flatMap.1 (active_nodup he i4 i5)).1 g hgA)
      have hstep : ∀ rings, batchStep dbg ty geom isFirst srt' ⟨st', batchOf out⟩ cells rings = batchStep dbg ty geom isFirst srt ⟨st', batchOf out⟩ cells rings := by
        intro rings
        unfold batchStep
        simp only [hsort]
      rw [sweepLoop, sweepLoop, i1 fuel hf segs]
      simp only [hstep, k1]
      cases addAll dbg (emits ty isFirst (crossAll isFirst (Region.infinity ty) (L.flatMap Grp.cs)) E) rings with
      | none => rfl
      | some rings' => exact ih (by omega) k2 i5 k3 fuel n (by omega) (by omega) _ _ _

end GeoCrossings

import Verif.Props.BopMulti
import Verif.Props.Monotone

/-! # C60: the polygons of `boolean_op` can be decomposed by `monotone_chains` -/
set_option linter.unusedSectionVars false
namespace GeoCrossings
open Spec BoolOp Rings

variable {K : Type} [Field K] [LinearOrder K] [IsStrictOrderedRing K]

section
variable {geom : Nat → LineOrPoint K} {input : List Nat} {isHole : Nat → Bool} {ringOf : Nat → Nat} {n : Nat} {W : Nat → Bool}

/-- If at most two edges meet at a vertex, they are of one ring. -/
theorem NestOk.one_ring (H : NestOk geom input ringOf isHole n W) {v : Pt K}
    (h2 : input.countP (fun c => decide ((geom c).first = v)) + input.countP (fun c => decide ((geom c).second = v)) ≤ 2)
    {c d : Nat} (hc : c ∈ input) (hd : d ∈ input) (hcv : (geom c).first = v ∨ (geom c).second = v) (hdv : (geom d).first = v ∨ (geom d).second = v) :
    ringOf d = ringOf c := by
  by_contra hne
  have two : ∀ c ∈ input, (geom c).first = v ∨ (geom c).second = v →
      2 ≤ input.countP (fun d => decide (ringOf d = ringOf c ∧ (geom d).first = v)) + input.countP (fun d => decide (ringOf d = ringOf c ∧ (geom d).second = v)) := by
    intro c hc hcv
    have he := H.evenR (ringOf c) v
    have hpos : 0 < input.countP (fun d => decide (ringOf d = ringOf c ∧ (geom d).first = v)) + input.countP (fun d => decide (ringOf d = ringOf c ∧ (geom d).second = v)) := by
      rcases hcv with k | k
      · have : 0 < input.countP (fun d => decide (ringOf d = ringOf c ∧ (geom d).first = v)) := List.countP_pos_iff.2 ⟨c, hc, decide_eq_true ⟨rfl, k⟩⟩
        omega
      · have : 0 < input.countP (fun d => decide (ringOf d = ringOf c ∧ (geom d).second = v)) := List.countP_pos_iff.2 ⟨c, hc, decide_eq_true ⟨rfl, k⟩⟩
        omega
    rw [Nat.even_iff] at he
    omega
  have sum : ∀ P : Nat → Prop, [DecidablePred P] → input.countP (fun x => decide (ringOf x = ringOf c ∧ P x)) + input.countP (fun x => decide (ringOf x = ringOf d ∧ P x)) ≤
      input.countP fun x => decide (P x) := by
    intro P _
    rw [← countP_or (P := fun x => ringOf x = ringOf c ∧ P x) (Q := fun x => ringOf x = ringOf d ∧ P x) (fun x _ h1 h2 => hne (h2.1.symm.trans h1.1))]
    refine List.countP_mono_left fun x _ h => ?_
    have h := of_decide_eq_true h
    exact decide_eq_true (h.elim And.right And.right)
  have a1 := two c hc hcv
  have a2 := two d hd hdv
  have a3 := sum fun x => (geom x).first = v
  have a4 := sum fun x => (geom x).second = v
  omega

end

theorem onSeg_end {p q x : Pt K} (h : p < q) (hx : OnSeg p q x) (hi : ¬ Inside p q x) : x = p ∨ x = q := by
  obtain ⟨h1, h2, h3⟩ := (onSeg_iff h).1 hx
  by_contra hno
  rw [not_or] at hno
  exact hi ⟨lt_of_le_of_ne h2 (Ne.symm hno.1), lt_of_le_of_ne h3 hno.2, h1⟩

/-- The rings of a result at each point of which at most two edges meet. -/
theorem plain_rings {em : List (LineOrPoint K × Winding)} (H : Emitted em) (hm : (em.map (·.1)).Pairwise EndsOnly) {rg : Rings K} {rings : List (Ring K)}
    (hr : ofEdges em = some rg) (hf : rg.finish = some rings)
    (h2 : ∀ v, (edgesOf rings).countP (fun e => e.first = v) + (edgesOf rings).countP (fun e => e.second = v) ≤ 2) :
    PlainRings (rings.map (·.coords)) := by
  have R := nestOk H hm hr hf (paired_of_two H hr hf fun v => by have := h2 v; omega) (fun v => by have := h2 v; omega)
  have hne0 : ∀ e ∈ em, e.1.first ≠ e.1.second := fun e he => (H.lt e he).ne
  have hcons := C35_edges_conserved em hne0 hr hf
  have hsc := C37_rings_simple em hne0 hr hf
  have hne := consec_ne hcons H.lt
  have hperm := edgesOf_perm hcons H.lines
  have hdeg : ∀ v, (inputR rings).countP (fun c => decide ((geomR rings c).first = v)) + (inputR rings).countP (fun c => decide ((geomR rings c).second = v)) ≤ 2 := by
    intro v
    rw [inputR_all hne fun g => g.first = v, inputR_all hne fun g => g.second = v]; exact h2 v
  -- an edge of a ring at a vertex
  have atv : ∀ {j : Nat} {s : Ring K}, rings[j]? = some s → ∀ v ∈ s.coords, ∃ c ∈ inputR rings, ringR rings c = j ∧ ((geomR rings c).first = v ∨ (geomR rings c).second = v) := by
    intro j s hj v hv
    have hs := List.mem_of_getElem? hj
    obtain ⟨e, he, hev⟩ := end_properEdges (hne s hs) (by have := (hsc s hs).2.2; omega) v hv
    obtain ⟨c, hc, h1, h2⟩ := exists_inputR hne hj he
    exact ⟨c, hc, h1, by rw [h2]; exact hev⟩
  have apart : ∀ {j j' : Nat} {s s' : Ring K}, rings[j]? = some s → rings[j']? = some s' → ∀ v, v ∈ s.coords → v ∈ s'.coords → j = j' := by
    intro j j' s s' hj hj' v hv hv'
    obtain ⟨c, hc, rfl, h1⟩ := atv hj v hv
    obtain ⟨d, hd, rfl, h2⟩ := atv hj' v hv'
    exact (R.one_ring (hdeg v) hc hd h1 h2).symm
  refine ⟨?_, ?_, ?_⟩
  · intro ring hring
    obtain ⟨g, hg, rfl⟩ := List.mem_map.1 hring
    exact ⟨(hsc g hg).1, (hsc g hg).2.2⟩
  · rw [List.flatMap_map, List.nodup_flatMap]
    refine ⟨fun g hg => (hsc g hg).2.1, List.pairwise_iff_getElem.2 fun i j hi hj hij v hv hv' => hij.ne ?_⟩
    exact apart (List.getElem?_eq_getElem hi) (List.getElem?_eq_getElem hj) v (List.mem_of_mem_dropLast hv) (List.mem_of_mem_dropLast hv')
  · set P := rings.flatMap fun g => g.coords.zip g.coords.tail with hP
    have hPm : (rings.map (·.coords)).flatMap ringEdges = P := by rw [List.flatMap_map]; rfl
    rw [hPm]
    have hPne : ∀ x ∈ P, x.1 ≠ x.2 := by
      intro x hx
      obtain ⟨g, hg, hx⟩ := List.mem_flatMap.1 hx
      exact hne g hg x hx
    have e1 : edgesOf rings = P.map fun x => LineOrPoint.ofLine ⟨x.1, x.2⟩ := by
      unfold edgesOf
      rw [hP, List.map_flatMap]
      refine List.flatMap_congr fun g hg => ?_
      unfold properEdges
      rw [← List.filterMap_eq_map]
      exact List.filterMap_congr fun x hx => segBetween_ofLine (hne g hg x hx)
    have hmeet : P.Pairwise fun x y => EndsOnly (LineOrPoint.ofLine ⟨x.1, x.2⟩) (LineOrPoint.ofLine ⟨y.1, y.2⟩) := by
      have := (hperm.symm.pairwise_iff EndsOnly.symm).1 hm
      rw [e1, List.pairwise_map] at this
      exact this
    intro e he e' he' hee x hx hx'
    have hsym : Std.Symm fun x y : Pt K × Pt K => EndsOnly (LineOrPoint.ofLine ⟨x.1, x.2⟩) (LineOrPoint.ofLine ⟨y.1, y.2⟩) := ⟨fun _ _ h => h.symm⟩
    have hE := hmeet.forall he he' hee
    have seg : ∀ e : Pt K × Pt K, e.1 ≠ e.2 → OnSeg e.1 e.2 x → OnSeg (LineOrPoint.ofLine ⟨e.1, e.2⟩).first (LineOrPoint.ofLine ⟨e.1, e.2⟩).second x ∧
        (¬ Inside (LineOrPoint.ofLine ⟨e.1, e.2⟩).first (LineOrPoint.ofLine ⟨e.1, e.2⟩).second x → x = e.1 ∨ x = e.2) := by
      intro e hne hx
      obtain ⟨a, b, k1, k2, ⟨rfl, rfl⟩ | ⟨rfl, rfl⟩⟩ := segBetween_line (segBetween_ofLine hne)
      · rw [k1]; exact ⟨hx, onSeg_end k2 hx⟩
      · rw [k1]; exact ⟨OnSeg.swap hx, fun h => (onSeg_end k2 (OnSeg.swap hx) h).symm⟩
    obtain ⟨s1, s2⟩ := seg e (hPne e he) hx
    obtain ⟨s3, s4⟩ := seg e' (hPne e' he') hx'
    obtain ⟨k1, k2⟩ := hE x s1 s3
    exact ⟨s2 k1, s4 k2⟩

theorem Spec.PlainRings.perm {l l' : List (List (Pt K))} (h : PlainRings l) (hp : l'.Perm l) : PlainRings l' := by
  refine ⟨fun ring hr => h.closed ring (hp.mem_iff.1 hr), (hp.flatMap_right _).nodup_iff.2 h.distinct, ?_⟩
  intro e he e' he'
  exact h.meet e ((hp.flatMap_right _).mem_iff.1 he) e' ((hp.flatMap_right _).mem_iff.1 he')

theorem valid_polygons {em : List (LineOrPoint K × Winding)} (H : Emitted em) (hm : (em.map (·.1)).Pairwise EndsOnly) {rg : Rings K} {rings : List (Ring K)}
    (hr : ofEdges em = some rg) (hf : rg.finish = some rings)
    (h2 : ∀ v, (edgesOf rings).countP (fun e => e.first = v) + (edgesOf rings).countP (fun e => e.second = v) ≤ 2)
    {parents : Nat → Nat} (N : Nested (geomR rings) (inputR rings) (ringR rings) (holeR rings) rings.length parents)
    (hedge : ∀ i r, rings[i]? = some r → ∃ c ∈ inputR rings, ringR rings c = i) :
    ∀ p ∈ polygonsFor rings parents, ValidPolygon p.ext p.ints := by
  have R := nestOk H hm hr hf (paired_of_two H hr hf fun v => by have := h2 v; omega) (fun v => by have := h2 v; omega)
  have hne0 : ∀ e ∈ em, e.1.first ≠ e.1.second := fun e he => (H.lt e he).ne
  have hcons := C35_edges_conserved em hne0 hr hf
  have hsc := C37_rings_simple em hne0 hr hf
  have hne := consec_ne hcons H.lt
  have hperm := edgesOf_perm hcons H.lines
  have hdeg : ∀ v, (inputR rings).countP (fun c => decide ((geomR rings c).first = v)) + (inputR rings).countP (fun c => decide ((geomR rings c).second = v)) ≤ 2 := by
    intro v
    rw [inputR_all hne fun g => g.first = v, inputR_all hne fun g => g.second = v]; exact h2 v
  -- an edge of a ring at a vertex
  have atv : ∀ {j : Nat} {s : Ring K}, rings[j]? = some s → ∀ v ∈ s.coords, ∃ c ∈ inputR rings, ringR rings c = j ∧ ((geomR rings c).first = v ∨ (geomR rings c).second = v) := by
    intro j s hj v hv
    have hs := List.mem_of_getElem? hj
    obtain ⟨e, he, hev⟩ := end_properEdges (hne s hs) (by have := (hsc s hs).2.2; omega) v hv
    obtain ⟨c, hc, h1, h2⟩ := exists_inputR hne hj he
    exact ⟨c, hc, h1, by rw [h2]; exact hev⟩
  have apart : ∀ {j j' : Nat} {s s' : Ring K}, rings[j]? = some s → rings[j']? = some s' → ∀ v, v ∈ s.coords → v ∈ s'.coords → j = j' := by
    intro j j' s s' hj hj' v hv hv'
    obtain ⟨c, hc, rfl, h1⟩ := atv hj v hv
    obtain ⟨d, hd, rfl, h2⟩ := atv hj' v hv'
    exact (R.one_ring (hdeg v) hc hd h1 h2).symm
  have vin : ∀ {j k : Nat} {s t : Ring K}, rings[j]? = some s → rings[k]? = some t → k ≠ j → ∀ v ∈ s.coords,
      (EvenOdd [t.coords] v ↔ RingIn (geomR rings) (inputR rings) (ringR rings) j k) := by
    intro j k s t hj hk hkj v hv
    obtain ⟨c, hc, rfl, h1⟩ := atv hj v hv
    rw [← inRing_evenOdd hne hk v]
    refine N.vert c hc v h1 ?_ k hkj
    intro d hd hdc
    constructor
    · intro h; exact hdc (R.one_ring (hdeg v) hc hd h1 (.inl h))
    · intro h; exact hdc (R.one_ring (hdeg v) hc hd h1 (.inr h))
  intro p hp
  obtain ⟨i, r, hi, hih, rfl⟩ := mem_polygonsFor.1 hp
  have hir := List.mem_of_getElem? hi
  -- the rings of the polygon, with their positions
  set Z := rings.zipIdx.filter fun y => y.1.isHole ∧ parents y.2 = i with hZ
  have hZm : ∀ y ∈ Z, rings[y.2]? = some y.1 ∧ y.1.isHole = true ∧ parents y.2 = i := by
    intro y hy
    rw [hZ, List.mem_filter, List.mem_zipIdx_iff_getElem?, decide_eq_true_eq] at hy
    exact hy
  have hZn : Z.Pairwise fun x y => x.2 ≠ y.2 := by
    refine List.Pairwise.sublist List.filter_sublist ?_
    rw [← List.pairwise_map (f := Prod.snd) (R := (· ≠ ·)), List.zipIdx_map_snd]
    exact List.nodup_range'
  have hall : ∀ y ∈ (r, i) :: Z, rings[y.2]? = some y.1 := by
    intro y hy
    rcases List.mem_cons.1 hy with rfl | hy
    · exact hi
    · exact (hZm y hy).1
  have hnd : ((r, i) :: Z).Pairwise fun x y => x.2 ≠ y.2 := by
    refine List.pairwise_cons.2 ⟨?_, hZn⟩
    intro y hy
    obtain ⟨h1, h2, -⟩ := hZm y hy
    intro hiy
    simp only at hiy
    rw [← hiy, hi, Option.some.injEq] at h1
    rw [← h1, hih] at h2
    cases h2
  have hmap : r.coords :: (Z.map fun y => y.1.coords) = ((r, i) :: Z).map fun y => y.1.coords := rfl
  have hedgeZ : ∀ y ∈ Z, ∃ c ∈ inputR rings, ringR rings c = y.2 ∧ holeR rings (ringR rings c) = true ∧ parents (ringR rings c) = i := by
    intro y hy
    obtain ⟨h1, h2, h3⟩ := hZm y hy
    obtain ⟨c, hc, e⟩ := hedge y.2 y.1 h1
    exact ⟨c, hc, e, by rw [e, holeR_of h1]; exact h2, by rw [e]; exact h3⟩
  have hin : ∀ y ∈ Z, RingIn (geomR rings) (inputR rings) (ringR rings) y.2 i := by
    intro y hy
    obtain ⟨c, hc, e1, e2, e3⟩ := hedgeZ y hy
    obtain ⟨-, p2⟩ := N.hol c hc e2
    rw [e3] at p2
    rw [← e1]
    exact (p2 i).2 (.inl rfl)
  refine ⟨?_, ?_, ?_, ?_, ?_⟩
  · show ∀ ring ∈ r.coords :: (Z.map fun y => y.1.coords), _
    intro ring hring
    rw [hmap] at hring
    obtain ⟨y, hy, rfl⟩ := List.mem_map.1 hring
    have := hsc y.1 (List.mem_of_getElem? (hall y hy))
    exact ⟨this.1, this.2.2⟩
  · show ((r.coords :: (Z.map fun y => y.1.coords)).flatMap List.dropLast).Nodup
    rw [hmap, List.flatMap_map, List.nodup_flatMap]
    refine ⟨fun y hy => (hsc y.1 (List.mem_of_getElem? (hall y hy))).2.1, hnd.imp_of_mem ?_⟩
    intro x y hx hy hxy v hv hv'
    exact hxy (apart (hall x hx) (hall y hy) v (List.mem_of_mem_dropLast hv) (List.mem_of_mem_dropLast hv'))
  · show ∀ e ∈ (r.coords :: (Z.map fun y => y.1.coords)).flatMap ringEdges, ∀ e' ∈ (r.coords :: (Z.map fun y => y.1.coords)).flatMap ringEdges, _
    have hPm : ∀ e ∈ (r.coords :: (Z.map fun y => y.1.coords)).flatMap ringEdges, e ∈ (rings.map (·.coords)).flatMap ringEdges := by
      intro e he
      rw [hmap] at he
      obtain ⟨ring, hring, he⟩ := List.mem_flatMap.1 he
      obtain ⟨y, hy, rfl⟩ := List.mem_map.1 hring
      exact List.mem_flatMap.2 ⟨y.1.coords, List.mem_map.2 ⟨y.1, List.mem_of_getElem? (hall y hy), rfl⟩, he⟩
    exact fun e he e' he' => (plain_rings H hm hr hf h2).meet e (hPm e he) e' (hPm e' he')
  · show ∀ h ∈ Z.map fun y => y.1.coords, ∀ v ∈ h, EvenOdd [r.coords] v
    intro h hh v hv
    obtain ⟨y, hy, rfl⟩ := List.mem_map.1 hh
    have hk := hin y hy
    exact (vin (hZm y hy).1 hi hk.1 v hv).2 hk
  · show (Z.map fun y => y.1.coords).Pairwise _
    rw [List.pairwise_map]
    refine hZn.imp_of_mem ?_
    have key : ∀ y ∈ Z, ∀ z ∈ Z, y.2 ≠ z.2 → ∀ v ∈ y.1.coords, ¬ EvenOdd [z.1.coords] v := by
      intro y hy z hz hyz v hv
      rw [vin (hZm y hy).1 (hZm z hz).1 (Ne.symm hyz) v hv]
      obtain ⟨c, hc, e1, e2, e3⟩ := hedgeZ y hy
      obtain ⟨d, hd, f1, f2, f3⟩ := hedgeZ z hz
      rw [← e1, ← f1]
      exact N.hole_not_in R hc hd e2 f2 (e3.trans f3.symm)
    intro y z hy hz hyz
    exact ⟨key y hy z hz hyz, key z hz y hy (Ne.symm hyz)⟩

theorem countP_exclusive {α : Type _} {P : α → Prop} [DecidablePred P] : ∀ {l : List α}, l.Pairwise (fun a b => ¬ (P a ∧ P b)) →
    l.countP (fun a => decide (P a)) = if ∃ a ∈ l, P a then 1 else 0
  | [], _ => by simp
  | a :: l, h => by
    rw [List.pairwise_cons] at h
    rw [List.countP_cons, countP_exclusive h.2]
    by_cases ha : P a
    · rw [if_neg, if_pos (decide_eq_true ha), if_pos ⟨a, by simp, ha⟩]
      rintro ⟨b, hb, hpb⟩
      exact h.1 b hb ⟨ha, hpb⟩
    · rw [if_neg fun k => ha (of_decide_eq_true k), Nat.add_zero]
      refine if_congr ?_ rfl rfl
      constructor
      · rintro ⟨b, hb, k⟩; exact ⟨b, List.mem_cons_of_mem _ hb, k⟩
      · rintro ⟨b, hb, k⟩
        rcases List.mem_cons.1 hb with rfl | hb
        · exact absurd k ha
        · exact ⟨b, hb, k⟩

/-- `monotone_chains` on each of several valid polygons. -/
theorem chains_all (dbg : Bool) (srt : List (Event K) → List (Event K)) :
    ∀ {polys : List (Polygon K)}, (∀ p ∈ polys, ValidPolygon p.ext p.ints) →
    ∃ outs pieces, polys.mapM (Monotone.monotoneChains dbg srt) = some outs ∧ outs.flatten.mapM MonoPoly.intoPolygon = some pieces ∧
      (∀ m ∈ outs.flatten, MonotonePair m.top m.bot ∧ NowhereBelow m.top m.bot) ∧ (∀ ring ∈ pieces, ringArea ring < 0) ∧
      ∀ r, (pieces.countP fun ring => EvenOdd [ring] r) = polys.countP fun p => EvenOdd (p.ext :: p.ints) r
  | [], _ => ⟨[], [], rfl, rfl, by simp, by simp, fun _ => rfl⟩
  | p :: polys, h => by
    obtain ⟨out, rings, h1, h2, h3, -, h5, h4⟩ := Monotone.C51_monotone_chains dbg srt (h p (by simp))
    obtain ⟨outs, pieces, k1, k2, k3, k5, k4⟩ := chains_all dbg srt (polys := polys) fun q hq => h q (by simp [hq])
    refine ⟨out :: outs, rings ++ pieces, ?_, ?_, ?_, fun ring hr => (List.mem_append.1 hr).elim (h5 ring) (k5 ring), ?_⟩
    · rw [List.mapM_cons, h1, k1]; rfl
    · rw [List.flatten_cons, List.mapM_append, h2, k2]; rfl
    · intro m hm
      rw [List.flatten_cons] at hm
      rcases List.mem_append.1 hm with hm | hm
      · exact h3 m hm
      · exact k3 m hm
    · intro r
      rw [List.countP_append, h4 r, k4 r, List.countP_cons]
      by_cases k : EvenOdd (p.ext :: p.ints) r
      · rw [if_pos k, if_pos (decide_eq_true k)]; omega
      · rw [if_neg k, if_neg fun k' => k (of_decide_eq_true k')]; omega

/-- **C60.** If at most two edges of the result meet at each point, the polygons that `boolean_op` returns are valid input for
`monotone_chains`, and no two of their rings touch. Applied to all of them, it returns pairs of increasing chains with common ends, the upper one nowhere below the lower
one, every piece with a positive area, and a point is inside exactly one of these pieces if the truth table of the operation holds for its membership in the two operands,
and in none otherwise. -/
theorem C60_boolean_op_chains (ty : OpType) {a b : List (Polygon K)} (ha : ∀ p ∈ a, ∀ ring ∈ ringsOf p, Closed ring)
    (hb : ∀ p ∈ b, ∀ ring ∈ ringsOf p, Closed ring) (nextAfter : K → K) (choice : Nat → Nat)
    {srt srt' : List (Crossing K Nat) → List (Crossing K Nat)} (hst : Stable compareCrossings srt ∨ NoOverlap ((a ++ b).flatMap Spec.ringsOf))
    (h2 : ∀ es fuel rings, (addMultiPolygon [] a true).bind (fun es => addMultiPolygon es b false) = some es →
      BoolOp.sweep ty es nextAfter choice srt fuel = some rings → ∀ v,
        (edgesOf rings).countP (fun e => e.first = v) + (edgesOf rings).countP (fun e => e.second = v) ≤ 2) :
    ∃ N polys, (∀ fuel, N ≤ fuel → booleanOp a b ty nextAfter choice srt srt' fuel = some polys) ∧
      (∀ p ∈ polys, ValidPolygon p.ext p.ints) ∧ PlainRings (polys.flatMap ringsOf) ∧
      ∀ dbg srt'', ∃ outs pieces, polys.mapM (Monotone.monotoneChains dbg srt'') = some outs ∧ outs.flatten.mapM MonoPoly.intoPolygon = some pieces ∧
        (∀ m ∈ outs.flatten, MonotonePair m.top m.bot ∧ NowhereBelow m.top m.bot) ∧ (∀ ring ∈ pieces, ringArea ring < 0) ∧
        ∀ r, (pieces.countP fun ring => EvenOdd [ring] r) =
          if inResult ty (decide (EvenOdd (a.flatMap ringsOf) r)) (decide (EvenOdd (b.flatMap ringsOf) r)) = true then 1 else 0 := by
  obtain ⟨N, em, rg, rings, h, H, hm, r1, r2, -, h4⟩ := sweep_run ty ha hb nextAfter choice hst
  have hh := h2 _ N rings (opEdges_eq ha hb) (h N (le_refl _))
  have hh1 : ∀ v, (edgesOf rings).countP (fun e => e.first = v) ≤ 2 := fun v => by have := hh v; omega
  have hh2 : ∀ v, (edgesOf rings).countP (fun e => e.first = v) + (edgesOf rings).countP (fun e => e.second = v) ≤ 4 := fun v => by have := hh v; omega
  obtain ⟨N', parents, k1, k2, k3, k4⟩ := assemble_run H hm r1 r2 (paired_of_two H r1 r2 hh1) hh2 srt' nextAfter choice
  obtain ⟨s1, s2⟩ := polygons_spec H hm r1 r2 (paired_of_two H r1 r2 hh1) hh2 k2 k4
  have hv := valid_polygons H hm r1 r2 hh k2 k4
  refine ⟨max N N', polygonsFor rings parents, ?_, hv, (plain_rings H hm r1 r2 hh).perm (Laminar.C39_conserved rings parents k3), ?_⟩
  · intro fuel hf
    have e1 : (addMultiPolygon [] a true).bind (fun es => addMultiPolygon es b false) = some (opEdges a b) := opEdges_eq ha hb
    obtain ⟨es1, q1, q2⟩ := Option.bind_eq_some_iff.1 e1
    unfold booleanOp
    rw [q1, Option.bind_some, q2, Option.bind_some, h fuel (by omega), Option.bind_some]
    unfold Laminar.assemble
    rw [k1 false fuel (by omega), Option.bind_some]
    exact Laminar.C39_each_ring_once rings parents k3
  · intro dbg srt''
    obtain ⟨outs, pieces, c1, c2, c3, c5, c4⟩ := chains_all dbg srt'' hv
    refine ⟨outs, pieces, c1, c2, c3, c5, fun r => ?_⟩
    rw [c4 r]
    have hone : ∀ p ∈ polygonsFor rings parents, (EvenOdd (p.ext :: p.ints) r ↔ InMulti [p.rings] r) := by
      intro p hp
      rw [Monotone.evenOdd_valid (hv p hp)]
      unfold InMulti
      simp [Polygon.rings]
    have e1 : (polygonsFor rings parents).countP (fun p => decide (EvenOdd (p.ext :: p.ints) r)) =
        (polygonsFor rings parents).countP fun p => decide (InMulti [p.rings] r) :=
      List.countP_congr fun p hp => by rw [decide_eq_true_eq, decide_eq_true_eq]; exact hone p hp
    have hex := s2.polys_apart
    rw [List.pairwise_map] at hex
    rw [e1, countP_exclusive (P := fun p : Polygon K => InMulti [p.rings] r) (hex.imp fun h => h r)]
    refine if_congr ?_ rfl rfl
    rw [← h4 r, ← s1 r]
    unfold InMulti
    simp

theorem count_ends_le {l : List (LineOrPoint K)} {n : Nat}
    (h : ∀ e ∈ l, ∀ v ∈ [e.first, e.second], l.countP (fun d => decide (d.first = v)) + l.countP (fun d => decide (d.second = v)) ≤ n) (v : Pt K) :
    l.countP (fun d => decide (d.first = v)) + l.countP (fun d => decide (d.second = v)) ≤ n := by
  by_cases hv : ∃ e ∈ l, v ∈ [e.first, e.second]
  · obtain ⟨e, he, hv⟩ := hv; exact h e he v hv
  · rw [List.countP_eq_zero.2 fun d hd k => hv ⟨d, hd, by rw [← of_decide_eq_true k]; simp⟩,
      List.countP_eq_zero.2 fun d hd k => hv ⟨d, hd, by rw [← of_decide_eq_true k]; simp⟩]
    exact Nat.zero_le _

/-- The assumption of C60 holds for `bigS` without `smallS`, from some fuel on and so for every fuel with which `Op::sweep` returns. -/
theorem frame_two : ∀ es fuel rings, (addMultiPolygon [] bigS true).bind (fun es => addMultiPolygon es smallS false) = some es →
      BoolOp.sweep .difference es id (fun _ => 0) id fuel = some rings → ∀ v,
        (edgesOf rings).countP (fun e => e.first = v) + (edgesOf rings).countP (fun e => e.second = v) ≤ 2 := by
  intro es fuel rings hes hr
  have h1 : (addMultiPolygon [] bigS true).bind (fun es => addMultiPolygon es smallS false) = some (opEdges bigS smallS) := by decide +kernel
  rw [h1, Option.some.injEq] at hes
  subst hes
  have h2 : BoolOp.sweep .difference (opEdges bigS smallS) id (fun _ => 0) id 60 = some frameRings := by decide +kernel
  have h3 := sweep_mono h2 fuel
  have h4 := sweep_mono hr 60
  rw [Nat.add_comm, h3, Option.some.injEq] at h4
  subst h4
  exact count_ends_le (by decide +kernel)

/-- The square with a hole is cut into two pieces. -/
example : ((booleanOp bigS smallS .difference id (fun _ => 0) id id 60).bind fun polys => polys.mapM (Monotone.monotoneChains true id)).map
    (fun l => l.map fun out => out.map fun m => (m.top, m.bot)) =
      some [[([⟨0, 0⟩, ⟨0, 6⟩, ⟨2, 2⟩, ⟨4, 2⟩, ⟨4, 4⟩, ⟨6, 0⟩], [⟨0, 0⟩, ⟨6, 0⟩]),
        ([⟨0, 6⟩, ⟨6, 6⟩], [⟨0, 6⟩, ⟨2, 2⟩, ⟨2, 4⟩, ⟨4, 4⟩, ⟨6, 0⟩, ⟨6, 6⟩])]] := by decide +kernel

end GeoCrossings

import Verif.Lemmas.LamInput
import Verif.Lemmas.LamResult

/-! # The directions of the edges of the rings that `Op::sweep` returns -/
set_option linter.unusedSectionVars false
namespace GeoCrossings
open Spec BoolOp Rings

variable {K : Type} [Field K] [LinearOrder K] [IsStrictOrderedRing K]

/-! ## Closed rings -/

/-- A property of the vertices that passes along the edges. -/
theorem path_conn {F : Pt K → Prop} : ∀ {l : List (Pt K)}, (∀ x ∈ l.zip l.tail, F x.1 ↔ F x.2) → ∀ p ∈ l, ∀ q ∈ l, (F p ↔ F q)
  | [], _, p, hp, _, _ => by simp at hp
  | [a], _, p, hp, q, hq => by
    rw [List.mem_singleton] at hp hq; rw [hp, hq]
  | a :: b :: l, h, p, hp, q, hq => by
    have hab : F a ↔ F b := h (a, b) (by simp)
    have ih := path_conn (l := b :: l) fun x hx => h x (by
      simp only [List.tail_cons, List.zip_cons_cons, List.mem_cons] at hx ⊢; exact .inr hx)
    have key : ∀ p ∈ a :: b :: l, F p ↔ F b := by
      intro p hp
      rcases List.mem_cons.1 hp with rfl | hp
      · exact hab
      · exact ih p hp b (by simp)
    rw [key p hp, key q hq]

/-- Each ring is walked in the direction of its edges. -/
theorem Emitted.ring_dir {em : List (LineOrPoint K × Winding)} (H : Emitted em) (hp : ∀ v, PairedAt em v)
    {r : Rings K} {rings : List (Ring K)} (hr : ofEdges em = some r) (hf : r.finish = some rings) :
    ∀ g ∈ rings, ∃ w, ∀ x ∈ g.coords.zip g.coords.tail, Dir (dirOf em) w x.1 x.2 := by
  have hne : ∀ e ∈ em, e.1.first ≠ e.1.second := fun e he => (H.lt e he).ne
  rw [finish_eq] at hf
  cases hl : rawLoops r with
  | none => rw [hl] at hf; simp at hf
  | some loops =>
    rw [hl] at hf
    simp only [Option.bind_some] at hf
    have hdir := rawLoops_dir hne hp hr hl
    have hF := mapM_forall₂ hf
    intro g hg
    obtain ⟨x, hx, hxg⟩ := forall₂_mem_right hF hg
    have hco : g.coords = closeRing x.2 := by
      simp only [Ring.fromCoords, Option.map_eq_some_iff] at hxg
      obtain ⟨w, -, rfl⟩ := hxg; rfl
    refine ⟨x.1, isChain_zip ?_⟩
    have hch := hdir x hx
    unfold CycChain at hch
    rw [hco]
    unfold closeRing
    cases hh : x.2.head? with
    | none => rw [hh] at hch; simpa using hch
    | some a =>
      rw [hh] at hch
      simp only
      split
      · exact hch.left_of_append
      · exact hch

/-! ## The edges as the input of `assemble` -/

section
variable {em : List (LineOrPoint K × Winding)} {rings : List (Ring K)}

open Classical in
/-- The edge has the region below. -/
noncomputable def windR (em : List (LineOrPoint K × Winding)) (rings : List (Ring K)) (c : Nat) : Bool :=
  decide (∃ e ∈ em, e.1 = geomR rings c ∧ e.2 = .clockwise)

theorem em_unique (H : Emitted em) (hm : (em.map (·.1)).Pairwise EndsOnly) {e d : LineOrPoint K × Winding} (he : e ∈ em) (hd : d ∈ em)
    (h : e.1 = d.1) : e = d := by
  by_contra hne
  rw [List.pairwise_map] at hm
  have key : EndsOnly e.1 d.1 := by
    obtain ⟨i, hi, rfl⟩ := List.mem_iff_getElem.1 he
    obtain ⟨j, hj, rfl⟩ := List.mem_iff_getElem.1 hd
    rw [List.pairwise_iff_getElem] at hm
    rcases Nat.lt_trichotomy i j with k | k | k
    · exact hm i j hi hj k
    · subst k; exact absurd rfl hne
    · exact (hm j i hj hi k).symm
  obtain ⟨m, hm⟩ := inside_mid (H.lt e he)
  exact (key m hm.onSeg (by rw [← h]; exact hm.onSeg)).1 hm

theorem windR_iff (H : Emitted em) (hm : (em.map (·.1)).Pairwise EndsOnly) {e : LineOrPoint K × Winding} (he : e ∈ em) {c : Nat}
    (hc : geomR rings c = e.1) : windR em rings c = true ↔ e.2 = .clockwise := by
  unfold windR
  rw [decide_eq_true_eq]
  constructor
  · rintro ⟨d, hd, h1, h2⟩
    rw [← em_unique H hm hd he (h1.trans hc)]; exact h2
  · intro h; exact ⟨e, he, hc.symm, h⟩

/-- What is needed to know that each hole gets the ring just around it. -/
theorem nestOk (H : Emitted em) (hm : (em.map (·.1)).Pairwise EndsOnly) {rg : Rings K}
    (hr : ofEdges em = some rg) (hf : rg.finish = some rings) (hpa : ∀ v, PairedAt em v)
    (h4 : ∀ v, (edgesOf rings).countP (fun e => e.first = v) + (edgesOf rings).countP (fun e => e.second = v) ≤ 4) :
    NestOk (geomR rings) (inputR rings) (ringR rings) (holeR rings) rings.length (windR em rings) := by
  have hne0 : ∀ e ∈ em, e.1.first ≠ e.1.second := fun e he => (H.lt e he).ne
  have hc := C35_edges_conserved em hne0 hr hf
  have hsc := C37_rings_simple em hne0 hr hf
  have hne := consec_ne hc H.lt
  have hp := edgesOf_perm hc H.lines
  have R := ringEdgesOk H hm hr hf hpa
  have hcount : ∀ P : LineOrPoint K → Prop, [DecidablePred P] → (inputR rings).countP (fun c => decide (P (geomR rings c))) =
      em.countP fun e => decide (P e.1) := by
    intro P _
    rw [inputR_all hne, hp.countP_eq, List.countP_map]; rfl
  have hcl : ∀ {k : Nat} {g : Ring K}, rings[k]? = some g → Closed g.coords := fun {k g} hg => (hsc g (List.mem_of_getElem? hg)).1
  have hdir := H.ring_dir hpa hr hf
  -- each edge, as it is walked
  have walk : ∀ {k : Nat} {g : Ring K} {w : Winding}, rings[k]? = some g → (∀ x ∈ g.coords.zip g.coords.tail, Dir (dirOf em) w x.1 x.2) →
      ∀ c ∈ inputR rings, ringR rings c = k → ∃ a b, (a, b) ∈ g.coords.zip g.coords.tail ∧
        ((geomR rings c = .line a b ∧ (windR em rings c = true ↔ w = .clockwise)) ∨ (geomR rings c = .line b a ∧ (windR em rings c = true ↔ w = .counterClockwise))) := by
    intro k g w hg hw c hc hck
    obtain ⟨g', hg', he⟩ := mem_inputR hne hc
    rw [hck, hg, Option.some.injEq] at hg'
    subst hg'
    unfold properEdges at he
    obtain ⟨⟨a, b⟩, hab, hseg⟩ := List.mem_filterMap.1 he
    have hD := hw _ hab
    refine ⟨a, b, hab, ?_⟩
    obtain ⟨x, y, e1, e2, ⟨rfl, rfl⟩ | ⟨rfl, rfl⟩⟩ := segBetween_line hseg
    · obtain ⟨e, he, f1, f2, f3⟩ := dirOf_start H.lt e2 hD
      refine .inl ⟨e1, ?_⟩
      rw [windR_iff H hm he (by
        obtain ⟨p, q, k1, -⟩ := H.lines e he
        rw [e1, k1]; rw [k1] at f1 f2; rw [← f1, ← f2]; rfl), f3]
    · obtain ⟨e, he, f1, f2, f3⟩ := dirOf_start H.lt e2 hD.inverse
      refine .inr ⟨e1, ?_⟩
      rw [windR_iff H hm he (by
        obtain ⟨p, q, k1, -⟩ := H.lines e he
        rw [e1, k1]; rw [k1] at f1 f2; rw [← f1, ← f2]; rfl), f3]
      cases w <;> simp [Winding.inverse]
  have hdiff : ∀ c ∈ inputR rings, ∀ d ∈ inputR rings, c ≠ d → geomR rings c ≠ geomR rings d := by
    intro c hc d hd hcd heq
    obtain ⟨m, hm⟩ := inside_mid (R.he.ends hc).2.2
    exact R.ha c hc d hd hcd m hm.onSeg (by rw [← heq]; exact hm.onSeg) hm
  have cases2 : ∀ c ∈ inputR rings, ∀ d ∈ inputR rings, ringR rings c = ringR rings d → ∃ (g : Ring K) (w : Winding), rings[ringR rings c]? = some g ∧ SimpleClosed g.coords ∧
      (∃ a b, (a, b) ∈ g.coords.zip g.coords.tail ∧
        ((geomR rings c = .line a b ∧ (windR em rings c = true ↔ w = .clockwise)) ∨ (geomR rings c = .line b a ∧ (windR em rings c = true ↔ w = .counterClockwise)))) ∧
      (∃ a b, (a, b) ∈ g.coords.zip g.coords.tail ∧
        ((geomR rings d = .line a b ∧ (windR em rings d = true ↔ w = .clockwise)) ∨ (geomR rings d = .line b a ∧ (windR em rings d = true ↔ w = .counterClockwise)))) := by
    intro c hc d hd hcd
    obtain ⟨g, hg, -⟩ := mem_inputR hne hc
    obtain ⟨w, hw⟩ := hdir g (List.mem_of_getElem? hg)
    exact ⟨g, w, hg, hsc g (List.mem_of_getElem? hg), walk hg hw c hc rfl, walk hg hw d hd hcd.symm⟩
  have wne : ∀ {w : Winding} {x y : Bool}, (x = true ↔ w = .clockwise) → (y = true ↔ w = .counterClockwise) → x ≠ y := by
    intro w x y h1 h2
    cases w <;> cases x <;> cases y <;> simp_all
  refine ⟨R, ?_, ?_, ?_, ?_, ?_, ?_, ?_, ?_⟩
  · intro v
    rw [inputR_all hne fun g => g.first = v, inputR_all hne fun g => g.second = v]; exact h4 v
  · intro k v
    rw [inputR_ring hne k fun g => g.first = v, inputR_ring hne k fun g => g.second = v]
    cases hg : rings[k]? with
    | none => simp
    | some g => exact closed_ends v (hcl hg)
  · intro k v
    rw [inputR_ring hne k fun g => g.first = v, inputR_ring hne k fun g => g.second = v]
    cases hg : rings[k]? with
    | none => simp
    | some g => exact SimpleClosed.two (hsc g (List.mem_of_getElem? hg)) v
  · intro F k hF c hc d hd hck hdk
    obtain ⟨g, hg, hce⟩ := mem_inputR hne hc
    obtain ⟨g', hg', hde⟩ := mem_inputR hne hd
    rw [hck] at hg
    rw [hdk, hg, Option.some.injEq] at hg'
    subst hg'
    obtain ⟨x, y, e1, -, m1, -⟩ := mem_properEdges hce
    obtain ⟨x', y', e1', -, m1', -⟩ := mem_properEdges hde
    rw [e1, e1']
    refine path_conn (F := F) ?_ x m1 x' m1'
    intro z hz
    have hzne := hne g (List.mem_of_getElem? hg) z hz
    have hseg := segBetween_ofLine hzne
    obtain ⟨f, hf1, hf2, hf3⟩ := exists_inputR hne hg (e := .ofLine ⟨z.1, z.2⟩) (List.mem_filterMap.2 ⟨z, hz, hseg⟩)
    have hFf := hF f hf1 hf2
    rw [hf3] at hFf
    obtain ⟨p, q, k1, -, ⟨rfl, rfl⟩ | ⟨rfl, rfl⟩⟩ := segBetween_line hseg
    · rw [k1] at hFf; exact hFf
    · rw [k1] at hFf; exact hFf.symm
  · intro c hc
    have hmem : geomR rings c ∈ em.map (·.1) := by
      refine hp.mem_iff.1 ?_
      obtain ⟨g, hg, he⟩ := mem_inputR hne hc
      exact List.mem_flatMap.2 ⟨g, List.mem_of_getElem? hg, he⟩
    obtain ⟨e, he, hec⟩ := List.mem_map.1 hmem
    rw [windR_iff H hm he hec.symm, (H.vertex e.1.first).wind he H.lt]
    have := hcount fun d => Under e.1.first d.first d.second ∨ d.first = e.1.first ∧ 0 < det e.1.first d.second e.1.second
    rw [← this]
    refine Eq.to_iff (congrArg Odd (List.countP_congr fun d _ => ?_))
    rw [decide_eq_true_eq, decide_eq_true_eq]
    unfold BelowStart
    rw [← hec]
  · intro c hc d hd hcd hrr hff
    have hg := hdiff c hc d hd hcd
    obtain ⟨g, w, -, hS, ⟨a, b, z1, k1⟩, a', b', z2, k2⟩ := cases2 c hc d hd hrr
    rcases k1 with ⟨g1, w1⟩ | ⟨g1, w1⟩ <;> rcases k2 with ⟨g2, w2⟩ | ⟨g2, w2⟩ <;> rw [g1, g2] at hff hg <;>
      simp only [LineOrPoint.first] at hff <;> subst hff
    · exact absurd (by rw [SimpleClosed.fst_unique hS z1 z2]) hg
    · exact wne w1 w2
    · exact (wne w2 w1).symm
    · exact absurd (by rw [SimpleClosed.snd_unique hS z1 z2]) hg
  · intro c hc d hd hcd hrr hff
    have hg := hdiff c hc d hd hcd
    obtain ⟨g, w, -, hS, ⟨a, b, z1, k1⟩, a', b', z2, k2⟩ := cases2 c hc d hd hrr
    rcases k1 with ⟨g1, w1⟩ | ⟨g1, w1⟩ <;> rcases k2 with ⟨g2, w2⟩ | ⟨g2, w2⟩ <;> rw [g1, g2] at hff hg <;>
      simp only [LineOrPoint.second] at hff <;> subst hff
    · exact absurd (by rw [SimpleClosed.snd_unique hS z1 z2]) hg
    · exact wne w1 w2
    · exact (wne w2 w1).symm
    · exact absurd (by rw [SimpleClosed.fst_unique hS z1 z2]) hg
  · intro c hc d hd hrr hff
    have hcd : c ≠ d := by
      rintro rfl
      have := (R.he.ends hc).2.2
      rw [hff] at this
      exact lt_irrefl _ this
    have hg := hdiff c hc d hd hcd
    have l1 := (R.he.ends hc).2.2
    have l2 := (R.he.ends hd).2.2
    obtain ⟨g, w, -, hS, ⟨a, b, z1, k1⟩, a', b', z2, k2⟩ := cases2 c hc d hd hrr
    have weq : ∀ {x y : Bool} {v : Winding}, (x = true ↔ w = v) → (y = true ↔ w = v) → x = y := by
      intro x y v h1 h2
      rw [← h1] at h2
      cases x <;> cases y <;> simp_all
    rcases k1 with ⟨g1, w1⟩ | ⟨g1, w1⟩ <;> rcases k2 with ⟨g2, w2⟩ | ⟨g2, w2⟩ <;> rw [g1] at hff hg l1 <;> rw [g2] at hff hg l2 <;>
      simp only [LineOrPoint.second, LineOrPoint.first] at hff l1 l2 <;> subst hff
    · exact weq w1 w2
    · have := SimpleClosed.snd_unique hS z1 z2
      rw [this] at l1
      exact absurd l1 (_root_.lt_asymm l2)
    · have := SimpleClosed.fst_unique hS z1 z2
      rw [this] at l1
      exact absurd l1 (_root_.lt_asymm l2)
    · exact weq w1 w2

end

end GeoCrossings

import Verif.Spec.Bops
import Mathlib.Algebra.Order.Ring.Rat
import Mathlib.Algebra.Field.Rat
import Mathlib.Data.List.Nodup
import Mathlib.Data.List.Perm.Basic

/-! # C39, C40: assembling polygons from rings -/
set_option linter.unusedSectionVars false
namespace GeoCrossings
open Spec

/-! ## C39 -/
namespace Laminar
variable {K : Type _} [Field K] [LinearOrder K]

/-- The holes of ring `j` among the rings handled so far. -/
def holesIn (parents : Nat → Nat) (done : List (Ring K × Nat)) (j : Nat) : List (List (Pt K)) :=
  (done.filter fun y => y.1.isHole ∧ parents y.2 = j).map fun y => y.1.coords

/-- The entry of `polygons` for a ring, when `done` have been handled. -/
def entry (parents : Nat → Nat) (done : List (Ring K × Nat)) (x : Ring K × Nat) : Option (Polygon K) :=
  if (x.1.isHole = false ∧ x ∈ done) ∨ holesIn parents done x.2 ≠ [] then some ⟨x.1.coords, holesIn parents done x.2⟩ else none

theorem holesIn_snoc (parents : Nat → Nat) (done : List (Ring K × Nat)) (r : Ring K) (i j : Nat) :
    holesIn parents (done ++ [(r, i)]) j = holesIn parents done j ++ if r.isHole ∧ parents i = j then [r.coords] else [] := by
  unfold holesIn
  rw [List.filter_append, List.map_append]
  by_cases h : r.isHole ∧ parents i = j
  · rw [if_pos h]; simp [h.1, h.2]
  · rw [if_neg h]
    have : ([(r, i)].filter fun y : Ring K × Nat => y.1.isHole ∧ parents y.2 = j) = [] := by
      rw [List.filter_eq_nil_iff]
      intro a ha; rw [List.mem_singleton] at ha; subst ha; simpa using h
    rw [this]; rfl

theorem zipIdx_get {α : Type _} (l : List α) (j : Nat) : l.zipIdx[j]? = l[j]?.map fun r => (r, j) := by
  simp [List.getElem?_zipIdx]

theorem place_entry {rings : List (Ring K)} {parents : Nat → Nat} {done todo : List (Ring K × Nat)} {x : Ring K × Nat}
    (hsplit : rings.zipIdx = done ++ x :: todo) (hx : x.1.isHole = true → ∃ r, rings[parents x.2]? = some r) :
    place rings parents (rings.zipIdx.map (entry parents done)) x = some (rings.zipIdx.map (entry parents (done ++ [x]))) := by
  obtain ⟨r, i⟩ := x
  have hri : rings[i]? = some r := by
    have : (r, i) ∈ rings.zipIdx := by rw [hsplit]; simp
    exact List.mem_zipIdx_iff_getElem?.1 this
  have hnd : (r, i) ∉ done := by
    have hn : (rings.zipIdx.map (·.2)).Nodup := by
      rw [List.zipIdx_map_snd]; exact List.nodup_range'
    intro hd
    rw [hsplit, List.map_append, List.nodup_append] at hn
    exact hn.2.2 i (List.mem_map.2 ⟨_, hd, rfl⟩) i (by simp) rfl
  unfold place
  simp only
  cases hh : r.isHole with
  | true =>
    obtain ⟨rp, hrp⟩ := hx hh
    simp only at hrp
    have e1 : (rings.zipIdx.map (entry parents done))[parents i]? = some (entry parents done (rp, parents i)) := by
      rw [List.getElem?_map, zipIdx_get, hrp]; rfl
    simp only [if_true, e1, hrp, Option.some.injEq]
    apply List.ext_getElem?
    intro j
    rw [List.getElem?_set]
    by_cases hj : parents i = j
    · subst hj
      rw [if_pos rfl, if_pos (by
        have := (List.getElem?_eq_some_iff.1 hrp).1
        simpa using this)]
      rw [List.getElem?_map, zipIdx_get, hrp]
      simp only [Option.map_some, Option.some.injEq]
      have e2 : entry parents (done ++ [(r, i)]) (rp, parents i) = some ⟨rp.coords, holesIn parents done (parents i) ++ [r.coords]⟩ := by
        unfold entry
        simp only [holesIn_snoc]
        rw [if_pos (show r.isHole = true ∧ True from ⟨hh, trivial⟩), if_pos (.inr (by simp))]
      rw [e2]
      unfold entry
      by_cases hc : ((rp, parents i).1.isHole = false ∧ (rp, parents i) ∈ done) ∨ holesIn parents done (rp, parents i).2 ≠ []
      · rw [if_pos hc]; rfl
      · rw [if_neg hc]
        push Not at hc
        simp [hc.2]
    · rw [if_neg hj, List.getElem?_map, List.getElem?_map, zipIdx_get]
      cases hrj : rings[j]? with
      | none => rfl
      | some rj =>
        simp only [Option.map_some, Option.some.injEq]
        unfold entry
        have hm : ((rj, j) ∈ done ++ [(r, i)] ∧ rj.isHole = false) ↔ ((rj, j) ∈ done ∧ rj.isHole = false) := by
          constructor
          · rintro ⟨h1, h2⟩
            rcases List.mem_append.1 h1 with h1 | h1
            · exact ⟨h1, h2⟩
            · rw [List.mem_singleton, Prod.mk.injEq] at h1
              rw [h1.1, hh] at h2; cases h2
          · rintro ⟨h1, h2⟩; exact ⟨by simp [h1], h2⟩
        simp only [holesIn_snoc]
        rw [if_neg (show ¬ (r.isHole = true ∧ parents i = j) from fun h => hj h.2), List.append_nil]
        simp only [and_comm (a := rj.isHole = false), hm]
  | false =>
    have e1 : (rings.zipIdx.map (entry parents done))[i]? = some (entry parents done (r, i)) := by
      rw [List.getElem?_map, zipIdx_get, hri]; rfl
    simp only [Bool.false_eq_true, if_false, e1]
    have hn : ∀ j, holesIn parents (done ++ [(r, i)]) j = holesIn parents done j := by
      intro j; rw [holesIn_snoc, if_neg (fun h => by rw [hh] at h; exact absurd h.1 (by simp)), List.append_nil]
    have e2 : entry parents (done ++ [(r, i)]) (r, i) = some ⟨r.coords, holesIn parents done i⟩ := by
      unfold entry; rw [hn, if_pos (.inl ⟨hh, by simp⟩)]
    have e3 : ∀ y : Ring K × Nat, y.2 ≠ i → entry parents (done ++ [(r, i)]) y = entry parents done y := by
      intro y hy
      unfold entry
      rw [hn]
      have : y ∈ done ++ [(r, i)] ↔ y ∈ done := by
        simp only [List.mem_append, List.mem_singleton, or_iff_left_iff_imp]
        rintro rfl; exact absurd rfl hy
      simp only [this]
    cases he : entry parents done (r, i) with
    | none =>
      simp only [Option.some.injEq]
      have hnil : holesIn parents done i = [] := by
        unfold entry at he
        by_contra hne
        rw [if_pos (.inr hne)] at he; cases he
      apply List.ext_getElem?
      intro j
      rw [List.getElem?_set]
      by_cases hj : i = j
      · subst hj
        rw [if_pos rfl, if_pos (by
          have := (List.getElem?_eq_some_iff.1 hri).1
          simpa using this), List.getElem?_map, zipIdx_get, hri, Option.map_some, Option.map_some, e2, hnil]
      · rw [if_neg hj, List.getElem?_map, List.getElem?_map, zipIdx_get]
        cases hrj : rings[j]? with
        | none => rfl
        | some rj => simp only [Option.map_some]; rw [e3 (rj, j) (Ne.symm hj)]
    | some p =>
      simp only [Option.some.injEq]
      apply List.ext_getElem?
      intro j
      rw [List.getElem?_map, List.getElem?_map, zipIdx_get]
      cases hrj : rings[j]? with
      | none => rfl
      | some rj =>
        simp only [Option.map_some, Option.some.injEq]
        by_cases hj : i = j
        · subst hj
          rw [hri] at hrj; cases hrj
          rw [e2]
          unfold entry at he ⊢
          by_cases hc : ((r, i).1.isHole = false ∧ (r, i) ∈ done) ∨ holesIn parents done (r, i).2 ≠ []
          · rw [if_pos hc]
          · rw [if_neg hc] at he; cases he
        · rw [e3 (rj, j) (Ne.symm hj)]

theorem foldlM_place {rings : List (Ring K)} {parents : Nat → Nat}
    (hp : ∀ i r, rings[i]? = some r → r.isHole = true → ∃ p, rings[parents i]? = some p) :
    ∀ (todo done : List (Ring K × Nat)), rings.zipIdx = done ++ todo →
      todo.foldlM (place rings parents) (rings.zipIdx.map (entry parents done)) = some (rings.zipIdx.map (entry parents rings.zipIdx))
  | [], done, h => by rw [List.append_nil] at h; rw [← h]; rfl
  | x :: todo, done, h => by
    rw [List.foldlM_cons, place_entry h]
    · simp only [Option.bind_eq_bind, Option.bind_some]
      exact foldlM_place hp todo (done ++ [x]) (by rw [h]; simp)
    · intro hx
      have : x ∈ rings.zipIdx := by rw [h]; simp
      exact hp x.2 x.1 (List.mem_zipIdx_iff_getElem?.1 this) hx

/-- **C39.** If the parent of every hole is a ring that is not a hole, `assemble` returns one polygon for every ring that is not a
hole, in order, whose interiors are the holes assigned to it, in order. -/
theorem C39_each_ring_once (rings : List (Ring K)) (parents : Nat → Nat)
    (hp : ∀ i r, rings[i]? = some r → r.isHole = true → ∃ p, rings[parents i]? = some p ∧ p.isHole = false) :
    placeRings rings parents = some (polygonsFor rings parents) := by
  unfold placeRings
  have h0 : List.replicate rings.length none = rings.zipIdx.map (entry (K := K) parents []) := by
    apply List.ext_getElem?
    intro j
    rw [List.getElem?_map, zipIdx_get, List.getElem?_replicate]
    by_cases hj : j < rings.length
    · rw [if_pos hj, List.getElem?_eq_getElem hj]; simp [entry, holesIn]
    · rw [if_neg hj, List.getElem?_eq_none (by omega)]; rfl
  rw [h0, foldlM_place (fun i r h1 h2 => (hp i r h1 h2).imp fun _ h => h.1) rings.zipIdx [] rfl]
  simp only [Option.some.injEq]
  unfold polygonsFor
  rw [List.filterMap_map]
  have key : ∀ x ∈ rings.zipIdx, entry parents rings.zipIdx x =
      if x.1.isHole = false then some ⟨x.1.coords, holesIn parents rings.zipIdx x.2⟩ else none := by
    rintro ⟨r, i⟩ hx
    unfold entry
    cases hh : r.isHole with
    | false => rw [if_pos (.inl ⟨rfl, hx⟩), if_pos rfl]
    | true =>
      rw [if_neg, if_neg (by simp)]
      push Not
      refine ⟨fun h => by simp at h, ?_⟩
      simp only [holesIn, List.map_eq_nil_iff, List.filter_eq_nil_iff]
      rintro ⟨r', i'⟩ hx' hc
      simp only [decide_eq_true_eq] at hc
      obtain ⟨p, h1, h2⟩ := hp i' r' (List.mem_zipIdx_iff_getElem?.1 hx') hc.1
      have h3 : rings[i]? = some r := List.mem_zipIdx_iff_getElem?.1 hx
      rw [hc.2, h3] at h1
      cases h1; rw [hh] at h2; cases h2
  generalize hz : rings.zipIdx = z at key ⊢
  have : ∀ l : List (Ring K × Nat), (∀ x ∈ l, x ∈ z) →
      l.filterMap (id ∘ entry parents z) = (l.filter fun x => !x.1.isHole).map fun x =>
        (⟨x.1.coords, (z.filter fun y => y.1.isHole ∧ parents y.2 = x.2).map fun y => y.1.coords⟩ : Polygon K) := by
    intro l
    induction l with
    | nil => intro _; rfl
    | cons x l ih =>
      intro hl
      rw [List.filterMap_cons, List.filter_cons]
      simp only [Function.comp, id]
      rw [key x (hl x (by simp))]
      have ih' := ih fun y hy => hl y (by simp [hy])
      simp only [Function.comp_def, id] at ih'
      cases hh : x.1.isHole with
      | true => simpa [hh] using ih'
      | false =>
        simp only [if_true, Bool.not_false, List.map_cons]
        rw [ih']; rfl
  exact this z fun x hx => hx

/-- **C39 (nothing lost).** Under the same condition every ring occurs in exactly one place of the result. -/
theorem C39_conserved (rings : List (Ring K)) (parents : Nat → Nat)
    (hp : ∀ i r, rings[i]? = some r → r.isHole = true → ∃ p, rings[parents i]? = some p ∧ p.isHole = false) :
    ((polygonsFor rings parents).flatMap ringsOf).Perm (rings.map (·.coords)) := by
  unfold polygonsFor
  have h1 : rings.map (·.coords) = rings.zipIdx.map fun x => x.1.coords := by
    conv_lhs => rw [← List.zipIdx_map_fst 0 rings]
    rw [List.map_map]; rfl
  rw [h1]
  have hp' : ∀ y ∈ rings.zipIdx, y.1.isHole = true → ∃ x ∈ rings.zipIdx.filter (fun x => !x.1.isHole), parents y.2 = x.2 := by
    rintro ⟨r, i⟩ hy hh
    obtain ⟨p, h2, h3⟩ := hp i r (List.mem_zipIdx_iff_getElem?.1 hy) hh
    exact ⟨(p, parents i), by simp [List.mem_filter, List.mem_zipIdx_iff_getElem?, h2, h3], rfl⟩
  have hn : ((rings.zipIdx.filter (fun x => !x.1.isHole)).map (·.2)).Nodup := by
    have hn : (rings.zipIdx.map (·.2)).Nodup := by
      rw [List.zipIdx_map_snd]; exact List.nodup_range'
    exact hn.sublist (List.Sublist.map _ (List.filter_sublist (l := rings.zipIdx)))
  generalize rings.zipIdx = z at *
  -- split `z` into exteriors and holes
  have hz : z.Perm (z.filter (fun x => !x.1.isHole) ++ z.filter fun x => x.1.isHole) := by
    have := List.filter_append_perm (fun x : Ring K × Nat => !x.1.isHole) z
    simpa using this.symm
  refine List.Perm.trans ?_ (hz.map _).symm
  rw [List.map_append]
  have hh : ∀ y ∈ z.filter (fun x => x.1.isHole), ∃ x ∈ z.filter (fun x => !x.1.isHole), parents y.2 = x.2 := by
    intro y hy
    rw [List.mem_filter] at hy
    exact hp' y hy.1 hy.2
  have hf : ∀ j, (z.filter fun y => y.1.isHole ∧ parents y.2 = j) = (z.filter fun x => x.1.isHole).filter fun y => parents y.2 = j := by
    intro j; rw [List.filter_filter]; congr 1; funext y; simp [Bool.and_comm]
  simp only [hf]
  generalize z.filter (fun x => !x.1.isHole) = E at *
  generalize z.filter (fun x => x.1.isHole) = H at *
  clear hz hf hp' hp h1
  induction E generalizing H with
  | nil =>
    cases H with
    | nil => simp
    | cons y H => obtain ⟨x, hx, -⟩ := hh y (by simp); simp at hx
  | cons e E ih =>
    rw [List.map_cons, List.flatMap_cons, List.map_cons]
    simp only [ringsOf, List.cons_append]
    refine List.Perm.cons _ ?_
    have hsplit := List.filter_append_perm (fun y : Ring K × Nat => parents y.2 = e.2) H
    have hsub : ∀ x ∈ E, (H.filter fun y => parents y.2 = x.2) = (H.filter fun y => !decide (parents y.2 = e.2)).filter fun y => parents y.2 = x.2 := by
      intro x hx
      rw [List.filter_filter]
      apply List.filter_congr
      intro y _
      have : x.2 ≠ e.2 := by
        rw [List.map_cons, List.nodup_cons] at hn
        intro he; exact hn.1 (he ▸ List.mem_map.2 ⟨x, hx, rfl⟩)
      by_cases h : parents y.2 = x.2
      · simp [h, this]
      · simp [h]
    have e4 : (E.map fun x => (⟨x.1.coords, (H.filter fun y => parents y.2 = x.2).map fun y => y.1.coords⟩ : Polygon K)) =
        E.map fun x => ⟨x.1.coords, ((H.filter fun y => !decide (parents y.2 = e.2)).filter fun y => parents y.2 = x.2).map fun y => y.1.coords⟩ := by
      apply List.map_congr_left
      intro x hx; rw [hsub x hx]
    rw [e4]
    have := ih (List.nodup_cons.1 hn).2 (H.filter fun y => !decide (parents y.2 = e.2)) (by
      intro y hy
      rw [List.mem_filter] at hy
      obtain ⟨x, hx, hxe⟩ := hh y hy.1
      rcases List.mem_cons.1 hx with rfl | hx
      · simp [hxe] at hy
      · exact ⟨x, hx, hxe⟩)
    refine (List.Perm.append_left _ this).trans ?_
    refine (List.perm_append_comm_assoc _ _ _).trans ?_
    refine List.Perm.append_left _ ?_
    rw [← List.map_append]
    exact hsplit.map _

/-- Two exteriors, the second listed after its hole. -/
example : ∃ (rings : List (Ring ℚ)) (parents : Nat → Nat), rings.length = 3 ∧
    (∀ i r, rings[i]? = some r → r.isHole = true → ∃ p, rings[parents i]? = some p ∧ p.isHole = false) ∧
    (polygonsFor rings parents).map (·.ints.length) = [0, 1] :=
  ⟨[⟨[⟨0, 0⟩], false⟩, ⟨[⟨5, 5⟩], true⟩, ⟨[⟨4, 4⟩], false⟩], fun _ => 2, rfl, by
    intro i r h hh
    exact ⟨⟨[⟨4, 4⟩], false⟩, rfl, rfl⟩, by decide +kernel⟩

/-! ## C40 -/

theorem column_inv {isHole : Nat → Bool} {parent : Nat → Nat} {b a : Option Nat} {r : Nat} {l : List (Nat × Option Nat)}
    (h : Column isHole parent b ((r, a) :: l)) :
    (b = none ∧ isHole r = false ∧ some r = a ∧ Column isHole parent (some r) l) ∨
    (b = some r ∧ isHole r = false ∧ none = a ∧ Column isHole parent none l) ∨
    (b = some (parent r) ∧ isHole r = true ∧ none = a ∧ Column isHole parent none l) ∨
    (b = none ∧ isHole r = true ∧ some (parent r) = a ∧ Column isHole parent (some (parent r)) l) := by
  cases h with
  | enter h1 h2 => exact .inl ⟨rfl, h1, rfl, h2⟩
  | leave h1 h2 => exact .inr (.inl ⟨rfl, h1, rfl, h2⟩)
  | enterHole h1 h2 => exact .inr (.inr (.inl ⟨rfl, h1, rfl, h2⟩))
  | leaveHole h1 h2 => exact .inr (.inr (.inr ⟨rfl, h1, rfl, h2⟩))

theorem leftFirst_hole {isHole : Nat → Bool} : ∀ {l : List (Nat × Option Nat)} {b : Option Nat} {h : Nat},
    h ∈ leftFirst isHole b l → isHole h = true
  | [], _, _, hm => by simp [leftFirst] at hm
  | (r, a) :: l, none, h, hm => by
    simp only [leftFirst, List.mem_append] at hm
    rcases hm with hm | hm
    · by_cases hr : isHole r = true
      · simp [hr] at hm; rw [hm]; exact hr
      · simp [hr] at hm
    · exact leftFirst_hole hm
  | (r, a) :: l, some _, h, hm => by
    simp only [leftFirst, List.mem_filter] at hm
    exact leftFirst_hole hm.1

theorem visit_fold (isHole : Nat → Bool) (ringOf : Nat → Nat) (parent : Nat → Nat) (above : Nat → Option Nat) :
    ∀ (es : List Nat) (below : Option Nat) (parents : Nat → Nat) (region : Nat → Option Nat), es.Nodup →
      Column isHole parent below (es.map fun e => (ringOf e, above e)) →
      (∀ h ∈ leftFirst isHole below (es.map fun e => (ringOf e, above e)), parents h = parent h) →
      let s := es.foldl (visit isHole ringOf) (below, parents, region)
      (∀ j, s.2.2 j = if j ∈ es then above j else region j) ∧
      (∀ e ∈ es, isHole (ringOf e) = true → s.2.1 (ringOf e) = parent (ringOf e)) ∧
      (∀ j, (∀ e ∈ es, isHole (ringOf e) = true → ringOf e ≠ j) → s.2.1 j = parents j) ∧
      (∀ j, parents j = parent j → s.2.1 j = parent j) := by
  intro es
  induction es with
  | nil =>
    intro below parents region _ _ _
    exact ⟨fun j => by simp, fun e he => by simp at he, fun _ _ => rfl, fun _ h => h⟩
  | cons e es ih =>
    intro below parents region hn hc hl
    rw [List.foldl_cons]
    rw [List.map_cons] at hc hl
    have hne := (List.nodup_cons.1 hn).1
    have hn' := (List.nodup_cons.1 hn).2
    have key : ∀ (b' : Option Nat) (parents' : Nat → Nat), visit isHole ringOf (below, parents, region) e =
          (b', parents', fun j => if j = e then b' else region j) → b' = above e →
        Column isHole parent b' (es.map fun e => (ringOf e, above e)) →
        (∀ h ∈ leftFirst isHole b' (es.map fun e => (ringOf e, above e)), parents' h = parent h) →
        (isHole (ringOf e) = true → parents' (ringOf e) = parent (ringOf e)) →
        (∀ j, (isHole (ringOf e) = true → ringOf e ≠ j) → parents' j = parents j) →
        (∀ j, parents j = parent j → parents' j = parent j) →
        let s := es.foldl (visit isHole ringOf) (visit isHole ringOf (below, parents, region) e)
        (∀ j, s.2.2 j = if j ∈ e :: es then above j else region j) ∧
        (∀ e' ∈ e :: es, isHole (ringOf e') = true → s.2.1 (ringOf e') = parent (ringOf e')) ∧
        (∀ j, (∀ e' ∈ e :: es, isHole (ringOf e') = true → ringOf e' ≠ j) → s.2.1 j = parents j) ∧
        (∀ j, parents j = parent j → s.2.1 j = parent j) := by
      intro b' parents' hv hb hcol hlf hpe hpo hpk
      rw [hv]
      obtain ⟨i1, i2, i3, i4⟩ := ih b' parents' (fun j => if j = e then b' else region j) hn' hcol hlf
      refine ⟨?_, ?_, ?_, ?_⟩
      · intro j
        rw [i1]
        by_cases hj : j = e
        · subst hj; rw [if_neg hne, if_pos rfl, if_pos (by simp), hb]
        · by_cases hj2 : j ∈ es
          · rw [if_pos hj2, if_pos (by simp [hj2])]
          · rw [if_neg hj2, if_neg hj, if_neg (by simp [hj, hj2])]
      · intro x hx hxh
        rcases List.mem_cons.1 hx with rfl | hx
        · exact i4 _ (hpe hxh)
        · exact i2 x hx hxh
      · intro j hj
        rw [i3 j fun x hx => hj x (by simp [hx]), hpo j (hj e (by simp))]
      · intro j hj; exact i4 j (hpk j hj)
    rcases column_inv hc with ⟨rfl, hh, ha, hcol⟩ | ⟨rfl, hh, ha, hcol⟩ | ⟨rfl, hh, ha, hcol⟩ | ⟨rfl, hh, ha, hcol⟩
    · refine key (some (ringOf e)) parents (by simp [visit, hh]) ha hcol ?_ (by simp [hh]) (fun _ _ => rfl) (fun _ h => h)
      intro h hm; exact hl h (by simp only [leftFirst, hh, ← ha]; simpa using hm)
    · refine key none parents (by simp [visit, hh]) ha hcol ?_ (by simp [hh]) (fun _ _ => rfl) (fun _ h => h)
      intro h hm
      by_cases hr : h = ringOf e
      · exact absurd (leftFirst_hole hm) (by rw [hr, hh]; simp)
      · exact hl h (by simp only [leftFirst, ← ha, List.mem_filter]; exact ⟨hm, by simpa using hr⟩)
    · refine key none (fun j => if j = ringOf e then parent (ringOf e) else parents j) (by simp [visit, hh]) ha hcol ?_ (by simp) ?_ ?_
      · intro h hm
        by_cases hr : h = ringOf e
        · simp [hr]
        · simp only [if_neg hr]
          exact hl h (by simp only [leftFirst, ← ha, List.mem_filter]; exact ⟨hm, by simpa using hr⟩)
      · intro j hj; rw [if_neg (Ne.symm (hj hh))]
      · intro j hj
        by_cases hr : j = ringOf e
        · simp [hr]
        · simp only [if_neg hr]; exact hj
    · have hp : parents (ringOf e) = parent (ringOf e) := hl _ (by simp [leftFirst, hh])
      refine key (some (parent (ringOf e))) parents (by simp [visit, hh, hp]) ha hcol ?_ (fun _ => hp) (fun _ _ => rfl) (fun _ h => h)
      intro h hm; exact hl h (by simp only [leftFirst, ← ha]; exact List.mem_append_right _ hm)

/-- In a column one is alternately inside and outside. -/
theorem column_alternates {isHole : Nat → Bool} {parent : Nat → Nat} : ∀ {l : List (Nat × Option Nat)} {b : Option Nat},
    Column isHole parent b l → ∀ (i : Nat) (x : Nat × Option Nat), l[i]? = some x → (x.2.isSome = (b.isSome ^^ (i % 2 == 0)))
  | [], _, _, i, x, h => by simp at h
  | (r, a) :: l, b, hc, i, x, h => by
    have step : a.isSome = !b.isSome ∧ Column isHole parent a l := by
      rcases column_inv hc with ⟨rfl, -, rfl, h'⟩ | ⟨rfl, -, rfl, h'⟩ | ⟨rfl, -, rfl, h'⟩ | ⟨rfl, -, rfl, h'⟩ <;> exact ⟨rfl, h'⟩
    cases i with
    | zero => simp at h; subst h; simp [step.1]
    | succ i =>
      rw [List.getElem?_cons_succ] at h
      rw [column_alternates step.2 i x h, step.1]
      have : ((i + 1) % 2 == 0) = !(i % 2 == 0) := by
        rcases Nat.mod_two_eq_zero_or_one i with h | h <;> simp [h, Nat.add_mod]
      rw [this]; cases b.isSome <;> cases (i % 2 == 0) <;> rfl

/-- **C40.** Let the edges `es` starting at a sweep point, from bottom to top, be a column of nested rings: `parent h` is the exterior
that has `h` as a hole, `below` the region below the lowest edge, `above e` the region above edge `e`. If the parents of the holes that
the column leaves before entering them have been found already, then the hand-over stores `above e` with every edge `e`, and afterwards
every hole touched has its true parent; nothing else is changed. In a column inside and outside alternate. -/
theorem C40_nesting (isHole : Nat → Bool) (ringOf : Nat → Nat) (parent : Nat → Nat) (above : Nat → Option Nat) (es : List Nat)
    (below : Option Nat) (parents : Nat → Nat) (region : Nat → Option Nat) (hn : es.Nodup)
    (hc : Column isHole parent below (es.map fun e => (ringOf e, above e)))
    (hl : ∀ h ∈ leftFirst isHole below (es.map fun e => (ringOf e, above e)), parents h = parent h) :
    let s := es.foldl (visit isHole ringOf) (below, parents, region)
    (∀ j, s.2.2 j = if j ∈ es then above j else region j) ∧
    (∀ e ∈ es, isHole (ringOf e) = true → s.2.1 (ringOf e) = parent (ringOf e)) ∧
    (∀ j, (∀ e ∈ es, isHole (ringOf e) = true → ringOf e ≠ j) → s.2.1 j = parents j) ∧
    (∀ i e, es[i]? = some e → (above e).isSome = (below.isSome ^^ (i % 2 == 0))) := by
  obtain ⟨h1, h2, h3, -⟩ := visit_fold isHole ringOf parent above es below parents region hn hc hl
  refine ⟨h1, h2, h3, ?_⟩
  intro i e he
  exact column_alternates hc i (ringOf e, above e) (by rw [List.getElem?_map, he]; rfl)

/-- Crossing exterior 0, its hole 1, exterior 2 inside the hole, and out again: the hole gets its parent. -/
example : Column (fun r => r == 1) (fun _ => 0) none [(0, some 0), (1, none), (2, some 2), (2, none), (1, some 0), (0, none)] ∧
    leftFirst (fun r => r == 1) none [(0, some 0), (1, none), (2, some 2), (2, none), (1, some 0), (0, none)] = [] ∧
    ([0, 1, 2, 3, 4, 5].foldl (visit (fun r => r == 1) fun e => [0, 1, 2, 2, 1, 0].getD e 9) (none, (fun _ => 7), fun _ => none)).2.1 1 = 0 :=
  ⟨.enter rfl (.enterHole (parent := fun _ => 0) (h := 1) rfl (.enter rfl (.leave rfl (.leaveHole (parent := fun _ => 0) (h := 1) rfl
    (.leave rfl .nil))))), by decide, by decide⟩

end Laminar
end GeoCrossings

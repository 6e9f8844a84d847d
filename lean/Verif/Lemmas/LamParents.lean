import Verif.Lemmas.LamRun
import Verif.Lemmas.BopVertex
import Mathlib.Data.List.Nodup

/-! # The holes get exterior rings as their parents -/
set_option linter.unusedSectionVars false
namespace GeoCrossings
open Spec

variable {K : Type} [Field K] [LinearOrder K] [IsStrictOrderedRing K]
variable {geom : Nat → LineOrPoint K} {input : List Nat} {pos pt : Pt K} {l e s u : List Nat}
variable {isHole : Nat → Bool} {ringOf : Nat → Nat} {n : Nat}

/-- `d` is below `c`, just right of the left end of `c`. -/
def BelowStart (geom : Nat → LineOrPoint K) (c d : Nat) : Prop :=
  Under (geom c).first (geom d).first (geom d).second ∨ (geom d).first = (geom c).first ∧ 0 < det (geom c).first (geom d).second (geom c).second

instance (c d : Nat) : Decidable (BelowStart geom c d) := by unfold BelowStart; infer_instance

/-- The lowest edge at the least vertex of a ring. -/
def Low (geom : Nat → LineOrPoint K) (input : List Nat) (ringOf : Nat → Nat) (c : Nat) : Prop :=
  ∀ d ∈ input, ringOf d = ringOf c → d = c ∨ (geom c).first < (geom d).first ∨
    (geom d).first = (geom c).first ∧ 0 < det (geom c).first (geom c).second (geom d).second

/-- What is known of the edges of the rings that `Op::sweep` returns. -/
structure RingEdgesOk (geom : Nat → LineOrPoint K) (input : List Nat) (ringOf : Nat → Nat) (isHole : Nat → Bool) (n : Nat) : Prop where
  he : EdgesOk geom (fun _ => true) input
  ha : Disj geom input
  bound : ∀ c ∈ input, ringOf c < n
  /-- each ring has a lowest edge, and holes have an odd number of edges below it -/
  low : ∀ c ∈ input, ∃ d ∈ input, ringOf d = ringOf c ∧ Low geom input ringOf d ∧
    (isHole (ringOf d) = true ↔ Odd (input.countP fun f => decide (BelowStart geom d f)))

theorem det_neg' (a b c : Pt K) : det a b c = - det a c b := by unfold det; ring

theorem Low.unique {c d : Nat} (hc : c ∈ input) (hd : d ∈ input) (h1 : Low geom input ringOf c) (h2 : Low geom input ringOf d) (hr : ringOf c = ringOf d) :
    c = d := by
  rcases h1 d hd hr.symm with k1 | k1 | ⟨k1, k1'⟩
  · exact k1.symm
  · rcases h2 c hc hr with k2 | k2 | ⟨k2, -⟩
    · exact k2
    · exact absurd k1 (_root_.lt_asymm k2)
    · rw [k2] at k1; exact absurd k1 (lt_irrefl _)
  · rcases h2 c hc hr with k2 | k2 | ⟨k2, k2'⟩
    · exact k2
    · rw [k1] at k2; exact absurd k2 (lt_irrefl _)
    · rw [k1, det_neg'] at k2'
      linarith

/-- The exterior rings. -/
def Ext (isHole : Nat → Bool) (n x : Nat) : Prop := isHole x = false ∧ x < n

theorem visit_isSome (b : Option Nat) (par : Nat → Nat) (reg : Nat → Option Nat) (c : Nat) :
    (Laminar.visit isHole ringOf (b, par, reg) c).1.isSome = !b.isSome := by
  cases b <;> rfl

theorem visit_reg (b : Option Nat) (par : Nat → Nat) (reg : Nat → Option Nat) (c : Nat) :
    (Laminar.visit isHole ringOf (b, par, reg) c).2.2 = fun j => if j = c then (Laminar.visit isHole ringOf (b, par, reg) c).1 else reg j := by
  cases b <;> rfl

/-- Visiting the edges that start, when the holes among them have parents or get them. -/
theorem visit_ok : ∀ (s : List Nat) (T : Nat → Prop) (b : Option Nat) (par : Nat → Nat) (reg : Nat → Option Nat), s.Nodup →
    (∀ x, b = some x → Ext isHole n x) → (∀ k, T k → isHole k = true → Ext isHole n (par k)) →
    (∀ l c u, s = l ++ c :: u → isHole (ringOf c) = true → T (ringOf c) ∨ (∃ d ∈ l, ringOf d = ringOf c) ∨ (b.isSome = true ↔ Even l.length)) →
    (∀ c ∈ s, ringOf c < n) →
    (∀ c, c ∉ s → (s.foldl (Laminar.visit isHole ringOf) (b, par, reg)).2.2 c = reg c) ∧
    (∀ l c u, s = l ++ c :: u → (((s.foldl (Laminar.visit isHole ringOf) (b, par, reg)).2.2 c).isSome = true ↔ (b.isSome = true ↔ Odd l.length))) ∧
    (∀ c ∈ s, ∀ x, (s.foldl (Laminar.visit isHole ringOf) (b, par, reg)).2.2 c = some x → Ext isHole n x) ∧
    (∀ k, T k ∨ (∃ c ∈ s, ringOf c = k) → isHole k = true → Ext isHole n ((s.foldl (Laminar.visit isHole ringOf) (b, par, reg)).2.1 k)) := by
  intro s
  induction s with
  | nil =>
    intro T b par reg _ _ hp _ _
    exact ⟨fun _ _ => rfl, by simp, by simp, fun k hk => hp k (hk.resolve_right (by simp))⟩
  | cons c s ih =>
    intro T b par reg hn hb hp hT hbd
    rw [List.nodup_cons] at hn
    rw [List.foldl_cons]
    have hT0 : isHole (ringOf c) = true → T (ringOf c) ∨ b.isSome = true := by
      intro hh
      rcases hT [] c s rfl hh with q | ⟨d, hd, -⟩ | q
      · exact .inl q
      · simp at hd
      · exact .inr (q.2 (by simp))
    have h1 : ∀ x, (Laminar.visit isHole ringOf (b, par, reg) c).1 = some x → Ext isHole n x := by
      intro x hx
      cases b with
      | some y => cases hx
      | none =>
        have hx : some (if isHole (ringOf c) then par (ringOf c) else ringOf c) = some x := hx
        rw [Option.some.injEq] at hx
        subst hx
        cases hh : isHole (ringOf c) with
        | true => simp only [if_true]; exact hp _ ((hT0 hh).resolve_right (by simp)) hh
        | false => simp only [Bool.false_eq_true, if_false]; exact ⟨hh, hbd c (by simp)⟩
    have h2 : ∀ k, T k ∨ k = ringOf c → isHole k = true → Ext isHole n ((Laminar.visit isHole ringOf (b, par, reg) c).2.1 k) := by
      intro k hk hh
      cases b with
      | none =>
        refine hp k ?_ hh
        rcases hk with hk | rfl
        · exact hk
        · exact (hT0 hh).resolve_right (by simp)
      | some y =>
        have e : (Laminar.visit isHole ringOf (some y, par, reg) c).2.1 =
          if isHole (ringOf c) then fun j => if j = ringOf c then y else par j else par := rfl
        rw [e]
        by_cases hk' : k = ringOf c
        · rw [if_pos (hk' ▸ hh)]
          simp only [if_pos hk']; exact hb y rfl
        · have hk := hk.resolve_right hk'
          by_cases hr : isHole (ringOf c) = true
          · rw [if_pos hr]; simp only [if_neg hk']; exact hp k hk hh
          · rw [if_neg hr]; exact hp k hk hh
    obtain ⟨j1, j2, j3, j4⟩ := ih (fun k => T k ∨ k = ringOf c) _ (Laminar.visit isHole ringOf (b, par, reg) c).2.1
      (Laminar.visit isHole ringOf (b, par, reg) c).2.2 hn.2 h1 h2
      (fun l d u hs hh => by
        rcases hT (c :: l) d u (by rw [hs]; rfl) hh with q | ⟨x, hx, q⟩ | q
        · exact .inl (.inl q)
        · rcases List.mem_cons.1 hx with rfl | hx
          · exact .inl (.inr q.symm)
          · exact .inr (.inl ⟨x, hx, q⟩)
        · refine .inr (.inr ?_)
          rw [List.length_cons, Nat.even_add_one] at q
          rw [visit_isSome]
          cases b <;> simp at q ⊢ <;> exact q) (fun d hd => hbd d (by simp [hd]))
    have hc : (s.foldl (Laminar.visit isHole ringOf) (Laminar.visit isHole ringOf (b, par, reg) c)).2.2 c =
        (Laminar.visit isHole ringOf (b, par, reg) c).1 := by
      refine (j1 c hn.1).trans ?_
      rw [visit_reg]
      simp only [if_true]
    refine ⟨?_, ?_, ?_, ?_⟩
    · intro d hd
      rw [List.mem_cons, not_or] at hd
      rw [j1 d hd.2, visit_reg]
      simp only [if_neg hd.1]
    · intro l d u hs
      cases l with
      | nil =>
        rw [List.nil_append, List.cons.injEq] at hs
        obtain ⟨rfl, rfl⟩ := hs
        rw [hc, visit_isSome]
        cases b <;> simp
      | cons a l =>
        rw [List.cons_append, List.cons.injEq] at hs
        obtain ⟨rfl, hs⟩ := hs
        rw [j2 l d u hs, visit_isSome, List.length_cons, Nat.odd_add_one]
        cases b <;> simp
    · intro d hd x hx
      rcases List.mem_cons.1 hd with rfl | hd
      · rw [hc] at hx; exact h1 x hx
      · exact j3 d hd x hx
    · intro k hk
      refine j4 k ?_
      rcases hk with hk | ⟨d, hd, rfl⟩
      · exact .inl (.inl hk)
      · rcases List.mem_cons.1 hd with rfl | hd
        · exact .inl (.inr rfl)
        · exact .inr ⟨d, hd, rfl⟩

namespace ColStep

theorem memInput (h : ColStep geom input pos pt l e s u) {c : Nat} (hc : c ∈ l ++ s ++ u) : c ∈ input := by
  simp only [List.mem_append] at hc
  rcases hc with (hc | hc) | hc
  · exact ((h.low c).1 hc).1
  · exact ((h.starts c).1 hc).1
  · exact ((h.up c).1 hc).1

/-- The edges below the point. -/
theorem under (h : ColStep geom input pos pt l e s u) (hlt : ∀ c ∈ input, (geom c).first < (geom c).second) (c : Nat) :
    c ∈ l ↔ c ∈ input ∧ Under pt (geom c).first (geom c).second := by
  rw [h.low c]
  refine and_congr_right fun hc => ?_
  rw [under_iff' (hlt c hc)]
  constructor
  · rintro ⟨h1, h2, h3⟩; exact ⟨h1.le, h2, h3⟩
  · rintro ⟨h1, h2, h3⟩
    refine ⟨lt_of_le_of_ne h1 ?_, h2, h3⟩
    intro k
    rw [k, det_left] at h3
    exact lt_irrefl _ h3

theorem nodup3 (h : ColStep geom input pos pt l e s u) : l.Nodup ∧ e.Nodup ∧ s.Nodup ∧ u.Nodup ∧ (∀ c ∈ l, c ∉ s) ∧ (∀ c ∈ u, c ∉ s) := by
  have h1 := h.nd
  have h2 := h.nd'
  rw [List.nodup_append', List.nodup_append'] at h1 h2
  refine ⟨h1.1.1, h1.1.2.1, h2.1.2.1, h1.2.1, fun c hc hs => h2.1.2.2 hc hs, fun c hc hs => h2.2.2 (List.mem_append_right _ hs) hc⟩

theorem perm_filter {P : Nat → Prop} [DecidablePred P] {l : List Nat} (hl : l.Nodup) (hi : input.Nodup)
    (h : ∀ c, c ∈ l ↔ c ∈ input ∧ P c) : l.Perm (input.filter fun c => decide (P c)) := by
  rw [List.perm_ext_iff_of_nodup hl (hi.filter _)]
  intro c
  rw [h c, List.mem_filter]
  simp

theorem parity (h : ColStep geom input pos pt l e s u) (hi : input.Nodup)
    (hev : Even (input.countP (fun c => (geom c).first = pt) + input.countP (fun c => (geom c).second = pt))) : Even (e.length + s.length) := by
  obtain ⟨-, h2, h3, -⟩ := h.nodup3
  have e1 := (perm_filter h2 hi h.ends).length_eq
  have e2 := (perm_filter h3 hi h.starts).length_eq
  rw [← List.countP_eq_length_filter] at e1 e2
  rw [e1, e2, Nat.add_comm]
  exact hev

/-- The edges below an edge that starts. -/
theorem start_perm (hs : ColStep geom input pos pt l e s u) (hlt : ∀ c ∈ input, (geom c).first < (geom c).second) (hi : input.Nodup) {s1 s2 : List Nat} {c : Nat} (h : s = s1 ++ c :: s2) :
    (l ++ s1).Perm (input.filter fun d => decide (BelowStart geom c d)) := by
  have hcs : c ∈ s := by rw [h]; simp
  obtain ⟨-, hcp⟩ := (hs.starts c).1 hcs
  refine perm_filter ?_ hi ?_
  · have := hs.nd'
    rw [h, show l ++ (s1 ++ c :: s2) ++ u = (l ++ s1) ++ (c :: s2 ++ u) by simp] at this
    exact (List.nodup_append'.1 this).1
  · have ho := hs.ord
    rw [h, List.pairwise_append, List.pairwise_cons] at ho
    obtain ⟨-, ⟨o1, -⟩, o2⟩ := ho
    intro d
    rw [List.mem_append]
    unfold BelowStart
    rw [hcp]
    constructor
    · rintro (hd | hd)
      · obtain ⟨k1, k2⟩ := (hs.under hlt d).1 hd
        exact ⟨k1, .inl k2⟩
      · obtain ⟨k1, k2⟩ := (hs.starts d).1 (by rw [h]; simp [hd])
        exact ⟨k1, .inr ⟨k2, o2 d hd c (by simp)⟩⟩
    · rintro ⟨hd, k | ⟨k1, k2⟩⟩
      · exact .inl ((hs.under hlt d).2 ⟨hd, k⟩)
      · have hds := (hs.starts d).2 ⟨hd, k1⟩
        rw [h, List.mem_append, List.mem_cons] at hds
        rcases hds with hds | rfl | hds
        · exact .inr hds
        · exfalso
          have : det pt (geom d).second (geom d).second = 0 := by unfold det; ring
          linarith
        · exfalso
          have h3 := o1 d hds
          have : det pt (geom d).second (geom c).second = - det pt (geom c).second (geom d).second := by unfold det; ring
          linarith

/-- When a ring begins, the first of its edges is its lowest edge. -/
theorem first_low (hs : ColStep geom input pos pt l e s u) (H : RingEdgesOk geom input ringOf isHole n) {s1 s2 : List Nat} {c : Nat} (h : s = s1 ++ c :: s2)
    (hno : ∀ d ∈ input, ringOf d = ringOf c → ¬ (geom d).first ≤ pos) (hn1 : ∀ d ∈ s1, ringOf d ≠ ringOf c) :
    Low geom input ringOf c ∧ (isHole (ringOf c) = true ↔ Odd (l ++ s1).length) := by
  have hcs : c ∈ s := by rw [h]; simp
  obtain ⟨hci, hcp⟩ := (hs.starts c).1 hcs
  obtain ⟨d, hd, hdr, hl, hh⟩ := H.low c hci
  have hdc : d = c := by
    rcases hl c hci hdr.symm with k | k | ⟨k1, k2⟩
    · exact k.symm
    · rcases hs.first d hd with q | q
      · exact absurd q (hno d hd hdr)
      · rw [hcp] at k; exact absurd k (not_lt.2 q)
    · have hds : d ∈ s := (hs.starts d).2 ⟨hd, k1.symm.trans hcp⟩
      rw [h, List.mem_append, List.mem_cons] at hds
      rcases hds with q | q | q
      · exact absurd hdr (hn1 d q)
      · exact q
      · have ho := hs.ord
        rw [h, List.pairwise_append, List.pairwise_cons] at ho
        have := ho.2.1.1 d q
        rw [← k1, hcp, det_neg'] at k2
        linarith
  subst hdc
  refine ⟨hl, ?_⟩
  rw [hh, (hs.start_perm (fun c hc => (H.he.ends hc).2.2) H.he.nodup h).length_eq, ← List.countP_eq_length_filter]

end ColStep

/-- The invariant of the run. -/
structure ParInv (geom : Nat → LineOrPoint K) (input : List Nat) (ringOf : Nat → Nat) (isHole : Nat → Bool) (n : Nat)
    (pos : Pt K) (col : List Nat) (par : Nat → Nat) (reg : Nat → Option Nat) : Prop where
  pty : ∀ l c u, col = l ++ c :: u → ((reg c).isSome = true ↔ Even l.length)
  ext : ∀ c ∈ col, ∀ x, reg c = some x → Ext isHole n x
  hol : ∀ c ∈ input, (geom c).first ≤ pos → isHole (ringOf c) = true → Ext isHole n (par (ringOf c))

theorem ParInv.below {col : List Nat} {par : Nat → Nat} {reg : Nat → Option Nat} (h : ParInv geom input ringOf isHole n pos col par reg)
    {l r : List Nat} (hc : col = l ++ r) :
    ((l.getLast?.bind reg).isSome = true ↔ Odd l.length) ∧ ∀ x, l.getLast?.bind reg = some x → Ext isHole n x := by
  rcases List.eq_nil_or_concat l with hl | ⟨l', c, hl⟩
  · subst hl; simp
  · rw [List.concat_eq_append] at hl
    subst hl
    have e : (l' ++ [c]).getLast?.bind reg = reg c := by simp
    rw [e, h.pty l' c r (by rw [hc]; simp)]
    refine ⟨?_, h.ext c (by rw [hc]; simp)⟩
    rw [List.length_append, List.length_singleton, Nat.odd_add_one, Nat.not_odd_iff_even]

theorem ParInv.step (H : RingEdgesOk geom input ringOf isHole n) {par : Nat → Nat} {reg : Nat → Option Nat}
    (hs : ColStep geom input pos pt l e s u) (h : ParInv geom input ringOf isHole n pos (l ++ e ++ u) par reg) :
    ParInv geom input ringOf isHole n pt (l ++ s ++ u) (s.foldl (Laminar.visit isHole ringOf) (l.getLast?.bind reg, par, reg)).2.1
      (s.foldl (Laminar.visit isHole ringOf) (l.getLast?.bind reg, par, reg)).2.2 := by
  have hlt : ∀ c ∈ input, (geom c).first < (geom c).second := fun c hc => (H.he.ends hc).2.2
  obtain ⟨n1, n2, n3, n4, n5, n6⟩ := hs.nodup3
  have hev : Even (e.length + s.length) := hs.parity H.he.nodup (by simpa using H.he.even true pt)
  obtain ⟨b1, b2⟩ := h.below (l := l) (r := e ++ u) (by simp)
  -- what is to be shown about the new cells
  suffices hmain : ∀ par' reg', (∀ c, c ∉ s → reg' c = reg c) →
      (∀ l1 c u1, s = l1 ++ c :: u1 → ((reg' c).isSome = true ↔ ((l.getLast?.bind reg).isSome = true ↔ Odd l1.length))) →
      (∀ c ∈ s, ∀ x, reg' c = some x → Ext isHole n x) →
      (∀ c ∈ input, (geom c).first ≤ pt → isHole (ringOf c) = true → Ext isHole n (par' (ringOf c))) →
      ParInv geom input ringOf isHole n pt (l ++ s ++ u) par' reg' by
    have hstart : ∀ c ∈ input, (geom c).first ≤ pt → (geom c).first ≤ pos ∨ c ∈ s := by
      intro c hc hle
      rcases hs.first c hc with k | k
      · exact .inl k
      · exact .inr ((hs.starts c).2 ⟨hc, le_antisymm hle k⟩)
    obtain ⟨j1, j2, j3, j4⟩ := visit_ok (isHole := isHole) (ringOf := ringOf) (n := n) s
      (fun k => ∃ d ∈ input, (geom d).first ≤ pos ∧ ringOf d = k) (l.getLast?.bind reg) par reg n3 b2
      (by rintro k ⟨d, hd, hd1, rfl⟩ hh; exact h.hol d hd hd1 hh) (fun l1 c u1 hS hh => by
        by_cases hT : ∃ d ∈ input, (geom d).first ≤ pos ∧ ringOf d = ringOf c
        · exact .inl hT
        by_cases hT1 : ∃ d ∈ l1, ringOf d = ringOf c
        · exact .inr (.inl hT1)
        push Not at hT hT1
        refine .inr (.inr ?_)
        have := (hs.first_low H hS (fun d hd hr hle => hT d hd hle hr) hT1).2.1 hh
        rw [List.length_append, Nat.odd_add] at this
        rw [b1, this]) (fun c hc => H.bound c ((hs.starts c).1 hc).1)
    refine hmain _ _ j1 j2 j3 ?_
    intro c hc hle hh
    rcases hstart c hc hle with k | k
    · exact j4 _ (.inl ⟨c, hc, k, rfl⟩) hh
    · exact j4 _ (.inr ⟨c, k, rfl⟩) hh
  intro par' reg' k1 k2 k3 k4
  refine ⟨?_, ?_, k4⟩
  · intro l1 c u1 hcol
    rcases split_append hcol with ⟨r', hcol, -⟩ | ⟨l', rfl, hU⟩
    · rcases split_append hcol with ⟨r', hL, -⟩ | ⟨l', rfl, hS'⟩
      · rw [k1 c (n5 c (by rw [hL]; simp))]
        exact h.pty l1 c (r' ++ e ++ u) (by rw [hL]; simp)
      · rw [k2 l' c r' hS', b1, List.length_append, Nat.even_add, ← Nat.not_odd_iff_even, ← Nat.not_odd_iff_even]
        tauto
    · rw [k1 c (n6 c (by rw [hU]; simp)), h.pty (l ++ e ++ l') c u1 (by rw [hU]; simp)]
      simp only [List.length_append, Nat.even_add] at hev ⊢
      tauto
  · intro c hc x hx
    by_cases hcs : c ∈ s
    · exact k3 c hcs x hx
    · rw [k1 c hcs] at hx
      refine h.ext c ?_ x hx
      simp only [List.mem_append] at hc ⊢
      tauto

end GeoCrossings

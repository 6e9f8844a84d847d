import Verif.Lemmas.MonoEdges
import Mathlib.Data.List.Count
import Mathlib.Data.List.Nodup

/-!
# How many edges are below an edge

For a set of edges that form closed rings and meet in common ends only, the number of edges below an edge has the same parity at its
left and at its right end, and changes in a known way from an edge to the next around a vertex.
-/
set_option linter.unusedSectionVars false
namespace GeoCrossings.Monotone
open Spec

variable {K : Type} [Field K] [LinearOrder K] [IsStrictOrderedRing K]

instance (p1 q1 p2 q2 : Pt K) : Decidable (GeoCrossings.Lt p1 q1 p2 q2) := by unfold GeoCrossings.Lt; infer_instance
instance (e f : Sg K) : Decidable (e.Lt f) := by unfold Sg.Lt; infer_instance

/-- Two edges meet in common ends only. -/
def Meet (e f : Sg K) : Prop := ∀ x, OnSeg e.1 e.2 x → OnSeg f.1 f.2 x → EndOf e x ∧ EndOf f x

theorem Meet.symm {e f : Sg K} (h : Meet e f) : Meet f e := fun x h1 h2 => (h x h2 h1).symm

/-- `f` and `e` have a column in common, and `f` is below. -/
def Under (e f : Sg K) : Prop := e.1 < f.2 ∧ f.1 < e.2 ∧ f.Lt e

theorem Sg.lt_irrefl {e : Sg K} (h : e.1 < e.2) : ¬ e.Lt e := fun h' => GeoCrossings.lt_asymm h h h' h'

theorem Meet.apart {e f : Sg K} (h : Meet e f) (h1 : e.1 < f.2) (h2 : f.1 < e.2) {x : Pt K} (hx : x ≤ e.2) (_ : x ≤ f.2) : e.Apart x f := by
  intro r hr m1 m2
  obtain ⟨e1 | e1, e2 | e2⟩ := h r m1 m2
  · exact .inl ⟨e1, e2⟩
  · exact absurd (e1.symm.trans e2) h1.ne
  · exact absurd (e2.symm.trans e1) h2.ne
  · exact .inr ⟨le_antisymm hr (e1 ▸ hx), e1, e2⟩

theorem under_left {e f : Sg K} (we : e.1 < e.2) (wf : f.1 < f.2) (h : Meet e f) :
    (Passes e.1 f ∨ (f.1 = e.1 ∧ f.Lt e) ∨ (e.1 < f.1 ∧ f.1 < e.2 ∧ det e.1 e.2 f.1 < 0)) ↔ Under e f := by
  constructor
  · rintro (⟨h1, h2, h3⟩ | ⟨h1, h2⟩ | ⟨h1, h2, h3⟩)
    · exact ⟨h2, h1.trans we, (lt_right_iff h1.le).2 (.inl h3)⟩
    · exact ⟨h1 ▸ wf, h1 ▸ we, h2⟩
    · exact ⟨h1.trans wf, h2, (lt_left_iff h1.le).2 (.inl h3)⟩
  · rintro ⟨h1, h2, h3⟩
    have h3' : GeoCrossings.Lt f.1 f.2 e.1 e.2 := h3
    rcases lt_trichotomy f.1 e.1 with hl | hl | hl
    · refine .inl ⟨hl, h1, ?_⟩
      rcases (lt_right_iff hl.le).1 h3' with h4 | ⟨h4, -⟩
      · exact h4
      · rcases (h e.1 ((onSeg_iff we).2 ⟨det_left _ _, le_rfl, we.le⟩) ((onSeg_iff wf).2 ⟨h4, hl.le, h1.le⟩)).2 with k | k
        · exact absurd k hl.ne'
        · exact absurd k h1.ne
    · exact .inr (.inl ⟨hl, h3⟩)
    · refine .inr (.inr ⟨hl, h2, ?_⟩)
      rcases (lt_left_iff hl.le).1 h3' with h4 | ⟨h4, -⟩
      · exact h4
      · rcases (h f.1 ((onSeg_iff we).2 ⟨h4, hl.le, h2.le⟩) ((onSeg_iff wf).2 ⟨det_left _ _, le_rfl, wf.le⟩)).1 with k | k
        · exact absurd k hl.ne'
        · exact absurd k h2.ne

theorem under_right {e f : Sg K} (we : e.1 < e.2) (wf : f.1 < f.2) (h : Meet e f) :
    (Passes e.2 f ∨ (f.2 = e.2 ∧ f.Lt e) ∨ (e.1 < f.2 ∧ f.2 < e.2 ∧ det e.1 e.2 f.2 < 0)) ↔ Under e f := by
  constructor
  · rintro (⟨h1, h2, h3⟩ | ⟨h1, h2⟩ | ⟨h1, h2, h3⟩)
    · refine ⟨we.trans h2, h1, ?_⟩
      rcases lt_trichotomy' wf we with k | ⟨-, k⟩ | k
      · exact k
      · rw [k] at h3; exact absurd h3 (lt_irrefl _)
      · have := (mono we wf k (h.apart (we.trans h2) h1 le_rfl h2.le) we.le le_rfl h1.le h2.le).2 (det_right _ _)
        exact absurd h3 (not_lt.2 this)
    · exact ⟨h1 ▸ we, h1 ▸ wf, h2⟩
    · refine ⟨h1, wf.trans h2, ?_⟩
      rcases lt_trichotomy' wf we with k | k | k
      · exact k
      · rw [(collinear_comm wf k).2] at h3; exact absurd h3 (lt_irrefl _)
      · have := (mono we wf k (h.apart h1 (wf.trans h2) h2.le le_rfl) h1.le h2.le wf.le le_rfl).1 h3
        rw [det_right] at this
        exact absurd this (lt_irrefl _)
  · rintro ⟨h1, h2, h3⟩
    have h3' : GeoCrossings.Lt f.1 f.2 e.1 e.2 := h3
    rcases lt_trichotomy f.2 e.2 with hl | hl | hl
    · refine .inr (.inr ⟨h1, hl, ?_⟩)
      have := (mono wf we h3' (h.symm.apart h2 h1 le_rfl hl.le) wf.le le_rfl h1.le hl.le).2 (det_right _ _)
      refine this.lt_of_ne fun h4 => ?_
      rcases (h f.2 ((onSeg_iff we).2 ⟨h4, h1.le, hl.le⟩) ((onSeg_iff wf).2 ⟨det_right _ _, wf.le, le_rfl⟩)).1 with k | k
      · exact absurd k h1.ne'
      · exact absurd k hl.ne
    · exact .inr (.inl ⟨hl, h3⟩)
    · refine .inl ⟨h2, hl, ?_⟩
      have m := mono wf we h3' (h.symm.apart h2 h1 hl.le le_rfl) h2.le hl.le we.le le_rfl
      rcases lt_trichotomy (det f.1 f.2 e.2) 0 with h4 | h4 | h4
      · have := m.1 h4
        rw [det_right] at this
        exact absurd this (lt_irrefl _)
      · rcases (h e.2 ((onSeg_iff we).2 ⟨det_right _ _, we.le, le_rfl⟩) ((onSeg_iff wf).2 ⟨h4, h2.le, hl.le⟩)).2 with k | k
        · exact absurd k h2.ne'
        · exact absurd k hl.ne
      · exact h4

/-! ## Counting -/

theorem countP_three {α : Type _} (p q r : α → Prop) [DecidablePred p] [DecidablePred q] [DecidablePred r] (l : List α)
    (h1 : ∀ a ∈ l, p a → ¬ q a) (h2 : ∀ a ∈ l, p a → ¬ r a) (h3 : ∀ a ∈ l, q a → ¬ r a) :
    l.countP (fun a => p a ∨ q a ∨ r a) = l.countP p + l.countP q + l.countP r := by
  induction l with
  | nil => rfl
  | cons a l ih =>
    have := ih (fun b hb => h1 b (by simp [hb])) (fun b hb => h2 b (by simp [hb])) (fun b hb => h3 b (by simp [hb]))
    have k1 := h1 a (by simp)
    have k2 := h2 a (by simp)
    have k3 := h3 a (by simp)
    rw [List.countP_cons, List.countP_cons, List.countP_cons, List.countP_cons, this]
    by_cases hp : p a <;> by_cases hq : q a <;> by_cases hr : r a <;> simp [hp, hq, hr] at k1 k2 k3 ⊢ <;> omega

theorem countP_one {α : Type _} [DecidableEq α] (p : α → Prop) [DecidablePred p] {l : List α} (hn : l.Nodup) {a : α} (ha : a ∈ l)
    (h : ∀ b ∈ l, p b → b = a) : l.countP p = if p a then 1 else 0 := by
  by_cases hp : p a
  · rw [if_pos hp, ← List.count_eq_one_of_mem hn ha, List.count]
    refine List.countP_congr fun b hb => ?_
    constructor
    · intro hb'; simpa using h b hb (of_decide_eq_true hb')
    · intro hb'
      have : b = a := by simpa using hb'
      subst this; exact decide_eq_true hp
  · rw [if_neg hp, List.countP_eq_zero]
    intro b hb hb'
    have hb'' := of_decide_eq_true hb'
    exact hp (h b hb hb'' ▸ hb'')

/-- Edges, from their left to their right ends, that meet in common ends only. -/
structure Plane (M : List (Sg K)) : Prop where
  lt : ∀ e ∈ M, e.1 < e.2
  meet : ∀ e ∈ M, ∀ f ∈ M, e ≠ f → Meet e f
  even : ∀ P : Pt K → Prop, [DecidablePred P] → Even (M.countP (fun e => P e.1) + M.countP (fun e => P e.2))

/-- The edges below `x`; below `e` at its left end; at its right end. -/
def below (M : List (Sg K)) (x : Pt K) : Nat := M.countP fun f => Passes x f
def lowL (M : List (Sg K)) (e : Sg K) : Nat := below M e.1 + M.countP fun f => f.1 = e.1 ∧ f.Lt e
def lowR (M : List (Sg K)) (e : Sg K) : Nat := below M e.2 + M.countP fun f => f.2 = e.2 ∧ f.Lt e

variable {M : List (Sg K)}

theorem Plane.along (h : Plane M) {e : Sg K} (he : e ∈ M) : Even (lowL M e + lowR M e) := by
  have we := h.lt e he
  have h1 := countP_three (fun f => Passes e.1 f) (fun f => f.1 = e.1 ∧ f.Lt e) (fun f => e.1 < f.1 ∧ f.1 < e.2 ∧ det e.1 e.2 f.1 < 0) M
    (fun f _ a b => a.1.ne b.1) (fun f _ a b => _root_.lt_asymm a.1 b.1) (fun f _ a b => b.1.ne' a.1)
  have h2 := countP_three (fun f => Passes e.2 f) (fun f => f.2 = e.2 ∧ f.Lt e) (fun f => e.1 < f.2 ∧ f.2 < e.2 ∧ det e.1 e.2 f.2 < 0) M
    (fun f _ a b => a.2.1.ne' b.1) (fun f _ a b => _root_.lt_asymm a.2.1 b.2.1) (fun f _ a b => b.2.1.ne a.1)
  have h3 : M.countP (fun f => Passes e.1 f ∨ (f.1 = e.1 ∧ f.Lt e) ∨ (e.1 < f.1 ∧ f.1 < e.2 ∧ det e.1 e.2 f.1 < 0)) =
      M.countP (fun f => Passes e.2 f ∨ (f.2 = e.2 ∧ f.Lt e) ∨ (e.1 < f.2 ∧ f.2 < e.2 ∧ det e.1 e.2 f.2 < 0)) := by
    refine List.countP_congr fun f hf => ?_
    simp only [decide_eq_true_eq]
    by_cases hfe : f = e
    · subst hfe
      have := Sg.lt_irrefl we
      refine iff_of_false ?_ ?_
      · rintro (a | a | a)
        · exact lt_irrefl _ a.1
        · exact this a.2
        · exact lt_irrefl _ a.1
      · rintro (a | a | a)
        · exact lt_irrefl _ a.2.1
        · exact this a.2
        · exact lt_irrefl _ a.2.1
    · have m := h.meet e he f hf (Ne.symm hfe)
      exact (under_left we (h.lt f hf) m).trans (under_right we (h.lt f hf) m).symm
  have h4 := h.even fun z => e.1 < z ∧ z < e.2 ∧ det e.1 e.2 z < 0
  unfold lowL lowR below
  rw [h1, h2] at h3
  obtain ⟨c, hc⟩ := h4
  refine ⟨below M e.1 + (M.countP fun f => f.1 = e.1 ∧ f.Lt e) + (M.countP fun f => e.1 < f.1 ∧ f.1 < e.2 ∧ det e.1 e.2 f.1 < 0) - c, ?_⟩
  unfold below
  omega

section vertex
variable {e e' : Sg K}

theorem Plane.at_rl (h : Plane M) (he : e ∈ M) (he' : e' ∈ M) (hv : e.2 = e'.1) (ho : ∀ g ∈ M, EndOf g e.2 → g = e ∨ g = e') :
    lowR M e = lowL M e' := by
  have a : M.countP (fun f => f.2 = e.2 ∧ f.Lt e) = 0 := by
    rw [List.countP_eq_zero]
    intro f hf hc
    obtain ⟨h1, h2⟩ := of_decide_eq_true hc
    rcases ho f hf (.inr h1.symm) with rfl | rfl
    · exact Sg.lt_irrefl (h.lt _ hf) h2
    · have := h.lt f hf
      rw [h1, hv] at this
      exact lt_irrefl _ this
  have b : M.countP (fun f => f.1 = e'.1 ∧ f.Lt e') = 0 := by
    rw [List.countP_eq_zero]
    intro f hf hc
    obtain ⟨h1, h2⟩ := of_decide_eq_true hc
    rcases ho f hf (.inl (hv.trans h1.symm)) with rfl | rfl
    · have := h.lt f hf
      rw [h1, ← hv] at this
      exact lt_irrefl _ this
    · exact Sg.lt_irrefl (h.lt _ hf) h2
  unfold lowR lowL
  rw [a, b, hv]

theorem det_trans3 {a b c x : Pt K} (w : a < b) (h1 : det a b x = 0) (h2 : det a b c = 0) : det a c x = 0 := by
  have := (collinear_comm w ⟨h2, h1⟩).1
  rwa [det_rot] at this

theorem Meet.det_ll (we : e.1 < e.2) (we' : e'.1 < e'.2) (hm : Meet e e') (hv : e.1 = e'.1) : det e.1 e.2 e'.2 ≠ 0 := by
  intro h0
  have mid : ∀ {g : Sg K}, g.1 < g.2 → ∃ x, OnSeg g.1 g.2 x ∧ ¬ EndOf g x := by
    intro g li
    refine ⟨⟨(g.1.x + g.2.x) / 2, (g.1.y + g.2.y) / 2⟩, ⟨1 / 2, by norm_num, by norm_num, by simp; ring, by simp; ring⟩, ?_⟩
    rintro (e2 | e2) <;>
    · have ex := congrArg Pt.x e2
      have ey := congrArg Pt.y e2
      simp only at ex ey
      rcases li with k | ⟨k, k'⟩ <;> linarith
  rcases le_total e'.2 e.2 with hle | hle
  · obtain ⟨x, h1, h2⟩ := mid we'
    refine h2 (hm x ?_ h1).2
    obtain ⟨a, b, c⟩ := (onSeg_iff we').1 h1
    refine (onSeg_iff we).2 ⟨?_, hv ▸ b, c.trans hle⟩
    rw [hv, det_swap] at h0
    have h0' : det e'.1 e'.2 e.2 = 0 := by linarith
    rw [hv]
    exact det_trans3 we' a h0'
  · obtain ⟨x, h1, h2⟩ := mid we
    refine h2 (hm x h1 ?_).1
    obtain ⟨a, b, c⟩ := (onSeg_iff we).1 h1
    refine (onSeg_iff we').2 ⟨?_, hv ▸ b, c.trans hle⟩
    rw [← hv]
    exact det_trans3 we a h0

theorem Plane.at_ll (h : Plane M) (hn : M.Nodup) (he : e ∈ M) (he' : e' ∈ M) (hne : e ≠ e') (hv : e.1 = e'.1)
    (ho : ∀ g ∈ M, EndOf g e.1 → g = e ∨ g = e') :
    lowL M e + lowL M e' = 2 * below M e.1 + 1 := by
  have we := h.lt e he
  have we' := h.lt e' he'
  have a : M.countP (fun f => f.1 = e.1 ∧ f.Lt e) = if e'.Lt e then 1 else 0 := by
    rw [countP_one _ hn he' (fun f hf hc => by
      rcases ho f hf (.inl hc.1.symm) with rfl | rfl
      · exact absurd hc.2 (Sg.lt_irrefl we)
      · rfl)]
    simp [hv]
  have b : M.countP (fun f => f.1 = e'.1 ∧ f.Lt e') = if e.Lt e' then 1 else 0 := by
    rw [countP_one _ hn he (fun f hf hc => by
      rcases ho f hf (.inl (hv.trans hc.1.symm)) with rfl | rfl
      · rfl
      · exact absurd hc.2 (Sg.lt_irrefl we'))]
    simp [hv]
  have hx : (e.Lt e' ∧ ¬ e'.Lt e) ∨ (e'.Lt e ∧ ¬ e.Lt e') := by
    rcases lt_trichotomy' we we' with k | ⟨-, k⟩ | k
    · exact .inl ⟨k, GeoCrossings.lt_asymm we we' k⟩
    · exact absurd k ((h.meet e he e' he' hne).det_ll we we' hv)
    · exact .inr ⟨k, GeoCrossings.lt_asymm we' we k⟩
  unfold lowL
  rw [a, b, ← hv]
  rcases hx with ⟨k1, k2⟩ | ⟨k1, k2⟩
  · rw [if_neg k2, if_pos k1]; omega
  · rw [if_pos k1, if_neg k2]; omega

theorem Plane.at_rr (h : Plane M) (hn : M.Nodup) (he : e ∈ M) (he' : e' ∈ M) (hne : e ≠ e') (hv : e.2 = e'.2)
    (ho : ∀ g ∈ M, EndOf g e.2 → g = e ∨ g = e') :
    lowR M e + lowR M e' = 2 * below M e.2 + 1 := by
  have we := h.lt e he
  have we' := h.lt e' he'
  have a : M.countP (fun f => f.2 = e.2 ∧ f.Lt e) = if e'.Lt e then 1 else 0 := by
    rw [countP_one _ hn he' (fun f hf hc => by
      rcases ho f hf (.inr hc.1.symm) with rfl | rfl
      · exact absurd hc.2 (Sg.lt_irrefl we)
      · rfl)]
    simp [hv]
  have b : M.countP (fun f => f.2 = e'.2 ∧ f.Lt e') = if e.Lt e' then 1 else 0 := by
    rw [countP_one _ hn he (fun f hf hc => by
      rcases ho f hf (.inr (hv.trans hc.1.symm)) with rfl | rfl
      · rfl
      · exact absurd hc.2 (Sg.lt_irrefl we'))]
    simp [hv]
  have hx : (e.Lt e' ∧ ¬ e'.Lt e) ∨ (e'.Lt e ∧ ¬ e.Lt e') := by
    rcases lt_trichotomy' we we' with k | ⟨k1, k2⟩ | k
    · exact .inl ⟨k, GeoCrossings.lt_asymm we we' k⟩
    · have m := h.meet e he e' he' hne
      exfalso
      rcases le_total e'.1 e.1 with hle | hle
      · have k3 := (collinear_comm we ⟨k1, k2⟩).1
        rcases (m e.1 ((onSeg_iff we).2 ⟨det_left _ _, le_rfl, we.le⟩) ((onSeg_iff we').2 ⟨k3, hle, hv ▸ we.le⟩)).2 with q | q
        · exact hne (Prod.ext q hv)
        · rw [← hv] at q; exact we.ne q
      · rcases (m e'.1 ((onSeg_iff we).2 ⟨k1, hle, hv ▸ we'.le⟩) ((onSeg_iff we').2 ⟨det_left _ _, le_rfl, we'.le⟩)).1 with q | q
        · exact hne (Prod.ext q.symm hv)
        · rw [hv] at q; exact we'.ne q
    · exact .inr ⟨k, GeoCrossings.lt_asymm we' we k⟩
  unfold lowR
  rw [a, b, ← hv]
  rcases hx with ⟨k1, k2⟩ | ⟨k1, k2⟩
  · rw [if_neg k2, if_pos k1]; omega
  · rw [if_pos k1, if_neg k2]; omega

end vertex
end GeoCrossings.Monotone

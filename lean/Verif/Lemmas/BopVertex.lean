import Verif.Lemmas.BopDegree

/-! # The windings of the edges that a run of `Op::sweep` adds, around a vertex -/
set_option linter.unusedSectionVars false
namespace GeoCrossings
open Spec BoolOp

variable {K : Type} [Field K] [LinearOrder K] [IsStrictOrderedRing K]
variable {ty : OpType} {geom : Nat → LineOrPoint K} {isFirst : Nat → Bool} {org : Nat → Pt K} {input : List Nat}

/-- Windings that alternate; the first is that of an edge with the region below it (`true`) or above it. -/
def Alt : Bool → List Winding → Prop
  | _, [] => True
  | b, w :: l => w = (if b then .clockwise else .counterClockwise) ∧ Alt (!b) l

theorem Alt.append {b : Bool} {l m : List Winding} (h : Alt b l) (h' : Alt (if l.length % 2 = 1 then !b else b) m) : Alt b (l ++ m) := by
  induction l generalizing b with
  | nil => simpa using h'
  | cons w l ih =>
    refine ⟨h.1, ih h.2 ?_⟩
    have e : (if l.length % 2 = 1 then !!b else !b) = if (w :: l).length % 2 = 1 then !b else b := by
      rw [List.length_cons]
      rcases Nat.mod_two_eq_zero_or_one l.length with k | k
      · rw [if_neg (by omega), if_pos (by omega)]
      · rw [if_pos k, if_neg (by omega)]; simp
    rw [e]; exact h'

theorem emits_alt (l : List (Grp K Nat)) : ∀ R, Alt (R.isTy ty) ((emits ty isFirst R l).map (·.2)).reverse := by
  induction l with
  | nil => intro R; trivial
  | cons g l ih =>
    intro R
    simp only [emits, List.map_append, List.reverse_append]
    have ih := ih (crossAll isFirst R g.cs)
    unfold emit
    generalize (crossAll isFirst R g.cs).isTy ty = y at ih ⊢
    generalize R.isTy ty = x at ih ⊢
    cases x <;> cases y <;> simp_all [Alt]

/-- `e'` is `e`, possibly cut on the right. -/
def Cutt (e e' : LineOrPoint K × Winding) : Prop := e'.2 = e.2 ∧ Sg.Shr (e.1.first, e.1.second) (e'.1.first, e'.1.second)

theorem Cutt.trans {a b c : LineOrPoint K × Winding} (h : Cutt a b) (h' : Cutt b c) : Cutt a c := ⟨h'.1.trans h.1, h.2.trans h'.2⟩
theorem Cutt.refl (a : LineOrPoint K × Winding) : Cutt a a := ⟨rfl, .refl _⟩
theorem Cutt.first {a b : LineOrPoint K × Winding} (h : Cutt a b) : b.1.first = a.1.first := h.2.1

theorem Cutt.det {a b : LineOrPoint K × Winding} (h : Cutt a b) : ∃ t : K, 0 < t ∧
    (∀ x, det b.1.first b.1.second x = t * det a.1.first a.1.second x) ∧ (∀ x, det b.1.first x b.1.second = t * det a.1.first x a.1.second) := by
  have h2 := h.2
  rw [h.first] at h2
  rw [h.first]
  exact shr_det h2

theorem forall₂_app_left {α β : Type _} {R : α → β → Prop} {a b : List α} : ∀ {l : List β}, List.Forall₂ R (a ++ b) l →
    ∃ l1 l2, l = l1 ++ l2 ∧ List.Forall₂ R a l1 ∧ List.Forall₂ R b l2 := by
  induction a with
  | nil => intro l h; exact ⟨[], l, rfl, .nil, h⟩
  | cons x a ih =>
    intro l h
    cases h with
    | cons h1 h2 =>
      obtain ⟨l1, l2, rfl, h3, h4⟩ := ih h2
      exact ⟨_ :: l1, l2, rfl, .cons h1 h3, h4⟩

theorem forall₂_app {α β : Type _} {R : α → β → Prop} {a b : List α} {c d : List β} (h : List.Forall₂ R a c) (h' : List.Forall₂ R b d) :
    List.Forall₂ R (a ++ b) (c ++ d) := by
  induction h with
  | nil => exact h'
  | cons h1 _ ih => exact .cons h1 ih

theorem forall₂_filter {α β : Type _} {R : α → β → Prop} {P : α → Bool} {Q : β → Bool} (hP : ∀ a b, R a b → P a = Q b) {a : List α} {b : List β}
    (h : List.Forall₂ R a b) : List.Forall₂ R (a.filter P) (b.filter Q) := by
  induction h with
  | nil => exact .nil
  | @cons x y _ _ h1 _ ih =>
    rw [List.filter_cons, List.filter_cons, hP x y h1]
    split
    · exact .cons h1 ih
    · exact ih

theorem forall₂_trans' {α : Type _} {R : α → α → Prop} (hR : ∀ a b c, R a b → R b c → R a c) {a b c : List α} (h : List.Forall₂ R a b) :
    List.Forall₂ R b c → List.Forall₂ R a c := by
  induction h generalizing c with
  | nil => intro h; exact h
  | cons h1 _ ih =>
    intro h
    cases h with
    | cons h3 h4 => exact .cons (hR _ _ _ h1 h3) (ih h4)

theorem emits_cut {l l' : List (Grp K Nat)} (h : List.Forall₂ Same l l') :
    ∀ R, List.Forall₂ Cutt (emits ty isFirst R l) (emits ty isFirst R l') := by
  induction h with
  | nil => intro R; exact .nil
  | @cons g g' _ _ h1 _ ih =>
    intro R
    simp only [emits]
    rw [h1.cs]
    refine forall₂_app (ih _) ?_
    unfold emit
    split
    · exact .cons ⟨rfl, h1.2⟩ .nil
    · exact .nil

theorem cutt_windings {a b : List (LineOrPoint K × Winding)} (h : List.Forall₂ Cutt a b) : b.map (·.2) = a.map (·.2) := by
  induction h with
  | nil => rfl
  | cons h1 _ ih => rw [List.map_cons, List.map_cons, ih, h1.1]

/-- The edges still to be added that start at or before `v` are those that separate the active groups, possibly cut. -/
theorem Trace.match {pos : Pt K} {st X es} (he : EdgesOk geom isFirst input) (h : Trace ty geom isFirst org input pos st X es) (v : Pt K) :
    v ≤ pos → ∃ l, l.Perm (es.filter fun e => e.1.first ≤ v) ∧
      List.Forall₂ Cutt ((emits ty isFirst (Region.infinity ty) X.A).filter fun e => e.1.first ≤ v) l := by
  have hcf : ∀ a b : LineOrPoint K × Winding, Cutt a b → decide (a.1.first ≤ v) = decide (b.1.first ≤ v) := by
    intro a b hab; rw [hab.first]
  induction h with
  | @done pos st X hF hE =>
    intro _
    have hA : X.A = [] := by
      rw [List.eq_nil_iff_forall_not_mem]
      intro g hg
      have := hF.inv.core.evR g (by simp [hg])
      rw [hE] at this; cases this
    rw [hA]; exact ⟨[], .refl _, .nil⟩
  | @step pos pt st st' X X' out L0 E0 U0 L E U S D1 T es hF hgt hpt hmin hne h' hgt' hs ht ih =>
    intro hv
    obtain ⟨l', p1, p2⟩ := ih (hv.trans hpt.le)
    rw [hs.after] at p2
    simp only [emits_app, List.flatMap_append, crossAll_append, List.filter_append] at p2
    rw [filter_nil' (l := emits ty isFirst _ S), List.nil_append] at p2
    · obtain ⟨lU, lL, rfl, q1, q2⟩ := forall₂_app_left p2
      refine ⟨lU ++ ((emits ty isFirst (crossAll isFirst (Region.infinity ty) (L.flatMap Grp.cs)) E).filter fun e => decide (e.1.first ≤ v)) ++ lL, ?_, ?_⟩
      · rw [List.filter_append]
        refine List.Perm.trans ?_ (p1.append_left _)
        rw [List.append_assoc, ← List.append_assoc _ lU lL]
        rw [← List.append_assoc lU]
        exact List.perm_append_comm.append_right _
      · rw [hs.before]
        simp only [emits_app, List.flatMap_append, crossAll_append, List.filter_append]
        rw [List.append_assoc]
        refine forall₂_app ?_ (forall₂_app ?_ ?_)
        · refine forall₂_trans' (R := Cutt) (fun _ _ _ h h' => Cutt.trans h h') (forall₂_filter hcf (emits_cut hs.sU _)) ?_
          have := shape_even he hF hpt h' hgt' hs
          rw [← crossAll_even _ this, same_cs hs.sE, same_cs hs.sL] at q1
          exact q1
        · rw [same_cs hs.sL]
          exact forall₂_filter hcf (emits_cut hs.sE _)
        · exact forall₂_trans' (R := Cutt) (fun _ _ _ h h' => Cutt.trans h h') (forall₂_filter hcf (emits_cut hs.sL _)) q2
    · intro e he k
      obtain ⟨g, hg, e1⟩ := mem_emits he
      have k := of_decide_eq_true k
      rw [e1] at k
      have k : g.p ≤ v := k
      rw [(hs.startS g hg).2] at k
      exact absurd (hv.trans_lt hpt) (not_lt.2 k)

/-- The windings at a vertex: from the bottom up those of the edges that end there alternate, and so do those of the edges that start there, and the
first of them tells if the region is below the vertex. -/
def VertexOk (em : List (LineOrPoint K × Winding)) (v : Pt K) : Prop :=
  ∃ (b : Bool) (S : List (LineOrPoint K × Winding)), S.Perm (em.filter fun e => e.1.first = v) ∧ S.Pairwise (fun a b => 0 < det v a.1.second b.1.second) ∧ Alt b (S.map (·.2)) ∧
    Alt b ((em.filter fun e => e.1.second = v).map (·.2)).reverse ∧
    ((∃ e ∈ em, e.1.first = v ∨ e.1.second = v) → (b = true ↔ em.countP (edgeUnder v) % 2 = 1))

theorem under_iff' {r a b : Pt K} (_hab : a < b) : Under r a b ↔ a ≤ r ∧ r < b ∧ 0 < det a b r := by
  constructor
  · rintro ⟨h1, h2, h3⟩
    refine ⟨?_, .inl h2, h3⟩
    rcases h1.lt_or_eq with k | k
    · exact .inl k
    · refine .inr ⟨k, ?_⟩
      have e : det a b r = (b.x - a.x) * (r.y - a.y) := by unfold det; rw [k]; ring
      rw [e] at h3
      by_contra k'
      have := mul_nonneg (show 0 ≤ b.x - a.x by linarith) (show 0 ≤ a.y - r.y by linarith)
      linarith
  · rintro ⟨h1, h2, h3⟩
    have hx := Pt.x_le_of_le h1
    refine ⟨hx, ?_, h3⟩
    rcases h2 with k | ⟨k, k'⟩
    · exact k
    · exfalso
      have e : det a b r = (b.x - a.x) * (r.y - b.y) := by unfold det; rw [k]; ring
      rw [e] at h3
      have := mul_nonneg (show 0 ≤ b.x - a.x by linarith) (show 0 ≤ b.y - r.y by linarith)
      linarith

theorem VertexOk.none {em : List (LineOrPoint K × Winding)} {v : Pt K} (h : ∀ e ∈ em, e.1.first ≠ v ∧ e.1.second ≠ v) : VertexOk em v := by
  refine ⟨true, [], ?_, .nil, trivial, ?_, ?_⟩
  · rw [filter_nil']
    intro e he k
    exact (h e he).1 (of_decide_eq_true k)
  · rw [filter_nil']
    · trivial
    · intro e he k
      exact (h e he).2 (of_decide_eq_true k)
  · rintro ⟨e, he, k | k⟩
    · exact absurd k (h e he).1
    · exact absurd k (h e he).2

theorem VertexOk.pre {em em0 : List (LineOrPoint K × Winding)} {v : Pt K} (h : VertexOk em v)
    (h0 : ∀ e ∈ em0, e.1.first < e.1.second ∧ e.1.second < v) : VertexOk (em0 ++ em) v := by
  obtain ⟨b, S, h1, h2, h3, h4, h5⟩ := h
  have z1 : em0.filter (fun e => decide (e.1.first = v)) = [] :=
    filter_nil' fun e he k => ((h0 e he).1.trans (h0 e he).2).ne (of_decide_eq_true k)
  have z2 : em0.filter (fun e => decide (e.1.second = v)) = [] :=
    filter_nil' fun e he k => (h0 e he).2.ne (of_decide_eq_true k)
  have z3 : em0.countP (edgeUnder v) = 0 := countP_zero fun e he k => by
    have := ((under_iff' (h0 e he).1).1 (of_decide_eq_true k)).2.1
    exact _root_.lt_asymm this (h0 e he).2
  refine ⟨b, S, by rw [List.filter_append, z1]; exact h1, h2, h3, by rw [List.filter_append, z2]; exact h4, ?_⟩
  rintro ⟨e, he, k⟩
  rw [List.countP_append, z3, Nat.zero_add]
  refine h5 ⟨e, ?_, k⟩
  rcases List.mem_append.1 he with he | he
  · rcases k with k | k
    · exact absurd k ((h0 e he).1.trans (h0 e he).2).ne
    · exact absurd k (h0 e he).2.ne
  · exact he

theorem emits_pairwise {P : LineOrPoint K → LineOrPoint K → Prop} {l : List (Grp K Nat)} (h : l.Pairwise fun a b => P b.geom a.geom) :
    ∀ R, (emits ty isFirst R l).Pairwise fun x y => P x.1 y.1 := by
  induction l with
  | nil => intro R; exact .nil
  | cons g l ih =>
    intro R
    rw [List.pairwise_cons] at h
    simp only [emits]
    rw [List.pairwise_append]
    refine ⟨ih h.2 _, ?_, ?_⟩
    · unfold emit; split
      · exact List.pairwise_singleton _ _
      · exact .nil
    · intro x hx y hy
      obtain ⟨g', h1, h2⟩ := mem_emits hx
      unfold emit at hy
      split at hy
      · rw [List.mem_singleton.1 hy, h2]; exact h.1 g' h1
      · cases hy

theorem forall₂_pairwise {α β : Type _} {R : α → β → Prop} {P : α → α → Prop} {Q : β → β → Prop}
    (hPQ : ∀ a b c d, R a c → R b d → P a b → Q c d) {a : List α} {b : List β} (h : List.Forall₂ R a b) : a.Pairwise P → b.Pairwise Q := by
  induction h with
  | nil => intro _; exact .nil
  | @cons x y l m h1 h2 ih =>
    intro hp
    rw [List.pairwise_cons] at hp ⊢
    refine ⟨?_, ih hp.2⟩
    intro z hz
    obtain ⟨w, hw, k⟩ := forall₂_mem_right' h2 hz
    exact hPQ _ _ _ _ h1 k (hp.1 w hw)

/-- The edges of a run around a vertex that lies ahead. -/
theorem Trace.vertex {pos : Pt K} {st X es} (he : EdgesOk geom isFirst input) (h : Trace ty geom isFirst org input pos st X es) (v : Pt K) :
    (pos < v ∨ X.A = []) → VertexOk es v := by
  induction h with
  | done => intro _; exact .none (by simp)
  | @step pos pt st st' X X' out L0 E0 U0 L E U S D1 T es hF hgt hpt hmin hne h' hgt' hs ht ih =>
    intro h0
    have hT := Trace.step (ty := ty) (isFirst := isFirst) hF hgt hpt hmin hne h' hgt' hs ht
    by_cases hv : v ≤ pos
    · have hA : X.A = [] := by
        rcases h0 with h0 | h0
        · exact absurd h0 (not_lt.2 hv)
        · exact h0
      have h1 := hT.first_active he v hv
      rw [hA] at h1
      have h1 := List.countP_eq_zero.1 h1
      refine .none fun e he => ⟨fun k => h1 e he (decide_eq_true k), fun k => ?_⟩
      have := (hT.second_gt e he).2
      rw [k] at this
      exact absurd this (not_lt.2 hv)
    rw [not_le] at hv
    have hAp : ∀ g ∈ X.A, g.p < v := fun g hg => (hF.inv.core.lineA g hg).2.2.1.trans_lt hv
    have hEp : ∀ g ∈ E, g.p < v := by
      intro g hg
      obtain ⟨g0, h1, h2⟩ := forall₂_mem_right' hs.sE hg
      rw [Same.p h2]
      exact hAp g0 (by rw [hs.before]; simp [h1])
    rcases lt_trichotomy pt v with hlt | rfl | hlt
    · refine (ih (.inl hlt)).pre ?_
      intro e he
      obtain ⟨g, hg, e1⟩ := mem_emits he
      rw [e1]
      show g.p < g.q ∧ g.q < v
      exact ⟨(hs.endE g hg).1.2, by rw [(hs.endE g hg).2]; exact hlt⟩
    · -- the vertex itself
      set RL := crossAll isFirst (Region.infinity ty) (L.flatMap Grp.cs) with hRL
      have eE : ∀ e ∈ emits ty isFirst RL E, e.1.first < pt ∧ e.1.second = pt := by
        intro e he
        obtain ⟨g, hg, e1⟩ := mem_emits he
        rw [e1]
        exact ⟨hEp g hg, (hs.endE g hg).2⟩
      have eS : ∀ R, ∀ e ∈ emits ty isFirst R S, e.1.first = pt ∧ e.1.first < e.1.second := by
        intro R e he
        obtain ⟨g, hg, e1⟩ := mem_emits he
        rw [e1]
        exact ⟨(hs.startS g hg).2, (hs.startS g hg).1.2⟩
      have eL : ∀ R, ∀ e ∈ emits ty isFirst R L, e.1.first < pt ∧ 0 < det e.1.first e.1.second pt := by
        intro R e he
        obtain ⟨g, hg, e1⟩ := mem_emits he
        rw [e1]
        exact ⟨(hs.low g hg).1, (hs.low g hg).2.2⟩
      have eU : ∀ R, ∀ e ∈ emits ty isFirst R U, e.1.first < pt ∧ det e.1.first e.1.second pt < 0 := by
        intro R e he
        obtain ⟨g, hg, e1⟩ := mem_emits he
        rw [e1]
        exact ⟨(hs.up g hg).1, (hs.up g hg).2.2⟩
      obtain ⟨l, p1, p2⟩ := ht.match he pt le_rfl
      rw [hs.after] at p2
      simp only [emits_app, List.flatMap_append, crossAll_append, List.filter_append] at p2
      rw [filter_self' (l := emits ty isFirst _ U) (fun e he => decide_eq_true (eU _ e he).1.le),
        filter_self' (l := emits ty isFirst _ S) (fun e he => decide_eq_true (eS _ e he).1.le),
        filter_self' (l := emits ty isFirst _ L) (fun e he => decide_eq_true (eL _ e he).1.le), ← hRL] at p2
      obtain ⟨lU, l2, rfl, q1, q2⟩ := forall₂_app_left p2
      obtain ⟨lS, lL, rfl, q2, q3⟩ := forall₂_app_left q2
      have wU : ∀ e ∈ lU, e.1.first < pt ∧ det e.1.first e.1.second pt < 0 := by
        intro e he
        obtain ⟨e0, h1, h2⟩ := forall₂_mem_right' q1 he
        obtain ⟨t, t0, d, -⟩ := h2.det
        rw [d pt]
        exact ⟨h2.first ▸ (eU _ e0 h1).1, mul_neg_of_pos_of_neg t0 (eU _ e0 h1).2⟩
      have wL : ∀ e ∈ lL, e.1.first < pt ∧ 0 < det e.1.first e.1.second pt := by
        intro e he
        obtain ⟨e0, h1, h2⟩ := forall₂_mem_right' q3 he
        obtain ⟨t, t0, d, -⟩ := h2.det
        rw [d pt]
        exact ⟨h2.first ▸ (eL _ e0 h1).1, mul_pos t0 (eL _ e0 h1).2⟩
      have wS : ∀ e ∈ lS, e.1.first = pt := by
        intro e he
        obtain ⟨e0, h1, h2⟩ := forall₂_mem_right' q2 he
        rw [h2.first]; exact (eS _ e0 h1).1
      have hlt : ∀ e ∈ es, e.1.first < e.1.second ∧ pt < e.1.second := by
        intro e he
        obtain ⟨⟨a, b, k1, k2⟩, k3⟩ := ht.second_gt e he
        exact ⟨by rw [k1]; exact k2, k3⟩
      refine ⟨RL.isTy ty, lS.reverse, ?_, ?_, ?_, ?_, ?_⟩
      · rw [List.filter_append, filter_nil' (l := emits ty isFirst RL E), List.nil_append]
        · have e1 : es.filter (fun e => decide (e.1.first = pt)) = (es.filter fun e => decide (e.1.first ≤ pt)).filter fun e => decide (e.1.first = pt) := by
            rw [List.filter_filter]
            refine List.filter_congr fun e _ => ?_
            by_cases k : e.1.first = pt
            · simp [k]
            · simp [k]
          have e2 : (lU ++ (lS ++ lL)).filter (fun e => decide (e.1.first = pt)) = lS := by
            rw [List.filter_append, List.filter_append, filter_nil' (l := lU) (fun e he k => (wU e he).1.ne (of_decide_eq_true k)),
              filter_self' (l := lS) (fun e he => decide_eq_true (wS e he)), filter_nil' (l := lL) (fun e he k => (wL e he).1.ne (of_decide_eq_true k))]
            simp
          have := p1.filter fun e => decide (e.1.first = pt)
          rw [e2, ← e1] at this
          exact (List.reverse_perm _).trans this
        · intro e he k
          exact (eE e he).1.ne (of_decide_eq_true k)
      · rw [List.pairwise_reverse]
        have := emits_pairwise (ty := ty) (isFirst := isFirst) (P := fun x y => 0 < det pt y.second x.second) (l := S) (by
          refine hs.ordS.imp_of_mem ?_
          intro a b ha hb hab
          have hab : Lt a.p a.q b.p b.q := hab
          rw [(hs.startS a ha).2, (hs.startS b hb).2, lt_right_iff le_rfl, det_left] at hab
          show 0 < det pt a.q b.q
          simpa using hab) RL
        refine forall₂_pairwise ?_ ((forall₂_imp_mem (S := fun a b => a.1.first = pt ∧ Cutt a b) q2 ?_)) this
        · rintro a b c d ⟨e1, h1⟩ ⟨e2, h2⟩ hp
          obtain ⟨t, t0, d1, d2⟩ := h1.det
          obtain ⟨t', t0', d1', d2'⟩ := h2.det
          have f1 := h1.first
          have f2 := h2.first
          rw [e1] at f1
          rw [e2] at f2
          rw [f1, e1] at d1 d2
          rw [f2, e2] at d1' d2'
          show 0 < det pt d.1.second c.1.second
          rw [d1', d2]
          exact mul_pos t0' (mul_pos t0 hp)
        · intro a ha b hb hab
          exact ⟨(eS _ a ha).1, hab⟩
      · rw [List.map_reverse, cutt_windings q2]
        exact emits_alt S RL
      · rw [List.filter_append, filter_self' (l := emits ty isFirst RL E) (fun e he => decide_eq_true (eE e he).2),
          filter_nil' (l := es) (fun e he k => (hlt e he).2.ne' (of_decide_eq_true k)), List.append_nil]
        exact emits_alt E RL
      · intro _
        have e1 : (emits ty isFirst RL E).countP (edgeUnder pt) = 0 := countP_zero fun e he k => by
          have k := (of_decide_eq_true k : Under _ _ _)
          have := ((under_iff' (by rw [(eE e he).2]; exact (eE e he).1)).1 k).2.1
          rw [(eE e he).2] at this
          exact lt_irrefl _ this
        have e2 : es.countP (edgeUnder pt) = (es.filter fun e => decide (e.1.first ≤ pt)).countP fun e => decide (0 < det e.1.first e.1.second pt) := by
          rw [List.countP_filter]
          refine List.countP_congr fun e he => ?_
          unfold edgeUnder
          rw [decide_eq_true_eq, under_iff' (hlt e he).1]
          have := (hlt e he).2
          simp [this, and_comm]
        have e3 : (lU ++ (lS ++ lL)).countP (fun e => decide (0 < det e.1.first e.1.second pt)) = lL.length := by
          rw [List.countP_append, List.countP_append, countP_zero (l := lU) (fun e he k => _root_.lt_asymm (of_decide_eq_true k : (0:K) < _) (wU e he).2),
            countP_zero (l := lS), (List.countP_eq_length (l := lL)).2]
          · simp
          · exact fun e he => decide_eq_true (wL e he).2
          · intro e he k
            have k := (of_decide_eq_true k : (0:K) < _)
            rw [wS e he] at k
            have : det pt e.1.second pt = 0 := by unfold det; ring
            rw [this] at k
            exact lt_irrefl _ k
        rw [List.countP_append, e1, Nat.zero_add, e2, ← p1.countP_eq, e3, ← q3.length_eq, emits_len, isTy_infinity, Bool.false_xor]
    · -- the vertex is passed over
      have h1 := ht.first_active he v hlt.le
      refine .none fun e he => ?_
      rcases List.mem_append.1 he with he | he
      · obtain ⟨g, hg, e1⟩ := mem_emits he
        rw [e1]
        exact ⟨(hEp g hg).ne, fun k => hlt.ne' ((hs.endE g hg).2.symm.trans k)⟩
      · constructor
        · rw [countP_zero (l := emits ty isFirst _ X'.A)] at h1
          · exact fun k => List.countP_eq_zero.1 h1 e he (decide_eq_true k)
          · intro e he k
            obtain ⟨g, hg, e1⟩ := mem_emits he
            have k := of_decide_eq_true k
            rw [e1] at k
            have k : g.p = v := k
            rw [hs.after] at hg
            simp only [List.mem_append] at hg
            rcases hg with (hg | hg) | hg
            · obtain ⟨g0, h1, h2⟩ := forall₂_mem_right' hs.sL hg
              rw [Same.p h2] at k
              exact (hAp g0 (by rw [hs.before]; simp [h1])).ne k
            · rw [(hs.startS g hg).2] at k
              exact hlt.ne' k
            · obtain ⟨g0, h1, h2⟩ := forall₂_mem_right' hs.sU hg
              rw [Same.p h2] at k
              exact (hAp g0 (by rw [hs.before]; simp [h1])).ne k
        · intro k
          have := (ht.second_gt e he).2
          rw [k] at this
          exact _root_.lt_asymm this hlt

/-- Right ends come in order. -/
theorem Trace.sorted {pos : Pt K} {st X es} (h : Trace ty geom isFirst org input pos st X es) :
    es.Pairwise fun a b => a.1.second ≤ b.1.second := by
  induction h with
  | done => exact .nil
  | @step pos pt st st' X X' out L0 E0 U0 L E U S D1 T es hF hgt hpt hmin hne h' hgt' hs ht ih =>
    have eE : ∀ R, ∀ e ∈ emits ty isFirst R E, e.1.second = pt := by
      intro R e he
      obtain ⟨g, hg, e1⟩ := mem_emits he
      rw [e1]
      exact (hs.endE g hg).2
    rw [List.pairwise_append]
    refine ⟨?_, ih, ?_⟩
    · refine List.pairwise_of_forall_mem_list fun a ha b hb => ?_
      rw [eE _ a ha, eE _ b hb]
    · intro a ha b hb
      rw [eE _ a ha]
      exact (ht.second_gt b hb).2.le

end GeoCrossings

import Verif.Props.MonoSize

/-!
# How many pieces `monotone_chains` makes (C95)
-/
set_option linter.unusedSectionVars false
namespace GeoCrossings.Monotone
open Spec

variable {K : Type} [Field K] [LinearOrder K] [IsStrictOrderedRing K]

/-- The rings turn around at the start of the side, from left to right: the side leads to the right, and the one before it to the left. -/
def TurnsAt (rings : List (List (Pt K))) (e : Sg K) : Prop :=
  e.1 < e.2 ∧ ∃ e' ∈ rings.flatMap ringEdges, e'.2 = e.1 ∧ e.1 < e'.1

instance (rings : List (List (Pt K))) : DecidablePred (TurnsAt rings) := fun _ => by unfold TurnsAt; infer_instance

/-- How often the rings turn around from left to right. -/
def turns (rings : List (List (Pt K))) : Nat := (rings.flatMap ringEdges).countP fun e => TurnsAt rings e

/-- The same, right of `u`. -/
def turnsAfter (rings : List (List (Pt K))) (u : Pt K) : Nat := (rings.flatMap ringEdges).countP fun e => TurnsAt rings e ∧ u < e.1

theorem turnsAfter_le (rings : List (List (Pt K))) (u : Pt K) : turnsAfter rings u ≤ turns rings :=
  List.countP_mono_left fun e _ h => by
    simp only [decide_eq_true_eq] at h ⊢
    exact h.1

theorem turnsAfter_mono (rings : List (List (Pt K))) {u v : Pt K} (h : u < v) : turnsAfter rings v ≤ turnsAfter rings u :=
  List.countP_mono_left fun e _ h' => by
    simp only [decide_eq_true_eq] at h' ⊢
    exact ⟨h'.1, h.trans h'.2⟩

theorem countP_lt_of {α : Type _} {p q : α → Bool} {l : List α} (h : ∀ x ∈ l, p x = true → q x = true) {a : α} (ha : a ∈ l) (hq : q a = true)
    (hp : p a = false) : l.countP p + 1 ≤ l.countP q := by
  induction l with
  | nil => simp at ha
  | cons x l ih =>
    rw [List.countP_cons, List.countP_cons]
    rcases List.mem_cons.1 ha with rfl | ha
    · have := List.countP_mono_left (p := p) (q := q) (l := l) fun y hy => h y (List.mem_cons_of_mem _ hy)
      simp only [hq, hp, if_true, Bool.false_eq_true, if_false]
      omega
    · have := ih (fun y hy => h y (List.mem_cons_of_mem _ hy)) ha
      have hx := h x List.mem_cons_self
      cases h1 : p x <;> cases h2 : q x <;> simp_all
      omega

theorem turnsAfter_step (rings : List (List (Pt K))) {u v : Pt K} (h : u < v) {e : Sg K} (he : e ∈ rings.flatMap ringEdges) (ht : TurnsAt rings e)
    (hv : e.1 = v) : turnsAfter rings v + 1 ≤ turnsAfter rings u := by
  refine countP_lt_of (fun x _ hx => ?_) he ?_ ?_
  · simp only [decide_eq_true_eq] at hx ⊢
    exact ⟨hx.1, h.trans hx.2⟩
  · simp only [decide_eq_true_eq]
    exact ⟨ht, hv ▸ h⟩
  · simp [hv]

theorem turns_of {ext : List (Pt K)} {holes : List (List (Pt K))} (h : ValidPolygon ext holes) {i j : Nat}
    (ri : 1 ≤ i ∧ i ≤ (dir (ringsOf ext holes)).length) (rj : 1 ≤ j ∧ j ≤ (dir (ringsOf ext holes)).length) (hij : i ≠ j) {v : Pt K}
    (ei : (numEd (ringsOf ext holes) i).1 = v) (ej : (numEd (ringsOf ext holes) j).1 = v) :
    ∃ e ∈ (ext :: holes).flatMap ringEdges, TurnsAt (ext :: holes) e ∧ e.1 = v := by
  have E := edges_valid h
  have li := E.lt i ri.1 ri.2
  have lj := E.lt j rj.1 rj.2
  rw [ei] at li
  rw [ej] at lj
  obtain ⟨a, b, ha, hb, ⟨h1, h2⟩ | ⟨h1, h2⟩⟩ := around h ri.1 ri.2 rj.1 rj.2 hij (v := v) (.inl ei.symm) (.inl ej.symm)
  · rw [h1] at ei li; rw [h2] at ej lj
    rw [norm_at ei] at li; rw [norm_at2 ej] at lj
    exact ⟨(v, b), hb, ⟨lj, (a, v), ha, rfl, li⟩, rfl⟩
  · rw [h1] at ei li; rw [h2] at ej lj
    rw [norm_at2 ei] at li; rw [norm_at ej] at lj
    exact ⟨(v, b), hb, ⟨li, (a, v), ha, rfl, lj⟩, rfl⟩

theorem run_turns {p : Polygon K} (hp : ValidPolygon p.ext p.ints) (dbg : Bool) : ∀ (fuel : Nat) {u : Pt K} {gs : List (Gap K)} {sw : Sweep K}
    {cs cs' : List (Chain K)}, GInv (dir (ringsOf p.ext p.ints)).length (numEd (ringsOf p.ext p.ints)) (numTop (ringsOf p.ext p.ints)) u gs →
    SInv (dir (ringsOf p.ext p.ints)).length (numEd (ringsOf p.ext p.ints)) (numTop (ringsOf p.ext p.ints)) u gs sw → run dbg fuel sw cs = some cs' →
    (sidesOfChains cs').count .clockwise ≤ (sidesOfChains cs).count .clockwise + turnsAfter (p.ext :: p.ints) u ∧
      (sidesOfChains cs).count .clockwise + (if gs = [] ∧ sw.events ≠ [] then 1 else 0) ≤ (sidesOfChains cs').count .clockwise
  | 0, _, _, _, _, _, _, _, h => by cases h
  | fuel + 1, u, gs, sw, cs, cs', hI, hS, h => by
    by_cases hne : sw.events = []
    · obtain ⟨h1, rfl⟩ := hS.last (edges_valid hp) hI hne
      rw [run, h1] at h
      cases h
      simp [hne]
    · obtain ⟨v, gs', sw', ev, hv, hI', hS', hpe, hpt, hL, hlen⟩ := hS.step (edges_valid hp) hI hne
      rw [run, hpe] at h
      obtain ⟨cs1, h1, h2⟩ := Option.bind_eq_some_iff.1 h
      have a := (applyEvent_size h1).1
      obtain ⟨b1, b2⟩ := run_turns hp dbg fuel hI' hS' h2
      have c : ev.links.countP Link.isNew + turnsAfter (p.ext :: p.ints) v ≤ turnsAfter (p.ext :: p.ints) u ∧
          (gs = [] → ev.links.countP Link.isNew = 1) := by
        have m := turnsAfter_mono (p.ext :: p.ints) hv.lt
        generalize ev.ty = ty at hL
        generalize ev.links = ls at hL
        cases hL with
        | start G1 G2 i j ri rj ei ej hi hj hd =>
          have hij : i ≠ j := by rintro rfl; rw [hi] at hj; cases hj
          obtain ⟨e, he, ht, hev⟩ := turns_of hp ri rj hij ei ej
          have := turnsAfter_step (p.ext :: p.ints) hv.lt he ht hev
          simp [Link.isNew]
          omega
        | split G1 g G2 i j ri rj ei ej hi hj hd hsel =>
          have hij : i ≠ j := by rintro rfl; rw [hi] at hj; cases hj
          obtain ⟨e, he, ht, hev⟩ := turns_of hp ri rj hij ei ej
          have := turnsAfter_step (p.ext :: p.ints) hv.lt he ht hev
          refine ⟨?_, by simp⟩
          cases g.mg <;> simp [Link.isNew] <;> omega
        | contBot G1 g G2 j rj ej eb hj limbs w => refine ⟨?_, by simp⟩; cases g.mg <;> simp [Link.isNew] <;> omega
        | contTop G1 g G2 j rj ej et hj limbs w => refine ⟨?_, by simp⟩; cases g.mg <;> simp [Link.isNew] <;> omega
        | finish G1 g G2 eb et limbs a b => refine ⟨?_, by simp⟩; cases g.mg <;> simp [Link.isNew] <;> omega
        | merge G1 g g' G2 et eb limbs limbs' =>
          refine ⟨?_, by simp⟩
          cases g.mg <;> cases g'.mg <;> simp [Link.isNew] <;> omega
      refine ⟨by omega, ?_⟩
      split
      · rename_i hg
        have := c.2 hg.1
        omega
      · omega

/-- **C95.** On a valid polygon, `monotone_chains` returns at least one piece, and at most as many as the rings turn around from left to
right. -/
theorem C95_count (dbg : Bool) (srt : List (Event K) → List (Event K)) {p : Polygon K} (hp : ValidPolygon p.ext p.ints) :
    ∃ out, monotoneChains dbg srt p = some out ∧ 1 ≤ out.length ∧ out.length ≤ turns (p.ext :: p.ints) := by
  obtain ⟨out, h, -⟩ := monotoneChains_ok dbg srt hp
  refine ⟨out, h, ?_⟩
  obtain ⟨sw, u, hf, -, hu, hS⟩ := fromPolygon_ok srt hp
  simp only [monotoneChains, hf, Option.bind_eq_bind, Option.bind_some, Option.bind_eq_some_iff] at h
  obtain ⟨cs, h2, h3⟩ := h
  obtain ⟨a, b⟩ := run_turns hp dbg _ (GInv.init hu) hS h2
  have c := (collect_size h3).1
  have d : 0 < (dir (ringsOf p.ext p.ints)).length := by
    have h4 := (hp.closed p.ext (by simp)).2
    have : (es p.ext).length = p.ext.length - 1 := by simp [es]
    simp only [dir, ringsOf, List.flatMap_cons, List.length_append, List.length_map]
    omega
  have hne : sw.events ≠ [] := by
    intro e
    have := (hS.mem (evL (numEd (ringsOf p.ext p.ints)) 1)).2 ⟨⟨1, le_refl _, d, .inl rfl⟩, hu 1 (le_refl _) d⟩
    rw [e] at this
    simp at this
  rw [if_pos ⟨rfl, hne⟩] at b
  have e := turnsAfter_le (p.ext :: p.ints) u
  simp only [sidesOfChains, List.map_nil, List.count_nil] at a b c
  omega

/-- **C95.** A valid polygon that turns around from left to right only once is returned in one piece, which has the same interior. -/
theorem C95_monotone (dbg : Bool) (srt : List (Event K) → List (Event K)) {p : Polygon K} (hp : ValidPolygon p.ext p.ints)
    (h : turns (p.ext :: p.ints) ≤ 1) :
    ∃ m ring, monotoneChains dbg srt p = some [m] ∧ m.intoPolygon = some ring ∧ ∀ r, EvenOdd [ring] r ↔ EvenOdd (p.ext :: p.ints) r := by
  obtain ⟨out, h1, h2, h3⟩ := C95_count dbg srt hp
  obtain ⟨out', rings, h1', h4, -, -, -, h5⟩ := C51_monotone_chains dbg srt hp
  rw [h1, Option.some.injEq] at h1'
  subst h1'
  obtain ⟨m, rfl⟩ := List.length_eq_one_iff.1 (show out.length = 1 by omega)
  simp only [List.mapM_cons, List.mapM_nil, Option.bind_eq_bind, Option.bind_eq_some_iff] at h4
  obtain ⟨ring, h4, rs, h6, h7⟩ := h4
  cases h6
  cases h7
  refine ⟨m, ring, h1, h4, fun r => ?_⟩
  have := h5 r
  rw [List.countP_cons, List.countP_nil] at this
  by_cases e : EvenOdd [ring] r <;> by_cases e' : EvenOdd (p.ext :: p.ints) r <;> simp_all

/-- All vertices are on one side of every side. -/
def Convex (ring : List (Pt K)) : Prop :=
  (∀ e ∈ ringEdges ring, ∀ w ∈ ring, 0 ≤ det e.1 e.2 w) ∨ ∀ e ∈ ringEdges ring, ∀ w ∈ ring, det e.1 e.2 w ≤ 0

instance (ring : List (Pt K)) : Decidable (Convex ring) := by unfold Convex; infer_instance

theorem cone {v a b w : Pt K} (ha : v < a) (hb : v < b) (h0 : 0 < det v b a) (h1 : 0 ≤ det a v w) (h2 : 0 ≤ det v b w) : v ≤ w := by
  by_contra hlt
  rw [not_le] at hlt
  rw [Pt.lt_def] at ha hb hlt
  have hx : det v b a * (w.x - v.x) = det v b w * (a.x - v.x) + det a v w * (b.x - v.x) := by unfold det; ring
  have hy : det v b a * (w.y - v.y) = det v b w * (a.y - v.y) + det a v w * (b.y - v.y) := by unfold det; ring
  have ax : 0 ≤ a.x - v.x := by rcases ha with h | ⟨h, -⟩ <;> linarith
  have bx : 0 ≤ b.x - v.x := by rcases hb with h | ⟨h, -⟩ <;> linarith
  have t1 := mul_nonneg h2 ax
  have t2 := mul_nonneg h1 bx
  rcases hlt with h | ⟨h, h'⟩
  · have := mul_pos h0 (sub_pos.2 h)
    nlinarith
  · rw [h, sub_self, mul_zero] at hx
    have z1 : det v b w * (a.x - v.x) = 0 := by linarith
    have z2 : det a v w * (b.x - v.x) = 0 := by linarith
    have y1 : 0 ≤ det v b w * (a.y - v.y) := by
      rcases mul_eq_zero.1 z1 with e | e
      · rw [e, zero_mul]
      · exact mul_nonneg h2 (by rcases ha with h | ⟨-, h⟩ <;> linarith)
    have y2 : 0 ≤ det a v w * (b.y - v.y) := by
      rcases mul_eq_zero.1 z2 with e | e
      · rw [e, zero_mul]
      · exact mul_nonneg h1 (by rcases hb with h | ⟨-, h⟩ <;> linarith)
    have := mul_pos h0 (sub_pos.2 h')
    nlinarith

theorem between {v a : Pt K} (h : v < a) : v < ⟨(v.x + a.x) / 2, (v.y + a.y) / 2⟩ ∧ (⟨(v.x + a.x) / 2, (v.y + a.y) / 2⟩ : Pt K) < a := by
  rw [Pt.lt_def] at h
  rw [Pt.lt_def, Pt.lt_def]
  rcases h with h | ⟨h, h'⟩
  · exact ⟨.inl (by simp only; linarith), .inl (by simp only; linarith)⟩
  · exact ⟨.inr ⟨by simp only; linarith, by simp only; linarith⟩, .inr ⟨by simp only; linarith, by simp only; linarith⟩⟩

/-- Two sides of a valid polygon that lead to the right from the same vertex are not on one line. -/
theorem turn_det {ext : List (Pt K)} {holes : List (List (Pt K))} (h : ValidPolygon ext holes) {v a b : Pt K}
    (ha : (a, v) ∈ (ext :: holes).flatMap ringEdges) (hb : (v, b) ∈ (ext :: holes).flatMap ringEdges) (la : v < a) (lb : v < b) : det v b a ≠ 0 := by
  intro h0
  have ne : ((a, v) : Sg K) ≠ (v, b) := by
    intro e
    rw [Prod.mk.injEq] at e
    exact la.ne e.1.symm
  have key : ∀ c : Pt K, v < c → c ≤ a → c ≤ b → det v a c = 0 → det v b c = 0 → False := by
    intro c hc ca cb da db
    obtain ⟨m1, m2⟩ := between hc
    have hm : ∀ d : Pt K, det v d c = 0 → det v d ⟨(v.x + c.x) / 2, (v.y + c.y) / 2⟩ = 0 := by
      intro d hd
      have : det v d ⟨(v.x + c.x) / 2, (v.y + c.y) / 2⟩ = det v d c / 2 := by unfold det; ring
      rw [this, hd, zero_div]
    obtain ⟨-, e⟩ := h.meet _ ha _ hb ne ⟨(v.x + c.x) / 2, (v.y + c.y) / 2⟩
      (onSeg_swap ((onSeg_iff la).2 ⟨hm a da, m1.le, m2.le.trans ca⟩)) ((onSeg_iff lb).2 ⟨hm b db, m1.le, m2.le.trans cb⟩)
    rcases e with e | e
    · exact m1.ne e.symm
    · exact (m2.trans_le cb).ne e
  rcases le_total a b with hab | hab
  · exact key a la le_rfl hab (by unfold det; ring) h0
  · refine key b lb hab le_rfl ?_ (by unfold det; ring)
    have : det v a b = - det v b a := by unfold det; ring
    rw [this, h0, neg_zero]

theorem turns_convex {ext : List (Pt K)} (h : ValidPolygon ext []) (hc : Convex ext) : turns [ext] ≤ 1 := by
  have hr : [ext].flatMap ringEdges = ringEdges ext := by simp
  have least : ∀ e ∈ ringEdges ext, TurnsAt [ext] e → ∀ w ∈ ext, e.1 ≤ w := by
    rintro ⟨v, b⟩ he ⟨hb, ⟨a, v'⟩, ha, rfl, la⟩ w hw
    simp only at hb la ⊢
    have hd := turn_det h (by simpa using ha) (by simpa using he) la hb
    rw [hr] at ha
    have wa := (mem_es ha).1
    rcases hc with hc | hc
    · exact cone la hb (lt_of_le_of_ne (hc _ he _ wa) hd.symm) (hc _ ha _ hw) (hc _ he _ hw)
    · refine cone hb la ?_ ?_ ?_
      · have := lt_of_le_of_ne (hc _ he _ wa) hd
        have e : det v' a b = - det v' b a := by unfold det; ring
        rw [e]
        simpa using this
      · have := hc _ he _ hw
        have e : det b v' w = - det v' b w := by unfold det; ring
        rw [e]
        simpa using this
      · have := hc _ ha _ hw
        have e : det v' a w = - det a v' w := by unfold det; ring
        rw [e]
        simpa using this
  unfold turns
  rw [hr, List.countP_eq_length_filter]
  by_contra hlt
  rw [not_le] at hlt
  have nd : ((ringEdges ext).map Prod.fst).Nodup := by
    have := h.distinct
    rw [List.flatMap_cons, List.flatMap_nil, List.append_nil, ← es_fst] at this
    exact this
  have nd' : (((ringEdges ext).filter fun e => TurnsAt [ext] e).map Prod.fst).Nodup := nd.sublist (List.filter_sublist.map _)
  match hl : (ringEdges ext).filter fun e => TurnsAt [ext] e, hlt, nd' with
  | e1 :: e2 :: l, _, nd' =>
    have m : ∀ e ∈ [e1, e2], e ∈ ringEdges ext ∧ TurnsAt [ext] e := by
      intro e he
      have : e ∈ (ringEdges ext).filter fun e => TurnsAt [ext] e := by
        rw [hl]
        simp only [List.mem_cons, List.not_mem_nil, or_false] at he ⊢
        tauto
      simpa using this
    obtain ⟨m1, t1⟩ := m e1 (by simp)
    obtain ⟨m2, t2⟩ := m e2 (by simp)
    simp only [List.map_cons, List.nodup_cons, List.mem_cons, not_or] at nd'
    exact nd'.1.1 (le_antisymm (least e1 m1 t1 _ (mem_es m2).1) (least e2 m2 t2 _ (mem_es m1).1))

/-- **C95.** A convex polygon is returned in one piece. -/
theorem C95_convex (dbg : Bool) (srt : List (Event K) → List (Event K)) {ext : List (Pt K)} (h : ValidPolygon ext []) (hc : Convex ext) :
    ∃ m ring, monotoneChains dbg srt ⟨ext, []⟩ = some [m] ∧ m.intoPolygon = some ring ∧ ∀ r, EvenOdd [ring] r ↔ EvenOdd [ext] r :=
  C95_monotone (p := ⟨ext, []⟩) dbg srt h (turns_convex h hc)

/-! ## Where pieces have to begin -/

/-- The side leads away from a vertex that both of its sides are right of, with the interior between them. -/
def StartsAt (rings : List (List (Pt K))) (e : Sg K) : Prop :=
  ∃ a, (a, e.1) ∈ rings.flatMap ringEdges ∧ HasType rings e.1 a e.2 .start

open Classical in
/-- The number of such vertices. -/
noncomputable def starts (rings : List (List (Pt K))) : Nat := (rings.flatMap ringEdges).countP fun e => StartsAt rings e

open Classical in
/-- The same, right of `u`. -/
noncomputable def startsAfter (rings : List (List (Pt K))) (u : Pt K) : Nat := (rings.flatMap ringEdges).countP fun e => StartsAt rings e ∧ u < e.1

theorem within_mid {v a : Pt K} (h : v < a) : Within v a ⟨(v.x + a.x) / 2, (v.y + a.y) / 2⟩ := by
  obtain ⟨h1, h2⟩ := between h
  exact ⟨(onSeg_iff h).2 ⟨by unfold det; ring, h1.le, h2.le⟩, h1.ne', h2.ne⟩

/-- A vertex has one type. -/
theorem hasType_start {rings : List (List (Pt K))} {v a b : Pt K} {ty : VertexType} (h : HasType rings v a b .start) (h' : HasType rings v a b ty) :
    ty = .start := by
  obtain ⟨lo, hi, e, ⟨w1, w2, w3⟩, i1, i2⟩ := h
  have ab : v < a ∧ v < b := by rcases e with ⟨rfl, rfl⟩ | ⟨rfl, rfl⟩ <;> exact ⟨by assumption, by assumption⟩
  cases ty with
  | start => rfl
  | split =>
    exfalso
    obtain ⟨lo', hi', e', ⟨w1', w2', w3'⟩, i1', i2'⟩ := h'
    have : hi' = hi := by
      have hd : det v lo hi = - det v hi lo := by unfold det; ring
      rcases e with ⟨rfl, rfl⟩ | ⟨rfl, rfl⟩ <;> rcases e' with ⟨rfl, rfl⟩ | ⟨rfl, rfl⟩
      · rfl
      · linarith
      · linarith
      · rfl
    subst this
    exact i1' _ (within_mid w2) (i1 _ (within_mid w2))
  | finish =>
    exfalso
    obtain ⟨lo', hi', e', ⟨w1', -⟩, -⟩ := h'
    rcases e' with ⟨rfl, rfl⟩ | ⟨rfl, rfl⟩
    · exact (w1'.trans ab.1).false
    · exact (w1'.trans ab.2).false
  | merge =>
    exfalso
    obtain ⟨lo', hi', e', ⟨w1', -⟩, -⟩ := h'
    rcases e' with ⟨rfl, rfl⟩ | ⟨rfl, rfl⟩
    · exact (w1'.trans ab.1).false
    · exact (w1'.trans ab.2).false
  | cont =>
    exfalso
    rcases h' with h' | h'
    · exact (h'.1.trans ab.1).false
    · exact (h'.1.trans ab.2).false

theorem first_nodup {ext : List (Pt K)} {holes : List (List (Pt K))} (h : ValidPolygon ext holes) :
    (((ext :: holes).flatMap ringEdges).map Prod.fst).Nodup := by
  have := h.distinct
  have e : ((ext :: holes).flatMap ringEdges).map Prod.fst = (ext :: holes).flatMap List.dropLast := by
    rw [List.map_flatMap]
    exact List.flatMap_congr fun r _ => es_fst r
  rw [e]
  exact this

theorem second_inj {ext : List (Pt K)} {holes : List (List (Pt K))} (h : ValidPolygon ext holes) {a a' v : Pt K}
    (h1 : (a, v) ∈ (ext :: holes).flatMap ringEdges) (h2 : (a', v) ∈ (ext :: holes).flatMap ringEdges) : a = a' := by
  have ok := ringsOk_of_valid h
  have m : ∀ e ∈ (ext :: holes).flatMap ringEdges, ∃ w, (e, w) ∈ dir (ringsOf ext holes) := by
    intro e he
    rw [← ringsOf_fst ext holes, List.flatMap_map] at he
    obtain ⟨r, hr, he⟩ := List.mem_flatMap.1 he
    exact ⟨r.2, mem_dir.2 ⟨r, hr, he, rfl⟩⟩
  obtain ⟨w1, m1⟩ := m _ h1
  obtain ⟨w2, m2⟩ := m _ h2
  have := ok.stop m1 m2 rfl
  exact congrArg (fun x => x.1.1) this

theorem first_inj {ext : List (Pt K)} {holes : List (List (Pt K))} (h : ValidPolygon ext holes) {b b' v : Pt K}
    (h1 : (v, b) ∈ (ext :: holes).flatMap ringEdges) (h2 : (v, b') ∈ (ext :: holes).flatMap ringEdges) : b = b' := by
  have := List.inj_on_of_nodup_map (first_nodup h) h1 h2 rfl
  exact congrArg Prod.snd this

/-- The first end of a side is an end of a numbered one. -/
theorem side_num {ext : List (Pt K)} {holes : List (List (Pt K))} {e : Sg K} (he : e ∈ (ext :: holes).flatMap ringEdges) :
    ∃ k, 1 ≤ k ∧ k ≤ (dir (ringsOf ext holes)).length ∧ EndOf (numEd (ringsOf ext holes) k) e.1 := by
  rw [← ringsOf_fst ext holes, List.flatMap_map] at he
  obtain ⟨r, hr, he⟩ := List.mem_flatMap.1 he
  obtain ⟨k, k1, k2, -, hk, -⟩ := mem_num (x := (e, r.2)) (mem_dir.2 ⟨r, hr, he, rfl⟩)
  exact ⟨k, k1, k2, by rw [hk, endOf_norm]; exact .inl rfl⟩

theorem countP_first {α β : Type _} [DecidableEq β] (f : α → β) (v : β) : ∀ {l : List α}, (l.map f).Nodup → l.countP (fun x => f x = v) ≤ 1
  | [], _ => by simp
  | a :: l, h => by
    rw [List.map_cons, List.nodup_cons] at h
    rw [List.countP_cons]
    by_cases e : f a = v
    · have : l.countP (fun x => decide (f x = v)) = 0 := by
        rw [List.countP_eq_zero]
        intro x hx
        simp only [decide_eq_true_eq]
        intro e'
        exact h.1 (e ▸ e' ▸ List.mem_map_of_mem hx)
      simp only [this]
      split <;> omega
    · have := countP_first f v h.2
      simpa [e] using this

theorem countP_or_le {α : Type _} {p q r : α → Bool} {l : List α} (h : ∀ x ∈ l, p x = true → q x = true ∨ r x = true) :
    l.countP p ≤ l.countP q + l.countP r := by
  induction l with
  | nil => simp
  | cons x l ih =>
    have := ih fun y hy => h y (List.mem_cons_of_mem _ hy)
    have hx := h x List.mem_cons_self
    rw [List.countP_cons, List.countP_cons, List.countP_cons]
    cases h1 : p x <;> cases h2 : q x <;> cases h3 : r x <;> simp_all <;> omega

theorem run_starts {p : Polygon K} (hp : ValidPolygon p.ext p.ints) (srt : List (Event K) → List (Event K)) (dbg : Bool) : ∀ (fuel : Nat)
    {u : Pt K} {gs : List (Gap K)} {sw : Sweep K} {cs cs' : List (Chain K)}, Reached srt p sw →
    GInv (dir (ringsOf p.ext p.ints)).length (numEd (ringsOf p.ext p.ints)) (numTop (ringsOf p.ext p.ints)) u gs →
    SInv (dir (ringsOf p.ext p.ints)).length (numEd (ringsOf p.ext p.ints)) (numTop (ringsOf p.ext p.ints)) u gs sw → run dbg fuel sw cs = some cs' →
    (sidesOfChains cs).count .clockwise + startsAfter (p.ext :: p.ints) u ≤ (sidesOfChains cs').count .clockwise
  | 0, _, _, _, _, _, _, _, _, h => by cases h
  | fuel + 1, u, gs, sw, cs, cs', hr, hI, hS, h => by
    classical
    have E := edges_valid hp
    by_cases hne : sw.events = []
    · obtain ⟨h1, rfl⟩ := hS.last E hI hne
      rw [run, h1] at h
      cases h
      have : startsAfter (p.ext :: p.ints) u = 0 := by
        unfold startsAfter
        rw [List.countP_eq_zero]
        intro e he
        simp only [decide_eq_true_eq, not_and]
        rintro - hlt
        obtain ⟨k, k1, k2, hk⟩ := side_num he
        rcases hk with hk | hk
        · have := (hS.mem (evL (numEd (ringsOf p.ext p.ints)) k)).2 ⟨⟨k, k1, k2, .inl rfl⟩, by rw [hk] at hlt; exact hlt⟩
          rw [hne] at this
          simp at this
        · have := (hS.mem (evR (numEd (ringsOf p.ext p.ints)) k)).2 ⟨⟨k, k1, k2, .inr rfl⟩, by rw [hk] at hlt; exact hlt⟩
          rw [hne] at this
          simp at this
      omega
    · obtain ⟨v, gs', sw', ev, hv, hI', hS', hpe, hpt, hL, hlen⟩ := hS.step E hI hne
      rw [run, hpe] at h
      obtain ⟨cs1, h1, h2⟩ := Option.bind_eq_some_iff.1 h
      have a := (applyEvent_size h1).1
      have b := run_starts hp srt dbg fuel (hr.step hpe) hI' hS' h2
      have far : ∀ e ∈ (p.ext :: p.ints).flatMap ringEdges, u < e.1 → e.1 = v ∨ v < e.1 := by
        intro e he hlt
        obtain ⟨k, k1, k2, hk⟩ := side_num he
        have : v ≤ e.1 := by
          rcases hk with hk | hk
          · rcases hv.left k k1 k2 with h | h
            · exact absurd hlt (not_lt.2 (hk ▸ h))
            · exact hk ▸ h
          · rcases hv.right k k1 k2 with h | h
            · exact absurd hlt (not_lt.2 (hk ▸ h))
            · exact hk ▸ h
        exact this.eq_or_lt.imp Eq.symm id
      have c : startsAfter (p.ext :: p.ints) u ≤ startsAfter (p.ext :: p.ints) v + ev.links.countP Link.isNew := by
        by_cases hex : ∃ e ∈ (p.ext :: p.ints).flatMap ringEdges, StartsAt (p.ext :: p.ints) e ∧ e.1 = v
        · obtain ⟨⟨v', b'⟩, he, ⟨a', ha', ht⟩, hev⟩ := hex
          simp only at hev ht ha'
          subst hev
          obtain ⟨sw2, o, g1, -, g2⟩ := C50_vertex_types srt hp hr
          rw [hpe, Option.some.injEq, Prod.mk.injEq] at g1
          obtain ⟨a2, b2, ha2, hb2, ht2⟩ := g2 ev g1.2.symm
          rw [hpt] at ha2 hb2 ht2
          rw [second_inj hp ha2 ha', first_inj hp hb2 he] at ht2
          have hty := hasType_start ht ht2
          have one : ev.links.countP Link.isNew = 1 := by
            generalize ev.ty = ty at hL hty
            generalize ev.links = ls at hL
            cases hL <;> first | rfl | cases hty
          rw [one]
          have := countP_first Prod.fst v' (first_nodup hp)
          refine (countP_or_le (q := fun e => StartsAt (p.ext :: p.ints) e ∧ v' < e.1) (r := fun e => e.1 = v') fun e he' h => ?_).trans
            (Nat.add_le_add_left this _)
          simp only [decide_eq_true_eq] at h ⊢
          rcases far e he' h.2 with h' | h'
          · exact .inr h'
          · exact .inl ⟨h.1, h'⟩
        · refine (List.countP_mono_left fun e he h => ?_).trans (Nat.le_add_right _ _)
          simp only [decide_eq_true_eq] at h ⊢
          rcases far e he h.2 with h' | h'
          · exact absurd ⟨e, he, h.1, h'⟩ hex
          · exact ⟨h.1, h'⟩
      omega

/-- **C95.** There are at least as many pieces as vertices that both sides are right of, with the interior between them. -/
theorem C95_starts (dbg : Bool) (srt : List (Event K) → List (Event K)) {p : Polygon K} (hp : ValidPolygon p.ext p.ints) :
    ∃ out, monotoneChains dbg srt p = some out ∧ starts (p.ext :: p.ints) ≤ out.length := by
  obtain ⟨out, h, -⟩ := monotoneChains_ok dbg srt hp
  refine ⟨out, h, ?_⟩
  obtain ⟨sw, u, hf, -, hu, hS⟩ := fromPolygon_ok srt hp
  simp only [monotoneChains, hf, Option.bind_eq_bind, Option.bind_some, Option.bind_eq_some_iff] at h
  obtain ⟨cs, h2, h3⟩ := h
  have a := run_starts hp srt dbg _ (.init hf) (GInv.init hu) hS h2
  have c := (collect_size h3).1
  have e : startsAfter (p.ext :: p.ints) u = starts (p.ext :: p.ints) := by
    unfold startsAfter starts
    refine List.countP_congr fun e he => ?_
    obtain ⟨k, k1, k2, hk⟩ := side_num he
    have : u < e.1 := by
      rcases hk with hk | hk
      · rw [hk]; exact hu k k1 k2
      · rw [hk]; exact (hu k k1 k2).trans ((edges_valid hp).lt k k1 k2)
    simp [this]
  simp only [sidesOfChains, List.map_nil, List.count_nil] at a c
  omega

namespace Demo

/-- A pentagon: valid, convex, and so in one piece. -/
def pentagon : List (Pt ℚ) := [⟨0, 1⟩, ⟨1, 0⟩, ⟨3, 0⟩, ⟨4, 1⟩, ⟨2, 3⟩, ⟨0, 1⟩]

example : ValidPolygon pentagon [] ∧ Convex pentagon := ⟨validPolygon_of_check (K := ℚ) (by decide +kernel), by decide +kernel⟩
example : (monotoneChains true id ⟨pentagon, []⟩).map List.length = some 1 := by decide +kernel

/-- The polygon with a hole turns around four times, and is returned in three pieces. -/
example : turns [outer, hole] = 4 ∧ (monotoneChains true id ⟨outer, [hole]⟩).map List.length = some 3 := by decide +kernel
/-- The chevron turns around once at its tip, and once at its notch. -/
example : turns [chevron] = 2 ∧ (monotoneChains true id ⟨chevron, []⟩).map List.length = some 2 := by decide +kernel

/-- Fewer pieces than turns: the vertex `(5, 0)`, which would have the interior split, is joined to `(2, 0)`, where it was merged. -/
def bow : List (Pt ℚ) := [⟨0, -3⟩, ⟨7, -3⟩, ⟨5, 0⟩, ⟨7, 3⟩, ⟨0, 3⟩, ⟨2, 0⟩, ⟨0, -3⟩]

example : ValidPolygon bow [] := validPolygon_of_check (K := ℚ) (by decide +kernel)
example : turns [bow] = 3 ∧ (monotoneChains true id ⟨bow, []⟩).map List.length = some 2 := by decide +kernel

end Demo

end GeoCrossings.Monotone

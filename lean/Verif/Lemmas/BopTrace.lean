import Verif.Lemmas.BopStep

/-! # The runs of `Op::sweep`, and which of the added edges pass below a point -/
set_option linter.unusedSectionVars false
namespace GeoCrossings
open Spec BoolOp

variable {K : Type} [Field K] [LinearOrder K] [IsStrictOrderedRing K]

/-- A run of the loop from the state `X` to the end, and the edges it adds to the rings. -/
inductive Trace (ty : OpType) (geom : Nat → LineOrPoint K) (isFirst : Nat → Bool) (org : Nat → Pt K) (input : List Nat) :
    Pt K → Sweep K Nat → Abs K Nat → List (LineOrPoint K × Winding) → Prop
  | done {pos st X} : Full org (fun i => (geom i).toLine) input pos st X → X.E = [] → Trace ty geom isFirst org input pos st X []
  | step {pos pt st st' X X' out L0 E0 U0 L E U S D1 T es} :
      Full org (fun i => (geom i).toLine) input pos st X → (∀ e ∈ X.E, pos < e.point) → pos < pt → (∀ e ∈ X.E, pt ≤ e.point) → (∃ e ∈ X.E, e.point = pt) →
      Full org (fun i => (geom i).toLine) input pt st' X' → (∀ e ∈ X'.E, pt < e.point) →
      Shape pt X X' out L0 E0 U0 L E U S D1 T → Trace ty geom isFirst org input pt st' X' es →
      Trace ty geom isFirst org input pos st X (emits ty isFirst (crossAll isFirst (Region.infinity ty) (L.flatMap Grp.cs)) E ++ es)

variable {ty : OpType} {geom : Nat → LineOrPoint K} {isFirst : Nat → Bool} {org : Nat → Pt K} {input : List Nat}

theorem Trace.full {pos : Pt K} {st X es} (h : Trace ty geom isFirst org input pos st X es) :
    Full org (fun i => (geom i).toLine) input pos st X := by
  cases h <;> assumption

theorem full_init' (lineOf : Nat → Line K) (input : List Nat) (hor : ∀ c ∈ input, (LineOrPoint.ofLine (lineOf c)).first = org c) :
    ∃ pos st X, Sweep.new lineOf input = some st ∧
    Full org lineOf input pos st X ∧ (∀ e ∈ X.E, pos < e.point) ∧ X.A = [] ∧ X.D = [] := by
  obtain ⟨pos, st, X, h1, h2, h3, h4, h5⟩ := init_exists lineOf input hor
  refine ⟨pos, st, X, h1, ⟨h3, h2.pieces, h4, ?_, fun g hg => .inl (h2.evP g hg), h2.pts,
    ⟨X.Q, [], by simp, h2.evP1, by simp [h2.log]⟩, h2.ptl⟩, h5, h2.A, h2.D⟩
  have : X.pieces = X.P := by unfold Abs.pieces; simp [h2.A, h2.S, h2.D]
  rw [this]; exact h2.tiled

/-- The loop adds the edges of a run. -/
theorem sweepLoop_trace (he : EdgesOk geom isFirst input) {srt : List (Crossing K Nat) → List (Crossing K Nat)}
    (hst : Stable compareCrossings srt ∨ Apart2 geom input) (nextAfter : K → K) (choice : Nat → Nat)
    {cl : List (Pt K)} (hcl : ∀ r, Critical (input.map fun i => (geom i).toLine) r → r ∈ cl) (m : Nat) :
    ∀ {pos st X cells}, X.measure cl < m → Full org (fun i => (geom i).toLine) input pos st X → (∀ e ∈ X.E, pos < e.point) →
      RegInv ty isFirst X cells → ∃ es, Trace ty geom isFirst org input pos st X es ∧
        ∀ fuel n, X.measure cl < fuel → X.measure cl < n → ∀ dbg segs rings,
          sweepLoop dbg ty geom isFirst nextAfter choice srt fuel n ⟨st, segs⟩ cells rings = addAll dbg es rings := by
  induction m with
  | zero => intro _ _ _ _ h; omega
  | succ m ih =>
    intro pos st X cells hm hF hgt hR
    rcases next_full (nextAfter := nextAfter) (choice := choice) hcl hF hgt with ⟨h1, h2⟩ | ⟨pt, st', X', out, i1, i2, i3, i4, i5, i6, i7, i8, i9, i10⟩
    · refine ⟨[], .done hF h1, ?_⟩
      intro fuel n hf hn dbg segs rings
      obtain ⟨n, rfl⟩ : ∃ k, n = k + 1 := ⟨n - 1, by omega⟩
      rw [sweepLoop, h2 fuel hf segs]
      rfl
    · obtain ⟨L0, E0, U0, L, E, U, S, D1, T, hs⟩ := shape hF i2 i9 i4 i5 i6 i3 i8
      obtain ⟨st2, cells', k1, k2, k3⟩ := batchStep_spec he ty hF i2 i4 i5 hs i6 hR hst
      obtain ⟨es, t1, t2⟩ := ih (by omega) k2 i5 k3
      refine ⟨_, .step hF hgt i2 i9 i10 k2 i5 hs t1, ?_⟩
      intro fuel n hf hn dbg segs rings
      obtain ⟨n, rfl⟩ : ∃ k, n = k + 1 := ⟨n - 1, by omega⟩
      rw [sweepLoop, i1 fuel hf segs]
      simp only [k1]
      rw [addAll_append]
      cases addAll dbg (emits ty isFirst (crossAll isFirst (Region.infinity ty) (L.flatMap Grp.cs)) E) rings with
      | none => rfl
      | some rings' =>
        simp only [Option.map_some, Option.bind_some]
        exact t2 fuel n (by omega) (by omega) _ _ _

/-! ## Added edges below a point -/

/-- The edge passes below `r`. -/
def edgeUnder (r : Pt K) (e : LineOrPoint K × Winding) : Bool := decide (Under r e.1.first e.1.second)

theorem emit_under (r : Pt K) (a b : Region) {g g' : Grp K Nat} (h : Under r g.p g.q ↔ Under r g'.p g'.q) :
    (emit ty a b g.geom).countP (edgeUnder r) = (emit ty a b g'.geom).countP (edgeUnder r) := by
  unfold emit
  have h1 : Under r g.geom.first g.geom.second ↔ Under r g'.geom.first g'.geom.second := h
  split
  · simp only [List.countP_singleton, edgeUnder, decide_eq_true_eq, h1]
  · rfl

theorem emits_under (r : Pt K) {l l' : List (Grp K Nat)} (h : List.Forall₂ (fun g g' => g'.cs = g.cs ∧ (Under r g.p g.q ↔ Under r g'.p g'.q)) l l') :
    ∀ R, (emits ty isFirst R l).countP (edgeUnder r) = (emits ty isFirst R l').countP (edgeUnder r) := by
  induction h with
  | nil => intro R; rfl
  | cons h1 _ ih =>
    intro R
    simp only [emits, List.countP_append]
    rw [ih, h1.1, emit_under r _ _ h1.2]

theorem emits_under_zero (r : Pt K) {l : List (Grp K Nat)} (h : ∀ g ∈ l, ¬ Under r g.p g.q) (R : Region) :
    (emits ty isFirst R l).countP (edgeUnder r) = 0 := by
  induction l generalizing R with
  | nil => rfl
  | cons g l ih =>
    simp only [emits, List.countP_append]
    rw [ih fun x hx => h x (by simp [hx])]
    unfold emit
    split
    · have : ¬ Under r g.geom.first g.geom.second := h g (by simp)
      simp [edgeUnder, this]
    · rfl

theorem emits_append (r : Pt K) (a b : List (Grp K Nat)) : ∀ R, (emits ty isFirst R (a ++ b)).countP (edgeUnder r) =
    (emits ty isFirst R a).countP (edgeUnder r) + (emits ty isFirst (crossAll isFirst R (a.flatMap Grp.cs)) b).countP (edgeUnder r) := by
  induction a with
  | nil => intro R; simp [emits, crossAll]
  | cons g a ih =>
    intro R
    simp only [List.cons_append, emits, List.countP_append, List.flatMap_cons, crossAll_append]
    rw [ih]; omega

/-- The parity of the changes on the way up. -/
theorem emits_parity (r : Pt K) {l : List (Grp K Nat)} (h : ∀ g ∈ l, Under r g.p g.q) (R : Region) :
    ((emits ty isFirst R l).countP (edgeUnder r) % 2 = 1) = ((R.isTy ty ^^ (crossAll isFirst R (l.flatMap Grp.cs)).isTy ty) = true) := by
  induction l generalizing R with
  | nil => simp [emits, crossAll]
  | cons g l ih =>
    have ih := ih (fun x hx => h x (by simp [hx])) (crossAll isFirst R g.cs)
    simp only [emits, List.countP_append, List.flatMap_cons, crossAll_append]
    have hg : Under r g.geom.first g.geom.second := h g (by simp)
    have e : (emit ty R (crossAll isFirst R g.cs) g.geom).countP (edgeUnder r) =
        if ((crossAll isFirst R g.cs).isTy ty ^^ R.isTy ty) = true then 1 else 0 := by
      unfold emit
      split <;> simp [edgeUnder, hg]
    rw [e]
    generalize (crossAll isFirst (crossAll isFirst R g.cs) (l.flatMap Grp.cs)).isTy ty = z at ih ⊢
    generalize (crossAll isFirst R g.cs).isTy ty = y at ih ⊢
    generalize R.isTy ty = x
    generalize (emits ty isFirst (crossAll isFirst R g.cs) l).countP (edgeUnder r) = n at ih ⊢
    have ih : n % 2 = 1 ↔ (y ^^ z) = true := by rw [ih]
    refine propext ?_
    cases x <;> cases y <;> cases z <;> simp at ih ⊢ <;> omega

/-- Once the position has passed `r`, the edges still to be added below `r` are those that separate the active groups. -/
theorem Trace.under_active {pos : Pt K} {st X es} (he : EdgesOk geom isFirst input) (h : Trace ty geom isFirst org input pos st X es) (r : Pt K) :
    (∀ e ∈ X.E, r.x < e.point.x) →
      es.countP (edgeUnder r) = (emits ty isFirst (Region.infinity ty) X.A).countP (edgeUnder r) := by
  induction h with
  | @done pos st X hF hE =>
    intro _
    have hA : X.A = [] := by
      rw [List.eq_nil_iff_forall_not_mem]
      intro g hg
      have := hF.inv.core.evR g (by simp [hg])
      rw [hE] at this; cases this
    rw [hA]; rfl
  | @step pos pt st st' X X' out L0 E0 U0 L E U S D1 T es hF hgt hpt hmin hne h' hgt' hs ht ih =>
    intro hx
    have hptx : r.x < pt.x := by
      obtain ⟨e, he1, rfl⟩ := hne
      exact hx e he1
    have hx' : ∀ e ∈ X'.E, r.x < e.point.x := fun e he1 => hptx.trans_le (Pt.x_le_of_le (hgt' e he1).le)
    have hA : ∀ g ∈ X.A, g.p < g.q := fun g hg => (hF.inv.core.lineA g hg).1.2
    have hq : ∀ g ∈ X'.A, r.x < g.q.x := fun g hg => hx' _ (h'.inv.core.evR g (by simp [hg]))
    have key : ∀ l l' : List (Grp K Nat), List.Forall₂ Same l l' → (∀ g ∈ l, g.p < g.q) → (∀ g ∈ l', r.x < g.q.x) →
        ∀ R, (emits ty isFirst R l).countP (edgeUnder r) = (emits ty isFirst R l').countP (edgeUnder r) := by
      intro l l' hl h1 h2
      refine emits_under r (forall₂_imp_mem hl ?_)
      intro g hg g' hg' hsm
      refine ⟨hsm.cs, ?_⟩
      have h3 := hsm.2
      have h4 := hsm.p
      unfold Grp.sg at h3
      rw [h4] at h3 ⊢
      exact (under_shr (h1 g hg) h3 (h2 g' hg')).symm
    rw [List.countP_append, ih hx', hs.after, hs.before]
    simp only [emits_append, List.flatMap_append, crossAll_append]
    rw [emits_under_zero (l := S), ← key L0 L hs.sL, ← key E0 E hs.sE, ← key U0 U hs.sU, same_cs hs.sL]
    · have := shape_even he hF hpt h' hgt' hs
      rw [← same_cs hs.sE, ← crossAll_even _ this]
      omega
    · intro g hg; exact hA g (by rw [hs.before]; simp [hg])
    · intro g hg; exact hq g (by rw [hs.after]; simp [hg])
    · intro g hg; exact hA g (by rw [hs.before]; simp [hg])
    · intro g hg; rw [(hs.endE g hg).2]; exact hptx
    · intro g hg; exact hA g (by rw [hs.before]; simp [hg])
    · intro g hg; exact hq g (by rw [hs.after]; simp [hg])
    · rintro g hg ⟨k, -, -⟩
      rw [(hs.startS g hg).2] at k
      exact absurd k (not_le.2 hptx)

/-! ## The column of active groups at a point -/

/-- Of two groups in the active order, active at the column of `r`, the lower one passes below `r` if the upper one does. -/
theorem under_mono {pos r : Pt K} {X : Abs K Nat} (hc : Core pos X) (hch : X.Chain pos) (hS : X.S = []) (hpos : pos.x ≤ r.x)
    (hE : ∀ e ∈ X.E, r.x < e.point.x) {L R : List (Grp K Nat)} {a b : Grp K Nat} (hA : X.A = L ++ a :: R) (hb : b ∈ R) (h : Under r b.p b.q) :
    Under r a.p a.q := by
  have haA : a ∈ X.A := by rw [hA]; simp
  have hbA : b ∈ X.A := by rw [hA]; simp [hb]
  have xa : a.p.x ≤ r.x := (Pt.x_le_of_le (hc.lineA a haA).2.2.1).trans hpos
  have qa : r.x < a.q.x := hE _ (hc.evR a (by simp [haA]))
  have qb : r.x < b.q.x := hE _ (hc.evR b (by simp [hbA]))
  refine ⟨xa, qa, ?_⟩
  have na : a.p.x ≠ a.q.x := (xa.trans_lt qa).ne
  -- the point of `a` in the column of `r`
  set r' : Pt K := ⟨r.x, hgt a.p a.q r.x⟩ with hr'
  have d1 : det a.p a.q r' = 0 := by rw [det_hgt na]; simp [hr']
  have d2 : det b.p b.q r' ≤ 0 := by
    set pos' : Pt K := ⟨r.x, max pos.y r'.y⟩ with hp'
    have l1 : pos ≤ pos' := by
      rcases hpos.lt_or_eq with k | k
      · exact .inl k
      · exact .inr ⟨k, le_max_left _ _⟩
    have l2 : r' ≤ pos' := .inr ⟨rfl, le_max_right _ _⟩
    have l3 : ∀ e ∈ X.E, pos' < e.point := fun e he => .inl (hE e he)
    have hc' := (hc.advance hch hS l1 fun e he => (l3 e he).le).1
    obtain ⟨j1, j2⟩ := (hc'.pairs hA).2 b hb
    have ba := hc'.lineA a haA
    have bb := hc'.lineA b hbA
    by_cases k : b.p ≤ r'
    · have m := mono ba.1.2 bb.1.2 j1 (r := r') (by
        intro x hx o1 o2
        rcases j2 x (hx.trans l2) o1 o2 with e | ⟨e1, e2, -⟩
        · exact .inl e
        · have e3 : pos' = a.q := e1.symm.trans e2
          exact absurd (l3 _ (hc.evR a (by simp [haA]))) (by rw [e3]; exact lt_irrefl _))
        (by
          rcases xa.lt_or_eq with e | e
          · exact .inl e
          · exact .inr ⟨e, by rw [hr']; simp only; rw [← e, hgt_left]⟩)
        (.inl qa) k (.inl qb)
      exact m.2 d1
    · rw [not_le] at k
      have kx : b.p.x = r.x := le_antisymm (show b.p.x ≤ pos'.x from Pt.x_le_of_le bb.2.2.1) (show r'.x ≤ b.p.x from Pt.x_le_of_le k.le)
      have ky := Pt.y_lt_of_lt_of_eq k kx.symm
      have e : det b.p b.q r' = (b.q.x - b.p.x) * (r'.y - b.p.y) := by
        unfold det; rw [kx]; simp only [hr']; ring
      rw [e]
      exact mul_nonpos_of_nonneg_of_nonpos (by linarith) (by linarith)
  have e1 : ∀ p q : Pt K, det p q r = det p q r' + (q.x - p.x) * (r.y - r'.y) := by
    intro p q; unfold det; simp only [hr']; ring
  have h3 := h.2.2
  rw [e1] at h3 ⊢
  rw [d1]
  have hy : 0 < r.y - r'.y := by
    by_contra k
    have := mul_nonneg (show 0 ≤ b.q.x - b.p.x by linarith [h.1, h.2.1]) (neg_nonneg.2 (not_lt.1 k))
    linarith
  have := mul_pos (show 0 < a.q.x - a.p.x by linarith) hy
  linarith

theorem prefix_split {α : Type _} (P : α → Prop) : ∀ l : List α, (∀ L a R, l = L ++ a :: R → ∀ b ∈ R, P b → P a) →
    ∃ l1 l2, l = l1 ++ l2 ∧ (∀ a ∈ l1, P a) ∧ ∀ a ∈ l2, ¬ P a
  | [], _ => ⟨[], [], rfl, by simp, by simp⟩
  | a :: l, h => by
    by_cases k : P a
    · obtain ⟨l1, l2, h1, h2, h3⟩ := prefix_split P l fun L b R e => h (a :: L) b R (by rw [e]; rfl)
      exact ⟨a :: l1, l2, by rw [h1]; rfl, by simpa [k] using h2, h3⟩
    · refine ⟨[], a :: l, rfl, by simp, ?_⟩
      intro b hb hP
      rcases List.mem_cons.1 hb with rfl | hb
      · exact k hP
      · exact k (h [] a l rfl b hb hP)

/-- The number of edges of an operand that pass below `r`. -/
def countUnder (geom : Nat → LineOrPoint K) (isFirst : Nat → Bool) (input : List Nat) (f : Bool) (r : Pt K) : Nat :=
  input.countP fun c => isFirst c = f ∧ Under r (geom c).first (geom c).second

theorem isTy_infinity : (Region.infinity ty).isTy ty = false := by cases ty <;> rfl

/-- The region just below `r`, found in the column of active groups, is as the truth table says. -/
theorem column {pos : Pt K} {st X} (he : EdgesOk geom isFirst input) (hF : Full org (fun i => (geom i).toLine) input pos st X) (r : Pt K)
    (h0 : pos.x ≤ r.x ∨ X.A = [] ∧ X.D = []) (hE : ∀ e ∈ X.E, r.x < e.point.x) :
    (emits ty isFirst (Region.infinity ty) X.A).countP (edgeUnder r) % 2 = 1 ↔
      inResult ty (decide (countUnder geom isFirst input true r % 2 = 1)) (decide (countUnder geom isFirst input false r % 2 = 1)) = true := by
  obtain ⟨A1, A2, hA, u1, u2⟩ := prefix_split (fun g : Grp K Nat => Under r g.p g.q) X.A (by
    intro L a R e b hb hu
    rcases h0 with h0 | ⟨h0, -⟩
    · exact under_mono hF.inv.core hF.inv.chain hF.inv.S h0 hE e hb hu
    · rw [h0] at e; simp at e)
  have hD : ∀ g ∈ X.D, g.q.x ≤ r.x := by
    intro g hg
    rcases h0 with h0 | ⟨-, h0⟩
    · exact (Pt.x_le_of_le (hF.hist.Dq g hg)).trans h0
    · rw [h0] at hg; cases hg
  have hP : ∀ g ∈ X.P, r.x < g.p.x := by
    intro g hg
    have := (List.mem_filter.1 (hF.inv.core.evL.mem_iff.2 (List.mem_map_of_mem hg))).1
    exact hE _ this
  have hf : X.pieces.filter (fun g => decide (Under r g.p g.q)) = A1 := by
    unfold Abs.pieces
    rw [hF.inv.S, hA]
    simp only [List.filter_append, List.append_nil]
    rw [filter_nil' (l := X.D), filter_self' (l := A1), filter_nil' (l := A2), filter_nil' (l := X.P)]
    · simp
    · intro g hg k
      have k := (of_decide_eq_true k).1
      exact absurd (hP g hg) (not_lt.2 k)
    · intro g hg k; exact u2 g hg (of_decide_eq_true k)
    · intro g hg; exact decide_eq_true (u1 g hg)
    · intro g hg k
      have k := (of_decide_eq_true k).2.1
      exact absurd (hD g hg) (not_le.2 k)
  have hcount : ∀ f, oddly f ((A1.flatMap Grp.cs).map isFirst) = decide (countUnder geom isFirst input f r % 2 = 1) := by
    intro f
    have t1 := tri_countP X.pieces (fun c => decide (isFirst c = f)) fun p q => decide (Under r p q)
    rw [hf] at t1
    have t2 := hF.tiled.under (by
      intro t ht
      obtain ⟨g, hg, ht⟩ := List.mem_flatMap.1 ht
      obtain ⟨c, hc, rfl⟩ := List.mem_map.1 ht
      have hs := (hF.pieces.ok g hg).sub c hc
      obtain ⟨e1, e2, e3⟩ := he.ends hs.mem
      refine ⟨?_, hs.p, hs.q⟩
      show lo (geom c).toLine < hi (geom c).toLine
      rw [e1, e2]; exact e3) (fun c => decide (isFirst c = f)) r
    rw [he.linesOf] at t2
    have t3 : countUnder geom isFirst input f r = (A1.flatMap Grp.cs).countP fun c => decide (isFirst c = f) := by
      rw [← t1]
      unfold countUnder
      simp only [← Bool.decide_and, decide_eq_true_eq] at t2 ⊢
      rw [t2]
      refine List.countP_congr fun c hc => ?_
      obtain ⟨e1, e2, e3⟩ := he.ends hc
      rw [e1, e2]
    rw [t3]
    unfold oddly
    rw [List.count, List.countP_map]
    congr 2
  rw [hA, emits_append, emits_under_zero (l := A2) r u2, Nat.add_zero, emits_parity r u1, isTy_infinity, Bool.false_xor]
  have : crossAll isFirst (Region.infinity ty) (A1.flatMap Grp.cs) = ((A1.flatMap Grp.cs).map isFirst).foldl Region.cross (Region.infinity ty) := by
    rw [List.foldl_map]; rfl
  rw [this, C32_region_parity, hcount, hcount]

/-- Of the edges a run adds, the parity of those that pass below a point is given by the truth table. -/
theorem Trace.parity {pos : Pt K} {st X es} (he : EdgesOk geom isFirst input) (h : Trace ty geom isFirst org input pos st X es) (r : Pt K) :
    (pos.x ≤ r.x ∨ X.A = [] ∧ X.D = []) →
    (es.countP (edgeUnder r) % 2 = 1 ↔
      inResult ty (decide (countUnder geom isFirst input true r % 2 = 1)) (decide (countUnder geom isFirst input false r % 2 = 1)) = true) := by
  induction h with
  | @done pos st X hF hE =>
    intro h0
    have h1 := (Trace.done (ty := ty) (isFirst := isFirst) hF hE).under_active he r (by rw [hE]; simp)
    rw [h1]
    exact column he hF r h0 (by rw [hE]; simp)
  | @step pos pt st st' X X' out L0 E0 U0 L E U S D1 T es hF hgt hpt hmin hne h' hgt' hs ht ih =>
    intro h0
    by_cases hE : ∀ e ∈ X.E, r.x < e.point.x
    · have h1 := (Trace.step hF hgt hpt hmin hne h' hgt' hs ht).under_active he r hE
      rw [h1]
      exact column he hF r h0 hE
    · push Not at hE
      obtain ⟨e, he1, he2⟩ := hE
      have hx : pt.x ≤ r.x := (Pt.x_le_of_le (hmin e he1)).trans he2
      rw [List.countP_append, emits_under_zero, Nat.zero_add]
      · exact ih (.inl hx)
      · rintro g hg ⟨-, k, -⟩
        rw [(hs.endE g hg).2] at k
        exact absurd hx (not_le.2 k)

end GeoCrossings

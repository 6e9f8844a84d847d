import Verif.Lemmas.BopLoops
import Verif.Lemmas.Tilings

/-! # One round of the loop of `Op::sweep` -/
set_option linter.unusedSectionVars false
namespace GeoCrossings
open Spec BoolOp

variable {K : Type} [Field K] [LinearOrder K] [IsStrictOrderedRing K]
variable {org : Nat → Pt K}

/-- What is assumed about the edges: they are lines, and their ends meet in even numbers, for each operand. -/
structure EdgesOk (geom : Nat → LineOrPoint K) (isFirst : Nat → Bool) (input : List Nat) : Prop where
  line : ∀ c ∈ input, ∃ a b, geom c = .line a b ∧ a < b
  nodup : input.Nodup
  even : ∀ f r, Even (input.countP (fun c => isFirst c = f ∧ (geom c).first = r) + input.countP (fun c => isFirst c = f ∧ (geom c).second = r))

/-- No two edges have more than one point in common. -/
def Apart2 (geom : Nat → LineOrPoint K) (input : List Nat) : Prop :=
  ∀ i ∈ input, ∀ j ∈ input, i ≠ j → ∀ x y, OnSeg (geom i).first (geom i).second x → OnSeg (geom i).first (geom i).second y →
    OnSeg (geom j).first (geom j).second x → OnSeg (geom j).first (geom j).second y → x = y

/-- The region above an edge, as stored for its crossables, is got by crossing everything up to it. -/
def RegInv (ty : OpType) (isFirst : Nat → Bool) (X : Abs K Nat) (cells : Cells) : Prop :=
  ∀ L g R, X.A = L ++ g :: R → ∀ c ∈ g.cs, (cells c).1 = crossAll isFirst (Region.infinity ty) ((L ++ [g]).flatMap Grp.cs)

theorem split_append {α : Type _} {a b l r : List α} {g : α} (h : a ++ b = l ++ g :: r) :
    (∃ r', a = l ++ g :: r' ∧ r = r' ++ b) ∨ (∃ l', l = a ++ l' ∧ b = l' ++ g :: r) := by
  rcases List.append_eq_append_iff.1 h with ⟨c, rfl, rfl⟩ | ⟨c, h1, h2⟩
  · exact .inr ⟨c, rfl, rfl⟩
  · cases c with
    | nil => simp at h1 h2; subst h1; exact .inr ⟨[], by simp, by simpa using h2.symm⟩
    | cons x c =>
      simp only [List.cons_append, List.cons.injEq] at h2
      obtain ⟨rfl, rfl⟩ := h2
      exact .inl ⟨c, h1, rfl⟩

theorem same_cs {l l' : List (Grp K Nat)} (h : List.Forall₂ Same l l') : l'.flatMap Grp.cs = l.flatMap Grp.cs := by
  induction h with
  | nil => rfl
  | cons h1 _ ih => rw [List.flatMap_cons, List.flatMap_cons, ih, h1.cs]

theorem filter_nil' {α : Type _} {l : List α} {P : α → Bool} (h : ∀ a ∈ l, ¬P a = true) : l.filter P = [] := List.filter_eq_nil_iff.2 h

theorem filter_self' {α : Type _} {l : List α} {P : α → Bool} (h : ∀ a ∈ l, P a = true) : l.filter P = l := List.filter_eq_self.2 h

section
variable {geom : Nat → LineOrPoint K} {isFirst : Nat → Bool} {input : List Nat} {pos pt : Pt K} {st st' : Sweep K Nat} {X X' : Abs K Nat}

theorem EdgesOk.ends (he : EdgesOk geom isFirst input) {c : Nat} (hc : c ∈ input) :
    lo (geom c).toLine = (geom c).first ∧ hi (geom c).toLine = (geom c).second ∧ (geom c).first < (geom c).second := by
  obtain ⟨a, b, h1, h2⟩ := he.line c hc
  rw [h1]
  simp [lo, hi, LineOrPoint.toLine, LineOrPoint.first, LineOrPoint.second, h2, h2.le]

theorem EdgesOk.piece (he : EdgesOk geom isFirst input) {g : Grp K Nat} (hg : PieceOk (fun i => (geom i).toLine) input g) {c : Nat} (hc : c ∈ g.cs) :
    c ∈ input ∧ g.p < (geom c).second ∧ g.q ≤ (geom c).second ∧ (geom c).first ≤ g.p := by
  have hs := hg.sub c hc
  obtain ⟨e1, e2, e3⟩ := he.ends hs.mem
  have h1 := hs.q
  have h0 := hs.p
  rw [onLine_iff, e1, e2, onSeg_iff e3] at h1 h0
  exact ⟨hs.mem, lt_of_lt_of_le hg.line.2 h1.2.2, h1.2.2, h0.2.1⟩

theorem EdgesOk.linesOf (he : EdgesOk geom isFirst input) : linesOf (fun i => (geom i).toLine) input = input := by
  unfold GeoCrossings.linesOf
  rw [List.filter_eq_self]
  intro c hc
  obtain ⟨e1, e2, e3⟩ := he.ends hc
  simp only [ne_eq, decide_eq_true_eq]
  intro k
  rw [← e1, ← e2, lo, hi, k, min_self, max_self] at e3
  exact lt_irrefl _ e3

theorem tri_countP (l : List (Grp K Nat)) (P : Nat → Bool) (Q : Pt K → Pt K → Bool) :
    (l.flatMap Grp.tri).countP (fun t => P t.1 && Q t.2.1 t.2.2) = ((l.filter fun g => Q g.p g.q).flatMap Grp.cs).countP P := by
  induction l with
  | nil => simp
  | cons g l ih =>
    rw [List.flatMap_cons, List.countP_append, ih, List.filter_cons, Grp.tri, List.countP_map]
    by_cases k : Q g.p g.q = true
    · rw [if_pos k, List.flatMap_cons, List.countP_append]
      simp [Function.comp_def, k]
    · rw [if_neg k]
      have : List.countP ((fun t : Nat × Pt K × Pt K => P t.1 && Q t.2.1 t.2.2) ∘ fun c => (c, g.p, g.q)) g.cs = 0 := by
        rw [List.countP_eq_zero]; intro c _; simp [k]
      rw [this, Nat.zero_add]

/-- The edges that end and those that start at a point are even in number, for each operand. -/
theorem shape_even (he : EdgesOk geom isFirst input) (h : Full org (fun i => (geom i).toLine) input pos st X) (hpt : pos < pt)
    (h' : Full org (fun i => (geom i).toLine) input pt st' X') (hgt' : ∀ e ∈ X'.E, pt < e.point)
    {out : Out K Nat} {L0 E0 U0 L E U S D1 : List (Grp K Nat)} {T : List (Out K Nat)}
    (hs : Shape pt X X' out L0 E0 U0 L E U S D1 T) (f : Bool) :
    Even ((E.flatMap Grp.cs ++ S.flatMap Grp.cs).countP fun c => isFirst c = f) := by
  have ht := h'.tiled.ends (fun c => decide (isFirst c = f)) pt
  rw [he.linesOf] at ht
  have e1 : ∀ Q : Pt K → Prop, [DecidablePred Q] → input.countP (fun c => decide (decide (isFirst c = f) = true ∧ Q (lo ((geom c).toLine)))) =
      input.countP fun c => decide (isFirst c = f ∧ Q (geom c).first) := by
    intro Q _
    refine List.countP_congr fun c hc => ?_
    rw [(he.ends hc).1]; simp
  have e2 : ∀ Q : Pt K → Prop, [DecidablePred Q] → input.countP (fun c => decide (decide (isFirst c = f) = true ∧ Q (hi ((geom c).toLine)))) =
      input.countP fun c => decide (isFirst c = f ∧ Q (geom c).second) := by
    intro Q _
    refine List.countP_congr fun c hc => ?_
    rw [(he.ends hc).2.1]; simp
  rw [e1 fun r => r = pt, e2 fun r => r = pt] at ht
  have hev := he.even f pt
  rw [Nat.even_add] at ht
  have ht := ht.2 hev
  have t1 := tri_countP X'.pieces (fun c => decide (isFirst c = f)) fun p q => decide (p = pt)
  have t2 := tri_countP X'.pieces (fun c => decide (isFirst c = f)) fun p q => decide (q = pt)
  simp only [← Bool.decide_and] at t1 t2
  simp only [decide_eq_true_eq] at ht t1 t2
  rw [t1, t2] at ht
  -- which pieces have an end at the point
  have hP : ∀ g ∈ X'.P, pt < g.p ∧ g.p < g.q := by
    intro g hg
    have := (List.mem_filter.1 (h'.inv.core.evL.mem_iff.2 (List.mem_map_of_mem hg))).1
    exact ⟨hgt' _ this, (h'.inv.core.lineP g hg).1.2⟩
  have hD : ∀ g ∈ X.D, g.p < g.q ∧ g.q < pt := by
    intro g hg
    exact ⟨(h.pieces.ok g (by unfold Abs.pieces; simp [hg])).line.2, (h.hist.Dq g hg).trans_lt hpt⟩
  have hD1 : ∀ g ∈ D1, g.q = pt ∧ g.p < pt := by
    intro g hg
    have := hs.endE g (hs.en.mem_iff.1 hg)
    exact ⟨this.2, this.2 ▸ this.1.2⟩
  have hpc : X'.pieces = X.D ++ D1 ++ (L ++ S ++ U) ++ X'.P := by
    unfold Abs.pieces; rw [hs.dn, hs.after, h'.inv.S, List.append_nil]
  have f1 : X'.pieces.filter (fun g => decide (g.p = pt)) = S := by
    rw [hpc]
    simp only [List.filter_append]
    rw [filter_nil' (l := X.D), filter_nil' (l := D1), filter_nil' (l := L),
      filter_self' (l := S), filter_nil' (l := U), filter_nil' (l := X'.P)]
    · simp
    · intro g hg; simpa using (hP g hg).1.ne'
    · intro g hg; simpa using (hs.up g hg).1.ne
    · intro g hg; simpa using (hs.startS g hg).2
    · intro g hg; simpa using (hs.low g hg).1.ne
    · intro g hg; simpa using (hD1 g hg).2.ne
    · intro g hg; simpa using ((hD g hg).1.trans (hD g hg).2).ne
  have f2 : X'.pieces.filter (fun g => decide (g.q = pt)) = D1 := by
    rw [hpc]
    simp only [List.filter_append]
    rw [filter_nil' (l := X.D), filter_self' (l := D1), filter_nil' (l := L),
      filter_nil' (l := S), filter_nil' (l := U), filter_nil' (l := X'.P)]
    · simp
    · intro g hg; simpa using ((hP g hg).1.trans (hP g hg).2).ne'
    · intro g hg; simpa using (hs.up g hg).2.1.ne'
    · intro g hg
      have := hs.startS g hg
      simpa using (this.2 ▸ this.1.2).ne'
    · intro g hg; simpa using (hs.low g hg).2.1.ne'
    · intro g hg; simpa using (hD1 g hg).1
    · intro g hg; simpa using (hD g hg).2.ne
  rw [f1, f2, ((hs.en.flatMap_right _)).countP_eq, Nat.add_comm, ← List.countP_append] at ht
  exact ht

/-- No edge is in two active groups. -/
theorem active_nodup (he : EdgesOk geom isFirst input) (h' : Full org (fun i => (geom i).toLine) input pt st' X') (hgt' : ∀ e ∈ X'.E, pt < e.point) :
    (X'.A.flatMap Grp.cs).Nodup := by
  have ht := h'.tiled.cover (by rw [he.linesOf]; exact he.nodup) pt
  have hA : ∀ g ∈ X'.A, g.p ≤ pt ∧ pt < g.q := fun g hg =>
    ⟨(h'.inv.core.lineA g hg).2.2.1, hgt' _ (h'.inv.core.evR g (by simp [hg]))⟩
  refine ht.sublist ?_
  have e : X'.A.flatMap Grp.cs = ((X'.A.flatMap Grp.tri).filter fun t => decide (t.2.1 ≤ pt ∧ pt < t.2.2)).map (·.1) := by
    rw [List.filter_eq_self.2, List.map_flatMap]
    · congr 1
      funext g
      unfold Grp.tri
      rw [List.map_map]; exact (List.map_id _).symm
    · intro t ht
      obtain ⟨g, hg, ht⟩ := List.mem_flatMap.1 ht
      obtain ⟨c, hc, rfl⟩ := List.mem_map.1 ht
      simpa using hA g hg
  rw [e]
  refine (List.Sublist.filter _ ?_).map _
  unfold Abs.pieces
  simp only [List.flatMap_append]
  exact ((List.sublist_append_right _ _).trans (List.sublist_append_left _ _)).trans (List.sublist_append_left _ _)

theorem Full.conc {st2 : Sweep K Nat} (h : Full org (fun i => (geom i).toLine) input pos st X) (hc : Conc org st2 X) :
    Full org (fun i => (geom i).toLine) input pos st2 X :=
  ⟨⟨hc, h.inv.core, h.inv.chain, h.inv.S⟩, h.pieces, h.hist, h.tiled, h.ptQ, h.pts, h.ptl, h.qcs⟩

theorem Same.p_eq {g g' : Grp K Nat} (h : Same g g') : g'.p = g.p := h.p

/-- Groups of non-overlapping edges have one member. -/
theorem single_member (he : EdgesOk geom isFirst input) (hap : Apart2 geom input) {g : Grp K Nat} (hok : PieceOk (fun i => (geom i).toLine) input g)
    (hnd : g.cs.Nodup) : g.mem.length ≤ 1 := by
  have hlen : g.mem.length = g.cs.length := by unfold Grp.cs; simp
  rw [hlen]
  have hon : ∀ c ∈ g.cs, c ∈ input ∧ OnSeg (geom c).first (geom c).second g.p ∧ OnSeg (geom c).first (geom c).second g.q := by
    intro c hc
    have hsub := hok.sub c hc
    obtain ⟨e1, e2, -⟩ := he.ends hsub.mem
    have k1 := hsub.p
    have k2 := hsub.q
    rw [onLine_iff, e1, e2] at k1 k2
    exact ⟨hsub.mem, k1, k2⟩
  rcases hcs : g.cs with - | ⟨c, - | ⟨d, l⟩⟩
  · simp
  · simp
  · rw [hcs] at hnd hon
    have hcd : c ≠ d := fun e => (List.nodup_cons.1 hnd).1 (by simp [e])
    obtain ⟨c1, c2, c3⟩ := hon c (by simp)
    obtain ⟨d1, d2, d3⟩ := hon d (by simp)
    exact absurd (hap c c1 d d1 hcd g.p g.q c2 c3 d2 d3) hok.line.2.ne

/-- All crossings of a batch are ends of lines. -/
theorem batch_types (he : EdgesOk geom isFirst input) (h' : Full org (fun i => (geom i).toLine) input pt st' X') {out : Out K Nat}
    (hlog : X'.log = X.log ++ stamp pt out) : ∀ o ∈ out, o.2 = .lineLeft ∨ o.2 = .lineRight := by
  intro o ho
  have hr := h'.hist.sound (pt, o) (by rw [hlog]; exact List.mem_append_right _ (List.mem_map_of_mem ho))
  rcases hr.geom with k | k | k
  · exact .inl k.1
  · exact .inr k.1
  · exfalso
    obtain ⟨e1, e2, e3⟩ := he.ends hr.mem
    have k1 := k.2.2.1
    have k2 := k.2.2.2
    simp only at k1 k2 e1 e2 e3
    rw [← e1, ← e2, lo, hi, k1, k2, min_self, max_self] at e3
    exact lt_irrefl _ e3

/-- One round, given the sorted batch. -/
theorem batchStep_spec (he : EdgesOk geom isFirst input) (ty : OpType) (h : Full org (fun i => (geom i).toLine) input pos st X) (hpt : pos < pt)
    (h' : Full org (fun i => (geom i).toLine) input pt st' X') (hgt' : ∀ e ∈ X'.E, pt < e.point)
    {out : Out K Nat} {L0 E0 U0 L E U S D1 : List (Grp K Nat)} {T : List (Out K Nat)}
    (hs : Shape pt X X' out L0 E0 U0 L E U S D1 T) (hlog : X'.log = X.log ++ stamp pt out) {cells : Cells} (hR : RegInv ty isFirst X cells)
    {srt : List (Crossing K Nat) → List (Crossing K Nat)} (hst : Stable compareCrossings srt ∨ Apart2 geom input) :
    ∃ st2 cells', (∀ dbg rings, batchStep dbg ty geom isFirst srt ⟨st', batchOf out⟩ cells rings =
        (addAll dbg (emits ty isFirst (crossAll isFirst (Region.infinity ty) (L.flatMap Grp.cs)) E) rings).map
          fun rings => (⟨st2, batchOf out⟩, cells', rings)) ∧
      Full org (fun i => (geom i).toLine) input pt st2 X' ∧ RegInv ty isFirst X' cells' := by
  have hty := batch_types he h' hlog
  have hst' : Stable compareCrossings srt ∨ ∀ g ∈ S, g.mem.length ≤ 1 := by
    refine hst.imp_right fun hap g hg => ?_
    have hgA : g ∈ X'.A := by rw [hs.after]; simp [hg]
    exact single_member he hap (h'.pieces.ok g (by unfold Abs.pieces; simp [hgA])) ((List.nodup_flatMap.1 (active_nodup he h' hgt')).1 g hgA)
  obtain ⟨RE, RS, hsort, hE, hS, hmem⟩ := sorted_batch hs hty hst'
  obtain ⟨c1, c2⟩ := blocks_cmp hE hS (fun g hg => (hs.endE g hg).1) hs.startS hs.ordE hs.ordS
  rw [List.pairwise_append] at c2
  -- the groups
  have okE : ∀ g ∈ E, PieceOk (fun i => (geom i).toLine) input g := by
    intro g hg
    refine h'.pieces.ok g ?_
    unfold Abs.pieces; rw [hs.dn]
    simp [hs.en.mem_iff.2 hg]
  have okA : ∀ g ∈ L ++ S ++ U, PieceOk (fun i => (geom i).toLine) input g := by
    intro g hg
    refine h'.pieces.ok g ?_
    unfold Abs.pieces; rw [hs.after]
    simp only [List.mem_append] at hg ⊢; tauto
  have hneE : ∀ t ∈ RE, t ≠ [] := by
    intro t ht e
    obtain ⟨g, hg, hgt⟩ := forall₂_mem_right' hE ht
    have := hgt.cs
    rw [e, List.map_nil] at this
    exact (okE g (List.mem_reverse.1 hg)).ne this.symm.eq_nil
  have hneS : ∀ t ∈ RS, t ≠ [] := by
    intro t ht e
    obtain ⟨g, hg, hgt⟩ := forall₂_mem_right' hS ht
    have := hgt.cs
    rw [e, List.map_nil] at this
    exact (okA g (by simp [hg])).ne this.symm.eq_nil
  have hrest : ∀ c ∈ RS.flatten.head?, c.atLeft = true := by
    intro c hc
    obtain ⟨t, ht, hct⟩ := List.mem_flatten.1 (List.mem_of_mem_head? hc)
    obtain ⟨g, hg, hgt⟩ := forall₂_mem_right' hS ht
    exact (hgt.all c hct).1
  have hEr : ∀ L1 g R, E.reverse.reverse = L1 ++ g :: R → ∀ c ∈ g.cs, getRegion geom cells c g.geom =
      crossAll isFirst (crossAll isFirst (Region.infinity ty) (L.flatMap Grp.cs)) ((L1 ++ [g]).flatMap Grp.cs) := by
    intro L1 g R hL c hc
    rw [List.reverse_reverse] at hL
    have hgE : g ∈ E := by rw [hL]; simp
    unfold getRegion
    rw [if_pos (show g.geom.first < (geom c).second from (he.piece (okE g hgE) hc).2.1)]
    have hsE := hs.sE.flip
    rw [hL] at hsE
    obtain ⟨m1, b, m2, e0, j1, j2, j3⟩ := forall₂_split hsE
    have hb : b.cs = g.cs := (Same.cs j2).symm
    rw [hR (L0 ++ m1) b (m2 ++ U0) (by rw [hs.before, e0]; simp) c (hb ▸ hc), ← crossAll_append]
    congr 1
    simp only [List.flatMap_append, List.flatMap_cons, List.flatMap_nil, List.append_nil, List.append_assoc]
    rw [same_cs hs.sL, same_cs j1.flip, hb]
  have hend : ∀ dbg rings, endLoop dbg ty geom isFirst cells ((RE ++ RS).flatten) none rings =
      (addAll dbg (emits ty isFirst (crossAll isFirst (Region.infinity ty) (L.flatMap Grp.cs)) E) rings).bind fun rings => some (rings, RS.flatten) := by
    intro dbg rings
    rw [List.flatten_append, endLoop_blocks hrest hE hneE (fun s hs => c1 s (by simp [hs])) c2.1 hEr, List.reverse_reverse]
  have heven := shape_even he h hpt h' hgt' hs
  have hnd := active_nodup he h' hgt'
  rw [hs.after] at hnd
  -- the invariant, from a description of the new cells
  have fin : ∀ cells' : Cells, (∀ c, c ∉ S.flatMap Grp.cs → cells' c = cells c) →
      (∀ L1 g R, S = L1 ++ g :: R → ∀ c ∈ g.cs, (cells' c).1 =
        crossAll isFirst (crossAll isFirst (Region.infinity ty) (L.flatMap Grp.cs)) ((L1 ++ [g]).flatMap Grp.cs)) →
      RegInv ty isFirst X' cells' := by
    intro cells' k1 k2 L1 g R hA c hc
    rw [hs.after] at hA
    rw [List.flatMap_append, List.flatMap_append, List.nodup_append', List.nodup_append'] at hnd
    rcases split_append hA with ⟨r', hA, -⟩ | ⟨l', rfl, hU⟩
    · rcases split_append hA with ⟨r', hL, -⟩ | ⟨l', rfl, hS'⟩
      · -- below
        have hcL : c ∈ L.flatMap Grp.cs := List.mem_flatMap.2 ⟨g, by rw [hL]; simp, hc⟩
        rw [k1 c fun hcS => hnd.1.2.2 hcL hcS]
        have hsL := hs.sL.flip
        rw [hL] at hsL
        obtain ⟨m1, b, m2, e0, j1, j2, j3⟩ := forall₂_split hsL
        have hb : b.cs = g.cs := (Same.cs j2).symm
        rw [hR m1 b (m2 ++ E0 ++ U0) (by rw [hs.before, e0]; simp) c (hb ▸ hc)]
        congr 1
        simp only [List.flatMap_append, List.flatMap_cons, List.flatMap_nil, List.append_nil]
        rw [same_cs j1.flip, hb]
      · rw [k2 l' g r' hS' c hc, ← crossAll_append]
        congr 1
        simp
    · have hcU : c ∈ U.flatMap Grp.cs := List.mem_flatMap.2 ⟨g, by rw [hU]; simp, hc⟩
      rw [k1 c fun hcS => hnd.2.2 (List.mem_append_right _ hcS) hcU]
      have hsU := hs.sU.flip
      rw [hU] at hsU
      obtain ⟨m1, b, m2, e0, j1, j2, j3⟩ := forall₂_split hsU
      have hb : b.cs = g.cs := (Same.cs j2).symm
      rw [hR (L0 ++ E0 ++ m1) b m2 (by rw [hs.before, e0]; simp) c (hb ▸ hc)]
      simp only [List.flatMap_append, List.flatMap_cons, List.flatMap_nil, List.append_nil, crossAll_append]
      rw [← same_cs hs.sL, ← same_cs hs.sE, ← same_cs j1.flip, hb, crossAll_even _ heven]
  cases hSe : S with
  | nil =>
    have hRS : RS = [] := by rw [hSe] at hS; cases hS; rfl
    refine ⟨st', cells, ?_, h', fin cells (fun _ _ => rfl) (by rw [hSe]; simp)⟩
    intro dbg rings
    unfold batchStep
    simp only [hsort]
    rw [hend dbg rings, hRS]
    cases addAll dbg (emits ty isFirst (crossAll isFirst (Region.infinity ty) (L.flatMap Grp.cs)) E) rings <;> simp
  | cons g0 S1 =>
    have hS0 := hS
    rw [hSe] at hS hmem
    cases hS with
    | @cons _ t0 _ RS1 hg0 hS1 =>
    cases hmem with
    | cons hm0 _ =>
    have hne0 := hneS t0 (by simp)
    cases t0 with
    | nil => exact absurd rfl hne0
    | cons d t0 =>
      have hg0A : g0 ∈ X'.A := by rw [hs.after, hSe]; simp
      have hg0l : g0 ∈ X'.live := by unfold Abs.live; simp [hg0A]
      have hkey : d.key = g0.root := by
        unfold Grp.root
        rw [← hm0]; rfl
      -- the neighbour below
      have hAe : X'.A = L ++ g0 :: (S1 ++ U) := by rw [hs.after, hSe]; simp
      have hpairs := h'.inv.core.pairs hAe
      have hg0L := (h'.inv.core.lineA g0 hg0A).1
      have hPl := h'.inv.conc.placed hg0l hg0L (L := L) (R := S1 ++ U) (by
        intro a ha
        have haA : a ∈ X'.A := by rw [hAe]; simp only [List.mem_append, List.mem_cons] at ha ⊢; tauto
        exact ⟨by unfold Abs.live; simp [haA], (h'.inv.core.lineA a haA).1⟩) (fun a ha => (hpairs.1 a ha).1) (fun a ha => (hpairs.2 a ha).1)
      obtain ⟨a, p1, p2, p3⟩ := Sweep.prevKey_spec hPl (.inr ⟨rfl, h'.inv.conc.cmp_self hg0l hg0L⟩)
        (h'.inv.conc.act.trans (by rw [hAe]; simp))
      have hconc : Conc org { st' with active := a } X' :=
        ⟨h'.inv.conc.rep, p2.trans (by rw [hAe]; simp), p3.trans h'.inv.conc.size, h'.inv.conc.ev⟩
      have hprev : ∃ prev, st'.prevActive d = some ({ st' with active := a }, prev) ∧
          (match prev with | some s => getRegion geom cells s.crossable s.geom | none => Region.infinity ty) =
            crossAll isFirst (Region.infinity ty) (L.flatMap Grp.cs) := by
        unfold Sweep.prevActive
        rw [if_pos (hrest d (by simp)), hkey, p1]
        simp only [Option.bind_eq_bind, Option.bind_some]
        rcases List.eq_nil_or_concat L with hL | ⟨L', gl, hL⟩
        · subst hL
          exact ⟨none, by simp, by simp [crossAll]⟩
        · rw [List.concat_eq_append] at hL
          have hglA : gl ∈ X'.A := by rw [hAe, hL]; simp
          have hgl : gl ∈ X'.live := by unfold Abs.live; simp [hglA]
          have hgo := h'.inv.conc.rep.grp gl hgl
          obtain ⟨c, l, hm⟩ := Grp.exists_cons hgo.ne
          have hLk := hgo.linked
          rw [hm] at hLk
          obtain ⟨⟨s, q1, q2, q3, q4, -⟩, -⟩ := hLk
          refine ⟨some s, ?_, ?_⟩
          · rw [hL]
            simp [q1]
          · have hc : c ∈ gl.cs := by unfold Grp.cs; rw [hm]; simp
            simp only
            rw [q3, q4]
            unfold getRegion
            rw [if_pos (show gl.geom.first < (geom c).second from (he.piece (okA gl (by rw [hL]; simp)) hc).2.1)]
            have hsL := hs.sL.flip
            rw [hL] at hsL
            obtain ⟨m1, b, m2, e0, j1, j2, j3⟩ := forall₂_split hsL
            have hb : b.cs = gl.cs := (Same.cs j2).symm
            rw [hR m1 b (m2 ++ E0 ++ U0) (by rw [hs.before, e0]; simp) c (hb ▸ hc)]
            congr 1
            rw [hL]
            simp only [List.flatMap_append, List.flatMap_cons, List.flatMap_nil, List.append_nil]
            rw [same_cs j1.flip, hb]
      obtain ⟨prev, q1, q2⟩ := hprev
      obtain ⟨cells', s1, s2, s3⟩ := startLoop_blocks (geom := geom) (isFirst := isFirst)
        (region := crossAll isFirst (Region.infinity ty) (L.flatMap Grp.cs)) (cells := cells) hS0 hneS
        (fun s hs => c1 s (List.mem_append_right _ hs)) c2.2.1 (by
          intro g hg c hc
          have := (he.piece (okA g (by simp [hg])) hc).2.1
          rwa [(hs.startS g hg).2] at this) (by
          rw [List.flatMap_append, List.flatMap_append, List.nodup_append', List.nodup_append'] at hnd
          exact hnd.1.2.1)
      refine ⟨{ st' with active := a }, cells', ?_, h'.conc hconc, fin cells' s2 s3⟩
      intro dbg rings
      unfold batchStep
      simp only [hsort]
      rw [hend dbg rings]
      cases addAll dbg (emits ty isFirst (crossAll isFirst (Region.infinity ty) (L.flatMap Grp.cs)) E) rings with
      | none => rfl
      | some rings' =>
        simp only [Option.bind_some, List.flatten_cons, List.cons_append, Option.map_some] at s1 ⊢
        rw [q1]
        cases prev with
        | none => simp only at q2 ⊢; rw [q2, s1]
        | some s => simp only at q2 ⊢; rw [q2, s1]

end

end GeoCrossings

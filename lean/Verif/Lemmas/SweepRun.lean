import Verif.Lemmas.SweepInit
import Verif.Model.Crossings

/-! # Whole runs of the sweep -/
set_option linter.unusedSectionVars false
namespace GeoCrossings
open Spec

variable {K C : Type} [Field K] [LinearOrder K] [IsStrictOrderedRing K]
variable {org : C → Pt K} {allow : Prop}
variable {lineOf : C → Line K} {nextAfter : K → K} {choice : Nat → Nat} {input : List C}
variable {pos : Pt K} {st : Sweep K C} {X X' : Abs K C}

/-- The points are reported once each: those in `Qd` have been, those in `Qr` still have their event. -/
def PtLog (X : Abs K C) : Prop :=
  ∃ Qr Qd, X.Q.Perm (Qr ++ Qd) ∧
    ((X.E.filter fun e => e.ty = .pointLeft).map fun e => (e.point, e.segmentKey)).Perm (Qr.map fun g => (g.p, g.root)) ∧
    ((X.log.filter fun e => e.2.2 = .pointLeft).map fun e => (e.2.1.crossable, e.1)).Perm (Qd.flatMap fun g => g.cs.map fun c => (c, g.p))

/-- Everything that holds between two events. -/
structure Full (org : C → Pt K) (lineOf : C → Line K) (input : List C) (pos : Pt K) (st : Sweep K C) (X : Abs K C) : Prop where
  inv : Inv org pos st X
  pieces : Pieces lineOf input X
  hist : Hist org lineOf input pos X
  tiled : Tiled lineOf (linesOf lineOf input) (X.pieces.flatMap Grp.tri)
  ptQ : ∀ g ∈ X.Q, ⟨g.p, .pointLeft, g.root⟩ ∈ X.E ∨ ∀ c ∈ g.cs, ∃ s, (g.p, s, .pointLeft) ∈ X.log ∧ s.crossable = c
  pts : ∀ c ∈ input, (lineOf c).start = (lineOf c).stop → ∃ g ∈ X.Q, c ∈ g.cs
  ptl : PtLog X
  qcs : X.Q.flatMap Grp.cs = input.filter fun c => (lineOf c).start = (lineOf c).stop

theorem full_init (lineOf : C → Line K) (input : List C) (hor : ∀ c ∈ input, (LineOrPoint.ofLine (lineOf c)).first = org c) : ∃ pos st X, Sweep.new lineOf input = some st ∧
    Full org lineOf input pos st X ∧ (∀ e ∈ X.E, pos < e.point) ∧ X.log = [] := by
  obtain ⟨pos, st, X, h1, h2, h3, h4, h5⟩ := init_exists lineOf input hor
  refine ⟨pos, st, X, h1, ⟨h3, h2.pieces, h4, ?_, fun g hg => .inl (h2.evP g hg), h2.pts,
    ⟨X.Q, [], by simp, h2.evP1, by simp [h2.log]⟩, h2.ptl⟩, h5, h2.log⟩
  have : X.pieces = X.P := by unfold Abs.pieces; simp [h2.A, h2.S, h2.D]
  rw [this]; exact h2.tiled

theorem Prims.ghost {cl : List (Pt K)} (hcl : ∀ r, Critical (input.map lineOf) r → r ∈ cl) {cs : List C} (h : Prims org allow pos X X') :
    Pieces lineOf input X → Hist org lineOf input pos X → Tiled lineOf cs (X.pieces.flatMap Grp.tri) →
    Pieces lineOf input X' ∧ Hist org lineOf input pos X' ∧ Tiled lineOf cs (X'.pieces.flatMap Grp.tri) ∧ X'.measure cl ≤ X.measure cl ∧
      Kept allow X X' := by
  intro h1 h2 h3
  induction h with
  | refl => exact ⟨h1, h2, h3, le_rfl, rfl, List.prefix_refl _, fun e he _ => he, .refl _, fun _ => rfl⟩
  | tail _ hp ih =>
    obtain ⟨i1, i2, i3, i4, i5⟩ := ih
    have k := hp.kept
    exact ⟨i1.prim hp, i2.prim i1 hp, hp.pieces.2.tiled i3, (hp.measure hcl i1).trans i4, k.Q.trans i5.Q, i5.log.trans k.log,
      fun e he ht => k.pl e (i5.pl e he ht) ht, k.plE.trans i5.plE, fun ha => (k.plog ha).trans (i5.plog ha)⟩

theorem Full.step {cl : List (Pt K)} (hcl : ∀ r, Critical (input.map lineOf) r → r ∈ cl) (h : Full org lineOf input pos st X) {e : Event K}
    {E' : List (Event K)} {st' : Sweep K C} {out : Out K C} (hperm : X.E.Perm (e :: E')) (hle : pos ≤ e.point)
    (hs : Stepped org lineOf nextAfter choice st X e E' st' out X') :
    Full org lineOf input e.point st' X' ∧ X'.measure cl < X.measure cl := by
  have hh : Hist org lineOf input e.point { X with E := E' } := (h.hist.advance hle).congr rfl rfl rfl
  obtain ⟨g1, g2, g3, g4, g5⟩ := hs.prims.ghost hcl (⟨h.pieces.ok, h.pieces.pt⟩ : Pieces lineOf input { X with E := E' }) hh h.tiled
  refine ⟨⟨hs.inv, g1, g2, g3, ?_, ?_, ?_, ?_⟩, ?_⟩
  · rw [g5.Q]
    intro g hg
    rcases h.ptQ g hg with he | he
    · rcases List.mem_cons.1 (hperm.mem_iff.1 he) with rfl | he
      · obtain ⟨g', k1, k2, k3, k4⟩ := hs.pt rfl
        right
        have : g' = g := by
          by_contra hne
          obtain ⟨l1, l2, hl⟩ := List.append_of_mem hg
          have hg' : g' ∈ l1 ++ l2 := by
            rw [hl] at k1
            simp only [List.mem_append, List.mem_cons] at k1 ⊢
            tauto
          refine Rep.root_inj h.inv.conc.rep (l1 := X.A ++ X.P ++ X.S ++ l1) (l2 := l2) (g := g) (g' := g') ?_ ?_ k2
          · unfold Abs.live; rw [hl]; simp
          · simp only [List.mem_append] at hg' ⊢; tauto
        subst this
        intro c hc
        rw [← k4.cs] at hc
        obtain ⟨o, ho, rfl⟩ := List.mem_map.1 hc
        refine ⟨o.1, ?_, rfl⟩
        rw [hs.log]
        refine List.mem_append_right _ (List.mem_map.2 ⟨o, ho, ?_⟩)
        rw [← (k4.2 o ho).2.1]
      · exact .inl (g5.pl _ he rfl)
    · right
      intro c hc
      obtain ⟨s, h1, h2⟩ := he c hc
      exact ⟨s, g5.log.subset h1, h2⟩
  · rw [g5.Q]; exact h.pts
  · obtain ⟨Qr, Qd, q1, q2, q3⟩ := h.ptl
    have hE := hperm.filter fun e => e.ty = .pointLeft
    by_cases ht : e.ty = .pointLeft
    · rw [List.filter_cons_of_pos (by simp [ht])] at hE
      obtain ⟨g', k1, k2, k3, k4⟩ := hs.pt ht
      have he : (e.point, e.segmentKey) ∈ Qr.map fun g => (g.p, g.root) :=
        ((hE.map _).symm.trans q2).mem_iff.1 (by simp)
      obtain ⟨g, hg, hgr⟩ := List.mem_map.1 he
      have hgg : g' = g := by
        refine h.inv.conc.rep.root_eq ?_ ?_ (k2.trans (congrArg Prod.snd hgr).symm)
        · unfold Abs.live; simp [k1]
        · unfold Abs.live
          have : g ∈ X.Q := q1.mem_iff.2 (by simp [hg])
          simp [this]
      subst hgg
      obtain ⟨l1, l2, rfl⟩ := List.append_of_mem hg
      refine ⟨l1 ++ l2, g' :: Qd, ?_, ?_, ?_⟩
      · rw [g5.Q]
        refine q1.trans ?_
        list_perm
      · refine ((g5.plE.map _).trans ?_)
        have h3 := (hE.map fun e => (e.point, e.segmentKey)).symm.trans q2
        rw [List.map_cons, List.map_append, List.map_cons] at h3
        rw [List.map_append]
        rw [show (e.point, e.segmentKey) = (g'.p, g'.root) from hgr.symm] at h3
        exact (h3.trans List.perm_middle).cons_inv
      · rw [hs.log, List.filter_append, k4.filter, if_pos rfl, List.map_append, k4.lefts, List.flatMap_cons, k3]
        exact (q3.append_right _).trans List.perm_append_comm
    · rw [List.filter_cons_of_neg (by simp [ht])] at hE
      refine ⟨Qr, Qd, by rw [g5.Q]; exact q1, ((g5.plE.map _).trans (hE.map _).symm).trans q2, ?_⟩
      rw [g5.plog ht]; exact q3
  · rw [g5.Q]; exact h.qcs
  · refine lt_of_le_of_lt g4 ?_
    have := hperm.length_eq
    unfold Abs.measure Abs.pieces
    simp only [List.length_cons] at this ⊢
    omega

/-- An event that will be reported. -/
def Real (pt : Pt K) (X : Abs K C) : Prop :=
  ∃ e ∈ X.E, e.point = pt ∧ (e.ty = .pointLeft ∨ e.ty = .lineLeft ∨ ∃ g ∈ X.A, g.rightEv = e)

/-- The changes while the events at `pt` are handled. -/
inductive Rounds (org : C → Pt K) (pt : Pt K) : Abs K C → Abs K C → Prop
  | refl (X : Abs K C) : Rounds org pt X X
  | head {X Y Z : Abs K C} {E1 : List (Event K)} {al : Prop} : Prims org al pt { X with E := E1 } Y → Rounds org pt Y Z → Rounds org pt X Z

/-- What a batch is made of. -/
def batchOf (out : Out K C) : List (Crossing K C) := out.map fun o => .ofSeg o.1 o.2

open CrossingsIter in
theorem batch {cl : List (Pt K)} (hcl : ∀ r, Critical (input.map lineOf) r → r ∈ cl) (pt : Pt K) (n : Nat) :
    ∀ {pos : Pt K} {st : Sweep K C} {X : Abs K C}, X.measure cl < n → Full org lineOf input pos st X → pos ≤ pt →
      (∀ e ∈ X.E, pt ≤ e.point) →
    ∃ st' X' out, (∀ fuel, n ≤ fuel → ∀ acc, batchLoop lineOf nextAfter choice fuel st (some pt) acc =
        some (st', some pt, acc ++ batchOf out)) ∧ Full org lineOf input pt st' X' ∧ (∀ e ∈ X'.E, pt < e.point) ∧
      X'.log = X.log ++ stamp pt out ∧ X'.measure cl ≤ X.measure cl ∧ (Real pt X → out ≠ [] ∧ X'.measure cl < X.measure cl) ∧
      Rounds org pt X X' := by
  induction n with
  | zero => intro _ _ _ h; omega
  | succ n ih =>
    intro pos st X hn h hpos hpt
    have stop : (∀ e ∈ X.E, pt < e.point) → st.peekPoint ≠ some pt → ∃ st' X' out, (∀ fuel, n + 1 ≤ fuel → ∀ acc,
        batchLoop lineOf nextAfter choice fuel st (some pt) acc = some (st', some pt, acc ++ batchOf out)) ∧ Full org lineOf input pt st' X' ∧
        (∀ e ∈ X'.E, pt < e.point) ∧ X'.log = X.log ++ stamp pt out ∧ X'.measure cl ≤ X.measure cl ∧
        (Real pt X → out ≠ [] ∧ X'.measure cl < X.measure cl) ∧ Rounds org pt X X' := by
      intro hgt hne
      obtain ⟨hK, hc⟩ := h.inv.core.advance h.inv.chain h.inv.S hpos hpt
      refine ⟨st, X, [], ?_, ⟨⟨h.inv.conc, hK, hc, h.inv.S⟩, h.pieces, h.hist.advance hpos, h.tiled, h.ptQ, h.pts, h.ptl, h.qcs⟩, hgt, by simp [stamp],
        le_rfl, ?_, .refl _⟩
      · intro fuel hf acc
        obtain ⟨fuel, rfl⟩ : ∃ m, fuel = m + 1 := ⟨fuel - 1, by omega⟩
        rw [batchLoop, if_neg]
        · simp [batchOf]
        · rintro ⟨h1, -⟩; exact hne h1.symm
      · rintro ⟨e, he, rfl, -⟩
        exact absurd (hgt e he) (lt_irrefl _)
    rcases _root_.GeoCrossings.step lineOf nextAfter choice h.inv with ⟨h1, h2, -⟩ | ⟨e, E', st1, out1, X1, h1, h2, h3, h4, hs⟩
    · exact stop (by rw [h1]; simp) (by rw [h2]; simp)
    · have heE : e ∈ X.E := h1.mem_iff.2 (by simp)
      have hmin : ∀ e' ∈ X.E, e.point ≤ e'.point := by
        intro e' he'
        rcases h2 e' he' with a | a
        · exact a.le
        · exact a.1.le
      by_cases heq : e.point = pt
      · obtain ⟨hF, hm⟩ := h.step hcl h1 h4 hs
        rw [heq] at hF
        obtain ⟨st', X', out, i1, i2, i3, i4, i5, i6, i7⟩ := ih (lt_of_lt_of_le hm (by omega)) hF le_rfl hF.inv.core.evpos
        refine ⟨st', X', out1 ++ out, ?_, i2, i3, ?_, i5.trans hm.le, ?_, .head (heq ▸ hs.prims) i7⟩
        · intro fuel hf acc
          obtain ⟨fuel, rfl⟩ : ∃ m, fuel = m + 1 := ⟨fuel - 1, by omega⟩
          rw [batchLoop, if_pos ⟨by rw [h3, heq], by rw [h3]; rfl⟩, hs.code]
          simp only [Option.bind_eq_bind, Option.bind_some]
          rw [heq, i1 fuel (by omega)]
          simp [batchOf]
        · rw [i4, hs.log, heq]; simp [stamp]
        · intro hR
          refine ⟨?_, lt_of_le_of_lt i5 hm⟩
          by_cases ho : out1 = []
          · obtain ⟨k1, k2⟩ := hs.quiet ho
            rw [ho, List.nil_append]
            refine (i6 ?_).1
            rw [k1]
            obtain ⟨e2, he2, p2, t2⟩ := hR
            refine ⟨e2, ?_, p2, t2⟩
            rcases List.mem_cons.1 (h1.mem_iff.1 he2) with rfl | he2
            · exfalso
              rcases k2 with ⟨k2, k3⟩ | k2
              · rcases t2 with t2 | t2 | ⟨g, hg, t2⟩
                · rw [k2] at t2; cases t2
                · rw [k2] at t2; cases t2
                · exact k3 g hg t2
              · rcases t2 with t2 | t2 | ⟨g, hg, t2⟩
                · rw [k2] at t2; cases t2
                · rw [k2] at t2; cases t2
                · rw [← t2] at k2; cases k2
            · exact he2
          · simp [ho]
      · have hlt : pt < e.point := lt_of_le_of_ne (hpt e heE) (Ne.symm heq)
        exact stop (fun e' he' => lt_of_lt_of_le hlt (hmin e' he')) (by rw [h3]; simpa using heq)

/-- At a new position there is something to report. -/
theorem Full.real (h : Full org lineOf input pos st X) (hgt : ∀ e ∈ X.E, pos < e.point) {e : Event K} (he : e ∈ X.E)
    (hmin : ∀ e' ∈ X.E, e.point ≤ e'.point) : Real e.point X := by
  cases ht : e.ty with
  | pointLeft => exact ⟨e, he, rfl, .inl ht⟩
  | lineLeft => exact ⟨e, he, rfl, .inr (.inl ht)⟩
  | pointRight => exact ⟨_, h.inv.core.prodP e he ht (hgt e he), rfl, .inl rfl⟩
  | lineRight =>
    obtain ⟨g, hg, hq⟩ := h.inv.core.prodR e he ht (hgt e he)
    have hg' := hg
    rw [h.inv.S, List.append_nil] at hg
    rcases List.mem_append.1 hg with hg | hg
    · exact ⟨g.rightEv, h.inv.core.evR g hg', hq, .inr (.inr ⟨g, hg, rfl⟩)⟩
    · exfalso
      have hm : g.leftEv ∈ X.E := (List.mem_filter.1 (h.inv.core.evL.mem_iff.2 (List.mem_map_of_mem hg))).1
      have h1 := hmin _ hm
      have h2 := (h.inv.core.lineP g hg).1.2
      rw [hq] at h2
      exact absurd h1 (not_le.2 h2)

/-- One call of `CrossingsIter::next`. -/
theorem next_full {cl : List (Pt K)} (hcl : ∀ r, Critical (input.map lineOf) r → r ∈ cl) (h : Full org lineOf input pos st X)
    (hgt : ∀ e ∈ X.E, pos < e.point) :
    (X.E = [] ∧ ∀ fuel, X.measure cl < fuel → ∀ segs, CrossingsIter.next lineOf nextAfter choice fuel ⟨st, segs⟩ = some (⟨st, []⟩, none)) ∨
    ∃ pt st' X' out, (∀ fuel, X.measure cl < fuel → ∀ segs, CrossingsIter.next lineOf nextAfter choice fuel ⟨st, segs⟩ =
        some (⟨st', batchOf out⟩, some pt)) ∧ pos < pt ∧ out ≠ [] ∧ Full org lineOf input pt st' X' ∧ (∀ e ∈ X'.E, pt < e.point) ∧
      X'.log = X.log ++ stamp pt out ∧ X'.measure cl < X.measure cl ∧ Rounds org pt X X' ∧ (∀ e ∈ X.E, pt ≤ e.point) ∧
      ∃ e ∈ X.E, e.point = pt := by
  rcases _root_.GeoCrossings.step lineOf nextAfter choice h.inv with ⟨h1, h2, -⟩ | ⟨e, E', st1, out1, X1, h1, h2, h3, h4, -⟩
  · left
    refine ⟨h1, ?_⟩
    intro fuel hf segs
    obtain ⟨fuel, rfl⟩ : ∃ m, fuel = m + 1 := ⟨fuel - 1, by omega⟩
    rw [CrossingsIter.next, CrossingsIter.batchLoop]
    simp [h2]
  · right
    have heE : e ∈ X.E := h1.mem_iff.2 (by simp)
    have hmin : ∀ e' ∈ X.E, e.point ≤ e'.point := by
      intro e' he'
      rcases h2 e' he' with a | a
      · exact a.le
      · exact a.1.le
    obtain ⟨st', X', out, i1, i2, i3, i4, i5, i6, i7⟩ := batch (nextAfter := nextAfter) (choice := choice) hcl e.point
      (X.measure cl + 1) (by omega) h h4 hmin
    obtain ⟨j1, j2⟩ := i6 (h.real hgt heE hmin)
    refine ⟨e.point, st', X', out, ?_, hgt e heE, j1, i2, i3, i4, j2, i7, hmin, e, heE, rfl⟩
    intro fuel hf segs
    rw [CrossingsIter.next]
    simp only
    rw [h3, i1 fuel (by omega)]
    have : batchOf out ≠ [] := by simpa [batchOf] using j1
    simp [this]

/-- What a whole run yields, flattened. -/
def flat (res : List (Pt K × List (Crossing K C))) : List (Pt K × Crossing K C) := res.flatMap fun e => e.2.map (e.1, ·)

def flog (l : List (Pt K × Seg K C × EventType)) : List (Pt K × Crossing K C) := l.map fun e => (e.1, .ofSeg e.2.1 e.2.2)

theorem run_full {cl : List (Pt K)} (hcl : ∀ r, Critical (input.map lineOf) r → r ∈ cl) (n : Nat) :
    ∀ {pos : Pt K} {st : Sweep K C} {X : Abs K C}, X.measure cl < n → Full org lineOf input pos st X → (∀ e ∈ X.E, pos < e.point) →
    ∃ pos' st' X' res, (∀ fuel m, n ≤ fuel → n ≤ m → ∀ segs, CrossingsIter.run lineOf nextAfter choice fuel m ⟨st, segs⟩ = some res) ∧
      Full org lineOf input pos' st' X' ∧ X'.E = [] ∧ flog X'.log = flog X.log ++ flat res ∧
      (∀ e ∈ res, pos < e.1 ∧ e.2 ≠ []) ∧ (res.map (·.1)).Pairwise (· < ·) := by
  induction n with
  | zero => intro _ _ _ h; omega
  | succ n ih =>
    intro pos st X hn h hgt
    rcases next_full (nextAfter := nextAfter) (choice := choice) hcl h hgt with ⟨h1, h2⟩ | ⟨pt, st1, X1, out, h1, h2, h3, h4, h5, h6, h7, -⟩
    · refine ⟨pos, st, X, [], ?_, h, h1, by simp [flat], by simp, by simp⟩
      intro fuel m hf hm segs
      obtain ⟨m, rfl⟩ : ∃ k, m = k + 1 := ⟨m - 1, by omega⟩
      rw [CrossingsIter.run, h2 fuel (by omega)]
      rfl
    · obtain ⟨pos', st', X', res, i1, i2, i3, i4, i5, i6⟩ := ih (lt_of_lt_of_le h7 (by omega)) h4 h5
      refine ⟨pos', st', X', (pt, batchOf out) :: res, ?_, i2, i3, ?_, ?_, ?_⟩
      · intro fuel m hf hm segs
        obtain ⟨m, rfl⟩ : ∃ k, m = k + 1 := ⟨m - 1, by omega⟩
        rw [CrossingsIter.run, h1 fuel (by omega)]
        simp only [Option.bind_eq_bind, Option.bind_some, Option.pure_def]
        rw [i1 fuel m (by omega) (by omega)]
        rfl
      · rw [i4, h6]
        simp [flog, flat, stamp, batchOf, Function.comp_def]
      · intro e he
        rcases List.mem_cons.1 he with rfl | he
        · exact ⟨h2, by simpa [batchOf] using h3⟩
        · exact ⟨h2.trans (i5 e he).1, (i5 e he).2⟩
      · rw [List.map_cons, List.pairwise_cons]
        refine ⟨?_, i6⟩
        intro p hp
        obtain ⟨e, he, rfl⟩ := List.mem_map.1 hp
        exact (i5 e he).1

/-- Everything known once the sweep is over. -/
structure Final (lineOf : C → Line K) (input : List C) (X : Abs K C) (res : List (Pt K × List (Crossing K C))) : Prop where
  flat : flat res = flog X.log
  ne : ∀ e ∈ res, e.2 ≠ []
  sorted : (res.map (·.1)).Pairwise (· < ·)
  ok : ∀ g ∈ X.D, PieceOk lineOf input g
  meet : X.D.Pairwise Meet
  free : ∀ e ∈ X.log, ∀ g ∈ X.D, ¬ Inside g.p g.q e.1
  sound : ∀ e ∈ X.log, Reported lineOf input e
  left : ((X.log.filter fun e => e.2.2 = .lineLeft).map fun e => (e.2.1.crossable, e.1)).Perm
    (X.D.flatMap fun g => g.cs.map fun c => (c, g.p))
  right : ((X.log.filter fun e => e.2.2 = .lineRight).map fun e => (e.2.1.crossable, e.2.1.geom, e.1)) =
    X.D.flatMap fun g => g.cs.map fun c => (c, g.geom, g.q)
  order : X.log.Pairwise fun x y => x.1 ≤ y.1 ∧ (x.1 = y.1 → x.2.2 = .lineLeft → y.2.2 ≠ .lineRight)
  tiled : Tiled lineOf (linesOf lineOf input) (X.D.flatMap Grp.tri)
  pts : ∀ c ∈ input, (lineOf c).start = (lineOf c).stop → ∃ s, ((lineOf c).start, s, .pointLeft) ∈ X.log ∧ s.crossable = c
  first : ∀ e ∈ X.log, e.2.1.firstSegment = true → e.2.1.geom.first = (LineOrPoint.ofLine (lineOf e.2.1.crossable)).first
  points : ((X.log.filter fun e => e.2.2 = .pointLeft).map fun e => e.2.1.crossable).Perm
    (input.filter fun c => (lineOf c).start = (lineOf c).stop)
  blk : Blk X.log

/-- The run on any input ends, whatever the fuel, provided it is enough. -/
theorem run_final (lineOf : C → Line K) (nextAfter : K → K) (choice : Nat → Nat) (input : List C) : ∃ N res X,
    (∀ fuel, N ≤ fuel → crossingsOf lineOf nextAfter choice fuel input = some res) ∧ Final lineOf input X res := by
  obtain ⟨cl, hcl⟩ := critical_finite (input.map lineOf)
  obtain ⟨pos, st, X, h1, h2, h3, h4⟩ := full_init (org := fun c => (LineOrPoint.ofLine (lineOf c)).first) lineOf input
    (fun _ _ => rfl)
  obtain ⟨pos', st', X', res, i1, i2, i3, i4, i5, i6⟩ := run_full (nextAfter := nextAfter) (choice := choice) hcl (X.measure cl + 1)
    (by omega) h2 h3
  have hA : X'.A = [] := by
    rw [List.eq_nil_iff_forall_not_mem]
    intro g hg
    have := i2.inv.core.evR g (by simp [hg])
    rw [i3] at this; cases this
  have hP : X'.P = [] := by
    rw [List.eq_nil_iff_forall_not_mem]
    intro g hg
    have := i2.inv.core.evR g (by simp [hg])
    rw [i3] at this; cases this
  have hpc : X'.pieces = X'.D := by unfold Abs.pieces; simp [hA, hP, i2.inv.S]
  refine ⟨X.measure cl + 1, res, X', ?_, ⟨?_, fun e he => (i5 e he).2, i6, ?_, i2.hist.meetD, ?_, i2.hist.sound, ?_, i2.hist.right,
    i2.hist.sorted, ?_, ?_, i2.hist.first, ?_, i2.hist.blk⟩⟩
  · intro fuel hf
    simp only [crossingsOf, CrossingsIter.ofInput, h1, Option.bind_eq_bind, Option.bind_some, Option.pure_def]
    exact i1 fuel fuel hf hf []
  · rw [i4, h4]; simp [flog]
  · rw [← hpc]; exact i2.pieces.ok
  · intro e he g hg
    exact i2.hist.free e he g (by simp [hg])
  · have := i2.hist.left
    rw [hA, List.nil_append] at this
    exact this
  · have := i2.tiled
    rw [hpc] at this; exact this
  · intro c hc he
    obtain ⟨g, hg, hcg⟩ := i2.pts c hc he
    rcases i2.ptQ g hg with h | h
    · rw [i3] at h; cases h
    · obtain ⟨s, k1, k2⟩ := h c hcg
      rw [← ((i2.pieces.pt g hg).sub c hcg).2.1] at k1
      exact ⟨s, k1, k2⟩
  · obtain ⟨Qr, Qd, q1, q2, q3⟩ := i2.ptl
    rw [i3] at q2
    have hQ : Qr = [] := by simpa using q2.symm.eq_nil
    subst hQ
    rw [← i2.qcs]
    have := q3.map Prod.fst
    rw [List.map_map] at this
    refine this.trans ?_
    rw [List.map_flatMap]
    refine List.Perm.trans ?_ (q1.symm.flatMap_right _)
    simp [Function.comp_def]

/-! ## More fuel does not change the answer -/

theorem batchLoop_mono {fuel : Nat} : ∀ {st : Sweep K C} {last acc r}, CrossingsIter.batchLoop lineOf nextAfter choice fuel st last acc = some r →
    CrossingsIter.batchLoop lineOf nextAfter choice (fuel + 1) st last acc = some r := by
  induction fuel with
  | zero => intro st last acc r h; simp [CrossingsIter.batchLoop] at h
  | succ n ih =>
    intro st last acc r h
    rw [CrossingsIter.batchLoop] at h ⊢
    by_cases hc : last = st.peekPoint ∧ st.peekPoint.isSome
    · rw [if_pos hc] at h ⊢
      cases hn : st.nextEvent lineOf nextAfter choice with
      | none => rw [hn] at h; cases h
      | some o =>
        rw [hn] at h
        cases o with
        | none => exact ih h
        | some o => exact ih h
    · rw [if_neg hc] at h ⊢; exact h

theorem next_mono {fuel : Nat} {it : CrossingsIter K C} {r} (h : it.next lineOf nextAfter choice fuel = some r) :
    it.next lineOf nextAfter choice (fuel + 1) = some r := by
  unfold CrossingsIter.next at h ⊢
  cases hb : CrossingsIter.batchLoop lineOf nextAfter choice fuel it.sweep it.sweep.peekPoint [] with
  | none => rw [hb] at h; cases h
  | some o => rw [hb] at h; rw [batchLoop_mono hb]; exact h

theorem run_mono {fuel n : Nat} : ∀ {it : CrossingsIter K C} {r}, it.run lineOf nextAfter choice fuel n = some r →
    it.run lineOf nextAfter choice (fuel + 1) (n + 1) = some r := by
  induction n with
  | zero => intro it r h; simp [CrossingsIter.run] at h
  | succ n ih =>
    intro it r h
    rw [CrossingsIter.run] at h ⊢
    cases hn : it.next lineOf nextAfter choice fuel with
    | none => rw [hn] at h; cases h
    | some o =>
      rw [hn] at h; rw [next_mono hn]
      obtain ⟨it', o⟩ := o
      cases o with
      | none => exact h
      | some p =>
        simp only [Option.bind_eq_bind, Option.bind_some] at h ⊢
        cases hr : it'.run lineOf nextAfter choice fuel n with
        | none => rw [hr] at h; cases h
        | some l => rw [hr] at h; rw [ih hr]; exact h

theorem crossingsOf_mono {fuel : Nat} {r} (h : crossingsOf lineOf nextAfter choice fuel input = some r) (k : Nat) :
    crossingsOf lineOf nextAfter choice (fuel + k) input = some r := by
  induction k with
  | zero => exact h
  | succ k ih =>
    simp only [crossingsOf] at ih ⊢
    cases ho : CrossingsIter.ofInput lineOf input with
    | none => rw [ho] at ih; cases ih
    | some it => rw [ho] at ih; exact run_mono ih

/-- A run that ends is the run. -/
theorem final_of_run {fuel : Nat} {res} (h : crossingsOf lineOf nextAfter choice fuel input = some res) : ∃ X, Final lineOf input X res := by
  obtain ⟨N, res', X, h1, h2⟩ := run_final lineOf nextAfter choice input
  have e1 := crossingsOf_mono h N
  rw [h1 _ (by omega)] at e1
  cases e1
  exact ⟨X, h2⟩

end GeoCrossings

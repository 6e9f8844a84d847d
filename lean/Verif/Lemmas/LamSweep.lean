import Verif.Lemmas.BopTrace

/-! # The runs of the sweep of `assemble`, on edges that meet in their ends only -/
set_option linter.unusedSectionVars false
namespace GeoCrossings
open Spec

variable {K : Type} [Field K] [LinearOrder K] [IsStrictOrderedRing K]
variable {org : Nat → Pt K} {geom : Nat → LineOrPoint K} {isFirst : Nat → Bool} {input : List Nat}
variable {pos pt : Pt K} {st st' : Sweep K Nat} {X X' : Abs K Nat}

/-- The edges meet in their ends only. -/
def Disj (geom : Nat → LineOrPoint K) (input : List Nat) : Prop :=
  ∀ c ∈ input, ∀ d ∈ input, c ≠ d → ∀ x, OnSeg (geom c).first (geom c).second x → OnSeg (geom d).first (geom d).second x →
    ¬ Inside (geom c).first (geom c).second x

theorem toLine_onLine (he : EdgesOk geom isFirst input) {c : Nat} (hc : c ∈ input) (x : Pt K) :
    OnLine (geom c).toLine x ↔ OnSeg (geom c).first (geom c).second x := by
  obtain ⟨e1, e2, e3⟩ := he.ends hc
  rw [onLine_iff, e1, e2]

theorem end_or_inside {p q x : Pt K} (hpq : p < q) (h : OnSeg p q x) : x = p ∨ x = q ∨ Inside p q x := by
  rw [onSeg_iff hpq] at h
  obtain ⟨h1, h2, h3⟩ := h
  rcases h2.lt_or_eq with k | k
  · rcases h3.lt_or_eq with k' | k'
    · exact .inr (.inr ⟨k, k', h1⟩)
    · exact .inr (.inl k')
  · exact .inl k.symm

/-- The edges are not cut. -/
theorem critical_end (he : EdgesOk geom isFirst input) (ha : Disj geom input) {c : Nat} (hc : c ∈ input) {r : Pt K}
    (hr : Critical (input.map fun i => (geom i).toLine) r) (ho : OnSeg (geom c).first (geom c).second r) :
    r = (geom c).first ∨ r = (geom c).second := by
  obtain ⟨e1, e2, e3⟩ := he.ends hc
  rcases end_or_inside e3 ho with k | k | k
  · exact .inl k
  · exact .inr k
  · exfalso
    have other : ∀ d ∈ input, OnLine (geom d).toLine r → d = c := by
      intro d hd hdr
      by_contra hne
      exact ha c hc d hd (Ne.symm hne) r ho ((toLine_onLine he hd r).1 hdr) k
    rcases hr with ⟨l, hl, hle⟩ | ⟨l1, hl1, l2, hl2, hm⟩
    · obtain ⟨d, hd, rfl⟩ := List.mem_map.1 hl
      have hdr : OnLine (geom d).toLine r := by
        rcases hle with rfl | rfl
        · exact onSeg_left _ _
        · exact onSeg_right _ _
      have := other d hd hdr
      subst this
      obtain ⟨a, b, g1, g2⟩ := he.line d hd
      rw [g1] at hle k
      simp only [LineOrPoint.toLine, LineOrPoint.first, LineOrPoint.second] at hle k
      rcases hle with rfl | rfl
      · exact lt_irrefl _ k.1
      · exact lt_irrefl _ k.2.1
    · obtain ⟨d1, hd1, rfl⟩ := List.mem_map.1 hl1
      obtain ⟨d2, hd2, rfl⟩ := List.mem_map.1 hl2
      have h := (hm r).2 rfl
      have k1 := other d1 hd1 h.1
      have k2 := other d2 hd2 h.2
      subst k1; subst k2
      have h1 := (hm (geom d2).first).1 ⟨(toLine_onLine he hc _).2 (onSeg_left _ _), (toLine_onLine he hc _).2 (onSeg_left _ _)⟩
      exact lt_irrefl _ (h1 ▸ k.1)

theorem piece_whole (he : EdgesOk geom isFirst input) (ha : Disj geom input) {g : Grp K Nat}
    (hg : PieceOk (fun i => (geom i).toLine) input g) {c : Nat} (hc : c ∈ g.cs) : g.p = (geom c).first ∧ g.q = (geom c).second := by
  have hs := hg.sub c hc
  have hlt := hg.line.2
  have h1 := critical_end he ha hs.mem hg.cp ((toLine_onLine he hs.mem _).1 hs.p)
  have h2 := critical_end he ha hs.mem hg.cq ((toLine_onLine he hs.mem _).1 hs.q)
  have e3 := (he.ends hs.mem).2.2
  rcases h1 with h1 | h1 <;> rcases h2 with h2 | h2
  · rw [h1, h2] at hlt; exact absurd hlt (lt_irrefl _)
  · exact ⟨h1, h2⟩
  · rw [h1, h2] at hlt; exact absurd hlt (_root_.lt_asymm e3)
  · rw [h1, h2] at hlt; exact absurd hlt (lt_irrefl _)

theorem inside_mid {p q : Pt K} (h : p < q) : ∃ m, Inside p q m := by
  refine ⟨⟨(p.x + q.x) / 2, (p.y + q.y) / 2⟩, ?_, ?_, ?_⟩
  · rcases h with h | ⟨h, h'⟩
    · left; show p.x < (p.x + q.x) / 2; linarith
    · right; exact ⟨by show p.x = (p.x + q.x) / 2; rw [h]; ring, by show p.y < (p.y + q.y) / 2; linarith⟩
  · rcases h with h | ⟨h, h'⟩
    · left; show (p.x + q.x) / 2 < q.x; linarith
    · right; exact ⟨by show (p.x + q.x) / 2 = q.x; rw [h]; ring, by show (p.y + q.y) / 2 < q.y; linarith⟩
  · unfold det; simp only; ring

/-- The edges do not overlap. -/
theorem piece_single (he : EdgesOk geom isFirst input) (ha : Disj geom input) {g : Grp K Nat}
    (hg : PieceOk (fun i => (geom i).toLine) input g) (hn : g.cs.Nodup) : g.mem.length = 1 := by
  have h1 : ∀ c ∈ g.cs, ∀ d ∈ g.cs, c = d := by
    intro c hc d hd
    by_contra hne
    obtain ⟨c1, c2⟩ := piece_whole he ha hg hc
    obtain ⟨d1, d2⟩ := piece_whole he ha hg hd
    obtain ⟨m, hm⟩ := inside_mid hg.line.2
    refine ha c (hg.sub c hc).mem d (hg.sub d hd).mem hne m ?_ ?_ ?_
    · rw [← c1, ← c2]; exact hm.onSeg
    · rw [← d1, ← d2]; exact hm.onSeg
    · rw [← c1, ← c2]; exact hm
  have h2 : g.cs.length = g.mem.length := by unfold Grp.cs; simp
  rw [← h2]
  have hne := hg.ne
  match hcs : g.cs with
  | [] => exact absurd hcs hne
  | [a] => rfl
  | a :: b :: t =>
    exfalso
    rw [hcs] at h1 hn
    have := h1 a (by simp) b (by simp)
    subst this
    simp at hn

theorem exists_piece (he : EdgesOk geom isFirst input) (h : Full org (fun i => (geom i).toLine) input pos st X) {c : Nat} (hc : c ∈ input) :
    ∃ g ∈ X.pieces, c ∈ g.cs := by
  obtain ⟨tl, h1, h2, h3⟩ := h.tiled
  rw [he.linesOf] at h1
  rw [← h1] at hc
  obtain ⟨e, hem, rfl⟩ := List.mem_map.1 hc
  have hcon := h2 e hem
  obtain ⟨e1, e2, e3⟩ := he.ends (c := e.1) (by rw [← h1]; exact hc)
  cases h5 : e.2 with
  | nil =>
    rw [h5] at hcon
    have hcon : lo (geom e.1).toLine = hi (geom e.1).toLine := hcon
    rw [e1, e2] at hcon
    exact absurd hcon e3.ne
  | cons ab l =>
    have : (e.1, ab) ∈ X.pieces.flatMap Grp.tri :=
      h3.mem_iff.2 (List.mem_flatMap.2 ⟨e, hem, List.mem_map.2 ⟨ab, by rw [h5]; simp, rfl⟩⟩)
    obtain ⟨g, hg, ht⟩ := List.mem_flatMap.1 this
    obtain ⟨c, hc, hcc⟩ := List.mem_map.1 ht
    exact ⟨g, hg, by rw [← show c = e.1 from congrArg Prod.fst hcc]; exact hc⟩

/-! ## A step, seen in the column of active edges -/

/-- From `pos` to the next point `pt`: the edges `e` of the column end, the edges `s` start, the others stay. -/
structure ColStep (geom : Nat → LineOrPoint K) (input : List Nat) (pos pt : Pt K) (l e s u : List Nat) : Prop where
  lt : pos < pt
  first : ∀ c ∈ input, (geom c).first ≤ pos ∨ pt ≤ (geom c).first
  second : ∀ c ∈ input, (geom c).second ≤ pos ∨ pt ≤ (geom c).second
  before : ∀ c, c ∈ l ++ e ++ u ↔ c ∈ input ∧ (geom c).first ≤ pos ∧ pos < (geom c).second
  low : ∀ c, c ∈ l ↔ c ∈ input ∧ (geom c).first < pt ∧ pt < (geom c).second ∧ 0 < det (geom c).first (geom c).second pt
  ends : ∀ c, c ∈ e ↔ c ∈ input ∧ (geom c).second = pt
  starts : ∀ c, c ∈ s ↔ c ∈ input ∧ (geom c).first = pt
  up : ∀ c, c ∈ u ↔ c ∈ input ∧ (geom c).first < pt ∧ pt < (geom c).second ∧ det (geom c).first (geom c).second pt < 0
  hit : ∃ c ∈ input, (geom c).first = pt ∨ (geom c).second = pt
  nd : (l ++ e ++ u).Nodup
  nd' : (l ++ s ++ u).Nodup
  ord : s.Pairwise fun c d => 0 < det pt (geom c).second (geom d).second
  mono : ∀ r : Pt K, pos.x ≤ r.x → r.x < pt.x → ∃ c1 c2, l ++ e ++ u = c1 ++ c2 ∧
    ∀ c, c ∈ c1 ↔ c ∈ input ∧ Under r (geom c).first (geom c).second

theorem colStep (he : EdgesOk geom isFirst input) (ha : Disj geom input) (h : Full org (fun i => (geom i).toLine) input pos st X)
    (hgt : ∀ e ∈ X.E, pos < e.point) (hpt : pos < pt) (hmin : ∀ e ∈ X.E, pt ≤ e.point)
    (h' : Full org (fun i => (geom i).toLine) input pt st' X') (hgt' : ∀ e ∈ X'.E, pt < e.point)
    {out : Out K Nat} {L0 E0 U0 L E U S D1 : List (Grp K Nat)} {T : List (Out K Nat)}
    (hs : Shape pt X X' out L0 E0 U0 L E U S D1 T) (hhit : ∃ c ∈ input, (geom c).first = pt ∨ (geom c).second = pt) :
    ColStep geom input pos pt (L.flatMap Grp.cs) (E.flatMap Grp.cs) (S.flatMap Grp.cs) (U.flatMap Grp.cs) ∧
      X.A.flatMap Grp.cs = L.flatMap Grp.cs ++ E.flatMap Grp.cs ++ U.flatMap Grp.cs ∧
      X'.A.flatMap Grp.cs = L.flatMap Grp.cs ++ S.flatMap Grp.cs ++ U.flatMap Grp.cs := by
  have hA : X.A.flatMap Grp.cs = L.flatMap Grp.cs ++ E.flatMap Grp.cs ++ U.flatMap Grp.cs := by
    rw [hs.before]; simp only [List.flatMap_append]; rw [same_cs hs.sL, same_cs hs.sE, same_cs hs.sU]
  have hA' : X'.A.flatMap Grp.cs = L.flatMap Grp.cs ++ S.flatMap Grp.cs ++ U.flatMap Grp.cs := by
    rw [hs.after]; simp only [List.flatMap_append]
  -- where the pieces are, before
  have w : ∀ c ∈ input, (geom c).second ≤ pos ∨ (c ∈ X.A.flatMap Grp.cs ∧ (geom c).first ≤ pos ∧ pt ≤ (geom c).second) ∨
      (pt ≤ (geom c).first ∧ pt ≤ (geom c).second) := by
    intro c hc
    obtain ⟨g, hg, hcg⟩ := exists_piece he h hc
    have hok := h.pieces.ok g hg
    obtain ⟨p1, p2⟩ := piece_whole he ha hok hcg
    unfold Abs.pieces at hg
    rw [h.inv.S] at hg
    simp only [List.mem_append, List.not_mem_nil, or_false] at hg
    rcases hg with (hg | hg) | hg
    · exact .inl (p2 ▸ h.hist.Dq g hg)
    · exact .inr (.inl ⟨List.mem_flatMap.2 ⟨g, hg, hcg⟩, p1 ▸ (h.inv.core.lineA g hg).2.2.1, p2 ▸ hmin _ (h.inv.core.evR g (by simp [hg]))⟩)
    · refine .inr (.inr ⟨?_, p2 ▸ hmin _ (h.inv.core.evR g (by simp [hg]))⟩)
      have := (List.mem_filter.1 (h.inv.core.evL.mem_iff.2 (List.mem_map_of_mem hg))).1
      exact p1 ▸ hmin _ this
  -- and after
  have w' : ∀ c ∈ input, (geom c).second ≤ pos ∨ (c ∈ E.flatMap Grp.cs ∧ (geom c).second = pt) ∨
      (c ∈ L.flatMap Grp.cs ∧ (geom c).first < pt ∧ pt < (geom c).second ∧ 0 < det (geom c).first (geom c).second pt) ∨
      (c ∈ S.flatMap Grp.cs ∧ (geom c).first = pt) ∨
      (c ∈ U.flatMap Grp.cs ∧ (geom c).first < pt ∧ pt < (geom c).second ∧ det (geom c).first (geom c).second pt < 0) ∨ pt < (geom c).first := by
    intro c hc
    obtain ⟨g, hg, hcg⟩ := exists_piece he h' hc
    have hok := h'.pieces.ok g hg
    obtain ⟨p1, p2⟩ := piece_whole he ha hok hcg
    unfold Abs.pieces at hg
    rw [h'.inv.S, hs.dn, hs.after] at hg
    simp only [List.mem_append, List.not_mem_nil, or_false] at hg
    rw [← p1, ← p2]
    rcases hg with ((hg | hg) | (hg | hg) | hg) | hg
    · exact .inl (h.hist.Dq g hg)
    · have hg := hs.en.mem_iff.1 hg
      exact .inr (.inl ⟨List.mem_flatMap.2 ⟨g, hg, hcg⟩, (hs.endE g hg).2⟩)
    · exact .inr (.inr (.inl ⟨List.mem_flatMap.2 ⟨g, hg, hcg⟩, hs.low g hg⟩))
    · exact .inr (.inr (.inr (.inl ⟨List.mem_flatMap.2 ⟨g, hg, hcg⟩, (hs.startS g hg).2⟩)))
    · exact .inr (.inr (.inr (.inr (.inl ⟨List.mem_flatMap.2 ⟨g, hg, hcg⟩, hs.up g hg⟩))))
    · refine .inr (.inr (.inr (.inr (.inr ?_))))
      have := (List.mem_filter.1 (h'.inv.core.evL.mem_iff.2 (List.mem_map_of_mem hg))).1
      exact hgt' _ this
  have mA : ∀ {g}, g ∈ X.A → g ∈ X.pieces := fun hg => by unfold Abs.pieces; simp [hg]
  have mA' : ∀ {g}, g ∈ X'.A → g ∈ X'.pieces := fun hg => by unfold Abs.pieces; simp [hg]
  have inD : ∀ {g}, g ∈ E → g ∈ X'.pieces := fun hg => by
    unfold Abs.pieces; rw [hs.dn]; simp [hs.en.mem_iff.2 hg]
  have inL : ∀ {g}, g ∈ L → g ∈ X'.pieces := fun hg => mA' (by rw [hs.after]; simp [hg])
  have inS : ∀ {g}, g ∈ S → g ∈ X'.pieces := fun hg => mA' (by rw [hs.after]; simp [hg])
  have inU : ∀ {g}, g ∈ U → g ∈ X'.pieces := fun hg => mA' (by rw [hs.after]; simp [hg])
  have lt2 : ∀ {c}, c ∈ input → (geom c).first < (geom c).second := fun hc => (he.ends hc).2.2
  refine ⟨⟨hpt, ?_, ?_, ?_, ?_, ?_, ?_, ?_, hhit, ?_, ?_, ?_, ?_⟩, hA, hA'⟩
  · intro c hc
    rcases w c hc with k | ⟨-, k, -⟩ | ⟨k, -⟩
    · exact .inl ((lt2 hc).le.trans k)
    · exact .inl k
    · exact .inr k
  · intro c hc
    rcases w c hc with k | ⟨-, -, k⟩ | ⟨-, k⟩
    · exact .inl k
    · exact .inr k
    · exact .inr k
  · intro c
    rw [← hA]
    constructor
    · intro hc
      obtain ⟨g, hg, hcg⟩ := List.mem_flatMap.1 hc
      have hok := h.pieces.ok g (mA hg)
      obtain ⟨p1, p2⟩ := piece_whole he ha hok hcg
      exact ⟨(hok.sub c hcg).mem, p1 ▸ (h.inv.core.lineA g hg).2.2.1, p2 ▸ hgt _ (h.inv.core.evR g (by simp [hg]))⟩
    · rintro ⟨hc, k1, k2⟩
      rcases w c hc with k | ⟨k, -⟩ | ⟨k, -⟩
      · exact absurd k (not_le.2 k2)
      · exact k
      · exact absurd (hpt.trans_le k) (not_lt.2 k1)
  · intro c
    constructor
    · intro hc
      obtain ⟨g, hg, hcg⟩ := List.mem_flatMap.1 hc
      have hok := h'.pieces.ok g (inL hg)
      obtain ⟨p1, p2⟩ := piece_whole he ha hok hcg
      have := hs.low g hg
      rw [p1, p2] at this
      exact ⟨(hok.sub c hcg).mem, this⟩
    · rintro ⟨hc, k1, k2, k3⟩
      rcases w' c hc with k | ⟨-, k⟩ | ⟨k, -⟩ | ⟨-, k⟩ | ⟨-, -, -, k⟩ | k
      · exact absurd (k2.trans_le k) (_root_.lt_asymm hpt)
      · rw [k] at k2; exact absurd k2 (lt_irrefl _)
      · exact k
      · rw [k] at k1; exact absurd k1 (lt_irrefl _)
      · exact absurd k (_root_.lt_asymm k3)
      · exact absurd k (_root_.lt_asymm k1)
  · intro c
    constructor
    · intro hc
      obtain ⟨g, hg, hcg⟩ := List.mem_flatMap.1 hc
      have hok := h'.pieces.ok g (inD hg)
      obtain ⟨p1, p2⟩ := piece_whole he ha hok hcg
      exact ⟨(hok.sub c hcg).mem, p2 ▸ (hs.endE g hg).2⟩
    · rintro ⟨hc, k1⟩
      rcases w' c hc with k | ⟨k, -⟩ | ⟨-, -, k, -⟩ | ⟨-, k⟩ | ⟨-, -, k, -⟩ | k
      · rw [k1] at k; exact absurd hpt (not_lt.2 k)
      · exact k
      · rw [k1] at k; exact absurd k (lt_irrefl _)
      · have := lt2 hc; rw [k, k1] at this; exact absurd this (lt_irrefl _)
      · rw [k1] at k; exact absurd k (lt_irrefl _)
      · have := lt2 hc; rw [k1] at this; exact absurd this (_root_.lt_asymm k)
  · intro c
    constructor
    · intro hc
      obtain ⟨g, hg, hcg⟩ := List.mem_flatMap.1 hc
      have hok := h'.pieces.ok g (inS hg)
      obtain ⟨p1, p2⟩ := piece_whole he ha hok hcg
      exact ⟨(hok.sub c hcg).mem, p1 ▸ (hs.startS g hg).2⟩
    · rintro ⟨hc, k1⟩
      have hlt := lt2 hc
      rw [k1] at hlt
      rcases w' c hc with k | ⟨-, k⟩ | ⟨-, k, -⟩ | ⟨k, -⟩ | ⟨-, k, -⟩ | k
      · exact absurd (hlt.trans_le k) (_root_.lt_asymm hpt)
      · rw [k] at hlt; exact absurd hlt (lt_irrefl _)
      · rw [k1] at k; exact absurd k (lt_irrefl _)
      · exact k
      · rw [k1] at k; exact absurd k (lt_irrefl _)
      · rw [k1] at k; exact absurd k (lt_irrefl _)
  · intro c
    constructor
    · intro hc
      obtain ⟨g, hg, hcg⟩ := List.mem_flatMap.1 hc
      have hok := h'.pieces.ok g (inU hg)
      obtain ⟨p1, p2⟩ := piece_whole he ha hok hcg
      have := hs.up g hg
      rw [p1, p2] at this
      exact ⟨(hok.sub c hcg).mem, this⟩
    · rintro ⟨hc, k1, k2, k3⟩
      rcases w' c hc with k | ⟨-, k⟩ | ⟨-, -, -, k⟩ | ⟨-, k⟩ | ⟨k, -⟩ | k
      · exact absurd (k2.trans_le k) (_root_.lt_asymm hpt)
      · rw [k] at k2; exact absurd k2 (lt_irrefl _)
      · exact absurd k (_root_.lt_asymm k3)
      · rw [k] at k1; exact absurd k1 (lt_irrefl _)
      · exact k
      · exact absurd k (_root_.lt_asymm k1)
  · rw [← hA]; exact active_nodup he h hgt
  · rw [← hA']; exact active_nodup he h' hgt'
  · have hnd := active_nodup he h' hgt'
    rw [hA', List.nodup_append', List.nodup_append'] at hnd
    rw [List.pairwise_flatMap]
    refine ⟨?_, ?_⟩
    · intro g hg
      have hn : g.cs.Nodup := (List.nodup_flatMap.1 hnd.1.2.1).1 g hg
      have hl := piece_single he ha (h'.pieces.ok g (inS hg)) hn
      obtain ⟨x, hx⟩ := List.length_eq_one_iff.1 (show g.cs.length = 1 by unfold Grp.cs; simpa using hl)
      rw [hx]; exact List.pairwise_singleton _ _
    · refine hs.ordS.imp_of_mem ?_
      intro a b hga hgb hab c hc d hd
      have hab : Lt a.p a.q b.p b.q := hab
      rw [(hs.startS a hga).2, (hs.startS b hgb).2, lt_right_iff le_rfl, det_left] at hab
      obtain ⟨-, p2⟩ := piece_whole he ha (h'.pieces.ok a (inS hga)) hc
      obtain ⟨-, p2'⟩ := piece_whole he ha (h'.pieces.ok b (inS hgb)) hd
      rw [← p2, ← p2']
      simpa using hab
  · intro r hr1 hr2
    have hE : ∀ e ∈ X.E, r.x < e.point.x := fun e he1 => hr2.trans_le (Pt.x_le_of_le (hmin e he1))
    obtain ⟨A1, A2, hAA, u1, u2⟩ := prefix_split (fun g : Grp K Nat => Under r g.p g.q) X.A (by
      intro L a R e b hb hu
      exact under_mono h.inv.core h.inv.chain h.inv.S hr1 hE e hb hu)
    refine ⟨A1.flatMap Grp.cs, A2.flatMap Grp.cs, by rw [← hA, hAA, List.flatMap_append], ?_⟩
    intro c
    constructor
    · intro hc
      obtain ⟨g, hg, hcg⟩ := List.mem_flatMap.1 hc
      have hok := h.pieces.ok g (mA (by rw [hAA]; simp [hg]))
      obtain ⟨p1, p2⟩ := piece_whole he ha hok hcg
      have := u1 g hg
      rw [p1, p2] at this
      exact ⟨(hok.sub c hcg).mem, this⟩
    · rintro ⟨hc, k1, k2, k3⟩
      rcases w c hc with k | ⟨k, -⟩ | ⟨k, -⟩
      · exact absurd ((Pt.x_le_of_le k).trans hr1) (not_le.2 k2)
      · rw [hAA, List.flatMap_append] at k
        rcases List.mem_append.1 k with k | k
        · exact k
        · exfalso
          obtain ⟨g, hg, hcg⟩ := List.mem_flatMap.1 k
          have hok := h.pieces.ok g (mA (by rw [hAA]; simp [hg]))
          obtain ⟨p1, p2⟩ := piece_whole he ha hok hcg
          exact u2 g hg (by rw [p1, p2]; exact ⟨k1, k2, k3⟩)
      · exact absurd (hr2.trans_le (Pt.x_le_of_le k)) (not_lt.2 k1)

end GeoCrossings

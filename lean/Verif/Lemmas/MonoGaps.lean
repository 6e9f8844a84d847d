import Verif.Lemmas.MonoEdges
import Verif.Model.Monotone

/-!
# The interior gaps between active edges, and how they change at a vertex

Active edges alternate between lower and upper boundaries of the interior. A gap is such a pair, with the last vertex on or in it.
-/
set_option linter.unusedSectionVars false
namespace GeoCrossings.Monotone
open Spec

variable {K : Type} [Field K] [LinearOrder K] [IsStrictOrderedRing K]

/-- A piece of the interior between two active edges: the lower and the upper edge, the helper vertex, and whether that is a merge
vertex. -/
structure Gap (K : Type) where
  b : Nat
  t : Nat
  h : Pt K
  mg : Bool

def flat (gs : List (Gap K)) : List Nat := gs.flatMap fun g => [g.b, g.t]

@[simp] theorem flat_nil : flat ([] : List (Gap K)) = [] := rfl
@[simp] theorem flat_cons (g : Gap K) (gs : List (Gap K)) : flat (g :: gs) = g.b :: g.t :: flat gs := rfl
@[simp] theorem flat_append (g1 g2 : List (Gap K)) : flat (g1 ++ g2) = flat g1 ++ flat g2 := List.flatMap_append
theorem flat_length (gs : List (Gap K)) : (flat gs).length = 2 * gs.length := by
  induction gs with
  | nil => rfl
  | cons g gs ih => simp [ih]; omega

theorem mem_flat_of {gs : List (Gap K)} {g : Gap K} (h : g ∈ gs) : g.b ∈ flat gs ∧ g.t ∈ flat gs :=
  ⟨List.mem_flatMap.2 ⟨g, h, by simp⟩, List.mem_flatMap.2 ⟨g, h, by simp⟩⟩

/-- Where a cut of the flat list cuts the list of gaps. -/
theorem flat_cut : ∀ {gs : List (Gap K)} {B T : List Nat}, flat gs = B ++ T →
    (Even B.length ∧ ∃ G1 G2, gs = G1 ++ G2 ∧ B = flat G1 ∧ T = flat G2) ∨
    (¬ Even B.length ∧ ∃ G1 g G2, gs = G1 ++ g :: G2 ∧ B = flat G1 ++ [g.b] ∧ T = g.t :: flat G2)
  | [], B, T, h => by
    have h := h.symm
    rw [flat_nil, List.append_eq_nil_iff] at h
    obtain ⟨rfl, rfl⟩ := h
    exact .inl ⟨by simp, [], [], rfl, rfl, rfl⟩
  | g :: gs, [], T, h => .inl ⟨by simp, [], g :: gs, rfl, rfl, by simpa using h.symm⟩
  | g :: gs, [x], T, h => by
    simp only [flat_cons, List.cons_append, List.nil_append, List.cons.injEq] at h
    exact .inr ⟨by simp, [], g, gs, rfl, by simp [h.1], h.2.symm⟩
  | g :: gs, x :: y :: B, T, h => by
    simp only [flat_cons, List.cons_append, List.cons.injEq] at h
    obtain ⟨rfl, rfl, h⟩ := h
    rcases flat_cut h with ⟨e, G1, G2, rfl, rfl, rfl⟩ | ⟨e, G1, g', G2, rfl, rfl, rfl⟩
    · exact .inl ⟨by simp only [List.length_cons]; rw [Nat.even_add_one, Nat.even_add_one, not_not]; exact e, g :: G1, G2, rfl, rfl, rfl⟩
    · exact .inr ⟨by simp only [List.length_cons]; rw [Nat.even_add_one, Nat.even_add_one, not_not]; exact e, g :: G1, g', G2, rfl, rfl, rfl⟩

/-- What holds of a gap at sweep position `u`. -/
structure GOk (n : Nat) (ed : Nat → Sg K) (top : Nat → Bool) (u : Pt K) (g : Gap K) : Prop where
  labB : top g.b = false
  labT : top g.t = true
  leftB : (ed g.b).1 ≤ g.h
  leftT : (ed g.t).1 ≤ g.h
  le : g.h ≤ u
  plain : g.mg = false → g.h = (ed g.b).1 ∨ g.h = (ed g.t).1
  merged : g.mg = true → ∀ k, 1 ≤ k → k ≤ n → (ed k).1 ≠ g.h
  empty : ∀ k, 1 ≤ k → k ≤ n → ∀ x, EndOf (ed k) x → g.h < x → x ≤ u →
    ¬ (0 < det (ed g.b).1 (ed g.b).2 x ∧ det (ed g.t).1 (ed g.t).2 x < 0)

/-- Merge vertices of different gaps are different. -/
def Diff (g g' : Gap K) : Prop := g.mg = true → g'.mg = true → g.h ≠ g'.h

structure GInv (n : Nat) (ed : Nat → Sg K) (top : Nat → Bool) (u : Pt K) (gs : List (Gap K)) : Prop where
  act : Act n ed u (flat gs)
  ok : ∀ g ∈ gs, GOk n ed top u g
  diff : gs.Pairwise Diff

variable {n : Nat} {ed : Nat → Sg K} {top : Nat → Bool} {u v : Pt K}

theorem GOk.advance {g : Gap K} (h : GOk n ed top u g) (hv : Next n ed u v)
    (hg : 0 < det (ed g.t).1 (ed g.t).2 v ∨ det (ed g.b).1 (ed g.b).2 v < 0) : GOk n ed top v g where
  labB := h.labB
  labT := h.labT
  leftB := h.leftB
  leftT := h.leftT
  le := h.le.trans hv.lt.le
  plain := h.plain
  merged := h.merged
  empty := by
    intro k k1 k2 x hx h1 h2 hc
    rcases h2.lt_or_eq with h2 | rfl
    · have : x ≤ u := by
        rcases hx with rfl | rfl
        · rcases hv.left k k1 k2 with h | h
          · exact h
          · exact absurd h2 (not_lt.2 h)
        · rcases hv.right k k1 k2 with h | h
          · exact h
          · exact absurd h2 (not_lt.2 h)
      exact h.empty k k1 k2 x hx h1 this hc
    · rcases hg with hg | hg
      · exact absurd hc.2 (not_lt.2 hg.le)
      · exact absurd hc.1 (not_lt.2 hg.le)

theorem GOk.new {b t : Nat} {mg : Bool} (lb : top b = false) (lt : top t = true) (hb : (ed b).1 ≤ v) (ht : (ed t).1 ≤ v)
    (hp : mg = false → v = (ed b).1 ∨ v = (ed t).1) (hm : mg = true → ∀ k, 1 ≤ k → k ≤ n → (ed k).1 ≠ v) :
    GOk n ed top v ⟨b, t, v, mg⟩ where
  labB := lb
  labT := lt
  leftB := hb
  leftT := ht
  le := le_rfl
  plain := hp
  merged := hm
  empty := fun _ _ _ _ _ h1 h2 => absurd h2 (not_le.2 h1)

/-- How the gaps change at the vertex `v`: gaps before, active edges below, ending, starting, above, gaps after. Edges that start or end
at `v` are listed from below. -/
inductive GStep (n : Nat) (ed : Nat → Sg K) (top : Nat → Bool) (v : Pt K) :
    List (Gap K) → List Nat → List Nat → List Nat → List Nat → List (Gap K) → Prop
  | start (G1 G2 : List (Gap K)) (i j : Nat) (hi : top i = false) (hj : top j = true) (hd : 0 < det v (ed i).2 (ed j).2) :
    GStep n ed top v (G1 ++ G2) (flat G1) [] [i, j] (flat G2) (G1 ++ ⟨i, j, v, false⟩ :: G2)
  | split (G1 : List (Gap K)) (g : Gap K) (G2 : List (Gap K)) (i j : Nat) (hi : top i = true) (hj : top j = false)
    (hd : 0 < det v (ed i).2 (ed j).2)
    (hsel : g.mg = false → ∀ x y, 1 ≤ x → x ≤ n → 1 ≤ y → y ≤ n → (ed x).1 = g.h → (ed y).1 = g.h → top x = false → top y = true →
      if 0 < det g.h (ed x).2 v then x = g.b else y = g.t) :
    GStep n ed top v (G1 ++ g :: G2) (flat G1 ++ [g.b]) [] [i, j] (g.t :: flat G2)
      (G1 ++ ⟨g.b, i, v, false⟩ :: ⟨j, g.t, v, false⟩ :: G2)
  | contBot (G1 : List (Gap K)) (g : Gap K) (G2 : List (Gap K)) (j : Nat) (hj : top j = false) :
    GStep n ed top v (G1 ++ g :: G2) (flat G1) [g.b] [j] (g.t :: flat G2) (G1 ++ ⟨j, g.t, v, false⟩ :: G2)
  | contTop (G1 : List (Gap K)) (g : Gap K) (G2 : List (Gap K)) (j : Nat) (hj : top j = true) :
    GStep n ed top v (G1 ++ g :: G2) (flat G1 ++ [g.b]) [g.t] [j] (flat G2) (G1 ++ ⟨g.b, j, v, false⟩ :: G2)
  | finish (G1 : List (Gap K)) (g : Gap K) (G2 : List (Gap K)) (hd : 0 < det (ed g.b).1 v (ed g.t).1) :
    GStep n ed top v (G1 ++ g :: G2) (flat G1) [g.b, g.t] [] (flat G2) (G1 ++ G2)
  | merge (G1 : List (Gap K)) (g g' : Gap K) (G2 : List (Gap K)) (hd : 0 < det (ed g.t).1 v (ed g'.b).1) :
    GStep n ed top v (G1 ++ g :: g' :: G2) (flat G1 ++ [g.b]) [g.t, g'.b] [] (g'.t :: flat G2) (G1 ++ ⟨g.b, g'.t, v, true⟩ :: G2)

/-- The gaps at a split vertex tell which of two edges from the helper belongs to the gap. -/
theorem select (E : Edges n ed top) {gs G1 G2 : List (Gap K)} {g : Gap K} (hI : GInv n ed top u gs) (hv : Next n ed u v)
    (hg : gs = G1 ++ g :: G2) (hm : g.mg = false) (hb : 0 < det (ed g.b).1 (ed g.b).2 v) (ht : det (ed g.t).1 (ed g.t).2 v < 0)
    {x y : Nat} (x1 : 1 ≤ x) (x2 : x ≤ n) (y1 : 1 ≤ y) (y2 : y ≤ n) (hx : (ed x).1 = g.h) (hy : (ed y).1 = g.h)
    (lx : top x = false) (ly : top y = true) : if 0 < det g.h (ed x).2 v then x = g.b else y = g.t := by
  have gm : g ∈ gs := by rw [hg]; simp
  have ok := hI.ok g gm
  obtain ⟨mb, mt⟩ := mem_flat_of gm
  obtain ⟨b1, b2, b3, b4⟩ := (hI.act.mem _).1 mb
  obtain ⟨t1, t2, t3, t4⟩ := (hI.act.mem _).1 mt
  have hxy : x ≠ y := by rintro rfl; rw [lx] at ly; cases ly
  -- edges from the helper are `x` and `y`
  have two : ∀ k, 1 ≤ k → k ≤ n → EndOf (ed k) g.h → k = x ∨ k = y := by
    intro k k1 k2 hk
    obtain ⟨j, -, -, hj, -, hu⟩ := E.deg x x1 x2 g.h (.inl hx.symm)
    rcases hu y y1 y2 (.inl hy.symm) with h | h
    · exact absurd h.symm hxy
    · subst h; exact hu k k1 k2 hk
  split_ifs with hs
  · by_contra hne
    rcases ok.plain hm with hh | hh
    · rcases two g.b b1 b2 (.inl hh) with h | h
      · exact hne h.symm
      · have := ok.labB; rw [h, ly] at this; cases this
    · have hbt : g.b ≠ g.t := by intro h; have := ok.labB; rw [h, ok.labT] at this; cases this
      have ety : g.t = y := by
        rcases two g.t t1 t2 (.inl hh) with h | h
        · have := ok.labT; rw [h, lx] at this; cases this
        · exact h
      have hlb : (ed g.b).1 < g.h := by
        refine lt_of_le_of_ne ok.leftB fun h => ?_
        rcases two g.b b1 b2 (.inl h.symm) with h | h
        · exact hne h.symm
        · exact hbt (h.trans ety.symm)
      have hxt : x ≠ g.t := by rw [ety]; exact hxy
      have wx := E.lt x x1 x2
      have wt := E.lt g.t t1 t2
      have wb := E.lt g.b b1 b2
      -- `x` is below `t`
      have dxt : det g.h (ed g.t).2 (ed x).2 < 0 := by
        rcases lt_trichotomy (det g.h (ed g.t).2 (ed x).2) 0 with h | h | h
        · exact h
        · have := E.det_ll t1 t2 x1 x2 hxt.symm (by rw [← hh, hx])
          rw [← hh] at this
          exact absurd h this
        · rw [← hh] at ht
          have := angle (hh ▸ wt) (hx ▸ wx) (ok.le.trans_lt hv.lt) h ht.le
          exact absurd hs (not_lt.2 this.le)
      have lxt : (ed x).Lt (ed g.t) := by
        refine (lt_left_iff (by rw [hx, hh])).2 (.inr ⟨by rw [hx, hh]; simp, ?_⟩)
        rw [← hh]; exact dxt
      -- the helper is above `b`
      have lbt : (ed g.b).Lt (ed g.t) := by
        have := hI.act.sorted
        rw [hg] at this
        simp only [flat_append, flat_cons, List.pairwise_append, List.pairwise_cons] at this
        exact this.2.1.1 _ (by simp)
      have dbh : 0 < det (ed g.b).1 (ed g.b).2 g.h := by
        have := (lt_right_iff (hh ▸ hlb.le)).1 (show GeoCrossings.Lt _ _ _ _ from lbt)
        rw [← hh] at this
        rcases this with h | ⟨h, -⟩
        · exact h
        · exfalso
          rcases E.end_of_det x1 x2 b1 b2 (.inl hx.symm) hlb.le (ok.le.trans b4.le) h with h | h
          · exact hlb.ne' h
          · exact absurd (h ▸ ok.le) (not_le.2 b4)
      have lbx : (ed g.b).Lt (ed x) := (lt_right_iff (by rw [hx]; exact hlb.le)).2 (.inl (by rw [hx]; exact dbh))
      rcases lt_or_ge u (ed x).2 with hux | hux
      · -- `x` would be active between `b` and `t`
        have mx : x ∈ flat gs := (hI.act.mem x).2 ⟨x1, x2, by rw [hx]; exact ok.le, hux⟩
        have srt := hI.act.sorted
        rw [hg] at mx srt
        simp only [flat_append, flat_cons, List.mem_append, List.mem_cons] at mx
        simp only [flat_append, flat_cons, List.pairwise_append, List.pairwise_cons] at srt
        rcases mx with h | h | h | h
        · exact lt_asymm wb wx lbx (srt.2.2 x h g.b (by simp))
        · exact hne h
        · exact hxt h
        · exact lt_asymm wx wt lxt (srt.2.1.2.1 x h)
      · -- its right end would be a later vertex of the gap
        have hhx : g.h < (ed x).2 := hx ▸ wx
        have m1 := mono wb wx lbx (E.apart b1 b2 x1 x2 (Ne.symm hne) (hlb.trans hhx) (hux.trans b4.le) wx le_rfl)
          (hlb.trans hhx).le (hux.trans b4.le) wx.le le_rfl
        have m2 := mono wx wt lxt (E.apart x1 x2 t1 t2 hxt wx le_rfl (hh ▸ hhx) (hux.trans t4.le))
          wx.le le_rfl (hh ▸ hhx).le (hux.trans t4.le)
        refine ok.empty x x1 x2 _ (.inr rfl) hhx hux ⟨?_, ?_⟩
        · rcases lt_trichotomy (det (ed g.b).1 (ed g.b).2 (ed x).2) 0 with h | h | h
          · have := m1.1 h; simp at this
          · exfalso
            rcases E.end_of_det x1 x2 b1 b2 (.inr rfl) (hlb.trans hhx).le (hux.trans b4.le) h with h | h
            · exact (hlb.trans hhx).ne' h
            · exact absurd (h ▸ hux) (not_le.2 b4)
          · exact h
        · rcases (m2.2 (by simp)).lt_or_eq with h | h
          · exact h
          · exfalso
            rcases E.end_of_det x1 x2 t1 t2 (.inr rfl) (hh ▸ hhx).le (hux.trans t4.le) h with h | h
            · exact (hh ▸ hhx : (ed g.t).1 < (ed x).2).ne' h
            · exact absurd (h ▸ hux) (not_le.2 t4)
  · by_contra hne
    rcases ok.plain hm with hh | hh
    · have : g.b = x := by
        rcases two g.b b1 b2 (.inl hh) with h | h
        · exact h
        · have := ok.labB; rw [h, ly] at this; cases this
      rw [this, hx] at hb
      exact hs hb
    · rcases two g.t t1 t2 (.inl hh) with h | h
      · have := ok.labT; rw [h, lx] at this; cases this
      · exact hne h.symm

theorem two_nodup {M : List Nat} {i j : Nat} (hn : M.Nodup) (h : ∀ k, k ∈ M ↔ k = i ∨ k = j) (hij : i ≠ j) : M = [i, j] ∨ M = [j, i] := by
  have hp : M.Perm [i, j] := by
    rw [List.perm_ext_iff_of_nodup hn (by simp [hij])]
    intro k; rw [h k]; simp
  have hl := hp.length_eq
  match M, hl with
  | [a, b], _ =>
    have ha := (h a).1 (by simp)
    have hb := (h b).1 (by simp)
    have hab : a ≠ b := by simp at hn; exact hn
    rcases ha with rfl | rfl <;> rcases hb with rfl | rfl
    · exact absurd rfl hab
    · exact .inl rfl
    · exact .inr rfl
    · exact absurd rfl hab

theorem one_nodup {M : List Nat} {i : Nat} (hn : M.Nodup) (h : ∀ k, k ∈ M ↔ k = i) : M = [i] := by
  have hp : M.Perm [i] := by
    rw [List.perm_ext_iff_of_nodup hn (by simp)]
    intro k; rw [h k]; simp
  exact List.perm_singleton.1 hp

theorem diff_new {g : Gap K} (hu : u < v) (hg : GOk n ed top u g) (b t : Nat) (mg : Bool) : Diff g ⟨b, t, v, mg⟩ ∧ Diff ⟨b, t, v, mg⟩ g :=
  ⟨fun _ _ h => absurd hg.le (not_le.2 (by rw [h]; exact hu)), fun _ _ h => absurd hg.le (not_le.2 (by rw [← h]; exact hu))⟩

/-- **One step of the sweep**, on the level of gaps. -/
theorem GInv.step (E : Edges n ed top) {gs : List (Gap K)} (hI : GInv n ed top u gs) (hv : Next n ed u v) :
    ∃ B M N T gs', GStep n ed top v gs B M N T gs' ∧ GInv n ed top v gs' ∧ flat gs = B ++ M ++ T ∧
      (∀ k, k ∈ B ↔ 1 ≤ k ∧ k ≤ n ∧ Passes v (ed k)) ∧
      (∀ k, k ∈ M ↔ 1 ≤ k ∧ k ≤ n ∧ (ed k).2 = v) ∧
      (∀ k, k ∈ T ↔ 1 ≤ k ∧ k ≤ n ∧ (ed k).1 < v ∧ v < (ed k).2 ∧ det (ed k).1 (ed k).2 v < 0) ∧
      (∀ k, k ∈ N ↔ 1 ≤ k ∧ k ≤ n ∧ (ed k).1 = v) := by
  obtain ⟨B, M, T, hA, hB, hM, hT⟩ := hI.act.split E hv
  have hAct := hI.act
  rw [hA] at hAct
  have hnd := hAct.nodup E
  have hnM : M.Nodup := by
    rw [List.nodup_append, List.nodup_append] at hnd
    exact hnd.1.2.1
  -- gaps that are not touched
  have low : ∀ G : List (Gap K), (∀ k ∈ flat G, k ∈ B) → (∀ g ∈ G, g ∈ gs) → ∀ g ∈ G, GOk n ed top v g := by
    intro G h1 h2 g hg
    exact (hI.ok g (h2 g hg)).advance hv (.inl ((hB _).1 (h1 _ (mem_flat_of hg).2)).2.2.2.2)
  have upp : ∀ G : List (Gap K), (∀ k ∈ flat G, k ∈ T) → (∀ g ∈ G, g ∈ gs) → ∀ g ∈ G, GOk n ed top v g := by
    intro G h1 h2 g hg
    exact (hI.ok g (h2 g hg)).advance hv (.inr ((hT _).1 (h1 _ (mem_flat_of hg).1)).2.2.2.2)
  have dn := fun (g : Gap K) (hg : g ∈ gs) b t mg => diff_new hv.lt (hI.ok g hg) b t mg
  have lefts : ∀ k, k ∈ flat gs → (ed k).1 ≤ v := fun k hk => (hI.act.spans hv hk).2.2.1.le
  obtain ⟨k0, k01, k02, hk0⟩ := hv.vertex
  obtain ⟨j0, j01, j02, hne, hj0, huniq⟩ := E.deg k0 k01 k02 v hk0
  have lr : ∀ k, 1 ≤ k → k ≤ n → (ed k).1 = v → (ed k).2 ≠ v := fun k h1 h2 h3 h4 => by
    have := E.lt k h1 h2
    rw [h3, h4] at this; exact lt_irrefl _ this
  -- how many edges start at `v`
  have shape : (∃ i j, i ≠ j ∧ (∀ k, (1 ≤ k ∧ k ≤ n ∧ (ed k).1 = v) ↔ k = i ∨ k = j) ∧ M = []) ∨
      (∃ i j, (∀ k, (1 ≤ k ∧ k ≤ n ∧ (ed k).1 = v) ↔ k = j) ∧ M = [i]) ∨
      (∃ i j, i ≠ j ∧ (∀ k, ¬ (1 ≤ k ∧ k ≤ n ∧ (ed k).1 = v)) ∧ M = [i, j]) := by
    have all : ∀ k, (1 ≤ k ∧ k ≤ n ∧ EndOf (ed k) v) ↔ k = k0 ∨ k = j0 := by
      intro k
      refine ⟨fun ⟨h1, h2, h3⟩ => huniq k h1 h2 h3, ?_⟩
      rintro (rfl | rfl)
      · exact ⟨k01, k02, hk0⟩
      · exact ⟨j01, j02, hj0⟩
    have RL : ∀ a b, 1 ≤ a → a ≤ n → 1 ≤ b → b ≤ n → (∀ k, (1 ≤ k ∧ k ≤ n ∧ EndOf (ed k) v) ↔ k = a ∨ k = b) →
        v = (ed a).1 → v = (ed b).2 → (∃ i j, (∀ k, (1 ≤ k ∧ k ≤ n ∧ (ed k).1 = v) ↔ k = j) ∧ M = [i]) := by
      intro a b a1 a2 b1 b2 hall ha hb
      refine ⟨b, a, ?_, one_nodup hnM ?_⟩
      · intro k
        constructor
        · rintro ⟨h1, h2, h3⟩
          rcases (hall k).1 ⟨h1, h2, .inl h3.symm⟩ with h | rfl
          · exact h
          · exact absurd hb.symm (lr k h1 h2 h3)
        · rintro rfl; exact ⟨a1, a2, ha.symm⟩
      · intro k
        rw [hM]
        constructor
        · rintro ⟨h1, h2, h3⟩
          rcases (hall k).1 ⟨h1, h2, .inr h3.symm⟩ with rfl | h
          · exact absurd h3 (lr k h1 h2 ha.symm)
          · exact h
        · rintro rfl; exact ⟨b1, b2, hb.symm⟩
    rcases hk0 with hk0' | hk0' <;> rcases hj0 with hj0' | hj0'
    · refine .inl ⟨k0, j0, hne.symm, ?_, ?_⟩
      · intro k
        constructor
        · rintro ⟨h1, h2, h3⟩; exact (all k).1 ⟨h1, h2, .inl h3.symm⟩
        · rintro (rfl | rfl)
          · exact ⟨k01, k02, hk0'.symm⟩
          · exact ⟨j01, j02, hj0'.symm⟩
      · rw [List.eq_nil_iff_forall_not_mem]
        intro k hk
        obtain ⟨h1, h2, h3⟩ := (hM k).1 hk
        rcases (all k).1 ⟨h1, h2, .inr h3.symm⟩ with rfl | rfl
        · exact lr k h1 h2 hk0'.symm h3
        · exact lr k h1 h2 hj0'.symm h3
    · exact .inr (.inl (RL k0 j0 k01 k02 j01 j02 all hk0' hj0'))
    · exact .inr (.inl (RL j0 k0 j01 j02 k01 k02 (fun k => (all k).trans or_comm) hj0' hk0'))
    · have hm : ∀ k, k ∈ M ↔ k = k0 ∨ k = j0 := by
        intro k
        rw [hM]
        constructor
        · rintro ⟨h1, h2, h3⟩; exact (all k).1 ⟨h1, h2, .inr h3.symm⟩
        · rintro (rfl | rfl)
          · exact ⟨k01, k02, hk0'.symm⟩
          · exact ⟨j01, j02, hj0'.symm⟩
      have hno : ∀ k, ¬ (1 ≤ k ∧ k ≤ n ∧ (ed k).1 = v) := by
        rintro k ⟨h1, h2, h3⟩
        rcases (all k).1 ⟨h1, h2, .inl h3.symm⟩ with rfl | rfl
        · exact lr k h1 h2 h3 hk0'.symm
        · exact lr k h1 h2 h3 hj0'.symm
      rcases two_nodup hnM hm hne.symm with h | h
      · exact .inr (.inr ⟨_, _, hne.symm, hno, h⟩)
      · exact .inr (.inr ⟨_, _, hne, hno, h⟩)
  have hdiff := hI.diff
  rcases shape with ⟨i', j', hij', hN', rfl⟩ | ⟨i, j, hN, rfl⟩ | ⟨i, j, hij, hN, rfl⟩
  · -- both edges start: order them
    obtain ⟨i, j, hij, hN, hd⟩ : ∃ i j, i ≠ j ∧ (∀ k, (1 ≤ k ∧ k ≤ n ∧ (ed k).1 = v) ↔ k = i ∨ k = j) ∧
        0 < det v (ed i).2 (ed j).2 := by
      obtain ⟨i1, i2, i3⟩ := (hN' i').2 (.inl rfl)
      obtain ⟨j1, j2, j3⟩ := (hN' j').2 (.inr rfl)
      have := E.det_ll i1 i2 j1 j2 hij' (i3.trans j3.symm)
      rw [i3] at this
      rcases lt_or_gt_of_ne this with h | h
      · refine ⟨j', i', hij'.symm, fun k => (hN' k).trans or_comm, ?_⟩
        rw [det_swap]; linarith
      · exact ⟨i', j', hij', hN', h⟩
    obtain ⟨i1, i2, i3⟩ := (hN i).2 (.inl rfl)
    obtain ⟨j1, j2, j3⟩ := (hN j).2 (.inr rfl)
    have hNm : ∀ k, k ∈ [i, j] ↔ 1 ≤ k ∧ k ≤ n ∧ (ed k).1 = v := fun k => by rw [hN k]; simp
    have hlt : (ed i).Lt (ed j) := by
      refine (lt_right_iff (by rw [i3, j3])).2 (.inr ⟨by rw [j3, ← i3]; simp, by rw [i3]; exact hd⟩)
    obtain ⟨rep, -, -⟩ := hAct.replace hv hB hM hT hNm (by simp [hlt]) E
    have hpar := E.par i j i1 i2 j1 j2 (i3.trans j3.symm) (by rw [i3]; exact hd)
    rw [i3] at hpar
    have hcount : (List.range' 1 n).countP (fun k => decide (Passes v (ed k))) = B.length := by
      rw [List.countP_eq_length_filter]
      apply List.Perm.length_eq
      refine (List.perm_ext_iff_of_nodup (List.Nodup.filter _ (List.nodup_range' (h := Nat.one_pos))) ?_).2 ?_
      rotate_left
      · intro k
        rw [List.mem_filter, List.mem_range'_1, hB]
        simp only [decide_eq_true_eq]
        constructor
        · rintro ⟨⟨h1, h2⟩, h3⟩; exact ⟨h1, by omega, h3⟩
        · rintro ⟨h1, h2, h3⟩; exact ⟨⟨h1, by omega⟩, h3⟩
      · rw [List.nodup_append, List.nodup_append] at hnd
        exact hnd.1.1
    rw [hcount] at hpar
    have hll := E.ll i j i1 i2 j1 j2 hij (i3.trans j3.symm)
    simp only [List.append_nil] at hA hAct
    rcases flat_cut hA with ⟨he, G1, G2, rfl, rfl, rfl⟩ | ⟨he, G1, g, G2, rfl, rfl, rfl⟩
    · have ti := hpar.2 he
      have tj : top j = true := by cases h : top j <;> simp_all
      refine ⟨_, _, _, _, _, .start G1 G2 i j ti tj hd, ⟨by simpa using rep, ?_, ?_⟩, by simp, hB, hM, hT, hNm⟩
      · intro g hg
        rcases List.mem_append.1 hg with hg | hg
        · exact low G1 (fun k hk => hk) (fun g hg => by simp [hg]) g hg
        · rcases List.mem_cons.1 hg with rfl | hg
          · exact .new ti tj i3.le j3.le (fun _ => .inl i3.symm) (by simp)
          · exact upp G2 (fun k hk => hk) (fun g hg => by simp [hg]) g hg
      · rw [List.pairwise_append] at hdiff
        rw [List.pairwise_append, List.pairwise_cons]
        refine ⟨hdiff.1, ⟨fun g hg => (dn g (by simp [hg]) _ _ _).2, hdiff.2.1⟩, ?_⟩
        intro a ha b hb
        rcases List.mem_cons.1 hb with rfl | hb
        · exact (dn a (by simp [ha]) _ _ _).1
        · exact hdiff.2.2 a ha b hb
    · have ti : top i = true := by
        cases h : top i
        · exact absurd (hpar.1 h) he
        · rfl
      have tj : top j = false := by cases h : top j <;> simp_all
      have gm : g ∈ G1 ++ g :: G2 := by simp
      have ok := hI.ok g gm
      have hgb := (hB g.b).1 (by simp)
      have hgt := (hT g.t).1 (by simp)
      refine ⟨_, _, _, _, _, .split G1 g G2 i j ti tj hd ?_, ⟨by simpa using rep, ?_, ?_⟩, by simp, hB, hM, hT, hNm⟩
      · intro hm x y x1 x2 y1 y2 hx hy lx ly
        exact select E hI hv rfl hm hgb.2.2.2.2 hgt.2.2.2.2 x1 x2 y1 y2 hx hy lx ly
      · intro g' hg
        rcases List.mem_append.1 hg with hg | hg
        · exact low G1 (fun k hk => by simp [hk]) (fun g hg => by simp [hg]) g' hg
        · rcases List.mem_cons.1 hg with rfl | hg
          · exact .new ok.labB ti hgb.2.2.1.le i3.le (fun _ => .inr i3.symm) (by simp)
          · rcases List.mem_cons.1 hg with rfl | hg
            · exact .new tj ok.labT j3.le hgt.2.2.1.le (fun _ => .inl j3.symm) (by simp)
            · exact upp G2 (fun k hk => by simp [hk]) (fun g hg => by simp [hg]) g' hg
      · rw [List.pairwise_append, List.pairwise_cons] at hdiff
        rw [List.pairwise_append, List.pairwise_cons, List.pairwise_cons]
        refine ⟨hdiff.1, ⟨?_, ⟨fun g hg => (dn g (by simp [hg]) _ _ _).2, hdiff.2.1.2⟩⟩, ?_⟩
        · intro a ha
          rcases List.mem_cons.1 ha with rfl | ha
          · intro h; simp at h
          · exact (dn a (by simp [ha]) _ _ _).2
        · intro a ha b hb
          rcases List.mem_cons.1 hb with rfl | hb
          · exact (dn a (by simp [ha]) _ _ _).1
          · rcases List.mem_cons.1 hb with rfl | hb
            · exact (dn a (by simp [ha]) _ _ _).1
            · exact hdiff.2.2 a ha b (by simp [hb])
  · -- one edge ends, one starts
    obtain ⟨j1, j2, j3⟩ := (hN j).2 rfl
    obtain ⟨i1, i2, i3⟩ := (hM i).1 (by simp)
    have hNm : ∀ k, k ∈ [j] ↔ 1 ≤ k ∧ k ≤ n ∧ (ed k).1 = v := fun k => by rw [hN k]; simp
    obtain ⟨rep, -, -⟩ := hAct.replace hv hB hM hT hNm (by simp) E
    have hlab := E.rl i j i1 i2 j1 j2 (i3.trans j3.symm)
    rw [List.append_assoc] at hA
    rcases flat_cut hA with ⟨he, G1, G2, rfl, rfl, h2⟩ | ⟨he, G1, g, G2, rfl, rfl, h2⟩
    · match G2, h2 with
      | g :: G2, h2 =>
        simp only [List.singleton_append, flat_cons, List.cons.injEq] at h2
        obtain ⟨rfl, rfl⟩ := h2
        have ok := hI.ok g (by simp)
        have tj : top j = false := hlab ▸ ok.labB
        refine ⟨_, _, _, _, _, .contBot G1 g G2 j tj, ⟨by simpa using rep, ?_, ?_⟩, by simp, hB, hM, hT, hNm⟩
        · intro g' hg
          rcases List.mem_append.1 hg with hg | hg
          · exact low G1 (fun k hk => by simp [hk]) (fun g hg => by simp [hg]) g' hg
          · rcases List.mem_cons.1 hg with rfl | hg
            · exact .new tj ok.labT j3.le (lefts _ (by simp)) (fun _ => .inl j3.symm) (by simp)
            · exact upp G2 (fun k hk => by simp [hk]) (fun g hg => by simp [hg]) g' hg
        · rw [List.pairwise_append, List.pairwise_cons] at hdiff
          rw [List.pairwise_append, List.pairwise_cons]
          refine ⟨hdiff.1, ⟨fun g hg => (dn g (by simp [hg]) _ _ _).2, hdiff.2.1.2⟩, ?_⟩
          intro a ha b hb
          rcases List.mem_cons.1 hb with rfl | hb
          · exact (dn a (by simp [ha]) _ _ _).1
          · exact hdiff.2.2 a ha b (by simp [hb])
    · simp only [List.singleton_append, List.cons.injEq] at h2
      obtain ⟨rfl, rfl⟩ := h2
      have ok := hI.ok g (by simp)
      have tj : top j = true := hlab ▸ ok.labT
      refine ⟨_, _, _, _, _, .contTop G1 g G2 j tj, ⟨by simpa using rep, ?_, ?_⟩, by simp, hB, hM, hT, hNm⟩
      · intro g' hg
        rcases List.mem_append.1 hg with hg | hg
        · exact low G1 (fun k hk => by simp [hk]) (fun g hg => by simp [hg]) g' hg
        · rcases List.mem_cons.1 hg with rfl | hg
          · exact .new ok.labB tj (lefts _ (by simp)) j3.le (fun _ => .inr j3.symm) (by simp)
          · exact upp G2 (fun k hk => by simp [hk]) (fun g hg => by simp [hg]) g' hg
      · rw [List.pairwise_append, List.pairwise_cons] at hdiff
        rw [List.pairwise_append, List.pairwise_cons]
        refine ⟨hdiff.1, ⟨fun g hg => (dn g (by simp [hg]) _ _ _).2, hdiff.2.1.2⟩, ?_⟩
        intro a ha b hb
        rcases List.mem_cons.1 hb with rfl | hb
        · exact (dn a (by simp [ha]) _ _ _).1
        · exact hdiff.2.2 a ha b (by simp [hb])
  · -- two edges end
    obtain ⟨i1, i2, i3⟩ := (hM i).1 (by simp)
    obtain ⟨j1, j2, j3⟩ := (hM j).1 (by simp)
    have hNm : ∀ k, k ∈ ([] : List Nat) ↔ 1 ≤ k ∧ k ≤ n ∧ (ed k).1 = v := fun k => by simpa using hN k
    obtain ⟨rep, -, -⟩ := hAct.replace hv hB hM hT hNm (by simp) E
    have hlt : (ed i).Lt (ed j) := by
      have := hAct.sorted
      rw [List.pairwise_append, List.pairwise_append, List.pairwise_cons] at this
      exact this.1.2.1.1 j (by simp)
    have hd : 0 < det (ed i).1 v (ed j).1 := by
      rcases hlt with ⟨-, h | ⟨-, h⟩⟩ | ⟨-, h | ⟨-, h⟩⟩
      · rwa [i3] at h
      · rw [i3, j3] at h; simp at h
      · rw [j3] at h
        rw [← det_rot, det_swap12]
        have e : det v (ed i).1 (ed j).1 = det (ed j).1 v (ed i).1 := by unfold det; ring
        have e2 : det (ed j).1 v (ed i).1 = det v (ed i).1 (ed j).1 := e.symm
        have e3 : det (ed j).1 v (ed i).1 < 0 := h
        linarith
      · rw [i3, j3] at h; simp at h
    have hlab := E.rr i j i1 i2 j1 j2 hij (i3.trans j3.symm)
    rw [List.append_assoc] at hA
    rcases flat_cut hA with ⟨he, G1, G2, rfl, rfl, h2⟩ | ⟨he, G1, g, G2, rfl, rfl, h2⟩
    · match G2, h2 with
      | g :: G2, h2 =>
        simp only [List.cons_append, List.nil_append, flat_cons, List.cons.injEq] at h2
        obtain ⟨rfl, rfl, rfl⟩ := h2
        refine ⟨_, _, _, _, _, .finish G1 g G2 hd, ⟨by simpa using rep, ?_, ?_⟩, by simp, hB, hM, hT, hNm⟩
        · intro g' hg
          rcases List.mem_append.1 hg with hg | hg
          · exact low G1 (fun k hk => by simp [hk]) (fun g hg => by simp [hg]) g' hg
          · exact upp G2 (fun k hk => by simp [hk]) (fun g hg => by simp [hg]) g' hg
        · rw [List.pairwise_append, List.pairwise_cons] at hdiff
          rw [List.pairwise_append]
          exact ⟨hdiff.1, hdiff.2.1.2, fun a ha b hb => hdiff.2.2 a ha b (by simp [hb])⟩
    · simp only [List.cons_append, List.nil_append, List.cons.injEq] at h2
      obtain ⟨rfl, h2⟩ := h2
      match G2, h2 with
      | g' :: G2, h2 =>
        simp only [flat_cons, List.cons.injEq] at h2
        obtain ⟨rfl, rfl⟩ := h2
        have ok := hI.ok g (by simp)
        have ok' := hI.ok g' (by simp)
        refine ⟨_, _, _, _, _, .merge G1 g g' G2 hd, ⟨by simpa using rep, ?_, ?_⟩, by simp, hB, hM, hT, hNm⟩
        · intro g' hg
          rcases List.mem_append.1 hg with hg | hg
          · exact low G1 (fun k hk => by simp [hk]) (fun g hg => by simp [hg]) g' hg
          · rcases List.mem_cons.1 hg with rfl | hg
            · exact .new ok.labB ok'.labT (lefts _ (by simp)) (lefts _ (by simp)) (by simp)
                (fun _ k k1 k2 hk => hN k ⟨k1, k2, hk⟩)
            · exact upp G2 (fun k hk => by simp [hk]) (fun g hg => by simp [hg]) g' hg
        · rw [List.pairwise_append, List.pairwise_cons, List.pairwise_cons] at hdiff
          rw [List.pairwise_append, List.pairwise_cons]
          refine ⟨hdiff.1, ⟨fun g hg => (dn g (by simp [hg]) _ _ _).2, hdiff.2.1.2.2⟩, ?_⟩
          intro a ha b hb
          rcases List.mem_cons.1 hb with rfl | hb
          · exact (dn a (by simp [ha]) _ _ _).1
          · exact hdiff.2.2 a ha b (by simp [hb])

end GeoCrossings.Monotone

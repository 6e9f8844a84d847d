import Verif.Lemmas.MonoInit

/-!
# How much `monotone_chains` makes: chains and their coordinates
-/
set_option linter.unusedSectionVars false
namespace GeoCrossings.Monotone
open Spec

section
variable {K : Type} [Field K] [LinearOrder K] [IsStrictOrderedRing K]

/-! ## What the links do to the chains -/

/-- The interior sides of the chains. -/
def sidesOfChains (cs : List (Chain K)) : List Winding := cs.map (·.interior)
/-- The number of coordinates of the chains. -/
def coordsOfChains (cs : List (Chain K)) : Nat := (cs.map (·.coords.length)).sum

/-- Neither has changed. -/
def SameSize (cs cs' : List (Chain K)) : Prop := sidesOfChains cs' = sidesOfChains cs ∧ coordsOfChains cs' = coordsOfChains cs

theorem SameSize.trans {a b c : List (Chain K)} (h : SameSize a b) (h' : SameSize b c) : SameSize a c := ⟨h'.1.trans h.1, h'.2.trans h.2⟩

theorem set_sides {cs : List (Chain K)} {i : Nat} {c c' : Chain K} (h : cs[i]? = some c) (hi : c'.interior = c.interior) :
    sidesOfChains (cs.set i c') = sidesOfChains cs := by
  unfold sidesOfChains
  rw [List.map_set, hi]
  refine List.ext_getElem? fun k => ?_
  rw [List.getElem?_set]
  split
  · rename_i e
    subst e
    simp only [List.getElem?_map, h, Option.map_some, List.length_map]
    rw [if_pos (List.getElem?_eq_some_iff.1 h).1]
  · rfl

theorem set_coords : ∀ {cs : List (Chain K)} {i : Nat} {c : Chain K} (_ : cs[i]? = some c) (c' : Chain K),
    coordsOfChains (cs.set i c') + c.coords.length = coordsOfChains cs + c'.coords.length
  | a :: cs, 0, c, h, c' => by
    simp only [List.getElem?_cons_zero, Option.some.injEq] at h
    subst h
    simp only [coordsOfChains, List.set_cons_zero, List.map_cons, List.sum_cons]
    omega
  | a :: cs, i + 1, c, h, c' => by
    have := set_coords (cs := cs) (i := i) (c := c) (by simpa using h) c'
    simp only [coordsOfChains, List.set_cons_succ, List.map_cons, List.sum_cons] at this ⊢
    omega

theorem finish_same {dbg : Bool} {c c' : Chain K} (h : c.finish dbg = some c') : c'.interior = c.interior ∧ c'.coords = c.coords := by
  simp only [Chain.finish, Option.bind_eq_bind, Option.bind_eq_some_iff] at h
  obtain ⟨-, -, h⟩ := h
  cases h
  exact ⟨rfl, rfl⟩

theorem finishPair_same {dbg : Bool} {cs cs' : List (Chain K)} {i j : Nat} (h : finishPair dbg cs i j = some cs') : SameSize cs cs' := by
  simp only [finishPair, Option.bind_eq_bind, Option.bind_eq_some_iff] at h
  obtain ⟨ci, h1, ci', h2, cj, h3, cj', h4, c, h5, -, -, h6⟩ := h
  cases h6
  obtain ⟨a1, a2⟩ := finish_same h2
  obtain ⟨b1, b2⟩ := finish_same h4
  have s1 := set_coords h1 ci'
  have s2 := set_coords h3 cj'
  refine ⟨(set_sides h3 b1).trans (set_sides h1 a1), ?_⟩
  rw [a2] at s1
  rw [b2] at s2
  omega

theorem pop_same {c c' : Chain K} {p : Pt K} (h : c.pop = some (p, c')) : c'.interior = c.interior ∧ c'.coords.length + 1 = c.coords.length := by
  simp only [Chain.pop, Option.map_eq_some_iff, Prod.mk.injEq] at h
  obtain ⟨q, h1, -, rfl⟩ := h
  refine ⟨rfl, ?_⟩
  have : c.coords ≠ [] := by rintro e; rw [e] at h1; simp at h1
  have := List.length_pos_of_ne_nil this
  simp only [List.length_dropLast]
  omega

theorem reduceCont_same {dbg : Bool} {cs cs' : List (Chain K)} {i : Nat} {looks : List Nat} (h : reduceCont dbg cs i looks = some cs') : SameSize cs cs' := by
  have fin : ∀ (x : Nat × Nat), (do
      let c' ← cs[i]?
      let (newNext, c') ← c'.pop
      let chains := cs.set i c'
      let cp ← chains[x.1]?
      dassert dbg (c'.next = cp.next)
      let chains ← finishPair dbg chains i x.1
      let co ← chains[x.2]?
      pure (chains.set x.2 (co.advance newNext))) = some cs' → SameSize cs cs' := by
    intro x h
    simp only [Option.bind_eq_bind, Option.bind_eq_some_iff] at h
    obtain ⟨c, h1, ⟨p, c'⟩, h2, cp, h3, -, -, cs2, h4, co, h5, h6⟩ := h
    cases h6
    obtain ⟨a1, a2⟩ := pop_same h2
    obtain ⟨b1, b2⟩ := finishPair_same h4
    have s1 := set_coords h1 c'
    have s2 := set_coords h5 (co.advance p)
    have hl : (co.advance p).coords.length = co.coords.length + 1 := by simp [Chain.advance]
    refine ⟨(set_sides (c' := co.advance p) h5 rfl).trans (b1.trans (set_sides h1 a1)), ?_⟩
    simp only at a2 b2 s1 s2 ⊢
    omega
  unfold reduceCont at h
  obtain ⟨-, -, h⟩ := Option.bind_eq_some_iff.1 h
  obtain ⟨l0, -, h⟩ := Option.bind_eq_some_iff.1 h
  obtain ⟨c0, -, h⟩ := Option.bind_eq_some_iff.1 h
  dsimp only at h
  split at h
  · obtain ⟨x, -, h⟩ := Option.bind_eq_some_iff.1 h
    exact fin x h
  · obtain ⟨l1, -, h⟩ := Option.bind_eq_some_iff.1 h
    obtain ⟨c1, -, h⟩ := Option.bind_eq_some_iff.1 h
    split at h
    · obtain ⟨x, -, h⟩ := Option.bind_eq_some_iff.1 h
      exact fin x h
    · obtain ⟨x, -, h⟩ := Option.bind_eq_some_iff.1 h
      exact fin x h

theorem reduceOne_same {dbg : Bool} {cs cs' : List (Chain K)} {i : Nat} (h : reduceOne dbg cs i = some cs') : SameSize cs cs' := by
  simp only [reduceOne, Option.bind_eq_bind, Option.bind_eq_some_iff] at h
  obtain ⟨c1, -, c2, -, -, -, h⟩ := h
  split at h
  · cases h; exact ⟨rfl, rfl⟩
  · split at h
    · exact finishPair_same h
    · cases h; exact ⟨rfl, rfl⟩

theorem reduce_same {dbg : Bool} {pt : Pt K} {cs cs' : List (Chain K)} {ci : Option Nat} (h : reduce dbg pt cs ci = some cs') : SameSize cs cs' := by
  simp only [reduce, Option.bind_eq_bind, Option.bind_eq_some_iff] at h
  obtain ⟨-, -, h⟩ := h
  cases ci with
  | none =>
    simp only at h
    generalize (List.range cs.length).filter _ = L at h
    induction L generalizing cs with
    | nil => cases h; exact ⟨rfl, rfl⟩
    | cons i L ih =>
      rw [List.foldlM_cons] at h
      obtain ⟨cs1, h1, h2⟩ := Option.bind_eq_some_iff.1 h
      exact (reduceOne_same h1).trans (ih h2)
  | some c =>
    simp only at h
    split at h
    · cases h; exact ⟨rfl, rfl⟩
    · exact reduceCont_same h

/-- The link makes new chains. -/
def Link.isNew : Link K → Bool
  | .start .. => true
  | .split .. => true
  | _ => false

/-- The number of coordinates that a link adds. -/
def Link.cost (ty : VertexType) : Link K → Nat
  | .start .. => 4
  | .cont .. => 1
  | .merge .. => if ty = .split then 4 else 2
  | .split .. => 6
  | .finish .. => 0

theorem mergeChain_size {ty : VertexType} {next : Pt K} {l : Option (Pt K × Pt K)} {c c' : Chain K} (h : mergeChain ty next l c = some c') :
    c'.interior = c.interior ∧ c'.coords.length = c.coords.length + if ty = .split then 2 else 1 := by
  unfold mergeChain at h
  by_cases hs : ty = .split
  · simp only [if_pos hs, Option.map_eq_some_iff] at h ⊢
    obtain ⟨l, -, rfl⟩ := h
    split <;> simp [Chain.advance]
  · simp only [if_neg hs, Option.some.injEq] at h ⊢
    subst h
    simp [Chain.advance]

theorem merge_size {ty : VertexType} {prev next : Pt K} {l : Option (Pt K × Pt K)} : ∀ {cs cs' : List (Chain K)},
    cs.mapM (fun c => if c.looksAt prev then mergeChain ty next l c else some c) = some cs' →
    sidesOfChains cs' = sidesOfChains cs ∧ coordsOfChains cs' = coordsOfChains cs + cs.countP (·.looksAt prev) * if ty = .split then 2 else 1
  | [], cs', h => by cases h; simp [sidesOfChains, coordsOfChains]
  | c :: cs, cs', h => by
    rw [List.mapM_cons] at h
    simp only [Option.bind_eq_bind, Option.bind_eq_some_iff] at h
    obtain ⟨c1, h1, cs1, h2, h3⟩ := h
    cases h3
    obtain ⟨e1, e2⟩ := merge_size h2
    have : c1.interior = c.interior ∧ c1.coords.length = c.coords.length + if c.looksAt prev then (if ty = .split then 2 else 1) else 0 := by
      split at h1
      · rename_i hl
        obtain ⟨a, b⟩ := mergeChain_size h1
        exact ⟨a, by rw [b, if_pos hl]⟩
      · rename_i hl
        cases h1
        exact ⟨rfl, by rw [if_neg hl, Nat.add_zero]⟩
    refine ⟨by simp only [sidesOfChains, List.map_cons] at e1 ⊢; rw [this.1, e1], ?_⟩
    simp only [coordsOfChains, List.map_cons, List.sum_cons, List.countP_cons] at e2 ⊢
    rw [e2, this.2]
    by_cases hl : c.looksAt prev <;> simp only [hl, if_true, if_false, Bool.false_eq_true] <;> split <;> omega

theorem applyLink_size {dbg : Bool} {pt : Pt K} {ty : VertexType} {s s' : List (Chain K) × Option Nat} {l : Link K}
    (h : applyLink dbg pt ty s l = some s') :
    (sidesOfChains s'.1).count .clockwise = (sidesOfChains s.1).count .clockwise + (if l.isNew then 1 else 0) ∧
      (dbg = true → coordsOfChains s'.1 = coordsOfChains s.1 + l.cost ty) := by
  obtain ⟨cs, ci⟩ := s
  have snoc2 : ∀ (cs : List (Chain K)) (a b : Chain K), coordsOfChains (cs ++ [a, b]) = coordsOfChains cs + a.coords.length + b.coords.length ∧
      sidesOfChains (cs ++ [a, b]) = sidesOfChains cs ++ [a.interior, b.interior] := by
    intro cs a b
    constructor
    · simp [coordsOfChains]; omega
    · simp [sidesOfChains]
  cases l with
  | start root top bot =>
    simp only [applyLink, Option.bind_eq_bind, Option.bind_eq_some_iff] at h
    obtain ⟨-, -, t, h1, b, h2, h3⟩ := h
    cases h3
    simp only [Chain.new] at h1 h2
    simp only [List.length_cons, List.length_nil, gt_iff_lt] at h1 h2
    rw [if_pos (by omega), Option.some.injEq] at h1 h2
    subst h1 h2
    simp [(snoc2 _ _ _).1, (snoc2 _ _ _).2, Link.isNew, Link.cost]
  | cont a b c w =>
    simp only [applyLink, applyCont, Option.bind_eq_bind, Option.bind_eq_some_iff] at h
    obtain ⟨-, -, ⟨cs2, idx⟩, ⟨i, h1, d, h2, h3⟩, h4⟩ := h
    cases h3
    cases h4
    have s1 := set_coords h2 (d.advance c)
    have hl : (d.advance c).coords.length = d.coords.length + 1 := by simp [Chain.advance]
    refine ⟨?_, fun _ => ?_⟩
    · simp only [set_sides (c' := d.advance c) h2 rfl]
      simp [Link.isNew]
    · simp only [Link.cost]
      omega
  | merge a b l =>
    simp only [applyLink, applyMerge, Option.bind_eq_bind, Option.bind_eq_some_iff] at h
    obtain ⟨-, -, cs2, ⟨cs3, h1, ⟨⟩, hd, h3⟩, h4⟩ := h
    cases h3
    cases h4
    obtain ⟨e1, e2⟩ := merge_size h1
    refine ⟨by rw [e1]; simp [Link.isNew], ?_⟩
    rintro rfl
    have h2 : cs.countP (·.looksAt a) = 2 := by
      by_contra hne
      simp [dassert, hne] at hd
    rw [e2, h2]
    simp only [Link.cost]
    split <;> rfl
  | split a b t bt =>
    simp only [applyLink, applySplit, Option.bind_eq_bind, Option.bind_eq_some_iff] at h
    obtain ⟨-, -, cs2, ⟨idx, -, c, h1, ⟨p, c'⟩, h2, h3⟩, h4⟩ := h
    cases h4
    obtain ⟨a1, a2⟩ := pop_same h2
    have hsplit : (∃ x : Pt K × Chain K, x.2.interior = c.interior ∧ x.2.coords.length = c.coords.length + 1 ∧
        (if (c'.advance b).interior = .clockwise then ((c'.advance b).advance bt, t) else ((c'.advance b).advance t, bt)) = (x.2, x.1)) := by
      split
      · exact ⟨(t, (c'.advance b).advance bt), a1, by simp [Chain.advance]; omega, rfl⟩
      · exact ⟨(bt, (c'.advance b).advance t), a1, by simp [Chain.advance]; omega, rfl⟩
    obtain ⟨⟨o, d⟩, d1, d2, e⟩ := hsplit
    rw [e] at h3
    obtain ⟨c1, h5, c2, h6, h7⟩ := h3
    cases h7
    simp only [Chain.new, List.length_cons, List.length_nil, gt_iff_lt] at h5 h6
    rw [if_pos (by omega), Option.some.injEq] at h5 h6
    subst h5 h6
    have s1 := set_coords h1 d
    simp only at d1 d2
    refine ⟨?_, fun _ => ?_⟩
    · rw [(snoc2 _ _ _).2, set_sides h1 d1, List.count_append]
      simp only [Link.isNew, if_true]
      cases d.interior <;> rfl
    · rw [(snoc2 _ _ _).1]
      simp only [Link.cost, List.length_cons, List.length_nil]
      omega
  | finish a b c =>
    simp only [applyLink, Option.bind_eq_bind, Option.bind_eq_some_iff] at h
    obtain ⟨-, -, h⟩ := h
    cases h
    simp [Link.isNew, Link.cost]

theorem applyEvent_size {dbg : Bool} {cs cs' : List (Chain K)} {ev : SweepEvent K} (h : applyEvent dbg cs ev = some cs') :
    (sidesOfChains cs').count .clockwise = (sidesOfChains cs).count .clockwise + ev.links.countP Link.isNew ∧
      (dbg = true → coordsOfChains cs' = coordsOfChains cs + (ev.links.map (Link.cost ev.ty)).sum) := by
  simp only [applyEvent, Option.bind_eq_bind, Option.bind_eq_some_iff] at h
  obtain ⟨⟨cs1, ci⟩, h1, h2⟩ := h
  obtain ⟨r1, r2⟩ := reduce_same h2
  have key : ∀ (L : List (Link K)) (s s' : List (Chain K) × Option Nat), L.foldlM (applyLink dbg ev.pt ev.ty) s = some s' →
      (sidesOfChains s'.1).count .clockwise = (sidesOfChains s.1).count .clockwise + L.countP Link.isNew ∧
      (dbg = true → coordsOfChains s'.1 = coordsOfChains s.1 + (L.map (Link.cost ev.ty)).sum) := by
    intro L
    induction L with
    | nil => intro s s' h; cases h; simp
    | cons l L ih =>
      intro s s' h
      rw [List.foldlM_cons] at h
      obtain ⟨s1, h1, h2⟩ := Option.bind_eq_some_iff.1 h
      obtain ⟨a1, a2⟩ := applyLink_size h1
      obtain ⟨b1, b2⟩ := ih s1 s' h2
      refine ⟨by rw [b1, a1, List.countP_cons]; omega, fun hd => ?_⟩
      rw [b2 hd, a2 hd, List.map_cons, List.sum_cons]
      omega
  obtain ⟨k1, k2⟩ := key _ _ _ h1
  rw [r1, r2]
  exact ⟨k1, k2⟩

/-! ## What `collect` returns -/

/-- The number of coordinates of monotone polygons. -/
def coordsOfPolys (out : List (MonoPoly K)) : Nat := (out.map fun m => m.top.length + m.bot.length).sum

theorem new_eq {t b : List (Pt K)} {m : MonoPoly K} (h : MonoPoly.new t b = some m) : m = ⟨t, b⟩ := by
  unfold MonoPoly.new at h
  split at h
  · split at h
    · split at h
      · split at h
        · exact (Option.some.inj h).symm
        · cases h
      · cases h
    · cases h
  · cases h

theorem set_nil_sum : ∀ {ls : List (List (Pt K))} {i : Nat} {l : List (Pt K)}, ls[i]? = some l →
    ((ls.set i []).map List.length).sum + l.length = (ls.map List.length).sum
  | a :: ls, 0, l, h => by
    simp only [List.getElem?_cons_zero, Option.some.injEq] at h
    subst h
    simp; omega
  | a :: ls, i + 1, l, h => by
    have := set_nil_sum (ls := ls) (i := i) (l := l) (by simpa using h)
    simp only [List.set_cons_succ, List.map_cons, List.sum_cons] at this ⊢
    omega

theorem collect_size {dbg : Bool} {cs : List (Chain K)} {out : List (MonoPoly K)} (h : collect dbg cs = some out) :
    out.length = (sidesOfChains cs).count .clockwise ∧ coordsOfPolys out ≤ coordsOfChains cs := by
  simp only [collect, Option.bind_eq_bind, Option.bind_eq_some_iff] at h
  obtain ⟨-, -, -, -, ⟨ls, o⟩, h1, h2⟩ := h
  cases h2
  have key : ∀ (P : List (Nat × Nat)) (s s' : List (List (Pt K)) × List (MonoPoly K)), P.foldlM takePair s = some s' →
      s'.2.length = s.2.length + P.length ∧ coordsOfPolys s'.2 + (s'.1.map List.length).sum = coordsOfPolys s.2 + (s.1.map List.length).sum := by
    intro P
    induction P with
    | nil => intro s s' h; cases h; simp
    | cons p P ih =>
      rintro ⟨ls, o⟩ s' h
      rw [List.foldlM_cons] at h
      obtain ⟨s1, h1, h2⟩ := Option.bind_eq_some_iff.1 h
      obtain ⟨b1, b2⟩ := ih s1 s' h2
      simp only [takePair, Option.bind_eq_bind, Option.bind_eq_some_iff] at h1
      obtain ⟨t, g1, b, g2, m, g3, g4⟩ := h1
      cases g4
      rw [new_eq g3] at b1 b2
      have n1 := set_nil_sum g1
      have n2 := set_nil_sum g2
      simp only [List.length_append, List.length_cons, List.length_nil] at b1 ⊢
      refine ⟨by omega, ?_⟩
      have : coordsOfPolys (o ++ [⟨t, b⟩]) = coordsOfPolys o + (t.length + b.length) := by simp [coordsOfPolys]
      simp only [this] at b2
      omega
  obtain ⟨k1, k2⟩ := key _ _ _ h1
  refine ⟨?_, ?_⟩
  · rw [k1]
    simp only [List.length_nil, Nat.zero_add, sidesOfChains]
    have : ∀ (l : List (Chain K)) (k : Nat), ((l.zipIdx k).filterMap fun x => if x.1.interior = .clockwise then some (x.2, x.1.other) else none).length =
        (l.map (·.interior)).count .clockwise := by
      intro l
      induction l with
      | nil => intro k; rfl
      | cons c l ih =>
        intro k
        rw [List.zipIdx_cons, List.filterMap_cons, List.map_cons, List.count_cons]
        by_cases hc : c.interior = .clockwise
        · simp only [if_pos hc, List.length_cons, ih]
          simp [hc]
        · simp only [if_neg hc, ih]
          simp [hc]
    exact this cs 0
  · have : ((cs.map (·.coords)).map List.length).sum = coordsOfChains cs := by rw [List.map_map]; rfl
    simp only [coordsOfPolys, List.map_nil, List.sum_nil] at k2 ⊢
    rw [this] at k2
    omega

/-! ## New chains take two left events -/

def leftCount (evs : List (Event K)) : Nat := evs.countP fun e => e.ty = .lineLeft

theorem handleRemove_new {pt : Pt K} {sw sw' : Sweep K} {ls ls' : List (Link K)} {e : Event K} (h : handleRemove pt sw ls e = some (sw', ls')) :
    sw'.events = sw.events ∧ ls'.countP Link.isNew = ls.countP Link.isNew := by
  unfold handleRemove at h
  split at h
  · cases h; exact ⟨rfl, rfl⟩
  · simp only [Option.bind_eq_bind, Option.bind_eq_some_iff] at h
    obtain ⟨s, -, h⟩ := h
    split at h
    · split at h
      · obtain ⟨act, -, h⟩ := h
        cases h
        exact ⟨rfl, by simp [Link.isNew]⟩
      · obtain ⟨act, -, h⟩ := h
        cases h; exact ⟨rfl, rfl⟩
    · obtain ⟨act, -, h⟩ := h
      cases h; exact ⟨rfl, rfl⟩

theorem fixUp_new {pt : Pt K} {ixn : Ixn K} {sw sw' : Sweep K} {ls ls' : List (Link K)} {force m : Bool}
    (h : fixUp pt ixn sw ls force m = some (sw', ls')) :
    sw'.events = sw.events ∧ ls'.countP Link.isNew ≤ ls.countP Link.isNew + if force then 1 else 0 := by
  simp only [fixUp, Option.bind_eq_bind, Option.bind_eq_some_iff] at h
  obtain ⟨o, -, next, -, s, -, hp, -, h⟩ := h
  cases h
  refine ⟨rfl, ?_⟩
  by_cases hm : hp.isMerge = true
  · simp [hm, Link.isNew]
  · cases force
    · simp [hm]
    · simp [hm, Link.isNew]

theorem handleVertex_new {pt : Pt K} {ixn : Ixn K} {w : Winding} {sw sw' : Sweep K} {ls ls' : List (Link K)}
    (h : handleVertex pt ixn w sw ls = some (sw', ls')) :
    sw'.events = sw.events ∧ ls'.countP Link.isNew ≤ ls.countP Link.isNew + if ixn.ty = .start ∨ ixn.ty = .split then 1 else 0 := by
  unfold handleVertex at h
  split at h
  · rename_i ht
    simp only [ht]
    have fin : ∀ x : Sweep K × List (Link K), (if ixn.other1 > ixn.other2 then some (x.1, x.2 ++ [.cont ixn.other2 pt ixn.other1 ixn.interior])
        else if ixn.other1 < ixn.other2 then some (x.1, x.2 ++ [.cont ixn.other1 pt ixn.other2 ixn.interior]) else none) = some (sw', ls') →
        sw'.events = x.1.events ∧ ls'.countP Link.isNew = x.2.countP Link.isNew := by
      intro x h
      split at h
      · cases h; exact ⟨rfl, by simp [Link.isNew]⟩
      · split at h
        · cases h; exact ⟨rfl, by simp [Link.isNew]⟩
        · cases h
    dsimp only at h
    by_cases hw : w = .counterClockwise
    · rw [if_pos hw] at h
      obtain ⟨x, h1, h2⟩ := Option.bind_eq_some_iff.1 h
      obtain ⟨a1, a2⟩ := fixUp_new (sw' := x.1) (ls' := x.2) h1
      obtain ⟨b1, b2⟩ := fin x h2
      exact ⟨b1.trans a1, by rw [b2]; simpa using a2⟩
    · rw [if_neg hw] at h
      obtain ⟨b1, b2⟩ := fin (sw, ls) h
      exact ⟨b1, by rw [b2]; simp⟩
  · rename_i ht
    obtain ⟨a1, a2⟩ := fixUp_new h
    exact ⟨a1, by simpa [ht] using a2⟩
  · rename_i ht
    obtain ⟨a1, a2⟩ := fixUp_new h
    exact ⟨a1, by simpa [ht] using a2⟩
  · rename_i ht
    split at h; cases h; exact ⟨rfl, by simp [Link.isNew]⟩
  · rename_i ht
    split at h; cases h; exact ⟨rfl, by simp [Link.isNew, ht]⟩

theorem handleInsert_new {sw sw' : Sweep K} {e : Event K} (h : handleInsert sw e = some sw') : sw'.events = sw.events := by
  unfold handleInsert at h
  split at h
  · cases h; rfl
  · rw [Option.map_eq_some_iff] at h
    obtain ⟨act, -, rfl⟩ := h
    rfl

theorem vertexType_left {t1 t2 : EventType} {o : Option Winding} {w : Winding} {ty : VertexType} (h : vertexType t1 t2 o w = some ty)
    (ht : ty = .start ∨ ty = .split) : t1 = .lineLeft ∧ t2 = .lineLeft := by
  unfold vertexType at h
  split at h
  · rw [Option.map_eq_some_iff] at h
    obtain ⟨x, -, rfl⟩ := h
    split at ht <;> simp at ht
  · cases h; simp at ht
  · cases h; simp at ht
  · exact ⟨rfl, rfl⟩
  · cases h

theorem processEvent_new {sw sw' : Sweep K} {ev : SweepEvent K} (h : processEvent sw = some (sw', some ev)) :
    2 * ev.links.countP Link.isNew + leftCount sw'.events ≤ leftCount sw.events := by
  unfold processEvent at h
  split at h
  · cases h
  · rename_i pt idx _
    simp only [Option.bind_eq_bind, Option.bind_eq_some_iff] at h
    obtain ⟨⟨ixn, evs⟩, h1, ⟨sw1, l1⟩, h2, ⟨sw2, l2⟩, h3, s1, -, s2, -, h⟩ := h
    have h' : ∃ sw3 l3, handleVertex pt ixn s1.interiorWinding sw2 l2 = some (sw3, l3) ∧ ∃ sw4, handleInsert sw3 ixn.event1 = some sw4 ∧
        ∃ sw5, handleInsert sw4 ixn.event2 = some sw5 ∧ (sw5, (⟨pt, ixn.ty, l3⟩ : SweepEvent K)) = (sw', ev) := by
      split at h
      · simp at h
      · simp only [Option.bind_eq_some_iff] at h
        obtain ⟨_, -, ⟨sw3, l3⟩, g1, sw4, g2, sw5, g3, g4⟩ := h
        cases g4
        exact ⟨_, _, g1, _, g2, _, g3, rfl⟩
    obtain ⟨sw3, l3, h4, sw4, h5, sw5, h6, h7⟩ := h'
    cases h7
    have e1 := handleRemove_new h2
    have e2 := handleRemove_new h3
    have e3 := handleVertex_new h4
    have e5 : sw'.events = evs := by
      rw [handleInsert_new h6, handleInsert_new h5, e3.1, e2.1, e1.1]
      rfl
    have cnt : l3.countP Link.isNew ≤ if ixn.ty = .start ∨ ixn.ty = .split then 1 else 0 := by
      have := e3.2
      rw [e2.2, e1.2] at this
      simpa using this
    unfold findIntersectionType at h1
    split at h1
    · split at h1
      · rename_i a b rest hrev
        rw [Option.map_eq_some_iff] at h1
        obtain ⟨i, c1, c2⟩ := h1
        cases c2
        have hl : leftCount sw.events = (if a.ty = .lineLeft then 1 else 0) + (if b.ty = .lineLeft then 1 else 0) + leftCount sw'.events := by
          rw [e5]
          unfold leftCount
          rw [← List.countP_reverse, hrev, List.countP_cons, List.countP_cons, List.countP_reverse]
          simp only [decide_eq_true_eq]
          omega
        rw [hl]
        by_cases ht : ixn.ty = .start ∨ ixn.ty = .split
        · have hv : a.ty = .lineLeft ∧ b.ty = .lineLeft := by
            simp only [classify, Option.bind_eq_bind, Option.bind_eq_some_iff] at c1
            obtain ⟨s1, -, s2, -, o1, -, o2, -, ty, hty, he⟩ := c1
            cases he
            exact vertexType_left hty ht
          rw [if_pos ht] at cnt
          rw [if_pos hv.1, if_pos hv.2]
          simp only
          omega
        · rw [if_neg ht] at cnt
          simp only
          omega
      · cases h1
    · cases h1

theorem run_new {dbg : Bool} : ∀ (fuel : Nat) {sw : Sweep K} {cs cs' : List (Chain K)}, run dbg fuel sw cs = some cs' →
    2 * (sidesOfChains cs').count .clockwise ≤ 2 * (sidesOfChains cs).count .clockwise + leftCount sw.events
  | 0, _, _, _, h => by cases h
  | fuel + 1, sw, cs, cs', h => by
    rw [run] at h
    cases hp : processEvent sw with
    | none => rw [hp] at h; cases h
    | some x =>
      obtain ⟨sw', o⟩ := x
      rw [hp] at h
      cases o with
      | none => cases h; omega
      | some ev =>
        obtain ⟨cs1, h1, h2⟩ := Option.bind_eq_some_iff.1 h
        have a := (applyEvent_size h1).1
        have b := run_new fuel h2
        have c := processEvent_new hp
        omega

/-! ## The events of a polygon -/

/-- The number of sides that are not points. -/
def properSides (rings : List (List (Pt K))) : Nat := (rings.flatMap ringEdges).countP fun e => e.1 ≠ e.2

theorem addLine_events {w : Winding} {sw sw' : Sweep K} {l : Line K} (h : addLine w sw l = some sw') :
    leftCount sw'.events = leftCount sw.events + (if l.start ≠ l.stop then 1 else 0) ∧
      sw'.events.length = sw.events.length + 2 * (if l.start ≠ l.stop then 1 else 0) := by
  unfold addLine at h
  split at h
  · rename_i e
    cases h
    simp [e]
  · rename_i e
    rw [Option.map_eq_some_iff] at h
    obtain ⟨ev, h1, rfl⟩ := h
    simp only [Seg.events] at h1
    split at h1
    · cases h1
      simp [leftCount, e]
    · cases h1

theorem addLines_events {w : Winding} : ∀ (L : List (Sg K)) {sw sw' : Sweep K}, (L.map fun e => (⟨e.1, e.2⟩ : Line K)).foldlM (addLine w) sw = some sw' →
    leftCount sw'.events = leftCount sw.events + L.countP (fun e => e.1 ≠ e.2) ∧
      sw'.events.length = sw.events.length + 2 * L.countP (fun e => e.1 ≠ e.2)
  | [], _, _, h => by cases h; simp
  | e :: L, sw, sw', h => by
    rw [List.map_cons, List.foldlM_cons] at h
    obtain ⟨sw1, h1, h2⟩ := Option.bind_eq_some_iff.1 h
    obtain ⟨a1, a2⟩ := addLine_events h1
    obtain ⟨b1, b2⟩ := addLines_events L h2
    rw [List.countP_cons]
    simp only [decide_eq_true_eq] at a1 a2 ⊢
    omega

theorem addClosedRing_events {sw sw' : Sweep K} {r : List (Pt K)} {hole : Bool} (h : addClosedRing sw r hole = some sw') :
    leftCount sw'.events = leftCount sw.events + properSides [r] ∧ sw'.events.length = sw.events.length + 2 * properSides [r] := by
  unfold addClosedRing at h
  split at h
  · obtain ⟨w, -, h⟩ := Option.bind_eq_some_iff.1 h
    rw [ringLines_es] at h
    have := addLines_events _ h
    simpa [properSides, ringEdges, es] using this
  · cases h

theorem properSides_cons (r : List (Pt K)) (rs : List (List (Pt K))) : properSides (r :: rs) = properSides [r] + properSides rs := by
  simp [properSides]

theorem fromPolygon_count {srt : List (Event K) → List (Event K)} {p : Polygon K} {sw : Sweep K} (h : Sweep.fromPolygon srt p = some sw) :
    leftCount sw.events = properSides (p.ext :: p.ints) ∧ sw.events.length = 2 * properSides (p.ext :: p.ints) := by
  simp only [Sweep.fromPolygon, Option.bind_eq_bind, Option.bind_eq_some_iff] at h
  obtain ⟨sw1, h1, sw2, h2, evs, h3, h4⟩ := h
  cases h4
  obtain ⟨a1, a2⟩ := addClosedRing_events h1
  have key : ∀ (rs : List (List (Pt K))) {sw sw' : Sweep K}, rs.foldlM (fun sw r => addClosedRing sw r true) sw = some sw' →
      leftCount sw'.events = leftCount sw.events + properSides rs ∧ sw'.events.length = sw.events.length + 2 * properSides rs := by
    intro rs
    induction rs with
    | nil => intro sw sw' h; cases h; simp [properSides]
    | cons r rs ih =>
      intro sw sw' h
      rw [List.foldlM_cons] at h
      obtain ⟨sw1, h1, h2⟩ := Option.bind_eq_some_iff.1 h
      obtain ⟨a1, a2⟩ := addClosedRing_events h1
      obtain ⟨b1, b2⟩ := ih h2
      rw [properSides_cons]
      omega
  obtain ⟨b1, b2⟩ := key _ h2
  obtain ⟨l', s1, s2, -⟩ := sort_events srt sw2.events
  rw [h3, Option.some.injEq] at s1
  subst s1
  rw [properSides_cons]
  simp only [leftCount, List.length_nil, List.countP_nil] at a1 a2 b1 b2 ⊢
  rw [s2.countP_eq, s2.length_eq]
  omega

theorem monotoneChains_count {dbg : Bool} {srt : List (Event K) → List (Event K)} {p : Polygon K} {out : List (MonoPoly K)}
    (h : monotoneChains dbg srt p = some out) : 2 * out.length ≤ properSides (p.ext :: p.ints) := by
  simp only [monotoneChains, Option.bind_eq_bind, Option.bind_eq_some_iff] at h
  obtain ⟨sw, h1, cs, h2, h3⟩ := h
  have a := run_new _ h2
  have b := (fromPolygon_count h1).1
  have c := (collect_size h3).1
  simp only [sidesOfChains, List.map_nil, List.count_nil] at a c
  omega

end

/-! ## The coordinates -/

section
variable {K : Type} [Field K] [LinearOrder K] [IsStrictOrderedRing K]
variable {n : Nat} {ed : Nat → Sg K} {top : Nat → Bool} {u v : Pt K}

/-- Coordinates that are sure to follow: gaps left by a merge. -/
def mgs (gs : List (Gap K)) : Nat := gs.countP (·.mg)

theorem LStep.cost {gs gs' : List (Gap K)} {ty : VertexType} {links : List (Link K)} (h : LStep n ed top v gs ty links gs') :
    (links.map (Link.cost ty)).sum + 2 * mgs gs' + 2 * gs.length + (if gs = [] then 4 else 2) ≤
      2 * mgs gs + 2 * gs'.length + (if gs' = [] then 0 else 2) + 4 := by
  cases h with
  | start G1 G2 i j =>
    simp only [mgs, List.map_cons, List.map_nil, List.sum_cons, List.sum_nil, Link.cost, List.countP_append, List.countP_cons, List.length_append,
      List.length_cons, Bool.false_eq_true, if_false]
    rw [if_neg (c := _ ++ _ :: _ = []) (by simp)]
    split <;> omega
  | split G1 g G2 i j =>
    simp only [mgs, List.map_cons, List.map_nil, List.sum_cons, List.sum_nil, List.countP_append, List.countP_cons, List.length_append,
      List.length_cons, Bool.false_eq_true, if_false]
    rw [if_neg (c := _ ++ _ :: _ = []) (by simp), if_neg (c := _ ++ _ :: _ = []) (by simp)]
    cases g.mg <;> simp only [Link.cost, if_true, Bool.false_eq_true, if_false] <;> omega
  | contBot G1 g G2 j =>
    simp only [mgs, List.map_append, List.map_cons, List.map_nil, List.sum_append, List.sum_cons, List.sum_nil, List.countP_append,
      List.countP_cons, List.length_append, List.length_cons, Bool.false_eq_true, if_false]
    rw [if_neg (c := _ ++ _ :: _ = []) (by simp), if_neg (c := _ ++ _ :: _ = []) (by simp)]
    cases g.mg <;> simp [Link.cost] <;> omega
  | contTop G1 g G2 j =>
    simp only [mgs, List.map_append, List.map_cons, List.map_nil, List.sum_append, List.sum_cons, List.sum_nil, List.countP_append,
      List.countP_cons, List.length_append, List.length_cons, Bool.false_eq_true, if_false]
    rw [if_neg (c := _ ++ _ :: _ = []) (by simp), if_neg (c := _ ++ _ :: _ = []) (by simp)]
    cases g.mg <;> simp [Link.cost] <;> omega
  | finish G1 g G2 =>
    simp only [mgs, List.map_append, List.map_cons, List.map_nil, List.sum_append, List.sum_cons, List.sum_nil, List.countP_append,
      List.countP_cons, List.length_append, List.length_cons]
    rw [if_neg (c := _ ++ _ :: _ = []) (by simp)]
    cases g.mg <;> simp [Link.cost] <;> omega
  | merge G1 g g' G2 =>
    simp only [mgs, List.map_append, List.sum_append, List.countP_append,
      List.countP_cons, List.length_append, List.length_cons]
    rw [if_neg (c := _ ++ _ :: _ = []) (by simp), if_neg (c := _ ++ _ :: _ = []) (by simp)]
    cases g.mg <;> cases g'.mg <;> simp [Link.cost] <;> omega

theorem run_coords (E : Edges n ed top) : ∀ (fuel : Nat) {u : Pt K} {gs : List (Gap K)} {sw : Sweep K} {cs cs' : List (Chain K)},
    GInv n ed top u gs → SInv n ed top u gs sw → run true fuel sw cs = some cs' →
    coordsOfChains cs' + 2 * gs.length + (if gs = [] then (if sw.events = [] then 0 else 4) else 2) ≤
      coordsOfChains cs + 2 * mgs gs + 2 * sw.events.length
  | 0, _, _, _, _, _, _, _, h => by cases h
  | fuel + 1, u, gs, sw, cs, cs', hI, hS, h => by
    by_cases hne : sw.events = []
    · obtain ⟨h1, rfl⟩ := hS.last E hI hne
      rw [run, h1] at h
      cases h
      simp [hne]
    · obtain ⟨v, gs', sw', ev, hv, hI', hS', hp, hpt, hL, hlen⟩ := hS.step E hI hne
      rw [run, hp] at h
      obtain ⟨cs1, h1, h2⟩ := Option.bind_eq_some_iff.1 h
      have a := (applyEvent_size h1).2 rfl
      have b := run_coords E fuel hI' hS' h2
      have c := hL.cost
      rw [if_neg hne]
      have d : (if gs' = [] then 0 else 2) ≤ if gs' = [] then (if sw'.events = [] then 0 else 4) else 2 := by
        split
        · split <;> omega
        · omega
      omega

theorem monotoneChains_coords {srt : List (Event K) → List (Event K)} {p : Polygon K} (hp : ValidPolygon p.ext p.ints) {out : List (MonoPoly K)}
    (h : monotoneChains true srt p = some out) : coordsOfPolys out + 4 ≤ 4 * properSides (p.ext :: p.ints) := by
  obtain ⟨sw, u, hf, -, hu, hS⟩ := fromPolygon_ok srt hp
  simp only [monotoneChains, hf, Option.bind_eq_bind, Option.bind_some, Option.bind_eq_some_iff] at h
  obtain ⟨cs, h2, h3⟩ := h
  have a := run_coords (edges_valid hp) _ (GInv.init hu) hS h2
  have b := (fromPolygon_count hf).2
  have c := (collect_size h3).2
  have d : 0 < (dir (ringsOf p.ext p.ints)).length := by
    have h4 := (hp.closed p.ext (by simp)).2
    have : (es p.ext).length = p.ext.length - 1 := by simp [es]
    simp only [dir, ringsOf, List.flatMap_cons, List.length_append, List.length_map]
    omega
  have hne : sw.events ≠ [] := by
    intro e
    have := (hS.mem (evL (numEd (ringsOf p.ext p.ints)) 1)).2 ⟨⟨1, le_refl _, d, .inl rfl⟩, hu 1 (le_refl _) d⟩
    rw [e] at this
    simp at this
  rw [if_pos rfl, if_neg hne] at a
  simp only [coordsOfChains, mgs, List.map_nil, List.sum_nil, List.countP_nil, List.length_nil] at a c
  omega

end
end GeoCrossings.Monotone

import Verif.Props.Intersections

/-! # The part of C28 that holds: pairs that meet in one point which is the first end of neither -/
set_option linter.unusedSectionVars false
namespace GeoCrossings
open Spec

variable {K C : Type} [Field K] [LinearOrder K] [IsStrictOrderedRing K]
variable {lineOf : C → Line K} {nextAfter : K → K} {choice : Nat → Nat} {fuel : Nat} {input : List C}
variable {res : List (Pt K × List (Crossing K C))} {X : Abs K C}

/-! ## Counting the pairs of a batch -/

theorem looksFrom_count (f : Crossing K C → Crossing K C → Bool) (a : Crossing K C) (ov : Bool) (l : List (Crossing K C)) :
    (looksFrom a ov l).countP (fun k => f k.first k.second) = l.countP (f a) := by
  induction l generalizing ov with
  | nil => rfl
  | cons c cs ih => rw [looksFrom, List.countP_cons, List.countP_cons, ih]

section
variable (p q : Crossing K C → Bool)

theorem looks_count_zero {b : List (Crossing K C)} (h : b.countP p = 0) :
    (looks b).countP (fun k => (p k.first && q k.second) || (q k.first && p k.second)) = 0 := by
  rw [List.countP_eq_zero] at h ⊢
  intro k hk
  obtain ⟨i, j, x, y, -, h1, h2, rfl⟩ := (mem_looks _ _).1 hk
  simp [h x (List.mem_of_getElem? h1), h y (List.mem_of_getElem? h2)]

theorem looks_count_le {b : List (Crossing K C)} (hp : b.countP p ≤ 1) (hq : b.countP q ≤ 1) (hd : ∀ x ∈ b, ¬ (p x = true ∧ q x = true)) :
    (looks b).countP (fun k => (p k.first && q k.second) || (q k.first && p k.second)) ≤ 1 := by
  induction b with
  | nil => simp [looks]
  | cons a as ih =>
    have hd' := fun x hx => hd x (List.mem_cons_of_mem _ hx)
    rw [looks, List.countP_append, looksFrom_count fun x y => (p x && q y) || (q x && p y)]
    rw [List.countP_cons] at hp hq
    cases hpa : p a with
    | true =>
      have hqa : q a = false := by
        cases h : q a with
        | false => rfl
        | true => exact absurd ⟨hpa, h⟩ (hd a (by simp))
      rw [hpa] at hp; rw [hqa] at hq
      have h0 : as.countP p = 0 := by simp at hp ⊢; exact hp
      rw [looks_count_zero p q h0]
      simp only [Bool.true_and, Bool.false_and, hqa, Bool.or_false]
      simpa using hq
    | false =>
      rw [hpa] at hp
      cases hqa : q a with
      | true =>
        rw [hqa] at hq
        have h0 : as.countP q = 0 := by simp at hq ⊢; exact hq
        have := looks_count_zero q p h0
        simp only [Bool.or_comm] at this ⊢
        rw [this]
        simp only [Bool.true_and, Bool.false_and, Bool.false_or, Nat.add_zero]
        simpa using hp
      | false =>
        rw [hqa] at hq
        simp only [Bool.false_and, Bool.or_false, List.countP_false, Function.const_apply, Nat.zero_add]
        exact ih (by simpa using hp) (by simpa using hq) hd'

end

/-! ## Reports flagged as overlapping -/

theorem Final.chain (h : Final lineOf input X res) {p : Pt K} {b : List (Crossing K C)} (hb : (p, b) ∈ res) :
    b.IsChain fun x y => x.hasOverlap = true → x.line = y.line := by
  have h1 := h.blk.1
  have h2 : (GeoCrossings.flat res).IsChain fun x y => x.2.hasOverlap = true → x.2.line = y.2.line := by
    rw [h.flat]
    unfold flog
    rw [List.isChain_map]
    refine h1.imp ?_
    intro x y hxy ho
    have : x.2.1.overlapping ≠ none := by
      have : x.2.1.overlapping.isSome = true := ho
      rwa [Option.isSome_iff_ne_none] at this
    exact (hxy this).2.2
  obtain ⟨r1, r2, rfl⟩ := List.append_of_mem hb
  unfold GeoCrossings.flat at h2
  rw [List.flatMap_append, List.flatMap_cons] at h2
  have h3 := (List.isChain_append.1 (List.isChain_append.1 h2).2.1).1
  rw [List.isChain_map] at h3
  exact h3

theorem chain_overlap : ∀ (b : List (Crossing K C)), (b.IsChain fun x y => x.hasOverlap = true → x.line = y.line) →
    ∀ (i j : Nat) (x y : Crossing K C), i < j → b[i]? = some x → b[j]? = some y →
    ((b.drop i).take (j - i)).all (·.hasOverlap) = true → x.line = y.line := by
  intro b hb i j x y hij hx hy hall
  induction j generalizing y with
  | zero => omega
  | succ j ih =>
    have hjl : j + 1 < b.length := (List.getElem?_eq_some_iff.1 hy).1
    have hlast : ∀ z, b[j]? = some z → z.hasOverlap = true ∧ z.line = y.line := by
      intro z hz
      have hzo : z.hasOverlap = true := by
        rw [List.all_eq_true] at hall
        refine hall z (List.mem_of_getElem? (i := j - i) ?_)
        rw [List.getElem?_take_of_lt (by omega), List.getElem?_drop, show i + (j - i) = j by omega]
        exact hz
      refine ⟨hzo, ?_⟩
      have := List.isChain_iff_getElem.1 hb j (by omega)
      obtain ⟨h1, rfl⟩ := List.getElem?_eq_some_iff.1 hz
      obtain ⟨h2, rfl⟩ := List.getElem?_eq_some_iff.1 hy
      exact this hzo
    rcases Nat.lt_or_ge i j with h | h
    · obtain ⟨z, hz⟩ : ∃ z, b[j]? = some z := ⟨b[j], List.getElem?_eq_getElem (by omega)⟩
      refine (ih z h hz ?_).trans (hlast z hz).2
      rw [List.all_eq_true] at hall ⊢
      intro w hw
      refine hall w ?_
      rw [show j + 1 - i = (j - i) + 1 by omega]
      exact (List.take_sublist_take_left (by omega)).subset hw
    · obtain rfl : i = j := by omega
      exact (hlast x hx).2

/-! ## The ended piece of an input at a point on it -/

theorem consecutive_end {p q z : Pt K} {l : List (Pt K × Pt K)} (h : Consecutive p q l) (h1 : p < z) (h2 : z ≤ q)
    (hz : ∀ ab ∈ l, ¬ (ab.1 < z ∧ z < ab.2)) : ∃ ab ∈ l, ab.2 = z := by
  induction l generalizing p with
  | nil => rw [h] at h1; exact absurd (h1.trans_le h2) (lt_irrefl _)
  | cons x l ih =>
    obtain ⟨a, b⟩ := x
    obtain ⟨rfl, h3, h4⟩ := h
    rcases lt_trichotomy z b with e | e | e
    · exact absurd ⟨h1, e⟩ (hz (a, b) (by simp))
    · exact ⟨(a, b), by simp, e.symm⟩
    · obtain ⟨ab, m1, m2⟩ := ih h4 e fun ab hab => hz ab (List.mem_cons_of_mem _ hab)
      exact ⟨ab, List.mem_cons_of_mem _ m1, m2⟩

theorem Final.end_at (h : Final lineOf input X res) {c : C} (hc : c ∈ input) {z : Pt K} (hz : OnLine (lineOf c) z)
    (hlo : z ≠ lo (lineOf c)) (hin : ∀ g ∈ X.D, c ∈ g.cs → ¬ Inside g.p g.q z) : ∃ s, (z, s, .lineRight) ∈ X.log ∧ s.crossable = c := by
  have hlt : lo (lineOf c) < hi (lineOf c) := by
    rcases ofLine_cases (lineOf c) with ⟨e, -⟩ | ⟨e, -⟩
    · rw [OnLine, ← e, onSeg_self] at hz
      rw [lo, ← e, min_self] at hlo
      exact absurd hz hlo
    · exact e
  have hl : (lineOf c).start ≠ (lineOf c).stop := by
    intro e
    rw [lo, hi, ← e, min_self, max_self] at hlt
    exact lt_irrefl _ hlt
  obtain ⟨tl, t1, t2, t3⟩ := h.tiled
  have hcl : c ∈ linesOf lineOf input := List.mem_filter.2 ⟨hc, by simpa using hl⟩
  rw [← t1] at hcl
  obtain ⟨e, he, rfl⟩ := List.mem_map.1 hcl
  have hz2 := (onSeg_iff hlt).1 ((onLine_iff _ _).1 hz)
  have hp : ∀ ab ∈ e.2, ∃ g ∈ X.D, e.1 ∈ g.cs ∧ g.p = ab.1 ∧ g.q = ab.2 := fun ab hab =>
    h.piece (t3.mem_iff.2 (List.mem_flatMap.2 ⟨e, he, List.mem_map.2 ⟨ab, hab, rfl⟩⟩))
  obtain ⟨ab, m1, m2⟩ := consecutive_end (t2 e he) (lt_of_le_of_ne hz2.2.1 (Ne.symm hlo)) hz2.2.2 (by
    rintro ab hab ⟨k1, k2⟩
    obtain ⟨g, g1, g2, g3, g4⟩ := hp ab hab
    have s := (h.ok g g1).sub e.1 g2
    have p := (onSeg_iff hlt).1 ((onLine_iff _ _).1 s.p)
    have q := (onSeg_iff hlt).1 ((onLine_iff _ _).1 s.q)
    have hd := det_symm hlt.ne p.1 q.1
    exact hin g g1 g2 ⟨g3 ▸ k1, g4 ▸ k2, det_trans hlt.ne hd.1 hd.2 hz2.1⟩)
  obtain ⟨g, g1, g2, g3, g4⟩ := hp ab m1
  obtain ⟨s, s1, s2⟩ := h.right_mem g1 g2
  rw [g4, m2] at s1
  exact ⟨s, s1, s2⟩

/-! ## The claim -/

/-- Ended pieces of `c` in a batch. -/
def endOf [DecidableEq C] (c : C) (x : Crossing K C) : Bool := decide (x.crossable = c) && !x.atLeft

section
variable [DecidableEq C]

theorem countP_le_one_of {α : Type _} (p : α → Bool) : ∀ (l : List α), (∀ (i j : Nat) (x y : α), i < j → l[i]? = some x → l[j]? = some y → ¬ (p x = true ∧ p y = true)) →
    l.countP p ≤ 1
  | [], _ => by simp
  | a :: l, h => by
    rw [List.countP_cons]
    by_cases ha : p a = true
    · have : l.countP p = 0 := by
        rw [List.countP_eq_zero]
        intro y hy hpy
        obtain ⟨j, hj⟩ := List.mem_iff_getElem?.1 hy
        exact h 0 (j + 1) a y (by omega) rfl (by simpa using hj) ⟨ha, hpy⟩
      rw [this]; split <;> omega
    · have := countP_le_one_of p l fun i j x y hij hx hy => h (i + 1) (j + 1) x y (by omega) (by simpa using hx) (by simpa using hy)
      rw [if_neg ha]; omega

theorem Final.endOf_le (h : Final lineOf input X res) (hn : input.Nodup) {p : Pt K} {b : List (Crossing K C)} (hb : (p, b) ∈ res) (c : C)
    (hp : p ≠ lo (lineOf c)) : b.countP (endOf c) ≤ 1 := by
  refine countP_le_one_of _ _ ?_
  rintro i j x y hij hx hy ⟨h1, h2⟩
  obtain ⟨s1, t1, s2, t2, hs, rfl, rfl⟩ := h.pair hb hij hx hy
  simp only [endOf, Crossing.ofSeg, Bool.and_eq_true, Bool.not_eq_true'] at h1 h2
  have d1 := of_decide_eq_true h1.1
  have d2 := of_decide_eq_true h2.1
  have key : ∀ s t, (p, s, t) ∈ X.log → s.crossable = c → (t == EventType.lineLeft) = false → t = .lineRight := by
    intro s t hm hc hl
    rcases (h.sound _ hm).geom with ⟨a1, -⟩ | ⟨a1, -⟩ | ⟨-, -, a1, a2⟩
    · simp only at a1; subst a1; cases hl
    · exact a1
    · simp only at a1 a2
      rw [hc] at a1 a2
      rw [lo, a1, a2, min_self] at hp
      exact absurd rfl hp
  refine h.once hn hs rfl (d1.trans d2.symm) ?_
  exact (key s1 t1 (hs.subset (by simp)) d1 h1.2).trans (key s2 t2 (hs.subset (by simp)) d2 h2.2).symm

/-- **C28, the part that holds.** If the inputs are pairwise different and two of them have exactly one common point, which is not
the first end of either, then `Intersections` yields the pair (in one order or the other) exactly once. What is missing from C28:
pairs that meet at the first end of one of them, and overlapping pairs; for those the claim is false (`C28_pair_missed`,
`C28_pair_yielded_twice`). -/
theorem C28_inner_crossing_once_partial {ts} (h : intersectionsOf lineOf nextAfter choice fuel input = some ts) (hn : input.Nodup)
    {a b : C} (ha : a ∈ input) (hb : b ∈ input) (hab : a ≠ b) {z : Pt K} (hz : MeetAt (lineOf a) (lineOf b) z)
    (hza : z ≠ min (lineOf a).start (lineOf a).stop) (hzb : z ≠ min (lineOf b).start (lineOf b).stop) :
    ts.countP (fun t => decide (t.1 = a ∧ t.2.1 = b ∨ t.1 = b ∧ t.2.1 = a)) = 1 := by
  obtain ⟨res, X, hX, -, rfl⟩ := intersectionsOf_eq h
  have hon := (hz z).2 rfl
  have hno : ∀ x y, x < z → z < y → ¬ (OnLine (lineOf a) x ∧ OnLine (lineOf b) x ∧ OnLine (lineOf a) y ∧ OnLine (lineOf b) y) :=
    fun x y h1 _ h2 => h1.ne ((hz x).1 ⟨h2.1, h2.2.1⟩)
  obtain ⟨sa, ma, ca⟩ := hX.end_at ha hon.1 hza (hX.common hb hon.2 hno)
  obtain ⟨sb, mb, cb⟩ := hX.end_at hb hon.2 hzb (hX.common ha hon.1 fun x y h1 h2 h3 =>
    hno x y h1 h2 ⟨h3.2.1, h3.1, h3.2.2.2, h3.2.2.1⟩)
  obtain ⟨bt, hbt, hma⟩ := hX.mem ma
  obtain ⟨bt', hbt', hmb⟩ := hX.mem mb
  obtain rfl := hX.batch_unique hbt hbt'
  -- what is yielded for a pair
  have hcnt : ∀ k ∈ (res.map (·.2)).flatMap looks,
      ((yieldOf lineOf k).map fun t => decide (t.1 = a ∧ t.2.1 = b ∨ t.1 = b ∧ t.2.1 = a)).getD false =
        (Inters.shouldCompute k.overlap k.first k.second &&
          decide (k.first.crossable = a ∧ k.second.crossable = b ∨ k.first.crossable = b ∧ k.second.crossable = a)) := by
    intro k hk
    unfold yieldOf
    by_cases hc : Inters.shouldCompute k.overlap k.first k.second = true
    · rw [if_pos hc, hc]
      cases hl : lineIntersection (lineOf k.first.crossable) (lineOf k.second.crossable) with
      | none => exact absurd hl ((hX.expects hk).2 hc)
      | some i => simp
    · rw [if_neg hc]; simp [hc]
  rw [List.countP_filterMap]
  rw [List.countP_congr (fun k hk => by rw [hcnt k hk])]
  -- reports of `a` or `b` at `z`
  have key : ∀ {c : C}, (c = a ∨ c = b) → ∀ {x : Crossing K C}, x ∈ bt → x.crossable = c →
      (!x.atLeft || x.firstSegment) = true → x.atLeft = false := by
    intro c hc x hx hxc hf
    cases hl : x.atLeft with
    | false => rfl
    | true =>
      rw [hl] at hf
      obtain ⟨s, t, hm, rfl⟩ := hX.of_mem hbt hx
      have h1 := hX.first_seg hm (show (Crossing.ofSeg s t).firstSegment = true by simpa using hf)
      rcases (hX.sound _ hm).geom with ⟨a1, q, a2, -⟩ | ⟨a1, -⟩ | ⟨a1, -⟩
      · simp only at a2
        rw [a2, show s.crossable = c from hxc] at h1
        rcases hc with rfl | rfl
        · exact absurd h1 hza
        · exact absurd h1 hzb
      · simp only at a1; subst a1; cases hl
      · simp only at a1; subst a1; cases hl
  -- no report flagged as overlapping
  have hov : ∀ {x y : Crossing K C}, x ∈ bt → y ∈ bt → x.line = y.line → (x.crossable = a ∧ y.crossable = b ∨ x.crossable = b ∧ y.crossable = a) → False := by
    intro x y hx hy hg hcs
    obtain ⟨s1, t1, m1, rfl⟩ := hX.of_mem hbt hx
    obtain ⟨s2, t2, m2, rfl⟩ := hX.of_mem hbt hy
    have hg' : s1.geom = s2.geom := hg
    have hends : ∀ s t, (z, s, t) ∈ X.log → (s.crossable = a ∨ s.crossable = b) →
        ∃ u v, u < v ∧ s.geom = .line u v ∧ OnLine (lineOf s.crossable) u ∧ OnLine (lineOf s.crossable) v := by
      intro s t m hc
      rcases (hX.sound _ m).geom with ⟨-, q, a2, a3, a4⟩ | ⟨-, q, a2, a3, a4⟩ | ⟨-, -, a2, a3⟩
      · exact ⟨z, q, a3, a2, a4.p, a4.q⟩
      · exact ⟨q, z, a3, a2, a4.p, a4.q⟩
      · simp only at a2 a3
        rcases hc with hc | hc
        · rw [hc] at a2 a3; rw [a2, a3, min_self] at hza; exact absurd rfl hza
        · rw [hc] at a2 a3; rw [a2, a3, min_self] at hzb; exact absurd rfl hzb
    obtain ⟨u, v, huv, e1, o1, o2⟩ := hends s1 t1 m1 (by rcases hcs with h | h <;> [exact .inl h.1; exact .inr h.1])
    obtain ⟨u', v', -, e2, o3, o4⟩ := hends s2 t2 m2 (by rcases hcs with h | h <;> [exact .inr h.2; exact .inl h.2])
    rw [e1, e2] at hg'
    obtain ⟨rfl, rfl⟩ : u = u' ∧ v = v' := by cases hg'; exact ⟨rfl, rfl⟩
    have hu : u = z ∧ v = z := by
      rcases hcs with ⟨c1, c2⟩ | ⟨c1, c2⟩
      · have c1 : s1.crossable = a := c1
        have c2 : s2.crossable = b := c2
        rw [c1] at o1 o2; rw [c2] at o3 o4
        exact ⟨(hz u).1 ⟨o1, o3⟩, (hz v).1 ⟨o2, o4⟩⟩
      · have c1 : s1.crossable = b := c1
        have c2 : s2.crossable = a := c2
        rw [c1] at o1 o2; rw [c2] at o3 o4
        exact ⟨(hz u).1 ⟨o3, o1⟩, (hz v).1 ⟨o4, o2⟩⟩
    exact huv.ne (hu.1.trans hu.2.symm)
  -- the pairs considered in the batch at `z`
  have hin : ∀ k ∈ looks bt, (Inters.shouldCompute k.overlap k.first k.second &&
      decide (k.first.crossable = a ∧ k.second.crossable = b ∨ k.first.crossable = b ∧ k.second.crossable = a)) =
      ((endOf a k.first && endOf b k.second) || (endOf b k.first && endOf a k.second)) := by
    intro k hk
    obtain ⟨i, j, x, y, hij, hx, hy, rfl⟩ := (mem_looks _ _).1 hk
    have hxm := List.mem_of_getElem? hx
    have hym := List.mem_of_getElem? hy
    by_cases hcs : x.crossable = a ∧ y.crossable = b ∨ x.crossable = b ∧ y.crossable = a
    · have hno : ((bt.drop i).take (j - i)).all (·.hasOverlap) = false := by
        cases ho : ((bt.drop i).take (j - i)).all (·.hasOverlap) with
        | false => rfl
        | true => exact absurd (hov hxm hym (chain_overlap bt (hX.chain hbt) i j x y hij hx hy ho) hcs) id
      simp only [hno, Inters.shouldCompute, Bool.false_eq_true, if_false, decide_eq_true hcs, Bool.and_true]
      have hx' : (!x.atLeft || x.firstSegment) = !x.atLeft := by
        cases hh : (!x.atLeft || x.firstSegment) with
        | true =>
          have := key (c := x.crossable) (by rcases hcs with h | h <;> [exact .inl h.1; exact .inr h.1]) hxm rfl hh
          rw [this]; rfl
        | false => cases hl : x.atLeft <;> simp [hl] at hh ⊢
      have hy' : (!y.atLeft || y.firstSegment) = !y.atLeft := by
        cases hh : (!y.atLeft || y.firstSegment) with
        | true =>
          have := key (c := y.crossable) (by rcases hcs with h | h <;> [exact .inr h.2; exact .inl h.2]) hym rfl hh
          rw [this]; rfl
        | false => cases hl : y.atLeft <;> simp [hl] at hh ⊢
      rw [hx', hy']
      rcases hcs with ⟨e1, e2⟩ | ⟨e1, e2⟩ <;> simp [endOf, e1, e2, hab, Ne.symm hab]
    · rw [decide_eq_false hcs, Bool.and_false]
      symm
      simp only [endOf, Bool.or_eq_false_iff, Bool.and_eq_false_iff, decide_eq_false_iff_not]
      push Not at hcs
      constructor
      · by_cases e : x.crossable = a
        · exact .inr (.inl (hcs.1 e))
        · exact .inl (.inl e)
      · by_cases e : x.crossable = b
        · exact .inr (.inl (hcs.2 e))
        · exact .inl (.inl e)
  -- other batches contribute nothing
  have hout : ∀ p b', (p, b') ∈ res → p ≠ z → (looks b').countP (fun k => (Inters.shouldCompute k.overlap k.first k.second &&
      decide (k.first.crossable = a ∧ k.second.crossable = b ∨ k.first.crossable = b ∧ k.second.crossable = a))) = 0 := by
    intro p b' hm hp
    rw [List.countP_eq_zero]
    intro k hk hc
    obtain ⟨i, j, x, y, hij, hx, hy, rfl⟩ := (mem_looks _ _).1 hk
    have o1 := (hX.on hm (List.mem_of_getElem? hx)).2
    have o2 := (hX.on hm (List.mem_of_getElem? hy)).2
    rw [Bool.and_eq_true, decide_eq_true_eq] at hc
    simp only at hc
    rcases hc.2 with ⟨e1, e2⟩ | ⟨e1, e2⟩
    · rw [e1] at o1; rw [e2] at o2; exact hp ((hz p).1 ⟨o1, o2⟩)
    · rw [e1] at o1; rw [e2] at o2; exact hp ((hz p).1 ⟨o2, o1⟩)
  obtain ⟨r1, r2, hr⟩ := List.append_of_mem hbt
  have hsort := hX.sorted
  have hzero : ∀ r : List (Pt K × List (Crossing K C)), (∀ e ∈ r, e ∈ res ∧ e.1 ≠ z) →
      ((r.map (·.2)).flatMap looks).countP (fun k => (Inters.shouldCompute k.overlap k.first k.second &&
      decide (k.first.crossable = a ∧ k.second.crossable = b ∨ k.first.crossable = b ∧ k.second.crossable = a))) = 0 := by
    intro r hr
    rw [List.countP_eq_zero]
    intro k hk
    obtain ⟨b', hb', hk⟩ := List.mem_flatMap.1 hk
    obtain ⟨⟨p, b'⟩, hm, rfl⟩ := List.mem_map.1 hb'
    have := List.countP_eq_zero.1 (hout p b' (hr _ hm).1 (hr _ hm).2) k hk
    exact this
  have hs1 : ∀ e ∈ r1, e ∈ res ∧ e.1 ≠ z := by
    intro e he
    refine ⟨by rw [hr]; simp [he], ?_⟩
    rw [hr, List.map_append, List.map_cons, List.pairwise_append] at hsort
    exact (hsort.2.2 e.1 (List.mem_map_of_mem he) z (by simp)).ne
  have hs2 : ∀ e ∈ r2, e ∈ res ∧ e.1 ≠ z := by
    intro e he
    refine ⟨by rw [hr]; simp [he], ?_⟩
    rw [hr, List.map_append, List.map_cons, List.pairwise_append, List.pairwise_cons] at hsort
    exact (hsort.2.1.1 e.1 (List.mem_map_of_mem he)).ne'
  have e1 := hzero r1 hs1
  have e2 := hzero r2 hs2
  rw [hr, List.map_append, List.map_cons, List.flatMap_append, List.flatMap_cons, List.countP_append, List.countP_append, e1, e2,
    Nat.zero_add, Nat.add_zero, List.countP_congr (fun k hk => by rw [hin k hk])]
  refine le_antisymm (looks_count_le _ _ (hX.endOf_le hn hbt a hza) (hX.endOf_le hn hbt b hzb) ?_) ?_
  · intro x _ hx
    simp only [endOf, Bool.and_eq_true, decide_eq_true_eq] at hx
    exact hab (hx.1.1.symm.trans hx.2.1)
  · rw [Nat.succ_le_iff, List.countP_pos_iff]
    obtain ⟨i, hi⟩ := List.mem_iff_getElem?.1 hma
    obtain ⟨j, hj⟩ := List.mem_iff_getElem?.1 hmb
    have ea : endOf a (Crossing.ofSeg sa .lineRight) = true := by
      simp only [endOf, Bool.and_eq_true]; exact ⟨decide_eq_true ca, rfl⟩
    have eb : endOf b (Crossing.ofSeg sb .lineRight) = true := by
      simp only [endOf, Bool.and_eq_true]; exact ⟨decide_eq_true cb, rfl⟩
    rcases lt_trichotomy i j with e | e | e
    · exact ⟨_, (mem_looks _ _).2 ⟨i, j, _, _, e, hi, hj, rfl⟩, by simp [ea, eb]⟩
    · subst e
      rw [hi, Option.some.injEq] at hj
      have : sa.crossable = sb.crossable := congrArg Crossing.crossable hj
      exact absurd (ca.symm.trans (this.trans cb)) hab
    · exact ⟨_, (mem_looks _ _).2 ⟨j, i, _, _, e, hj, hi, rfl⟩, by simp [ea, eb]⟩

/-- In `fanInput`, where another pair is missed, the first and third line meet in one point that is the first end of neither; the
hypotheses are met and the pair is yielded once. -/
theorem fan_meet : MeetAt (⟨⟨-1, 2⟩, ⟨2, -1 / 2⟩⟩ : Line ℚ) ⟨⟨0, 0⟩, ⟨1, 1⟩⟩ ⟨7 / 11, 7 / 11⟩ := by
  have h1 : lineIntersection (⟨⟨-1, 2⟩, ⟨2, -1 / 2⟩⟩ : Line ℚ) ⟨⟨0, 0⟩, ⟨1, 1⟩⟩ = some (.singlePoint ⟨7 / 11, 7 / 11⟩) := by decide +kernel
  have h2 := lineIntersection_isInter (⟨⟨-1, 2⟩, ⟨2, -1 / 2⟩⟩ : Line ℚ) ⟨⟨0, 0⟩, ⟨1, 1⟩⟩
  rw [h1] at h2
  exact fun x => (h2.2 x).symm

end

example : ∃ ts, intersectionsOf id id (fun _ => 0) 40 ([⟨⟨-1, 2⟩, ⟨2, -1 / 2⟩⟩, ⟨⟨0, 0⟩, ⟨1, 0⟩⟩, ⟨⟨0, 0⟩, ⟨1, 1⟩⟩] : List (Line ℚ)) = some ts ∧
    ts.countP (fun t => decide (t.1 = ⟨⟨-1, 2⟩, ⟨2, -1 / 2⟩⟩ ∧ t.2.1 = ⟨⟨0, 0⟩, ⟨1, 1⟩⟩ ∨ t.1 = ⟨⟨0, 0⟩, ⟨1, 1⟩⟩ ∧ t.2.1 = ⟨⟨-1, 2⟩, ⟨2, -1 / 2⟩⟩)) = 1 := by
  have h : intersectionsOf id id (fun _ => 0) 40 ([⟨⟨-1, 2⟩, ⟨2, -1 / 2⟩⟩, ⟨⟨0, 0⟩, ⟨1, 0⟩⟩, ⟨⟨0, 0⟩, ⟨1, 1⟩⟩] : List (Line ℚ)) =
      some [(⟨⟨0, 0⟩, ⟨1, 1⟩⟩, ⟨⟨-1, 2⟩, ⟨2, -1 / 2⟩⟩, .singlePoint ⟨7 / 11, 7 / 11⟩)] := by decide +kernel
  exact ⟨_, h, C28_inner_crossing_once_partial h (by decide +kernel) (by simp) (by simp) (by decide +kernel) fan_meet (by decide +kernel) (by decide +kernel)⟩

end GeoCrossings

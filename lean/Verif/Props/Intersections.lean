import Verif.Props.Sweep
import Verif.Props.Walk

/-! # Properties of `Intersections`: C27, and the true half of C30 -/
set_option linter.unusedSectionVars false
namespace GeoCrossings
open Spec

variable {K C : Type} [Field K] [LinearOrder K] [IsStrictOrderedRing K]
variable {lineOf : C → Line K} {nextAfter : K → K} {choice : Nat → Nat} {fuel : Nat} {input : List C}
variable {res : List (Pt K × List (Crossing K C))} {X : Abs K C}

/-! ## An input occurs at most twice in a batch -/

theorem consecutive_starts {p q : Pt K} {l : List (Pt K × Pt K)} (h : Consecutive p q l) :
    (∀ ab ∈ l, p ≤ ab.1) ∧ l.Pairwise fun x y => x.1 < y.1 := by
  induction l generalizing p with
  | nil => simp
  | cons x l ih =>
    obtain ⟨a, b⟩ := x
    obtain ⟨rfl, h1, h2⟩ := h
    obtain ⟨i1, i2⟩ := ih h2
    refine ⟨?_, List.pairwise_cons.2 ⟨fun y hy => lt_of_lt_of_le h1 (i1 y hy), i2⟩⟩
    intro ab hab
    rcases List.mem_cons.1 hab with rfl | hab
    · exact le_rfl
    · exact h1.le.trans (i1 ab hab)

theorem Tiled.nodup {cs : List C} {t : List (C × Pt K × Pt K)} (h : Tiled lineOf cs t) (hn : cs.Nodup) :
    (t.map fun e => (e.1, e.2.1)).Nodup ∧ (t.map fun e => (e.1, e.2.2)).Nodup := by
  obtain ⟨tl, rfl, h2, h3⟩ := h
  have key : ∀ f : Pt K × Pt K → Pt K, (∀ e ∈ tl, (e.2.map f).Nodup) →
      (t.map fun e => (e.1, f e.2)).Nodup := by
    intro f hf
    rw [(h3.map fun e => (e.1, f e.2)).nodup_iff, List.map_flatMap, List.nodup_flatMap]
    refine ⟨?_, ?_⟩
    · intro e he
      rw [List.map_map]
      have : (e.2.map ((fun e : C × Pt K × Pt K => (e.1, f e.2)) ∘ fun ab => (e.1, ab))) = (e.2.map f).map fun z => (e.1, z) := by
        rw [List.map_map]; rfl
      rw [this]
      exact (hf e he).map fun a b h => (Prod.mk.inj h).2
    · rw [List.Nodup, List.pairwise_map] at hn
      refine hn.imp ?_
      intro a b hab
      simp only [Function.onFun]
      intro x h1 h2
      simp only [List.map_map, List.mem_map, Function.comp] at h1 h2
      obtain ⟨_, -, rfl⟩ := h1
      obtain ⟨_, -, h⟩ := h2
      exact hab (Prod.mk.inj h).1.symm
  refine ⟨key Prod.fst fun e he => ?_, key Prod.snd fun e he => ?_⟩
  · rw [List.Nodup, List.pairwise_map]
    exact (consecutive_starts (h2 e he)).2.imp fun h => h.ne
  · rw [List.Nodup, List.pairwise_map]
    exact (consecutive_sorted (h2 e he)).2.imp fun h => h.ne

/-- Two reports of the same kind for the same input are at different points. -/
theorem Final.once (h : Final lineOf input X res) (hn : input.Nodup) {e1 e2 : Pt K × Seg K C × EventType}
    (hs : [e1, e2].Sublist X.log) (hp : e1.1 = e2.1) (hc : e1.2.1.crossable = e2.2.1.crossable) : e1.2.2 ≠ e2.2.2 := by
  intro ht
  have hsub : ∀ ty, e1.2.2 = ty → [e1, e2].Sublist (X.log.filter fun e => e.2.2 = ty) := by
    intro ty he
    have := hs.filter fun e => e.2.2 = ty
    rwa [List.filter_cons_of_pos (by simp [he]), List.filter_cons_of_pos (by simp [← he, ht]), List.filter_nil] at this
  obtain ⟨n1, n2⟩ := h.tiled.nodup (hn.filter _)
  have hm1 : e1 ∈ X.log := hs.subset (by simp)
  have hm2 : e2 ∈ X.log := hs.subset (by simp)
  rcases (h.sound e1 hm1).geom with ⟨t1, -⟩ | ⟨t1, -⟩ | ⟨t1, -⟩
  · have := (hsub _ t1).map fun e => (e.2.1.crossable, e.1)
    have hnd : ((X.log.filter fun e => e.2.2 = .lineLeft).map fun e => (e.2.1.crossable, e.1)).Nodup := by
      rw [h.left.nodup_iff]
      have e : ((X.D.flatMap Grp.tri).map fun e => (e.1, e.2.1)) = X.D.flatMap fun g => g.cs.map fun c => (c, g.p) := by
        rw [List.map_flatMap]; simp [Grp.tri, Function.comp_def]
      rw [← e]; exact n1
    have := hnd.sublist this
    simp [hp, hc] at this
  · have := (hsub _ t1).map fun e => (e.2.1.crossable, e.1)
    have hnd : ((X.log.filter fun e => e.2.2 = .lineRight).map fun e => (e.2.1.crossable, e.1)).Nodup := by
      have e : ((X.log.filter fun e => e.2.2 = .lineRight).map fun e => (e.2.1.crossable, e.1)) =
          (X.D.flatMap Grp.tri).map fun e => (e.1, e.2.2) := by
        have := congrArg (List.map fun e : C × LineOrPoint K × Pt K => (e.1, e.2.2)) h.right
        rw [List.map_map, List.map_flatMap] at this
        refine Eq.trans ?_ (this.trans ?_)
        · rfl
        · rw [List.map_flatMap]; simp [Grp.tri, Function.comp_def]
      rw [e]; exact n2
    have := hnd.sublist this
    simp [hp, hc] at this
  · have := (hsub _ t1).map fun e => e.2.1.crossable
    have hnd : ((X.log.filter fun e => e.2.2 = .pointLeft).map fun e => e.2.1.crossable).Nodup := by
      rw [h.points.nodup_iff]; exact hn.filter _
    have := hnd.sublist this
    simp [hc] at this

/-- Two positions of a batch come from two reports in the same order. -/
theorem Final.pair (h : Final lineOf input X res) {p : Pt K} {b : List (Crossing K C)} (hb : (p, b) ∈ res) {i j : Nat}
    {x y : Crossing K C} (hij : i < j) (hx : b[i]? = some x) (hy : b[j]? = some y) :
    ∃ s1 t1 s2 t2, [(p, s1, t1), (p, s2, t2)].Sublist X.log ∧ x = .ofSeg s1 t1 ∧ y = .ofSeg s2 t2 := by
  have h1 : [x, y].Sublist b := by
    have e1 : b = b.take j ++ b.drop j := (List.take_append_drop j b).symm
    have hy' : y ∈ b.drop j := List.mem_of_getElem? (i := 0) (by rw [List.getElem?_drop]; simpa using hy)
    have hx' : x ∈ b.take j := List.mem_of_getElem? (i := i) (by rw [List.getElem?_take_of_lt hij]; exact hx)
    rw [e1, show [x, y] = [x] ++ [y] from rfl]
    exact (List.singleton_sublist.2 hx').append (List.singleton_sublist.2 hy')
  have h2 : [(p, x), (p, y)].Sublist (GeoCrossings.flat res) := by
    obtain ⟨r1, r2, rfl⟩ := List.append_of_mem hb
    unfold GeoCrossings.flat
    rw [List.flatMap_append, List.flatMap_cons]
    refine List.Sublist.trans ?_ (List.sublist_append_right _ _)
    refine List.Sublist.trans ?_ (List.sublist_append_left _ _)
    simpa using h1.map (p, ·)
  rw [h.flat] at h2
  obtain ⟨l, l1, l2⟩ := List.sublist_map_iff.1 h2
  obtain ⟨e1, l, rfl⟩ : ∃ e l', l = e :: l' := by
    cases l with
    | nil => simp at l2
    | cons e l => exact ⟨e, l, rfl⟩
  obtain ⟨e2, rfl⟩ : ∃ e, l = [e] := by
    rw [List.map_cons, List.cons.injEq] at l2
    have := congrArg List.length l2.2
    rw [List.length_map] at this
    exact List.length_eq_one_iff.1 this.symm
  obtain ⟨p1, s1, t1⟩ := e1
  obtain ⟨p2, s2, t2⟩ := e2
  simp only [List.map_cons, List.map_nil, List.cons.injEq, Prod.mk.injEq, and_true] at l2
  obtain ⟨⟨rfl, rfl⟩, rfl, rfl⟩ := l2
  exact ⟨s1, t1, s2, t2, l1, rfl, rfl⟩

/-- The flag `first_segment` is set only on pieces that start at the first end of their input. -/
theorem Final.first_seg (h : Final lineOf input X res) {p : Pt K} {s : Seg K C} {ty : EventType} (hs : (p, s, ty) ∈ X.log)
    (hf : s.firstSegment = true) : s.geom.first = lo (lineOf s.crossable) := by
  rw [h.first _ hs hf]
  rcases ofLine_cases (lineOf s.crossable) with ⟨e, hg⟩ | ⟨-, hg⟩
  · rw [hg, lo, e]; simp [LineOrPoint.first]
  · rw [hg]; rfl

/-- A pair that is considered consists of two different inputs. -/
theorem Final.differ (h : Final lineOf input X res) (hn : input.Nodup) {p : Pt K} {b : List (Crossing K C)} (hb : (p, b) ∈ res) {i j : Nat}
    {x y : Crossing K C} (hij : i < j) (hx : b[i]? = some x) (hy : b[j]? = some y) {ov : Bool}
    (hc : Inters.shouldCompute ov x y = true) : x.crossable ≠ y.crossable := by
  obtain ⟨s1, t1, s2, t2, hs, rfl, rfl⟩ := h.pair hb hij hx hy
  intro he
  have he' : s1.crossable = s2.crossable := he
  have ht := h.once hn hs rfl he'
  have ho := (List.pairwise_cons.1 (h.order.sublist hs)).1 (p, s2, t2) (by simp)
  have r1 := h.sound _ (hs.subset (by simp) : (p, s1, t1) ∈ X.log)
  have r2 := h.sound _ (hs.subset (by simp) : (p, s2, t2) ∈ X.log)
  simp only at ht ho
  rcases r1.geom with ⟨a1, q1, a2, a3, a4⟩ | ⟨a1, q1, a2, a3, a4⟩ | ⟨a1, a2, a3, a4⟩ <;>
    rcases r2.geom with ⟨b1, q2, b2, b3, b4⟩ | ⟨b1, q2, b2, b3, b4⟩ | ⟨b1, b2, b3, b4⟩ <;> simp only at a1 b1 a2 b2
  · exact ht (a1.trans b1.symm)
  · exact ho.2 trivial a1 b1
  · simp only at b3 b4 a4
    rw [← he'] at b3 b4
    have := a4.line
    rw [lo, hi, b3, b4, min_self, max_self] at this
    exact lt_irrefl _ this
  · -- ends here and begins here
    subst a1; subst b1
    have hf : s2.firstSegment = true := by
      cases ov <;> simp [Inters.shouldCompute, Crossing.ofSeg, show (EventType.lineRight == EventType.lineLeft) = false from rfl] at hc
      exact hc
    have h1 := h.first_seg (hs.subset (by simp) : (p, s2, .lineLeft) ∈ X.log) hf
    rw [b2] at h1
    have h2 : p = lo (lineOf s2.crossable) := h1
    have h3 := ((onSeg_iff a4.line).1 ((onLine_iff _ _).1 a4.p)).2.1
    simp only at h3 a3
    rw [he', ← h2] at h3
    exact absurd a3 (not_lt.2 h3)
  · exact ht (a1.trans b1.symm)
  · simp only at b3 b4 a4
    rw [← he'] at b3 b4
    have := a4.line
    rw [lo, hi, b3, b4, min_self, max_self] at this
    exact lt_irrefl _ this
  · simp only at a3 a4 b4
    rw [he'] at a3 a4
    have := b4.line
    rw [lo, hi, a3, a4, min_self, max_self] at this
    exact lt_irrefl _ this
  · simp only at a3 a4 b4
    rw [he'] at a3 a4
    have := b4.line
    rw [lo, hi, a3, a4, min_self, max_self] at this
    exact lt_irrefl _ this
  · exact ht (a1.trans b1.symm)

/-! ## What `Intersections` yields is a function of the pairs it looks at -/

/-- What is yielded for a pair looked at. -/
def yieldOf (lineOf : C → Line K) (k : Look K C) : Option (C × C × LineIntersection K) :=
  if Inters.shouldCompute k.overlap k.first k.second then
    (lineIntersection (lineOf k.first.crossable) (lineOf k.second.crossable)).map fun i => (k.first.crossable, k.second.crossable, i)
  else none

/-- The `debug_assert` and the `expect` of `intersection` succeed. -/
def Expects (lineOf : C → Line K) (k : Look K C) : Prop :=
  (k.overlap = true → k.first.atLeft = k.second.atLeft) ∧
  (Inters.shouldCompute k.overlap k.first k.second = true →
    lineIntersection (lineOf k.first.crossable) (lineOf k.second.crossable) ≠ none)

section Walk
variable {σ : Type} {pull : σ → Option (σ × Option (List (Crossing K C)))}

theorem next_spec : ∀ (n m : Nat) (it : Inters σ K C) (ls : List (Look K C)), it.trace pull fuel n = some ls → ls.length < m →
    (∀ k ∈ ls, Expects lineOf k) →
    (ls.filterMap (yieldOf lineOf) = [] ∧ ∃ it', it.next lineOf pull fuel m = some (it', none)) ∨
    ∃ it' r l1 l2 n', it.next lineOf pull fuel m = some (it', some r) ∧ ls = l1 ++ l2 ∧ l1 ≠ [] ∧
      l1.filterMap (yieldOf lineOf) = [r] ∧ it'.trace pull fuel n' = some l2 := by
  intro n
  induction n with
  | zero => intro m it ls h; simp [Inters.trace] at h
  | succ n ih =>
    intro m it ls h hm he
    obtain ⟨m, rfl⟩ : ∃ m', m = m' + 1 := ⟨m - 1, by omega⟩
    rw [Inters.trace] at h
    rw [Inters.next]
    cases hs : it.step pull fuel with
    | none => rw [hs] at h; simp at h
    | some o =>
      obtain ⟨it1, ok⟩ := o
      rw [hs] at h
      simp only [Option.bind_eq_bind, Option.bind_some] at h ⊢
      cases ok with
      | false => left; simp at h; subst h; simp
      | true =>
        simp only [if_true] at h ⊢
        cases ha : it1.batch[it1.idx]? with
        | none => rw [ha] at h; simp at h
        | some a =>
          rw [ha] at h; simp only [Option.bind_some] at h
          cases hb : it1.batch[it1.jdx]? with
          | none => rw [hb] at h; simp at h
          | some b =>
            rw [hb] at h; simp only [Option.bind_some] at h
            cases ht : it1.trace pull fuel n with
            | none => rw [ht] at h; simp at h
            | some rest =>
              rw [ht] at h
              simp only [Option.bind_some, pure, Option.some.injEq] at h
              subst h
              have hek := he _ (List.mem_cons_self)
              have hi : it1.intersection lineOf = if Inters.shouldCompute it1.isOverlap a b = true then
                  (lineIntersection (lineOf a.crossable) (lineOf b.crossable)).bind fun i => some (some (a.crossable, b.crossable, i))
                  else some none := by
                simp only [Inters.intersection, ha, hb, pure, Option.bind_eq_bind, Option.bind_some]
                rw [if_neg (by rintro ⟨h1, h2⟩; exact h2 (hek.1 h1))]
              by_cases hc : Inters.shouldCompute it1.isOverlap a b = true
              · cases hl : lineIntersection (lineOf a.crossable) (lineOf b.crossable) with
                | none => exact absurd hl (hek.2 hc)
                | some i =>
                  right
                  rw [hi, if_pos hc, hl]
                  exact ⟨it1, (a.crossable, b.crossable, i), [⟨a, b, it1.isOverlap⟩], rest, n, rfl, rfl, by simp,
                    by simp [yieldOf, hc, hl], ht⟩
              · rw [hi, if_neg hc]
                have hy : yieldOf lineOf ⟨a, b, it1.isOverlap⟩ = none := by simp [yieldOf, hc]
                simp only [Option.bind_some]
                rcases ih m it1 rest ht (by simp at hm; omega) (fun k hk => he k (List.mem_cons_of_mem _ hk)) with
                  ⟨h1, h2⟩ | ⟨it', r, l1, l2, n', h1, h2, h3, h4, h5⟩
                · left; exact ⟨by rw [List.filterMap_cons, hy]; exact h1, h2⟩
                · right
                  exact ⟨it', r, _ :: l1, l2, n', h1, by rw [h2]; rfl, by simp, by rw [List.filterMap_cons, hy]; exact h4, h5⟩

theorem run_spec : ∀ (m n : Nat) (it : Inters σ K C) (ls : List (Look K C)), it.trace pull fuel n = some ls → ls.length < fuel →
    ls.length < m → (∀ k ∈ ls, Expects lineOf k) → it.run lineOf pull fuel m = some (ls.filterMap (yieldOf lineOf)) := by
  intro m
  induction m with
  | zero => intro n it ls _ _ h; omega
  | succ m ih =>
    intro n it ls h hf hm he
    rw [Inters.run]
    rcases next_spec n fuel it ls h hf he with ⟨h1, it', h2⟩ | ⟨it', r, l1, l2, n', h1, rfl, h3, h4, h5⟩
    · rw [h2, h1]; rfl
    · rw [h1]
      have hl : 0 < l1.length := List.length_pos_iff.2 h3
      rw [List.length_append] at hf hm
      have := ih n' it' l2 h5 (by omega) (by omega) fun k hk => he k (List.mem_append_right _ hk)
      simp [this, List.filterMap_append, h4, pure]

end Walk

theorem yields_of_run : ∀ (n : Nat) (it : CrossingsIter K C) (res), it.run lineOf nextAfter choice fuel n = some res →
    Yields (CrossingsIter.pull lineOf nextAfter choice fuel) it (res.map (·.2)) := by
  intro n
  induction n with
  | zero => intro it res h; simp [CrossingsIter.run] at h
  | succ n ih =>
    intro it res h
    rw [CrossingsIter.run] at h
    cases hn : it.next lineOf nextAfter choice fuel with
    | none => rw [hn] at h; simp at h
    | some o =>
      obtain ⟨it1, o⟩ := o
      rw [hn] at h
      cases o with
      | none =>
        simp [pure] at h
        subst h
        exact .done (s' := it1) (by simp [CrossingsIter.pull, hn, pure])
      | some p =>
        simp only [Option.bind_eq_bind, Option.bind_some] at h
        cases hr : it1.run lineOf nextAfter choice fuel n with
        | none => rw [hr] at h; simp at h
        | some rest =>
          rw [hr] at h
          simp [pure] at h
          subst h
          exact .more (s' := it1) (by simp [CrossingsIter.pull, hn, pure]) (ih it1 rest hr)

theorem mem_flatMap_looks {k : Look K C} (hk : k ∈ (res.map (·.2)).flatMap looks) : ∃ (p : Pt K) (b : List (Crossing K C)) (i j : Nat), (p, b) ∈ res ∧ i < j ∧
    b[i]? = some k.first ∧ b[j]? = some k.second := by
  obtain ⟨b', hb', hk⟩ := List.mem_flatMap.1 hk
  obtain ⟨⟨p, b⟩, hb, rfl⟩ := List.mem_map.1 hb'
  obtain ⟨i, j, x, y, h1, h2, h3, rfl⟩ := (mem_looks _ _).1 hk
  exact ⟨p, b, i, j, hb, h1, h2, h3⟩

theorem Final.on (h : Final lineOf input X res) {p : Pt K} {b : List (Crossing K C)} (hb : (p, b) ∈ res) {x : Crossing K C} (hx : x ∈ b) :
    x.crossable ∈ input ∧ OnLine (lineOf x.crossable) p := by
  obtain ⟨s, ty, hl, rfl⟩ := h.of_mem hb hx
  have r := h.sound _ hl
  refine ⟨r.mem, ?_⟩
  rcases r.geom with ⟨-, q, -, -, a⟩ | ⟨-, q, -, -, a⟩ | ⟨-, -, a, b⟩
  · exact a.p
  · exact a.q
  · simp only at a b
    show OnSeg (lineOf s.crossable).start (lineOf s.crossable).stop p
    rw [a, b]; exact onSeg_left _ _

/-- A crossing that is flagged as overlapping is followed in its batch by one of the same kind. -/
theorem Final.batch_chain (h : Final lineOf input X res) {p : Pt K} {b : List (Crossing K C)} (hb : (p, b) ∈ res) :
    b.IsChain fun x y => x.hasOverlap = true → x.atLeft = y.atLeft := by
  have h1 : (GeoCrossings.flat res).IsChain fun x y => x.2.hasOverlap = true → x.2.atLeft = y.2.atLeft := by
    rw [h.flat]
    unfold flog
    rw [List.isChain_map]
    refine h.blk.1.imp fun x y hxy ho => ?_
    have := (hxy (by simpa [Crossing.ofSeg, Option.isSome_iff_ne_none] using ho)).2.1
    simp [Crossing.ofSeg, this]
  obtain ⟨r1, r2, rfl⟩ := List.append_of_mem hb
  unfold GeoCrossings.flat at h1
  rw [List.flatMap_append, List.flatMap_cons] at h1
  have h2 := ((List.isChain_append.1 h1).2.1)
  have h3 := (List.isChain_append.1 h2).1
  rw [List.isChain_map] at h3
  exact h3

theorem chain_flagged {b : List (Crossing K C)} (h : b.IsChain fun x y => x.hasOverlap = true → x.atLeft = y.atLeft) {x : Crossing K C} :
    ∀ (n i : Nat) {y : Crossing K C}, b[i]? = some x → b[i + n]? = some y → ((b.drop i).take n).all (·.hasOverlap) = true →
      x.atLeft = y.atLeft := by
  intro n
  induction n with
  | zero => intro i y h1 h2 _; rw [Nat.add_zero, h1] at h2; cases h2; rfl
  | succ n ih =>
    intro i y h1 h2 h3
    obtain ⟨hlt, hy⟩ := List.getElem?_eq_some_iff.1 h2
    have hz : b[i + n]? = some b[i + n] := List.getElem?_eq_getElem (by omega)
    have hd : (b.drop i)[n]? = some b[i + n] := by rw [List.getElem?_drop]; exact hz
    rw [List.take_add_one, hd, List.all_append, Bool.and_eq_true] at h3
    rw [ih i h1 hz h3.1, ← hy]
    exact List.isChain_iff_getElem.1 h (i + n) (by omega) (by simpa using h3.2)

theorem Final.expects (h : Final lineOf input X res) {k : Look K C} (hk : k ∈ (res.map (·.2)).flatMap looks) : Expects lineOf k := by
  refine ⟨?_, ?_⟩
  · obtain ⟨b', hb', hk'⟩ := List.mem_flatMap.1 hk
    obtain ⟨⟨p, b⟩, hb, rfl⟩ := List.mem_map.1 hb'
    obtain ⟨i, j, x, y, h1, h2, h3, rfl⟩ := (mem_looks _ _).1 hk'
    exact fun ho => chain_flagged (h.batch_chain hb) (j - i) i h2 (by rw [show i + (j - i) = j by omega]; exact h3) ho
  obtain ⟨p, b, i, j, hb, -, h1, h2⟩ := mem_flatMap_looks hk
  intro _ hn
  have := lineIntersection_isInter (lineOf k.first.crossable) (lineOf k.second.crossable)
  rw [hn] at this
  exact this p ⟨(h.on hb (List.mem_of_getElem? h1)).2, (h.on hb (List.mem_of_getElem? h2)).2⟩

/-! ## More fuel does not change a run that ends -/

section Mono
variable {σ : Type} {pull pull' : σ → Option (σ × Option (List (Crossing K C)))} {fuel' : Nat}

theorem pullLoop_mono (hp : ∀ s r, pull s = some r → pull' s = some r) : ∀ {m m' : Nat}, m ≤ m' → ∀ {s r},
    Inters.pullLoop pull m s = some r → Inters.pullLoop pull' m' s = some r := by
  intro m
  induction m with
  | zero => intro m' _ s r h; simp [Inters.pullLoop] at h
  | succ m ih =>
    intro m' hm s r h
    obtain ⟨m', rfl⟩ : ∃ k, m' = k + 1 := ⟨m' - 1, by omega⟩
    rw [Inters.pullLoop] at h ⊢
    cases hs : pull s with
    | none => rw [hs] at h; simp at h
    | some o =>
      obtain ⟨s1, o⟩ := o
      rw [hs] at h
      rw [hp _ _ hs]
      cases o with
      | none => exact h
      | some b =>
        simp only [Option.bind_eq_bind, Option.bind_some] at h ⊢
        by_cases hb : b.length > 1
        · rw [if_pos hb] at h ⊢; exact h
        · rw [if_neg hb] at h ⊢; exact ih (by omega) h

theorem step_mono (hp : ∀ s r, pull s = some r → pull' s = some r) (hf : fuel ≤ fuel') {it : Inters σ K C} {r}
    (h : it.step pull fuel = some r) : it.step pull' fuel' = some r := by
  unfold Inters.step at h ⊢
  by_cases h1 : 1 + it.jdx < it.batch.length
  · rw [if_pos h1] at h ⊢; exact h
  · rw [if_neg h1] at h ⊢
    simp only at h ⊢
    by_cases h2 : 1 + (it.idx + 1) ≥ it.batch.length
    · rw [if_pos h2] at h ⊢
      cases hl : Inters.pullLoop pull fuel it.inner with
      | none => rw [hl] at h; simp at h
      | some o => rw [hl] at h; rw [pullLoop_mono hp hf hl]; exact h
    · rw [if_neg h2] at h ⊢; exact h

theorem inext_mono (hp : ∀ s r, pull s = some r → pull' s = some r) (hf : fuel ≤ fuel') : ∀ {m m' : Nat}, m ≤ m' →
    ∀ {it : Inters σ K C} {r}, it.next lineOf pull fuel m = some r → it.next lineOf pull' fuel' m' = some r := by
  intro m
  induction m with
  | zero => intro m' _ it r h; simp [Inters.next] at h
  | succ m ih =>
    intro m' hm it r h
    obtain ⟨m', rfl⟩ : ∃ k, m' = k + 1 := ⟨m' - 1, by omega⟩
    rw [Inters.next] at h ⊢
    cases hs : it.step pull fuel with
    | none => rw [hs] at h; simp at h
    | some o =>
      obtain ⟨it1, ok⟩ := o
      rw [hs] at h
      rw [step_mono hp hf hs]
      simp only [Option.bind_eq_bind, Option.bind_some] at h ⊢
      cases ok with
      | false => exact h
      | true =>
        simp only [if_true] at h ⊢
        cases hi : it1.intersection lineOf with
        | none => rw [hi] at h; simp at h
        | some o =>
          rw [hi] at h
          cases o with
          | none => simp only [Option.bind_some] at h ⊢; exact ih (by omega) h
          | some t => exact h

theorem irun_mono (hp : ∀ s r, pull s = some r → pull' s = some r) (hf : fuel ≤ fuel') : ∀ {m m' : Nat}, m ≤ m' →
    ∀ {it : Inters σ K C} {r}, it.run lineOf pull fuel m = some r → it.run lineOf pull' fuel' m' = some r := by
  intro m
  induction m with
  | zero => intro m' _ it r h; simp [Inters.run] at h
  | succ m ih =>
    intro m' hm it r h
    obtain ⟨m', rfl⟩ : ∃ k, m' = k + 1 := ⟨m' - 1, by omega⟩
    rw [Inters.run] at h ⊢
    cases hn : it.next lineOf pull fuel fuel with
    | none => rw [hn] at h; simp at h
    | some o =>
      obtain ⟨it1, o⟩ := o
      rw [hn] at h
      rw [inext_mono hp hf hf hn]
      simp only [Option.bind_eq_bind, Option.bind_some] at h ⊢
      cases o with
      | none => exact h
      | some t =>
        simp only at h ⊢
        cases hr : it1.run lineOf pull fuel m with
        | none => rw [hr] at h; simp at h
        | some rest => rw [hr] at h; rw [ih (by omega) hr]; exact h

end Mono

theorem pull_mono {k : Nat} {it : CrossingsIter K C} {r} (h : it.pull lineOf nextAfter choice fuel = some r) :
    it.pull lineOf nextAfter choice (fuel + k) = some r := by
  unfold CrossingsIter.pull at h ⊢
  cases hn : it.next lineOf nextAfter choice fuel with
  | none => rw [hn] at h; simp at h
  | some o =>
    have : it.next lineOf nextAfter choice (fuel + k) = some o := by
      clear h
      induction k with
      | zero => exact hn
      | succ k ih => exact next_mono ih
    rw [hn] at h; rw [this]; exact h

theorem intersectionsOf_mono {k : Nat} {ts} (h : intersectionsOf lineOf nextAfter choice fuel input = some ts) :
    intersectionsOf lineOf nextAfter choice (fuel + k) input = some ts := by
  unfold intersectionsOf at h ⊢
  cases ho : CrossingsIter.ofInput lineOf input with
  | none => rw [ho] at h; simp at h
  | some it =>
    rw [ho] at h
    exact irun_mono (fun s r h => pull_mono h) (by omega) (by omega) h

/-- With enough fuel, `Intersections` yields exactly what belongs to the pairs of the batches of `CrossingsIter`. -/
theorem intersectionsOf_final (lineOf : C → Line K) (nextAfter : K → K) (choice : Nat → Nat) (input : List C) :
    ∃ N res X, Final lineOf input X res ∧ ∀ fuel, N ≤ fuel → crossingsOf lineOf nextAfter choice fuel input = some res ∧
      intersectionsOf lineOf nextAfter choice fuel input = some (((res.map (·.2)).flatMap looks).filterMap (yieldOf lineOf)) := by
  obtain ⟨N, res, X, h1, h2⟩ := run_final lineOf nextAfter choice input
  refine ⟨N + res.length + ((res.map (·.2)).flatMap looks).length + 1, res, X, h2, fun fuel hf => ?_⟩
  have hr := h1 fuel (by omega)
  refine ⟨hr, ?_⟩
  unfold crossingsOf at hr
  unfold intersectionsOf
  cases ho : CrossingsIter.ofInput lineOf input with
  | none => rw [ho] at hr; simp at hr
  | some it =>
    rw [ho] at hr
    have hy := yields_of_run fuel it res hr
    have ht := C29_walk_visits_each_pair_once hy fuel fuel (by rw [List.length_map]; omega) (by omega)
    exact run_spec fuel fuel _ _ ht (by omega) (by omega) fun k hk => h2.expects hk

theorem intersectionsOf_eq {ts} (h : intersectionsOf lineOf nextAfter choice fuel input = some ts) :
    ∃ res X, Final lineOf input X res ∧ (∃ fuel, crossingsOf lineOf nextAfter choice fuel input = some res) ∧
      ts = ((res.map (·.2)).flatMap looks).filterMap (yieldOf lineOf) := by
  obtain ⟨N, res, X, h1, h2⟩ := intersectionsOf_final lineOf nextAfter choice input
  have := intersectionsOf_mono (k := N) h
  obtain ⟨h3, h4⟩ := h2 (fuel + N) (by omega)
  rw [h4] at this
  exact ⟨res, X, h1, ⟨_, h3⟩, (Option.some.inj this).symm⟩

/-- **C27.** Every tuple `(a, b, i)` yielded by `Intersections` consists of two inputs and the `line_intersection` of their lines,
which is the set of their common points; if the inputs are pairwise different then `a` and `b` are different. (Taking positions
as inputs, with `lineOf` the line at that position, this says that the positions are different.) -/
theorem C27_tuples {ts} (h : intersectionsOf lineOf nextAfter choice fuel input = some ts) {a b : C} {i : LineIntersection K}
    (hm : (a, b, i) ∈ ts) :
    a ∈ input ∧ b ∈ input ∧ lineIntersection (lineOf a) (lineOf b) = some i ∧
      (∀ x, On i.toGeom x ↔ OnLine (lineOf a) x ∧ OnLine (lineOf b) x) ∧ (input.Nodup → a ≠ b) := by
  obtain ⟨res, X, hX, -, rfl⟩ := intersectionsOf_eq h
  obtain ⟨k, hk, hy⟩ := List.mem_filterMap.1 hm
  obtain ⟨p, bt, m, n, hb, hmn, h1, h2⟩ := mem_flatMap_looks hk
  unfold yieldOf at hy
  by_cases hc : Inters.shouldCompute k.overlap k.first k.second = true
  · rw [if_pos hc, Option.map_eq_some_iff] at hy
    obtain ⟨i', h3, h4⟩ := hy
    simp only [Prod.mk.injEq] at h4
    obtain ⟨rfl, rfl, rfl⟩ := h4
    refine ⟨(hX.on hb (List.mem_of_getElem? h1)).1, (hX.on hb (List.mem_of_getElem? h2)).1, h3, ?_, ?_⟩
    · have := lineIntersection_isInter (lineOf k.first.crossable) (lineOf k.second.crossable)
      rw [h3] at this
      exact this.2
    · intro hn
      exact hX.differ hn hb hmn h1 h2 hc
  · rw [if_neg hc] at hy; cases hy

/-- **C27, totality.** `Intersections` ends on every input, without a panic; in particular the `expect` in `intersection` never
fails. -/
theorem C27_total (lineOf : C → Line K) (nextAfter : K → K) (choice : Nat → Nat) (input : List C) :
    ∃ N ts, ∀ fuel, N ≤ fuel → intersectionsOf lineOf nextAfter choice fuel input = some ts := by
  obtain ⟨N, res, X, -, h⟩ := intersectionsOf_final lineOf nextAfter choice input
  exact ⟨N, _, fun fuel hf => (h fuel hf).2⟩

/-- **C30, the direction that holds.** A `Crossing` with `first_segment` set has a line that starts at the first end of its input.
(The converse fails: `C30_first_piece_not_flagged`.) -/
theorem C30_flagged_is_first_partial (h : crossingsOf lineOf nextAfter choice fuel input = some res) {p : Pt K} {b : List (Crossing K C)}
    (hb : (p, b) ∈ res) {x : Crossing K C} (hx : x ∈ b) (hf : x.firstSegment = true) :
    x.line.first = min (lineOf x.crossable).start (lineOf x.crossable).stop := by
  obtain ⟨X, hX⟩ := final_of_run h
  obtain ⟨s, ty, hl, rfl⟩ := hX.of_mem hb hx
  exact hX.first_seg hl hf

/-- The run on `demoInput`: the hypotheses of C27 are met, for a point and a line and for two lines. (The overlap of the first and
third line is missing from the tuples, another instance of C28.) -/
theorem demo_intersections : demoInput.Nodup ∧ intersectionsOf id id (fun _ => 0) 80 demoInput = some
    [(⟨⟨1, 3⟩, ⟨1, 3⟩⟩, ⟨⟨0, 4⟩, ⟨4, 0⟩⟩, .collinear ⟨⟨1, 3⟩, ⟨1, 3⟩⟩),
      (⟨⟨0, 4⟩, ⟨4, 0⟩⟩, ⟨⟨0, 0⟩, ⟨4, 4⟩⟩, .singlePoint ⟨2, 2⟩),
      (⟨⟨0, 4⟩, ⟨4, 0⟩⟩, ⟨⟨1, 1⟩, ⟨3, 3⟩⟩, .singlePoint ⟨2, 2⟩)] := by
  decide +kernel

end GeoCrossings

import Verif.Lemmas.MonoInit
import Verif.Props.MonoPoly

/-!
# The pieces cover the interior exactly once
-/
set_option linter.unusedSectionVars false
namespace GeoCrossings.Monotone
open Spec

variable {K : Type} [Field K] [LinearOrder K] [IsStrictOrderedRing K] {n : Nat} {ed : Nat → Sg K} {top : Nat → Bool}

/-! ## Chains -/

/-- How many edges of a chain pass below `r`. -/
def cnt (r : Pt K) (l : List (Pt K)) : Nat := (es l).countP fun e => Passes r e

theorem cnt_cons (r a b : Pt K) (l : List (Pt K)) : cnt r (a :: b :: l) = cnt r (b :: l) + if Passes r (a, b) then 1 else 0 := by
  unfold cnt
  rw [es_cons, List.countP_cons]
  simp only [decide_eq_true_eq]

theorem pass_iff_cnt (r : Pt K) (l : List (Pt K)) : Pass r l ↔ 0 < cnt r l := by
  unfold Pass cnt
  rw [List.countP_pos_iff]
  simp only [decide_eq_true_eq]

theorem Incr.cnt_zero {r : Pt K} : ∀ {l : List (Pt K)}, Incr l → (∀ q ∈ l, r ≤ q) → cnt r l = 0
  | [], _, _ => rfl
  | [_], _, _ => rfl
  | a :: b :: l, h, hl => by
    rw [cnt_cons, Incr.cnt_zero (List.pairwise_cons.1 h).2 fun q hq => hl q (by simp [hq]), if_neg]
    rintro ⟨h1, -, -⟩
    exact absurd (hl a (by simp)) (not_le.2 h1)

theorem Incr.cnt_le {r : Pt K} : ∀ {l : List (Pt K)}, Incr l → cnt r l ≤ 1
  | [], _ => by simp [cnt, es]
  | [_], _ => by simp [cnt, es]
  | a :: b :: l, h => by
    rw [cnt_cons]
    have h2 := (List.pairwise_cons.1 h).2
    by_cases k : Passes r (a, b)
    · rw [if_pos k, Incr.cnt_zero h2]
      intro q hq
      rcases List.mem_cons.1 hq with rfl | hq
      · exact k.2.1.le
      · exact k.2.1.le.trans ((List.pairwise_cons.1 h2).1 q hq).le
    · rw [if_neg k]
      exact Incr.cnt_le h2

theorem Incr.edge_lt {l : List (Pt K)} (h : Incr l) {e : Sg K} (he : e ∈ es l) : e.1 < e.2 := by
  induction l with
  | nil => simp [es] at he
  | cons a l ih =>
    cases l with
    | nil => simp [es] at he
    | cons b l =>
      rw [es_cons, List.mem_cons] at he
      rcases he with rfl | he
      · exact (List.pairwise_cons.1 h).1 b (by simp)
      · exact ih (List.pairwise_cons.1 h).2 he

theorem es_reverse : ∀ l : List (Pt K), (es l.reverse).Perm ((es l).map fun e => (e.2, e.1))
  | [] => List.Perm.nil
  | [_] => List.Perm.nil
  | a :: b :: l => by
    have ih := es_reverse (b :: l)
    rw [List.reverse_cons, es_snoc (a := b) (by simp), es_cons, List.map_cons]
    exact (List.perm_append_singleton _ _).trans (ih.cons _)

/-- The edges of the ring of a piece. -/
theorem es_ring {m : MonoPoly K} {ring : List (Pt K)} (hr : m.intoPolygon = some ring) :
    (es ring).Perm (es m.top ++ (es m.bot).map fun e => (e.2, e.1)) := by
  unfold MonoPoly.intoPolygon at hr
  simp only at hr
  by_cases h : m.bot.reverse.head? = m.top.getLast?
  · rw [if_pos h] at hr
    cases hb : m.bot.reverse with
    | nil => rw [hb] at hr; simp at hr
    | cons s rest =>
      rw [hb] at hr h
      simp only [Option.ite_none_right_eq_some, Option.some.injEq, List.head?_cons] at hr h
      obtain ⟨-, rfl⟩ := hr
      obtain ⟨k, hk⟩ := List.getLast?_eq_some_iff.1 h.symm
      rw [hk, List.append_assoc, List.singleton_append, es_append, ← hb, ← hk]
      exact (es_reverse m.bot).append_left _
  · rw [if_neg h] at hr
    simp at hr

theorem edgesBelow_ring {m : MonoPoly K} (hm : MonotonePair m.top m.bot) {ring : List (Pt K)} (hr : m.intoPolygon = some ring) (r : Pt K) :
    edgesBelow [ring] r = cnt r m.top + cnt r m.bot := by
  obtain ⟨s, e, -, -, -, h1, h2⟩ := hm
  unfold edgesBelow cnt
  rw [List.map_singleton, List.sum_singleton]
  show (es ring).countP _ = _
  rw [(es_ring hr).countP_eq, List.countP_append, List.countP_map]
  congr 1
  · refine List.countP_congr fun e he => ?_
    simp only [decide_eq_true_eq]
    exact (passes_fwd (Incr.edge_lt h1 he).le).symm
  · refine List.countP_congr fun e he => ?_
    simp only [Function.comp, decide_eq_true_eq]
    rw [passes_fwd (Incr.edge_lt h2 he).le]
    exact ⟨PassesBelow.symm, PassesBelow.symm⟩

/-- A point is inside the ring of a piece if it is above the lower chain and not above the upper chain. -/
theorem evenOdd_ring {m : MonoPoly K} (hm : MonotonePair m.top m.bot) (ha : ∀ x, Pass x m.top → Pass x m.bot) {ring : List (Pt K)}
    (hr : m.intoPolygon = some ring) (r : Pt K) :
    (EvenOdd [ring] r ↔ Pass r m.bot ∧ ¬ Pass r m.top) ∧ (cnt r m.bot : ℤ) - cnt r m.top = if EvenOdd [ring] r then 1 else 0 := by
  have h := edgesBelow_ring hm hr r
  have ha := ha r
  obtain ⟨s, e, -, -, -, h1, h2⟩ := hm
  have c1 : cnt r m.top ≤ 1 := Incr.cnt_le h1
  have c2 : cnt r m.bot ≤ 1 := Incr.cnt_le h2
  simp only [EvenOdd, h, pass_iff_cnt] at ha ⊢
  rcases (by omega : (cnt r m.top = 0 ∧ cnt r m.bot = 0) ∨ (cnt r m.top = 0 ∧ cnt r m.bot = 1) ∨ (cnt r m.top = 1 ∧ cnt r m.bot = 1)) with
    ⟨a, b⟩ | ⟨a, b⟩ | ⟨a, b⟩ <;> rw [a, b] <;> decide

/-! ## Which edges pass below a point -/

/-- Edges passing below `r`. -/
def ind (r : Pt K) (e : Sg K) : K := if Passes r e then 1 else 0

theorem wt_ind (r : Pt K) (l : List (Pt K)) : wt (ind r) l = (cnt r l : K) := by
  unfold wt cnt
  induction es l with
  | nil => simp
  | cons e t ih =>
    rw [List.map_cons, List.sum_cons, ih, List.countP_cons]
    by_cases h : Passes r e
    · simp [ind, h, add_comm]
    · simp [ind, h]

theorem GInv.pass_mem {u r : Pt K} {gs : List (Gap K)} (hI : GInv n ed top u gs)
    (hr : ∀ k, 1 ≤ k → k ≤ n → ∀ x, EndOf (ed k) x → (x ≤ u ∧ u < r) ∨ r ≤ x) {k : Nat} (h1 : 1 ≤ k) (h2 : k ≤ n)
    (ha : (ed k).1 < r) (hb : r ≤ (ed k).2) : k ∈ flat gs := by
  rcases hr k h1 h2 _ (.inl rfl) with ⟨c1, c2⟩ | c
  · exact (hI.act.mem k).2 ⟨h1, h2, c1, c2.trans_le hb⟩
  · exact absurd ha (not_lt.2 c)

theorem GInv.reach {u r : Pt K} {gs : List (Gap K)} (hI : GInv n ed top u gs)
    (hr : ∀ k, 1 ≤ k → k ≤ n → ∀ x, EndOf (ed k) x → (x ≤ u ∧ u < r) ∨ r ≤ x) {k : Nat} (hk : k ∈ flat gs)
    (hu : u < r) : 1 ≤ k ∧ k ≤ n ∧ (ed k).1 < r ∧ r ≤ (ed k).2 := by
  obtain ⟨h1, h2, h3, h4⟩ := (hI.act.mem k).1 hk
  refine ⟨h1, h2, h3.trans_lt hu, ?_⟩
  rcases hr k h1 h2 _ (.inr rfl) with ⟨c1, -⟩ | c
  · exact absurd c1 (not_le.2 h4)
  · exact c

theorem GInv.passes_sorted (E : Edges n ed top) {u r : Pt K} {gs : List (Gap K)} (hI : GInv n ed top u gs)
    (hr : ∀ k, 1 ≤ k → k ≤ n → ∀ x, EndOf (ed k) x → (x ≤ u ∧ u < r) ∨ r ≤ x) (hu : u < r) :
    (flat gs).Pairwise fun i j => (0 ≤ det (ed j).1 (ed j).2 r → 0 ≤ det (ed i).1 (ed i).2 r) ∧ (Passes r (ed j) → Passes r (ed i)) := by
  refine ((hI.act.nodup E).and hI.act.sorted).imp_of_mem ?_
  rintro i j hi hj ⟨hne, hlt⟩
  obtain ⟨i1, i2, i3, i4⟩ := hI.reach hr hi hu
  obtain ⟨j1, j2, j3, j4⟩ := hI.reach hr hj hu
  have hA := E.apart i1 i2 j1 j2 hne i3 i4 j3 j4
  refine ⟨fun h => ?_, ?_⟩
  · by_contra k
    exact absurd ((mono (E.lt i i1 i2) (E.lt j j1 j2) hlt hA i3.le i4 j3.le j4).1 (not_le.1 k)) (not_lt.2 h)
  · rintro ⟨-, -, hp⟩
    rcases place_point (E.lt i i1 i2) (E.lt j j1 j2) hlt hA i3.le i4 j3.le j4 with h | h
    · refine ⟨i3, i4.lt_of_ne ?_, h⟩
      rintro rfl
      rw [det_right] at h
      exact absurd h (lt_irrefl _)
    · exact absurd hp (not_lt.2 h)

/-- The edges below `r` are the first of the active list. -/
theorem GInv.prefix (E : Edges n ed top) {u r : Pt K} {gs : List (Gap K)} (hI : GInv n ed top u gs)
    (hr : ∀ k, 1 ≤ k → k ≤ n → ∀ x, EndOf (ed k) x → (x ≤ u ∧ u < r) ∨ r ≤ x) (hu : u < r) :
    ∃ T, flat gs = (flat gs).filter (fun k => Passes r (ed k)) ++ T := by
  have hs := (hI.passes_sorted E hr hu).imp fun h => h.2
  revert hs
  generalize flat gs = A
  intro hs
  induction A with
  | nil => exact ⟨[], rfl⟩
  | cons a A ih =>
    rw [List.pairwise_cons] at hs
    obtain ⟨T, hT⟩ := ih hs.2
    by_cases h : Passes r (ed a)
    · refine ⟨T, ?_⟩
      rw [List.filter_cons_of_pos (by simpa using h), List.cons_append, ← hT]
    · refine ⟨a :: A, ?_⟩
      rw [List.filter_cons_of_neg (by simpa using h)]
      have : A.filter (fun k => Passes r (ed k)) = [] := by
        rw [List.filter_eq_nil_iff]
        intro k hk hk'
        exact h (hs.1 k hk (of_decide_eq_true hk'))
      rw [this]; rfl

theorem sum_filter (p : Nat → Prop) [DecidablePred p] (g : Nat → K) (h : ∀ k, ¬ p k → g k = 0) : ∀ l : List Nat,
    (l.map g).sum = ((l.filter p).map g).sum
  | [] => rfl
  | a :: l => by
    by_cases k : p a
    · rw [List.filter_cons_of_pos (by simpa using k), List.map_cons, List.map_cons, List.sum_cons, List.sum_cons, sum_filter p g h l]
    · rw [List.filter_cons_of_neg (by simpa using k), List.map_cons, List.sum_cons, h a k, zero_add, sum_filter p g h l]

theorem sum_flat {g : Nat → K} : ∀ (gs : List (Gap K)), (∀ x ∈ gs, g x.b = -1 ∧ g x.t = 1) → ((flat gs).map g).sum = 0
  | [], _ => rfl
  | x :: gs, h => by
    rw [flat_cons, List.map_cons, List.map_cons, List.sum_cons, List.sum_cons, sum_flat gs fun y hy => h y (by simp [hy]),
      (h x (by simp)).1, (h x (by simp)).2]
    ring

theorem GInv.perm (E : Edges n ed top) {u r : Pt K} {gs : List (Gap K)} (hI : GInv n ed top u gs)
    (hr : ∀ k, 1 ≤ k → k ≤ n → ∀ x, EndOf (ed k) x → (x ≤ u ∧ u < r) ∨ r ≤ x) :
    ((List.range' 1 n).filter fun k => Passes r (ed k)).Perm ((flat gs).filter fun k => Passes r (ed k)) := by
  refine (List.perm_ext_iff_of_nodup ((List.nodup_range' (s := 1) (n := n)).filter _) ((hI.act.nodup E).filter _)).2 fun k => ?_
  simp only [List.mem_filter, List.mem_range'_1, decide_eq_true_eq]
  constructor
  · rintro ⟨⟨h1, h2⟩, h3⟩
    exact ⟨hI.pass_mem hr h1 (by omega) h3.1 h3.2.1.le, h3⟩
  · rintro ⟨h1, h3⟩
    obtain ⟨k1, k2, -⟩ := (hI.act.mem k).1 h1
    exact ⟨⟨k1, by omega⟩, h3⟩

/-- Lower edges below `r` are as many as upper edges, or one more if the number of edges below is odd. -/
theorem GInv.edgeSum (E : Edges n ed top) {u r : Pt K} {gs : List (Gap K)} (hI : GInv n ed top u gs)
    (hr : ∀ k, 1 ≤ k → k ≤ n → ∀ x, EndOf (ed k) x → (x ≤ u ∧ u < r) ∨ r ≤ x) :
    Monotone.edgeSum ed top (ind r) (List.range' 1 n) = - if Odd ((List.range' 1 n).countP fun k => Passes r (ed k)) then 1 else 0 := by
  have hz : ∀ k, ¬ Passes r (ed k) → (if top k then ind r (ed k) else - ind r (ed k)) = 0 := by
    intro k h
    have : ind r (ed k) = 0 := if_neg h
    rw [this]; simp
  unfold Monotone.edgeSum
  rw [sum_filter (fun k => Passes r (ed k)) _ hz, List.countP_eq_length_filter]
  by_cases hu : u < r
  · obtain ⟨T, hT⟩ := hI.prefix E hr hu
    have hperm := hI.perm E hr
    rw [(hperm.map _).sum_eq, hperm.length_eq]
    have hp : ∀ k ∈ (flat gs).filter (fun k => Passes r (ed k)), Passes r (ed k) := fun k hk => of_decide_eq_true (List.mem_filter.1 hk).2
    revert hp
    have hgs := hI.ok
    rcases flat_cut hT with ⟨e, G1, G2, e1, e2, -⟩ | ⟨e, G1, g, G2, e1, e2, -⟩
    · rw [e2] at e ⊢
      intro hp
      rw [if_neg (by simpa using e), neg_zero]
      refine sum_flat _ fun x hx => ?_
      obtain ⟨hb, ht⟩ := mem_flat_of hx
      have ok := hgs x (by rw [e1]; simp [hx])
      rw [ok.labB, ok.labT]
      exact ⟨by simp [ind, hp _ hb], by simp [ind, hp _ ht]⟩
    · rw [e2] at e ⊢
      intro hp
      rw [if_pos (by simpa using e), List.map_append, List.sum_append, sum_flat, zero_add]
      · have ok := hgs g (by rw [e1]; simp)
        have := hp g.b (by simp)
        simp [ok.labB, ind, this]
      · intro x hx
        obtain ⟨hb, ht⟩ := mem_flat_of hx
        have ok := hgs x (by rw [e1]; simp [hx])
        rw [ok.labB, ok.labT]
        exact ⟨by simp [ind, hp _ (List.mem_append_left _ hb)], by simp [ind, hp _ (List.mem_append_left _ ht)]⟩
  · have : (List.range' 1 n).filter (fun k => Passes r (ed k)) = [] := by
      rw [List.filter_eq_nil_iff]
      intro k hk hk'
      have hk' := of_decide_eq_true hk'
      rw [List.mem_range'_1] at hk
      rcases hr k hk.1 (by omega) _ (.inl rfl) with ⟨-, c⟩ | c
      · exact hu c
      · exact absurd hk'.1 (not_lt.2 c)
    rw [this]
    simp

/-- `areaUnder` as a sum over the edges. -/
def trap (e : Sg K) : K := (e.2.x - e.1.x) * (e.1.y + e.2.y) / 2

theorem wt_trap : ∀ l : List (Pt K), wt trap l = areaUnder l
  | [] => rfl
  | [_] => rfl
  | a :: b :: l => by
    have ih := wt_trap (b :: l)
    unfold wt at ih ⊢
    rw [es_cons, List.map_cons, List.sum_cons, ih]
    rfl

theorem mem_mapM {α β : Type _} {f : α → Option β} : ∀ {l : List α} {l' : List β}, l.mapM f = some l' → ∀ b ∈ l', ∃ a ∈ l, f a = some b
  | [], l', h, b, hb => by
    simp at h; subst h; simp at hb
  | a :: l, l', h, b, hb => by
    rw [List.mapM_cons] at h
    cases h1 : f a with
    | none => rw [h1] at h; simp at h
    | some x =>
      cases h2 : l.mapM f with
      | none => rw [h1, h2] at h; simp at h
      | some xs =>
        rw [h1, h2] at h
        simp at h
        subst h
        rcases List.mem_cons.1 hb with rfl | hb
        · exact ⟨a, by simp, h1⟩
        · obtain ⟨a', ha, hb'⟩ := mem_mapM h2 b hb
          exact ⟨a', by simp [ha], hb'⟩

/-- The pieces as rings: counted around a point, and their areas. -/
theorem rings_of : ∀ (out : List (MonoPoly K)), (∀ m ∈ out, MonotonePair m.top m.bot) → (∀ m ∈ out, ∀ x, Pass x m.top → Pass x m.bot) →
    ∃ rings, out.mapM MonoPoly.intoPolygon = some rings ∧
      (∀ r, (out.map fun m => wt (ind r) m.top - wt (ind r) m.bot).sum = -((rings.countP fun ring => EvenOdd [ring] r : Nat) : K)) ∧
      (rings.map fun ring => -ringArea ring) = out.map fun m => areaUnder m.top - areaUnder m.bot
  | [], _, _ => ⟨[], rfl, fun r => by simp, rfl⟩
  | m :: out, h1, h2 => by
    obtain ⟨rings, e1, e2, e3⟩ := rings_of out (fun m h => h1 m (by simp [h])) fun m h => h2 m (by simp [h])
    obtain ⟨ring, f1, -, -, -, -, f2, -⟩ := C43_into_polygon m (h1 m (by simp))
    refine ⟨ring :: rings, by rw [List.mapM_cons, f1, e1]; rfl, fun r => ?_, ?_⟩
    · have h := (evenOdd_ring (h1 m (by simp)) (h2 m (by simp)) f1 r).2
      have h' : (cnt r m.bot : K) - cnt r m.top = if EvenOdd [ring] r then 1 else 0 := by
        have := congrArg (Int.cast : ℤ → K) h
        push_cast at this
        exact this
      rw [List.map_cons, List.sum_cons, e2, wt_ind, wt_ind, List.countP_cons]
      simp only [decide_eq_true_eq]
      push_cast
      rw [← h']
      ring
    · rw [List.map_cons, List.map_cons, e3, f2, neg_sub]

/-- The number of pieces around a point. -/
theorem Decomposed.cover (E : Edges n ed top) {out : List (MonoPoly K)} (D : Decomposed n ed top out) :
    ∃ rings, out.mapM MonoPoly.intoPolygon = some rings ∧
      (∀ r, (rings.countP fun ring => EvenOdd [ring] r) = if Odd ((List.range' 1 n).countP fun k => Passes r (ed k)) then 1 else 0) ∧
      (rings.map fun ring => -ringArea ring).sum = edgeSum ed top trap (List.range' 1 n) := by
  obtain ⟨rings, h1, h2, h3⟩ := rings_of out D.pair D.above
  refine ⟨rings, h1, fun r => ?_, ?_⟩
  · obtain ⟨u, gs, hI, hr⟩ := D.gaps r
    have h := h2 r
    rw [D.bal, hI.edgeSum E hr, neg_inj] at h
    have : (((if Odd ((List.range' 1 n).countP fun k => Passes r (ed k)) then 1 else 0 : Nat)) : K) =
        ((rings.countP fun ring => EvenOdd [ring] r : Nat) : K) := by
      rw [← h]; split_ifs <;> simp
    exact (Nat.cast_injective this).symm
  · rw [h3, ← D.bal]
    simp only [wt_trap]

theorem exists_between {e : Sg K} (h : e.1 < e.2) : ∃ r, e.1 < r ∧ r < e.2 ∧ det e.1 e.2 r = 0 := by
  obtain ⟨x, h1, h2⟩ := exists_mid h.ne
  obtain ⟨d, a, b⟩ := (onSeg_iff h).1 h1
  exact ⟨x, a.lt_of_ne fun e => h2 (.inl e.symm), b.lt_of_ne fun e => h2 (.inr e), d⟩

/-- At a point in the inner part of an edge, the number of edges below tells whether the edge is an upper one. -/
theorem Decomposed.side (E : Edges n ed top) {out : List (MonoPoly K)} (D : Decomposed n ed top out) {k : Nat} (k1 : 1 ≤ k) (k2 : k ≤ n)
    {r : Pt K} (r1 : (ed k).1 < r) (r2 : r < (ed k).2) (r3 : det (ed k).1 (ed k).2 r = 0) :
    Odd ((List.range' 1 n).countP fun k => Passes r (ed k)) ↔ top k = true := by
  obtain ⟨u, gs, hI, hr⟩ := D.gaps r
  have hu : u < r := by
    rcases hr k k1 k2 _ (.inl rfl) with ⟨-, h⟩ | h
    · exact h
    · exact absurd r1 (not_lt.2 h)
  have hnot : ¬ Passes r (ed k) := by
    rintro ⟨-, -, h⟩
    rw [r3] at h
    exact absurd h (lt_irrefl _)
  have hs := hI.passes_sorted E hr hu
  have hnd := hI.act.nodup E
  have key : ∀ A B : List Nat, flat gs = A ++ k :: B → (List.range' 1 n).countP (fun k => Passes r (ed k)) = A.length := by
    intro A B hf
    have hpass : ∀ i ∈ A, Passes r (ed i) := by
      intro i hi
      obtain ⟨i1, i2, i3, i4⟩ := hI.reach hr (by rw [hf]; exact List.mem_append_left _ hi) hu
      rw [hf, List.pairwise_append] at hs
      have h := (hs.2.2 i hi k (by simp)).1 (by rw [r3])
      have hne : i ≠ k := by
        rintro rfl
        rw [hf] at hnd
        exact (List.nodup_append.1 hnd).2.2 i hi i (by simp) rfl
      have on_k := (onSeg_iff (E.lt k k1 k2)).2 ⟨r3, r1.le, r2.le⟩
      have hni : ¬ OnSeg (ed i).1 (ed i).2 r := by
        intro ho
        rcases (E.meet i k i1 i2 k1 k2 hne r ho on_k).2 with h | h
        · exact absurd h r1.ne'
        · exact absurd h r2.ne
      have h' : 0 < det (ed i).1 (ed i).2 r :=
        h.lt_of_ne fun h => hni ((onSeg_iff (E.lt i i1 i2)).2 ⟨h.symm, i3.le, i4⟩)
      refine ⟨i3, i4.lt_of_ne ?_, h'⟩
      rintro rfl
      rw [det_right] at h'
      exact absurd h' (lt_irrefl _)
    have hrest : ∀ i ∈ k :: B, ¬ Passes r (ed i) := by
      intro i hi hp
      rcases List.mem_cons.1 hi with rfl | hi
      · exact hnot hp
      · rw [hf, List.pairwise_append, List.pairwise_cons] at hs
        exact hnot ((hs.2.1.1 i hi).2 hp)
    rw [List.countP_eq_length_filter, (hI.perm E hr).length_eq, hf, List.filter_append,
      List.filter_eq_self.2 (fun i hi => decide_eq_true (hpass i hi)),
      List.filter_eq_nil_iff.2 (fun i hi h => hrest i hi (of_decide_eq_true h)), List.append_nil]
  obtain ⟨g, hg, hk⟩ := List.mem_flatMap.1 (hI.pass_mem hr k1 k2 r1 r2.le)
  obtain ⟨G1, G2, e⟩ := List.append_of_mem hg
  rcases List.mem_cons.1 hk with hk | hk
  · rw [key (flat G1) (g.t :: flat G2) (by rw [e, hk]; simp), hk, (hI.ok g hg).labB, flat_length]
    simp
  · have hk : k = g.t := by simpa using hk
    rw [key (flat G1 ++ [g.b]) (flat G2) (by rw [e, hk]; simp), hk, (hI.ok g hg).labT]
    simp [flat_length]

theorem Decomposed.inside (E : Edges n ed top) {out : List (MonoPoly K)} (D : Decomposed n ed top out) (h0 : 1 ≤ n) :
    ∃ r, Odd ((List.range' 1 n).countP fun k => Passes r (ed k)) := by
  obtain ⟨k, k1, k2, kt⟩ : ∃ k, 1 ≤ k ∧ k ≤ n ∧ top k = true := by
    obtain ⟨r, r1, r2, -⟩ := exists_between (E.lt 1 le_rfl h0)
    obtain ⟨u, gs, hI, hr⟩ := D.gaps r
    have h := hI.pass_mem hr le_rfl h0 r1 r2.le
    obtain ⟨g, hg, -⟩ := List.mem_flatMap.1 h
    obtain ⟨a, b, -⟩ := (hI.act.mem _).1 (mem_flat_of hg).2
    exact ⟨g.t, a, b, (hI.ok g hg).labT⟩
  obtain ⟨r, r1, r2, r3⟩ := exists_between (E.lt k k1 k2)
  exact ⟨r, (D.side E k1 k2 r1 r2 r3).2 kt⟩

end GeoCrossings.Monotone

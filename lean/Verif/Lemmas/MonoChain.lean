import Verif.Lemmas.MonoOps
import Verif.Lemmas.MonoGaps
import Mathlib.Algebra.BigOperators.Group.List.Basic
import Mathlib.Tactic.Abel
import Mathlib.Tactic.LinearCombination

/-!
# The edges of a chain, and what is above what
-/
set_option linter.unusedSectionVars false
namespace GeoCrossings.Monotone
open Spec

variable {K : Type} [Field K] [LinearOrder K] [IsStrictOrderedRing K]

/-- The edges of a chain. -/
def es (l : List (Pt K)) : List (Sg K) := l.zip l.tail

theorem es_pre : ∀ (pre : List (Pt K)) (a b : Pt K), es (pre ++ [a, b]) = es (pre ++ [a]) ++ [(a, b)]
  | [], a, b => rfl
  | [c], a, b => rfl
  | c :: c' :: pre, a, b => by
    have := es_pre (c' :: pre) a b
    simp only [List.cons_append] at this ⊢
    show (c, c') :: es (c' :: (pre ++ [a, b])) = (c, c') :: es (c' :: (pre ++ [a])) ++ [(a, b)]
    rw [this]
    rfl

theorem es_snoc {l : List (Pt K)} {a : Pt K} (h : l.getLast? = some a) (b : Pt K) : es (l ++ [b]) = es l ++ [(a, b)] := by
  rcases List.eq_nil_or_concat l with rfl | ⟨pre, c, rfl⟩
  · simp at h
  · simp at h
    subst h
    rw [List.concat_eq_append, List.append_assoc]
    exact es_pre pre c b

/-- An edge of the chain passes below `x`. -/
def Pass (x : Pt K) (l : List (Pt K)) : Prop := ∃ e ∈ es l, Passes x e

theorem pass_snoc {l : List (Pt K)} {a x : Pt K} (h : l.getLast? = some a) (b : Pt K) :
    Pass x (l ++ [b]) ↔ Pass x l ∨ Passes x (a, b) := by
  simp only [Pass, es_snoc h, List.mem_append, List.mem_singleton]
  constructor
  · rintro ⟨e, he | rfl, h⟩
    · exact .inl ⟨e, he, h⟩
    · exact .inr h
  · rintro (⟨e, he, h⟩ | h)
    · exact ⟨e, .inl he, h⟩
    · exact ⟨_, .inr rfl, h⟩

def Incr (l : List (Pt K)) : Prop := l.Pairwise (· < ·)

theorem Incr.snoc {l : List (Pt K)} {a b : Pt K} (h : Incr l) (ha : l.getLast? = some a) (hab : a < b) : Incr (l ++ [b]) := by
  rcases List.eq_nil_or_concat l with rfl | ⟨pre, c, rfl⟩
  · simp at ha
  · simp at ha
    subst ha
    rw [List.concat_eq_append] at h ⊢
    unfold Incr at h ⊢
    rw [List.pairwise_append] at h ⊢
    refine ⟨List.pairwise_append.2 h, by simp, ?_⟩
    intro x hx y hy
    simp only [List.mem_singleton] at hy
    subst hy
    rcases List.mem_append.1 hx with hx | hx
    · exact (h.2.2 x hx c (by simp)).trans hab
    · simp only [List.mem_singleton] at hx
      exact hx ▸ hab

theorem Incr.init {l : List (Pt K)} {b : Pt K} (h : Incr (l ++ [b])) : Incr l := (List.pairwise_append.1 h).1

theorem mem_es {l : List (Pt K)} {e : Sg K} (h : e ∈ es l) : e.1 ∈ l ∧ e.2 ∈ l := by
  have h1 := (List.of_mem_zip h).1
  have h2 := (List.of_mem_zip h).2
  exact ⟨h1, List.mem_of_mem_tail h2⟩

theorem Incr.le_last {l : List (Pt K)} {a x : Pt K} (h : Incr l) (ha : l.getLast? = some a) (hx : x ∈ l) : x ≤ a := by
  rcases List.eq_nil_or_concat l with rfl | ⟨pre, c, rfl⟩
  · simp at ha
  · simp at ha
    subst ha
    rw [List.concat_eq_append] at h hx
    rcases List.mem_append.1 hx with hx | hx
    · exact ((List.pairwise_append.1 h).2.2 x hx c (by simp)).le
    · simp only [List.mem_singleton] at hx
      exact hx.le

theorem pass_lt {l : List (Pt K)} {a x : Pt K} (h : Incr l) (ha : l.getLast? = some a) (hp : Pass x l) : x < a := by
  obtain ⟨e, he, -, h2, -⟩ := hp
  exact h2.trans_le (h.le_last ha (mem_es he).2)

theorem pass_edge {l : List (Pt K)} {a b x : Pt K} (h : Incr l) (ha : EndsIn l a b) (hax : a ≤ x) (hp : Pass x l) : Passes x (a, b) := by
  obtain ⟨pre, rfl⟩ := ha
  have e : pre ++ [a, b] = (pre ++ [a]) ++ [b] := by simp
  rw [e] at h hp
  rcases (pass_snoc (a := a) (by simp) b).1 hp with hp | hp
  · exact absurd (pass_lt h.init (by simp) hp) (not_lt.2 hax)
  · exact hp

theorem pass_of_edge {l : List (Pt K)} {a b x : Pt K} (ha : EndsIn l a b) (hp : Passes x (a, b)) : Pass x l := by
  obtain ⟨pre, rfl⟩ := ha
  exact ⟨(a, b), by rw [es_pre]; simp, hp⟩

theorem EndsIn.snoc {l : List (Pt K)} {a : Pt K} (h : l.getLast? = some a) (b : Pt K) : EndsIn (l ++ [b]) a b := by
  rcases List.eq_nil_or_concat l with rfl | ⟨pre, c, rfl⟩
  · simp at h
  · simp at h
    subst h
    exact ⟨pre, by simp⟩

theorem EndsIn.unique {l : List (Pt K)} {a b c d : Pt K} (h : EndsIn l a b) (h' : EndsIn l c d) : a = c ∧ b = d := by
  obtain ⟨p, rfl⟩ := h
  obtain ⟨q, e⟩ := h'
  have := congrArg List.reverse e
  simp at this
  exact ⟨this.2.1, this.1⟩

/-- `x` is above the edge, or on it and not its left end. -/
def WPasses (x : Pt K) (e : Sg K) : Prop := e.1 < x ∧ x ≤ e.2 ∧ 0 ≤ det e.1 e.2 x

/-- `x` is above the chain, or on it and not its first point. -/
def WPass (x : Pt K) (l : List (Pt K)) : Prop := ∃ e ∈ es l, WPasses x e

theorem Pass.weak {x : Pt K} {l : List (Pt K)} (h : Pass x l) : WPass x l := by
  obtain ⟨e, he, h1, h2, h3⟩ := h
  exact ⟨e, he, h1, h2.le, h3.le⟩

theorem wpass_snoc {l : List (Pt K)} {a x : Pt K} (h : l.getLast? = some a) (b : Pt K) :
    WPass x (l ++ [b]) ↔ WPass x l ∨ WPasses x (a, b) := by
  simp only [WPass, es_snoc h, List.mem_append, List.mem_singleton]
  constructor
  · rintro ⟨e, he | rfl, h⟩
    · exact .inl ⟨e, he, h⟩
    · exact .inr h
  · rintro (⟨e, he, h⟩ | h)
    · exact ⟨e, .inl he, h⟩
    · exact ⟨_, .inr rfl, h⟩

theorem wpass_le {l : List (Pt K)} {a x : Pt K} (h : Incr l) (ha : l.getLast? = some a) (hp : WPass x l) : x ≤ a := by
  obtain ⟨e, he, -, h2, -⟩ := hp
  exact h2.trans (h.le_last ha (mem_es he).2)

theorem wpass_edge {l : List (Pt K)} {a b x : Pt K} (h : Incr l) (ha : EndsIn l a b) (hax : a < x) (hp : WPass x l) : WPasses x (a, b) := by
  obtain ⟨pre, rfl⟩ := ha
  have e : pre ++ [a, b] = (pre ++ [a]) ++ [b] := by simp
  rw [e] at h hp
  rcases (wpass_snoc (a := a) (by simp) b).1 hp with hp | hp
  · exact absurd (wpass_le h.init (by simp) hp) (not_le.2 hax)
  · exact hp

theorem wpass_head {l : List (Pt K)} {a x : Pt K} (h : Incr l) (ha : l.head? = some a) (hp : WPass x l) : a < x := by
  obtain ⟨e, he, h1, -⟩ := hp
  cases l with
  | nil => simp at ha
  | cons c l =>
    simp only [List.head?_cons, Option.some.injEq] at ha
    subst ha
    rcases List.mem_cons.1 (mem_es he).1 with h' | h'
    · exact h' ▸ h1
    · exact ((List.pairwise_cons.1 h).1 _ h').trans h1

/-- Up to `w`, the chain `T` is above `B`, but for common first points. -/
def AboveTo (w : Pt K) (T B : List (Pt K)) : Prop := ∀ x, x < w → WPass x T → Pass x B

/-! ## Diagonals -/

/-- A point above a segment between two points above an edge, or on it and not both, is above the edge. -/
theorem diag_above {a c a' c' x : Pt K} (h1 : a' ≤ a) (h2 : c ≤ c') (ha : 0 ≤ det a' c' a) (hc : 0 ≤ det a' c' c)
    (hs : 0 < det a' c' a ∨ 0 < det a' c' c) (xc : x < c) (hx : WPasses x (a, c)) : Passes x (a', c') := by
  obtain ⟨x1, -, x3⟩ := hx
  simp only at x1 x3
  refine ⟨h1.trans_lt x1, xc.trans_le h2, ?_⟩
  show 0 < det a' c' x
  have b1 := Pt.x_le_of_le x1.le
  have b2 := Pt.x_le_of_le xc.le
  have b3 := Pt.x_le_of_le h1
  have b4 := Pt.x_le_of_le h2
  have key : (c.x - a.x) * det a' c' x = (c.x - x.x) * det a' c' a + (x.x - a.x) * det a' c' c + (c'.x - a'.x) * det a c x := by
    simp only [det]; ring
  have comb : ∀ {p q s t : K}, 0 < p → 0 < q → 0 ≤ s → 0 ≤ t → 0 < s ∨ 0 < t → 0 < p * s + q * t := by
    intro p q s t hp hq hs ht h
    rcases h with h | h
    · exact add_pos_of_pos_of_nonneg (mul_pos hp h) (mul_nonneg hq.le ht)
    · exact add_pos_of_nonneg_of_pos (mul_nonneg hp.le hs) (mul_pos hq h)
  rcases (b1.trans b2).lt_or_eq with h | h
  · refine (mul_pos_iff_of_pos_left (sub_pos.2 h)).1 ?_
    rw [key]
    have k3 : 0 ≤ (c'.x - a'.x) * det a c x := mul_nonneg (by linarith) x3
    rcases x1 with hxa | ⟨hxa, hya⟩
    · rcases xc with hxc | ⟨hxc, hyc⟩
      · have := comb (sub_pos.2 hxc) (sub_pos.2 hxa) ha hc hs
        linarith
      · exfalso
        have : det a c x = (c.x - a.x) * (x.y - c.y) := by simp only [det]; rw [hxc]; ring
        rw [this] at x3
        have := mul_neg_of_pos_of_neg (sub_pos.2 h) (sub_neg.2 hyc)
        linarith
    · have e : det a c x = (c.x - a.x) * (x.y - a.y) := by simp only [det]; rw [← hxa]; ring
      have : 0 < (c'.x - a'.x) * det a c x := by
        rw [e]; exact mul_pos (by linarith) (mul_pos (sub_pos.2 h) (sub_pos.2 hya))
      have := mul_nonneg (sub_nonneg.2 b2) ha
      have := mul_nonneg (sub_nonneg.2 b1) hc
      linarith
  · have e1 : a.x = x.x := le_antisymm b1 (by rw [h]; exact b2)
    have e2 : x.x = c.x := e1.symm.trans h
    have y1 : a.y < x.y := by
      rcases x1 with hh | ⟨-, hh⟩
      · exact absurd e1 hh.ne
      · exact hh
    have y2 : x.y < c.y := by
      rcases xc with hh | ⟨-, hh⟩
      · exact absurd e2 hh.ne
      · exact hh
    have k : (c.y - a.y) * det a' c' x = (c.y - x.y) * det a' c' a + (x.y - a.y) * det a' c' c := by
      simp only [det]; rw [← e2, e1]; ring
    refine (mul_pos_iff_of_pos_left (sub_pos.2 (y1.trans y2))).1 ?_
    rw [k]
    exact comb (sub_pos.2 y2) (sub_pos.2 y1) ha hc hs

/-- A point above an edge, or on it, is above a segment between two points below the edge, or on it and not both. -/
theorem diag_below {a c a' c' x : Pt K} (h1 : a' ≤ a) (h2 : c ≤ c') (ha : det a' c' a ≤ 0) (hc : det a' c' c ≤ 0)
    (hs : det a' c' a < 0 ∨ det a' c' c < 0) (xa : a < x) (xc : x < c) (hx : 0 ≤ det a' c' x) : Passes x (a, c) := by
  refine ⟨xa, xc, ?_⟩
  show 0 < det a c x
  have b1 := Pt.x_le_of_le xa.le
  have b2 := Pt.x_le_of_le xc.le
  have b3 := Pt.x_le_of_le h1
  have b4 := Pt.x_le_of_le h2
  have key : (c.x - a.x) * det a' c' x = (c.x - x.x) * det a' c' a + (x.x - a.x) * det a' c' c + (c'.x - a'.x) * det a c x := by
    simp only [det]; ring
  have comb : ∀ {p q s t : K}, 0 < p → 0 < q → s ≤ 0 → t ≤ 0 → s < 0 ∨ t < 0 → p * s + q * t < 0 := by
    intro p q s t hp hq hs ht h
    rcases h with h | h
    · exact add_neg_of_neg_of_nonpos (mul_neg_of_pos_of_neg hp h) (mul_nonpos_of_nonneg_of_nonpos hq.le ht)
    · exact add_neg_of_nonpos_of_neg (mul_nonpos_of_nonneg_of_nonpos hp.le hs) (mul_neg_of_pos_of_neg hq h)
  rcases (b1.trans b2).lt_or_eq with h | h
  · rcases xa with hxa | ⟨hxa, hya⟩
    · rcases xc with hxc | ⟨hxc, hyc⟩
      · have k1 := comb (sub_pos.2 hxc) (sub_pos.2 hxa) ha hc hs
        have k2 : 0 ≤ (c.x - a.x) * det a' c' x := mul_nonneg (sub_nonneg.2 h.le) hx
        have : 0 < (c'.x - a'.x) * det a c x := by linarith
        exact (mul_pos_iff_of_pos_left (by linarith)).1 this
      · exfalso
        have k : det a' c' x = det a' c' c + (c'.x - a'.x) * (x.y - c.y) := by
          simp only [det]; rw [hxc]; ring
        have : (c'.x - a'.x) * (x.y - c.y) < 0 := mul_neg_of_pos_of_neg (by linarith) (sub_neg.2 hyc)
        linarith
    · have e : det a c x = (c.x - a.x) * (x.y - a.y) := by simp only [det]; rw [← hxa]; ring
      rw [e]; exact mul_pos (sub_pos.2 h) (sub_pos.2 hya)
  · exfalso
    have e1 : a.x = x.x := le_antisymm b1 (by rw [h]; exact b2)
    have e2 : x.x = c.x := e1.symm.trans h
    have y1 : a.y < x.y := by
      rcases xa with hh | ⟨-, hh⟩
      · exact absurd e1 hh.ne
      · exact hh
    have y2 : x.y < c.y := by
      rcases xc with hh | ⟨-, hh⟩
      · exact absurd e2 hh.ne
      · exact hh
    have k : (c.y - a.y) * det a' c' x = (c.y - x.y) * det a' c' a + (x.y - a.y) * det a' c' c := by
      simp only [det]; rw [← e2, e1]; ring
    have k1 := comb (sub_pos.2 y2) (sub_pos.2 y1) ha hc hs
    have k2 : 0 ≤ (c.y - a.y) * det a' c' x := mul_nonneg (sub_nonneg.2 (y1.trans y2).le) hx
    linarith

/-! ## Sums over edges -/

/-- Sum over the edges of a chain. -/
def wt (f : Sg K → K) (l : List (Pt K)) : K := ((es l).map f).sum

theorem wt_snoc (f : Sg K → K) {l : List (Pt K)} {a : Pt K} (h : l.getLast? = some a) (b : Pt K) : wt f (l ++ [b]) = wt f l + f (a, b) := by
  simp [wt, es_snoc h]

theorem wt_pair (f : Sg K → K) (a b : Pt K) : wt f [a, b] = f (a, b) := by simp [wt, es]

def val (f : Sg K → K) (p : Piece K) : K := wt f p.T - wt f p.B

def tot (f : Sg K → K) (ps : List (Piece K)) : K := (ps.map (val f)).sum

@[simp] theorem tot_nil (f : Sg K → K) : tot f [] = 0 := rfl
@[simp] theorem tot_cons (f : Sg K → K) (p : Piece K) (ps : List (Piece K)) : tot f (p :: ps) = val f p + tot f ps := by simp [tot]
@[simp] theorem tot_append (f : Sg K → K) (a b : List (Piece K)) : tot f (a ++ b) = tot f a + tot f b := by simp [tot]
theorem tot_perm (f : Sg K → K) {a b : List (Piece K)} (h : a.Perm b) : tot f a = tot f b := (h.map _).sum_eq

end GeoCrossings.Monotone

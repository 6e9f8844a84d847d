import Verif.Lemmas.SplayCount
import Mathlib.Analysis.SpecialFunctions.Log.Base
import Mathlib.Tactic.Linarith
import Mathlib.Tactic.Positivity

/-! # The amortised cost of splaying -/

set_option linter.ambiguousOpen false
namespace GeoCrossings.Splay
open Tree

variable {K V : Type _}

/-- One more than the number of entries. -/
def size1 : Tree K V → Nat
  | nil => 1
  | node l _ _ r => size1 l + size1 r

/-- Logarithm to base two. -/
noncomputable def lg (n : Nat) : ℝ := Real.logb 2 n

theorem size1_pos (t : Tree K V) : 1 ≤ size1 t := by
  induction t with
  | nil => exact Nat.le_refl 1
  | node l k v r ih _ => exact le_trans ih (Nat.le_add_right _ _)

theorem size1_eq (t : Tree K V) : size1 t = t.toList.length + 1 := by
  induction t with
  | nil => rfl
  | node l k v r ih1 ih2 => simp only [size1, toList, List.length_append, List.length_cons, ih1, ih2]; omega

theorem lg_mono {a b : Nat} (ha : 1 ≤ a) (h : a ≤ b) : lg a ≤ lg b :=
  Real.logb_le_logb_of_le (by norm_num) (by exact_mod_cast ha) (by exact_mod_cast h)

theorem lg_nonneg {a : Nat} (ha : 1 ≤ a) : 0 ≤ lg a := Real.logb_nonneg (by norm_num) (by exact_mod_cast ha)

theorem lg_two : lg 2 = 1 := by
  unfold lg
  exact_mod_cast Real.logb_self_eq_one (b := (2 : ℝ)) (by norm_num)

theorem one_le_lg {a : Nat} (ha : 2 ≤ a) : 1 ≤ lg a := lg_two ▸ lg_mono (by norm_num) ha

/-- The logarithm is concave. -/
theorem lg_add {a b c : Nat} (ha : 1 ≤ a) (hb : 1 ≤ b) (h : a + b ≤ c) : lg a + lg b ≤ 2 * lg c - 2 := by
  have ha' : (0 : ℝ) < a := by exact_mod_cast ha
  have hb' : (0 : ℝ) < b := by exact_mod_cast hb
  have hc' : (0 : ℝ) < c := by exact_mod_cast (by omega : 0 < c)
  have h' : (a : ℝ) + b ≤ c := by exact_mod_cast h
  have h1 : lg a + lg b + 2 = Real.logb 2 (a * b * 2 ^ (2 : ℕ)) := by
    unfold lg
    rw [Real.logb_mul (mul_pos ha' hb').ne' (by norm_num), Real.logb_mul ha'.ne' hb'.ne', Real.logb_pow,
      Real.logb_self_eq_one (by norm_num)]
    norm_num
  have h2 : 2 * lg c = Real.logb 2 ((c : ℝ) ^ (2 : ℕ)) := by
    unfold lg
    rw [Real.logb_pow]; norm_num
  have h3 : Real.logb 2 (a * b * 2 ^ (2 : ℕ)) ≤ Real.logb 2 ((c : ℝ) ^ (2 : ℕ)) := by
    apply Real.logb_le_logb_of_le (by norm_num) (by positivity)
    nlinarith [sq_nonneg ((a : ℝ) - b)]
  linarith

/-- The potential of a tree. -/
noncomputable def pot : Tree K V → ℝ
  | nil => 0
  | node l _ _ r => pot l + pot r + lg (size1 l + size1 r)

theorem pot_nonneg (t : Tree K V) : 0 ≤ pot t := by
  induction t with
  | nil => exact le_refl 0
  | node l k v r ih1 ih2 =>
    have := lg_nonneg (le_trans (size1_pos l) (Nat.le_add_right (size1 l) (size1 r)))
    simp only [pot]; linarith

theorem splayLoopT_fst (cmp : K → K → Ordering) (key : K) (t : Tree K V) (L R) (n : Nat) :
    (splayLoopT cmp key t L R n).1 = splayLoop cmp key t L R := by
  fun_induction splayLoopT cmp key t L R n <;> rw [splayLoop.eq_def] <;> simp_all

theorem nextLoopT_fst (cmp : K → K → Ordering) (key : K) (t : Tree K V) (s : Option (K × V)) (n : Nat) :
    (nextLoopT cmp key t s n).1 = nextLoop cmp key t s := by
  fun_induction nextLoopT cmp key t s n <;> rw [nextLoop] <;> simp_all

theorem prevLoopT_fst (cmp : K → K → Ordering) (key : K) (t : Tree K V) (s : Option (K × V)) (n : Nat) :
    (prevLoopT cmp key t s n).1 = prevLoop cmp key t s := by
  fun_induction prevLoopT cmp key t s n <;> rw [prevLoop] <;> simp_all

/-- What a run of the loop on a tree does, for all trees under construction, and what it costs. -/
structure Splays (cmp : K → K → Ordering) (key : K) (t l : Tree K V) (k : K) (v : V) (r : Tree K V) (c : Nat) : Prop where
  run : ∀ L R n, splayLoopT cmp key t L R n = (node (plugL L l) k v (plugR R r), n + c)
  size : size1 l + size1 r = size1 t
  cost : c + 2 * pot l + 2 * pot r ≤ 2 * pot t + 6 * lg (size1 t)

theorem splays (cmp : K → K → Ordering) (key : K) : ∀ (N : Nat) (t : Tree K V), size1 t ≤ N → t ≠ nil →
    ∃ l k v r c, Splays cmp key t l k v r c := by
  intro N
  induction N with
  | zero => intro t h; have := size1_pos t; omega
  | succ N ih =>
    intro t hN ht
    match t, ht with
    | node l k v r, _ =>
    have pl := size1_pos l
    have pr := size1_pos r
    have ht1 : 1 ≤ lg (size1 l + size1 r) := one_le_lg (by omega)
    cases hk : cmp key k with
    | eq =>
      refine ⟨l, k, v, r, 1, ⟨fun L R n => ?_, rfl, ?_⟩⟩
      · rw [splayLoopT.eq_def]; simp [hk, splayFinish]
      · simp only [pot, size1]; push_cast; linarith
    | lt =>
      match l with
      | nil =>
        refine ⟨nil, k, v, r, 1, ⟨fun L R n => ?_, rfl, ?_⟩⟩
        · rw [splayLoopT.eq_def]; simp [hk, splayFinish]
        · simp only [pot, size1] at ht1 ⊢; push_cast; linarith
      | node ll lk lv lr =>
        have pll := size1_pos ll
        have plr := size1_pos lr
        simp only [size1] at hN pl ht1
        by_cases hlk : cmp key lk = .lt
        · match ll with
          | nil =>
            refine ⟨nil, lk, lv, node lr k v r, 2, ⟨fun L R n => ?_, by simp only [size1]; omega, ?_⟩⟩
            · rw [splayLoopT.eq_def]; simp [hk, hlk, splayFinish]
            · have h1 := lg_nonneg (a := size1 (nil : Tree K V) + size1 lr) (by omega)
              have h2 := lg_mono (a := size1 lr + size1 r) (b := size1 (nil : Tree K V) + size1 lr + size1 r) (by omega) (by omega)
              simp only [pot, size1] at h1 h2 ht1 ⊢; push_cast; linarith
          | node a ak av b =>
            have pa := size1_pos a
            have pb := size1_pos b
            simp only [size1] at hN pl ht1 pll
            obtain ⟨l', k', v', r', c, h1, h2, h3⟩ := ih (node a ak av b) (by simp only [size1]; omega) (by simp)
            have pl' := size1_pos l'
            have pr' := size1_pos r'
            simp only [size1] at h2 h3
            refine ⟨l', k', v', node r' lk lv (node lr k v r), c + 2, ⟨fun L R n => ?_, by simp only [size1]; omega, ?_⟩⟩
            · rw [splayLoopT.eq_def]; simp [hk, hlk, h1, plugR]; omega
            · have e1 := lg_add (a := size1 lr + size1 r) (b := size1 a + size1 b) (c := size1 a + size1 b + size1 lr + size1 r) (by omega) (by omega) (by omega)
              have e2 := lg_mono (a := size1 r' + (size1 lr + size1 r)) (b := size1 a + size1 b + size1 lr + size1 r) (by omega) (by omega)
              have e3 := lg_mono (a := size1 a + size1 b) (b := size1 a + size1 b + size1 lr) (by omega) (by omega)
              have e4 := lg_mono (a := size1 a + size1 b) (b := size1 a + size1 b + size1 lr + size1 r) (by omega) (by omega)
              simp only [pot, size1] at h3 ⊢; push_cast; linarith
        · have hlk' : cmp key lk = .eq ∨ cmp key lk = .gt := by cases h : cmp key lk <;> simp_all
          have e0 := lg_mono (a := size1 lr + size1 r) (b := size1 ll + size1 lr + size1 r) (by omega) (by omega)
          have e00 := lg_nonneg (a := size1 ll + size1 lr) (by omega)
          rcases hlk' with hlk' | hlk'
          · refine ⟨ll, lk, lv, node lr k v r, 3, ⟨fun L R n => ?_, by simp only [size1]; omega, ?_⟩⟩
            · rw [splayLoopT.eq_def]; simp only [hk, hlk, if_false]; rw [splayLoopT.eq_def]; simp [hlk', splayFinish, plugR]
            · simp only [pot, size1]; push_cast; linarith
          · match lr with
            | nil =>
              refine ⟨ll, lk, lv, node nil k v r, 3, ⟨fun L R n => ?_, by simp only [size1]; omega, ?_⟩⟩
              · rw [splayLoopT.eq_def]; simp only [hk, hlk, if_false]; rw [splayLoopT.eq_def]; simp [hlk', splayFinish, plugR]
              · simp only [pot, size1] at e0 e00 ht1 ⊢; push_cast; linarith
            | node b bk bv d =>
              have pb := size1_pos b
              have pd := size1_pos d
              simp only [size1] at hN pl ht1 plr e0 e00
              by_cases hbk : cmp key bk = .gt
              · match d with
                | nil =>
                  refine ⟨node ll lk lv b, bk, bv, node nil k v r, 4, ⟨fun L R n => ?_, by simp only [size1]; omega, ?_⟩⟩
                  · rw [splayLoopT.eq_def]; simp only [hk, hlk, if_false]; rw [splayLoopT.eq_def]; simp [hlk', hbk, splayFinish, plugR]
                  · have h1 := lg_nonneg (a := size1 b + size1 (nil : Tree K V)) (by omega)
                    have h2 := lg_mono (a := size1 ll + size1 b) (b := size1 ll + (size1 b + size1 (nil : Tree K V))) (by omega) (by omega)
                    have h3 := lg_mono (a := size1 (nil : Tree K V) + size1 r) (b := size1 ll + (size1 b + size1 (nil : Tree K V)) + size1 r) (by omega) (by omega)
                    simp only [pot, size1] at h1 h2 h3 ht1 ⊢; push_cast; linarith
                | node e ek ev f =>
                  have pe := size1_pos e
                  have pf := size1_pos f
                  simp only [size1] at hN pl ht1 plr pd e0 e00
                  obtain ⟨l', k', v', r', c, h1, h2, h3⟩ := ih (node e ek ev f) (by simp only [size1]; omega) (by simp)
                  have pl' := size1_pos l'
                  have pr' := size1_pos r'
                  simp only [size1] at h2 h3
                  refine ⟨node (node ll lk lv b) bk bv l', k', v', node r' k v r, c + 4, ⟨fun L R n => ?_, by simp only [size1]; omega, ?_⟩⟩
                  · rw [splayLoopT.eq_def]; simp only [hk, hlk, if_false]; rw [splayLoopT.eq_def]; simp [hlk', hbk, h1, plugR, plugL]; omega
                  · have e1 := lg_add (a := size1 ll + size1 b + size1 l') (b := size1 r' + size1 r) (c := size1 ll + (size1 b + (size1 e + size1 f)) + size1 r) (by omega) (by omega) (by omega)
                    have e2 := lg_mono (a := size1 ll + size1 b) (b := size1 ll + (size1 b + (size1 e + size1 f))) (by omega) (by omega)
                    have e3 := lg_mono (a := size1 e + size1 f) (b := size1 b + (size1 e + size1 f)) (by omega) (by omega)
                    have e4 := lg_mono (a := size1 e + size1 f) (b := size1 ll + (size1 b + (size1 e + size1 f)) + size1 r) (by omega) (by omega)
                    simp only [pot, size1] at h3 ⊢; push_cast; linarith
              · obtain ⟨l', k', v', r', c, h1, h2, h3⟩ := ih (node b bk bv d) (by simp only [size1]; omega) (by simp)
                have pl' := size1_pos l'
                have pr' := size1_pos r'
                simp only [size1] at h2 h3
                refine ⟨node ll lk lv l', k', v', node r' k v r, c + 4, ⟨fun L R n => ?_, by simp only [size1]; omega, ?_⟩⟩
                · rw [splayLoopT.eq_def]; simp only [hk, hlk, if_false]; rw [splayLoopT.eq_def]; simp [hlk', hbk, h1, plugR, plugL]; omega
                · have e1 := lg_add (a := size1 ll + size1 l') (b := size1 r' + size1 r) (c := size1 ll + (size1 b + size1 d) + size1 r) (by omega) (by omega) (by omega)
                  have e3 := lg_mono (a := size1 b + size1 d) (b := size1 ll + (size1 b + size1 d)) (by omega) (by omega)
                  have e4 := lg_mono (a := size1 b + size1 d) (b := size1 ll + (size1 b + size1 d) + size1 r) (by omega) (by omega)
                  simp only [pot, size1] at h3 ⊢; push_cast; linarith
    | gt =>
      match r with
      | nil =>
        refine ⟨l, k, v, nil, 1, ⟨fun L R n => ?_, rfl, ?_⟩⟩
        · rw [splayLoopT.eq_def]; simp [hk, splayFinish]
        · simp only [pot, size1] at ht1 ⊢; push_cast; linarith
      | node rl rk rv rr =>
        have prl := size1_pos rl
        have prr := size1_pos rr
        simp only [size1] at hN pr ht1
        by_cases hrk : cmp key rk = .gt
        · match rr with
          | nil =>
            refine ⟨node l k v rl, rk, rv, nil, 2, ⟨fun L R n => ?_, by simp only [size1]; omega, ?_⟩⟩
            · rw [splayLoopT.eq_def]; simp [hk, hrk, splayFinish]
            · have h1 := lg_nonneg (a := size1 rl + size1 (nil : Tree K V)) (by omega)
              have h2 := lg_mono (a := size1 l + size1 rl) (b := size1 l + (size1 rl + size1 (nil : Tree K V))) (by omega) (by omega)
              simp only [pot, size1] at h1 h2 ht1 ⊢; push_cast; linarith
          | node a ak av b =>
            have pa := size1_pos a
            have pb := size1_pos b
            simp only [size1] at hN pr ht1 prr
            obtain ⟨l', k', v', r', c, h1, h2, h3⟩ := ih (node a ak av b) (by simp only [size1]; omega) (by simp)
            have pl' := size1_pos l'
            have pr' := size1_pos r'
            simp only [size1] at h2 h3
            refine ⟨node (node l k v rl) rk rv l', k', v', r', c + 2, ⟨fun L R n => ?_, by simp only [size1]; omega, ?_⟩⟩
            · rw [splayLoopT.eq_def]; simp [hk, hrk, h1, plugL]; omega
            · have e1 := lg_add (a := size1 l + size1 rl) (b := size1 a + size1 b) (c := size1 l + (size1 rl + (size1 a + size1 b))) (by omega) (by omega) (by omega)
              have e2 := lg_mono (a := size1 l + size1 rl + size1 l') (b := size1 l + (size1 rl + (size1 a + size1 b))) (by omega) (by omega)
              have e3 := lg_mono (a := size1 a + size1 b) (b := size1 rl + (size1 a + size1 b)) (by omega) (by omega)
              have e4 := lg_mono (a := size1 a + size1 b) (b := size1 l + (size1 rl + (size1 a + size1 b))) (by omega) (by omega)
              simp only [pot, size1] at h3 ⊢; push_cast; linarith
        · have hrk' : cmp key rk = .eq ∨ cmp key rk = .lt := by cases h : cmp key rk <;> simp_all
          have e0 := lg_mono (a := size1 l + size1 rl) (b := size1 l + (size1 rl + size1 rr)) (by omega) (by omega)
          have e00 := lg_nonneg (a := size1 rl + size1 rr) (by omega)
          rcases hrk' with hrk' | hrk'
          · refine ⟨node l k v rl, rk, rv, rr, 3, ⟨fun L R n => ?_, by simp only [size1]; omega, ?_⟩⟩
            · rw [splayLoopT.eq_def]; simp only [hk, hrk, if_false]; rw [splayLoopT.eq_def]; simp [hrk', splayFinish, plugL]
            · simp only [pot, size1]; push_cast; linarith
          · match rl with
            | nil =>
              refine ⟨node l k v nil, rk, rv, rr, 3, ⟨fun L R n => ?_, by simp only [size1]; omega, ?_⟩⟩
              · rw [splayLoopT.eq_def]; simp only [hk, hrk, if_false]; rw [splayLoopT.eq_def]; simp [hrk', splayFinish, plugL]
              · simp only [pot, size1] at e0 e00 ht1 ⊢; push_cast; linarith
            | node d bk bv b =>
              have pb := size1_pos b
              have pd := size1_pos d
              simp only [size1] at hN pr ht1 prl e0 e00
              by_cases hbk : cmp key bk = .lt
              · match d with
                | nil =>
                  refine ⟨node l k v nil, bk, bv, node b rk rv rr, 4, ⟨fun L R n => ?_, by simp only [size1]; omega, ?_⟩⟩
                  · rw [splayLoopT.eq_def]; simp only [hk, hrk, if_false]; rw [splayLoopT.eq_def]; simp [hrk', hbk, splayFinish, plugL]
                  · have h1 := lg_nonneg (a := size1 (nil : Tree K V) + size1 b) (by omega)
                    have h2 := lg_mono (a := size1 b + size1 rr) (b := size1 (nil : Tree K V) + size1 b + size1 rr) (by omega) (by omega)
                    have h3 := lg_mono (a := size1 l + size1 (nil : Tree K V)) (b := size1 l + (size1 (nil : Tree K V) + size1 b + size1 rr)) (by omega) (by omega)
                    simp only [pot, size1] at h1 h2 h3 ht1 ⊢; push_cast; linarith
                | node e ek ev f =>
                  have pe := size1_pos e
                  have pf := size1_pos f
                  simp only [size1] at hN pr ht1 prl pd e0 e00
                  obtain ⟨l', k', v', r', c, h1, h2, h3⟩ := ih (node e ek ev f) (by simp only [size1]; omega) (by simp)
                  have pl' := size1_pos l'
                  have pr' := size1_pos r'
                  simp only [size1] at h2 h3
                  refine ⟨node l k v l', k', v', node r' bk bv (node b rk rv rr), c + 4, ⟨fun L R n => ?_, by simp only [size1]; omega, ?_⟩⟩
                  · rw [splayLoopT.eq_def]; simp only [hk, hrk, if_false]; rw [splayLoopT.eq_def]; simp [hrk', hbk, h1, plugR, plugL]; omega
                  · have e1 := lg_add (a := size1 l + size1 l') (b := size1 r' + (size1 b + size1 rr)) (c := size1 l + (size1 e + size1 f + size1 b + size1 rr)) (by omega) (by omega) (by omega)
                    have e2 := lg_mono (a := size1 b + size1 rr) (b := size1 e + size1 f + size1 b + size1 rr) (by omega) (by omega)
                    have e3 := lg_mono (a := size1 e + size1 f) (b := size1 e + size1 f + size1 b) (by omega) (by omega)
                    have e4 := lg_mono (a := size1 e + size1 f) (b := size1 l + (size1 e + size1 f + size1 b + size1 rr)) (by omega) (by omega)
                    simp only [pot, size1] at h3 ⊢; push_cast; linarith
              · obtain ⟨l', k', v', r', c, h1, h2, h3⟩ := ih (node d bk bv b) (by simp only [size1]; omega) (by simp)
                have pl' := size1_pos l'
                have pr' := size1_pos r'
                simp only [size1] at h2 h3
                refine ⟨node l k v l', k', v', node r' rk rv rr, c + 4, ⟨fun L R n => ?_, by simp only [size1]; omega, ?_⟩⟩
                · rw [splayLoopT.eq_def]; simp only [hk, hrk, if_false]; rw [splayLoopT.eq_def]; simp [hrk', hbk, h1, plugR, plugL]; omega
                · have e1 := lg_add (a := size1 l + size1 l') (b := size1 r' + size1 rr) (c := size1 l + (size1 d + size1 b + size1 rr)) (by omega) (by omega) (by omega)
                  have e3 := lg_mono (a := size1 d + size1 b) (b := size1 d + size1 b + size1 rr) (by omega) (by omega)
                  have e4 := lg_mono (a := size1 d + size1 b) (b := size1 l + (size1 d + size1 b + size1 rr)) (by omega) (by omega)
                  simp only [pot, size1] at h3 ⊢; push_cast; linarith

/-- What `splay` does to a tree that is not empty, and what it costs. -/
theorem splay_cost (cmp : K → K → Ordering) (key : K) {t : Tree K V} (ht : t ≠ nil) :
    ∃ l k v r, splay cmp key t = node l k v r ∧ size1 l + size1 r = size1 t ∧
      splayCost cmp key t + 2 * pot l + 2 * pot r ≤ 2 * pot t + 6 * lg (size1 t) := by
  obtain ⟨l, k, v, r, c, h1, h2, h3⟩ := splays cmp key (size1 t) t le_rfl ht
  have h := h1 [] [] 0
  refine ⟨l, k, v, r, ?_, h2, ?_⟩
  · unfold splay
    rw [← splayLoopT_fst cmp key t [] [] 0, h]; rfl
  · unfold splayCost
    rw [h]; simpa using h3

theorem splay_nil' (cmp : K → K → Ordering) (key : K) : splay cmp key (nil : Tree K V) = nil := rfl

/-! ## The API -/

/-- The amortised cost of a call, in logarithms. -/
noncomputable def bound (s : SplayTree K V) : ℝ := 14 * lg (size1 s.root + 1) + 1

theorem access_pot (cmp : K → K → Ordering) (s : SplayTree K V) (key : K) :
    accessCost cmp s key + 2 * pot (splay cmp key s.root) ≤ 2 * pot s.root + bound s := by
  have hp := size1_pos s.root
  have hb := lg_mono (a := size1 s.root) (b := size1 s.root + 1) hp (by omega)
  have hn := lg_nonneg (a := size1 s.root) hp
  unfold accessCost bound
  by_cases ht : s.root = nil
  · simp only [ht, splay_nil']
    simp only [splayCost, splayLoopT, pot, size1]
    have := lg_nonneg (a := 1 + 1) (by omega)
    push_cast; linarith
  · obtain ⟨l, k, v, r, h1, h2, h3⟩ := splay_cost cmp key ht
    simp only [h1, pot, h2]
    push_cast
    linarith

theorem insert_pot (cmp : K → K → Ordering) (s : SplayTree K V) (key : K) (val : V) :
    accessCost cmp s key + 2 * pot (s.insert cmp key val).1.root ≤ 2 * pot s.root + bound s := by
  have hp := size1_pos s.root
  have hb := lg_mono (a := size1 s.root) (b := size1 s.root + 1) hp (by omega)
  have hn := lg_nonneg (a := size1 s.root) hp
  unfold accessCost bound SplayTree.insert
  by_cases ht : s.root = nil
  · simp only [ht, splay_nil']
    simp only [splayCost, splayLoopT, pot, size1]
    have := lg_nonneg (a := 1 + 1) (by omega)
    push_cast; linarith
  · obtain ⟨l, k, v, r, h1, h2, h3⟩ := splay_cost cmp key ht
    have pl := size1_pos l
    have pr := size1_pos r
    have e1 := lg_mono (a := 1 + size1 r) (b := size1 s.root + 1) (by omega) (by omega)
    have e2 := lg_mono (a := size1 l + 1) (b := size1 s.root + 1) (by omega) (by omega)
    have e3 : lg (size1 l + (1 + size1 r)) = lg (size1 s.root + 1) := by congr 1; omega
    have e4 : lg (size1 l + 1 + size1 r) = lg (size1 s.root + 1) := by congr 1; omega
    simp only [h1]
    cases cmp key k
    · simp only [pot, size1, e3]; push_cast; linarith
    · simp only [pot, h2]; push_cast; linarith
    · simp only [pot, size1, e4]; push_cast; linarith

theorem remove_pot (cmp : K → K → Ordering) (s : SplayTree K V) (key : K) {s' : SplayTree K V} {o : Option V} (h : s.remove cmp key = some (s', o)) :
    removeCost cmp s key + 2 * pot s'.root ≤ 2 * pot s.root + bound s := by
  have hp := size1_pos s.root
  have hb := lg_mono (a := size1 s.root) (b := size1 s.root + 1) hp (by omega)
  have hn := lg_nonneg (a := size1 s.root) hp
  unfold removeCost bound
  unfold SplayTree.remove at h
  by_cases ht : s.root = nil
  · simp only [ht, splay_nil'] at h ⊢
    cases h
    simp only [ht, splayCost, splayLoopT, pot, size1]
    have := lg_nonneg (a := 1 + 1) (by omega)
    push_cast; linarith
  · obtain ⟨l, k, v, r, h1, h2, h3⟩ := splay_cost cmp key ht
    have pl := size1_pos l
    have pr := size1_pos r
    simp only [h1] at h ⊢
    by_cases hk : cmp key k = .eq
    · simp only [hk, ne_eq, not_true, if_false] at h
      split at h
      · cases h
      · simp only [Option.some.injEq, Prod.mk.injEq] at h
        obtain ⟨rfl, -⟩ := h
        simp only [hk, if_true]
        unfold joinAfterRemove
        by_cases hl : l = nil
        · simp only [hl, splay_nil', splayCost, splayLoopT, pot] at h3 ⊢
          push_cast at h3 ⊢; linarith
        · obtain ⟨l', k', v', r', j1, j2, j3⟩ := splay_cost cmp key hl
          have pl' := size1_pos l'
          have pr' := size1_pos r'
          simp only [j1, pot]
          have e1 := lg_mono (a := size1 l' + size1 r) (b := size1 s.root) (by omega) (by omega)
          have e2 := lg_mono (a := size1 l) (b := size1 s.root) (by omega) (by omega)
          have e3 := pot_nonneg r'
          push_cast; linarith
    · simp only [hk, ne_eq, not_false_eq_true, if_true, Option.some.injEq, Prod.mk.injEq] at h
      obtain ⟨rfl, -⟩ := h
      simp only [hk, if_false, pot, h2]
      push_cast; linarith

/-! ## Sizes -/

theorem splay_size (cmp : K → K → Ordering) (key : K) (t : Tree K V) : size1 (splay cmp key t) = size1 t := by
  by_cases ht : t = nil
  · rw [ht]; rfl
  · obtain ⟨l, k, v, r, h1, h2, -⟩ := splay_cost cmp key ht
    rw [h1]; exact h2

theorem insert_size (cmp : K → K → Ordering) (s : SplayTree K V) (key : K) (val : V) (h : size1 s.root ≤ s.size + 1) :
    size1 (s.insert cmp key val).1.root ≤ (s.insert cmp key val).1.size + 1 ∧
      size1 (s.insert cmp key val).1.root ≤ size1 s.root + 1 := by
  have hs := splay_size cmp key s.root
  unfold SplayTree.insert
  cases ht : splay cmp key s.root with
  | nil => rw [ht] at hs; simp only [size1] at hs ⊢; omega
  | node l k v r =>
    rw [ht] at hs
    simp only [size1] at hs
    dsimp only
    cases cmp key k <;> simp only [size1] <;> omega

theorem remove_size (cmp : K → K → Ordering) (s : SplayTree K V) (key : K) (h : size1 s.root ≤ s.size + 1) :
    ∃ s' o, s.remove cmp key = some (s', o) ∧ size1 s'.root ≤ s'.size + 1 ∧ size1 s'.root ≤ size1 s.root := by
  have hs := splay_size cmp key s.root
  unfold SplayTree.remove
  cases ht : splay cmp key s.root with
  | nil => exact ⟨_, _, rfl, h, le_rfl⟩
  | node l k v r =>
    rw [ht] at hs
    simp only [size1] at hs
    have pl := size1_pos l
    have pr := size1_pos r
    dsimp only
    by_cases hk : cmp key k = .eq
    · simp only [hk, ne_eq, not_true, if_false]
      cases hn : s.size with
      | zero => omega
      | succ n =>
        refine ⟨_, _, rfl, ?_⟩
        have hl := splay_size cmp key l
        dsimp only
        unfold joinAfterRemove
        cases hj : splay cmp key l with
        | nil => dsimp only; omega
        | node a b c d =>
          rw [hj] at hl
          have := size1_pos d
          simp only [size1] at hl ⊢
          omega
    · simp only [hk, ne_eq, not_false_eq_true, if_true]
      exact ⟨_, _, rfl, by simp only [size1]; omega, by simp only [size1]; omega⟩

theorem nextLoopT_le (cmp : K → K → Ordering) (key : K) (t : Tree K V) (o : Option (K × V)) (n : Nat) :
    (nextLoopT cmp key t o n).2 + 1 ≤ n + size1 t := by
  induction t generalizing o n with
  | nil => simp [nextLoopT, size1]
  | node l k v r ihl ihr =>
    have pl := size1_pos l
    have pr := size1_pos r
    rw [nextLoopT.eq_def]
    dsimp only
    split
    · have := ihl (some (k, v)) (n + 1); simp only [size1]; omega
    · have := ihr o (n + 1); simp only [size1]; omega
    · have := ihr o (n + 1); simp only [size1]; omega

theorem prevLoopT_le (cmp : K → K → Ordering) (key : K) (t : Tree K V) (o : Option (K × V)) (n : Nat) :
    (prevLoopT cmp key t o n).2 + 1 ≤ n + size1 t := by
  induction t generalizing o n with
  | nil => simp [prevLoopT, size1]
  | node l k v r ihl ihr =>
    have pl := size1_pos l
    have pr := size1_pos r
    rw [prevLoopT.eq_def]
    dsimp only
    split
    · have := ihl o (n + 1); simp only [size1]; omega
    · have := ihl o (n + 1); simp only [size1]; omega
    · have := ihr (some (k, v)) (n + 1); simp only [size1]; omega

/-! ## One call -/

theorem get_root (cmp : K → K → Ordering) (s : SplayTree K V) (key : K) :
    (s.get cmp key).1 = { s with root := splay cmp key s.root } := by
  unfold SplayTree.get
  by_cases hs : s.root = nil
  · rw [hs]; cases s; cases hs; rfl
  · obtain ⟨l, k, v, r, h1, -⟩ := splay_cost cmp key hs
    rw [h1]

theorem findKey_root (cmp : K → K → Ordering) (s : SplayTree K V) (key : K) :
    (s.findKey cmp key).1 = { s with root := splay cmp key s.root } := by
  unfold SplayTree.findKey
  by_cases hs : s.root = nil
  · rw [hs]; cases s; cases hs; rfl
  · obtain ⟨l, k, v, r, h1, -⟩ := splay_cost cmp key hs
    rw [h1]

theorem getMut_root (cmp : K → K → Ordering) (s : SplayTree K V) (key : K) (f : V → V) :
    size1 (s.getMut cmp key f).1.root = size1 (splay cmp key s.root) ∧
      pot (s.getMut cmp key f).1.root = pot (splay cmp key s.root) ∧ (s.getMut cmp key f).1.size = s.size := by
  unfold SplayTree.getMut
  by_cases hs : s.root = nil
  · rw [hs]; cases s; cases hs; exact ⟨rfl, rfl, rfl⟩
  · obtain ⟨l, k, v, r, h1, -⟩ := splay_cost cmp key hs
    rw [h1]
    dsimp only
    split <;> exact ⟨rfl, rfl, rfl⟩

end GeoCrossings.Splay

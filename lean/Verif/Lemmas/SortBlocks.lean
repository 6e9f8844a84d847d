import Verif.Model.Bops
import Mathlib.Data.List.Perm.Basic

/-! # Sorting a list made of blocks of equal elements -/
set_option linter.unusedSectionVars false
namespace GeoCrossings

namespace Spec
/-- Equal elements keep their order. -/
def Stable {α : Type _} (cmp : α → α → Option Ordering) (srt : List α → List α) : Prop :=
  ∀ l a, (srt l).filter (fun b => cmp a b = some .eq) = l.filter (fun b => cmp a b = some .eq)
end Spec
open Spec

variable {α : Type _}

theorem sorted_split {R : α → α → Prop} : ∀ {l s r : List α}, l.Perm (s ++ r) → l.Pairwise R → (∀ a ∈ s, ∀ b ∈ r, ¬ R b a) →
    ∃ s' r', l = s' ++ r' ∧ s'.Perm s ∧ r'.Perm r := by
  intro l
  induction l with
  | nil =>
    intro s r hp _ _
    have := hp.symm.eq_nil
    rw [List.append_eq_nil_iff] at this
    obtain ⟨rfl, rfl⟩ := this
    exact ⟨[], [], rfl, .refl _, .refl _⟩
  | cons x l ih =>
    intro s r hp hs hn
    rw [List.pairwise_cons] at hs
    have hx0 : x ∈ s ++ r := hp.mem_iff.1 (by simp)
    rcases List.mem_append.1 hx0 with hx | hx
    · obtain ⟨s1, s2, rfl⟩ := List.append_of_mem hx
      have hp' : l.Perm ((s1 ++ s2) ++ r) := by
        have : (s1 ++ x :: s2 ++ r).Perm (x :: ((s1 ++ s2) ++ r)) := by simp
        exact (hp.trans this).cons_inv
      obtain ⟨s', r', rfl, h1, h2⟩ := ih hp' hs.2 fun a ha b hb => hn a (by
        rcases List.mem_append.1 ha with h | h <;> simp [h]) b hb
      exact ⟨x :: s', r', rfl, (h1.cons x).trans List.perm_middle.symm, h2⟩
    · cases s with
      | nil => exact ⟨[], x :: l, rfl, .refl _, by simpa using hp⟩
      | cons a s =>
        exfalso
        have ha : a ∈ x :: l := hp.mem_iff.2 (by simp)
        rcases List.mem_cons.1 ha with rfl | ha
        · have : a ∈ l := by
            obtain ⟨r1, r2, rfl⟩ := List.append_of_mem hx
            have : l.Perm (s ++ (r1 ++ a :: r2)) := by
              have h2 : (a :: s ++ (r1 ++ a :: r2)) = a :: (s ++ (r1 ++ a :: r2)) := rfl
              rw [h2] at hp
              exact hp.cons_inv
            exact this.mem_iff.2 (by simp)
          exact hn a (by simp) a hx (hs.1 a this)
        · exact hn a (by simp) x hx (hs.1 a ha)

theorem sorted_blocks {R : α → α → Prop} : ∀ {Bl : List (List α)} {l : List α}, l.Perm Bl.flatten → l.Pairwise R →
    Bl.Pairwise (fun s r => ∀ a ∈ s, ∀ b ∈ r, ¬ R b a) → ∃ Bl', l = Bl'.flatten ∧ List.Forall₂ (fun s s' => s'.Perm s) Bl Bl' := by
  intro Bl
  induction Bl with
  | nil => intro l hp _ _; exact ⟨[], by simpa using hp, .nil⟩
  | cons s Bl ih =>
    intro l hp hs hn
    rw [List.pairwise_cons] at hn
    obtain ⟨s', r', rfl, h1, h2⟩ := sorted_split (r := Bl.flatten) (s := s) (by simpa using hp) hs (by
      intro a ha b hb
      obtain ⟨t, ht, hb⟩ := List.mem_flatten.1 hb
      exact hn.1 t ht a ha b hb)
    obtain ⟨Bl', rfl, h3⟩ := ih h2 (List.pairwise_append.1 hs).2.1 hn.2
    exact ⟨s' :: Bl', by simp, .cons h1 h3⟩

variable {cmp : α → α → Option Ordering}

/-- The comparison is that of the positions of the blocks. -/
theorem blocks_idx : ∀ {Bl : List (List α)}, (∀ s ∈ Bl, ∀ a ∈ s, ∀ b ∈ s, cmp a b = some .eq) →
    Bl.Pairwise (fun s r => ∀ a ∈ s, ∀ b ∈ r, cmp a b = some .lt ∧ cmp b a = some .gt) →
    ∃ idx : α → Nat, ∀ a ∈ Bl.flatten, ∀ b ∈ Bl.flatten, cmp a b = some (compare (idx a) (idx b)) := by
  classical
  intro Bl
  induction Bl with
  | nil => intro _ _; exact ⟨fun _ => 0, by simp⟩
  | cons s Bl ih =>
    intro he hp
    rw [List.pairwise_cons] at hp
    obtain ⟨idx, h⟩ := ih (fun t ht => he t (by simp [ht])) hp.2
    have hns : ∀ a ∈ Bl.flatten, a ∉ s := by
      intro a ha hs
      obtain ⟨t, ht, hb⟩ := List.mem_flatten.1 ha
      have := (hp.1 t ht a hs a hb).1
      rw [he s (by simp) a hs a hs] at this
      cases this
    refine ⟨fun a => if a ∈ s then 0 else idx a + 1, ?_⟩
    intro a ha b hb
    rw [List.flatten_cons, List.mem_append] at ha hb
    rcases ha with ha | ha <;> rcases hb with hb | hb
    · simp only [if_pos ha, if_pos hb]; rw [he s (by simp) a ha b hb]; rfl
    · simp only [if_pos ha, if_neg (hns b hb)]
      obtain ⟨t, ht, hb⟩ := List.mem_flatten.1 hb
      rw [(hp.1 t ht a ha b hb).1]
      congr 1
    · simp only [if_neg (hns a ha), if_pos hb]
      obtain ⟨t, ht, ha⟩ := List.mem_flatten.1 ha
      rw [(hp.1 t ht b hb a ha).2]
      congr 1
    · simp only [if_neg (hns a ha), if_neg (hns b hb)]
      rw [h a ha b hb]
      congr 1
      rcases Nat.lt_trichotomy (idx a) (idx b) with k | k | k
      · rw [compare_lt_iff_lt.2 k, compare_lt_iff_lt.2 (by omega)]
      · rw [compare_eq_iff_eq.2 k, compare_eq_iff_eq.2 (by omega)]
      · rw [compare_gt_iff_gt.2 k, compare_gt_iff_gt.2 (by omega)]

theorem insertBy_perm (a : α) : ∀ l : List α, (insertBy cmp a l).Perm (a :: l)
  | [] => .refl _
  | b :: l => by
    rw [insertBy]
    split
    · exact ((insertBy_perm a l).cons b).trans (.swap a b l)
    · exact .refl _

theorem insertionSortBy_perm : ∀ l : List α, (insertionSortBy cmp l).Perm l
  | [] => .refl _
  | a :: l => (insertBy_perm a _).trans ((insertionSortBy_perm l).cons a)

theorem isSortedBy_iff : ∀ {l : List α}, isSortedBy cmp l = true ↔ l.Pairwise fun a b => cmp a b ≠ some .gt
  | [] => by simp [isSortedBy]
  | a :: l => by
    rw [isSortedBy, List.pairwise_cons, Bool.and_eq_true, isSortedBy_iff, List.all_eq_true]
    simp

variable {idx : α → Nat}

theorem insertBy_sorted {a : α} : ∀ {l : List α}, (∀ x ∈ a :: l, ∀ y ∈ a :: l, cmp x y = some (compare (idx x) (idx y))) →
    l.Pairwise (fun x y => idx x ≤ idx y) → (insertBy cmp a l).Pairwise (fun x y => idx x ≤ idx y)
  | [], _, _ => by simp [insertBy]
  | b :: l, h, hp => by
    rw [List.pairwise_cons] at hp
    rw [insertBy, h a (by simp) b (by simp)]
    by_cases k : idx b < idx a
    · rw [if_pos (by rw [compare_gt_iff_gt.2 k])]
      rw [List.pairwise_cons]
      refine ⟨?_, insertBy_sorted (fun x hx y hy => h x (by simp only [List.mem_cons] at hx ⊢; tauto) y
        (by simp only [List.mem_cons] at hy ⊢; tauto)) hp.2⟩
      intro y hy
      rcases List.mem_cons.1 ((insertBy_perm a l).mem_iff.1 hy) with rfl | hy
      · exact k.le
      · exact hp.1 y hy
    · rw [if_neg (by simp [compare_gt_iff_gt]; omega)]
      simp only [List.pairwise_cons]
      refine ⟨?_, hp⟩
      intro y hy
      rcases List.mem_cons.1 hy with rfl | hy
      · omega
      · have := hp.1 y hy; omega

theorem insertionSortBy_sorted : ∀ {l : List α}, (∀ x ∈ l, ∀ y ∈ l, cmp x y = some (compare (idx x) (idx y))) →
    (insertionSortBy cmp l).Pairwise (fun x y => idx x ≤ idx y)
  | [], _ => .nil
  | a :: l, h => by
    refine insertBy_sorted ?_ (insertionSortBy_sorted fun x hx y hy => h x (by simp [hx]) y (by simp [hy]))
    have hm : ∀ x ∈ a :: insertionSortBy cmp l, x ∈ a :: l := by
      intro x hx; exact ((insertionSortBy_perm l).cons a).mem_iff.1 hx
    exact fun x hx y hy => h x (hm x hx) y (hm y hy)

theorem insertBy_stable {a x : α} : ∀ {l : List α}, (∀ y ∈ l, cmp x a = some .eq → cmp x y = some .eq → cmp a y ≠ some .gt) →
    (insertBy cmp a l).filter (fun b => cmp x b = some .eq) = (a :: l).filter (fun b => cmp x b = some .eq)
  | [], _ => rfl
  | b :: l, h => by
    rw [insertBy]
    by_cases k : cmp a b = some .gt
    · rw [if_pos k, List.filter_cons, insertBy_stable (fun y hy => h y (by simp [hy]))]
      by_cases k1 : cmp x a = some .eq
      · have : cmp x b ≠ some .eq := fun k2 => h b (by simp) k1 k2 k
        simp [k1, this]
      · simp [k1, List.filter_cons]
    · rw [if_neg k]

theorem insertionSortBy_stable {x : α} : ∀ {l : List α}, (∀ u ∈ l, ∀ v ∈ l, cmp x u = some .eq → cmp x v = some .eq → cmp u v ≠ some .gt) →
    (insertionSortBy cmp l).filter (fun b => cmp x b = some .eq) = l.filter (fun b => cmp x b = some .eq)
  | [], _ => rfl
  | a :: l, h => by
    rw [insertionSortBy, insertBy_stable, List.filter_cons, List.filter_cons, insertionSortBy_stable]
    · exact fun u hu v hv => h u (by simp [hu]) v (by simp [hv])
    · intro y hy h1 h2
      exact h a (by simp) y (by simp [(insertionSortBy_perm l).mem_iff.1 hy]) h1 h2

/-- What a sort returns when the comparison is that of some index. -/
theorem sortBy_spec [DecidableEq α] {srt : List α → List α} {l : List α}
    (h : ∀ x ∈ l, ∀ y ∈ l, cmp x y = some (compare (idx x) (idx y))) :
    ∃ l', sortBy cmp srt l = some l' ∧ l'.Perm l ∧ l'.Pairwise (fun a b => cmp a b ≠ some .gt) ∧
      (Stable cmp srt → ∀ a ∈ l, l'.filter (fun b => cmp a b = some .eq) = l.filter (fun b => cmp a b = some .eq)) := by
  unfold sortBy
  rw [if_pos (by
    rw [List.all_eq_true]; intro a ha
    rw [List.all_eq_true]; intro b hb
    rw [h a ha b hb]; rfl)]
  by_cases k : (srt l).isPerm l && isSortedBy cmp (srt l)
  · rw [if_pos k]
    rw [Bool.and_eq_true] at k
    exact ⟨_, rfl, List.isPerm_iff.1 k.1, isSortedBy_iff.1 k.2, fun hs a _ => hs l a⟩
  · rw [if_neg k]
    refine ⟨_, rfl, insertionSortBy_perm l, ?_, fun _ a ha => ?_⟩
    · refine (insertionSortBy_sorted h).imp_of_mem ?_
      intro a b ha hb hab
      rw [h a ((insertionSortBy_perm l).mem_iff.1 ha) b ((insertionSortBy_perm l).mem_iff.1 hb)]
      simp only [ne_eq, Option.some.injEq, compare_gt_iff_gt]; omega
    · apply insertionSortBy_stable
      intro u hu v hv h1 h2
      rw [h a ha u hu] at h1
      rw [h a ha v hv] at h2
      simp only [Option.some.injEq, compare_eq_iff_eq] at h1 h2
      rw [h u hu v hv]
      simp only [ne_eq, Option.some.injEq, compare_gt_iff_gt]; omega

end GeoCrossings

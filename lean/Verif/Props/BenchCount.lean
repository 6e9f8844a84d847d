import Verif.Model.Bench
import Verif.Props.IntersOnce
import Verif.Props.Refutations

/-!
# Counting intersections (C91)

The benchmark compares `count_bo`, the number of tuples that `Intersections` yields, with `count_brute`, the number of pairs of lines that
intersect.
-/
set_option linter.unusedSectionVars false
namespace GeoCrossings
open Spec

section
variable {α : Type}

/-- The pairs of elements of a list, the first one from an earlier position. -/
def pairsOf : List α → List (α × α)
  | [] => []
  | a :: l => l.map (fun b => (a, b)) ++ pairsOf l

theorem mem_pairsOf {l : List α} {a b : α} (h : (a, b) ∈ pairsOf l) : a ∈ l ∧ b ∈ l := by
  induction l with
  | nil => cases h
  | cons c l ih =>
    rcases List.mem_append.1 h with h | h
    · obtain ⟨b', h1, h2⟩ := List.mem_map.1 h
      obtain ⟨rfl, rfl⟩ := Prod.mk.inj h2
      exact ⟨by simp, by simp [h1]⟩
    · exact ⟨List.mem_cons_of_mem _ (ih h).1, List.mem_cons_of_mem _ (ih h).2⟩

theorem pairsOf_ne {l : List α} (hn : l.Nodup) {a b : α} (h : (a, b) ∈ pairsOf l) : a ≠ b := by
  induction l with
  | nil => cases h
  | cons c l ih =>
    rw [List.nodup_cons] at hn
    rcases List.mem_append.1 h with h | h
    · obtain ⟨b', h1, h2⟩ := List.mem_map.1 h
      obtain ⟨rfl, rfl⟩ := Prod.mk.inj h2
      rintro rfl
      exact hn.1 h1
    · exact ih hn.2 h

variable [DecidableEq α]

/-- The tuple is about the pair, in one order or the other. -/
def About {β : Type} (ab : α × α) (t : α × α × β) : Prop := t.1 = ab.1 ∧ t.2.1 = ab.2 ∨ t.1 = ab.2 ∧ t.2.1 = ab.1

instance {β : Type} (ab : α × α) (t : α × α × β) : Decidable (About ab t) := by unfold About; infer_instance

/-- Every tuple of different elements is about exactly one pair. -/
theorem countP_about {β : Type} {l : List α} (hn : l.Nodup) {t : α × α × β} (h1 : t.1 ∈ l) (h2 : t.2.1 ∈ l) (h3 : t.1 ≠ t.2.1) :
    (pairsOf l).countP (fun ab => About ab t) = 1 := by
  obtain ⟨x, y, z⟩ := t
  simp only at h1 h2 h3
  induction l with
  | nil => cases h1
  | cons c l ih =>
    rw [List.nodup_cons] at hn
    unfold pairsOf
    rw [List.countP_append, List.countP_map]
    have none : ∀ {l : List α}, x ∉ l ∨ y ∉ l → (pairsOf l).countP (fun ab => decide (About ab (x, y, z))) = 0 := by
      intro l hl
      rw [List.countP_eq_zero]
      rintro ⟨a, b⟩ hab
      obtain ⟨m1, m2⟩ := mem_pairsOf hab
      rw [decide_eq_true_eq]
      rintro (⟨rfl, rfl⟩ | ⟨rfl, rfl⟩) <;> rcases hl with hl | hl <;> exact hl ‹_›
    have here : ∀ (w : α), w ∈ l → (l.countP fun b => decide (b = w)) = 1 := by
      intro w hw
      have := hn.2.count (a := w)
      rw [if_pos hw] at this
      rw [← this]
      unfold List.count
      refine List.countP_congr fun b _ => ?_
      simp
    by_cases e1 : x = c
    · subst e1
      have hy : y ∈ l := (List.mem_cons.1 h2).resolve_left (Ne.symm h3)
      rw [none (.inl hn.1), add_zero, ← here y hy]
      refine List.countP_congr fun b hb => ?_
      simp only [Function.comp_apply, About, decide_eq_true_eq]
      constructor
      · rintro (⟨-, h⟩ | ⟨h, -⟩)
        · exact h.symm
        · exact absurd (h ▸ hb) hn.1
      · exact fun h => .inl ⟨trivial, h.symm⟩
    · have hx : x ∈ l := (List.mem_cons.1 h1).resolve_left e1
      by_cases e2 : y = c
      · subst e2
        rw [none (.inr hn.1), add_zero, ← here x hx]
        refine List.countP_congr fun b hb => ?_
        simp only [Function.comp_apply, About, decide_eq_true_eq]
        constructor
        · rintro (⟨h, -⟩ | ⟨h, -⟩)
          · exact absurd h e1
          · exact h.symm
        · exact fun h => .inr ⟨h.symm, trivial⟩
      · rw [ih hn.2 hx ((List.mem_cons.1 h2).resolve_left e2)]
        rw [List.countP_eq_zero.2]
        intro b hb
        rw [Function.comp_apply, decide_eq_true_eq]
        rintro (⟨h, -⟩ | ⟨-, h⟩)
        · exact e1 h
        · exact e2 h

/-- Counting by pairs is counting by tuples. -/
theorem length_by_pairs {β : Type} {l : List α} (hn : l.Nodup) : ∀ {ts : List (α × α × β)}, (∀ t ∈ ts, t.1 ∈ l ∧ t.2.1 ∈ l ∧ t.1 ≠ t.2.1) →
    ((pairsOf l).map fun ab => ts.countP fun t => About ab t).sum = ts.length
  | [], _ => by simp
  | t :: ts, h => by
    have := h t (by simp)
    rw [List.length_cons, ← length_by_pairs hn (ts := ts) fun t ht => h t (by simp [ht]), ← countP_about hn this.1 this.2.1 this.2.2]
    generalize pairsOf l = ps
    induction ps with
    | nil => rfl
    | cons ab ps ih =>
      simp only [List.map_cons, List.sum_cons, List.countP_cons] at ih ⊢
      omega

theorem sum_countP {β : Type} (ps : List β) (f : β → Nat) (q : β → Bool) (h : ∀ x ∈ ps, f x = if q x then 1 else 0) : (ps.map f).sum = ps.countP q := by
  induction ps with
  | nil => rfl
  | cons x ps ih =>
    rw [List.map_cons, List.sum_cons, List.countP_cons, ih fun y hy => h y (by simp [hy]), h x (by simp), add_comm]

end

variable {K : Type} [Field K] [LinearOrder K]

theorem inner_count (q : Line K → Bool) : ∀ (l : List (Line K)) (c : Nat), l.foldl (fun count l2 => if q l2 = true then count + 1 else count) c = c + l.countP q
  | [], c => rfl
  | a :: l, c => by
    rw [List.foldl_cons, inner_count q l, List.countP_cons]
    split <;> omega

/-- `count_brute` counts the pairs that intersect. -/
theorem countBrute_eq (lines : List (Line K)) : countBrute lines = (pairsOf lines).countP fun ab => (lineIntersection ab.1 ab.2).isSome := by
  unfold countBrute
  dsimp only
  rw [List.take_length]
  have key : ∀ (l : List (Line K)) (c : Nat), (List.range l.length).foldl (fun count i =>
      match l[i]? with
      | none => count
      | some l1 => (l.drop (i + 1)).foldl (fun count l2 => if (lineIntersection l1 l2).isSome then count + 1 else count) count) c =
      c + (pairsOf l).countP fun ab => (lineIntersection ab.1 ab.2).isSome := by
    intro l
    induction l with
    | nil => intro c; rfl
    | cons a l ih =>
      intro c
      rw [List.length_cons, List.range_succ_eq_map, List.foldl_cons, List.foldl_map]
      simp only [List.getElem?_cons_zero, List.getElem?_cons_succ, List.drop_succ_cons, List.drop_zero, Nat.succ_eq_add_one]
      rw [ih, inner_count (fun l2 => (lineIntersection a l2).isSome)]
      rw [pairsOf, List.countP_append, List.countP_map]
      simp only [Function.comp_def]
      omega
  exact (key lines 0).trans (zero_add _)

theorem pairsOf_map {α β : Type} (f : α → β) : ∀ l : List α, pairsOf (l.map f) = (pairsOf l).map fun ab => (f ab.1, f ab.2)
  | [] => rfl
  | a :: l => by
    rw [List.map_cons, pairsOf, pairsOf, List.map_append, pairsOf_map f l, List.map_map, List.map_map]
    rfl

theorem range_getD {α : Type} (d : α) : ∀ l : List α, (List.range l.length).map (fun i => l.getD i d) = l
  | [] => rfl
  | a :: l => by
    rw [List.length_cons, List.range_succ_eq_map, List.map_cons, List.map_map]
    conv_rhs => rw [← range_getD d l]
    rfl

variable [IsStrictOrderedRing K]

theorem inter_common {g : LineOrPoint K} {A B : Pt K → Prop} (h : IsInter (some g) A B) : ∃ z, A z ∧ B z := by
  cases g with
  | point p => exact ⟨p, (h.2 p).1 rfl⟩
  | line p q => exact ⟨p, (h.2 p).1 (onSeg_left p q)⟩

/-- **C91.** If any two lines (by their positions) that have a point in common have just one, and it is the first end of neither of them,
then `count_bo` and `count_brute` return the same number, whatever the heap does with equal events. -/
theorem C91_counts (nextAfter : K → K) (choice : Nat → Nat) {lines : List (Line K)}
    (h : lines.Pairwise fun l l' => ∀ x, OnLine l x ∧ OnLine l' x → MeetAt l l' x ∧ x ≠ min l.start l.stop ∧ x ≠ min l'.start l'.stop) :
    ∃ N, ∀ fuel, N ≤ fuel → countBo nextAfter choice fuel lines = some (countBrute lines) := by
  set d : Line K := ⟨⟨0, 0⟩, ⟨0, 0⟩⟩
  set f : Nat → Line K := fun i => lines.getD i d with hf
  obtain ⟨N, ts, hN⟩ := C27_total f nextAfter choice (List.range lines.length)
  refine ⟨N, fun fuel hfu => ?_⟩
  have hts := hN fuel hfu
  unfold countBo
  rw [hts]
  simp only [Option.bind_eq_bind, Option.bind_some, Option.pure_def, Option.some.injEq]
  have hn : (List.range lines.length).Nodup := List.nodup_range
  rw [← length_by_pairs hn (ts := ts) fun t ht => by
    obtain ⟨h1, h2, -, -, h3⟩ := C27_tuples hts (a := t.1) (b := t.2.1) (i := t.2.2) ht
    exact ⟨h1, h2, h3 hn⟩]
  rw [countBrute_eq]
  conv_rhs => rw [← range_getD d lines]
  rw [pairsOf_map, List.countP_map]
  refine sum_countP _ _ _ fun ab hab => ?_
  obtain ⟨a, b⟩ := ab
  obtain ⟨ha, hb⟩ := mem_pairsOf hab
  have hne := pairsOf_ne hn hab
  simp only [Function.comp_apply]
  have hla := List.mem_range.1 ha
  have hlb := List.mem_range.1 hb
  have ga : f a = lines[a] := by simp [hf, hla]
  have gb : f b = lines[b] := by simp [hf, hlb]
  have hm : ∀ x, OnLine (f a) x ∧ OnLine (f b) x → MeetAt (f a) (f b) x ∧ x ≠ min (f a).start (f a).stop ∧ x ≠ min (f b).start (f b).stop := by
    intro x hx
    rw [ga, gb] at hx ⊢
    rw [List.pairwise_iff_getElem] at h
    rcases lt_or_gt_of_ne hne with k | k
    · exact h a b hla hlb k x hx
    · obtain ⟨h1, h2, h3⟩ := h b a hlb hla k x hx.symm
      exact ⟨fun y => and_comm.trans (h1 y), h3, h2⟩
  have hi := lineIntersection_isInter (f a) (f b)
  show _ = if (lineIntersection (f a) (f b)).isSome = true then 1 else 0
  rcases Option.eq_none_or_eq_some (lineIntersection (f a) (f b)) with e | ⟨i, e⟩
  · rw [e] at hi
    rw [e, show (none : Option (LineIntersection K)).isSome = false from rfl, if_neg Bool.false_ne_true]
    rw [List.countP_eq_zero]
    rintro ⟨x, y, i⟩ ht
    obtain ⟨-, -, h3, -, -⟩ := C27_tuples hts ht
    have hi' := lineIntersection_isInter (f x) (f y)
    rw [h3] at hi'
    rw [decide_eq_true_eq]
    obtain ⟨z, hz⟩ := inter_common hi'
    rintro (⟨rfl, rfl⟩ | ⟨rfl, rfl⟩)
    · exact hi z hz
    · exact hi z hz.symm
  · rw [e] at hi
    rw [e, show (some i).isSome = true from rfl, if_pos rfl]
    obtain ⟨z, hz⟩ := inter_common hi
    obtain ⟨h1, h2, h3⟩ := hm z hz
    exact C28_inner_crossing_once_partial hts hn ha hb hne h1 h2 h3

/-- The example in the documentation of the crate: three lines, all pairs of which intersect. -/
def docLines : List (Line ℚ) := [⟨⟨1, 0⟩, ⟨0, 1⟩⟩, ⟨⟨0, 1 / 2⟩, ⟨1, 1 / 2⟩⟩, ⟨⟨0, 0⟩, ⟨1, 1⟩⟩]

/-- They meet the condition of C91; three is what both functions return. -/
example : (docLines.Pairwise fun l l' => ∀ x, OnLine l x ∧ OnLine l' x → MeetAt l l' x ∧ x ≠ min l.start l.stop ∧ x ≠ min l'.start l'.stop) ∧
    countBrute docLines = 3 ∧ countBo id (fun _ => 0) 60 docLines = some 3 := by
  refine ⟨?_, by decide +kernel, by decide +kernel⟩
  have key : ∀ {l l' : Line ℚ} {z : Pt ℚ}, lineIntersection l l' = some (.singlePoint z) → z ≠ min l.start l.stop → z ≠ min l'.start l'.stop →
      ∀ x, OnLine l x ∧ OnLine l' x → MeetAt l l' x ∧ x ≠ min l.start l.stop ∧ x ≠ min l'.start l'.stop := by
    intro l l' z h h1 h2 x hx
    have hi := lineIntersection_isInter l l'
    rw [h] at hi
    obtain rfl : x = z := (hi.2 x).2 hx
    exact ⟨fun y => (hi.2 y).symm, h1, h2⟩
  have k := key (l := ⟨⟨1, 0⟩, ⟨0, 1⟩⟩) (l' := ⟨⟨0, 1 / 2⟩, ⟨1, 1 / 2⟩⟩) (z := ⟨1 / 2, 1 / 2⟩) (by decide +kernel) (by decide +kernel) (by decide +kernel)
  have k' := key (l := ⟨⟨1, 0⟩, ⟨0, 1⟩⟩) (l' := ⟨⟨0, 0⟩, ⟨1, 1⟩⟩) (z := ⟨1 / 2, 1 / 2⟩) (by decide +kernel) (by decide +kernel) (by decide +kernel)
  have k'' := key (l := ⟨⟨0, 1 / 2⟩, ⟨1, 1 / 2⟩⟩) (l' := ⟨⟨0, 0⟩, ⟨1, 1⟩⟩) (z := ⟨1 / 2, 1 / 2⟩) (by decide +kernel) (by decide +kernel) (by decide +kernel)
  unfold docLines
  simp only [List.pairwise_cons, List.mem_cons, List.not_mem_nil, or_false, forall_eq_or_imp, forall_eq, List.Pairwise.nil, and_true,
    false_imp_iff, implies_true]
  exact ⟨⟨k, k'⟩, k''⟩

/-- **C91, the condition is needed.** `count_bo` can be greater and less than `count_brute`. -/
theorem C91_fails : (countBrute overlapInput = 1 ∧ countBo id (fun _ => 0) 40 overlapInput = some 2) ∧
    countBrute fanInput = 2 ∧ countBo id (fun _ => 0) 40 fanInput = some 1 := by
  decide +kernel

end GeoCrossings

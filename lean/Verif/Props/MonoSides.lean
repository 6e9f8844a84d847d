import Verif.Props.MonoPieces

/-!
# The sides of the pieces that `monotone_chains` makes (C96)
-/
set_option linter.unusedSectionVars false
namespace GeoCrossings.Monotone
open Spec

variable {K : Type} [Field K] [LinearOrder K] [IsStrictOrderedRing K]

/-- How often the segment `e` occurs in the upper chains. -/
def topCount (out : List (MonoPoly K)) (e : Sg K) : Nat := (out.map fun m => (m.top.zip m.top.tail).count e).sum
/-- How often the segment `e` occurs in the lower chains. -/
def botCount (out : List (MonoPoly K)) (e : Sg K) : Nat := (out.map fun m => (m.bot.zip m.bot.tail).count e).sum

theorem sum_count (e : Sg K) : ∀ l : List (Sg K), (l.map fun x => if x = e then (1 : K) else 0).sum = (l.count e : K)
  | [] => by simp
  | x :: l => by
    rw [List.map_cons, List.sum_cons, sum_count e l, List.count_cons]
    by_cases h : x = e
    · simp [h]; ring
    · simp [h]

theorem balance {n : Nat} {ed : Nat → Sg K} {top : Nat → Bool} {out : List (MonoPoly K)} (D : Decomposed n ed top out) (e : Sg K) :
    (topCount out e : K) - botCount out e = edgeSum ed top (fun x => if x = e then 1 else 0) (List.range' 1 n) := by
  rw [← D.bal]
  unfold topCount botCount
  generalize out = l
  induction l with
  | nil => simp
  | cons m l ih =>
    simp only [List.map_cons, List.sum_cons, Nat.cast_add, wt, es, sum_count] at ih ⊢
    rw [← ih]
    ring

theorem edgeSum_none {n : Nat} {ed : Nat → Sg K} {top : Nat → Bool} {e : Sg K} (h : ∀ k, 1 ≤ k → k ≤ n → ed k ≠ e) :
    edgeSum ed top (fun x => if x = e then 1 else 0) (List.range' 1 n) = 0 := by
  unfold edgeSum
  rw [List.sum_eq_zero]
  intro x hx
  obtain ⟨k, hk, rfl⟩ := List.mem_map.1 hx
  rw [List.mem_range'_1] at hk
  simp [h k hk.1 (by omega)]

theorem sum_single {f : Nat → K} {k : Nat} : ∀ {l : List Nat}, l.Nodup → k ∈ l → (∀ i ∈ l, i ≠ k → f i = 0) → (l.map f).sum = f k
  | a :: l, hn, hk, h => by
    rw [List.nodup_cons] at hn
    rw [List.map_cons, List.sum_cons]
    rcases List.mem_cons.1 hk with rfl | hk
    · have : (l.map f).sum = 0 := List.sum_eq_zero fun x hx => by
        obtain ⟨i, hi, rfl⟩ := List.mem_map.1 hx
        exact h i (List.mem_cons_of_mem _ hi) fun e => hn.1 (e ▸ hi)
      rw [this, add_zero]
    · rw [sum_single hn.2 hk fun i hi => h i (List.mem_cons_of_mem _ hi), h a List.mem_cons_self (fun e => hn.1 (e ▸ hk)), zero_add]

theorem edgeSum_one {n : Nat} {ed : Nat → Sg K} {top : Nat → Bool} (E : Edges n ed top) {k : Nat} (k1 : 1 ≤ k) (k2 : k ≤ n) :
    edgeSum ed top (fun x => if x = ed k then 1 else 0) (List.range' 1 n) = if top k then 1 else -1 := by
  unfold edgeSum
  rw [sum_single (k := k) List.nodup_range' (by rw [List.mem_range'_1]; omega)]
  · simp
  · intro i hi hik
    rw [List.mem_range'_1] at hi
    have : ed i ≠ ed k := fun e => hik (E.inj hi.1 (by omega) k1 k2 e)
    simp [this]

/-- A side as it is numbered. -/
theorem side_norm {ext : List (Pt K)} {holes : List (List (Pt K))} {e : Sg K} :
    (∃ k, 1 ≤ k ∧ k ≤ (dir (ringsOf ext holes)).length ∧ numEd (ringsOf ext holes) k = e) ↔ ∃ s ∈ (ext :: holes).flatMap ringEdges, norm s = e := by
  constructor
  · rintro ⟨k, k1, k2, rfl⟩
    obtain ⟨x, hx, -, ex, -⟩ := num_mem k1 k2
    obtain ⟨r, hr, he, -⟩ := mem_dir.1 hx
    refine ⟨x.1, List.mem_flatMap.2 ⟨r.1, ?_, he⟩, ex.symm⟩
    rw [← ringsOf_fst ext holes]
    exact List.mem_map_of_mem hr
  · rintro ⟨s, he, rfl⟩
    rw [← ringsOf_fst ext holes, List.flatMap_map] at he
    obtain ⟨r, hr, he⟩ := List.mem_flatMap.1 he
    obtain ⟨k, k1, k2, -, hk, -⟩ := mem_num (x := (s, r.2)) (mem_dir.2 ⟨r, hr, he, rfl⟩)
    exact ⟨k, k1, k2, hk⟩

/-- **C96.** A side of the polygon occurs in the chains as a whole, once more in the upper chains than in the lower ones if the interior is
below it, and once more in the lower ones if it is above it; one of these is the case. -/
theorem C96_sides (dbg : Bool) (srt : List (Event K) → List (Event K)) {p : Polygon K} (hp : ValidPolygon p.ext p.ints) :
    ∃ out, monotoneChains dbg srt p = some out ∧ ∀ a b, ((a, b) ∈ (p.ext :: p.ints).flatMap ringEdges ∨ (b, a) ∈ (p.ext :: p.ints).flatMap ringEdges) →
      a < b → ((∀ r, Within a b r → EvenOdd (p.ext :: p.ints) r) ∧ topCount out (a, b) = botCount out (a, b) + 1) ∨
        ((∀ r, Within a b r → ¬ EvenOdd (p.ext :: p.ints) r) ∧ botCount out (a, b) = topCount out (a, b) + 1) := by
  obtain ⟨out, h, D⟩ := monotoneChains_ok dbg srt hp
  refine ⟨out, h, fun a b hs hab => ?_⟩
  have E := edges_valid hp
  have hn : norm (a, b) = (a, b) := by simp [norm, hab.not_gt]
  have hn' : norm (b, a) = (a, b) := by simp [norm, hab]
  obtain ⟨k, k1, k2, hk⟩ := (side_norm (ext := p.ext) (holes := p.ints) (e := (a, b))).2 (by
    rcases hs with hs | hs
    · exact ⟨_, hs, hn⟩
    · exact ⟨_, hs, hn'⟩)
  have side : ∀ r, Within a b r → (EvenOdd (p.ext :: p.ints) r ↔ numTop (ringsOf p.ext p.ints) k = true) := by
    intro r hw
    obtain ⟨r1, r2, r3⟩ := within_lt hab hw
    rw [evenOdd_count]
    exact D.side E k1 k2 (by rw [hk]; exact r1) (by rw [hk]; exact r2) (by rw [hk]; exact r3)
  have bal := balance D (a, b)
  rw [← hk, edgeSum_one E k1 k2, hk] at bal
  cases ht : numTop (ringsOf p.ext p.ints) k with
  | true =>
    refine .inl ⟨fun r hw => (side r hw).2 ht, ?_⟩
    rw [ht, if_pos rfl, sub_eq_iff_eq_add'] at bal
    exact_mod_cast bal
  | false =>
    refine .inr ⟨fun r hw => by rw [side r hw, ht]; simp, ?_⟩
    rw [ht, if_neg (by simp)] at bal
    have : (botCount out (a, b) : K) = topCount out (a, b) + 1 := by linarith
    exact_mod_cast this

/-- **C96.** A segment that is not a side of the polygon occurs as often in the upper chains as in the lower ones. -/
theorem C96_diagonals (dbg : Bool) (srt : List (Event K) → List (Event K)) {p : Polygon K} (hp : ValidPolygon p.ext p.ints) :
    ∃ out, monotoneChains dbg srt p = some out ∧ ∀ a b, (a, b) ∉ (p.ext :: p.ints).flatMap ringEdges → (b, a) ∉ (p.ext :: p.ints).flatMap ringEdges →
      topCount out (a, b) = botCount out (a, b) := by
  obtain ⟨out, h, D⟩ := monotoneChains_ok dbg srt hp
  refine ⟨out, h, fun a b h1 h2 => ?_⟩
  have bal := balance D (a, b)
  rw [edgeSum_none fun k k1 k2 hk => ?_, sub_eq_zero] at bal
  · exact_mod_cast bal
  · obtain ⟨s, hs, e⟩ := side_norm.1 ⟨k, k1, k2, hk⟩
    unfold norm at e
    split at e
    · rw [Prod.mk.injEq] at e
      exact h2 (by rw [← e.1, ← e.2]; exact hs)
    · exact h1 (e ▸ hs)

namespace Demo

/-- The bow is cut along `(2, 0)`, `(5, 0)`; its lower side is in one lower chain, its upper side in one upper chain. -/
example : (monotoneChains true id ⟨bow, []⟩).map (fun out =>
    ((topCount out (⟨2, 0⟩, ⟨5, 0⟩), botCount out (⟨2, 0⟩, ⟨5, 0⟩)), (topCount out (⟨0, -3⟩, ⟨7, -3⟩), botCount out (⟨0, -3⟩, ⟨7, -3⟩)),
      (topCount out (⟨0, 3⟩, ⟨7, 3⟩), botCount out (⟨0, 3⟩, ⟨7, 3⟩)))) = some ((1, 1), (0, 1), (1, 0)) := by decide +kernel

end Demo

end GeoCrossings.Monotone

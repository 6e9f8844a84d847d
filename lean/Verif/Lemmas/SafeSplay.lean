import Verif.Model.SweepF
import Verif.Lemmas.Splay
import Mathlib.Data.List.Nodup

/-! # The splay tree with a comparator that may fail -/

set_option linter.ambiguousOpen false
set_option linter.unusedSectionVars false
namespace GeoCrossings

/-- The result satisfies `P`, or it is a panic or the bound on the recursion. -/
def Safe {α : Type} (x : Except Fault α) (P : α → Prop) : Prop :=
  match x with
  | .ok a => P a
  | .error e => e = .panic ∨ e = .deep

namespace Safe
variable {α β : Type}

theorem pure {a : α} {P : α → Prop} (h : P a) : Safe (Pure.pure a : Except Fault α) P := h

theorem ok {a : α} {P : α → Prop} (h : P a) : Safe (.ok a) P := h

theorem panic {P : α → Prop} : Safe (.error .panic) P := .inl rfl

theorem bind {x : Except Fault α} {f : α → Except Fault β} {P : α → Prop} {Q : β → Prop} (h : Safe x P)
    (hf : ∀ a, P a → Safe (f a) Q) : Safe (x >>= f) Q := by
  cases x with
  | ok a => exact hf a h
  | error e => exact h

theorem mono {x : Except Fault α} {P Q : α → Prop} (h : Safe x P) (hf : ∀ a, P a → Q a) : Safe x Q := by
  cases x with
  | ok a => exact hf a h
  | error e => exact h

theorem and {x : Except Fault α} {P Q : α → Prop} (h : Safe x P) (h' : Safe x Q) : Safe x fun a => P a ∧ Q a := by
  cases x with
  | ok a => exact ⟨h, h'⟩
  | error e => exact h

theorem orPanic {o : Option α} : Safe (Fault.orPanic o) fun a => o = some a := by
  cases o with
  | none => exact .inl rfl
  | some a => exact (rfl : some a = some a)

theorem getU {s : Slab α} {k : Nat} {a : α} (h : s.get k = some a) : Safe (s.getU k) fun b => b = a := by
  unfold Slab.getU
  rw [h]
  exact (rfl : a = a)

theorem modifyU {s : Slab α} {k : Nat} {a : α} (h : s.get k = some a) (f : α → α) :
    Safe (s.modifyU k f) fun s' => s' = s.put k (some (f a)) := by
  unfold Slab.modifyU Slab.modify
  rw [h]
  exact (rfl : s.put k (some (f a)) = _)

end Safe

namespace Splay
open Tree
variable {K V : Type}

/-- The comparator does not fail on these keys, and finds equal only the key itself. -/
def SafeCmp (cmp : K → K → Except Fault Ordering) (key : K) (l : List (K × V)) : Prop :=
  ∀ e ∈ l, Safe (cmp key e.1) fun o => o = .eq ↔ key = e.1

theorem SafeCmp.sub {cmp : K → K → Except Fault Ordering} {key : K} {l l' : List (K × V)} (h : SafeCmp cmp key l) (hs : l' ⊆ l) :
    SafeCmp cmp key l' := fun e he => h e (hs he)

theorem splayLoopM_safe {cmp : K → K → Except Fault Ordering} {key : K} (t : Tree K V) (L R) (h : SafeCmp cmp key t.toList)
    (ht : t ≠ nil) : Safe (splayLoopM cmp key t L R) fun t' => t'.toList = flatL L ++ t.toList ++ flatR R := by
  fun_induction splayLoopM cmp key t L R with
  | case1 => exact absurd rfl ht
  | case2 l k v r L R ih1 ih2 =>
    refine Safe.bind (h (k, v) (by simp [toList])) fun o _ => ?_
    cases o with
    | eq => exact Safe.pure (toList_splayFinish ..)
    | lt =>
      cases l with
      | nil => exact Safe.pure (toList_splayFinish ..)
      | node ll lk lv lr =>
        dsimp only at ih1 ⊢
        refine Safe.bind (h (lk, lv) (by simp [toList])) fun o _ => ?_
        by_cases ho : o = .lt
        · rw [if_pos ho]
          cases ll with
          | nil => exact Safe.pure (by simp [toList_splayFinish, toList])
          | node lll llk llv llr =>
            refine (ih1.1 (h.sub (by intro x hx; simp [toList] at hx ⊢; grind)) (by simp)).mono fun t' ht' => ?_
            rw [ht']; simp [toList, flatR]
        · rw [if_neg ho]
          refine (ih1.2 (h.sub (by intro x hx; simp [toList] at hx ⊢; grind)) (by simp)).mono fun t' ht' => ?_
          rw [ht']; simp [toList, flatR]
    | gt =>
      cases r with
      | nil => exact Safe.pure (toList_splayFinish ..)
      | node rl rk rv rr =>
        dsimp only at ih2 ⊢
        refine Safe.bind (h (rk, rv) (by simp [toList])) fun o _ => ?_
        by_cases ho : o = .gt
        · rw [if_pos ho]
          cases rr with
          | nil => exact Safe.pure (by simp [toList_splayFinish, toList])
          | node rrl rrk rrv rrr =>
            refine (ih2.1 (h.sub (by intro x hx; simp [toList] at hx ⊢; grind)) (by simp)).mono fun t' ht' => ?_
            rw [ht']; simp [toList, flatL]
        · rw [if_neg ho]
          refine (ih2.2 (h.sub (by intro x hx; simp [toList] at hx ⊢; grind)) (by simp)).mono fun t' ht' => ?_
          rw [ht']; simp [toList, flatL]

theorem splayM_safe {cmp : K → K → Except Fault Ordering} {key : K} (t : Tree K V) (h : SafeCmp cmp key t.toList) :
    Safe (splayM cmp key t) fun t' => t'.toList = t.toList := by
  cases t with
  | nil => exact Safe.pure rfl
  | node l k v r =>
    refine (splayLoopM_safe (node l k v r) [] [] h (by simp)).mono fun t' ht => ?_
    rw [ht]; simp [flatL, flatR]

theorem prevLoopM_safe {cmp : K → K → Except Fault Ordering} {key : K} (t : Tree K V) (acc : Option (K × V)) (h : SafeCmp cmp key t.toList) :
    Safe (prevLoopM cmp key t acc) fun r => r = acc ∨ ∃ e ∈ t.toList, r = some e ∧ e.1 ≠ key := by
  induction t generalizing acc with
  | nil => exact Safe.pure (.inl rfl)
  | node l k v r ihl ihr =>
    refine Safe.bind (h (k, v) (by simp [toList])) fun o ho => ?_
    have hl : SafeCmp cmp key l.toList := h.sub (by intro x hx; simp [toList]; exact .inl hx)
    have hr : SafeCmp cmp key r.toList := h.sub (by intro x hx; simp [toList]; exact .inr (.inr hx))
    have il := (ihl acc hl).mono (Q := fun r' => r' = acc ∨ ∃ e ∈ (node l k v r).toList, r' = some e ∧ e.1 ≠ key) fun t' ht => by
      rcases ht with rfl | ⟨e, h1, h2⟩
      · exact .inl rfl
      · exact .inr ⟨e, by simp [toList]; exact .inl h1, h2⟩
    cases o with
    | eq => exact il
    | lt => exact il
    | gt =>
      refine (ihr (some (k, v)) hr).mono fun t' ht => ?_
      rcases ht with rfl | ⟨e, h1, h2⟩
      · exact .inr ⟨(k, v), by simp [toList], rfl, fun hk => by simpa using ho.2 hk.symm⟩
      · exact .inr ⟨e, by simp [toList]; exact .inr (.inr h1), h2⟩

theorem nextLoopM_safe {cmp : K → K → Except Fault Ordering} {key : K} (t : Tree K V) (acc : Option (K × V)) (h : SafeCmp cmp key t.toList) :
    Safe (nextLoopM cmp key t acc) fun r => r = acc ∨ ∃ e ∈ t.toList, r = some e ∧ e.1 ≠ key := by
  induction t generalizing acc with
  | nil => exact Safe.pure (.inl rfl)
  | node l k v r ihl ihr =>
    refine Safe.bind (h (k, v) (by simp [toList])) fun o ho => ?_
    have hl : SafeCmp cmp key l.toList := h.sub (by intro x hx; simp [toList]; exact .inl hx)
    have hr : SafeCmp cmp key r.toList := h.sub (by intro x hx; simp [toList]; exact .inr (.inr hx))
    have ir := (ihr acc hr).mono (Q := fun r' => r' = acc ∨ ∃ e ∈ (node l k v r).toList, r' = some e ∧ e.1 ≠ key) fun t' ht => by
      rcases ht with rfl | ⟨e, h1, h2⟩
      · exact .inl rfl
      · exact .inr ⟨e, by simp [toList]; exact .inr (.inr h1), h2⟩
    cases o with
    | eq => exact ir
    | gt => exact ir
    | lt =>
      refine (ihl (some (k, v)) hl).mono fun t' ht => ?_
      rcases ht with rfl | ⟨e, h1, h2⟩
      · exact .inr ⟨(k, v), by simp [toList], rfl, fun hk => by simpa using ho.2 hk.symm⟩
      · exact .inr ⟨e, by simp [toList]; exact .inl h1, h2⟩

/-- `prev` keeps the sequence, and returns another key of it. -/
theorem prevM_safe {cmp : K → K → Except Fault Ordering} {key : K} (s : SplayTree K V) (h : SafeCmp cmp key s.root.toList) :
    Safe (s.prevM cmp key) fun r => r.1.root.toList = s.root.toList ∧ ∀ e, r.2 = some e → e ∈ s.root.toList ∧ e.1 ≠ key := by
  refine Safe.bind (splayM_safe s.root h) fun t ht => ?_
  refine Safe.bind (prevLoopM_safe t none (by rw [ht]; exact h)) fun o ho => ?_
  refine Safe.pure ⟨ht, fun e he => ?_⟩
  dsimp only at he
  rcases ho with rfl | ⟨e', h1, rfl, h2⟩
  · cases he
  · cases he; exact ⟨ht ▸ h1, h2⟩

/-- `next` likewise. -/
theorem nextM_safe {cmp : K → K → Except Fault Ordering} {key : K} (s : SplayTree K V) (h : SafeCmp cmp key s.root.toList) :
    Safe (s.nextM cmp key) fun r => r.1.root.toList = s.root.toList ∧ ∀ e, r.2 = some e → e ∈ s.root.toList ∧ e.1 ≠ key := by
  refine Safe.bind (splayM_safe s.root h) fun t ht => ?_
  refine Safe.bind (nextLoopM_safe t none (by rw [ht]; exact h)) fun o ho => ?_
  refine Safe.pure ⟨ht, fun e he => ?_⟩
  dsimp only at he
  rcases ho with rfl | ⟨e', h1, rfl, h2⟩
  · cases he
  · cases he; exact ⟨ht ▸ h1, h2⟩

/-- `insert` of a key that it does not find adds it to the sequence somewhere. -/
theorem insertM_safe {cmp : K → K → Except Fault Ordering} {key : K} (s : SplayTree K V) (w : V) (h : SafeCmp cmp key s.root.toList) :
    Safe (s.insertM cmp key w) fun r => r.2 = none → r.1.root.toList.Perm ((key, w) :: s.root.toList) := by
  refine Safe.bind (splayM_safe s.root h) fun t ht => ?_
  cases t with
  | nil => exact Safe.pure fun _ => by rw [← ht]; simp [toList]
  | node l k v r =>
    refine Safe.bind (h (k, v) (by rw [← ht]; simp [toList])) fun o _ => ?_
    cases o with
    | eq => exact Safe.pure fun h => by cases h
    | lt =>
      refine Safe.pure fun _ => ?_
      rw [← ht]
      simp only [toList, List.nil_append]
      exact List.perm_middle
    | gt =>
      refine Safe.pure fun _ => ?_
      rw [← ht]
      simp only [toList]
      refine List.perm_middle.trans ?_
      simp

/-- `remove` takes away the key it is given, and possibly further ones. -/
theorem removeM_safe {cmp : K → K → Except Fault Ordering} {key : K} (s : SplayTree K V) (h : SafeCmp cmp key s.root.toList) :
    Safe (s.removeM cmp key) fun r => ∀ a v, r = some (a, some v) →
      ∃ L R, s.root.toList = L ++ (key, v) :: R ∧ a.root.toList.Sublist (L ++ R) := by
  refine Safe.bind (splayM_safe s.root h) fun t ht => ?_
  cases t with
  | nil => exact Safe.pure fun a v h => by simp at h
  | node l k v r =>
    refine Safe.bind (h (k, v) (by rw [← ht]; simp [toList])) fun o ho => ?_
    by_cases he : o = .eq
    · rw [if_neg (by simpa using he)]
      have hk := ho.1 he
      refine Safe.bind (P := fun t' => t'.toList.Sublist (l.toList ++ r.toList)) ?_ fun t' ht' => ?_
      · unfold joinAfterRemoveM
        refine Safe.bind (splayM_safe l (h.sub (by rw [← ht]; intro x hx; simp [toList]; exact .inl hx))) fun t'' h2 => ?_
        cases t'' with
        | nil => exact Safe.pure (List.sublist_append_right _ _)
        | node l' k' v' r' =>
          refine Safe.pure ?_
          rw [← h2]
          simp only [toList, List.append_assoc, List.cons_append]
          exact (List.Sublist.refl _).append ((List.sublist_append_right _ _).cons_cons _)
      · cases s.size with
        | zero => exact Safe.pure fun a v h => by simp at h
        | succ n =>
          refine Safe.pure fun a v' h => ?_
          simp only [Option.some.injEq, Prod.mk.injEq] at h
          obtain ⟨rfl, rfl⟩ := h
          refine ⟨l.toList, r.toList, ?_, ht'⟩
          rw [← ht, hk]; rfl
    · rw [if_pos (by simpa using he)]
      exact Safe.pure fun a v h => by simp at h

end Splay
end GeoCrossings

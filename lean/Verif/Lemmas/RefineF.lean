import Verif.Model.SweepF
import Verif.Lemmas.Splay

/-!
# In exact arithmetic, the sweep with faults does what the sweep of `Model/Sweep.lean` does
-/
set_option linter.unusedSectionVars false
namespace GeoCrossings
open Fault

/-- Where `o` is defined, `x` is the same. -/
def Ref {α : Type} (o : Option α) (x : Except Fault α) : Prop := ∀ a, o = some a → x = .ok a

namespace Ref
variable {α β : Type}

theorem some (a : α) : Ref (some a) (.ok a) := fun b h => by cases h; rfl

theorem pure (a : α) : Ref (Pure.pure a : Option α) (Pure.pure a) := fun b h => by cases h; rfl

theorem none (x : Except Fault α) : Ref none x := fun _ h => by cases h

theorem bind {o : Option α} {x : Except Fault α} {f : α → Option β} {g : α → Except Fault β} (h : Ref o x)
    (hf : ∀ a, o = .some a → Ref (f a) (g a)) : Ref (o >>= f) (x >>= g) := by
  cases o with
  | none => exact none _
  | some a =>
    rw [h a rfl]
    exact hf a rfl

theorem orPanic (o : Option α) : Ref o (Fault.orPanic o) := fun a h => by rw [h]; rfl

theorem getU (s : Slab α) (k : Nat) : Ref (s.get k) (s.getU k) := fun a h => by unfold Slab.getU; rw [h]

theorem modifyU (s : Slab α) (k : Nat) (f : α → α) : Ref (s.modify k f) (s.modifyU k f) := fun a h => by unfold Slab.modifyU; rw [h]

end Ref

namespace Splay
open Tree
variable {K V : Type} {cmpF : K → K → Except Fault Ordering} {cmp : K → K → Ordering} {key : K}

theorem ok_bind {α β : Type} (a : α) (f : α → Except Fault β) : (Except.ok a >>= f) = f a := rfl

theorem splayLoopM_ok (t : Tree K V) (L R) (h : ∀ e ∈ t.toList, cmpF key e.1 = .ok (cmp key e.1)) :
    splayLoopM cmpF key t L R = .ok (splayLoop cmp key t L R) := by
  fun_induction splayLoop cmp key t L R with
  | case1 => rw [splayLoopM.eq_def]; rfl
  | case2 l k v r L R hk =>
    rw [splayLoopM.eq_def]
    simp only [h (k, v) (by simp [toList]), hk]; rfl
  | case3 k v r L R hk =>
    rw [splayLoopM.eq_def]
    simp only [h (k, v) (by simp [toList]), hk]; rfl
  | case4 k v r L R hk lk lv lr hlk =>
    rw [splayLoopM.eq_def]
    simp only [h (k, v) (by simp [toList]), hk]
    simp only [ok_bind, h (lk, lv) (by simp [toList]), if_pos hlk]; rfl
  | case5 k v r L R hk lk lv lr hlk lll llk llv llr ih =>
    rw [splayLoopM.eq_def]
    simp only [h (k, v) (by simp [toList]), hk]
    simp only [ok_bind, h (lk, lv) (by simp [toList]), if_pos hlk]
    exact ih fun e he => h e (by simp only [toList, List.mem_append, List.mem_cons] at he ⊢; tauto)
  | case6 k v r L R hk ll lk lv lr hlk ih =>
    rw [splayLoopM.eq_def]
    simp only [h (k, v) (by simp [toList]), hk]
    simp only [ok_bind, h (lk, lv) (by simp [toList]), if_neg hlk]
    exact ih fun e he => h e (by simp only [toList, List.mem_append, List.mem_cons] at he ⊢; tauto)
  | case7 l k v L R hk =>
    rw [splayLoopM.eq_def]
    simp only [h (k, v) (by simp [toList]), hk]; rfl
  | case8 l k v L R hk rl rk rv hrk =>
    rw [splayLoopM.eq_def]
    simp only [h (k, v) (by simp [toList]), hk]
    simp only [ok_bind, h (rk, rv) (by simp [toList]), if_pos hrk]; rfl
  | case9 l k v L R hk rl rk rv hrk rrl rrk rrv rrr ih =>
    rw [splayLoopM.eq_def]
    simp only [h (k, v) (by simp [toList]), hk]
    simp only [ok_bind, h (rk, rv) (by simp [toList]), if_pos hrk]
    exact ih fun e he => h e (by simp only [toList, List.mem_append, List.mem_cons] at he ⊢; tauto)
  | case10 l k v L R hk rl rk rv rr hrk ih =>
    rw [splayLoopM.eq_def]
    simp only [h (k, v) (by simp [toList]), hk]
    simp only [ok_bind, h (rk, rv) (by simp [toList]), if_neg hrk]
    exact ih fun e he => h e (by simp only [toList, List.mem_append, List.mem_cons] at he ⊢; tauto)

theorem splayM_ok (t : Tree K V) (h : ∀ e ∈ t.toList, cmpF key e.1 = .ok (cmp key e.1)) : splayM cmpF key t = .ok (splay cmp key t) :=
  splayLoopM_ok t [] [] h

theorem nextLoopM_ok (t : Tree K V) (o : Option (K × V)) (h : ∀ e ∈ t.toList, cmpF key e.1 = .ok (cmp key e.1)) :
    nextLoopM cmpF key t o = .ok (nextLoop cmp key t o) := by
  induction t generalizing o with
  | nil => rfl
  | node l k v r il ir =>
    unfold nextLoopM nextLoop
    rw [h (k, v) (by simp [toList])]
    have hl : ∀ e ∈ l.toList, cmpF key e.1 = .ok (cmp key e.1) := fun e he => h e (by simp [toList, he])
    have hr : ∀ e ∈ r.toList, cmpF key e.1 = .ok (cmp key e.1) := fun e he => h e (by simp [toList, he])
    show (match cmp key k with | .lt => _ | .eq => _ | .gt => _) = _
    cases cmp key k
    · exact il _ hl
    · exact ir _ hr
    · exact ir _ hr

theorem prevLoopM_ok (t : Tree K V) (o : Option (K × V)) (h : ∀ e ∈ t.toList, cmpF key e.1 = .ok (cmp key e.1)) :
    prevLoopM cmpF key t o = .ok (prevLoop cmp key t o) := by
  induction t generalizing o with
  | nil => rfl
  | node l k v r il ir =>
    unfold prevLoopM prevLoop
    rw [h (k, v) (by simp [toList])]
    have hl : ∀ e ∈ l.toList, cmpF key e.1 = .ok (cmp key e.1) := fun e he => h e (by simp [toList, he])
    have hr : ∀ e ∈ r.toList, cmpF key e.1 = .ok (cmp key e.1) := fun e he => h e (by simp [toList, he])
    show (match cmp key k with | .eq => _ | .lt => _ | .gt => _) = _
    cases cmp key k
    · exact il _ hl
    · exact il _ hl
    · exact ir _ hr

theorem nextM_ok (s : SplayTree K V) (h : ∀ e ∈ s.root.toList, cmpF key e.1 = .ok (cmp key e.1)) :
    s.nextM cmpF key = .ok (s.next cmp key) := by
  unfold SplayTree.nextM
  rw [splayM_ok s.root h]
  show (do pure (({ s with root := splay cmp key s.root } : SplayTree K V), ← nextLoopM cmpF key (splay cmp key s.root) none)) = _
  rw [nextLoopM_ok (splay cmp key s.root) none (by rw [toList_splay]; exact h)]
  rfl

theorem prevM_ok (s : SplayTree K V) (h : ∀ e ∈ s.root.toList, cmpF key e.1 = .ok (cmp key e.1)) :
    s.prevM cmpF key = .ok (s.prev cmp key) := by
  unfold SplayTree.prevM
  rw [splayM_ok s.root h]
  show (do pure (({ s with root := splay cmp key s.root } : SplayTree K V), ← prevLoopM cmpF key (splay cmp key s.root) none)) = _
  rw [prevLoopM_ok (splay cmp key s.root) none (by rw [toList_splay]; exact h)]
  rfl

theorem insertM_ok (s : SplayTree K V) (w : V) (h : ∀ e ∈ s.root.toList, cmpF key e.1 = .ok (cmp key e.1)) :
    s.insertM cmpF key w = .ok (s.insert cmp key w) := by
  unfold SplayTree.insertM SplayTree.insert
  rw [splayM_ok s.root h]
  have ht := toList_splay cmp key s.root
  show (match splay cmp key s.root with | nil => _ | node l k v r => _) = _
  cases hs : splay cmp key s.root with
  | nil => rfl
  | node l k v r =>
    rw [hs] at ht
    dsimp only
    rw [h (k, v) (by rw [← ht]; simp [toList])]
    show (match cmp key k with | .eq => _ | .lt => _ | .gt => _) = _
    cases cmp key k <;> rfl

theorem removeM_ok (s : SplayTree K V) (h : ∀ e ∈ s.root.toList, cmpF key e.1 = .ok (cmp key e.1)) :
    s.removeM cmpF key = .ok (s.remove cmp key) := by
  unfold SplayTree.removeM SplayTree.remove
  rw [splayM_ok s.root h]
  have ht := toList_splay cmp key s.root
  show (match splay cmp key s.root with | nil => _ | node l k v r => _) = _
  cases hs : splay cmp key s.root with
  | nil => rfl
  | node l k v r =>
    rw [hs] at ht
    dsimp only
    rw [h (k, v) (by rw [← ht]; simp [toList])]
    show (if cmp key k ≠ .eq then _ else _) = _
    split
    · rfl
    · unfold joinAfterRemoveM joinAfterRemove
      rw [splayM_ok l (fun e he => h e (by rw [← ht]; simp [toList, he]))]
      cases s.size <;> cases splay cmp key l <;> rfl

end Splay
end GeoCrossings

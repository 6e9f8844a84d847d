import Verif.Model.Active
import Verif.Props.Splay

/-! # C54: the two active-set backends agree -/
namespace GeoCrossings.Active
open Splay Spec Tree

/-- The caller's obligation (active.rs:31-35): at each call the comparator is a total preorder and the
elements present are in strictly increasing order for it ("the ordering does not change"). -/
def Orderly : List (Nat × Unit) → List ((Nat → Nat → Ordering) × AOp) → Prop
  | _, [] => True
  | l, (cmp, op) :: ops =>
    LawfulCmp cmp ∧ SortedBy cmp l ∧
      match btreeCall cmp l op with
      | some (l', _) => Orderly l' ops
      | none => True

theorem call_eq {cmp : Nat → Nat → Ordering} (hc : LawfulCmp cmp) {s : SplaySet Nat}
    (hs : SortedBy cmp s.root.toList) (hn : s.size = s.root.toList.length) (op : AOp) :
    (splayCall cmp s op = none ∧ btreeCall cmp s.root.toList op = none) ∨
    ∃ s' o, splayCall cmp s op = some (s', o) ∧ btreeCall cmp s.root.toList op = some (s'.root.toList, o) ∧
      s'.size = s'.root.toList.length := by
  cases op with
  | prev k =>
    have h1 := prev_spec (cmp := cmp) (key := k) s (hc.sep hs k)
    have h2 : (SplayTree.prev cmp s k).1.root.toList = s.root.toList := toList_splay cmp k s.root
    refine .inr ⟨(SplayTree.prev cmp s k).1, (SplayTree.prev cmp s k).2.map (·.1), rfl, ?_, ?_⟩
    · rw [h1, h2]; rfl
    · rw [h2]; exact hn
  | next k =>
    have h1 := next_spec (cmp := cmp) (key := k) s (hc.sep hs k)
    have h2 : (SplayTree.next cmp s k).1.root.toList = s.root.toList := toList_splay cmp k s.root
    refine .inr ⟨(SplayTree.next cmp s k).1, (SplayTree.next cmp s k).2.map (·.1), rfl, ?_, ?_⟩
    · rw [h1, h2]; rfl
    · rw [h2]; exact hn
  | add k =>
    obtain ⟨a1, a2, a3⟩ := insert_spec (cmp := cmp) (key := k) s () (hc.sep hs k)
    have hl := length_insert s.root.toList k () (hc.sep hs k)
    simp only [splayCall, btreeCall, SplaySet.insert, a1]
    cases hf : OrdMap.find cmp k s.root.toList with
    | some e => exact .inl (by simp)
    | none =>
      refine .inr ⟨(SplayTree.insert cmp s k ()).1, none, by simp, by simp [a2], ?_⟩
      rw [a3, a2, hl, hf, hn]
  | remove k =>
    obtain ⟨s', e, e1, e2⟩ := remove_spec (cmp := cmp) (key := k) s (hc.sep hs k) hn
    simp only [splayCall, btreeCall, SplaySet.remove, e]
    cases hf : OrdMap.find cmp k s.root.toList with
    | some x => exact .inr ⟨s', none, by simp, by simp [e1], e2⟩
    | none => exact .inl (by simp)

/-- **C54.** For every history of `prev_key`, `next_key`, `add_key`, `remove_key` calls that respects the
documented ordering obligation, the splay backend and the `BTreeSet` backend give the same answers,
and panic at the same call. -/
theorem C54_backends_agree (ops : List ((Nat → Nat → Ordering) × AOp)) (h : Orderly [] ops) :
    (splayRun SplayTree.new ops).map (·.2) = (btreeRun [] ops).map (·.2) := by
  suffices H : ∀ (s : SplaySet Nat), s.size = s.root.toList.length → Orderly s.root.toList ops →
      (splayRun s ops).map (·.2) = (btreeRun s.root.toList ops).map (·.2) from H _ rfl h
  clear h
  induction ops with
  | nil => intro s _ _; rfl
  | cons x ops ih =>
    obtain ⟨cmp, op⟩ := x
    intro s hn ho
    obtain ⟨hc, hs, ho⟩ := ho
    rcases call_eq hc hs hn op with ⟨e1, e2⟩ | ⟨s', o, e1, e2, hn'⟩
    · simp [splayRun, btreeRun, e1, e2]
    · rw [e2] at ho
      have ih := ih s' hn' ho
      simp only [splayRun, btreeRun, e1, e2, Option.bind_eq_bind, Option.bind_some]
      cases h1 : splayRun s' ops <;> cases h2 : btreeRun s'.root.toList ops <;>
        simp_all

/-- Non-vacuity of C54: a history where the comparator changes between calls (keys 1, 2 move but keep
their order), neighbours are asked for, and the last call panics in both backends. -/
def demoOps : List ((Nat → Nat → Ordering) × AOp) :=
  let c1 := fun a b : Nat => compare a b
  let c2 := fun a b : Nat => compare (a * a) (b * b)
  [(c1, .add 2), (c1, .add 1), (c2, .add 3), (c2, .prev 3), (c1, .next 2), (c2, .remove 2), (c1, .prev 3)]

theorem natCmp_lawful (f : Nat → Nat) : LawfulCmp (fun a b => compare (f a) (f b)) where
  swap a b := by simp only [Nat.compare_swap]
  trans a b c := by simp only [ne_eq, Nat.compare_eq_gt]; omega

example : Orderly [] demoOps ∧
    (splayRun SplayTree.new demoOps).map (·.2) =
      some [none, none, none, some 2, some 3, none, some 1] := by
  refine ⟨?_, by decide +kernel⟩
  have h1 : LawfulCmp (fun a b : Nat => compare a b) := natCmp_lawful id
  have h2 : LawfulCmp (fun a b : Nat => compare (a * a) (b * b)) := natCmp_lawful fun a => a * a
  refine ⟨h1, by simp [SortedBy], h1, ?_, h2, ?_, h2, ?_, h1, ?_, h2, ?_, h1, ?_, trivial⟩ <;>
    (unfold SortedBy; decide +kernel)

end GeoCrossings.Active

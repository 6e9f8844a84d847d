import Verif.Lemmas.SweepOps
import Verif.Lemmas.Splay
import Verif.Lemmas.SweepGeom

/-! # The active set of the sweep: neighbours, insertion, removal -/
set_option linter.unusedSectionVars false
namespace GeoCrossings
namespace Sweep
open Splay Spec

variable {K C : Type} [Field K] [LinearOrder K]
variable {org : C → Pt K} {allow : Prop}

/-- The keys stored in the active set, in order. -/
def actKeys (a : SplaySet Nat) : List Nat := a.root.toList.map (·.1)

/-- `k` belongs after `L` and before `R`. -/
structure Placed (slab : Slab (Seg K C)) (k : Nat) (L R : List Nat) : Prop where
  lo : ∀ e ∈ L, cmpKeys slab k e = some .gt ∧ (cmpKeys slab e k).isSome
  hi : ∀ e ∈ R, cmpKeys slab k e = some .lt ∧ (cmpKeys slab e k).isSome

/-- `M` is empty or the key itself. -/
def Mid (slab : Slab (Seg K C)) (k : Nat) (M : List Nat) : Prop :=
  M = [] ∨ (M = [k] ∧ cmpKeys slab k k = some .eq)

variable {st : Sweep K C} {k : Nat} {L M R : List Nat}

theorem placed_comparable (hP : Placed st.segments k L R) (hM : Mid st.segments k M) (h : actKeys st.active = L ++ M ++ R) :
    comparable st.segments st.active k = true := by
  unfold comparable
  rw [List.all_eq_true]
  intro e he
  have : e.1 ∈ L ++ M ++ R := by rw [← h]; exact List.mem_map_of_mem he
  rw [List.mem_append, List.mem_append] at this
  rcases this with (h1 | h1) | h1
  · simp [(hP.lo _ h1).1, (hP.lo _ h1).2]
  · rcases hM with rfl | ⟨rfl, hk⟩
    · simp at h1
    · simp at h1; simp [h1, hk]
  · simp [(hP.hi _ h1).1, (hP.hi _ h1).2]

/-- The stored entries, cut in three like their keys. -/
theorem entries_split {l : List (Nat × Unit)} (h : l.map (·.1) = L ++ M ++ R) :
    l = L.map (·, ()) ++ M.map (·, ()) ++ R.map (·, ()) := by
  have : l = (l.map (·.1)).map (·, ()) := by
    rw [List.map_map]
    exact (List.map_id l).symm
  rw [this, h]; simp

theorem placed_sep (hP : Placed st.segments k L R) (hM : Mid st.segments k M) (h : actKeys st.active = L ++ M ++ R) :
    Splay.Sep (cmpD st.segments) k st.active.root.toList := by
  unfold Splay.Sep
  rw [entries_split h, List.pairwise_append, List.pairwise_append]
  have lo : ∀ e ∈ L.map (fun x => (x, ())), cmpD st.segments k e.1 = .gt := by
    intro e he
    obtain ⟨x, hx, rfl⟩ := List.mem_map.1 he
    simp [cmpD, (hP.lo x hx).1]
  have hi : ∀ e ∈ R.map (fun x => (x, ())), cmpD st.segments k e.1 = .lt := by
    intro e he
    obtain ⟨x, hx, rfl⟩ := List.mem_map.1 he
    simp [cmpD, (hP.hi x hx).1]
  refine ⟨⟨?_, ?_, ?_⟩, ?_, ?_⟩
  · exact List.Pairwise.imp_of_mem (R := fun _ _ => True) (fun ha _ _ => .inl (lo _ ha)) (List.pairwise_of_forall (by simp))
  · rcases hM with rfl | ⟨rfl, -⟩ <;> simp
  · intro a ha b _; exact .inl (lo a ha)
  · exact List.Pairwise.imp_of_mem (R := fun _ _ => True) (fun _ hb _ => .inr (hi _ hb)) (List.pairwise_of_forall (by simp))
  · intro a _ b hb; exact .inr (hi b hb)

theorem prevKey_spec (hP : Placed st.segments k L R) (hM : Mid st.segments k M) (h : actKeys st.active = L ++ M ++ R) :
    ∃ a, st.prevKey k = some ({ st with active := a }, L.getLast?) ∧ actKeys a = L ++ M ++ R ∧ a.size = st.active.size := by
  refine ⟨(SplaySet.prev (cmpD st.segments) st.active k).1, ?_, ?_, rfl⟩
  · unfold prevKey
    rw [if_pos (placed_comparable hP hM h)]
    simp only [SplaySet.prev, Option.some.injEq, Prod.mk.injEq, true_and]
    rw [prev_spec _ (placed_sep hP hM h), OrdMap.pred, entries_split h]
    have h1 : (L.map (fun x => (x, ()))).filter (fun e => decide (cmpD st.segments k e.1 = .gt)) = L.map (fun x => (x, ())) := by
      rw [List.filter_eq_self]
      intro e he
      obtain ⟨x, hx, rfl⟩ := List.mem_map.1 he
      simp [cmpD, (hP.lo x hx).1]
    have h2 : (M.map (fun x => (x, ()))).filter (fun e => decide (cmpD st.segments k e.1 = .gt)) = [] := by
      rcases hM with rfl | ⟨rfl, hk⟩
      · rfl
      · simp [cmpD, hk]
    have h3 : (R.map (fun x => (x, ()))).filter (fun e => decide (cmpD st.segments k e.1 = .gt)) = [] := by
      rw [List.filter_eq_nil_iff]
      intro e he
      obtain ⟨x, hx, rfl⟩ := List.mem_map.1 he
      simp [cmpD, (hP.hi x hx).1]
    rw [List.filter_append, List.filter_append, h1, h2, h3]
    simp only [List.append_nil, List.getLast?_map, Option.map_map]
    exact Option.map_id'
  · rw [← h]
    simp [actKeys, SplaySet.prev, SplayTree.prev, toList_splay]

theorem nextKey_spec (hP : Placed st.segments k L R) (hM : Mid st.segments k M) (h : actKeys st.active = L ++ M ++ R) :
    ∃ a, st.nextKey k = some ({ st with active := a }, R.head?) ∧ actKeys a = L ++ M ++ R ∧ a.size = st.active.size := by
  refine ⟨(SplaySet.next (cmpD st.segments) st.active k).1, ?_, ?_, rfl⟩
  · unfold nextKey
    rw [if_pos (placed_comparable hP hM h)]
    simp only [SplaySet.next, Option.some.injEq, Prod.mk.injEq, true_and]
    rw [next_spec _ (placed_sep hP hM h), OrdMap.succ, entries_split h]
    have h1 : (L.map (fun x => (x, ()))).find? (fun e => decide (cmpD st.segments k e.1 = .lt)) = none := by
      rw [List.find?_eq_none]
      intro e he
      obtain ⟨x, hx, rfl⟩ := List.mem_map.1 he
      simp [cmpD, (hP.lo x hx).1]
    have h2 : (M.map (fun x => (x, ()))).find? (fun e => decide (cmpD st.segments k e.1 = .lt)) = none := by
      rcases hM with rfl | ⟨rfl, hk⟩
      · rfl
      · simp [cmpD, hk]
    rw [List.find?_append, List.find?_append, h1, h2]
    cases R with
    | nil => rfl
    | cons x R => simp [cmpD, (hP.hi x (by simp)).1]
  · rw [← h]
    simp [actKeys, SplaySet.next, SplayTree.next, toList_splay]

theorem addKey_spec (hk : (st.segments.get k).isSome) (hP : Placed st.segments k L R) (h : actKeys st.active = L ++ R) :
    ∃ a, st.addKey k = some { st with active := a } ∧ actKeys a = L ++ k :: R ∧ a.size = st.active.size + 1 := by
  have hM : Mid st.segments k [] := .inl rfl
  have h' : actKeys st.active = L ++ [] ++ R := by simp [h]
  have hsep := placed_sep hP hM h'
  obtain ⟨i1, i2, i3⟩ := insert_spec st.active () hsep
  have e := entries_split h'
  simp only [List.map_nil, List.append_nil] at e
  have hfind : OrdMap.find (cmpD st.segments) k st.active.root.toList = none := by
    unfold OrdMap.find
    rw [e, List.find?_eq_none]
    intro x hx
    rcases List.mem_append.1 hx with hx | hx
    · obtain ⟨y, hy, rfl⟩ := List.mem_map.1 hx
      simp [cmpD, (hP.lo y hy).1]
    · obtain ⟨y, hy, rfl⟩ := List.mem_map.1 hx
      simp [cmpD, (hP.hi y hy).1]
  refine ⟨(SplaySet.insert (cmpD st.segments) st.active k).1, ?_, ?_, ?_⟩
  · unfold addKey
    rw [if_pos ⟨hk, placed_comparable hP hM h'⟩]
    have hb : (SplaySet.insert (cmpD st.segments) st.active k).2 = true := by
      show ((SplayTree.insert (cmpD st.segments) st.active k ()).2).isNone = true
      rw [i1, hfind]; rfl
    exact if_pos hb
  · have : (SplaySet.insert (cmpD st.segments) st.active k).1.root.toList = _ := i2
    rw [actKeys, this, e]
    cases hR : R with
    | nil =>
      rw [hR] at hP
      -- everything stored is below
      have : ∀ L : List Nat, (∀ x ∈ L, cmpD st.segments k x = .gt) →
          OrdMap.insert (cmpD st.segments) k () (L.map (fun x => (x, ()))) = (L ++ [k]).map (fun x => (x, ())) := by
        intro L
        induction L with
        | nil => intro _; rfl
        | cons y L ih =>
          intro hL
          simp only [List.map_cons, OrdMap.insert, hL y (by simp), List.cons_append]
          rw [ih fun x hx => hL x (by simp [hx])]
      simp only [List.map_nil, List.append_nil]
      rw [this L fun x hx => by simp [cmpD, (hP.lo x hx).1], List.map_map]
      exact List.map_id _
    | cons y R' =>
      rw [hR] at hP
      have := insert_parts (cmp := cmpD st.segments) (key := k) (A := L.map (fun x => (x, ()))) (B := R'.map (fun x => (x, ())))
        (k := y) (v := ()) (val := ()) (by
          intro x hx
          obtain ⟨z, hz, rfl⟩ := List.mem_map.1 hx
          simp [cmpD, (hP.lo z hz).1]) (by
          intro x hx
          obtain ⟨z, hz, rfl⟩ := List.mem_map.1 hx
          simp [cmpD, (hP.hi z (by simp [hz])).1])
      rw [List.map_cons, this]
      have h9 : cmpD st.segments k y = .lt := by simp [cmpD, (hP.hi y (by simp)).1]
      rw [h9]
      simp [List.map_map, Function.comp_def]
  · have : (SplaySet.insert (cmpD st.segments) st.active k).1.size = _ := i3
    rw [this, hfind]
    rfl

theorem removeKey_spec (hP : Placed st.segments k L R) (hk : cmpKeys st.segments k k = some .eq)
    (h : actKeys st.active = L ++ k :: R) (hs : st.active.size = (L ++ k :: R).length) :
    ∃ a, st.removeKey k = some { st with active := a } ∧ actKeys a = L ++ R ∧ a.size = (L ++ R).length := by
  have hM : Mid st.segments k [k] := .inr ⟨rfl, hk⟩
  have h' : actKeys st.active = L ++ [k] ++ R := by simp [h]
  have hsep := placed_sep hP hM h'
  obtain ⟨s', i1, i2, i3⟩ := remove_spec st.active hsep (by
    rw [hs, ← h, actKeys, List.length_map])
  have e := entries_split h'
  simp only [List.map_cons, List.map_nil, List.append_assoc, List.cons_append, List.nil_append] at e
  have hL : ∀ x ∈ L.map (fun x => (x, ())), cmpD st.segments k x.1 = .gt := by
    intro x hx
    obtain ⟨z, hz, rfl⟩ := List.mem_map.1 hx
    simp [cmpD, (hP.lo z hz).1]
  have hR : ∀ x ∈ R.map (fun x => (x, ())), cmpD st.segments k x.1 = .lt := by
    intro x hx
    obtain ⟨z, hz, rfl⟩ := List.mem_map.1 hx
    simp [cmpD, (hP.hi z hz).1]
  have hkk : cmpD st.segments k k = .eq := by simp [cmpD, hk]
  rw [e, find_parts hL hR, hkk] at i1
  rw [e, erase_parts hL hR, hkk] at i2
  simp only [if_true] at i1 i2
  have hkeys : actKeys s' = L ++ R := by
    rw [actKeys, i2]; simp [List.map_map, Function.comp_def]
  refine ⟨s', ?_, hkeys, ?_⟩
  · have hin : (st.segments.get k).isSome := by
      unfold cmpKeys at hk
      cases hg : st.segments.get k with
      | none => rw [hg] at hk; exact absurd hk (by simp)
      | some s => rfl
    unfold removeKey
    rw [if_pos ⟨hin, placed_comparable hP hM h'⟩]
    simp only [SplaySet.remove]
    rw [i1]
    rfl
  · rw [i3, ← hkeys, actKeys, List.length_map]

end Sweep
end GeoCrossings

import Verif.Model.Sweep
import Mathlib.Data.List.Perm.Basic
import Mathlib.Data.List.Nodup
import Mathlib.Data.List.Perm.Subperm
import Mathlib.Data.List.NodupEquivFin
import Mathlib.Data.List.Range

/-!
# The slab of segments as a collection of groups

A group is an overlap chain: its common geometry, the keys and crossables of its members from the root on, and whether the left
event of the root was reported. `Rep slab gs` says that the slab holds exactly the groups `gs`.
-/
set_option linter.unusedSectionVars false
namespace GeoCrossings

/-- An overlap chain. -/
structure Grp (K C : Type) where
  geom : LineOrPoint K
  mem : List (Nat × C)
  done : Bool

variable {K C : Type}
variable {org : C → Pt K} {allow : Prop}

namespace Grp
def keys (g : Grp K C) : List Nat := g.mem.map (·.1)
def cs (g : Grp K C) : List C := g.mem.map (·.2)
def root (g : Grp K C) : Nat := (g.mem.head?.map (·.1)).getD 0
def p (g : Grp K C) : Pt K := g.geom.first
def q (g : Grp K C) : Pt K := g.geom.second
end Grp

/-- Bookkeeping of the slab: vacant keys are vacant. -/
structure Slab.Ok {α : Type} (s : Slab α) : Prop where
  free : ∀ k ∈ s.free, k < s.size ∧ s.cells k = none
  nodup : s.free.Nodup
  out : ∀ k, s.size ≤ k → s.cells k = none

/-- The keys of `l` are linked in this order, with the given geometry; `root` says whether the first is a root. `org` gives the first end
of an input, where a piece flagged as first starts. -/
def Linked (org : C → Pt K) (slab : Slab (Seg K C)) (geom : LineOrPoint K) : Bool → List (Nat × C) → Prop
  | _, [] => True
  | root, (k, c) :: l =>
    (∃ s, slab.get k = some s ∧ s.key = k ∧ s.crossable = c ∧ s.geom = geom ∧ s.isOverlapping = !root ∧
      s.overlapping = l.head?.map (·.1) ∧ (s.firstSegment = true → geom.first = org c)) ∧ Linked org slab geom false l

structure GrpOk (org : C → Pt K) (slab : Slab (Seg K C)) (g : Grp K C) : Prop where
  ne : g.mem ≠ []
  linked : Linked org slab g.geom true g.mem
  done : ∀ s, slab.get g.root = some s → s.leftEventDone = g.done

/-- The slab holds exactly the groups `gs`. -/
structure Rep (org : C → Pt K) (slab : Slab (Seg K C)) (gs : List (Grp K C)) : Prop where
  ok : slab.Ok
  grp : ∀ g ∈ gs, GrpOk org slab g
  nodup : (gs.flatMap Grp.keys).Nodup
  cover : ∀ k, slab.get k ≠ none → k ∈ gs.flatMap Grp.keys

theorem Linked.congr {slab slab' : Slab (Seg K C)} {geom : LineOrPoint K} {b : Bool} {l : List (Nat × C)}
    (h : Linked org slab geom b l) (e : ∀ k ∈ l.map (·.1), slab'.get k = slab.get k) : Linked org slab' geom b l := by
  induction l generalizing b with
  | nil => trivial
  | cons x l ih =>
    obtain ⟨k, c⟩ := x
    obtain ⟨⟨s, h1, h2⟩, h3⟩ := h
    exact ⟨⟨s, by rw [e k (by simp)]; exact h1, h2⟩, ih h3 fun k hk => e k (by simp at hk ⊢; exact .inr hk)⟩

theorem Linked.append_right {slab : Slab (Seg K C)} {geom : LineOrPoint K} {b : Bool} {l l' : List (Nat × C)}
    (h : Linked org slab geom b (l ++ l')) (hl : l ≠ []) : Linked org slab geom false l' := by
  induction l generalizing b with
  | nil => exact absurd rfl hl
  | cons x l ih =>
    obtain ⟨k, c⟩ := x
    by_cases h' : l = []
    · subst h'; exact h.2
    · exact ih h.2 h'

theorem Linked.get {slab : Slab (Seg K C)} {geom : LineOrPoint K} {b : Bool} {l : List (Nat × C)}
    (h : Linked org slab geom b l) {k : Nat} {c : C} (hk : (k, c) ∈ l) :
    ∃ s, slab.get k = some s ∧ s.key = k ∧ s.crossable = c ∧ s.geom = geom ∧
      (s.firstSegment = true → geom.first = org c) := by
  induction l generalizing b with
  | nil => simp at hk
  | cons x l ih =>
    obtain ⟨k', c'⟩ := x
    obtain ⟨⟨s, h1, h2, h3, h4, -, -, h6⟩, h5⟩ := h
    rcases List.mem_cons.1 hk with e | e
    · cases e; exact ⟨s, h1, h2, h3, h4, h6⟩
    · exact ih h5 e

theorem Linked.get_isSome {slab : Slab (Seg K C)} {geom : LineOrPoint K} {b : Bool} {l : List (Nat × C)}
    (h : Linked org slab geom b l) {k : Nat} (hk : k ∈ l.map (·.1)) : slab.get k ≠ none := by
  obtain ⟨⟨k', c⟩, h1, rfl⟩ := List.mem_map.1 hk
  obtain ⟨s, h2, -⟩ := h.get h1
  simp [h2]

/-- The last member of a chain points to none. -/
theorem Linked.last {slab : Slab (Seg K C)} {geom : LineOrPoint K} {b : Bool} {l : List (Nat × C)}
    (h : Linked org slab geom b l) {k : Nat} {c : C} (hk : l.getLast? = some (k, c)) : ∃ s, slab.get k = some s ∧ s.overlapping = none := by
  induction l generalizing b with
  | nil => simp at hk
  | cons x l ih =>
    obtain ⟨k', c'⟩ := x
    obtain ⟨⟨s, h1, -, -, -, -, h4, -⟩, h5⟩ := h
    cases l with
    | nil =>
      simp at hk
      obtain ⟨rfl, rfl⟩ := hk
      exact ⟨s, h1, h4⟩
    | cons y l => exact ih h5 (by simpa using hk)

/-- A member that is not the first of its chain is flagged as such. -/
theorem Linked.child {slab : Slab (Seg K C)} {geom : LineOrPoint K} {l : List (Nat × C)}
    (h : Linked org slab geom false l) {k : Nat} (hk : k ∈ l.map (·.1)) :
    ∃ s, slab.get k = some s ∧ s.isOverlapping = true := by
  induction l with
  | nil => simp at hk
  | cons x l ih =>
    obtain ⟨k', c'⟩ := x
    obtain ⟨⟨s, h1, -, -, -, h4, -⟩, h5⟩ := h
    rcases List.mem_cons.1 hk with e | e
    · simp at e; subst e; exact ⟨s, h1, by simpa using h4⟩
    · exact ih h5 e

theorem Grp.root_cons (g : Grp K C) {k : Nat} {c : C} {l} (h : g.mem = (k, c) :: l) : g.root = k := by
  simp [Grp.root, h]

theorem Grp.exists_cons {g : Grp K C} (h : g.mem ≠ []) : ∃ c l, g.mem = (g.root, c) :: l := by
  cases hm : g.mem with
  | nil => exact absurd hm h
  | cons x l => obtain ⟨k, c⟩ := x; exact ⟨c, l, by simp [Grp.root, hm]⟩

theorem Grp.root_mem {g : Grp K C} (h : g.mem ≠ []) : g.root ∈ g.keys := by
  obtain ⟨c, l, e⟩ := Grp.exists_cons h
  simp [Grp.keys, e]

section slab
variable {α : Type}

theorem Slab.get_put (s : Slab α) (k : Nat) (v : Option α) (i : Nat) :
    (s.put k v).get i = if i = k then v else s.get i := rfl

theorem Slab.vacant_none {s : Slab α} (h : s.Ok) : s.get s.vacantKey = none := by
  unfold Slab.vacantKey Slab.get
  cases hf : s.free with
  | nil => exact h.out _ le_rfl
  | cons k f => exact (h.free k (by simp [hf])).2

theorem Slab.get_insert (s : Slab α) (v : α) (i : Nat) :
    (s.insert v).get i = if i = s.vacantKey then some v else s.get i := by
  unfold Slab.insert Slab.vacantKey
  cases s.free <;> rfl

theorem Slab.Ok.insert {s : Slab α} (h : s.Ok) (v : α) : (s.insert v).Ok := by
  unfold Slab.insert
  cases hf : s.free with
  | nil =>
    refine ⟨by simp [Slab.put, hf], by simp [Slab.put, hf], ?_⟩
    intro k hk
    simp only [Slab.put] at hk ⊢
    rw [if_neg (by omega)]
    exact h.out k (by omega)
  | cons k f =>
    have hn := h.nodup
    rw [hf] at hn
    refine ⟨?_, ?_, ?_⟩
    · intro j hj
      have hj' := h.free j (by rw [hf]; exact List.mem_cons_of_mem _ hj)
      simp only [Slab.put]
      rw [if_neg (by rintro rfl; exact (List.nodup_cons.1 hn).1 hj)]
      exact hj'
    · exact (List.nodup_cons.1 hn).2
    · intro j hj
      have hk := (h.free k (by simp [hf])).1
      simp only [Slab.put] at hj ⊢
      rw [if_neg (by omega)]
      exact h.out j hj

theorem Slab.size_le_insert (s : Slab α) (v : α) : s.size ≤ (s.insert v).size := by
  unfold Slab.insert
  cases s.free <;> simp [Slab.put]

theorem Slab.lt_size {s : Slab α} (h : s.Ok) {k : Nat} (hk : s.get k ≠ none) : k < s.size := by
  by_contra hc
  exact hk (h.out k (by omega))

theorem Slab.modify_some {s : Slab α} {k : Nat} {v : α} (h : s.get k = some v) (f : α → α) :
    s.modify k f = some (s.put k (some (f v))) := by
  simp [Slab.modify, h]

theorem Slab.Ok.put {s : Slab α} (h : s.Ok) {k : Nat} (hk : s.get k ≠ none) (v : α) : (s.put k (some v)).Ok := by
  refine ⟨?_, h.nodup, ?_⟩
  · intro j hj
    have := h.free j hj
    refine ⟨this.1, ?_⟩
    simp only [Slab.put]
    rw [if_neg (by rintro rfl; exact hk this.2)]
    exact this.2
  · intro j hj
    have hlt := Slab.lt_size h hk
    simp only [Slab.put] at hj ⊢
    rw [if_neg (by omega)]
    exact h.out j hj

theorem Slab.Ok.remove {s : Slab α} (h : s.Ok) {k : Nat} (hk : s.get k ≠ none) :
    Slab.Ok { s.put k none with free := k :: s.free } := by
  refine ⟨?_, ?_, ?_⟩
  · intro j hj
    rcases List.mem_cons.1 hj with rfl | hj
    · exact ⟨Slab.lt_size h hk, by simp [Slab.put]⟩
    · have := h.free j hj
      refine ⟨this.1, ?_⟩
      simp only [Slab.put]
      rw [this.2]; simp
  · refine List.nodup_cons.2 ⟨fun hm => hk (h.free k hm).2, h.nodup⟩
  · intro j hj
    simp only [Slab.put] at hj ⊢
    rw [h.out j hj]; simp

end slab

theorem Rep.perm {slab : Slab (Seg K C)} {gs gs' : List (Grp K C)} (h : Rep org slab gs) (e : gs.Perm gs') : Rep org slab gs' :=
  ⟨h.ok, fun g hg => h.grp g (e.mem_iff.2 hg), (e.flatMap_right Grp.keys).nodup_iff.1 h.nodup,
    fun k hk => (e.flatMap_right Grp.keys).mem_iff.1 (h.cover k hk)⟩

theorem Rep.keys_nodup {slab : Slab (Seg K C)} {gs : List (Grp K C)} (h : Rep org slab gs) {g : Grp K C} (hg : g ∈ gs) :
    g.keys.Nodup := (List.nodup_flatMap.1 h.nodup).1 g hg

theorem Rep.length_le {slab : Slab (Seg K C)} {gs : List (Grp K C)} (h : Rep org slab gs) {g : Grp K C} (hg : g ∈ gs) :
    g.mem.length ≤ slab.size := by
  have h1 : ∀ k ∈ g.keys, k < slab.size := fun k hk => Slab.lt_size h.ok ((h.grp g hg).linked.get_isSome hk)
  have h2 : g.keys ⊆ List.range slab.size := fun k hk => List.mem_range.2 (h1 k hk)
  have := ((h.keys_nodup hg).subperm h2).length_le
  simpa [Grp.keys] using this

/-- Changing only the cells of one group. -/
theorem Rep.update {slab slab' : Slab (Seg K C)} {g g' : Grp K C} {gs : List (Grp K C)} (h : Rep org slab (g :: gs))
    (hok : slab'.Ok) (hg : GrpOk org slab' g') (hk : g'.keys = g.keys)
    (he : ∀ k, k ∉ g.keys → slab'.get k = slab.get k) : Rep org slab' (g' :: gs) := by
  have hd : List.Disjoint g.keys (gs.flatMap Grp.keys) := by
    have := h.nodup
    rw [List.flatMap_cons, List.nodup_append'] at this
    exact this.2.2
  refine ⟨hok, ?_, ?_, ?_⟩
  · intro x hx
    rcases List.mem_cons.1 hx with rfl | hx
    · exact hg
    · have hx' := h.grp x (List.mem_cons_of_mem _ hx)
      have hsub : ∀ k ∈ x.keys, slab'.get k = slab.get k := by
        intro k hk'
        refine he k fun hk'' => hd hk'' (List.mem_flatMap.2 ⟨x, hx, hk'⟩)
      refine ⟨hx'.ne, hx'.linked.congr hsub, ?_⟩
      intro s hs
      rw [hsub _ (Grp.root_mem hx'.ne)] at hs
      exact hx'.done s hs
  · have := h.nodup
    rw [List.flatMap_cons] at this ⊢
    rw [hk]; exact this
  · intro k hk'
    rw [List.flatMap_cons, hk, ← List.flatMap_cons (f := Grp.keys)]
    by_cases hkk : k ∈ g.keys
    · rw [List.flatMap_cons]; exact List.mem_append_left _ hkk
    · rw [he k hkk] at hk'
      exact h.cover k hk'

variable [Field K] [LinearOrder K]

theorem Rep.insert {slab : Slab (Seg K C)} {gs : List (Grp K C)} (h : Rep org slab gs) (lineOf : C → Line K) (c : C)
    (geom : Option (LineOrPoint K)) (ho : geom = none → (LineOrPoint.ofLine (lineOf c)).first = org c) :
    Rep org (Seg.new lineOf slab c geom).1
      (⟨geom.getD (.ofLine (lineOf c)), [((Seg.new lineOf slab c geom).2.key, c)], false⟩ :: gs) := by
  have hv := Slab.vacant_none h.ok
  have hfresh : slab.vacantKey ∉ gs.flatMap Grp.keys := by
    intro hm
    obtain ⟨g, hg, hk⟩ := List.mem_flatMap.1 hm
    exact (h.grp g hg).linked.get_isSome hk hv
  simp only [Seg.new]
  refine ⟨h.ok.insert _, ?_, ?_, ?_⟩
  · intro g hg
    rcases List.mem_cons.1 hg with rfl | hg
    · refine ⟨by simp, ⟨⟨_, by rw [Slab.get_insert, if_pos rfl], rfl, rfl, rfl, rfl, rfl, ?_⟩, trivial⟩, ?_⟩
      · intro hf
        have hn : geom = none := by simpa using hf
        subst hn
        exact ho rfl
      intro s hs
      simp only [Grp.root, List.head?_cons, Option.map_some, Option.getD_some] at hs
      rw [Slab.get_insert, if_pos rfl] at hs
      cases hs; rfl
    · have hx := h.grp g hg
      have hsub : ∀ k ∈ g.keys, (slab.insert
          { key := slab.vacantKey, crossable := c, geom := geom.getD (.ofLine (lineOf c)), firstSegment := geom.isNone,
            overlapping := none, isOverlapping := false, leftEventDone := false }).get k = slab.get k := by
        intro k hk
        rw [Slab.get_insert, if_neg]
        rintro rfl
        exact hfresh (List.mem_flatMap.2 ⟨g, hg, hk⟩)
      refine ⟨hx.ne, hx.linked.congr hsub, ?_⟩
      intro s hs
      rw [hsub _ (Grp.root_mem hx.ne)] at hs
      exact hx.done s hs
  · rw [List.flatMap_cons]
    simp only [Grp.keys, List.map_cons, List.map_nil, List.singleton_append, List.nodup_cons]
    exact ⟨hfresh, h.nodup⟩
  · intro k hk
    rw [Slab.get_insert] at hk
    rw [List.flatMap_cons]
    by_cases e : k = slab.vacantKey
    · subst e; simp [Grp.keys]
    · rw [if_neg e] at hk
      exact List.mem_append_right _ (h.cover k hk)

/-- Linking a list after another one, low level. -/
theorem Linked.link {slab : Slab (Seg K C)} {geom : LineOrPoint K} {b : Bool} {l1 : List (Nat × C)} {a : Nat} {ca : C}
    {t : Nat} {ct : C} {l2 : List (Nat × C)} (h1 : Linked org slab geom b (l1 ++ [(a, ca)]))
    (h2 : Linked org slab geom true ((t, ct) :: l2)) (hn : ((l1 ++ [(a, ca)]).map (·.1) ++ ((t, ct) :: l2).map (·.1)).Nodup)
    {sa st : Seg K C} (ha : slab.get a = some sa) (ht : slab.get t = some st) :
    Linked org ((slab.put a (some { sa with overlapping := some t })).put t (some { st with isOverlapping := true })) geom b
      (l1 ++ [(a, ca)] ++ (t, ct) :: l2) := by
  have hat : a ≠ t := by
    rintro rfl
    rw [List.nodup_append'] at hn
    exact hn.2.2 (show a ∈ _ by simp) (by simp)
  induction l1 generalizing b with
  | nil =>
    obtain ⟨⟨s, e1, e2, e3, e4, e5, e6⟩, -⟩ := h1
    obtain ⟨⟨s', f1, f2, f3, f4, f5, f6⟩, f7⟩ := h2
    rw [ha] at e1; cases e1
    rw [ht] at f1; cases f1
    refine ⟨⟨{ sa with overlapping := some t }, ?_, e2, e3, e4, e5, rfl, e6.2⟩,
      ⟨{ st with isOverlapping := true }, ?_, f2, f3, f4, rfl, f6⟩, ?_⟩
    · rw [Slab.get_put, if_neg hat, Slab.get_put, if_pos rfl]
    · rw [Slab.get_put, if_pos rfl]
    · refine f7.congr fun k hk => ?_
      simp only [List.nil_append, List.map_cons, List.map_nil, List.singleton_append, List.nodup_cons] at hn
      have hka : k ≠ a := by
        rintro rfl; exact hn.1 (List.mem_cons_of_mem _ hk)
      have hkt : k ≠ t := by
        rintro rfl; exact hn.2.1 hk
      rw [Slab.get_put, if_neg hkt, Slab.get_put, if_neg hka]
  | cons x l1 ih =>
    obtain ⟨k, c⟩ := x
    obtain ⟨⟨s, e1, e2, e3, e4, e5, e6⟩, e7⟩ := h1
    rw [List.cons_append, List.map_cons, List.cons_append, List.nodup_cons] at hn
    have hka : k ≠ a := by
      rintro rfl; exact hn.1 (List.mem_append_left _ (by simp))
    have hkt : k ≠ t := by
      rintro rfl; exact hn.1 (List.mem_append_right _ (by simp))
    refine ⟨⟨s, ?_, e2, e3, e4, e5, ?_⟩, ih e7 hn.2⟩
    · rw [Slab.get_put, if_neg hkt, Slab.get_put, if_neg hka]; exact e1
    · refine ⟨?_, e6.2⟩
      rw [e6.1]; cases l1 <;> rfl

/-- Chaining one group after another. -/
theorem Rep.link {slab : Slab (Seg K C)} {g1 g2 : Grp K C} {gs : List (Grp K C)} (h : Rep org slab (g1 :: g2 :: gs))
    (hgeom : g1.geom = g2.geom) {l1 : List (Nat × C)} {a : Nat} {ca : C} (hl : g1.mem = l1 ++ [(a, ca)]) :
    ∃ sa st, slab.get a = some sa ∧ slab.get g2.root = some st ∧ a ≠ g2.root ∧
      Rep org ((slab.put a (some { sa with overlapping := some g2.root })).put g2.root (some { st with isOverlapping := true }))
        (⟨g1.geom, g1.mem ++ g2.mem, g1.done⟩ :: gs) := by
  have hg1 := h.grp g1 (by simp)
  have hg2 := h.grp g2 (by simp)
  obtain ⟨ct, l2, e2⟩ := Grp.exists_cons hg2.ne
  have k1 := hg1.linked
  rw [hl] at k1
  have k2 := hg2.linked
  rw [e2, ← hgeom] at k2
  obtain ⟨sa, ha, -⟩ := k1.get (k := a) (c := ca) (by simp)
  obtain ⟨⟨st, ht, hst⟩, -⟩ := k2
  have hn := h.nodup
  rw [List.flatMap_cons, List.flatMap_cons, ← List.append_assoc] at hn
  have hn1 := (List.nodup_append'.1 hn).1
  have hn2 := (List.nodup_append'.1 hn).2.2
  have hn1' := hn1
  simp only [Grp.keys, hl, e2] at hn1'
  have hat : a ≠ g2.root := by
    intro e
    rw [List.nodup_append'] at hn1'
    exact hn1'.2.2 (show a ∈ _ by simp) (by simp [← e])
  refine ⟨sa, st, ha, ht, hat, ?_⟩
  have k2' : Linked org slab g1.geom true ((g2.root, ct) :: l2) := by
    have := hg2.linked
    rwa [e2, ← hgeom] at this
  have hlink := Linked.link k1 k2' hn1' ha ht
  rw [← hl, ← e2] at hlink
  have ok1 : (slab.put a (some { sa with overlapping := some g2.root })).Ok := h.ok.put (by simp [ha]) _
  have ok2 : ((slab.put a (some { sa with overlapping := some g2.root })).put g2.root
      (some { st with isOverlapping := true })).Ok := ok1.put (by rw [Slab.get_put, if_neg (Ne.symm hat)]; simp [ht]) _
  refine ⟨ok2, ?_, ?_, ?_⟩
  · intro x hx
    rcases List.mem_cons.1 hx with rfl | hx
    · refine ⟨by simp [hg1.ne], hlink, ?_⟩
      have hroot : (⟨g1.geom, g1.mem ++ g2.mem, g1.done⟩ : Grp K C).root = g1.root := by
        obtain ⟨c, l, e⟩ := Grp.exists_cons hg1.ne
        exact Grp.root_cons _ (c := c) (l := l ++ g2.mem) (by show g1.mem ++ g2.mem = _; rw [e]; rfl)
      rw [hroot]
      intro s hs
      have hne : g1.root ≠ g2.root := by
        intro e
        exact (List.nodup_append'.1 hn1).2.2 (Grp.root_mem hg1.ne) (e ▸ Grp.root_mem hg2.ne)
      rw [Slab.get_put, if_neg hne, Slab.get_put] at hs
      by_cases e : g1.root = a
      · rw [if_pos e] at hs
        cases hs
        exact hg1.done sa (by rw [e]; exact ha)
      · rw [if_neg e] at hs
        exact hg1.done s hs
    · have hx' := h.grp x (by simp [hx])
      have hsub : ∀ k ∈ x.keys, ((slab.put a (some { sa with overlapping := some g2.root })).put g2.root
          (some { st with isOverlapping := true })).get k = slab.get k := by
        intro k hk
        have hm : k ∈ gs.flatMap Grp.keys := List.mem_flatMap.2 ⟨x, hx, hk⟩
        rw [Slab.get_put, if_neg, Slab.get_put, if_neg]
        · rintro rfl
          exact hn2 (List.mem_append_left _ (by simp [Grp.keys, hl])) hm
        · rintro rfl
          exact hn2 (List.mem_append_right _ (Grp.root_mem hg2.ne)) hm
      refine ⟨hx'.ne, hx'.linked.congr hsub, ?_⟩
      intro s hs
      rw [hsub _ (Grp.root_mem hx'.ne)] at hs
      exact hx'.done s hs
  · rw [List.flatMap_cons]
    simpa [Grp.keys] using hn
  · intro k hk
    have : slab.get k ≠ none := by
      rw [Slab.get_put] at hk
      by_cases e : k = g2.root
      · rw [e, ht]; simp
      · rw [if_neg e, Slab.get_put] at hk
        by_cases e' : k = a
        · rw [e', ha]; simp
        · rwa [if_neg e'] at hk
    have := h.cover k this
    simpa [Grp.keys] using this

/-! ## Loops over a chain -/

theorem getLast_split {α : Type} {l : List α} (h : l ≠ []) : ∃ l1 x, l = l1 ++ [x] :=
  ⟨l.dropLast, l.getLast h, (List.dropLast_append_getLast h).symm⟩

open Sweep in
theorem copyChain_spec (lineOf : C → Line K) (geom : LineOrPoint K) (l : List (Nat × C)) :
    ∀ (fuel : Nat) (slab : Slab (Seg K C)) (G : Grp K C) (gs : List (Grp K C)) (init : List (Nat × C)) (target : Nat) (ct : C),
    Rep org slab (G :: gs) → G.geom = geom → G.mem = init ++ [(target, ct)] →
    (∃ g0 ∈ gs, ∃ pre, pre ≠ [] ∧ g0.mem = pre ++ l) → l.length ≤ fuel →
    ∃ slab' l', copyChain lineOf geom fuel slab (l.head?.map (·.1)) target = some slab' ∧
      Rep org slab' (⟨geom, G.mem ++ l', G.done⟩ :: gs) ∧ l'.map (·.2) = l.map (·.2) := by
  induction l with
  | nil =>
    intro fuel slab G gs init target ct hR hg hm _ _
    refine ⟨slab, [], by simp [copyChain], ?_, rfl⟩
    have : (⟨geom, G.mem ++ [], G.done⟩ : Grp K C) = G := by cases G; simp_all
    rwa [this]
  | cons x l ih =>
    obtain ⟨k, c⟩ := x
    intro fuel slab G gs init target ct hR hg hm ⟨g0, hg0, pre, hpre, e0⟩ hf
    obtain ⟨fuel, rfl⟩ : ∃ f, fuel = f + 1 := ⟨fuel - 1, by simp at hf; omega⟩
    have h0 := (hR.grp g0 (by simp [hg0])).linked
    rw [e0] at h0
    obtain ⟨⟨cs, c1, c2, c3, c4, c5, c6⟩, -⟩ := h0.append_right hpre
    have hR1 := (hR.insert lineOf c (some geom) (by simp))
    have hR1' : Rep org (Seg.new lineOf slab c (some geom)).1
        (G :: ⟨geom, [((Seg.new lineOf slab c (some geom)).2.key, c)], false⟩ :: gs) := hR1.perm (List.Perm.swap _ _ _)
    obtain ⟨sa, st, ha, ht, hne, hR2⟩ := hR1'.link (l1 := init) (a := target) (ca := ct) (by exact hg) hm
    simp only [Grp.root, List.head?_cons, Option.map_some, Option.getD_some] at ht hne hR2
    have hmod1 := Slab.modify_some ha fun s => { s with overlapping := some (Seg.new lineOf slab c (some geom)).2.key }
    have hmod2 := Slab.modify_some (s := (Seg.new lineOf slab c (some geom)).1.put target
      (some { sa with overlapping := some (Seg.new lineOf slab c (some geom)).2.key }))
      (k := (Seg.new lineOf slab c (some geom)).2.key) (v := st)
      (by rw [Slab.get_put, if_neg (Ne.symm hne)]; exact ht) fun s => { s with isOverlapping := true }
    obtain ⟨slab', l', i1, i2, i3⟩ := ih fuel _ _ gs G.mem _ c hR2 hg rfl
      ⟨g0, hg0, pre ++ [(k, c)], by simp, by simp [e0]⟩ (by simp at hf; omega)
    refine ⟨slab', ((Seg.new lineOf slab c (some geom)).2.key, c) :: l', ?_, ?_, ?_⟩
    · simp only [copyChain, List.head?_cons, Option.map_some, c1, Option.bind_eq_bind, Option.bind_some, c3, hmod1, hmod2]
      rw [c6.1]
      exact i1
    · simpa using i2
    · simp [i3]

open Sweep in
theorem setChain_spec (geom geom0 : LineOrPoint K) (hgg : geom.first = geom0.first) (l : List (Nat × C)) :
    ∀ (fuel : Nat) (slab : Slab (Seg K C)) (b : Bool), slab.Ok → Linked org slab geom0 b l → (l.map (·.1)).Nodup → l.length ≤ fuel →
    ∃ slab', setChain geom fuel slab (l.head?.map (·.1)) = some slab' ∧ slab'.Ok ∧ Linked org slab' geom b l ∧
      (∀ k, k ∉ l.map (·.1) → slab'.get k = slab.get k) ∧ slab'.size = slab.size := by
  induction l with
  | nil => intro fuel slab b hok _ _ _; exact ⟨slab, by simp [setChain], hok, trivial, fun _ _ => rfl, rfl⟩
  | cons x l ih =>
    obtain ⟨k, c⟩ := x
    intro fuel slab b hok ⟨⟨s, e1, e2, e3, e4, e5, e6⟩, e7⟩ hn hf
    obtain ⟨fuel, rfl⟩ : ∃ f, fuel = f + 1 := ⟨fuel - 1, by simp at hf; omega⟩
    simp only [List.map_cons, List.nodup_cons] at hn
    have hmod := Slab.modify_some e1 fun s => { s with geom := geom }
    have hok' := hok.put (k := k) (by simp [e1]) { s with geom := geom }
    obtain ⟨slab', i1, i2, i3, i4, i5⟩ := ih fuel (slab.put k (some { s with geom := geom })) false hok'
      (e7.congr fun j hj => by rw [Slab.get_put, if_neg (by rintro rfl; exact hn.1 hj)]) hn.2 (by simp at hf; omega)
    refine ⟨slab', ?_, i2, ⟨⟨{ s with geom := geom }, ?_, e2, e3, rfl, e5, e6.1, fun hf => hgg.trans (e6.2 hf)⟩, i3⟩, ?_, by rw [i5]; rfl⟩
    · simp only [setChain, List.head?_cons, Option.map_some, e1, Option.bind_eq_bind, Option.bind_some, hmod]
      rw [← e6.1] at i1; exact i1
    · rw [i4 k hn.1, Slab.get_put, if_pos rfl]
    · intro j hj
      simp only [List.map_cons, List.mem_cons, not_or] at hj
      rw [i4 j hj.2, Slab.get_put, if_neg hj.1]

open Sweep in
theorem chainEnd_spec (geom : LineOrPoint K) (l : List (Nat × C)) :
    ∀ (fuel : Nat) (slab : Slab (Seg K C)) (b : Bool) (k : Nat) (c : C), Linked org slab geom b ((k, c) :: l) → l.length < fuel →
    ∃ l1 a ca, (k, c) :: l = l1 ++ [(a, ca)] ∧ chainEnd slab fuel k = some a := by
  induction l with
  | nil =>
    intro fuel slab b k c ⟨⟨s, e1, e2, e3, e4, e5, e6⟩, _⟩ hf
    obtain ⟨fuel, rfl⟩ : ∃ f, fuel = f + 1 := ⟨fuel - 1, by simp at hf; omega⟩
    exact ⟨[], k, c, rfl, by simp [chainEnd, e1, e6]⟩
  | cons x l ih =>
    obtain ⟨k', c'⟩ := x
    intro fuel slab b k c ⟨⟨s, e1, e2, e3, e4, e5, e6⟩, e7⟩ hf
    obtain ⟨fuel, rfl⟩ : ∃ f, fuel = f + 1 := ⟨fuel - 1, by simp at hf; omega⟩
    obtain ⟨l1, a, ca, h1, h2⟩ := ih fuel slab false k' c' e7 (by simp at hf; omega)
    exact ⟨(k, c) :: l1, a, ca, by simp [h1], by simp [chainEnd, e1, e6, h2]⟩

open Sweep in
theorem emitLeft_spec (geom : LineOrPoint K) (l : List (Nat × C)) :
    ∀ (fuel : Nat) (slab : Slab (Seg K C)) (b : Bool), slab.Ok → Linked org slab geom b l → (l.map (·.1)).Nodup → l.length ≤ fuel →
    ∃ slab' out, emitLeft fuel slab (l.head?.map (·.1)) = some (slab', out) ∧ slab'.Ok ∧ Linked org slab' geom b l ∧
      (∀ k, k ∉ l.map (·.1) → slab'.get k = slab.get k) ∧
      (∀ k ∈ l.map (·.1), ∀ s, slab'.get k = some s → s.leftEventDone = true) ∧
      out.map (fun o => some o.1) = l.map (fun m => slab.get m.1) ∧ (∀ o ∈ out, o.2 = .lineLeft) ∧ slab'.size = slab.size := by
  induction l with
  | nil => intro fuel slab b hok _ _ _; exact ⟨slab, [], by simp [emitLeft], hok, trivial, by simp⟩
  | cons x l ih =>
    obtain ⟨k, c⟩ := x
    intro fuel slab b hok ⟨⟨s, e1, e2, e3, e4, e5, e6⟩, e7⟩ hn hf
    obtain ⟨fuel, rfl⟩ : ∃ f, fuel = f + 1 := ⟨fuel - 1, by simp at hf; omega⟩
    simp only [List.map_cons, List.nodup_cons] at hn
    have hmod := Slab.modify_some e1 fun s => { s with leftEventDone := true }
    have hok' := hok.put (k := k) (by simp [e1]) { s with leftEventDone := true }
    have hsub : ∀ j ∈ l.map (·.1), (slab.put k (some { s with leftEventDone := true })).get j = slab.get j :=
      fun j hj => by rw [Slab.get_put, if_neg (by rintro rfl; exact hn.1 hj)]
    obtain ⟨slab', out, i1, i2, i3, i4, i5, i6, i7, i8⟩ := ih fuel (slab.put k (some { s with leftEventDone := true })) false hok'
      (e7.congr hsub) hn.2 (by simp at hf; omega)
    refine ⟨slab', (s, .lineLeft) :: out, ?_, i2, ⟨⟨{ s with leftEventDone := true }, ?_, e2, e3, e4, e5, e6⟩, i3⟩, ?_, ?_, ?_, ?_, by rw [i8]; rfl⟩
    · simp only [emitLeft, List.head?_cons, Option.map_some, e1, Option.bind_eq_bind, Option.bind_some, hmod]
      rw [← e6.1] at i1; rw [i1]; rfl
    · rw [i4 k hn.1, Slab.get_put, if_pos rfl]
    · intro j hj
      simp only [List.map_cons, List.mem_cons, not_or] at hj
      rw [i4 j hj.2, Slab.get_put, if_neg hj.1]
    · intro j hj t ht
      simp only [List.map_cons, List.mem_cons] at hj
      rcases hj with rfl | hj
      · rw [i4 j hn.1, Slab.get_put, if_pos rfl] at ht
        cases ht; rfl
      · exact i5 j hj t ht
    · rw [List.map_cons, List.map_cons, i6, e1]
      congr 1
      refine List.map_congr_left fun m hm => hsub m.1 (List.mem_map.2 ⟨m, hm, rfl⟩)
    · intro o ho
      rcases List.mem_cons.1 ho with rfl | ho
      · rfl
      · exact i7 o ho

open Sweep in
theorem emitRight_spec (geom : LineOrPoint K) (l : List (Nat × C)) :
    ∀ (fuel : Nat) (slab : Slab (Seg K C)) (b : Bool), slab.Ok → Linked org slab geom b l → (l.map (·.1)).Nodup → l.length ≤ fuel →
    ∃ slab' out, emitRight fuel slab (l.head?.map (·.1)) = some (slab', out) ∧ slab'.Ok ∧
      (∀ k, k ∉ l.map (·.1) → slab'.get k = slab.get k) ∧ (∀ k ∈ l.map (·.1), slab'.get k = none) ∧
      out.map (fun o => some o.1) = l.map (fun m => slab.get m.1) ∧ (∀ o ∈ out, o.2 = .lineRight) ∧ slab'.size = slab.size := by
  induction l with
  | nil => intro fuel slab b hok _ _ _; exact ⟨slab, [], by simp [emitRight], hok, by simp⟩
  | cons x l ih =>
    obtain ⟨k, c⟩ := x
    intro fuel slab b hok ⟨⟨s, e1, e2, e3, e4, e5, e6⟩, e7⟩ hn hf
    obtain ⟨fuel, rfl⟩ : ∃ f, fuel = f + 1 := ⟨fuel - 1, by simp at hf; omega⟩
    simp only [List.map_cons, List.nodup_cons] at hn
    have hrem : slab.remove k = some { slab.put k none with free := k :: slab.free } := by simp [Slab.remove, e1]
    have hok' := hok.remove (k := k) (by simp [e1])
    have hget : ∀ j, Slab.get { slab.put k none with free := k :: slab.free } j = if j = k then none else slab.get j := fun j => rfl
    have hsub : ∀ j ∈ l.map (·.1), Slab.get { slab.put k none with free := k :: slab.free } j = slab.get j :=
      fun j hj => by rw [hget, if_neg (by rintro rfl; exact hn.1 hj)]
    obtain ⟨slab', out, i1, i2, i3, i4, i5, i6, i7⟩ := ih fuel _ false hok' (e7.congr hsub) hn.2 (by simp at hf; omega)
    refine ⟨slab', (s, .lineRight) :: out, ?_, i2, ?_, ?_, ?_, ?_, by rw [i7]; rfl⟩
    · simp only [emitRight, List.head?_cons, Option.map_some, e1, Option.bind_eq_bind, Option.bind_some, hrem]
      rw [← e6.1] at i1; rw [i1]; rfl
    · intro j hj
      simp only [List.map_cons, List.mem_cons, not_or] at hj
      rw [i3 j hj.2, hget, if_neg hj.1]
    · intro j hj
      simp only [List.map_cons, List.mem_cons] at hj
      rcases hj with rfl | hj
      · rw [i3 j hn.1, hget, if_pos rfl]
      · exact i4 j hj
    · rw [List.map_cons, List.map_cons, i5, e1]
      congr 1
      refine List.map_congr_left fun m hm => hsub m.1 (List.mem_map.2 ⟨m, hm, rfl⟩)
    · intro o ho
      rcases List.mem_cons.1 ho with rfl | ho
      · rfl
      · exact i6 o ho

end GeoCrossings

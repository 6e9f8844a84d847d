import Verif.Lemmas.SafeSplay
import Verif.Lemmas.SweepRep

/-!
# The overlap chains of the slab, in any arithmetic

`Chains slab gs` says that the slab holds exactly the segments of the chains `gs`, linked in that order, and that exactly the first one of each is
not flagged as overlapping. Nothing is said about geometry.
-/
set_option linter.unusedSectionVars false
namespace GeoCrossings

variable {K C : Type} [LinearOrder K]

/-- The part of a segment that concerns chains. -/
def Seg.core (s : Seg K C) : Nat × Bool × Option Nat := (s.key, s.isOverlapping, s.overlapping)

def Lk (slab : Slab (Seg K C)) : Bool → List Nat → Prop
  | _, [] => True
  | root, k :: l => (∃ s, slab.get k = some s ∧ s.key = k ∧ s.isOverlapping = !root ∧ s.overlapping = l.head?) ∧ Lk slab false l

structure Chains (slab : Slab (Seg K C)) (gs : List (List Nat)) : Prop where
  ok : slab.Ok
  ne : ∀ g ∈ gs, g ≠ []
  lk : ∀ g ∈ gs, Lk slab true g
  nodup : gs.flatten.Nodup
  cover : ∀ k, slab.get k ≠ none → k ∈ gs.flatten

/-- The slabs agree on the chains. -/
structure SameChains (slab slab' : Slab (Seg K C)) : Prop where
  ok : slab'.Ok
  core : ∀ k, (slab'.get k).map Seg.core = (slab.get k).map Seg.core
  size : slab'.size = slab.size

theorem Lk.congr {slab slab' : Slab (Seg K C)} {l : List Nat} {b : Bool} (h : Lk slab b l)
    (he : ∀ k ∈ l, (slab'.get k).map Seg.core = (slab.get k).map Seg.core) : Lk slab' b l := by
  induction l generalizing b with
  | nil => trivial
  | cons k l ih =>
    obtain ⟨⟨s, h1, h2, h3, h4⟩, h5⟩ := h
    refine ⟨?_, ih h5 fun j hj => he j (List.mem_cons_of_mem _ hj)⟩
    have := he k List.mem_cons_self
    rw [h1] at this
    cases hs : slab'.get k with
    | none => rw [hs] at this; simp at this
    | some s' =>
      rw [hs] at this
      simp only [Option.map_some, Option.some.injEq, Seg.core, Prod.mk.injEq] at this
      exact ⟨s', rfl, by rw [this.1, h2], by rw [this.2.1, h3], by rw [this.2.2, h4]⟩

theorem Lk.live {slab : Slab (Seg K C)} {l : List Nat} {b : Bool} (h : Lk slab b l) {k : Nat} (hk : k ∈ l) :
    ∃ s, slab.get k = some s ∧ s.key = k := by
  induction l generalizing b with
  | nil => cases hk
  | cons j l ih =>
    obtain ⟨⟨s, h1, h2, -⟩, h5⟩ := h
    rcases List.mem_cons.1 hk with rfl | hk
    · exact ⟨s, h1, h2⟩
    · exact ih h5 hk

/-- The rest of a chain from one of its members on. -/
theorem Lk.suffix {slab : Slab (Seg K C)} {l l' : List Nat} {b : Bool} (h : Lk slab b (l' ++ l)) : ∃ b', Lk slab b' l := by
  induction l' generalizing b with
  | nil => exact ⟨b, h⟩
  | cons j l' ih => exact ih h.2

theorem SameChains.refl {slab : Slab (Seg K C)} (h : slab.Ok) : SameChains slab slab := ⟨h, fun _ => rfl, rfl⟩

theorem SameChains.trans {a b c : Slab (Seg K C)} (h : SameChains a b) (h' : SameChains b c) : SameChains a c :=
  ⟨h'.ok, fun k => (h'.core k).trans (h.core k), h'.size.trans h.size⟩

theorem SameChains.live {a b : Slab (Seg K C)} (h : SameChains a b) {k : Nat} (hk : a.get k ≠ none) : b.get k ≠ none := by
  have := h.core k
  intro hc
  rw [hc] at this
  cases ha : a.get k with
  | none => exact hk ha
  | some x => rw [ha] at this; simp at this

theorem SameChains.put {slab : Slab (Seg K C)} (h : slab.Ok) {k : Nat} {s v : Seg K C} (hs : slab.get k = some s) (hv : v.core = s.core) :
    SameChains slab (slab.put k (some v)) := by
  refine ⟨h.put (by rw [hs]; simp) v, fun j => ?_, rfl⟩
  rw [Slab.get_put]
  split
  · next e => rw [e, hs]; simp [hv]
  · rfl

theorem Chains.same {slab slab' : Slab (Seg K C)} {gs : List (List Nat)} (h : Chains slab gs) (hs : SameChains slab slab') : Chains slab' gs := by
  refine ⟨hs.ok, h.ne, fun g hg => (h.lk g hg).congr fun k _ => hs.core k, h.nodup, fun k hk => h.cover k fun hc => hk ?_⟩
  have := hs.core k
  rw [hc] at this
  simpa using this

theorem Chains.perm {slab : Slab (Seg K C)} {gs gs' : List (List Nat)} (h : Chains slab gs) (hp : gs.Perm gs') : Chains slab gs' :=
  ⟨h.ok, fun g hg => h.ne g (hp.mem_iff.2 hg), fun g hg => h.lk g (hp.mem_iff.2 hg), hp.flatten.nodup_iff.1 h.nodup,
    fun k hk => hp.flatten.mem_iff.1 (h.cover k hk)⟩

theorem Chains.live {slab : Slab (Seg K C)} {gs : List (List Nat)} (h : Chains slab gs) {g : List Nat} (hg : g ∈ gs) {k : Nat} (hk : k ∈ g) :
    ∃ s, slab.get k = some s ∧ s.key = k := (h.lk g hg).live hk

/-- Two chains with a common member are the same. -/
theorem Chains.uniq {slab : Slab (Seg K C)} {gs : List (List Nat)} (h : Chains slab gs) {g g' : List Nat} (hg : g ∈ gs) (hg' : g' ∈ gs)
    {k : Nat} (hk : k ∈ g) (hk' : k ∈ g') : g = g' := by
  have hn := (List.nodup_flatten.1 h.nodup).2
  by_contra hne
  obtain ⟨i, hi, rfl⟩ := List.getElem_of_mem hg
  obtain ⟨j, hj, rfl⟩ := List.getElem_of_mem hg'
  rw [List.pairwise_iff_getElem] at hn
  rcases Nat.lt_trichotomy i j with hl | rfl | hl
  · exact hn i j hi hj hl hk hk'
  · exact hne rfl
  · exact hn j i hj hi hl hk' hk

theorem Chains.group_nodup {slab : Slab (Seg K C)} {gs : List (List Nat)} (h : Chains slab gs) {g : List Nat} (hg : g ∈ gs) : g.Nodup :=
  (List.nodup_flatten.1 h.nodup).1 g hg

theorem Chains.mem_of_live {slab : Slab (Seg K C)} {gs : List (List Nat)} (h : Chains slab gs) {k : Nat} (hk : slab.get k ≠ none) :
    ∃ l' l, l' ++ k :: l ∈ gs := by
  obtain ⟨g, hg, hk⟩ := List.mem_flatten.1 (h.cover k hk)
  obtain ⟨l', l, rfl⟩ := List.append_of_mem hk
  exact ⟨l', l, hg⟩

theorem length_le_of_lt {l : List Nat} {n : Nat} (h : l.Nodup) (hl : ∀ k ∈ l, k < n) : l.length ≤ n := by
  have : l.Subperm (List.range n) := List.subperm_of_subset h fun k hk => List.mem_range.2 (hl k hk)
  simpa using this.length_le

theorem Chains.length_le {slab : Slab (Seg K C)} {gs : List (List Nat)} (h : Chains slab gs) {g : List Nat} (hg : g ∈ gs) :
    g.length ≤ slab.size := by
  refine length_le_of_lt (h.group_nodup hg) fun k hk => Slab.lt_size h.ok ?_
  obtain ⟨s, hs, -⟩ := h.live hg hk
  rw [hs]; simp

/-! ## Insertion and linking -/

theorem Chains.insert {slab : Slab (Seg K C)} {gs : List (List Nat)} (h : Chains slab gs) {s : Seg K C} (h1 : s.key = slab.vacantKey)
    (h2 : s.isOverlapping = false) (h3 : s.overlapping = none) : Chains (slab.insert s) ([slab.vacantKey] :: gs) := by
  have hv := Slab.vacant_none h.ok
  have hnot : slab.vacantKey ∉ gs.flatten := by
    intro hm
    obtain ⟨g, hg, hk⟩ := List.mem_flatten.1 hm
    obtain ⟨s', hs', -⟩ := h.live hg hk
    rw [hv] at hs'; cases hs'
  refine ⟨h.ok.insert s, ?_, ?_, ?_, ?_⟩
  · intro g hg
    rcases List.mem_cons.1 hg with rfl | hg
    · simp
    · exact h.ne g hg
  · intro g hg
    rcases List.mem_cons.1 hg with rfl | hg
    · refine ⟨⟨s, by rw [Slab.get_insert, if_pos rfl], h1, by simp [h2], by simp [h3]⟩, trivial⟩
    · refine (h.lk g hg).congr fun k hk => ?_
      rw [Slab.get_insert, if_neg]
      rintro rfl
      exact hnot (List.mem_flatten.2 ⟨g, hg, hk⟩)
  · simp only [List.flatten_cons, List.singleton_append, List.nodup_cons]
    exact ⟨hnot, h.nodup⟩
  · intro k hk
    simp only [List.flatten_cons, List.singleton_append, List.mem_cons]
    rw [Slab.get_insert] at hk
    split at hk
    · next e => exact .inl e
    · exact .inr (h.cover k hk)

theorem Lk.link {slab slab' : Slab (Seg K C)} {x l2 : List Nat} {e t : Nat} {b : Bool} (h1 : Lk slab b (x ++ [e])) (h2 : Lk slab true (t :: l2))
    (hn : (x ++ e :: t :: l2).Nodup)
    (he : ∀ s, slab.get e = some s → slab'.get e = some { s with overlapping := some t })
    (ht : ∀ s, slab.get t = some s → slab'.get t = some { s with isOverlapping := true })
    (ho : ∀ j, j ≠ e → j ≠ t → slab'.get j = slab.get j) : Lk slab' b (x ++ e :: t :: l2) := by
  induction x generalizing b with
  | nil =>
    obtain ⟨⟨s, a1, a2, a3, a4⟩, -⟩ := h1
    obtain ⟨⟨s', b1, b2, b3, b4⟩, b5⟩ := h2
    simp only [List.nil_append, List.nodup_cons, List.mem_cons, not_or] at hn
    refine ⟨⟨_, he s a1, a2, a3, rfl⟩, ⟨_, ht s' b1, b2, rfl, b4⟩, b5.congr fun k hk => ?_⟩
    rw [ho k (by rintro rfl; exact hn.1.2 hk) (by rintro rfl; exact hn.2.1 hk)]
  | cons y x ih =>
    obtain ⟨⟨s, a1, a2, a3, a4⟩, a5⟩ := h1
    simp only [List.cons_append, List.nodup_cons, List.mem_append, List.mem_cons, not_or] at hn
    refine ⟨⟨s, ?_, a2, a3, ?_⟩, ih a5 hn.2⟩
    · rw [ho y hn.1.2.1 hn.1.2.2.1, a1]
    · rw [a4]; cases x <;> rfl

/-- Putting the chain `t :: l2` behind the chain that ends with `e`. -/
theorem Chains.link {slab : Slab (Seg K C)} {x l2 : List Nat} {e t : Nat} {gs : List (List Nat)} {se s' : Seg K C}
    (h : Chains slab ((x ++ [e]) :: (t :: l2) :: gs)) (he : slab.get e = some se) (ht : slab.get t = some s') :
    Chains ((slab.put e (some { se with overlapping := some t })).put t (some { s' with isOverlapping := true }))
      ((x ++ e :: t :: l2) :: gs) := by
  have hne : t ≠ e := by
    rintro rfl
    have := h.nodup
    simp [List.nodup_append, List.nodup_cons] at this
  have hg := h.nodup
  rw [List.flatten_cons, List.flatten_cons, ← List.append_assoc] at hg
  have hfl : (x ++ [e]) ++ (t :: l2) = x ++ e :: t :: l2 := by simp
  rw [hfl] at hg
  set slab' := (slab.put e (some { se with overlapping := some t })).put t (some { s' with isOverlapping := true }) with hs
  have g1 : ∀ s, slab.get e = some s → slab'.get e = some { s with overlapping := some t } := by
    intro s h1
    rw [he] at h1; cases h1
    rw [hs, Slab.get_put, if_neg hne.symm, Slab.get_put, if_pos rfl]
  have g2 : ∀ s, slab.get t = some s → slab'.get t = some { s with isOverlapping := true } := by
    intro s h1
    rw [ht] at h1; cases h1
    rw [hs, Slab.get_put, if_pos rfl]
  have g3 : ∀ j, j ≠ e → j ≠ t → slab'.get j = slab.get j := by
    intro j h1 h2
    rw [hs, Slab.get_put, if_neg h2, Slab.get_put, if_neg h1]
  refine ⟨?_, ?_, ?_, ?_, ?_⟩
  · refine (h.ok.put (k := e) (by rw [he]; simp) _).put ?_ _
    rw [Slab.get_put, if_neg hne, ht]; simp
  · intro g hg
    rcases List.mem_cons.1 hg with rfl | hg
    · simp
    · exact h.ne g (by simp [hg])
  · intro g hgm
    rcases List.mem_cons.1 hgm with rfl | hm
    · exact (h.lk _ (by simp)).link (h.lk _ (by simp)) (List.nodup_append.1 hg).1 g1 g2 g3
    · refine (h.lk g (by simp [hm])).congr fun k hk => ?_
      have hd := (List.nodup_append.1 hg).2.2
      have hf : k ∈ gs.flatten := List.mem_flatten.2 ⟨g, hm, hk⟩
      rw [g3]
      · rintro rfl; exact hd k (by simp) k hf rfl
      · rintro rfl; exact hd k (by simp) k hf rfl
  · rw [List.flatten_cons]; exact hg
  · intro k hk
    have : slab.get k ≠ none := by
      by_cases h1 : k = e
      · rw [h1, he]; simp
      by_cases h2 : k = t
      · rw [h2, ht]; simp
      rwa [g3 k h1 h2] at hk
    have := h.cover k this
    rw [List.flatten_cons, List.flatten_cons, ← List.append_assoc, hfl] at this
    rwa [List.flatten_cons]

/-! ## The walks -/

namespace Sweep

theorem setChainF_safe {geom : LineOrPoint K} {l : List Nat} {fuel : Nat} {slab : Slab (Seg K C)} {b : Bool} (ho : slab.Ok) (h : Lk slab b l)
    (hf : l.length ≤ fuel) : Safe (setChainF geom fuel slab l.head?) fun slab' =>
      SameChains slab slab' ∧ ∀ j, j ∉ l → slab'.get j = slab.get j := by
  induction l generalizing fuel slab b with
  | nil =>
    cases fuel <;> exact Safe.ok ⟨.refl ho, fun _ _ => rfl⟩
  | cons k l ih =>
    obtain ⟨fuel, rfl⟩ : ∃ f, fuel = f + 1 := ⟨fuel - 1, by simp at hf; omega⟩
    obtain ⟨⟨s, h1, -, -, h4⟩, h5⟩ := h
    refine Safe.bind (Safe.getU h1) fun s' hs' => ?_
    subst hs'
    refine Safe.bind (Safe.modifyU h1 _) fun slab' hs => ?_
    subst hs
    have sm := SameChains.put ho (v := { s' with geom := geom }) h1 rfl
    rw [← h4] at ih
    refine (ih sm.ok (h5.congr fun j _ => sm.core j) (by simpa using hf)).mono fun slab'' hs => ?_
    refine ⟨sm.trans hs.1, fun j hj => ?_⟩
    simp only [List.mem_cons, not_or] at hj
    rw [hs.2 j hj.2, Slab.get_put, if_neg hj.1]

theorem emitLeftF_safe {l : List Nat} {fuel : Nat} {slab : Slab (Seg K C)} {b : Bool} (ho : slab.Ok) (h : Lk slab b l)
    (hf : l.length ≤ fuel) : Safe (emitLeftF fuel slab l.head?) fun r =>
      SameChains slab r.1 ∧ ∀ j, j ∉ l → r.1.get j = slab.get j := by
  induction l generalizing fuel slab b with
  | nil =>
    cases fuel <;> exact Safe.ok ⟨.refl ho, fun _ _ => rfl⟩
  | cons k l ih =>
    obtain ⟨fuel, rfl⟩ : ∃ f, fuel = f + 1 := ⟨fuel - 1, by simp at hf; omega⟩
    obtain ⟨⟨s, h1, -, -, h4⟩, h5⟩ := h
    refine Safe.bind (Safe.getU h1) fun s' hs' => ?_
    subst hs'
    refine Safe.bind (Safe.modifyU h1 _) fun slab' hs => ?_
    subst hs
    have sm := SameChains.put ho (v := { s' with leftEventDone := true }) h1 rfl
    rw [← h4] at ih
    refine Safe.bind (ih sm.ok (h5.congr fun j _ => sm.core j) (by simpa using hf)) fun r hs => Safe.pure ?_
    refine ⟨sm.trans hs.1, fun j hj => ?_⟩
    simp only [List.mem_cons, not_or] at hj
    dsimp only
    rw [hs.2 j hj.2, Slab.get_put, if_neg hj.1]

theorem emitRightF_safe {l : List Nat} {fuel : Nat} {slab : Slab (Seg K C)} {b : Bool} (ho : slab.Ok) (h : Lk slab b l) (hn : l.Nodup)
    (hf : l.length ≤ fuel) : Safe (emitRightF fuel slab l.head?) fun r =>
      r.1.Ok ∧ ∀ j, r.1.get j = if j ∈ l then none else slab.get j := by
  induction l generalizing fuel slab b with
  | nil =>
    cases fuel <;> exact Safe.ok ⟨ho, fun _ => by simp⟩
  | cons k l ih =>
    obtain ⟨fuel, rfl⟩ : ∃ f, fuel = f + 1 := ⟨fuel - 1, by simp at hf; omega⟩
    obtain ⟨⟨s, h1, -, -, h4⟩, h5⟩ := h
    rw [List.nodup_cons] at hn
    refine Safe.bind (Safe.getU h1) fun s' hs' => ?_
    subst hs'
    refine Safe.bind Safe.orPanic fun slab' hs => ?_
    unfold Slab.remove at hs
    rw [h1] at hs
    simp only [Option.map_some, Option.some.injEq] at hs
    have hg : ∀ j, slab'.get j = if j = k then none else slab.get j := by
      intro j; rw [← hs]; exact Slab.get_put ..
    have hok : slab'.Ok := by rw [← hs]; exact ho.remove (by rw [h1]; simp)
    rw [h4]
    have h5' : Lk slab' false l := h5.congr fun j hj => by
      rw [hg, if_neg]; rintro rfl; exact hn.1 hj
    refine Safe.bind (ih hok h5' hn.2 (by simpa using hf)) fun r hr => Safe.pure ?_
    refine ⟨hr.1, fun j => ?_⟩
    dsimp only
    rw [hr.2 j, hg]
    by_cases h1 : j ∈ l <;> by_cases h2 : j = k <;> simp [h1, h2]

theorem chainEndF_safe {l : List Nat} {fuel a : Nat} {slab : Slab (Seg K C)} {b : Bool} (h : Lk slab b (a :: l))
    (hf : l.length < fuel) : Safe (chainEndF slab fuel a) fun e => ∃ x, a :: l = x ++ [e] := by
  induction l generalizing fuel a b with
  | nil =>
    obtain ⟨fuel, rfl⟩ : ∃ f, fuel = f + 1 := ⟨fuel - 1, by simp at hf; omega⟩
    obtain ⟨⟨s, h1, -, -, h4⟩, -⟩ := h
    refine Safe.bind (Safe.getU h1) fun s' hs' => ?_
    subst hs'
    rw [h4]
    exact Safe.pure ⟨[], rfl⟩
  | cons k l ih =>
    obtain ⟨fuel, rfl⟩ : ∃ f, fuel = f + 1 := ⟨fuel - 1, by simp at hf; omega⟩
    obtain ⟨⟨s, h1, -, -, h4⟩, h5⟩ := h
    refine Safe.bind (Safe.getU h1) fun s' hs' => ?_
    subst hs'
    rw [h4]
    refine (ih h5 (by simpa using hf)).mono fun e he => ?_
    obtain ⟨x, hx⟩ := he
    exact ⟨a :: x, by rw [hx]; rfl⟩

theorem copyChainF_safe (lineOf : C → Line K) {geom : LineOrPoint K} {l : List Nat} {fuel : Nat} {slab : Slab (Seg K C)} {b : Bool}
    {x : List Nat} {target : Nat} {gs : List (List Nat)} (hc : Chains slab ((x ++ [target]) :: gs)) (h : Lk slab b l)
    (hsub : l ⊆ gs.flatten) (hf : l.length ≤ fuel) : Safe (copyChainF lineOf geom fuel slab l.head? target) fun slab' =>
      ∃ more, Chains slab' ((x ++ target :: more) :: gs) ∧ ∀ j, slab.get j ≠ none → j ≠ target → slab'.get j = slab.get j := by
  induction l generalizing fuel slab b x target with
  | nil =>
    cases fuel <;> exact Safe.ok ⟨[], hc, fun _ _ _ => rfl⟩
  | cons k l ih =>
    obtain ⟨fuel, rfl⟩ : ∃ f, fuel = f + 1 := ⟨fuel - 1, by simp at hf; omega⟩
    obtain ⟨⟨s, h1, -, -, h4⟩, h5⟩ := h
    refine Safe.bind (Safe.getU h1) fun s' hs' => ?_
    subst hs'
    obtain ⟨st, ht, -⟩ := hc.live (g := x ++ [target]) (by simp) (k := target) (by simp)
    have hv := Slab.vacant_none hc.ok
    have hnt : target ≠ slab.vacantKey := by rintro e; rw [← e, ht] at hv; cases hv
    set ns := (Seg.new lineOf slab s'.crossable (some geom)).2 with hns
    have hkey : ns.key = slab.vacantKey := rfl
    have hslab : (Seg.new lineOf slab s'.crossable (some geom)).1 = slab.insert ns := rfl
    have c1 := hc.insert (s := ns) rfl rfl rfl
    have c2 := c1.perm (List.Perm.swap _ _ _)
    have g1 : (slab.insert ns).get target = some st := by rw [Slab.get_insert, if_neg hnt, ht]
    have g2 : (slab.insert ns).get slab.vacantKey = some ns := by rw [Slab.get_insert, if_pos rfl]
    have c3 := c2.link g1 g2
    show Safe (do
      let slab ← (slab.insert ns).modifyU target fun s => { s with overlapping := some ns.key }
      let slab ← slab.modifyU ns.key fun s => { s with isOverlapping := true }
      copyChainF lineOf geom fuel slab s'.overlapping ns.key) _
    refine Safe.bind (Safe.modifyU g1 _) fun slab1 e1 => ?_
    subst e1
    have g3 : ((slab.insert ns).put target (some { st with overlapping := some ns.key })).get ns.key = some ns := by
      rw [Slab.get_put, hkey, if_neg hnt.symm, g2]
    refine Safe.bind (Safe.modifyU g3 _) fun slab2 e2 => ?_
    subst e2
    rw [h4, hkey]
    have hsame : ∀ j, slab.get j ≠ none → j ≠ target →
        (((slab.insert ns).put target (some { st with overlapping := some slab.vacantKey })).put slab.vacantKey
          (some { ns with isOverlapping := true })).get j = slab.get j := by
      intro j hj hjt
      have hjv : j ≠ slab.vacantKey := by rintro rfl; exact hj hv
      rw [Slab.get_put, if_neg hjv, Slab.get_put, if_neg hjt, Slab.get_insert, if_neg hjv]
    have hl : ∀ j ∈ l, slab.get j ≠ none ∧ j ≠ target := by
      intro j hj
      obtain ⟨sj, h6, -⟩ := h5.live hj
      refine ⟨by rw [h6]; simp, ?_⟩
      rintro rfl
      have hd := (List.nodup_append.1 (by rw [← List.flatten_cons]; exact hc.nodup)).2.2
      exact hd j (by simp) j (hsub (by simp [hj])) rfl
    have c4 : Chains (((slab.insert ns).put target (some { st with overlapping := some slab.vacantKey })).put slab.vacantKey
          (some { ns with isOverlapping := true })) (((x ++ [target]) ++ [slab.vacantKey]) :: gs) := by
      simpa using c3
    refine (ih c4 (h5.congr fun j hj => ?_) (fun j hj => hsub (by simp [hj])) (by simpa using hf)).mono fun slab' hs => ?_
    · rw [hsame j (hl j hj).1 (hl j hj).2]
    · obtain ⟨more, m1, m2⟩ := hs
      refine ⟨slab.vacantKey :: more, by simpa using m1, fun j h7 h8 => ?_⟩
      rw [m2 j ?_ ?_, hsame j h7 h8]
      · rw [hsame j h7 h8]; exact h7
      · rintro rfl; exact h7 hv

end Sweep
end GeoCrossings

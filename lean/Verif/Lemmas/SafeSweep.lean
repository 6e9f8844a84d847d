import Verif.Lemmas.SafeChains

/-!
# The sweep keeps the overlap chains, in any arithmetic

`Inv gs st prot`: the slab holds the chains `gs`; the keys in the active tree, the keys with a pending left event of a line and the heads of
the chains `prot` (those of the left events being handled) are distinct and are heads of chains.
-/
set_option linter.unusedSectionVars false
namespace GeoCrossings
open Splay Fault

variable {K C : Type} [LinearOrder K]

/-- The keys with a left event of a line. -/
def lefts (evs : List (Event K)) : List Nat := (evs.filter fun e => e.ty = .lineLeft).map (·.segmentKey)

/-- The keys in the active tree. -/
def Sweep.actives (st : Sweep K C) : List Nat := st.active.root.toList.map (·.1)

theorem lefts_cons (e : Event K) (evs : List (Event K)) :
    lefts (e :: evs) = (if e.ty = .lineLeft then [e.segmentKey] else []) ++ lefts evs := by
  unfold lefts
  by_cases h : e.ty = .lineLeft <;> simp [h]

theorem lefts_perm {a b : List (Event K)} (h : a.Perm b) : (lefts a).Perm (lefts b) := (h.filter _).map _

theorem lefts_right (s : Seg K C) (evs : List (Event K)) : lefts (s.rightEvent :: evs) = lefts evs := by
  rw [lefts_cons]
  unfold Seg.rightEvent
  cases s.geom <;> simp

theorem lefts_left (s : Seg K C) (evs : List (Event K)) :
    lefts (s.leftEvent :: evs) = (if s.geom.isLine then [s.key] else []) ++ lefts evs := by
  rw [lefts_cons]
  unfold Seg.leftEvent
  cases s.geom <;> simp [LineOrPoint.isLine]

namespace Sweep

theorem popEvent_perm {choice : Nat → Nat} {st st' : Sweep K C} {e : Event K} (h : st.popEvent choice = some (e, st')) :
    st'.segments = st.segments ∧ st'.active = st.active ∧ st.events.Perm (e :: st'.events) := by
  unfold popEvent heapPop at h
  dsimp only at h
  split at h
  · simp at h
  · next e' he =>
    simp only [Option.pure_def, Option.bind_eq_bind, Option.bind_some, Option.some.injEq, Prod.mk.injEq] at h
    obtain ⟨rfl, rfl⟩ := h
    refine ⟨rfl, rfl, ?_⟩
    obtain ⟨hl, rfl⟩ := List.getElem?_eq_some_iff.1 he
    exact (List.getElem_cons_eraseIdx_perm hl).symm

/-- Comparing a segment of the slab with those of a list. -/
theorem cmpKeysF_safe {A : Arith K} (hA : ∀ g, A.cmp g g = none ∨ A.cmp g g = some .eq) {slab : Slab (Seg K C)} {k : Nat}
    {l : List (Nat × Unit)} (hk : ∃ s, slab.get k = some s ∧ s.key = k) (hl : ∀ j ∈ l.map (·.1), ∃ s, slab.get j = some s ∧ s.key = j) :
    SafeCmp (cmpKeysF A slab) k l := by
  rintro ⟨j, u⟩ he
  obtain ⟨s, h1, h2⟩ := hk
  obtain ⟨s', h3, h4⟩ := hl j (List.mem_map.2 ⟨_, he, rfl⟩)
  dsimp only
  refine Safe.bind (Safe.getU h1) fun a ha => ?_
  subst ha
  refine Safe.bind (Safe.getU h3) fun b hb => ?_
  subst hb
  refine Safe.bind Safe.orPanic fun o ho => Safe.pure ?_
  rw [h2, h4]
  constructor
  · intro h
    rw [Ordering.then_eq_eq] at h
    exact compare_eq_iff_eq.1 h.2
  · rintro rfl
    rw [h1] at h3
    cases h3
    rcases hA a.geom with hn | hn
    · rw [hn] at ho; cases ho
    · rw [hn] at ho; cases ho; simp

/-- Keys that name a live segment of that key. -/
def Live (slab : Slab (Seg K C)) (k : Nat) : Prop := ∃ s, slab.get k = some s ∧ s.key = k

theorem prevKeyF_safe {A : Arith K} (hA : ∀ g, A.cmp g g = none ∨ A.cmp g g = some .eq) {st : Sweep K C} {k : Nat}
    (hk : Live st.segments k) (hl : ∀ j ∈ st.actives, Live st.segments j) : Safe (prevKeyF A st k) fun r =>
      r.1.segments = st.segments ∧ r.1.events = st.events ∧ r.1.actives = st.actives ∧ ∀ j, r.2 = some j → j ∈ st.actives ∧ j ≠ k := by
  refine Safe.bind (Splay.prevM_safe st.active (cmpKeysF_safe hA hk hl)) fun r hr => Safe.pure ⟨rfl, rfl, ?_, ?_⟩
  · exact congrArg (List.map (·.1)) hr.1
  · intro j hj
    obtain ⟨e, he, rfl⟩ := Option.map_eq_some_iff.1 hj
    exact ⟨List.mem_map.2 ⟨e, (hr.2 e he).1, rfl⟩, (hr.2 e he).2⟩

theorem nextKeyF_safe {A : Arith K} (hA : ∀ g, A.cmp g g = none ∨ A.cmp g g = some .eq) {st : Sweep K C} {k : Nat}
    (hk : Live st.segments k) (hl : ∀ j ∈ st.actives, Live st.segments j) : Safe (nextKeyF A st k) fun r =>
      r.1.segments = st.segments ∧ r.1.events = st.events ∧ r.1.actives = st.actives ∧ ∀ j, r.2 = some j → j ∈ st.actives ∧ j ≠ k := by
  refine Safe.bind (Splay.nextM_safe st.active (cmpKeysF_safe hA hk hl)) fun r hr => Safe.pure ⟨rfl, rfl, ?_, ?_⟩
  · exact congrArg (List.map (·.1)) hr.1
  · intro j hj
    obtain ⟨e, he, rfl⟩ := Option.map_eq_some_iff.1 hj
    exact ⟨List.mem_map.2 ⟨e, (hr.2 e he).1, rfl⟩, (hr.2 e he).2⟩

theorem addKeyF_safe {A : Arith K} (hA : ∀ g, A.cmp g g = none ∨ A.cmp g g = some .eq) {debug : Bool} {st : Sweep K C} {k : Nat}
    (hk : Live st.segments k) (hl : ∀ j ∈ st.actives, Live st.segments j) : Safe (addKeyF debug A st k) fun st' =>
      st'.segments = st.segments ∧ st'.events = st.events ∧ st'.actives.Perm (k :: st.actives) := by
  unfold addKeyF
  split
  · exact Safe.panic
  refine Safe.bind (Splay.insertM_safe st.active () (cmpKeysF_safe hA hk hl)) fun r hr => ?_
  obtain ⟨a, o⟩ := r
  dsimp only at hr ⊢
  split
  · next h =>
    refine Safe.pure ⟨rfl, rfl, ?_⟩
    exact (hr (Option.isNone_iff_eq_none.1 h)).map (·.1)
  · exact Safe.panic

theorem removeKeyF_safe {A : Arith K} (hA : ∀ g, A.cmp g g = none ∨ A.cmp g g = some .eq) {debug : Bool} {st : Sweep K C} {k : Nat}
    (hk : Live st.segments k) (hl : ∀ j ∈ st.actives, Live st.segments j) : Safe (removeKeyF debug A st k) fun st' =>
      st'.segments = st.segments ∧ st'.events = st.events ∧ ∃ L R, st.actives = L ++ k :: R ∧ st'.actives.Sublist (L ++ R) := by
  unfold removeKeyF
  split
  · exact Safe.panic
  refine Safe.bind (Splay.removeM_safe st.active (cmpKeysF_safe hA hk hl)) fun r hr => ?_
  split
  · next a =>
    obtain ⟨L, R, h1, h2⟩ := hr a () rfl
    refine Safe.pure ⟨rfl, rfl, L.map (·.1), R.map (·.1), ?_, ?_⟩
    · unfold actives; rw [h1]; simp
    · rw [← List.map_append]; exact h2.map _
  · exact Safe.panic

theorem createSegmentF_safe {lineOf : C → Line K} {st : Sweep K C} {c : C} {geom : Option (LineOrPoint K)} {parent : Option Nat}
    {gs : List (List Nat)} (hc : Chains st.segments gs) (hp : ∀ p, parent = some p → st.segments.get p ≠ none) :
    Safe (createSegmentF lineOf st c geom parent) fun r => ∃ more,
      Chains r.1.segments ((r.2 :: more) :: gs) ∧ r.1.active = st.active ∧
      lefts r.1.events = (if (geom.getD (.ofLine (lineOf c))).isLine then [r.2] else []) ++ lefts st.events ∧
      ∀ j, st.segments.get j ≠ none → r.1.segments.get j = st.segments.get j := by
  have hv := Slab.vacant_none hc.ok
  unfold createSegmentF
  set ns := (Seg.new lineOf st.segments c geom).2 with hns
  have hkey : ns.key = st.segments.vacantKey := rfl
  have hg : ns.geom = geom.getD (.ofLine (lineOf c)) := rfl
  have hslab : Seg.new lineOf st.segments c geom = (st.segments.insert ns, ns) := rfl
  have c1 := hc.insert (s := ns) rfl rfl rfl
  have hfr : ∀ j, st.segments.get j ≠ none → (st.segments.insert ns).get j = st.segments.get j := by
    intro j hj
    rw [Slab.get_insert, if_neg]
    rintro rfl; exact hj hv
  have hev : lefts (heapPush (heapPush st.events ns.leftEvent) ns.rightEvent) =
      (if (geom.getD (.ofLine (lineOf c))).isLine then [ns.key] else []) ++ lefts st.events := by
    unfold heapPush
    rw [lefts_right, lefts_left, hg]
  rw [hslab]
  dsimp only
  cases parent with
  | none => exact Safe.ok ⟨[], c1, rfl, hev, hfr⟩
  | some par =>
    dsimp only
    cases hpar : st.segments.get par with
    | none => exact absurd hpar (hp par rfl)
    | some ps =>
      have hpar' : (st.segments.insert ns).get par = some ps := by rw [hfr par (by rw [hpar]; simp), hpar]
      refine Safe.bind (Safe.getU hpar') fun ps' e => ?_
      subst e
      obtain ⟨l', l, hl⟩ := hc.mem_of_live (by rw [hpar]; simp)
      obtain ⟨b, hb⟩ := (c1.lk _ (List.mem_cons_of_mem _ hl)).suffix
      have hlk := hb.2
      obtain ⟨⟨s, h1, -, -, h4⟩, -⟩ := hb
      rw [hpar'] at h1; cases h1
      rw [h4]
      refine Safe.bind (copyChainF_safe (x := []) lineOf (gs := gs) c1 hlk ?_ ?_) fun slab hs => Safe.pure ?_
      · intro j hj
        exact List.mem_flatten.2 ⟨_, hl, by simp [hj]⟩
      · have := c1.length_le (List.mem_cons_of_mem _ hl)
        simp at this; omega
      · obtain ⟨more, m1, m2⟩ := hs
        refine ⟨more, m1, rfl, hev, fun j hj => ?_⟩
        dsimp only
        rw [m2 j, hfr j hj]
        · rw [hfr j hj]; exact hj
        · rw [hkey]; rintro rfl; exact hj hv

theorem adjustF_core {debug : Bool} {s s' : Seg K C} {i : LineOrPoint K} {o : Split K} (h : s.adjustF debug i = .ok (s', o)) :
    s'.core = s.core ∧ s'.geom.first = s.geom.first ∧
    match o with
    | .unchanged ov => s' = s ∧ (ov = true → i.isLine ∧ s'.geom.first = i.first)
    | .splitOnce ov right => right.isLine ∧ (ov = some false → i.isLine ∧ s'.geom.first = i.first) ∧
        (ov = some true → i.isLine ∧ s.geom.first ≠ i.first)
    | .splitTwice right => right.isLine ∧ i.isLine ∧ s.geom.first ≠ i.first := by
  unfold Seg.adjustF at h
  split at h
  · cases h
  · next p q hg =>
    split at h
    · split at h
      · cases h
      split at h
      · cases h; simp
      · cases h
        simp only [Seg.core, hg, LineOrPoint.first]
        refine ⟨trivial, trivial, ?_, by simp, by simp⟩
        split <;> rfl
    · split at h
      · cases h
      split at h
      · next hp =>
        split at h
        · cases h; simp [hg, hp, LineOrPoint.first, LineOrPoint.isLine]
        · cases h; simp [Seg.core, hg, hp, LineOrPoint.first, LineOrPoint.isLine]
      · next hp =>
        split at h
        · cases h; simp [Seg.core, hg, hp, LineOrPoint.first, LineOrPoint.isLine]
        · cases h; simp [Seg.core, hg, hp, LineOrPoint.first, LineOrPoint.isLine]

theorem adjustF_safe {debug : Bool} {s : Seg K C} {i : LineOrPoint K} : Safe (s.adjustF debug i) fun r => s.adjustF debug i = .ok r := by
  unfold Seg.adjustF
  repeat' split
  all_goals first | exact Safe.panic | exact Safe.ok rfl

theorem adjustForF_safe {debug : Bool} {st : Sweep K C} {k : Nat} {i : LineOrPoint K} {gs : List (List Nat)} {l' l : List Nat} {s : Seg K C}
    (hc : Chains st.segments gs) (hg : l' ++ k :: l ∈ gs) (hs : st.segments.get k = some s) :
    Safe (adjustForF debug st k i) fun r => ∃ s', s.adjustF debug i = .ok (s', r.2) ∧ SameChains st.segments r.1.segments ∧
      r.1.segments.get k = some s' ∧ (∀ j, j ∉ k :: l → r.1.segments.get j = st.segments.get j) ∧ r.1.active = st.active ∧
      lefts r.1.events = lefts st.events := by
  refine Safe.bind (Safe.getU hs) fun s1 e1 => ?_
  subst e1
  refine Safe.bind adjustF_safe fun r hr => ?_
  obtain ⟨s', o⟩ := r
  dsimp only
  have hcore := adjustF_core hr
  refine Safe.bind (Safe.modifyU hs _) fun slab e => ?_
  subst e
  have sm := SameChains.put hc.ok hs hcore.1
  have hgn := hc.group_nodup hg
  have hkl : k ∉ l := by
    rw [List.nodup_append] at hgn
    exact (List.nodup_cons.1 hgn.2.1).1
  obtain ⟨b, hb⟩ := (hc.lk _ hg).suffix
  have hlk : Lk (st.segments.put k (some s')) false l := hb.2.congr fun j _ => sm.core j
  obtain ⟨⟨s2, h1, -, -, h4⟩, -⟩ := hb
  rw [hs] at h1; cases h1
  have hov : s'.overlapping = l.head? := by
    rw [← h4]
    exact congrArg (fun x => x.2.2) hcore.1
  have hlen : l.length ≤ st.segments.size := by
    have := hc.length_le hg; simp at this; omega
  have key : ∀ st1 : Sweep K C, st1.segments = st.segments.put k (some s') → st1.active = st.active →
      lefts st1.events = lefts st.events →
      Safe (do
        let slab ← setChainF s'.geom st1.segments.size st1.segments s'.overlapping
        pure (({ st1 with segments := slab } : Sweep K C), o)) fun r => ∃ s'', s1.adjustF debug i = .ok (s'', r.2) ∧
          SameChains st.segments r.1.segments ∧ r.1.segments.get k = some s'' ∧
          (∀ j, j ∉ k :: l → r.1.segments.get j = st.segments.get j) ∧ r.1.active = st.active ∧ lefts r.1.events = lefts st.events := by
    intro st1 e1 e2 e3
    rw [hov, e1]
    refine Safe.bind (setChainF_safe sm.ok hlk (by rw [sm.size]; exact hlen)) fun slab hsl => Safe.pure ?_
    refine ⟨s', hr, sm.trans hsl.1, ?_, fun j hj => ?_, e2, e3⟩
    · dsimp only; rw [hsl.2 k hkl, Slab.get_put, if_pos rfl]
    · simp only [List.mem_cons, not_or] at hj
      dsimp only
      rw [hsl.2 j hj.2, Slab.get_put, if_neg hj.1]
  cases o with
  | unchanged ov => exact key _ rfl rfl rfl
  | splitOnce ov right => exact key _ rfl rfl (lefts_right ..)
  | splitTwice right => exact key _ rfl rfl (lefts_right ..)

/-- `adjust_one_segment` adds the chains `fr`, whose heads have pending left events. -/
theorem adjustOneF_safe {debug : Bool} {lineOf : C → Line K} {st : Sweep K C} {k : Nat} {i : LineOrPoint K} {gs : List (List Nat)} {l' l : List Nat}
    {s : Seg K C} (hc : Chains st.segments gs) (hg : l' ++ k :: l ∈ gs) (hs : st.segments.get k = some s) :
    Safe (adjustOneF debug lineOf st k i) fun r => ∃ fr : List (Nat × List Nat),
      Chains r.1.segments (fr.map (fun g => g.1 :: g.2) ++ gs) ∧ r.1.active = st.active ∧
      lefts r.1.events = fr.map (·.1) ++ lefts st.events ∧
      (∀ j, st.segments.get j ≠ none → j ∉ k :: l → r.1.segments.get j = st.segments.get j) ∧
      (∃ s', r.1.segments.get k = some s' ∧ s'.geom.first = s.geom.first) ∧
      ∀ x, r.2 = some x → i.isLine ∧ (x = k ∧ s.geom.first = i.first ∨ x ∈ fr.map (·.1) ∧ s.geom.first ≠ i.first) := by
  refine Safe.bind (Safe.getU hs) fun s1 e1 => ?_
  subst e1
  refine Safe.bind (adjustForF_safe hc hg hs) fun r hr => ?_
  obtain ⟨st1, o⟩ := r
  dsimp only at hr ⊢
  obtain ⟨s', h1, h2, h3, h4, h5, h6⟩ := hr
  obtain ⟨-, hf, ha⟩ := adjustF_core h1
  have c1 := hc.same h2
  have hk1 : st1.segments.get k ≠ none := by rw [h3]; simp
  cases o with
  | unchanged ov =>
    refine Safe.pure ⟨[], c1, h5, h6, fun j _ hj => h4 j hj, ⟨s', h3, hf⟩, fun x hx => ?_⟩
    dsimp only at hx ha
    split at hx
    · next hov => cases hx; exact ⟨(ha.2 hov).1, .inl ⟨rfl, hf ▸ (ha.2 hov).2⟩⟩
    · cases hx
  | splitOnce ov right =>
    dsimp only at ha ⊢
    refine Safe.bind (createSegmentF_safe (geom := some right) c1 (fun p hp => by cases hp; exact hk1)) fun r hr => Safe.pure ?_
    obtain ⟨st2, nk⟩ := r
    obtain ⟨more, m1, m2, m3, m4⟩ := hr
    dsimp only at m1 m2 m3 m4 ⊢
    refine ⟨[(nk, more)], m1, m2.trans h5, ?_, fun j h7 h8 => ?_, ⟨s', by rw [m4 k hk1, h3], hf⟩, fun x hx => ?_⟩
    · rw [m3, h6]; simp [ha.1]
    · rw [m4 j (h2.live h7), h4 j h8]
    · split at hx
      · cases hx; exact ⟨(ha.2.1 rfl).1, .inl ⟨rfl, hf ▸ (ha.2.1 rfl).2⟩⟩
      · cases hx; exact ⟨(ha.2.2 rfl).1, .inr ⟨by simp, (ha.2.2 rfl).2⟩⟩
      · cases hx
  | splitTwice right =>
    dsimp only at ha ⊢
    refine Safe.bind (createSegmentF_safe (geom := some right) c1 (fun p hp => by cases hp; exact hk1)) fun r hr => ?_
    obtain ⟨st2, nk⟩ := r
    obtain ⟨more, m1, m2, m3, m4⟩ := hr
    dsimp only at m1 m2 m3 m4 ⊢
    have hk2 : st2.segments.get k ≠ none := by rw [m4 k hk1]; exact hk1
    refine Safe.bind (createSegmentF_safe (geom := some i) m1 (fun p hp => by cases hp; exact hk2)) fun r hr => Safe.pure ?_
    obtain ⟨st3, mk⟩ := r
    obtain ⟨more', n1, n2, n3, n4⟩ := hr
    dsimp only at n1 n2 n3 n4 ⊢
    refine ⟨[(mk, more'), (nk, more)], n1, n2.trans (m2.trans h5), ?_, fun j h7 h8 => ?_, ⟨s', by rw [n4 k hk2, m4 k hk1, h3], hf⟩, fun x hx => ?_⟩
    · rw [n3, m3, h6]; simp [ha.1, ha.2.1]
    · have h9 := h2.live h7
      have := m4 j h9
      rw [n4 j (by rw [this]; exact h9), this, h4 j h8]
    · cases hx; exact ⟨ha.2.1, .inr ⟨by simp, ha.2.2⟩⟩

end Sweep
end GeoCrossings

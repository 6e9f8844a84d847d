import Verif.Lemmas.SweepRep
import Mathlib.Tactic.Common

/-! # What the slab operations of the sweep do to the groups -/
set_option linter.unusedSectionVars false
namespace GeoCrossings
namespace Sweep

variable {K C : Type} [Field K] [LinearOrder K]
variable {org : C → Pt K} {allow : Prop}

/-- `st'` differs from `st` in the slab and the event queue only. -/
def SameRest (st st' : Sweep K C) : Prop := st'.active = st.active ∧ st'.clock = st.clock

theorem SameRest.trans {a b c : Sweep K C} (h : SameRest a b) (h' : SameRest b c) : SameRest a c :=
  ⟨h'.1.trans h.1, h'.2.trans h.2⟩

theorem createSegment_spec {st : Sweep K C} {gs : List (Grp K C)} (h : Rep org st.segments gs) (lineOf : C → Line K)
    {g0 : Grp K C} (hg0 : g0 ∈ gs) {c : C} {l : List (Nat × C)} {par : Nat} (hm : g0.mem = (par, c) :: l) (a b : Pt K) :
    ∃ st' g, st.createSegment lineOf c (some (.line a b)) (some par) = some (st', g.root) ∧
      Rep org st'.segments (g :: gs) ∧ g.geom = .line a b ∧ g.done = false ∧ g.cs = g0.cs ∧ g.mem ≠ [] ∧
      st'.events = ⟨b, .lineRight, g.root⟩ :: ⟨a, .lineLeft, g.root⟩ :: st.events ∧ SameRest st st' := by
  have hR := h.insert lineOf c (some (.line a b)) (by simp)
  have hL := (h.grp g0 hg0).linked
  rw [hm] at hL
  obtain ⟨⟨s, e1, e2, e3, e4, e5, e6⟩, -⟩ := hL
  -- the parent is still there after the insertion
  have hpar : (Seg.new lineOf st.segments c (some (.line a b))).1.get par = some s := by
    simp only [Seg.new]
    rw [Slab.get_insert, if_neg]
    · exact e1
    · rintro rfl
      rw [Slab.vacant_none h.ok] at e1
      cases e1
  have hlen : l.length ≤ (Seg.new lineOf st.segments c (some (.line a b))).1.size := by
    have h1 := h.length_le hg0
    have h2 : st.segments.size ≤ (Seg.new lineOf st.segments c (some (.line a b))).1.size := Slab.size_le_insert _ _
    rw [hm] at h1
    simp at h1
    omega
  obtain ⟨slab', l', i1, i2, i3⟩ := copyChain_spec lineOf (.line a b) l _ _ _ gs []
    (Seg.new lineOf st.segments c (some (.line a b))).2.key c hR rfl rfl
    ⟨g0, hg0, [(par, c)], by simp, by simp [hm]⟩ hlen
  have hroot : ((Seg.new lineOf st.segments c (some (.line a b))).2.key, c) ::l' ≠ [] := by simp
  refine ⟨{ st with segments := slab', events := heapPush (heapPush st.events
    (Seg.new lineOf st.segments c (some (.line a b))).2.leftEvent) (Seg.new lineOf st.segments c (some (.line a b))).2.rightEvent },
    ⟨.line a b, ((Seg.new lineOf st.segments c (some (.line a b))).2.key, c) :: l', false⟩, ?_, ?_, rfl, rfl, ?_, by simp, ?_, ?_⟩
  · simp only [createSegment, hpar, Option.bind_eq_bind, Option.bind_some]
    rw [e6.1]
    have : (Seg.new lineOf st.segments c (some (LineOrPoint.line a b))).2.geom = .line a b := rfl
    rw [this, i1]
    rfl
  · exact i2
  · simp [Grp.cs, i3, hm]
  · rfl
  · exact ⟨rfl, rfl⟩

theorem adjustFor_spec {st : Sweep K C} {g : Grp K C} {gs : List (Grp K C)} (h : Rep org st.segments (g :: gs))
    {i geom' : LineOrPoint K} {out : Split K} (hfst : geom'.first = g.geom.first)
    (hadj : ∀ s : Seg K C, s.geom = g.geom → ∃ b, (b = true → s.firstSegment = true) ∧ s.adjust i = some ({ s with geom := geom', firstSegment := b }, out)) :
    ∃ st', st.adjustFor g.root i = some (st', out) ∧ Rep org st'.segments ({ g with geom := geom' } :: gs) ∧ SameRest st st' ∧
      ((∃ b, out = .unchanged b) → st'.events = st.events) ∧
      ((∀ b, out ≠ .unchanged b) → ∀ p q, geom' = .line p q → st'.events = ⟨q, .lineRight, g.root⟩ :: st.events) := by
  have hg := h.grp g (by simp)
  obtain ⟨c, l, hm⟩ := Grp.exists_cons hg.ne
  have hL := hg.linked
  rw [hm] at hL
  obtain ⟨⟨s, e1, e2, e3, e4, e5, e6⟩, e7⟩ := hL
  have hn : g.keys.Nodup := h.keys_nodup (by simp)
  simp only [Grp.keys, hm, List.map_cons, List.nodup_cons] at hn
  obtain ⟨b, hbt, hb⟩ := hadj s e4
  have hmod := Slab.modify_some e1 fun _ => { s with geom := geom', firstSegment := b }
  have hok := h.ok.put (k := g.root) (by simp [e1]) { s with geom := geom', firstSegment := b }
  have hlen : l.length ≤ st.segments.size := by
    have := h.length_le (g := g) (by simp)
    rw [hm] at this; simp at this; omega
  obtain ⟨slab', i1, i2, i3, i4, i5⟩ := setChain_spec geom' g.geom hfst l st.segments.size
    (st.segments.put g.root (some { s with geom := geom', firstSegment := b })) false hok
    (e7.congr fun j hj => by rw [Slab.get_put, if_neg (by rintro rfl; exact hn.1 hj)]) hn.2 hlen
  have hroot : ({ g with geom := geom' } : Grp K C).root = g.root := rfl
  have hget : slab'.get g.root = some { s with geom := geom', firstSegment := b } := by
    rw [i4 _ hn.1, Slab.get_put, if_pos rfl]
  have hR : Rep org slab' ({ g with geom := geom' } :: gs) := by
    refine h.update i2 ⟨hg.ne, ?_, ?_⟩ rfl ?_
    · show Linked org slab' geom' true g.mem
      rw [hm]
      exact ⟨⟨_, hget, e2, e3, rfl, e5, e6.1, fun hb => by rw [hfst]; exact e6.2 (hbt hb)⟩, i3⟩
    · intro t ht
      rw [hroot, hget] at ht
      cases ht
      exact hg.done s e1
    · intro k hk
      simp only [Grp.keys, hm, List.map_cons, List.mem_cons, not_or] at hk
      rw [i4 k hk.2, Slab.get_put, if_neg hk.1]
  rw [← e6.1] at i1
  cases hout : out with
  | unchanged bb =>
    refine ⟨{ st with segments := slab' }, ?_, hR, ⟨rfl, rfl⟩, fun _ => rfl, fun hc => absurd rfl (hc bb)⟩
    rw [hout] at hb
    simp only [adjustFor, e1, Option.bind_eq_bind, Option.bind_some, hb, hmod]
    have i1' : setChain geom' (st.segments.put g.root (some { s with geom := geom', firstSegment := b })).size
      (st.segments.put g.root (some { s with geom := geom', firstSegment := b })) s.overlapping = some slab' := i1
    rw [i1']
    rfl
  | splitOnce o r =>
    refine ⟨{ st with segments := slab', events := ({ s with geom := geom', firstSegment := b } : Seg K C).rightEvent :: st.events },
      ?_, hR, ⟨rfl, rfl⟩, (fun ⟨_, hc⟩ => by cases hc), ?_⟩
    · rw [hout] at hb
      simp only [adjustFor, e1, Option.bind_eq_bind, Option.bind_some, hb, hmod]
      have i1' : setChain geom' (st.segments.put g.root (some { s with geom := geom', firstSegment := b })).size
        (st.segments.put g.root (some { s with geom := geom', firstSegment := b })) s.overlapping = some slab' := i1
      simp only [push]
      rw [i1']
      rfl
    · rintro - p q rfl
      simp [Seg.rightEvent, e2]
  | splitTwice r =>
    refine ⟨{ st with segments := slab', events := ({ s with geom := geom', firstSegment := b } : Seg K C).rightEvent :: st.events },
      ?_, hR, ⟨rfl, rfl⟩, (fun ⟨_, hc⟩ => by cases hc), ?_⟩
    · rw [hout] at hb
      simp only [adjustFor, e1, Option.bind_eq_bind, Option.bind_some, hb, hmod]
      have i1' : setChain geom' (st.segments.put g.root (some { s with geom := geom', firstSegment := b })).size
        (st.segments.put g.root (some { s with geom := geom', firstSegment := b })) s.overlapping = some slab' := i1
      simp only [push]
      rw [i1']
      rfl
    · rintro - p q rfl
      simp [Seg.rightEvent, e2]

section adjustOne
variable {st : Sweep K C} {g : Grp K C} {gs : List (Grp K C)} {p q : Pt K}

/-- What is known of the slab entry of a group's root. -/
theorem rootSeg (h : Rep org st.segments (g :: gs)) : ∃ s, st.segments.get g.root = some s ∧ s.geom = g.geom ∧
    s.isOverlapping = false ∧ s.key = g.root ∧ s.leftEventDone = g.done ∧ ∃ l, g.mem = (g.root, s.crossable) :: l := by
  have hg := h.grp g (by simp)
  obtain ⟨c, l, hm⟩ := Grp.exists_cons hg.ne
  have hL := hg.linked
  rw [hm] at hL
  obtain ⟨⟨s, e1, e2, e3, e4, e5, e6⟩, e7⟩ := hL
  exact ⟨s, e1, e4, by simpa using e5, e2, hg.done s e1, l, by rw [e3]; exact hm⟩

theorem with_geom_self {g : Grp K C} {x : LineOrPoint K} (h : g.geom = x) : ({ g with geom := x } : Grp K C) = g := by
  cases g; cases h; rfl

theorem adjustOne_unchanged (lineOf : C → Line K) (h : Rep org st.segments (g :: gs)) (hg : g.geom = .line p q) {i : LineOrPoint K}
    {b : Bool} (hi : ∀ s : Seg K C, s.geom = .line p q → s.adjust i = some (s, .unchanged b)) :
    ∃ st', st.adjustOne lineOf g.root i = some (st', if b then some g.root else none) ∧
      Rep org st'.segments (g :: gs) ∧ st'.events = st.events ∧ SameRest st st' := by
  obtain ⟨s, e1, e2, e3, e4, -, -⟩ := rootSeg h
  obtain ⟨st', a1, a2, a3, a4, a5⟩ := adjustFor_spec h (i := i) (geom' := .line p q) (out := .unchanged b)
    (by rw [hg])
    (fun s hs => ⟨s.firstSegment, id, by rw [hi s (hs.trans hg)]; cases s; cases hs; rw [← hg]⟩)
  rw [with_geom_self hg] at a2
  refine ⟨st', ?_, a2, a4 ⟨b, rfl⟩, a3⟩
  simp only [adjustOne, e1, Option.bind_eq_bind, Option.bind_some, a1]
  rfl

theorem adjustOne_once (lineOf : C → Line K) (h : Rep org st.segments (g :: gs)) (hg : g.geom = .line p q) {i : LineOrPoint K}
    {o : Option Bool} {r r' q' : Pt K}
    (hi : ∀ s : Seg K C, s.geom = .line p q →
      s.adjust i = some ({ s with geom := .line p r, firstSegment := false }, .splitOnce o (.line r' q'))) :
    ∃ st' g2, st.adjustOne lineOf g.root i = some (st', match o with
        | some false => some g.root | some true => some g2.root | none => none) ∧
      Rep org st'.segments ({ g with geom := .line p r } :: g2 :: gs) ∧ g2.geom = .line r' q' ∧ g2.done = false ∧ g2.cs = g.cs ∧
      g2.mem ≠ [] ∧
      st'.events = ⟨q', .lineRight, g2.root⟩ :: ⟨r', .lineLeft, g2.root⟩ :: ⟨r, .lineRight, g.root⟩ :: st.events ∧
      SameRest st st' := by
  obtain ⟨s, e1, e2, e3, e4, -, l, e5⟩ := rootSeg h
  obtain ⟨st', a1, a2, a3, a4, a5⟩ := adjustFor_spec h (i := i) (geom' := .line p r) (out := .splitOnce o (.line r' q'))
    (by rw [hg]; rfl) (fun s hs => ⟨false, by simp, hi s (hs.trans hg)⟩)
  obtain ⟨st2, g2, b1, b2, b3, b4, b5, b6, b7, b8⟩ := createSegment_spec a2 lineOf (g0 := { g with geom := .line p r }) (by simp)
    (c := s.crossable) (l := l) (par := g.root) e5 r' q'
  refine ⟨st2, g2, ?_, b2.perm (List.Perm.swap _ _ _), b3, b4, b5, b6, ?_, a3.trans b8⟩
  · simp only [adjustOne, e1, Option.bind_eq_bind, Option.bind_some, a1, b1]
    rfl
  · rw [b7, a5 (by simp) p r rfl]

theorem adjustOne_twice (lineOf : C → Line K) (h : Rep org st.segments (g :: gs)) (hg : g.geom = .line p q)
    {r1 r2 : Pt K}
    (hi : ∀ s : Seg K C, s.geom = .line p q →
      s.adjust (.line r1 r2) = some ({ s with geom := .line p r1, firstSegment := false }, .splitTwice (.line r2 q))) :
    ∃ st' g2 g3, st.adjustOne lineOf g.root (.line r1 r2) = some (st', some g3.root) ∧
      Rep org st'.segments ({ g with geom := .line p r1 } :: g2 :: g3 :: gs) ∧ g2.geom = .line r2 q ∧ g2.done = false ∧
      g2.cs = g.cs ∧ g2.mem ≠ [] ∧ g3.geom = .line r1 r2 ∧ g3.done = false ∧ g3.cs = g.cs ∧ g3.mem ≠ [] ∧
      st'.events = ⟨r2, .lineRight, g3.root⟩ :: ⟨r1, .lineLeft, g3.root⟩ ::
        ⟨q, .lineRight, g2.root⟩ :: ⟨r2, .lineLeft, g2.root⟩ :: ⟨r1, .lineRight, g.root⟩ :: st.events ∧
      SameRest st st' := by
  obtain ⟨s, e1, e2, e3, e4, -, l, e5⟩ := rootSeg h
  obtain ⟨st', a1, a2, a3, a4, a5⟩ := adjustFor_spec h (i := .line r1 r2) (geom' := .line p r1) (out := .splitTwice (.line r2 q))
    (by rw [hg]; rfl) (fun s hs => ⟨false, by simp, hi s (hs.trans hg)⟩)
  obtain ⟨st2, g2, b1, b2, b3, b4, b5, b6, b7, b8⟩ := createSegment_spec a2 lineOf (g0 := { g with geom := .line p r1 }) (by simp)
    (c := s.crossable) (l := l) (par := g.root) e5 r2 q
  obtain ⟨st3, g3, c1, c2, c3, c4, c5, c6, c7, c8⟩ := createSegment_spec b2 lineOf (g0 := { g with geom := .line p r1 }) (by simp)
    (c := s.crossable) (l := l) (par := g.root) e5 r1 r2
  refine ⟨st3, g2, g3, ?_, c2.perm ?_, b3, b4, b5, b6, c3, c4, c5, c6, ?_, (a3.trans b8).trans c8⟩
  · simp only [adjustOne, e1, Option.bind_eq_bind, Option.bind_some, a1, b1, c1]
    rfl
  · refine (List.Perm.cons _ (List.Perm.swap _ _ _)).trans ?_
    refine (List.Perm.swap _ _ _).trans (List.Perm.cons _ (List.Perm.swap _ _ _))
  · rw [c7, b7, a5 (by simp) p r1 rfl]

end adjustOne

theorem chainOverlap_spec {st : Sweep K C} {g1 g2 : Grp K C} {gs : List (Grp K C)} (h : Rep org st.segments (g1 :: g2 :: gs))
    (hgeom : g1.geom = g2.geom) :
    ∃ st', st.chainOverlap g1.root g2.root = some st' ∧
      Rep org st'.segments (⟨g1.geom, g1.mem ++ g2.mem, g1.done⟩ :: gs) ∧ st'.events = st.events ∧ SameRest st st' := by
  have hg1 := h.grp g1 (by simp)
  obtain ⟨c, l, hm⟩ := Grp.exists_cons hg1.ne
  have hL := hg1.linked
  rw [hm] at hL
  have hlen := h.length_le (g := g1) (by simp)
  rw [hm] at hlen
  simp at hlen
  obtain ⟨l1, a, ca, h1, h2⟩ := chainEnd_spec g1.geom l (st.segments.size + 1) st.segments true g1.root c hL (by omega)
  obtain ⟨sa, st2, h3, h4, h5, h6⟩ := h.link hgeom (hm.trans h1)
  have hmod1 := Slab.modify_some h3 fun s => { s with overlapping := some g2.root }
  have hmod2 := Slab.modify_some (s := st.segments.put a (some { sa with overlapping := some g2.root })) (k := g2.root) (v := st2)
    (by rw [Slab.get_put, if_neg (Ne.symm h5)]; exact h4) fun s => { s with isOverlapping := true }
  refine ⟨⟨(st.segments.put a (some { sa with overlapping := some g2.root })).put g2.root (some { st2 with isOverlapping := true }),
    st.events, st.active, st.clock⟩, ?_, h6, rfl, rfl, rfl⟩
  have m1 : st.modifySeg a (fun s => { s with overlapping := some g2.root }) =
      some ⟨st.segments.put a (some { sa with overlapping := some g2.root }), st.events, st.active, st.clock⟩ := by
    simp only [modifySeg, hmod1]; rfl
  simp only [chainOverlap, h2, Option.bind_eq_bind, Option.bind_some, m1]
  simp only [modifySeg, hmod2]
  rfl

/-- Output of the callbacks for the members `l` of a chain, before the flags change. -/
def outOf (slab : Slab (Seg K C)) (ty : EventType) (l : List (Nat × C)) (out : Out K C) : Prop :=
  out.map (fun o => some o.1) = l.map (fun m => slab.get m.1) ∧ ∀ o ∈ out, o.2 = ty

theorem emitLeft_root {slab : Slab (Seg K C)} {g : Grp K C} {gs : List (Grp K C)} (h : Rep org slab (g :: gs)) :
    ∃ slab' out, emitLeft (slab.size + 1) slab (some g.root) = some (slab', out) ∧
      Rep org slab' ({ g with done := true } :: gs) ∧ outOf slab .lineLeft g.mem out := by
  have hg := h.grp g (by simp)
  obtain ⟨c, l, hm⟩ := Grp.exists_cons hg.ne
  have hlen := h.length_le (g := g) (by simp)
  obtain ⟨slab', out, i1, i2, i3, i4, i5, i6, i7, i8⟩ := emitLeft_spec g.geom g.mem (slab.size + 1) slab true h.ok hg.linked
    (h.keys_nodup (by simp)) (by omega)
  refine ⟨slab', out, ?_, ?_, i6, i7⟩
  · rw [hm] at i1; exact i1
  · refine h.update i2 ⟨hg.ne, i3, ?_⟩ rfl i4
    intro s hs
    exact i5 g.root (by rw [hm]; simp) s hs

theorem emitLeft_suffix {slab : Slab (Seg K C)} {g : Grp K C} {gs : List (Grp K C)} (h : Rep org slab (g :: gs))
    {l1 l2 : List (Nat × C)} (hm : g.mem = l1 ++ l2) (hl1 : l1 ≠ []) {k : Nat} (hk : l2.head?.map (·.1) = some k) :
    ∃ slab' out, emitLeft (slab.size + 1) slab (some k) = some (slab', out) ∧ Rep org slab' (g :: gs) ∧ outOf slab .lineLeft l2 out := by
  have hg := h.grp g (by simp)
  have hlen := h.length_le (g := g) (by simp)
  have hn : g.keys.Nodup := h.keys_nodup (by simp)
  have hn' := hn
  simp only [Grp.keys, hm, List.map_append] at hn
  rw [List.nodup_append'] at hn
  have hL := hg.linked
  have hL2 := hL
  rw [hm] at hL2
  obtain ⟨slab', out, i1, i2, i3, i4, i5, i6, i7, i8⟩ := emitLeft_spec g.geom l2 (slab.size + 1) slab false h.ok
    (hL2.append_right hl1) hn.2.1 (by rw [hm] at hlen; simp at hlen; omega)
  rw [hk] at i1
  refine ⟨slab', out, i1, ?_, i6, i7⟩
  -- the first part keeps its cells, the second its links
  have happ : ∀ (l1 : List (Nat × C)) (b : Bool), Linked org slab g.geom b (l1 ++ l2) → l1 ≠ [] →
      (∀ j ∈ l1.map (·.1), j ∉ l2.map (·.1)) → Linked org slab' g.geom b (l1 ++ l2) := by
    intro l1
    induction l1 with
    | nil => intro b _ hc; exact absurd rfl hc
    | cons x l1 ih =>
      obtain ⟨j, c⟩ := x
      intro b ⟨⟨s, e1, e2⟩, e3⟩ _ hd
      refine ⟨⟨s, by rw [i4 j (hd j (by simp))]; exact e1, e2⟩, ?_⟩
      by_cases hl : l1 = []
      · subst hl; exact i3
      · exact ih false e3 hl fun j hj => hd j (by simp at hj ⊢; exact .inr hj)
  refine h.update i2 ⟨hg.ne, ?_, ?_⟩ rfl ?_
  · rw [hm]
    exact happ l1 true hL2 hl1 fun j h1 h2 => hn.2.2 h1 h2
  · intro s hs
    obtain ⟨c, l, e⟩ := Grp.exists_cons hg.ne
    have hr : g.root ∈ l1.map (·.1) := by
      cases l1 with
      | nil => exact absurd rfl hl1
      | cons x l1 => rw [hm, List.cons_append] at e; cases e; simp
    rw [i4 g.root fun h2 => hn.2.2 hr h2] at hs
    exact hg.done s hs
  · intro j hj
    refine i4 j fun h2 => hj ?_
    simp only [Grp.keys, hm, List.map_append, List.mem_append]
    exact .inr h2

theorem emitRight_root {slab : Slab (Seg K C)} {g : Grp K C} {gs : List (Grp K C)} (h : Rep org slab (g :: gs)) :
    ∃ slab' out, emitRight (slab.size + 1) slab (some g.root) = some (slab', out) ∧
      Rep org slab' gs ∧ outOf slab .lineRight g.mem out := by
  have hg := h.grp g (by simp)
  obtain ⟨c, l, hm⟩ := Grp.exists_cons hg.ne
  have hlen := h.length_le (g := g) (by simp)
  obtain ⟨slab', out, i1, i2, i3, i4, i5, i6, i7⟩ := emitRight_spec g.geom g.mem (slab.size + 1) slab true h.ok hg.linked
    (h.keys_nodup (by simp)) (by omega)
  have hn := h.nodup
  rw [List.flatMap_cons, List.nodup_append'] at hn
  refine ⟨slab', out, ?_, ⟨i2, ?_, hn.2.1, ?_⟩, i5, i6⟩
  · rw [hm] at i1; exact i1
  · intro x hx
    have hx' := h.grp x (by simp [hx])
    have hsub : ∀ k ∈ x.keys, slab'.get k = slab.get k := fun k hk =>
      i3 k fun hk' => hn.2.2 hk' (List.mem_flatMap.2 ⟨x, hx, hk⟩)
    refine ⟨hx'.ne, hx'.linked.congr hsub, ?_⟩
    intro s hs
    rw [hsub _ (Grp.root_mem hx'.ne)] at hs
    exact hx'.done s hs
  · intro k hk
    by_cases hk' : k ∈ g.keys
    · exact absurd (i4 k hk') hk
    · rw [i3 k hk'] at hk
      have := h.cover k hk
      rw [List.flatMap_cons] at this
      exact (List.mem_append.1 this).resolve_left hk'

/-- The reported segments carry the group's geometry and, in order, its keys and crossables. -/
theorem outOf.spec {slab : Slab (Seg K C)} {g : Grp K C} {gs : List (Grp K C)} (h : Rep org slab gs) (hg : g ∈ gs)
    {ty : EventType} {l1 l2 : List (Nat × C)} (hm : g.mem = l1 ++ l2) {out : Out K C} (ho : outOf slab ty l2 out) :
    out.map (fun o => (o.1.key, o.1.crossable)) = l2 ∧ (∀ o ∈ out, o.1.geom = g.geom ∧ o.2 = ty ∧
      (o.1.firstSegment = true → g.geom.first = org o.1.crossable) ∧ (out.getLast? = some o → o.1.overlapping = none)) := by
  have hL := (h.grp g hg).linked
  have key : ∀ (l2 : List (Nat × C)), (∀ m ∈ l2, m ∈ g.mem) → ∀ out : Out K C, outOf slab ty l2 out →
      out.map (fun o => (o.1.key, o.1.crossable)) = l2 ∧ (∀ o ∈ out, o.1.geom = g.geom ∧ o.2 = ty ∧
      (o.1.firstSegment = true → g.geom.first = org o.1.crossable)) := by
    intro l2
    induction l2 with
    | nil =>
      intro _ out ho
      have := ho.1
      simp at this
      subst this; simp
    | cons x l2 ih =>
      obtain ⟨k, c⟩ := x
      intro hsub out ho
      obtain ⟨h1, h2⟩ := ho
      cases out with
      | nil => simp at h1
      | cons o out =>
        simp only [List.map_cons, List.cons.injEq] at h1
        obtain ⟨s, e1, e2, e3, e4, e5⟩ := hL.get (hsub (k, c) (by simp))
        rw [e1] at h1
        obtain ⟨i1, i2⟩ := ih (fun m hm => hsub m (List.mem_cons_of_mem _ hm)) out ⟨h1.2, fun o ho => h2 o (List.mem_cons_of_mem _ ho)⟩
        have h3 : o.1 = s := by simpa using h1.1
        refine ⟨by simp [i1, h3, e2, e3], ?_⟩
        intro o' ho'
        rcases List.mem_cons.1 ho' with rfl | ho'
        · exact ⟨by rw [h3]; exact e4, h2 _ (by simp), by rw [h3, e3]; exact e5⟩
        · exact i2 o' ho'
  obtain ⟨k1, k2⟩ := key l2 (fun m hm' => by rw [hm]; exact List.mem_append_right _ hm') out ho
  refine ⟨k1, fun o ho' => ⟨(k2 o ho').1, (k2 o ho').2.1, (k2 o ho').2.2, ?_⟩⟩
  intro hlast
  have e1 := congrArg List.getLast? ho.1
  rw [List.getLast?_map, List.getLast?_map, hlast] at e1
  cases hl : l2.getLast? with
  | none => rw [hl] at e1; cases e1
  | some m =>
    obtain ⟨k, c⟩ := m
    rw [hl] at e1
    obtain ⟨s, s1, s2⟩ := hL.last (k := k) (c := c) (by rw [hm, List.getLast?_append, hl]; rfl)
    simp only [Option.map_some, Option.some.injEq] at e1
    rw [s1, Option.some.injEq] at e1
    rw [e1]; exact s2

end Sweep
end GeoCrossings

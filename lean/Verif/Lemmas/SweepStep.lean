import Verif.Lemmas.SweepHandle

/-! # One event of the sweep -/
set_option linter.unusedSectionVars false
namespace GeoCrossings
open Spec

variable {K C : Type} [Field K] [LinearOrder K] [IsStrictOrderedRing K]
variable {org : C → Pt K} {allow : Prop}
variable {pos : Pt K} {st : Sweep K C} {X : Abs K C}

/-- The invariant between events. -/
structure Inv (org : C → Pt K) (pos : Pt K) (st : Sweep K C) (X : Abs K C) : Prop where
  conc : Conc org st X
  core : Core pos X
  chain : X.Chain pos
  S : X.S = []

theorem peek_none (h : st.events = []) : st.peekPoint = none := by
  have hs := heapPop_spec 0 st.events
  simp [Sweep.peekPoint, hs.1.2 h]

theorem peek_some {e : Event K} (h : e ∈ st.events) (hb : ∀ e' ∈ st.events, e.Before e') : st.peekPoint = some e.point := by
  have hs := heapPop_spec 0 st.events
  cases hh : heapPop 0 st.events with
  | none => rw [hs.1.1 hh] at h; cases h
  | some pr =>
    obtain ⟨e2, E'⟩ := pr
    obtain ⟨h1, h2⟩ := hs.2 e2 E' hh
    have he2 : e2 ∈ st.events := h1.mem_iff.2 (by simp)
    simp only [Sweep.peekPoint, hh, Option.map_some, Option.some.injEq]
    rcases hb e2 he2 with a | a <;> rcases h2 e h with b | b
    · exact absurd (a.trans b) (lt_irrefl _)
    · exact b.1
    · exact a.1.symm
    · exact b.1

/-- What handling the event `e` does. -/
structure Stepped (org : C → Pt K) (lineOf : C → Line K) (nextAfter : K → K) (choice : Nat → Nat) (st : Sweep K C) (X : Abs K C) (e : Event K)
    (E' : List (Event K)) (st' : Sweep K C) (out : Out K C) (X' : Abs K C) : Prop where
  code : st.nextEvent lineOf nextAfter choice = some (some (st', out, e.point))
  inv : Inv org e.point st' X'
  prims : Prims org (e.ty = .pointLeft) e.point { X with E := E' } X'
  log : X'.log = X.log ++ stamp e.point out
  quiet : out = [] → X' = { X with E := E' } ∧ ((e.ty = .lineRight ∧ ∀ g ∈ X.A, g.rightEv ≠ e) ∨ e.ty = .pointRight)
  pt : e.ty = .pointLeft → ∃ g ∈ X.Q, g.root = e.segmentKey ∧ g.p = e.point ∧ Emits org g g.mem .pointLeft out

theorem step (lineOf : C → Line K) (nextAfter : K → K) (choice : Nat → Nat) (h : Inv org pos st X) :
    (X.E = [] ∧ st.peekPoint = none ∧ st.nextEvent lineOf nextAfter choice = some none) ∨
    ∃ e E' st' out X', X.E.Perm (e :: E') ∧ (∀ e' ∈ X.E, e.Before e') ∧ st.peekPoint = some e.point ∧ pos ≤ e.point ∧
      Stepped org lineOf nextAfter choice st X e E' st' out X' := by
  have hs := heapPop_spec (choice st.clock) st.events
  cases hh : heapPop (choice st.clock) st.events with
  | none =>
    have he := hs.1.1 hh
    refine .inl ⟨h.conc.ev ▸ he, peek_none he, ?_⟩
    simp [Sweep.nextEvent, Sweep.popEvent, hh]
  | some pr =>
    obtain ⟨e, E'⟩ := pr
    right
    obtain ⟨h1, h2⟩ := hs.2 e E' hh
    have hpk := peek_some (st := st) (h1.mem_iff.2 (by simp)) h2
    rw [h.conc.ev] at h1 h2
    have heE : e ∈ X.E := h1.mem_iff.2 (by simp)
    have hle := h.core.evpos e heE
    have hpt : ∀ e' ∈ X.E, e.point ≤ e'.point := by
      intro e' he'
      rcases h2 e' he' with a | a
      · exact a.le
      · exact a.1.le
    obtain ⟨hK, hc⟩ := h.core.advance h.chain h.S hle hpt
    have hK1 : Core e.point { X with E := e :: E' } := hK.permE h1
    obtain ⟨st1, hst1⟩ : ∃ st1 : Sweep K C, st1 = { st with events := E', clock := st.clock + 1 } := ⟨_, rfl⟩
    have hC1 : Conc org st1 { X with E := E' } := by
      subst hst1; exact ⟨h.conc.rep, h.conc.act, h.conc.size, rfl⟩
    have hnext : ∀ {st' out b}, Sweep.handleEvent lineOf nextAfter choice 2 st1 e = some (st', out, b) →
        st.nextEvent lineOf nextAfter choice = some (some (st', out, e.point)) := by
      intro st' out b hh'
      simp only [Sweep.nextEvent, Sweep.popEvent, hh, Option.bind_eq_bind, Option.bind_some, Option.pure_def]
      rw [← hst1, hh']
      rfl
    cases ht : e.ty with
    | lineRight =>
      by_cases hex : ∃ g ∈ X.A, g.rightEv = e
      · obtain ⟨g, hg, rfl⟩ := hex
        obtain ⟨L, R, hA⟩ := List.append_of_mem hg
        have hc' := hc
        unfold Abs.Chain Abs.sgs at hc'
        rw [hA, show L ++ g :: R = L ++ ([g] ++ R) from rfl, List.map_append, Sg.chain_append, List.map_append, Sg.chain_append] at hc'
        obtain ⟨st', X', out, L', R', r1, r2, r3, r4, r5, r6, r7, r8, r9, r10⟩ := right_real lineOf nextAfter choice 1
          (X := { X with E := E' }) hC1 hK1 hA rfl hc'.1 hc'.2.1.2.1
        exact ⟨_, E', st', out, X', h1, h2, hpk, hle, hnext r1, ⟨r2, r3, r4, r10.S.trans h.S⟩, r5, r10.log, fun h0 => absurd h0 r9,
          fun h0 => by rw [ht] at h0; cases h0⟩
      · push Not at hex
        obtain ⟨r1, r2⟩ := right_stale lineOf nextAfter choice 1 (X := { X with E := E' }) hC1 hK1 ht rfl hex
        exact ⟨e, E', st1, [], { X with E := E' }, h1, h2, hpk, hle, hnext r1, ⟨hC1, r2, hc, h.S⟩, .refl _, by simp [stamp],
          fun _ => ⟨rfl, .inl ⟨ht, hex⟩⟩, fun h0 => by rw [ht] at h0; cases h0⟩
    | lineLeft =>
      obtain ⟨st', X', out, r1, r2, r3⟩ := left_event lineOf nextAfter choice 0 (X := { X with E := E' }) hC1 hK1 ht rfl h.S hc
        (fun e' he' => h2 e' (h1.mem_iff.2 (List.mem_cons_of_mem _ he')))
      exact ⟨e, E', st', out, X', h1, h2, hpk, hle, hnext r1, ⟨r2.conc, r2.core, r2.chain, r2.S⟩, r2.prims, r2.log,
        fun h0 => absurd h0 r3, fun h0 => by rw [ht] at h0; cases h0⟩
    | pointLeft =>
      obtain ⟨st', X', out, r1, r2, r3, r4, r5, r6, r7, r8, r9⟩ := point_left lineOf nextAfter choice 1 (allow := e.ty = .pointLeft) ht (X := { X with E := E' })
        hC1 hK1 ht rfl hc
      exact ⟨e, E', st', out, X', h1, h2, hpk, hle, hnext r1, ⟨r2, r3, r4, r6.trans h.S⟩, r5, r8, fun h0 => absurd h0 r7, fun _ => r9⟩
    | pointRight =>
      obtain ⟨st', r1, r2, r3⟩ := point_right lineOf nextAfter choice 1 (X := { X with E := E' }) hC1 hK1 ht rfl
      exact ⟨e, E', st', [], { X with E := E' }, h1, h2, hpk, hle, hnext r1, ⟨r2, r3, hc, h.S⟩, .refl _, by simp [stamp],
        fun _ => ⟨rfl, .inr ht⟩, fun h0 => by rw [ht] at h0; cases h0⟩

end GeoCrossings

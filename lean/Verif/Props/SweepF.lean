import Verif.Lemmas.SafeEvents
import Verif.Lemmas.RefineSweep
import Verif.Lemmas.Endless
import Verif.Props.Sweep
import Verif.Props.Rounded

/-!
# C76, C77: what can go wrong in the sweep with rounded arithmetic

`sweepF debug A lineOf choice depth n input` is a sweep of `n` events in the arithmetic `A` (`Model/SweepF.lean`). A run can end with a panic,
with an unchecked access to a vacant slot, or not at all.
-/
set_option linter.unusedSectionVars false
namespace GeoCrossings
open Spec Fault

section exact
variable {K C : Type} [Field K] [LinearOrder K] [IsStrictOrderedRing K]
variable {lineOf : C → Line K} {nextAfter : K → K} {choice : Nat → Nat} {input : List C}

theorem rounded_exact (debug : Bool) (nextAfter : K → K) : (Arith.rounded (K := K) debug properIntersection nextAfter).Exact nextAfter := by
  have : ∀ a b o, LineOrPoint.intersectLineOrdered nextAfter a b = some o →
      LineOrPoint.intersectLineOrderedR debug properIntersection nextAfter a b = some o := by
    intro a b o h
    unfold LineOrPoint.intersectLineOrdered at h
    unfold LineOrPoint.intersectLineOrderedR
    rw [intersectLineR_exact]
    split at h
    · cases h
    · next pt hp =>
      rw [hp]
      dsimp only at h ⊢
      by_cases hc : a.first ≤ ⟨if pt.x = a.first.x ∧ pt.y < a.first.y then nextAfter pt.x else pt.x, pt.y⟩ ∧
          b.first ≤ ⟨if pt.x = a.first.x ∧ pt.y < a.first.y then nextAfter pt.x else pt.x, pt.y⟩
      · rw [if_pos hc] at h
        rw [if_neg fun hd => hd.2 hc]
        exact h
      · rw [if_neg hc] at h; cases h
    · next e h1 h2 =>
      rw [h2]
      cases h
      cases o with
      | none => rfl
      | some g =>
        cases g with
        | point p => exact absurd rfl (h1 p)
        | line p q => rfl
  exact ⟨rfl, this, this⟩

/-- `n` calls of `next_event` of `Model/Sweep.lean`, which is defined in exact arithmetic and where nothing goes wrong. -/
def eventsO (lineOf : C → Line K) (nextAfter : K → K) (choice : Nat → Nat) : Nat → Sweep K C → Option (Sweep K C × Out K C)
  | 0, st => some (st, [])
  | n + 1, st =>
    match st.nextEvent lineOf nextAfter choice with
    | none => none
    | some none => some (st, [])
    | some (some (st, out, _)) => do
      let (st, outs) ← eventsO lineOf nextAfter choice n st
      pure (st, out ++ outs)

/-- **C76, exact arithmetic.** For all inputs, orders of equal events and numbers of events, debug build or not, the sweep has no fault: no
panic, no access out of bounds, no endless walk, and `handle_event` calls itself at most once. It does what the sweep of `Model/Sweep.lean` does,
of which C19–C26 and C31 speak. -/
theorem C76_exact (debug : Bool) (lineOf : C → Line K) (nextAfter : K → K) (choice : Nat → Nat) (input : List C) (n : Nat) :
    ∃ st0 st out, Sweep.new lineOf input = some st0 ∧ eventsO lineOf nextAfter choice n st0 = some (st, out) ∧
      Reachable lineOf nextAfter choice input st ∧
      Sweep.sweepF debug (Arith.rounded debug properIntersection nextAfter) lineOf choice 2 n input = .ok (st, out) := by
  have hA := rounded_exact (K := K) debug nextAfter
  obtain ⟨pos, st0, X, h1, -⟩ := full_init (org := fun c => (LineOrPoint.ofLine (lineOf c)).first) lineOf input (fun _ _ => rfl)
  have key : ∀ n (st : Sweep K C), Reachable lineOf nextAfter choice input st → ∃ st' out, eventsO lineOf nextAfter choice n st = some (st', out) ∧
      Reachable lineOf nextAfter choice input st' ∧
      Sweep.eventsF debug (Arith.rounded debug properIntersection nextAfter) lineOf choice 2 n st = .ok (st', out) := by
    intro n
    induction n with
    | zero => exact fun st hr => ⟨st, [], rfl, hr, rfl⟩
    | succ n ih =>
      intro st hr
      obtain ⟨pos, X, hF⟩ := reachable_full hr
      rcases step lineOf nextAfter choice hF.inv with ⟨-, -, h3⟩ | ⟨e, E', st1, out1, X', -, -, -, -, hs⟩
      · refine ⟨st, [], by unfold eventsO; rw [h3], hr, ?_⟩
        unfold Sweep.eventsF
        unfold Sweep.nextEvent at h3
        cases hp : st.popEvent choice with
        | none => rfl
        | some r =>
          rw [hp] at h3
          dsimp only at h3
          cases hh : Sweep.handleEvent lineOf nextAfter choice 2 r.2 r.1 with
          | none => rw [hh] at h3; cases h3
          | some x => rw [hh] at h3; cases h3
      · have hc := hs.code
        obtain ⟨st2, out2, g1, g2, g3⟩ := ih st1 (.event hr hc)
        refine ⟨st2, out1 ++ out2, by unfold eventsO; rw [hc]; dsimp only; rw [g1]; rfl, g2, ?_⟩
        unfold Sweep.eventsF
        unfold Sweep.nextEvent at hc
        cases hp : st.popEvent choice with
        | none => rw [hp] at hc; cases hc
        | some r =>
          rw [hp] at hc
          dsimp only at hc ⊢
          cases hh : Sweep.handleEvent lineOf nextAfter choice 2 r.2 r.1 with
          | none => rw [hh] at hc; cases hc
          | some x =>
            rw [hh] at hc
            obtain ⟨y1, y2, y3⟩ := x
            simp only [Option.bind_eq_bind, Option.bind_some, Option.pure_def, Option.some.injEq, Prod.mk.injEq] at hc
            obtain ⟨rfl, rfl, -⟩ := hc
            rw [Sweep.handleEventF_ref hA 2 r.2 r.1 _ hh]
            rw [Splay.ok_bind]
            dsimp only
            rw [g3]
            rfl
  obtain ⟨st, out, g1, g2, g3⟩ := key n st0 (.new h1)
  refine ⟨st0, st, out, h1, g1, g2, ?_⟩
  unfold Sweep.sweepF
  rw [Sweep.newF_ref input st0 h1]
  exact g3

end exact

/-! ## Rounded arithmetic -/

/-- Rounding to the nearest integer, to the even one of two. -/
def rdEven (x : ℚ) : ℚ :=
  if 2 * (x - x.floor) < 1 ∨ 2 * (x - x.floor) = 1 ∧ x.floor % 2 = 0 then x.floor else x.floor + 1

theorem rdEven_int (x : ℚ) : ∃ n : ℤ, rdEven x = n := by
  unfold rdEven
  split
  · exact ⟨_, rfl⟩
  · exact ⟨x.floor + 1, by push_cast; rfl⟩

theorem rdEven_near (x : ℚ) : |rdEven x - x| ≤ 1 / 2 := by
  have h1 : (x.floor : ℚ) ≤ x := Int.floor_le x
  have h2 : x < x.floor + 1 := Int.lt_floor_add_one x
  unfold rdEven
  rw [abs_le]
  split
  · next h =>
    rcases h with h | h <;> constructor <;> linarith
  · next h =>
    push Not at h
    constructor <;> linarith [h.1]

theorem rdEven_mono : Monotone rdEven := by
  intro x y h
  obtain ⟨n, hn⟩ := rdEven_int x
  obtain ⟨m, hm⟩ := rdEven_int y
  rw [hn, hm]
  by_contra hc
  rw [not_le] at hc
  have hc' : (m : ℚ) + 1 ≤ n := by exact_mod_cast (by exact_mod_cast hc : m < n)
  have hx := abs_le.1 (rdEven_near x)
  have hy := abs_le.1 (rdEven_near y)
  rw [hn] at hx
  rw [hm] at hy
  have : x = y := le_antisymm h (by linarith [hx.2, hy.1])
  subst this
  rw [hn] at hm
  have : n = m := by exact_mod_cast hm
  subst this
  linarith

theorem rdEven_fix (n : ℤ) : rdEven n = n := by
  have : (n : ℚ).floor = n := Rat.floor_intCast n
  unfold rdEven
  rw [this, if_pos (.inl (by norm_num))]

/-- Crossing points rounded to the nearest integers are in the bounding boxes of both segments. -/
theorem boxed_even : Boxed intGrid (roundedIp rdEven) :=
  boxed_of_rounding _ _ rdEven_mono (by rintro _ ⟨n, rfl⟩; exact rdEven_fix n) (fun x => rdEven_int x)

/-- How a sweep of lines ends, in an arithmetic of integers that are rounded to the nearest. -/
def evenSweep (debug : Bool) (input : List (Line ℚ)) : Option Fault :=
  match Sweep.sweepF debug (Arith.rounded debug (roundedIp rdEven) intGrid.up) id (fun _ => 0) 2 1000 input with
  | .ok _ => none
  | .error e => some e

/-- Integer end points. -/
def IntLines (input : List (Line ℚ)) : Prop := ∀ l ∈ input, intGrid.RepPt l.start ∧ intGrid.RepPt l.stop


/-- Three segments on which the sweep panics. -/
def panicInput : List (Line ℚ) := [⟨⟨2, 0⟩, ⟨0, 1⟩⟩, ⟨⟨1, 1⟩, ⟨1, 0⟩⟩, ⟨⟨1, 0⟩, ⟨2, 0⟩⟩]

/-- Four segments on which the sweep does not end. -/
def endlessInput : List (Line ℚ) := [⟨⟨2, 1⟩, ⟨4, 0⟩⟩, ⟨⟨0, 1⟩, ⟨7, 0⟩⟩, ⟨⟨2, 2⟩, ⟨1, 1⟩⟩, ⟨⟨2, 2⟩, ⟨2, 1⟩⟩]

/-- Six segments on which the sweep reads a slot that is vacant. -/
def outOfBoundsInput : List (Line ℚ) :=
  [⟨⟨19, -5⟩, ⟨1, 5⟩⟩, ⟨⟨6, 4⟩, ⟨2, 4⟩⟩, ⟨⟨-8, 10⟩, ⟨19, -5⟩⟩, ⟨⟨8, 1⟩, ⟨2, 5⟩⟩, ⟨⟨1, 4⟩, ⟨10, 2⟩⟩, ⟨⟨9, 1⟩, ⟨6, 3⟩⟩]

theorem intLines : IntLines panicInput ∧ IntLines endlessInput ∧ IntLines outOfBoundsInput := by
  have h : ∀ x : ℚ, (x.floor : ℚ) = x → intGrid.rep x := fun x h => ⟨x.floor, h.symm⟩
  have h' : ∀ l : List (Line ℚ), (∀ a ∈ l, ((a.start.x.floor : ℚ) = a.start.x ∧ (a.start.y.floor : ℚ) = a.start.y) ∧
      (a.stop.x.floor : ℚ) = a.stop.x ∧ (a.stop.y.floor : ℚ) = a.stop.y) → IntLines l :=
    fun l hl a ha => ⟨⟨h _ (hl a ha).1.1, h _ (hl a ha).1.2⟩, h _ (hl a ha).2.1, h _ (hl a ha).2.2⟩
  exact ⟨h' _ (by decide +kernel), h' _ (by decide +kernel), h' _ (by decide +kernel)⟩

set_option maxRecDepth 100000

/-- **C76, panics.** With crossing points that are correctly rounded to the nearest representable point the sweep of three segments panics, in a
release build too. -/
theorem C76_panics (debug : Bool) : evenSweep debug panicInput = some .panic := by cases debug <;> decide +kernel

/-- **C76, an endless loop.** On these four segments the callback is called for ever. -/
theorem C76_endless (debug : Bool) : evenSweep debug endlessInput = some .endless := by cases debug <;> decide +kernel

/-- **C76, undefined behaviour.** On these six segments `get_unchecked` is called with the key of a vacant slot (sweep.rs:527), in a debug build
too. The safety comment of `Active::new` says that keys whose order changes do not lead to undefined behaviour (active.rs:31-35); here they do. -/
theorem C76_out_of_bounds (debug : Bool) : evenSweep debug outOfBoundsInput = some .outOfBounds := by cases debug <;> decide +kernel

/-- The same segments in exact arithmetic. -/
example : ∃ st out, Sweep.sweepF true (Arith.rounded true properIntersection intGrid.up) id (fun _ => 0) 2 1000 outOfBoundsInput = .ok (st, out) := by
  obtain ⟨_, st, out, _, _, _, h⟩ := C76_exact true id intGrid.up (fun _ => 0) outOfBoundsInput 1000
  exact ⟨st, out, h⟩

/-! ## One more check -/

section guarded
variable {K C : Type} [LinearOrder K]

/-- A sweep with one more check, after the intersection of the segment of a left event with a neighbour (sweep.rs:436): an overlap must begin
where the segment does. -/
def Arith.guarded (A : Arith K) : Arith K :=
  { A with start := fun a b => match A.start a b with
      | some (some (.line r1 r2)) => if r1 = a.first then some (some (.line r1 r2)) else none
      | x => x }

theorem Arith.guarded_first (A : Arith K) {a b : LineOrPoint K} {r1 r2 : Pt K} (h : A.guarded.start a b = some (some (.line r1 r2))) :
    r1 = a.first := by
  unfold Arith.guarded at h
  dsimp only at h
  split at h
  · next s1 s2 _ =>
    split at h
    · next he => cases h; exact he
    · cases h
  · next x hx => exact absurd h (hx r1 r2)

/-- **C77.** Whatever the comparison and the intersections are – the comparison of a segment with itself must be `None` or `Equal` –, a sweep
with the check has a defined behaviour: it panics or it runs, but it never reads or writes a vacant slot, and no walk along overlap links is
endless. Here `handle_event` may call itself once; if it does so twice, as it never does in exact arithmetic, the model stops (`deep`). -/
theorem C77_safe (A : Arith K) (hA : ∀ g, A.cmp g g = none ∨ A.cmp g g = some .eq) (debug : Bool) (lineOf : C → Line K) (choice : Nat → Nat)
    (n : Nat) (input : List C) (f : Fault) (h : Sweep.sweepF debug A.guarded lineOf choice 2 n input = .error f) : f = .panic ∨ f = .deep := by
  have hov : ∀ a b r1 r2, A.guarded.start a b = some (some (.line r1 r2)) → r1 = a.first := fun a b r1 r2 h => A.guarded_first h
  have := Sweep.sweepF_safe (debug := debug) (A := A.guarded) (lineOf := lineOf) (choice := choice) (depth := 2)
    (Sweep.handleEventF_two (A := A.guarded) hA hov) n input
  rw [h] at this
  exact this

/-- **C77, without overlaps.** If `intersect_line_ordered` finds no overlaps in the loop of left events, the same holds without the check, however
deep the recursion. -/
theorem C77_no_overlaps (A : Arith K) (hA : ∀ g, A.cmp g g = none ∨ A.cmp g g = some .eq)
    (hov : ∀ a b r1 r2, A.start a b ≠ some (some (.line r1 r2))) (debug : Bool) (lineOf : C → Line K) (choice : Nat → Nat)
    (depth n : Nat) (input : List C) (f : Fault) (h : Sweep.sweepF debug A lineOf choice depth n input = .error f) : f = .panic ∨ f = .deep := by
  have := Sweep.sweepF_safe (debug := debug) (A := A) (lineOf := lineOf) (choice := choice) (depth := depth)
    (Sweep.handleEventF_any (A := A) hA hov depth) n input
  rw [h] at this
  exact this

end guarded

section
variable {K C : Type} [Field K] [LinearOrder K] [IsStrictOrderedRing K]

theorem pcmp_self (g : LineOrPoint K) : g.pcmp g = none ∨ g.pcmp g = some .eq := by
  cases g with
  | point p => right; simp [LineOrPoint.pcmp]
  | line p q =>
    simp only [LineOrPoint.pcmp, pcmpLineLine]
    rw [if_neg (lt_irrefl _)]
    split
    · left; rfl
    · right
      have h1 : orient2d p q p = .collinear := (orient2d_coll _ _ _).2 (by unfold det; ring)
      have h2 : orient2d p q q = .collinear := (orient2d_coll _ _ _).2 (by unfold det; ring)
      rw [h1, h2]; rfl

/-- **C77, the comparison of the crate.** Whatever point is computed for the crossing of two segments, and whatever `next_after` does. -/
theorem C77_rounded (ip : Line K → Line K → Pt K) (up : K → K) (debug : Bool) (lineOf : C → Line K) (choice : Nat → Nat)
    (n : Nat) (input : List C) (f : Fault)
    (h : Sweep.sweepF debug (Arith.rounded debug ip up).guarded lineOf choice 2 n input = .error f) : f = .panic ∨ f = .deep :=
  C77_safe _ pcmp_self debug lineOf choice n input f h

end

/-- The check turns the endless loop and the access to a vacant slot into panics. -/
example (debug : Bool) :
    (match Sweep.sweepF debug (Arith.rounded debug (roundedIp rdEven) intGrid.up).guarded id (fun _ => 0) 2 1000 endlessInput with
      | .ok _ => none
      | .error e => some e) = some .panic ∧
    (match Sweep.sweepF debug (Arith.rounded debug (roundedIp rdEven) intGrid.up).guarded id (fun _ => 0) 2 1000 outOfBoundsInput with
      | .ok _ => none
      | .error e => some e) = some .panic := by
  cases debug <;> decide +kernel

/-- Another sweep with the check runs to its end; two of its segments overlap, and a crossing is rounded. -/
example :
    (match Sweep.sweepF true (Arith.rounded true (roundedIp rdEven) intGrid.up).guarded id (fun _ => 0) 2 1000
        [⟨⟨0, 0⟩, ⟨8, 8⟩⟩, ⟨⟨0, 5⟩, ⟨9, 4⟩⟩, ⟨⟨2, 2⟩, ⟨10, 10⟩⟩] with
      | .ok (st, out) => (st.events.length, out.length)
      | .error _ => (0, 0)) = (0, 16) := by
  decide +kernel

end GeoCrossings

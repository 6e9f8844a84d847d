import Verif.Spec.Sweep
import Verif.Model.Sweep

/-!
# Counting what the sweep has to do

How many points lie within the input lines, and the states of the sweep after a number of calls.
-/
namespace GeoCrossings.Spec

variable {K C : Type} [Field K] [LinearOrder K]

open Classical in
/-- How many of the points `cl` lie strictly within the lines, counted once for each line. -/
noncomputable def incidences (ls : List (Line K)) (cl : List (Pt K)) : Nat :=
  (ls.map fun l => cl.countP fun r => decide (Between l.start l.stop r)).sum

/-- `k` calls of `Sweep::next_event` lead from one state to another, none of them being the last. -/
inductive After (lineOf : C → Line K) (nextAfter : K → K) (choice : Nat → Nat) : Sweep K C → Nat → Sweep K C → Prop
  | zero (st) : After lineOf nextAfter choice st 0 st
  | succ {st st1 st2 k out p} : After lineOf nextAfter choice st k st1 →
    st1.nextEvent lineOf nextAfter choice = some (some (st2, out, p)) → After lineOf nextAfter choice st (k + 1) st2

end GeoCrossings.Spec

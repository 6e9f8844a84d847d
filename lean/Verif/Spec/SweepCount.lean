import Verif.Model.SweepCount
import Verif.Spec.Sweep

/-!
# Calls of `next_event`, with the comparisons made so far
-/
namespace GeoCrossings.Spec

variable {K C : Type} [Field K] [LinearOrder K]

/-- `k` calls of `Sweep::next_event` lead from one state to another, none of them being the last, and the splay tree compares active
segments `c` times in them. -/
inductive AfterC (lineOf : C → Line K) (nextAfter : K → K) (choice : Nat → Nat) : Sweep K C → Nat → Sweep K C → Nat → Prop
  | zero (st) : AfterC lineOf nextAfter choice st 0 st 0
  | succ {st st1 st2 k c1 c2 out p} : AfterC lineOf nextAfter choice st k st1 c1 →
    (st1.nextEventC lineOf nextAfter choice).run c1 = some (some (st2, out, p), c2) → AfterC lineOf nextAfter choice st (k + 1) st2 c2

/-- No point is on two of the lines. -/
def NoneMeet (ls : List (Line K)) : Prop := ls.Pairwise fun a b => ∀ r, ¬ (OnLine a r ∧ OnLine b r)

end GeoCrossings.Spec

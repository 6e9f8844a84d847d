import Verif.Model.Splay
import Verif.Spec.OrdMap

/-!
# Specification: the ordered-map machine

Same alphabet of calls and answers as the model (`Op`, `Out`), but the state is a sorted association
list and every call is one of the obvious list operations of `Spec.OrdMap`.
-/
namespace GeoCrossings.Spec
open Splay (Op Out)
variable {K V : Type _}

/-- One call on a sorted association list. -/
def mapStep (cmp : K → K → Ordering) (l : List (K × V)) : Op K V → List (K × V) × Out K V
  | .insert k v => (OrdMap.insert cmp k v l, .val ((OrdMap.find cmp k l).map (·.2)))
  | .remove k => (OrdMap.erase cmp k l, .val ((OrdMap.find cmp k l).map (·.2)))
  | .get k => (l, .val ((OrdMap.find cmp k l).map (·.2)))
  | .write k v => (OrdMap.write cmp k v l, .val ((OrdMap.find cmp k l).map (·.2)))
  | .contains k => (l, .bool (OrdMap.find cmp k l).isSome)
  | .findKey k => (l, .key ((OrdMap.find cmp k l).map (·.1)))
  | .next k => (l, .entry (OrdMap.succ cmp k l))
  | .prev k => (l, .entry (OrdMap.pred cmp k l))
  | .min => (l, .key (l.head?.map (·.1)))
  | .max => (l, .key (l.getLast?.map (·.1)))
  | .len => (l, .nat l.length)
  | .isEmpty => (l, .bool l.isEmpty)
  | .clear => ([], .unit)
  | .extend es => (es.foldl (fun l e => OrdMap.insert cmp e.1 e.2 l) l, .unit)

/-- A history of calls. -/
def mapRun (cmp : K → K → Ordering) : List (K × V) → List (Op K V) → List (K × V) × List (Out K V)
  | l, [] => (l, [])
  | l, op :: ops =>
    let (l', o) := mapStep cmp l op
    let (l'', os) := mapRun cmp l' ops
    (l'', o :: os)

/-- A double-ended queue of entries: `true` takes from the front, `false` from the back. The answer
records the entry taken and how many remain afterwards. -/
def dequeRun {E : Type _} : List E → List Bool → List (Option E × Nat)
  | _, [] => []
  | l, true :: bs => (l.head?, l.tail.length) :: dequeRun l.tail bs
  | l, false :: bs => (l.getLast?, l.dropLast.length) :: dequeRun l.dropLast bs

end GeoCrossings.Spec

/-!
# Specification: a sorted association list

The simplest ordered map: a list of entries in strictly increasing key order. Written without
reference to the splay-tree model.
-/
namespace GeoCrossings.Spec

/-- A comparator is lawful if it is a total preorder: swapping the arguments swaps the answer and
"not greater" is transitive. It may equate distinct keys. -/
structure LawfulCmp {K : Type _} (cmp : K → K → Ordering) : Prop where
  swap : ∀ a b, cmp b a = (cmp a b).swap
  trans : ∀ a b c, cmp a b ≠ .gt → cmp b c ≠ .gt → cmp a c ≠ .gt

/-- Entries are in strictly increasing key order. -/
def SortedBy {K V : Type _} (cmp : K → K → Ordering) (l : List (K × V)) : Prop :=
  l.Pairwise fun a b => cmp a.1 b.1 = .lt

namespace OrdMap
variable {K V : Type _} (cmp : K → K → Ordering)

/-- The entry whose key is equal to `k`. -/
def find (k : K) (l : List (K × V)) : Option (K × V) := l.find? fun e => cmp k e.1 = .eq

/-- Insert at its place; an equal key keeps its stored key and gets the new value. -/
def insert (k : K) (v : V) : List (K × V) → List (K × V)
  | [] => [(k, v)]
  | (k', v') :: l =>
    match cmp k k' with
    | .lt => (k, v) :: (k', v') :: l
    | .eq => (k', v) :: l
    | .gt => (k', v') :: insert k v l

/-- Remove the entry with an equal key. -/
def erase (k : K) (l : List (K × V)) : List (K × V) := l.filter fun e => cmp k e.1 ≠ .eq

/-- Overwrite the value of the entry with an equal key. -/
def write (k : K) (v : V) (l : List (K × V)) : List (K × V) :=
  l.map fun e => if cmp k e.1 = .eq then (e.1, v) else e

/-- The first entry strictly above `k`. -/
def succ (k : K) (l : List (K × V)) : Option (K × V) := l.find? fun e => cmp k e.1 = .lt

/-- The last entry strictly below `k`. -/
def pred (k : K) (l : List (K × V)) : Option (K × V) := (l.filter fun e => cmp k e.1 = .gt).getLast?

end OrdMap
end GeoCrossings.Spec

import Verif.Model.Splay

/-!
# The calls of the comparator in `src/splay`, without a monad

The number of calls that `Model/SplayM.lean` makes (`runM_counting`), as functions that are easier to reason about.
-/

namespace GeoCrossings.Splay
open Tree

variable {K V : Type _}

/-- The `loop` of `splay`, splay/tree.rs:412-465, with the number of calls of the comparator so far: one at 413, a second one at 423
or 449 if there is a child on that side. -/
def splayLoopT (cmp : K → K → Ordering) (key : K) :
    Tree K V → List (Tree K V × K × V) → List (K × V × Tree K V) → Nat → Tree K V × Nat
  | nil, _, _, n => (nil, n)
  | node l k v r, L, R, n =>
    match cmp key k with
    | .eq => (splayFinish L R l k v r, n + 1)
    | .lt =>
      match l with
      | nil => (splayFinish L R nil k v r, n + 1)
      | node ll lk lv lr =>
        if cmp key lk = .lt then
          match ll with
          | nil => (splayFinish L R nil lk lv (node lr k v r), n + 2)
          | node lll llk llv llr =>
            splayLoopT cmp key (node lll llk llv llr) L ((lk, lv, node lr k v r) :: R) (n + 2)
        else
          splayLoopT cmp key (node ll lk lv lr) L ((k, v, r) :: R) (n + 2)
    | .gt =>
      match r with
      | nil => (splayFinish L R l k v nil, n + 1)
      | node rl rk rv rr =>
        if cmp key rk = .gt then
          match rr with
          | nil => (splayFinish L R (node l k v rl) rk rv nil, n + 2)
          | node rrl rrk rrv rrr =>
            splayLoopT cmp key (node rrl rrk rrv rrr) ((node l k v rl, rk, rv) :: L) R (n + 2)
        else
          splayLoopT cmp key (node rl rk rv rr) ((l, k, v) :: L) R (n + 2)

/-- The calls of the comparator in `splay`, splay/tree.rs:398-473. -/
def splayCost (cmp : K → K → Ordering) (key : K) (t : Tree K V) : Nat := (splayLoopT cmp key t [] [] 0).2

/-- The descent loop of `next`, splay/tree.rs:103-117, with the number of calls at 104. -/
def nextLoopT (cmp : K → K → Ordering) (key : K) : Tree K V → Option (K × V) → Nat → Option (K × V) × Nat
  | nil, succ, n => (succ, n)
  | node l k v r, succ, n =>
    match cmp key k with
    | .lt => nextLoopT cmp key l (some (k, v)) (n + 1)
    | .eq => nextLoopT cmp key r succ (n + 1)
    | .gt => nextLoopT cmp key r succ (n + 1)

/-- The descent loop of `prev`, splay/tree.rs:134-148, with the number of calls at 135. -/
def prevLoopT (cmp : K → K → Ordering) (key : K) : Tree K V → Option (K × V) → Nat → Option (K × V) × Nat
  | nil, pred, n => (pred, n)
  | node l k v r, pred, n =>
    match cmp key k with
    | .eq => prevLoopT cmp key l pred (n + 1)
    | .lt => prevLoopT cmp key l pred (n + 1)
    | .gt => prevLoopT cmp key r (some (k, v)) (n + 1)

/-- The calls of the comparator in a function that splays and then compares with the root, if there is one: `get` (45-58), `get_mut`
(60-74), `find_key` (76-89) and with it `contains` (41-43), `insert` (153-183). -/
def accessCost (cmp : K → K → Ordering) (s : SplayTree K V) (key : K) : Nat :=
  match splay cmp key s.root with
  | nil => splayCost cmp key s.root
  | node _ _ _ _ => splayCost cmp key s.root + 1

/-- The calls of the comparator in `remove`, splay/tree.rs:185-211: if the key is found, the left tree is splayed as well (203). -/
def removeCost (cmp : K → K → Ordering) (s : SplayTree K V) (key : K) : Nat :=
  match splay cmp key s.root with
  | nil => splayCost cmp key s.root
  | node l k _ _ => splayCost cmp key s.root + 1 + if cmp key k = .eq then splayCost cmp key l else 0

/-- The calls of the comparator in `next`, splay/tree.rs:91-120. -/
def nextCost (cmp : K → K → Ordering) (s : SplayTree K V) (key : K) : Nat :=
  splayCost cmp key s.root + (nextLoopT cmp key (splay cmp key s.root) none 0).2

/-- The calls of the comparator in `prev`, splay/tree.rs:122-151. -/
def prevCost (cmp : K → K → Ordering) (s : SplayTree K V) (key : K) : Nat :=
  splayCost cmp key s.root + (prevLoopT cmp key (splay cmp key s.root) none 0).2

/-- The calls of the comparator in `extend`, splay/tree.rs:283-287. -/
def extendCost (cmp : K → K → Ordering) : SplayTree K V → List (K × V) → Nat
  | _, [] => 0
  | s, (k, v) :: l => accessCost cmp s k + extendCost cmp (s.insert cmp k v).1 l

/-- The calls of the comparator in one API call. -/
def stepCost (cmp : K → K → Ordering) (s : SplayTree K V) : Op K V → Nat
  | .insert k _ => accessCost cmp s k
  | .remove k => removeCost cmp s k
  | .get k => accessCost cmp s k
  | .write k _ => accessCost cmp s k
  | .contains k => accessCost cmp s k
  | .findKey k => accessCost cmp s k
  | .next k => nextCost cmp s k
  | .prev k => prevCost cmp s k
  | .min => 0
  | .max => 0
  | .len => 0
  | .isEmpty => 0
  | .clear => 0
  | .extend l => extendCost cmp s l

/-- The calls of the comparator in a history. -/
def runCost (cmp : K → K → Ordering) : SplayTree K V → List (Op K V) → Nat
  | _, [] => 0
  | s, op :: ops => stepCost cmp s op + runCost cmp (step cmp s op).1 ops

end GeoCrossings.Splay

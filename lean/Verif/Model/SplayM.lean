import Verif.Model.Splay

/-!
# `src/splay` with an effectful comparator

The functions of `Model/Splay.lean` once more, with a comparator in any monad. With a comparator that counts its calls, this gives the
number of comparisons; that the results are those of `Model/Splay.lean` is proved (`runM_counting`).
-/

namespace GeoCrossings.Splay
open Tree

variable {K V : Type} {m : Type → Type} [Monad m]

/-- The `loop` of `splay`, splay/tree.rs:412-465. The comparator is called at 413, and at 423 or 449 if there is a child on that side. -/
def splayLoopM (cmp : K → K → m Ordering) (key : K) :
    Tree K V → List (Tree K V × K × V) → List (K × V × Tree K V) → m (Tree K V)
  | nil, _, _ => pure nil
  | node l k v r, L, R => do
    match ← cmp key k with
    | .eq => pure (splayFinish L R l k v r)
    | .lt =>
      match l with
      | nil => pure (splayFinish L R nil k v r)
      | node ll lk lv lr =>
        if (← cmp key lk) = .lt then
          match ll with
          | nil => pure (splayFinish L R nil lk lv (node lr k v r))
          | node lll llk llv llr =>
            splayLoopM cmp key (node lll llk llv llr) L ((lk, lv, node lr k v r) :: R)
        else
          splayLoopM cmp key (node ll lk lv lr) L ((k, v, r) :: R)
    | .gt =>
      match r with
      | nil => pure (splayFinish L R l k v nil)
      | node rl rk rv rr =>
        if (← cmp key rk) = .gt then
          match rr with
          | nil => pure (splayFinish L R (node l k v rl) rk rv nil)
          | node rrl rrk rrv rrr =>
            splayLoopM cmp key (node rrl rrk rrv rrr) ((node l k v rl, rk, rv) :: L) R
        else
          splayLoopM cmp key (node rl rk rv rr) ((l, k, v) :: L) R

/-- `splay`, splay/tree.rs:398-473. -/
def splayM (cmp : K → K → m Ordering) (key : K) (t : Tree K V) : m (Tree K V) := splayLoopM cmp key t [] []

/-- `get`, splay/tree.rs:45-58. -/
def SplayTree.getM (cmp : K → K → m Ordering) (s : SplayTree K V) (key : K) : m (SplayTree K V × Option V) := do
  match ← splayM cmp key s.root with
  | nil => pure (s, none)
  | node l k v r => pure ({ s with root := node l k v r }, if (← cmp key k) = .eq then some v else none)

/-- `get_mut` and a write, splay/tree.rs:60-74. -/
def SplayTree.getMutM (cmp : K → K → m Ordering) (s : SplayTree K V) (key : K) (f : V → V) : m (SplayTree K V × Option V) := do
  match ← splayM cmp key s.root with
  | nil => pure (s, none)
  | node l k v r =>
    if (← cmp key k) = .eq then pure ({ s with root := node l k (f v) r }, some v)
    else pure ({ s with root := node l k v r }, none)

/-- `find_key`, splay/tree.rs:76-89. -/
def SplayTree.findKeyM (cmp : K → K → m Ordering) (s : SplayTree K V) (key : K) : m (SplayTree K V × Option K) := do
  match ← splayM cmp key s.root with
  | nil => pure (s, none)
  | node l k v r => pure ({ s with root := node l k v r }, if (← cmp key k) = .eq then some k else none)

/-- `contains`, splay/tree.rs:41-43. -/
def SplayTree.containsM (cmp : K → K → m Ordering) (s : SplayTree K V) (key : K) : m (SplayTree K V × Bool) := do
  let (s', r) ← s.findKeyM cmp key
  pure (s', r.isSome)

/-- The descent loop of `next`, splay/tree.rs:103-117. -/
def nextLoopM (cmp : K → K → m Ordering) (key : K) : Tree K V → Option (K × V) → m (Option (K × V))
  | nil, succ => pure succ
  | node l k v r, succ => do
    match ← cmp key k with
    | .lt => nextLoopM cmp key l (some (k, v))
    | .eq => nextLoopM cmp key r succ
    | .gt => nextLoopM cmp key r succ

/-- `next`, splay/tree.rs:91-120. -/
def SplayTree.nextM (cmp : K → K → m Ordering) (s : SplayTree K V) (key : K) : m (SplayTree K V × Option (K × V)) := do
  let t ← splayM cmp key s.root
  pure ({ s with root := t }, ← nextLoopM cmp key t none)

/-- The descent loop of `prev`, splay/tree.rs:134-148. -/
def prevLoopM (cmp : K → K → m Ordering) (key : K) : Tree K V → Option (K × V) → m (Option (K × V))
  | nil, pred => pure pred
  | node l k v r, pred => do
    match ← cmp key k with
    | .eq => prevLoopM cmp key l pred
    | .lt => prevLoopM cmp key l pred
    | .gt => prevLoopM cmp key r (some (k, v))

/-- `prev`, splay/tree.rs:122-151. -/
def SplayTree.prevM (cmp : K → K → m Ordering) (s : SplayTree K V) (key : K) : m (SplayTree K V × Option (K × V)) := do
  let t ← splayM cmp key s.root
  pure ({ s with root := t }, ← prevLoopM cmp key t none)

/-- `insert`, splay/tree.rs:153-183. -/
def SplayTree.insertM (cmp : K → K → m Ordering) (s : SplayTree K V) (key : K) (value : V) : m (SplayTree K V × Option V) := do
  match ← splayM cmp key s.root with
  | nil => pure (⟨node nil key value nil, s.size + 1⟩, none)
  | node l k v r =>
    match ← cmp key k with
    | .eq => pure ({ s with root := node l k value r }, some v)
    | .lt => pure (⟨node l key value (node nil k v r), s.size + 1⟩, none)
    | .gt => pure (⟨node (node l k v nil) key value r, s.size + 1⟩, none)

/-- Lines 200-207 of splay/tree.rs. -/
def joinAfterRemoveM (cmp : K → K → m Ordering) (key : K) (left right : Tree K V) : m (Tree K V) := do
  match ← splayM cmp key left with
  | nil => pure right
  | node l k v _ => pure (node l k v right)

/-- `remove`, splay/tree.rs:185-211. The inner `none` is the panic of `self.size -= 1` at zero, which comes last. -/
def SplayTree.removeM (cmp : K → K → m Ordering) (s : SplayTree K V) (key : K) : m (Option (SplayTree K V × Option V)) := do
  match ← splayM cmp key s.root with
  | nil => pure (some (s, none))
  | node l k v r =>
    if (← cmp key k) ≠ .eq then pure (some ({ s with root := node l k v r }, none))
    else
      let t ← joinAfterRemoveM cmp key l r
      match s.size with
      | 0 => pure none
      | n + 1 => pure (some (⟨t, n⟩, some v))

/-- `extend`, splay/tree.rs:283-287. -/
def SplayTree.extendM (cmp : K → K → m Ordering) : SplayTree K V → List (K × V) → m (SplayTree K V)
  | s, [] => pure s
  | s, (k, v) :: l => do
    let (s', _) ← s.insertM cmp k v
    s'.extendM cmp l

/-- One API call. -/
def stepM (cmp : K → K → m Ordering) (s : SplayTree K V) : Op K V → m (SplayTree K V × Out K V)
  | .insert k v => do let (s', r) ← s.insertM cmp k v; pure (s', .val r)
  | .remove k => do
    match ← s.removeM cmp k with
    | none => pure (s, .panic)
    | some (s', r) => pure (s', .val r)
  | .get k => do let (s', r) ← s.getM cmp k; pure (s', .val r)
  | .write k v => do let (s', r) ← s.getMutM cmp k (fun _ => v); pure (s', .val r)
  | .contains k => do let (s', r) ← s.containsM cmp k; pure (s', .bool r)
  | .findKey k => do let (s', r) ← s.findKeyM cmp k; pure (s', .key r)
  | .next k => do let (s', r) ← s.nextM cmp k; pure (s', .entry r)
  | .prev k => do let (s', r) ← s.prevM cmp k; pure (s', .entry r)
  | .min => pure (s, .key s.min)
  | .max => pure (s, .key s.max)
  | .len => pure (s, .nat s.len)
  | .isEmpty => pure (s, .bool s.isEmpty)
  | .clear => pure (s.clear, .unit)
  | .extend l => do pure (← s.extendM cmp l, .unit)

/-- Run a history. -/
def runM (cmp : K → K → m Ordering) : SplayTree K V → List (Op K V) → m (SplayTree K V × List (Out K V))
  | s, [] => pure (s, [])
  | s, op :: ops => do
    let (s', o) ← stepM cmp s op
    let (s'', os) ← runM cmp s' ops
    pure (s'', o :: os)

/-- A comparator that counts its calls. -/
def counting (cmp : K → K → Ordering) (a b : K) : StateM Nat Ordering := do
  modify (· + 1)
  pure (cmp a b)

/-- The number of calls of the comparator in a history of calls on a new tree. -/
def comparisons (cmp : K → K → Ordering) (ops : List (Op K V)) : Nat := ((runM (counting cmp) SplayTree.new ops).run 0).2

end GeoCrossings.Splay

/-!
# Model of `src/splay` (top-down splay tree)

Every definition cites the lines of `/repo/src/splay` it models.

Simplifications common to the file:
* `Box<Node>` / `Option<Box<Node>>` are the inductive type `Tree` (no aliasing is possible in the Rust code:
  boxes own their children);
* `UnsafeCell` interior mutation becomes returning the new tree;
* `usize` is `Nat`; a subtraction that would underflow is the panic value `none`.
-/

namespace GeoCrossings.Splay

/-- `Option<Box<Node<K, V>>>` — splay/node.rs:1-7. `nil` is `None`. -/
inductive Tree (K V : Type _) where
  | nil : Tree K V
  | node (left : Tree K V) (key : K) (value : V) (right : Tree K V) : Tree K V
deriving Repr, DecidableEq

namespace Tree

variable {K V : Type _}

/-- In-order sequence of entries; not a function of the crate, used to state what is stored. -/
def toList : Tree K V → List (K × V)
  | nil => []
  | node l k v r => l.toList ++ (k, v) :: r.toList

end Tree

open Tree

section
variable {K V : Type _}

/-- The tree under construction at `newright` (write cursor `l`), splay/tree.rs:402-414.
Each element is a node already hung there, innermost first, whose `right` field is the hole the
cursor `l` points to. Plugging `t` in the innermost hole gives the finished tree. -/
def plugL : List (Tree K V × K × V) → Tree K V → Tree K V
  | [], t => t
  | (lt, k, v) :: c, t => plugL c (node lt k v t)

/-- The tree under construction at `newleft` (write cursor `r`), splay/tree.rs:402-414.
Each element is a node already hung there, innermost first, whose `left` field is the hole. -/
def plugR : List (K × V × Tree K V) → Tree K V → Tree K V
  | [], t => t
  | (k, v, rt) :: c, t => plugR c (node t k v rt)

/-- Lines 467-473 of splay/tree.rs: after the loop, `node.left` is swapped into the hole `l`,
`node.right` into the hole `r`, and the two assembled trees become the children of `node`. -/
def splayFinish (L : List (Tree K V × K × V)) (R : List (K × V × Tree K V))
    (l : Tree K V) (k : K) (v : V) (r : Tree K V) : Tree K V :=
  node (plugL L l) k v (plugR R r)

/-- The `loop` of `splay`, splay/tree.rs:412-465, on the current `node` with the two partially
built trees. Case by case:
* `Equal` (415): break;
* `Less` with no left child (418-421): break;
* `Less`, `key < left.key` (423-434): rotate right; if the rotated root has no left child, break,
  otherwise hang it at the hole `r` and continue with its left child;
* `Less` otherwise (436-438): hang `node` at `r`, continue with `left`;
* `Greater` (443-463): mirror image.
The `nil` case does not occur: `splay` is called on a `Box`. -/
def splayLoop (cmp : K → K → Ordering) (key : K) :
    Tree K V → List (Tree K V × K × V) → List (K × V × Tree K V) → Tree K V
  | nil, _, _ => nil
  | node l k v r, L, R =>
    match cmp key k with
    | .eq => splayFinish L R l k v r
    | .lt =>
      match l with
      | nil => splayFinish L R nil k v r
      | node ll lk lv lr =>
        if cmp key lk = .lt then
          -- rotate right (425-427): new root is `left`, whose right child is the old root
          match ll with
          | nil => splayFinish L R nil lk lv (node lr k v r)
          | node lll llk llv llr =>
            splayLoop cmp key (node lll llk llv llr) L ((lk, lv, node lr k v r) :: R)
        else
          splayLoop cmp key (node ll lk lv lr) L ((k, v, r) :: R)
    | .gt =>
      match r with
      | nil => splayFinish L R l k v nil
      | node rl rk rv rr =>
        if cmp key rk = .gt then
          -- rotate left (450-452)
          match rr with
          | nil => splayFinish L R (node l k v rl) rk rv nil
          | node rrl rrk rrv rrr =>
            splayLoop cmp key (node rrl rrk rrv rrr) ((node l k v rl, rk, rv) :: L) R
        else
          splayLoop cmp key (node rl rk rv rr) ((l, k, v) :: L) R

/-- `splay`, splay/tree.rs:398-473. -/
def splay (cmp : K → K → Ordering) (key : K) (t : Tree K V) : Tree K V :=
  splayLoop cmp key t [] []

/-- `SplayTree`, splay/tree.rs:8-15 (the comparator is passed separately). -/
structure SplayTree (K V : Type _) where
  root : Tree K V
  size : Nat

/-- `SplayTree::new`, splay/tree.rs:21-27. -/
def SplayTree.new : SplayTree K V := ⟨nil, 0⟩

/-- `len`, splay/tree.rs:28-30. -/
def SplayTree.len (s : SplayTree K V) : Nat := s.size

/-- `is_empty`, splay/tree.rs:32-34. -/
def SplayTree.isEmpty (s : SplayTree K V) : Bool := s.len == 0

/-- `clear`, splay/tree.rs:36-39. -/
def SplayTree.clear (_ : SplayTree K V) : SplayTree K V := ⟨nil, 0⟩

/-- `get`, splay/tree.rs:45-58: splays, then compares with the root. -/
def SplayTree.get (cmp : K → K → Ordering) (s : SplayTree K V) (key : K) :
    SplayTree K V × Option V :=
  match splay cmp key s.root with
  | nil => (s, none)
  | node l k v r => ({ s with root := node l k v r }, if cmp key k = .eq then some v else none)

/-- `get_mut` followed by a write through the returned reference, splay/tree.rs:60-74:
`f` is what the caller does with the `&mut V`. -/
def SplayTree.getMut (cmp : K → K → Ordering) (s : SplayTree K V) (key : K) (f : V → V) :
    SplayTree K V × Option V :=
  match splay cmp key s.root with
  | nil => (s, none)
  | node l k v r =>
    if cmp key k = .eq then ({ s with root := node l k (f v) r }, some v)
    else ({ s with root := node l k v r }, none)

/-- `find_key`, splay/tree.rs:76-89. -/
def SplayTree.findKey (cmp : K → K → Ordering) (s : SplayTree K V) (key : K) :
    SplayTree K V × Option K :=
  match splay cmp key s.root with
  | nil => (s, none)
  | node l k v r => ({ s with root := node l k v r }, if cmp key k = .eq then some k else none)

/-- `contains`, splay/tree.rs:41-43. -/
def SplayTree.contains (cmp : K → K → Ordering) (s : SplayTree K V) (key : K) :
    SplayTree K V × Bool :=
  let (s', r) := s.findKey cmp key
  (s', r.isSome)

/-- The descent loop of `next`, splay/tree.rs:103-117. -/
def nextLoop (cmp : K → K → Ordering) (key : K) : Tree K V → Option (K × V) → Option (K × V)
  | nil, succ => succ
  | node l k v r, succ =>
    match cmp key k with
    | .lt => nextLoop cmp key l (some (k, v))
    | .eq => nextLoop cmp key r succ
    | .gt => nextLoop cmp key r succ

/-- `next`, splay/tree.rs:91-120. -/
def SplayTree.next (cmp : K → K → Ordering) (s : SplayTree K V) (key : K) :
    SplayTree K V × Option (K × V) :=
  let t := splay cmp key s.root
  ({ s with root := t }, nextLoop cmp key t none)

/-- The descent loop of `prev`, splay/tree.rs:134-148. -/
def prevLoop (cmp : K → K → Ordering) (key : K) : Tree K V → Option (K × V) → Option (K × V)
  | nil, pred => pred
  | node l k v r, pred =>
    match cmp key k with
    | .eq => prevLoop cmp key l pred
    | .lt => prevLoop cmp key l pred
    | .gt => prevLoop cmp key r (some (k, v))

/-- `prev`, splay/tree.rs:122-151. -/
def SplayTree.prev (cmp : K → K → Ordering) (s : SplayTree K V) (key : K) :
    SplayTree K V × Option (K × V) :=
  let t := splay cmp key s.root
  ({ s with root := t }, prevLoop cmp key t none)

/-- `insert`, splay/tree.rs:153-183. On `Equal` only the value is replaced (the stored key stays). -/
def SplayTree.insert (cmp : K → K → Ordering) (s : SplayTree K V) (key : K) (value : V) :
    SplayTree K V × Option V :=
  match splay cmp key s.root with
  | nil => (⟨node nil key value nil, s.size + 1⟩, none)
  | node l k v r =>
    match cmp key k with
    | .eq => ({ s with root := node l k value r }, some v)
    | .lt => (⟨node l key value (node nil k v r), s.size + 1⟩, none)
    | .gt => (⟨node (node l k v nil) key value r, s.size + 1⟩, none)

/-- Lines 200-207 of splay/tree.rs: the new root after taking the old one out. The splayed left
tree's right child is *overwritten* by `right` (204). -/
def joinAfterRemove (cmp : K → K → Ordering) (key : K) (left right : Tree K V) : Tree K V :=
  match splay cmp key left with
  | nil => right
  | node l k v _ => node l k v right

/-- `remove`, splay/tree.rs:185-211. The outer `none` is the panic of `self.size -= 1` at zero. -/
def SplayTree.remove (cmp : K → K → Ordering) (s : SplayTree K V) (key : K) :
    Option (SplayTree K V × Option V) :=
  match splay cmp key s.root with
  | nil => some (s, none)
  | node l k v r =>
    if cmp key k ≠ .eq then some ({ s with root := node l k v r }, none)
    else
      match s.size with
      | 0 => none
      | n + 1 => some (⟨joinAfterRemove cmp key l r, n⟩, some v)

/-- `min_node`, splay/tree.rs:221-233. -/
def minNode : Tree K V → Option (K × V)
  | nil => none
  | node nil k v _ => some (k, v)
  | node (node ll lk lv lr) _ _ _ => minNode (node ll lk lv lr)

/-- `max_node`, splay/tree.rs:235-247. -/
def maxNode : Tree K V → Option (K × V)
  | nil => none
  | node _ k v nil => some (k, v)
  | node _ _ _ (node rl rk rv rr) => maxNode (node rl rk rv rr)

/-- `min`, splay/tree.rs:213-215. -/
def SplayTree.min (s : SplayTree K V) : Option K := (minNode s.root).map (·.1)

/-- `max`, splay/tree.rs:217-219. -/
def SplayTree.max (s : SplayTree K V) : Option K := (maxNode s.root).map (·.1)

/-- `Index::index`, splay/tree.rs:266-268. The inner `none` is the `expect` panic. -/
def SplayTree.index (cmp : K → K → Ordering) (s : SplayTree K V) (key : K) :
    SplayTree K V × Option V := s.get cmp key

/-- `Extend::extend`, splay/tree.rs:283-287. -/
def SplayTree.extend (cmp : K → K → Ordering) (s : SplayTree K V) (l : List (K × V)) :
    SplayTree K V :=
  l.foldl (fun s kv => (s.insert cmp kv.1 kv.2).1) s

/-- `IntoIter`, splay/tree.rs:325-328. -/
structure IntoIter (K V : Type _) where
  cur : Tree K V
  remaining : Nat

/-- `into_iter`, splay/tree.rs:297-302. -/
def SplayTree.intoIter (s : SplayTree K V) : IntoIter K V := ⟨s.root, s.size⟩

/-- The loop of `IntoIter::next`, splay/tree.rs:337-355, on the node `cur` given by its fields:
rotate right until there is no left child, then give out the node and keep its right child. -/
def popFront : Tree K V → K → V → Tree K V → (K × V) × Tree K V
  | nil, k, v, r => ((k, v), r)
  | node ll lk lv lr, k, v, r => popFront ll lk lv (node lr k v r)

/-- The loop of `IntoIter::next_back`, splay/tree.rs:369-387. -/
def popBack : Tree K V → K → V → Tree K V → (K × V) × Tree K V
  | l, k, v, nil => ((k, v), l)
  | l, k, v, node rl rk rv rr => popBack (node l k v rl) rk rv rr
termination_by _ _ _ r => sizeOf r

/-- `IntoIter::next`, splay/tree.rs:332-356. Outer `none`: `self.remaining -= 1` panics at zero. -/
def IntoIter.next (it : IntoIter K V) : Option (IntoIter K V × Option (K × V)) :=
  match it.cur with
  | nil => some (it, none)
  | node l k v r =>
    match it.remaining with
    | 0 => none
    | n + 1 => let (e, t) := popFront l k v r; some (⟨t, n⟩, some e)

/-- `IntoIter::next_back`, splay/tree.rs:364-388. -/
def IntoIter.nextBack (it : IntoIter K V) : Option (IntoIter K V × Option (K × V)) :=
  match it.cur with
  | nil => some (it, none)
  | node l k v r =>
    match it.remaining with
    | 0 => none
    | n + 1 => let (e, t) := popBack l k v r; some (⟨t, n⟩, some e)

/-- `IntoIter::size_hint`, splay/tree.rs:358-360. -/
def IntoIter.sizeHint (it : IntoIter K V) : Nat × Option Nat := (it.remaining, some it.remaining)

/-! ## `SplaySet`, splay/set.rs -/

/-- `SplaySet`, splay/set.rs:5-11: a `SplayTree<T, ()>`. -/
abbrev SplaySet (T : Type _) := SplayTree T Unit

/-- `SplaySet::len`, splay/set.rs:23-25. -/
def SplaySet.len (s : SplaySet K) : Nat := SplayTree.len s
/-- `SplaySet::is_empty`, splay/set.rs:26-28. -/
def SplaySet.isEmpty (s : SplaySet K) : Bool := SplaySet.len s == 0
/-- `SplaySet::contains`, splay/set.rs:33-35. -/
def SplaySet.contains (cmp : K → K → Ordering) (s : SplaySet K) (t : K) : SplaySet K × Bool :=
  SplayTree.contains cmp s t
/-- `SplaySet::find`, splay/set.rs:37-39. -/
def SplaySet.find (cmp : K → K → Ordering) (s : SplaySet K) (t : K) : SplaySet K × Option K :=
  SplayTree.findKey cmp s t
/-- `SplaySet::next`, splay/set.rs:41-43. -/
def SplaySet.next (cmp : K → K → Ordering) (s : SplaySet K) (t : K) : SplaySet K × Option K :=
  let (s', r) := SplayTree.next cmp s t
  (s', r.map (·.1))
/-- `SplaySet::prev`, splay/set.rs:45-47. -/
def SplaySet.prev (cmp : K → K → Ordering) (s : SplaySet K) (t : K) : SplaySet K × Option K :=
  let (s', r) := SplayTree.prev cmp s t
  (s', r.map (·.1))
/-- `SplaySet::insert`, splay/set.rs:49-51. -/
def SplaySet.insert (cmp : K → K → Ordering) (s : SplaySet K) (t : K) : SplaySet K × Bool :=
  let (s', r) := SplayTree.insert cmp s t ()
  (s', r.isNone)
/-- `SplaySet::remove`, splay/set.rs:53-55. Outer `none` = panic. -/
def SplaySet.remove (cmp : K → K → Ordering) (s : SplaySet K) (t : K) : Option (SplaySet K × Bool) :=
  (SplayTree.remove cmp s t).map fun (s', r) => (s', r.isSome)
/-- `SplaySet::min`, splay/set.rs:57-59. -/
def SplaySet.min (s : SplaySet K) : Option K := SplayTree.min s
/-- `SplaySet::max`, splay/set.rs:61-63. -/
def SplaySet.max (s : SplaySet K) : Option K := SplayTree.max s

/-! ## Histories -/

/-- One API call on a `SplayTree`. `write k v` is `get_mut` followed by storing `v`. -/
inductive Op (K V : Type _) where
  | insert (k : K) (v : V)
  | remove (k : K)
  | get (k : K)
  | write (k : K) (v : V)
  | contains (k : K)
  | findKey (k : K)
  | next (k : K)
  | prev (k : K)
  | min
  | max
  | len
  | isEmpty
  | clear
  | extend (l : List (K × V))

/-- What an API call returns. `panic` is a Rust panic. -/
inductive Out (K V : Type _) where
  | unit
  | panic
  | val (v : Option V)
  | key (k : Option K)
  | entry (e : Option (K × V))
  | bool (b : Bool)
  | nat (n : Nat)
deriving DecidableEq

/-- Run one call. -/
def step (cmp : K → K → Ordering) (s : SplayTree K V) : Op K V → SplayTree K V × Out K V
  | .insert k v => let (s', r) := s.insert cmp k v; (s', .val r)
  | .remove k =>
    match s.remove cmp k with
    | none => (s, .panic)
    | some (s', r) => (s', .val r)
  | .get k => let (s', r) := s.get cmp k; (s', .val r)
  | .write k v => let (s', r) := s.getMut cmp k (fun _ => v); (s', .val r)
  | .contains k => let (s', r) := s.contains cmp k; (s', .bool r)
  | .findKey k => let (s', r) := s.findKey cmp k; (s', .key r)
  | .next k => let (s', r) := s.next cmp k; (s', .entry r)
  | .prev k => let (s', r) := s.prev cmp k; (s', .entry r)
  | .min => (s, .key s.min)
  | .max => (s, .key s.max)
  | .len => (s, .nat s.len)
  | .isEmpty => (s, .bool s.isEmpty)
  | .clear => (s.clear, .unit)
  | .extend l => (s.extend cmp l, .unit)

/-- Run a history, collecting outputs. -/
def run (cmp : K → K → Ordering) : SplayTree K V → List (Op K V) → SplayTree K V × List (Out K V)
  | s, [] => (s, [])
  | s, op :: ops =>
    let (s', o) := step cmp s op
    let (s'', os) := run cmp s' ops
    (s'', o :: os)

end
end GeoCrossings.Splay

import Verif.Model.LineOrPoint

/-!
# Model of `src/monotone/mono_poly.rs` and of `Trip`, `Trapz` (`src/monotone.rs`)

A `LineString` is the list of its coordinates. The outer `none` of a result is a panic. The `debug_assert`s are executed: a
failing one is a panic too. The theorems show that none fails; a run in which none fails is also the run of a release build.
-/
namespace GeoCrossings

/-- `MonoPoly` — mono_poly.rs:11-15. -/
structure MonoPoly (K : Type _) where
  top : List (Pt K)
  bot : List (Pt K)
deriving DecidableEq, Repr

/-- `Trip` — monotone.rs:25-29. -/
structure Trip (K : Type _) where
  x : K
  top : K
  bot : K
deriving DecidableEq, Repr

/-- `Trapz` — monotone.rs:32-35. -/
structure Trapz (K : Type _) where
  left : Trip K
  right : Trip K
deriving DecidableEq, Repr

section order
variable {K : Type _} [LinearOrder K]

/-- The assertion over `windows(2)` — mono_poly.rs:59-64. -/
def allIncreasing : List (Pt K) → Bool
  | a :: b :: l => decide (a < b) && allIncreasing (b :: l)
  | _ => true

/-- `MonoPoly::new` — mono_poly.rs:54-66. -/
def MonoPoly.new (top bot : List (Pt K)) : Option (MonoPoly K) :=
  if top.head? = bot.head? then
    if top.getLast? = bot.getLast? then
      if top.head? ≠ top.getLast? then
        if allIncreasing top && allIncreasing bot then some ⟨top, bot⟩ else none
      else none
    else none
  else none

/-- `into_ls_pair` — mono_poly.rs:80-82. -/
def MonoPoly.intoLsPair (m : MonoPoly K) : List (Pt K) × List (Pt K) := (m.top, m.bot)

/-- `into_polygon` — mono_poly.rs:84-96; the exterior ring. (`Polygon::new` closes an open ring; it is shown to be closed
already.) The assertions at lines 89 and 93 and the range of `drain(1..)` are the panics. -/
def MonoPoly.intoPolygon (m : MonoPoly K) : Option (List (Pt K)) :=
  let down := m.bot.reverse
  if down.head? = m.top.getLast? then
    match down with
    | [] => none
    | _ :: rest =>
      let geom := m.top ++ rest
      if geom.head? = geom.getLast? then some geom else none
  else none

/-- The loop of `bounding_rect` for the maximum — mono_poly.rs:24-29. -/
def maxY (m : K) (l : List (Pt K)) : K := l.foldl (fun m c => if c.y > m then c.y else m) m

/-- The loop of `bounding_rect` for the minimum — mono_poly.rs:30-35. -/
def minY (m : K) (l : List (Pt K)) : K := l.foldl (fun m c => if c.y < m then c.y else m) m

/-- `bounding_rect` — mono_poly.rs:20-39: the lower left and upper right corner. -/
def MonoPoly.boundingRect (m : MonoPoly K) : Option (Pt K × Pt K) := do
  let t0 ← m.top.head?
  let tl ← m.top.getLast?
  let max_y := maxY t0.y m.top
  let min_y := minY max_y m.bot
  if t0.x < tl.x ∧ min_y < max_y then pure (⟨t0.x, min_y⟩, ⟨tl.x, max_y⟩) else none

end order

section arith
variable {K : Type _} [Field K] [LinearOrder K]

/-- The value of `Trapz::area` — monotone.rs:48-58. -/
def Trapz.area (t : Trapz K) : K :=
  let a := t.left.top - t.left.bot
  let b := t.right.top - t.right.bot
  let h := t.right.x - t.left.x
  (a + b) / (1 + 1) * h

/-- `Trapz::area` with its `debug_assert` at line 54 — monotone.rs:48-58. -/
def Trapz.areaChecked (t : Trapz K) : Option K :=
  if 0 ≤ t.left.top - t.left.bot ∧ 0 ≤ t.right.top - t.right.bot then some t.area else none

/-- `Scanner` — mono_poly.rs:108-113. -/
structure Scanner (K : Type _) where
  poly : MonoPoly K
  curr : Trip K
  topIdx : Nat
  botIdx : Nat
deriving DecidableEq, Repr

namespace Scanner

/-- `Scanner::new` — mono_poly.rs:116-131, with the `debug_assert` at line 119. -/
def new (m : MonoPoly K) : Option (Scanner K) := do
  let t ← m.top[0]?
  let b ← m.bot[0]?
  if t = b then pure ⟨m, ⟨t.x, t.y, b.y⟩, 0, 0⟩ else none

/-- The value of the closure `interpolate` — mono_poly.rs:219-234. -/
def interpolate (p1 p2 : Pt K) (x : K) : K :=
  if p2.x = p1.x then p2.y
  else
    let frac := (x - p1.x) / (p2.x - p1.x)
    let y := frac * (p2.y - p1.y) + p1.y
    let (min_y, max_y) := if p1.y > p2.y then (p2.y, p1.y) else (p1.y, p2.y)
    min (max y min_y) max_y

/-- The closure `interpolate` with its `debug_assert` at line 220. -/
def interpolateChecked (p1 p2 : Pt K) (x : K) : Option K :=
  if p1.x ≤ x ∧ x ≤ p2.x then some (interpolate p1 p2 x) else none

/-- Lines 234-257 of `peek_next`: the targets on both chains, which comes first, and where; with the `debug_assert`s at lines 249
and 253. -/
def targets (s : Scanner K) : Option (Option (Pt K × Pt K × Ordering × K)) :=
  match s.poly.top[s.topIdx + 1]?, s.poly.bot[s.botIdx + 1]? with
  | none, none => some none
  | some newTop, some newBot =>
    let ord := compare newTop.x newBot.x
    some (some (newTop, newBot, ord, match ord with | .lt => newTop.x | _ => newBot.x))
  | none, some newBot => do
    let t ← s.poly.top[s.topIdx]?
    if newBot.x = s.curr.x then pure (some (t, newBot, .gt, s.curr.x)) else none
  | some newTop, none => do
    let b ← s.poly.bot[s.botIdx]?
    if newTop.x = s.curr.x then pure (some (newTop, b, .lt, s.curr.x)) else none

/-- `peek_next` — mono_poly.rs:203-294. -/
def peekNext (s : Scanner K) (til : K) : Option (Option (Option Ordering × Trip K)) := do
  match ← s.targets with
  | none => pure none
  | some (newTop, newBot, ord, newX) =>
    let t ← s.poly.top[s.topIdx]?
    let b ← s.poly.bot[s.botIdx]?
    if til < newX then do
      let yt ← interpolateChecked t newTop til
      let yb ← interpolateChecked b newBot til
      pure (some (none, ⟨til, yt, yb⟩))
    else
      match ord with
      | .lt => do
        let yb ← interpolateChecked b newBot newTop.x
        pure (some (some ord, ⟨newTop.x, newTop.y, yb⟩))
      | .eq => pure (some (some ord, ⟨newTop.x, newTop.y, newBot.y⟩))
      | .gt => do
        let yt ← interpolateChecked t newTop newBot.x
        pure (some (some ord, ⟨newBot.x, yt, newBot.y⟩))

/-- `advance_next` — mono_poly.rs:166-201, with the `debug_assert` at line 168. The outer `none` is a panic, the inner one the end
of the chains. -/
def advanceNext (s : Scanner K) (til : K) : Option (Option (Scanner K × Option (Trapz K))) := do
  if ¬ s.curr.x < til then none
  match ← s.peekNext til with
  | none => pure none
  | some (ord, next) =>
    let result := if s.curr.x < next.x then some ⟨s.curr, next⟩ else none
    let s' : Scanner K := match ord with
      | none => { s with curr := next }
      | some .lt => { s with curr := next, topIdx := s.topIdx + 1 }
      | some .eq => { s with curr := next, topIdx := s.topIdx + 1, botIdx := s.botIdx + 1 }
      | some .gt => { s with curr := next, botIdx := s.botIdx + 1 }
    pure (some (s', result))

/-- Draining `advance_to` (mono_poly.rs:133-152), which is the same loop as `advance_upto` (154-164): the final state and the
trapezoids in order. `fuel` bounds the number of rounds; `none` when it runs out (shown not to happen from `rounds` on). -/
def advanceTo : Nat → Scanner K → K → Option (Scanner K × List (Trapz K))
  | 0, _, _ => none
  | fuel + 1, s, til =>
    if s.curr.x < til then do
      match ← s.advanceNext til with
      | none => pure (s, [])
      | some (s', r) =>
        let (s'', rest) ← advanceTo fuel s' til
        pure (s'', r.toList ++ rest)
    else some (s, [])

/-- A number of rounds that is always enough. -/
def rounds (s : Scanner K) : Nat := s.poly.top.length + s.poly.bot.length + 2

end Scanner

/-- `scan_lines` — mono_poly.rs:101-105. -/
def MonoPoly.scanLines (m : MonoPoly K) (left : K) : Option (Scanner K) := do
  let s ← Scanner.new m
  let (s, _) ← Scanner.advanceTo s.rounds s left
  pure s

end arith
end GeoCrossings

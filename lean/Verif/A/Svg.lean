import Verif.Py.Basic
import Verif.Py.Str
import Verif.A.Logic

/-!
# Model of `bin2svg`

a/bin2svg/__init__.py.  The function translates a binary matrix to the path of an SVG graphic.  A numpy array is modelled by its shape and its
entries.  (An argument that is not a two-dimensional array, like `[]` or a list of lists of different lengths, is not modelled.)  Positions are
python lists `[m, n]`; they are modelled as pairs, because the list that is changed in place in line 84 is only used by its owner afterwards.
-/

namespace Verif.Svg
open Verif.Py Verif.A

/-- A position `[m, n]`: number of the row and of the column -/
abbrev Pos := Int × Int

/-- The matrix `corners`: its shape and its entries -/
structure Corners where
  high : Nat
  wide : Nat
  entry : Nat → Nat → Nat

/-- numpy: `corners[m, n]`.  Negative numbers count from the end, and numbers that are too big or too small raise an `IndexError`. -/
def Corners.get (c : Corners) (pos : Pos) : Except Err Nat :=
  if -(c.high : Int) ≤ pos.1 ∧ pos.1 < c.high ∧ -(c.wide : Int) ≤ pos.2 ∧ pos.2 < c.wide then
    .ok (c.entry (pos.1 % c.high).toNat (pos.2 % c.wide).toNat)
  else .error .indexError

/-- numpy: `corners[m, n] = val` (only used for positions that were read before) -/
def Corners.set (c : Corners) (pos : Pos) (val : Nat) : Corners :=
  { c with entry := fun m n => if m = (pos.1 % c.high).toNat ∧ n = (pos.2 % c.wide).toNat then val else c.entry m n }

/-- a/bin2svg/__init__.py:22-29: the matrix with a border of zeros -/
def padded (high wide : Nat) (tocorners : Nat → Nat → Int) (m n : Nat) : Int :=
  if 1 ≤ m ∧ m ≤ high ∧ 1 ≤ n ∧ n ≤ wide then tocorners (m - 1) (n - 1) else 0

/-- a/bin2svg/__init__.py:35-65: the kind of corner in the middle of the square `[[a, b], [c, d]]` -/
def cornerKind (sub : Int × Int × Int × Int) : Nat :=
  if sub = (0, 0, 0, 1) then 1
  else if sub = (0, 0, 1, 0) then 2
  else if sub = (1, 0, 0, 0) then 3
  else if sub = (0, 1, 0, 0) then 4
  else if sub = (1, 1, 1, 0) then 5
  else if sub = (1, 0, 1, 1) then 6
  else if sub = (0, 1, 1, 1) then 7
  else if sub = (1, 1, 0, 1) then 8
  else if sub = (1, 0, 0, 1) then 13
  else if sub = (0, 1, 1, 0) then 24
  else 0

/-- a/bin2svg/__init__.py:13-67 -/
def bin2corners (high wide : Nat) (tocorners : Nat → Nat → Int) : Corners :=
  let p := padded high wide tocorners
  ⟨high + 1, wide + 1, fun m n => cornerKind (p m n, p m (n + 1), p (m + 1) n, p (m + 1) (n + 1))⟩

/-- a/bin2svg/__init__.py:69-90; `none` stands for 'reached end'.  The first argument bounds the number of rounds of the loop. -/
def cornerfinder (c : Corners) : Nat → Pos → Except Err (Option (Pos × Nat))
  | 0, _ => .error .diverges
  | fuel + 1, look => do
    let found ← c.get look
    if found = 0 then
      if look.2 < (c.wide : Int) - 1 then cornerfinder c fuel (look.1, look.2 + 1)
      else if look.2 = (c.wide : Int) - 1 ∧ look.1 < (c.high : Int) - 1 then cornerfinder c fuel (look.1 + 1, 0)
      else .ok none
    else .ok (some (look, found))

/-- a/bin2svg/__init__.py:127-131 and the three similar loops: the corner that is reached in a direction, or 0 for the position where the path
began.  The first number bounds the number of rounds. -/
def creep (c : Corners) (startpos direction : Pos) : Nat → Pos → Except Err (Pos × Nat)
  | 0, _ => .error .diverges
  | fuel + 1, pos => do
    let pos := (pos.1 + direction.1, pos.2 + direction.2)
    if pos = startpos then .ok (pos, 0)
    else
      let creeper ← c.get pos
      if creeper = 0 then creep c startpos direction fuel pos
      else .ok (pos, creeper)

/-- a/bin2svg/__init__.py:107-120: a corner is removed, and a double corner is replaced by one of its parts.  `oldval` is `none` in the first round,
where reading the variable raises an `UnboundLocalError` (here `runtimeError`). -/
def takeCorner (c : Corners) (pos : Pos) (val : Nat) (oldval : Option Nat) : Except Err (Corners × Nat) :=
  if 1 ≤ val ∧ val ≤ 8 then .ok (c.set pos 0, val)
  else if val = 13 then
    match oldval with
    | none => .error .runtimeError
    | some o =>
      if o = 4 ∨ o = 7 then .ok (c.set pos 3, 1)
      else if o = 2 ∨ o = 5 then .ok (c.set pos 1, 3)
      else .ok (c, val)
  else if val = 24 then
    match oldval with
    | none => .error .runtimeError
    | some o =>
      if o = 1 ∨ o = 6 then .ok (c.set pos 4, 2)
      else if o = 3 ∨ o = 8 then .ok (c.set pos 2, 4)
      else .ok (c, val)
  else .ok (c, val)

/-- a/bin2svg/__init__.py:124-149: from the corner to the next one -/
def move (c : Corners) (startpos pos : Pos) (val : Nat) : Except Err (Pos × Nat) :=
  let fuel := 2 * (c.high + c.wide) + 2
  if val = 1 ∨ val = 6 then creep c startpos (0, 1) fuel pos
  else if val = 2 ∨ val = 5 then creep c startpos (1, 0) fuel pos
  else if val = 3 ∨ val = 8 then creep c startpos (0, -1) fuel pos
  else if val = 4 ∨ val = 7 then creep c startpos (-1, 0) fuel pos
  else .ok (pos, 0)

/-- a/bin2svg/__init__.py:105-164, the loop with the variables `corners`, `pos`, `val`, `oldval` and `svgpath`.  The first number bounds the number
of rounds. -/
def stepLoop (startpos : Pos) : Nat → Corners → Pos → Nat → Option Nat → List Char → Except Err (Corners × List Char)
  | 0, _, _, _, _, _ => .error .diverges
  | fuel + 1, c, oldpos, val, oldval, svgpath => do
    let (c, val) ← takeCorner c oldpos val oldval
    let (pos, creeper) ← move c startpos oldpos val
    if pos = startpos then .ok (c, svgpath)
    else
      let append := if pos.1 = oldpos.1 then 'h' :: intStr (pos.2 - oldpos.2) else 'v' :: intStr (pos.1 - oldpos.1)
      stepLoop startpos fuel c pos creeper (some val) (svgpath ++ append)

/-- a/bin2svg/__init__.py:92-164 -/
def step (c : Corners) (pos : Pos) (val : Nat) : Except Err (Corners × List Char) :=
  stepLoop pos (4 * (c.high * c.wide) + 1) c pos val none ('M' :: (intStr pos.2 ++ ',' :: intStr pos.1))

/-- a/bin2svg/__init__.py:170-179, the loop with the variables `corners`, `startpos` and `svgpath` -/
def svgLoop : Nat → Corners → Pos → List Char → Except Err (List Char)
  | 0, _, _, _ => .error .diverges
  | fuel + 1, c, startpos, svgpath => do
    match ← cornerfinder c (c.high * c.wide + 1) startpos with
    | none => .ok svgpath
    | some (pos, val) =>
      let (c, path) ← step c pos val
      svgLoop fuel c pos (svgpath ++ path)

/-- a/bin2svg/__init__.py:4-179 -/
def bin2svg (high wide : Nat) (tosvg : Nat → Nat → Int) : Except Err (List Char) :=
  let c := bin2corners high wide tosvg
  svgLoop (4 * (c.high * c.wide) + 1) c (0, 0) []

end Verif.Svg

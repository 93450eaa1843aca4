import Verif.Boolf.Model12

/-!
# Model of `Boolf` (boolf/), part 13: strings and the order of functions
-/

namespace Verif.BF
open Verif.Py Verif.BV Verif.P Verif.W Verif.SP
open Verif.A hiding Mat

/-- boolf/methods/str/__init__.py:13-24 -/
noncomputable def Boolf.longStr (f : Boolf) : Except Err (List Char) := do
  let showTilde := decide ((← f.weightFract) > 1 / 2)
  let fullspots ← if showTilde then do pure (sorted (← f.complement).fullspots) else pure (sorted f.fullspots)
  let arityOrAtomvals := if f.isRoot then "arity=".toList ++ natStr f.adicity else "atomvals=".toList ++ listStr natStr f.atomvals
  return (if showTilde then ['~'] else []) ++ "Boolf(fullspots=".toList ++ listStr natStr fullspots ++ ", ".toList ++ arityOrAtomvals ++ [')']

/-- boolf/methods/str/__init__.py:1-24; `__repr__` (27-28) is the same, and `__hash__` (31-32) is a function of it.
`listStr` is `'[' + ', '.join(…) + ']'`. -/
noncomputable def Boolf.str (f : Boolf) : Except Err (List Char) :=
  if f.valency ≤ 4 then do
    let prettyTt ← f.root.pretty
    let atomvalsString := if f.isRoot then [] else ", ".toList ++ listStr natStr f.atomvals
    return "Boolf('".toList ++ prettyTt ++ ['\''] ++ atomvalsString ++ [')']
  else f.longStr

/-- python `<` of strings (by code points) -/
def strLt : List Char → List Char → Bool
  | _, [] => false
  | [], _ :: _ => true
  | x :: xs, y :: ys => if x = y then strLt xs ys else decide (x.toNat < y.toNat)

/-- boolf/methods/str/__init__.py:35-36 -/
noncomputable def Boolf.lt (f g : Boolf) : Except Err Bool := do return strLt (← f.str) (← g.str)
/-- boolf/methods/str/__init__.py:39-40 -/
noncomputable def Boolf.gt (f g : Boolf) : Except Err Bool := g.lt f
/-- boolf/methods/str/__init__.py:43-44 -/
noncomputable def Boolf.le (f g : Boolf) : Except Err Bool := if f.eq g then .ok true else f.lt g
/-- boolf/methods/str/__init__.py:47-48 -/
noncomputable def Boolf.ge (f g : Boolf) : Except Err Bool := g.le f

end Verif.BF

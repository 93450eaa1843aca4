import Mathlib.Data.List.Sort
import Mathlib.Data.List.Perm.Subperm
import Mathlib.Data.List.Dedup

/-!
# Python building blocks

Meaning of the python constructs the modelled code is written in: `sorted` on natural numbers and
insertion-ordered dictionaries.  These are library semantics, not code of /repo.
-/

namespace Verif.Py

/-- The exceptions of the modelled code (by name), python's own ones, and `diverges` for a loop that
would not end (shown not to occur). -/
inductive Err
  -- perm/ex.py
  | sequenceError | dictError | perilenTooSmall | otherNotPerm | otherPerilenMismatch
  | lengthMismatchPerilen | lengthTooSmall | notPeriodic | permNotFinite
  -- python
  | keyError | indexError | valueError | typeError | assertion | zeroDivision | attributeError | runtimeError
  | diverges
  -- ex.py
  | argCombo | argType | argValue | argMismatch | argTooBig | argTooSmall
  -- a/*/ex.py
  | lengthError | notNatural | unexpectedFactor | notWalshRow | lengthMismatch | stopMissing
  -- binv/ex.py
  | argumentError | vectorEntry | intvalError | indicesEntry | prettyLength
  -- set_part/ex.py, set_part/methods/*/ex.py
  | domainsNotEqual | notInDomain | domainNotFinite | duplicateElements
  | unknownBlock | unknownElement | labelContradiction
  | tooManyArguments | lengthNotAllowed | rangeNotAllowed | rangeMismatch | elementsMismatch
  -- set_part_comp/ex.py
  | setEqualComplements | setCompEquals | compWithoutPart | partCompMismatch
  -- bidict
  | valueDuplication
  -- walsh_perm/ex.py, walsh_perm/a/*/ex.py, numpy.linalg
  | notEvenPermutation | invalidPerm | invalidMatrix | requestedDegree | redundantParameters | notPowerOfTwo
  | permLength | notSquare | extendedLengthTooSmall | linAlg
  -- boolf/ex.py, boolf/**/ex.py
  | atomvalsNotUnique | sarityVectorMismatch | atomvalNegative | sarityMismatch | unexpectedArgument
  | boolfNotBlightless | notBundle | notPairOfAtomKeys | notSpreadless | tooManyOverlaps | smallerThanSelf | argNotFeasible
  | atomvalsMismatch | bordersCrossing | tooBig | bloatMismatch | blightMismatch | notBlightless
deriving DecidableEq, Repr

/-- python `sorted(l)` for a list of naturals (any stable sort gives the same list). -/
def sorted (l : List Nat) : List Nat := l.insertionSort (· ≤ ·)

/-- A python `dict`, as the list of its items in insertion order. -/
abbrev Dict (α β : Type) := List (α × β)

namespace Dict
variable {α β : Type} [DecidableEq α]

/-- `d[k]` if present. -/
def get? : Dict α β → α → Option β
  | [], _ => none
  | (k', v) :: d, k => if k' = k then some v else get? d k

/-- `d[k] = v` -/
def set : Dict α β → α → β → Dict α β
  | [], k, v => [(k, v)]
  | (k', v') :: d, k, v => if k' = k then (k', v) :: d else (k', v') :: set d k v

/-- `del d[k]` (for a present key; no effect otherwise). -/
def erase : Dict α β → α → Dict α β
  | [], _ => []
  | (k', v') :: d, k => if k' = k then d else (k', v') :: erase d k

def keys (d : Dict α β) : List α := d.map Prod.fst
def values (d : Dict α β) : List β := d.map Prod.snd

/-- `dict(pairs)`, or a loop of `d[k] = v`, starting from the empty dict. -/
def ofPairs (l : List (α × β)) : Dict α β := l.foldl (fun d p => d.set p.1 p.2) []

/-- `d == e` for python dicts: same number of items and each item of `d` is one of `e`. -/
def eq [DecidableEq β] (d e : Dict α β) : Bool :=
  d.length == e.length && d.all (fun p => get? e p.1 == some p.2)

end Dict
end Verif.Py

import Mathlib.Data.Real.Basic
import Mathlib.Data.Real.Archimedean
import Mathlib.Data.List.Sort
import Mathlib.Algebra.BigOperators.Group.List.Basic
import Mathlib.Algebra.Order.BigOperators.Group.List

/-!
# Python / numpy vocabulary shared by every module of the model

Trusted reading of the Python runtime: exceptions are values of `PyErr`, a
Python sequence or 1-D numpy array is a `List`, a float is a real number.
-/

namespace PyPE

/-- The Python exceptions the modelled code can raise. -/
inductive PyErr where
  | indexError
  | valueError
  | typeError
  | keyError
  | attributeError
  | assertionError
  | unboundLocalError
  | zeroDivisionError
  | notImplementedError
  | linAlgError
  | nameError
  deriving DecidableEq, Repr

/-- A computation of the modelled code: a value or a raised exception. -/
abbrev PyM := Except PyErr

/-- `a[i]` for a non-negative index (numpy and list semantics: `IndexError` when out of range). -/
def getIdx {α : Type} (a : List α) (i : ℕ) : PyM α :=
  match a[i]? with
  | some x => .ok x
  | none => .error .indexError

/-- `a[-1]`: `IndexError` on an empty sequence. -/
def getLast {α : Type} (a : List α) : PyM α :=
  match a.getLast? with
  | some x => .ok x
  | none => .error .indexError

/-- `a[ind]` for an integer index array: one `IndexError` as soon as some index is out of range. -/
def fancy {α : Type} (a : List α) (ind : List ℕ) : PyM (List α) :=
  ind.mapM (getIdx a)

/-- `numpy.max(a)`: `ValueError` ("zero-size array to reduction operation") on an empty array. -/
noncomputable def npMax : List ℝ → PyM ℝ
  | [] => .error .valueError
  | x :: xs => .ok (xs.foldl max x)

/-- `a + b` for two 1-D arrays: broadcasting error (`ValueError`) when the lengths differ.
Simplification: length-1 broadcasting is not modelled. -/
noncomputable def npAdd (a b : List ℝ) : PyM (List ℝ) :=
  if a.length = b.length then .ok (List.zipWith (· + ·) a b) else .error .valueError

/-- `a - b` for two 1-D arrays (same remark as `npAdd`). -/
noncomputable def npSub (a b : List ℝ) : PyM (List ℝ) :=
  if a.length = b.length then .ok (List.zipWith (· - ·) a b) else .error .valueError

/-- The interpreter. `xrange` is a builtin of Python 2 only, and `/` between two ints is an integer division there. -/
inductive PyVersion where
  | py2
  | py3
  deriving DecidableEq, Repr

/-- `a / b` for two ints (no module of the package imports `division` from `__future__`): the floor of the quotient in Python 2, the quotient in
Python 3. Two divisions of the package can be of this kind: `ak / mk` in the stopping rule of `bsi_rsas` (smoother.py:145-146) and `w_diff / 2` in `unifsum` when the limits
are ints (pdf.py:60-65); the others involve a float. -/
noncomputable def intDiv : PyVersion → ℝ → ℝ → ℝ
  | .py2, a, b => (⌊a / b⌋ : ℤ)
  | .py3, a, b => a / b

end PyPE

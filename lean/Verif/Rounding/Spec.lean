import Mathlib.Data.Real.Basic
import Mathlib.Data.List.Perm.Basic
import Verif.Rounding.Model

/-!
# What is assumed of rounded arithmetic
-/

namespace PyPE

/-- `s` is a result of adding up `l` in some order, rounding after every addition (`numpy.sum` adds pairwise in blocks). -/
inductive Spec.FlSum (fl : ℝ → ℝ) : List ℝ → ℝ → Prop
  | one (x : ℝ) : Spec.FlSum fl [x] x
  | add {l l1 l2 : List ℝ} {a b : ℝ} : Spec.FlSum fl l1 a → Spec.FlSum fl l2 b → l.Perm (l1 ++ l2) → Spec.FlSum fl l (fl (a + b))

/-- Rounded arithmetic in which the integers up to `nmax` are exact: rounding is monotone and leaves representable numbers alone (every IEEE rounding mode, with gradual
or abrupt underflow), `exp` returns representable non-negative numbers, at most 1 on the negative axis, and is exact at 0. -/
structure Spec.Rounded (A : Arith) (nmax : ℕ) : Prop where
  mono : Monotone A.fl
  idem : ∀ x, A.fl (A.fl x) = A.fl x
  nat : ∀ n : ℕ, n ≤ nmax → A.fl n = n
  inv_pos : ∀ n : ℕ, 0 < n → n ≤ nmax → 0 < A.fl (1 / n)
  exp_zero : A.exp 0 = 1
  exp_nonneg : ∀ x, 0 ≤ A.exp x
  exp_le_one : ∀ x ≤ 0, A.exp x ≤ 1
  exp_rep : ∀ x, A.fl (A.exp x) = A.exp x
  sum : ∀ l, l ≠ [] → Spec.FlSum A.fl l (A.sum l)
  one_le : 1 ≤ nmax

/-- The accuracy of an arithmetic: relative error `ε` of additions of non-negative representable numbers, and of anything in `[0, 1]` up to an absolute error `η` from underflow. -/
structure Spec.Accurate (A : Arith) (ε η : ℝ) : Prop where
  eps : 0 ≤ ε ∧ ε < 1
  eta : 0 ≤ η
  add : ∀ x y, 0 ≤ x → 0 ≤ y → A.fl x = x → A.fl y = y → |A.fl (x + y) - (x + y)| ≤ ε * (x + y)
  unit : ∀ x, 0 ≤ x → x ≤ 1 → |A.fl x - x| ≤ ε * x + η

end PyPE

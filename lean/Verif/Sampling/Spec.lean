import Mathlib.Data.Real.Basic
import Mathlib.Algebra.BigOperators.Group.List.Basic

/-!
# Specification vocabulary for the systematic sampler

Nothing here mentions the model: these are the textbook notions the properties are stated with.
-/

namespace PyPE.Spec

/-- A usable weight vector: no negative weight and positive total. -/
def Weights (w : List ℝ) : Prop := (∀ x ∈ w, 0 ≤ x) ∧ 0 < w.sum

/-- Probability of index `j` under the (unnormalised) weights `w`. -/
noncomputable def prob (w : List ℝ) (j : ℕ) : ℝ := w.getD j 0 / w.sum

/-- The value `numpy.random.rand` may return. -/
def Unit01 (r : ℝ) : Prop := 0 ≤ r ∧ r < 1

end PyPE.Spec

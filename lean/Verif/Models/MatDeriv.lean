import Mathlib.LinearAlgebra.Matrix.NonsingularInverse
import Mathlib.LinearAlgebra.Matrix.Trace
import Mathlib.LinearAlgebra.Matrix.Adjugate
import Mathlib.Analysis.Calculus.Deriv.Mul
import Mathlib.Analysis.Calculus.Deriv.Inv
import Mathlib.Analysis.SpecialFunctions.Log.Deriv
import Mathlib.Data.Matrix.Mul

/-!
# Derivatives of matrix functions of one real parameter
-/

namespace PyPE
open Matrix

/-- `F` is differentiable entry by entry at `x` with derivative `F'`. -/
def Spec.MatDerivAt {p q : Type} (F : ℝ → Matrix p q ℝ) (F' : Matrix p q ℝ) (x : ℝ) : Prop :=
  ∀ i j, HasDerivAt (fun t => F t i j) (F' i j) x

/-- `v` is differentiable entry by entry at `x` with derivative `v'`. -/
def Spec.VecDerivAt {p : Type} (v : ℝ → p → ℝ) (v' : p → ℝ) (x : ℝ) : Prop := ∀ i, HasDerivAt (fun t => v t i) (v' i) x

section
variable {p q r : Type} {x : ℝ}

theorem matDeriv_const (A : Matrix p q ℝ) : Spec.MatDerivAt (fun _ => A) 0 x := fun i j => hasDerivAt_const x _
theorem vecDeriv_const (v : p → ℝ) : Spec.VecDerivAt (fun _ => v) 0 x := fun i => hasDerivAt_const x _

theorem matDeriv_add {F G : ℝ → Matrix p q ℝ} {F' G' : Matrix p q ℝ} (hF : Spec.MatDerivAt F F' x) (hG : Spec.MatDerivAt G G' x) :
    Spec.MatDerivAt (fun t => F t + G t) (F' + G') x := fun i j => (hF i j).add (hG i j)

theorem matDeriv_sub {F G : ℝ → Matrix p q ℝ} {F' G' : Matrix p q ℝ} (hF : Spec.MatDerivAt F F' x) (hG : Spec.MatDerivAt G G' x) :
    Spec.MatDerivAt (fun t => F t - G t) (F' - G') x := fun i j => (hF i j).sub (hG i j)

theorem matDeriv_transpose {F : ℝ → Matrix p q ℝ} {F' : Matrix p q ℝ} (hF : Spec.MatDerivAt F F' x) :
    Spec.MatDerivAt (fun t => (F t)ᵀ) F'ᵀ x := fun i j => hF j i

theorem matDeriv_mul [Fintype q] {F : ℝ → Matrix p q ℝ} {G : ℝ → Matrix q r ℝ} {F' : Matrix p q ℝ} {G' : Matrix q r ℝ}
    (hF : Spec.MatDerivAt F F' x) (hG : Spec.MatDerivAt G G' x) :
    Spec.MatDerivAt (fun t => F t * G t) (F' * G x + F x * G') x := fun i j => by
  have h := HasDerivAt.fun_sum (u := Finset.univ) fun k (_ : k ∈ (Finset.univ : Finset q)) => (hF i k).mul (hG k j)
  simp only [Pi.mul_apply] at h
  simp only [Matrix.mul_apply, Matrix.add_apply, ← Finset.sum_add_distrib]
  exact h

theorem vecDeriv_add {v w : ℝ → p → ℝ} {v' w' : p → ℝ} (hv : Spec.VecDerivAt v v' x) (hw : Spec.VecDerivAt w w' x) :
    Spec.VecDerivAt (fun t => v t + w t) (v' + w') x := fun i => (hv i).add (hw i)

theorem vecDeriv_sub {v w : ℝ → p → ℝ} {v' w' : p → ℝ} (hv : Spec.VecDerivAt v v' x) (hw : Spec.VecDerivAt w w' x) :
    Spec.VecDerivAt (fun t => v t - w t) (v' - w') x := fun i => (hv i).sub (hw i)

theorem vecDeriv_mulVec [Fintype q] {F : ℝ → Matrix p q ℝ} {F' : Matrix p q ℝ} {v : ℝ → q → ℝ} {v' : q → ℝ}
    (hF : Spec.MatDerivAt F F' x) (hv : Spec.VecDerivAt v v' x) :
    Spec.VecDerivAt (fun t => F t *ᵥ v t) (F' *ᵥ v x + F x *ᵥ v') x := fun i => by
  have h := HasDerivAt.fun_sum (u := Finset.univ) fun k (_ : k ∈ (Finset.univ : Finset q)) => (hF i k).mul (hv k)
  simp only [Pi.mul_apply] at h
  simp only [mulVec, dotProduct, Pi.add_apply, ← Finset.sum_add_distrib]
  exact h

theorem matDeriv_vecMulVec {v : ℝ → p → ℝ} {w : ℝ → q → ℝ} {v' : p → ℝ} {w' : q → ℝ}
    (hv : Spec.VecDerivAt v v' x) (hw : Spec.VecDerivAt w w' x) :
    Spec.MatDerivAt (fun t => vecMulVec (v t) (w t)) (vecMulVec v' (w x) + vecMulVec (v x) w') x := fun i j => by
  have h := (hv i).mul (hw j)
  simp only [vecMulVec_apply, Matrix.add_apply]
  exact h

theorem matDeriv_trace [Fintype p] {F : ℝ → Matrix p p ℝ} {F' : Matrix p p ℝ} (hF : Spec.MatDerivAt F F' x) :
    HasDerivAt (fun t => (F t).trace) F'.trace x := by
  have h := HasDerivAt.fun_sum (u := Finset.univ) fun k (_ : k ∈ (Finset.univ : Finset p)) => hF k k
  simpa [trace] using h

variable [Fintype p] [DecidableEq p]

theorem matDeriv_updateRow {F : ℝ → Matrix p p ℝ} {F' : Matrix p p ℝ} (hF : Spec.MatDerivAt F F' x) (i : p) (v : p → ℝ) :
    Spec.MatDerivAt (fun t => (F t).updateRow i v) (F'.updateRow i 0) x := fun a b => by
  by_cases h : a = i
  · subst h; simpa using hasDerivAt_const x (v b)
  · simpa [updateRow_ne h] using hF a b

/-- Jacobi's formula. -/
theorem matDeriv_det {F : ℝ → Matrix p p ℝ} {F' : Matrix p p ℝ} (hF : Spec.MatDerivAt F F' x) :
    HasDerivAt (fun t => (F t).det) ((F x).adjugate * F').trace x := by
  have h1 : HasDerivAt (fun t => ∑ σ : Equiv.Perm p, ((σ.sign : ℤ) : ℝ) * ∏ i, F t (σ i) i)
      (∑ σ : Equiv.Perm p, ((σ.sign : ℤ) : ℝ) * ∑ i, (∏ j ∈ Finset.univ.erase i, F x (σ j) j) • F' (σ i) i) x := by
    refine HasDerivAt.fun_sum fun σ _ => HasDerivAt.const_mul _ ?_
    have := HasDerivAt.fun_finsetProd (u := Finset.univ) fun i (_ : i ∈ (Finset.univ : Finset p)) => hF (σ i) i
    exact this
  have e1 : (fun t => (F t).det) = fun t => ∑ σ : Equiv.Perm p, ((σ.sign : ℤ) : ℝ) * ∏ i, F t (σ i) i := by
    funext t; rw [det_apply']
  rw [e1]
  convert h1 using 1
  have e2 : ((F x).adjugate * F').trace = ∑ i, ((F x).updateCol i (fun k => F' k i)).det := by
    simp only [trace, diag_apply, Matrix.mul_apply]
    refine Finset.sum_congr rfl fun i _ => ?_
    have := cramer_apply (F x) (fun k => F' k i) i
    rw [← this, cramer_eq_adjugate_mulVec]
    simp [mulVec, dotProduct]
  rw [e2]
  simp only [det_apply', Finset.mul_sum]
  rw [Finset.sum_comm]
  refine Finset.sum_congr rfl fun σ _ => Finset.sum_congr rfl fun i _ => ?_
  congr 1
  rw [← Finset.mul_prod_erase Finset.univ _ (Finset.mem_univ i), smul_eq_mul, mul_comm]
  congr 1
  · exact Finset.prod_congr rfl fun j hj => by rw [updateCol_ne (Finset.ne_of_mem_erase hj)]
  · simp

/-- The derivative of the inverse. -/
theorem matDeriv_inv {F : ℝ → Matrix p p ℝ} {F' : Matrix p p ℝ} (hF : Spec.MatDerivAt F F' x) (hd : (F x).det ≠ 0) :
    Spec.MatDerivAt (fun t => (F t)⁻¹) (-((F x)⁻¹ * F' * (F x)⁻¹)) x := by
  have hdet := matDeriv_det hF
  -- every entry of the inverse has some derivative
  have hadj : ∀ i j, ∃ d, HasDerivAt (fun t => (F t)⁻¹ i j) d x := by
    intro i j
    have h1 := matDeriv_det (matDeriv_updateRow hF j (Pi.single i 1))
    have h2 := (hdet.inv hd).mul h1
    refine ⟨_, h2.congr_of_eventuallyEq (Filter.Eventually.of_forall fun t => ?_)⟩
    simp [Matrix.inv_def, adjugate_apply, Ring.inverse_eq_inv']
  choose D hD using hadj
  have hDm : Spec.MatDerivAt (fun t => (F t)⁻¹) (.of D) x := fun i j => hD i j
  have hprod := matDeriv_mul hF hDm
  have hone : F' * (F x)⁻¹ + F x * .of D = 0 := by
    ext i j
    refine (hprod i j).unique ?_
    refine (hasDerivAt_const x ((1 : Matrix p p ℝ) i j)).congr_of_eventuallyEq ?_
    have hne : ∀ᶠ t in nhds x, (F t).det ≠ 0 := hdet.continuousAt.eventually_ne hd
    filter_upwards [hne] with t ht
    rw [Matrix.mul_nonsing_inv _ ht.isUnit]
  have hDeq : (Matrix.of D : Matrix p p ℝ) = -((F x)⁻¹ * F' * (F x)⁻¹) := by
    have h := congrArg (fun X => (F x)⁻¹ * X) hone
    simp only [Matrix.mul_add, ← Matrix.mul_assoc, Matrix.nonsing_inv_mul _ hd.isUnit, Matrix.one_mul, Matrix.mul_zero] at h
    rw [eq_neg_iff_add_eq_zero, add_comm]
    exact h
  rw [← hDeq]
  exact hDm

/-- The derivative of `log det A + tr (A⁻¹ B)`. -/
theorem matDeriv_logdet_trace {A B : ℝ → Matrix p p ℝ} {A' B' : Matrix p p ℝ} (hA : Spec.MatDerivAt A A' x)
    (hB : Spec.MatDerivAt B B' x) (hd : (A x).det ≠ 0) :
    HasDerivAt (fun t => Real.log (A t).det + ((A t)⁻¹ * B t).trace)
      ((A x)⁻¹ * (A' + B' - A' * ((A x)⁻¹ * B x))).trace x := by
  have h1 := (matDeriv_det hA).log hd
  have h2 := matDeriv_trace (matDeriv_mul (matDeriv_inv hA hd) hB)
  refine (h1.add h2).congr_deriv ?_
  have e : (((A x).adjugate * A').trace) / (A x).det = ((A x)⁻¹ * A').trace := by
    rw [Matrix.inv_def, Ring.inverse_eq_inv', Matrix.smul_mul, trace_smul, smul_eq_mul]; field_simp
  rw [e, Matrix.mul_sub, Matrix.mul_add, trace_sub, trace_add, trace_add]
  rw [Matrix.neg_mul, trace_neg]
  simp only [Matrix.mul_assoc]
  ring

end
end PyPE

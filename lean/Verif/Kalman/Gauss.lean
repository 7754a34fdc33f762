import Mathlib.Probability.Distributions.Gaussian.Multivariate
import Mathlib.LinearAlgebra.Matrix.PosDef
import Mathlib.Algebra.Order.Star.Real

/-!
# Multivariate normal laws on `ι → ℝ`

`Spec.gauss μ S` is Mathlib's multivariate normal law carried to plain functions.  The central fact is
`gauss_affine`: an affine image of two independent normal vectors is normal, with the mean and covariance one expects
(also for singular covariances).
-/

open MeasureTheory ProbabilityTheory Matrix Complex
open scoped RealInnerProductSpace

namespace PyPE

variable {ι κ τ : Type*} [Fintype ι] [Fintype κ] [Fintype τ] [DecidableEq ι] [DecidableEq κ] [DecidableEq τ]

/-- The normal law with mean `μ` and covariance `S` (Mathlib's `multivariateGaussian`) as a law on `ι → ℝ`. -/
noncomputable def Spec.gauss (μ : ι → ℝ) (S : Matrix ι ι ℝ) : Measure (ι → ℝ) :=
  (multivariateGaussian (WithLp.toLp 2 μ) S).map WithLp.ofLp

instance (μ : ι → ℝ) (S : Matrix ι ι ℝ) : IsProbabilityMeasure (Spec.gauss μ S) :=
  Measure.isProbabilityMeasure_map (Measurable.aemeasurable (by fun_prop))

/-- Two laws on `ι → ℝ` with the same characteristic function are equal. -/
theorem ext_of_charFun_pi {μ ν : Measure (ι → ℝ)} [IsFiniteMeasure μ] [IsFiniteMeasure ν]
    (h : ∀ t : ι → ℝ, ∫ x, cexp ((t ⬝ᵥ x : ℝ) * I) ∂μ = ∫ x, cexp ((t ⬝ᵥ x : ℝ) * I) ∂ν) : μ = ν := by
  have key : μ.map (WithLp.toLp 2) = ν.map (WithLp.toLp 2) := by
    apply Measure.ext_of_charFun (E := EuclideanSpace ℝ ι)
    ext t
    rw [charFun_apply, charFun_apply, integral_map (Measurable.aemeasurable (by fun_prop))
      (Measurable.aestronglyMeasurable (by fun_prop)), integral_map (Measurable.aemeasurable (by fun_prop))
      (Measurable.aestronglyMeasurable (by fun_prop))]
    have := h t.ofLp
    simpa [PiLp.inner_apply, dotProduct, mul_comm] using this
  have h2 := congrArg (fun m => m.map (WithLp.ofLp (p := 2) (V := ι → ℝ))) key
  rw [Measure.map_map (by fun_prop) (by fun_prop), Measure.map_map (by fun_prop) (by fun_prop)] at h2
  have e : (WithLp.ofLp (p := 2) (V := ι → ℝ)) ∘ WithLp.toLp 2 = id := rfl
  rwa [e, Measure.map_id, Measure.map_id] at h2

theorem charFun_gauss {μ : ι → ℝ} {S : Matrix ι ι ℝ} (hS : S.PosSemidef) (t : ι → ℝ) :
    ∫ x, cexp ((t ⬝ᵥ x : ℝ) * I) ∂(Spec.gauss μ S) = cexp ((t ⬝ᵥ μ : ℝ) * I - ((t ⬝ᵥ S *ᵥ t : ℝ) : ℂ) / 2) := by
  have h := charFun_multivariateGaussian (μ := WithLp.toLp 2 μ) hS (WithLp.toLp 2 t)
  rw [charFun_apply] at h
  rw [Spec.gauss, integral_map (Measurable.aemeasurable (by fun_prop)) (Measurable.aestronglyMeasurable (by fun_prop))]
  simp only [PiLp.inner_apply, dotProduct] at h ⊢
  simpa [mul_comm] using h

/-- A law is determined as normal by its characteristic function. -/
theorem eq_gauss {ν : Measure (ι → ℝ)} [IsFiniteMeasure ν] {μ : ι → ℝ} {S : Matrix ι ι ℝ} (hS : S.PosSemidef)
    (h : ∀ t : ι → ℝ, ∫ x, cexp ((t ⬝ᵥ x : ℝ) * I) ∂ν = cexp ((t ⬝ᵥ μ : ℝ) * I - ((t ⬝ᵥ S *ᵥ t : ℝ) : ℂ) / 2)) :
    ν = Spec.gauss μ S :=
  ext_of_charFun_pi fun t => by rw [h t, charFun_gauss hS]

omit [DecidableEq ι] [DecidableEq κ] [DecidableEq τ] in
theorem posSemidef_conj {P : Matrix κ κ ℝ} (hP : P.PosSemidef) (B : Matrix ι κ ℝ) : (B * P * Bᵀ).PosSemidef := by
  have := hP.mul_mul_conjTranspose_same B
  rwa [conjTranspose_eq_transpose_of_trivial] at this

/-- **Affine images of independent normal vectors.** -/
theorem gauss_affine {μ : κ → ℝ} {P : Matrix κ κ ℝ} {ν : τ → ℝ} {Q : Matrix τ τ ℝ} (hP : P.PosSemidef) (hQ : Q.PosSemidef)
    (c : ι → ℝ) (B : Matrix ι κ ℝ) (D : Matrix ι τ ℝ) :
    ((Spec.gauss μ P).prod (Spec.gauss ν Q)).map (fun p => c + B *ᵥ p.1 + D *ᵥ p.2) =
      Spec.gauss (c + B *ᵥ μ + D *ᵥ ν) (B * P * Bᵀ + D * Q * Dᵀ) := by
  have hm : Measurable (fun p : (κ → ℝ) × (τ → ℝ) => c + B *ᵥ p.1 + D *ᵥ p.2) := by
    apply Continuous.measurable; fun_prop
  haveI : IsProbabilityMeasure (((Spec.gauss μ P).prod (Spec.gauss ν Q)).map
      (fun p => c + B *ᵥ p.1 + D *ᵥ p.2)) := Measure.isProbabilityMeasure_map hm.aemeasurable
  refine eq_gauss ((posSemidef_conj hP B).add (posSemidef_conj hQ D)) fun t => ?_
  rw [integral_map hm.aemeasurable]
  swap
  · exact (Continuous.measurable (by fun_prop)).aestronglyMeasurable
  have e : ∀ p : (κ → ℝ) × (τ → ℝ), cexp ((t ⬝ᵥ (c + B *ᵥ p.1 + D *ᵥ p.2) : ℝ) * I) =
      cexp ((t ⬝ᵥ c : ℝ) * I) * (cexp ((t ᵥ* B ⬝ᵥ p.1 : ℝ) * I) * cexp ((t ᵥ* D ⬝ᵥ p.2 : ℝ) * I)) := by
    intro p
    rw [← Complex.exp_add, ← Complex.exp_add, dotProduct_add, dotProduct_add, dotProduct_mulVec, dotProduct_mulVec]
    push_cast
    ring_nf
  simp_rw [e]
  rw [integral_const_mul, integral_prod_mul (fun x : κ → ℝ => cexp ((t ᵥ* B ⬝ᵥ x : ℝ) * I))
    (fun x : τ → ℝ => cexp ((t ᵥ* D ⬝ᵥ x : ℝ) * I)), charFun_gauss hP, charFun_gauss hQ, ← Complex.exp_add, ← Complex.exp_add]
  congr 1
  rw [dotProduct_add, dotProduct_add, dotProduct_mulVec t B, dotProduct_mulVec t D, Matrix.add_mulVec, dotProduct_add]
  rw [← Matrix.mulVec_mulVec, ← Matrix.mulVec_mulVec, ← Matrix.mulVec_mulVec, ← Matrix.mulVec_mulVec,
    Matrix.mulVec_transpose, Matrix.mulVec_transpose, dotProduct_mulVec t B, dotProduct_mulVec t D]
  push_cast
  ring

/-- An affine image of one normal vector. -/
theorem gauss_affine_one {μ : κ → ℝ} {P : Matrix κ κ ℝ} (hP : P.PosSemidef) (c : ι → ℝ) (B : Matrix ι κ ℝ) :
    (Spec.gauss μ P).map (fun x => c + B *ᵥ x) = Spec.gauss (c + B *ᵥ μ) (B * P * Bᵀ) := by
  have hm : Measurable (fun p : κ → ℝ => c + B *ᵥ p) := by
    apply Continuous.measurable; fun_prop
  haveI : IsProbabilityMeasure ((Spec.gauss μ P).map (fun x => c + B *ᵥ x)) := Measure.isProbabilityMeasure_map hm.aemeasurable
  refine eq_gauss (posSemidef_conj hP B) fun t => ?_
  rw [integral_map hm.aemeasurable]
  swap
  · exact (Continuous.measurable (by fun_prop)).aestronglyMeasurable
  have e : ∀ p : κ → ℝ, cexp ((t ⬝ᵥ (c + B *ᵥ p) : ℝ) * I) =
      cexp ((t ⬝ᵥ c : ℝ) * I) * cexp ((t ᵥ* B ⬝ᵥ p : ℝ) * I) := by
    intro p
    rw [← Complex.exp_add, dotProduct_add, dotProduct_mulVec]
    push_cast
    ring_nf
  simp_rw [e]
  rw [integral_const_mul, charFun_gauss hP, ← Complex.exp_add]
  congr 1
  rw [dotProduct_add, dotProduct_mulVec t B]
  rw [← Matrix.mulVec_mulVec, ← Matrix.mulVec_mulVec, Matrix.mulVec_transpose, dotProduct_mulVec t B]
  push_cast
  ring

/-- Mean and covariance of the normal law (so that `Spec.gauss` is what its name says). -/
theorem gauss_mean {μ : ι → ℝ} {S : Matrix ι ι ℝ} (i : ι) : ∫ x, x i ∂(Spec.gauss μ S) = μ i := by
  rw [Spec.gauss, integral_map (Measurable.aemeasurable (by fun_prop)) (Measurable.aestronglyMeasurable (by fun_prop))]
  have h := integral_id_multivariateGaussian (μ := WithLp.toLp 2 μ) (S := S)
  have h2 := ContinuousLinearMap.integral_comp_comm (EuclideanSpace.proj (𝕜 := ℝ) i)
    (IsGaussian.integrable_fun_id (μ := multivariateGaussian (WithLp.toLp 2 μ) S))
  rw [h] at h2
  exact h2

theorem gauss_cov {μ : ι → ℝ} {S : Matrix ι ι ℝ} (hS : S.PosSemidef) (i j : ι) :
    cov[fun x => x i, fun x => x j; Spec.gauss μ S] = S i j := by
  rw [Spec.gauss, covariance_map (Measurable.aestronglyMeasurable (by fun_prop))
    (Measurable.aestronglyMeasurable (by fun_prop)) (Measurable.aemeasurable (by fun_prop))]
  exact covariance_eval_multivariateGaussian hS i j

end PyPE

import Verif.Kalman.Density
import Verif.Kalman.Joint
import Verif.Models.LtvEm
import Mathlib.Analysis.Matrix.Order
import Mathlib.Analysis.SpecialFunctions.ContinuousFunctionalCalculus.Rpow.Basic

/-!
# Integrals of exponentials of quadratic forms over normal laws
-/

namespace PyPE
open Matrix MeasureTheory ProbabilityTheory
variable {n : ℕ}

/-- `U`, `s` are the first two results of a singular value decomposition `A = U diag(s) V` (`numpy.linalg.svd`). -/
structure Spec.IsSvd (A U : Matrix (Fin n) (Fin n) ℝ) (s : Fin n → ℝ) : Prop where
  orth : U * Uᵀ = 1
  nonneg : ∀ i, 0 ≤ s i
  eq : ∃ V : Matrix (Fin n) (Fin n) ℝ, V * Vᵀ = 1 ∧ A = U * diagonal s * V

open scoped MatrixOrder Matrix.Norms.L2Operator in
theorem psd_eq_of_sq {A B : Matrix (Fin n) (Fin n) ℝ} (hA : A.PosSemidef) (hB : B.PosSemidef) (h : A * A = B * B) : A = B := by
  have h1 := CFC.sqrt_unique (a := A * A) (b := A) rfl hA.nonneg
  have h2 := CFC.sqrt_unique (a := A * A) (b := B) h.symm hB.nonneg
  exact h1.symm.trans h2

/-- For a covariance `A`, `factor_psd(A)` is a square root: `F F' = A`. -/
theorem svd_factor {A U : Matrix (Fin n) (Fin n) ℝ} {s : Fin n → ℝ} (hs : Spec.IsSvd A U s) (hA : A.PosSemidef) :
    (U * diagonal fun i => √(s i)) * (U * diagonal fun i => √(s i))ᵀ = A := by
  obtain ⟨V, hV, hAV⟩ := hs.eq
  have hU : Uᵀ * U = 1 := mul_eq_one_comm.1 hs.orth
  have e1 : (U * diagonal fun i => √(s i)) * (U * diagonal fun i => √(s i))ᵀ = U * diagonal s * Uᵀ := by
    rw [transpose_mul, diagonal_transpose, Matrix.mul_assoc, ← Matrix.mul_assoc (diagonal _), diagonal_mul_diagonal,
      ← Matrix.mul_assoc]
    congr 3; funext i; exact Real.mul_self_sqrt (hs.nonneg i)
  rw [e1]
  have hp : (U * diagonal s * Uᵀ).PosSemidef := posSemidef_conj (PosSemidef.diagonal hs.nonneg) U
  refine psd_eq_of_sq hp hA ?_
  have hAt : Aᵀ = A := PosSemidef.isSymm' hA
  calc U * diagonal s * Uᵀ * (U * diagonal s * Uᵀ) = U * diagonal s * (Uᵀ * U) * diagonal s * Uᵀ := by simp only [Matrix.mul_assoc]
    _ = U * diagonal s * (V * Vᵀ) * diagonal s * Uᵀ := by rw [hU, hV]
    _ = A * Aᵀ := by rw [hAV]; simp only [transpose_mul, diagonal_transpose, Matrix.mul_assoc]
    _ = A * A := by rw [hAt]

theorem integral_exp_logNormal {S : Matrix (Fin n) (Fin n) ℝ} (hS : S.PosDef) (μ : Fin n → ℝ) :
    Integrable (fun x => Real.exp (Spec.logNormal S (x - μ))) ∧ ∫ x, Real.exp (Spec.logNormal S (x - μ)) = 1 := by
  have hc : Continuous fun x : Fin n → ℝ => Real.exp (Spec.logNormal S (x - μ)) := by unfold Spec.logNormal; fun_prop
  have hl : ∫⁻ x, ENNReal.ofReal (Real.exp (Spec.logNormal S (x - μ))) = 1 := by
    have h := congrArg (fun m => m Set.univ) (gauss_density hS μ)
    simp only [measure_univ, withDensity_apply _ MeasurableSet.univ, Measure.restrict_univ] at h
    exact h.symm
  constructor
  · refine ⟨hc.aestronglyMeasurable, ?_⟩
    rw [hasFiniteIntegral_iff_ofReal (Filter.Eventually.of_forall fun x => (Real.exp_pos _).le), hl]
    exact ENNReal.one_lt_top
  · rw [integral_eq_lintegral_of_nonneg_ae (Filter.Eventually.of_forall fun x => (Real.exp_pos _).le) hc.aestronglyMeasurable, hl,
      ENNReal.toReal_one]

theorem integral_gauss_density {S : Matrix (Fin n) (Fin n) ℝ} (hS : S.PosDef) (μ : Fin n → ℝ) (f : (Fin n → ℝ) → ℝ) :
    ∫ x, f x ∂(Spec.gauss μ S) = ∫ x, Real.exp (Spec.logNormal S (x - μ)) * f x := by
  rw [gauss_density hS μ]
  rw [integral_withDensity_eq_integral_toReal_smul (by unfold Spec.logNormal; fun_prop) (Filter.Eventually.of_forall fun x => by simp)]
  refine integral_congr_ae (Filter.Eventually.of_forall fun x => ?_)
  simp [ENNReal.toReal_ofReal (Real.exp_pos _).le]

theorem mulVec_dot_symm {S : Matrix (Fin n) (Fin n) ℝ} (hS : Sᵀ = S) (x y : Fin n → ℝ) : (S *ᵥ x) ⬝ᵥ y = x ⬝ᵥ S *ᵥ y := by
  rw [dotProduct_mulVec, ← mulVec_transpose, hS]

/-- The integral over the standard normal law. -/
theorem gauss_exp_std {L : Matrix (Fin n) (Fin n) ℝ} (hL : L.PosDef) (b : Fin n → ℝ) :
    ∫ w, Real.exp (-(1 / 2) * (w ⬝ᵥ (L - 1) *ᵥ w) + b ⬝ᵥ w) ∂(Spec.gauss 0 1) =
      Real.exp (-(1 / 2) * (Real.log L.det - b ⬝ᵥ L⁻¹ *ᵥ b)) := by
  have hLi : (L⁻¹).PosDef := hL.inv
  have hu : IsUnit L.det := hL.det_pos.ne'.isUnit
  have hs : Lᵀ = L := PosDef.isSymm' hL
  have hsi : (L⁻¹)ᵀ = L⁻¹ := PosDef.isSymm' hLi
  rw [integral_gauss_density PosDef.one]
  have hpt : ∀ x : Fin n → ℝ, Real.exp (Spec.logNormal 1 (x - 0)) * Real.exp (-(1 / 2) * (x ⬝ᵥ (L - 1) *ᵥ x) + b ⬝ᵥ x) =
      Real.exp (-(1 / 2) * (Real.log L.det - b ⬝ᵥ L⁻¹ *ᵥ b)) * Real.exp (Spec.logNormal L⁻¹ (x - L⁻¹ *ᵥ b)) := by
    intro x
    rw [← Real.exp_add, ← Real.exp_add]
    congr 1
    have hd : (L⁻¹).det = (L.det)⁻¹ := by rw [det_nonsing_inv, Ring.inverse_eq_inv']
    have h1 : (1 : Matrix (Fin n) (Fin n) ℝ)⁻¹ = 1 := by rw [Matrix.inv_eq_left_inv (Matrix.one_mul 1)]
    simp only [Spec.logNormal, nonsing_inv_nonsing_inv _ hu, hd, Real.log_inv, h1, det_one, Real.log_one, sub_zero, one_mulVec,
      sub_mulVec, mulVec_sub, mulVec_mulVec, mul_nonsing_inv _ hu, dotProduct_sub, sub_dotProduct]
    rw [mulVec_dot_symm hsi b (L *ᵥ x), mulVec_dot_symm hsi b b, mulVec_mulVec, nonsing_inv_mul _ hu, one_mulVec, dotProduct_comm x b]
    ring
  simp only [hpt]
  rw [integral_const_mul, (integral_exp_logNormal hLi _).2, mul_one]

theorem mt_posDef {Ω : Matrix (Fin n) (Fin n) ℝ} (hΩ : Ω.PosSemidef) (F : Matrix (Fin n) (Fin n) ℝ) : (Fᵀ * Ω * F + 1).PosDef := by
  have h := posSemidef_conj hΩ Fᵀ
  rw [transpose_transpose] at h
  exact Matrix.PosDef.posSemidef_add h PosDef.one

/-- The integral of `exp(-z'Ωz/2 + Λ'z)` over `N(μ, FF')`. -/
theorem gauss_exp_quad {Ω : Matrix (Fin n) (Fin n) ℝ} (hΩ : Ω.PosSemidef) (Λ μ : Fin n → ℝ) (F : Matrix (Fin n) (Fin n) ℝ) :
    ∫ z, Real.exp (-(1 / 2) * (z ⬝ᵥ Ω *ᵥ z) + Λ ⬝ᵥ z) ∂(Spec.gauss μ (F * Fᵀ)) =
      Real.exp (-(1 / 2) * (Real.log (Fᵀ * Ω * F + 1).det + (μ ⬝ᵥ Ω *ᵥ μ - 2 * (Λ ⬝ᵥ μ) -
        (Fᵀ *ᵥ (Λ - Ω *ᵥ μ)) ⬝ᵥ (Fᵀ * Ω * F + 1)⁻¹ *ᵥ (Fᵀ *ᵥ (Λ - Ω *ᵥ μ))))) := by
  have hs : Ωᵀ = Ω := PosSemidef.isSymm' hΩ
  have h1 := gauss_affine_one (μ := (0 : Fin n → ℝ)) (P := (1 : Matrix (Fin n) (Fin n) ℝ)) Matrix.PosSemidef.one μ F
  rw [Matrix.mul_one, mulVec_zero, add_zero] at h1
  rw [← h1, integral_map (Continuous.measurable (by fun_prop)).aemeasurable (Continuous.aestronglyMeasurable (by fun_prop))]
  have hpt : ∀ w : Fin n → ℝ, Real.exp (-(1 / 2) * ((μ + F *ᵥ w) ⬝ᵥ Ω *ᵥ (μ + F *ᵥ w)) + Λ ⬝ᵥ (μ + F *ᵥ w)) =
      Real.exp (-(1 / 2) * (μ ⬝ᵥ Ω *ᵥ μ - 2 * (Λ ⬝ᵥ μ))) *
        Real.exp (-(1 / 2) * (w ⬝ᵥ (Fᵀ * Ω * F + 1 - 1) *ᵥ w) + (Fᵀ *ᵥ (Λ - Ω *ᵥ μ)) ⬝ᵥ w) := by
    intro w
    rw [← Real.exp_add]
    congr 1
    have e1 : w ⬝ᵥ (Fᵀ * Ω * F + 1 - 1) *ᵥ w = (F *ᵥ w) ⬝ᵥ Ω *ᵥ (F *ᵥ w) := by
      rw [add_sub_cancel_right, ← mulVec_mulVec, ← mulVec_mulVec, dotProduct_mulVec, vecMul_transpose]
    have e2 : (Fᵀ *ᵥ (Λ - Ω *ᵥ μ)) ⬝ᵥ w = (Λ - Ω *ᵥ μ) ⬝ᵥ F *ᵥ w := by
      rw [mulVec_transpose, dotProduct_mulVec]
    rw [e1, e2]
    simp only [mulVec_add, dotProduct_add, add_dotProduct, sub_dotProduct]
    rw [mulVec_dot_symm hs μ (F *ᵥ w), show (F *ᵥ w) ⬝ᵥ Ω *ᵥ μ = μ ⬝ᵥ Ω *ᵥ (F *ᵥ w) by
      rw [← mulVec_dot_symm hs, dotProduct_comm]]
    ring
  simp only [hpt]
  rw [integral_const_mul, gauss_exp_std (mt_posDef hΩ F), ← Real.exp_add]
  congr 1
  ring

end PyPE

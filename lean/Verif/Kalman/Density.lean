import Verif.Kalman.Cho
import Verif.Kalman.Gauss
import Mathlib.MeasureTheory.Integral.Pi

/-!
# Density of the multivariate normal law
-/

open MeasureTheory ProbabilityTheory Matrix
namespace PyPE

variable {n : ℕ}

/-- The textbook log-density of `N(0, S)` at `e`. -/
noncomputable def Spec.logNormal (S : Matrix (Fin n) (Fin n) ℝ) (e : Fin n → ℝ) : ℝ :=
  -(n / 2) * Real.log (2 * Real.pi) - 1 / 2 * Real.log S.det - 1 / 2 * (e ⬝ᵥ S⁻¹ *ᵥ e)

theorem gauss_std_eq_pi : Spec.gauss (0 : Fin n → ℝ) 1 = Measure.pi fun _ => gaussianReal 0 1 := by
  have h := map_pi_eq_stdGaussian (ι := Fin n)
  rw [Spec.gauss, show WithLp.toLp 2 (0 : Fin n → ℝ) = 0 from rfl, multivariateGaussian_zero_one, ← h,
    Measure.map_map (by fun_prop) (by fun_prop)]
  exact Measure.map_id

theorem pi_gaussian_density : (Measure.pi fun _ : Fin n => gaussianReal 0 1) =
    volume.withDensity fun x => ENNReal.ofReal (∏ i, gaussianPDFReal 0 1 (x i)) := by
  symm
  haveI : ∀ i : Fin n, SigmaFinite ((fun _ : Fin n => gaussianReal 0 1) i) := fun i => inferInstance
  refine Eq.symm (Measure.pi_eq fun s hs => ?_)
  have hm : MeasurableSet (Set.univ.pi s) := MeasurableSet.univ_pi hs
  rw [withDensity_apply _ hm, ← lintegral_indicator hm]
  have hint : ∀ i, Integrable ((s i).indicator (gaussianPDFReal 0 1)) volume := fun i =>
    (integrable_gaussianPDFReal 0 1).indicator (hs i)
  have e1 : ∀ x : Fin n → ℝ, (Set.univ.pi s).indicator (fun x => ENNReal.ofReal (∏ i, gaussianPDFReal 0 1 (x i))) x =
      ENNReal.ofReal (∏ i, (s i).indicator (gaussianPDFReal 0 1) (x i)) := by
    intro x
    by_cases hx : x ∈ Set.univ.pi s
    · rw [Set.indicator_of_mem hx]
      congr 1
      exact Finset.prod_congr rfl fun i _ => (Set.indicator_of_mem (hx i trivial) _).symm
    · rw [Set.indicator_of_notMem hx]
      simp only [Set.mem_pi, Set.mem_univ, true_implies, not_forall] at hx
      obtain ⟨i, hi⟩ := hx
      rw [Finset.prod_eq_zero (Finset.mem_univ i) (Set.indicator_of_notMem hi _)]
      simp
  simp_rw [e1]
  rw [← ofReal_integral_eq_lintegral_ofReal]
  · rw [integral_fintype_prod_volume_eq_prod (fun i => (s i).indicator (gaussianPDFReal 0 1)),
      ENNReal.ofReal_prod_of_nonneg]
    · refine Finset.prod_congr rfl fun i _ => ?_
      rw [ofReal_integral_eq_lintegral_ofReal (hint i)]
      · rw [gaussianReal_of_var_ne_zero _ one_ne_zero, withDensity_apply _ (hs i), ← lintegral_indicator (hs i)]
        refine lintegral_congr fun x => ?_
        by_cases hx : x ∈ s i <;> simp [hx, gaussianPDF]
      · exact Filter.Eventually.of_forall fun x => Set.indicator_nonneg (fun y _ => gaussianPDFReal_nonneg 0 1 y) x
    · exact fun i _ => integral_nonneg fun x => Set.indicator_nonneg (fun y _ => gaussianPDFReal_nonneg 0 1 y) x
  · exact Integrable.fintype_prod hint
  · exact Filter.Eventually.of_forall fun x => Finset.prod_nonneg fun i _ =>
      Set.indicator_nonneg (fun y _ => gaussianPDFReal_nonneg 0 1 y) _

theorem std_density (x : Fin n → ℝ) :
    ∏ i, gaussianPDFReal 0 1 (x i) = Real.exp (-(n / 2) * Real.log (2 * Real.pi) - 1 / 2 * (x ⬝ᵥ x)) := by
  have h2 : (0 : ℝ) < 2 * Real.pi := by positivity
  have : ∀ i, gaussianPDFReal 0 1 (x i) = Real.exp (-(1 / 2) * Real.log (2 * Real.pi) - 1 / 2 * (x i * x i)) := by
    intro i
    rw [gaussianPDFReal, Real.sqrt_eq_rpow, NNReal.coe_one, mul_one, ← Real.rpow_neg h2.le, Real.rpow_def_of_pos h2, ← Real.exp_add]
    congr 1; ring
  simp_rw [this]
  rw [← Real.exp_sum, Finset.sum_sub_distrib, Finset.sum_const, dotProduct, Finset.mul_sum]
  simp only [Finset.card_univ, Fintype.card_fin, nsmul_eq_mul]
  congr 2; ring

/-- **The normal law with an invertible covariance has the textbook density.** -/
theorem gauss_density {S : Matrix (Fin n) (Fin n) ℝ} (hS : S.PosDef) (μ : Fin n → ℝ) :
    Spec.gauss μ S = volume.withDensity fun x => ENNReal.ofReal (Real.exp (Spec.logNormal S (x - μ))) := by
  obtain ⟨U, hU⟩ := exists_isCho hS
  have hd : U.det ≠ 0 := hU.det_pos.ne'
  have hdt : (Uᵀ).det ≠ 0 := by rwa [det_transpose]
  have h1 := gauss_affine_one (μ := (0 : Fin n → ℝ)) (P := (1 : Matrix (Fin n) (Fin n) ℝ)) Matrix.PosSemidef.one μ Uᵀ
  rw [Matrix.mul_one, transpose_transpose, hU.eq, mulVec_zero, add_zero] at h1
  rw [← h1, gauss_std_eq_pi, pi_gaussian_density]
  have hvol := Real.map_matrix_volume_pi_eq_smul_volume_pi hdt
  have hlin : Measurable (Matrix.toLin' Uᵀ) := Continuous.measurable (LinearMap.continuous_of_finiteDimensional _)
  have hmap : (volume : Measure (Fin n → ℝ)).map (fun x => μ + Uᵀ *ᵥ x) = ENNReal.ofReal (U.det)⁻¹ • volume := by
    have : (fun x : Fin n → ℝ => μ + Uᵀ *ᵥ x) = (fun x => μ + x) ∘ (Matrix.toLin' Uᵀ) := by
      funext x; simp
    rw [this, ← Measure.map_map (by fun_prop) hlin, hvol, Measure.map_smul, det_transpose, abs_of_pos (inv_pos.2 hU.det_pos)]
    congr 1
    exact map_add_left_eq_self volume μ
  have hg : Measurable (fun x : Fin n → ℝ => μ + Uᵀ *ᵥ x) := Continuous.measurable (by fun_prop)
  have hF : Measurable fun x : Fin n → ℝ => ENNReal.ofReal (Real.exp (Spec.logNormal S (x - μ))) := by
    refine ENNReal.measurable_ofReal.comp (Real.measurable_exp.comp (Continuous.measurable ?_))
    unfold Spec.logNormal; fun_prop
  refine Measure.ext fun s hs => ?_
  rw [Measure.map_apply hg hs, withDensity_apply _ (hg hs), withDensity_apply _ hs]
  have e : ∀ x, ENNReal.ofReal (∏ i, gaussianPDFReal 0 1 (x i)) = ENNReal.ofReal U.det *
      ENNReal.ofReal (Real.exp (Spec.logNormal S ((μ + Uᵀ *ᵥ x) - μ))) := by
    intro x
    rw [std_density, ← ENNReal.ofReal_mul hU.det_pos.le]
    congr 1
    rw [← Real.exp_log hU.det_pos, ← Real.exp_add, add_sub_cancel_left]
    congr 1
    have hq : (Uᵀ *ᵥ x) ⬝ᵥ S⁻¹ *ᵥ (Uᵀ *ᵥ x) = x ⬝ᵥ x := by
      rw [mulVec_mulVec, dotProduct_mulVec, mulVec_transpose, vecMul_vecMul, ← Matrix.mul_assoc]
      have : U * S⁻¹ * Uᵀ = 1 := by
        rw [← hU.eq, Matrix.mul_inv_rev, ← Matrix.mul_assoc, Matrix.mul_nonsing_inv _ hd.isUnit, Matrix.one_mul,
          Matrix.nonsing_inv_mul _ hdt.isUnit]
      rw [this, vecMul_one]
    rw [Spec.logNormal, hq, hU.det_S, ← hU.det_eq, Real.log_pow]
    push_cast; ring
  simp_rw [e]
  have hc := lintegral_const_mul (μ := volume.restrict ((fun x => μ + Uᵀ *ᵥ x) ⁻¹' s)) (ENNReal.ofReal U.det) (hF.comp hg)
  simp only [Function.comp_apply] at hc
  rw [hc, ← setLIntegral_map hs hF hg, hmap, Measure.restrict_smul, lintegral_smul_measure,
    smul_eq_mul, ← mul_assoc, ← ENNReal.ofReal_mul hU.det_pos.le, mul_inv_cancel₀ hd, ENNReal.ofReal_one, one_mul]

end PyPE

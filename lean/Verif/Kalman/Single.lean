import Verif.Kalman.Bayes
import Verif.Models.NlgLik

/-!
# One-dimensional normal laws as 1 × 1 matrices
-/

namespace PyPE
open Real Spec MeasureTheory ProbabilityTheory Matrix
open scoped ENNReal

theorem single_posSemidef {s : ℝ} (hs : 0 ≤ s) : (!![s] : Matrix (Fin 1) (Fin 1) ℝ).PosSemidef := by
  have h : (!![s] : Matrix (Fin 1) (Fin 1) ℝ) = !![√s] * 1 * !![√s]ᵀ := by
    ext i j
    fin_cases i; fin_cases j
    simp [vecMul, dotProduct, Real.mul_self_sqrt hs]
  rw [h]
  exact posSemidef_conj PosSemidef.one _

theorem single_posDef {s : ℝ} (hs : 0 < s) : (!![s] : Matrix (Fin 1) (Fin 1) ℝ).PosDef := posDef_one_iff.2 (by simpa using hs)

/-- The law of `m + s w` for a standard normal `w`. -/
theorem single_law (μ : Fin 1 → ℝ) (s : ℝ) : (gauss (0 : Fin 1 → ℝ) 1).map (fun w (_ : Fin 1) => μ 0 + s * w 0) = gauss μ !![s ^ 2] := by
  have h := gauss_affine_one (μ := (0 : Fin 1 → ℝ)) (P := (1 : Matrix (Fin 1) (Fin 1) ℝ)) PosSemidef.one μ !![s]
  have h1 : (fun w : Fin 1 → ℝ => μ + !![s] *ᵥ w) = fun w (_ : Fin 1) => μ 0 + s * w 0 := by
    funext w i
    fin_cases i
    simp [mulVec, dotProduct]
  have h2 : (!![s] * 1 * !![s]ᵀ : Matrix (Fin 1) (Fin 1) ℝ) = !![s ^ 2] := by
    ext i j
    fin_cases i; fin_cases j
    simp [vecMul, dotProduct, sq]
  rw [h1, h2] at h
  rw [h]
  simp

theorem logNormal_neg {n : ℕ} (S : Matrix (Fin n) (Fin n) ℝ) (e : Fin n → ℝ) : logNormal S (-e) = logNormal S e := by
  simp [logNormal, mulVec_neg]

theorem logNormal_single {s : ℝ} (e : Fin 1 → ℝ) (hs : 0 < s) :
    logNormal !![s] e = -(1/2) * (Real.log (2 * Real.pi) + Real.log s + e 0 ^ 2 / s) := by
  have hi : (!![s] : Matrix (Fin 1) (Fin 1) ℝ)⁻¹ = !![s⁻¹] := by
    apply inv_eq_left_inv
    ext i j; fin_cases i; fin_cases j
    simp [hs.ne']
  rw [logNormal, hi, det_unique]
  simp [mulVec, dotProduct]
  field_simp
  ring

end PyPE

import Verif.Kalman.Claims
import Verif.Sim.Props
import Verif.Sampling.Unbiased

/-!
# Concrete cases of the claims about the Kalman filter, means and sampling (C02–C05, C27, C38–C42)
-/

namespace PyPE
open Matrix Spec MeasureTheory ProbabilityTheory

/-- A position and a velocity, the position measured. -/
def wA : Matrix (Fin 2) (Fin 2) ℝ := !![1, 1; 0, 1]
/-- The position. -/
def wC : Matrix (Fin 1) (Fin 2) ℝ := !![1, 0]

theorem wS_posDef : (wC * (1 : Matrix (Fin 2) (Fin 2) ℝ) * wCᵀ + (1 : Matrix (Fin 1) (Fin 1) ℝ)).PosDef :=
  PosDef.posSemidef_add (by
    have := (PosSemidef.one (n := Fin 2) (R := ℝ)).mul_mul_conjTranspose_same wC
    rwa [conjTranspose_eq_transpose_of_trivial] at this) PosDef.one

/-- C38 -/
example : ((Spec.gauss ![0, 1] 1).prod (Spec.gauss (0 : Fin 2 → ℝ) 1)).map (fun p => wA *ᵥ p.1 + 0 + p.2) =
      Spec.gauss (predictFull ![0, 1] 1 wA 0 1).1 (predictFull ![0, 1] 1 wA 0 1).2 ∧ (predictFull ![0, 1] 1 wA 0 1).2.PosDef :=
  ⟨(C38_predict_is_law ![0, 1] 1 wA 0 1 PosSemidef.one PosSemidef.one).1, C38_predict_posDef ![0, 1] 1 wA 0 1 PosSemidef.one PosDef.one⟩

/-- C39 -/
example : ∃ (mean : (Fin 1 → ℝ) → Fin 2 → ℝ) (cov : Matrix (Fin 2) (Fin 2) ℝ) (loglik : (Fin 1 → ℝ) → ℝ),
    (∀ y, measureFull y ![0, 1] 1 (some wC) none 1 = .ok (mean y, cov, loglik y)) ∧
    Spec.IsCondLaw (Spec.observed ![0, 1] 1 wC 0 1) (fun y => Spec.gauss (mean y) cov) := by
  obtain ⟨mean, cov, ll, h1, h2, -⟩ := C39_measure_is_bayes ![0, 1] 1 wC none 1 PosSemidef.one PosSemidef.one wS_posDef
  exact ⟨mean, cov, ll, h1, h2⟩

/-- C39: a measurement of nothing without noise -/
example (y : Fin 1 → ℝ) : measureFull y ![0, 1] (1 : Matrix (Fin 2) (Fin 2) ℝ) (some (0 : Matrix (Fin 1) (Fin 2) ℝ)) none 0 = .error .linAlgError := by
  refine (C39_measure_succeeds_iff y ![0, 1] 1 0 none 0 isSymm_one isSymm_zero).2 fun h => ?_
  have := h.det_pos
  simp at this

/-- C40 -/
example (y : Fin 1 → ℝ) : ∃ z P ll, measureFull y ![0, 1] 1 (some wC) none 1 = .ok (z, P, ll) ∧ measureFullScalar y ![0, 1] 1 (some wC) none 1 = ((z, P), .ok [ll]) :=
  C40_scalar_eq_full y ![0, 1] 1 (some wC) none 1 isSymm_one wS_posDef.diag_pos

/-- C41 -/
example : ∃ zs Ps M, kalmanSmooth ![0, 1] 1 ![1, 1] 1 wA 0 1 = .ok (zs, Ps, M) ∧ Ps.PosSemidef := by
  obtain ⟨-, -, zs, Ps, M, -, -, -, h, -, h', -⟩ := C41_smooth_is_exact ![0, 1] 1 ![1, 1] 1 wA 0 1 PosSemidef.one PosSemidef.one PosSemidef.one
    (C38_predict_posDef ![0, 1] 1 wA 0 1 PosSemidef.one PosDef.one).det_pos.ne'
  exact ⟨zs, Ps, M, h, h'⟩

/-- C42 -/
example (e : Fin 2 → ℝ) : lognormpdf e ((2 : ℝ) • (1 : Matrix (Fin 2) (Fin 2) ℝ)) = .ok (Spec.logNormal ((2 : ℝ) • 1) e) ∧
    ∃ logp : (Fin 2 → ℝ) → ℝ, (∀ x, lognormpdf (x - ![1, 2]) ((2 : ℝ) • 1) = .ok (logp x)) ∧
      Spec.gauss ![1, 2] ((2 : ℝ) • 1) = volume.withDensity fun x => ENNReal.ofReal (Real.exp (logp x)) := by
  have h : ((2 : ℝ) • (1 : Matrix (Fin 2) (Fin 2) ℝ)).PosDef := PosDef.one.smul (by norm_num)
  obtain ⟨c, -, h1, -⟩ := C42_helpers_agree _ h
  exact ⟨h1 e, C42_is_density _ h ![1, 2]⟩

/-- C02–C05: seven draws, a weight in the middle that is zero -/
example : ∃ idx, sample [0, 2, 1, 0, 5] 7 (1/3) = .ok idx ∧ idx.Pairwise (· ≤ ·) ∧ 3 ∉ idx ∧ |(idx.count 4 : ℝ) - 35 / 8| < 1 ∧
    ∫ r in (0:ℝ)..1, drawCount [0, 2, 1, 0, 5] 7 4 r = 35 / 8 := by
  have hw : Weights [0, 2, 1, 0, 5] := by constructor <;> norm_num
  have hr : Unit01 (1/3) := by constructor <;> norm_num
  obtain ⟨idx, h, -⟩ := C01_sample_length_range hw 7 hr
  have hp : (7 : ℕ) * prob [0, 2, 1, 0, 5] 4 = (35 / 8 : ℝ) := by simp [prob]; norm_num
  have hc := (C02_sample_count hw 7 hr h 4).2 (by norm_num)
  rw [hp] at hc
  exact ⟨idx, h, C04_sample_sorted hw 7 hr h, C05_zero_weight_never_drawn hw 7 hr (by norm_num) h (by simp), hc, (C03_sample_unbiased hw 7 4).trans hp⟩

/-- C27: one step with two particles of different weights -/
example : ∃ m x, filteredMean id [(⟨⟨[1, 3], [0, Real.log 3], 2, 0⟩, [0, 1]⟩ : Step ℝ)] = .ok m ∧ m[0]? = some x ∧ x = 5 / 2 ∧ 1 ≤ x ∧ x ≤ 3 := by
  obtain ⟨m, hm⟩ : ∃ m, filteredMean id [(⟨⟨[1, 3], [0, Real.log 3], 2, 0⟩, [0, 1]⟩ : Step ℝ)] = .ok m := ⟨_, rfl⟩
  obtain ⟨x, hx, he⟩ := C27_filtered_mean_eq hm 0 _ rfl (by simp) rfl
  obtain ⟨x', hx', h1, h2⟩ := (C27_filtered_mean_bounds hm).2 0 _ rfl (by simp) rfl 1 3 (by simp)
  obtain rfl : x = x' := by simpa [hx] using hx'
  refine ⟨m, x, hm, hx, ?_, h1, h2⟩
  simp [Real.exp_log] at he
  linarith

end PyPE

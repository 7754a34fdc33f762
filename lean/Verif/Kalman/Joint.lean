import Verif.Kalman.Gauss
import Mathlib.Data.Matrix.Block
import Mathlib.Data.Matrix.ColumnRowPartitioned
import Mathlib.LinearAlgebra.Matrix.NonsingularInverse

/-!
# Conditioning of jointly normal vectors

`gauss_conditional`: if `x ~ N(z, P)` and `y = C x + h + e` with independent `e ~ N(0, R)`, and `K` is any matrix with
`K (C P Cᵀ + R) = P Cᵀ`, then `N(z + K (y - C z - h), P - K C P)` is the conditional law of `x` given `y`.
-/

open MeasureTheory ProbabilityTheory Matrix
open scoped ENNReal

namespace PyPE

/-- `cond` is the conditional law of the first component given the second one: `joint (A × B)` is the integral of
`cond y A` over `y ∈ B` under the law of the second component. -/
structure Spec.IsCondLaw {X Y : Type*} [MeasurableSpace X] [MeasurableSpace Y] (joint : Measure (X × Y))
    (cond : Y → Measure X) : Prop where
  prob : ∀ y, IsProbabilityMeasure (cond y)
  eq : ∀ A B, MeasurableSet A → MeasurableSet B → joint (A ×ˢ B) = ∫⁻ y in B, cond y A ∂(joint.map Prod.snd)

/-- Joint law of `x ~ N(z, P)` and `C x + h + e` with independent noise `e ~ N(0, R)`. -/
noncomputable def Spec.observed {ι κ : Type*} [Fintype ι] [Fintype κ] [DecidableEq ι] [DecidableEq κ] (z : ι → ℝ)
    (P : Matrix ι ι ℝ) (C : Matrix κ ι ℝ) (h : κ → ℝ) (R : Matrix κ κ ℝ) : Measure ((ι → ℝ) × (κ → ℝ)) :=
  ((Spec.gauss z P).prod (Spec.gauss 0 R)).map fun p => (p.1, C *ᵥ p.1 + h + p.2)

/-- Joint law of `(c + K y + w, y)` for independent `y ~ N(ν, S)` and `w ~ N(0, V)`. -/
noncomputable def Spec.reversed {ι κ : Type*} [Fintype ι] [Fintype κ] [DecidableEq ι] [DecidableEq κ] (ν : κ → ℝ)
    (S : Matrix κ κ ℝ) (c : ι → ℝ) (K : Matrix ι κ ℝ) (V : Matrix ι ι ℝ) : Measure ((ι → ℝ) × (κ → ℝ)) :=
  ((Spec.gauss ν S).prod (Spec.gauss 0 V)).map fun p => (c + K *ᵥ p.1 + p.2, p.1)

variable {ι κ : Type*} [Fintype ι] [Fintype κ] [DecidableEq ι] [DecidableEq κ]

theorem observed_eq {z : ι → ℝ} {P : Matrix ι ι ℝ} {C : Matrix κ ι ℝ} {h : κ → ℝ} {R : Matrix κ κ ℝ} (hP : P.PosSemidef)
    (hR : R.PosSemidef) : Spec.observed z P C h R =
      (Spec.gauss (Sum.elim z (C *ᵥ z + h)) (fromBlocks P (P * Cᵀ) (C * P) (C * P * Cᵀ + R))).map
        (MeasurableEquiv.sumPiEquivProdPi fun _ : ι ⊕ κ => ℝ) := by
  have ha := gauss_affine (μ := z) (ν := (0 : κ → ℝ)) hP hR (Sum.elim (0 : ι → ℝ) h) (fromRows (1 : Matrix ι ι ℝ) C)
    (fromRows (0 : Matrix ι κ ℝ) (1 : Matrix κ κ ℝ))
  have e1 : Sum.elim (0 : ι → ℝ) h + fromRows (1 : Matrix ι ι ℝ) C *ᵥ z + fromRows (0 : Matrix ι κ ℝ) (1 : Matrix κ κ ℝ) *ᵥ 0
      = Sum.elim z (C *ᵥ z + h) := by
    rw [mulVec_zero, add_zero]
    funext i
    cases i <;> simp [fromRows_mulVec, add_comm]
  have e2 : fromRows (1 : Matrix ι ι ℝ) C * P * (fromRows (1 : Matrix ι ι ℝ) C)ᵀ +
      fromRows (0 : Matrix ι κ ℝ) (1 : Matrix κ κ ℝ) * R * (fromRows (0 : Matrix ι κ ℝ) (1 : Matrix κ κ ℝ))ᵀ =
      fromBlocks P (P * Cᵀ) (C * P) (C * P * Cᵀ + R) := by
    simp [transpose_fromRows, fromRows_mul, fromRows_mul_fromCols]
    ext (i | i) (j | j) <;> simp
  rw [e1, e2] at ha
  rw [← ha, Measure.map_map (MeasurableEquiv.measurable _) (Continuous.measurable (by fun_prop)), Spec.observed]
  congr 1
  funext p
  ext i <;> simp [MeasurableEquiv.sumPiEquivProdPi, Equiv.sumPiEquivProdPi, fromRows_mulVec, add_comm]

theorem reversed_eq {ν : κ → ℝ} {S : Matrix κ κ ℝ} {c : ι → ℝ} {K : Matrix ι κ ℝ} {V : Matrix ι ι ℝ} (hS : S.PosSemidef)
    (hV : V.PosSemidef) : Spec.reversed ν S c K V =
      (Spec.gauss (Sum.elim (c + K *ᵥ ν) ν) (fromBlocks (K * S * Kᵀ + V) (K * S) (S * Kᵀ) S)).map
        (MeasurableEquiv.sumPiEquivProdPi fun _ : ι ⊕ κ => ℝ) := by
  have ha := gauss_affine (μ := ν) (ν := (0 : ι → ℝ)) hS hV (Sum.elim c (0 : κ → ℝ)) (fromRows K (1 : Matrix κ κ ℝ))
    (fromRows (1 : Matrix ι ι ℝ) (0 : Matrix κ ι ℝ))
  have e1 : Sum.elim c (0 : κ → ℝ) + fromRows K (1 : Matrix κ κ ℝ) *ᵥ ν + fromRows (1 : Matrix ι ι ℝ) (0 : Matrix κ ι ℝ) *ᵥ 0
      = Sum.elim (c + K *ᵥ ν) ν := by
    rw [mulVec_zero, add_zero]
    funext i
    cases i <;> simp [fromRows_mulVec]
  have e2 : fromRows K (1 : Matrix κ κ ℝ) * S * (fromRows K (1 : Matrix κ κ ℝ))ᵀ +
      fromRows (1 : Matrix ι ι ℝ) (0 : Matrix κ ι ℝ) * V * (fromRows (1 : Matrix ι ι ℝ) (0 : Matrix κ ι ℝ))ᵀ =
      fromBlocks (K * S * Kᵀ + V) (K * S) (S * Kᵀ) S := by
    simp [transpose_fromRows, fromRows_mul, fromRows_mul_fromCols]
    ext (i | i) (j | j) <;> simp
  rw [e1, e2] at ha
  rw [← ha, Measure.map_map (MeasurableEquiv.measurable _) (Continuous.measurable (by fun_prop)), Spec.reversed]
  congr 1
  funext p
  ext i <;> simp [MeasurableEquiv.sumPiEquivProdPi, Equiv.sumPiEquivProdPi, fromRows_mulVec]

theorem gauss_shift {V : Matrix ι ι ℝ} (hV : V.PosSemidef) (μ : ι → ℝ) :
    (Spec.gauss 0 V).map (fun w => μ + w) = Spec.gauss μ V := by
  have := gauss_affine_one (μ := (0 : ι → ℝ)) hV μ (1 : Matrix ι ι ℝ)
  simpa using this

/-- In `Spec.reversed` the conditional law of the first component given the second one is normal. -/
theorem reversed_cond {ν : κ → ℝ} {S : Matrix κ κ ℝ} {c : ι → ℝ} {K : Matrix ι κ ℝ} {V : Matrix ι ι ℝ} (hV : V.PosSemidef) :
    Spec.IsCondLaw (Spec.reversed ν S c K V) (fun y => Spec.gauss (c + K *ᵥ y) V) := by
  have hm : Measurable (fun p : (κ → ℝ) × (ι → ℝ) => (c + K *ᵥ p.1 + p.2, p.1)) := Continuous.measurable (by fun_prop)
  refine ⟨fun y => inferInstance, fun A B hA hB => ?_⟩
  have hs : (Spec.reversed ν S c K V).map Prod.snd = Spec.gauss ν S := by
    rw [Spec.reversed, Measure.map_map measurable_snd hm]
    have : (Prod.snd ∘ fun p : (κ → ℝ) × (ι → ℝ) => (c + K *ᵥ p.1 + p.2, p.1)) = Prod.fst := rfl
    rw [this, Measure.map_fst_prod]
    simp
  rw [hs, Spec.reversed, Measure.map_apply hm (hA.prod hB), Measure.prod_apply (hm (hA.prod hB)), ← lintegral_indicator hB]
  refine lintegral_congr fun y => ?_
  by_cases hy : y ∈ B
  · rw [Set.indicator_of_mem hy, ← gauss_shift hV (c + K *ᵥ y), Measure.map_apply (by fun_prop) hA]
    congr 1
    ext w; simp [hy]
  · rw [Set.indicator_of_notMem hy]
    have : Prod.mk y ⁻¹' ((fun p : (κ → ℝ) × (ι → ℝ) => (c + K *ᵥ p.1 + p.2, p.1)) ⁻¹' A ×ˢ B) = ∅ := by
      ext w; simp [hy]
    rw [this, measure_empty]

/-- The Joseph form. -/
theorem joseph {P : Matrix ι ι ℝ} {C : Matrix κ ι ℝ} {R : Matrix κ κ ℝ} {K : Matrix ι κ ℝ} (hP : P.IsSymm)
    (hK : K * (C * P * Cᵀ + R) = P * Cᵀ) : P - K * (C * P) = (1 - K * C) * P * (1 - K * C)ᵀ + K * R * Kᵀ := by
  have h1 : K * R * Kᵀ = P * Cᵀ * Kᵀ - K * (C * P * Cᵀ) * Kᵀ := by
    rw [← hK, Matrix.mul_add, Matrix.add_mul, add_sub_cancel_left]
  rw [h1]
  simp only [transpose_sub, transpose_one, transpose_mul, Matrix.sub_mul, Matrix.mul_sub, Matrix.one_mul, Matrix.mul_one,
    Matrix.mul_assoc]
  abel

theorem posterior_posSemidef {P : Matrix ι ι ℝ} {C : Matrix κ ι ℝ} {R : Matrix κ κ ℝ} {K : Matrix ι κ ℝ} (hP : P.PosSemidef)
    (hR : R.PosSemidef) (hK : K * (C * P * Cᵀ + R) = P * Cᵀ) : (P - K * (C * P)).PosSemidef := by
  have hs : P.IsSymm := by
    have := hP.isHermitian
    rwa [Matrix.IsHermitian, Matrix.conjTranspose_eq_transpose_of_trivial] at this
  rw [joseph hs hK]
  exact (posSemidef_conj hP _).add (posSemidef_conj hR K)

/-- Both ways of generating `(x, y)` give the same joint law. -/
theorem observed_eq_reversed {z : ι → ℝ} {P : Matrix ι ι ℝ} {C : Matrix κ ι ℝ} {h : κ → ℝ} {R : Matrix κ κ ℝ}
    {K : Matrix ι κ ℝ} (hP : P.PosSemidef) (hR : R.PosSemidef) (hK : K * (C * P * Cᵀ + R) = P * Cᵀ) :
    Spec.observed z P C h R =
      Spec.reversed (C *ᵥ z + h) (C * P * Cᵀ + R) (z - K *ᵥ (C *ᵥ z + h)) K (P - K * (C * P)) := by
  have hs : P.IsSymm := by
    have := hP.isHermitian
    rwa [Matrix.IsHermitian, Matrix.conjTranspose_eq_transpose_of_trivial] at this
  have hRs : R.IsSymm := by
    have := hR.isHermitian
    rwa [Matrix.IsHermitian, Matrix.conjTranspose_eq_transpose_of_trivial] at this
  have hSs : (C * P * Cᵀ + R)ᵀ = C * P * Cᵀ + R := by
    rw [transpose_add, transpose_mul, transpose_mul, transpose_transpose, hs.eq, hRs.eq, Matrix.mul_assoc]
  have hKt : (C * P * Cᵀ + R) * Kᵀ = C * P := by
    have := congrArg transpose hK
    rwa [transpose_mul, hSs, transpose_mul, transpose_transpose, hs.eq] at this
  rw [observed_eq hP hR, reversed_eq ((posSemidef_conj hP C).add hR) (posterior_posSemidef hP hR hK), hK, hKt]
  congr 2
  · rw [sub_add_cancel]
  · congr 1
    have : P * Cᵀ * Kᵀ = K * (C * P) := by
      rw [← hK, Matrix.mul_assoc, hKt]
    rw [this]; abel

/-- **Conditional law of the state given a linear measurement.** -/
theorem gauss_conditional {z : ι → ℝ} {P : Matrix ι ι ℝ} {C : Matrix κ ι ℝ} {h : κ → ℝ} {R : Matrix κ κ ℝ}
    {K : Matrix ι κ ℝ} (hP : P.PosSemidef) (hR : R.PosSemidef) (hK : K * (C * P * Cᵀ + R) = P * Cᵀ) :
    Spec.IsCondLaw (Spec.observed z P C h R) (fun y => Spec.gauss (z + K *ᵥ (y - C *ᵥ z - h)) (P - K * (C * P))) := by
  rw [observed_eq_reversed hP hR hK]
  have := reversed_cond (ν := C *ᵥ z + h) (S := C * P * Cᵀ + R) (c := z - K *ᵥ (C *ᵥ z + h)) (K := K)
    (posterior_posSemidef hP hR hK)
  convert this using 3
  rw [sub_add_eq_add_sub, add_sub_assoc, ← Matrix.mulVec_sub, sub_sub]

/-- The measurement itself is `N(C z + h, C P Cᵀ + R)`. -/
theorem observed_snd {z : ι → ℝ} {P : Matrix ι ι ℝ} {C : Matrix κ ι ℝ} {h : κ → ℝ} {R : Matrix κ κ ℝ} (hP : P.PosSemidef)
    (hR : R.PosSemidef) : (Spec.observed z P C h R).map Prod.snd = Spec.gauss (C *ᵥ z + h) (C * P * Cᵀ + R) := by
  rw [Spec.observed, Measure.map_map measurable_snd (Continuous.measurable (by fun_prop))]
  have := gauss_affine (μ := z) (ν := (0 : κ → ℝ)) hP hR h C (1 : Matrix κ κ ℝ)
  rw [Matrix.one_mul, transpose_one, Matrix.mul_one, mulVec_zero, add_zero, add_comm h] at this
  rw [← this]
  congr 1
  funext p
  simp [add_comm]

end PyPE

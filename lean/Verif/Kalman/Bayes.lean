import Verif.Kalman.Exact
import Mathlib.Analysis.Matrix.Order

/-!
# Exact smoothing of a linear Gaussian model for given data (C71)

The dynamics may depend on the data: every step of the list carries its own matrices, offsets and measured value.
-/

open MeasureTheory ProbabilityTheory Matrix
open scoped ENNReal MatrixOrder Matrix.Norms.L2Operator
namespace PyPE

variable {n m : ℕ}

/-! ## Specification -/

/-- What happens to the state, with the data that were recorded: it moves, `x ↦ A x + f + v` with `v ~ N(0, Q)`, or the value `y` of
`C x + h + e` with `e ~ N(0, R)` is observed (in any number `m` of dimensions). -/
inductive Spec.DataOp (n : ℕ) where
  | move (A : Matrix (Fin n) (Fin n) ℝ) (f : Fin n → ℝ) (Q : Matrix (Fin n) (Fin n) ℝ)
  | meas (m : ℕ) (C : Matrix (Fin m) (Fin n) ℝ) (h : Fin m → ℝ) (R : Matrix (Fin m) (Fin m) ℝ) (y : Fin m → ℝ)

/-- Valid noise covariances. -/
def Spec.DataOp.Good : Spec.DataOp n → Prop
  | .move _ _ Q => Q.PosSemidef
  | .meas _ _ _ R _ => R.PosDef

/-- Density of observing `y` when the state is `x`. -/
noncomputable def Spec.likelihood (C : Matrix (Fin m) (Fin n) ℝ) (h : Fin m → ℝ) (R : Matrix (Fin m) (Fin m) ℝ) (y : Fin m → ℝ)
    (x : Fin n → ℝ) : ℝ≥0∞ := ENNReal.ofReal (Real.exp (Spec.logNormal R (y - C *ᵥ x - h)))

/-- The joint law of something remembered (`S`) and the current state, weighted with the density of the data, after the steps of
the list: a move adds independent noise, a measurement multiplies with the likelihood of the observed value. -/
noncomputable def Spec.follow {S : Type} [MeasurableSpace S] :
    List (Spec.DataOp n) → Measure (S × (Fin n → ℝ)) → Measure (S × (Fin n → ℝ))
  | [], μ => μ
  | .move A f Q :: l, μ => Spec.follow l ((μ.prod (Spec.gauss 0 Q)).map fun p => (p.1.1, A *ᵥ p.1.2 + f + p.2))
  | .meas _ C h R y :: l, μ => Spec.follow l (μ.withDensity fun p => Spec.likelihood C h R y p.2)

/-- Start to remember the current state. -/
noncomputable def Spec.remember {n : ℕ} (μ : Measure (Fin n → ℝ)) : Measure ((Fin n → ℝ) × (Fin n → ℝ)) := μ.map fun x => (x, x)

/-- Law of the present state, weighted with the density of the data, after the steps of the list. -/
noncomputable def Spec.filtered (μ : Measure (Fin n → ℝ)) (l : List (Spec.DataOp n)) : Measure (Fin n → ℝ) :=
  (Spec.follow l (μ.map fun x => ((), x))).map Prod.snd

/-- Law of the state after the steps `past`, weighted with the density of all data, those of `past` and those of the later steps
`future`. -/
noncomputable def Spec.smoothed (μ : Measure (Fin n → ℝ)) (past future : List (Spec.DataOp n)) : Measure (Fin n → ℝ) :=
  (Spec.follow future (Spec.remember (Spec.filtered μ past))).map Prod.fst

/-- Joint law of the states before and after the step `op`, weighted with the density of all data. -/
noncomputable def Spec.smoothedPair (μ : Measure (Fin n → ℝ)) (past : List (Spec.DataOp n)) (op : Spec.DataOp n)
    (future : List (Spec.DataOp n)) : Measure ((Fin n → ℝ) × (Fin n → ℝ)) :=
  (Spec.follow future ((Spec.follow [op] (Spec.remember (Spec.filtered μ past))).map fun p => (p, p.2))).map Prod.fst

/-! ## Bayes' rule for one measured value -/

theorem measurable_likelihood (C : Matrix (Fin m) (Fin n) ℝ) (h : Fin m → ℝ) (R : Matrix (Fin m) (Fin m) ℝ) (y : Fin m → ℝ) :
    Measurable (Spec.likelihood C h R y) := by
  refine ENNReal.measurable_ofReal.comp (Real.measurable_exp.comp (Continuous.measurable ?_))
  unfold Spec.logNormal; fun_prop

theorem continuous_logNormal (R : Matrix (Fin m) (Fin m) ℝ) : Continuous (Spec.logNormal R) := by
  unfold Spec.logNormal; fun_prop

theorem posterior_one_posDef {k : ℕ} (D : Matrix (Fin m) (Fin k) ℝ) {R : Matrix (Fin m) (Fin m) ℝ} (hR : R.PosDef) :
    (1 - Dᵀ * (D * Dᵀ + R)⁻¹ * D).PosDef := by
  have hP : (1 : Matrix (Fin k) (Fin k) ℝ).PosDef := Matrix.PosDef.one
  have hS : (D * Dᵀ + R).PosDef := by
    have := Matrix.PosDef.posSemidef_add (posSemidef_conj hP.posSemidef D) hR
    rwa [Matrix.mul_one] at this
  obtain ⟨z', ll, h1, -⟩ := C39_measure_information (n := k) 0 0 1 D none R hP hR
  rw [measureFull_eq (PosDef.isSymm' hP) (PosDef.isSymm' hR) (by rwa [Matrix.mul_one])] at h1
  simp only [Except.ok.injEq, Prod.mk.injEq, Matrix.mul_one, Matrix.one_mul] at h1
  rw [h1.2.1]
  refine Matrix.PosDef.inv (Matrix.PosDef.add_posSemidef (by simpa using hP) ?_)
  have := posSemidef_conj hR.inv.posSemidef Dᵀ
  rwa [transpose_transpose] at this

/-- Completing the square: both factorisations of the joint density of `w ~ N(0, 1)` and `D w + e` agree everywhere. -/
theorem density_factor {k : ℕ} (D : Matrix (Fin m) (Fin k) ℝ) {R : Matrix (Fin m) (Fin m) ℝ} (hR : R.PosDef)
    (w : Fin k → ℝ) (y : Fin m → ℝ) :
    ENNReal.ofReal (Real.exp (Spec.logNormal (1 : Matrix (Fin k) (Fin k) ℝ) w)) *
        ENNReal.ofReal (Real.exp (Spec.logNormal R (y - D *ᵥ w))) =
      ENNReal.ofReal (Real.exp (Spec.logNormal (D * Dᵀ + R) y)) *
        ENNReal.ofReal (Real.exp (Spec.logNormal (1 - Dᵀ * (D * Dᵀ + R)⁻¹ * D) (w - (Dᵀ * (D * Dᵀ + R)⁻¹) *ᵥ y))) := by
  have hP : (1 : Matrix (Fin k) (Fin k) ℝ).PosDef := Matrix.PosDef.one
  have hS : (D * Dᵀ + R).PosDef := by
    have := Matrix.PosDef.posSemidef_add (posSemidef_conj hP.posSemidef D) hR
    rwa [Matrix.mul_one] at this
  have hK : (Dᵀ * (D * Dᵀ + R)⁻¹) * (D * (1 : Matrix (Fin k) (Fin k) ℝ) * Dᵀ + R) = (1 : Matrix (Fin k) (Fin k) ℝ) * Dᵀ := by
    rw [Matrix.mul_one, Matrix.mul_assoc, Matrix.nonsing_inv_mul _ hS.det_pos.ne'.isUnit, Matrix.mul_one, Matrix.one_mul]
  have hV := posterior_one_posDef D hR
  have key := observed_eq_reversed (z := (0 : Fin k → ℝ)) (h := (0 : Fin m → ℝ)) hP.posSemidef hR.posSemidef hK
  rw [Matrix.mul_one] at key
  set K := Dᵀ * (D * Dᵀ + R)⁻¹ with hKdef
  simp only [Spec.observed, Spec.reversed, mulVec_zero, add_zero, sub_self, zero_add, Matrix.mul_one] at key
  have m1 := measurable_likelihood (0 : Matrix (Fin k) (Fin k) ℝ) 0 1 0
  have hl : ∀ {j : ℕ} (T : Matrix (Fin j) (Fin j) ℝ), Measurable fun x => ENNReal.ofReal (Real.exp (Spec.logNormal T x)) :=
    fun T => ENNReal.measurable_ofReal.comp (Real.measurable_exp.comp (continuous_logNormal T).measurable)
  have hD : Measurable (fun x : Fin k → ℝ => D *ᵥ x) := Continuous.measurable (by fun_prop)
  have hKm : Measurable (fun x : Fin m → ℝ => K *ᵥ x) := Continuous.measurable (by fun_prop)
  have d1 := density_meas (vol := (volume : Measure (Fin k → ℝ))) (hl 1) hD hR
  have d2 := density_meas (vol := (volume : Measure (Fin m → ℝ))) (hl (D * Dᵀ + R)) hKm hV
  have g1 : (volume : Measure (Fin k → ℝ)).withDensity (fun x => ENNReal.ofReal (Real.exp (Spec.logNormal 1 x))) =
      Spec.gauss 0 1 := by rw [gauss_density hP]; simp
  have g2 : (volume : Measure (Fin m → ℝ)).withDensity (fun x => ENNReal.ofReal (Real.exp (Spec.logNormal (D * Dᵀ + R) x))) =
      Spec.gauss 0 (D * Dᵀ + R) := by rw [gauss_density hS]; simp
  rw [g1] at d1
  rw [g2] at d2
  rw [d2] at key
  have hF : Measurable fun p : (Fin k → ℝ) × (Fin m → ℝ) => ENNReal.ofReal (Real.exp (Spec.logNormal 1 p.1)) *
      ENNReal.ofReal (Real.exp (Spec.logNormal R (p.2 - D *ᵥ p.1))) := by
    refine ((hl _).comp measurable_fst).mul ((hl _).comp ?_)
    fun_prop
  have hG : Measurable fun p : (Fin k → ℝ) × (Fin m → ℝ) => ENNReal.ofReal (Real.exp (Spec.logNormal (D * Dᵀ + R) p.2)) *
      ENNReal.ofReal (Real.exp (Spec.logNormal (1 - K * D) (p.1 - K *ᵥ p.2))) := by
    refine ((hl _).comp measurable_snd).mul ((hl _).comp ?_)
    fun_prop
  have d3 := congrArg (Measure.map Prod.swap) d1
  rw [Measure.map_map measurable_swap (by fun_prop)] at d3
  have hsw := map_withDensity_comp (μ := (volume : Measure (Fin m → ℝ)).prod (volume : Measure (Fin k → ℝ))) measurable_swap hF
  rw [Measure.prod_swap] at hsw
  have d4 : ((volume : Measure (Fin k → ℝ)).prod (volume : Measure (Fin m → ℝ))).withDensity
      (fun p => ENNReal.ofReal (Real.exp (Spec.logNormal 1 p.1)) *
        ENNReal.ofReal (Real.exp (Spec.logNormal R (p.2 - D *ᵥ p.1)))) =
      ((volume : Measure (Fin k → ℝ)).prod (volume : Measure (Fin m → ℝ))).withDensity
      (fun p => ENNReal.ofReal (Real.exp (Spec.logNormal (D * Dᵀ + R) p.2)) *
        ENNReal.ofReal (Real.exp (Spec.logNormal (1 - K * D) (p.1 - K *ᵥ p.2)))) := by
    rw [← key, ← hsw]
    exact d3.symm
  rw [withDensity_eq_iff_of_sigmaFinite hF.aemeasurable hG.aemeasurable] at d4
  have hc : ∀ {j : ℕ} (T : Matrix (Fin j) (Fin j) ℝ) {f : (Fin k → ℝ) × (Fin m → ℝ) → Fin j → ℝ}, Continuous f →
      Continuous fun p => Real.exp (Spec.logNormal T (f p)) :=
    fun T f hf => Real.continuous_exp.comp ((continuous_logNormal T).comp hf)
  simp_rw [← ENNReal.ofReal_mul (Real.exp_pos _).le] at d4 ⊢
  have e := (Continuous.ae_eq_iff_eq _
    (ENNReal.continuous_ofReal.comp ((hc 1 (f := fun p => p.1) (by fun_prop)).mul (hc R (f := fun p => p.2 - D *ᵥ p.1) (by fun_prop))))
    (ENNReal.continuous_ofReal.comp ((hc (D * Dᵀ + R) (f := fun p => p.2) (by fun_prop)).mul
      (hc (1 - K * D) (f := fun p => p.1 - K *ᵥ p.2) (by fun_prop))))).1 d4
  exact congrFun e (w, y)

theorem bayes_std {k : ℕ} (D : Matrix (Fin m) (Fin k) ℝ) {R : Matrix (Fin m) (Fin m) ℝ} (hR : R.PosDef) (e : Fin m → ℝ) :
    (Spec.gauss (0 : Fin k → ℝ) 1).withDensity (fun w => ENNReal.ofReal (Real.exp (Spec.logNormal R (e - D *ᵥ w)))) =
      ENNReal.ofReal (Real.exp (Spec.logNormal (D * Dᵀ + R) e)) •
        Spec.gauss ((Dᵀ * (D * Dᵀ + R)⁻¹) *ᵥ e) (1 - Dᵀ * (D * Dᵀ + R)⁻¹ * D) := by
  have hP : (1 : Matrix (Fin k) (Fin k) ℝ).PosDef := Matrix.PosDef.one
  have hl : ∀ {j : ℕ} (T : Matrix (Fin j) (Fin j) ℝ), Measurable fun x => ENNReal.ofReal (Real.exp (Spec.logNormal T x)) :=
    fun T => ENNReal.measurable_ofReal.comp (Real.measurable_exp.comp (continuous_logNormal T).measurable)
  have hRm : Measurable fun w : Fin k → ℝ => ENNReal.ofReal (Real.exp (Spec.logNormal R (e - D *ᵥ w))) :=
    (hl R).comp (Continuous.measurable (by fun_prop))
  have hVm : Measurable fun w : Fin k → ℝ => ENNReal.ofReal (Real.exp (Spec.logNormal (1 - Dᵀ * (D * Dᵀ + R)⁻¹ * D)
      (w - (Dᵀ * (D * Dᵀ + R)⁻¹) *ᵥ e))) := (hl _).comp (by fun_prop)
  rw [gauss_density hP, gauss_density (posterior_one_posDef D hR), ← withDensity_mul _ (by simpa using hl 1) hRm,
    ← withDensity_smul _ hVm]
  congr 1
  funext w
  simpa using density_factor D hR w e

/-- **Bayes' rule** for a normal prior (possibly singular) and one observed value. -/
theorem bayes_meas {z : Fin n → ℝ} {P : Matrix (Fin n) (Fin n) ℝ} (hP : P.PosSemidef) (C : Matrix (Fin m) (Fin n) ℝ)
    (h : Fin m → ℝ) {R : Matrix (Fin m) (Fin m) ℝ} (hR : R.PosDef) (y : Fin m → ℝ) :
    (Spec.gauss z P).withDensity (Spec.likelihood C h R y) =
      ENNReal.ofReal (Real.exp (Spec.logNormal (C * P * Cᵀ + R) (y - C *ᵥ z - h))) •
        Spec.gauss (z + (P * Cᵀ * (C * P * Cᵀ + R)⁻¹) *ᵥ (y - C *ᵥ z - h)) (P - P * Cᵀ * (C * P * Cᵀ + R)⁻¹ * (C * P)) := by
  obtain ⟨B, hB⟩ := CStarAlgebra.nonneg_iff_eq_star_mul_self.mp hP.nonneg
  rw [star_eq_conjTranspose, conjTranspose_eq_transpose_of_trivial] at hB
  have h1 : (1 : Matrix (Fin n) (Fin n) ℝ).PosSemidef := Matrix.PosSemidef.one
  have hg := gauss_affine_one (μ := (0 : Fin n → ℝ)) h1 z Bᵀ
  rw [mulVec_zero, add_zero, Matrix.mul_one, transpose_transpose, ← hB] at hg
  have hT : Measurable (fun w : Fin n → ℝ => z + Bᵀ *ᵥ w) := Continuous.measurable (by fun_prop)
  rw [← hg, ← map_withDensity_comp hT (measurable_likelihood C h R y)]
  have e1 : Spec.likelihood C h R y ∘ (fun w : Fin n → ℝ => z + Bᵀ *ᵥ w) =
      fun w => ENNReal.ofReal (Real.exp (Spec.logNormal R ((y - C *ᵥ z - h) - (C * Bᵀ) *ᵥ w))) := by
    funext w
    simp only [Function.comp, Spec.likelihood, mulVec_add, mulVec_mulVec]
    congr 3
    abel
  have hS : (C * Bᵀ) * (C * Bᵀ)ᵀ = C * P * Cᵀ := by
    rw [hB, transpose_mul, transpose_transpose]; simp only [Matrix.mul_assoc]
  rw [e1, bayes_std _ hR, hS, Measure.map_smul, gauss_affine_one]
  · congr 2
    · rw [mulVec_mulVec, ← Matrix.mul_assoc, transpose_mul, transpose_transpose, ← Matrix.mul_assoc, ← hB]
    · simp only [Matrix.mul_sub, Matrix.sub_mul, transpose_mul, transpose_transpose, Matrix.mul_one, hB, Matrix.mul_assoc]
  · exact (posterior_one_posDef _ hR).posSemidef |> fun h => by rwa [hS] at h

/-! ## Following the data -/

section follow
variable {S S' V : Type} [MeasurableSpace S] [MeasurableSpace S'] [MeasurableSpace V]

theorem prod_right_comm {α β γ : Type*} [MeasurableSpace α] [MeasurableSpace β] [MeasurableSpace γ] (μ : Measure α) (ν : Measure β)
    (τ : Measure γ) [SFinite μ] [SFinite ν] [SFinite τ] :
    ((μ.prod ν).prod τ).map (fun p => ((p.1.1, p.2), p.1.2)) = (μ.prod τ).prod ν := by
  have h1 : ((μ.prod ν).prod τ).map (MeasurableEquiv.prodAssoc) = μ.prod (ν.prod τ) := Measure.prodAssoc_prod
  have h2 : ((μ.prod τ).prod ν).map (MeasurableEquiv.prodAssoc) = μ.prod (τ.prod ν) := Measure.prodAssoc_prod
  have h3 : (μ.prod (ν.prod τ)).map (Prod.map id Prod.swap) = μ.prod (τ.prod ν) := by
    rw [← Measure.map_prod_map _ _ measurable_id measurable_swap, Measure.prod_swap, Measure.map_id]
  have h4 : (μ.prod (τ.prod ν)).map (MeasurableEquiv.prodAssoc.symm) = (μ.prod τ).prod ν := by
    rw [← h2, Measure.map_map (MeasurableEquiv.measurable _) (MeasurableEquiv.measurable _)]
    simp
  rw [← h4, ← h3, ← h1, Measure.map_map (by fun_prop) (by fun_prop), Measure.map_map (by fun_prop) (by fun_prop)]
  rfl

theorem follow_smul (c : ℝ≥0∞) (l : List (Spec.DataOp n)) (μ : Measure (S × (Fin n → ℝ))) [SFinite μ] :
    Spec.follow l (c • μ) = c • Spec.follow l μ := by
  induction l generalizing μ with
  | nil => rfl
  | cons op l ih =>
    cases op with
    | move A f Q => rw [Spec.follow, Spec.follow, Measure.prod_smul_left, Measure.map_smul, ih]
    | meas m C h R y => rw [Spec.follow, Spec.follow, withDensity_smul_measure, ih]

/-- Changing what is remembered, with independent noise, commutes with following the data. -/
theorem follow_map (l : List (Spec.DataOp n)) (μ : Measure (S × (Fin n → ℝ))) [SFinite μ] (ν : Measure V) [SFinite ν]
    {Φ : S × V → S'} (hΦ : Measurable Φ) :
    Spec.follow l ((μ.prod ν).map fun p => (Φ (p.1.1, p.2), p.1.2)) =
      ((Spec.follow l μ).prod ν).map fun p => (Φ (p.1.1, p.2), p.1.2) := by
  have hT : Measurable fun p : (S × (Fin n → ℝ)) × V => (Φ (p.1.1, p.2), p.1.2) := by fun_prop
  induction l generalizing μ with
  | nil => rfl
  | cons op l ih =>
    cases op with
    | move A f Q =>
      rw [Spec.follow, Spec.follow, ← ih]
      congr 1
      have hA : Measurable (fun x : Fin n → ℝ => A *ᵥ x) := Continuous.measurable (by fun_prop)
      have hl : ((μ.prod ν).map fun p => (Φ (p.1.1, p.2), p.1.2)).prod (Spec.gauss 0 Q) =
          ((μ.prod ν).prod (Spec.gauss 0 Q)).map (Prod.map (fun p => (Φ (p.1.1, p.2), p.1.2)) id) := by
        rw [← Measure.map_prod_map _ _ hT measurable_id, Measure.map_id]
      have hr : ((μ.prod (Spec.gauss 0 Q)).map fun p => (p.1.1, A *ᵥ p.1.2 + f + p.2)).prod ν =
          ((μ.prod (Spec.gauss 0 Q)).prod ν).map (Prod.map (fun p => (p.1.1, A *ᵥ p.1.2 + f + p.2)) id) := by
        rw [← Measure.map_prod_map _ _ (by fun_prop) measurable_id, Measure.map_id]
      rw [hl, hr, ← prod_right_comm μ ν (Spec.gauss 0 Q), Measure.map_map (by fun_prop) (by fun_prop),
        Measure.map_map (by fun_prop) (by fun_prop), Measure.map_map (by fun_prop) (by fun_prop)]
      rfl
    | meas m C h R y =>
      have hG : Measurable fun p : S × (Fin n → ℝ) => Spec.likelihood C h R y p.2 :=
        (measurable_likelihood C h R y).comp measurable_snd
      have hG' : Measurable fun p : S' × (Fin n → ℝ) => Spec.likelihood C h R y p.2 :=
        (measurable_likelihood C h R y).comp measurable_snd
      rw [Spec.follow, Spec.follow, ← ih, prod_withDensity_left hG, ← map_withDensity_comp hT hG']
      rfl

theorem sfinite_follow (l : List (Spec.DataOp n)) (μ : Measure (S × (Fin n → ℝ))) [SFinite μ] : SFinite (Spec.follow l μ) := by
  induction l generalizing μ with
  | nil => assumption
  | cons op l ih =>
    cases op with
    | move A f Q => rw [Spec.follow]; exact ih _
    | meas m C h R y => rw [Spec.follow]; exact ih _

/-- Changing what is remembered, without noise. -/
theorem follow_map' (l : List (Spec.DataOp n)) (μ : Measure (S × (Fin n → ℝ))) [SFinite μ] {Φ : S → S'} (hΦ : Measurable Φ) :
    Spec.follow l (μ.map fun p => (Φ p.1, p.2)) = (Spec.follow l μ).map fun p => (Φ p.1, p.2) := by
  have hm := follow_map l μ (Measure.dirac ()) (Φ := fun p : S × Unit => Φ p.1) (by fun_prop)
  have := sfinite_follow l μ
  have e : ∀ ρ : Measure (S × (Fin n → ℝ)), SFinite ρ → (ρ.prod (Measure.dirac ())).map (fun p => (Φ p.1.1, p.1.2)) =
      ρ.map fun p => (Φ p.1, p.2) := by
    intro ρ _
    rw [Measure.prod_dirac, Measure.map_map (by fun_prop) (by fun_prop)]
    rfl
  rwa [e _ inferInstance, e _ (sfinite_follow l μ)] at hm

end follow

/-! ## The code -/

/-- Forward pass over recorded data: `predict_full` and `measure_full`; the returned log-likelihoods are summed. -/
noncomputable def kfData (z : Fin n → ℝ) (P : Matrix (Fin n) (Fin n) ℝ) :
    List (Spec.DataOp n) → PyM ((Fin n → ℝ) × Matrix (Fin n) (Fin n) ℝ × ℝ)
  | [] => .ok (z, P, 0)
  | .move A f Q :: l => kfData (predictFull z P A f Q).1 (predictFull z P A f Q).2 l
  | .meas _ C h R y :: l => do
    let (z', P', dl) ← measureFull y z P (some C) (some h) R
    let (z'', P'', ll) ← kfData z' P' l
    return (z'', P'', dl + ll)

/-- Smoothed estimate of the present state: run the filter over the later steps, then go back with `KalmanSmoother.smooth`. -/
noncomputable def rtsData (z : Fin n → ℝ) (P : Matrix (Fin n) (Fin n) ℝ) :
    List (Spec.DataOp n) → PyM ((Fin n → ℝ) × Matrix (Fin n) (Fin n) ℝ)
  | [] => .ok (z, P)
  | .move A f Q :: l => do
    let (zn, Pn) ← rtsData (predictFull z P A f Q).1 (predictFull z P A f Q).2 l
    let (zs, Ps, _) ← kalmanSmooth z P zn Pn A f Q
    return (zs, Ps)
  | .meas _ C h R y :: l => do
    let (z', P', _) ← measureFull y z P (some C) (some h) R
    rtsData z' P' l

/-! ## Proofs -/

theorem measureFull_good (y : Fin m → ℝ) (z : Fin n → ℝ) {P : Matrix (Fin n) (Fin n) ℝ} (C : Matrix (Fin m) (Fin n) ℝ)
    (h : Fin m → ℝ) {R : Matrix (Fin m) (Fin m) ℝ} (hP : P.PosSemidef) (hR : R.PosDef) :
    ∃ z' P' dl, measureFull y z P (some C) (some h) R = .ok (z', P', dl) ∧ P'.PosSemidef ∧
      (Spec.gauss z P).withDensity (Spec.likelihood C h R y) = ENNReal.ofReal (Real.exp dl) • Spec.gauss z' P' := by
  have hS : (C * P * Cᵀ + R).PosDef := Matrix.PosDef.posSemidef_add (posSemidef_conj hP C) hR
  refine ⟨_, _, _, measureFull_eq (PosSemidef.isSymm' hP) (PosDef.isSymm' hR) hS, ?_, bayes_meas hP C h hR y⟩
  refine posterior_posSemidef hP hR.posSemidef ?_
  rw [Matrix.mul_assoc, Matrix.nonsing_inv_mul _ hS.det_pos.ne'.isUnit, Matrix.mul_one]

/-- Forward pass, with the last state paired with itself or with anything constant. -/
theorem kfData_law {S : Type} [MeasurableSpace S] (s : S) (z : Fin n → ℝ) (P : Matrix (Fin n) (Fin n) ℝ) (hP : P.PosSemidef)
    (l : List (Spec.DataOp n)) (hl : ∀ op ∈ l, op.Good) :
    ∃ z' P' ll, kfData z P l = .ok (z', P', ll) ∧ P'.PosSemidef ∧
      Spec.follow l ((Spec.gauss z P).map fun x => (s, x)) =
        ENNReal.ofReal (Real.exp ll) • (Spec.gauss z' P').map fun x => (s, x) := by
  induction l generalizing z P with
  | nil => exact ⟨z, P, 0, rfl, hP, by simp [Spec.follow]⟩
  | cons op l ih =>
    have hop := hl op List.mem_cons_self
    have hl' := fun o ho => hl o (List.mem_cons_of_mem op ho)
    cases op with
    | move A f Q =>
      obtain ⟨z', P', ll, h1, h2, h3⟩ := ih (predictFull z P A f Q).1 (predictFull z P A f Q).2
        ((posSemidef_conj hP A).add hop) hl'
      refine ⟨z', P', ll, h1, h2, ?_⟩
      rw [← h3, Spec.follow]
      congr 1
      have ha := gauss_affine (μ := z) (ν := (0 : Fin n → ℝ)) hP hop f A (1 : Matrix (Fin n) (Fin n) ℝ)
      rw [Matrix.one_mul, transpose_one, Matrix.mul_one, mulVec_zero, add_zero] at ha
      have hA : Measurable (fun x : Fin n → ℝ => A *ᵥ x) := Continuous.measurable (by fun_prop)
      have hl : ((Spec.gauss z P).map fun x => (s, x)).prod (Spec.gauss 0 Q) =
          ((Spec.gauss z P).prod (Spec.gauss 0 Q)).map (Prod.map (fun x => (s, x)) id) := by
        rw [← Measure.map_prod_map _ _ (by fun_prop) measurable_id, Measure.map_id]
      rw [hl, predictFull, ← ha, Measure.map_map (by fun_prop) (by fun_prop), Measure.map_map (by fun_prop) (by fun_prop)]
      congr 1
      funext p
      simp [add_comm]
    | meas m C h R y =>
      obtain ⟨z1, P1, dl, e1, e2, e3⟩ := measureFull_good y z C h hP hop
      obtain ⟨z', P', ll, h1, h2, h3⟩ := ih z1 P1 e2 hl'
      refine ⟨z', P', dl + ll, by simp [kfData, e1, h1], h2, ?_⟩
      have hm : Measurable fun x : Fin n → ℝ => (s, x) := by fun_prop
      have hG : Measurable fun p : S × (Fin n → ℝ) => Spec.likelihood C h R y p.2 :=
        (measurable_likelihood C h R y).comp measurable_snd
      have := map_withDensity_comp (μ := Spec.gauss z P) hm hG
      rw [Spec.follow, ← this]
      have e4 : ((fun p : S × (Fin n → ℝ) => Spec.likelihood C h R y p.2) ∘ fun x => (s, x)) = Spec.likelihood C h R y := rfl
      rw [e4, e3, Measure.map_smul, follow_smul, h3, smul_smul, Real.exp_add, ENNReal.ofReal_mul (Real.exp_pos _).le]

theorem smooth_joint {z : Fin n → ℝ} {P : Matrix (Fin n) (Fin n) ℝ} {A : Matrix (Fin n) (Fin n) ℝ} {f : Fin n → ℝ}
    {Q : Matrix (Fin n) (Fin n) ℝ} (hP : P.PosSemidef) (hQ : Q.PosSemidef) (hdet : (A * P * Aᵀ + Q).det ≠ 0) :
    ∃ (c : Fin n → ℝ) (J V : Matrix (Fin n) (Fin n) ℝ), V.PosSemidef ∧
      Spec.observed z P A f Q = Spec.reversed (f + A *ᵥ z) (A * P * Aᵀ + Q) c J V ∧
      ∀ (zN : Fin n → ℝ) (PN : Matrix (Fin n) (Fin n) ℝ), PN.PosSemidef → ∃ zs Ps M,
        kalmanSmooth z P zN PN A f Q = .ok (zs, Ps, M) ∧ Ps.PosSemidef ∧
        (Spec.reversed zN PN c J V).map Prod.fst = Spec.gauss zs Ps ∧
        Spec.reversed zN PN c J V = (Spec.gauss (Sum.elim zs zN) (fromBlocks Ps M Mᵀ PN)).map
          (MeasurableEquiv.sumPiEquivProdPi fun _ : Fin n ⊕ Fin n => ℝ) := by
  set S := A * P * Aᵀ + Q with hSdef
  have hok : ∀ zN PN, kalmanSmooth z P zN PN A f Q = .ok (z + (P * (Aᵀ * S⁻¹)) *ᵥ (zN - (f + A *ᵥ z)),
    P + (P * (Aᵀ * S⁻¹)) * ((PN - S) * (P * (Aᵀ * S⁻¹))ᵀ), (P * (Aᵀ * S⁻¹)) * PN) := fun _ _ => kalmanSmooth_ok hdet
  set J := P * (Aᵀ * S⁻¹) with hJ
  have hPs := PosSemidef.isSymm' hP
  have hQs := PosSemidef.isSymm' hQ
  have hSs : S.IsSymm := innovation_isSymm hPs hQs
  have hJS : J * S = P * Aᵀ := by
    rw [hJ, Matrix.mul_assoc, Matrix.mul_assoc, Matrix.nonsing_inv_mul _ hdet.isUnit, Matrix.mul_one]
  clear_value J
  have hSJ : S * Jᵀ = A * P := by
    have := congrArg transpose hJS
    rwa [transpose_mul, hSs.eq, transpose_mul, transpose_transpose, hPs.eq] at this
  have hV := posterior_posSemidef hP hQ hJS
  have hobs := observed_eq_reversed (z := z) (h := f) hP hQ hJS
  refine ⟨z - J *ᵥ (A *ᵥ z + f), J, P - J * (A * P), hV, by rw [hobs, add_comm f], fun zN PN hPN => ⟨_, _, _, hok zN PN, ?_⟩⟩
  have hPNs := PosSemidef.isSymm' hPN
  have hPsm : P + J * ((PN - S) * Jᵀ) = J * PN * Jᵀ + (P - J * (A * P)) := by
    rw [Matrix.sub_mul, Matrix.mul_sub, hSJ, ← Matrix.mul_assoc]
    abel
  have hzs : z + J *ᵥ (zN - (f + A *ᵥ z)) = (z - J *ᵥ (A *ᵥ z + f)) + J *ᵥ zN := by
    rw [mulVec_sub, add_comm f]; abel
  have hjoint := reversed_eq (ν := zN) (c := z - J *ᵥ (A *ᵥ z + f)) (K := J) hPN hV
  rw [← hPsm, ← hzs, show PN * Jᵀ = (J * PN)ᵀ by rw [transpose_mul, hPNs.eq]] at hjoint
  refine ⟨by rw [hPsm]; exact (posSemidef_conj hPN J).add hV, ?_, hjoint⟩
  rw [Spec.reversed, Measure.map_map measurable_fst (Continuous.measurable (by fun_prop))]
  have h := gauss_affine (μ := zN) (ν := (0 : Fin n → ℝ)) hPN hV (z - J *ᵥ (A *ᵥ z + f)) J (1 : Matrix (Fin n) (Fin n) ℝ)
  rw [Matrix.one_mul, transpose_one, Matrix.mul_one, mulVec_zero, add_zero, ← hzs, ← hPsm] at h
  rw [← h]
  congr 1
  funext p
  simp

theorem remember_move {z : Fin n → ℝ} {P A : Matrix (Fin n) (Fin n) ℝ} {f : Fin n → ℝ} {Q : Matrix (Fin n) (Fin n) ℝ} :
    ((Spec.remember (Spec.gauss z P)).prod (Spec.gauss 0 Q)).map (fun p => (p.1.1, A *ᵥ p.1.2 + f + p.2)) =
      Spec.observed z P A f Q := by
  have hA : Measurable (fun x : Fin n → ℝ => A *ᵥ x) := Continuous.measurable (by fun_prop)
  have hl : (Spec.remember (Spec.gauss z P)).prod (Spec.gauss 0 Q) =
      ((Spec.gauss z P).prod (Spec.gauss 0 Q)).map (Prod.map (fun x => (x, x)) id) := by
    rw [← Measure.map_prod_map _ _ (by fun_prop) measurable_id, Measure.map_id]; rfl
  rw [hl, Measure.map_map (by fun_prop) (by fun_prop)]
  rfl

theorem reversed_remember {ν : Fin n → ℝ} {S : Matrix (Fin n) (Fin n) ℝ} {c : Fin n → ℝ} {K V : Matrix (Fin n) (Fin n) ℝ} :
    Spec.reversed ν S c K V =
      ((Spec.remember (Spec.gauss ν S)).prod (Spec.gauss 0 V)).map fun p => (c + K *ᵥ p.1.1 + p.2, p.1.2) := by
  have hK : Measurable (fun x : Fin n → ℝ => K *ᵥ x) := Continuous.measurable (by fun_prop)
  have hl : (Spec.remember (Spec.gauss ν S)).prod (Spec.gauss 0 V) =
      ((Spec.gauss ν S).prod (Spec.gauss 0 V)).map (Prod.map (fun x => (x, x)) id) := by
    rw [← Measure.map_prod_map _ _ (by fun_prop) measurable_id, Measure.map_id]; rfl
  rw [hl, Measure.map_map (by fun_prop) (by fun_prop)]
  rfl

theorem follow_reversed (l : List (Spec.DataOp n)) {ν : Fin n → ℝ} {S : Matrix (Fin n) (Fin n) ℝ} {c : Fin n → ℝ}
    {K V : Matrix (Fin n) (Fin n) ℝ} {zN : Fin n → ℝ} {PN : Matrix (Fin n) (Fin n) ℝ} {a : ℝ≥0∞}
    (h : (Spec.follow l (Spec.remember (Spec.gauss ν S))).map Prod.fst = a • Spec.gauss zN PN) :
    (Spec.follow l (((Spec.reversed ν S c K V)).map fun p => (p, p.2))).map Prod.fst = a • Spec.reversed zN PN c K V := by
  have hK : Measurable (fun x : Fin n → ℝ => K *ᵥ x) := Continuous.measurable (by fun_prop)
  have e1 : (Spec.reversed ν S c K V).map (fun p => (p, p.2)) =
      ((Spec.remember (Spec.gauss ν S)).prod (Spec.gauss 0 V)).map fun p => ((c + K *ᵥ p.1.1 + p.2, p.1.1), p.1.2) := by
    have hl : (Spec.remember (Spec.gauss ν S)).prod (Spec.gauss 0 V) =
        ((Spec.gauss ν S).prod (Spec.gauss 0 V)).map (Prod.map (fun x => (x, x)) id) := by
      rw [← Measure.map_prod_map _ _ (by fun_prop) measurable_id, Measure.map_id]; rfl
    rw [hl, Spec.reversed, Measure.map_map (by fun_prop) (by fun_prop), Measure.map_map (by fun_prop) (by fun_prop)]
    rfl
  have : SFinite (Spec.remember (Spec.gauss ν S)) := by unfold Spec.remember; infer_instance
  have : SFinite (Spec.follow l (Spec.remember (Spec.gauss ν S))) := sfinite_follow _ _
  rw [e1, follow_map l _ _ (Φ := fun q : (Fin n → ℝ) × (Fin n → ℝ) => (c + K *ᵥ q.1 + q.2, q.1)) (by fun_prop),
    Measure.map_map (by fun_prop) (by fun_prop)]
  have e2 : (Prod.fst ∘ fun p : ((Fin n → ℝ) × (Fin n → ℝ)) × (Fin n → ℝ) => ((c + K *ᵥ p.1.1 + p.2, p.1.1), p.1.2)) =
      (fun q : (Fin n → ℝ) × (Fin n → ℝ) => (c + K *ᵥ q.1 + q.2, q.1)) ∘ Prod.map Prod.fst id := rfl
  have hl : ((Spec.follow l (Spec.remember (Spec.gauss ν S))).map Prod.fst).prod (Spec.gauss 0 V) =
      ((Spec.follow l (Spec.remember (Spec.gauss ν S))).prod (Spec.gauss 0 V)).map (Prod.map Prod.fst id) := by
    rw [← Measure.map_prod_map _ _ measurable_fst measurable_id, Measure.map_id]
  rw [e2, ← Measure.map_map (by fun_prop) (by fun_prop), ← hl, h, Measure.prod_smul_left, Measure.map_smul, Spec.reversed]

theorem rtsData_law (z : Fin n → ℝ) (P : Matrix (Fin n) (Fin n) ℝ) (hP : P.PosSemidef) (l : List (Spec.DataOp n))
    (hl : ∀ op ∈ l, op.Good) :
    rtsData z P l = .error .linAlgError ∨ ∃ zs Ps z' P' ll, rtsData z P l = .ok (zs, Ps) ∧ kfData z P l = .ok (z', P', ll) ∧
      Ps.PosSemidef ∧
      (Spec.follow l (Spec.remember (Spec.gauss z P))).map Prod.fst = ENNReal.ofReal (Real.exp ll) • Spec.gauss zs Ps := by
  induction l generalizing z P with
  | nil =>
    refine .inr ⟨z, P, z, P, 0, rfl, rfl, hP, ?_⟩
    rw [Spec.follow, Spec.remember, Measure.map_map (by fun_prop) (by fun_prop)]
    have : (Prod.fst ∘ fun x : Fin n → ℝ => (x, x)) = id := rfl
    simp [this]
  | cons op l ih =>
    have hop := hl op List.mem_cons_self
    have hl' := fun o ho => hl o (List.mem_cons_of_mem op ho)
    cases op with
    | move A f Q =>
      have hPp : (A * P * Aᵀ + Q).PosSemidef := (posSemidef_conj hP A).add hop
      rcases ih (predictFull z P A f Q).1 (predictFull z P A f Q).2 hPp hl' with h | ⟨zn, Pn, z', P', ll, h1, h2, h3, h4⟩
      · exact .inl (by simp only [rtsData, h]; rfl)
      by_cases hdet : (A * P * Aᵀ + Q).det = 0
      · left
        have : kalmanSmooth z P zn Pn A f Q = .error .linAlgError := by simp [kalmanSmooth, predictFull, hdet]
        simp only [rtsData, h1, ok_bind, this]
        rfl
      right
      obtain ⟨c, J, V, hV, hobs, hsm⟩ := smooth_joint (z := z) (f := f) hP hop hdet
      obtain ⟨zs, Ps, M, k1, k2, k3, -⟩ := hsm zn Pn h3
      refine ⟨zs, Ps, z', P', ll, by simp only [rtsData, h1, ok_bind, k1]; rfl, h2, k2, ?_⟩
      have key := follow_reversed l (c := c) (K := J) (V := V) h4
      simp only [predictFull] at key
      rw [← hobs] at key
      have hsf : SFinite (Spec.observed z P A f Q) := by unfold Spec.observed; infer_instance
      have : SFinite ((Spec.observed z P A f Q).map fun p => (p, p.2)) := inferInstance
      have e := follow_map' l ((Spec.observed z P A f Q).map fun p => (p, p.2))
        (Φ := fun p : (Fin n → ℝ) × (Fin n → ℝ) => p.1) measurable_fst
      rw [Measure.map_map (by fun_prop) (by fun_prop)] at e
      have e0 : ((fun p : ((Fin n → ℝ) × (Fin n → ℝ)) × (Fin n → ℝ) => (p.1.1, p.2)) ∘ fun p => (p, p.2)) = id := rfl
      rw [e0, Measure.map_id] at e
      rw [Spec.follow, remember_move, e, Measure.map_map (by fun_prop) (by fun_prop)]
      have e1 : (Prod.fst ∘ fun p : ((Fin n → ℝ) × (Fin n → ℝ)) × (Fin n → ℝ) => (p.1.1, p.2)) = Prod.fst ∘ Prod.fst := rfl
      rw [e1, ← Measure.map_map (by fun_prop) (by fun_prop), key, Measure.map_smul, k3]
    | meas m C h R y =>
      obtain ⟨z1, P1, dl, e1, e2, e3⟩ := measureFull_good y z C h hP hop
      rcases ih z1 P1 e2 hl' with h | ⟨zn, Pn, z', P', ll, h1, h2, h3, h4⟩
      · exact .inl (by simp only [rtsData, e1, ok_bind, h])
      refine .inr ⟨zn, Pn, z', P', dl + ll, by simp only [rtsData, e1, ok_bind, h1], by simp [kfData, e1, h2], h3, ?_⟩
      have hm : Measurable fun x : Fin n → ℝ => (x, x) := by fun_prop
      have hG : Measurable fun p : (Fin n → ℝ) × (Fin n → ℝ) => Spec.likelihood C h R y p.2 :=
        (measurable_likelihood C h R y).comp measurable_snd
      have := map_withDensity_comp (μ := Spec.gauss z P) hm hG
      rw [Spec.follow, Spec.remember, ← this]
      have e4 : ((fun p : (Fin n → ℝ) × (Fin n → ℝ) => Spec.likelihood C h R y p.2) ∘ fun x => (x, x)) =
        Spec.likelihood C h R y := rfl
      have h5 : Spec.follow l ((Spec.gauss z1 P1).map fun x => (x, x)) = Spec.follow l (Spec.remember (Spec.gauss z1 P1)) := rfl
      rw [e4, e3, Measure.map_smul, follow_smul, Measure.map_smul, h5, h4, smul_smul, Real.exp_add,
        ENNReal.ofReal_mul (Real.exp_pos _).le]

/-- Invertible process noise in every move. -/
def Spec.DataOp.Strict : Spec.DataOp n → Prop
  | .move _ _ Q => Q.PosDef
  | .meas .. => True

theorem rtsData_succeeds (z : Fin n → ℝ) (P : Matrix (Fin n) (Fin n) ℝ) (hP : P.PosSemidef) (l : List (Spec.DataOp n))
    (hl : ∀ op ∈ l, op.Good) (hs : ∀ op ∈ l, op.Strict) : ∃ r, rtsData z P l = .ok r := by
  induction l generalizing z P with
  | nil => exact ⟨_, rfl⟩
  | cons op l ih =>
    have hop := hl op List.mem_cons_self
    have hos := hs op List.mem_cons_self
    have hl' := fun o ho => hl o (List.mem_cons_of_mem op ho)
    have hs' := fun o ho => hs o (List.mem_cons_of_mem op ho)
    cases op with
    | move A f Q =>
      have hos : Q.PosDef := hos
      have hPp : (A * P * Aᵀ + Q).PosDef := Matrix.PosDef.posSemidef_add (posSemidef_conj hP A) hos
      obtain ⟨⟨zn, Pn⟩, hr⟩ := ih (predictFull z P A f Q).1 (predictFull z P A f Q).2 hPp.posSemidef hl' hs'
      exact ⟨_, by simp only [rtsData, hr, ok_bind, kalmanSmooth_ok hPp.det_pos.ne']; rfl⟩
    | meas m C h R y =>
      obtain ⟨z1, P1, dl, e1, e2, e3⟩ := measureFull_good y z C h hP hop
      obtain ⟨r, hr⟩ := ih z1 P1 e2 hl' hs'
      exact ⟨r, by simp only [rtsData, e1, ok_bind, hr]⟩

theorem kfData_append (z : Fin n → ℝ) (P : Matrix (Fin n) (Fin n) ℝ) (l l' : List (Spec.DataOp n)) {z' P' ll} {z'' P'' ll'}
    (h : kfData z P l = .ok (z', P', ll)) (h' : kfData z' P' l' = .ok (z'', P'', ll')) :
    kfData z P (l ++ l') = .ok (z'', P'', ll + ll') := by
  induction l generalizing z P ll with
  | nil => cases h; simpa [kfData] using h'
  | cons op l ih =>
    cases op with
    | move A f Q => exact ih _ _ h
    | meas m C hh R y =>
      simp only [kfData, List.cons_append] at h ⊢
      obtain ⟨⟨z1, P1, dl⟩, h1, h2⟩ := bind_eq_ok.1 h
      obtain ⟨⟨z2, P2, l2⟩, h3, h4⟩ := bind_eq_ok.1 h2
      cases h4
      rw [h1, ok_bind]
      simp only []
      rw [ih _ _ h3, ok_bind, pure_eq_ok, add_assoc]

theorem filtered_eq (z : Fin n → ℝ) (P : Matrix (Fin n) (Fin n) ℝ) (hP : P.PosSemidef) (l : List (Spec.DataOp n))
    (hl : ∀ op ∈ l, op.Good) : ∃ z' P' ll, kfData z P l = .ok (z', P', ll) ∧ P'.PosSemidef ∧
      Spec.filtered (Spec.gauss z P) l = ENNReal.ofReal (Real.exp ll) • Spec.gauss z' P' := by
  obtain ⟨z', P', ll, h1, h2, h3⟩ := kfData_law () z P hP l hl
  refine ⟨z', P', ll, h1, h2, ?_⟩
  rw [Spec.filtered, h3, Measure.map_smul, Measure.map_map (by fun_prop) (by fun_prop)]
  have : (Prod.snd ∘ fun x : Fin n → ℝ => ((), x)) = id := rfl
  rw [this, Measure.map_id]

/-- **C71** The forward pass over any record of data (with dynamics that may depend on the data) never fails and is exact: the law of
the present state, weighted with the density of the data, is `exp(ll) N(z, P)` for the returned `z`, `P` and sum `ll` of the returned
log-likelihoods. In particular `N(z, P)` is the conditional law of the state and `exp(ll)` the density of the data. -/
theorem C71_filter_exact (z0 : Fin n → ℝ) (P0 : Matrix (Fin n) (Fin n) ℝ) (hP0 : P0.PosSemidef) (l : List (Spec.DataOp n))
    (hl : ∀ op ∈ l, op.Good) : ∃ z P ll, kfData z0 P0 l = .ok (z, P, ll) ∧ P.PosSemidef ∧
      Spec.filtered (Spec.gauss z0 P0) l = ENNReal.ofReal (Real.exp ll) • Spec.gauss z P :=
  filtered_eq z0 P0 hP0 l hl

/-- **C71** Filtering up to any time and then smoothing backwards with `KalmanSmoother.smooth` either raises `LinAlgError` (a predicted
covariance is singular) or returns the exact smoothed law: the law of the state at that time, weighted with the density of *all*
data, is `exp(ll) N(zs, Ps)`, `ll` the log-likelihood of all data. -/
theorem C71_smoother_exact (z0 : Fin n → ℝ) (P0 : Matrix (Fin n) (Fin n) ℝ) (hP0 : P0.PosSemidef) (past future : List (Spec.DataOp n))
    (hl : ∀ op ∈ past ++ future, op.Good) :
    ∃ z P ll, kfData z0 P0 past = .ok (z, P, ll) ∧
      (rtsData z P future = .error .linAlgError ∨ ∃ zs Ps zT PT llT, rtsData z P future = .ok (zs, Ps) ∧
        kfData z0 P0 (past ++ future) = .ok (zT, PT, llT) ∧ Ps.PosSemidef ∧
        Spec.smoothed (Spec.gauss z0 P0) past future = ENNReal.ofReal (Real.exp llT) • Spec.gauss zs Ps) := by
  obtain ⟨z, P, ll, h1, h2, h3⟩ := filtered_eq z0 P0 hP0 past fun op ho => hl op (List.mem_append_left _ ho)
  refine ⟨z, P, ll, h1, ?_⟩
  rcases rtsData_law z P h2 future fun op ho => hl op (List.mem_append_right _ ho) with h | ⟨zs, Ps, z', P', ll', k1, k2, k3, k4⟩
  · exact .inl h
  refine .inr ⟨zs, Ps, z', P', ll + ll', k1, kfData_append _ _ _ _ h1 k2, k3, ?_⟩
  have : SFinite ((Spec.gauss z P).map fun x => (x, x)) := inferInstance
  rw [Spec.smoothed, h3, Spec.remember, Measure.map_smul, follow_smul, Measure.map_smul]
  rw [Spec.remember] at k4
  rw [k4, smul_smul, Real.exp_add, ENNReal.ofReal_mul (Real.exp_pos _).le]

/-- **C71** With invertible process noise the smoother never fails. -/
theorem C71_smoother_succeeds (z0 : Fin n → ℝ) (P0 : Matrix (Fin n) (Fin n) ℝ) (hP0 : P0.PosSemidef) (past future : List (Spec.DataOp n))
    (hl : ∀ op ∈ past ++ future, op.Good) (hs : ∀ op ∈ future, op.Strict) :
    ∃ z P ll, kfData z0 P0 past = .ok (z, P, ll) ∧ ∃ r, rtsData z P future = .ok r := by
  obtain ⟨z, P, ll, h1, h2, -⟩ := filtered_eq z0 P0 hP0 past fun op ho => hl op (List.mem_append_left _ ho)
  exact ⟨z, P, ll, h1, rtsData_succeeds z P h2 future (fun op ho => hl op (List.mem_append_right _ ho)) hs⟩

/-- **C71** The third value returned by `KalmanSmoother.smooth` is the exact cross covariance of successive states given all data: the
states before and after a move are, given all data, jointly normal with the smoothed means and covariances and cross covariance `M`. -/
theorem C71_pair_exact (z0 : Fin n → ℝ) (P0 : Matrix (Fin n) (Fin n) ℝ) (hP0 : P0.PosSemidef) (past future : List (Spec.DataOp n))
    (A : Matrix (Fin n) (Fin n) ℝ) (f : Fin n → ℝ) (Q : Matrix (Fin n) (Fin n) ℝ)
    (hl : ∀ op ∈ past ++ .move A f Q :: future, op.Good) {z P ll} (hf : kfData z0 P0 past = .ok (z, P, ll)) {zn Pn}
    (hn : rtsData (predictFull z P A f Q).1 (predictFull z P A f Q).2 future = .ok (zn, Pn)) {zs Ps M}
    (hs : kalmanSmooth z P zn Pn A f Q = .ok (zs, Ps, M)) :
    ∃ zT PT llT, kfData z0 P0 (past ++ .move A f Q :: future) = .ok (zT, PT, llT) ∧
      Spec.smoothedPair (Spec.gauss z0 P0) past (.move A f Q) future = ENNReal.ofReal (Real.exp llT) •
        (Spec.gauss (Sum.elim zs zn) (fromBlocks Ps M Mᵀ Pn)).map (MeasurableEquiv.sumPiEquivProdPi fun _ : Fin n ⊕ Fin n => ℝ) := by
  obtain ⟨z', P', ll', h1, h2, h3⟩ := filtered_eq z0 P0 hP0 past fun op ho => hl op (List.mem_append_left _ ho)
  cases hf.symm.trans h1
  have hQ : Q.PosSemidef := hl (.move A f Q) (by simp)
  have hPp : (A * P * Aᵀ + Q).PosSemidef := (posSemidef_conj h2 A).add hQ
  rcases rtsData_law _ _ hPp future fun op ho => hl op (by simp [ho]) with
    h | ⟨zn', Pn', zT, PT, ll', k1, k2, k3, k4⟩
  · cases hn.symm.trans h
  cases hn.symm.trans k1
  have hdet : (A * P * Aᵀ + Q).det ≠ 0 := by
    intro hd
    simp [kalmanSmooth, predictFull, hd] at hs
  obtain ⟨c, J, V, hV, hobs, hsm⟩ := smooth_joint (z := z) (f := f) h2 hQ hdet
  obtain ⟨zs', Ps', M', g1, g2, g3, g4⟩ := hsm zn Pn k3
  cases hs.symm.trans g1
  refine ⟨zT, PT, ll + ll', kfData_append _ _ _ _ hf k2, ?_⟩
  have key := follow_reversed future (c := c) (K := J) (V := V) k4
  simp only [predictFull] at key
  rw [← hobs] at key
  have hsf : SFinite (Spec.observed z P A f Q) := by unfold Spec.observed; infer_instance
  have : SFinite (Spec.remember (Spec.gauss z P)) := by unfold Spec.remember; infer_instance
  have hrem : Spec.remember (ENNReal.ofReal (Real.exp ll) • Spec.gauss z P) =
      ENNReal.ofReal (Real.exp ll) • Spec.remember (Spec.gauss z P) := by rw [Spec.remember, Measure.map_smul]; rfl
  rw [Spec.smoothedPair, h3, hrem, follow_smul, Spec.follow, Spec.follow, remember_move, Measure.map_smul, follow_smul,
    Measure.map_smul, key, g4, smul_smul, Real.exp_add, ENNReal.ofReal_mul (Real.exp_pos _).le]

/-- A measured random walk satisfies all hypotheses. -/
example : ∀ op ∈ [Spec.DataOp.meas (n := 2) 1 !![1, 0] 0 !![1] ![3], .move 1 0 1, .meas 1 !![1, 0] 0 !![2] ![4]],
    op.Good ∧ op.Strict := by
  intro op h
  simp only [List.mem_cons, List.not_mem_nil, or_false] at h
  have : ∀ r : ℝ, 0 < r → (!![r] : Matrix (Fin 1) (Fin 1) ℝ).PosDef := fun r hr => posDef_one_iff.2 (by simpa using hr)
  rcases h with rfl | rfl | rfl
  · exact ⟨this 1 one_pos, trivial⟩
  · exact ⟨Matrix.PosDef.one.posSemidef, Matrix.PosDef.one⟩
  · exact ⟨this 2 two_pos, trivial⟩

end PyPE

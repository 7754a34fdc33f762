import Verif.Kalman.Density
import Verif.Kalman.Joint
import Verif.Smooth.Lemmas

/-!
# Claims C38–C43: `pyparticleest/utils/kalman.py`
-/

open MeasureTheory ProbabilityTheory Matrix
namespace PyPE

variable {n m k : ℕ}

/-! ## C38: prediction -/

/-- **C38** `predict_full` returns mean and covariance of `A x + f + v` for `x ~ N(z, P)` and independent `v ~ N(0, Q)`: the
law of the predicted state is the normal law with the returned moments, whose covariance is again symmetric positive
semidefinite (singular covariances included). -/
theorem C38_predict_is_law (z : Fin n → ℝ) (P : Matrix (Fin n) (Fin n) ℝ) (A : Matrix (Fin k) (Fin n) ℝ) (f : Fin k → ℝ)
    (Q : Matrix (Fin k) (Fin k) ℝ) (hP : P.PosSemidef) (hQ : Q.PosSemidef) :
    ((Spec.gauss z P).prod (Spec.gauss 0 Q)).map (fun p => A *ᵥ p.1 + f + p.2) =
      Spec.gauss (predictFull z P A f Q).1 (predictFull z P A f Q).2 ∧ (predictFull z P A f Q).2.PosSemidef := by
  constructor
  · have := gauss_affine (μ := z) (ν := (0 : Fin k → ℝ)) hP hQ f A (1 : Matrix (Fin k) (Fin k) ℝ)
    rw [Matrix.one_mul, transpose_one, Matrix.mul_one, mulVec_zero, add_zero] at this
    rw [predictFull, ← this]
    congr 1
    funext p
    simp [add_comm]
  · exact (posSemidef_conj hP A).add hQ

/-- **C38** In numbers: mean `A z + f`, covariance `A P Aᵀ + Q`, entry by entry as sums. -/
theorem C38_predict_moments (z : Fin n → ℝ) (P : Matrix (Fin n) (Fin n) ℝ) (A : Matrix (Fin k) (Fin n) ℝ) (f : Fin k → ℝ)
    (Q : Matrix (Fin k) (Fin k) ℝ) :
    (∀ i, (predictFull z P A f Q).1 i = (∑ a, A i a * z a) + f i) ∧
    (∀ i j, (predictFull z P A f Q).2 i j = (∑ a, ∑ b, A i a * P a b * A j b) + Q i j) := by
  constructor
  · intro i; simp [predictFull, mulVec, dotProduct, add_comm]
  · intro i j
    simp only [predictFull, Matrix.add_apply, Matrix.mul_apply, transpose_apply, Finset.sum_mul]
    rw [Finset.sum_comm]

/-- **C38** A positive definite prior with an invertible `A` (or a positive definite `Q`) predicts a positive definite
covariance. -/
theorem C38_predict_posDef (z : Fin n → ℝ) (P : Matrix (Fin n) (Fin n) ℝ) (A : Matrix (Fin k) (Fin n) ℝ) (f : Fin k → ℝ)
    (Q : Matrix (Fin k) (Fin k) ℝ) (hP : P.PosSemidef) (hQ : Q.PosDef) : (predictFull z P A f Q).2.PosDef :=
  Matrix.PosDef.posSemidef_add (posSemidef_conj hP A) hQ

/-- The hypotheses are met by a singular prior and singular noise. -/
example : (1 : Matrix (Fin 2) (Fin 2) ℝ).PosSemidef ∧ (0 : Matrix (Fin 2) (Fin 2) ℝ).PosSemidef :=
  ⟨Matrix.PosSemidef.one, Matrix.PosSemidef.zero⟩

/-! ## C39: measurement update -/

theorem innovation_isSymm {P : Matrix (Fin n) (Fin n) ℝ} {C : Matrix (Fin m) (Fin n) ℝ} {R : Matrix (Fin m) (Fin m) ℝ}
    (hP : P.IsSymm) (hR : R.IsSymm) : (C * P * Cᵀ + R).IsSymm := by
  rw [Matrix.IsSymm, transpose_add, transpose_mul, transpose_mul, transpose_transpose, hP.eq, hR.eq, Matrix.mul_assoc]

/-- The offset `h_k` as a number: a missing offset is zero. -/
def Spec.offset (hk : Option (Fin m → ℝ)) : Fin m → ℝ := hk.getD 0

theorem measErr_some (y : Fin m → ℝ) (z : Fin n → ℝ) (C : Matrix (Fin m) (Fin n) ℝ) (hk : Option (Fin m → ℝ)) :
    measErr y z (some C) hk = y - C *ᵥ z - Spec.offset hk := by
  cases hk <;> simp [measErr, Spec.offset]

theorem measErr_none (y : Fin m → ℝ) (z : Fin n → ℝ) (hk : Option (Fin m → ℝ)) :
    measErr y z none hk = y - Spec.offset hk := by
  cases hk <;> simp [measErr, Spec.offset]

theorem logNormal_form {S c : Matrix (Fin m) (Fin m) ℝ} (hS : S.IsSymm) (h : choFactor S = .ok c) (e : Fin m → ℝ) :
    -(1 / 2) * (m * l2pi + choLogDet c + e ⬝ᵥ choSolve c e) = Spec.logNormal S e := by
  rw [choLogDet_eq h, choSolve_eq h, symUpper_of_isSymm hS, Spec.logNormal, l2pi]
  ring

theorem measureFull_eq {y : Fin m → ℝ} {z : Fin n → ℝ} {P : Matrix (Fin n) (Fin n) ℝ} {C : Matrix (Fin m) (Fin n) ℝ}
    {hk : Option (Fin m → ℝ)} {R : Matrix (Fin m) (Fin m) ℝ} (hP : P.IsSymm) (hR : R.IsSymm) (hS : (C * P * Cᵀ + R).PosDef) :
    measureFull y z P (some C) hk R = .ok (z + (P * Cᵀ * (C * P * Cᵀ + R)⁻¹) *ᵥ (y - C *ᵥ z - Spec.offset hk),
      P - P * Cᵀ * (C * P * Cᵀ + R)⁻¹ * (C * P), Spec.logNormal (C * P * Cᵀ + R) (y - C *ᵥ z - Spec.offset hk)) := by
  have hs := innovation_isSymm (C := C) hP hR
  obtain ⟨c, hc⟩ := (choFactor_ok_iff (C * P * Cᵀ + R)).2 (by rwa [symUpper_of_isSymm hs])
  simp only [measureFull, hc, ok_bind]
  rw [measErr_some, logNormal_form hs hc, choSolve_eq hc, choSolveM_eq hc, symUpper_of_isSymm hs, mulVec_mulVec,
    ← Matrix.mul_assoc]
  rfl

/-- **C39** `measure_full` succeeds exactly when the innovation covariance `C P Cᵀ + R` is positive definite; otherwise it
raises `LinAlgError` (before anything is written). -/
theorem C39_measure_succeeds_iff (y : Fin m → ℝ) (z : Fin n → ℝ) (P : Matrix (Fin n) (Fin n) ℝ) (C : Matrix (Fin m) (Fin n) ℝ)
    (hk : Option (Fin m → ℝ)) (R : Matrix (Fin m) (Fin m) ℝ) (hP : P.IsSymm) (hR : R.IsSymm) :
    ((∃ r, measureFull y z P (some C) hk R = .ok r) ↔ (C * P * Cᵀ + R).PosDef) ∧
    (¬ (C * P * Cᵀ + R).PosDef → measureFull y z P (some C) hk R = .error .linAlgError) := by
  have hs := innovation_isSymm (C := C) hP hR
  have hne : ¬ (C * P * Cᵀ + R).PosDef → measureFull y z P (some C) hk R = .error .linAlgError := by
    intro h
    have : choFactor (C * P * Cᵀ + R) = .error .linAlgError := choFactor_error (by rwa [symUpper_of_isSymm hs])
    simp only [measureFull, this]
    rfl
  refine ⟨⟨?_, fun h => ⟨_, measureFull_eq hP hR h⟩⟩, hne⟩
  rintro ⟨r, hr⟩
  by_contra h
  rw [hne h] at hr
  cases hr

/-- **C39** The measurement update is Bayes' rule.  For a prior `x ~ N(z, P)` and measurement `y = C x + h + e`,
`e ~ N(0, R)`, there are functions `mean` and `loglik` of `y` and one matrix `cov` such that `measure_full` turns
`(z, P)` into `(mean y, cov)` and returns `loglik y` for *every* `y`, and
* `N(mean y, cov)` is the conditional law of the state given the measurement;
* `exp (loglik y)` is the density of the law of the measurement. -/
theorem C39_measure_is_bayes (z : Fin n → ℝ) (P : Matrix (Fin n) (Fin n) ℝ) (C : Matrix (Fin m) (Fin n) ℝ)
    (hk : Option (Fin m → ℝ)) (R : Matrix (Fin m) (Fin m) ℝ) (hP : P.PosSemidef) (hR : R.PosSemidef)
    (hS : (C * P * Cᵀ + R).PosDef) :
    ∃ (mean : (Fin m → ℝ) → Fin n → ℝ) (cov : Matrix (Fin n) (Fin n) ℝ) (loglik : (Fin m → ℝ) → ℝ),
      (∀ y, measureFull y z P (some C) hk R = .ok (mean y, cov, loglik y)) ∧
      Spec.IsCondLaw (Spec.observed z P C (Spec.offset hk) R) (fun y => Spec.gauss (mean y) cov) ∧
      (Spec.observed z P C (Spec.offset hk) R).map Prod.snd =
        volume.withDensity fun y => ENNReal.ofReal (Real.exp (loglik y)) := by
  refine ⟨_, _, _, fun y => measureFull_eq (PosSemidef.isSymm' hP) (PosSemidef.isSymm' hR) hS, ?_, ?_⟩
  · refine gauss_conditional hP hR ?_
    rw [Matrix.mul_assoc, Matrix.nonsing_inv_mul _ hS.det_pos.ne'.isUnit, Matrix.mul_one]
  · rw [observed_snd hP hR, gauss_density hS]
    congr 1
    funext y
    rw [sub_sub]

/-- **C39** The updated covariance is symmetric positive semidefinite and never larger than the prior one. -/
theorem C39_measure_shrinks (y : Fin m → ℝ) (z : Fin n → ℝ) (P : Matrix (Fin n) (Fin n) ℝ) (C : Matrix (Fin m) (Fin n) ℝ)
    (hk : Option (Fin m → ℝ)) (R : Matrix (Fin m) (Fin m) ℝ) (hP : P.PosSemidef) (hR : R.PosSemidef)
    {z' : Fin n → ℝ} {P' : Matrix (Fin n) (Fin n) ℝ} {ll : ℝ}
    (hr : measureFull y z P (some C) hk R = .ok (z', P', ll)) : P'.PosSemidef ∧ (P - P').PosSemidef := by
  have hPs := PosSemidef.isSymm' hP
  have hRs := PosSemidef.isSymm' hR
  have hS := ((C39_measure_succeeds_iff y z P C hk R hPs hRs).1).1 ⟨_, hr⟩
  rw [measureFull_eq hPs hRs hS] at hr
  cases hr
  constructor
  · refine posterior_posSemidef hP hR ?_
    rw [Matrix.mul_assoc, Matrix.nonsing_inv_mul _ hS.det_pos.ne'.isUnit, Matrix.mul_one]
  · rw [sub_sub_cancel]
    have := posSemidef_conj hS.inv.posSemidef (P * Cᵀ)
    rwa [transpose_mul, transpose_transpose, hPs.eq] at this

/-- **C39** For invertible `P` and `R` the updated covariance is `(P⁻¹ + Cᵀ R⁻¹ C)⁻¹` and the updated mean solves the normal
equations `(P⁻¹ + Cᵀ R⁻¹ C) z' = P⁻¹ z + Cᵀ R⁻¹ (y - h)` (information form). -/
theorem C39_measure_information (y : Fin m → ℝ) (z : Fin n → ℝ) (P : Matrix (Fin n) (Fin n) ℝ) (C : Matrix (Fin m) (Fin n) ℝ)
    (hk : Option (Fin m → ℝ)) (R : Matrix (Fin m) (Fin m) ℝ) (hP : P.PosDef) (hR : R.PosDef) :
    ∃ z' ll, measureFull y z P (some C) hk R = .ok (z', (P⁻¹ + Cᵀ * R⁻¹ * C)⁻¹, ll) ∧
      (P⁻¹ + Cᵀ * R⁻¹ * C) *ᵥ z' = P⁻¹ *ᵥ z + (Cᵀ * R⁻¹) *ᵥ (y - Spec.offset hk) := by
  have hPs := PosSemidef.isSymm' hP.posSemidef
  have hRs := PosSemidef.isSymm' hR.posSemidef
  have hS : (C * P * Cᵀ + R).PosDef := Matrix.PosDef.posSemidef_add (posSemidef_conj hP.posSemidef C) hR
  have hKS : P * Cᵀ * (C * P * Cᵀ + R)⁻¹ * (C * P * Cᵀ + R) = P * Cᵀ := by
    rw [Matrix.mul_assoc, Matrix.nonsing_inv_mul _ hS.det_pos.ne'.isUnit, Matrix.mul_one]
  have hPP : P * P⁻¹ = 1 := Matrix.mul_nonsing_inv _ hP.det_pos.ne'.isUnit
  have hPP' : P⁻¹ * P = 1 := Matrix.nonsing_inv_mul _ hP.det_pos.ne'.isUnit
  have hRR : R * R⁻¹ = 1 := Matrix.mul_nonsing_inv _ hR.det_pos.ne'.isUnit
  have hRR' : R⁻¹ * R = 1 := Matrix.nonsing_inv_mul _ hR.det_pos.ne'.isUnit
  have hS0 := measureFull_eq (y := y) (z := z) (hk := hk) hPs hRs hS
  generalize P * Cᵀ * (C * P * Cᵀ + R)⁻¹ = K at hKS hS0
  have hKR : K * R = P * Cᵀ - K * (C * P * Cᵀ) := by rw [← hKS, Matrix.mul_add, add_sub_cancel_left]
  have hinfo : (P - K * (C * P)) * (P⁻¹ + Cᵀ * R⁻¹ * C) = 1 := by
    have e1 : (P - K * (C * P)) * P⁻¹ = 1 - K * C := by
      rw [Matrix.sub_mul, hPP, Matrix.mul_assoc, Matrix.mul_assoc, hPP, Matrix.mul_one]
    have e2 : (P - K * (C * P)) * (Cᵀ * R⁻¹ * C) = K * C := by
      have : (P - K * (C * P)) * Cᵀ = K * R := by rw [hKR, Matrix.sub_mul]; simp only [Matrix.mul_assoc]
      rw [← Matrix.mul_assoc, ← Matrix.mul_assoc, this, Matrix.mul_assoc K, hRR, Matrix.mul_one]
    rw [Matrix.mul_add, e1, e2, sub_add_cancel]
  have hinv : (P⁻¹ + Cᵀ * R⁻¹ * C)⁻¹ = P - K * (C * P) := Matrix.inv_eq_left_inv hinfo
  have hinfo' : (P⁻¹ + Cᵀ * R⁻¹ * C) * (P - K * (C * P)) = 1 := mul_eq_one_comm.1 hinfo
  rw [← hinv] at hS0
  refine ⟨_, _, hS0, ?_⟩
  -- K = P' Cᵀ R⁻¹
  have hKP : K = (P - K * (C * P)) * (Cᵀ * R⁻¹) := by
    have : (P - K * (C * P)) * Cᵀ = K * R := by rw [hKR, Matrix.sub_mul]; simp only [Matrix.mul_assoc]
    rw [← Matrix.mul_assoc, this, Matrix.mul_assoc, hRR, Matrix.mul_one]
  have hLK : (P⁻¹ + Cᵀ * R⁻¹ * C) * K = Cᵀ * R⁻¹ := by
    conv_lhs => rw [hKP]
    rw [← Matrix.mul_assoc, hinfo', Matrix.one_mul]
  rw [Matrix.mulVec_add, mulVec_mulVec, hLK, add_mulVec, mulVec_sub, mulVec_sub, mulVec_sub, ← mulVec_mulVec z (Cᵀ * R⁻¹) C]
  abel

/-- **C39** Without a measurement matrix the state is untouched and the log-likelihood is that of `N(h, R)`. -/
theorem C39_measure_without_C (y : Fin m → ℝ) (z : Fin n → ℝ) (P : Matrix (Fin n) (Fin n) ℝ)
    (hk : Option (Fin m → ℝ)) (R : Matrix (Fin m) (Fin m) ℝ) (hR : R.PosDef) :
    measureFull y z P none hk R = .ok (z, P, Spec.logNormal R (y - Spec.offset hk)) := by
  have hs := PosDef.isSymm' hR
  obtain ⟨c, hc⟩ := (choFactor_ok_iff R).2 (by rwa [symUpper_of_isSymm hs])
  simp only [measureFull, hc, ok_bind]
  rw [measErr_none, logNormal_form hs hc]
  rfl

theorem posDef_one_iff {S : Matrix (Fin 1) (Fin 1) ℝ} : S.PosDef ↔ 0 < S 0 0 := by
  have : S = diagonal fun i => S i i := by ext i j; fin_cases i; fin_cases j; simp
  rw [this, posDef_diagonal_iff]
  simp

/-- A singular prior with exact second component, positive definite innovation. -/
example : ∃ (P : Matrix (Fin 2) (Fin 2) ℝ) (C : Matrix (Fin 1) (Fin 2) ℝ) (R : Matrix (Fin 1) (Fin 1) ℝ),
    P.PosSemidef ∧ ¬ P.PosDef ∧ R.PosSemidef ∧ (C * P * Cᵀ + R).PosDef := by
  refine ⟨diagonal ![1, 0], .of fun _ _ => 1, 0, ?_, ?_, Matrix.PosSemidef.zero, ?_⟩
  · rw [posSemidef_diagonal_iff]; intro i; fin_cases i <;> simp
  · rw [posDef_diagonal_iff]; intro h; simpa using h 1
  · rw [posDef_one_iff]
    simp [Matrix.mul_apply, Fin.sum_univ_two, diagonal]

/-! ## C40: scalar measurement update -/

theorem inv_one {S : Matrix (Fin 1) (Fin 1) ℝ} : S⁻¹ = (S 0 0)⁻¹ • (1 : Matrix (Fin 1) (Fin 1) ℝ) := by
  rw [Matrix.inv_def]
  simp [Matrix.adjugate_fin_one]

theorem logNormal_one {S : Matrix (Fin 1) (Fin 1) ℝ} (e : Fin 1 → ℝ) :
    Spec.logNormal S e = -(1 / 2) * (l2pi + Real.log (S 0 0) + e 0 ^ 2 / S 0 0) := by
  rw [Spec.logNormal, inv_one, l2pi]
  simp only [det_unique, Fin.default_eq_zero, Matrix.smul_mulVec, one_mulVec, dotProduct, Pi.smul_apply, smul_eq_mul,
    Finset.univ_unique, Finset.sum_singleton, Nat.cast_one]
  ring

/-- **C40** One-dimensional measurements: when the innovation variance is positive `measure_full_scalar` writes the same mean
and covariance and returns the same log-likelihood as `measure_full` (the latter as an array with one element). -/
theorem C40_scalar_eq_full (y : Fin 1 → ℝ) (z : Fin n → ℝ) (P : Matrix (Fin n) (Fin n) ℝ) (C : Option (Matrix (Fin 1) (Fin n) ℝ))
    (hk : Option (Fin 1 → ℝ)) (R : Matrix (Fin 1) (Fin 1) ℝ) (hP : P.IsSymm)
    (hS : 0 < (match C with | some C => C * P * Cᵀ + R | none => R) 0 0) :
    ∃ z' P' ll, measureFull y z P C hk R = .ok (z', P', ll) ∧ measureFullScalar y z P C hk R = ((z', P'), .ok [ll]) := by
  have hR : R.IsSymm := by ext i j; fin_cases i; fin_cases j; rfl
  cases C with
  | none =>
    refine ⟨_, _, _, C39_measure_without_C y z P hk R (posDef_one_iff.2 hS), ?_⟩
    simp only at hS
    simp [measureFullScalar, lognormpdfScalar, not_le.2 hS, measErr_none, logNormal_one]
  | some C =>
    simp only at hS
    refine ⟨_, _, _, measureFull_eq hP hR (posDef_one_iff.2 hS), ?_⟩
    simp only [measureFullScalar, lognormpdfScalar, not_le.2 hS, measErr_some, logNormal_one, if_false, List.map_cons,
      List.map_nil]
    congr 2
    · rw [inv_one]; simp [Matrix.smul_mulVec]
    · rw [inv_one]; simp [transpose_mul, hP.eq]

/-- **C40** When the innovation variance is not positive both raise, `measure_full` `LinAlgError` with the state untouched,
`measure_full_scalar` `ValueError` -- after the state has been overwritten. -/
theorem C40_scalar_and_full_raise (y : Fin 1 → ℝ) (z : Fin n → ℝ) (P : Matrix (Fin n) (Fin n) ℝ)
    (C : Option (Matrix (Fin 1) (Fin n) ℝ)) (hk : Option (Fin 1 → ℝ)) (R : Matrix (Fin 1) (Fin 1) ℝ) (hP : P.IsSymm)
    (hS : (match C with | some C => C * P * Cᵀ + R | none => R) 0 0 ≤ 0) :
    measureFull y z P C hk R = .error .linAlgError ∧ (measureFullScalar y z P C hk R).2 = .error .valueError := by
  have hR : R.IsSymm := by ext i j; fin_cases i; fin_cases j; rfl
  cases C with
  | none =>
    simp only at hS
    have : choFactor R = .error .linAlgError :=
      choFactor_error (by rw [symUpper_of_isSymm hR, posDef_one_iff]; exact not_lt.2 hS)
    constructor
    · simp only [measureFull, this]; rfl
    · simp [measureFullScalar, lognormpdfScalar, hS]
  | some C =>
    simp only at hS
    constructor
    · exact (C39_measure_succeeds_iff y z P C hk R hP hR).2 (by rw [posDef_one_iff]; exact not_lt.2 hS)
    · simp only [measureFullScalar, lognormpdfScalar, hS, if_true]

/-- **C40** (Defect.) There is an update whose `ValueError` leaves a changed mean behind. -/
theorem C40_scalar_error_after_write : ∃ (y : Fin 1 → ℝ) (z : Fin 1 → ℝ) (P C R : Matrix (Fin 1) (Fin 1) ℝ),
    P.IsSymm ∧ (measureFullScalar y z P (some C) none R).2 = .error .valueError ∧
      (measureFullScalar y z P (some C) none R).1.1 ≠ z := by
  refine ⟨fun _ => 1, 0, 1, 1, (-2 : ℝ) • 1, by simp [Matrix.IsSymm], ?_, ?_⟩
  · simp [measureFullScalar, lognormpdfScalar]
  · intro h
    have := congrFun h 0
    simp [measureFullScalar, measErr] at this
    norm_num at this

example : (0 : ℝ) < (match some (1 : Matrix (Fin 1) (Fin 1) ℝ) with
    | some C => C * (1 : Matrix (Fin 1) (Fin 1) ℝ) * Cᵀ + 1 | none => 1) 0 0 := by
  simp

/-! ## C41: Rauch–Tung–Striebel step -/

theorem kalmanSmooth_ok {z : Fin n → ℝ} {P : Matrix (Fin n) (Fin n) ℝ} {zN : Fin k → ℝ} {PN : Matrix (Fin k) (Fin k) ℝ}
    {A : Matrix (Fin k) (Fin n) ℝ} {f : Fin k → ℝ} {Q : Matrix (Fin k) (Fin k) ℝ} (h : (A * P * Aᵀ + Q).det ≠ 0) :
    kalmanSmooth z P zN PN A f Q = .ok (z + (P * (Aᵀ * (A * P * Aᵀ + Q)⁻¹)) *ᵥ (zN - (f + A *ᵥ z)),
      P + P * (Aᵀ * (A * P * Aᵀ + Q)⁻¹) * ((PN - (A * P * Aᵀ + Q)) * (P * (Aᵀ * (A * P * Aᵀ + Q)⁻¹))ᵀ),
      P * (Aᵀ * (A * P * Aᵀ + Q)⁻¹) * PN) := by
  simp [kalmanSmooth, predictFull, h]

/-- **C41** `smooth` raises `LinAlgError` exactly when the predicted covariance is singular. -/
theorem C41_smooth_raises_iff (z : Fin n → ℝ) (P : Matrix (Fin n) (Fin n) ℝ) (zN : Fin k → ℝ) (PN : Matrix (Fin k) (Fin k) ℝ)
    (A : Matrix (Fin k) (Fin n) ℝ) (f : Fin k → ℝ) (Q : Matrix (Fin k) (Fin k) ℝ) :
    kalmanSmooth z P zN PN A f Q = .error .linAlgError ↔ (predictFull z P A f Q).2.det = 0 := by
  constructor
  · intro h
    by_contra hc
    rw [kalmanSmooth_ok (by simpa [predictFull] using hc)] at h
    cases h
  · intro h; simp [kalmanSmooth, h]

/-- **C41** The smoother step is exact.  Let `x ~ N(z, P)` and `x⁺ = A x + f + v`, `v ~ N(0, Q)`.  There is a conditional law
of `x` given `x⁺` (the first conclusion) such that, when `x⁺` is known to be `N(zN, PN)` instead, the pair `(x, x⁺)` is
normal with the returned moments: `x ~ N(zs, Ps)` and cross covariance `M` between `x` and `x⁺`. -/
theorem C41_smooth_is_exact (z : Fin n → ℝ) (P : Matrix (Fin n) (Fin n) ℝ) (zN : Fin k → ℝ) (PN : Matrix (Fin k) (Fin k) ℝ)
    (A : Matrix (Fin k) (Fin n) ℝ) (f : Fin k → ℝ) (Q : Matrix (Fin k) (Fin k) ℝ) (hP : P.PosSemidef) (hQ : Q.PosSemidef)
    (hPN : PN.PosSemidef) (hdet : (predictFull z P A f Q).2.det ≠ 0) :
    ∃ (cond : (Fin k → ℝ) → Measure (Fin n → ℝ)) (joint : Measure ((Fin n → ℝ) × (Fin k → ℝ))) (zs : Fin n → ℝ)
      (Ps : Matrix (Fin n) (Fin n) ℝ) (M : Matrix (Fin n) (Fin k) ℝ),
      Spec.IsCondLaw (Spec.observed z P A f Q) cond ∧
      joint.map Prod.snd = Spec.gauss zN PN ∧ Spec.IsCondLaw joint cond ∧
      kalmanSmooth z P zN PN A f Q = .ok (zs, Ps, M) ∧
      joint.map Prod.fst = Spec.gauss zs Ps ∧ Ps.PosSemidef ∧
      (∀ i j, cov[fun p => p.1 i, fun p => p.2 j; joint] = M i j) ∧
      joint = (Spec.gauss (Sum.elim zs zN) (fromBlocks Ps M Mᵀ PN)).map
        (MeasurableEquiv.sumPiEquivProdPi fun _ : Fin n ⊕ Fin k => ℝ) := by
  have hdet' : (A * P * Aᵀ + Q).det ≠ 0 := by simpa [predictFull] using hdet
  set S := A * P * Aᵀ + Q with hSdef
  set J := P * (Aᵀ * S⁻¹) with hJ
  have hok : kalmanSmooth z P zN PN A f Q = .ok (z + J *ᵥ (zN - (f + A *ᵥ z)), P + J * ((PN - S) * Jᵀ), J * PN) :=
    kalmanSmooth_ok hdet'
  have hPs := PosSemidef.isSymm' hP
  have hQs := PosSemidef.isSymm' hQ
  have hPNs := PosSemidef.isSymm' hPN
  have hSs : S.IsSymm := innovation_isSymm hPs hQs
  have hJS : J * S = P * Aᵀ := by
    rw [hJ, Matrix.mul_assoc, Matrix.mul_assoc, Matrix.nonsing_inv_mul _ hdet'.isUnit, Matrix.mul_one]
  clear_value J
  have hSJ : S * Jᵀ = A * P := by
    have := congrArg transpose hJS
    rwa [transpose_mul, hSs.eq, transpose_mul, transpose_transpose, hPs.eq] at this
  have hV := posterior_posSemidef hP hQ hJS
  have hobs := observed_eq_reversed (z := z) (h := f) hP hQ hJS
  have hPsm : P + J * ((PN - S) * Jᵀ) = J * PN * Jᵀ + (P - J * (A * P)) := by
    rw [Matrix.sub_mul, Matrix.mul_sub, hSJ, ← Matrix.mul_assoc]
    abel
  have hzs : z + J *ᵥ (zN - (f + A *ᵥ z)) = (z - J *ᵥ (A *ᵥ z + f)) + J *ᵥ zN := by
    rw [mulVec_sub, add_comm f]; abel
  have hjoint := reversed_eq (ν := zN) (c := z - J *ᵥ (A *ᵥ z + f)) (K := J) hPN hV
  rw [← hPsm, ← hzs, show PN * Jᵀ = (J * PN)ᵀ by rw [transpose_mul, hPNs.eq]] at hjoint
  have hpsd : (P + J * ((PN - S) * Jᵀ)).PosSemidef := by
    rw [hPsm]; exact (posSemidef_conj hPN J).add hV
  have hbig : (fromBlocks (P + J * ((PN - S) * Jᵀ)) (J * PN) (J * PN)ᵀ PN).PosSemidef := by
    have h1 := posSemidef_conj hPN (fromRows J (1 : Matrix (Fin k) (Fin k) ℝ))
    have h2 := posSemidef_conj hV (fromRows (1 : Matrix (Fin n) (Fin n) ℝ) (0 : Matrix (Fin k) (Fin n) ℝ))
    have h3 := h1.add h2
    convert h3 using 1
    rw [hPsm]
    simp [transpose_fromRows, fromRows_mul, fromRows_mul_fromCols, transpose_mul, hPNs.eq]
    ext (i | i) (j | j) <;> simp
  refine ⟨fun y => Spec.gauss ((z - J *ᵥ (A *ᵥ z + f)) + J *ᵥ y) (P - J * (A * P)),
    Spec.reversed zN PN (z - J *ᵥ (A *ᵥ z + f)) J (P - J * (A * P)), _, _, _, ?_, ?_, reversed_cond hV,
    hok, ?_, ?_, ?_, ?_⟩
  · rw [hobs]; exact reversed_cond hV
  · rw [Spec.reversed, Measure.map_map measurable_snd (Continuous.measurable (by fun_prop))]
    have : (Prod.snd ∘ fun p : (Fin k → ℝ) × (Fin n → ℝ) => (z - J *ᵥ (A *ᵥ z + f) + J *ᵥ p.1 + p.2, p.1)) = Prod.fst := rfl
    rw [this, Measure.map_fst_prod]
    simp
  · rw [Spec.reversed, Measure.map_map measurable_fst (Continuous.measurable (by fun_prop))]
    have h := gauss_affine (μ := zN) (ν := (0 : Fin n → ℝ)) hPN hV (z - J *ᵥ (A *ᵥ z + f)) J (1 : Matrix (Fin n) (Fin n) ℝ)
    rw [Matrix.one_mul, transpose_one, Matrix.mul_one, mulVec_zero, add_zero, ← hzs, ← hPsm] at h
    rw [← h]
    congr 1
    funext p
    simp
  · exact hpsd
  · intro i j
    rw [hjoint, covariance_map (Measurable.aestronglyMeasurable (by fun_prop))
      (Measurable.aestronglyMeasurable (by fun_prop)) (MeasurableEquiv.measurable _).aemeasurable]
    exact gauss_cov hbig (Sum.inl i) (Sum.inr j)
  · exact hjoint

/-- **C41** If nothing was learnt after time `t` (the next smoothed moments are the predicted ones) the filtered moments come
back unchanged. -/
theorem C41_smooth_fixed_point (z : Fin n → ℝ) (P : Matrix (Fin n) (Fin n) ℝ) (A : Matrix (Fin k) (Fin n) ℝ) (f : Fin k → ℝ)
    (Q : Matrix (Fin k) (Fin k) ℝ) (hdet : (predictFull z P A f Q).2.det ≠ 0) :
    ∃ M, kalmanSmooth z P (predictFull z P A f Q).1 (predictFull z P A f Q).2 A f Q = .ok (z, P, M) := by
  refine ⟨P * (Aᵀ * (A * P * Aᵀ + Q)⁻¹) * (A * P * Aᵀ + Q), ?_⟩
  rw [kalmanSmooth_ok (by simpa [predictFull] using hdet)]
  simp [predictFull]

example : ((predictFull (0 : Fin 2 → ℝ) (1 : Matrix (Fin 2) (Fin 2) ℝ) (1 : Matrix (Fin 2) (Fin 2) ℝ) 0 0).2).det ≠ 0 := by
  simp [predictFull]

/-! ## C42: log-density helpers -/

/-- **C42** For a positive definite covariance `lognormpdf`, `lognormpdf_cho` (given the output of `cho_factor`, including
whatever it leaves below the diagonal), `lognormpdf_cho_vec` and `lognormpdf_vec` all return the log-density of `N(0, S)`. -/
theorem C42_helpers_agree (S : Matrix (Fin n) (Fin n) ℝ) (hS : S.PosDef) :
    ∃ c, choFactor S = .ok c ∧ (∀ e, lognormpdf e S = .ok (Spec.logNormal S e)) ∧
      (∀ e, lognormpdfCho e c = Spec.logNormal S e) ∧
      (∀ es, lognormpdfChoVec es c = es.map (Spec.logNormal S)) ∧
      (∀ es, lognormpdfVec es (List.replicate es.length S) = .ok (es.map (Spec.logNormal S))) := by
  have hs := PosDef.isSymm' hS
  obtain ⟨c, hc⟩ := (choFactor_ok_iff S).2 (by rwa [symUpper_of_isSymm hs])
  have hl : ∀ e, lognormpdf e S = .ok (Spec.logNormal S e) := by
    intro e
    rw [lognormpdf, if_neg hS.det_pos.ne', abs_of_pos hS.det_pos, Spec.logNormal, l2pi, dotProduct_comm]
    congr 1; ring
  have hch : ∀ e, lognormpdfCho e c = Spec.logNormal S e := by
    intro e
    rw [lognormpdfCho, dotProduct_comm, logNormal_form hs hc]
  refine ⟨c, hc, hl, hch, ?_, ?_⟩
  · intro es
    rw [lognormpdfChoVec]
    refine List.map_congr_left fun e _ => ?_
    rw [← hch, lognormpdfCho]; ring
  · intro es
    rw [lognormpdfVec, mapM_ok_iff]
    refine ⟨by simp, fun i x hx => ?_⟩
    have hi : i < es.length := by
      by_contra hc
      rw [List.getElem?_eq_none (by simpa using hc)] at hx
      cases hx
    rw [List.getElem?_eq_getElem (by simpa using hi)] at hx
    simp only [List.getElem_zipIdx, zero_add, Option.some.injEq] at hx
    subst hx
    refine ⟨Spec.logNormal S es[i], by simp [hi], ?_⟩
    simp only
    rw [getIdx_of_lt (by simpa using hi), ok_bind]
    simp [hl]

/-- **C42** … and that number is the log-density: its exponential is the density of the normal law with covariance `S`
with respect to Lebesgue measure. -/
theorem C42_is_density (S : Matrix (Fin n) (Fin n) ℝ) (hS : S.PosDef) (μ : Fin n → ℝ) :
    ∃ logp : (Fin n → ℝ) → ℝ, (∀ x, lognormpdf (x - μ) S = .ok (logp x)) ∧
      Spec.gauss μ S = volume.withDensity fun x => ENNReal.ofReal (Real.exp (logp x)) := by
  obtain ⟨c, _, h, _⟩ := C42_helpers_agree S hS
  exact ⟨fun x => Spec.logNormal S (x - μ), fun x => h _, gauss_density hS μ⟩

/-- **C42** `lognormpdf` raises `LinAlgError` exactly for singular matrices; an indefinite matrix is not detected, the result
is then the formula with `log |det S|` (Defect: no density). -/
theorem C42_lognormpdf_total (e : Fin n → ℝ) (S : Matrix (Fin n) (Fin n) ℝ) :
    (lognormpdf e S = .error .linAlgError ↔ S.det = 0) ∧
    (S.det ≠ 0 → lognormpdf e S =
      .ok (-(n / 2) * Real.log (2 * Real.pi) - 1 / 2 * Real.log |S.det| - 1 / 2 * (e ⬝ᵥ S⁻¹ *ᵥ e))) := by
  unfold lognormpdf
  constructor
  · by_cases h : S.det = 0 <;> simp [h]
  · intro h
    rw [if_neg h, dotProduct_comm, l2pi]
    congr 1; ring

/-- **C42** The scalar helper: log-density of `N(0, s)` for `s > 0`, element by element, `ValueError` otherwise. -/
theorem C42_scalar (es : List ℝ) (s : ℝ) :
    (0 < s → lognormpdfScalar es s = .ok (es.map fun e => Real.log (gaussianPDFReal 0 s.toNNReal e))) ∧
    (s ≤ 0 → lognormpdfScalar es s = .error .valueError) := by
  constructor
  · intro h
    rw [lognormpdfScalar, if_neg (not_le.2 h)]
    congr 1
    refine List.map_congr_left fun e _ => ?_
    have h2 : (0 : ℝ) < 2 * Real.pi := by positivity
    rw [gaussianPDFReal, Real.coe_toNNReal _ h.le, Real.log_mul (by positivity) (Real.exp_ne_zero _), Real.log_exp, Real.log_inv,
      Real.log_sqrt (by positivity), Real.log_mul h2.ne' h.ne', l2pi, sub_zero]
    field_simp
    ring
  · intro h; rw [lognormpdfScalar, if_pos h]

/-- **C42** `lognormpdf_vec` with too few covariances raises `IndexError`. -/
theorem C42_vec_short (es : List (Fin n → ℝ)) (Sl : List (Matrix (Fin n) (Fin n) ℝ)) (h : Sl.length < es.length)
    (hS : ∀ S ∈ Sl, S.det ≠ 0) : lognormpdfVec es Sl = .error .indexError := by
  have key : ∀ (es : List (Fin n → ℝ)) (j : ℕ), j ≤ Sl.length → Sl.length < j + es.length →
      (es.zipIdx j).mapM (fun ei => do let S ← getIdx Sl ei.2; lognormpdf ei.1 S) = (.error .indexError : PyM (List ℝ)) := by
    intro es
    induction es with
    | nil => intro j hj h; simp at h; omega
    | cons e es ih =>
      intro j hj h
      rw [List.zipIdx_cons, List.mapM_cons]
      rcases Nat.lt_or_ge j Sl.length with hl | hl
      · have := ih (j + 1) hl (by simp at h; omega)
        rw [getIdx_of_lt hl]
        simp only [ok_bind]
        rw [(C42_lognormpdf_total e _).2 (hS _ (List.getElem_mem hl)), ok_bind, this]
        rfl
      · have : getIdx Sl j = .error .indexError := by
          simp [getIdx, List.getElem?_eq_none hl]
        simp only [this]
        rfl
  exact key es 0 (Nat.zero_le _) (by omega)

example : ((2 : ℝ) • (1 : Matrix (Fin 3) (Fin 3) ℝ)).PosDef := Matrix.PosDef.one.smul (by norm_num)

/-! ## C43: `set_dynamics` -/

/-- The arguments of one `set_dynamics` call (`none` = not given). -/
structure Spec.DynArgs (n m : ℕ) where
  A : Option (Matrix (Fin n) (Fin n) ℝ) := none
  C : Option (Matrix (Fin m) (Fin n) ℝ) := none
  Q : Option (Matrix (Fin n) (Fin n) ℝ) := none
  R : Option (Matrix (Fin m) (Fin m) ℝ) := none
  fk : Option (Fin n → ℝ) := none
  hk : Option (Fin m → ℝ) := none

/-- Construct with the arguments `a`, then call `set_dynamics` with each of `calls`. -/
def Spec.kfHistory (a : Spec.DynArgs n m) (calls : List (Spec.DynArgs n m)) : KF n m :=
  calls.foldl (fun s b => s.setDynamics b.A b.C b.Q b.R b.fk b.hk) (KF.new a.A a.C a.Q a.R a.fk a.hk)

/-- The last value that was given, if any. -/
def Spec.lastGiven {α β : Type} (field : β → Option α) (l : List β) : Option α := (l.filterMap field).getLast?

theorem lastGiven_append {α β : Type} (field : β → Option α) (l : List β) (b : β) :
    Spec.lastGiven field (l ++ [b]) = (field b).or (Spec.lastGiven field l) := by
  unfold Spec.lastGiven
  rw [List.filterMap_append]
  cases h : field b <;> simp [h]

theorem setDynamics_fields (s : KF n m) (A C Q R fk hk) :
    (s.setDynamics A C Q R fk hk).A = A.or s.A ∧ (s.setDynamics A C Q R fk hk).C = C.or s.C ∧
    (s.setDynamics A C Q R fk hk).Q = Q.or s.Q ∧ (s.setDynamics A C Q R fk hk).R = R.or s.R ∧
    (s.setDynamics A C Q R fk hk).fk = fk.or s.fk ∧ (s.setDynamics A C Q R fk hk).hk = hk.or s.hk := by
  cases A <;> cases C <;> cases Q <;> cases R <;> cases fk <;> cases hk <;> simp [KF.setDynamics]

/-- **C43** After construction and any sequence of `set_dynamics` calls every matrix is the one given most recently (in the
constructor or a later call); a matrix never given is `None`, except `f_k`, which is then zero. -/
theorem C43_set_dynamics_history (a : Spec.DynArgs n m) (calls : List (Spec.DynArgs n m)) :
    (Spec.kfHistory a calls).A = Spec.lastGiven Spec.DynArgs.A (a :: calls) ∧
    (Spec.kfHistory a calls).C = Spec.lastGiven Spec.DynArgs.C (a :: calls) ∧
    (Spec.kfHistory a calls).Q = Spec.lastGiven Spec.DynArgs.Q (a :: calls) ∧
    (Spec.kfHistory a calls).R = Spec.lastGiven Spec.DynArgs.R (a :: calls) ∧
    (Spec.kfHistory a calls).fk = some ((Spec.lastGiven Spec.DynArgs.fk (a :: calls)).getD 0) ∧
    (Spec.kfHistory a calls).hk = Spec.lastGiven Spec.DynArgs.hk (a :: calls) := by
  induction calls using List.reverseRecOn with
  | nil =>
    obtain ⟨A, C, Q, R, fk, hk⟩ := a
    have h := fun s => setDynamics_fields (n := n) (m := m) s A C Q R fk hk
    simp only [Spec.kfHistory, List.foldl_nil, KF.new, h, Spec.lastGiven]
    cases A <;> cases C <;> cases Q <;> cases R <;> cases fk <;> cases hk <;> simp
  | append_singleton l b ih =>
    have hh : Spec.kfHistory a (l ++ [b]) = (Spec.kfHistory a l).setDynamics b.A b.C b.Q b.R b.fk b.hk := by
      simp [Spec.kfHistory]
    obtain ⟨h1, h2, h3, h4, h5, h6⟩ := setDynamics_fields (Spec.kfHistory a l) b.A b.C b.Q b.R b.fk b.hk
    rw [hh, h1, h2, h3, h4, h5, h6, ih.1, ih.2.1, ih.2.2.1, ih.2.2.2.1, ih.2.2.2.2.1, ih.2.2.2.2.2]
    simp only [← List.cons_append, lastGiven_append]
    refine ⟨trivial, trivial, trivial, trivial, ?_, trivial⟩
    cases b.fk <;> simp

/-- **C43** Once `A` and `Q` have been given, in any order and any number of calls, `predict` uses the latest ones (and the
latest `f_k`, zero by default); without `A` it raises `AttributeError`, without `Q` `TypeError`. -/
theorem C43_predict_uses_latest (a : Spec.DynArgs n m) (calls : List (Spec.DynArgs n m)) (z : Fin n → ℝ)
    (P : Matrix (Fin n) (Fin n) ℝ) :
    (Spec.kfHistory a calls).predict z P =
      match Spec.lastGiven Spec.DynArgs.A (a :: calls), Spec.lastGiven Spec.DynArgs.Q (a :: calls) with
      | none, _ => .error .attributeError
      | some _, none => .error .typeError
      | some A, some Q => .ok (A *ᵥ z + (Spec.lastGiven Spec.DynArgs.fk (a :: calls)).getD 0, A * P * Aᵀ + Q) := by
  obtain ⟨h1, -, h3, -, h5, -⟩ := C43_set_dynamics_history a calls
  unfold KF.predict
  rw [h1, h3, h5]
  cases Spec.lastGiven Spec.DynArgs.A (a :: calls) <;> cases Spec.lastGiven Spec.DynArgs.Q (a :: calls) <;>
    simp [predictFull, add_comm]

/-- **C43** `time_update` always raises `TypeError` (Defect: `predict_full` is called without `z` and `P`). -/
theorem C43_time_update_raises (a : Spec.DynArgs n m) (calls : List (Spec.DynArgs n m)) :
    (Spec.kfHistory a calls).timeUpdate = .error .typeError := rfl

/-- Two calls, the second one overriding `Q` only. -/
example : (Spec.kfHistory (n := 1) (m := 1) { A := some 1, Q := some 1 } [{ C := some 1 }, { Q := some 0 }]).predict 1 1 =
    .ok (1, 1) := by
  rw [C43_predict_uses_latest]
  simp [Spec.lastGiven]

end PyPE

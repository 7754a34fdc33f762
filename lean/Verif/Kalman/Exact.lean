import Verif.Kalman.Claims

/-!
# The Kalman recursion is the exact Bayesian filter (C65)

Any sequence of `predict_full` / `measure_full` steps with arbitrary (time-varying) matrices.
-/

open MeasureTheory ProbabilityTheory Matrix
open scoped ENNReal
namespace PyPE

variable {n m : ℕ}

/-! ## Specification: the linear Gaussian model -/

/-- One step of a linear Gaussian model: the state moves, or it is measured. -/
inductive Spec.LinOp (n m : ℕ) where
  | move (A : Matrix (Fin n) (Fin n) ℝ) (f : Fin n → ℝ) (Q : Matrix (Fin n) (Fin n) ℝ)
  | meas (C : Matrix (Fin m) (Fin n) ℝ) (h : Fin m → ℝ) (R : Matrix (Fin m) (Fin m) ℝ)

/-- The measurements received during a sequence of steps (latest step first). -/
def Spec.Hist : List (Spec.LinOp n m) → Type
  | [] => Unit
  | .move .. :: l => Spec.Hist l
  | .meas .. :: l => (Fin m → ℝ) × Spec.Hist l

instance Spec.instMeasurableSpaceHist : (l : List (Spec.LinOp n m)) → MeasurableSpace (Spec.Hist l)
  | [] => inferInstanceAs (MeasurableSpace Unit)
  | .move .. :: l => Spec.instMeasurableSpaceHist l
  | .meas .. :: l => @Prod.instMeasurableSpace _ _ _ (Spec.instMeasurableSpaceHist l)

/-- Joint law of the state and all measurements after the given steps (latest first), `x ~ N(z0, P0)` initially. -/
noncomputable def Spec.joint (z0 : Fin n → ℝ) (P0 : Matrix (Fin n) (Fin n) ℝ) :
    (l : List (Spec.LinOp n m)) → Measure ((Fin n → ℝ) × Spec.Hist l)
  | [] => (Spec.gauss z0 P0).map fun x => (x, ())
  | .move A f Q :: l => ((Spec.joint z0 P0 l).prod (Spec.gauss 0 Q)).map fun p => (A *ᵥ p.1.1 + f + p.2, p.1.2)
  | .meas C h R :: l =>
    ((Spec.joint z0 P0 l).prod (Spec.gauss 0 R)).map fun p => (p.1.1, (C *ᵥ p.1.1 + h + p.2, p.1.2))

/-- Lebesgue measure on measurement sequences. -/
noncomputable def Spec.histVol : (l : List (Spec.LinOp n m)) → Measure (Spec.Hist l)
  | [] => (Measure.dirac () : Measure Unit)
  | .move .. :: l => Spec.histVol l
  | .meas .. :: l => (volume : Measure (Fin m → ℝ)).prod (Spec.histVol l)

/-- The noise covariances are valid, measurement noise invertible. -/
def Spec.LinOp.Good : Spec.LinOp n m → Prop
  | .move _ _ Q => Q.PosSemidef
  | .meas _ _ R => R.PosDef

/-- The code: fold `predict_full` and `measure_full` over the steps, collecting the returned log-likelihoods. -/
noncomputable def kfRun (z0 : Fin n → ℝ) (P0 : Matrix (Fin n) (Fin n) ℝ) :
    (l : List (Spec.LinOp n m)) → Spec.Hist l → PyM ((Fin n → ℝ) × Matrix (Fin n) (Fin n) ℝ × ℝ)
  | [], _ => .ok (z0, P0, 0)
  | .move A f Q :: l, ys => do
    let (z, P, ll) ← kfRun z0 P0 l ys
    let (z', P') := predictFull z P A f Q
    return (z', P', ll)
  | .meas C h R :: l, ys => do
    let (z, P, ll) ← kfRun z0 P0 l ys.2
    let (z', P', dl) ← measureFull ys.1 z P (some C) (some h) R
    return (z', P', ll + dl)

/-! ## One step over an arbitrary history space -/

section step
variable {H : Type*} [MeasurableSpace H]

/-- State `mean h + w` with `w ~ N(0, P)` independent of the history `h ~ ν`. -/
noncomputable def normalGiven (ν : Measure H) (mean : H → Fin n → ℝ) (P : Matrix (Fin n) (Fin n) ℝ) :
    Measure ((Fin n → ℝ) × H) := (ν.prod (Spec.gauss 0 P)).map fun p => (mean p.1 + p.2, p.1)

theorem normalGiven_cond {ν : Measure H} [IsProbabilityMeasure ν] {mean : H → Fin n → ℝ} (hm : Measurable mean)
    {P : Matrix (Fin n) (Fin n) ℝ} (hP : P.PosSemidef) :
    (normalGiven ν mean P).map Prod.snd = ν ∧
    Spec.IsCondLaw (normalGiven ν mean P) (fun h => Spec.gauss (mean h) P) := by
  have hmm : Measurable (fun p : H × (Fin n → ℝ) => (mean p.1 + p.2, p.1)) := by fun_prop
  have hs : (normalGiven ν mean P).map Prod.snd = ν := by
    rw [normalGiven, Measure.map_map measurable_snd hmm]
    have : (Prod.snd ∘ fun p : H × (Fin n → ℝ) => (mean p.1 + p.2, p.1)) = Prod.fst := rfl
    rw [this, Measure.map_fst_prod]; simp
  refine ⟨hs, fun y => inferInstance, fun A B hA hB => ?_⟩
  rw [hs, normalGiven, Measure.map_apply hmm (hA.prod hB), Measure.prod_apply (hmm (hA.prod hB)), ← lintegral_indicator hB]
  refine lintegral_congr fun y => ?_
  by_cases hy : y ∈ B
  · rw [Set.indicator_of_mem hy, ← gauss_shift hP (mean y), Measure.map_apply (by fun_prop) hA]
    congr 1
    ext w; simp [hy]
  · rw [Set.indicator_of_notMem hy]
    have : Prod.mk y ⁻¹' ((fun p : H × (Fin n → ℝ) => (mean p.1 + p.2, p.1)) ⁻¹' A ×ˢ B) = ∅ := by
      ext w; simp [hy]
    rw [this, measure_empty]

theorem normalGiven_move {ν : Measure H} [IsProbabilityMeasure ν] {mean : H → Fin n → ℝ} (hm : Measurable mean)
    {P : Matrix (Fin n) (Fin n) ℝ} (hP : P.PosSemidef) (A : Matrix (Fin n) (Fin n) ℝ) (f : Fin n → ℝ)
    {Q : Matrix (Fin n) (Fin n) ℝ} (hQ : Q.PosSemidef) :
    ((normalGiven ν mean P).prod (Spec.gauss 0 Q)).map (fun p => (A *ᵥ p.1.1 + f + p.2, p.1.2)) =
      normalGiven ν (fun h => f + A *ᵥ mean h) (A * P * Aᵀ + Q) := by
  have hA : Measurable (fun x : Fin n → ℝ => A *ᵥ x) := Continuous.measurable (by fun_prop)
  have hmm : Measurable (fun p : H × (Fin n → ℝ) => (mean p.1 + p.2, p.1)) := by fun_prop
  have key := gauss_affine (μ := (0 : Fin n → ℝ)) (ν := (0 : Fin n → ℝ)) hP hQ (0 : Fin n → ℝ) A (1 : Matrix (Fin n) (Fin n) ℝ)
  rw [Matrix.one_mul, transpose_one, Matrix.mul_one, mulVec_zero, mulVec_zero, add_zero, add_zero] at key
  have hmap : (ν.prod ((Spec.gauss 0 P).prod (Spec.gauss 0 Q))).map (Prod.map id fun p => 0 + A *ᵥ p.1 + 1 *ᵥ p.2) =
      ν.prod (Spec.gauss 0 (A * P * Aᵀ + Q)) := by
    rw [← Measure.map_prod_map _ _ measurable_id (by fun_prop), key, Measure.map_id]
  have hassoc : ((ν.prod (Spec.gauss 0 P)).prod (Spec.gauss 0 Q)).map (MeasurableEquiv.prodAssoc) =
      ν.prod ((Spec.gauss 0 P).prod (Spec.gauss 0 Q)) := Measure.prodAssoc_prod
  have hl : (normalGiven ν mean P).prod (Spec.gauss 0 Q) =
      ((ν.prod (Spec.gauss 0 P)).prod (Spec.gauss 0 Q)).map (Prod.map (fun p => (mean p.1 + p.2, p.1)) id) := by
    rw [← Measure.map_prod_map _ _ hmm measurable_id, Measure.map_id]; rfl
  rw [hl]
  conv_rhs => rw [normalGiven, ← hmap, ← hassoc]
  rw [Measure.map_map (by fun_prop) (by fun_prop), Measure.map_map (by fun_prop) (by fun_prop),
    Measure.map_map (by fun_prop) (by fun_prop)]
  congr 1
  funext p
  simp [MeasurableEquiv.prodAssoc, Matrix.mulVec_add]
  abel

theorem normalGiven_meas {ν : Measure H} [IsProbabilityMeasure ν] {mean : H → Fin n → ℝ} (hm : Measurable mean)
    {P : Matrix (Fin n) (Fin n) ℝ} (hP : P.PosSemidef) (C : Matrix (Fin m) (Fin n) ℝ) (h : Fin m → ℝ)
    {R : Matrix (Fin m) (Fin m) ℝ} (hR : R.PosSemidef) {K : Matrix (Fin n) (Fin m) ℝ}
    (hK : K * (C * P * Cᵀ + R) = P * Cᵀ) :
    ((normalGiven ν mean P).prod (Spec.gauss 0 R)).map (fun p => (p.1.1, (C *ᵥ p.1.1 + h + p.2, p.1.2))) =
      normalGiven ((ν.prod (Spec.gauss 0 (C * P * Cᵀ + R))).map fun p => (C *ᵥ mean p.1 + h + p.2, p.1))
        (fun yh : (Fin m → ℝ) × H => mean yh.2 + K *ᵥ (yh.1 - C *ᵥ mean yh.2 - h)) (P - K * (C * P)) := by
  have hC : Measurable (fun x : Fin n → ℝ => C *ᵥ x) := Continuous.measurable (by fun_prop)
  have hKm : Measurable (fun x : Fin m → ℝ => K *ᵥ x) := Continuous.measurable (by fun_prop)
  have hmm : Measurable (fun p : H × (Fin n → ℝ) => (mean p.1 + p.2, p.1)) := by fun_prop
  have key := observed_eq_reversed (z := (0 : Fin n → ℝ)) (h := (0 : Fin m → ℝ)) hP hR hK
  simp only [Spec.observed, Spec.reversed, mulVec_zero, add_zero, sub_self, zero_add] at key
  have hassoc : ((ν.prod (Spec.gauss 0 P)).prod (Spec.gauss 0 R)).map (MeasurableEquiv.prodAssoc) =
      ν.prod ((Spec.gauss 0 P).prod (Spec.gauss 0 R)) := Measure.prodAssoc_prod
  have hassoc' : ((ν.prod (Spec.gauss 0 (C * P * Cᵀ + R))).prod (Spec.gauss 0 (P - K * (C * P)))).map (MeasurableEquiv.prodAssoc) =
      ν.prod ((Spec.gauss 0 (C * P * Cᵀ + R)).prod (Spec.gauss 0 (P - K * (C * P)))) :=
    Measure.prodAssoc_prod
  have hl : (normalGiven ν mean P).prod (Spec.gauss 0 R) =
      ((ν.prod (Spec.gauss 0 P)).prod (Spec.gauss 0 R)).map (Prod.map (fun p => (mean p.1 + p.2, p.1)) id) := by
    rw [← Measure.map_prod_map _ _ hmm measurable_id, Measure.map_id]; rfl
  -- left hand side over `ν × (observed noise)`
  let Φ : H × ((Fin n → ℝ) × (Fin m → ℝ)) → (Fin n → ℝ) × ((Fin m → ℝ) × H) := fun q =>
    (mean q.1 + q.2.1, (C *ᵥ mean q.1 + h + q.2.2, q.1))
  have hΦ : Measurable Φ := by unfold Φ; fun_prop
  have left : ((normalGiven ν mean P).prod (Spec.gauss 0 R)).map (fun p => (p.1.1, (C *ᵥ p.1.1 + h + p.2, p.1.2))) =
      (ν.prod (((Spec.gauss 0 P).prod (Spec.gauss 0 R)).map fun p => (p.1, C *ᵥ p.1 + p.2))).map Φ := by
    have hmap : (ν.prod ((Spec.gauss 0 P).prod (Spec.gauss 0 R))).map (Prod.map id fun p => (p.1, C *ᵥ p.1 + p.2)) =
        ν.prod (((Spec.gauss 0 P).prod (Spec.gauss 0 R)).map fun p => (p.1, C *ᵥ p.1 + p.2)) := by
      rw [← Measure.map_prod_map _ _ measurable_id (by fun_prop), Measure.map_id]
    rw [← hmap, ← hassoc, hl, Measure.map_map (by fun_prop) (by fun_prop), Measure.map_map hΦ (by fun_prop),
      Measure.map_map (by fun_prop) (by fun_prop)]
    congr 1
    funext p
    simp [Φ, MeasurableEquiv.prodAssoc, Matrix.mulVec_add]
    abel
  have right : normalGiven ((ν.prod (Spec.gauss 0 (C * P * Cᵀ + R))).map fun p => (C *ᵥ mean p.1 + h + p.2, p.1))
        (fun yh : (Fin m → ℝ) × H => mean yh.2 + K *ᵥ (yh.1 - C *ᵥ mean yh.2 - h)) (P - K * (C * P)) =
      (ν.prod (((Spec.gauss 0 (C * P * Cᵀ + R)).prod (Spec.gauss 0 (P - K * (C * P)))).map
        fun p => (K *ᵥ p.1 + p.2, p.1))).map Φ := by
    have hmap : (ν.prod ((Spec.gauss 0 (C * P * Cᵀ + R)).prod (Spec.gauss 0 (P - K * (C * P))))).map
          (Prod.map id fun p => (K *ᵥ p.1 + p.2, p.1)) =
        ν.prod (((Spec.gauss 0 (C * P * Cᵀ + R)).prod (Spec.gauss 0 (P - K * (C * P)))).map fun p => (K *ᵥ p.1 + p.2, p.1)) := by
      rw [← Measure.map_prod_map _ _ measurable_id (by fun_prop), Measure.map_id]
    have hl2 : ((ν.prod (Spec.gauss 0 (C * P * Cᵀ + R))).map fun p => (C *ᵥ mean p.1 + h + p.2, p.1)).prod
          (Spec.gauss 0 (P - K * (C * P))) =
        ((ν.prod (Spec.gauss 0 (C * P * Cᵀ + R))).prod (Spec.gauss 0 (P - K * (C * P)))).map
          (Prod.map (fun p => (C *ᵥ mean p.1 + h + p.2, p.1)) id) := by
      rw [← Measure.map_prod_map _ _ (by fun_prop) measurable_id, Measure.map_id]
    rw [← hmap, ← hassoc', normalGiven, hl2, Measure.map_map (by fun_prop) (by fun_prop), Measure.map_map hΦ (by fun_prop),
      Measure.map_map (by fun_prop) (by fun_prop)]
    congr 1
    funext p
    simp [Φ, MeasurableEquiv.prodAssoc]
    abel
  rw [left, right, key]

/-- A density is carried along by a map. -/
theorem map_withDensity_comp {α β : Type*} [MeasurableSpace α] [MeasurableSpace β] {μ : Measure α} {T : α → β}
    (hT : Measurable T) {F : β → ℝ≥0∞} (hF : Measurable F) :
    (μ.withDensity (F ∘ T)).map T = (μ.map T).withDensity F := by
  refine Measure.ext fun s hs => ?_
  rw [Measure.map_apply hT hs, withDensity_apply _ (hT hs), withDensity_apply _ hs, setLIntegral_map hs hF hT]
  rfl

/-- The measurement sequence gains one factor in its density. -/
theorem density_meas {vol : Measure H} [SFinite vol] {φ : H → ℝ≥0∞} (hφ : Measurable φ) {c : H → Fin m → ℝ} (hc : Measurable c)
    {S : Matrix (Fin m) (Fin m) ℝ} (hS : S.PosDef) :
    (((vol.withDensity φ).prod (Spec.gauss 0 S)).map fun p => (c p.1 + p.2, p.1)) =
      ((volume : Measure (Fin m → ℝ)).prod vol).withDensity fun yh =>
        φ yh.2 * ENNReal.ofReal (Real.exp (Spec.logNormal S (yh.1 - c yh.2))) := by
  have hT : Measurable (fun p : H × (Fin m → ℝ) => (c p.1 + p.2, p.1)) := by fun_prop
  have hln : Measurable (fun e : Fin m → ℝ => Spec.logNormal S e) := by
    refine Continuous.measurable ?_
    unfold Spec.logNormal; fun_prop
  have hF : Measurable fun yh : (Fin m → ℝ) × H => φ yh.2 * ENNReal.ofReal (Real.exp (Spec.logNormal S (yh.1 - c yh.2))) := by
    refine (hφ.comp measurable_snd).mul (ENNReal.measurable_ofReal.comp (Real.measurable_exp.comp (hln.comp ?_)))
    fun_prop
  have hg : Measurable fun s : Fin m → ℝ => ENNReal.ofReal (Real.exp (Spec.logNormal S s)) :=
    ENNReal.measurable_ofReal.comp (Real.measurable_exp.comp hln)
  have hpres : ((vol.prod (volume : Measure (Fin m → ℝ))).map fun p => (c p.1 + p.2, p.1)) =
      (volume : Measure (Fin m → ℝ)).prod vol := by
    have h1 := MeasurePreserving.skew_product (MeasurePreserving.id vol) (g := fun h s => c h + s)
      (μc := (volume : Measure (Fin m → ℝ))) (μd := volume) (by fun_prop)
      (Filter.Eventually.of_forall fun h => map_add_left_eq_self volume (c h))
    have h2 := (Measure.measurePreserving_swap (μ := vol) (ν := (volume : Measure (Fin m → ℝ)))).comp h1
    exact h2.map_eq
  rw [← hpres, ← map_withDensity_comp hT hF]
  congr 1
  rw [gauss_density hS, prod_withDensity hφ]
  · congr 1
    funext p
    simp
  · simpa using hg

end step

/-! ## The whole recursion -/

theorem histVol_sfinite : (l : List (Spec.LinOp n m)) → SFinite (Spec.histVol l)
  | [] => inferInstanceAs (SFinite (Measure.dirac () : Measure Unit))
  | .move .. :: l => histVol_sfinite l
  | .meas .. :: l =>
    have := histVol_sfinite l
    inferInstanceAs (SFinite ((volume : Measure (Fin m → ℝ)).prod (Spec.histVol l)))

instance (l : List (Spec.LinOp n m)) : SFinite (Spec.histVol l) := histVol_sfinite l

/-- **C65** For every sequence of time-varying prediction and measurement steps, the Kalman recursion of the code never fails
and is the exact Bayesian filter: one covariance, and for every record of measurements a mean, such that
* the recursion returns that mean and covariance,
* `N(mean, cov)` is the conditional law of the current state given all measurements so far,
* the sum of the returned log-likelihoods is the log density of the measurement record. -/
theorem C65_kalman_filter_exact (z0 : Fin n → ℝ) (P0 : Matrix (Fin n) (Fin n) ℝ) (hP0 : P0.PosSemidef)
    (l : List (Spec.LinOp n m)) (hl : ∀ op ∈ l, op.Good) :
    ∃ (mean : Spec.Hist l → Fin n → ℝ) (cov : Matrix (Fin n) (Fin n) ℝ) (loglik : Spec.Hist l → ℝ),
      (∀ ys, kfRun z0 P0 l ys = .ok (mean ys, cov, loglik ys)) ∧ cov.PosSemidef ∧
      Spec.IsCondLaw (Spec.joint z0 P0 l) (fun ys => Spec.gauss (mean ys) cov) ∧
      (Spec.joint z0 P0 l).map Prod.snd = (Spec.histVol l).withDensity fun ys => ENNReal.ofReal (Real.exp (loglik ys)) := by
  suffices h : ∃ (mean : Spec.Hist l → Fin n → ℝ) (cov : Matrix (Fin n) (Fin n) ℝ) (loglik : Spec.Hist l → ℝ)
      (ν : Measure (Spec.Hist l)), IsProbabilityMeasure ν ∧ Measurable mean ∧ Measurable loglik ∧ cov.PosSemidef ∧
      (∀ ys, kfRun z0 P0 l ys = .ok (mean ys, cov, loglik ys)) ∧ Spec.joint z0 P0 l = normalGiven ν mean cov ∧
      ν = (Spec.histVol l).withDensity fun ys => ENNReal.ofReal (Real.exp (loglik ys)) by
    obtain ⟨mean, cov, ll, ν, hν, hm, -, hc, hrun, hj, hd⟩ := h
    obtain ⟨h1, h2⟩ := normalGiven_cond (ν := ν) hm hc
    exact ⟨mean, cov, ll, hrun, hc, by rw [hj]; exact h2, by rw [hj, h1, hd]⟩
  induction l with
  | nil =>
    refine ⟨fun _ => z0, P0, fun _ => 0, (Measure.dirac () : Measure Unit), inferInstanceAs (IsProbabilityMeasure
      (Measure.dirac () : Measure Unit)), measurable_const, measurable_const, hP0, fun _ => rfl, ?_, ?_⟩
    · have e : ((Spec.gauss z0 P0).map fun x => (x, ())) = normalGiven (Measure.dirac () : Measure Unit) (fun _ => z0) P0 := by
        rw [normalGiven, ← gauss_shift hP0 z0, Measure.map_map (by fun_prop) (by fun_prop), Measure.dirac_prod,
          Measure.map_map (by fun_prop) (by fun_prop)]
        rfl
      exact e
    · simp only [Spec.histVol, Real.exp_zero, ENNReal.ofReal_one]
      exact withDensity_one.symm
  | cons op l ih =>
    obtain ⟨mean, cov, ll, ν, hν, hm, hlm, hc, hrun, hj, hd⟩ := ih fun o ho => hl o (List.mem_cons_of_mem _ ho)
    cases op with
    | move A f Q =>
      have hQ : Q.PosSemidef := hl _ (List.mem_cons_self)
      refine ⟨fun ys => f + A *ᵥ mean ys, A * cov * Aᵀ + Q, ll, ν, hν, ?_, hlm, (posSemidef_conj hc A).add hQ, ?_, ?_, hd⟩
      · have hA : Measurable (fun x : Fin n → ℝ => f + A *ᵥ x) := Continuous.measurable (by fun_prop)
        exact hA.comp hm
      · intro ys
        simp only [kfRun, hrun ys, ok_bind, predictFull]; rfl
      · rw [Spec.joint, hj]
        exact normalGiven_move hm hc A f hQ
    | meas C h R =>
      have hR : R.PosDef := hl _ (List.mem_cons_self)
      have hS : (C * cov * Cᵀ + R).PosDef := Matrix.PosDef.posSemidef_add (posSemidef_conj hc C) hR
      have hK : (cov * Cᵀ * (C * cov * Cᵀ + R)⁻¹) * (C * cov * Cᵀ + R) = cov * Cᵀ := by
        rw [Matrix.mul_assoc, Matrix.nonsing_inv_mul _ hS.det_pos.ne'.isUnit, Matrix.mul_one]
      have hcm : Measurable fun y : Spec.Hist l => C *ᵥ mean y + h := by
        have hC : Measurable (fun x : Fin n → ℝ => C *ᵥ x + h) := Continuous.measurable (by fun_prop)
        exact hC.comp hm
      have hT : Measurable (fun p : Spec.Hist l × (Fin m → ℝ) => (C *ᵥ mean p.1 + h + p.2, p.1)) :=
        ((hcm.comp measurable_fst).add measurable_snd).prodMk measurable_fst
      have hln : Measurable (fun e : Fin m → ℝ => Spec.logNormal (C * cov * Cᵀ + R) e) := by
        refine Continuous.measurable ?_
        unfold Spec.logNormal; fun_prop
      refine ⟨fun ys => mean ys.2 + (cov * Cᵀ * (C * cov * Cᵀ + R)⁻¹) *ᵥ (ys.1 - C *ᵥ mean ys.2 - h),
        cov - cov * Cᵀ * (C * cov * Cᵀ + R)⁻¹ * (C * cov),
        fun ys => ll ys.2 + Spec.logNormal (C * cov * Cᵀ + R) (ys.1 - C *ᵥ mean ys.2 - h),
        (ν.prod (Spec.gauss 0 (C * cov * Cᵀ + R))).map fun p => (C *ᵥ mean p.1 + h + p.2, p.1), ?_, ?_, ?_,
        posterior_posSemidef hc hR.posSemidef hK, ?_, ?_, ?_⟩
      · exact Measure.isProbabilityMeasure_map hT.aemeasurable
      · have hKm : Measurable (fun x : Fin m → ℝ => (cov * Cᵀ * (C * cov * Cᵀ + R)⁻¹) *ᵥ x) := Continuous.measurable (by fun_prop)
        have hC : Measurable (fun x : Fin n → ℝ => C *ᵥ x) := Continuous.measurable (by fun_prop)
        exact (hm.comp measurable_snd).add (hKm.comp ((measurable_fst.sub (hC.comp (hm.comp measurable_snd))).sub measurable_const))
      · have hC : Measurable (fun x : Fin n → ℝ => C *ᵥ x) := Continuous.measurable (by fun_prop)
        exact (hlm.comp measurable_snd).add (hln.comp ((measurable_fst.sub (hC.comp (hm.comp measurable_snd))).sub measurable_const))
      · intro ys
        simp only [kfRun, hrun ys.2, ok_bind]
        rw [measureFull_eq (PosSemidef.isSymm' hc) (PosSemidef.isSymm' hR.posSemidef) hS]
        rfl
      · rw [Spec.joint, hj]
        exact normalGiven_meas hm hc C h hR.posSemidef hK
      · have hφ : Measurable fun ys : Spec.Hist l => ENNReal.ofReal (Real.exp (ll ys)) :=
          ENNReal.measurable_ofReal.comp (Real.measurable_exp.comp hlm)
        conv_lhs => rw [hd]
        refine (density_meas hφ hcm hS).trans ?_
        rw [Spec.histVol]
        congr 1
        funext yh
        rw [← ENNReal.ofReal_mul (Real.exp_pos _).le, ← Real.exp_add, ← sub_sub]

/-- The hypotheses are met by a model with singular process noise. -/
example : ∀ op ∈ ([.meas 1 0 1, .move 1 1 0, .meas 1 0 1] : List (Spec.LinOp 2 2)), op.Good := by
  intro op h
  fin_cases h
  · exact Matrix.PosDef.one
  · exact Matrix.PosSemidef.zero
  · exact Matrix.PosDef.one

end PyPE

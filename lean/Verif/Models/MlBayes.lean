import Verif.Models.MlFilter
import Verif.Models.MlDensity

/-!
# The backward kernel of a mixed linear/nonlinear Gaussian model

Given a particle `(xi, N(z, P))` and the next state `(xi', z')`: density of the next state and law of the present one.
-/

namespace PyPE
open Real Spec MeasureTheory ProbabilityTheory Matrix
open scoped ENNReal

/-! ### Bayes' rule for densities -/

/-- The law of `z ~ μ` given `s'` when `s'` has density `a z` given `z`. -/
noncomputable def Spec.bayesKernel {A S : Type} [MeasurableSpace A] [MeasurableSpace S] (μ : Measure A) [SFinite μ] (a : A → S → ℝ≥0∞) : Kernel S A :=
  Kernel.withDensity (Kernel.const S μ) fun s' z => (∫⁻ z, a z s' ∂μ)⁻¹ * a z s'

section
variable {A S : Type} [MeasurableSpace A] [MeasurableSpace S] {μ : Measure A} [IsProbabilityMeasure μ] {a : A → S → ℝ≥0∞}

theorem bayes_measurable (ha : Measurable (Function.uncurry a)) :
    Measurable (Function.uncurry fun (s' : S) (z : A) => (∫⁻ z, a z s' ∂μ)⁻¹ * a z s') := by
  have h1 : Measurable fun s' : S => ∫⁻ z, a z s' ∂μ := by
    have : Measurable fun q : S × A => a q.2 q.1 := ha.comp measurable_swap
    exact this.lintegral_prod_right'
  have h2 : Measurable fun q : S × A => a q.2 q.1 := ha.comp measurable_swap
  exact (h1.comp measurable_fst).inv.mul h2

theorem bayesKernel_apply (ha : Measurable (Function.uncurry a)) (s' : S) :
    bayesKernel μ a s' = μ.withDensity fun z => (∫⁻ z, a z s' ∂μ)⁻¹ * a z s' := by
  rw [bayesKernel, Kernel.withDensity_apply _ (bayes_measurable ha), Kernel.const_apply]

/-- The kernel is what a normalised posterior must be. -/
theorem bayesKernel_eq (ha : Measurable (Function.uncurry a)) {s' : S} {c : ℝ≥0∞} (hc : c ≠ 0) (hc' : c ≠ ∞) {ρ : Measure A} [IsProbabilityMeasure ρ]
    (h : μ.withDensity (fun z => a z s') = c • ρ) : bayesKernel μ a s' = ρ := by
  have ham : Measurable fun z => a z s' := ha.comp (measurable_id.prodMk measurable_const)
  have hZ : ∫⁻ z, a z s' ∂μ = c := by
    have := congrArg (fun m : Measure A => m Set.univ) h
    simpa [withDensity_apply _ MeasurableSet.univ] using this
  rw [bayesKernel_apply ha, hZ]
  have : (fun z => c⁻¹ * a z s') = c⁻¹ • fun z => a z s' := by funext z; rfl
  rw [this, withDensity_smul _ ham, h, smul_smul, ENNReal.inv_mul_cancel hc hc', one_smul]

/-- Bayes' rule. -/
theorem bayesKernel_tonelli (ha : Measurable (Function.uncurry a)) {vol : Measure S} [SFinite vol] {e : S → ℝ≥0∞} (he : ∀ s', e s' ≠ 0 ∧ e s' ≠ ∞)
    (hZ : (fun s' => ∫⁻ z, a z s' ∂μ) =ᵐ[vol] e) {g : A × S → ℝ≥0∞} (hg : Measurable g) :
    ∫⁻ z, ∫⁻ s', a z s' * g (z, s') ∂vol ∂μ = ∫⁻ s', e s' * ∫⁻ z, g (z, s') ∂bayesKernel μ a s' ∂vol := by
  have hm : Measurable (Function.uncurry fun (z : A) (s' : S) => a z s' * g (z, s')) := ha.mul hg
  rw [lintegral_lintegral_swap hm.aemeasurable]
  refine lintegral_congr_ae ?_
  filter_upwards [hZ] with s' hs
  have ham : Measurable fun z => a z s' := ha.comp (measurable_id.prodMk measurable_const)
  have hgm : Measurable fun z => g (z, s') := hg.comp (measurable_id.prodMk measurable_const)
  rw [bayesKernel_apply ha, lintegral_withDensity_eq_lintegral_mul _ (f := fun z => (∫⁻ z, a z s' ∂μ)⁻¹ * a z s') (ham.const_mul _) hgm]
  simp only [hs, Pi.mul_apply, mul_assoc]
  rw [lintegral_const_mul' _ _ (ENNReal.inv_ne_top.2 (he s').1), ← mul_assoc, ENNReal.mul_inv_cancel (he s').1 (he s').2, one_mul]

end

/-! ### Stacked vectors -/

theorem vstackV_measurable {a b : ℕ} : Measurable fun q : VecR a × VecR b => vstackV q.1 q.2 := by
  rw [measurable_pi_iff]
  intro i
  show Measurable fun q : VecR a × VecR b => Sum.elim q.1 q.2 (finSumFinEquiv.symm i)
  rcases finSumFinEquiv.symm i with j | j
  · exact (measurable_pi_apply j).comp measurable_fst
  · exact (measurable_pi_apply j).comp measurable_snd

/-- Stacking two vectors preserves Lebesgue measure. -/
theorem vstackV_preserving {a b : ℕ} : MeasurePreserving (fun q : VecR a × VecR b => vstackV q.1 q.2) volume volume := by
  have h1 := volume_measurePreserving_sumPiEquivProdPi_symm (fun _ : Fin a ⊕ Fin b => ℝ)
  have h2 := volume_measurePreserving_piCongrLeft (fun _ : Fin (a + b) => ℝ) (finSumFinEquiv (m := a) (n := b))
  have h := h2.comp h1
  convert h using 1
  funext q
  funext i
  obtain ⟨j, rfl⟩ := (finSumFinEquiv (m := a) (n := b)).surjective i
  simp only [vstackV, Equiv.symm_apply_apply, Function.comp]
  rw [MeasurableEquiv.coe_piCongrLeft, Equiv.piCongrLeft_apply_apply]
  rcases j with j | j <;> rfl

/-- Stacking as an equivalence. -/
def vstackE (a b : ℕ) : VecR a × VecR b ≃ᵐ VecR (a + b) where
  toFun q := vstackV q.1 q.2
  invFun x := (fun i => x (finSumFinEquiv (.inl i)), fun j => x (finSumFinEquiv (.inr j)))
  left_inv q := by ext i <;> simp [vstackV]
  right_inv x := by
    funext i
    obtain ⟨j, rfl⟩ := (finSumFinEquiv (m := a) (n := b)).surjective i
    rcases j with j | j <;> simp [vstackV]
  measurable_toFun := vstackV_measurable
  measurable_invFun := by
    refine Measurable.prodMk ?_ ?_ <;> exact measurable_pi_lambda _ fun i => measurable_pi_apply _

/-- Two independent normal vectors stacked. -/
theorem gauss_stack {a b : ℕ} {Q : MatR a a} {R : MatR b b} (hQ : Q.PosSemidef) (hR : R.PosSemidef) :
    ((Spec.gauss 0 Q).prod (Spec.gauss 0 R)).map (fun q => vstackV q.1 q.2) = Spec.gauss 0 (stackQ Q 0 R) := by
  have h := gauss_affine (μ := (0 : VecR a)) (ν := (0 : VecR b)) hQ hR (0 : VecR (a + b)) (vstackM 1 0) (vstackM 0 1)
  have e1 : ∀ q : VecR a × VecR b, (0 : VecR (a+b)) + vstackM (1 : MatR a a) (0 : MatR b a) *ᵥ q.1 + vstackM (0 : MatR a b) (1 : MatR b b) *ᵥ q.2 = vstackV q.1 q.2 := by
    intro q
    rw [vstackM_mulVec, vstackM_mulVec, zero_add, ← vstackV_add]
    simp
  simp only [e1] at h
  rw [h]
  have e2 : vstackM (1 : MatR a a) (0 : MatR b a) * Q * (vstackM (1 : MatR a a) (0 : MatR b a))ᵀ +
      vstackM (0 : MatR a b) (1 : MatR b b) * R * (vstackM (0 : MatR a b) (1 : MatR b b))ᵀ = stackQ Q 0 R := by
    unfold vstackM stackQ
    have f : ∀ {c : ℕ} (A : Matrix (Fin a ⊕ Fin b) (Fin c) ℝ) (S : MatR c c),
        A.submatrix (finSumFinEquiv (m := a) (n := b)).symm id * S * (A.submatrix (finSumFinEquiv (m := a) (n := b)).symm id)ᵀ =
          (A * S * Aᵀ).submatrix finSumFinEquiv.symm finSumFinEquiv.symm := by
      intro c A S
      ext i j
      simp [Matrix.mul_apply]
    have g : fromRows (1 : MatR a a) (0 : MatR b a) * Q * (fromRows (1 : MatR a a) (0 : MatR b a))ᵀ +
        fromRows (0 : MatR a b) (1 : MatR b b) * R * (fromRows (0 : MatR a b) (1 : MatR b b))ᵀ = fromBlocks Q 0 0ᵀ R := by
      rw [fromRows_mul (B := Q), fromRows_mul (B := R), transpose_fromRows, transpose_fromRows, fromRows_mul_fromCols, fromRows_mul_fromCols]
      simp [fromBlocks_add]
    rw [f, f, ← g]
    rfl
  rw [e2]
  congr 1
  simp

/-! ### The mixed model without cross covariance -/

variable {lxi lz ly : ℕ} {U Y : Type}

/-- The density of the next state `s'` when the present one is `(x, z)`. -/
noncomputable def Spec.RbModel.nextDens (M : Spec.RbModel lxi lz ly (Slot U) ℕ Y) (t : ℕ) (u : Slot U) (x : VecR lxi) (z : VecR lz)
    (s' : VecR lxi × VecR lz) : ℝ≥0∞ :=
  Spec.likelihood (M.Axi x u t) (M.fxi x u t) (M.Qxi x u t) s'.1 z * Spec.likelihood (M.Az x u t) (M.fz x u t) (M.Qz x u t) s'.2 z

theorem nextDens_measurable (M : Spec.RbModel lxi lz ly (Slot U) ℕ Y) (t : ℕ) (u : Slot U) (x : VecR lxi) :
    Measurable (Function.uncurry (M.nextDens t u x)) := by
  have h1 : Measurable fun q : VecR lz × VecR lxi × VecR lz => Spec.likelihood (M.Axi x u t) (M.fxi x u t) (M.Qxi x u t) q.2.1 q.1 := by
    unfold Spec.likelihood
    exact (measurable_exp.comp ((continuous_logNormal _).measurable.comp (Continuous.measurable (by fun_prop)))).ennreal_ofReal
  have h2 : Measurable fun q : VecR lz × VecR lxi × VecR lz => Spec.likelihood (M.Az x u t) (M.fz x u t) (M.Qz x u t) q.2.2 q.1 := by
    unfold Spec.likelihood
    exact (measurable_exp.comp ((continuous_logNormal _).measurable.comp (Continuous.measurable (by fun_prop)))).ennreal_ofReal
  exact h1.mul h2

theorem gauss_likelihood {n m : ℕ} {R : MatR m m} (hR : R.PosDef) (C : MatR m n) (h : VecR m) (z : VecR n) :
    (Spec.gauss 0 R).map (fun v => C *ᵥ z + h + v) = volume.withDensity fun y => Spec.likelihood C h R y z := by
  rw [gauss_shift hR.posSemidef, gauss_density hR]
  congr 1
  funext y
  rw [Spec.likelihood, sub_sub]

theorem likelihood_measurable_obs {n m : ℕ} (R : MatR m m) (C : MatR m n) (h : VecR m) (z : VecR n) :
    Measurable fun y => Spec.likelihood C h R y z := by
  unfold Spec.likelihood
  exact (measurable_exp.comp ((continuous_logNormal _).measurable.comp (Continuous.measurable (by fun_prop)))).ennreal_ofReal

/-- Without cross covariance the next state has density `nextDens`. -/
theorem joint_density (M : Spec.RbModel lxi lz ly (Slot U) ℕ Y) (t : ℕ) (u : Slot U) (x : VecR lxi) (z : VecR lz) (h0 : M.Qxiz x u t = 0)
    (h1 : (M.Qxi x u t).PosDef) (h2 : (M.Qz x u t).PosDef) : M.joint t u (x, z) = volume.withDensity (M.nextDens t u x z) := by
  have e : (fun v : VecR lxi × VecR lz => (M.Axi x u t *ᵥ z + M.fxi x u t + v.1,
      M.Az x u t *ᵥ z + M.fz x u t + ((M.Qxiz x u t)ᵀ * (M.Qxi x u t)⁻¹) *ᵥ v.1 + v.2)) =
      Prod.map (fun v => M.Axi x u t *ᵥ z + M.fxi x u t + v) (fun v => M.Az x u t *ᵥ z + M.fz x u t + v) := by
    funext v
    simp [h0, Prod.map]
  rw [Spec.RbModel.joint]
  simp only
  rw [e, ← Measure.map_prod_map _ _ (by fun_prop) (by fun_prop), gauss_likelihood h1, gauss_likelihood h2,
    prod_withDensity (likelihood_measurable_obs _ _ _ _) (likelihood_measurable_obs _ _ _ _)]
  rfl

/-- The log density of the next state given the particle `p`, computed from the stacked matrices. -/
noncomputable def Spec.RbModel.logNext (M : Spec.RbModel lxi lz ly (Slot U) ℕ Y) (t : ℕ) (u : Slot U) (p : RbP lxi lz) (s' : VecR lxi × VecR lz) : ℝ :=
  Spec.logNormal (M.stA p.1 u t * p.2.2 * (M.stA p.1 u t)ᵀ + M.stQ p.1 u t) (vstackV s'.1 s'.2 - (M.stF p.1 u t + M.stA p.1 u t *ᵥ p.2.1))

theorem logNext_measurable (M : Spec.RbModel lxi lz ly (Slot U) ℕ Y) (t : ℕ) (u : Slot U) (p : RbP lxi lz) : Measurable (M.logNext t u p) :=
  (continuous_logNormal _).measurable.comp (vstackV_measurable.sub_const _)

theorem stQ_posDef {a b : ℕ} {Q : MatR a a} {R : MatR b b} (hQ : Q.PosDef) (hR : R.PosDef) : (stackQ Q 0 R).PosDef := by
  unfold stackQ
  refine Matrix.PosDef.submatrix ?_ finSumFinEquiv.symm.injective
  haveI := hQ.isUnit.invertible
  have h := (Matrix.PosDef.fromBlocks₁₁ (B := (0 : MatR a b)) R hQ).2 (by simpa using hR.posSemidef)
  have e : fromBlocks Q (0 : MatR a b) (0 : MatR a b)ᵀ R = fromBlocks Q 0 (0 : MatR a b)ᴴ R := by simp
  rw [e]
  refine h.posDef_iff_det_ne_zero.2 ?_
  rw [← e, det_fromBlocks_zero₁₂]
  exact mul_ne_zero hQ.det_pos.ne' hR.det_pos.ne'

/-- The law of the next state of a particle. -/
noncomputable def nextPairLaw (M : Spec.RbModel lxi lz ly (Slot U) ℕ Y) (t : ℕ) (u : Slot U) (p : RbP lxi lz) : Measure (VecR lxi × VecR lz) :=
  ((Spec.gauss p.2.1 p.2.2).prod ((Spec.gauss 0 (M.Qxi p.1 u t)).prod (Spec.gauss 0 (M.Qz p.1 u t)))).map fun q =>
      (M.Axi p.1 u t *ᵥ q.1 + M.fxi p.1 u t + q.2.1, M.Az p.1 u t *ᵥ q.1 + M.fz p.1 u t + q.2.2)

theorem nextPair_measurable (M : Spec.RbModel lxi lz ly (Slot U) ℕ Y) (t : ℕ) (u : Slot U) (p : RbP lxi lz) :
    Measurable fun q : VecR lz × VecR lxi × VecR lz =>
      (M.Axi p.1 u t *ᵥ q.1 + M.fxi p.1 u t + q.2.1, M.Az p.1 u t *ᵥ q.1 + M.fz p.1 u t + q.2.2) := Continuous.measurable (by fun_prop)

theorem nextPair_stack (M : Spec.RbModel lxi lz ly (Slot U) ℕ Y) (t : ℕ) (u : Slot U) (p : RbP lxi lz) (h0 : M.Qxiz p.1 u t = 0)
    (h1 : (M.Qxi p.1 u t).PosDef) (h2 : (M.Qz p.1 u t).PosDef) : (nextPairLaw M t u p).map (vstackE lxi lz) = M.nextLaw p u t := by
  have hE : (vstackE lxi lz : VecR lxi × VecR lz → VecR (lxi + lz)) = fun q => vstackV q.1 q.2 := rfl
  have hm : Measurable fun q : VecR lz × VecR (lxi + lz) => vstackV (M.Axi p.1 u t *ᵥ q.1 + M.fxi p.1 u t) (M.Az p.1 u t *ᵥ q.1 + M.fz p.1 u t) + q.2 :=
    Measurable.add (vstackV_measurable.comp (f := fun q : VecR lz × VecR (lxi + lz) =>
        (M.Axi p.1 u t *ᵥ q.1 + M.fxi p.1 u t, M.Az p.1 u t *ᵥ q.1 + M.fz p.1 u t)) (Continuous.measurable (by fun_prop))) measurable_snd
  have := Measure.map_prod_map (Spec.gauss p.2.1 p.2.2) ((Spec.gauss (0 : VecR lxi) (M.Qxi p.1 u t)).prod (Spec.gauss (0 : VecR lz) (M.Qz p.1 u t)))
    measurable_id (vstackV_measurable (a := lxi) (b := lz))
  rw [Measure.map_id] at this
  rw [nextPairLaw, Measure.map_map (vstackE lxi lz).measurable (nextPair_measurable M t u p), Spec.RbModel.nextLaw, h0,
    ← gauss_stack h1.posSemidef h2.posSemidef, this, Measure.map_map hm (measurable_id.prodMap vstackV_measurable)]
  congr 1
  funext q
  simp only [Function.comp, hE, Prod.map, id]
  rw [← vstackV_add]

theorem nextPair_density (M : Spec.RbModel lxi lz ly (Slot U) ℕ Y) (t : ℕ) (u : Slot U) (p : RbP lxi lz) (hP : p.2.2.PosSemidef) (h0 : M.Qxiz p.1 u t = 0)
    (h1 : (M.Qxi p.1 u t).PosDef) (h2 : (M.Qz p.1 u t).PosDef) :
    nextPairLaw M t u p = (volume : Measure (VecR lxi × VecR lz)).withDensity fun s' => ENNReal.ofReal (exp (M.logNext t u p s')) := by
  have hQ : (M.stQ p.1 u t).PosDef := by rw [Spec.RbModel.stQ, h0]; exact stQ_posDef h1 h2
  apply (vstackE lxi lz).map_measurableEquiv_injective
  have hE : (vstackE lxi lz : VecR lxi × VecR lz → VecR (lxi + lz)) = fun q => vstackV q.1 q.2 := rfl
  rw [nextPair_stack M t u p h0 h1 h2, nextLaw_eq M p hP u t hQ.posSemidef, gauss_density (Matrix.PosDef.posSemidef_add (posSemidef_conj hP _) hQ)]
  refine Measure.ext fun A hA => ?_
  have hd : Measurable fun x : VecR (lxi + lz) => ENNReal.ofReal (exp (Spec.logNormal (M.stA p.1 u t * p.2.2 * (M.stA p.1 u t)ᵀ + M.stQ p.1 u t)
      (x - (M.stF p.1 u t + M.stA p.1 u t *ᵥ p.2.1)))) :=
    (measurable_exp.comp ((continuous_logNormal _).measurable.comp (measurable_id.sub_const _))).ennreal_ofReal
  rw [MeasurableEquiv.map_apply, withDensity_apply _ hA, withDensity_apply _ ((vstackE lxi lz).measurable hA), hE,
    ← vstackV_preserving.setLIntegral_comp_preimage hA hd]
  simp only [Spec.RbModel.logNext]

attribute [local irreducible] Spec.RbModel.nextDens Spec.RbModel.logNext Spec.likelihood

/-- The marginal density of the next state is the one `logNext` computes. -/
theorem nextDens_marginal (M : Spec.RbModel lxi lz ly (Slot U) ℕ Y) (t : ℕ) (u : Slot U) (p : RbP lxi lz) (hP : p.2.2.PosSemidef) (h0 : M.Qxiz p.1 u t = 0)
    (h1 : (M.Qxi p.1 u t).PosDef) (h2 : (M.Qz p.1 u t).PosDef) :
    (fun s' => ∫⁻ z, M.nextDens t u p.1 z s' ∂Spec.gauss p.2.1 p.2.2) =ᵐ[volume] fun s' => ENNReal.ofReal (exp (M.logNext t u p s')) := by
  have hm := nextDens_measurable M t u p.1
  have hms : Measurable (Function.uncurry fun (s' : VecR lxi × VecR lz) (z : VecR lz) => M.nextDens t u p.1 z s') := hm.comp measurable_swap
  have hl := (measurable_exp.comp (logNext_measurable M t u p)).ennreal_ofReal
  refine ae_eq_of_forall_setLIntegral_eq_of_sigmaFinite (hms.lintegral_prod_right') hl fun B hB _ => ?_
  rw [← withDensity_apply (fun s' => ENNReal.ofReal (exp (M.logNext t u p s'))) hB, ← nextPair_density M t u p hP h0 h1 h2]
  have hf := nextPair_measurable M t u p
  rw [nextPairLaw, Measure.map_apply hf hB, Measure.prod_apply (hf hB), lintegral_lintegral_swap hms.aemeasurable]
  refine lintegral_congr fun z => ?_
  rw [← withDensity_apply _ hB]
  have hj := joint_density M t u p.1 z h0 h1 h2
  rw [← hj, Spec.RbModel.joint,
    Measure.map_apply (Continuous.measurable (by fun_prop)) hB]
  congr 1
  ext v
  simp [h0]

/-- The law of the state given the particle `p` and the next state. -/
noncomputable def Spec.RbModel.backKernel (M : Spec.RbModel lxi lz ly (Slot U) ℕ Y) (t : ℕ) (u : Slot U) (p : RbP lxi lz) :
    Kernel (VecR lxi × VecR lz) (VecR lxi × VecR lz) :=
  (bayesKernel (Spec.gauss p.2.1 p.2.2) (M.nextDens t u p.1)).map fun z => (p.1, z)

/-- Bayes' rule for one step of the model. -/
theorem backKernel_bayes (M : Spec.RbModel lxi lz ly (Slot U) ℕ Y) (t : ℕ) (u : Slot U) (p : RbP lxi lz) (hP : p.2.2.PosSemidef) (h0 : M.Qxiz p.1 u t = 0)
    (h1 : (M.Qxi p.1 u t).PosDef) (h2 : (M.Qz p.1 u t).PosDef) {K : Kernel (VecR lxi × VecR lz) (VecR lxi × VecR lz)} [IsSFiniteKernel K] (hK : ∀ s, K s = M.joint t u s)
    {g : (VecR lxi × VecR lz) × (VecR lxi × VecR lz) → ℝ≥0∞} (hg : Measurable g) :
    ∫⁻ s, ∫⁻ s', g (s, s') ∂K s ∂rbLaw p =
      ∫⁻ s', ENNReal.ofReal (exp (M.logNext t u p s')) * ∫⁻ s, g (s, s') ∂M.backKernel t u p s' ∂volume := by
  rw [lintegral_rbLaw _ hg.lintegral_kernel_prod_right']
  have hg' : Measurable fun q : VecR lz × (VecR lxi × VecR lz) => g ((p.1, q.1), q.2) := by fun_prop
  have h := bayesKernel_tonelli (μ := Spec.gauss p.2.1 p.2.2) (nextDens_measurable M t u p.1)
    (e := fun s' => ENNReal.ofReal (exp (M.logNext t u p s'))) (fun s' => ⟨by simp [exp_pos], ENNReal.ofReal_ne_top⟩)
    (nextDens_marginal M t u p hP h0 h1 h2) hg'
  have e1 : ∀ z, ∫⁻ s', g ((p.1, z), s') ∂K (p.1, z) = ∫⁻ s', M.nextDens t u p.1 z s' * g ((p.1, z), s') := by
    intro z
    have hd : Measurable fun s' => M.nextDens t u p.1 z s' := (nextDens_measurable M t u p.1).comp (measurable_const.prodMk measurable_id)
    have hgz : Measurable fun s' => g ((p.1, z), s') := hg.comp (measurable_const.prodMk measurable_id)
    rw [hK, joint_density M t u p.1 z h0 h1 h2, lintegral_withDensity_eq_lintegral_mul _ hd hgz]
    simp only [Pi.mul_apply]
  simp only [e1]
  rw [h]
  refine lintegral_congr fun s' => ?_
  have hgs : Measurable fun s => g (s, s') := hg.comp (measurable_id.prodMk measurable_const)
  rw [Spec.RbModel.backKernel, Kernel.map_apply _ (by fun_prop), lintegral_map hgs (by fun_prop)]

end PyPE

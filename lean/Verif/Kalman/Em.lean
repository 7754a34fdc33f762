import Verif.Kalman.Bayes
import Verif.Models.LtvEm

/-!
# The EM inequality for linear Gaussian models (C115)

Two linear Gaussian models of one record of measurements. The difference of their log-likelihoods is at least the difference of the
expected complete-data log-likelihoods, the expectation taken under the smoothing laws of the first one.
-/

open MeasureTheory ProbabilityTheory Matrix
open scoped ENNReal
namespace PyPE

variable {n : ℕ}

/-! ## Specification -/

/-- The log-density a step contributes when the state is `x` before and `x'` after it: that of the transition or that of the measured value. -/
noncomputable def Spec.DataOp.logp : Spec.DataOp n → (Fin n → ℝ) → (Fin n → ℝ) → ℝ
  | .move A f Q, x, x' => Spec.logNormal Q (x' - (A *ᵥ x + f))
  | .meas _ C h R y, x, _ => Spec.logNormal R (y - (C *ᵥ x + h))

/-- Two models of one record: the same steps in the same order, with the same measured values. -/
inductive Spec.SameData : List (Spec.DataOp n) → List (Spec.DataOp n) → Prop
  | nil : SameData [] []
  | move {A f Q A' f' Q' l l'} (h : SameData l l') : SameData (.move A f Q :: l) (.move A' f' Q' :: l')
  | meas {m C h R C' h' R' y l l'} (hs : SameData l l') : SameData (.meas m C h R y :: l) (.meas m C' h' R' y :: l')

/-- The mean of `g` under the law proportional to `ν`. -/
noncomputable def Spec.average {α : Type} [MeasurableSpace α] (ν : Measure α) (g : α → ℝ) : ℝ := (∫ x, g x ∂ν) / (ν Set.univ).toReal

/-- Sum over the steps of the expected log-density of the step in the second model; the expectation is over the states before and after the
step, given all data, in the first model. -/
noncomputable def Spec.emSum (μ : Measure (Fin n → ℝ)) : List (Spec.DataOp n) → List (Spec.DataOp n) → List (Spec.DataOp n) → ℝ
  | past, op :: l, op' :: l' => Spec.average (Spec.smoothedPair μ past op l) (fun p => op'.logp p.1 p.2) + Spec.emSum μ (past ++ [op]) l l'
  | _, _, _ => 0

/-- The function EM maximises: the expected complete-data log-likelihood of the second model, given the data, under the first one. -/
noncomputable def Spec.emQ (z0 : Fin n → ℝ) (P0 : Matrix (Fin n) (Fin n) ℝ) (l : List (Spec.DataOp n)) (z0' : Fin n → ℝ)
    (P0' : Matrix (Fin n) (Fin n) ℝ) (l' : List (Spec.DataOp n)) : ℝ :=
  Spec.average (Spec.smoothed (Spec.gauss z0 P0) [] l) (fun x => Spec.logNormal P0' (x - z0')) + Spec.emSum (Spec.gauss z0 P0) [] l l'

/-! ## One step -/

section steps
variable {S S' : Type} [MeasurableSpace S] [MeasurableSpace S']

/-- Law of what is remembered, the state before and the state after one step. -/
noncomputable def stepLaw2 : Spec.DataOp n → Measure (S × (Fin n → ℝ)) → Measure ((S × (Fin n → ℝ)) × (Fin n → ℝ))
  | .move A f Q, μ => (μ.prod (Spec.gauss 0 Q)).map fun p => (p.1, A *ᵥ p.1.2 + f + p.2)
  | .meas _ C h R y, μ => (μ.withDensity fun p => Spec.likelihood C h R y p.2).map fun p => (p, p.2)

theorem sfinite_stepLaw2 (op : Spec.DataOp n) (μ : Measure (S × (Fin n → ℝ))) [SFinite μ] : SFinite (stepLaw2 op μ) := by
  cases op <;> (rw [stepLaw2]; infer_instance)

theorem follow_stepLaw2 (op : Spec.DataOp n) (l : List (Spec.DataOp n)) (μ : Measure (S × (Fin n → ℝ))) [SFinite μ] :
    Spec.follow (op :: l) μ = Spec.follow l ((stepLaw2 op μ).map fun p => (p.1.1, p.2)) := by
  cases op with
  | move A f Q =>
    have hA : Measurable (fun x : Fin n → ℝ => A *ᵥ x) := Continuous.measurable (by fun_prop)
    rw [Spec.follow, stepLaw2, Measure.map_map (by fun_prop) (by fun_prop)]
    rfl
  | meas m C h R y =>
    rw [Spec.follow, stepLaw2, Measure.map_map (by fun_prop) (by fun_prop)]
    congr 1
    exact (Measure.map_id).symm

theorem stepLaw2_map (op : Spec.DataOp n) (μ : Measure (S × (Fin n → ℝ))) [SFinite μ] {Φ : S × (Fin n → ℝ) → S'} (hΦ : Measurable Φ) :
    stepLaw2 op (μ.map fun p => (Φ p, p.2)) = (stepLaw2 op μ).map fun p => ((Φ p.1, p.1.2), p.2) := by
  cases op with
  | move A f Q =>
    have hA : Measurable (fun x : Fin n → ℝ => A *ᵥ x) := Continuous.measurable (by fun_prop)
    have hl : (μ.map fun p => (Φ p, p.2)).prod (Spec.gauss 0 Q) =
        (μ.prod (Spec.gauss 0 Q)).map (Prod.map (fun p => (Φ p, p.2)) id) := by
      rw [← Measure.map_prod_map _ _ (by fun_prop) measurable_id, Measure.map_id]
    rw [stepLaw2, stepLaw2, hl, Measure.map_map (by fun_prop) (by fun_prop), Measure.map_map (by fun_prop) (by fun_prop)]
    rfl
  | meas m C h R y =>
    have hG : Measurable fun p : S' × (Fin n → ℝ) => Spec.likelihood C h R y p.2 :=
      (measurable_likelihood C h R y).comp measurable_snd
    have hT : Measurable fun p : S × (Fin n → ℝ) => (Φ p, p.2) := by fun_prop
    have e := map_withDensity_comp (μ := μ) hT hG
    rw [stepLaw2, stepLaw2, ← e, Measure.map_map (by fun_prop) (by fun_prop), Measure.map_map (by fun_prop) (by fun_prop)]
    rfl

end steps

theorem measurable_logp (op : Spec.DataOp n) : Measurable fun p : (Fin n → ℝ) × (Fin n → ℝ) => op.logp p.1 p.2 := by
  cases op with
  | move A f Q => exact Continuous.measurable (by unfold Spec.DataOp.logp Spec.logNormal; fun_prop)
  | meas m C h R y => exact Continuous.measurable (by unfold Spec.DataOp.logp Spec.logNormal; fun_prop)

theorem measurable_gap (op op' : Spec.DataOp n) :
    Measurable fun p : (Fin n → ℝ) × (Fin n → ℝ) => op'.logp p.1 p.2 - op.logp p.1 p.2 := (measurable_logp op').sub (measurable_logp op)

section tilt
variable {S : Type} [MeasurableSpace S]

theorem lintegral_move (A : Matrix (Fin n) (Fin n) ℝ) (f : Fin n → ℝ) {Q : Matrix (Fin n) (Fin n) ℝ} (hQ : Q.PosDef)
    (μ : Measure (S × (Fin n → ℝ))) [SFinite μ] {ψ : (S × (Fin n → ℝ)) × (Fin n → ℝ) → ℝ≥0∞} (hψ : Measurable ψ) :
    ∫⁻ p, ψ p ∂(stepLaw2 (.move A f Q) μ) =
      ∫⁻ p, (∫⁻ x', ENNReal.ofReal (Real.exp (Spec.logNormal Q (x' - (A *ᵥ p.2 + f)))) * ψ (p, x')) ∂μ := by
  have hA : Measurable (fun x : Fin n → ℝ => A *ᵥ x) := Continuous.measurable (by fun_prop)
  rw [stepLaw2, lintegral_map hψ (by fun_prop), lintegral_prod _ (by fun_prop)]
  refine lintegral_congr fun p => ?_
  have e := gauss_shift hQ.posSemidef (A *ᵥ p.2 + f)
  have hm : Measurable fun x' : Fin n → ℝ => ψ (p, x') := by fun_prop
  have h1 : ∫⁻ v, ψ (p, A *ᵥ p.2 + f + v) ∂(Spec.gauss 0 Q) = ∫⁻ x', ψ (p, x') ∂(Spec.gauss (A *ᵥ p.2 + f) Q) := by
    rw [← e, lintegral_map hm (by fun_prop)]
  have hd : Measurable fun x' : Fin n → ℝ => ENNReal.ofReal (Real.exp (Spec.logNormal Q (x' - (A *ᵥ p.2 + f)))) := by
    have := (continuous_logNormal Q).measurable
    fun_prop
  rw [h1, gauss_density hQ, lintegral_withDensity_eq_lintegral_mul _ hd hm]
  rfl

/-- Changing the parameters of a step multiplies its law with the ratio of the densities. -/
theorem lintegral_gap {op op' : Spec.DataOp n} (hs : Spec.SameData [op] [op']) (hg : op.Strict) (hg' : op'.Strict)
    (μ : Measure (S × (Fin n → ℝ))) [SFinite μ] {ψ : (S × (Fin n → ℝ)) × (Fin n → ℝ) → ℝ≥0∞} (hψ : Measurable ψ) :
    ∫⁻ p, ENNReal.ofReal (Real.exp (op'.logp p.1.2 p.2 - op.logp p.1.2 p.2)) * ψ p ∂(stepLaw2 op μ) = ∫⁻ p, ψ p ∂(stepLaw2 op' μ) := by
  have hgap : Measurable fun p : (S × (Fin n → ℝ)) × (Fin n → ℝ) =>
      ENNReal.ofReal (Real.exp (op'.logp p.1.2 p.2 - op.logp p.1.2 p.2)) := by
    have := (measurable_gap op op').comp (show Measurable fun p : (S × (Fin n → ℝ)) × (Fin n → ℝ) => (p.1.2, p.2) by fun_prop)
    exact ENNReal.measurable_ofReal.comp (Real.measurable_exp.comp this)
  cases hs with
  | @move A f Q A' f' Q' _ _ _ =>
    have hm : Measurable fun p : (S × (Fin n → ℝ)) × (Fin n → ℝ) => ENNReal.ofReal (Real.exp
        (Spec.DataOp.logp (.move A' f' Q') p.1.2 p.2 - Spec.DataOp.logp (.move A f Q) p.1.2 p.2)) * ψ p := hgap.mul hψ
    rw [lintegral_move A f hg μ hm, lintegral_move A' f' hg' μ hψ]
    refine lintegral_congr fun p => lintegral_congr fun x' => ?_
    rw [← mul_assoc, ← ENNReal.ofReal_mul (Real.exp_pos _).le, ← Real.exp_add]
    simp only [Spec.DataOp.logp]
    congr 3
    ring
  | @meas m C h R C' h' R' y _ _ _ =>
    have hm : Measurable fun p : (S × (Fin n → ℝ)) × (Fin n → ℝ) => ENNReal.ofReal (Real.exp
        (Spec.DataOp.logp (.meas m C' h' R' y) p.1.2 p.2 - Spec.DataOp.logp (.meas m C h R y) p.1.2 p.2)) * ψ p := hgap.mul hψ
    have hψ2 : Measurable fun p : S × (Fin n → ℝ) => ψ (p, p.2) := by fun_prop
    have hm2 : Measurable fun p : S × (Fin n → ℝ) => ENNReal.ofReal (Real.exp
        (Spec.DataOp.logp (.meas m C' h' R' y) p.2 p.2 - Spec.DataOp.logp (.meas m C h R y) p.2 p.2)) * ψ (p, p.2) := by
      have h2 : Measurable fun p : S × (Fin n → ℝ) => (Spec.DataOp.logp (.meas m C' h' R' y) p.2 p.2 - Spec.DataOp.logp (.meas m C h R y) p.2 p.2) :=
        Measurable.comp (g := fun p : (Fin n → ℝ) × (Fin n → ℝ) => Spec.DataOp.logp (.meas m C' h' R' y) p.1 p.2 - Spec.DataOp.logp (.meas m C h R y) p.1 p.2)
          (f := fun p : S × (Fin n → ℝ) => (p.2, p.2)) (measurable_gap _ _) (by fun_prop)
      exact (ENNReal.measurable_ofReal.comp (Real.measurable_exp.comp h2)).mul hψ2
    have hG : Measurable fun p : S × (Fin n → ℝ) => Spec.likelihood C h R y p.2 := (measurable_likelihood C h R y).comp measurable_snd
    have hG' : Measurable fun p : S × (Fin n → ℝ) => Spec.likelihood C' h' R' y p.2 := (measurable_likelihood C' h' R' y).comp measurable_snd
    rw [stepLaw2, stepLaw2, lintegral_map hm (by fun_prop), lintegral_map hψ (by fun_prop),
      lintegral_withDensity_eq_lintegral_mul _ hG hm2, lintegral_withDensity_eq_lintegral_mul _ hG' hψ2]
    refine lintegral_congr fun p => ?_
    simp only [Pi.mul_apply]
    rw [← mul_assoc, Spec.likelihood, Spec.likelihood, ← ENNReal.ofReal_mul (Real.exp_pos _).le, ← Real.exp_add]
    simp only [Spec.DataOp.logp]
    congr 3
    rw [sub_sub, sub_sub]
    ring

end tilt


/-! ## The log-ratio of the two complete-data densities, along the record -/

theorem follow_snd {S : Type} [MeasurableSpace S] (l : List (Spec.DataOp n)) (μ : Measure (S × (Fin n → ℝ))) [SFinite μ] :
    (Spec.follow l μ).map Prod.snd = Spec.filtered (μ.map Prod.snd) l := by
  have h := follow_map' l μ (Φ := fun _ : S => ()) measurable_const
  rw [Spec.filtered, Measure.map_map (by fun_prop) (by fun_prop)]
  have e : (fun x : Fin n → ℝ => ((), x)) ∘ (Prod.snd : S × (Fin n → ℝ) → _) = fun p => ((), p.2) := rfl
  rw [e, h, Measure.map_map (by fun_prop) (by fun_prop)]
  rfl

theorem stepLaw2_snd {S S' : Type} [MeasurableSpace S] [MeasurableSpace S'] (op : Spec.DataOp n) (μ : Measure (S × (Fin n → ℝ))) [SFinite μ]
    (ν : Measure (S' × (Fin n → ℝ))) [SFinite ν] (h : μ.map Prod.snd = ν.map Prod.snd) :
    (stepLaw2 op μ).map (fun p => (p.1.2, p.2)) = (stepLaw2 op ν).map (fun p => (p.1.2, p.2)) := by
  have e : ∀ {R : Type} [MeasurableSpace R] (ρ : Measure (R × (Fin n → ℝ))) [SFinite ρ],
      (stepLaw2 op ρ).map (fun p => (p.1.2, p.2)) = (stepLaw2 op ((ρ.map Prod.snd).map fun x => ((), x))).map fun p => (p.1.2, p.2) := by
    intro R _ ρ _
    have := stepLaw2_map op ρ (Φ := fun _ => ()) measurable_const
    rw [Measure.map_map (by fun_prop) (by fun_prop)]
    have e2 : (fun x : Fin n → ℝ => ((), x)) ∘ (Prod.snd : R × (Fin n → ℝ) → _) = fun p => ((), p.2) := rfl
    rw [e2, this, Measure.map_map (by fun_prop) (by fun_prop)]
    rfl
  rw [e μ, e ν, h]

/-- Joint law, under the first model and weighted with the density of the data, of the log-ratio of the two complete-data densities and the state. -/
noncomputable def score : List (Spec.DataOp n) → List (Spec.DataOp n) → Measure (ℝ × (Fin n → ℝ)) → Measure (ℝ × (Fin n → ℝ))
  | op :: l, op' :: l', μ => score l l' ((stepLaw2 op μ).map fun p => (p.1.1 + (op'.logp p.1.2 p.2 - op.logp p.1.2 p.2), p.2))
  | _, _, μ => μ

theorem measurable_gap3 {S : Type} [MeasurableSpace S] (op op' : Spec.DataOp n) :
    Measurable fun p : (S × (Fin n → ℝ)) × (Fin n → ℝ) => op'.logp p.1.2 p.2 - op.logp p.1.2 p.2 :=
  Measurable.comp (g := fun p : (Fin n → ℝ) × (Fin n → ℝ) => op'.logp p.1 p.2 - op.logp p.1 p.2)
    (f := fun p : (S × (Fin n → ℝ)) × (Fin n → ℝ) => (p.1.2, p.2)) (measurable_gap op op') (by fun_prop)

theorem measurable_scoreStep (op op' : Spec.DataOp n) :
    Measurable fun p : (ℝ × (Fin n → ℝ)) × (Fin n → ℝ) => (p.1.1 + (op'.logp p.1.2 p.2 - op.logp p.1.2 p.2), p.2) :=
  Measurable.prodMk (Measurable.add (by fun_prop) (measurable_gap3 op op')) measurable_snd

theorem sfinite_score (l l' : List (Spec.DataOp n)) (μ : Measure (ℝ × (Fin n → ℝ))) [SFinite μ] : SFinite (score l l' μ) := by
  induction l generalizing l' μ with
  | nil => rw [score]; infer_instance; simp
  | cons op l ih =>
    cases l' with
    | nil => rw [score]; infer_instance; simp
    | cons op' l' =>
      rw [score]
      have := sfinite_stepLaw2 op μ
      exact ih _ _

/-- Weighting with `exp` of the first component. -/
noncomputable def tilted (μ : Measure (ℝ × (Fin n → ℝ))) : Measure (ℝ × (Fin n → ℝ)) := μ.withDensity fun p => ENNReal.ofReal (Real.exp p.1)

theorem measurable_expFst {α : Type} [MeasurableSpace α] : Measurable fun p : ℝ × α => ENNReal.ofReal (Real.exp p.1) := by fun_prop

theorem stepLaw2_tilted (op : Spec.DataOp n) (μ : Measure (ℝ × (Fin n → ℝ))) [SFinite μ] :
    stepLaw2 op (tilted μ) = (stepLaw2 op μ).withDensity fun p => ENNReal.ofReal (Real.exp p.1.1) := by
  cases op with
  | move A f Q =>
    have hA : Measurable (fun x : Fin n → ℝ => A *ᵥ x) := Continuous.measurable (by fun_prop)
    rw [stepLaw2, stepLaw2, tilted, prod_withDensity_left measurable_expFst, ← map_withDensity_comp (by fun_prop) (by fun_prop)]
    rfl
  | meas m C h R y =>
    have hG : Measurable fun p : ℝ × (Fin n → ℝ) => Spec.likelihood C h R y p.2 := (measurable_likelihood C h R y).comp measurable_snd
    have hc : (μ.withDensity fun p => ENNReal.ofReal (Real.exp p.1)).withDensity (fun p => Spec.likelihood C h R y p.2) =
        (μ.withDensity fun p => Spec.likelihood C h R y p.2).withDensity fun p => ENNReal.ofReal (Real.exp p.1) := by
      rw [← withDensity_mul _ measurable_expFst hG, mul_comm, withDensity_mul _ hG measurable_expFst]
    rw [stepLaw2, stepLaw2, tilted, ← map_withDensity_comp (by fun_prop) (by fun_prop), hc]
    rfl

theorem score_tilted {l l' : List (Spec.DataOp n)} (hs : Spec.SameData l l') (hg : ∀ op ∈ l, op.Strict) (hg' : ∀ op ∈ l', op.Strict)
    (μ : Measure (ℝ × (Fin n → ℝ))) [SFinite μ] :
    (tilted (score l l' μ)).map Prod.snd = (Spec.follow l' (tilted μ)).map Prod.snd := by
  have key : ∀ (op op' : Spec.DataOp n) (l l' : List (Spec.DataOp n)), Spec.SameData [op] [op'] → op.Strict → op'.Strict →
      (∀ (μ : Measure (ℝ × (Fin n → ℝ))) [SFinite μ], (tilted (score l l' μ)).map Prod.snd = (Spec.follow l' (tilted μ)).map Prod.snd) →
      ∀ (μ : Measure (ℝ × (Fin n → ℝ))) [SFinite μ],
        (tilted (score (op :: l) (op' :: l') μ)).map Prod.snd = (Spec.follow (op' :: l') (tilted μ)).map Prod.snd := by
    intro op op' l l' hop ho ho' ih μ _
    have := sfinite_stepLaw2 op μ
    have hst : SFinite (tilted μ) := by unfold tilted; infer_instance
    have := sfinite_stepLaw2 op' (tilted μ)
    have hst1 : ∀ ρ : Measure (ℝ × (Fin n → ℝ)), SFinite ρ → SFinite (tilted ρ) := fun ρ _ => by unfold tilted; infer_instance
    rw [score, ih, follow_stepLaw2]
    have := hst1 ((stepLaw2 op μ).map fun p => (p.1.1 + (op'.logp p.1.2 p.2 - op.logp p.1.2 p.2), p.2)) inferInstance
    rw [follow_snd, follow_snd]
    congr 1
    refine Measure.ext_of_lintegral _ fun φ hφ => ?_
    have hφ2 : Measurable fun p : ℝ × (Fin n → ℝ) => φ p.2 := by fun_prop
    rw [lintegral_map hφ measurable_snd, tilted, lintegral_withDensity_eq_lintegral_mul _ measurable_expFst hφ2,
      lintegral_map (measurable_expFst.mul hφ2) (measurable_scoreStep op op'), Measure.map_map (by fun_prop) (by fun_prop),
      lintegral_map hφ (by fun_prop), stepLaw2_tilted]
    have hφ3 : Measurable fun p : (ℝ × (Fin n → ℝ)) × (Fin n → ℝ) => φ p.2 := by fun_prop
    have he : Measurable fun p : (ℝ × (Fin n → ℝ)) × (Fin n → ℝ) => ENNReal.ofReal (Real.exp p.1.1) := by fun_prop
    have hψ : Measurable fun p : (ℝ × (Fin n → ℝ)) × (Fin n → ℝ) => ENNReal.ofReal (Real.exp p.1.1) * φ p.2 := he.mul hφ3
    have h1 := lintegral_gap hop ho ho' μ hψ
    have h2 := lintegral_withDensity_eq_lintegral_mul (stepLaw2 op' μ) he hφ3
    refine Eq.trans ?_ (h1.trans h2.symm)
    refine lintegral_congr fun p => ?_
    simp only [Pi.mul_apply]
    rw [← mul_assoc, ← ENNReal.ofReal_mul (Real.exp_pos _).le, ← Real.exp_add, add_comm p.1.1]
  induction hs generalizing μ with
  | nil => rfl
  | @move A f Q A' f' Q' l l' h ih =>
    exact key _ _ l l' (.move .nil) (hg _ (by simp)) (hg' _ (by simp))
      (fun μ _ => ih (fun op ho => hg op (by simp [ho])) (fun op ho => hg' op (by simp [ho])) μ) μ
  | @meas m C h R C' h' R' y l l' hs ih =>
    exact key _ _ l l' (.meas .nil) (hg _ (by simp)) (hg' _ (by simp))
      (fun μ _ => ih (fun op ho => hg op (by simp [ho])) (fun op ho => hg' op (by simp [ho])) μ) μ


/-- The unnormalised expectations of the log-ratios of the steps. -/
noncomputable def gapSum (μ : Measure (Fin n → ℝ)) : List (Spec.DataOp n) → List (Spec.DataOp n) → List (Spec.DataOp n) → ℝ
  | past, op :: l, op' :: l' => ∫ p, (op'.logp p.1 p.2 - op.logp p.1 p.2) ∂(Spec.smoothedPair μ past op l) + gapSum μ (past ++ [op]) l l'
  | _, _, _ => 0

/-- They exist. -/
def GapFin (μ : Measure (Fin n → ℝ)) : List (Spec.DataOp n) → List (Spec.DataOp n) → List (Spec.DataOp n) → Prop
  | past, op :: l, op' :: l' => Integrable (fun p => op'.logp p.1 p.2 - op.logp p.1 p.2) (Spec.smoothedPair μ past op l) ∧
      GapFin μ (past ++ [op]) l l'
  | _, _, _ => True

theorem sfinite_filtered_em (μ : Measure (Fin n → ℝ)) [SFinite μ] (l : List (Spec.DataOp n)) : SFinite (Spec.filtered μ l) := by
  unfold Spec.filtered
  have := sfinite_follow l (μ.map fun x => ((), x))
  infer_instance

theorem follow_app {S : Type} [MeasurableSpace S] (l l' : List (Spec.DataOp n)) (μ : Measure (S × (Fin n → ℝ))) :
    Spec.follow (l ++ l') μ = Spec.follow l' (Spec.follow l μ) := by
  induction l generalizing μ with
  | nil => rfl
  | cons op l ih => cases op <;> simp only [List.cons_append, Spec.follow, ih]

theorem filtered_snoc (μ0 : Measure (Fin n → ℝ)) [SFinite μ0] (past : List (Spec.DataOp n)) (op : Spec.DataOp n) {S : Type} [MeasurableSpace S]
    (μ : Measure (S × (Fin n → ℝ))) [SFinite μ] (hμ : μ.map Prod.snd = Spec.filtered μ0 past) :
    (stepLaw2 op μ).map Prod.snd = Spec.filtered μ0 (past ++ [op]) := by
  have := sfinite_follow past (μ0.map fun x => ((), x))
  have := sfinite_stepLaw2 op (Spec.follow past (μ0.map fun x => ((), x)))
  have := sfinite_stepLaw2 op μ
  have h := stepLaw2_snd op μ (Spec.follow past (μ0.map fun x => ((), x))) hμ
  have h2 := congrArg (fun ρ => Measure.map Prod.snd ρ) h
  rw [Measure.map_map (by fun_prop) (by fun_prop), Measure.map_map (by fun_prop) (by fun_prop)] at h2
  rw [Spec.filtered, follow_app, follow_stepLaw2, Spec.follow, Measure.map_map (by fun_prop) (by fun_prop)]
  exact h2

theorem smoothedPair_stepLaw2 (μ0 : Measure (Fin n → ℝ)) [SFinite μ0] (past : List (Spec.DataOp n)) (op : Spec.DataOp n)
    (l : List (Spec.DataOp n)) {S : Type} [MeasurableSpace S] (μ : Measure (S × (Fin n → ℝ))) [SFinite μ]
    (hμ : μ.map Prod.snd = Spec.filtered μ0 past) :
    (Spec.follow l ((stepLaw2 op μ).map fun p => ((p.1.2, p.2), p.2))).map Prod.fst = Spec.smoothedPair μ0 past op l := by
  have := sfinite_filtered_em μ0 past
  have : SFinite (Spec.remember (Spec.filtered μ0 past)) := by unfold Spec.remember; infer_instance
  have := sfinite_stepLaw2 op μ
  have := sfinite_stepLaw2 op (Spec.remember (Spec.filtered μ0 past))
  rw [Spec.smoothedPair, follow_stepLaw2, Spec.follow, Measure.map_map (by fun_prop) (by fun_prop)]
  congr 2
  have e : Spec.remember (Spec.filtered μ0 past) = μ.map fun p => (p.2, p.2) := by
    rw [Spec.remember, ← hμ, Measure.map_map (by fun_prop) (by fun_prop)]; rfl
  rw [e, stepLaw2_map op μ (Φ := Prod.snd) measurable_snd, Measure.map_map (by fun_prop) (by fun_prop)]
  rfl

theorem score_mean (μ0 : Measure (Fin n → ℝ)) [SFinite μ0] (l l' past : List (Spec.DataOp n)) (hs : Spec.SameData l l')
    (hf : GapFin μ0 past l l') (μ : Measure (ℝ × (Fin n → ℝ))) [SFinite μ] (hμ : μ.map Prod.snd = Spec.filtered μ0 past)
    (hi : Integrable Prod.fst (Spec.follow l μ)) :
    Integrable Prod.fst (score l l' μ) ∧ ∫ p, p.1 ∂(score l l' μ) = ∫ p, p.1 ∂(Spec.follow l μ) + gapSum μ0 past l l' := by
  have key : ∀ (op op' : Spec.DataOp n) (l l' : List (Spec.DataOp n)),
      (∀ (past : List (Spec.DataOp n)), GapFin μ0 past l l' → ∀ (μ : Measure (ℝ × (Fin n → ℝ))) [SFinite μ],
        μ.map Prod.snd = Spec.filtered μ0 past → Integrable Prod.fst (Spec.follow l μ) →
        Integrable Prod.fst (score l l' μ) ∧ ∫ p, p.1 ∂(score l l' μ) = ∫ p, p.1 ∂(Spec.follow l μ) + gapSum μ0 past l l') →
      ∀ (past : List (Spec.DataOp n)), GapFin μ0 past (op :: l) (op' :: l') → ∀ (μ : Measure (ℝ × (Fin n → ℝ))) [SFinite μ],
        μ.map Prod.snd = Spec.filtered μ0 past → Integrable Prod.fst (Spec.follow (op :: l) μ) →
        Integrable Prod.fst (score (op :: l) (op' :: l') μ) ∧
          ∫ p, p.1 ∂(score (op :: l) (op' :: l') μ) = ∫ p, p.1 ∂(Spec.follow (op :: l) μ) + gapSum μ0 past (op :: l) (op' :: l') := by
    intro op op' l l' ih past hf μ _ hμ hi
    have := sfinite_stepLaw2 op μ
    obtain ⟨hf1, hf2⟩ := hf
    obtain ⟨ρ, hρ⟩ : ∃ ρ, ρ = (stepLaw2 op μ).map fun p => ((p.1.1, p.1.2, p.2), p.2) := ⟨_, rfl⟩
    have : SFinite ρ := by rw [hρ]; infer_instance
    have := sfinite_follow l ρ
    have hgap := measurable_gap op op'
    have hΦ : Measurable fun q : ℝ × (Fin n → ℝ) × (Fin n → ℝ) => q.1 + (op'.logp q.2.1 q.2.2 - op.logp q.2.1 q.2.2) :=
      Measurable.add measurable_fst (Measurable.comp (g := fun p : (Fin n → ℝ) × (Fin n → ℝ) => op'.logp p.1 p.2 - op.logp p.1 p.2)
        (f := fun q : ℝ × (Fin n → ℝ) × (Fin n → ℝ) => q.2) hgap measurable_snd)
    have hmΦ : Measurable fun p : (ℝ × (Fin n → ℝ) × (Fin n → ℝ)) × (Fin n → ℝ) =>
        (p.1.1 + (op'.logp p.1.2.1 p.1.2.2 - op.logp p.1.2.1 p.1.2.2), p.2) :=
      Measurable.prodMk (hΦ.comp measurable_fst) measurable_snd
    -- the three things that can be remembered
    have e1 : Spec.follow l ((stepLaw2 op μ).map fun p => (p.1.1 + (op'.logp p.1.2 p.2 - op.logp p.1.2 p.2), p.2)) =
        (Spec.follow l ρ).map fun p => (p.1.1 + (op'.logp p.1.2.1 p.1.2.2 - op.logp p.1.2.1 p.1.2.2), p.2) := by
      rw [← follow_map' l ρ hΦ, hρ, Measure.map_map hmΦ (by fun_prop)]
      rfl
    have e2 : Spec.follow (op :: l) μ = (Spec.follow l ρ).map fun p => (p.1.1, p.2) := by
      rw [follow_stepLaw2, ← follow_map' l ρ (Φ := fun q => q.1) measurable_fst, hρ, Measure.map_map (by fun_prop) (by fun_prop)]
      rfl
    have e3 : Spec.smoothedPair μ0 past op l = (Spec.follow l ρ).map fun p => p.1.2 := by
      have h3 : ((stepLaw2 op μ).map fun p => ((p.1.2, p.2), p.2)) = ρ.map fun p => (p.1.2, p.2) := by
        rw [hρ, Measure.map_map (by fun_prop) (by fun_prop)]; rfl
      rw [← smoothedPair_stepLaw2 μ0 past op l μ hμ, h3, follow_map' l ρ (Φ := fun q => q.2) measurable_snd,
        Measure.map_map (by fun_prop) (by fun_prop)]
      rfl
    have i1 : Integrable (fun p : (ℝ × (Fin n → ℝ) × (Fin n → ℝ)) × (Fin n → ℝ) => p.1.1) (Spec.follow l ρ) := by
      rw [e2, integrable_map_measure (by fun_prop) (by fun_prop)] at hi
      exact hi
    have i2 : Integrable (fun p : (ℝ × (Fin n → ℝ) × (Fin n → ℝ)) × (Fin n → ℝ) =>
        op'.logp p.1.2.1 p.1.2.2 - op.logp p.1.2.1 p.1.2.2) (Spec.follow l ρ) := by
      rw [e3, integrable_map_measure hgap.aestronglyMeasurable (by fun_prop)] at hf1
      exact hf1
    have hi' : Integrable Prod.fst
        (Spec.follow l ((stepLaw2 op μ).map fun p => (p.1.1 + (op'.logp p.1.2 p.2 - op.logp p.1.2 p.2), p.2))) := by
      rw [e1, integrable_map_measure (by fun_prop) hmΦ.aemeasurable]
      exact i1.add i2
    have hsnd : ((stepLaw2 op μ).map fun p => (p.1.1 + (op'.logp p.1.2 p.2 - op.logp p.1.2 p.2), p.2)).map Prod.snd =
        Spec.filtered μ0 (past ++ [op]) := by
      rw [Measure.map_map measurable_snd (measurable_scoreStep op op'), ← filtered_snoc μ0 past op μ hμ]
      rfl
    obtain ⟨g1, g2⟩ := ih (past ++ [op]) hf2 _ hsnd hi'
    refine ⟨g1, ?_⟩
    have a1 : ∫ p, p.1 ∂(Spec.follow l ((stepLaw2 op μ).map fun p => (p.1.1 + (op'.logp p.1.2 p.2 - op.logp p.1.2 p.2), p.2))) =
        ∫ p, p.1.1 ∂(Spec.follow l ρ) + ∫ p, (op'.logp p.1.2.1 p.1.2.2 - op.logp p.1.2.1 p.1.2.2) ∂(Spec.follow l ρ) := by
      rw [e1, integral_map hmΦ.aemeasurable (by fun_prop)]
      exact integral_add i1 i2
    have a2 : ∫ p, p.1 ∂(Spec.follow (op :: l) μ) = ∫ p, p.1.1 ∂(Spec.follow l ρ) := by
      rw [e2, integral_map (by fun_prop) (by fun_prop)]
    have a3 : ∫ p, (op'.logp p.1 p.2 - op.logp p.1 p.2) ∂(Spec.smoothedPair μ0 past op l) =
        ∫ p, (op'.logp p.1.2.1 p.1.2.2 - op.logp p.1.2.1 p.1.2.2) ∂(Spec.follow l ρ) := by
      rw [e3, integral_map (by fun_prop) hgap.aestronglyMeasurable]
    rw [score, g2, a1, a2, gapSum, a3]
    ring
  induction hs generalizing past μ with
  | nil => exact ⟨hi, by simp [score, Spec.follow, gapSum]⟩
  | move h ih => exact key _ _ _ _ (fun past hf μ _ hμ hi => ih past hf μ hμ hi) past hf μ hμ hi
  | meas h ih => exact key _ _ _ _ (fun past hf μ _ hμ hi => ih past hf μ hμ hi) past hf μ hμ hi

/-- Jensen's inequality for the exponential, tangent form. -/
theorem exp_mean_le {α : Type} [MeasurableSpace α] (W : Measure α) [IsFiniteMeasure W] (hW : 0 < W.real Set.univ) {g : α → ℝ}
    (hg : Integrable g W) (he : Integrable (fun x => Real.exp (g x)) W) :
    Real.exp ((∫ x, g x ∂W) / W.real Set.univ) * W.real Set.univ ≤ ∫ x, Real.exp (g x) ∂W := by
  set c := (∫ x, g x ∂W) / W.real Set.univ with hc
  have h1 : ∫ x, Real.exp c * (1 + (g x - c)) ∂W ≤ ∫ x, Real.exp (g x) ∂W := by
    refine integral_mono (((integrable_const 1).add (hg.sub (integrable_const c))).const_mul _) he fun x => ?_
    have := Real.add_one_le_exp (g x - c)
    calc Real.exp c * (1 + (g x - c)) ≤ Real.exp c * Real.exp (g x - c) := by
          refine mul_le_mul_of_nonneg_left (by linarith) (Real.exp_pos _).le
      _ = Real.exp (g x) := by rw [← Real.exp_add]; congr 1; ring
  refine le_trans (le_of_eq ?_) h1
  have i2 : Integrable (fun x => g x - c) W := hg.sub (integrable_const c)
  rw [integral_const_mul, integral_add (integrable_const 1) i2, integral_sub hg (integrable_const c), integral_const, integral_const]
  simp only [smul_eq_mul, mul_one]
  have : W.real Set.univ * c = ∫ x, g x ∂W := by rw [hc]; field_simp
  rw [this]; ring


/-! ## Masses and moments of the smoothing laws -/

theorem filtered_app (μ0 : Measure (Fin n → ℝ)) [SFinite μ0] (a b : List (Spec.DataOp n)) :
    Spec.filtered μ0 (a ++ b) = Spec.filtered (Spec.filtered μ0 a) b := by
  have := sfinite_follow a (μ0.map fun x => ((), x))
  rw [Spec.filtered, follow_app, follow_snd]
  rfl

theorem filtered_nil (μ0 : Measure (Fin n → ℝ)) : Spec.filtered μ0 [] = μ0 := by
  rw [Spec.filtered, Spec.follow, Measure.map_map (by fun_prop) (by fun_prop)]
  exact Measure.map_id

theorem smoothedPair_fst (μ0 : Measure (Fin n → ℝ)) [SFinite μ0] (past : List (Spec.DataOp n)) (op : Spec.DataOp n)
    (l : List (Spec.DataOp n)) : (Spec.smoothedPair μ0 past op l).map Prod.fst = Spec.smoothed μ0 past (op :: l) := by
  have := sfinite_filtered_em μ0 past
  have : SFinite (Spec.remember (Spec.filtered μ0 past)) := by unfold Spec.remember; infer_instance
  have := sfinite_follow [op] (Spec.remember (Spec.filtered μ0 past))
  have := sfinite_follow l ((Spec.follow [op] (Spec.remember (Spec.filtered μ0 past))).map fun p => (p, p.2))
  have h := follow_map' l ((Spec.follow [op] (Spec.remember (Spec.filtered μ0 past))).map fun p => (p, p.2))
    (Φ := fun p : (Fin n → ℝ) × (Fin n → ℝ) => p.1) measurable_fst
  rw [Measure.map_map (by fun_prop) (by fun_prop)] at h
  have e : (fun p : ((Fin n → ℝ) × (Fin n → ℝ)) × (Fin n → ℝ) => (p.1.1, p.2)) ∘ (fun p : (Fin n → ℝ) × (Fin n → ℝ) => (p, p.2)) = id := rfl
  rw [e, Measure.map_id, ← follow_app] at h
  rw [Spec.smoothedPair, Measure.map_map (by fun_prop) (by fun_prop), Spec.smoothed, List.singleton_append] at *
  rw [h, Measure.map_map (by fun_prop) (by fun_prop)]
  rfl

theorem smoothedPair_snd (μ0 : Measure (Fin n → ℝ)) [SFinite μ0] (past : List (Spec.DataOp n)) (op : Spec.DataOp n)
    (l : List (Spec.DataOp n)) : (Spec.smoothedPair μ0 past op l).map Prod.snd = Spec.smoothed μ0 (past ++ [op]) l := by
  have := sfinite_filtered_em μ0 past
  have : SFinite (Spec.remember (Spec.filtered μ0 past)) := by unfold Spec.remember; infer_instance
  have := sfinite_follow [op] (Spec.remember (Spec.filtered μ0 past))
  have := sfinite_follow l ((Spec.follow [op] (Spec.remember (Spec.filtered μ0 past))).map fun p => (p, p.2))
  have h := follow_map' l ((Spec.follow [op] (Spec.remember (Spec.filtered μ0 past))).map fun p => (p, p.2))
    (Φ := fun p : (Fin n → ℝ) × (Fin n → ℝ) => p.2) measurable_snd
  rw [Measure.map_map (by fun_prop) (by fun_prop)] at h
  have e : Spec.remember (Spec.filtered μ0 (past ++ [op])) = (Spec.follow [op] (Spec.remember (Spec.filtered μ0 past))).map
      ((fun p : ((Fin n → ℝ) × (Fin n → ℝ)) × (Fin n → ℝ) => (p.1.2, p.2)) ∘ fun p : (Fin n → ℝ) × (Fin n → ℝ) => (p, p.2)) := by
    have e2 : (Spec.remember (Spec.filtered μ0 past)).map Prod.snd = Spec.filtered μ0 past := by
      rw [Spec.remember, Measure.map_map (by fun_prop) (by fun_prop)]
      exact Measure.map_id
    rw [filtered_app, ← e2, ← follow_snd, Spec.remember, Measure.map_map (by fun_prop) (by fun_prop), e2]
    rfl
  rw [Spec.smoothedPair, Measure.map_map (by fun_prop) (by fun_prop), Spec.smoothed, e, h, Measure.map_map (by fun_prop) (by fun_prop)]
  rfl

theorem smoothed_mass (μ0 : Measure (Fin n → ℝ)) [SFinite μ0] (past l : List (Spec.DataOp n)) :
    Spec.smoothed μ0 past l Set.univ = Spec.filtered μ0 (past ++ l) Set.univ := by
  have := sfinite_filtered_em μ0 past
  have : SFinite (Spec.remember (Spec.filtered μ0 past)) := by unfold Spec.remember; infer_instance
  have e2 : (Spec.remember (Spec.filtered μ0 past)).map Prod.snd = Spec.filtered μ0 past := by
    rw [Spec.remember, Measure.map_map (by fun_prop) (by fun_prop)]
    exact Measure.map_id
  rw [filtered_app, ← e2, ← follow_snd, Spec.smoothed, Measure.map_apply measurable_fst .univ, Measure.map_apply measurable_snd .univ]
  rfl

theorem smoothedPair_mass (μ0 : Measure (Fin n → ℝ)) [SFinite μ0] (past : List (Spec.DataOp n)) (op : Spec.DataOp n)
    (l : List (Spec.DataOp n)) : Spec.smoothedPair μ0 past op l Set.univ = Spec.filtered μ0 (past ++ op :: l) Set.univ := by
  rw [← smoothed_mass, ← smoothedPair_fst, Measure.map_apply measurable_fst .univ]
  rfl

/-- A log-density of square integrable errors is integrable. -/
theorem integrable_logNormal {α : Type} [MeasurableSpace α] {W : Measure α} [IsFiniteMeasure W] {k : ℕ} (S : Matrix (Fin k) (Fin k) ℝ)
    {e : α → Fin k → ℝ} (he : ∀ i, MemLp (fun x => e x i) 2 W) : Integrable (fun x => Spec.logNormal S (e x)) W := by
  unfold Spec.logNormal
  refine (integrable_const _).sub (Integrable.const_mul ?_ _)
  simp only [dotProduct, mulVec, Finset.mul_sum]
  refine integrable_finsetSum _ fun i _ => integrable_finsetSum _ fun j _ => ?_
  have := ((he i).integrable_mul (he j)).const_mul (S⁻¹ i j)
  refine this.congr (.of_forall fun x => ?_)
  simp only [Pi.mul_apply]; ring

theorem memLp_affine {α : Type} [MeasurableSpace α] {W : Measure α} [IsFiniteMeasure W] {k : ℕ} {x : α → Fin n → ℝ}
    (hx : ∀ i, MemLp (fun a => x a i) 2 W) (A : Matrix (Fin k) (Fin n) ℝ) (f : Fin k → ℝ) (i : Fin k) :
    MemLp (fun a => (A *ᵥ x a + f) i) 2 W := by
  have h : MemLp (fun a => ∑ j, A i j * x a j) 2 W := memLp_finsetSum _ fun j _ => (hx j).const_mul (A i j)
  exact h.add (memLp_const (f i))

theorem integrable_logp {W : Measure ((Fin n → ℝ) × (Fin n → ℝ))} [IsFiniteMeasure W] (h1 : ∀ i, MemLp (fun p => p.1 i) 2 W)
    (h2 : ∀ i, MemLp (fun p => p.2 i) 2 W) (op : Spec.DataOp n) : Integrable (fun p => op.logp p.1 p.2) W := by
  cases op with
  | move A f Q => exact integrable_logNormal Q fun i => (h2 i).sub (memLp_affine h1 A f i)
  | meas m C h R y => exact integrable_logNormal R fun i => (memLp_const (y i)).sub (memLp_affine h1 C h i)


section moments
variable {z0 : Fin n → ℝ} {P0 : Matrix (Fin n) (Fin n) ℝ} (hP0 : P0.PosSemidef)
include hP0

theorem filtered_mass (l : List (Spec.DataOp n)) (hl : ∀ op ∈ l, op.Good) {z P ll} (h : kfData z0 P0 l = .ok (z, P, ll)) :
    Spec.filtered (Spec.gauss z0 P0) l Set.univ = ENNReal.ofReal (Real.exp ll) := by
  obtain ⟨z', P', ll', h1, -, h3⟩ := filtered_eq z0 P0 hP0 l hl
  cases h.symm.trans h1
  rw [h3]
  simp

theorem smoothed_memLp (past l : List (Spec.DataOp n)) (hl : ∀ op ∈ past ++ l, op.Good) (hs : ∀ op ∈ past ++ l, op.Strict) (i : Fin n) :
    MemLp (fun x => x i) 2 (Spec.smoothed (Spec.gauss z0 P0) past l) := by
  obtain ⟨z, P, ll, h1, h2⟩ := C71_smoother_exact z0 P0 hP0 past l hl
  obtain ⟨z', P', ll', g1, r, g2⟩ := C71_smoother_succeeds z0 P0 hP0 past l hl fun op ho => hs op (List.mem_append_right _ ho)
  cases h1.symm.trans g1
  rcases h2 with h2 | ⟨zs, Ps, zT, PT, llT, -, -, -, h3⟩
  · cases h2.symm.trans g2
  · rw [h3]
    exact (gauss_memLp zs Ps i).smul_measure ENNReal.ofReal_ne_top

theorem smoothedPair_memLp (past : List (Spec.DataOp n)) (op : Spec.DataOp n) (l : List (Spec.DataOp n))
    (hl : ∀ o ∈ past ++ op :: l, o.Good) (hs : ∀ o ∈ past ++ op :: l, o.Strict) (i : Fin n) :
    MemLp (fun p => p.1 i) 2 (Spec.smoothedPair (Spec.gauss z0 P0) past op l) ∧
      MemLp (fun p => p.2 i) 2 (Spec.smoothedPair (Spec.gauss z0 P0) past op l) := by
  constructor
  · have h := smoothed_memLp (z0 := z0) hP0 past (op :: l) hl hs i
    rw [← smoothedPair_fst, memLp_map_measure_iff (Measurable.aestronglyMeasurable (by fun_prop)) measurable_fst.aemeasurable] at h
    exact h
  · have h := smoothed_memLp (z0 := z0) hP0 (past ++ [op]) l (by simpa using hl) (by simpa using hs) i
    rw [← smoothedPair_snd, memLp_map_measure_iff (Measurable.aestronglyMeasurable (by fun_prop)) measurable_snd.aemeasurable] at h
    exact h

theorem smoothedPair_integrable (past : List (Spec.DataOp n)) (op : Spec.DataOp n) (l : List (Spec.DataOp n))
    (hl : ∀ o ∈ past ++ op :: l, o.Good) (hs : ∀ o ∈ past ++ op :: l, o.Strict) (op' : Spec.DataOp n) :
    Integrable (fun p => op'.logp p.1 p.2) (Spec.smoothedPair (Spec.gauss z0 P0) past op l) := by
  obtain ⟨z, P, ll, h1, -, -⟩ := filtered_eq z0 P0 hP0 (past ++ op :: l) hl
  have : IsFiniteMeasure (Spec.smoothedPair (Spec.gauss z0 P0) past op l) :=
    ⟨by rw [smoothedPair_mass, filtered_mass hP0 _ hl h1]; exact ENNReal.ofReal_lt_top⟩
  exact integrable_logp (fun i => (smoothedPair_memLp hP0 past op l hl hs i).1) (fun i => (smoothedPair_memLp hP0 past op l hl hs i).2) op'

theorem gapSum_eq {l l' : List (Spec.DataOp n)} (hd : Spec.SameData l l') (past : List (Spec.DataOp n)) (hl : ∀ o ∈ past ++ l, o.Good)
    (hs : ∀ o ∈ past ++ l, o.Strict) {z P ll} (h : kfData z0 P0 (past ++ l) = .ok (z, P, ll)) :
    GapFin (Spec.gauss z0 P0) past l l' ∧ gapSum (Spec.gauss z0 P0) past l l' =
      Real.exp ll * (Spec.emSum (Spec.gauss z0 P0) past l l' - Spec.emSum (Spec.gauss z0 P0) past l l) := by
  have key : ∀ (op op' : Spec.DataOp n) (l l' : List (Spec.DataOp n)),
      (∀ past : List (Spec.DataOp n), (∀ o ∈ past ++ l, o.Good) → (∀ o ∈ past ++ l, o.Strict) → kfData z0 P0 (past ++ l) = .ok (z, P, ll) →
        GapFin (Spec.gauss z0 P0) past l l' ∧ gapSum (Spec.gauss z0 P0) past l l' =
          Real.exp ll * (Spec.emSum (Spec.gauss z0 P0) past l l' - Spec.emSum (Spec.gauss z0 P0) past l l)) →
      ∀ past : List (Spec.DataOp n), (∀ o ∈ past ++ op :: l, o.Good) → (∀ o ∈ past ++ op :: l, o.Strict) →
        kfData z0 P0 (past ++ op :: l) = .ok (z, P, ll) → GapFin (Spec.gauss z0 P0) past (op :: l) (op' :: l') ∧
        gapSum (Spec.gauss z0 P0) past (op :: l) (op' :: l') = Real.exp ll *
          (Spec.emSum (Spec.gauss z0 P0) past (op :: l) (op' :: l') - Spec.emSum (Spec.gauss z0 P0) past (op :: l) (op :: l)) := by
    intro op op' l l' ih past hl hs h
    obtain ⟨g1, g2⟩ := ih (past ++ [op]) (by simpa using hl) (by simpa using hs) (by simpa using h)
    have i1 := smoothedPair_integrable (z0 := z0) hP0 past op l hl hs op
    have i2 := smoothedPair_integrable (z0 := z0) hP0 past op l hl hs op'
    refine ⟨⟨i2.sub i1, g1⟩, ?_⟩
    rw [gapSum, g2, Spec.emSum, Spec.emSum, integral_sub i2 i1, Spec.average, Spec.average, smoothedPair_mass,
      filtered_mass hP0 _ hl h, ENNReal.toReal_ofReal (Real.exp_pos _).le]
    have := (Real.exp_pos ll).ne'
    field_simp
    ring
  induction hd generalizing past with
  | nil => exact ⟨trivial, by simp [gapSum, Spec.emSum]⟩
  | move hd ih => exact key _ _ _ _ (fun past hl hs h => ih past hl hs h) past hl hs h
  | meas hd ih => exact key _ _ _ _ (fun past hl hs h => ih past hl hs h) past hl hs h

end moments

theorem score_snd (l l' : List (Spec.DataOp n)) (hs : Spec.SameData l l') (μ : Measure (ℝ × (Fin n → ℝ))) [SFinite μ] :
    (score l l' μ).map Prod.snd = (Spec.follow l μ).map Prod.snd := by
  have key : ∀ (op op' : Spec.DataOp n) (l l' : List (Spec.DataOp n)),
      (∀ (μ : Measure (ℝ × (Fin n → ℝ))) [SFinite μ], (score l l' μ).map Prod.snd = (Spec.follow l μ).map Prod.snd) →
      ∀ (μ : Measure (ℝ × (Fin n → ℝ))) [SFinite μ], (score (op :: l) (op' :: l') μ).map Prod.snd = (Spec.follow (op :: l) μ).map Prod.snd := by
    intro op op' l l' ih μ _
    have := sfinite_stepLaw2 op μ
    rw [score, ih, follow_stepLaw2, follow_snd, follow_snd, Measure.map_map measurable_snd (measurable_scoreStep op op'),
      Measure.map_map (by fun_prop) (by fun_prop)]
    rfl
  induction hs generalizing μ with
  | nil => rfl
  | move h ih => exact key _ _ _ _ (fun μ _ => ih μ) μ
  | meas h ih => exact key _ _ _ _ (fun μ _ => ih μ) μ

/-- C115, the EM inequality: two linear Gaussian models of one record of data, all noises and initial covariances positive definite. The
log-likelihoods computed by the Kalman filter differ by at least as much as the expected complete-data log-likelihoods under the
smoothing laws of the first model. So parameters with a larger value of the function EM maximises have a larger likelihood. -/
theorem C115_em_inequality (z0 z0' : Fin n → ℝ) {P0 P0' : Matrix (Fin n) (Fin n) ℝ} (hP0 : P0.PosDef) (hP0' : P0'.PosDef)
    {l l' : List (Spec.DataOp n)} (hd : Spec.SameData l l') (hl : ∀ op ∈ l, op.Good ∧ op.Strict) (hl' : ∀ op ∈ l', op.Good ∧ op.Strict) :
    ∃ z P ll z' P' ll', kfData z0 P0 l = .ok (z, P, ll) ∧ kfData z0' P0' l' = .ok (z', P', ll') ∧
      Spec.emQ z0 P0 l z0' P0' l' - Spec.emQ z0 P0 l z0 P0 l ≤ ll' - ll := by
  obtain ⟨z, P, ll, h1, -, -⟩ := filtered_eq z0 P0 hP0.posSemidef l fun op ho => (hl op ho).1
  obtain ⟨z', P', ll', h1', -, -⟩ := filtered_eq z0' P0' hP0'.posSemidef l' fun op ho => (hl' op ho).1
  refine ⟨z, P, ll, z', P', ll', h1, h1', ?_⟩
  have hmass := filtered_mass hP0.posSemidef l (fun op ho => (hl op ho).1) h1
  have hmass' := filtered_mass hP0'.posSemidef l' (fun op ho => (hl' op ho).1) h1'
  -- the start
  obtain ⟨d, hd0⟩ : ∃ d : (Fin n → ℝ) → ℝ, d = fun x => Spec.logNormal P0' (x - z0') - Spec.logNormal P0 (x - z0) := ⟨_, rfl⟩
  have hdm : Measurable d := by
    have e1 := (continuous_logNormal P0).measurable
    have e2 := (continuous_logNormal P0').measurable
    rw [hd0]; fun_prop
  obtain ⟨start, hstart⟩ : ∃ s : Measure (ℝ × (Fin n → ℝ)), s = (Spec.gauss z0 P0).map fun x => (d x, x) := ⟨_, rfl⟩
  have hsf : SFinite start := by rw [hstart]; infer_instance
  have hsnd : start.map Prod.snd = Spec.filtered (Spec.gauss z0 P0) [] := by
    rw [hstart, filtered_nil, Measure.map_map (by fun_prop) (by fun_prop)]
    exact Measure.map_id
  have htilt : (tilted start).map Prod.snd = Spec.gauss z0' P0' := by
    refine Measure.ext_of_lintegral _ fun φ hφ => ?_
    have hφ2 : Measurable fun p : ℝ × (Fin n → ℝ) => φ p.2 := by fun_prop
    have m1 : Measurable fun x : Fin n → ℝ => ENNReal.ofReal (Real.exp (Spec.logNormal P0 (x - z0))) := by
      have := (continuous_logNormal P0).measurable
      fun_prop
    have m2 : Measurable fun x : Fin n → ℝ => ENNReal.ofReal (Real.exp (Spec.logNormal P0' (x - z0'))) := by
      have := (continuous_logNormal P0').measurable
      fun_prop
    have m3 : Measurable fun x : Fin n → ℝ => ENNReal.ofReal (Real.exp (d x)) * φ x := by fun_prop
    rw [lintegral_map hφ measurable_snd, tilted, lintegral_withDensity_eq_lintegral_mul _ measurable_expFst hφ2, hstart,
      lintegral_map (measurable_expFst.mul hφ2) (by fun_prop)]
    have e1 := lintegral_withDensity_eq_lintegral_mul (volume : Measure (Fin n → ℝ)) m1 m3
    have e2 := lintegral_withDensity_eq_lintegral_mul (volume : Measure (Fin n → ℝ)) m2 hφ
    rw [← gauss_density hP0] at e1
    rw [← gauss_density hP0'] at e2
    refine Eq.trans ?_ (e1.trans (Eq.trans ?_ e2.symm))
    · rfl
    · refine lintegral_congr fun x => ?_
      simp only [Pi.mul_apply]
      rw [← mul_assoc, ← ENNReal.ofReal_mul (Real.exp_pos _).le, ← Real.exp_add, hd0]
      congr 3
      ring
  -- the mean of the first log-ratio
  have hrem : SFinite (Spec.remember (Spec.gauss z0 P0)) := by unfold Spec.remember; infer_instance
  have hfol : Spec.follow l start = (Spec.follow l (Spec.remember (Spec.gauss z0 P0))).map fun p => (d p.1, p.2) := by
    rw [← follow_map' l _ hdm, hstart, Spec.remember, Measure.map_map (by fun_prop) (by fun_prop)]
    rfl
  have hsm : Spec.smoothed (Spec.gauss z0 P0) [] l = (Spec.follow l (Spec.remember (Spec.gauss z0 P0))).map Prod.fst := by
    rw [Spec.smoothed, filtered_nil]
  have hfin : IsFiniteMeasure (Spec.smoothed (Spec.gauss z0 P0) [] l) :=
    ⟨by rw [smoothed_mass, List.nil_append, hmass]; exact ENNReal.ofReal_lt_top⟩
  have hmem := fun i => smoothed_memLp (z0 := z0) hP0.posSemidef [] l (fun op ho => (hl op ho).1) (fun op ho => (hl op ho).2) i
  have i1 : Integrable (fun x => Spec.logNormal P0 (x - z0)) (Spec.smoothed (Spec.gauss z0 P0) [] l) :=
    integrable_logNormal P0 fun i => (hmem i).sub (memLp_const (z0 i))
  have i2 : Integrable (fun x => Spec.logNormal P0' (x - z0')) (Spec.smoothed (Spec.gauss z0 P0) [] l) :=
    integrable_logNormal P0' fun i => (hmem i).sub (memLp_const (z0' i))
  have i3 : Integrable d (Spec.smoothed (Spec.gauss z0 P0) [] l) := by rw [hd0]; exact i2.sub i1
  have hi : Integrable Prod.fst (Spec.follow l start) := by
    rw [hfol, integrable_map_measure (by fun_prop) (by fun_prop)]
    rw [hsm, integrable_map_measure (by fun_prop) (by fun_prop)] at i3
    exact i3
  have a1 : ∫ p, p.1 ∂(Spec.follow l start) = ∫ x, d x ∂(Spec.smoothed (Spec.gauss z0 P0) [] l) := by
    rw [hfol, hsm, integral_map (by fun_prop) (by fun_prop), integral_map (by fun_prop) (by fun_prop)]
  obtain ⟨gf, gs⟩ := gapSum_eq (z0 := z0) hP0.posSemidef hd [] (fun op ho => (hl op ho).1) (fun op ho => (hl op ho).2) h1
  obtain ⟨j1, j2⟩ := score_mean (Spec.gauss z0 P0) l l' [] hd gf start hsnd hi
  -- the masses
  have := sfinite_score l l' start
  obtain ⟨W, hW⟩ : ∃ W, W = score l l' start := ⟨_, rfl⟩
  have wm : W Set.univ = ENNReal.ofReal (Real.exp ll) := by
    have e := congrArg (fun ρ => ρ Set.univ) (score_snd l l' hd start)
    simp only [follow_snd, hsnd, filtered_nil, hmass] at e
    rw [Measure.map_apply measurable_snd .univ] at e
    rw [hW]; exact e
  have hWf : IsFiniteMeasure W := ⟨by rw [wm]; exact ENNReal.ofReal_lt_top⟩
  have wr : W.real Set.univ = Real.exp ll := by rw [Measure.real, wm, ENNReal.toReal_ofReal (Real.exp_pos _).le]
  have wt : ∫⁻ p, ENNReal.ofReal (Real.exp p.1) ∂W = ENNReal.ofReal (Real.exp ll') := by
    have hst : SFinite (tilted start) := by unfold tilted; infer_instance
    have e := congrArg (fun ρ => ρ Set.univ) (score_tilted hd (fun op ho => (hl op ho).2) (fun op ho => (hl' op ho).2) start)
    simp only [follow_snd, htilt, hmass'] at e
    rw [Measure.map_apply measurable_snd .univ, tilted, ← hW, Set.preimage_univ, withDensity_apply _ .univ, Measure.restrict_univ] at e
    exact e
  have he : Integrable (fun p : ℝ × (Fin n → ℝ) => Real.exp p.1) W := by
    refine ⟨by fun_prop, ?_⟩
    rw [hasFiniteIntegral_iff_ofReal (.of_forall fun p => (Real.exp_pos _).le), wt]
    exact ENNReal.ofReal_lt_top
  have hei : ∫ p, Real.exp p.1 ∂W = Real.exp ll' := by
    rw [integral_eq_lintegral_of_nonneg_ae (.of_forall fun p => (Real.exp_pos _).le) (by fun_prop), wt,
      ENNReal.toReal_ofReal (Real.exp_pos _).le]
  rw [← hW] at j1 j2
  have hJ := exp_mean_le W (by rw [wr]; exact Real.exp_pos _) j1 he
  rw [hei, wr, ← Real.exp_add, Real.exp_le_exp, j2, a1, gs] at hJ
  have hdi : ∫ x, d x ∂(Spec.smoothed (Spec.gauss z0 P0) [] l) = Real.exp ll *
      (Spec.average (Spec.smoothed (Spec.gauss z0 P0) [] l) (fun x => Spec.logNormal P0' (x - z0')) -
        Spec.average (Spec.smoothed (Spec.gauss z0 P0) [] l) (fun x => Spec.logNormal P0 (x - z0))) := by
    rw [Spec.average, Spec.average, smoothed_mass, List.nil_append, hmass, ENNReal.toReal_ofReal (Real.exp_pos _).le, hd0, integral_sub i2 i1]
    have := (Real.exp_pos ll).ne'
    field_simp
  rw [hdi, ← mul_add, mul_div_cancel_left₀ _ (Real.exp_pos ll).ne'] at hJ
  unfold Spec.emQ
  linarith

end PyPE

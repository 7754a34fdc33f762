import Verif.Models.MlSmooth

/-!
# A small Rao-Blackwellised model meeting the hypotheses of C50, C72 - C75

`xi' = xi z + xi + vxi`, `z' = z/2 + vz`, `y = z + xi + e`; `Axi`, `fxi`, `Qz`, `h` are computed per particle, the rest are constants of the object;
the noises are correlated.
-/

open MeasureTheory ProbabilityTheory Matrix
namespace PyPE

/-- The overridable methods. -/
noncomputable def mlToyH : MlHooks 1 1 1 ℝ ℕ ℝ where
  nonlin xs _ _ := (some (xs.map fun x => !![x 0]), some (xs.map fun x => x), none)
  lin xs _ _ := (none, none, some (xs.map fun x => !![x 0 ^ 2 + 1]))
  meas xs y _ := (fun _ => y, none, some (xs.map fun x => x), none)
  cross _ _ _ := none

/-- The object. -/
noncomputable def mlToyO : MlObj 1 1 1 :=
  MlObj.init (some !![1 / 2]) (some !![1]) none (some !![1]) (some 0) none (some !![2]) (some !![1 / 2]) none none

/-- The model on paper. -/
noncomputable def mlToyM : Spec.RbModel 1 1 1 ℝ ℕ ℝ where
  Axi x _ _ := !![x 0]
  fxi x _ _ := x
  Qxi _ _ _ := !![2]
  Az _ _ _ := !![1 / 2]
  fz _ _ _ := 0
  Qz x _ _ := !![x 0 ^ 2 + 1]
  Qxiz _ _ _ := !![1 / 2]
  C _ _ _ := !![1]
  h x _ _ := x
  R _ _ _ := !![1]
  y y _ := fun _ => y

theorem mlToy_describes : Spec.RbDescribes mlToyH mlToyO mlToyM := by
  constructor <;> intros <;> simp_all [Spec.Gives, Spec.GivesOrZero, mlToyH, mlToyO, mlToyM, MlObj.init, KF.new, KF.setDynamics]

theorem mlToy_Qz (x : VecR 1) (u : ℝ) (t : ℕ) : (mlToyM.Qz x u t).PosDef := posDef_one_iff.2 (by simp [mlToyM]; positivity)

theorem mlToy_good : mlToyM.Good :=
  ⟨fun _ _ _ => posDef_one_iff.2 (by simp [mlToyM]), fun _ _ _ => (mlToy_Qz _ _ _).posSemidef,
    fun _ _ _ => posDef_one_iff.2 (by simp [mlToyM])⟩

theorem mlToy_stQ (x : VecR 1) (u : ℝ) (t : ℕ) : (mlToyM.stQ x u t).PosDef := by
  refine Matrix.PosDef.of_dotProduct_mulVec_pos ?_ fun v hv => ?_
  · ext i j
    fin_cases i <;> fin_cases j <;> simp [Spec.RbModel.stQ, stackQ, mlToyM, finSumFinEquiv, Fin.addCases]
  · have hq : star v ⬝ᵥ mlToyM.stQ x u t *ᵥ v = 2 * v 0 ^ 2 + v 0 * v 1 + (x 0 ^ 2 + 1) * v 1 ^ 2 := by
      change star v ⬝ᵥ (mlToyM.stQ x u t : Matrix (Fin 2) (Fin 2) ℝ) *ᵥ v = _
      simp [Matrix.mulVec, dotProduct, Fin.sum_univ_two, Spec.RbModel.stQ, stackQ, mlToyM, finSumFinEquiv, Fin.addCases]
      ring
    rw [hq]
    by_cases h0 : v 0 = 0
    · have h1 : v 1 ≠ 0 := fun h1 => hv (by funext i; fin_cases i; exacts [h0, h1])
      have h2 : 0 < (x 0 ^ 2 + 1) * v 1 ^ 2 := by positivity
      rw [h0]
      linarith
    · have : 0 < v 0 ^ 2 := by positivity
      nlinarith [sq_nonneg (v 0 + 2 * v 1), sq_nonneg (v 1), mul_nonneg (sq_nonneg (x 0)) (sq_nonneg (v 1)), sq_nonneg (v 0 + v 1)]

/-- The hypotheses of C50, C72, C74 and C75 are met by two particles with different nonlinear states. -/
noncomputable def mlToyParts : List (RbP 1 1) := [(fun _ => 1, fun _ => 2, !![1]), (fun _ => 3, fun _ => 0, !![0])]

theorem mlToyParts_psd : ∀ p ∈ mlToyParts, p.2.2.PosSemidef := by
  simp only [mlToyParts, List.mem_cons, List.not_mem_nil, or_false]
  rintro p (rfl | rfl)
  · exact (posDef_one_iff.2 (by simp)).posSemidef
  · have : (!![0] : MatR 1 1) = 0 := by ext i j; fin_cases i; fin_cases j; rfl
    rw [this]; exact PosSemidef.zero

/-- C50: hypotheses met, the noises are correlated and the conditional covariance is a covariance. -/
example : (∃ dyn, mlCondDyn mlToyH mlToyO mlToyParts [0, 1] 0 0 = .ok dyn) ∧ mlToyM.Qxiz 0 0 0 ≠ 0 ∧
    ∀ x, (mlToyM.Qz x 0 0 - (mlToyM.Qxiz x 0 0)ᵀ * (mlToyM.Qxi x 0 0)⁻¹ * mlToyM.Qxiz x 0 0).PosSemidef := by
  refine ⟨?_, ?_, fun x => ?_⟩
  · obtain ⟨d, h, -⟩ := C50_cond_dynamics mlToy_describes mlToy_good mlToyParts [0, 1] rfl 0 0
    exact ⟨d, h⟩
  · intro h
    have := congrFun (congrFun h 0) 0
    simp [mlToyM] at this
  · refine (posDef_one_iff.2 ?_).posSemidef
    simp [mlToyM, Matrix.mul_apply, Matrix.inv_def]
    nlinarith [sq_nonneg (x 0)]

/-- C72, C74, C75: hypotheses met. -/
example : (∃ Ss, mlNoiseCov mlToyH mlToyO mlToyParts 0 0 = .ok Ss) ∧ (∃ r, mlMeasure mlToyH mlToyO mlToyParts 0 0 = .ok r) ∧
    (∃ r, mlLogpXnext mlToyH mlToyO mlToyParts [(0, 1)] 0 0 = .ok r) ∧ (∃ m, mlLogpXnextMax mlToyH mlToyO mlToyParts 0 0 = .ok m) ∧
    (∃ r, mlLogpSingle mlToyH mlToyO mlToyParts [0] [0, 0] 0 0 = .ok r) ∧
    (∃ r, mlSampleSmooth mlToyH mlToyO mlToyParts (some [(0, 1), (1, 0)]) [1, 0] 0 0 = .ok r) := by
  have hne : mlToyParts ≠ [] := by simp [mlToyParts]
  refine ⟨?_, ?_, ?_, ?_, ?_, ?_⟩
  · obtain ⟨S, h, -⟩ := C72_update_exact mlToy_describes mlToy_good mlToyParts mlToyParts_psd 0 0
    exact ⟨S, h⟩
  · obtain ⟨r, ll, h, -⟩ := C72_measure_exact mlToy_describes mlToy_good mlToyParts hne mlToyParts_psd 0 0
    exact ⟨_, h⟩
  · obtain ⟨r, h, -⟩ := C74_logp_xnext mlToy_describes mlToyParts hne mlToyParts_psd 0 0 (fun x => mlToy_stQ x 0 0) [(0, 1)] (.inl rfl)
    exact ⟨_, h⟩
  · obtain ⟨r, h, -⟩ := C74_logp_xnext_max mlToy_describes mlToyParts hne mlToyParts_psd 0 0 (fun x => mlToy_stQ x 0 0)
    exact ⟨_, h⟩
  · obtain ⟨r, h, -⟩ := C74_logp_singlestep mlToy_describes mlToy_good mlToyParts mlToyParts_psd 0 0 [0] [0, 0] rfl (by simp)
    exact ⟨_, h⟩
  · obtain ⟨-, r, h, -⟩ := C75_sample_smooth mlToy_describes mlToy_good mlToy_Qz mlToyParts mlToyParts_psd [(0, 1), (1, 0)] [1, 0] rfl
      (by simp) 0 0
    exact ⟨_, h⟩

/-- C73: two trajectories over two steps, one without measurement; trajectory 1 exists. -/
example : (∃ l, mlPostSmoothing mlToyH mlToyO (fun xs => xs.map fun _ => (0, 1)) ⟨[0, 1], 0, some 1, 0⟩ [⟨[2, 3], 0, none, 1⟩] = .ok l) ∧
    Spec.IsTraj (U := ℝ) (T := ℕ) (Y := ℝ) [⟨[0, 1], 0, some 1, 0⟩, ⟨[2, 3], 0, none, 1⟩] 1
      [⟨(1 : VecR 1), 0, some 1, 0⟩, ⟨3, 0, none, 1⟩] := by
  refine ⟨C73_smoothing_succeeds mlToy_describes mlToy_good mlToy_Qz _ _ _ (by simp) (by simp) (by simp) ?_, by simp [Spec.IsTraj]⟩
  simp only [List.mem_map, List.mem_cons, List.not_mem_nil, or_false]
  rintro q ⟨x, -, rfl⟩
  exact PosSemidef.one

end PyPE

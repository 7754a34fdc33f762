import Verif.Examples.LsbScript
import Verif.Models.MlEmGrad
import Verif.Models.MlBayes
import Mathlib.Analysis.SpecialFunctions.Trigonometric.Arctan

/-!
# C127: the script test/manual/paramest/test_ls2.py

A mixed linear/nonlinear model with five unknown parameters.
-/

namespace PyPE
open Real Spec MeasureTheory ProbabilityTheory Matrix
open scoped ENNReal

variable {U Ω : Type}

/-! ### The model -/

/-- `Axi` (test_ls2.py:67, 130). -/
def ls2Axi (p : Fin 5 → ℝ) : MatR 1 3 := !![p 1, 0, 0]

/-- `Az` (test_ls2.py:68-74, 132-138). -/
noncomputable def ls2Az (p : Fin 5 → ℝ) : MatR 3 3 :=
  !![1, p 2, 0; 0, p 3 * cos (p 4), -(p 3 * sin (p 4)); 0, p 3 * sin (p 4), p 3 * cos (p 4)]

/-- `ParticleLS2.__init__` (test_ls2.py:65-91): the call of the constructor of the base class. -/
noncomputable def ls2Obj (p : Fin 5 → ℝ) : MlObj 1 3 2 :=
  MlObj.init (some (ls2Az p)) (some !![0, 0, 0; 1, -1, 1]) (some ((0.01 : ℝ) • 1)) (some ((0.1 : ℝ) • 1)) none (some (ls2Axi p)) (some !![0.01]) none none none

/-- The initial distribution given to the constructor (test_ls2.py:79-82, 85). -/
def ls2X0 : PyM (MlX0 1 3) := mlX0Init 0 0 (some 1) (some 0)

/-- `set_params` (test_ls2.py:125-160): the call of `set_dynamics`. The attribute `params` is the argument `p` of `ls2Hooks`. -/
noncomputable def ls2SetParams (o : MlObj 1 3 2) (p : Fin 5 → ℝ) : MlObj 1 3 2 :=
  o.setDynamics (some (ls2Az p)) none none none (some (ls2Axi p)) none none none none none

/-- `A_grad` as computed by `set_params` (test_ls2.py:140-159). -/
noncomputable def ls2AGrad (p : Fin 5 → ℝ) : Fin 5 → MatR 4 3 :=
  ![0,
    !![1, 0, 0; 0, 0, 0; 0, 0, 0; 0, 0, 0],
    !![0, 0, 0; 0, 1, 0; 0, 0, 0; 0, 0, 0],
    !![0, 0, 0; 0, 0, 0; 0, cos (p 4), -sin (p 4); 0, sin (p 4), cos (p 4)],
    !![0, 0, 0; 0, 0, 0; 0, -p 3 * sin (p 4), -p 3 * cos (p 4); 0, p 3 * cos (p 4), -p 3 * sin (p 4)]]

/-- `get_nonlin_pred_dynamics`, `get_meas_dynamics` (test_ls2.py:94-105) with `self.params = p`; the measurement is a list of two numbers. -/
noncomputable def ls2Hooks (p : Fin 5 → ℝ) : MlHooks 1 3 2 (Slot U) ℕ (Fin 2 → ℝ) where
  nonlin xs _ _ := (none, some (xs.map fun x => fun _ => p 0 * arctan (x 0)), none)
  lin _ _ _ := (none, none, none)
  meas xs y _ := (y, none, some (xs.map fun x => ![0.1 * |x 0| * x 0, 0]), none)
  cross _ _ _ := none

/-- The second component of `get_pred_dynamics_grad` for one particle (test_ls2.py:118-119). -/
noncomputable def ls2FGrad (x : VecR 1) : Fin 5 → VecR 4 := fun j i => if j = 0 ∧ i = 0 then arctan (x 0) else 0

/-- `get_pred_dynamics_grad` (test_ls2.py:115-122). -/
noncomputable def ls2PredGrad (p : Fin 5 → ℝ) (xs : List (VecR 1)) :
    Option (List (Fin 5 → MatR 4 3)) × Option (List (Fin 5 → VecR 4)) × Option (List (Fin 5 → MatR 4 4)) :=
  (some (List.replicate xs.length (ls2AGrad p)), some (xs.map ls2FGrad), none)

/-! ### Specification -/

/-- The model with parameters `p`: `xi' = p0 arctan(xi) + p1 z0 + v`, `z' = Az(p) z + w`, `y = (0.1 |xi| xi, z0 - z1 + z2) + e` (test_ls2.py:22-62, 76-78). -/
noncomputable def Spec.ls2Model (U : Type) (p : Fin 5 → ℝ) : Spec.RbModel 1 3 2 (Slot U) ℕ (Fin 2 → ℝ) where
  Axi _ _ _ := !![p 1, 0, 0]
  fxi x _ _ := fun _ => p 0 * arctan (x 0)
  Qxi _ _ _ := !![0.01]
  Az _ _ _ := !![1, p 2, 0; 0, p 3 * cos (p 4), -(p 3 * sin (p 4)); 0, p 3 * sin (p 4), p 3 * cos (p 4)]
  fz _ _ _ := 0
  Qz _ _ _ := (0.01 : ℝ) • 1
  Qxiz _ _ _ := 0
  C _ _ _ := !![0, 0, 0; 1, -1, 1]
  h x _ _ := ![0.1 * |x 0| * x 0, 0]
  R _ _ _ := (0.1 : ℝ) • 1
  y y _ := y

/-- One step of `generate_dataset` (test_ls2.py:49-57). -/
noncomputable def Spec.ls2Move (p : Fin 5 → ℝ) (s : VecR 1 × VecR 3) : Measure (VecR 1 × VecR 3) :=
  ((Spec.gauss 0 !![0.01]).prod (Spec.gauss (0 : VecR 3) ((0.01 : ℝ) • (1 : MatR 3 3)))).map fun v =>
    (fun _ => p 0 * arctan (s.1 0) + p 1 * s.2 0 + v.1 0,
      ![s.2 0 + p 2 * s.2 1 + v.2 0, p 3 * (cos (p 4) * s.2 1 - sin (p 4) * s.2 2) + v.2 1, p 3 * (sin (p 4) * s.2 1 + cos (p 4) * s.2 2) + v.2 2])

/-- The log-density of the two measurements (test_ls2.py:22-24, 35, 78). -/
noncomputable def Spec.ls2Loglik : ℕ → Slot (Fin 2 → ℝ) → VecR 1 × VecR 3 → ℝ
  | _, .obj y, s => -(1/2) * (2 * Real.log (2 * Real.pi) + 2 * Real.log 0.1 +
      ((y 0 - 0.1 * |s.1 0| * s.1 0) ^ 2 + (y 1 - (s.2 0 - s.2 1 + s.2 2)) ^ 2) / 0.1)
  | _, _, _ => 0

/-! ### Proof -/

theorem ls2_describes (p : Fin 5 → ℝ) : Spec.RbDescribes (ls2Hooks (U := U) p) (ls2Obj p) (ls2Model U p) := by
  constructor <;> intros <;>
    simp_all [Spec.Gives, Spec.GivesOrZero, ls2Hooks, ls2Obj, ls2Model, MlObj.init, KF.new, KF.setDynamics, ls2Az, ls2Axi]

theorem ls2_good (p : Fin 5 → ℝ) : (ls2Model U p).Good :=
  ⟨fun _ _ _ => single_posDef (by norm_num), fun _ _ _ => PosSemidef.one.smul (by norm_num), fun _ _ _ => PosDef.one.smul (by norm_num)⟩

theorem ls2_joint (p : Fin 5 → ℝ) (t : ℕ) (u : Slot U) (s : VecR 1 × VecR 3) : (ls2Model U p).joint t u s = Spec.ls2Move p s := by
  unfold Spec.RbModel.joint Spec.ls2Move
  show Measure.map _ ((Spec.gauss 0 !![0.01]).prod (Spec.gauss (0 : VecR 3) ((0.01 : ℝ) • (1 : MatR 3 3)))) = _
  congr 1
  funext v
  refine Prod.ext ?_ ?_
  · funext i
    fin_cases i
    simp [ls2Model, Matrix.mulVec, dotProduct, Fin.sum_univ_three]
    ring
  · funext i
    fin_cases i <;> simp [ls2Model, Matrix.mulVec, dotProduct, Fin.sum_univ_three] <;> ring

theorem ls2_loglik (p : Fin 5 → ℝ) : (ls2Model U p).loglik = Spec.ls2Loglik := by
  funext t y s
  cases y with
  | obj y =>
    simp only [Spec.RbModel.loglik, Spec.ls2Loglik, ls2Model, Spec.logNormal]
    have hi : ((0.1 : ℝ) • (1 : MatR 2 2))⁻¹ = (10 : ℝ) • 1 := by
      refine Matrix.inv_eq_right_inv ?_
      rw [Matrix.smul_mul, Matrix.one_mul, smul_smul]
      norm_num
    rw [hi]
    simp [Matrix.mulVec, dotProduct, Fin.sum_univ_three, Fin.sum_univ_two, Matrix.det_smul, Matrix.one_apply, Matrix.vecHead, Matrix.vecTail]
    ring
  | _ => rfl

theorem ls2_loglik_measurable (t : ℕ) (y : Slot (Fin 2 → ℝ)) : Measurable (Spec.ls2Loglik t y) := by
  cases y with
  | obj y => unfold Spec.ls2Loglik; fun_prop
  | _ => exact measurable_const

theorem ls2_kernel (p : Fin 5 → ℝ) : ∃ K : ℕ → Slot U → Kernel (VecR 1 × VecR 3) (VecR 1 × VecR 3), ∀ t u s, K t u s = Spec.ls2Move p s := by
  have hk : ∀ t (u : Slot U), ∃ K : Kernel (VecR 1 × VecR 3) (VecR 1 × VecR 3), ∀ s, K s = (ls2Model U p).joint t u s := fun t u =>
    joint_kernel (ls2Model U p) t u (fun _ => rfl) (fun _ => rfl) (by
      refine Measurable.prodMk (measurable_pi_lambda _ fun i => ?_) (measurable_pi_lambda _ fun i => ?_)
      · simp only [ls2Model, Matrix.mulVec, dotProduct, Fin.sum_univ_three, Pi.add_apply]
        fun_prop
      · simp only [ls2Model, Matrix.mulVec, dotProduct, Fin.sum_univ_three, Pi.add_apply]
        fun_prop)
  choose K hK using hk
  exact ⟨K, fun t u s => (hK t u s).trans (ls2_joint p t u s)⟩

/-- **C127** Setting new parameters gives the object that the constructor would have built with them. -/
theorem C127_set_params (p p' : Fin 5 → ℝ) : ls2SetParams (ls2Obj p) p' = ls2Obj p' := by
  simp [ls2SetParams, ls2Obj, MlObj.setDynamics, MlObj.init, KF.new, KF.setDynamics]

/-- **C127** The particle filter of the script for parameters set by any sequence of `set_params`, prediction first, for any number of particles, threshold and nonempty
record: the likelihood estimate times the filtered mean of `E[φ(xi, z) | particle]` is an unbiased estimate of `E[Π_t p(y_t | xi_t, z_t) φ(xi_T, z_T)]`. -/
theorem C127_filter [MeasurableSpace Ω] {ρ : Measure Ω} [IsProbabilityMeasure ρ]
    {mvn : VecR 1 × MatR 1 1 → Ω → VecR 1} (hm : ∀ a, Measurable (mvn a)) (hmvn : ∀ a, a.2.PosSemidef → ρ.map (mvn a) = Spec.gauss a.1 a.2) {N : ℕ}
    (hN : 0 < N) (res : ℝ) (p0 : Fin 5 → ℝ) (ps : List (Fin 5 → ℝ)) (p : Fin 5 → ℝ) {φ : VecR 1 × VecR 3 → ℝ≥0∞} (hφ : Measurable φ) {T : Option ℕ}
    {s0 : PT (RbP 1 3) U (Fin 2 → ℝ)} (hs : PT.init N T 0 = .ok s0)
    (qs : List (Slot U × Slot (Fin 2 → ℝ))) (hq : ∀ q ∈ qs, IsObj q.2) (hne : qs ≠ []) : ∃ o0, ls2X0 = .ok o0 ∧
    ∃ K : ℕ → Slot U → Kernel (VecR 1 × VecR 3) (VecR 1 × VecR 3), (∀ t u s, K t u s = Spec.ls2Move p s) ∧
      stepsE (Measure.pi fun _ : Fin N => ρ) qs (fun ds => runEstimate (fun q => ∫⁻ z, φ (q.1, z) ∂Spec.gauss q.2.1 q.2.2)
        (s0.run (rbfOps (mlMarkov N (ls2Hooks p) ((ps ++ [p]).foldl ls2SetParams (ls2Obj p0)) o0 mvn) res) (history none ds))) =
      ∫⁻ x, pathE K Spec.ls2Loglik φ 0 qs (x, 0) ∂Spec.gauss (0 : VecR 1) 1 := by
  obtain ⟨K, hK⟩ := ls2_kernel (U := U) p
  have hmeas := ls2_loglik_measurable
  have hS := ml_samples (o0 := ⟨0, 1, 0, 0⟩) (ls2_describes (U := U) p) (ls2_good p) PosSemidef.one PosSemidef.zero hm hmvn hN
    (fun t u s => (hK t u s).trans (ls2_joint p t u s).symm) (by rw [ls2_loglik]; exact hmeas)
  rw [ls2_loglik] at hS
  refine ⟨⟨0, 1, 0, 0⟩, rfl, K, hK, ?_⟩
  have ho : (ps ++ [p]).foldl ls2SetParams (ls2Obj p0) = ls2Obj p := by
    have : ∀ (l : List (Fin 5 → ℝ)) q, ∃ q', l.foldl ls2SetParams (ls2Obj q) = ls2Obj q' := by
      intro l
      induction l with
      | nil => exact fun q => ⟨q, rfl⟩
      | cons a l ih => intro q; rw [List.foldl_cons, C127_set_params]; exact ih a
    obtain ⟨q', h⟩ := this ps p0
    rw [List.foldl_append, h]
    exact C127_set_params q' p
  have h := (C99_unbiased hN hS res hφ hs qs hq).2 hne
  simp only [lintegral_rbLaw _ hφ] at h
  have hd : Spec.gauss (0 : VecR 3) 0 = Measure.dirac 0 := by
    rw [Spec.gauss, multivariateGaussian]
    simp
  have hpm := pathE_measurable K hmeas hφ qs 0
  rw [ho, h, hd, lintegral_prod _ hpm.aemeasurable]
  exact lintegral_congr fun x => lintegral_dirac' _ (hpm.comp measurable_prodMk_left)

theorem ls2_stQ (p : Fin 5 → ℝ) (x : VecR 1) (u : Slot U) (t : ℕ) : ((ls2Model U p).stQ x u t).PosDef :=
  stQ_posDef (single_posDef (by norm_num)) (PosDef.one.smul (by norm_num))

theorem ls2_stA (p : Fin 5 → ℝ) (x : VecR 1) (u : Slot U) (t : ℕ) : (ls2Model U p).stA x u t =
    !![p 1, 0, 0; 1, p 2, 0; 0, p 3 * cos (p 4), -(p 3 * sin (p 4)); 0, p 3 * sin (p 4), p 3 * cos (p 4)] := by
  funext i j
  fin_cases i <;> fin_cases j <;> rfl

theorem ls2_stF (p : Fin 5 → ℝ) (x : VecR 1) (u : Slot U) (t : ℕ) : (ls2Model U p).stF x u t = ![p 0 * arctan (x 0), 0, 0, 0] := by
  funext i
  fin_cases i <;> rfl

/-- **C127** The gradient used in the maximisation step of the script: for every set of smoothed trajectories, `eval_logp_xnext_val_grad` succeeds, and the gradient it
computes from the matrices written down in the script is the derivative of the expected log-density of the next states, up to its constant, in each of the five parameters. -/
theorem C127_gradient (p : Fin 5 → ℝ) (parts : List (RbS 1 3)) (hne : parts ≠ []) (next : List (RbP 1 3)) (hlen : next.length = parts.length) (u : Slot U) (t : ℕ)
    (hP : ∀ (i : ℕ) s n, parts[i]? = some s → next[i]? = some n → (fromBlocks s.1.2.2 s.2 s.2ᵀ n.2.2).PosSemidef) :
    ∃ v g, mlEvalXnextValGrad (ls2Hooks p) (ls2Obj p) (ls2PredGrad p (parts.map fun s => s.1.1)).1 (ls2PredGrad p (parts.map fun s => s.1.1)).2.1
        (ls2PredGrad p (parts.map fun s => s.1.1)).2.2 parts next u t = .ok (v, g) ∧
      v = (List.zipWith (fun s n => (ls2Model U p).expLogNext u t s n + 4 / 2 * Real.log (2 * Real.pi)) parts next).sum ∧
      ∀ j, HasDerivAt (fun θ => (List.zipWith (fun s n => (ls2Model U (Function.update p j θ)).expLogNext u t s n +
        4 / 2 * Real.log (2 * Real.pi)) parts next).sum) (g j) (p j) := by
  obtain ⟨v, g, h1, h2, h3⟩ := C83_xnext_gradient (ls2Model U) p (ls2_describes p) parts hne next hlen u t (fun x => ls2_stQ p x u t) hP
    (dA := (ls2PredGrad p (parts.map fun s => s.1.1)).1) (df := (ls2PredGrad p (parts.map fun s => s.1.1)).2.1)
    (dQ := (ls2PredGrad p (parts.map fun s => s.1.1)).2.2) (gA := fun _ => ls2AGrad p) (gf := ls2FGrad) (gQ := fun _ _ => 0)
    (by simp [ls2PredGrad, Spec.GivesGrad, Function.comp_def]) (by simp [ls2PredGrad, Spec.GivesGrad]) (by simp [ls2PredGrad, Spec.GivesGrad])
    (fun x j => by
      have hs : ∀ c θ : ℝ, HasDerivAt (fun θ => c * sin θ) (c * cos θ) θ := fun c θ => (hasDerivAt_sin θ).const_mul c
      have hc : ∀ c θ : ℝ, HasDerivAt (fun θ => c * cos θ) (c * -sin θ) θ := fun c θ => (hasDerivAt_cos θ).const_mul c
      have hl : ∀ c θ : ℝ, HasDerivAt (fun θ => θ * c) c θ := fun c θ => by simpa using (hasDerivAt_id' θ).mul_const c
      intro i k
      simp only [ls2_stA]
      fin_cases j <;> fin_cases i <;> fin_cases k <;> simp [ls2AGrad, Function.update, hasDerivAt_const, hasDerivAt_id'] <;>
        first
        | exact hasDerivAt_const _ _
        | exact hasDerivAt_id' _
        | exact hl _ _
        | exact (hl _ _).neg
        | exact (hs _ _)
        | exact (hs (p 3) (p 4)).neg
        | simpa using (hc (p 3) (p 4)))
    (fun x j => by
      intro i
      simp only [ls2_stF]
      fin_cases j <;> fin_cases i <;> simp [ls2FGrad, Function.update] <;>
        first
        | exact hasDerivAt_const _ _
        | simpa using (hasDerivAt_id' (p 0)).mul_const (arctan (x 0)))
    (fun x j => (matDeriv_const ((ls2Model U p).stQ x u t) :))
  refine ⟨v, g, h1, ?_, by simpa using h3⟩
  rw [C82_logp_xnext (ls2_describes p) parts hne next hlen u t (fun x => ls2_stQ p x u t) hP] at h2
  injection h2 with h2
  rw [← h2]
  simp

/-- 50 particles, two measurements, the parameters changed once. -/
example (y1 y2 : Fin 2 → ℝ) : ∃ (mvn : VecR 1 × MatR 1 1 → VecR 1 → VecR 1) (s0 : PT (RbP 1 3) ℝ (Fin 2 → ℝ)) (o0 : MlX0 1 3)
    (K : ℕ → Slot ℝ → Kernel (VecR 1 × VecR 3) (VecR 1 × VecR 3)),
    stepsE (Measure.pi fun _ : Fin 50 => Spec.gauss 0 1) [(.none, .obj y1), (.none, .obj y2)]
        (fun ds => runEstimate (fun q => ∫⁻ z, ENNReal.ofReal (z 0 ^ 2) ∂Spec.gauss q.2.1 q.2.2)
          (s0.run (rbfOps (mlMarkov 50 (ls2Hooks ![1, 1, 0.3, 0.968, 0.315]) (ls2SetParams (ls2Obj ![0.5, 1.2, 0.1, 0.4, 1]) ![1, 1, 0.3, 0.968, 0.315]) o0 mvn) 0.67)
            (history none ds))) =
      ∫⁻ x, pathE K Spec.ls2Loglik (fun s => ENNReal.ofReal (s.2 0 ^ 2)) 0 [(.none, .obj y1), (.none, .obj y2)] (x, 0) ∂Spec.gauss (0 : VecR 1) 1 := by
  obtain ⟨mvn, h1, h2⟩ := exists_mvn 1
  obtain ⟨s0, hs⟩ : ∃ s0 : PT (RbP 1 3) ℝ (Fin 2 → ℝ), PT.init 50 none 0 = .ok s0 := ⟨_, rfl⟩
  obtain ⟨o0, -, K, -, h⟩ := C127_filter h1 h2 (N := 50) (by norm_num) 0.67 ![0.5, 1.2, 0.1, 0.4, 1] [] ![1, 1, 0.3, 0.968, 0.315]
    (φ := fun s => ENNReal.ofReal (s.2 0 ^ 2)) (by fun_prop) hs [(.none, .obj y1), (.none, .obj y2)] (by simp [IsObj]) (by simp)
  exact ⟨mvn, s0, o0, K, h⟩

/-- Two trajectories with uncorrelated linear states. -/
example (p : Fin 5 → ℝ) : ∃ v g, mlEvalXnextValGrad (ls2Hooks (U := ℝ) p) (ls2Obj p) (some [ls2AGrad p, ls2AGrad p]) (some [ls2FGrad 1, ls2FGrad 2]) none
    [((1, 0, 1), 0), ((2, 1, 1), 0)] [(0, 1, 1), (1, 0, 1)] .none 0 = .ok (v, g) := by
  obtain ⟨v, g, h, -⟩ := C127_gradient (U := ℝ) p [((1, 0, 1), 0), ((2, 1, 1), 0)] (by simp) [(0, 1, 1), (1, 0, 1)] (by simp) .none 0 (by
    have h1 : (fromBlocks (1 : MatR 3 3) 0 (0 : MatR 3 3)ᵀ 1).PosSemidef := by
      rw [transpose_zero, fromBlocks_one]; exact PosSemidef.one
    rintro (_ | _ | i) s n hs hn
    · simp at hs hn; subst hs; subst hn; exact h1
    · simp at hs hn; subst hs; subst hn; exact h1
    · simp at hs)
  exact ⟨v, g, h⟩

end PyPE

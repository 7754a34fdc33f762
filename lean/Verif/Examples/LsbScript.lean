import Verif.Models.MlApf
import Verif.Marg.Weights
import Verif.Marg.Toy
import Verif.Kalman.Single

/-!
# C126: the script test/manual/smoothing/test_lsb.py

A scalar nonlinear state driven by a four-dimensional linear one, with the marginalised backward simulator.
-/

namespace PyPE
open Real Spec MeasureTheory ProbabilityTheory Matrix
open scoped ENNReal

variable {U Ω : Type}

/-! ### The model -/

/-- `C_theta` (test_lsb.py:15). -/
noncomputable def lsbTheta : MatR 1 4 := !![0.0, 0.04, 0.044, 0.008]

/-- `Az` (test_lsb.py:80-83). -/
noncomputable def lsbAz : MatR 4 4 := !![3.0, -1.691, 0.849, -0.3201; 2.0, 0.0, 0.0, 0.0; 0.0, 1.0, 0.0, 0.0; 0.0, 0.0, 0.5, 0.0]

/-- `get_nonlin_pred_dynamics`, `get_meas_dynamics` (test_lsb.py:93-110) for a measurement that is given; it is a list with one number. -/
noncomputable def lsbHooks : MlHooks 1 4 1 (Slot U) ℕ ℝ where
  nonlin xs _ t := (some (xs.map fun x => (x 0 / (1 + x 0 ^ 2)) • lsbTheta),
    some (xs.map fun x => fun _ => 0.5 * x 0 + 25 * x 0 / (1 + x 0 ^ 2) + 8 * cos (1.2 * t)), none)
  lin _ _ _ := (none, none, none)
  meas xs y _ := (fun _ => y, none, some (xs.map fun x => fun _ => 0.05 * x 0 ^ 2), none)
  cross _ _ _ := none

/-- The same methods as seen by `sample_smooth`, which also asks for measurements that are `None` (test_lsb.py:103-104). The first component is then `None`, here `0`;
`sample_smooth` does not use it. -/
noncomputable def lsbOptHooks : MlHooks 1 4 1 (Slot U) ℕ (Option ℝ) where
  nonlin := lsbHooks.nonlin
  lin := lsbHooks.lin
  meas xs y t := match y with
    | some y => (lsbHooks (U := U)).meas xs y t
    | none => (0, none, none, none)
  cross := lsbHooks.cross

/-- `ParticleLSB.__init__` (test_lsb.py:68-91): the call of the constructor of the base class. -/
noncomputable def lsbObj : MlObj 1 4 1 :=
  MlObj.init (some lsbAz) none (some ((0.01 : ℝ) • 1)) (some !![0.1]) none none (some !![0.005]) none none none

/-- The initial distribution given to the constructor (test_lsb.py:73-78, 89). -/
def lsbX0 : PyM (MlX0 1 4) := mlX0Init 0 0 none (some 0)

/-! ### Specification -/

/-- One step of `generate_dataset` (test_lsb.py:16-19, 51-57). -/
noncomputable def Spec.lsbMove (t : ℕ) (s : VecR 1 × VecR 4) : Measure (VecR 1 × VecR 4) :=
  ((Spec.gauss 0 !![0.005]).prod (Spec.gauss (0 : VecR 4) ((0.01 : ℝ) • (1 : MatR 4 4)))).map fun v =>
    (fun _ => 0.5 * s.1 0 + s.1 0 / (1 + s.1 0 ^ 2) * (25 + 0.04 * s.2 1 + 0.044 * s.2 2 + 0.008 * s.2 3) + 8 * cos (1.2 * t) + v.1 0,
      ![3 * s.2 0 - 1.691 * s.2 1 + 0.849 * s.2 2 - 0.3201 * s.2 3 + v.2 0, 2 * s.2 0 + v.2 1, s.2 1 + v.2 2, 0.5 * s.2 2 + v.2 3])

/-- The log-density of the measurement `y = 0.05 xi² + N(0, 0.1)` (test_lsb.py:21-22, 58-60). -/
noncomputable def Spec.lsbLoglik : ℕ → Slot ℝ → VecR 1 × VecR 4 → ℝ
  | _, .obj y, s => -(1/2) * (Real.log (2 * Real.pi) + Real.log 0.1 + (y - 0.05 * s.1 0 ^ 2) ^ 2 / 0.1)
  | _, _, _ => 0

/-- The model in the form of C84 and C85; the measurement may be missing. -/
noncomputable def Spec.lsbModel (U : Type) : Spec.RbModel 1 4 1 (Slot U) ℕ (Option ℝ) where
  Axi x _ _ := (x 0 / (1 + x 0 ^ 2)) • !![0, 0.04, 0.044, 0.008]
  fxi x _ t := fun _ => 0.5 * x 0 + 25 * x 0 / (1 + x 0 ^ 2) + 8 * cos (1.2 * t)
  Qxi _ _ _ := !![0.005]
  Az _ _ _ := !![3, -1.691, 0.849, -0.3201; 2, 0, 0, 0; 0, 1, 0, 0; 0, 0, 0.5, 0]
  fz _ _ _ := 0
  Qz _ _ _ := (0.01 : ℝ) • 1
  Qxiz _ _ _ := 0
  C _ _ _ := 0
  h x y _ := match y with
    | some _ => fun _ => 0.05 * x 0 ^ 2
    | none => 0
  R _ _ _ := !![0.1]
  y y _ := fun _ => y.getD 0

/-! ### Proof -/

theorem lsbTheta_eq : lsbTheta = !![0, 0.04, 0.044, 0.008] := by simp [lsbTheta]; norm_num

theorem lsbAz_eq : lsbAz = !![3, -1.691, 0.849, -0.3201; 2, 0, 0, 0; 0, 1, 0, 0; 0, 0, 0.5, 0] := by simp [lsbAz]; norm_num

/-- The model for measurements that are given. -/
noncomputable def lsbPaper : Spec.RbModel 1 4 1 (Slot U) ℕ ℝ where
  Axi := (lsbModel U).Axi
  fxi := (lsbModel U).fxi
  Qxi := (lsbModel U).Qxi
  Az := (lsbModel U).Az
  fz := (lsbModel U).fz
  Qz := (lsbModel U).Qz
  Qxiz := (lsbModel U).Qxiz
  C x y t := (lsbModel U).C x (some y) t
  h x y t := (lsbModel U).h x (some y) t
  R x y t := (lsbModel U).R x (some y) t
  y y t := (lsbModel U).y (some y) t

theorem lsb_describes : Spec.RbDescribes (lsbHooks (U := U)) lsbObj lsbPaper := by
  constructor <;> intros <;>
    simp_all [Spec.Gives, Spec.GivesOrZero, lsbHooks, lsbObj, lsbPaper, lsbModel, MlObj.init, KF.new, KF.setDynamics, lsbTheta_eq, lsbAz_eq]

theorem lsb_opt_describes : Spec.MgDescribes (fun y _ => y) (lsbOptHooks (U := U)) lsbObj (lsbModel U) := by
  refine { toRbDynamics := ?_, R := ?_, given := ?_, Qxiz0 := fun _ _ _ => rfl, raw := fun _ _ => rfl, none0 := fun _ _ => rfl }
  · constructor <;> intros <;>
      simp_all [Spec.Gives, Spec.GivesOrZero, lsbHooks, lsbOptHooks, lsbObj, lsbModel, MlObj.init, KF.new, KF.setDynamics, lsbTheta_eq, lsbAz_eq]
  · intro xs y t
    cases y <;> exact fun _ _ => rfl
  · intro xs y t _
    refine .inr ⟨?_, rfl, fun _ _ => rfl, ?_⟩
    · cases y <;> rfl
    · cases y with
      | none => exact .inr ⟨rfl, rfl⟩
      | some y => exact .inl rfl

theorem lsb_model_good : (lsbModel U).Good :=
  ⟨fun _ _ _ => single_posDef (by norm_num), fun _ _ _ => PosSemidef.one.smul (by norm_num), fun _ _ _ => single_posDef (by norm_num)⟩

theorem lsb_good : (lsbPaper (U := U)).Good :=
  ⟨fun _ _ _ => single_posDef (by norm_num), fun _ _ _ => PosSemidef.one.smul (by norm_num), fun _ _ _ => single_posDef (by norm_num)⟩

theorem lsb_joint (t : ℕ) (u : Slot U) (s : VecR 1 × VecR 4) : (lsbPaper (U := U)).joint t u s = Spec.lsbMove t s := by
  unfold Spec.RbModel.joint Spec.lsbMove
  show Measure.map _ ((Spec.gauss 0 !![0.005]).prod (Spec.gauss (0 : VecR 4) ((0.01 : ℝ) • (1 : MatR 4 4)))) = _
  congr 1
  funext v
  refine Prod.ext ?_ ?_
  · funext i
    fin_cases i
    simp [lsbPaper, lsbModel, Matrix.mulVec, dotProduct, Fin.sum_univ_four]
    ring
  · funext i
    fin_cases i <;> simp [lsbPaper, lsbModel, Matrix.mulVec, dotProduct, Fin.sum_univ_four] <;> ring

theorem lsb_loglik : (lsbPaper (U := U)).loglik = Spec.lsbLoglik := by
  funext t y s
  cases y with
  | obj y =>
    simp only [Spec.RbModel.loglik, Spec.lsbLoglik, lsbPaper, lsbModel]
    rw [logNormal_single _ (by norm_num)]
    simp
  | _ => rfl

theorem lsb_loglik_measurable (t : ℕ) (y : Slot ℝ) : Measurable (Spec.lsbLoglik t y) := by
  cases y with
  | obj y => unfold Spec.lsbLoglik; fun_prop
  | _ => exact measurable_const

theorem lsb_kernel : ∃ K : ℕ → Slot U → Kernel (VecR 1 × VecR 4) (VecR 1 × VecR 4), ∀ t u s, K t u s = Spec.lsbMove t s := by
  have hk : ∀ t (u : Slot U), ∃ K : Kernel (VecR 1 × VecR 4) (VecR 1 × VecR 4), ∀ s, K s = (lsbPaper (U := U)).joint t u s := fun t u =>
    joint_kernel lsbPaper t u (fun _ => rfl) (fun _ => rfl) (by
      refine Measurable.prodMk (measurable_pi_lambda _ fun i => ?_) (measurable_pi_lambda _ fun i => ?_)
      · simp only [lsbPaper, lsbModel, Matrix.mulVec, dotProduct, Fin.sum_univ_four, Pi.add_apply, Matrix.smul_apply, smul_eq_mul]
        fun_prop
      · simp only [lsbPaper, lsbModel, Matrix.mulVec, dotProduct, Fin.sum_univ_four, Pi.add_apply, Finset.univ_unique, Finset.sum_singleton]
        fun_prop)
  choose K hK using hk
  exact ⟨K, fun t u s => (hK t u s).trans (lsb_joint t u s)⟩

/-- **C126** The particle filter of the script, prediction first, for any number of particles, threshold and nonempty record: the likelihood estimate times the filtered mean
of `E[φ(xi, z) | particle]` is an unbiased estimate of `E[Π_t p(y_t | xi_t) φ(xi_T, z_T)]` for the model of `generate_dataset`, started from zero. -/
theorem C126_filter [MeasurableSpace Ω] {ρ : Measure Ω} [IsProbabilityMeasure ρ]
    {mvn : VecR 1 × MatR 1 1 → Ω → VecR 1} (hm : ∀ a, Measurable (mvn a)) (hmvn : ∀ a, a.2.PosSemidef → ρ.map (mvn a) = Spec.gauss a.1 a.2) {N : ℕ}
    (hN : 0 < N) (res : ℝ) {φ : VecR 1 × VecR 4 → ℝ≥0∞} (hφ : Measurable φ) {T : Option ℕ} {s0 : PT (RbP 1 4) U ℝ} (hs : PT.init N T 0 = .ok s0)
    (qs : List (Slot U × Slot ℝ)) (hq : ∀ q ∈ qs, IsObj q.2) (hne : qs ≠ []) : ∃ o0, lsbX0 = .ok o0 ∧
    ∃ K : ℕ → Slot U → Kernel (VecR 1 × VecR 4) (VecR 1 × VecR 4), (∀ t u s, K t u s = Spec.lsbMove t s) ∧
      stepsE (Measure.pi fun _ : Fin N => ρ) qs (fun ds => runEstimate (fun q => ∫⁻ z, φ (q.1, z) ∂Spec.gauss q.2.1 q.2.2)
        (s0.run (rbfOps (mlMarkov N lsbHooks lsbObj o0 mvn) res) (history none ds))) = pathE K Spec.lsbLoglik φ 0 qs (0, 0) := by
  obtain ⟨K, hK⟩ := lsb_kernel (U := U)
  have hmeas := lsb_loglik_measurable
  have hS := ml_samples (o0 := ⟨0, 0, 0, 0⟩) (lsb_describes (U := U)) lsb_good PosSemidef.zero PosSemidef.zero hm hmvn hN
    (fun t u s => (hK t u s).trans (lsb_joint t u s).symm) (by rw [lsb_loglik]; exact hmeas)
  rw [lsb_loglik] at hS
  refine ⟨⟨0, 0, 0, 0⟩, rfl, K, hK, ?_⟩
  have h := (C99_unbiased hN hS res hφ hs qs hq).2 hne
  simp only [lintegral_rbLaw _ hφ] at h
  have hd : ∀ n, Spec.gauss (0 : VecR n) 0 = Measure.dirac 0 := fun n => by
    rw [Spec.gauss, multivariateGaussian]
    simp
  rw [h, hd, hd, Measure.dirac_prod_dirac, lintegral_dirac' _ (pathE_measurable K hmeas hφ qs 0)]

/-- **C126** The backward simulator of the script: for every set of particles and every set of trajectories built so far (any number of times, measurements present or
missing), the backward probabilities computed from `logp_xnext_full` are `w_i p(future | particle i)`, normalised, under the model of the script. -/
theorem C126_backward {svd : MatR 4 4 → MatR 4 4 × VecR 4} (hs : Spec.SvdOk svd) (τ : MgTime 1 4 (Slot U) ℕ ℝ) (τs : List (MgTime 1 4 (Slot U) ℕ ℝ))
    (hL : Spec.MgLinked (τ :: τs)) (parts : List (RbP 1 4)) (hP : ∀ p ∈ parts, p.2.2.PosSemidef) (u : Slot U) (t : ℕ) (k : ℕ) (hk : k < τ.parts.length) :
    ∃ fut s rest r, mgBackward svd (fun y _ => y) lsbOptHooks lsbObj (τ :: τs) = .ok fut ∧ Spec.mgTraj (τ :: τs) k = some (s :: rest) ∧
      mgLogpFull svd lsbOptHooks lsbObj parts fut (List.replicate parts.length k) u t = .ok r ∧ r.length = parts.length ∧
      ∀ w : List ℝ, w.length = parts.length → ∀ (i : ℕ) wi ri p, w[i]? = some wi → r[i]? = some ri → parts[i]? = some p →
        Real.exp (wi + ri) / (List.zipWith (fun a b => Real.exp (a + b)) w r).sum =
          Real.exp wi * (lsbModel U).partLik p u t s.xi ((lsbModel U).futLik (s :: rest)) /
            (List.zipWith (fun a q => Real.exp a * (lsbModel U).partLik q u t s.xi ((lsbModel U).futLik (s :: rest))) w parts).sum := by
  obtain ⟨fut, s, rest, r, h1, h2, h3, h4, -, h5⟩ := C85_end_to_end hs lsb_opt_describes lsb_model_good τ τs hL parts hP u t 0 ((0.01 : ℝ) • 1)
    (fun _ _ => ⟨rfl, rfl⟩) k hk
  exact ⟨fut, s, rest, r, h1, h2, h3, h4, h5⟩

/-- 300 particles, two measurements, the mean of the first linear state's square. -/
example (y1 y2 : ℝ) : ∃ (mvn : VecR 1 × MatR 1 1 → VecR 1 → VecR 1) (s0 : PT (RbP 1 4) ℝ ℝ) (o0 : MlX0 1 4)
    (K : ℕ → Slot ℝ → Kernel (VecR 1 × VecR 4) (VecR 1 × VecR 4)),
    stepsE (Measure.pi fun _ : Fin 300 => Spec.gauss 0 1) [(.none, .obj y1), (.none, .obj y2)]
        (fun ds => runEstimate (fun q => ∫⁻ z, ENNReal.ofReal (z 0 ^ 2) ∂Spec.gauss q.2.1 q.2.2)
          (s0.run (rbfOps (mlMarkov 300 lsbHooks lsbObj o0 mvn) 0.67) (history none ds))) =
      pathE K Spec.lsbLoglik (fun s => ENNReal.ofReal (s.2 0 ^ 2)) 0 [(.none, .obj y1), (.none, .obj y2)] (0, 0) := by
  obtain ⟨mvn, h1, h2⟩ := exists_mvn 1
  obtain ⟨s0, hs⟩ : ∃ s0 : PT (RbP 1 4) ℝ ℝ, PT.init 300 none 0 = .ok s0 := ⟨_, rfl⟩
  obtain ⟨o0, -, K, -, h⟩ := C126_filter h1 h2 (N := 300) (by norm_num) 0.67
    (φ := fun s => ENNReal.ofReal (s.2 0 ^ 2)) (by fun_prop) hs [(.none, .obj y1), (.none, .obj y2)] (by simp [IsObj]) (by simp)
  exact ⟨mvn, s0, o0, K, h⟩

/-- There are singular value decompositions of all covariances. -/
theorem exists_svd (n : ℕ) : ∃ svd : MatR n n → MatR n n × VecR n, Spec.SvdOk svd := by
  have h : ∀ A : MatR n n, ∃ us : MatR n n × VecR n, A.PosSemidef → Spec.IsSvd A us.1 us.2 := by
    intro A
    by_cases hA : A.PosSemidef
    · refine ⟨((hA.isHermitian.eigenvectorUnitary : MatR n n), hA.isHermitian.eigenvalues), fun _ => ⟨?_, hA.eigenvalues_nonneg,
        star (hA.isHermitian.eigenvectorUnitary : MatR n n), ?_, ?_⟩⟩
      · exact Unitary.mul_star_self_of_mem hA.isHermitian.eigenvectorUnitary.2
      · exact Unitary.star_mul_self_of_mem hA.isHermitian.eigenvectorUnitary.2
      · have := hA.isHermitian.spectral_theorem
        rw [Unitary.conjStarAlgAut_apply] at this
        exact this
    · exact ⟨0, fun h => absurd h hA⟩
  choose svd hs using h
  exact ⟨svd, fun A => hs A⟩

/-- Two particles, one trajectory of two times so far; the earlier measurement is missing. -/
example : ∃ svd : MatR 4 4 → MatR 4 4 × VecR 4, ∃ fut r, mgBackward svd (fun y _ => y) (lsbOptHooks (U := ℝ)) lsbObj
      [⟨[(1, 0, 1)], [0], .none, none, 1⟩, ⟨[(2, 0, 1)], [0], .none, some 3, 2⟩] = .ok fut ∧
    mgLogpFull svd (lsbOptHooks (U := ℝ)) lsbObj [(0, 0, 1), (1, 1, 1)] fut [0, 0] .none 0 = .ok r ∧ r.length = 2 := by
  obtain ⟨svd, hs⟩ := exists_svd 4
  obtain ⟨fut, s, rest, r, h1, -, h2, h3, -⟩ := C126_backward (U := ℝ) hs ⟨[(1, 0, 1)], [0], .none, none, 1⟩ [⟨[(2, 0, 1)], [0], .none, some 3, 2⟩]
    (by simp [Spec.MgLinked]) [(0, 0, 1), (1, 1, 1)]
    (by intro p hp; simp at hp; rcases hp with rfl | rfl <;> exact PosSemidef.one) .none 0 0 (by simp)
  exact ⟨svd, fut, r, h1, h2, h3⟩

end PyPE

import Verif.Models.MlLinear
import Verif.Kalman.Single

/-!
# C125: the script test/manual/smoothing/mlnlg_model.py

A double integrator with the position treated as nonlinear and the velocity as linear state.
-/

namespace PyPE
open Real Spec MeasureTheory ProbabilityTheory Matrix
open scoped ENNReal

variable {U Ω : Type}

/-- The arguments of `Model.__init__` (mlnlg_model.py:33): `1 x 1` matrices. -/
structure MixPar where
  Pxi : ℝ
  Pz : ℝ
  Qxi : ℝ
  Qz : ℝ
  Qxiz : ℝ
  R : ℝ

/-- `Model.get_nonlin_pred_dynamics`, `get_meas_dynamics` (mlnlg_model.py:47-56), with the inherited `get_lin_pred_dynamics` and `get_cross_covariance` that return
nothing. -/
def mixHooks : MlHooks 1 1 1 (Slot U) ℕ (Fin 1 → ℝ) where
  nonlin xs _ _ := (none, some (xs.map fun x => fun _ => x 0), none)
  lin _ _ _ := (none, none, none)
  meas xs y _ := (y, none, some (xs.map fun x => fun _ => x 0), none)
  cross _ _ _ := none

/-- `Model.__init__` (mlnlg_model.py:33-45): the call of the constructor of the base class. -/
def mixObj (p : MixPar) : MlObj 1 1 1 :=
  MlObj.init (some 1) none (some !![p.Qz]) (some !![p.R]) none (some 1) (some !![p.Qxi]) (some !![p.Qxiz]) none none

/-- The initial distribution given to the constructor (mlnlg_model.py:37-42). -/
def mixX0 (p : MixPar) : PyM (MlX0 1 1) := mlX0Init 0 0 (some !![p.Pxi]) (some !![p.Pz])

/-! ### Specification -/

/-- The joint model of the state `(xi, z)`: `xi' = xi + z + v`, `z' = z + w`, `y = xi + N(0, R)`. The covariance of `(v, w)` is not the `[[Qxi, Qxiz], [Qxiz, Qz]]` of the
script's docstring: its last entry is `Qz + Qxiz² / Qxi`. -/
noncomputable def Spec.mixJoint (p : MixPar) : LinearModel 2 1 U where
  A _ _ := !![1, 1; 0, 1]
  f _ _ := 0
  Q _ _ := !![p.Qxi, p.Qxiz; p.Qxiz, p.Qz + p.Qxiz ^ 2 / p.Qxi]
  C _ := !![1, 0]
  h _ := 0
  R _ := !![p.R]

/-- The joint state as a vector. -/
def Spec.mixStack (s : VecR 1 × VecR 1) : Fin 2 → ℝ := ![s.1 0, s.2 0]

/-! ### Proof -/

/-- The model the class implements, in the form of C72. -/
def mixPaper (p : MixPar) : Spec.RbModel 1 1 1 (Slot U) ℕ (Fin 1 → ℝ) where
  Axi _ _ _ := 1
  fxi x _ _ := fun _ => x 0
  Qxi _ _ _ := !![p.Qxi]
  Az _ _ _ := 1
  fz _ _ _ := 0
  Qz _ _ _ := !![p.Qz]
  Qxiz _ _ _ := !![p.Qxiz]
  C _ _ _ := 0
  h x _ _ := fun _ => x 0
  R _ _ _ := !![p.R]
  y y _ := y

theorem mix_describes (p : MixPar) : Spec.RbDescribes (mixHooks (U := U)) (mixObj p) (mixPaper p) := by
  constructor <;> intros <;>
    simp_all [Spec.Gives, Spec.GivesOrZero, mixHooks, mixObj, mixPaper, MlObj.init, KF.new, KF.setDynamics, List.map_const']

theorem mix_good {p : MixPar} (hx : 0 < p.Qxi) (hz : 0 ≤ p.Qz) (hR : 0 < p.R) : (mixPaper (U := U) p).Good :=
  ⟨fun _ _ t => posDef_one_iff.2 (by simpa [mixPaper] using hx), fun _ _ _ => single_posSemidef hz,
    fun _ _ _ => posDef_one_iff.2 (by simpa [mixPaper] using hR)⟩

theorem mix_kernel (p : MixPar) : ∃ K : ℕ → Slot U → Kernel (VecR 1 × VecR 1) (VecR 1 × VecR 1), ∀ t u s, K t u s = (mixPaper p).joint t u s := by
  have hk : ∀ t (u : Slot U), ∃ K : Kernel (VecR 1 × VecR 1) (VecR 1 × VecR 1), ∀ s, K s = (mixPaper p).joint t u s := fun t u =>
    joint_kernel (mixPaper p) t u (fun _ => rfl) (fun _ => rfl) (Continuous.measurable (by simp only [mixPaper]; fun_prop))
  choose K hK using hk
  exact ⟨K, hK⟩

theorem mixStack_measurable : Measurable mixStack := by
  unfold mixStack
  fun_prop

theorem mixStack_eq (s : VecR 1 × VecR 1) : mixStack s = (0 : Fin 2 → ℝ) + !![1; 0] *ᵥ s.1 + !![0; 1] *ᵥ s.2 := by
  funext i
  fin_cases i <;> simp [mixStack, Matrix.mulVec, dotProduct]

theorem mix_init {p : MixPar} (h1 : 0 ≤ p.Pxi) (h2 : 0 ≤ p.Pz) :
    ((Spec.gauss (0 : VecR 1) !![p.Pxi]).prod (Spec.gauss (0 : VecR 1) !![p.Pz])).map mixStack = Spec.gauss 0 !![p.Pxi, 0; 0, p.Pz] := by
  rw [funext mixStack_eq, gauss_affine (single_posSemidef h1) (single_posSemidef h2)]
  congr 1
  · simp
  · ext i j
    fin_cases i <;> fin_cases j <;> simp [Matrix.mul_apply, Matrix.vecMul, dotProduct]

theorem mix_move {p : MixPar} (hx : 0 < p.Qxi) (hz : 0 ≤ p.Qz) (t : ℕ) (u : Slot U) (s : VecR 1 × VecR 1) :
    ((mixPaper p).joint t u s).map mixStack = Spec.gauss ((mixJoint p).next t u (mixStack s)) ((mixJoint (U := U) p).Q t u) := by
  have hi : (!![p.Qxi] : MatR 1 1)⁻¹ = !![p.Qxi⁻¹] := by
    apply inv_eq_left_inv
    ext i j; fin_cases i; fin_cases j
    simp [hx.ne']
  have e : (fun v : VecR 1 × VecR 1 => mixStack ((mixPaper (U := U) p).Axi s.1 u t *ᵥ s.2 + (mixPaper (U := U) p).fxi s.1 u t + v.1,
      (mixPaper (U := U) p).Az s.1 u t *ᵥ s.2 + (mixPaper (U := U) p).fz s.1 u t +
        (((mixPaper (U := U) p).Qxiz s.1 u t)ᵀ * ((mixPaper (U := U) p).Qxi s.1 u t)⁻¹) *ᵥ v.1 + v.2)) =
      fun v => (mixJoint (U := U) p).next t u (mixStack s) + !![1; p.Qxiz / p.Qxi] *ᵥ v.1 + !![0; 1] *ᵥ v.2 := by
    funext v i
    simp only [mixPaper, hi]
    fin_cases i
    · simp [mixStack, mixJoint, LinearModel.next, Matrix.mulVec, dotProduct, vecHead]; ring
    · simp [mixStack, mixJoint, LinearModel.next, Matrix.mulVec, dotProduct, Matrix.mul_apply, vecHead, vecTail, div_eq_mul_inv]
  unfold Spec.RbModel.joint
  rw [Measure.map_map mixStack_measurable (by fun_prop)]
  refine (congrArg (fun g => Measure.map g _) e).trans ?_
  refine (gauss_affine (single_posSemidef hx.le) (single_posSemidef hz) _ _ _).trans ?_
  congr 1
  · simp
  · ext i j
    have := hx.ne'
    fin_cases i <;> fin_cases j <;> simp [mixJoint, Matrix.mul_apply, Matrix.vecMul, dotProduct] <;> field_simp
    ring

theorem mix_lik {p : MixPar} (t : ℕ) (y : Slot (Fin 1 → ℝ)) (s : VecR 1 × VecR 1) :
    (mixPaper (U := U) p).loglik t y s = (mixJoint (U := U) p).lik t y (mixStack s) := by
  cases y with
  | obj y =>
    simp only [RbModel.loglik, LinearModel.lik, nlgLoglik, LinearModel.seen, mixPaper, mixJoint]
    congr 1
    funext i
    fin_cases i
    simp [mixStack, Matrix.mulVec, dotProduct]
  | _ => rfl

theorem mix_noise {p : MixPar} (hx : 0 < p.Qxi) (hz : 0 ≤ p.Qz) (t : ℕ) (u : Slot U) : ((mixJoint p).Q t u).PosSemidef := by
  have : (mixJoint p).Q t u = (!![1; p.Qxiz / p.Qxi] : Matrix (Fin 2) (Fin 1) ℝ) * !![p.Qxi] * (!![1; p.Qxiz / p.Qxi] : Matrix (Fin 2) (Fin 1) ℝ)ᴴ +
      (!![0; 1] : Matrix (Fin 2) (Fin 1) ℝ) * !![p.Qz] * (!![0; 1] : Matrix (Fin 2) (Fin 1) ℝ)ᴴ := by
    have := hx.ne'
    ext i j
    fin_cases i <;> fin_cases j <;> simp [mixJoint, Matrix.mul_apply, Matrix.vecMul, dotProduct] <;> field_simp
    ring
  rw [this]
  exact ((single_posSemidef hx.le).mul_mul_conjTranspose_same _).add ((single_posSemidef hz).mul_mul_conjTranspose_same _)

/-- **C125** The filter of the script mlnlg_model.py, with or without a measurement at time 0, for any number of particles, threshold, covariances and record: the
Kalman filter of `utils/kalman.py` for the joint state `(xi, z)` with transition `[[1, 1], [0, 1]]`, noise `[[Qxi, Qxiz], [Qxiz, Qz + Qxiz²/Qxi]]` and measurement of `xi`
succeeds on the record, the likelihood estimate of the Rao-Blackwellized particle filter has mean `exp(ll)`, and times the filtered mean of `E[φ(xi, z) | particle]` it has
mean `exp(ll) E[φ(X)]`, `X ~ N(z, P)`, with the returned `z`, `P`, `ll`. -/
theorem C125_filter [MeasurableSpace Ω] {p : MixPar} (h1 : 0 ≤ p.Pxi) (h2 : 0 ≤ p.Pz) (hx : 0 < p.Qxi) (hz : 0 ≤ p.Qz) (hR : 0 < p.R) {ρ : Measure Ω}
    [IsProbabilityMeasure ρ] {mvn : VecR 1 × MatR 1 1 → Ω → VecR 1} (hm : ∀ a, Measurable (mvn a))
    (hmvn : ∀ a, a.2.PosSemidef → ρ.map (mvn a) = Spec.gauss a.1 a.2) {N : ℕ} (hN : 0 < N) (res : ℝ) {T : Option ℕ} {s0 : PT (RbP 1 1) U (Fin 1 → ℝ)}
    (hs : PT.init N T 0 = .ok s0) (first : Option (Fin 1 → ℝ)) (qs : List (Slot U × (Fin 1 → ℝ))) (hne : first = none → qs ≠ []) :
    ∃ o0 z P ll, mixX0 p = .ok o0 ∧ kfData 0 !![p.Pxi, 0; 0, p.Pz] ((mixJoint (U := U) p).start first ++ (mixJoint p).data 0 qs) = .ok (z, P, ll) ∧
      runE (Measure.pi fun _ : Fin N => ρ) (rbfOps (mlMarkov N mixHooks (mixObj p) o0 mvn) res) s0 (first.map .obj) (asSlots qs) (runEstimate 1) =
        ENNReal.ofReal (exp ll) ∧
      ∀ φ : (Fin 2 → ℝ) → ℝ≥0∞, Measurable φ →
        runE (Measure.pi fun _ : Fin N => ρ) (rbfOps (mlMarkov N mixHooks (mixObj p) o0 mvn) res) s0 (first.map .obj) (asSlots qs)
          (runEstimate fun q => ∫⁻ z, φ ![q.1 0, z 0] ∂Spec.gauss q.2.1 q.2.2) = ENNReal.ofReal (exp ll) * ∫⁻ x, φ x ∂(Spec.gauss z P) := by
  obtain ⟨K, hK⟩ := mix_kernel (U := U) p
  have hL : RbIsLinear (mixPaper (U := U) p) ⟨0, !![p.Pxi], 0, !![p.Pz]⟩ (mixJoint p) mixStack 0 !![p.Pxi, 0; 0, p.Pz] :=
    { meas := mixStack_measurable
      init := mix_init h1 h2
      move := mix_move hx hz
      lik := mix_lik
      cov := by
        have : (!![p.Pxi, 0; 0, p.Pz] : Matrix (Fin 2) (Fin 2) ℝ) = Matrix.diagonal ![p.Pxi, p.Pz] := by
          ext i j; fin_cases i <;> fin_cases j <;> simp
        rw [this]
        refine PosSemidef.diagonal fun i => ?_
        fin_cases i
        · exact h1
        · exact h2
      noise := mix_noise hx hz
      error := fun _ => single_posDef hR }
  obtain ⟨z, P, ll, a1, a2, a3⟩ := C125_jointly_linear (mix_describes p) (mix_good hx hz hR) (single_posSemidef h1) (single_posSemidef h2) hm hmvn hN hK hL res hs
    first qs hne
  exact ⟨_, z, P, ll, rfl, a1, a2, a3⟩

/-- The script's constants with correlated noise: 100 particles, prediction first, two measurements, the mean of the velocity's square. -/
example (y1 y2 : Fin 1 → ℝ) : ∃ (mvn : VecR 1 × MatR 1 1 → VecR 1 → VecR 1) (s0 : PT (RbP 1 1) ℝ (Fin 1 → ℝ)) (o0 : MlX0 1 1) (z : Fin 2 → ℝ)
    (P : Matrix (Fin 2) (Fin 2) ℝ) (ll : ℝ),
    kfData 0 !![1, 0; 0, 1] ((mixJoint (U := ℝ) ⟨1, 1, 1, 1, 0.5, 0.1⟩).data 0 [(.none, y1), (.none, y2)]) = .ok (z, P, ll) ∧
      runE (Measure.pi fun _ : Fin 100 => Spec.gauss 0 1) (rbfOps (mlMarkov 100 mixHooks (mixObj ⟨1, 1, 1, 1, 0.5, 0.1⟩) o0 mvn) 0.67) s0 none
        (asSlots [(.none, y1), (.none, y2)]) (runEstimate fun q => ∫⁻ z, ENNReal.ofReal (z 0 ^ 2) ∂Spec.gauss q.2.1 q.2.2) =
      ENNReal.ofReal (exp ll) * ∫⁻ x, ENNReal.ofReal (x 1 ^ 2) ∂(Spec.gauss z P) := by
  obtain ⟨mvn, h1, h2⟩ := exists_mvn 1
  obtain ⟨s0, hs⟩ : ∃ s0 : PT (RbP 1 1) ℝ (Fin 1 → ℝ), PT.init 100 none 0 = .ok s0 := ⟨_, rfl⟩
  obtain ⟨o0, z, P, ll, -, a, -, h⟩ := C125_filter (p := ⟨1, 1, 1, 1, 0.5, 0.1⟩) (by norm_num) (by norm_num) (by norm_num) (by norm_num) (by norm_num) h1 h2 (N := 100)
    (by norm_num) 0.67 hs none [(.none, y1), (.none, y2)] (by simp)
  exact ⟨mvn, s0, o0, z, P, ll, a, h (fun x => ENNReal.ofReal (x 1 ^ 2)) (by fun_prop)⟩

end PyPE

import Verif.Models.HierFilter
import Verif.Traj.Track
import Verif.Kalman.Single
import Verif.Examples.ParamScript

/-!
# C124: the script test/manual/filtering/hierarchical_model.py

A scalar random walk `xi`, a planar state `z` turned by the angle `xi` at every step, and measurements of `xi` and of one coordinate of the turned `z`.
-/

namespace PyPE
open Real Spec MeasureTheory ProbabilityTheory Matrix
open scoped ENNReal

variable {U Ω : Type}

/-! ### The model -/

/-- The arguments of `Model.__init__` (hierarchical_model.py:39-49). Simplification: `R_xi` and `R_z`, in the script `1 x 1` matrices, are numbers. -/
structure RotPar where
  P0xi : ℝ
  P0z : MatR 2 2
  Qxi : ℝ
  Qz : MatR 2 2
  Rxi : ℝ
  Rz : ℝ

/-- `Az[i]` of `get_lin_pred_dynamics` (hierarchical_model.py:106-109). -/
noncomputable def rotA (x : VecR 1) : MatR 2 2 := !![cos (x 0), sin (x 0); -sin (x 0), cos (x 0)]

/-- `Cz[i]` of `get_lin_meas_dynamics` (hierarchical_model.py:115-116). -/
noncomputable def rotC (x : VecR 1) : MatR 1 2 := !![cos (x 0), sin (x 0)]

/-- `scipy.stats.norm.logpdf(x, 0.0, sd)`: `-(x/sd)**2/2 - log(sqrt(2*pi)) - log(sd)`. -/
noncomputable def rotNormLogpdf (x sd : ℝ) : ℝ := -(x / sd) ^ 2 / 2 - Real.log (√(2 * π)) - Real.log sd

/-- The overridden methods of `Model` (hierarchical_model.py:72-118); a measurement is a row `(y_xi, y_z)`, the noise of a particle a number. `measure_nonlin` uses
`kalman.lognormpdf` of the scalar `y[0] - xi` (kalman.py:10-15). The counter `pn_count` is not modelled. -/
noncomputable def rotHooks (p : RotPar) : HiHooks 1 2 1 (Slot U) ℕ (Fin 2 → ℝ) ℝ where
  lin xs _ _ := (some (xs.map rotA), none, none)
  meas xs y _ := (fun _ => y 1, some (xs.map rotC), none, none)
  measNonlin parts y _ := parts.map fun q => -0.5 * (1 * l2pi + Real.log |p.Rxi| + p.Rxi⁻¹ * (y 0 - q.1 0) * (y 0 - q.1 0))
  xiNext parts _ _ noise := List.zipWith (fun q v => fun _ => q.1 0 + v) parts noise
  logpXi parts next _ _ := List.zipWith (fun q x => rotNormLogpdf (x 0 - q.1 0) √p.Qxi) parts next
  logpXiMax parts _ _ := List.replicate parts.length (rotNormLogpdf 0 √p.Qxi)

/-- The constructor of the base class as called in hierarchical_model.py:49: `fz = 0`, `Qz`, `hz = 0`, `R`; no `Az`, no `C`. -/
noncomputable def rotKf (p : RotPar) : KF 2 1 := KF.new none none (some p.Qz) (some !![p.Rz]) (some 0) (some 0)

/-- `create_initial_estimate` (hierarchical_model.py:51-58); `ω` are the standard normal numbers of `numpy.random.normal`. -/
noncomputable def rotCreate (p : RotPar) {N : ℕ} (k : ℕ) (ω : Fin N → VecR 1) : List (RbP 1 2) :=
  ((List.ofFn ω).take k).map fun v => (fun _ => 0 + √p.P0xi * v 0, 0, p.P0z)

/-- `sample_process_noise` (hierarchical_model.py:67-70). -/
noncomputable def rotNoise (p : RotPar) {N : ℕ} (parts : List (RbP 1 2)) (_ : Slot U) (_ : ℕ) (ω : Fin N → VecR 1) : List ℝ :=
  ((List.ofFn ω).take parts.length).map fun v => 0 + √p.Qxi * v 0

/-! ### Specification -/

/-- One step of the model documented in hierarchical_model.py:32-37. -/
noncomputable def Spec.rotMove (p : RotPar) (s : VecR 1 × VecR 2) : Measure (VecR 1 × VecR 2) :=
  ((Spec.gauss 0 !![p.Qxi]).prod (Spec.gauss 0 p.Qz)).map fun v =>
    (fun _ => s.1 0 + v.1 0, ![cos (s.1 0) * s.2 0 + sin (s.1 0) * s.2 1 + v.2 0, -sin (s.1 0) * s.2 0 + cos (s.1 0) * s.2 1 + v.2 1])

/-- The log-density of `y_xi = xi + N(0, Rxi)` and `y_z = cos(xi) z_0 + sin(xi) z_1 + N(0, Rz)`. -/
noncomputable def Spec.rotLoglik (p : RotPar) : Slot (Fin 2 → ℝ) → VecR 1 × VecR 2 → ℝ
  | .obj y, s => -(1 / 2) * (Real.log (2 * π) + Real.log p.Rxi + (y 0 - s.1 0) ^ 2 / p.Rxi) +
      -(1 / 2) * (Real.log (2 * π) + Real.log p.Rz + (y 1 - (cos (s.1 0) * s.2 0 + sin (s.1 0) * s.2 1)) ^ 2 / p.Rz)
  | _, _ => 0

/-- The constants of the script (hierarchical_model.py:126-131). -/
noncomputable def rotScript : RotPar := ⟨1, 1, 0.01 * 1, (0.01 : ℝ) • 1, 0.1, 0.1⟩

/-! ### Proof -/

/-- The model in the form of C76. -/
noncomputable def rotPaper (p : RotPar) : Spec.HiModel 1 2 1 (Slot U) ℕ (Fin 2 → ℝ) where
  Az x _ _ := rotA x
  fz _ _ _ := 0
  Qz _ _ _ := p.Qz
  C x _ _ := rotC x
  h _ _ _ := 0
  R _ _ _ := !![p.Rz]
  y y _ := fun _ => y 1

theorem rot_describes (p : RotPar) : Spec.HiDescribes (rotHooks (U := U) p) (rotKf p) (rotPaper p) := by
  constructor <;> intros <;> simp_all [Spec.Gives, rotHooks, rotKf, rotPaper, KF.new, KF.setDynamics]

theorem rot_good {p : RotPar} (hQ : p.Qz.PosSemidef) (hR : 0 < p.Rz) : (rotPaper (U := U) p).Good :=
  ⟨fun _ _ _ => hQ, fun _ _ _ => posDef_one_iff.2 (by simpa [rotPaper] using hR)⟩

/-- The law of `xi'`. -/
noncomputable def rotWalk (q : ℝ) (_ : ℕ) (_ : Slot U) : Kernel (VecR 1) (VecR 1) := gaussKernel id measurable_id !![q]

theorem rotWalk_apply {q : ℝ} (hq : 0 ≤ q) (t : ℕ) (u : Slot U) (x : VecR 1) : rotWalk q t u x = gauss x !![q] :=
  gaussKernel_apply _ (single_posSemidef hq) x

theorem rotWalk_markov {q : ℝ} (hq : 0 ≤ q) (t : ℕ) (u : Slot U) : IsMarkovKernel (rotWalk q t u) :=
  ⟨fun x => by rw [rotWalk_apply hq]; infer_instance⟩

theorem rot_nonlin {r : ℝ} (hr : 0 < r) (e : ℝ) :
    -0.5 * (1 * l2pi + Real.log |r| + r⁻¹ * e * e) = -(1 / 2) * (Real.log (2 * π) + Real.log r + e ^ 2 / r) := by
  rw [l2pi, abs_of_pos hr]
  have : e ^ 2 / r = r⁻¹ * e * e := by field_simp
  rw [this]; ring

theorem rot_samples {p : RotPar} (hP : 0 ≤ p.P0xi) (hQ : 0 ≤ p.Qxi) (hR : 0 < p.Rxi) (N : ℕ) :
    Spec.HiSamples (rotHooks (U := U) p) (rotCreate p (N := N)) (rotNoise p) (normals N 1) N (gauss 0 !![p.P0xi]) 0 p.P0z (rotWalk p.Qxi)
      (fun _ y x => -(1 / 2) * (Real.log (2 * π) + Real.log p.Rxi + (y 0 - x 0) ^ 2 / p.Rxi)) where
  create := by
    refine ⟨fun i ω _ => 0 + √p.P0xi * ω i 0, fun i => ⟨scaled_measurable i _ _, ?_⟩, fun ω => ?_⟩
    · have := scaled_law i (0 : Fin 1 → ℝ) (√p.P0xi)
      rwa [sq_sqrt hP] at this
    · rw [rotCreate, take_ofFn, List.map_ofFn]; rfl
  move x u k := by
    refine ⟨fun i ω _ => (x i).1 0 + √p.Qxi * ω i 0, fun i => ⟨scaled_measurable i _ _, ?_⟩, fun ω => ?_⟩
    · rw [rotWalk_apply hQ]
      have := scaled_law i (x i).1 (√p.Qxi)
      rwa [sq_sqrt hQ] at this
    · show List.zipWith _ (List.ofFn x) (rotNoise p (List.ofFn x) u k ω) = _
      rw [rotNoise, List.length_ofFn, take_ofFn, List.map_ofFn, zipWith_ofFn']
      simp
  measure x y k := by
    show List.map _ (List.ofFn x) = _
    rw [List.map_ofFn]
    congr 1
    funext i
    exact rot_nonlin hR _


theorem rot_mul (x : VecR 1) (z v : VecR 2) : rotA x *ᵥ z + 0 + v =
    ![cos (x 0) * z 0 + sin (x 0) * z 1 + v 0, -sin (x 0) * z 0 + cos (x 0) * z 1 + v 1] := by
  funext i
  fin_cases i <;> simp [rotA, mulVec, dotProduct, Fin.sum_univ_two]

theorem rot_joint {p : RotPar} (hQ : 0 ≤ p.Qxi) (t : ℕ) (u : Slot U) (s : VecR 1 × VecR 2) :
    (rotPaper p).joint (rotWalk p.Qxi) t u s = Spec.rotMove p s := by
  rw [Spec.HiModel.joint, rotWalk_apply hQ, ← gauss_shift (single_posSemidef hQ) s.1, Spec.rotMove,
    Measure.map_prod_map _ _ (by fun_prop) (by simp only [rotPaper]; fun_prop)]
  congr 1
  funext v
  refine Prod.ext ?_ (rot_mul _ _ _)
  funext i
  fin_cases i
  rfl

theorem rot_loglik {p : RotPar} (hR : 0 < p.Rz) (t : ℕ) :
    (rotPaper (U := U) p).loglik (fun _ y x => -(1 / 2) * (Real.log (2 * π) + Real.log p.Rxi + (y 0 - x 0) ^ 2 / p.Rxi)) t = Spec.rotLoglik p := by
  funext y s
  cases y with
  | obj y =>
    simp only [Spec.HiModel.loglik, Spec.rotLoglik, rotPaper]
    rw [logNormal_single _ hR]
    simp [rotC, mulVec, dotProduct, Fin.sum_univ_two]
  | _ => rfl

theorem rot_loglik_measurable (p : RotPar) (y : Slot (Fin 2 → ℝ)) : Measurable (Spec.rotLoglik p y) := by
  cases y with
  | obj y => unfold Spec.rotLoglik; fun_prop
  | _ => exact measurable_const

theorem rot_kernel {p : RotPar} : ∃ K : Kernel (VecR 1 × VecR 2) (VecR 1 × VecR 2), ∀ s, K s = Spec.rotMove p s := by
  have hf : Measurable fun q : (VecR 1 × VecR 2) × (VecR 1 × VecR 2) => ((fun _ => q.1.1 0 + q.2.1 0 : VecR 1),
      ![cos (q.1.1 0) * q.1.2 0 + sin (q.1.1 0) * q.1.2 1 + q.2.2 0, -sin (q.1.1 0) * q.1.2 0 + cos (q.1.1 0) * q.1.2 1 + q.2.2 1]) := by
    refine Measurable.prodMk (by fun_prop) (measurable_pi_lambda _ fun i => ?_)
    fin_cases i <;> simp <;> fun_prop
  refine ⟨(Kernel.deterministic id measurable_id ×ₖ Kernel.const _ ((Spec.gauss (0 : VecR 1) !![p.Qxi]).prod (Spec.gauss (0 : VecR 2) p.Qz))).map
    fun q : (VecR 1 × VecR 2) × (VecR 1 × VecR 2) => ((fun _ => q.1.1 0 + q.2.1 0 : VecR 1),
      ![cos (q.1.1 0) * q.1.2 0 + sin (q.1.1 0) * q.1.2 1 + q.2.2 0, -sin (q.1.1 0) * q.1.2 0 + cos (q.1.1 0) * q.1.2 1 + q.2.2 1]), fun s => ?_⟩
  rw [Kernel.map_apply _ hf, Kernel.prod_apply, Kernel.deterministic_apply, Kernel.const_apply, Measure.dirac_prod, Measure.map_map hf (by fun_prop)]
  rfl

/-- **C124** The filter of the script, run as `Simulator.simulate` does (prediction first), for any covariances, number of particles, threshold, nonempty sequence of
measurements and test function: the likelihood estimate times the filtered mean of `E[φ(xi, z) | particle]` is an unbiased estimate of
`E[Π_t p(y_t | xi_t, z_t) φ(xi_T, z_T)]` under the model documented in the script, started from `xi ~ N(0, P0xi)`, `z ~ N(0, P0z)`. -/
theorem C124_filter {p : RotPar} (hP : 0 ≤ p.P0xi) (hPz : p.P0z.PosSemidef) (hQ : 0 ≤ p.Qxi) (hQz : p.Qz.PosSemidef) (hR : 0 < p.Rxi) (hRz : 0 < p.Rz) {N : ℕ}
    (hN : 0 < N) (res : ℝ) {φ : VecR 1 × VecR 2 → ℝ≥0∞} (hφ : Measurable φ) {T : Option ℕ} {s0 : PT (RbP 1 2) U (Fin 2 → ℝ)} (hs : PT.init N T 0 = .ok s0)
    (qs : List (Slot U × Slot (Fin 2 → ℝ))) (hq : ∀ q ∈ qs, IsObj q.2) (hne : qs ≠ []) :
    ∃ K : ℕ → Slot U → Kernel (VecR 1 × VecR 2) (VecR 1 × VecR 2), (∀ t u s, K t u s = Spec.rotMove p s) ∧
      stepsE (normals N 1) qs (fun ds => runEstimate (fun q => ∫⁻ z, φ (q.1, z) ∂Spec.gauss q.2.1 q.2.2)
        (s0.run (rbfOps (hiMarkov (rotHooks p) (rotKf p) (rotCreate p) (rotNoise p)) res) (history none ds))) =
          ∫⁻ x, ∫⁻ z, pathE K (fun _ => Spec.rotLoglik p) φ 0 qs (x, z) ∂Spec.gauss 0 p.P0z ∂Spec.gauss 0 !![p.P0xi] := by
  obtain ⟨K, hK⟩ := rot_kernel (p := p)
  haveI := fun t (u : Slot U) => rotWalk_markov hQ t u
  refine ⟨fun _ _ => K, fun _ _ => hK, ?_⟩
  have hS := hi_samples (rot_describes (U := U) p) (rot_good hQz hRz) hN hPz (rot_samples hP hQ hR N) (K := fun _ _ => K)
    (fun t u s => (hK s).trans (rot_joint hQ t u s).symm) (fun t y => by rw [rot_loglik hRz]; exact rot_loglik_measurable p y)
  have hl : (rotPaper (U := U) p).loglik (fun _ y x => -(1 / 2) * (Real.log (2 * π) + Real.log p.Rxi + (y 0 - x 0) ^ 2 / p.Rxi)) = fun _ => Spec.rotLoglik p := by
    funext t
    exact rot_loglik hRz t
  have h := (C99_unbiased hN hS res hφ hs qs hq).2 hne
  simp only [lintegral_rbLaw _ hφ] at h
  rw [h, lintegral_prod, hl]
  exact (pathE_measurable _ (fun t y => by rw [hl]; exact rot_loglik_measurable p y) hφ _ 0).aemeasurable

/-! ### The bound used for rejection sampling -/

theorem rotA_orth (x : VecR 1) : rotA x * (rotA x)ᵀ = 1 := by
  have h := sin_sq_add_cos_sq (x 0)
  ext i j
  fin_cases i <;> fin_cases j <;> simp [rotA, Matrix.mul_apply, Fin.sum_univ_two] <;> linarith

/-- A filtered covariance: positive semidefinite, at most `c` in every direction, and at most `r` in the measured direction. -/
def RotCov (c r : ℝ) (q : RbP 1 2) : Prop :=
  q.2.2.PosSemidef ∧ (c • (1 : MatR 2 2) - q.2.2).PosSemidef ∧ (rotC q.1 * q.2.2 * (rotC q.1)ᵀ) 0 0 ≤ r

theorem rot_meas {r : ℝ} (hr : 0 < r) {c : ℝ} (y : VecR 1) (x : VecR 1) (z : VecR 2) {P : MatR 2 2} (hP : P.PosSemidef)
    (hc : (c • (1 : MatR 2 2) - P).PosSemidef) {z' : VecR 2} {P' : MatR 2 2} {dl : ℝ}
    (h : measureFull y z P (some (rotC x)) (some 0) !![r] = .ok (z', P', dl)) : RotCov c r (x, z', P') := by
  obtain ⟨h1, h2⟩ := C39_measure_shrinks y z P (rotC x) (some 0) !![r] hP (single_posSemidef hr.le) h
  refine ⟨h1, ?_, ?_⟩
  · have := hc.add h2
    simpa using this
  · have hS := ((C39_measure_succeeds_iff y z P (rotC x) (some 0) !![r] (PosSemidef.isSymm' hP) (PosSemidef.isSymm' (single_posSemidef hr.le))).1).1 ⟨_, h⟩
    rw [measureFull_eq (PosSemidef.isSymm' hP) (PosSemidef.isSymm' (single_posSemidef hr.le)) hS] at h
    cases h
    have hs0 : 0 ≤ (rotC x * P * (rotC x)ᵀ) 0 0 := (posSemidef_conj hP (rotC x)).diag_nonneg
    obtain ⟨s, hs⟩ : ∃ s, s = (rotC x * P * (rotC x)ᵀ) 0 0 := ⟨_, rfl⟩
    have hm : rotC x * P * (rotC x)ᵀ = !![s] := by ext i j; fin_cases i; fin_cases j; exact hs.symm
    rw [← hs] at hs0
    have e : rotC x * (P - P * (rotC x)ᵀ * (rotC x * P * (rotC x)ᵀ + !![r])⁻¹ * (rotC x * P)) * (rotC x)ᵀ =
        !![s] - !![s] * (!![s] + !![r])⁻¹ * !![s] := by
      rw [hm, Matrix.mul_sub, Matrix.sub_mul, hm, ← hm]
      simp only [Matrix.mul_assoc]
    have hi : (!![s] + !![r] : MatR 1 1)⁻¹ = !![(s + r)⁻¹] := by
      apply inv_eq_left_inv
      ext i j; fin_cases i; fin_cases j
      have : s + r ≠ 0 := by positivity
      simp [this]
    show (rotC x * (P - P * (rotC x)ᵀ * (rotC x * P * (rotC x)ᵀ + !![r])⁻¹ * (rotC x * P)) * (rotC x)ᵀ) 0 0 ≤ r
    rw [e, hi]
    simp
    have hp : 0 < s + r := by positivity
    have : s * (s + r)⁻¹ * s = s - s * r / (s + r) := by field_simp; ring
    have h2 : s * r / (s + r) ≤ r := by
      rw [div_le_iff₀ hp]
      nlinarith
    linarith

theorem rot_det {c r e : ℝ} (he : 0 ≤ e) {q : RbP 1 2} (h : RotCov c r q) :
    (rotA q.1 * q.2.2 * (rotA q.1)ᵀ + e • (1 : MatR 2 2)).det ≤ (r + e) * (c + e) := by
  obtain ⟨h1, h2, h3⟩ := h
  have hP := posSemidef_conj h1 (rotA q.1)
  have hc := posSemidef_conj h2 (rotA q.1)
  rw [Matrix.mul_sub, Matrix.sub_mul, Matrix.mul_smul, Matrix.mul_one, Matrix.smul_mul, rotA_orth] at hc
  have hsym := PosSemidef.isSymm' hP
  have e0 : (rotC q.1 * q.2.2 * (rotC q.1)ᵀ) 0 0 = (rotA q.1 * q.2.2 * (rotA q.1)ᵀ) 0 0 := by
    simp [rotA, rotC, Matrix.mul_apply, Fin.sum_univ_two]
  rw [e0] at h3
  generalize rotA q.1 * q.2.2 * (rotA q.1)ᵀ = B at *
  have b0 : 0 ≤ B 0 0 := hP.diag_nonneg
  have b1 : 0 ≤ B 1 1 := hP.diag_nonneg
  have b2 : B 1 1 ≤ c := by
    have : 0 ≤ (c • (1 : MatR 2 2) - B) 1 1 := hc.diag_nonneg
    simpa using this
  have b3 : B 1 0 = B 0 1 := hsym.apply 0 1
  rw [det_fin_two]
  simp [b3]
  nlinarith [sq_nonneg (B 0 1), mul_le_mul (add_le_add_left h3 e) (add_le_add_left b2 e) (by positivity) (by linarith)]


theorem rot_create {p : RotPar} {N : ℕ} (hN : 0 < N) (ω : Fin N → VecR 1) : rotCreate p N ω ≠ [] ∧ ∀ q ∈ rotCreate p N ω, q.2.2 = p.P0z := by
  rw [rotCreate, take_ofFn, List.map_ofFn]
  refine ⟨fun h => ?_, fun q hq => ?_⟩
  · have := congrArg List.length h
    simp at this
    omega
  · obtain ⟨i, rfl⟩ := (List.mem_ofFn' _ _).1 hq
    rfl

/-- A stored particle array at time `k`: all covariances are at most `1 + e k`, and after a measurement at most `r` in the measured direction. -/
def RotAt (p : RotPar) (e : ℝ) (k : ℕ) (parts : List (RbP 1 2)) : Prop := parts ≠ [] ∧ ∀ q ∈ parts, q.2.2.PosSemidef ∧
  ((1 + e * k) • (1 : MatR 2 2) - q.2.2).PosSemidef ∧ (0 < k → RotCov (1 + e * k) p.Rz q) ∧ (k = 0 → q.2.2 = p.P0z)

theorem rotAt_zero {p : RotPar} {e : ℝ} (hP : p.P0z = 1) {N : ℕ} (hN : 0 < N) (ω : Fin N → VecR 1) : RotAt p e 0 (rotCreate p N ω) := by
  obtain ⟨h1, h2⟩ := rot_create (p := p) hN ω
  refine ⟨h1, fun q hq => ?_⟩
  rw [h2 q hq, hP]
  refine ⟨PosSemidef.one, ?_, fun h => absurd h (by simp), fun _ => rfl⟩
  simpa using PosSemidef.zero

theorem rotAt_succ {p : RotPar} {e : ℝ} (he : 0 ≤ e) (hQ : p.Qz = e • 1) (hr : 0 < p.Rz) {k : ℕ} {parts sel : List (RbP 1 2)}
    (ih : RotAt p e k parts) (hne : sel ≠ []) (hs : ∀ q ∈ sel, q ∈ parts) (u : Slot U) (v : List ℝ) (hv : v.length = sel.length) (y : Fin 2 → ℝ) (t t' : ℕ) :
    ∃ moved parts' ll, hiUpdate (rotHooks p) (rotKf p) sel u t v = .ok moved ∧ hiMeasure (rotHooks (U := U) p) (rotKf p) moved y t' = .ok (parts', ll) ∧
      parts'.length = sel.length ∧ ll.length = sel.length ∧ RotAt p e (k + 1) parts' := by
  have hQz : p.Qz.PosSemidef := by rw [hQ]; exact PosSemidef.one.smul he
  have hsP : ∀ q ∈ sel, q.2.2.PosSemidef := fun q hq => (ih.2 q (hs q hq)).1
  have hl : ((rotHooks (U := U) p).xiNext sel u t v).length = sel.length := by simp [rotHooks, hv]
  obtain ⟨moved, hu, hr2, -⟩ := C76_update_exact (rot_describes (U := U) p) (rot_good hQz hr) sel hsP u t v hl
  have hmv : ∀ q ∈ moved, q.2.2.PosSemidef ∧ ((1 + e * (k + 1 : ℕ)) • (1 : MatR 2 2) - q.2.2).PosSemidef := by
    intro q hq
    obtain ⟨i, hi⟩ := List.mem_iff_getElem?.1 hq
    have hi' : i < sel.length := by rw [← hr2]; exact lt_of_getElem?_some hi
    obtain ⟨a, ha⟩ : ∃ a, sel[i]? = some a := ⟨_, List.getElem?_eq_getElem hi'⟩
    obtain ⟨x, hx⟩ : ∃ a, ((rotHooks (U := U) p).xiNext sel u t v)[i]? = some a := ⟨_, List.getElem?_eq_getElem (by rw [hl]; exact hi')⟩
    have hq' := hiUpdate_entry (rot_describes (U := U) p) sel u t _ hl hu i a x ha hx
    rw [hi, Option.some.injEq] at hq'
    subst hq'
    obtain ⟨g1, g2, -⟩ := ih.2 a (hs a (List.mem_of_getElem? ha))
    refine ⟨(posSemidef_conj g1 _).add hQz, ?_⟩
    have := posSemidef_conj g2 (rotA a.1)
    rw [Matrix.mul_sub, Matrix.sub_mul, Matrix.mul_smul, Matrix.mul_one, Matrix.smul_mul, rotA_orth] at this
    convert this using 1
    show _ - (rotA a.1 * a.2.2 * (rotA a.1)ᵀ + p.Qz) = _
    rw [hQ, Nat.cast_succ, mul_add, mul_one, ← add_assoc, add_smul _ e]
    abel
  have hmne : moved ≠ [] := fun h => hne (List.length_eq_zero_iff.1 (by rw [← hr2, h]; rfl))
  obtain ⟨parts', ll, g1, g2, g2', g3⟩ := hiMeasure_good (rot_describes (U := U) p) (rot_good hQz hr) moved hmne (fun q hq => (hmv q hq).1) y t' (by simp [rotHooks])
  refine ⟨moved, parts', ll, hu, g1, g2.trans hr2, g2'.trans hr2, fun h => hmne (List.length_eq_zero_iff.1 (by rw [← g2, h]; rfl)), fun q hq => ?_⟩
  obtain ⟨i, hi⟩ := List.mem_iff_getElem?.1 hq
  have hi' : i < moved.length := by rw [← g2]; exact lt_of_getElem?_some hi
  obtain ⟨a, ha⟩ : ∃ a, moved[i]? = some a := ⟨_, List.getElem?_eq_getElem hi'⟩
  obtain ⟨b, hb⟩ : ∃ b, ((rotHooks (U := U) p).measNonlin moved y t')[i]? = some b := ⟨_, List.getElem?_eq_getElem (by simpa [rotHooks] using hi')⟩
  obtain ⟨z, P, dl, f1, -, f3⟩ := g3 i a b ha hb
  rw [hi, Option.some.injEq] at f1
  subst f1
  obtain ⟨c1, c2⟩ := hmv a (List.mem_of_getElem? ha)
  have hc := rot_meas hr _ _ _ c1 c2 f3
  exact ⟨hc.1, hc.2.1, fun _ => hc, fun h => by simp at h⟩

/-- The filter of the script never fails, and everything it stores satisfies `RotAt`. -/
theorem rot_run {p : RotPar} {e : ℝ} (hP : p.P0z = 1) (he : 0 ≤ e) (hQ : p.Qz = e • 1) (hr : 0 < p.Rz) {N : ℕ} (hN : 0 < N) (res : ℝ) {T : Option ℕ}
    {s0 : PT (RbP 1 2) U (Fin 2 → ℝ)} (h0 : PT.init N T 0 = .ok s0) (ds : List (Slot U × Slot (Fin 2 → ℝ) × (Fin N → VecR 1) × Draws (Fin N → VecR 1)))
    (hne : ds ≠ []) (hds : ∀ q ∈ ds, IsObj q.2.1 ∧ Unit01 q.2.2.2.r ∧ Unit01 q.2.2.2.r2) :
    ∃ s bs, s0.run (rbfOps (hiMarkov (rotHooks p) (rotKf p) (rotCreate p) (rotNoise p)) res) (history none ds) = (s, .ok bs) ∧ s.traj.length = ds.length + 1 ∧
      ∀ (k : ℕ) st, s.traj[k]? = some st → RotAt p e k st.pa.part := by
  obtain ⟨y0, hy0⟩ : ∃ y : ℕ → Slot (Fin 2 → ℝ), ∀ i, y i = ((ds[i - 1]?).map fun q => q.2.1).getD .none := ⟨_, fun _ => rfl⟩
  obtain ⟨u0, hu0⟩ : ∃ u : ℕ → Slot U, ∀ i, u i = ((ds[i]?).map fun q => q.1).getD .none := ⟨_, fun _ => rfl⟩
  have key := history_track (F := rbfOps (hiMarkov (rotHooks p) (rotKf p) (rotCreate p (N := N)) (rotNoise p)) res) (K := ds.length) (N := N) (u := u0) (y := y0)
    (I := fun k tr _ => tr.length = k + 1 ∧ ∀ (j : ℕ) st, tr[j]? = some st → st.pa.WF N ∧ RotAt p e j st.pa.part) rfl (first := none)
    (fun ω => ?_) (fun k tr fl yv uv tv d hk hI htl hu hy ht ht1 hr1 _ => ?_) h0 (fun _ => 0) ds (fun i q hq => ?_) rfl (fun _ => hne)
  · obtain ⟨s, bs, -, e1, -, e2, e3⟩ := key
    exact ⟨s, bs, e1, e2, fun k st h => (e3 k st h).2⟩
  · have hl : (rotCreate p N ω).length = N := by rw [rotCreate, take_ofFn, List.map_ofFn, List.length_ofFn]
    refine ⟨rotCreate p N ω, ⟨rotCreate p N ω, List.replicate N (-Real.log N), N, 0⟩, rfl, ?_, fun _ => ⟨rfl, fun j st hj => ?_⟩, fun _ h => by cases h⟩
    · rw [PA.new, hl, if_neg hN.ne']
    · cases j with
      | zero =>
        simp only [List.getElem?_cons_zero, Option.some.injEq] at hj
        subst hj
        exact ⟨⟨hl, by simp, rfl⟩, rotAt_zero hP hN ω⟩
      | succ j => simp at hj
  · obtain ⟨st, hst⟩ : ∃ st, tr[k]? = some st := ⟨_, List.getElem?_eq_getElem (by omega)⟩
    have hlast : getLast tr = .ok st := by
      rw [getLast_ok, List.getLast?_eq_getElem?, htl]
      exact hst
    obtain ⟨hwf, hat⟩ := hI.2 k st hst
    have hwf' : PA.WF (P := RbP 1 2) ⟨st.pa.part, st.pa.w, st.pa.part.length, 0⟩ N := ⟨hwf.part_len, hwf.w_len, hwf.part_len⟩
    obtain ⟨pa1, flag, anc, m1, m2, m3, m4, -, -, -, m8⟩ := maybeResample_spec res hwf' hN hr1
    obtain ⟨par, hpar⟩ := fancy_ok (a := st.pa.part) (ind := anc) (by rw [hwf.part_len]; exact m4)
    have hparl : par.length = N := (fancy_len hpar).trans m3
    obtain ⟨y, hyy⟩ : ∃ y, y0 (k + 1) = .obj y := by
      rw [hy0, Nat.add_sub_cancel, List.getElem?_eq_getElem hk]
      exact (hds _ (List.getElem_mem hk)).1
    have hsel : pa1.part ≠ [] := fun h => by have := m2.part_len; rw [h] at this; simp at this; omega
    obtain ⟨moved, parts', ll, g1, g2, g3, g4, g5⟩ := rotAt_succ he hQ hr hat hsel (fun q hq => by
      obtain ⟨i, hi⟩ := List.mem_iff_getElem?.1 hq
      have hi' : i < anc.length := by rw [m3, ← m2.part_len]; exact lt_of_getElem?_some hi
      have := m8 i anc[i] (List.getElem?_eq_getElem hi')
      rw [hi] at this
      exact List.mem_of_getElem? this.symm) (u0 k) (rotNoise p par (u0 k) k d.ω) (by simp [rotNoise, hparl, m2.part_len]) y k (k + 1)
    rw [m2.part_len] at g3 g4
    obtain ⟨pa2, hw⟩ := weightUpdate_ok { pa1 with part := parts' } ll (m2.w_ne hN) (by rw [g4]; exact m2.w_len.symm)
    obtain ⟨w1, w2, -, w4, -⟩ := weightUpdate_spec hw
    refine ⟨pa2, flag, anc, ?_, by simp [hI.1], fun j s hj => ?_⟩
    · show rbfForward _ res tr yv uv tv k d = _
      have hup : rbfUpdate (hiMarkov (rotHooks p) (rotKf p) (rotCreate p (N := N)) (rotNoise p)) tr anc uv tv k pa1 d.ω = .ok { pa1 with part := moved } := by
        unfold rbfUpdate
        simp only [hlast, ok_bind, hpar, getLast_take_succ hu, getLast_take_succ ht]
        simp only [hiMarkov, ok_bind, g1]
        rfl
      have hme : rbfMeasure (hiMarkov (rotHooks p) (rotKf p) (rotCreate p (N := N)) (rotNoise (U := U) p)) { pa1 with part := moved } yv tv (k + 1) = .ok pa2 := by
        unfold rbfMeasure
        rw [hyy] at hy
        simp only [ok_bind, getLast_take_succ hy, getLast_take_succ ht1]
        simp only [hiMarkov, g2, ok_bind, hw]
      unfold rbfForward
      simp only [hlast, ok_bind, PA.new, m1, hup, hme]
      rfl
    · rcases Nat.lt_or_ge j tr.length with h | h
      · rw [List.getElem?_append_left h] at hj
        exact hI.2 j s hj
      · have : j = k + 1 := by
          have := lt_of_getElem?_some hj
          simp at this
          omega
        subst this
        rw [List.getElem?_append_right (by omega), htl] at hj
        simp at hj
        subst hj
        rw [w1]
        exact ⟨⟨by rw [w1]; exact g3, by rw [w4]; exact m2.w_len, by rw [w2]; exact m2.num_eq⟩, g5⟩
  · have := hds q (List.mem_of_getElem? hq)
    refine ⟨by rw [hu0, hq]; rfl, by rw [hy0, Nat.add_sub_cancel, hq]; rfl, this.2⟩

theorem rot_bound {k : ℕ} (hk : 0 < k) (hk' : k ≤ 800) {parts : List (RbP 1 2)} (h : RotAt rotScript 0.01 k parts) (u : Slot U) :
    ∃ m, hiLogpXnextMax (rotHooks rotScript) (rotKf rotScript) parts u k = .ok m ∧
      ∃ x z r, hiLogpXnext (rotHooks rotScript) (rotKf rotScript) parts [(x, z)] u k = .ok r ∧ ∃ v ∈ r, m < v := by
  have he : (0 : ℝ) ≤ 0.01 := by norm_num
  obtain ⟨hne, hst⟩ := h
  have hQ : ∀ x (u : Slot U) t, ((rotPaper (U := U) rotScript).Qz x u t).PosDef := fun x u t => by
    show ((0.01 : ℝ) • (1 : MatR 2 2)).PosDef
    exact PosDef.one.smul (by norm_num)
  have hG : (rotPaper (U := U) rotScript).Good := rot_good (PosSemidef.one.smul he) (by norm_num [rotScript])
  have hP : ∀ q ∈ parts, q.2.2.PosSemidef := fun q hq => (hst q hq).1
  obtain ⟨lpz, e1, e2, e3⟩ := hiMax_eq (rot_describes (U := U) rotScript) hQ parts hP u k (by simp [rotHooks])
  have hN : parts.length ≠ 0 := fun h => hne (List.length_eq_zero_iff.1 h)
  obtain ⟨m, hm⟩ := npMax_ok (l := List.zipWith (· + ·) ((rotHooks (U := U) rotScript).logpXiMax parts u k) lpz) (by
    rw [ne_eq, ← List.length_eq_zero_iff, List.length_zipWith, e1]; simpa [rotHooks] using hN)
  refine ⟨m, e2.trans hm, ?_⟩
  obtain ⟨i, hi⟩ := List.mem_iff_getElem?.1 (npMax_spec hm).1
  have hi' : i < parts.length := by
    have := lt_of_getElem?_some hi
    rw [List.length_zipWith, e1] at this
    omega
  obtain ⟨q, hq⟩ : ∃ q, parts[i]? = some q := ⟨_, List.getElem?_eq_getElem hi'⟩
  have hd1 := rot_det he ((hst q (List.mem_of_getElem? hq)).2.2.1 hk)
  have hS : ((rotPaper (U := U) rotScript).predCov q u k).PosDef :=
    Matrix.PosDef.posSemidef_add (posSemidef_conj (hP q (List.mem_of_getElem? hq)) _) (hQ q.1 u k)
  have hdet : ((rotPaper (U := U) rotScript).predCov q u k).det < 1 := by
    refine lt_of_le_of_lt hd1 ?_
    have : (k : ℝ) ≤ 800 := by exact_mod_cast hk'
    simp only [rotScript]
    nlinarith
  have hmv : m = rotNormLogpdf 0 √rotScript.Qxi + (-(1 / 2) * ((2 : ℕ) : ℝ) * Real.log (2 * π) + Real.log ((rotPaper (U := U) rotScript).predCov q u k).det) := by
    rw [List.getElem?_zipWith, e3 i q hq] at hi
    simp [rotHooks, hi'] at hi
    rw [← hi]
    simp
  obtain ⟨r, h1, h2, h3⟩ := C77_logp_xnext (rot_describes (U := U) rotScript) hG hQ parts hne hP u k [(q.1, rotA q.1 *ᵥ q.2.1)]
    (List.replicate parts.length (q.1, rotA q.1 *ᵥ q.2.1)) ⟨by simp, .inr ⟨_, rfl, rfl⟩⟩ (by simp [rotHooks])
  obtain ⟨logp, -, g1, g2⟩ := h3 i q hq
  have hr := g2 (q.1, rotA q.1 *ᵥ q.2.1) (rotNormLogpdf 0 √rotScript.Qxi) (by simp [hi'])
    (by rw [List.map_replicate]; simp only [rotHooks, List.getElem?_zipWith, hq]; simp [hi'])
  refine ⟨_, _, r, h1, _, List.mem_of_getElem? hr, ?_⟩
  rw [g1, hmv]
  have hz : rotA q.1 *ᵥ q.2.1 - ((rotPaper (U := U) rotScript).fz q.1 u k + (rotPaper (U := U) rotScript).Az q.1 u k *ᵥ q.2.1) = 0 := by
    simp [rotPaper]
  simp only
  rw [hz, ← Spec.HiModel.predCov]
  have hl : Real.log ((rotPaper (U := U) rotScript).predCov q u k).det < 0 := Real.log_neg hS.det_pos hdet
  simp only [Spec.logNormal, mulVec_zero, dotProduct_zero]
  push_cast
  linarith

theorem rot_first {parts : List (RbP 1 2)} (h : RotAt rotScript 0.01 0 parts) (u : Slot U) :
    ∃ m, hiLogpXnextMax (rotHooks rotScript) (rotKf rotScript) parts u 0 = .ok m ∧
      ∀ x z r, hiLogpXnext (rotHooks rotScript) (rotKf rotScript) parts [(x, z)] u 0 = .ok r → ∀ v ∈ r, v ≤ m := by
  have he : (0 : ℝ) ≤ 0.01 := by norm_num
  have hQ : ∀ x (u : Slot U) t, ((rotPaper (U := U) rotScript).Qz x u t).PosDef := fun x u t => by
    show ((0.01 : ℝ) • (1 : MatR 2 2)).PosDef
    exact PosDef.one.smul (by norm_num)
  have hG : (rotPaper (U := U) rotScript).Good := rot_good (PosSemidef.one.smul he) (by norm_num [rotScript])
  obtain ⟨m, h1, h2⟩ := C77_logp_xnext_max (rot_describes (U := U) rotScript) hG hQ parts h.1 (fun q hq => (h.2 q hq).1) u 0 (by simp [rotHooks])
  refine ⟨m, h1, fun x z r hr => h2 (fun q hq => ?_) [(x, z)] (List.replicate parts.length (x, z)) r ⟨by simp, .inr ⟨_, rfl, rfl⟩⟩ (by simp [rotHooks]) ?_ hr⟩
  · show 1 ≤ (rotA q.1 * q.2.2 * (rotA q.1)ᵀ + (0.01 : ℝ) • (1 : MatR 2 2)).det
    rw [(h.2 q hq).2.2.2 rfl]
    show 1 ≤ (rotA q.1 * 1 * (rotA q.1)ᵀ + (0.01 : ℝ) • (1 : MatR 2 2)).det
    rw [Matrix.mul_one, rotA_orth, det_fin_two]
    norm_num
  · intro i a b ha hb
    simp only [rotHooks, List.getElem?_replicate] at hb
    split at hb
    · cases hb
      rw [List.map_replicate] at ha
      simp only [rotHooks] at ha
      obtain ⟨q, c, -, -, rfl⟩ := List.getElem?_zipWith_eq_some.1 ha
      unfold rotNormLogpdf
      have : 0 ≤ ((c 0 - q.1 0) / √rotScript.Qxi) ^ 2 := sq_nonneg _
      simp only [zero_div]
      linarith
    · cases hb

/-- **C124** (Defect) The script's run, for any number of particles, threshold and random numbers, with a measurement at each of up to 800 times (the script has 100): the
filter never fails, and at every time after the first `logp_xnext_max` of the stored particles, which 'rsas' uses to accept ancestors, is not an upper bound: some next
state has a larger `logp_xnext` for one of these particles. At time zero it is an upper bound. -/
theorem C124_rejection_bound {N : ℕ} (hN : 0 < N) (res : ℝ) {T : Option ℕ} {s0 : PT (RbP 1 2) U (Fin 2 → ℝ)} (h0 : PT.init N T 0 = .ok s0)
    (ds : List (Slot U × Slot (Fin 2 → ℝ) × (Fin N → VecR 1) × Draws (Fin N → VecR 1))) (hne : ds ≠ []) (hlen : ds.length ≤ 800)
    (hds : ∀ q ∈ ds, IsObj q.2.1 ∧ Unit01 q.2.2.2.r ∧ Unit01 q.2.2.2.r2) :
    ∃ s bs, s0.run (rbfOps (hiMarkov (rotHooks rotScript) (rotKf rotScript) (rotCreate rotScript) (rotNoise rotScript)) res) (history none ds) = (s, .ok bs) ∧
      s.traj.length = ds.length + 1 ∧ ∀ (k : ℕ) st, s.traj[k]? = some st → ∀ u : Slot U,
        ∃ m, hiLogpXnextMax (rotHooks rotScript) (rotKf rotScript) st.pa.part u k = .ok m ∧
          (0 < k → ∃ x z r, hiLogpXnext (rotHooks rotScript) (rotKf rotScript) st.pa.part [(x, z)] u k = .ok r ∧ ∃ v ∈ r, m < v) ∧
          (k = 0 → ∀ x z r, hiLogpXnext (rotHooks rotScript) (rotKf rotScript) st.pa.part [(x, z)] u k = .ok r → ∀ v ∈ r, v ≤ m) := by
  obtain ⟨s, bs, h1, h2, h3⟩ := rot_run (p := rotScript) (e := 0.01) rfl (by norm_num) rfl (by norm_num [rotScript]) hN res h0 ds hne hds
  refine ⟨s, bs, h1, h2, fun k st hst u => ?_⟩
  have hk : k ≤ 800 := by
    have := lt_of_getElem?_some hst
    omega
  rcases Nat.eq_zero_or_pos k with rfl | hk0
  · obtain ⟨m, g1, g2⟩ := rot_first (h3 0 st hst) u
    exact ⟨m, g1, fun h => absurd h (lt_irrefl _), fun _ => g2⟩
  · obtain ⟨m, g1, g2⟩ := rot_bound hk0 hk (h3 k st hst) u
    exact ⟨m, g1, fun _ => g2, fun h => absurd h hk0.ne'⟩

/-! ### Concrete cases -/

/-- C124: the script's constants, 50 particles, two measurements. -/
example (a b : Fin 2 → ℝ) : ∃ (s0 : PT (RbP 1 2) ℝ (Fin 2 → ℝ)) (K : ℕ → Slot ℝ → Kernel (VecR 1 × VecR 2) (VecR 1 × VecR 2)),
    stepsE (normals 50 1) [(.none, .obj a), (.none, .obj b)] (fun ds => runEstimate (fun q => ∫⁻ z, ENNReal.ofReal (z 0 ^ 2 + q.1 0 ^ 2) ∂Spec.gauss q.2.1 q.2.2)
        (s0.run (rbfOps (hiMarkov (rotHooks rotScript) (rotKf rotScript) (rotCreate rotScript) (rotNoise rotScript)) 0.67) (history none ds))) =
      ∫⁻ x, ∫⁻ z, pathE K (fun _ => Spec.rotLoglik rotScript) (fun s => ENNReal.ofReal (s.2 0 ^ 2 + s.1 0 ^ 2)) 0 [(.none, .obj a), (.none, .obj b)] (x, z)
        ∂Spec.gauss 0 1 ∂Spec.gauss 0 !![1] := by
  obtain ⟨s0, hs⟩ : ∃ s0 : PT (RbP 1 2) ℝ (Fin 2 → ℝ), PT.init 50 none 0 = .ok s0 := ⟨_, rfl⟩
  obtain ⟨K, -, h⟩ := C124_filter (p := rotScript) (by norm_num [rotScript]) PosSemidef.one (by norm_num [rotScript]) (PosSemidef.one.smul (by norm_num))
    (by norm_num [rotScript]) (by norm_num [rotScript]) (N := 50) (by norm_num) 0.67 (φ := fun s => ENNReal.ofReal (s.2 0 ^ 2 + s.1 0 ^ 2)) (by fun_prop) hs
    [(.none, .obj a), (.none, .obj b)] (by simp [IsObj]) (by simp)
  exact ⟨s0, K, h⟩

/-- C124: a run of two steps with three particles. -/
example (a b : Fin 2 → ℝ) (ω : Fin 3 → VecR 1) : ∃ (s0 s : PT (RbP 1 2) ℝ (Fin 2 → ℝ)) (bs : List (Option Bool)),
    s0.run (rbfOps (hiMarkov (rotHooks rotScript) (rotKf rotScript) (rotCreate rotScript) (rotNoise rotScript)) 0.67)
      (history none [(.none, .obj a, ω, ⟨1 / 2, 1 / 2, ω⟩), (.none, .obj b, ω, ⟨1 / 2, 1 / 2, ω⟩)]) = (s, .ok bs) ∧ s.traj.length = 3 := by
  obtain ⟨s0, hs⟩ : ∃ s0 : PT (RbP 1 2) ℝ (Fin 2 → ℝ), PT.init 3 none 0 = .ok s0 := ⟨_, rfl⟩
  obtain ⟨s, bs, h1, h2, -⟩ := C124_rejection_bound (N := 3) (by norm_num) 0.67 hs
    [(.none, .obj a, ω, ⟨1 / 2, 1 / 2, ω⟩), (.none, .obj b, ω, ⟨1 / 2, 1 / 2, ω⟩)] (by simp) (by simp) (by simp [IsObj, Unit01]; norm_num)
  exact ⟨s0, s, bs, h1, h2⟩

/-- `logp_xnext_xi` and `logp_xnext_xi_max` of the script (hierarchical_model.py:76-82): the normal log-density of the step of `xi`, and its maximum. -/
theorem C124_xi_density {p : RotPar} (hQ : 0 < p.Qxi) (parts : List (RbP 1 2)) (u : Slot U) (t : ℕ) :
    (∀ next, (rotHooks p).logpXi parts next u t = List.zipWith (fun q x => Spec.logNormal !![p.Qxi] (x - q.1)) parts next) ∧
      ∀ m ∈ (rotHooks p).logpXiMax parts u t, IsGreatest (Set.range fun e : VecR 1 => Spec.logNormal !![p.Qxi] e) m := by
  have key : ∀ e : ℝ, rotNormLogpdf e √p.Qxi = Spec.logNormal !![p.Qxi] (fun _ : Fin 1 => e) := fun e => by
    rw [logNormal_single _ hQ, rotNormLogpdf, div_pow, sq_sqrt hQ.le, log_sqrt hQ.le, log_sqrt (by positivity)]
    ring
  refine ⟨fun next => ?_, fun m hm => ?_⟩
  · simp only [rotHooks, key]
    have e : ∀ a b : VecR 1, (fun _ : Fin 1 => a 0 - b 0) = a - b := fun a b => by funext i; fin_cases i; rfl
    simp only [e]
  · obtain rfl := List.eq_of_mem_replicate hm
    rw [key]
    refine ⟨⟨_, rfl⟩, ?_⟩
    rintro _ ⟨e, rfl⟩
    show Spec.logNormal _ _ ≤ Spec.logNormal _ _
    rw [logNormal_single _ hQ, logNormal_single _ hQ]
    have : 0 ≤ e 0 ^ 2 / p.Qxi := by positivity
    have h0 : (0 : ℝ) ^ 2 / p.Qxi = 0 := by simp
    rw [h0]
    linarith

/-- Two particles of the script. -/
example : ∀ m ∈ (rotHooks (U := ℝ) rotScript).logpXiMax [(0, 0, 1), (1, 0, 1)] .none 3,
    IsGreatest (Set.range fun e : VecR 1 => Spec.logNormal !![rotScript.Qxi] e) m :=
  (C124_xi_density (by norm_num [rotScript]) _ _ _).2

end PyPE

import Verif.Filter.RbFilter
import Verif.Models.MlInit
import Verif.Models.NlgLik

/-!
# C99 for mixed linear/nonlinear Gaussian models (mlnlg.py): the Rao-Blackwellised particle filter is unbiased for the joint model
-/

namespace PyPE
open Real Spec MeasureTheory ProbabilityTheory Matrix
open scoped ENNReal

variable {lxi lz ly : ℕ} {U Y Ω : Type}

/-- A `MixedNLGaussianSampledInitialGaussian` object seen through the Markov interface (mlnlg.py:111-136, 295-349, 1057-1073, rbpf.py:238-259). `ω` holds the
randomness of the successive calls of `numpy.random.multivariate_normal`, modelled by `mvn (mean, cov)`. A measurement is an array. -/
noncomputable def mlMarkov (N : ℕ) (H : MlHooks lxi lz ly (Slot U) ℕ Y) (o : MlObj lxi lz ly) (o0 : MlX0 lxi lz)
    (mvn : VecR lxi × MatR lxi lxi → Ω → VecR lxi) : MarkovRb (RbP lxi lz) U Y (List (VecR lxi)) (Fin N → Ω) where
  createInitial k ω := rbGetStates lxi lz (o0.create mvn ((List.ofFn ω).take k))
  sampleProcessNoise part u t ω := do
    let Ss ← mlNoiseCov H o part u t
    return List.zipWith (fun S w => mvn (0, S) w) Ss (List.ofFn ω)
  update part u t v := mlUpdate H o part u t v
  measure part y t := match y with
    | .obj y => mlMeasure H o part y t
    | _ => .error .typeError

/-! ### Specification -/

/-- The law of the next state `(xi', z')` from the state `(xi, z)` of the model on paper: `xi' = Axi z + fxi + vxi`,
`z' = Az z + fz + Qxizᵀ Qxi⁻¹ vxi + w` with independent `vxi ~ N(0, Qxi)`, `w ~ N(0, Qz)`. -/
noncomputable def Spec.RbModel.joint (M : Spec.RbModel lxi lz ly (Slot U) ℕ Y) (t : ℕ) (u : Slot U) (s : VecR lxi × VecR lz) : Measure (VecR lxi × VecR lz) :=
  ((Spec.gauss 0 (M.Qxi s.1 u t)).prod (Spec.gauss 0 (M.Qz s.1 u t))).map fun v =>
    (M.Axi s.1 u t *ᵥ s.2 + M.fxi s.1 u t + v.1,
      M.Az s.1 u t *ᵥ s.2 + M.fz s.1 u t + ((M.Qxiz s.1 u t)ᵀ * (M.Qxi s.1 u t)⁻¹) *ᵥ v.1 + v.2)

/-- The log-density of a measurement `y = C z + h + e`, `e ~ N(0, R)`. -/
noncomputable def Spec.RbModel.loglik (M : Spec.RbModel lxi lz ly (Slot U) ℕ Y) (t : ℕ) : Slot Y → VecR lxi × VecR lz → ℝ
  | .obj y, s => Spec.logNormal (M.R s.1 y t) (M.y y t - M.C s.1 y t *ᵥ s.2 - M.h s.1 y t)
  | _, _ => 0

/-- The law a particle `(xi, z, P)` stands for: nonlinear state `xi`, linear state `N(z, P)`. -/
noncomputable def Spec.rbLaw (p : RbP lxi lz) : Measure (VecR lxi × VecR lz) := (Spec.gauss p.2.1 p.2.2).map fun z => (p.1, z)

/-! ### Proof -/

theorem lintegral_rbLaw (p : RbP lxi lz) {g : VecR lxi × VecR lz → ℝ≥0∞} (hg : Measurable g) :
    ∫⁻ s, g s ∂rbLaw p = ∫⁻ z, g (p.1, z) ∂Spec.gauss p.2.1 p.2.2 := by
  rw [rbLaw, lintegral_map hg (by fun_prop)]

theorem condLaw_normalGiven {H : Type*} [MeasurableSpace H] {n : ℕ} {J : Measure ((Fin n → ℝ) × H)} [IsProbabilityMeasure J]
    {mean : H → Fin n → ℝ} (hm : Measurable mean) {P : Matrix (Fin n) (Fin n) ℝ} (hP : P.PosSemidef)
    (hJ : Spec.IsCondLaw J (fun h => Spec.gauss (mean h) P)) : J = normalGiven (J.map Prod.snd) mean P := by
  haveI : IsProbabilityMeasure (J.map Prod.snd) := Measure.isProbabilityMeasure_map measurable_snd.aemeasurable
  obtain ⟨h1, h2⟩ := normalGiven_cond (ν := J.map Prod.snd) hm hP
  refine Measure.ext_prod fun {A B} hA hB => ?_
  have e1 := hJ.eq A B hA hB
  have e2 := h2.eq A B hA hB
  rw [h1] at e2
  rw [e1, e2]

/-- Averaging over the next nonlinear state and then over the linear state given it is averaging over the joint law. -/
theorem lintegral_normalGiven {H : Type*} [MeasurableSpace H] {n : ℕ} {ν : Measure H} [IsProbabilityMeasure ν] {mean : H → Fin n → ℝ}
    (hm : Measurable mean) {P : Matrix (Fin n) (Fin n) ℝ} (hP : P.PosSemidef) {g : (Fin n → ℝ) × H → ℝ≥0∞} (hg : Measurable g) :
    Measurable (fun h => ∫⁻ z, g (z, h) ∂Spec.gauss (mean h) P) ∧
    ∫⁻ q, g q ∂normalGiven ν mean P = ∫⁻ h, ∫⁻ z, g (z, h) ∂Spec.gauss (mean h) P ∂ν := by
  have e : ∀ h, ∫⁻ z, g (z, h) ∂Spec.gauss (mean h) P = ∫⁻ z, g (mean h + z, h) ∂Spec.gauss 0 P := by
    intro h
    rw [← gauss_shift hP (mean h), lintegral_map (by fun_prop) (by fun_prop)]
  have hgm : Measurable fun p : H × (Fin n → ℝ) => g (mean p.1 + p.2, p.1) := by fun_prop
  simp only [e]
  refine ⟨hgm.lintegral_prod_right', ?_⟩
  rw [normalGiven, lintegral_map hg (by fun_prop), lintegral_prod _ hgm.aemeasurable]

/-- One step from a particle is one step of the joint model from the law the particle stands for. -/
theorem lintegral_step (M : Spec.RbModel lxi lz ly (Slot U) ℕ Y) (p : RbP lxi lz) (u : Slot U) (t : ℕ)
    {K : Kernel (VecR lxi × VecR lz) (VecR lxi × VecR lz)} (hK : ∀ s, K s = M.joint t u s) {g : VecR lxi × VecR lz → ℝ≥0∞} (hg : Measurable g) :
    ∫⁻ q, g (q.2, q.1) ∂M.step p u t = ∫⁻ s, ∫⁻ s', g s' ∂K s ∂rbLaw p := by
  have hf : Measurable fun q : VecR lz × VecR lxi × VecR lz =>
      (M.Az p.1 u t *ᵥ q.1 + M.fz p.1 u t + ((M.Qxiz p.1 u t)ᵀ * (M.Qxi p.1 u t)⁻¹) *ᵥ q.2.1 + q.2.2,
        M.Axi p.1 u t *ᵥ q.1 + M.fxi p.1 u t + q.2.1) := Continuous.measurable (by fun_prop)
  have hg' : Measurable fun q : VecR lz × VecR lxi => g (q.2, q.1) := by fun_prop
  rw [lintegral_rbLaw _ (Measurable.lintegral_kernel hg), Spec.RbModel.step, lintegral_map hg' hf,
    lintegral_prod (f := fun q : VecR lz × VecR lxi × VecR lz => g
      (M.Axi p.1 u t *ᵥ q.1 + M.fxi p.1 u t + q.2.1,
        M.Az p.1 u t *ᵥ q.1 + M.fz p.1 u t + ((M.Qxiz p.1 u t)ᵀ * (M.Qxi p.1 u t)⁻¹) *ᵥ q.2.1 + q.2.2)) (hg'.comp hf).aemeasurable]
  refine lintegral_congr fun z => ?_
  rw [hK, Spec.RbModel.joint, lintegral_map hg (Continuous.measurable (by fun_prop))]

theorem lintegral_coord [MeasurableSpace Ω] {X : Type} [MeasurableSpace X] {ρ : Measure Ω} [IsProbabilityMeasure ρ] {N : ℕ} (i : Fin N) {f : Ω → X}
    (hf : Measurable f) {μ : Measure X} (hμ : ρ.map f = μ) {g : X → ℝ≥0∞} (hg : Measurable g) :
    ∫⁻ ω, g (f (ω i)) ∂(Measure.pi fun _ : Fin N => ρ) = ∫⁻ x, g x ∂μ := by
  have hgf : Measurable fun a => g (f a) := hg.comp hf
  have h1 : ∫⁻ a, g (f a) ∂ρ = ∫⁻ ω, g (f (ω i)) ∂(Measure.pi fun _ : Fin N => ρ) := by
    conv_lhs => rw [← (measurePreserving_eval (fun _ : Fin N => ρ) i).map_eq]
    rw [lintegral_map hgf (by exact measurable_pi_apply i)]
  rw [← h1, ← hμ, lintegral_map hg hf]

/-- The object samples from the joint model it describes (one nonlinear state). -/
theorem ml_samples [MeasurableSpace Ω] {H : MlHooks 1 lz ly (Slot U) ℕ Y} {o : MlObj 1 lz ly} {M : Spec.RbModel 1 lz ly (Slot U) ℕ Y}
    (hD : Spec.RbDescribes H o M) (hG : M.Good) {o0 : MlX0 1 lz} (hPx : o0.Pxi0.PosSemidef) (hPz : o0.Pz0.PosSemidef) {ρ : Measure Ω}
    [IsProbabilityMeasure ρ] {mvn : VecR 1 × MatR 1 1 → Ω → VecR 1} (hm : ∀ a, Measurable (mvn a))
    (hmvn : ∀ a, a.2.PosSemidef → ρ.map (mvn a) = Spec.gauss a.1 a.2) {N : ℕ} (hN : 0 < N)
    {K : ℕ → Slot U → Kernel (VecR 1 × VecR lz) (VecR 1 × VecR lz)} (hK : ∀ t u s, K t u s = M.joint t u s)
    (hmeas : ∀ t y, Measurable (M.loglik t y)) :
    Spec.RbSamples (mlMarkov N H o o0 mvn) IsObj (Measure.pi fun _ : Fin N => ρ) N (fun p => p.2.2.PosSemidef) rbLaw
      ((Spec.gauss o0.xi0 o0.Pxi0).prod (Spec.gauss o0.z0 o0.Pz0)) K M.loglik where
  create := by
    refine ⟨fun i ω => (mvn (o0.xi0, o0.Pxi0) (ω i), o0.z0, o0.Pz0), fun ω => ?_, fun i => ⟨fun _ => hPz, fun g hg => ?_⟩⟩
    · show rbGetStates 1 lz (o0.create mvn ((List.ofFn ω).take N)) = _
      rw [List.take_of_length_le (by simp), create_read, List.map_ofFn]; rfl
    · have hgm : Measurable fun x : VecR 1 => ∫⁻ z, g (x, z) ∂Spec.gauss o0.z0 o0.Pz0 := hg.lintegral_prod_right'
      have e : ∀ ω : Fin N → Ω, ∫⁻ s, g s ∂rbLaw (mvn (o0.xi0, o0.Pxi0) (ω i), o0.z0, o0.Pz0) =
          (fun x => ∫⁻ z, g (x, z) ∂Spec.gauss o0.z0 o0.Pz0) (mvn (o0.xi0, o0.Pxi0) (ω i)) := fun ω => lintegral_rbLaw _ hg
      simp only [e]
      refine ⟨(hgm.comp (hm _)).comp (measurable_pi_apply i), ?_⟩
      rw [lintegral_prod _ hg.aemeasurable]
      exact lintegral_coord i (hm _) (hmvn (o0.xi0, o0.Pxi0) hPx) hgm
  move x u k hx := by
    have hP : ∀ p ∈ List.ofFn x, p.2.2.PosSemidef := fun p hp => by obtain ⟨i, rfl⟩ := (List.mem_ofFn' _ _).1 hp; exact hx i
    obtain ⟨Ss, hSs, hSl, hS⟩ := C72_update_exact hD hG (List.ofFn x) hP u k
    have hxi : ∀ i : Fin N, (List.ofFn x)[(i : ℕ)]? = some (x i) := fun i => by simp
    choose S mean cov hSi hcov hup hlaw hcond hmean using fun i : Fin N => hS i _ (hxi i)
    have hSs' : Ss = List.ofFn S := by
      refine List.ext_getElem? fun k => ?_
      by_cases hk : k < N
      · rw [hSi ⟨k, hk⟩]; simp [hk]
      · rw [List.getElem?_eq_none (by rw [hSl]; simpa using hk), List.getElem?_eq_none (by simpa using Nat.le_of_not_lt hk)]
    have hSpsd : ∀ i, (S i).PosSemidef := by
      intro i
      have h1 := hSi i
      rw [← Except.ok.inj ((mlNoiseCov_eq hD _ u k).symm.trans hSs), List.getElem?_map, hxi i] at h1
      rw [← Option.some.inj h1]
      exact (hG.Qxi _ u k).posSemidef.add (posSemidef_conj (hx i) _)
    set pred : Fin N → VecR 1 := fun i => M.Axi (x i).1 u k *ᵥ (x i).2.1 + M.fxi (x i).1 u k with hpred
    refine ⟨fun i ω => (pred i + mvn (0, S i) (ω i), mean i (pred i + mvn (0, S i) (ω i)), cov i), fun ω => ?_, fun i => ⟨fun _ => hcov i, fun g hg => ?_⟩⟩
    · have hz : List.zipWith (fun S w => mvn (0, S) w) Ss (List.ofFn ω) = List.ofFn fun i => mvn (0, S i) (ω i) := by
        rw [hSs', zipWith_ofFn']
      refine ⟨List.ofFn fun i => mvn (0, S i) (ω i), ?_, ?_⟩
      · show (do let Ss ← mlNoiseCov H o (List.ofFn x) u k; return List.zipWith (fun S w => mvn (0, S) w) Ss (List.ofFn ω) : PyM _) = _
        rw [hSs, ok_bind, hz]; rfl
      · show mlUpdate H o (List.ofFn x) u k _ = _
        obtain ⟨r, -, hr, hrl, -⟩ := hup ⟨0, hN⟩ (List.ofFn fun i => mvn (0, S i) (ω i)) (by simp)
        rw [hr]
        congr 1
        refine List.ext_getElem? fun j => ?_
        by_cases hj : j < N
        · obtain ⟨r', n, hr', -, hn, hi⟩ := hup ⟨j, hj⟩ (List.ofFn fun i => mvn (0, S i) (ω i)) (by simp)
          cases hr.symm.trans hr'
          simp only [List.getElem?_ofFn, hj, dif_pos, Option.some.injEq] at hn ⊢
          subst hn
          exact hi
        · rw [List.getElem?_eq_none (by rw [hrl]; simpa using hj), List.getElem?_eq_none (by simpa using Nat.le_of_not_lt hj)]
    · have hst : IsProbabilityMeasure (M.step (x i) u k) := by
        unfold Spec.RbModel.step
        exact Measure.isProbabilityMeasure_map (Continuous.measurable (by fun_prop)).aemeasurable
      haveI : IsProbabilityMeasure ((M.step (x i) u k).map Prod.snd) := Measure.isProbabilityMeasure_map measurable_snd.aemeasurable
      have hJ := condLaw_normalGiven (hmean i) (hcov i) (hcond i)
      have hg' : Measurable fun q : VecR lz × VecR 1 => g (q.2, q.1) := by fun_prop
      obtain ⟨g1, g2⟩ := lintegral_normalGiven (ν := (M.step (x i) u k).map Prod.snd) (hmean i) (hcov i) hg'
      rw [← hJ, lintegral_step M (x i) u k (hK k u) hg] at g2
      have e : ∀ ω : Fin N → Ω, ∫⁻ s, g s ∂rbLaw (pred i + mvn (0, S i) (ω i), mean i (pred i + mvn (0, S i) (ω i)), cov i) =
          (fun h => ∫⁻ z, g (h, z) ∂Spec.gauss (mean i h) (cov i)) (pred i + mvn (0, S i) (ω i)) := fun ω => lintegral_rbLaw _ hg
      simp only [e]
      have hsh : Measurable fun n : VecR 1 => pred i + n := by fun_prop
      refine ⟨((g1.comp hsh).comp (hm _)).comp (measurable_pi_apply i), ?_⟩
      rw [g2, ← hlaw i, lintegral_map g1 hsh]
      exact lintegral_coord i (hm _) (hmvn (0, S i) (hSpsd i)) (g1.comp hsh)
  measure x y k hy hx := by
    obtain ⟨y, rfl⟩ := hy
    have hP : ∀ p ∈ List.ofFn x, p.2.2.PosSemidef := fun p hp => by obtain ⟨i, rfl⟩ := (List.mem_ofFn' _ _).1 hp; exact hx i
    have hne : List.ofFn x ≠ [] := by intro h; have := congrArg List.length h; simp at this; omega
    obtain ⟨r, ll, h1, h2, h3, h4⟩ := C72_measure_exact hD hG (List.ofFn x) hne hP y k
    choose z P dl e1 e2 e3 e4 using fun i : Fin N => h4 i (x i) (by simp)
    have hr : r = List.ofFn fun i => ((x i).1, z i, P i) := by
      refine List.ext_getElem? fun j => ?_
      by_cases hj : j < N
      · rw [e1 ⟨j, hj⟩]; simp [hj]
      · rw [List.getElem?_eq_none (by rw [h2]; simpa using hj), List.getElem?_eq_none (by simpa using Nat.le_of_not_lt hj)]
    have hll : ll = List.ofFn dl := by
      refine List.ext_getElem? fun j => ?_
      by_cases hj : j < N
      · rw [e2 ⟨j, hj⟩]; simp [hj]
      · rw [List.getElem?_eq_none (by rw [h3]; simpa using hj), List.getElem?_eq_none (by simpa using Nat.le_of_not_lt hj)]
    refine ⟨fun i => ((x i).1, z i, P i), dl, ?_, fun i => ⟨e3 i, ?_⟩⟩
    · show mlMeasure H o (List.ofFn x) y k = _
      rw [h1, hr, hll]
    · refine Measure.ext fun A hA => ?_
      have hmap : Measurable fun ζ : VecR lz => ((x i).1, ζ) := by fun_prop
      have hd : Measurable fun s : VecR 1 × VecR lz => ENNReal.ofReal (exp (M.loglik k (.obj y) s)) :=
        (measurable_exp.comp (hmeas k (.obj y))).ennreal_ofReal
      have h5 := congrArg (fun μ : Measure (VecR lz) => μ ((fun ζ => ((x i).1, ζ)) ⁻¹' A)) (e4 i)
      simp only [withDensity_apply _ (hmap hA)] at h5
      rw [withDensity_apply _ hA, rbLaw, setLIntegral_map hA hd hmap, Measure.smul_apply, rbLaw, Measure.map_apply hmap hA]
      exact h5
  meas := hmeas

/-- **C99** for mixed linear/nonlinear Gaussian models with one nonlinear state: run the bootstrap filter with any number of particles and any resampling
threshold. The likelihood estimate times the filtered mean of `E[φ(xi, z) | particle]` is an unbiased estimate of `E[Π_t p(y_t | xi_t, z_t) φ(xi_T, z_T)]`
under the joint model `xi' = Axi z + fxi + vxi`, `z' = Az z + fz + Qxizᵀ Qxi⁻¹ vxi + w`, `y = C z + h + e`, started from independent
`xi ~ N(xi0, Pxi0)`, `z ~ N(z0, Pz0)`. -/
theorem C99_mixed_gaussian [MeasurableSpace Ω] {H : MlHooks 1 lz ly (Slot U) ℕ Y} {o : MlObj 1 lz ly} {M : Spec.RbModel 1 lz ly (Slot U) ℕ Y}
    (hD : Spec.RbDescribes H o M) (hG : M.Good) {o0 : MlX0 1 lz} (hPx : o0.Pxi0.PosSemidef) (hPz : o0.Pz0.PosSemidef) {ρ : Measure Ω}
    [IsProbabilityMeasure ρ] {mvn : VecR 1 × MatR 1 1 → Ω → VecR 1} (hm : ∀ a, Measurable (mvn a))
    (hmvn : ∀ a, a.2.PosSemidef → ρ.map (mvn a) = Spec.gauss a.1 a.2) {N : ℕ} (hN : 0 < N)
    {K : ℕ → Slot U → Kernel (VecR 1 × VecR lz) (VecR 1 × VecR lz)} (hK : ∀ t u s, K t u s = M.joint t u s)
    (hmeas : ∀ t y, Measurable (M.loglik t y)) (res : ℝ) {φ : VecR 1 × VecR lz → ℝ≥0∞} (hφ : Measurable φ) {T : Option ℕ}
    {s0 : PT (RbP 1 lz) U Y} (hs : PT.init N T 0 = .ok s0) (y0 : Y) (qs : List (Slot U × Y)) :
    ∫⁻ ω, stepsE (Measure.pi fun _ : Fin N => ρ) (qs.map fun q => (q.1, .obj q.2))
        (fun ds => runEstimate (fun p => ∫⁻ z, φ (p.1, z) ∂Spec.gauss p.2.1 p.2.2)
          (s0.run (rbfOps (mlMarkov N H o o0 mvn) res) (history (some (.obj y0, ω)) ds))) ∂(Measure.pi fun _ : Fin N => ρ) =
      ∫⁻ x, ∫⁻ z, ENNReal.ofReal (exp (Spec.logNormal (M.R x y0 0) (M.y y0 0 - M.C x y0 0 *ᵥ z - M.h x y0 0))) *
        pathE K M.loglik φ 0 (qs.map fun q => (q.1, .obj q.2)) (x, z) ∂Spec.gauss o0.z0 o0.Pz0 ∂Spec.gauss o0.xi0 o0.Pxi0 := by
  have h := (C99_unbiased hN (ml_samples hD hG hPx hPz hm hmvn hN hK hmeas) res hφ hs (qs.map fun q => (q.1, .obj q.2)) (by
    intro q hq
    obtain ⟨q', -, rfl⟩ := List.mem_map.mp hq
    exact ⟨_, rfl⟩)).1 (.obj y0) ⟨_, rfl⟩
  simp only [lintegral_rbLaw _ hφ] at h
  rw [h, lintegral_prod]
  · rfl
  · exact ((measurable_exp.comp (hmeas 0 (.obj y0))).ennreal_ofReal.mul (pathE_measurable K hmeas hφ _ 0)).aemeasurable

/-! ### A concrete case -/

/-- With constant covariances and measurable coefficients the joint model is a Markov chain. -/
theorem joint_kernel (M : Spec.RbModel lxi lz ly (Slot U) ℕ Y) (t : ℕ) (u : Slot U) {Qx : MatR lxi lxi} {Qz : MatR lz lz}
    (h1 : ∀ x, M.Qxi x u t = Qx) (h2 : ∀ x, M.Qz x u t = Qz)
    (hf : Measurable fun q : (VecR lxi × VecR lz) × (VecR lxi × VecR lz) => (M.Axi q.1.1 u t *ᵥ q.1.2 + M.fxi q.1.1 u t + q.2.1,
      M.Az q.1.1 u t *ᵥ q.1.2 + M.fz q.1.1 u t + ((M.Qxiz q.1.1 u t)ᵀ * Qx⁻¹) *ᵥ q.2.1 + q.2.2)) :
    ∃ K : Kernel (VecR lxi × VecR lz) (VecR lxi × VecR lz), ∀ s, K s = M.joint t u s := by
  refine ⟨(Kernel.deterministic id measurable_id ×ₖ Kernel.const _ ((Spec.gauss (0 : VecR lxi) Qx).prod (Spec.gauss (0 : VecR lz) Qz))).map
    (fun q : (VecR lxi × VecR lz) × (VecR lxi × VecR lz) => (M.Axi q.1.1 u t *ᵥ q.1.2 + M.fxi q.1.1 u t + q.2.1,
      M.Az q.1.1 u t *ᵥ q.1.2 + M.fz q.1.1 u t + ((M.Qxiz q.1.1 u t)ᵀ * Qx⁻¹) *ᵥ q.2.1 + q.2.2)), fun s => ?_⟩
  rw [Kernel.map_apply _ hf, Kernel.prod_apply, Kernel.deterministic_apply, Kernel.const_apply, Measure.dirac_prod,
    Measure.map_map hf (by fun_prop), Spec.RbModel.joint, h1, h2]
  rfl

/-- `xi' = xi z + xi + vxi`, `z' = z/2 + vz`, `y = z + xi + e` with correlated noises. -/
noncomputable def rbfToyH : MlHooks 1 1 1 (Slot ℝ) ℕ ℝ where
  nonlin xs _ _ := (some (xs.map fun x => !![x 0]), some (xs.map fun x => x), none)
  lin _ _ _ := (none, none, none)
  meas xs y _ := (fun _ => y, none, some (xs.map fun x => x), none)
  cross _ _ _ := none

/-- The object. -/
noncomputable def rbfToyO : MlObj 1 1 1 :=
  MlObj.init (some !![1 / 2]) (some !![1]) (some !![1]) (some !![1]) (some 0) none (some !![2]) (some !![1 / 2]) none none

/-- The model on paper. -/
noncomputable def rbfToyM : Spec.RbModel 1 1 1 (Slot ℝ) ℕ ℝ where
  Axi x _ _ := !![x 0]
  fxi x _ _ := x
  Qxi _ _ _ := !![2]
  Az _ _ _ := !![1 / 2]
  fz _ _ _ := 0
  Qz _ _ _ := !![1]
  Qxiz _ _ _ := !![1 / 2]
  C _ _ _ := !![1]
  h x _ _ := x
  R _ _ _ := !![1]
  y y _ := fun _ => y

theorem rbfToy_describes : Spec.RbDescribes rbfToyH rbfToyO rbfToyM := by
  constructor <;> intros <;> simp_all [Spec.Gives, Spec.GivesOrZero, rbfToyH, rbfToyO, rbfToyM, MlObj.init, KF.new, KF.setDynamics]

theorem rbfToy_good : rbfToyM.Good :=
  ⟨fun _ _ _ => posDef_one_iff.2 (by simp [rbfToyM]), fun _ _ _ => (posDef_one_iff.2 (by simp [rbfToyM])).posSemidef,
    fun _ _ _ => posDef_one_iff.2 (by simp [rbfToyM])⟩

/-- C99: the hypotheses are met by a filter with three particles on a model whose linear state moves the nonlinear one. -/
example (y0 y1 y2 : ℝ) : ∃ (mvn : VecR 1 × MatR 1 1 → VecR 1 → VecR 1) (K : ℕ → Slot ℝ → Kernel (VecR 1 × VecR 1) (VecR 1 × VecR 1))
    (s0 : PT (RbP 1 1) ℝ ℝ), (∀ t u s, K t u s = rbfToyM.joint t u s) ∧ ∫⁻ ω, stepsE (Measure.pi fun _ : Fin 3 => Spec.gauss 0 1) [(.none, .obj y1), (.none, .obj y2)]
        (fun ds => runEstimate (fun p => ∫⁻ z, ENNReal.ofReal (z 0 ^ 2) ∂Spec.gauss p.2.1 p.2.2)
          (s0.run (rbfOps (mlMarkov 3 rbfToyH rbfToyO ⟨0, 1, 0, 1⟩ mvn) 0.5) (history (some (.obj y0, ω)) ds))) ∂(Measure.pi fun _ : Fin 3 => Spec.gauss 0 1) =
      ∫⁻ x, ∫⁻ z, ENNReal.ofReal (exp (Spec.logNormal !![1] ((fun _ => y0) - !![1] *ᵥ z - x))) *
        pathE K rbfToyM.loglik (fun s => ENNReal.ofReal (s.2 0 ^ 2)) 0 [(.none, .obj y1), (.none, .obj y2)] (x, z) ∂Spec.gauss (0 : VecR 1) 1
        ∂Spec.gauss (0 : VecR 1) 1 := by
  obtain ⟨mvn, h1, h2⟩ := exists_mvn 1
  have hk : ∀ t u, ∃ K : Kernel (VecR 1 × VecR 1) (VecR 1 × VecR 1), ∀ s, K s = rbfToyM.joint t u s := fun t u =>
    joint_kernel rbfToyM t u (fun _ => rfl) (fun _ => rfl) (Continuous.measurable (by simp only [rbfToyM]; fun_prop))
  choose K hK using hk
  obtain ⟨s0, hs⟩ : ∃ s0 : PT (RbP 1 1) ℝ ℝ, PT.init 3 none 0 = .ok s0 := ⟨_, rfl⟩
  refine ⟨mvn, K, s0, hK, ?_⟩
  have h := C99_mixed_gaussian rbfToy_describes rbfToy_good (o0 := ⟨0, 1, 0, 1⟩) (PosSemidef.one) PosSemidef.one h1 h2 (N := 3) (by omega) hK
    (fun t y => by
      cases y with
      | obj y => 
        have : Continuous fun s : VecR 1 × VecR 1 => Spec.logNormal (!![1] : MatR 1 1) ((fun _ => y) - !![1] *ᵥ s.2 - s.1) :=
          (continuous_logNormal _).comp (by fun_prop)
        exact this.measurable
      | _ => exact measurable_const) 0.5 (φ := fun s => ENNReal.ofReal (s.2 0 ^ 2)) (by fun_prop) hs y0 [(.none, y1), (.none, y2)]
  exact h

end PyPE

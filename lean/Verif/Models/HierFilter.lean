import Verif.Models.MlFilter
import Verif.Models.HierClaims

/-!
# C99 for hierarchical models (hierarchial.py): the Rao-Blackwellised particle filter is unbiased for the joint model
-/

namespace PyPE
open Real Spec MeasureTheory ProbabilityTheory Matrix
open scoped ENNReal

variable {lxi lz ly : ℕ} {U Y Ω Noise : Type}

/-- A `HierarchicalBase` object seen through the Markov interface (hierarchial.py:33-66, rbpf.py:238-259). `create` and `noise` are the user's
`create_initial_estimate` and `sample_process_noise`. A measurement is an array. -/
noncomputable def hiMarkov (H : HiHooks lxi lz ly (Slot U) ℕ Y Noise) (kf : KF lz ly) (create : ℕ → Ω → List (RbP lxi lz))
    (noise : List (RbP lxi lz) → Slot U → ℕ → Ω → List Noise) : MarkovRb (RbP lxi lz) U Y (List Noise) Ω where
  createInitial k ω := .ok (create k ω)
  sampleProcessNoise part u t ω := .ok (noise part u t ω)
  update part u t v := hiUpdate H kf part u t v
  measure part y t := match y with
    | .obj y => hiMeasure H kf part y t
    | _ => .error .typeError

/-! ### Specification -/

/-- The law of the next state `(xi', z')` from `(xi, z)`: `xi'` is drawn by the kernel of the nonlinear states, independently
`z' = Az(xi) z + fz(xi) + vz` with `vz ~ N(0, Qz(xi))`. -/
noncomputable def Spec.HiModel.joint (M : Spec.HiModel lxi lz ly (Slot U) ℕ Y) (κ : ℕ → Slot U → Kernel (VecR lxi) (VecR lxi)) (t : ℕ) (u : Slot U)
    (s : VecR lxi × VecR lz) : Measure (VecR lxi × VecR lz) :=
  (κ t u s.1).prod ((Spec.gauss 0 (M.Qz s.1 u t)).map fun v => M.Az s.1 u t *ᵥ s.2 + M.fz s.1 u t + v)

/-- The log-density of a measurement: the nonlinear part plus that of `y = C z + h + e`, `e ~ N(0, R)`. -/
noncomputable def Spec.HiModel.loglik (M : Spec.HiModel lxi lz ly (Slot U) ℕ Y) (lnl : ℕ → Y → VecR lxi → ℝ) (t : ℕ) : Slot Y → VecR lxi × VecR lz → ℝ
  | .obj y, s => lnl t y s.1 + Spec.logNormal (M.R s.1 y t) (M.y y t - M.C s.1 y t *ᵥ s.2 - M.h s.1 y t)
  | _, _ => 0

/-- The user's part: the nonlinear states are drawn from `μξ`, with constant statistics of the linear state, moved by `κ`, and `measure_nonlin` evaluates `lnl`. -/
structure Spec.HiSamples [MeasurableSpace Ω] (H : HiHooks lxi lz ly (Slot U) ℕ Y Noise) (create : ℕ → Ω → List (RbP lxi lz))
    (noise : List (RbP lxi lz) → Slot U → ℕ → Ω → List Noise) (ν : Measure Ω) (N : ℕ) (μξ : Measure (VecR lxi)) (z0 : VecR lz) (P0 : MatR lz lz)
    (κ : ℕ → Slot U → Kernel (VecR lxi) (VecR lxi)) (lnl : ℕ → Y → VecR lxi → ℝ) : Prop where
  create : ∃ X : Fin N → Ω → VecR lxi, (∀ i, Measurable (X i) ∧ ν.map (X i) = μξ) ∧ ∀ ω, create N ω = List.ofFn fun i => (X i ω, z0, P0)
  move : ∀ (x : Fin N → RbP lxi lz) u k, ∃ X : Fin N → Ω → VecR lxi, (∀ i, Measurable (X i) ∧ ν.map (X i) = κ k u (x i).1) ∧
    ∀ ω, H.xiNext (List.ofFn x) u k (noise (List.ofFn x) u k ω) = List.ofFn fun i => X i ω
  measure : ∀ (x : Fin N → RbP lxi lz) y k, H.measNonlin (List.ofFn x) y k = List.ofFn fun i => lnl k y (x i).1

/-! ### Proof -/

theorem ofFn_of_getElem? {α : Type} {N : ℕ} {r : List α} (hr : r.length = N) {f : Fin N → α} (h : ∀ i : Fin N, r[(i : ℕ)]? = some (f i)) :
    r = List.ofFn f := by
  refine List.ext_getElem? fun j => ?_
  by_cases hj : j < N
  · rw [h ⟨j, hj⟩]; simp [hj]
  · rw [List.getElem?_eq_none (by omega), List.getElem?_eq_none (by simpa using Nat.le_of_not_lt hj)]

theorem hiUpdate_entry {H : HiHooks lxi lz ly (Slot U) ℕ Y Noise} {kf : KF lz ly} {M : Spec.HiModel lxi lz ly (Slot U) ℕ Y} (hD : Spec.HiDescribes H kf M)
    (parts : List (RbP lxi lz)) (u : Slot U) (t : ℕ) (noise : List Noise) (hl : (H.xiNext parts u t noise).length = parts.length) {r : List (RbP lxi lz)}
    (hr : hiUpdate H kf parts u t noise = .ok r) (i : ℕ) (p : RbP lxi lz) (x : VecR lxi) (hp : parts[i]? = some p)
    (hx : (H.xiNext parts u t noise)[i]? = some x) :
    r[i]? = some (x, M.fz p.1 u t + M.Az p.1 u t *ᵥ p.2.1, M.Az p.1 u t * p.2.2 * (M.Az p.1 u t)ᵀ + M.Qz p.1 u t) := by
  unfold hiUpdate hiCondPredict at hr
  rw [if_pos hl] at hr
  have hxx : (xisOf parts)[i]? = some p.1 := by rw [xisOf_getElem?, hp]; rfl
  obtain ⟨y, hy, hy'⟩ := (mapM_ok_iff.1 hr).2 i i (by simp [lt_of_getElem?_some hp])
  simp only [getIdx_ok.2 hp, ok_bind, hiDyn_eq hD _ u t i p.1 hxx, getIdx_ok.2 hx, predOpt] at hy'
  rw [hy]
  cases hy'
  rfl

/-- The object samples from the joint model it describes. -/
theorem hi_samples [MeasurableSpace Ω] {H : HiHooks lxi lz ly (Slot U) ℕ Y Noise} {kf : KF lz ly} {M : Spec.HiModel lxi lz ly (Slot U) ℕ Y}
    (hD : Spec.HiDescribes H kf M) (hG : M.Good) {create : ℕ → Ω → List (RbP lxi lz)} {noise : List (RbP lxi lz) → Slot U → ℕ → Ω → List Noise}
    {ν : Measure Ω} {N : ℕ} (hN : 0 < N) {μξ : Measure (VecR lxi)} [IsProbabilityMeasure μξ] {z0 : VecR lz} {P0 : MatR lz lz} (hP0 : P0.PosSemidef)
    {κ : ℕ → Slot U → Kernel (VecR lxi) (VecR lxi)} [∀ t u, IsMarkovKernel (κ t u)] {lnl : ℕ → Y → VecR lxi → ℝ}
    (hS : Spec.HiSamples H create noise ν N μξ z0 P0 κ lnl)
    {K : ℕ → Slot U → Kernel (VecR lxi × VecR lz) (VecR lxi × VecR lz)} (hK : ∀ t u s, K t u s = M.joint κ t u s)
    (hmeas : ∀ t y, Measurable (M.loglik lnl t y)) :
    Spec.RbSamples (hiMarkov H kf create noise) IsObj ν N (fun p => p.2.2.PosSemidef) rbLaw (μξ.prod (Spec.gauss z0 P0)) K (M.loglik lnl) where
  create := by
    obtain ⟨X, hX, hc⟩ := hS.create
    refine ⟨fun i ω => (X i ω, z0, P0), fun ω => congrArg _ (hc ω), fun i => ⟨fun _ => hP0, fun g hg => ?_⟩⟩
    have hgm : Measurable fun x : VecR lxi => ∫⁻ z, g (x, z) ∂Spec.gauss z0 P0 := hg.lintegral_prod_right'
    have e : ∀ ω, ∫⁻ s, g s ∂rbLaw (X i ω, z0, P0) = (fun x => ∫⁻ z, g (x, z) ∂Spec.gauss z0 P0) (X i ω) := fun ω => lintegral_rbLaw _ hg
    simp only [e]
    refine ⟨hgm.comp (hX i).1, ?_⟩
    rw [lintegral_prod _ hg.aemeasurable, ← (hX i).2, lintegral_map hgm (hX i).1]
  move x u k hx := by
    have hP : ∀ p ∈ List.ofFn x, p.2.2.PosSemidef := fun p hp => by obtain ⟨i, rfl⟩ := (List.mem_ofFn' _ _).1 hp; exact hx i
    obtain ⟨X, hX, hxi⟩ := hS.move x u k
    have hup := fun ω => C76_update_exact hD hG (List.ofFn x) hP u k (noise (List.ofFn x) u k ω) (by rw [hxi]; simp)
    have hgz : ∀ i : Fin N, ∃ z P, P.PosSemidef ∧ M.nextZ (x i) u k = Spec.gauss z P ∧ ∀ ω, ∃ r, hiUpdate H kf (List.ofFn x) u k
        (noise (List.ofFn x) u k ω) = .ok r ∧ r.length = N ∧ r[(i : ℕ)]? = some (X i ω, z, P) := by
      intro i
      refine ⟨M.fz (x i).1 u k + M.Az (x i).1 u k *ᵥ (x i).2.1, M.Az (x i).1 u k * (x i).2.2 * (M.Az (x i).1 u k)ᵀ + M.Qz (x i).1 u k,
        (posSemidef_conj (hx i) _).add (hG.Qz _ u k), nextZ_eq hG _ (hx i) u k, fun ω => ?_⟩
      obtain ⟨r, h1, h2, h3⟩ := hup ω
      refine ⟨r, h1, by simpa using h2, ?_⟩
      have h4 := hiUpdate_entry hD (List.ofFn x) u k (noise (List.ofFn x) u k ω) (by rw [hxi]; simp) h1 i (x i) (X i ω) (by simp) (by rw [hxi]; simp)
      exact h4
    choose z P hPP hnz hr using hgz
    refine ⟨fun i ω => (X i ω, z i, P i), fun ω => ⟨_, rfl, ?_⟩, fun i => ⟨fun _ => hPP i, fun g hg => ?_⟩⟩
    · show hiUpdate H kf (List.ofFn x) u k _ = _
      obtain ⟨r, h1, h2, -⟩ := hr ⟨0, hN⟩ ω
      rw [h1]
      congr 1
      refine ofFn_of_getElem? h2 fun i => ?_
      obtain ⟨r', h1', -, h3⟩ := hr i ω
      cases h1.symm.trans h1'
      exact h3
    · have hgm : Measurable fun a : VecR lxi => ∫⁻ ζ, g (a, ζ) ∂Spec.gauss (z i) (P i) := hg.lintegral_prod_right'
      have e : ∀ ω, ∫⁻ s, g s ∂rbLaw (X i ω, z i, P i) = (fun a => ∫⁻ ζ, g (a, ζ) ∂Spec.gauss (z i) (P i)) (X i ω) := fun ω => lintegral_rbLaw _ hg
      simp only [e]
      refine ⟨hgm.comp (hX i).1, ?_⟩
      have hmap : ∫⁻ ω, ∫⁻ ζ, g (X i ω, ζ) ∂Spec.gauss (z i) (P i) ∂ν = ∫⁻ a, ∫⁻ ζ, g (a, ζ) ∂Spec.gauss (z i) (P i) ∂κ k u (x i).1 := by
        rw [← (hX i).2, lintegral_map hgm (hX i).1]
      rw [hmap, lintegral_rbLaw _ (Measurable.lintegral_kernel hg)]
      have hv : ∀ ζ0 : VecR lz, Measurable fun v : VecR lz => M.Az (x i).1 u k *ᵥ ζ0 + M.fz (x i).1 u k + v := fun _ => by fun_prop
      have e1 : ∀ ζ0 : VecR lz, ∫⁻ s', g s' ∂K k u ((x i).1, ζ0) =
          ∫⁻ a, ∫⁻ v, g (a, M.Az (x i).1 u k *ᵥ ζ0 + M.fz (x i).1 u k + v) ∂Spec.gauss 0 (M.Qz (x i).1 u k) ∂κ k u (x i).1 := by
        intro ζ0
        haveI : IsProbabilityMeasure ((Spec.gauss (0 : VecR lz) (M.Qz (x i).1 u k)).map fun v => M.Az (x i).1 u k *ᵥ ζ0 + M.fz (x i).1 u k + v) :=
          Measure.isProbabilityMeasure_map (hv ζ0).aemeasurable
        rw [hK, Spec.HiModel.joint, lintegral_prod _ hg.aemeasurable]
        refine lintegral_congr fun a => ?_
        rw [lintegral_map (by fun_prop) (hv ζ0)]
      have e2 : ∀ a : VecR lxi, ∫⁻ ζ, g (a, ζ) ∂Spec.gauss (z i) (P i) = ∫⁻ ζ0, ∫⁻ v, g (a, M.Az (x i).1 u k *ᵥ ζ0 + M.fz (x i).1 u k + v)
          ∂Spec.gauss 0 (M.Qz (x i).1 u k) ∂Spec.gauss (x i).2.1 (x i).2.2 := by
        intro a
        have hm : Measurable fun q : VecR lz × VecR lz => M.Az (x i).1 u k *ᵥ q.1 + M.fz (x i).1 u k + q.2 := Continuous.measurable (by fun_prop)
        rw [← hnz i, Spec.HiModel.nextZ, lintegral_map (by fun_prop) hm, lintegral_prod]
        exact Measurable.aemeasurable (by fun_prop)
      simp only [e1, e2]
      rw [lintegral_lintegral_swap]
      have hj : Measurable fun q : (VecR lxi × VecR lz) × VecR lz => g (q.1.1, M.Az (x i).1 u k *ᵥ q.1.2 + M.fz (x i).1 u k + q.2) := by
        have : Measurable fun q : (VecR lxi × VecR lz) × VecR lz => M.Az (x i).1 u k *ᵥ q.1.2 + M.fz (x i).1 u k + q.2 := Continuous.measurable (by fun_prop)
        fun_prop
      exact hj.lintegral_prod_right'.aemeasurable
  measure x y k hy hx := by
    obtain ⟨y, rfl⟩ := hy
    have hP : ∀ p ∈ List.ofFn x, p.2.2.PosSemidef := fun p hp => by obtain ⟨i, rfl⟩ := (List.mem_ofFn' _ _).1 hp; exact hx i
    have hne : List.ofFn x ≠ [] := by intro h; have := congrArg List.length h; simp at this; omega
    obtain ⟨r, ll, h1, h2, h3, h4⟩ := C76_measure_exact hD hG (List.ofFn x) hne hP y k (by rw [hS.measure]; simp)
    choose z P dl e1 e2 e3 e4 using fun i : Fin N => h4 i (x i) (lnl k y (x i).1) (by simp) (by rw [hS.measure]; simp)
    refine ⟨fun i => ((x i).1, z i, P i), fun i => lnl k y (x i).1 + dl i, ?_, fun i => ⟨e3 i, ?_⟩⟩
    · show hiMeasure H kf (List.ofFn x) y k = _
      rw [h1, ← ofFn_of_getElem? (by simpa using h2) e1, ← ofFn_of_getElem? (by simpa using h3) e2]
    · refine Measure.ext fun A hA => ?_
      have hmap : Measurable fun ζ : VecR lz => ((x i).1, ζ) := by fun_prop
      have hd : Measurable fun s : VecR lxi × VecR lz => ENNReal.ofReal (exp (M.loglik lnl k (.obj y) s)) :=
        (measurable_exp.comp (hmeas k (.obj y))).ennreal_ofReal
      have h5 := congrArg (fun μ : Measure (VecR lz) => μ ((fun ζ => ((x i).1, ζ)) ⁻¹' A)) (e4 i)
      simp only [withDensity_apply _ (hmap hA), Measure.smul_apply, smul_eq_mul] at h5
      rw [withDensity_apply _ hA, rbLaw, setLIntegral_map hA hd hmap, Measure.smul_apply, rbLaw, Measure.map_apply hmap hA, smul_eq_mul,
        exp_add, ENNReal.ofReal_mul (exp_pos _).le, mul_assoc, ← h5, ← lintegral_const_mul']
      · refine lintegral_congr fun ζ => ?_
        show ENNReal.ofReal (exp (lnl k y (x i).1 + _)) = _
        rw [exp_add, ENNReal.ofReal_mul (exp_pos _).le]
        rfl
      · exact ENNReal.ofReal_ne_top
  meas := hmeas

/-- **C99** for hierarchical models: the likelihood estimate times the filtered mean of `E[φ(xi, z) | particle]` is an unbiased estimate of
`E[Π_t p(y_t | xi_t, z_t) φ(xi_T, z_T)]` under the joint model: `xi` moves by `κ`, `z' = Az(xi) z + fz(xi) + vz`, every measurement has the
log-density `lnl(xi)` plus that of `C z + h + e`. -/
theorem C99_hierarchical [MeasurableSpace Ω] {H : HiHooks lxi lz ly (Slot U) ℕ Y Noise} {kf : KF lz ly} {M : Spec.HiModel lxi lz ly (Slot U) ℕ Y}
    (hD : Spec.HiDescribes H kf M) (hG : M.Good) {create : ℕ → Ω → List (RbP lxi lz)} {noise : List (RbP lxi lz) → Slot U → ℕ → Ω → List Noise}
    {ν : Measure Ω} [IsProbabilityMeasure ν] {N : ℕ} (hN : 0 < N) {μξ : Measure (VecR lxi)} [IsProbabilityMeasure μξ] {z0 : VecR lz} {P0 : MatR lz lz}
    (hP0 : P0.PosSemidef) {κ : ℕ → Slot U → Kernel (VecR lxi) (VecR lxi)} [∀ t u, IsMarkovKernel (κ t u)] {lnl : ℕ → Y → VecR lxi → ℝ}
    (hS : Spec.HiSamples H create noise ν N μξ z0 P0 κ lnl)
    {K : ℕ → Slot U → Kernel (VecR lxi × VecR lz) (VecR lxi × VecR lz)} (hK : ∀ t u s, K t u s = M.joint κ t u s)
    (hmeas : ∀ t y, Measurable (M.loglik lnl t y)) (res : ℝ) {φ : VecR lxi × VecR lz → ℝ≥0∞} (hφ : Measurable φ) {T : Option ℕ}
    {s0 : PT (RbP lxi lz) U Y} (hs : PT.init N T 0 = .ok s0) (y0 : Y) (qs : List (Slot U × Y)) :
    ∫⁻ ω, stepsE ν (qs.map fun q => (q.1, .obj q.2)) (fun ds => runEstimate (fun p => ∫⁻ z, φ (p.1, z) ∂Spec.gauss p.2.1 p.2.2)
          (s0.run (rbfOps (hiMarkov H kf create noise) res) (history (some (.obj y0, ω)) ds))) ∂ν =
      ∫⁻ x, ∫⁻ z, ENNReal.ofReal (exp (lnl 0 y0 x + Spec.logNormal (M.R x y0 0) (M.y y0 0 - M.C x y0 0 *ᵥ z - M.h x y0 0))) *
        pathE K (M.loglik lnl) φ 0 (qs.map fun q => (q.1, .obj q.2)) (x, z) ∂Spec.gauss z0 P0 ∂μξ := by
  have h := (C99_unbiased hN (hi_samples hD hG hN hP0 hS hK hmeas) res hφ hs (qs.map fun q => (q.1, .obj q.2)) (by
    intro q hq
    obtain ⟨q', -, rfl⟩ := List.mem_map.mp hq
    exact ⟨_, rfl⟩)).1 (.obj y0) ⟨_, rfl⟩
  simp only [lintegral_rbLaw _ hφ] at h
  rw [h, lintegral_prod]
  · rfl
  · exact ((measurable_exp.comp (hmeas 0 (.obj y0))).ennreal_ofReal.mul (pathE_measurable K hmeas hφ _ 0)).aemeasurable

/-! ### A concrete case -/

/-- `xi' = xi + v`, `z' = z/2 + xi + w`, `y = z + e`, and `y` also observes `xi` with the log-density `-(y - xi)²`. -/
noncomputable def hifToyH : HiHooks 1 1 1 (Slot ℝ) ℕ ℝ (VecR 1) where
  lin xs _ _ := (none, some (xs.map fun x => x), none)
  meas _ y _ := (fun _ => y, none, none, none)
  measNonlin parts y _ := parts.map fun p => -(y - p.1 0) ^ 2
  xiNext parts _ _ noise := List.zipWith (fun p n => p.1 + n) parts noise
  logpXi _ _ _ _ := []
  logpXiMax _ _ _ := []

/-- Its Kalman object. -/
noncomputable def hifToyK : KF 1 1 := KF.new (some !![1 / 2]) (some !![1]) (some !![1 / 10]) (some !![1]) none (some 0)

/-- The model on paper. -/
noncomputable def hifToyM : Spec.HiModel 1 1 1 (Slot ℝ) ℕ ℝ where
  Az _ _ _ := !![1 / 2]
  fz x _ _ := x
  Qz _ _ _ := !![1 / 10]
  C _ _ _ := !![1]
  h _ _ _ := 0
  R _ _ _ := !![1]
  y y _ := fun _ => y

theorem hifToy_describes : Spec.HiDescribes hifToyH hifToyK hifToyM := by
  constructor <;> intros <;> simp_all [Spec.Gives, hifToyH, hifToyK, hifToyM, KF.new, KF.setDynamics]

theorem hifToy_good : hifToyM.Good :=
  ⟨fun _ _ _ => (posDef_one_iff.2 (by simp [hifToyM])).posSemidef, fun _ _ _ => posDef_one_iff.2 (by simp [hifToyM])⟩

theorem hifToy_samples (N : ℕ) : Spec.HiSamples hifToyH (fun _ (ω : Fin N → VecR 1) => List.ofFn fun i => (ω i, 0, 1)) (fun _ _ _ ω => List.ofFn ω)
    (normals N 1) N (Spec.gauss 0 1) 0 1 (fun _ _ => gaussKernel id measurable_id 1) (fun _ y x => -(y - x 0) ^ 2) where
  create := ⟨fun i ω => ω i, fun i => ⟨measurable_pi_apply i, (measurePreserving_eval (fun _ : Fin N => Spec.gauss (0 : VecR 1) 1) i).map_eq⟩, fun _ => rfl⟩
  move x u k := by
    refine ⟨fun i ω => (x i).1 + ω i, fun i => ⟨by fun_prop, ?_⟩, fun ω => ?_⟩
    · rw [gaussKernel_apply _ PosSemidef.one, ← gauss_shift PosSemidef.one (id (x i).1)]
      have h := (measurePreserving_eval (fun _ : Fin N => Spec.gauss (0 : VecR 1) 1) i).map_eq
      conv_rhs => rw [← h]
      rw [Measure.map_map (by fun_prop) (by fun_prop)]
      rfl
    · show List.zipWith _ (List.ofFn x) (List.ofFn ω) = _
      rw [zipWith_ofFn']
  measure x y k := by
    show List.map _ (List.ofFn x) = _
    rw [List.map_ofFn]; rfl

/-- C99: the hypotheses are met by a filter with three particles on this model. -/
example (y0 y1 y2 : ℝ) : ∃ (K : ℕ → Slot ℝ → Kernel (VecR 1 × VecR 1) (VecR 1 × VecR 1)) (s0 : PT (RbP 1 1) ℝ ℝ),
    (∀ t u s, K t u s = hifToyM.joint (fun _ _ => gaussKernel id measurable_id 1) t u s) ∧
    ∫⁻ ω, stepsE (normals 3 1) [(.none, .obj y1), (.none, .obj y2)]
        (fun ds => runEstimate (fun p => ∫⁻ z, ENNReal.ofReal (z 0 ^ 2 + p.1 0 ^ 2) ∂Spec.gauss p.2.1 p.2.2)
          (s0.run (rbfOps (hiMarkov hifToyH hifToyK (fun _ (ω : Fin 3 → VecR 1) => List.ofFn fun i => (ω i, 0, 1)) (fun _ _ _ ω => List.ofFn ω)) 0.5)
            (history (some (.obj y0, ω)) ds))) ∂(normals 3 1) =
      ∫⁻ x, ∫⁻ z, ENNReal.ofReal (exp (-(y0 - x 0) ^ 2 + Spec.logNormal !![1] ((fun _ => y0) - !![1] *ᵥ z - 0))) *
        pathE K (hifToyM.loglik fun _ y x => -(y - x 0) ^ 2) (fun s => ENNReal.ofReal (s.2 0 ^ 2 + s.1 0 ^ 2)) 0
          [(.none, .obj y1), (.none, .obj y2)] (x, z) ∂Spec.gauss (0 : VecR 1) 1 ∂Spec.gauss (0 : VecR 1) 1 := by
  have hκ : ∀ x, gaussKernel (n := 1) id measurable_id 1 x = Spec.gauss x 1 := fun x => gaussKernel_apply _ PosSemidef.one x
  haveI : IsMarkovKernel (gaussKernel (n := 1) id measurable_id 1) := ⟨fun x => by rw [hκ]; infer_instance⟩
  have hf : Measurable fun q : (VecR 1 × VecR 1) × (VecR 1 × VecR 1) => (q.1.1 + q.2.1, (!![1 / 2] : MatR 1 1) *ᵥ q.1.2 + q.1.1 + q.2.2) :=
    Continuous.measurable (by fun_prop)
  have hK : ∀ (t : ℕ) (u : Slot ℝ) s, (fun (_ : ℕ) (_ : Slot ℝ) => (Kernel.deterministic id measurable_id ×ₖ Kernel.const _ ((Spec.gauss (0 : VecR 1) 1).prod
      (Spec.gauss (0 : VecR 1) !![1 / 10]))).map fun q : (VecR 1 × VecR 1) × (VecR 1 × VecR 1) =>
        (q.1.1 + q.2.1, (!![1 / 2] : MatR 1 1) *ᵥ q.1.2 + q.1.1 + q.2.2)) t u s = hifToyM.joint (fun _ _ => gaussKernel id measurable_id 1) t u s := by
    intro t u s
    beta_reduce
    rw [Kernel.map_apply _ hf, Kernel.prod_apply, Kernel.deterministic_apply, Kernel.const_apply, Measure.dirac_prod,
      Measure.map_map hf (by fun_prop), Spec.HiModel.joint, hκ, ← gauss_shift PosSemidef.one s.1, Measure.map_prod_map _ _ (by fun_prop) (by fun_prop)]
    rfl
  obtain ⟨s0, hs⟩ : ∃ s0 : PT (RbP 1 1) ℝ ℝ, PT.init 3 none 0 = .ok s0 := ⟨_, rfl⟩
  have h := C99_hierarchical hifToy_describes hifToy_good (N := 3) (by omega) PosSemidef.one (hifToy_samples 3) hK
    (fun t y => by
      cases y with
      | obj y =>
        have : Continuous fun s : VecR 1 × VecR 1 => -(y - s.1 0) ^ 2 + Spec.logNormal (!![1] : MatR 1 1) ((fun _ => y) - !![1] *ᵥ s.2 - 0) :=
          Continuous.add (by fun_prop) ((continuous_logNormal _).comp (by fun_prop))
        exact this.measurable
      | _ => exact measurable_const) 0.5 (φ := fun s => ENNReal.ofReal (s.2 0 ^ 2 + s.1 0 ^ 2)) (by fun_prop) hs y0 [(.none, y1), (.none, y2)]
  exact ⟨_, s0, hK, h⟩

end PyPE

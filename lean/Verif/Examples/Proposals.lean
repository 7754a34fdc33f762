import Verif.Examples.Basic

/-!
# C109, continued: `basic_model_sir.py` and `basic_model_propy.py`, and the documented variances
-/

namespace PyPE
open Real Spec MeasureTheory ProbabilityTheory Matrix
open scoped ENNReal

variable {U : Type}

/-! ### Runs that only go forward -/

/-- Runs of `forward` calls do not depend on what `measure` does. -/
theorem run_forward_congr {P Y V Ω : Type} {F F' : FilterOps P U Y V Ω} (hc : F.create = F'.create) (hf : F.forward = F'.forward)
    (ops : List (Op U Y Ω)) (hops : ∀ op ∈ ops, ∃ u y ω0 d, op = .forward u y ω0 d) (s : PT P U Y) : s.run F ops = s.run F' ops := by
  induction ops generalizing s with
  | nil => rfl
  | cons op ops ih =>
    obtain ⟨u, y, ω0, d, rfl⟩ := hops op List.mem_cons_self
    have hi : s.ensureInit F ω0 = s.ensureInit F' ω0 := by unfold PT.ensureInit; rw [hc]
    have hs : s.step F (.forward u y ω0 d) = s.step F' (.forward u y ω0 d) := by
      have hw : s.forward F u y ω0 d = s.forward F' u y ω0 d := by
        unfold PT.forward
        rw [hi, hf]
      simp only [PT.step, hw]
    unfold PT.run
    rw [hs]
    rcases s.step F' (.forward u y ω0 d) with ⟨s', _ | _⟩
    · rfl
    · simp only [ih (fun op h => hops op (List.mem_cons_of_mem _ h))]

/-- If the model's part of `measure` raises, so does the run that starts with it. -/
theorem run_measure_raises {P Y V Ω : Type} {F : FilterOps P U Y V Ω} (hp : F.usingPfy = false) {N : ℕ} {T : Option ℕ} {s0 : PT P U Y}
    (hs : PT.init N T 0 = .ok s0) {part : List P} {ω : Ω} (hc : F.create N ω = .ok part) (hpart : part ≠ []) {e : PyErr}
    (hm : ∀ tr anc pa uv yv tv cur, F.measure tr anc pa uv yv tv cur = .error e) (y : Slot Y) (ops : List (Op U Y Ω)) :
    (s0.run F (.measure y ω :: ops)).2 = .error e := by
  have hinv := PT.init_inv hs
  obtain ⟨hN, htr⟩ := init_N hs
  have hg : s0.growMeasure.N = N ∧ s0.growMeasure.traj = [] := by
    unfold PT.growMeasure
    split <;> exact ⟨hN, htr⟩
  unfold PT.run PT.step
  simp only [PT.measure_eq hp hinv]
  rcases s0.growMeasure.ensureInit_cases F ω with ⟨h1, -⟩ | ⟨-, e', h2, h3⟩ | ⟨h1, part', pa, -, -, h2⟩
  · exact absurd hg.2 h1
  · exfalso
    rw [PT.ensureInit, if_pos (by rw [hg.2]; rfl)] at h2
    simp only [hg.1, hc] at h2
    obtain ⟨pa, hpa⟩ : ∃ pa, PA.new part none = .ok pa := by
      cases part with
      | nil => exact absurd rfl hpart
      | cons x l => exact ⟨_, rfl⟩
    rw [hpa] at h2
    cases congrArg Prod.snd h2
  · rw [h2]
    have : getLast [({ pa := pa, ancestors := List.range s0.growMeasure.N } : Step P)] = .ok ⟨pa, List.range s0.growMeasure.N⟩ := rfl
    simp only [this, hm]

/-! ### `basic_model_sir.py` -/

/-- The mean of `qsample` (basic_model_sir.py:33-41): `x + P Cᵀ S⁻¹ (y - x)` with `C = 1`, `P = Q`, `S = Q + R`. -/
noncomputable def sirMean (q r : ℝ) (y x : Fin 1 → ℝ) : Fin 1 → ℝ := fun _ => x 0 + q * ((y 0 - x 0) / (q + r))

/-- The variance of `qsample` (basic_model_sir.py:38): `P - P Cᵀ S⁻¹ C P`. -/
noncomputable def sirVar (q r : ℝ) : ℝ := q - q * (q / (q + r))

/-- `class Model` of basic_model_sir.py:21-71, with `Q` and `R` arrays with one entry (lines 78-79) and `P0` a number (line 77).
`scipy.linalg.solve` raises `LinAlgError` if `S = Q + R` is 0; `numpy.random.multivariate_normal(m, Pn)` is `m + √Pn w` with a standard normal `w`
(numpy takes the root of the singular value `|Pn|`). `interfaces.SIR` (interfaces.py:9-61) has no `measure_full`, `sample_process_noise_full`,
`update_full`, `eval_1st_stage_weights`, `logp_xnext_singlestep` and `propose_from_y`. -/
noncomputable def sirModel (N : ℕ) (p0 q r : ℝ) : Callbacks (Fin 1 → ℝ) U (Fin 1 → ℝ) Unit (Fin N → Fin 1 → ℝ) where
  createInitial k ω := npNormal 0 p0 ((List.ofFn ω).take k)
  sampleNoise _ _ _ _ _ := .error .attributeError
  update _ _ _ _ _ _ _ := .error .attributeError
  measure _ _ _ _ _ _ := .error .attributeError
  evalFirstStage _ _ _ _ := .error .attributeError
  logpXnextSingle _ _ _ _ _ _ _ _ _ := .error .attributeError
  proposeFromY _ _ _ _ := .error .attributeError
  qsample part _ y _ ω := match y with
    | .obj y => if q + r = 0 then .error .linAlgError
      else .ok (List.zipWith (fun x w _ => sirMean q r y x 0 + √|sirVar q r| * w 0) part (List.ofFn ω))
    | _ => .error .typeError
  logpQ part next _ y _ := match y with
    | .obj y => if q + r = 0 then .error .linAlgError
      else (List.zip part next).mapM fun p => lognormpdf (sirMean q r y p.1 - p.2) !![sirVar q r]
    | _ => .error .typeError
  logpXnext part next _ _ := (List.zip part next).mapM fun p => lognormpdf (p.1 - p.2) !![q]
  sirMeasure part y _ := basicMeasure r part y

theorem sirVar_eq {q r : ℝ} (hq : 0 < q) (hr : 0 < r) : sirVar q r = q * r / (q + r) := by
  have : q + r ≠ 0 := by positivity
  unfold sirVar
  field_simp
  ring

theorem sirVar_pos {q r : ℝ} (hq : 0 < q) (hr : 0 < r) : 0 < sirVar q r := by
  rw [sirVar_eq hq hr]
  positivity

/-- C109, the proposal of `basic_model_sir.py` is the optimal one: the weight it gives to a new particle is the density of the measurement
given the *old* particle, whatever was drawn. -/
theorem C109_sir_weights {q r : ℝ} (hq : 0 < q) (hr : 0 < r) (x x' y : Fin 1 → ℝ) :
    logNormal !![r] (x' - y) + logNormal !![q] (x - x') - logNormal !![sirVar q r] (sirMean q r y x - x') = logNormal !![q + r] (y - x) := by
  have hv := sirVar_pos hq hr
  have hs : 0 < q + r := by positivity
  rw [logNormal_single _ hr, logNormal_single _ hq, logNormal_single _ hv, logNormal_single _ hs, sirVar_eq hq hr,
    Real.log_div (by positivity) hs.ne', Real.log_mul hq.ne' hr.ne']
  simp only [Pi.sub_apply, sirMean]
  have h1 := hq.ne'
  have h2 := hr.ne'
  have h3 := hs.ne'
  field_simp
  ring

theorem zip_mapM_ofFn {N : ℕ} {α β : Type} (x : Fin N → α) (x' : Fin N → β) {f : α × β → PyM ℝ} {g : α → β → ℝ}
    (h : ∀ a b, f (a, b) = .ok (g a b)) : (List.zip (List.ofFn x) (List.ofFn x')).mapM f = .ok (List.ofFn fun i => g (x i) (x' i)) := by
  rw [mapM_ok_map (g := fun p => g p.1 p.2) fun p _ => h p.1 p.2]
  congr 1
  rw [List.zip, List.map_zipWith, zipWith_ofFn']

/-- The model of `basic_model_sir.py` with a `measure_full` that forwards to `measure`. -/
noncomputable def sirPatched (N : ℕ) (p0 q r : ℝ) : Callbacks (Fin 1 → ℝ) U (Fin 1 → ℝ) Unit (Fin N → Fin 1 → ℝ) :=
  { sirModel N p0 q r with measure := fun part _ _ yv _ _ => do basicMeasure r part (← getLast yv) }

/-- The value of a slot that holds a number. -/
def slotNum : Slot (Fin 1 → ℝ) → Fin 1 → ℝ
  | .obj y => y
  | _ => 0

theorem sirMean_measurable (q r : ℝ) (y : Fin 1 → ℝ) : Measurable (sirMean q r y) := by unfold sirMean; fun_prop

theorem sir_samples {p0 q r : ℝ} (hp : 0 ≤ p0) (hq : 0 < q) (hr : 0 < r) (N : ℕ) :
    Spec.SirSamples (sirPatched (U := U) N p0 q r) IsObj (normals N 1) N volume (gauss 0 !![p0 ^ 2]) (randomWalk U q r).kernel (randomWalk U q r).lik
      (fun _ _ y => gaussKernel (sirMean q r (slotNum y)) (sirMean_measurable _ _ _) !![sirVar q r])
      (fun _ _ y x x' => logNormal !![sirVar q r] (sirMean q r (slotNum y) x - x')) (fun _ _ x x' => logNormal !![q] (x - x')) := by
  have hv := sirVar_pos hq hr
  have hln : ∀ s : ℝ, Measurable (logNormal !![s] : (Fin 1 → ℝ) → ℝ) := fun s => (continuous_logNormal _).measurable
  have hs : q + r ≠ 0 := by positivity
  refine ⟨?_, ?_, ?_, ?_, ?_, ?_, ?_, ?_, LinearModel.lik_measurable _, ?_, ?_⟩
  · refine ⟨fun i ω _ => 0 + p0 * ω i 0, fun i => ⟨scaled_measurable i _ _, ?_⟩, fun ω => ?_⟩
    · exact scaled_law i 0 p0
    · show npNormal 0 p0 ((List.ofFn ω).take N) = _
      rw [take_ofFn, npNormal_ok hp]
  · rintro x u _ k ⟨y, rfl⟩
    refine ⟨fun i ω _ => sirMean q r y (x i) 0 + √|sirVar q r| * ω i 0, fun i => ⟨scaled_measurable i _ _, ?_⟩, fun ω => ?_⟩
    · rw [gaussKernel_apply _ (single_posSemidef hv.le), scaled_law i (sirMean q r y (x i)), sq_sqrt (abs_nonneg _), abs_of_pos hv]
      rfl
    · show (if q + r = 0 then _ else _) = _
      rw [if_neg hs, zipWith_ofFn']
  · rintro x x' u _ k ⟨y, rfl⟩
    show (if q + r = 0 then _ else _) = _
    rw [if_neg hs]
    obtain ⟨c, -, h, -⟩ := C42_helpers_agree !![sirVar q r] (single_posDef hv)
    exact zip_mapM_ofFn x x' (g := fun a b => logNormal !![sirVar q r] (sirMean q r y a - b)) fun a b => h _
  · intro x x' u k
    obtain ⟨c, -, h, -⟩ := C42_helpers_agree !![q] (single_posDef hq)
    exact zip_mapM_ofFn x x' (g := fun a b => logNormal !![q] (a - b)) fun a b => h _
  · rintro x _ k ⟨y, rfl⟩
    show basicMeasure r (List.ofFn x) (.obj y) = _
    rw [basicMeasure_ok (U := U) hr q _ y k, List.map_ofFn]
    rfl
  · rintro x _ k tr uv yv tv anc ⟨y, rfl⟩ hy -
    show (do basicMeasure r (List.ofFn x) (← getLast yv)) = _
    rw [hy, ok_bind, basicMeasure_ok (U := U) hr q _ y k, List.map_ofFn]
    rfl
  · intro k u y x
    rw [gaussKernel_apply _ (single_posSemidef hv.le), gauss_density (single_posDef hv)]
    congr 1
    funext x'
    rw [← logNormal_neg, neg_sub]
  · intro k u x
    rw [LinearModel.kernel_apply _ (fun _ _ => single_posSemidef hq.le), walk_next]
    show gauss x !![q] = _
    rw [gauss_density (single_posDef hq)]
    congr 1
    funext x'
    rw [← logNormal_neg, neg_sub]
  · intro k u y x
    exact (hln _).comp (by fun_prop)
  · intro k u x
    exact (hln _).comp (by fun_prop)

/-- C109, `basic_model_sir.py` with the `sir` filter and a run of `forward` calls: for positive `Q` and `R` and non-negative `P0`, any number of
particles and any resampling threshold, the estimates have as means what the Kalman filter returns for the documented walk, started with
variance `P0²`. -/
theorem C109_sir_example {p0 q r : ℝ} (hp : 0 ≤ p0) (hq : 0 < q) (hr : 0 < r) {N : ℕ} (hN : 0 < N) {res : ℝ} {name : String}
    {opts : FilterOptions (Fin 1 → ℝ)} (hn : parseFilter name = .ok .sir) {F : FilterOps (Fin 1 → ℝ) U (Fin 1 → ℝ) _ _}
    (hF : mkFilter (sirModel N p0 q r) N res name opts = .ok F) {T : Option ℕ} {s0 : PT (Fin 1 → ℝ) U (Fin 1 → ℝ)}
    (hs : PT.init N T 0 = .ok s0) (qs : List (Slot U × (Fin 1 → ℝ))) (hne : qs ≠ []) :
    ∃ z P ll, kfData 0 !![p0 ^ 2] ((randomWalk U q r).data 0 qs) = .ok (z, P, ll) ∧
      ∀ φ : (Fin 1 → ℝ) → ℝ≥0∞, Measurable φ →
        runE (normals N 1) F s0 none (asSlots qs) (runEstimate φ) = ENNReal.ofReal (exp ll) * ∫⁻ x, φ x ∂(gauss z P) := by
  obtain ⟨z, P, ll, h1, h2⟩ := kalman_value (randomWalk U q r) (fun _ _ => single_posSemidef hq.le) (fun _ => single_posDef hr) 0
    (single_posSemidef (sq_nonneg p0)) none qs
  refine ⟨z, P, ll, h1, fun φ hφ => ?_⟩
  rw [← h2 φ hφ]
  obtain rfl := mkFilter_sir hn hF
  have hF' : mkFilter (sirPatched (U := U) N p0 q r) N res name opts = .ok (sirOps (sirPatched N p0 q r) res) := by
    unfold mkFilter
    rw [hn, ok_bind]; rfl
  have hu := (C89_sir_unbiased hN (sir_samples hp hq hr N) hn hF' hφ hs (asSlots qs) (asSlots_isObj qs)).2 (by
    intro h
    cases qs with
    | nil => exact hne rfl
    | cons => cases h)
  simp only [runE, Option.map_none, exactValue, startWeight, ENNReal.ofReal_one, one_mul]
  rw [← hu]
  congr 1
  funext ds
  rw [run_forward_congr (F := sirOps (sirModel N p0 q r) res) (F' := sirOps (sirPatched N p0 q r) res) rfl rfl]
  intro op hop
  rw [history, List.nil_append] at hop
  obtain ⟨q', -, rfl⟩ := List.mem_map.mp hop
  exact ⟨_, _, _, _, rfl⟩

/-- C109, `basic_model_sir.py` with `meas_first`: the run raises `AttributeError`, because `interfaces.SIR` has no `measure_full`. -/
theorem C109_sir_measure_raises {p0 q r : ℝ} (hp : 0 ≤ p0) {N : ℕ} (hN : 0 < N) {res : ℝ} {name : String}
    {opts : FilterOptions (Fin 1 → ℝ)} (hn : parseFilter name = .ok .sir) {F : FilterOps (Fin 1 → ℝ) U (Fin 1 → ℝ) _ _}
    (hF : mkFilter (sirModel N p0 q r) N res name opts = .ok F) {T : Option ℕ} {s0 : PT (Fin 1 → ℝ) U (Fin 1 → ℝ)}
    (hs : PT.init N T 0 = .ok s0) (y : Slot (Fin 1 → ℝ)) (ω : Fin N → Fin 1 → ℝ) (ops : List (Op U (Fin 1 → ℝ) _)) :
    (s0.run F (.measure y ω :: ops)).2 = .error .attributeError := by
  obtain rfl := mkFilter_sir hn hF
  have hc : (sirOps (sirModel (U := U) N p0 q r) res).create N ω = .ok (List.ofFn fun i _ => 0 + p0 * ω i 0) := by
    show npNormal 0 p0 ((List.ofFn ω).take N) = _
    rw [take_ofFn, npNormal_ok hp]
  refine run_measure_raises rfl hs hc ?_ (fun _ _ _ _ _ _ _ => rfl) y ops
  intro h
  have := congrArg List.length h
  simp at this
  omega

/-! ### `basic_model_propy.py` -/

/-- `class Model` of basic_model_propy.py:21-60 with arrays `Q` and `R` with one entry (lines 73-74). `propose_from_y` and
`create_initial_estimate` use the square roots of the variances (for negative ones `numpy.sqrt` gives NaN; here 0); `logp_xnext` is reached through
`FFBSi.logp_xnext_singlestep` (interfaces.py:380-407). -/
noncomputable def propyModel (N : ℕ) (p0 q r : ℝ) : Callbacks (Fin 1 → ℝ) U (Fin 1 → ℝ) Unit (Fin N → Fin 1 → ℝ) where
  createInitial k ω := npNormal 0 (√p0) ((List.ofFn ω).take k)
  sampleNoise _ _ _ _ _ := .error .attributeError
  update _ _ _ _ _ _ _ := .error .attributeError
  measure _ _ _ _ _ _ := .error .attributeError
  evalFirstStage _ _ _ _ := .error .attributeError
  logpXnextSingle part _ _ fut find uv _ tv cur := do
    let next ← fancy fut find
    let _ ← getIdx uv cur
    let _ ← getIdx tv cur
    let diff ← npSub (next.map (· 0)) (part.map (· 0))
    lognormpdfScalar diff q
  proposeFromY k y _ ω := match y with
    | .obj y => npNormal (y 0) (√r) ((List.ofFn ω).take k)
    | _ => .error .typeError
  qsample _ _ _ _ _ := .error .attributeError
  logpQ _ _ _ _ _ := .error .attributeError
  logpXnext part next _ _ := do
    let diff ← npSub (next.map (· 0)) (part.map (· 0))
    lognormpdfScalar diff q
  sirMeasure _ _ _ := .error .attributeError

theorem propy_samples {p0 q r : ℝ} (hp : 0 ≤ p0) (hq : 0 < q) (hr : 0 < r) (N : ℕ) :
    Spec.PfySamples (propyModel (U := U) N p0 q r) IsObj (normals N 1) N volume (gauss 0 !![p0]) (randomWalk U q r).kernel (randomWalk U q r).lik
      (fun _ y => gauss (slotNum y) !![r]) (fun _ _ => 1) (fun _ _ x x' => logNormal !![q] (x' - x)) where
  create := by
    refine ⟨fun i ω _ => 0 + √p0 * ω i 0, fun i => ⟨scaled_measurable i _ _, ?_⟩, fun ω => ?_⟩
    · have := scaled_law i (0 : Fin 1 → ℝ) (√p0)
      rwa [sq_sqrt hp] at this
    · show npNormal 0 (√p0) ((List.ofFn ω).take N) = _
      rw [take_ofFn, npNormal_ok (sqrt_nonneg _)]
  propose := by
    rintro _ k ⟨y, rfl⟩
    refine ⟨fun i ω _ => y 0 + √r * ω i 0, fun i => ⟨scaled_measurable i _ _, ?_⟩, fun ω => ?_⟩
    · have := scaled_law i y (√r)
      rwa [sq_sqrt hr.le] at this
    · show npNormal (y 0) (√r) ((List.ofFn ω).take N) = _
      rw [take_ofFn, npNormal_ok (sqrt_nonneg _)]
  logpX := by
    intro x x' past pind uv yv tv k u hu ht
    show (do
      let next ← fancy (List.ofFn x') (List.range N)
      let _ ← getIdx uv k
      let _ ← getIdx tv k
      let diff ← npSub (next.map fun p : Fin 1 → ℝ => p 0) ((List.ofFn x).map fun p : Fin 1 → ℝ => p 0)
      lognormpdfScalar diff q) = _
    rw [fancy_range_ofFn, ok_bind, getIdx_ok.mpr hu, ok_bind, getIdx_ok.mpr ht, ok_bind, npSub, if_pos (by simp), ok_bind, lognormpdfScalar,
      if_neg (not_le.2 hq), List.map_ofFn, List.map_ofFn, zipWith_ofFn', List.map_ofFn]
    congr 2
    funext i
    rw [logNormal_single _ hq]
    simp [l2pi]
  density_y := by
    rintro k _ ⟨y, rfl⟩
    refine ⟨one_pos, ?_⟩
    rw [ENNReal.ofReal_one, one_smul, slotNum, gauss_density (single_posDef hr)]
    congr 1
    funext x
    rw [walk_lik]
  density_x k u x := by
    rw [LinearModel.kernel_apply _ (fun _ _ => single_posSemidef hq.le), walk_next]
    exact gauss_density (single_posDef hq) x
  meas := LinearModel.lik_measurable _
  meas_x k u x := (continuous_logNormal _).measurable.comp (by fun_prop)

theorem zProd_one {Y : Type} (k : ℕ) (qs : List (Slot U × Slot Y)) : zProd (fun _ _ => 1) k qs = 1 := by
  induction qs generalizing k with
  | nil => rfl
  | cons q qs ih => rw [zProd, ih, one_mul]

/-- C109, `basic_model_propy.py` with the `pfy` filter: without `meas_first` the estimates have as means what the Kalman filter returns for the
documented walk; with a first measurement `y0`, what it returns for the walk started from `N(y0, R)`: `P0` is ignored (C104). -/
theorem C109_propy_example {p0 q r : ℝ} (hp : 0 ≤ p0) (hq : 0 < q) (hr : 0 < r) {N : ℕ} (hN : 0 < N) {res : ℝ} {name : String}
    {opts : FilterOptions (Fin 1 → ℝ)} (hn : parseFilter name = .ok .pfy) {F : FilterOps (Fin 1 → ℝ) U (Fin 1 → ℝ) _ _}
    (hF : mkFilter (propyModel N p0 q r) N res name opts = .ok F) {s0 : PT (Fin 1 → ℝ) U (Fin 1 → ℝ)}
    (hs : PT.init N none 0 = .ok s0) (first : Option (Fin 1 → ℝ)) (qs : List (Slot U × (Fin 1 → ℝ))) (hne : first = none → qs ≠ []) :
    ∃ z P ll, (match first with
        | none => kfData 0 !![p0] ((randomWalk U q r).data 0 qs)
        | some y0 => kfData y0 !![r] ((randomWalk U q r).data 0 qs)) = .ok (z, P, ll) ∧
      ∀ φ : (Fin 1 → ℝ) → ℝ≥0∞, Measurable φ →
        runE (normals N 1) F s0 (first.map .obj) (asSlots qs) (runEstimate φ) = ENNReal.ofReal (exp ll) * ∫⁻ x, φ x ∂(gauss z P) := by
  cases first with
  | none =>
    obtain ⟨z, P, ll, h1, h2⟩ := kalman_value (randomWalk U q r) (fun _ _ => single_posSemidef hq.le) (fun _ => single_posDef hr) 0
      (single_posSemidef hp) none qs
    refine ⟨z, P, ll, h1, fun φ hφ => ?_⟩
    rw [← h2 φ hφ]
    have hu := (C104_pfy_unbiased hN (propy_samples hp hq hr N) hn hF hφ hs (asSlots qs) (asSlots_isObj qs)).2 (by
      intro h
      refine hne rfl ?_
      cases qs with
      | nil => rfl
      | cons => cases h)
    rw [zProd_one, ENNReal.ofReal_one, one_mul] at hu
    simpa only [runE, Option.map_none, exactValue, startWeight, ENNReal.ofReal_one, one_mul] using hu
  | some y =>
    obtain ⟨z, P, ll, h1, h2⟩ := kalman_value (randomWalk U q r) (fun _ _ => single_posSemidef hq.le) (fun _ => single_posDef hr) y
      (single_posSemidef hr.le) none qs
    refine ⟨z, P, ll, h1, fun φ hφ => ?_⟩
    rw [← h2 φ hφ]
    have hu := (C104_pfy_unbiased hN (propy_samples hp hq hr N) hn hF hφ hs (asSlots qs) (asSlots_isObj qs)).1 (.obj y) ⟨_, rfl⟩
    rw [zProd_one, mul_one, ENNReal.ofReal_one, one_mul] at hu
    simp only [runE, Option.map_none, Option.map_some, exactValue, startWeight, ENNReal.ofReal_one, one_mul]
    rw [hu, gauss_density (single_posDef hr)]
    have hpm : Measurable (pathE (randomWalk U q r).kernel (randomWalk U q r).lik φ 0 (asSlots qs)) :=
      pathE_measurable _ (LinearModel.lik_measurable _) hφ (asSlots qs) 0
    have hlm : Measurable fun x : Fin 1 → ℝ => ENNReal.ofReal (exp (logNormal !![r] (x - y))) :=
      (measurable_exp.comp ((continuous_logNormal _).measurable.comp (measurable_id.sub_const y))).ennreal_ofReal
    rw [lintegral_withDensity_eq_lintegral_mul _ hlm hpm]
    refine lintegral_congr fun x => ?_
    rw [walk_lik, Pi.mul_apply]

/-! ### The documented variances -/

/-- The log-likelihood the Kalman filter returns for the walk after one step. -/
theorem walk_one_step {p q r : ℝ} (hp : 0 ≤ p) (hq : 0 ≤ q) (hr : 0 < r) (u : Slot U) (y : Fin 1 → ℝ) :
    ∃ z P, kfData 0 !![p] ((randomWalk U q r).data 0 [(u, y)]) = .ok (z, P, logNormal !![p + q + r] y) := by
  have hS : (1 * (1 * !![p] * 1ᵀ + !![q]) * 1ᵀ + !![r] : Matrix (Fin 1) (Fin 1) ℝ) = !![p + q + r] := by
    ext i j; fin_cases i; fin_cases j; simp
  have hsy : ∀ a : Matrix (Fin 1) (Fin 1) ℝ, a.IsSymm := fun a => by
    ext i j; fin_cases i; fin_cases j; rfl
  have hm := measureFull_eq (y := y) (z := (0 : Fin 1 → ℝ) + (1 : Matrix (Fin 1) (Fin 1) ℝ) *ᵥ 0) (P := (1 * !![p] * 1ᵀ + !![q] : Matrix (Fin 1) (Fin 1) ℝ)) (C := (1 : Matrix (Fin 1) (Fin 1) ℝ)) (hk := some 0) (R := !![r])
    (hsy _) (hsy _) (by rw [hS]; exact single_posDef (by positivity))
  rw [hS] at hm
  have he : y - (1 : Matrix (Fin 1) (Fin 1) ℝ) *ᵥ ((0 : Fin 1 → ℝ) + (1 : Matrix (Fin 1) (Fin 1) ℝ) *ᵥ 0) - Spec.offset (some 0) = y := by
    simp [Spec.offset]
  rw [he] at hm
  have hd : kfData 0 !![p] ((randomWalk U q r).data 0 [(u, y)]) = (measureFull y ((0 : Fin 1 → ℝ) + (1 : Matrix (Fin 1) (Fin 1) ℝ) *ᵥ 0)
    (1 * !![p] * 1ᵀ + !![q] : Matrix (Fin 1) (Fin 1) ℝ) (some (1 : Matrix (Fin 1) (Fin 1) ℝ)) (some 0) !![r] >>= fun a =>
      (kfData a.1 a.2.1 [] >>= fun b => pure (b.1, b.2.1, a.2.2 + b.2.2))) := rfl
  rw [hd, hm, ok_bind, kfData, ok_bind]
  exact ⟨_, _, congrArg Except.ok (by rw [add_zero])⟩

/-- C109 (Defect): the docstring of `basic_model.py` gives `P0` and `Q` as variances. The likelihood estimate of one step has the documented
likelihood as its mean for every measurement exactly if `P0² + Q² = P0 + Q`. -/
theorem C109_documented_variances {p0 q r : ℝ} (hp : 0 ≤ p0) (hq : 0 ≤ q) (hr : 0 < r) {N : ℕ} (hN : 0 < N)
    {rest : Callbacks (Fin 1 → ℝ) U (Fin 1 → ℝ) (List (Fin 1 → ℝ)) (Fin N → Fin 1 → ℝ)} {res : ℝ} {name : String}
    {opts : FilterOptions (Fin 1 → ℝ)} (hn : parseFilter name = .ok .pf) {F : FilterOps (Fin 1 → ℝ) U (Fin 1 → ℝ) _ _}
    (hF : mkFilter ((basicModel N p0 q r).toCallbacks rest) N res name opts = .ok F) {T : Option ℕ} {s0 : PT (Fin 1 → ℝ) U (Fin 1 → ℝ)}
    (hs : PT.init N T 0 = .ok s0) (u : Slot U) :
    (∀ y z P ll, kfData 0 !![p0] ((randomWalk U q r).data 0 [(u, y)]) = .ok (z, P, ll) →
      runE (normals N 1) F s0 none [(u, .obj y)] (runEstimate 1) = ENNReal.ofReal (exp ll)) ↔ p0 ^ 2 + q ^ 2 = p0 + q := by
  have key : ∀ y : Fin 1 → ℝ, runE (normals N 1) F s0 none [(u, .obj y)] (runEstimate 1) =
      ENNReal.ofReal (exp (logNormal !![p0 ^ 2 + q ^ 2 + r] y)) := by
    intro y
    obtain ⟨z, P, ll, h1, h2⟩ := C109_bootstrap_example hp hq hr hN hn hF hs none [(u, y)] (by simp)
    obtain ⟨z', P', h3⟩ := walk_one_step (U := U) (sq_nonneg p0) (sq_nonneg q) hr u y
    have h4 := (Except.ok.inj (h1.symm.trans h3))
    simp only [Prod.mk.injEq] at h4
    have := h2 1 measurable_const
    rw [h4.2.2] at this
    simpa [asSlots] using this
  constructor
  · intro h
    obtain ⟨z, P, h3⟩ := walk_one_step (U := U) hp hq hr u 0
    have h4 := h 0 z P _ h3
    rw [key, ENNReal.ofReal_eq_ofReal_iff (exp_pos _).le (exp_pos _).le, exp_eq_exp, logNormal_single _ (by positivity),
      logNormal_single _ (by positivity)] at h4
    have h5 : Real.log (p0 ^ 2 + q ^ 2 + r) = Real.log (p0 + q + r) := by
      simp only [Pi.zero_apply, ne_eq, OfNat.ofNat_ne_zero, not_false_eq_true, zero_pow, zero_div, add_zero] at h4
      linarith
    have := Real.log_injOn_pos (Set.mem_Ioi.2 (by positivity)) (Set.mem_Ioi.2 (by positivity)) h5
    linarith
  · intro h y z P ll h1
    obtain ⟨z', P', h3⟩ := walk_one_step (U := U) hp hq hr u y
    have h4 := (Except.ok.inj (h1.symm.trans h3))
    simp only [Prod.mk.injEq] at h4
    rw [key, h4.2.2, h]

/-- `logp_xnext_full` of basic_model.py:49-58, for particles `part` and the future particles `next` they are compared with
(`future_trajs[0].pa.part[find]`). -/
noncomputable def basicLogpNext (q : ℝ) (part next : List (Fin 1 → ℝ)) : PyM (List ℝ) :=
  (List.zip next part).mapM fun p => lognormpdf (p.1 - p.2) !![q]

/-- C109 (Defect): the backward smoothers use `logp_xnext_full` of `basic_model.py` as the density of the next state. For `Q > 0` it is the density
of the particles that `update` makes from `x` exactly if `Q = 1`. -/
theorem C109_backward_density {p0 q r : ℝ} (hq : 0 < q) {N : ℕ} (x : Fin N → Fin 1 → ℝ) (u : Slot U) (t : ℕ) :
    ∃ (X : Fin N → (Fin N → Fin 1 → ℝ) → Fin 1 → ℝ) (lx : (Fin 1 → ℝ) → (Fin 1 → ℝ) → ℝ),
      (∀ ω, ∃ v, (basicModel (U := U) N p0 q r).sampleProcessNoise (List.ofFn x) u t ω = .ok v ∧
        (basicModel (U := U) N p0 q r).update (List.ofFn x) u t v = .ok (List.ofFn fun i => X i ω)) ∧
      (∀ x' : Fin N → Fin 1 → ℝ, basicLogpNext q (List.ofFn x) (List.ofFn x') = .ok (List.ofFn fun i => lx (x i) (x' i))) ∧
      ∀ i, (normals N 1).map (X i) = volume.withDensity (fun x' => ENNReal.ofReal (exp (lx (x i) x'))) ↔ q = 1 := by
  refine ⟨fun i ω _ => x i 0 + q * ω i 0, fun a b => logNormal !![q] (b - a), fun ω => ⟨List.ofFn fun i _ => 0 + q * ω i 0, ?_, ?_⟩, fun x' => ?_, fun i => ?_⟩
  · show npNormal 0 q ((List.ofFn ω).take (List.ofFn x).length) = _
    rw [List.length_ofFn, take_ofFn, npNormal_ok hq.le]
  · show Except.ok (List.zipWith (· + ·) (List.ofFn x) (List.ofFn fun i _ => 0 + q * ω i 0)) = _
    rw [zipWith_ofFn']
    congr 2
    funext i j
    fin_cases j
    simp
  · obtain ⟨c, -, h, -⟩ := C42_helpers_agree !![q] (single_posDef hq)
    exact zip_mapM_ofFn x' x (g := fun a b => logNormal !![q] (a - b)) fun a b => h _
  · have hl := scaled_law i (x i) q
    rw [hl, ← gauss_density (single_posDef hq)]
    constructor
    · intro h
      have h1 := gauss_cov (μ := x i) (single_posSemidef (sq_nonneg q)) 0 0
      have h2 := gauss_cov (μ := x i) (single_posSemidef hq.le) 0 0
      rw [h, h2] at h1
      have : q = q ^ 2 := by simpa using h1
      have h3 : q * (q - 1) = 0 := by linarith [sq q]
      rcases mul_eq_zero.mp h3 with h3 | h3
      · exact absurd h3 hq.ne'
      · linarith
    · rintro rfl
      norm_num

/-! ### The scripts -/

/-- The parameters of the script `basic_model.py` (lines 61-65: 50 particles, `P0 = Q = R = 1`), for any threshold and record: the estimates agree with
the Kalman filter for the documented model. -/
example {rest : Callbacks (Fin 1 → ℝ) ℝ (Fin 1 → ℝ) (List (Fin 1 → ℝ)) (Fin 50 → Fin 1 → ℝ)} (res : ℝ) (q : Slot ℝ × (Fin 1 → ℝ))
    (qs : List (Slot ℝ × (Fin 1 → ℝ))) :
    ∃ F s0 z P ll, mkFilter ((basicModel 50 1 1 1).toCallbacks rest) 50 res "pf" .none = .ok F ∧ PT.init 50 none 0 = .ok s0 ∧
      kfData 0 !![1] ((randomWalk ℝ 1 1).data 0 (q :: qs)) = .ok (z, P, ll) ∧
      runE (normals 50 1) F s0 none (asSlots (q :: qs)) (runEstimate 1) = ENNReal.ofReal (exp ll) := by
  have hF : mkFilter ((basicModel 50 1 1 1).toCallbacks rest) 50 res "pf" .none = .ok (pfOps ((basicModel 50 1 1 1).toCallbacks rest) res) := by
    unfold mkFilter
    rw [parse_pf, ok_bind]; rfl
  obtain ⟨z, P, ll, h1, h2⟩ := C109_bootstrap_example (by norm_num) (by norm_num) (by norm_num) (by norm_num) parse_pf hF (T := none) rfl none (q :: qs) (by simp)
  refine ⟨_, _, z, P, ll, hF, rfl, by simpa [LinearModel.start] using h1, ?_⟩
  have := h2 1 measurable_const
  simpa using this

/-- `basic_model_sir.py` with its parameters. -/
example (res : ℝ) (q : Slot ℝ × (Fin 1 → ℝ)) (qs : List (Slot ℝ × (Fin 1 → ℝ))) :
    ∃ F s0 z P ll, mkFilter (sirModel 50 1 1 1) 50 res "sir" .none = .ok F ∧ PT.init 50 none 0 = .ok s0 ∧
      kfData 0 !![1] ((randomWalk ℝ 1 1).data 0 (q :: qs)) = .ok (z, P, ll) ∧
      runE (normals 50 1) F s0 none (asSlots (q :: qs)) (runEstimate 1) = ENNReal.ofReal (exp ll) := by
  have hF : mkFilter (sirModel (U := ℝ) 50 1 1 1) 50 res "sir" .none = .ok (sirOps (sirModel 50 1 1 1) res) := by
    unfold mkFilter
    rw [parse_sir, ok_bind]; rfl
  obtain ⟨z, P, ll, h1, h2⟩ := C109_sir_example (by norm_num) (by norm_num) (by norm_num) (by norm_num) parse_sir hF (T := none) rfl (q :: qs) (by simp)
  refine ⟨_, _, z, P, ll, hF, rfl, by simpa using h1, ?_⟩
  have := h2 1 measurable_const
  simpa using this

/-- `basic_model_propy.py` with its parameters. -/
example (res : ℝ) (q : Slot ℝ × (Fin 1 → ℝ)) (qs : List (Slot ℝ × (Fin 1 → ℝ))) :
    ∃ F s0 z P ll, mkFilter (propyModel 50 1 1 1) 50 res "pfy" .none = .ok F ∧ PT.init 50 none 0 = .ok s0 ∧
      kfData 0 !![1] ((randomWalk ℝ 1 1).data 0 (q :: qs)) = .ok (z, P, ll) ∧
      runE (normals 50 1) F s0 none (asSlots (q :: qs)) (runEstimate 1) = ENNReal.ofReal (exp ll) := by
  have hn : parseFilter "pfy" = .ok .pfy := by decide +kernel
  have hF : mkFilter (propyModel (U := ℝ) 50 1 1 1) 50 res "pfy" .none = .ok (pfyOps (propyModel 50 1 1 1) 50 res) := by
    unfold mkFilter
    rw [hn, ok_bind]; rfl
  obtain ⟨z, P, ll, h1, h2⟩ := C109_propy_example (by norm_num) (by norm_num) (by norm_num) (by norm_num) hn hF rfl none (q :: qs) (by simp)
  refine ⟨_, _, z, P, ll, hF, rfl, by simpa using h1, ?_⟩
  have := h2 1 measurable_const
  simpa using this

end PyPE

import Verif.Filter.Likelihood

/-!
# C99: the bootstrap filter for models whose `measure` rewrites the particles

The Rao-Blackwellised models (rbpf.py, mlnlg.py, hierarchical.py) store in every particle a nonlinear state and the mean and covariance of a normal law
of the linear states. `measure` conditions that law on the measurement, in place (filter.py:159-162 passes `pa.part` itself), and returns the
log-likelihoods. Such a filter is unbiased for the model in which nonlinear and linear states move together.
-/

namespace PyPE
open Real Spec MeasureTheory ProbabilityTheory
open scoped ENNReal

variable {P U Y V Ω : Type}

/-! ### The model -/

/-- The abstract methods of `ParticleFiltering` (interfaces.py:252-290) and `create_initial_estimate` for a class whose `measure` writes into the array
`particles`: it gives the new particles and the returned log-weights. -/
structure MarkovRb (P U Y V Ω : Type) where
  createInitial : ℕ → Ω → PyM (List P)
  sampleProcessNoise : List P → Slot U → ℕ → Ω → PyM V
  update : List P → Slot U → ℕ → V → PyM (List P)
  measure : List P → Slot Y → ℕ → PyM (List P × List ℝ)

/-- `ParticleFilter.update` (filter.py:96-127) through `ParticleFiltering.sample_process_noise_full` and `update_full` (interfaces.py:242-247). -/
noncomputable def rbfUpdate (K : MarkovRb P U Y V Ω) (traj : List (Step P)) (anc : List ℕ) (uvec : List (Slot U)) (tvec : List ℕ) (cur : ℕ)
    (pa : PA P) (ω : Ω) : PyM (PA P) := do
  let st ← getLast traj
  let parents ← fancy st.pa.part anc
  let u ← getLast (uvec.take (cur + 1))
  let t ← getLast (tvec.take (cur + 1))
  let v ← K.sampleProcessNoise parents u t ω
  let part ← K.update pa.part u t v
  return { pa with part := part }

/-- `ParticleFilter.measure` (filter.py:130-171) through `ParticleFiltering.measure_full` (interfaces.py:249-250); `measure` writes into `pa.part`. -/
noncomputable def rbfMeasure (K : MarkovRb P U Y V Ω) (pa : PA P) (yvec : List (Slot Y)) (tvec : List ℕ) (cur : ℕ) : PyM (PA P) := do
  let y ← getLast (yvec.take (cur + 1))
  let t ← getLast (tvec.take (cur + 1))
  let r ← K.measure pa.part y t
  weightUpdate { pa with part := r.1 } r.2

/-- `ParticleFilter.forward` (filter.py:57-94). -/
noncomputable def rbfForward (K : MarkovRb P U Y V Ω) (res : ℝ) (traj : List (Step P)) (yvec : List (Slot Y)) (uvec : List (Slot U)) (tvec : List ℕ)
    (cur : ℕ) (d : Draws Ω) : PyM (PA P × Bool × List ℕ) := do
  let last ← getLast traj
  let pa ← PA.new last.pa.part (some last.pa.w)
  let (pa, resampled, anc) ← maybeResample res pa d.r
  let pa ← rbfUpdate K traj anc uvec tvec cur pa d.ω
  let pa ← rbfMeasure K pa yvec tvec (cur + 1)
  return (pa, resampled, anc)

/-- The filter object for `filter='pf'` (filter.py:868-869). -/
noncomputable def rbfOps (K : MarkovRb P U Y V Ω) (res : ℝ) : FilterOps P U Y V Ω :=
  ⟨K.createInitial, rbfForward K res, fun _ _ pa _ yvec tvec cur => rbfMeasure K pa yvec tvec cur, fun _ _ _ _ => .error .typeError, false⟩

/-- A model whose `measure` does not write. -/
def MarkovModel.toRb (K : MarkovModel P U Y V Ω) : MarkovRb P U Y V Ω :=
  ⟨K.createInitial, K.sampleProcessNoise, K.update, fun parts y t => do let l ← K.measure parts y t; return (parts, l)⟩

/-! ### Specification -/

/-- Every particle `p` stands for a law `law p` of the state `s` of the model on paper, a Markov chain with initial law `μ0`, kernels `M` and log-likelihoods `ℓ`:
drawing particles reproduces `μ0` on average, moving a particle moves its law by `M` on average, and `measure` is Bayes' rule. `ok` says which particles are
valid, `good` which measurements the model accepts. -/
structure Spec.RbSamples {S : Type} [MeasurableSpace S] [MeasurableSpace Ω] (K : MarkovRb P U Y V Ω) (good : Slot Y → Prop) (ν : Measure Ω) (N : ℕ)
    (ok : P → Prop) (law : P → Measure S) (μ0 : Measure S) (M : ℕ → Slot U → Kernel S S) (ℓ : ℕ → Slot Y → S → ℝ) : Prop where
  create : ∃ X : Fin N → Ω → P, (∀ ω, K.createInitial N ω = .ok (List.ofFn fun i => X i ω)) ∧ ∀ i, (∀ ω, ok (X i ω)) ∧
    ∀ g : S → ℝ≥0∞, Measurable g → Measurable (fun ω => ∫⁻ s, g s ∂law (X i ω)) ∧ ∫⁻ ω, ∫⁻ s, g s ∂law (X i ω) ∂ν = ∫⁻ s, g s ∂μ0
  move : ∀ (x : Fin N → P) (u : Slot U) (k : ℕ), (∀ i, ok (x i)) → ∃ X : Fin N → Ω → P,
    (∀ ω, ∃ v, K.sampleProcessNoise (List.ofFn x) u k ω = .ok v ∧ K.update (List.ofFn x) u k v = .ok (List.ofFn fun i => X i ω)) ∧
    ∀ i, (∀ ω, ok (X i ω)) ∧ ∀ g : S → ℝ≥0∞, Measurable g → Measurable (fun ω => ∫⁻ s, g s ∂law (X i ω)) ∧
      ∫⁻ ω, ∫⁻ s, g s ∂law (X i ω) ∂ν = ∫⁻ s, ∫⁻ s', g s' ∂M k u s ∂law (x i)
  measure : ∀ (x : Fin N → P) (y : Slot Y) (k : ℕ), good y → (∀ i, ok (x i)) → ∃ (x' : Fin N → P) (l : Fin N → ℝ),
    K.measure (List.ofFn x) y k = .ok (List.ofFn x', List.ofFn l) ∧ ∀ i, ok (x' i) ∧
      (law (x i)).withDensity (fun s => ENNReal.ofReal (exp (ℓ k y s))) = ENNReal.ofReal (exp (l i)) • law (x' i)
  meas : ∀ k y, Measurable (ℓ k y)

/-! ### Unbiasedness -/

theorem RbSamples.bayes {S : Type} [MeasurableSpace S] {μ ρ : Measure S} {ℓ : S → ℝ} (hℓ : Measurable ℓ) {c : ℝ}
    (h : μ.withDensity (fun s => ENNReal.ofReal (exp (ℓ s))) = ENNReal.ofReal (exp c) • ρ) {g : S → ℝ≥0∞} (hg : Measurable g) :
    ENNReal.ofReal (exp c) * ∫⁻ s, g s ∂ρ = ∫⁻ s, ENNReal.ofReal (exp (ℓ s)) * g s ∂μ := by
  rw [← smul_eq_mul (ENNReal.ofReal (exp c)), ← lintegral_smul_measure, ← h, lintegral_withDensity_eq_lintegral_mul _ (f := fun s => ENNReal.ofReal (exp (ℓ s)))
    (measurable_exp.comp hℓ).ennreal_ofReal hg]
  rfl

/-- One step, for any function of the new state. -/
theorem rbf_opStep {S : Type} [MeasurableSpace S] [MeasurableSpace Ω] {ι : Type} {K : MarkovRb P U Y V Ω} {ν : Measure Ω} {N : ℕ} (hN : 0 < N)
    {ok : P → Prop} {law : P → Measure S} {μ0 : Measure S} {M : ℕ → Slot U → Kernel S S} {ℓ : ℕ → Slot Y → S → ℝ} {good : Slot Y → Prop}
    (hK : Spec.RbSamples K good ν N ok law μ0 M ℓ) (res : ℝ) {h : S → ℝ≥0∞} (hpm : Measurable h) (k : ℕ) (u : Slot U) (y : Slot Y) (hy0 : good y) :
    OpStep (rbfOps K res) ν N res k u y ok (fun _ : ι => fun p => ∫⁻ s, h s ∂law p)
      (fun _ p => ∫⁻ s, ∫⁻ s', ENNReal.ofReal (exp (ℓ (k+1) y s')) * h s' ∂M k u s ∂law p) := by
  intro x hx
  obtain ⟨X, hmove, hX⟩ := hK.move x u k hx
  have hms := fun ω => hK.measure (fun i => X i ω) y (k+1) hy0 fun i => (hX i).1 ω
  choose x' l hml hl using hms
  have hgm : Measurable fun s => ENNReal.ofReal (exp (ℓ (k+1) y s)) * h s :=
    (measurable_exp.comp (hK.meas (k+1) y)).ennreal_ofReal.mul hpm
  have hb := fun i ω => RbSamples.bayes (hK.meas (k+1) y) (hl ω i).2 hpm
  refine ⟨fun i ω => x' ω i, fun i ω => l ω i, fun i _ => ?_, fun i ω => (hl ω i).1, ?_⟩
  · simp only [hb]
    exact (hX i).2 _ hgm
  intro tr last yv uv tv d pa1 b anc hlast hu hy ht ht1 hres hfan hp1 hw1 ho1
  obtain ⟨v, hv1, hv2⟩ := hmove d.ω
  obtain ⟨pa', w', f1, f2, f3, fn, f4⟩ := weightUpdate_offset (pa := { pa1 with part := List.ofFn (x' d.ω) }) hN hw1 (l d.ω)
  refine ⟨pa', w', ?_, f2, f3, fn, fun i => by rw [f4 i, ho1, add_zero]⟩
  show rbfForward K res tr yv uv tv k d = _
  unfold rbfForward
  rw [getLast_ok.mpr hlast]
  simp only [ok_bind, PA.new, hres]
  unfold rbfUpdate
  simp only [getLast_ok.mpr hlast, ok_bind, hfan, getLast_take_succ hu, getLast_take_succ ht, hv1, hp1, hv2, pure_eq_ok]
  unfold rbfMeasure
  simp only [getLast_take_succ hy, getLast_take_succ ht1, ok_bind, hml, f1]

/-- **C99** Run the bootstrap filter with any number `N > 0` of particles and any resampling threshold on a model whose particles carry laws. Over the random
draws of the run, the likelihood estimate read off the stored log-weights, offsets and flags, times the filtered mean of the conditional expectations of
any non-negative `φ` at the last step, has expectation `E[Π_t p(y_t | s_t) φ(s_T)]` under the full model — in a history that starts with `measure(y0)` and in
one that starts with `forward`. -/
theorem C99_unbiased {S : Type} [MeasurableSpace S] [MeasurableSpace Ω] {K : MarkovRb P U Y V Ω} {ν : Measure Ω} [IsProbabilityMeasure ν]
    {N : ℕ} (hN : 0 < N) {ok : P → Prop} {law : P → Measure S} {μ0 : Measure S} {M : ℕ → Slot U → Kernel S S} {ℓ : ℕ → Slot Y → S → ℝ}
    {good : Slot Y → Prop} (hK : Spec.RbSamples K good ν N ok law μ0 M ℓ) (res : ℝ) {φ : S → ℝ≥0∞} (hφ : Measurable φ) {T : Option ℕ}
    {s0 : PT P U Y} (h0 : PT.init N T 0 = .ok s0) (qs : List (Slot U × Slot Y)) (hqs : ∀ q ∈ qs, good q.2) :
    (∀ y0, good y0 → ∫⁻ ω, stepsE ν qs (fun ds => runEstimate (fun p => ∫⁻ s, φ s ∂law p)
        (s0.run (rbfOps K res) (history (some (y0, ω)) ds))) ∂ν =
      ∫⁻ s, ENNReal.ofReal (exp (ℓ 0 y0 s)) * pathE M ℓ φ 0 qs s ∂μ0) ∧
    (qs ≠ [] → stepsE ν qs (fun ds => runEstimate (fun p => ∫⁻ s, φ s ∂law p) (s0.run (rbfOps K res) (history none ds))) =
      ∫⁻ s, pathE M ℓ φ 0 qs s ∂μ0) := by
  obtain ⟨X, hc, hX⟩ := hK.create
  have hpm := fun (qs : List (Slot U × Slot Y)) => pathE_measurable M hK.meas hφ qs 0
  have hlm : ∀ y qs, Measurable fun s => ENNReal.ofReal (exp (ℓ 0 y s)) * pathE M ℓ φ 0 qs s := fun y qs =>
    (measurable_exp.comp (hK.meas 0 y)).ennreal_ofReal.mul (hpm qs)
  refine run_value hN (res := res) (good := good) (ok := ok) (W := fun k qs p => ∫⁻ s, pathE M ℓ φ k qs s ∂law p)
    (W0 := fun y qs p => ∫⁻ s, ENNReal.ofReal (exp (ℓ 0 y s)) * pathE M ℓ φ 0 qs s ∂law p)
    (E0 := fun y qs => ∫⁻ s, ENNReal.ofReal (exp (ℓ 0 y s)) * pathE M ℓ φ 0 qs s ∂μ0) (E := fun qs => ∫⁻ s, pathE M ℓ φ 0 qs s ∂μ0)
    (fun k u y qs hy => rbf_opStep hN hK res (pathE_measurable M hK.meas hφ qs (k+1)) k u y hy) (fun _ => rfl) (fun y qs i _ => (hX i).2 _ (hlm y qs)) (fun qs i => (hX i).2 _ (hpm qs))
    (fun i ω => (hX i).1 ω) hc rfl ?_ h0 qs hqs
  intro tr anc pa x uv yv tv y hgy hok hx hw hy ht
  obtain ⟨x', l, e1, e2⟩ := hK.measure x y 0 hgy hok
  obtain ⟨pa', w', f1, f2, f3, fn, f4⟩ := weightUpdate_offset (pa := { pa with part := List.ofFn x' }) hN hw l
  refine ⟨pa', x', w', ?_, f2, fun i => (e2 i).1, f3, fn, fun i => ⟨l i, f4 i, fun qs => RbSamples.bayes (hK.meas 0 y) (e2 i).2 (hpm qs)⟩⟩
  show rbfMeasure K pa yv tv 0 = _
  unfold rbfMeasure
  simp only [hx, getLast_take_succ hy, getLast_take_succ ht, ok_bind, e1, f1]

/-- For a model whose `measure` does not write, this filter is the one C89 is about. -/
theorem C99_plain (K : MarkovModel P U Y V Ω) (rest : Callbacks P U Y V Ω) (N : ℕ) (res : ℝ) {name : String} (hn : parseFilter name = .ok .pf)
    (o : FilterOptions P) : mkFilter (K.toCallbacks rest) N res name o = .ok (rbfOps K.toRb res) := by
  rw [mkFilter_pf _ N res hn o]
  congr 1
  have hm : ∀ tr anc (pa : PA P) uv yv tv cur, pfMeasure (K.toCallbacks rest) tr anc pa uv yv tv cur = rbfMeasure K.toRb pa yv tv cur := by
    intro tr anc pa uv yv tv cur
    simp only [pfMeasure, rbfMeasure, MarkovModel.toCallbacks, MarkovModel.toRb, bind_assoc, pure_bind]
  have hu : ∀ tr anc uv yv tv cur (pa : PA P) ω, pfUpdate (K.toCallbacks rest) tr anc uv yv tv cur pa ω = rbfUpdate K.toRb tr anc uv tv cur pa ω := by
    intro tr anc uv yv tv cur pa ω
    unfold pfUpdate rbfUpdate
    simp only [MarkovModel.toCallbacks, MarkovModel.toRb, bind_assoc]
    rcases getLast tr with _ | st
    · rfl
    simp only [ok_bind]
    rcases fancy st.pa.part anc with _ | ps
    · rfl
    simp only [ok_bind]
    rcases getLast (uv.take (cur+1)) with _ | u
    · rfl
    simp only [ok_bind]
    rcases getLast (tv.take (cur+1)) with _ | t
    · rfl
    rfl
  have hf : ∀ tr yv uv tv cur d, pfForward (K.toCallbacks rest) res tr yv uv tv cur d = rbfForward K.toRb res tr yv uv tv cur d := by
    intro tr yv uv tv cur d
    simp only [pfForward, rbfForward, hm, hu]
  unfold pfOps rbfOps
  congr
  · funext tr yv uv tv cur d; exact hf tr yv uv tv cur d
  · funext tr anc pa uv yv tv cur; exact hm tr anc pa uv yv tv cur

end PyPE

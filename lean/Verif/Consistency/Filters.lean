import Verif.Consistency.Claims
import Verif.Smooth.MhChain

/-!
# C106: the bootstrap and the SIR filter without resampling
-/

namespace PyPE
open Real Spec MeasureTheory ProbabilityTheory Filter
open scoped ENNReal

variable {P U Y V : Type}

/-- As `Spec.SirSamples`, the particles of a call are independent of each other, and the densities are jointly measurable. -/
structure Spec.IndepSirSamples {Ω : Type} [MeasurableSpace P] [MeasurableSpace Ω] (C : Callbacks P U Y V Ω) (good : Slot Y → Prop) (ν : Measure Ω) (N : ℕ)
    (vol μ0 : Measure P) (M : ℕ → Slot U → Kernel P P) (ℓ : ℕ → Slot Y → P → ℝ) (q : ℕ → Slot U → Slot Y → Kernel P P)
    (lq : ℕ → Slot U → Slot Y → P → P → ℝ) (lx : ℕ → Slot U → P → P → ℝ) : Prop extends SirSamples C good ν N vol μ0 M ℓ q lq lx where
  create_indep : ∃ X : Ω → Fin N → P, Measurable X ∧ ν.map X = (Measure.pi fun _ => μ0) ∧ ∀ ω, C.createInitial N ω = .ok (List.ofFn (X ω))
  propose_indep : ∀ (x : Fin N → P) (u : Slot U) (y : Slot Y) (k : ℕ), good y → ∃ X : Ω → Fin N → P, Measurable X ∧
    ν.map X = (Measure.pi fun i => q k u y (x i)) ∧ ∀ ω, C.qsample (List.ofFn x) u y k ω = .ok (List.ofFn (X ω))
  meas_q2 : ∀ k u y, Measurable (Function.uncurry (lq k u y))
  meas_x2 : ∀ k u, Measurable (Function.uncurry (lx k u))

section steps
variable {Ω : Type} [MeasurableSpace P] [MeasurableSpace Ω]

theorem pf_jointStep {K : MarkovModel P U Y V Ω} {ν : Measure Ω} {N : ℕ} (hN : 0 < N) {μ0 : Measure P}
    {M : ℕ → Slot U → Kernel P P} {ℓ : ℕ → Slot Y → P → ℝ} {good : Slot Y → Prop} (hK : IndepSamples K good ν N μ0 M ℓ) (rest : Callbacks P U Y V Ω)
    {res : ℝ} (hres : res ≤ 0) (k : ℕ) (u : Slot U) (y : Slot Y) (hy0 : good y) :
    JointStep (markovPf K rest res) ν N k u y (M k u) (fun _ x' => ℓ (k+1) y x') := by
  intro x
  obtain ⟨X, hX, hXl, hmove⟩ := hK.move x u k
  refine ⟨X, hX, hXl, ?_⟩
  intro tr last yv uv tv d w hlast hu hy ht ht1 hpx hpw
  obtain ⟨v, hv1, hv2⟩ := hmove d.ω
  obtain ⟨pa', w', f1, f2, f3, fn, f4⟩ := weightUpdate_offset (pa := ⟨List.ofFn (X d.ω), List.ofFn w, N, 0⟩) hN (by simp)
    (fun i => ℓ (k+1) y (X d.ω i))
  refine ⟨pa', w', ?_, f2, f3, fun i => by rw [f4 i]; simp⟩
  show pfForward (K.toCallbacks rest) res tr yv uv tv k d = _
  unfold pfForward
  rw [getLast_ok.mpr hlast]
  simp only [ok_bind, PA.new, maybeResample_none hres, hpx, hpw, List.length_ofFn]
  unfold pfUpdate
  simp only [MarkovModel.toCallbacks, getLast_ok.mpr hlast, ok_bind, hpx, fancy_range_ofFn, getLast_take_succ hu, getLast_take_succ ht, hv1, hv2,
    pure_eq_ok]
  unfold pfMeasure
  simp only [getLast_take_succ hy, getLast_take_succ ht1, ok_bind, hK.measure _ _ _ hy0, f1]

theorem sir_jointStep {C : Callbacks P U Y V Ω} {ν : Measure Ω} {N : ℕ} (hN : 0 < N)
    {vol μ0 : Measure P} {M : ℕ → Slot U → Kernel P P} {ℓ : ℕ → Slot Y → P → ℝ} {q : ℕ → Slot U → Slot Y → Kernel P P}
    {lq : ℕ → Slot U → Slot Y → P → P → ℝ} {lx : ℕ → Slot U → P → P → ℝ} {good : Slot Y → Prop} (hC : IndepSirSamples C good ν N vol μ0 M ℓ q lq lx)
    {res : ℝ} (hres : res ≤ 0) (k : ℕ) (u : Slot U) (y : Slot Y) (hy0 : good y) :
    JointStep (sirOps C res) ν N k u y (q k u y) (fun x x' => ℓ (k+1) y x' + lx k u x x' - lq k u y x x') := by
  intro x
  obtain ⟨X, hX, hXl, hprop⟩ := hC.propose_indep x u y k hy0
  refine ⟨X, hX, hXl, ?_⟩
  intro tr last yv uv tv d w hlast hu hy ht ht1 hpx hpw
  obtain ⟨pa', w', f1, f2, f3, fn, f4⟩ := weightUpdate_offset (pa := ⟨List.ofFn x, List.ofFn w, N, 0⟩) hN (by simp)
    (fun i => ℓ (k+1) y (X d.ω i) + lx k u (x i) (X d.ω i) - lq k u y (x i) (X d.ω i))
  refine ⟨{ pa' with part := List.ofFn (X d.ω) }, w', ?_, rfl, f3, fun i => by
    have := f4 i; simp at this; exact this⟩
  show sirForward C res tr yv uv tv k d = _
  unfold sirForward
  rw [getLast_ok.mpr hlast]
  simp only [ok_bind, PA.new, maybeResample_none hres, hpx, hpw, List.length_ofFn, getIdx_ok.mpr hu, getIdx_ok.mpr hy, getIdx_ok.mpr ht,
    getIdx_ok.mpr ht1, hprop, hC.logpQ _ _ _ _ _ hy0, hC.logpX, hC.measure _ _ _ hy0]
  rw [npAdd_ok (by simp), ok_bind, npSub_ok (by simp), ok_bind, zipWith_ofFn', zipWith_ofFn', f1]
  rfl

/-- Both histories of `indep_run`, as one statement. -/
theorem indepRun {F : FilterOps P U Y V Ω} {ν : Measure Ω} [IsProbabilityMeasure ν]
    {N : ℕ} (hN : 0 < N) {good : Slot Y → Prop} {κ : ℕ → Slot U → Slot Y → Kernel P P} [∀ k u y, IsMarkovKernel (κ k u y)]
    {inc : ℕ → Slot U → Slot Y → P → P → ℝ} (hinc : ∀ k u y, Measurable (Function.uncurry (inc k u y)))
    (hS : ∀ k u y, good y → JointStep F ν N k u y (κ k u y) (inc k u y)) {ℓ : ℕ → Slot Y → P → ℝ} (hℓ : ∀ k y, Measurable (ℓ k y))
    {μ0 : Measure P} [IsProbabilityMeasure μ0] {X : Ω → Fin N → P} (hX : Measurable X) (hXl : ν.map X = Measure.pi fun _ => μ0)
    (hc : ∀ ω, F.create N ω = .ok (List.ofFn (X ω))) (hpfy : F.usingPfy = false)
    (hm : ∀ (tr : List (Step P)) (anc : List ℕ) (pa : PA P) (x : Fin N → P) uv yv tv (y : Slot Y), good y → pa.part = List.ofFn x → pa.w.length = N →
      yv[0]? = some y → tv[0]? = some 0 → ∃ pa' w', F.measure tr anc pa uv yv tv 0 = .ok pa' ∧ pa'.part = List.ofFn x ∧ pa'.w = List.ofFn w' ∧
        pa'.num = pa.num ∧ ∀ i : Fin N, w' i + pa'.w_offset = pa.w.getD i 0 + pa.w_offset + ℓ 0 y (x i))
    {T : Option ℕ} {s0 : PT P U Y} (h0 : PT.init N T 0 = .ok s0) {first : Option (Slot Y)} (hfirst : ∀ y, first = some y → good y)
    {qs : List (Slot U × Slot Y)} (hqs : ∀ q ∈ qs, good q.2) (hne : first = none → qs ≠ []) :
    IndepRun N (weightedLaw κ inc μ0 (startWeight ℓ first) qs) (runE ν F s0 first qs) := by
  intro G hG H hH
  obtain ⟨h1, h2⟩ := indep_run hN hinc hS hℓ hX hXl hc hpfy hm h0 qs hqs hG H hH
  cases first with
  | none => exact h2 (hne rfl)
  | some y0 => exact h1 y0 (hfirst y0 rfl)

theorem startWeight_pos (ℓ : ℕ → Slot Y → P → ℝ) (first : Option (Slot Y)) (x : P) : 0 < startWeight ℓ first x := by
  cases first with
  | none => exact one_pos
  | some y => exact exp_pos _

theorem startWeight_measurable {ℓ : ℕ → Slot Y → P → ℝ} (hℓ : ∀ k y, Measurable (ℓ k y)) (first : Option (Slot Y)) : Measurable (startWeight ℓ first) := by
  cases first with
  | none => exact measurable_const
  | some y => exact measurable_exp.comp (hℓ 0 y)

theorem weightedLaw_value {κ : ℕ → Slot U → Slot Y → Kernel P P} [∀ k u y, IsMarkovKernel (κ k u y)] {inc : ℕ → Slot U → Slot Y → P → P → ℝ}
    (hinc : ∀ k u y, Measurable (Function.uncurry (inc k u y))) {M : ℕ → Slot U → Kernel P P}
    {ℓ : ℕ → Slot Y → P → ℝ} (hℓ : ∀ k y, Measurable (ℓ k y))
    (hQ : ∀ k u y (h : P → ℝ≥0∞), Measurable h → ∀ x, ∫⁻ x', ENNReal.ofReal (exp (inc k u y x x')) * h x' ∂(κ k u y x) =
      ∫⁻ x', ENNReal.ofReal (exp (ℓ (k+1) y x')) * h x' ∂(M k u x))
    (μ0 : Measure P) (first : Option (Slot Y)) (qs : List (Slot U × Slot Y)) {φ : P → ℝ≥0∞} (hφ : Measurable φ) :
    ∫⁻ z, ENNReal.ofReal z.2 * φ z.1 ∂(weightedLaw κ inc μ0 (startWeight ℓ first) qs) = exactValue μ0 M ℓ first qs φ := by
  rw [weightedLaw_lintegral inc μ0 (startWeight_measurable hℓ first) qs (f := fun z => ENNReal.ofReal z.2 * φ z.1)
    (measurable_snd.ennreal_ofReal.mul (hφ.comp measurable_fst))]
  simp only [exactValue]
  apply lintegral_congr
  intro x
  rw [weightedSteps_value hinc hℓ hQ hφ]

end steps

/-! ### The bootstrap filter -/

section pf
variable [MeasurableSpace P]

theorem pf_indepRun {Ω : Type} [MeasurableSpace Ω] {K : MarkovModel P U Y V Ω} {ν : Measure Ω} [IsProbabilityMeasure ν] {N : ℕ} (hN : 0 < N)
    {μ0 : Measure P} [IsProbabilityMeasure μ0] {M : ℕ → Slot U → Kernel P P} [∀ k u, IsMarkovKernel (M k u)] {ℓ : ℕ → Slot Y → P → ℝ}
    {good : Slot Y → Prop} (hK : IndepSamples K good ν N μ0 M ℓ) {rest : Callbacks P U Y V Ω} {res : ℝ} (hres : res ≤ 0) {name : String}
    {o : FilterOptions P} (hn : parseFilter name = .ok .pf) {F : FilterOps P U Y V Ω} (hF : mkFilter (K.toCallbacks rest) N res name o = .ok F)
    {T : Option ℕ} {s0 : PT P U Y} (h0 : PT.init N T 0 = .ok s0) {first : Option (Slot Y)} (hfirst : ∀ y, first = some y → good y)
    {qs : List (Slot U × Slot Y)} (hqs : ∀ q ∈ qs, good q.2) (hne : first = none → qs ≠ []) :
    IndepRun N (weightedLaw (fun k u _ => M k u) (fun k _ y _ x' => ℓ (k+1) y x') μ0 (startWeight ℓ first) qs) (runE ν F s0 first qs) := by
  rw [mkFilter_pf _ N res hn o] at hF
  obtain rfl := (Except.ok.inj hF).symm
  obtain ⟨X, hX, hXl, hc⟩ := hK.create
  refine indepRun hN (κ := fun k u _ => M k u) (inc := fun k _ y _ x' => ℓ (k+1) y x') (fun k u y => (hK.meas (k+1) y).comp measurable_snd)
    (fun k u y hy => pf_jointStep hN hK rest hres k u y hy) hK.meas hX hXl hc rfl ?_ h0 hfirst hqs hne
  intro tr anc pa x uv yv tv y hgy hx hw hy ht
  obtain ⟨pa', w', f1, f2, f3, fn, f4⟩ := weightUpdate_offset (pa := pa) hN hw (fun i => ℓ 0 y (x i))
  refine ⟨pa', w', ?_, by rw [f2, hx], f3, fn, f4⟩
  show pfMeasure (K.toCallbacks rest) tr anc pa uv yv tv 0 = _
  unfold pfMeasure
  simp only [MarkovModel.toCallbacks, hx, getLast_take_succ hy, getLast_take_succ ht, ok_bind, hK.measure _ _ _ hgy, f1]

/-- C106: with a resampling threshold `res ≤ 0` the bootstrap filter does not resample, no run raises, and the particles of the last step together
with their importance weights are distributed as `N` independent draws: each moves by the model's kernels on its own and its weight is multiplied by
the likelihoods it meets. -/
theorem C106_independent {Ω : Type} [MeasurableSpace Ω] {K : MarkovModel P U Y V Ω} {ν : Measure Ω} [IsProbabilityMeasure ν] {N : ℕ} (hN : 0 < N)
    {μ0 : Measure P} [IsProbabilityMeasure μ0] {M : ℕ → Slot U → Kernel P P} [∀ k u, IsMarkovKernel (M k u)] {ℓ : ℕ → Slot Y → P → ℝ}
    {good : Slot Y → Prop} (hK : IndepSamples K good ν N μ0 M ℓ) {rest : Callbacks P U Y V Ω} {res : ℝ} (hres : res ≤ 0) {name : String}
    {o : FilterOptions P} (hn : parseFilter name = .ok .pf) {F : FilterOps P U Y V Ω} (hF : mkFilter (K.toCallbacks rest) N res name o = .ok F)
    {T : Option ℕ} {s0 : PT P U Y} (h0 : PT.init N T 0 = .ok s0) {first : Option (Slot Y)} (hfirst : ∀ y, first = some y → good y)
    {qs : List (Slot U × Slot Y)} (hqs : ∀ q ∈ qs, good q.2) (hne : first = none → qs ≠ [])
    {G : (Fin N → P × ℝ) → ℝ≥0∞} (hG : Measurable G) :
    runE ν F s0 first qs (onWeighted N G) = ∫⁻ z, G z ∂(Measure.pi fun _ : Fin N =>
      weightedLaw (fun k u _ => M k u) (fun k _ y _ x' => ℓ (k+1) y x') μ0 (startWeight ℓ first) qs) :=
  pf_indepRun hN hK hres hn hF h0 hfirst hqs hne G hG _ fun _ _ _ _ _ hl hx hw => onWeighted_ofFn G hl hx hw

variable {Ω : ℕ → Type} [∀ N, MeasurableSpace (Ω N)]

/-- C106: as the number of particles grows, the likelihood estimate of the bootstrap filter without resampling converges in probability to the
likelihood of the measurements, provided that is finite. -/
theorem C106_likelihood_consistent {K : ∀ N, MarkovModel P U Y V (Ω N)} {ν : ∀ N, Measure (Ω N)} [∀ N, IsProbabilityMeasure (ν N)]
    {μ0 : Measure P} [IsProbabilityMeasure μ0] {M : ℕ → Slot U → Kernel P P} [∀ k u, IsMarkovKernel (M k u)] {ℓ : ℕ → Slot Y → P → ℝ}
    {good : Slot Y → Prop} (hK : ∀ N, 0 < N → IndepSamples (K N) good (ν N) N μ0 M ℓ) {rest : ∀ N, Callbacks P U Y V (Ω N)} {res : ℝ} (hres : res ≤ 0)
    {name : String} {o : FilterOptions P} (hn : parseFilter name = .ok .pf) {F : ∀ N, FilterOps P U Y V (Ω N)}
    (hF : ∀ N, 0 < N → mkFilter ((K N).toCallbacks (rest N)) N res name o = .ok (F N))
    {T : Option ℕ} {s0 : ℕ → PT P U Y} (h0 : ∀ N, 0 < N → PT.init N T 0 = .ok (s0 N)) {first : Option (Slot Y)} (hfirst : ∀ y, first = some y → good y)
    {qs : List (Slot U × Slot Y)} (hqs : ∀ q ∈ qs, good q.2) (hne : first = none → qs ≠ [])
    (hfin : exactValue μ0 M ℓ first qs (fun _ => 1) ≠ ∞) {ε : ℝ} (hε : 0 < ε) :
    Tendsto (fun N => runE (ν N) (F N) (s0 N) first qs (misses likEstimate (exactValue μ0 M ℓ first qs fun _ => 1).toReal ε)) atTop (nhds 0) := by
  have hℓ := (hK 1 one_pos).meas
  have hinc : ∀ (k : ℕ) (u : Slot U) (y : Slot Y), Measurable (Function.uncurry fun (_ x' : P) => ℓ (k+1) y x') :=
    fun k u y => (hℓ (k+1) y).comp measurable_snd
  have hv := weightedLaw_value (κ := fun k u _ => M k u) hinc hℓ (fun _ _ _ _ _ _ => rfl) μ0 first qs (φ := fun _ => 1) measurable_const
  haveI := weightedLaw_prob (κ := fun k u _ => M k u) hinc μ0 (startWeight_measurable hℓ first) qs
  simp only [mul_one] at hv
  rw [← hv] at hfin ⊢
  exact run_consistent_lik (weightedLaw_pos hinc μ0 (startWeight_measurable hℓ first) (startWeight_pos ℓ first) qs) hfin
    (fun N hN => pf_indepRun hN (hK N hN) hres hn (hF N hN) (h0 N hN) hfirst hqs hne) hε

/-- C106: as the number of particles grows, the weighted mean of `φ` over the particles of the bootstrap filter without resampling converges in
probability to the filtering expectation of `φ`, provided the likelihood is finite and `φ` is integrable. -/
theorem C106_mean_consistent {K : ∀ N, MarkovModel P U Y V (Ω N)} {ν : ∀ N, Measure (Ω N)} [∀ N, IsProbabilityMeasure (ν N)]
    {μ0 : Measure P} [IsProbabilityMeasure μ0] {M : ℕ → Slot U → Kernel P P} [∀ k u, IsMarkovKernel (M k u)] {ℓ : ℕ → Slot Y → P → ℝ}
    {good : Slot Y → Prop} (hK : ∀ N, 0 < N → IndepSamples (K N) good (ν N) N μ0 M ℓ) {rest : ∀ N, Callbacks P U Y V (Ω N)} {res : ℝ} (hres : res ≤ 0)
    {name : String} {o : FilterOptions P} (hn : parseFilter name = .ok .pf) {F : ∀ N, FilterOps P U Y V (Ω N)}
    (hF : ∀ N, 0 < N → mkFilter ((K N).toCallbacks (rest N)) N res name o = .ok (F N))
    {T : Option ℕ} {s0 : ℕ → PT P U Y} (h0 : ∀ N, 0 < N → PT.init N T 0 = .ok (s0 N)) {first : Option (Slot Y)} (hfirst : ∀ y, first = some y → good y)
    {qs : List (Slot U × Slot Y)} (hqs : ∀ q ∈ qs, good q.2) (hne : first = none → qs ≠ [])
    (hfin : exactValue μ0 M ℓ first qs (fun _ => 1) ≠ ∞) {φ : P → ℝ} (hφ : Measurable φ)
    (hφi : exactValue μ0 M ℓ first qs (fun x => ENNReal.ofReal |φ x|) ≠ ∞) {ε : ℝ} (hε : 0 < ε) :
    Tendsto (fun N => runE (ν N) (F N) (s0 N) first qs (misses (fun traj _ => lastMean φ traj) (exactMean μ0 M ℓ first qs φ) ε)) atTop (nhds 0) := by
  have hℓ := (hK 1 one_pos).meas
  have hinc : ∀ (k : ℕ) (u : Slot U) (y : Slot Y), Measurable (Function.uncurry fun (_ x' : P) => ℓ (k+1) y x') :=
    fun k u y => (hℓ (k+1) y).comp measurable_snd
  have hv : ∀ f : P → ℝ≥0∞, Measurable f → _ := fun f hf =>
    weightedLaw_value (κ := fun k u _ => M k u) hinc hℓ (fun _ _ _ _ _ _ => rfl) μ0 first qs (φ := f) hf
  have h1 := hv (fun _ => 1) measurable_const
  simp only [mul_one] at h1
  haveI := weightedLaw_prob (κ := fun k u _ => M k u) hinc μ0 (startWeight_measurable hℓ first) qs
  unfold exactMean
  rw [← h1] at hfin ⊢
  rw [← hv (fun x => ENNReal.ofReal |φ x|) (continuous_abs.measurable.comp hφ).ennreal_ofReal] at hφi
  rw [← hv _ hφ.ennreal_ofReal, ← hv (fun x => ENNReal.ofReal (-φ x)) hφ.neg.ennreal_ofReal]
  exact run_consistent_mean (weightedLaw_pos hinc μ0 (startWeight_measurable hℓ first) (startWeight_pos ℓ first) qs) hfin hφ hφi
    (fun N hN => pf_indepRun hN (hK N hN) hres hn (hF N hN) (h0 N hN) hfirst hqs hne)
    (fun N f g hfg => runE_mono (ν N) (F N) (s0 N) first qs hfg) hε

end pf

/-! ### The SIR filter -/

section sir
variable [MeasurableSpace P]

theorem sir_indepRun {Ω : Type} [MeasurableSpace Ω] {C : Callbacks P U Y V Ω} {ν : Measure Ω} [IsProbabilityMeasure ν] {N : ℕ} (hN : 0 < N)
    {vol μ0 : Measure P} [IsProbabilityMeasure μ0] {M : ℕ → Slot U → Kernel P P} {ℓ : ℕ → Slot Y → P → ℝ}
    {q : ℕ → Slot U → Slot Y → Kernel P P} [∀ k u y, IsMarkovKernel (q k u y)] {lq : ℕ → Slot U → Slot Y → P → P → ℝ} {lx : ℕ → Slot U → P → P → ℝ}
    {good : Slot Y → Prop} (hC : IndepSirSamples C good ν N vol μ0 M ℓ q lq lx) {res : ℝ} (hres : res ≤ 0) {name : String}
    {o : FilterOptions P} (hn : parseFilter name = .ok .sir) {F : FilterOps P U Y V Ω} (hF : mkFilter C N res name o = .ok F)
    {T : Option ℕ} {s0 : PT P U Y} (h0 : PT.init N T 0 = .ok s0) {first : Option (Slot Y)} (hfirst : ∀ y, first = some y → good y)
    {qs : List (Slot U × Slot Y)} (hqs : ∀ q ∈ qs, good q.2) (hne : first = none → qs ≠ []) :
    IndepRun N (weightedLaw q (fun k u y x x' => ℓ (k+1) y x' + lx k u x x' - lq k u y x x') μ0 (startWeight ℓ first) qs) (runE ν F s0 first qs) := by
  obtain rfl := mkFilter_sir hn hF
  obtain ⟨X, hX, hXl, hc⟩ := hC.create_indep
  exact indepRun hN (inc := fun k u y x x' => ℓ (k+1) y x' + lx k u x x' - lq k u y x x')
    (fun k u y => (((hC.meas (k+1) y).comp measurable_snd).add (hC.meas_x2 k u)).sub (hC.meas_q2 k u y))
    (fun k u y hy => sir_jointStep hN hC hres k u y hy) hC.meas hX hXl hc rfl
    (fun tr anc pa x uv yv tv y => sir_measure_law hN hC.toSirSamples res tr anc pa x uv yv tv y) h0 hfirst hqs hne

/-- C106: with a resampling threshold `res ≤ 0` the particles of the SIR filter and their importance weights are `N` independent draws: each moves by
the proposal on its own and its weight is multiplied by likelihood times transition density over proposal density. -/
theorem C106_sir_independent {Ω : Type} [MeasurableSpace Ω] {C : Callbacks P U Y V Ω} {ν : Measure Ω} [IsProbabilityMeasure ν] {N : ℕ} (hN : 0 < N)
    {vol μ0 : Measure P} [IsProbabilityMeasure μ0] {M : ℕ → Slot U → Kernel P P} {ℓ : ℕ → Slot Y → P → ℝ}
    {q : ℕ → Slot U → Slot Y → Kernel P P} [∀ k u y, IsMarkovKernel (q k u y)] {lq : ℕ → Slot U → Slot Y → P → P → ℝ} {lx : ℕ → Slot U → P → P → ℝ}
    {good : Slot Y → Prop} (hC : IndepSirSamples C good ν N vol μ0 M ℓ q lq lx) {res : ℝ} (hres : res ≤ 0) {name : String}
    {o : FilterOptions P} (hn : parseFilter name = .ok .sir) {F : FilterOps P U Y V Ω} (hF : mkFilter C N res name o = .ok F)
    {T : Option ℕ} {s0 : PT P U Y} (h0 : PT.init N T 0 = .ok s0) {first : Option (Slot Y)} (hfirst : ∀ y, first = some y → good y)
    {qs : List (Slot U × Slot Y)} (hqs : ∀ q ∈ qs, good q.2) (hne : first = none → qs ≠ []) {G : (Fin N → P × ℝ) → ℝ≥0∞} (hG : Measurable G) :
    runE ν F s0 first qs (onWeighted N G) = ∫⁻ z, G z ∂(Measure.pi fun _ : Fin N =>
      weightedLaw q (fun k u y x x' => ℓ (k+1) y x' + lx k u x x' - lq k u y x x') μ0 (startWeight ℓ first) qs) :=
  sir_indepRun hN hC hres hn hF h0 hfirst hqs hne G hG _ fun _ _ _ _ _ hl hx hw => onWeighted_ofFn G hl hx hw

variable {Ω : ℕ → Type} [∀ N, MeasurableSpace (Ω N)]

/-- C106: the likelihood estimate and the weighted means of the SIR filter without resampling converge in probability, as the number of particles grows,
to the likelihood and to the filtering expectations - whatever the proposal. -/
theorem C106_sir_consistent {C : ∀ N, Callbacks P U Y V (Ω N)} {ν : ∀ N, Measure (Ω N)} [∀ N, IsProbabilityMeasure (ν N)]
    {vol μ0 : Measure P} [IsProbabilityMeasure μ0] {M : ℕ → Slot U → Kernel P P} {ℓ : ℕ → Slot Y → P → ℝ}
    {q : ℕ → Slot U → Slot Y → Kernel P P} [∀ k u y, IsMarkovKernel (q k u y)] {lq : ℕ → Slot U → Slot Y → P → P → ℝ} {lx : ℕ → Slot U → P → P → ℝ}
    {good : Slot Y → Prop} (hC : ∀ N, 0 < N → IndepSirSamples (C N) good (ν N) N vol μ0 M ℓ q lq lx) {res : ℝ} (hres : res ≤ 0)
    {name : String} {o : FilterOptions P} (hn : parseFilter name = .ok .sir) {F : ∀ N, FilterOps P U Y V (Ω N)}
    (hF : ∀ N, 0 < N → mkFilter (C N) N res name o = .ok (F N))
    {T : Option ℕ} {s0 : ℕ → PT P U Y} (h0 : ∀ N, 0 < N → PT.init N T 0 = .ok (s0 N)) {first : Option (Slot Y)} (hfirst : ∀ y, first = some y → good y)
    {qs : List (Slot U × Slot Y)} (hqs : ∀ q ∈ qs, good q.2) (hne : first = none → qs ≠ [])
    (hfin : exactValue μ0 M ℓ first qs (fun _ => 1) ≠ ∞) {φ : P → ℝ} (hφ : Measurable φ)
    (hφi : exactValue μ0 M ℓ first qs (fun x => ENNReal.ofReal |φ x|) ≠ ∞) {ε : ℝ} (hε : 0 < ε) :
    Tendsto (fun N => runE (ν N) (F N) (s0 N) first qs (misses likEstimate (exactValue μ0 M ℓ first qs fun _ => 1).toReal ε)) atTop (nhds 0) ∧
    Tendsto (fun N => runE (ν N) (F N) (s0 N) first qs (misses (fun traj _ => lastMean φ traj) (exactMean μ0 M ℓ first qs φ) ε)) atTop (nhds 0) := by
  have hC1 := hC 1 one_pos
  have hℓ := hC1.meas
  have hinc : ∀ (k : ℕ) (u : Slot U) (y : Slot Y), Measurable (Function.uncurry fun x x' => ℓ (k+1) y x' + lx k u x x' - lq k u y x x') :=
    fun k u y => (((hC1.meas (k+1) y).comp measurable_snd).add (hC1.meas_x2 k u)).sub (hC1.meas_q2 k u y)
  have hv : ∀ f : P → ℝ≥0∞, Measurable f → _ := fun f hf =>
    weightedLaw_value (κ := q) hinc hℓ (sir_tilt hC1.toSirSamples) μ0 first qs (φ := f) hf
  have h1 := hv (fun _ => 1) measurable_const
  simp only [mul_one] at h1
  haveI := weightedLaw_prob (κ := q) hinc μ0 (startWeight_measurable hℓ first) qs
  unfold exactMean
  rw [← h1] at hfin ⊢
  rw [← hv (fun x => ENNReal.ofReal |φ x|) (continuous_abs.measurable.comp hφ).ennreal_ofReal] at hφi
  rw [← hv _ hφ.ennreal_ofReal, ← hv (fun x => ENNReal.ofReal (-φ x)) hφ.neg.ennreal_ofReal]
  exact ⟨run_consistent_lik (weightedLaw_pos hinc μ0 (startWeight_measurable hℓ first) (startWeight_pos ℓ first) qs) hfin
      (fun N hN => sir_indepRun hN (hC N hN) hres hn (hF N hN) (h0 N hN) hfirst hqs hne) hε,
    run_consistent_mean (weightedLaw_pos hinc μ0 (startWeight_measurable hℓ first) (startWeight_pos ℓ first) qs) hfin hφ hφi
      (fun N hN => sir_indepRun hN (hC N hN) hres hn (hF N hN) (h0 N hN) hfirst hqs hne)
      (fun N f g hfg => runE_mono (ν N) (F N) (s0 N) first qs hfg) hε⟩

end sir

end PyPE

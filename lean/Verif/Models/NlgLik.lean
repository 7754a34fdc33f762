import Verif.Filter.Likelihood
import Verif.Models.NlgClaims
import Verif.Kalman.Bayes
import Verif.Filter.Toy

/-!
# C89 for `NonlinearGaussian` models (nlg.py): the bootstrap filter's likelihood estimate is unbiased for the Gaussian model
-/

namespace PyPE
open Real Spec MeasureTheory ProbabilityTheory Matrix
open scoped ENNReal

variable {n m : ℕ} {U V : Type}

/-- A `NonlinearGaussianInitialGaussian` object seen through the Markov interface (nlg.py:130-212, 404-418). `ω` holds the `N` columns of
`numpy.random.normal`. A measurement is an array; `None` raises (nlg.py:203). -/
noncomputable def nlgMarkov (N : ℕ) (H : NlgHooks n m (Slot U) ℕ) (o : NlgObj n m) (o0 : NlgX0 n) :
    MarkovModel (Fin n → ℝ) U (Fin m → ℝ) (List (Fin n → ℝ)) (Fin N → Fin n → ℝ) where
  createInitial k ω := o0.create k (List.ofFn ω)
  sampleProcessNoise part u t ω := nlgNoise H o part u t (List.ofFn ω)
  update part u t v := nlgUpdate H o part u t v
  measure part y t := match y with
    | .obj y => nlgMeasure H o part y t
    | _ => .error .typeError

/-- The measurement is an array. -/
def Spec.IsObj {Y : Type} (y : Slot Y) : Prop := ∃ v, y = .obj v

/-- The hooks and attributes of a `NonlinearGaussian` object describe `x⁺ ~ N(F, Q)`, `y ~ N(G, R)`. -/
structure Spec.NlgDescribes (H : NlgHooks n m (Slot U) ℕ) (o : NlgObj n m) (F : ℕ → Slot U → (Fin n → ℝ) → Fin n → ℝ)
    (Q : ℕ → Slot U → (Fin n → ℝ) → Matrix (Fin n) (Fin n) ℝ) (G : ℕ → (Fin n → ℝ) → Fin m → ℝ)
    (R : ℕ → (Fin n → ℝ) → Matrix (Fin m) (Fin m) ℝ) : Prop where
  drift : ∀ parts u t, Spec.DriftIs parts (H.calcF parts u t) o.f (F t u)
  cov : ∀ parts u t, Spec.CovHook parts (H.calcQ parts u t) (Q t u) ∨
      (H.calcQ parts u t = none ∧ ∃ Q0, Q0.PosDef ∧ Spec.HasQ o Q0 ∧ ∀ x, Q t u x = Q0)
  out : ∀ parts t, Spec.DriftIs parts (H.calcG parts t) o.g (G t)
  outCov : ∀ parts t, Spec.CovHook parts (H.calcR parts t) (R t) ∨
      ((m ≠ 1 ∨ ∀ x, R t x = 1) ∧ H.calcR parts t = none ∧ ∃ R0, R0.PosDef ∧ Spec.HasR o R0 ∧ ∀ x, R t x = R0)

/-- `logp_xnext` is the log-density of the noise that `sample_process_noise` draws (C46): the state is not a number, or `calc_Q` gives the covariances, or the constant
variance is 1 (the standard deviation that the scalar code uses in its place). -/
abbrev Spec.TransExact (H : NlgHooks n m (Slot U) ℕ) (Q : ℕ → Slot U → (Fin n → ℝ) → Matrix (Fin n) (Fin n) ℝ) : Prop :=
  n ≠ 1 ∨ (∀ parts u t, Spec.CovHook parts (H.calcQ parts u t) (Q t u)) ∨ ∀ t u x, Q t u x = 1

/-- The log-density of a measurement. -/
noncomputable def Spec.nlgLoglik (G : ℕ → (Fin n → ℝ) → Fin m → ℝ) (R : ℕ → (Fin n → ℝ) → Matrix (Fin m) (Fin m) ℝ) (t : ℕ) :
    Slot (Fin m → ℝ) → (Fin n → ℝ) → ℝ
  | .obj y, x => Spec.logNormal (R t x) (y - G t x)
  | _, _ => 0

/-- The draws `numpy.random.normal(size=(lxi, N))`. -/
noncomputable def Spec.normals (N n : ℕ) : Measure (Fin N → Fin n → ℝ) := Measure.pi fun _ => Spec.gauss (0 : Fin n → ℝ) 1

instance (N n : ℕ) : IsProbabilityMeasure (Spec.normals N n) := by unfold Spec.normals; infer_instance

theorem map_eval_pi {N : ℕ} {X : Type} [MeasurableSpace X] (μ : Fin N → Measure X) [∀ i, IsProbabilityMeasure (μ i)] {Ω : Type} [MeasurableSpace Ω] {ν : Measure Ω}
    {step : Ω → Fin N → X} (hs : Measurable step) (h : ν.map step = Measure.pi μ) (i : Fin N) :
    (ν.map fun ω => step ω i) = μ i := by
  have : (fun ω => step ω i) = Function.eval i ∘ step := rfl
  rw [this, ← Measure.map_map (measurable_pi_apply i) hs, h]
  exact (measurePreserving_eval μ i).map_eq

theorem nlg_move {H : NlgHooks n m (Slot U) ℕ} {o : NlgObj n m} {F : ℕ → Slot U → (Fin n → ℝ) → Fin n → ℝ}
    {Q : ℕ → Slot U → (Fin n → ℝ) → Matrix (Fin n) (Fin n) ℝ} {G : ℕ → (Fin n → ℝ) → Fin m → ℝ}
    {R : ℕ → (Fin n → ℝ) → Matrix (Fin m) (Fin m) ℝ} (hD : Spec.NlgDescribes H o F Q G R) {N : ℕ} (parts : List (Fin n → ℝ))
    (hl : parts.length = N) (u : Slot U) (t : ℕ) :
    ∃ step : (Fin N → Fin n → ℝ) → Fin N → Fin n → ℝ, Measurable step ∧
      (∀ w, (do let noise ← nlgNoise H o parts u t (List.ofFn w); nlgUpdate H o parts u t noise : PyM _) = .ok (List.ofFn (step w))) ∧
      (normals N n).map step = Measure.pi fun i => Spec.gauss (F t u (parts[i]'(by rw [hl]; exact i.2))) (Q t u (parts[i]'(by rw [hl]; exact i.2))) := by
  subst hl
  exact nlg_transition_law H o parts u t (F t u) (Q t u) (hD.drift _ _ _) (hD.cov _ _ _)

/-- A `NonlinearGaussian` object samples from the Gaussian Markov chain it describes. -/
theorem nlg_samples {H : NlgHooks n m (Slot U) ℕ} {o : NlgObj n m} {F : ℕ → Slot U → (Fin n → ℝ) → Fin n → ℝ}
    {Q : ℕ → Slot U → (Fin n → ℝ) → Matrix (Fin n) (Fin n) ℝ} {G : ℕ → (Fin n → ℝ) → Fin m → ℝ}
    {R : ℕ → (Fin n → ℝ) → Matrix (Fin m) (Fin m) ℝ} (hD : Spec.NlgDescribes H o F Q G R) (o0 : NlgX0 n) {N : ℕ} {μ0 : Measure (Fin n → ℝ)}
    (hcreate : ∃ X : Fin N → (Fin N → Fin n → ℝ) → Fin n → ℝ, (∀ i, Measurable (X i) ∧ (normals N n).map (X i) = μ0) ∧
      ∀ w, o0.create N (List.ofFn w) = .ok (List.ofFn fun i => X i w))
    {M : ℕ → Slot U → Kernel (Fin n → ℝ) (Fin n → ℝ)} (hM : ∀ t u x, M t u x = Spec.gauss (F t u x) (Q t u x))
    (hmeas : ∀ t y, Measurable (nlgLoglik G R t y)) :
    Spec.Samples (nlgMarkov N H o o0) IsObj (normals N n) N μ0 M (nlgLoglik G R) where
  create := hcreate
  move x u k := by
    obtain ⟨step, h1, h2, h3⟩ := nlg_move hD (N := N) (List.ofFn x) (by simp) u k
    refine ⟨fun i w => step w i, fun i => ⟨measurable_pi_iff.mp h1 i, ?_⟩, fun ω => ?_⟩
    · rw [map_eval_pi _ h1 h3 i, hM]
      simp
    · obtain ⟨v, hv1, hv2⟩ := bind_eq_ok.mp (h2 ω)
      exact ⟨v, hv1, hv2⟩
  measure x y k hy := by
    obtain ⟨v, rfl⟩ := hy
    show nlgMeasure H o (List.ofFn x) v k = _
    rw [C46_measure H o (List.ofFn x) v k (G k) (R k) (hD.out _ _) (hD.outCov _ _), List.map_ofFn]
    rfl
  meas := hmeas

/-- C89 for `NonlinearGaussianInitialGaussian`: the bootstrap filter with any number of particles and any resampling threshold gives an
unbiased estimate of the likelihood of the data under `x_{t+1} ~ N(F(x_t), Q(x_t))`, `y_t ~ N(G(x_t), R(x_t))` started from a normal law with
mean `x0`, which is `N(x0, Px0)` exactly when `Px0` is diagonal (C47). -/
theorem C89_nonlinear_gaussian {H : NlgHooks n m (Slot U) ℕ} {o : NlgObj n m} {F : ℕ → Slot U → (Fin n → ℝ) → Fin n → ℝ}
    {Q : ℕ → Slot U → (Fin n → ℝ) → Matrix (Fin n) (Fin n) ℝ} {G : ℕ → (Fin n → ℝ) → Fin m → ℝ}
    {R : ℕ → (Fin n → ℝ) → Matrix (Fin m) (Fin m) ℝ} (hD : Spec.NlgDescribes H o F Q G R) {o0 : NlgX0 n} (hP : o0.P0.PosDef)
    (h0 : o0.P0 ≠ 0) {N : ℕ} (hN : 0 < N)
    {M : ℕ → Slot U → Kernel (Fin n → ℝ) (Fin n → ℝ)} (hM : ∀ t u x, M t u x = Spec.gauss (F t u x) (Q t u x))
    (hmeas : ∀ t y, Measurable (nlgLoglik G R t y))
    {rest : Callbacks (Fin n → ℝ) U (Fin m → ℝ) (List (Fin n → ℝ)) (Fin N → Fin n → ℝ)} {res : ℝ} {name : String}
    {opts : FilterOptions (Fin n → ℝ)} (hn : parseFilter name = .ok .pf) {Fl : FilterOps (Fin n → ℝ) U (Fin m → ℝ) _ _}
    (hF : mkFilter ((nlgMarkov N H o o0).toCallbacks rest) N res name opts = .ok Fl) {T : Option ℕ} {s0 : PT (Fin n → ℝ) U (Fin m → ℝ)}
    (hs : PT.init N T 0 = .ok s0) (y0 : Fin m → ℝ) (qs : List (Slot U × (Fin m → ℝ))) :
    ∃ S : Matrix (Fin n) (Fin n) ℝ, (Spec.gauss o0.x0 S = Spec.gauss o0.x0 o0.P0 ↔ ∀ i j, i ≠ j → o0.P0 i j = 0) ∧
      ∫⁻ ω, stepsE (normals N n) (qs.map fun q => (q.1, .obj q.2)) (fun ds => runEstimate 1 (s0.run Fl (history (some (.obj y0, ω)) ds)))
          ∂(normals N n) =
        ∫⁻ x, ENNReal.ofReal (exp (Spec.logNormal (R 0 x) (y0 - G 0 x))) *
          pathE M (nlgLoglik G R) 1 0 (qs.map fun q => (q.1, .obj q.2)) x ∂(Spec.gauss o0.x0 S) := by
  obtain ⟨c, hc, step, hm, hstep, hlaw⟩ := nlg_create_law o0 hP h0 N
  obtain ⟨S', -, ⟨step', hstep', hlaw'⟩, -, hdiag⟩ := C47_initial_law o0 hP h0 N
  haveI : Nonempty (Fin N) := ⟨⟨0, hN⟩⟩
  have hss : step' = step := by
    funext w
    have := (hstep' w).symm.trans (hstep w)
    exact List.ofFn_injective (Except.ok.inj this)
  subst hss
  refine ⟨S', hdiag, ?_⟩
  have hsmp := nlg_samples hD o0 (N := N) (μ0 := Spec.gauss o0.x0 S')
    ⟨fun i w => step' w i, fun i => ⟨measurable_pi_iff.mp hm i, map_eval_pi (fun _ => Spec.gauss o0.x0 S') hm hlaw' i⟩, hstep'⟩ hM hmeas
  exact (C89_bootstrap_unbiased hN hsmp hn hF (φ := 1) measurable_const hs (qs.map fun q => (q.1, .obj q.2)) (by
    intro q hq
    obtain ⟨q', -, rfl⟩ := List.mem_map.mp hq
    exact ⟨_, rfl⟩)).1 (.obj y0) ⟨_, rfl⟩

/-! ### A concrete case -/

/-- The Gaussian kernel with a measurable mean and a fixed covariance. -/
noncomputable def gaussKernel (f : (Fin n → ℝ) → Fin n → ℝ) (hf : Measurable f) (S : Matrix (Fin n) (Fin n) ℝ) :
    Kernel (Fin n → ℝ) (Fin n → ℝ) :=
  (Kernel.deterministic f hf ×ₖ Kernel.const _ (Spec.gauss 0 S)).map fun p => p.1 + p.2

theorem gaussKernel_apply {f : (Fin n → ℝ) → Fin n → ℝ} (hf : Measurable f) {S : Matrix (Fin n) (Fin n) ℝ} (hS : S.PosSemidef) (x : Fin n → ℝ) :
    gaussKernel f hf S x = Spec.gauss (f x) S := by
  unfold gaussKernel
  rw [Kernel.map_apply _ (by fun_prop), Kernel.prod_apply, Kernel.deterministic_apply, Kernel.const_apply, Measure.dirac_prod,
    Measure.map_map (by fun_prop) (by fun_prop)]
  exact gauss_shift hS (f x)

/-- Two states, `x⁺ = x/2 + v`, `y = x + e`. -/
noncomputable def nlgLikToy : NlgHooks 2 2 (Slot ℝ) ℕ where
  calcF parts _ _ := some (parts.map fun x => (1/2 : ℝ) • x)
  calcQ _ _ _ := none
  calcG parts _ := some (parts.map fun x => x)
  calcR _ _ := none

/-- C89 on that model: 5 particles, resampling threshold 2/3, a measurement at time 0 and any number of steps. -/
example (rest : Callbacks (Fin 2 → ℝ) ℝ (Fin 2 → ℝ) (List (Fin 2 → ℝ)) (Fin 5 → Fin 2 → ℝ)) (qs : List (Slot ℝ × (Fin 2 → ℝ))) (y0 : Fin 2 → ℝ) :
    ∃ (o : NlgObj 2 2) (Fl : _) (s0 : PT (Fin 2 → ℝ) ℝ (Fin 2 → ℝ)), nlgInit none none (some 1) (some 1) = .ok o ∧
      mkFilter ((nlgMarkov 5 nlgLikToy o ⟨0, 1⟩).toCallbacks rest) 5 (2/3) "PF" .none = .ok Fl ∧ PT.init 5 none 0 = .ok s0 ∧
      ∫⁻ ω, stepsE (normals 5 2) (qs.map fun q => (q.1, .obj q.2)) (fun ds => runEstimate 1 (s0.run Fl (history (some (.obj y0, ω)) ds)))
          ∂(normals 5 2) =
        ∫⁻ x, ENNReal.ofReal (exp (Spec.logNormal 1 (y0 - x))) *
          pathE (fun _ _ => gaussKernel (fun x => (1/2 : ℝ) • x) (by fun_prop) 1) (nlgLoglik (fun _ x => x) (fun _ _ => 1)) 1 0
            (qs.map fun q => (q.1, .obj q.2)) x ∂(Spec.gauss 0 1) := by
  obtain ⟨o, ho, -, -, h1, h2⟩ := C46_last_covariances (n := 2) (m := 2) none none (some 1) (some 1)
    (by rintro _ ⟨⟩; exact PosDef.one) (by rintro _ ⟨⟩; exact PosDef.one) [] (by simp)
  have hD : Spec.NlgDescribes nlgLikToy o (fun _ _ x => (1/2 : ℝ) • x) (fun _ _ _ => 1) (fun _ x => x) (fun _ _ => 1) :=
    ⟨fun _ _ _ => Or.inl rfl, fun _ _ _ => Or.inr ⟨rfl, 1, PosDef.one, h1 _ rfl, fun _ => rfl⟩, fun _ _ => Or.inl rfl,
      fun _ _ => Or.inr ⟨by norm_num, rfl, 1, PosDef.one, h2 _ rfl, fun _ => rfl⟩⟩
  have hn : parseFilter "PF" = .ok .pf := by
    have : "PF".toLower = "pf" := by decide +kernel
    simp [parseFilter, this]
  refine ⟨o, _, _, ho, mkFilter_pf _ _ _ hn _, rfl, ?_⟩
  obtain ⟨S, hS, h⟩ := C89_nonlinear_gaussian hD (o0 := ⟨0, 1⟩) PosDef.one (by
      intro h; have := congrFun (congrFun h 0) 0; simp at this) (N := 5) (by norm_num)
    (M := fun _ _ => gaussKernel (fun x => (1/2 : ℝ) • x) (by fun_prop) 1)
    (fun t u x => gaussKernel_apply _ PosDef.one.posSemidef x) (by
      intro t y
      cases y with
      | obj y => exact ((continuous_logNormal 1).measurable).comp (by fun_prop)
      | none => exact measurable_const
      | zero => exact measurable_const) (rest := rest) (res := 2/3) hn (mkFilter_pf _ _ _ hn .none) (T := none) rfl y0 qs
  rw [hS.mpr (fun i j hij => by simp [hij])] at h
  exact h

/-! ### A concrete SIR case -/

/-- `x⁺ ~ N(x/2, I)`, `y ~ N(x, I)`, proposal `N((x + y)/2, I)`, for five particles. -/
noncomputable def sirGaussToy : Callbacks (Fin 2 → ℝ) ℝ (Fin 2 → ℝ) Unit (Fin 5 → Fin 2 → ℝ) where
  createInitial _ ω := .ok (List.ofFn ω)
  sampleNoise _ _ _ _ _ := .error .attributeError
  update _ _ _ _ _ _ _ := .error .attributeError
  measure part _ _ yt _ _ := match getLast yt with
    | .ok (.obj y) => .ok (part.map fun x => Spec.logNormal 1 (y - x))
    | _ => .error .typeError
  evalFirstStage _ _ _ _ := .error .attributeError
  logpXnextSingle _ _ _ _ _ _ _ _ _ := .error .attributeError
  proposeFromY _ _ _ _ := .error .attributeError
  qsample part _ y _ ω := match y with
    | .obj y => .ok (List.ofFn fun i : Fin 5 => (1/2 : ℝ) • (part.getD i 0 + y) + ω i)
    | _ => .error .typeError
  logpQ part next _ y _ := match y with
    | .obj y => .ok (List.zipWith (fun x x' => Spec.logNormal 1 (x' - (1/2 : ℝ) • (x + y))) part next)
    | _ => .error .typeError
  logpXnext part next _ _ := .ok (List.zipWith (fun x x' => Spec.logNormal 1 (x' - (1/2 : ℝ) • x)) part next)
  sirMeasure part y _ := match y with
    | .obj y => .ok (part.map fun x => Spec.logNormal 1 (y - x))
    | _ => .error .typeError

/-- The value of a slot that holds an array. -/
def slotArr : Slot (Fin 2 → ℝ) → Fin 2 → ℝ
  | .obj y => y
  | _ => 0

theorem sirGaussToy_samples : Spec.SirSamples sirGaussToy Spec.IsObj (Spec.normals 5 2) 5 volume (Spec.gauss 0 1)
    (fun _ _ => gaussKernel (fun x => (1/2 : ℝ) • x) (by fun_prop) 1) (nlgLoglik (fun _ x => x) (fun _ _ => 1))
    (fun _ _ y => gaussKernel (fun x => (1/2 : ℝ) • (x + slotArr y)) (by fun_prop) 1)
    (fun _ _ y x x' => Spec.logNormal 1 (x' - (1/2 : ℝ) • (x + slotArr y))) (fun _ _ x x' => Spec.logNormal 1 (x' - (1/2 : ℝ) • x)) := by
  have hev : ∀ i : Fin 5, (Spec.normals 5 2).map (fun ω => ω i) = Spec.gauss 0 1 := fun i =>
    (measurePreserving_eval (fun _ : Fin 5 => Spec.gauss (0 : Fin 2 → ℝ) 1) i).map_eq
  have hln := (continuous_logNormal (1 : Matrix (Fin 2) (Fin 2) ℝ)).measurable
  refine ⟨⟨fun i ω => ω i, fun i => ⟨measurable_pi_apply i, hev i⟩, fun ω => rfl⟩, ?_, ?_, ?_, ?_, ?_, ?_, ?_, ?_, ?_, ?_⟩
  · rintro x u _ k ⟨y, rfl⟩
    refine ⟨fun i ω => (1/2 : ℝ) • (x i + y) + ω i, fun i => ⟨by fun_prop, ?_⟩, fun ω => ?_⟩
    · rw [gaussKernel_apply _ PosDef.one.posSemidef, ← gauss_shift PosDef.one.posSemidef, ← hev i, Measure.map_map (by fun_prop) (by fun_prop)]
      rfl
    · simp [sirGaussToy, List.getD_eq_getElem?_getD]
  · rintro x x' u _ k ⟨y, rfl⟩
    simp only [sirGaussToy, zipWith_ofFn', slotArr]
  · intro x x' u k
    simp only [sirGaussToy, zipWith_ofFn']
  · rintro x _ k ⟨y, rfl⟩
    simp only [sirGaussToy, List.map_ofFn]; rfl
  · rintro x _ k tr uv yv tv anc ⟨y, rfl⟩ hy ht
    simp only [sirGaussToy, hy, List.map_ofFn]; rfl
  · intro k u y x
    rw [gaussKernel_apply _ PosDef.one.posSemidef, gauss_density PosDef.one]
  · intro k u x
    rw [gaussKernel_apply _ PosDef.one.posSemidef, gauss_density PosDef.one]
  · intro k y
    cases y with
    | obj y => exact hln.comp (by fun_prop)
    | none => exact measurable_const
    | zero => exact measurable_const
  · intro k u y x
    exact hln.comp (by fun_prop)
  · intro k u x
    exact hln.comp (by fun_prop)

/-- C89 for that SIR filter. -/
example (res : ℝ) (qs : List (Slot ℝ × (Fin 2 → ℝ))) (y0 : Fin 2 → ℝ) :
    ∃ (Fl : _) (s0 : PT (Fin 2 → ℝ) ℝ (Fin 2 → ℝ)), mkFilter sirGaussToy 5 res "sir" .none = .ok Fl ∧ PT.init 5 none 0 = .ok s0 ∧
      ∫⁻ ω, stepsE (normals 5 2) (qs.map fun q => (q.1, .obj q.2)) (fun ds => runEstimate 1 (s0.run Fl (history (some (.obj y0, ω)) ds)))
          ∂(normals 5 2) =
        ∫⁻ x, ENNReal.ofReal (exp (Spec.logNormal 1 (y0 - x))) *
          pathE (fun _ _ => gaussKernel (fun x => (1/2 : ℝ) • x) (by fun_prop) 1) (nlgLoglik (fun _ x => x) (fun _ _ => 1)) 1 0
            (qs.map fun q => (q.1, .obj q.2)) x ∂(Spec.gauss 0 1) := by
  have hF : mkFilter sirGaussToy 5 res "sir" .none = .ok (sirOps sirGaussToy res) := by
    unfold mkFilter
    rw [parse_sir, ok_bind]; rfl
  refine ⟨_, _, hF, rfl, ?_⟩
  exact (C89_sir_unbiased (by norm_num) sirGaussToy_samples parse_sir hF (φ := 1) measurable_const (T := none) rfl
    (qs.map fun q => (q.1, .obj q.2)) (by
    intro q hq
    obtain ⟨q', -, rfl⟩ := List.mem_map.mp hq
    exact ⟨_, rfl⟩)).1 (.obj y0) ⟨_, rfl⟩

end PyPE

import Verif.Models.NlgPaths
import Verif.Smooth.BsiUnbiased

/-!
# C98 for `NonlinearGaussian` models (nlg.py)
-/

namespace PyPE
open Real Spec MeasureTheory ProbabilityTheory Matrix
open scoped ENNReal

variable {n m : ℕ} {U V : Type}

/-- `logp_xnext_max` of a `NonlinearGaussian` object bounds its transition density. -/
theorem nlg_maxDensity {H : NlgHooks n m (Slot U) ℕ} {o : NlgObj n m} {F : ℕ → Slot U → (Fin n → ℝ) → Fin n → ℝ}
    {Q : ℕ → Slot U → (Fin n → ℝ) → Matrix (Fin n) (Fin n) ℝ} {G : ℕ → (Fin n → ℝ) → Fin m → ℝ}
    {R : ℕ → (Fin n → ℝ) → Matrix (Fin m) (Fin m) ℝ} (hD : Spec.NlgDescribes H o F Q G R)
    (hn : Spec.TransExact H Q) :
    Spec.MaxDensity (nlgLogpXnextMax H o) (nlgTrans F Q) := by
  intro part u k hne
  obtain ⟨b, h1, h2, -⟩ := C48_bound H o part u k (F k u) (Q k u) (hD.drift _ _ _) (by
    rcases hn with h | h | h
    · rcases hD.cov part u k with h' | h'
      · exact .inl h'
      · exact .inr ⟨.inl h, h'⟩
    · exact .inl (h _ _ _)
    · rcases hD.cov part u k with h' | h'
      · exact .inl h'
      · exact .inr ⟨.inr (h k u), h'⟩) hne
  refine ⟨b, h1, fun x hx x' => ?_⟩
  obtain ⟨l, hl, hlb⟩ := h2 (List.replicate part.length x') (by simp)
  have hl' := nlg_logDensity hD hn part (List.replicate part.length x') u k (by simp)
  rw [hl] at hl'
  obtain rfl := Except.ok.inj hl'
  obtain ⟨i, hi, rfl⟩ := List.getElem_of_mem hx
  refine hlb _ (List.mem_iff_getElem.mpr ⟨i, by simpa using hi, ?_⟩)
  simp

/-- C98 for `NonlinearGaussianInitialGaussian` with its own `logp_xnext` and `logp_xnext_max`: filter with any number of particles and any resampling
threshold, then `perform_smoothing` with 'mcmc', 'rs' or 'rsas'. The likelihood estimate times the average of `φ` over the
trajectories is an unbiased estimate of `E[Π_t p(y_t | x_t) φ(x_0, …, x_T)]` under `x_{t+1} ~ N(F(x_t), Q(x_t))`, `y_t ~ N(G(x_t), R(x_t))`
started from a normal law with mean `x0`, which is `N(x0, Px0)` exactly when `Px0` is diagonal (C47). -/
theorem C98_nonlinear_gaussian {H : NlgHooks n m (Slot U) ℕ} {o : NlgObj n m} {F : ℕ → Slot U → (Fin n → ℝ) → Fin n → ℝ}
    {Q : ℕ → Slot U → (Fin n → ℝ) → Matrix (Fin n) (Fin n) ℝ} {G : ℕ → (Fin n → ℝ) → Fin m → ℝ}
    {R : ℕ → (Fin n → ℝ) → Matrix (Fin m) (Fin m) ℝ} (hD : Spec.NlgDescribes H o F Q G R)
    (hone : Spec.TransExact H Q) {o0 : NlgX0 n} (hP : o0.P0.PosDef)
    (h0 : o0.P0 ≠ 0) {N : ℕ} (hN : 0 < N)
    {M : ℕ → Slot U → Kernel (Fin n → ℝ) (Fin n → ℝ)} (hM : ∀ t u x, M t u x = Spec.gauss (F t u x) (Q t u x))
    (hmeas : ∀ t y, Measurable (nlgLoglik G R t y))
    {rest : Callbacks (Fin n → ℝ) U (Fin m → ℝ) (List (Fin n → ℝ)) (Fin N → Fin n → ℝ)} {res : ℝ} {name : String}
    {opts : FilterOptions (Fin n → ℝ)} (hn : parseFilter name = .ok .pf) {Fl : FilterOps (Fin n → ℝ) U (Fin m → ℝ) _ _}
    (hF : mkFilter ((nlgMarkov N H o o0).toCallbacks rest) N res name opts = .ok Fl) {T : Option ℕ} {s0 : PT (Fin n → ℝ) U (Fin m → ℝ)}
    (hs : PT.init N T 0 = .ok s0)
    {srest : SmoothCallbacks (Fin n → ℝ) U (Fin m → ℝ) (List (Fin n → ℝ)) (Fin N → Fin n → ℝ)} (hps : NoPostprocessing srest)
    {k : ℕ} (hk : 0 < k) (user : Option SOpts) (hmp : user.bind (·.maxpdf) = none) (d : AllDraws (Fin N → Fin n → ℝ))
    {φ : List (Fin n → ℝ) → ℝ≥0∞} (hφ : ∀ l, Measurable fun x : Fin l → Fin n → ℝ => φ (List.ofFn x))
    (y0 : Fin m → ℝ) (qs : List (Slot U × (Fin m → ℝ))) :
    ∃ (S : Matrix (Fin n) (Fin n) ℝ) (v : ℝ≥0∞), (Spec.gauss o0.x0 S = Spec.gauss o0.x0 o0.P0 ↔ ∀ i j, i ≠ j → o0.P0 i j = 0) ∧
      v = ∫⁻ x, ENNReal.ofReal (exp (Spec.logNormal (R 0 x) (y0 - G 0 x))) *
          pathsE M (nlgLoglik G R) φ 0 (qs.map fun q => (q.1, .obj q.2)) [] x ∂(Spec.gauss o0.x0 S) ∧
      (∀ fuel rounds, (choose user (·.R) (.int 30)).range = .ok rounds →
        ∫⁻ ω, stepsE (normals N n) (qs.map fun q => (q.1, .obj q.2)) (fun ds =>
          runWeighted (smoothRoundsE rounds (ffbsi (nlgLogpXnext H o) srest) k "mcmc" user d fuel (pathMean φ k)) (s0.run Fl (history (some (.obj y0, ω)) ds)))
          ∂(normals N n) = v) ∧
      (∀ fuel, ∫⁻ ω, stepsE (normals N n) (qs.map fun q => (q.1, .obj q.2)) (fun ds =>
          runWeighted (smoothRoundsE (choose user (fun u => u.R.map PyNum.intRange) (N / 10)) (ffbsiRS (nlgLogpXnext H o) (nlgLogpXnextMax H o) srest) k "rs" user d fuel (pathMean φ k)) (s0.run Fl (history (some (.obj y0, ω)) ds)))
          ∂(normals N n) = v) ∧
      ((rsasParams user).sw ≠ 0 → 0 < (rsasParams user).ratio → (0 < (rsasParams user).P1 ∨ 0 ≤ (rsasParams user).P1 ∧ (rsasParams user).sv ≠ 0) →
        ∃ B, ∀ fuel, B ≤ fuel → ∫⁻ ω, stepsE (normals N n) (qs.map fun q => (q.1, .obj q.2)) (fun ds =>
          runWeighted (smoothRoundsE fuel (ffbsiRS (nlgLogpXnext H o) (nlgLogpXnextMax H o) srest) k "rsas" user d fuel (pathMean φ k)) (s0.run Fl (history (some (.obj y0, ω)) ds)))
          ∂(normals N n) = v) := by
  obtain ⟨c, hc, step, hm, hstep, hlaw⟩ := nlg_create_law o0 hP h0 N
  obtain ⟨S', -, ⟨step', hstep', hlaw'⟩, -, hdiag⟩ := C47_initial_law o0 hP h0 N
  haveI : Nonempty (Fin N) := ⟨⟨0, hN⟩⟩
  have hss : step' = step := by
    funext w
    have := (hstep' w).symm.trans (hstep w)
    exact List.ofFn_injective (Except.ok.inj this)
  subst hss
  refine ⟨S', _, hdiag, rfl, ?_⟩
  have hsmp := nlg_samples hD o0 (N := N) (μ0 := Spec.gauss o0.x0 S')
    ⟨fun i w => step' w i, fun i => ⟨measurable_pi_iff.mp hm i, map_eval_pi (fun _ => Spec.gauss o0.x0 S') hm hlaw' i⟩, hstep'⟩ hM hmeas
  have hobj : ∀ q ∈ (qs.map fun q => (q.1, Slot.obj q.2) : List (Slot U × Slot (Fin m → ℝ))), IsObj q.2 := by
    intro q hq
    obtain ⟨q', -, rfl⟩ := List.mem_map.mp hq
    exact ⟨_, rfl⟩
  have hlm : ∀ t u x, Measurable (nlgTrans F Q t u x) := fun t u x => (continuous_logNormal (Q t u x)).measurable.comp (by fun_prop)
  have hden : ∀ t u x, M t u x = volume.withDensity fun x' => ENNReal.ofReal (exp (nlgTrans F Q t u x x')) := by
    intro t u x
    rw [hM, gauss_density (nlg_posDef hD t u x)]
    rfl
  have hlx := nlg_logDensity hD hone
  have hmax := nlg_maxDensity hD hone
  refine ⟨fun fuel rounds hR => ?_, fun fuel => ?_, fun h1 h2 h3 => ?_⟩
  · exact (C98_mcmc_unbiased hN hsmp hn hF hlx hlm hden hps hk hR d fuel hφ hs _ hobj).1 (.obj y0) ⟨_, rfl⟩
  · exact (C98_rejection_unbiased hN hsmp hn hF hlx hlm hden hmax hps hk hmp d fuel hφ hs _ hobj).1 (.obj y0) ⟨_, rfl⟩
  · obtain ⟨B, hB⟩ := C98_adaptive_rejection_unbiased hN hsmp hn hF hlx hlm hden hmax hps hk hmp h1 h2 h3 d hs _ hobj
    exact ⟨B, fun fuel hf => (hB fuel hf _ hφ).1 (.obj y0) ⟨_, rfl⟩⟩

/-! ### Concrete cases -/

/-- C98 on the model of `nlgLikToy` with the default options: 25 particles, so 2 rounds of rejection sampling; resampling threshold 2/3,
`x⁺ ~ N(x/2, I)`, `y ~ N(x, I)`; the average of the squared norm of the first state over 3 smoothed trajectories. -/
example (rest : Callbacks (Fin 2 → ℝ) ℝ (Fin 2 → ℝ) (List (Fin 2 → ℝ)) (Fin 25 → Fin 2 → ℝ)) (qs : List (Slot ℝ × (Fin 2 → ℝ))) (y0 : Fin 2 → ℝ)
    (srest : SmoothCallbacks (Fin 2 → ℝ) ℝ (Fin 2 → ℝ) (List (Fin 2 → ℝ)) (Fin 25 → Fin 2 → ℝ)) (d : AllDraws (Fin 25 → Fin 2 → ℝ)) :
    ∃ (o : NlgObj 2 2) (Fl : _) (s0 : PT (Fin 2 → ℝ) ℝ (Fin 2 → ℝ)) (v : ℝ≥0∞), nlgInit none none (some 1) (some 1) = .ok o ∧
      mkFilter ((nlgMarkov 25 nlgLikToy o ⟨0, 1⟩).toCallbacks rest) 25 (2/3) "PF" .none = .ok Fl ∧ PT.init 25 none 0 = .ok s0 ∧
      v = ∫⁻ x, ENNReal.ofReal (exp (Spec.logNormal 1 (y0 - x))) *
          pathsE (fun _ _ => gaussKernel (fun x => (1/2 : ℝ) • x) (by fun_prop) 1) (nlgLoglik (fun _ x => x) (fun _ _ => 1))
            (fun l => ENNReal.ofReal ((l.getD 0 0) ⬝ᵥ (l.getD 0 0))) 0 (qs.map fun q => (q.1, .obj q.2)) [] x ∂(Spec.gauss 0 1) ∧
      ∫⁻ ω, stepsE (normals 25 2) (qs.map fun q => (q.1, .obj q.2)) (fun ds =>
          runWeighted (smoothRoundsE 30 (ffbsi (nlgLogpXnext nlgLikToy o) { srest with postSmoothing := none }) 3 "mcmc" none d 0
            (pathMean (fun l => ENNReal.ofReal ((l.getD 0 0) ⬝ᵥ (l.getD 0 0))) 3)) (s0.run Fl (history (some (.obj y0, ω)) ds)))
          ∂(normals 25 2) = v ∧
      ∫⁻ ω, stepsE (normals 25 2) (qs.map fun q => (q.1, .obj q.2)) (fun ds =>
          runWeighted (smoothRoundsE 2 (ffbsiRS (nlgLogpXnext nlgLikToy o) (nlgLogpXnextMax nlgLikToy o) { srest with postSmoothing := none }) 3 "rs" none d 0
            (pathMean (fun l => ENNReal.ofReal ((l.getD 0 0) ⬝ᵥ (l.getD 0 0))) 3)) (s0.run Fl (history (some (.obj y0, ω)) ds)))
          ∂(normals 25 2) = v ∧
      ∃ B, ∀ fuel, B ≤ fuel → ∫⁻ ω, stepsE (normals 25 2) (qs.map fun q => (q.1, .obj q.2)) (fun ds =>
          runWeighted (smoothRoundsE fuel (ffbsiRS (nlgLogpXnext nlgLikToy o) (nlgLogpXnextMax nlgLikToy o) { srest with postSmoothing := none }) 3 "rsas" none d fuel
            (pathMean (fun l => ENNReal.ofReal ((l.getD 0 0) ⬝ᵥ (l.getD 0 0))) 3)) (s0.run Fl (history (some (.obj y0, ω)) ds)))
          ∂(normals 25 2) = v := by
  obtain ⟨o, ho, -, -, h1, h2⟩ := C46_last_covariances (n := 2) (m := 2) none none (some 1) (some 1)
    (by rintro _ ⟨⟩; exact PosDef.one) (by rintro _ ⟨⟩; exact PosDef.one) [] (by simp)
  have hD : Spec.NlgDescribes nlgLikToy o (fun _ _ x => (1/2 : ℝ) • x) (fun _ _ _ => 1) (fun _ x => x) (fun _ _ => 1) :=
    ⟨fun _ _ _ => Or.inl rfl, fun _ _ _ => Or.inr ⟨rfl, 1, PosDef.one, h1 _ rfl, fun _ => rfl⟩, fun _ _ => Or.inl rfl,
      fun _ _ => Or.inr ⟨by norm_num, rfl, 1, PosDef.one, h2 _ rfl, fun _ => rfl⟩⟩
  have hn : parseFilter "PF" = .ok .pf := by
    have : "PF".toLower = "pf" := by decide +kernel
    simp [parseFilter, this]
  refine ⟨o, _, _, _, ho, mkFilter_pf _ _ _ hn _, rfl, rfl, ?_⟩
  have hφ : ∀ l, Measurable fun x : Fin l → Fin 2 → ℝ =>
      (fun l : List (Fin 2 → ℝ) => ENNReal.ofReal ((l.getD 0 0) ⬝ᵥ (l.getD 0 0))) (List.ofFn x) := by
    intro l
    cases l with
    | zero => simp only [List.ofFn_zero]; exact measurable_const
    | succ l =>
      simp only [List.ofFn_succ, List.getD_cons_zero, dotProduct]
      fun_prop
  obtain ⟨S, v, hS, hv, g1, g2, g3⟩ := C98_nonlinear_gaussian hD (Or.inl (by norm_num)) (o0 := ⟨0, 1⟩) PosDef.one (by
      intro h; have := congrFun (congrFun h 0) 0; simp at this) (N := 25) (by norm_num)
    (M := fun _ _ => gaussKernel (fun x => (1/2 : ℝ) • x) (by fun_prop) 1)
    (fun t u x => gaussKernel_apply _ PosDef.one.posSemidef x) (by
      intro t y
      cases y with
      | obj y => exact ((continuous_logNormal 1).measurable).comp (by fun_prop)
      | none => exact measurable_const
      | zero => exact measurable_const) (rest := rest) (res := 2/3) hn (mkFilter_pf _ _ _ hn .none) (T := none) rfl
    (srest := { srest with postSmoothing := none }) (fun _ => rfl) (k := 3) (by norm_num) none rfl d
    (φ := fun l => ENNReal.ofReal ((l.getD 0 0) ⬝ᵥ (l.getD 0 0))) hφ y0 qs
  rw [hS.mpr (fun i j hij => by simp [hij])] at hv
  subst hv
  exact ⟨g1 0 30 rfl, g2 0, g3 (by norm_num [rsasParams, choose]) (by norm_num [rsasParams, choose]) (Or.inl (by norm_num [rsasParams, choose]))⟩

end PyPE

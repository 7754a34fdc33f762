import Verif.Smooth.BsiPaths

/-!
# C98: backward simulation by rejection sampling and by MCMC is unbiased
-/

namespace PyPE
open Real Spec MeasureTheory ProbabilityTheory
open scoped ENNReal Classical

variable {P U Y V Ω : Type}

/-! ### Which sampler runs -/

theorem bsi_hook {S : SmoothCallbacks P U Y V Ω} (hps : NoPostprocessing S) {method : String} (hm : method = "mcmc" ∨ method = "rs" ∨ method = "rsas")
    (pt : List (Step P)) (M : ℕ) (D : SData U Y) (o : SOpts) (d : AllDraws Ω) (fuel : ℕ) :
    smoothTrajectory S pt M D method (some o) d fuel = performBsi S (bsiOptions method pt.length (some o)) pt M D d.bsi fuel := by
  have h : method = "full" ∨ method = "mcmc" ∨ method = "rs" ∨ method = "rsas" := Or.inr hm
  simp only [smoothTrajectory, h, if_true]
  rcases performBsi S (bsiOptions method pt.length (some o)) pt M D d.bsi fuel with e | r
  · rfl
  · cases r with
    | none => rfl
    | some t => simp only [ok_bind, hps t, pure_eq_ok]

theorem mcmc_runs {S : SmoothCallbacks P U Y V Ω} (hps : NoPostprocessing S) {user : Option SOpts} {R : ℕ}
    (hR : (choose user (·.R) (.int 30)).range = .ok R) (pt : List (Step P)) (M : ℕ) (D : SData U Y) (fuel : ℕ) :
    ∃ m, (1 < pt.length → m = .mcmc R) ∧ ∀ d, performSmoothing S pt M D "mcmc" user d fuel = performBsi S (.ok m) pt M D d.bsi fuel := by
  have e1 : ¬ ("mcmc" = "rs") := by decide +kernel
  have e2 : ¬ ("mcmc" = "rsas") := by decide +kernel
  have e3 : ¬ ("mcmc" = "full") := by decide +kernel
  have hR' : ∃ o : SOpts, o.R = some (choose user (·.R) (.int 30)) ∧
      ∀ d, performSmoothing S pt M D "mcmc" user d fuel = smoothTrajectory S pt M D "mcmc" (some o) d fuel := by
    cases user with
    | none => exact ⟨{ R := some (.int 30) }, rfl, fun d => by simp [performSmoothing, defaultOptions, e1, e2, pure_eq_ok, ok_bind]⟩
    | some u =>
      refine ⟨SOpts.update { R := some (.int 30) } u, ?_, fun d => by simp [performSmoothing, defaultOptions, e1, e2, pure_eq_ok, ok_bind]⟩
      simp only [choose, Option.bind_some, SOpts.update]
      cases u.R <;> rfl
  obtain ⟨o, ho, hp⟩ := hR'
  by_cases hT : pt.length ≤ 1
  · refine ⟨.mcmc 0, fun h => by omega, fun d => ?_⟩
    rw [hp, bsi_hook hps (Or.inl rfl)]
    simp only [bsiOptions, e3, hT, if_true, if_false]
  · refine ⟨.mcmc R, fun _ => rfl, fun d => ?_⟩
    rw [hp, bsi_hook hps (Or.inl rfl)]
    simp only [bsiOptions, e3, hT, if_true, if_false, ho, look, ok_bind, hR, pure_eq_ok]

theorem rs_runs {S : SmoothCallbacks P U Y V Ω} (hps : NoPostprocessing S) {user : Option SOpts} (hu : user.bind (·.maxpdf) = none)
    {pt : List (Step P)} (M : ℕ) {D : SData U Y} (fuel : ℕ) {c : List ℝ} (hc : maxCoeffs S pt D = .ok c) {st : Step P} (hst : pt[0]? = some st) :
    ∃ m, (1 < pt.length → m = .rs (choose user (fun u => u.R.map PyNum.intRange) (st.pa.w.length / 10)) c) ∧
      ∀ d, performSmoothing S pt M D "rs" user d fuel = performBsi S (.ok m) pt M D d.bsi fuel := by
  have e3 : ¬ ("rs" = "full") := by decide +kernel
  have e4 : ¬ ("rs" = "mcmc") := by decide +kernel
  have hfl : PyNum.intRange (.float ((st.pa.w.length : ℝ) / 10)) = st.pa.w.length / 10 := by
    have := Nat.floor_div_natCast ((st.pa.w.length : ℕ) : ℝ) 10
    simpa [PyNum.intRange] using this
  have hR' : ∃ (o : SOpts) (R : PyNum), o.R = some R ∧ R.intRange = choose user (fun u => u.R.map PyNum.intRange) (st.pa.w.length / 10) ∧ o.maxpdf = some c ∧
      ∀ d, performSmoothing S pt M D "rs" user d fuel = smoothTrajectory S pt M D "rs" (some o) d fuel := by
    cases user with
    | none => exact ⟨_, _, rfl, hfl, rfl, fun d => by simp only [performSmoothing, defaultOptions, if_true, hc, getIdx_ok.mpr hst, pure_eq_ok, ok_bind]; rfl⟩
    | some u =>
      have hu' : u.maxpdf = none := hu
      refine ⟨SOpts.update { maxpdf := some c, R := some (.float (st.pa.w.length / 10)) } u, (u.R).getD (.float (st.pa.w.length / 10)), ?_, ?_, ?_,
        fun d => by simp only [performSmoothing, defaultOptions, if_true, hc, getIdx_ok.mpr hst, pure_eq_ok, ok_bind]⟩
      · simp only [SOpts.update]; cases u.R <;> rfl
      · simp only [choose, Option.bind_some]
        cases u.R with
        | none => exact hfl
        | some R => rfl
      · simp [SOpts.update, hu']
  obtain ⟨o, R, h1, h2, h3, hp⟩ := hR'
  by_cases hT : pt.length ≤ 1
  · refine ⟨.rs 0 [], fun h => by omega, fun d => ?_⟩
    rw [hp, bsi_hook hps (Or.inr (Or.inl rfl))]
    simp only [bsiOptions, e3, e4, hT, if_true, if_false, h1, look, ok_bind, pure_eq_ok]
  · refine ⟨_, fun _ => rfl, fun d => ?_⟩
    rw [hp, bsi_hook hps (Or.inr (Or.inl rfl))]
    simp only [bsiOptions, e3, e4, hT, if_true, if_false, h1, h2, h3, look, ok_bind, pure_eq_ok]

/-- The parameters of the stopping rule of 'rsas': those given by the user, and 1 for the others. -/
def Spec.rsasParams (user : Option SOpts) : RsasOpts :=
  ⟨choose user (·.x1) 1, choose user (·.P1) 1, choose user (·.sv) 1, choose user (·.sw) 1, choose user (·.ratio) 1⟩

theorem rsas_runs {S : SmoothCallbacks P U Y V Ω} (hps : NoPostprocessing S) {user : Option SOpts} (hu : user.bind (·.maxpdf) = none)
    {pt : List (Step P)} (M : ℕ) {D : SData U Y} (fuel : ℕ) {c : List ℝ} (hc : maxCoeffs S pt D = .ok c) :
    ∃ m, (1 < pt.length → m = .rsas (rsasParams user) c) ∧
      ∀ d, performSmoothing S pt M D "rsas" user d fuel = performBsi S (.ok m) pt M D d.bsi fuel := by
  have e3 : ¬ ("rsas" = "full") := by decide +kernel
  have e4 : ¬ ("rsas" = "mcmc") := by decide +kernel
  have e5 : ¬ ("rsas" = "rs") := by decide +kernel
  have hor : ∀ {α : Type} (o : Option α) (x : α), (o <|> some x) = some (o.getD x) := by
    intro α o x; cases o <;> rfl
  have hR' : ∃ (o : SOpts), o.x1 = some (choose user (·.x1) 1) ∧ o.P1 = some (choose user (·.P1) 1) ∧ o.sv = some (choose user (·.sv) 1) ∧
      o.sw = some (choose user (·.sw) 1) ∧ o.ratio = some (choose user (·.ratio) 1) ∧ o.maxpdf = some c ∧
      ∀ d, performSmoothing S pt M D "rsas" user d fuel = smoothTrajectory S pt M D "rsas" (some o) d fuel := by
    cases user with
    | none => exact ⟨_, rfl, rfl, rfl, rfl, rfl, rfl, fun d => by simp only [performSmoothing, defaultOptions, e5, if_false, if_true, hc, pure_eq_ok, ok_bind]; rfl⟩
    | some u =>
      have hu' : u.maxpdf = none := hu
      exact ⟨SOpts.update { maxpdf := some c, x1 := some 1, P1 := some 1, sv := some 1, sw := some 1, ratio := some 1 } u, hor _ _, hor _ _, hor _ _, hor _ _, hor _ _,
        by simp [SOpts.update, hu'], fun d => by simp only [performSmoothing, defaultOptions, e5, if_false, if_true, hc, pure_eq_ok, ok_bind]⟩
  obtain ⟨o, h1, h2, h3, h4, h5, h6, hp⟩ := hR'
  by_cases hT : pt.length ≤ 1
  · refine ⟨.rsas (rsasParams user) [], fun h => by omega, fun d => ?_⟩
    rw [hp, bsi_hook hps (Or.inr (Or.inr rfl))]
    simp only [bsiOptions, e3, e4, e5, hT, if_true, if_false, h1, h2, h3, h4, h5, look, ok_bind, pure_eq_ok, rsasParams]
  · refine ⟨_, fun _ => rfl, fun d => ?_⟩
    rw [hp, bsi_hook hps (Or.inr (Or.inr rfl))]
    simp only [bsiOptions, e3, e4, e5, hT, if_true, if_false, h1, h2, h3, h4, h5, h6, look, ok_bind, pure_eq_ok, rsasParams]

section
variable {logpXnext : List P → List P → Slot U → ℕ → PyM (List ℝ)} {lx : ℕ → Slot U → P → P → ℝ} {logpXnextMax : List P → Slot U → ℕ → PyM ℝ}
  {rest : SmoothCallbacks P U Y V Ω} {N M : ℕ} {user : Option SOpts}

theorem ffbsiRS_eq (logpXnext : List P → List P → Slot U → ℕ → PyM (List ℝ)) (logpXnextMax : List P → Slot U → ℕ → PyM ℝ) (rest : SmoothCallbacks P U Y V Ω) :
    ffbsiRS logpXnext logpXnextMax rest = ffbsi logpXnext { rest with logpXnextMaxFull := fun part _ _ D cur => do
      let u ← getIdx D.u cur
      let t ← getIdx D.t cur
      logpXnextMax part u t } := rfl

/-- The data a smoothing run sees. -/
theorem rep_inputs {s : PT P U Y} {us : List (Slot U)} {ys : List (Slot Y)} (hrep : s.Rep ⟨us.map some, ys⟩) :
    (∀ n, n + 1 < s.traj.length → s.uvec[n]? = some (us.getD n .none)) ∧ ∀ n, n + 1 < s.traj.length → s.tvec[n]? = some n := by
  have hl : ys.length = s.traj.length := hrep.len.symm
  have hul := hrep.us_len
  simp only [List.length_map] at hul
  constructor
  · intro n hn
    refine hrep.us n _ ?_
    simp only [List.getElem?_map, List.getElem?_eq_getElem (show n < us.length by omega), Option.map_some, List.getD_eq_getElem?_getD,
      Option.getD_some]
  · exact fun n hn => hrep.ts n (by show n < ys.length; omega)

/-- The bounds computed before the rejection samplers run. -/
theorem maxCoeffs_bounds (hmax : Spec.MaxDensity logpXnextMax lx) (hN : 0 < N) {pt : List (Step P)} (hgs : ∀ st ∈ pt, GoodStep N st) {D : SData U Y}
    {us : List (Slot U)} (hu : ∀ n, n + 1 < pt.length → D.u[n]? = some (us.getD n .none)) (ht : ∀ n, n + 1 < pt.length → D.t[n]? = some n) :
    ∃ c, maxCoeffs (ffbsiRS logpXnext logpXnextMax rest) pt D = .ok c ∧
      ∀ n st, n + 1 < pt.length → pt[n]? = some st → ∃ b, c[n]? = some b ∧ ∀ x ∈ st.pa.part, ∀ x', lx n (us.getD n .none) x x' ≤ b := by
  have key : ∀ k, ∃ b, k + 1 < pt.length → ∃ st, pt[k]? = some st ∧ logpXnextMax st.pa.part (us.getD k .none) k = .ok b ∧
      ∀ x ∈ st.pa.part, ∀ x', lx k (us.getD k .none) x x' ≤ b := by
    intro k
    by_cases hk : k + 1 < pt.length
    · have hk' : k < pt.length := by omega
      have hs := hgs pt[k] (List.getElem_mem _)
      have hne : pt[k].pa.part ≠ [] := by
        intro h
        have := hs.pa.part_len
        rw [h] at this; simp at this; omega
      obtain ⟨b, h1, h2⟩ := hmax pt[k].pa.part (us.getD k .none) k hne
      exact ⟨b, fun _ => ⟨pt[k], List.getElem?_eq_getElem hk', h1, h2⟩⟩
    · exact ⟨0, fun h => absurd h hk⟩
  choose b hb using key
  refine ⟨(List.range (pt.length - 1)).map b, ?_, ?_⟩
  · unfold maxCoeffs
    refine mapM_ok_iff.mpr ⟨by simp, fun i k hk => ?_⟩
    obtain ⟨hi, hk⟩ := List.getElem?_eq_some_iff.mp hk
    rw [List.getElem_range] at hk
    subst hk
    rw [List.length_range] at hi
    have hk' : i + 1 < pt.length := by omega
    obtain ⟨st, h1, h2, -⟩ := hb i hk'
    refine ⟨b i, by simp [hi], ?_⟩
    simp only [ffbsiRS, getIdx_ok.mpr h1, ok_bind, getIdx_ok.mpr (hu i hk'), getIdx_ok.mpr (ht i hk'), h2]
  · intro n st hn hst
    obtain ⟨st', h1, -, h3⟩ := hb n hn
    rw [hst] at h1
    obtain rfl := Option.some.inj h1
    exact ⟨b n, by simp [show n < pt.length - 1 by omega], h3⟩

variable (hlx : Spec.LogDensity logpXnext lx) (rest) (hps : NoPostprocessing rest) (hM : 0 < M) (d : AllDraws Ω) (φ : List P → ℝ≥0∞)
  (hN : 0 < N) (x0 : P) {s : PT P U Y} {K : ℕ} (hK : s.traj.length = K + 1) (hgs : ∀ st ∈ s.traj, GoodStep N st) {last : Step P}
  (hlast : s.traj.getLast? = some last) {w : Fin N → ℝ} (hw : last.pa.w = List.ofFn w) {us : List (Slot U)} {ys : List (Slot Y)}
  (hrep : s.Rep ⟨us.map some, ys⟩)

include hlx hps hM hN hK hgs hlast hw hrep

theorem smoothRoundsE_mcmc {R : ℕ} (hR : (choose user (·.R) (.int 30)).range = .ok R) (fuel : ℕ) :
    smoothRoundsE R (ffbsi logpXnext rest) M "mcmc" user d fuel (pathMean φ M) s =
      ∑ i, ENNReal.ofReal (exp (w i) / ∑ j, exp (w j)) * gopE (mcmcKernel lx R x0) N x0 s.traj us (fun s => φ ((List.range (K+1)).map s)) i := by
  obtain ⟨hu, ht⟩ := rep_inputs hrep
  obtain ⟨m, hm1, hm2⟩ := mcmc_runs (S := ffbsi logpXnext rest) hps hR s.traj M ⟨s.uvec, s.yvec, s.tvec⟩ fuel
  refine smoothRoundsE_gop logpXnext rest hM user d φ hN x0 hK hgs hlast hw (m := m) ?_ hm2
  intro n st fut σ anc ω c W hn
  rw [hm1 (by omega)]
  exact mcmc_pickLaw hlx rest hN hM x0 hgs hu ht R fuel n st fut σ anc ω c W hn

theorem smoothRoundsE_rs (hmax : Spec.MaxDensity logpXnextMax lx) (hmp : user.bind (·.maxpdf) = none) (fuel : ℕ) :
    smoothRoundsE (choose user (fun u => u.R.map PyNum.intRange) (N / 10)) (ffbsiRS logpXnext logpXnextMax rest) M "rs" user d fuel (pathMean φ M) s =
      ∑ i, ENNReal.ofReal (exp (w i) / ∑ j, exp (w j)) * gopE (drawKernel lx N x0) N x0 s.traj us (fun s => φ ((List.range (K+1)).map s)) i := by
  obtain ⟨hu, ht⟩ := rep_inputs hrep
  obtain ⟨c, hc, hb⟩ := maxCoeffs_bounds (logpXnext := logpXnext) (rest := rest) hmax hN hgs (D := ⟨s.uvec, s.yvec, s.tvec⟩) hu ht
  have h0 : s.traj[0]? = some s.traj[0] := List.getElem?_eq_getElem (by omega)
  obtain ⟨m, hm1, hm2⟩ := rs_runs (S := ffbsiRS logpXnext logpXnextMax rest) hps hmp M fuel hc h0
  rw [(hgs _ (List.getElem_mem _)).pa.w_len] at hm1
  rw [ffbsiRS_eq] at hm2 ⊢
  refine smoothRoundsE_gop logpXnext _ hM user d φ hN x0 hK hgs hlast hw (m := m) ?_ hm2
  intro n st fut σ anc ω c' W hn
  rw [hm1 (by omega)]
  exact rs_pickLaw hlx _ hN hM x0 hgs hu ht hb _ fuel n st fut σ anc ω c' W hn

theorem smoothRoundsE_rsas (hmax : Spec.MaxDensity logpXnextMax lx) (hmp : user.bind (·.maxpdf) = none) {B fuel : ℕ}
    (hB : Stops (rsasParams user) N M Ω M ((rsasParams user).x1, (rsasParams user).P1) B) (hfuel : B ≤ fuel) :
    smoothRoundsE fuel (ffbsiRS logpXnext logpXnextMax rest) M "rsas" user d fuel (pathMean φ M) s =
      ∑ i, ENNReal.ofReal (exp (w i) / ∑ j, exp (w j)) * gopE (drawKernel lx N x0) N x0 s.traj us (fun s => φ ((List.range (K+1)).map s)) i := by
  obtain ⟨hu, ht⟩ := rep_inputs hrep
  obtain ⟨c, hc, hb⟩ := maxCoeffs_bounds (logpXnext := logpXnext) (rest := rest) hmax hN hgs (D := ⟨s.uvec, s.yvec, s.tvec⟩) hu ht
  obtain ⟨m, hm1, hm2⟩ := rsas_runs (S := ffbsiRS logpXnext logpXnextMax rest) hps hmp M fuel hc
  rw [ffbsiRS_eq] at hm2 ⊢
  refine smoothRoundsE_gop logpXnext _ hM user d φ hN x0 hK hgs hlast hw (m := m) ?_ hm2
  intro n st fut σ anc ω c' W hn
  rw [hm1 (by omega)]
  exact rsas_pickLaw hlx _ hN hM x0 hgs hu ht hb hB hfuel n st fut σ anc ω c' W hn

end

/-! ### The theorems -/

/-- C98 ('mcmc'): whatever the number of rounds `R` (30 by default), backward simulation by MCMC after a bootstrap particle filter is unbiased: the
average of `φ` over the smoothed trajectories, times the likelihood estimate of the run, has as expectation the integral of `φ` over the paths of the
model against the likelihood of the observations. -/
theorem C98_mcmc_unbiased [MeasurableSpace P] [MeasurableSpace Ω] {K : MarkovModel P U Y V Ω} {ν : Measure Ω} [IsProbabilityMeasure ν]
    {N : ℕ} (hN : 0 < N) {μ0 : Measure P} {M : ℕ → Slot U → Kernel P P} {ℓ : ℕ → Slot Y → P → ℝ} {good : Slot Y → Prop} (hK : Spec.Samples K good ν N μ0 M ℓ)
    {rest : Callbacks P U Y V Ω} {res : ℝ} {name : String} {o : FilterOptions P} (hn : parseFilter name = .ok .pf)
    {F : FilterOps P U Y V Ω} (hF : mkFilter (K.toCallbacks rest) N res name o = .ok F)
    {logpXnext : List P → List P → Slot U → ℕ → PyM (List ℝ)} {lx : ℕ → Slot U → P → P → ℝ} (hlx : Spec.LogDensity logpXnext lx) {vol : Measure P}
    (hlm : ∀ k u x, Measurable (lx k u x)) (hden : ∀ k u x, M k u x = vol.withDensity fun x' => ENNReal.ofReal (exp (lx k u x x')))
    {srest : SmoothCallbacks P U Y V Ω} (hps : NoPostprocessing srest) {m : ℕ} (hm : 0 < m) {user : Option SOpts} {R : ℕ} (hR : (choose user (·.R) (.int 30)).range = .ok R)
    (d : AllDraws Ω) (fuel : ℕ) {φ : List P → ℝ≥0∞} (hφ : ∀ n, Measurable fun x : Fin n → P => φ (List.ofFn x)) {T : Option ℕ} {s0 : PT P U Y}
    (h0 : PT.init N T 0 = .ok s0) (qs : List (Slot U × Slot Y)) (hqs : ∀ q ∈ qs, good q.2) :
    (∀ y0, good y0 → ∫⁻ ω, stepsE ν qs (fun ds => runWeighted (smoothRoundsE R (ffbsi logpXnext srest) m "mcmc" user d fuel (pathMean φ m))
        (s0.run F (history (some (y0, ω)) ds))) ∂ν = ∫⁻ x, ENNReal.ofReal (exp (ℓ 0 y0 x)) * pathsE M ℓ φ 0 qs [] x ∂μ0) ∧
    (qs ≠ [] → stepsE ν qs (fun ds => runWeighted (smoothRoundsE R (ffbsi logpXnext srest) m "mcmc" user d fuel (pathMean φ m)) (s0.run F (history none ds))) =
      ∫⁻ x, pathsE M ℓ φ 0 qs [] x ∂μ0) := by
  rw [mkFilter_pf _ N res hn o] at hF
  obtain rfl := (Except.ok.inj hF).symm
  obtain ⟨X, hX, hc⟩ := hK.create
  haveI : Nonempty Ω := nonempty_of_isProbabilityMeasure ν
  set x0 : P := X ⟨0, hN⟩ (Classical.arbitrary Ω)
  refine run_paths hN (fun k u y hy => pf_stepLaw hN hK rest res k u y hy) (samples_markov hN hK) hK.meas (fun _ _ _ _ _ _ => rfl) hφ
    (gop_pathOp hlm hN (mcmcKernel_back hlm hN x0 R) hden) hX hc rfl (fun tr anc pa x uv yv tv y => pf_measure_law hN hK rest res tr anc pa x uv yv tv y) h0 qs hqs ?_
  intro s us ys last x w hrep hk hgs hlast hx hw
  rw [smoothRoundsE_mcmc srest hlx hps hm d φ hN x0 hk hgs hlast hw hrep hR fuel]
  simp only [show pathG M ℓ φ qs.length [] = fun s => φ ((List.range (qs.length + 1)).map s) from funext fun s => pathG_nil M ℓ φ _ s]

/-- C98 ('rs'): the same for backward simulation by rejection sampling with a bounded number of rounds (`int(N/10)` by default), for a model whose
`logp_xnext_max` bounds its transition log-density. -/
theorem C98_rejection_unbiased [MeasurableSpace P] [MeasurableSpace Ω] {K : MarkovModel P U Y V Ω} {ν : Measure Ω} [IsProbabilityMeasure ν]
    {N : ℕ} (hN : 0 < N) {μ0 : Measure P} {M : ℕ → Slot U → Kernel P P} {ℓ : ℕ → Slot Y → P → ℝ} {good : Slot Y → Prop} (hK : Spec.Samples K good ν N μ0 M ℓ)
    {rest : Callbacks P U Y V Ω} {res : ℝ} {name : String} {o : FilterOptions P} (hn : parseFilter name = .ok .pf)
    {F : FilterOps P U Y V Ω} (hF : mkFilter (K.toCallbacks rest) N res name o = .ok F)
    {logpXnext : List P → List P → Slot U → ℕ → PyM (List ℝ)} {lx : ℕ → Slot U → P → P → ℝ} (hlx : Spec.LogDensity logpXnext lx) {vol : Measure P}
    (hlm : ∀ k u x, Measurable (lx k u x)) (hden : ∀ k u x, M k u x = vol.withDensity fun x' => ENNReal.ofReal (exp (lx k u x x')))
    {logpXnextMax : List P → Slot U → ℕ → PyM ℝ} (hmax : Spec.MaxDensity logpXnextMax lx)
    {srest : SmoothCallbacks P U Y V Ω} (hps : NoPostprocessing srest) {m : ℕ} (hm : 0 < m) {user : Option SOpts} (hmp : user.bind (·.maxpdf) = none)
    (d : AllDraws Ω) (fuel : ℕ) {φ : List P → ℝ≥0∞} (hφ : ∀ n, Measurable fun x : Fin n → P => φ (List.ofFn x)) {T : Option ℕ} {s0 : PT P U Y}
    (h0 : PT.init N T 0 = .ok s0) (qs : List (Slot U × Slot Y)) (hqs : ∀ q ∈ qs, good q.2) :
    (∀ y0, good y0 → ∫⁻ ω, stepsE ν qs (fun ds => runWeighted (smoothRoundsE (choose user (fun u => u.R.map PyNum.intRange) (N / 10)) (ffbsiRS logpXnext logpXnextMax srest) m "rs" user d fuel (pathMean φ m))
        (s0.run F (history (some (y0, ω)) ds))) ∂ν = ∫⁻ x, ENNReal.ofReal (exp (ℓ 0 y0 x)) * pathsE M ℓ φ 0 qs [] x ∂μ0) ∧
    (qs ≠ [] → stepsE ν qs (fun ds => runWeighted (smoothRoundsE (choose user (fun u => u.R.map PyNum.intRange) (N / 10)) (ffbsiRS logpXnext logpXnextMax srest) m "rs" user d fuel (pathMean φ m)) (s0.run F (history none ds))) =
      ∫⁻ x, pathsE M ℓ φ 0 qs [] x ∂μ0) := by
  rw [mkFilter_pf _ N res hn o] at hF
  obtain rfl := (Except.ok.inj hF).symm
  obtain ⟨X, hX, hc⟩ := hK.create
  haveI : Nonempty Ω := nonempty_of_isProbabilityMeasure ν
  set x0 : P := X ⟨0, hN⟩ (Classical.arbitrary Ω)
  refine run_paths hN (fun k u y hy => pf_stepLaw hN hK rest res k u y hy) (samples_markov hN hK) hK.meas (fun _ _ _ _ _ _ => rfl) hφ
    (gop_pathOp hlm hN (drawKernel_back hlm hN x0) hden) hX hc rfl (fun tr anc pa x uv yv tv y => pf_measure_law hN hK rest res tr anc pa x uv yv tv y) h0 qs hqs ?_
  intro s us ys last x w hrep hk hgs hlast hx hw
  rw [smoothRoundsE_rs srest hlx hps hm d φ hN x0 hk hgs hlast hw hrep hmax hmp fuel]
  simp only [show pathG M ℓ φ qs.length [] = fun s => φ ((List.range (qs.length + 1)).map s) from funext fun s => pathG_nil M ℓ φ _ s]

/-- C98 ('rsas'): the same for rejection sampling with adaptive stopping, when as many rounds are drawn as it may need. -/
theorem C98_adaptive_rejection_unbiased [MeasurableSpace P] [MeasurableSpace Ω] {K : MarkovModel P U Y V Ω} {ν : Measure Ω} [IsProbabilityMeasure ν]
    {N : ℕ} (hN : 0 < N) {μ0 : Measure P} {M : ℕ → Slot U → Kernel P P} {ℓ : ℕ → Slot Y → P → ℝ} {good : Slot Y → Prop} (hK : Spec.Samples K good ν N μ0 M ℓ)
    {rest : Callbacks P U Y V Ω} {res : ℝ} {name : String} {o : FilterOptions P} (hn : parseFilter name = .ok .pf)
    {F : FilterOps P U Y V Ω} (hF : mkFilter (K.toCallbacks rest) N res name o = .ok F)
    {logpXnext : List P → List P → Slot U → ℕ → PyM (List ℝ)} {lx : ℕ → Slot U → P → P → ℝ} (hlx : Spec.LogDensity logpXnext lx) {vol : Measure P}
    (hlm : ∀ k u x, Measurable (lx k u x)) (hden : ∀ k u x, M k u x = vol.withDensity fun x' => ENNReal.ofReal (exp (lx k u x x')))
    {logpXnextMax : List P → Slot U → ℕ → PyM ℝ} (hmax : Spec.MaxDensity logpXnextMax lx)
    {srest : SmoothCallbacks P U Y V Ω} (hps : NoPostprocessing srest) {m : ℕ} (hm : 0 < m) {user : Option SOpts} (hmp : user.bind (·.maxpdf) = none)
    (hsw : (rsasParams user).sw ≠ 0) (hratio : 0 < (rsasParams user).ratio) (hP1 : 0 < (rsasParams user).P1 ∨ 0 ≤ (rsasParams user).P1 ∧ (rsasParams user).sv ≠ 0)
    (d : AllDraws Ω) {T : Option ℕ} {s0 : PT P U Y}
    (h0 : PT.init N T 0 = .ok s0) (qs : List (Slot U × Slot Y)) (hqs : ∀ q ∈ qs, good q.2) :
    ∃ B, ∀ fuel, B ≤ fuel → ∀ φ : List P → ℝ≥0∞, (∀ n, Measurable fun x : Fin n → P => φ (List.ofFn x)) →
    (∀ y0, good y0 → ∫⁻ ω, stepsE ν qs (fun ds => runWeighted (smoothRoundsE fuel (ffbsiRS logpXnext logpXnextMax srest) m "rsas" user d fuel (pathMean φ m))
        (s0.run F (history (some (y0, ω)) ds))) ∂ν = ∫⁻ x, ENNReal.ofReal (exp (ℓ 0 y0 x)) * pathsE M ℓ φ 0 qs [] x ∂μ0) ∧
    (qs ≠ [] → stepsE ν qs (fun ds => runWeighted (smoothRoundsE fuel (ffbsiRS logpXnext logpXnextMax srest) m "rsas" user d fuel (pathMean φ m)) (s0.run F (history none ds))) =
      ∫⁻ x, pathsE M ℓ φ 0 qs [] x ∂μ0) := by
  obtain ⟨B, hB⟩ := stops_exists (Ω := Ω) hsw hratio hN m m ((rsasParams user).x1, (rsasParams user).P1) hP1
  refine ⟨B, fun fuel hfuel φ hφ => ?_⟩
  rw [mkFilter_pf _ N res hn o] at hF
  obtain rfl := (Except.ok.inj hF).symm
  obtain ⟨X, hX, hc⟩ := hK.create
  haveI : Nonempty Ω := nonempty_of_isProbabilityMeasure ν
  set x0 : P := X ⟨0, hN⟩ (Classical.arbitrary Ω)
  refine run_paths hN (fun k u y hy => pf_stepLaw hN hK rest res k u y hy) (samples_markov hN hK) hK.meas (fun _ _ _ _ _ _ => rfl) hφ
    (gop_pathOp hlm hN (drawKernel_back hlm hN x0) hden) hX hc rfl (fun tr anc pa x uv yv tv y => pf_measure_law hN hK rest res tr anc pa x uv yv tv y) h0 qs hqs ?_
  intro s us ys last x w hrep hk hgs hlast hx hw
  rw [smoothRoundsE_rsas srest hlx hps hm d φ hN x0 hk hgs hlast hw hrep hmax hmp hB hfuel]
  simp only [show pathG M ℓ φ qs.length [] = fun s => φ ((List.range (qs.length + 1)).map s) from funext fun s => pathG_nil M ℓ φ _ s]

/-- C98 ('mcmc') for the SIR filter with any proposal density. -/
theorem C98_mcmc_sir [MeasurableSpace P] [MeasurableSpace Ω] {C : Callbacks P U Y V Ω} {ν : Measure Ω} [IsProbabilityMeasure ν]
    {N : ℕ} (hN : 0 < N) {vol μ0 : Measure P} {M : ℕ → Slot U → Kernel P P} (hM : ∀ k u, IsMarkovKernel (M k u)) {ℓ : ℕ → Slot Y → P → ℝ}
    {q : ℕ → Slot U → Slot Y → Kernel P P} {lq : ℕ → Slot U → Slot Y → P → P → ℝ} {lx : ℕ → Slot U → P → P → ℝ}
    {good : Slot Y → Prop} (hC : Spec.SirSamples C good ν N vol μ0 M ℓ q lq lx) {res : ℝ} {name : String} {o : FilterOptions P} (hn : parseFilter name = .ok .sir)
    {F : FilterOps P U Y V Ω} (hF : mkFilter C N res name o = .ok F)
    (hlx : Spec.LogDensity C.logpXnext lx)
    {srest : SmoothCallbacks P U Y V Ω} (hps : NoPostprocessing srest) {m : ℕ} (hm : 0 < m) {user : Option SOpts} {R : ℕ} (hR : (choose user (·.R) (.int 30)).range = .ok R)
    (d : AllDraws Ω) (fuel : ℕ) {φ : List P → ℝ≥0∞} (hφ : ∀ n, Measurable fun x : Fin n → P => φ (List.ofFn x)) {T : Option ℕ} {s0 : PT P U Y}
    (h0 : PT.init N T 0 = .ok s0) (qs : List (Slot U × Slot Y)) (hqs : ∀ q ∈ qs, good q.2) :
    (∀ y0, good y0 → ∫⁻ ω, stepsE ν qs (fun ds => runWeighted (smoothRoundsE R (ffbsi C.logpXnext srest) m "mcmc" user d fuel (pathMean φ m))
        (s0.run F (history (some (y0, ω)) ds))) ∂ν = ∫⁻ x, ENNReal.ofReal (exp (ℓ 0 y0 x)) * pathsE M ℓ φ 0 qs [] x ∂μ0) ∧
    (qs ≠ [] → stepsE ν qs (fun ds => runWeighted (smoothRoundsE R (ffbsi C.logpXnext srest) m "mcmc" user d fuel (pathMean φ m)) (s0.run F (history none ds))) =
      ∫⁻ x, pathsE M ℓ φ 0 qs [] x ∂μ0) := by
  obtain rfl := mkFilter_sir hn hF
  obtain ⟨X, hX, hc⟩ := hC.create
  haveI : Nonempty Ω := nonempty_of_isProbabilityMeasure ν
  set x0 : P := X ⟨0, hN⟩ (Classical.arbitrary Ω)
  refine run_paths hN (fun k u y hy => sir_stepLaw hN hC res k u y hy) hM hC.meas (sir_tilt hC) hφ
    (gop_pathOp hC.meas_x hN (mcmcKernel_back hC.meas_x hN x0 R) hC.density_x) hX hc rfl (fun tr anc pa x uv yv tv y => sir_measure_law hN hC res tr anc pa x uv yv tv y) h0 qs hqs ?_
  intro s us ys last x w hrep hk hgs hlast hx hw
  rw [smoothRoundsE_mcmc srest hlx hps hm d φ hN x0 hk hgs hlast hw hrep hR fuel]
  simp only [show pathG M ℓ φ qs.length [] = fun s => φ ((List.range (qs.length + 1)).map s) from funext fun s => pathG_nil M ℓ φ _ s]

/-- C98 ('rs') for the SIR filter with any proposal density. -/
theorem C98_rejection_sir [MeasurableSpace P] [MeasurableSpace Ω] {C : Callbacks P U Y V Ω} {ν : Measure Ω} [IsProbabilityMeasure ν]
    {N : ℕ} (hN : 0 < N) {vol μ0 : Measure P} {M : ℕ → Slot U → Kernel P P} (hM : ∀ k u, IsMarkovKernel (M k u)) {ℓ : ℕ → Slot Y → P → ℝ}
    {q : ℕ → Slot U → Slot Y → Kernel P P} {lq : ℕ → Slot U → Slot Y → P → P → ℝ} {lx : ℕ → Slot U → P → P → ℝ}
    {good : Slot Y → Prop} (hC : Spec.SirSamples C good ν N vol μ0 M ℓ q lq lx) {res : ℝ} {name : String} {o : FilterOptions P} (hn : parseFilter name = .ok .sir)
    {F : FilterOps P U Y V Ω} (hF : mkFilter C N res name o = .ok F)
    (hlx : Spec.LogDensity C.logpXnext lx)
    {logpXnextMax : List P → Slot U → ℕ → PyM ℝ} (hmax : Spec.MaxDensity logpXnextMax lx)
    {srest : SmoothCallbacks P U Y V Ω} (hps : NoPostprocessing srest) {m : ℕ} (hm : 0 < m) {user : Option SOpts} (hmp : user.bind (·.maxpdf) = none)
    (d : AllDraws Ω) (fuel : ℕ) {φ : List P → ℝ≥0∞} (hφ : ∀ n, Measurable fun x : Fin n → P => φ (List.ofFn x)) {T : Option ℕ} {s0 : PT P U Y}
    (h0 : PT.init N T 0 = .ok s0) (qs : List (Slot U × Slot Y)) (hqs : ∀ q ∈ qs, good q.2) :
    (∀ y0, good y0 → ∫⁻ ω, stepsE ν qs (fun ds => runWeighted (smoothRoundsE (choose user (fun u => u.R.map PyNum.intRange) (N / 10)) (ffbsiRS C.logpXnext logpXnextMax srest) m "rs" user d fuel (pathMean φ m))
        (s0.run F (history (some (y0, ω)) ds))) ∂ν = ∫⁻ x, ENNReal.ofReal (exp (ℓ 0 y0 x)) * pathsE M ℓ φ 0 qs [] x ∂μ0) ∧
    (qs ≠ [] → stepsE ν qs (fun ds => runWeighted (smoothRoundsE (choose user (fun u => u.R.map PyNum.intRange) (N / 10)) (ffbsiRS C.logpXnext logpXnextMax srest) m "rs" user d fuel (pathMean φ m)) (s0.run F (history none ds))) =
      ∫⁻ x, pathsE M ℓ φ 0 qs [] x ∂μ0) := by
  obtain rfl := mkFilter_sir hn hF
  obtain ⟨X, hX, hc⟩ := hC.create
  haveI : Nonempty Ω := nonempty_of_isProbabilityMeasure ν
  set x0 : P := X ⟨0, hN⟩ (Classical.arbitrary Ω)
  refine run_paths hN (fun k u y hy => sir_stepLaw hN hC res k u y hy) hM hC.meas (sir_tilt hC) hφ
    (gop_pathOp hC.meas_x hN (drawKernel_back hC.meas_x hN x0) hC.density_x) hX hc rfl (fun tr anc pa x uv yv tv y => sir_measure_law hN hC res tr anc pa x uv yv tv y) h0 qs hqs ?_
  intro s us ys last x w hrep hk hgs hlast hx hw
  rw [smoothRoundsE_rs srest hlx hps hm d φ hN x0 hk hgs hlast hw hrep hmax hmp fuel]
  simp only [show pathG M ℓ φ qs.length [] = fun s => φ ((List.range (qs.length + 1)).map s) from funext fun s => pathG_nil M ℓ φ _ s]

/-- C98 ('rsas') for the SIR filter with any proposal density. -/
theorem C98_adaptive_rejection_sir [MeasurableSpace P] [MeasurableSpace Ω] {C : Callbacks P U Y V Ω} {ν : Measure Ω} [IsProbabilityMeasure ν]
    {N : ℕ} (hN : 0 < N) {vol μ0 : Measure P} {M : ℕ → Slot U → Kernel P P} (hM : ∀ k u, IsMarkovKernel (M k u)) {ℓ : ℕ → Slot Y → P → ℝ}
    {q : ℕ → Slot U → Slot Y → Kernel P P} {lq : ℕ → Slot U → Slot Y → P → P → ℝ} {lx : ℕ → Slot U → P → P → ℝ}
    {good : Slot Y → Prop} (hC : Spec.SirSamples C good ν N vol μ0 M ℓ q lq lx) {res : ℝ} {name : String} {o : FilterOptions P} (hn : parseFilter name = .ok .sir)
    {F : FilterOps P U Y V Ω} (hF : mkFilter C N res name o = .ok F)
    (hlx : Spec.LogDensity C.logpXnext lx)
    {logpXnextMax : List P → Slot U → ℕ → PyM ℝ} (hmax : Spec.MaxDensity logpXnextMax lx)
    {srest : SmoothCallbacks P U Y V Ω} (hps : NoPostprocessing srest) {m : ℕ} (hm : 0 < m) {user : Option SOpts} (hmp : user.bind (·.maxpdf) = none)
    (hsw : (rsasParams user).sw ≠ 0) (hratio : 0 < (rsasParams user).ratio) (hP1 : 0 < (rsasParams user).P1 ∨ 0 ≤ (rsasParams user).P1 ∧ (rsasParams user).sv ≠ 0)
    (d : AllDraws Ω) {T : Option ℕ} {s0 : PT P U Y}
    (h0 : PT.init N T 0 = .ok s0) (qs : List (Slot U × Slot Y)) (hqs : ∀ q ∈ qs, good q.2) :
    ∃ B, ∀ fuel, B ≤ fuel → ∀ φ : List P → ℝ≥0∞, (∀ n, Measurable fun x : Fin n → P => φ (List.ofFn x)) →
    (∀ y0, good y0 → ∫⁻ ω, stepsE ν qs (fun ds => runWeighted (smoothRoundsE fuel (ffbsiRS C.logpXnext logpXnextMax srest) m "rsas" user d fuel (pathMean φ m))
        (s0.run F (history (some (y0, ω)) ds))) ∂ν = ∫⁻ x, ENNReal.ofReal (exp (ℓ 0 y0 x)) * pathsE M ℓ φ 0 qs [] x ∂μ0) ∧
    (qs ≠ [] → stepsE ν qs (fun ds => runWeighted (smoothRoundsE fuel (ffbsiRS C.logpXnext logpXnextMax srest) m "rsas" user d fuel (pathMean φ m)) (s0.run F (history none ds))) =
      ∫⁻ x, pathsE M ℓ φ 0 qs [] x ∂μ0) := by
  obtain ⟨B, hB⟩ := stops_exists (Ω := Ω) hsw hratio hN m m ((rsasParams user).x1, (rsasParams user).P1) hP1
  refine ⟨B, fun fuel hfuel φ hφ => ?_⟩
  obtain rfl := mkFilter_sir hn hF
  obtain ⟨X, hX, hc⟩ := hC.create
  haveI : Nonempty Ω := nonempty_of_isProbabilityMeasure ν
  set x0 : P := X ⟨0, hN⟩ (Classical.arbitrary Ω)
  refine run_paths hN (fun k u y hy => sir_stepLaw hN hC res k u y hy) hM hC.meas (sir_tilt hC) hφ
    (gop_pathOp hC.meas_x hN (drawKernel_back hC.meas_x hN x0) hC.density_x) hX hc rfl (fun tr anc pa x uv yv tv y => sir_measure_law hN hC res tr anc pa x uv yv tv y) h0 qs hqs ?_
  intro s us ys last x w hrep hk hgs hlast hx hw
  rw [smoothRoundsE_rsas srest hlx hps hm d φ hN x0 hk hgs hlast hw hrep hmax hmp hB hfuel]
  simp only [show pathG M ℓ φ qs.length [] = fun s => φ ((List.range (qs.length + 1)).map s) from funext fun s => pathG_nil M ℓ φ _ s]

end PyPE

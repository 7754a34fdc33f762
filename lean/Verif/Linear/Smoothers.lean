import Verif.Linear.Claims
import Verif.Models.NlgApfPaths
import Verif.Models.NlgBsi
import Verif.Models.NlgMhips

/-!
# C108 for the auxiliary filter and for the other smoothers
-/

namespace PyPE
open Real Spec MeasureTheory ProbabilityTheory Matrix Filter
open scoped ENNReal

variable {n m : ℕ} {U V : Type}

/-- What a smoother has to estimate on a linear Gaussian model, for a function of the state at one time: the likelihood times the integral over the law that the
Kalman filter and `KalmanSmoother.smooth` return. -/
theorem linear_smoothed {H : NlgHooks n m (Slot U) ℕ} {o : NlgObj n m} {o0 : NlgX0 n} {L : LinearModel n m U} (hL : NlgIsLinear H o o0 L)
    (first : Option (Fin m → ℝ)) (pre post : List (Slot U × (Fin m → ℝ))) :
    ∃ z P l zs Ps zT PT ll, kfData o0.x0 o0.P0 (L.start first ++ L.data 0 pre) = .ok (z, P, l) ∧
      rtsData z P (L.data pre.length post) = .ok (zs, Ps) ∧
      kfData o0.x0 o0.P0 (L.start first ++ L.data 0 (pre ++ post)) = .ok (zT, PT, ll) ∧
      ∀ ψ : (Fin n → ℝ) → ℝ≥0∞, Measurable ψ →
        ∫⁻ x, ENNReal.ofReal (startWeight L.lik (first.map .obj) x) *
          pathsE L.kernel L.lik (fun l => ψ (l.getD pre.length 0)) 0 (asSlots (pre ++ post)) [] x ∂(gauss o0.x0 o0.P0) =
        ENNReal.ofReal (exp ll) * ∫⁻ x, ψ x ∂(gauss zs Ps) := by
  have hQ' := fun t u => nlg_posDef hL.describes t u 0
  have hQ := fun t u => (hQ' t u).posSemidef
  have hR := fun t => nlg_out_posDef hL.describes t 0
  have hM := L.kernel_apply hQ
  have hgood : ∀ op ∈ (L.start first ++ L.data 0 pre) ++ L.data pre.length post, op.Good := by
    intro op h
    rcases List.mem_append.mp h with h | h
    · rcases List.mem_append.mp h with h | h
      · exact L.start_good hR first op h
      · exact L.data_good hQ hR pre 0 op h
    · exact L.data_good hQ hR post _ op h
  obtain ⟨z, P, l, e1, e2⟩ := C71_smoother_exact o0.x0 o0.P0 hL.posDef.posSemidef (L.start first ++ L.data 0 pre) (L.data pre.length post) hgood
  obtain ⟨z', P', l', e1', ⟨r, e3⟩⟩ := C71_smoother_succeeds o0.x0 o0.P0 hL.posDef.posSemidef (L.start first ++ L.data 0 pre)
    (L.data pre.length post) hgood (L.data_strict hQ' post _)
  have e4 := Except.ok.inj (e1.symm.trans e1')
  cases e4
  rcases e2 with e2 | ⟨zs, Ps, zT, PT, ll, h1, h2, -, h3⟩
  · rw [e2] at e3; cases e3
  have hdata : L.start first ++ L.data 0 (pre ++ post) = (L.start first ++ L.data 0 pre) ++ L.data pre.length post := by
    rw [L.data_append, zero_add, List.append_assoc]
  refine ⟨z, P, l, zs, Ps, zT, PT, ll, e1, h1, by rw [hdata]; exact h2, fun ψ hψ => ?_⟩
  have hv := smoothed_paths L hQ hM hψ (gauss o0.x0 o0.P0) first pre post
  rw [h3, lintegral_smul_measure, smul_eq_mul] at hv
  exact hv

/-- A function of the state at one time is a measurable function of the path. -/
theorem measurable_stateAt {ψ : (Fin n → ℝ) → ℝ≥0∞} (hψ : Measurable ψ) (t j : ℕ) : Measurable fun x : Fin j → Fin n → ℝ => ψ ((List.ofFn x).getD t 0) := by
  refine hψ.comp ?_
  by_cases hj : t < j
  · have : (fun x : Fin j → Fin n → ℝ => (List.ofFn x).getD t 0) = fun x => x ⟨t, hj⟩ := by
      funext x
      simp [List.getD_eq_getElem?_getD, hj]
    rw [this]
    exact measurable_pi_apply _
  · have : (fun x : Fin j → Fin n → ℝ => (List.ofFn x).getD t 0) = fun _ => 0 := by
      funext x
      simp [List.getD_eq_getElem?_getD, hj]
    rw [this]
    exact measurable_const

theorem asSlots_ne_nil {qs : List (Slot U × (Fin m → ℝ))} (h : qs ≠ []) : asSlots qs ≠ [] := fun e => h (List.map_eq_nil_iff.mp e)

theorem isObj_ne_none : ∀ y : Slot (Fin m → ℝ), IsObj y → y ≠ .none := by
  rintro y ⟨v, rfl⟩ h
  cases h

/-- From the two forms in which the unbiasedness theorems are stated (with a first measurement and without one) to `runE`. -/
theorem runE_of_starts {P Y Ω : Type} [MeasurableSpace P] [MeasurableSpace Ω] {ν : Measure Ω} {Fl : FilterOps P U Y V Ω} {s0 : PT P U Y} {good : Slot Y → Prop}
    {G : Option (Slot Y) → PT P U Y × PyM (List (Option Bool)) → ℝ≥0∞} {ℓ : ℕ → Slot Y → P → ℝ} {φ : P → ℝ≥0∞} {μ0 : Measure P} {qs : List (Slot U × Slot Y)}
    (h : (∀ y0, good y0 → ∫⁻ ω, stepsE ν qs (fun ds => G (some y0) (s0.run Fl (history (some (y0, ω)) ds))) ∂ν =
        ∫⁻ x, ENNReal.ofReal (exp (ℓ 0 y0 x)) * φ x ∂μ0) ∧
      (qs ≠ [] → stepsE ν qs (fun ds => G none (s0.run Fl (history none ds))) = ∫⁻ x, φ x ∂μ0))
    (first : Option (Slot Y)) (hf : ∀ y, first = some y → good y) (hne : first = none → qs ≠ []) :
    runE ν Fl s0 first qs (G first) = ∫⁻ x, ENNReal.ofReal (startWeight ℓ first x) * φ x ∂μ0 := by
  cases first with
  | none =>
    simp only [runE, startWeight, ENNReal.ofReal_one, one_mul]
    exact h.2 (hne rfl)
  | some y => exact h.1 y (hf y rfl)

theorem obj_isObj (first : Option (Fin m → ℝ)) (y : Slot (Fin m → ℝ)) (h : first.map .obj = some y) : IsObj y := by
  cases first with
  | none => cases h
  | some v => cases h; exact ⟨_, rfl⟩

/-- C108 for the auxiliary filter with the model's own first-stage weights: run `APF`, any number of particles and any resampling threshold, on a linear Gaussian model, and
`utils/kalman.py` on the same record. The (corrected, see C103) likelihood estimate has mean the likelihood that the Kalman filter returns, and that estimate times
the weighted mean of any `φ` has mean `exp(ll) E[φ(X)]`, `X ~ N(z, P)` with the mean and the covariance that the Kalman filter returns. -/
theorem C108_auxiliary_filter {H : NlgHooks n m (Slot U) ℕ} {o : NlgObj n m} {o0 : NlgX0 n} {L : LinearModel n m U} (hL : NlgIsLinear H o o0 L)
    {N : ℕ} (hN : 0 < N) {rest : Callbacks (Fin n → ℝ) U (Fin m → ℝ) (List (Fin n → ℝ)) (Fin N → Fin n → ℝ)} {res : ℝ} {name : String}
    {opts : FilterOptions (Fin n → ℝ)} (hn : parseFilter name = .ok .apf) {Fl : FilterOps (Fin n → ℝ) U (Fin m → ℝ) _ _}
    (hF : mkFilter ((nlgMarkov N H o o0).toCallbacks (nlgApfRest H o rest)) N res name opts = .ok Fl) {T : Option ℕ} {s0 : PT (Fin n → ℝ) U (Fin m → ℝ)}
    (hs : PT.init N T 0 = .ok s0) (first : Option (Fin m → ℝ)) (qs : List (Slot U × (Fin m → ℝ))) (hne : first = none → qs ≠ []) :
    ∃ z P ll, kfData o0.x0 o0.P0 (L.start first ++ L.data 0 qs) = .ok (z, P, ll) ∧
      ∀ φ : (Fin n → ℝ) → ℝ≥0∞, Measurable φ → runE (normals N n) Fl s0 (first.map .obj) (asSlots qs)
          (apfEstimate (nlgPredicted L.next L.seen fun t _ => L.R t) L.lik φ (first.map .obj) (asSlots qs)) =
        ENNReal.ofReal (exp ll) * ∫⁻ x, φ x ∂(gauss z P) := by
  have hQ := fun t u => (nlg_posDef hL.describes t u 0).posSemidef
  have hR := fun t => nlg_out_posDef hL.describes t 0
  have hM := L.kernel_apply hQ
  obtain ⟨z, P, ll, h1, h2, h3⟩ := C71_filter_exact o0.x0 o0.P0 hL.posDef.posSemidef (L.start first ++ L.data 0 qs) (by
    intro op h
    rcases List.mem_append.mp h with h | h
    · exact L.start_good hR first op h
    · exact L.data_good hQ hR qs 0 op h)
  have hsmp := nlg_samples hL.describes o0 (N := N) (nlg_create_diag hL.posDef hL.nonzero hL.diag N) hM L.lik_measurable
  refine ⟨z, P, ll, h1, fun φ hφ => ?_⟩
  have hv := filtered_exactValue L hQ hM hφ (gauss o0.x0 o0.P0) first qs
  rw [h3, lintegral_smul_measure, smul_eq_mul] at hv
  rw [← hv]
  exact runE_of_starts (G := fun y => apfEstimate (nlgPredicted L.next L.seen fun t _ => L.R t) L.lik φ y (asSlots qs))
    (C103_apf_unbiased hN hsmp isObj_ne_none (nlg_firstStage hL.describes rest) hn hF hφ hs (asSlots qs) (asSlots_isObj qs)) _ (obj_isObj first)
    fun h => asSlots_ne_nil (hne (by cases first with | none => rfl | some _ => cases h))

/-- C108 for smoothing after the auxiliary filter. -/
theorem C108_auxiliary_smoother {H : NlgHooks n m (Slot U) ℕ} {o : NlgObj n m} {o0 : NlgX0 n} {L : LinearModel n m U} (hL : NlgIsLinear H o o0 L)
    (hone : Spec.TransExact H fun t u _ => L.Q t u)
    {N : ℕ} (hN : 0 < N) {rest : Callbacks (Fin n → ℝ) U (Fin m → ℝ) (List (Fin n → ℝ)) (Fin N → Fin n → ℝ)} {res : ℝ} {name : String}
    {opts : FilterOptions (Fin n → ℝ)} (hn : parseFilter name = .ok .apf) {Fl : FilterOps (Fin n → ℝ) U (Fin m → ℝ) _ _}
    (hF : mkFilter ((nlgMarkov N H o o0).toCallbacks (nlgApfRest H o rest)) N res name opts = .ok Fl) {T : Option ℕ} {s0 : PT (Fin n → ℝ) U (Fin m → ℝ)}
    (hs : PT.init N T 0 = .ok s0)
    {srest : SmoothCallbacks (Fin n → ℝ) U (Fin m → ℝ) (List (Fin n → ℝ)) (Fin N → Fin n → ℝ)} (hps : NoPostprocessing srest)
    {k : ℕ} (hk : 0 < k) (user : Option SOpts) (d : AllDraws (Fin N → Fin n → ℝ)) (fuel : ℕ)
    {method : String} (hmethod : method = "ancestor" ∨ method = "full")
    (first : Option (Fin m → ℝ)) (pre post : List (Slot U × (Fin m → ℝ))) (hne : first = none → pre ++ post ≠ []) :
    ∃ z P l zs Ps zT PT ll, kfData o0.x0 o0.P0 (L.start first ++ L.data 0 pre) = .ok (z, P, l) ∧
      rtsData z P (L.data pre.length post) = .ok (zs, Ps) ∧
      kfData o0.x0 o0.P0 (L.start first ++ L.data 0 (pre ++ post)) = .ok (zT, PT, ll) ∧
      ∀ ψ : (Fin n → ℝ) → ℝ≥0∞, Measurable ψ →
        runE (normals N n) Fl s0 (first.map .obj) (asSlots (pre ++ post))
          (apfWeighted (nlgPredicted L.next L.seen fun t _ => L.R t) L.lik
            (smoothE (ffbsi (nlgLogpXnext H o) srest) k method user d fuel (pathMean (fun x => ψ (x.getD pre.length 0)) k)) (first.map .obj) (asSlots (pre ++ post))) =
        ENNReal.ofReal (exp ll) * ∫⁻ x, ψ x ∂(gauss zs Ps) := by
  obtain ⟨z, P, l, zs, Ps, zT, PT, ll, e1, e2, e3, hv⟩ := linear_smoothed hL first pre post
  refine ⟨z, P, l, zs, Ps, zT, PT, ll, e1, e2, e3, fun ψ hψ => ?_⟩
  rw [← hv ψ hψ]
  have hQ' := fun t u => nlg_posDef hL.describes t u 0
  have hM := L.kernel_apply fun t u => (hQ' t u).posSemidef
  have hsmp := nlg_samples hL.describes o0 (N := N) (nlg_create_diag hL.posDef hL.nonzero hL.diag N) hM L.lik_measurable
  have hφ := fun j => measurable_stateAt hψ pre.length j
  refine runE_of_starts (G := fun y => apfWeighted (nlgPredicted L.next L.seen fun t _ => L.R t) L.lik
      (smoothE (ffbsi (nlgLogpXnext H o) srest) k method user d fuel (pathMean (fun x => ψ (x.getD pre.length 0)) k)) y (asSlots (pre ++ post))) ?_ _ (obj_isObj first)
    fun h => asSlots_ne_nil (hne (by cases first with | none => rfl | some _ => cases h))
  rcases hmethod with rfl | rfl
  · exact C112_ancestor hN hsmp isObj_ne_none (nlg_firstStage hL.describes rest) hn hF (S := ffbsi (nlgLogpXnext H o) srest) (fun D _ _ _ _ _ _ _ => rfl) hps hk user d fuel
      hφ hs _ (asSlots_isObj _)
  · refine C112_backward_simulation hN hsmp isObj_ne_none (nlg_firstStage hL.describes rest) hn hF (nlg_logDensity hL.describes hone) (vol := volume) ?_ ?_ hps hk user d fuel hφ
      hs _ (asSlots_isObj _)
    · intro t u x
      exact (continuous_logNormal (L.Q t u)).measurable.comp (by fun_prop)
    · intro t u x
      rw [hM, gauss_density (hQ' t u)]
      rfl

/-- C108 for 'mcmc', 'rs' and 'rsas': the three other ways of drawing the backward trajectories estimate the same smoothed law, the one of `KalmanSmoother.smooth`. -/
theorem C108_other_smoothers {H : NlgHooks n m (Slot U) ℕ} {o : NlgObj n m} {o0 : NlgX0 n} {L : LinearModel n m U} (hL : NlgIsLinear H o o0 L)
    (hone : Spec.TransExact H fun t u _ => L.Q t u)
    {N : ℕ} (hN : 0 < N) {rest : Callbacks (Fin n → ℝ) U (Fin m → ℝ) (List (Fin n → ℝ)) (Fin N → Fin n → ℝ)} {res : ℝ} {name : String}
    {opts : FilterOptions (Fin n → ℝ)} (hn : parseFilter name = .ok .pf) {Fl : FilterOps (Fin n → ℝ) U (Fin m → ℝ) _ _}
    (hF : mkFilter ((nlgMarkov N H o o0).toCallbacks rest) N res name opts = .ok Fl) {T : Option ℕ} {s0 : PT (Fin n → ℝ) U (Fin m → ℝ)}
    (hs : PT.init N T 0 = .ok s0)
    {srest : SmoothCallbacks (Fin n → ℝ) U (Fin m → ℝ) (List (Fin n → ℝ)) (Fin N → Fin n → ℝ)} (hps : NoPostprocessing srest)
    {k : ℕ} (hk : 0 < k) (user : Option SOpts) (hmp : user.bind (·.maxpdf) = none) (d : AllDraws (Fin N → Fin n → ℝ))
    (first : Option (Fin m → ℝ)) (pre post : List (Slot U × (Fin m → ℝ))) (hne : first = none → pre ++ post ≠ []) :
    ∃ z P l zs Ps zT PT ll, kfData o0.x0 o0.P0 (L.start first ++ L.data 0 pre) = .ok (z, P, l) ∧
      rtsData z P (L.data pre.length post) = .ok (zs, Ps) ∧
      kfData o0.x0 o0.P0 (L.start first ++ L.data 0 (pre ++ post)) = .ok (zT, PT, ll) ∧
      ∀ ψ : (Fin n → ℝ) → ℝ≥0∞, Measurable ψ →
      (∀ fuel rounds, (choose user (·.R) (.int 30)).range = .ok rounds →
        runE (normals N n) Fl s0 (first.map .obj) (asSlots (pre ++ post))
          (runWeighted (smoothRoundsE rounds (ffbsi (nlgLogpXnext H o) srest) k "mcmc" user d fuel (pathMean (fun x => ψ (x.getD pre.length 0)) k))) =
        ENNReal.ofReal (exp ll) * ∫⁻ x, ψ x ∂(gauss zs Ps)) ∧
      (∀ fuel, runE (normals N n) Fl s0 (first.map .obj) (asSlots (pre ++ post))
          (runWeighted (smoothRoundsE (choose user (fun u => u.R.map PyNum.intRange) (N / 10)) (ffbsiRS (nlgLogpXnext H o) (nlgLogpXnextMax H o) srest) k "rs" user d fuel
            (pathMean (fun x => ψ (x.getD pre.length 0)) k))) =
        ENNReal.ofReal (exp ll) * ∫⁻ x, ψ x ∂(gauss zs Ps)) ∧
      ((rsasParams user).sw ≠ 0 → 0 < (rsasParams user).ratio → (0 < (rsasParams user).P1 ∨ 0 ≤ (rsasParams user).P1 ∧ (rsasParams user).sv ≠ 0) →
        ∃ B, ∀ fuel, B ≤ fuel → runE (normals N n) Fl s0 (first.map .obj) (asSlots (pre ++ post))
          (runWeighted (smoothRoundsE fuel (ffbsiRS (nlgLogpXnext H o) (nlgLogpXnextMax H o) srest) k "rsas" user d fuel
            (pathMean (fun x => ψ (x.getD pre.length 0)) k))) =
        ENNReal.ofReal (exp ll) * ∫⁻ x, ψ x ∂(gauss zs Ps)) := by
  obtain ⟨z, P, l, zs, Ps, zT, PT, ll, e1, e2, e3, hv⟩ := linear_smoothed hL first pre post
  refine ⟨z, P, l, zs, Ps, zT, PT, ll, e1, e2, e3, fun ψ hψ => ?_⟩
  rw [← hv ψ hψ]
  have hQ' := fun t u => nlg_posDef hL.describes t u 0
  have hM := L.kernel_apply fun t u => (hQ' t u).posSemidef
  have hsmp := nlg_samples hL.describes o0 (N := N) (nlg_create_diag hL.posDef hL.nonzero hL.diag N) hM L.lik_measurable
  have hφ := fun j => measurable_stateAt hψ pre.length j
  have hnn : first.map (Slot.obj (α := Fin m → ℝ)) = none → asSlots (pre ++ post) ≠ [] :=
    fun h => asSlots_ne_nil (hne (by cases first with | none => rfl | some _ => cases h))
  have hlm : ∀ t u x, Measurable (nlgTrans L.next (fun t u _ => L.Q t u) t u x) := fun t u x => (continuous_logNormal (L.Q t u)).measurable.comp (by fun_prop)
  have hden : ∀ t u x, L.kernel t u x = volume.withDensity fun x' => ENNReal.ofReal (exp (nlgTrans L.next (fun t u _ => L.Q t u) t u x x')) := by
    intro t u x
    rw [hM, gauss_density (hQ' t u)]
    rfl
  have hlx := nlg_logDensity hL.describes hone
  have hmax := nlg_maxDensity hL.describes hone
  refine ⟨fun fuel rounds hR => ?_, fun fuel => ?_, fun h1 h2 h3 => ?_⟩
  · exact runE_of_starts (G := fun _ => runWeighted (smoothRoundsE rounds (ffbsi (nlgLogpXnext H o) srest) k "mcmc" user d fuel (pathMean (fun x => ψ (x.getD pre.length 0)) k)))
      (C98_mcmc_unbiased hN hsmp hn hF hlx hlm hden hps hk hR d fuel hφ hs _ (asSlots_isObj _)) _ (obj_isObj first) hnn
  · exact runE_of_starts (G := fun _ => runWeighted (smoothRoundsE (choose user (fun u => u.R.map PyNum.intRange) (N / 10)) (ffbsiRS (nlgLogpXnext H o) (nlgLogpXnextMax H o) srest) k "rs" user d
        fuel (pathMean (fun x => ψ (x.getD pre.length 0)) k)))
      (C98_rejection_unbiased hN hsmp hn hF hlx hlm hden hmax hps hk hmp d fuel hφ hs _ (asSlots_isObj _)) _ (obj_isObj first) hnn
  · obtain ⟨B, hB⟩ := C98_adaptive_rejection_unbiased hN hsmp hn hF hlx hlm hden hmax hps hk hmp h1 h2 h3 d hs _ (asSlots_isObj (pre ++ post))
    exact ⟨B, fun fuel hf => runE_of_starts (G := fun _ => runWeighted (smoothRoundsE fuel (ffbsiRS (nlgLogpXnext H o) (nlgLogpXnextMax H o) srest) k "rsas" user d
        fuel (pathMean (fun x => ψ (x.getD pre.length 0)) k))) (hB fuel hf _ hφ) _ (obj_isObj first) hnn⟩

/-- C108 for 'mhips' and 'mhips_reduced', any number of passes. -/
theorem C108_mhips {H : NlgHooks n m (Slot U) ℕ} {o : NlgObj n m} {o0 : NlgX0 n} {L : LinearModel n m U} (hL : NlgIsLinear H o o0 L)
    (hone : Spec.TransExact H fun t u _ => L.Q t u)
    {rest : Callbacks (Fin n → ℝ) U (Fin m → ℝ) (List (Fin n → ℝ)) (ℕ → Fin n → ℝ)} {N : ℕ} (hN : 0 < N) {res : ℝ} {name : String}
    {op : FilterOptions (Fin n → ℝ)} (hn : parseFilter name = .ok .pf) {Fl : FilterOps (Fin n → ℝ) U (Fin m → ℝ) _ _}
    (hF : mkFilter ((nlgStream H o o0).toCallbacks rest) N res name op = .ok Fl) {T : Option ℕ} {s0 : PT (Fin n → ℝ) U (Fin m → ℝ)}
    (hs : PT.init N T 0 = .ok s0) (srest : SmoothCallbacks (Fin n → ℝ) U (Fin m → ℝ) (List (Fin n → ℝ)) (ℕ → Fin n → ℝ)) {k : ℕ} (hk : 0 < k)
    {method : String} (hme : method = "mhips" ∨ method = "mhips_reduced") {user : Option SOpts} {Rp : ℕ} (hR : passes method user = .ok Rp)
    (d : AllDraws (ℕ → Fin n → ℝ)) (fuel : ℕ)
    (first : Option (Fin m → ℝ)) (pre post : List (Slot U × (Fin m → ℝ))) (hne : pre ++ post ≠ []) :
    ∃ z P l zs Ps zT PT ll, kfData o0.x0 o0.P0 (L.start first ++ L.data 0 pre) = .ok (z, P, l) ∧
      rtsData z P (L.data pre.length post) = .ok (zs, Ps) ∧
      kfData o0.x0 o0.P0 (L.start first ++ L.data 0 (pre ++ post)) = .ok (zT, PT, ll) ∧
      ∀ ψ : (Fin n → ℝ) → ℝ≥0∞, Measurable ψ →
        runE (stream n) Fl s0 (first.map .obj) (asSlots (pre ++ post))
          (runWeighted (mhipsE (ffbsi (nlgLogpXnext H o) ((nlgStream H o o0).toSmooth (nlgSmooth H o o0 srest))) (stream n) k method Rp user d fuel
            (pathMean (fun x => ψ (x.getD pre.length 0)) k))) =
        ENNReal.ofReal (exp ll) * ∫⁻ x, ψ x ∂(gauss zs Ps) := by
  obtain ⟨z, P, l, zs, Ps, zT, PT, ll, e1, e2, e3, hv⟩ := linear_smoothed hL first pre post
  refine ⟨z, P, l, zs, Ps, zT, PT, ll, e1, e2, e3, fun ψ hψ => ?_⟩
  rw [← hv ψ hψ]
  have hQ' := fun t u => nlg_posDef hL.describes t u 0
  have hM := L.kernel_apply fun t u => (hQ' t u).posSemidef
  have hlm : ∀ t u, Measurable fun z : (Fin n → ℝ) × (Fin n → ℝ) => nlgTrans L.next (fun t u _ => L.Q t u) t u z.1 z.2 := by
    intro t u
    refine (continuous_logNormal (L.Q t u)).measurable.comp ?_
    have : Continuous fun z : (Fin n → ℝ) × (Fin n → ℝ) => z.2 - L.next t u z.1 := by
      unfold Spec.LinearModel.next
      fun_prop
    exact this.measurable
  have h := C97_nonlinear_gaussian hL.describes hone hL.posDef hL.nonzero hL.diag hM L.lik_measurable hlm (rest := rest) hN hn hF hs srest hk first (pre ++ post) hne hme hR d fuel
    (φ := fun x => ψ (x.getD pre.length 0)) (measurable_stateAt hψ _ _)
  have hseen : ∀ x, pathsE L.kernel L.lik (fun l => ψ (l.getD pre.length 0)) 0 (asSlots (pre ++ post)) [] x =
      pathsE L.kernel (seen L.lik) (fun l => ψ (l.getD pre.length 0)) 0 (asSlots (pre ++ post)) [] x := fun x =>
    pathsE_seen _ _ 0 _ (fun q hq e => absurd e (isObj_ne_none _ (asSlots_isObj _ q hq))) [] x
  simp only [hseen]
  cases first with
  | none =>
    simp only [Option.map_none, startWeight, ENNReal.ofReal_one, one_mul]
    exact h
  | some y => exact h

end PyPE

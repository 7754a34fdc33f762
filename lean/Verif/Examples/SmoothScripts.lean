import Verif.Examples.Basic
import Verif.Examples.Nonlin
import Verif.Linear.Mhbp

/-!
# C123: the smoothing scripts `basic_model_mhips.py`, `basic_model_ffbp.py` and `standard_nonlin_model.py`

The three classes have a scalar state and a scalar measurement with constant `Q` and `R`, for which `logp_xnext` and `measure` take the standard deviation in place of the
variance (C46, C110). The scripts use `Q = 1`, for which `logp_xnext` is right.
-/

namespace PyPE
open Real Spec MeasureTheory ProbabilityTheory Matrix
open scoped ENNReal

variable {U : Type}

/-- The hooks of `Model` in test/manual/smoothing/basic_model_mhips.py:30-34 and basic_model_ffbp.py:29-33: `calc_f` and `calc_g` return the particles. -/
def walkHooks : NlgHooks 1 1 (Slot U) ℕ where
  calcF parts _ _ := some parts
  calcQ _ _ _ := none
  calcG parts _ := some parts
  calcR _ _ := none

theorem walk_scalarOut {q r : ℝ} (hq : 0 < q) (hr : 0 < r) {o : NlgObj 1 1} (ho : nlgInit none none (some !![q]) (some !![r]) = .ok o) :
    NlgScalarOut (walkHooks (U := U)) o (fun _ _ x => x) (fun _ _ _ => !![q]) (fun _ x => x) r := by
  obtain ⟨o', h1, -, -, h2, h3⟩ := C46_last_covariances (none : Option (Fin 1 → ℝ)) (none : Option (Fin 1 → ℝ)) (some !![q]) (some !![r])
    (by rintro _ ⟨⟩; exact single_posDef hq) (by rintro _ ⟨⟩; exact single_posDef hr) [] (by simp)
  obtain rfl := Except.ok.inj (h1.symm.trans ho)
  exact ⟨fun _ _ _ => .inl (by simp [walkHooks]), fun _ _ _ => .inr ⟨rfl, _, single_posDef hq, h2 _ rfl, fun _ => rfl⟩,
    fun _ _ => .inl (by simp [walkHooks]), fun _ _ => rfl, h3 _ rfl, hr⟩

theorem scalarOut_stream {n : ℕ} {H : NlgHooks n 1 (Slot U) ℕ} {o : NlgObj n 1} {F : ℕ → Slot U → (Fin n → ℝ) → Fin n → ℝ}
    {Q : ℕ → Slot U → (Fin n → ℝ) → Matrix (Fin n) (Fin n) ℝ} {G : ℕ → (Fin n → ℝ) → Fin 1 → ℝ} {r : ℝ} (hD : NlgScalarOut H o F Q G r) (o0 : NlgX0 n) :
    nlgStream H o o0 = nlgStream (H.withR (√r)) o o0 := by
  unfold nlgStream
  congr 1
  funext part y t
  cases y with
  | none => rfl
  | zero => rfl
  | obj y => exact scalarOut_measure hD part y t

theorem one_matrix : (!![1] : Matrix (Fin 1) (Fin 1) ℝ) = 1 := by ext i j; fin_cases i; fin_cases j; rfl

theorem walk_linear {p0 r : ℝ} (hp : 0 < p0) (hr : 0 < r) {o : NlgObj 1 1} (ho : nlgInit none none (some !![1]) (some !![r]) = .ok o) :
    NlgIsLinear ((walkHooks (U := U)).withR (√r)) o ⟨0, !![p0]⟩ (randomWalk U 1 (√r)) := by
  refine ⟨?_, single_posDef hp, (scalar_initial p0 hp).1, (scalar_initial p0 hp).2⟩
  have h := scalarOut_describes (walk_scalarOut (U := U) one_pos hr ho)
  have e1 : (randomWalk U 1 (√r)).next = fun _ _ x => x := by
    funext t u x
    simp [randomWalk, LinearModel.next]
  have e2 : (randomWalk U 1 (√r)).seen = fun _ x => x := by
    funext t x
    simp [randomWalk, LinearModel.seen]
  rw [e1, e2]
  exact h

theorem walk_exact (r : ℝ) : TransExact ((walkHooks (U := U)).withR (√r)) fun t u _ => (randomWalk U 1 (√r)).Q t u := .inr (.inr fun _ _ _ => one_matrix)

/-- C123 for `basic_model_mhips.py` with `Q = 1` (the script: 10 particles, 20 trajectories, `P0 = Q = R = 1`, first 'ancestor', then 30 passes of `perform_mhips_pass`,
which is what 'mhips' with `R = 30` does; `R = 0` is 'ancestor'): for any `P0`, `R`, numbers of particles, trajectories and passes, threshold and record, the likelihood
estimate times the average over the returned trajectories of any `ψ` of the state at any one time has mean `exp(ll) E[ψ(X)]`, `X ~ N(zs, Ps)` the smoothed law that
`KalmanSmoother.smooth` computes and `exp(ll)` the likelihood, for the random walk with measurement variance `√R`. -/
theorem C123_mhips_script {p0 r : ℝ} (hp : 0 < p0) (hr : 0 < r)
    {rest : Callbacks (Fin 1 → ℝ) U (Fin 1 → ℝ) (List (Fin 1 → ℝ)) (ℕ → Fin 1 → ℝ)} {N : ℕ} (hN : 0 < N) {res : ℝ} {name : String}
    {op : FilterOptions (Fin 1 → ℝ)} (hn : parseFilter name = .ok .pf) (srest : SmoothCallbacks (Fin 1 → ℝ) U (Fin 1 → ℝ) (List (Fin 1 → ℝ)) (ℕ → Fin 1 → ℝ))
    {k : ℕ} (hk : 0 < k) {method : String} (hme : method = "mhips" ∨ method = "mhips_reduced") {user : Option SOpts} {Rp : ℕ} (hR : passes method user = .ok Rp)
    (d : AllDraws (ℕ → Fin 1 → ℝ)) (fuel : ℕ)
    (first : Option (Fin 1 → ℝ)) (pre post : List (Slot U × (Fin 1 → ℝ))) (hne : pre ++ post ≠ []) :
    ∃ o : NlgObj 1 1, nlgInit none none (some !![1]) (some !![r]) = .ok o ∧
      ∃ z P l zs Ps zT Pf ll, kfData 0 !![p0] ((randomWalk U 1 (√r)).start first ++ (randomWalk U 1 (√r)).data 0 pre) = .ok (z, P, l) ∧
      rtsData z P ((randomWalk U 1 (√r)).data pre.length post) = .ok (zs, Ps) ∧
      kfData 0 !![p0] ((randomWalk U 1 (√r)).start first ++ (randomWalk U 1 (√r)).data 0 (pre ++ post)) = .ok (zT, Pf, ll) ∧
      ∀ {Fl : FilterOps (Fin 1 → ℝ) U (Fin 1 → ℝ) _ _} (_ : mkFilter ((nlgStream walkHooks o ⟨0, !![p0]⟩).toCallbacks rest) N res name op = .ok Fl)
        {T : Option ℕ} {s0 : PT (Fin 1 → ℝ) U (Fin 1 → ℝ)} (_ : PT.init N T 0 = .ok s0) (ψ : (Fin 1 → ℝ) → ℝ≥0∞), Measurable ψ →
        runE (stream 1) Fl s0 (first.map .obj) (asSlots (pre ++ post))
          (runWeighted (mhipsE (ffbsi (nlgLogpXnext walkHooks o) ((nlgStream walkHooks o ⟨0, !![p0]⟩).toSmooth (nlgSmooth walkHooks o ⟨0, !![p0]⟩ srest))) (stream 1) k method
            Rp user d fuel (pathMean (fun x => ψ (x.getD pre.length 0)) k))) =
        ENNReal.ofReal (exp ll) * ∫⁻ x, ψ x ∂(gauss zs Ps) := by
  obtain ⟨o, ho, -⟩ := C46_last_covariances (none : Option (Fin 1 → ℝ)) (none : Option (Fin 1 → ℝ)) (some !![1]) (some !![r])
    (by rintro _ ⟨⟩; exact single_posDef one_pos) (by rintro _ ⟨⟩; exact single_posDef hr) [] (by simp)
  obtain ⟨z, P, l, zs, Ps, zT, Pf, ll, e1, e2, e3, -⟩ := linear_smoothed (walk_linear (U := U) hp hr ho) first pre post
  refine ⟨o, ho, z, P, l, zs, Ps, zT, Pf, ll, e1, e2, e3, fun {Fl} hF {T s0} hs ψ hψ => ?_⟩
  rw [scalarOut_stream (walk_scalarOut one_pos hr ho)] at hF
  obtain ⟨z', P', l', zs', Ps', zT', Pf', ll', e1', e2', e3', hv⟩ := C108_mhips (walk_linear hp hr ho) (walk_exact r) hN hn hF hs srest hk hme hR d fuel first pre post hne
  cases Except.ok.inj (e1.symm.trans e1')
  cases Except.ok.inj (e2.symm.trans e2')
  cases Except.ok.inj (e3.symm.trans e3')
  rw [← hv ψ hψ, scalarOut_stream (walk_scalarOut one_pos hr ho)]
  rfl

/-- C123 for `basic_model_ffbp.py` ('mhbp', `R = 50`) with `Q = 1` and one trajectory, in the same way. (The script asks for 20 trajectories, for which the property fails:
C64.) -/
theorem C123_mhbp_script {p0 r : ℝ} (hp : 0 < p0) (hr : 0 < r)
    {rest : Callbacks (Fin 1 → ℝ) U (Fin 1 → ℝ) (List (Fin 1 → ℝ)) (ℕ → Fin 1 → ℝ)} {N : ℕ} (hN : 0 < N) {res : ℝ} {name : String}
    {op : FilterOptions (Fin 1 → ℝ)} (hn : parseFilter name = .ok .pf) (srest : SmoothCallbacks (Fin 1 → ℝ) U (Fin 1 → ℝ) (List (Fin 1 → ℝ)) (ℕ → Fin 1 → ℝ))
    {user : Option SOpts} {Rp : ℕ} (hR : (choose user (·.R) (.int 30)).range = .ok Rp) (d : AllDraws (ℕ → Fin 1 → ℝ)) (fuel : ℕ)
    (first : Option (Fin 1 → ℝ)) (pre post : List (Slot U × (Fin 1 → ℝ))) (hne : pre ++ post ≠ []) :
    ∃ o : NlgObj 1 1, nlgInit none none (some !![1]) (some !![r]) = .ok o ∧
      ∃ z P l zs Ps zT Pf ll, kfData 0 !![p0] ((randomWalk U 1 (√r)).start first ++ (randomWalk U 1 (√r)).data 0 pre) = .ok (z, P, l) ∧
      rtsData z P ((randomWalk U 1 (√r)).data pre.length post) = .ok (zs, Ps) ∧
      kfData 0 !![p0] ((randomWalk U 1 (√r)).start first ++ (randomWalk U 1 (√r)).data 0 (pre ++ post)) = .ok (zT, Pf, ll) ∧
      ∀ {Fl : FilterOps (Fin 1 → ℝ) U (Fin 1 → ℝ) _ _} (_ : mkFilter ((nlgStream walkHooks o ⟨0, !![p0]⟩).toCallbacks rest) N res name op = .ok Fl)
        {T : Option ℕ} {s0 : PT (Fin 1 → ℝ) U (Fin 1 → ℝ)} (_ : PT.init N T 0 = .ok s0) (ψ : (Fin 1 → ℝ) → ℝ≥0∞), Measurable ψ →
        runE (stream 1) Fl s0 (first.map .obj) (asSlots (pre ++ post))
          (runWeighted (mhbpE (ffbsi (nlgLogpXnext walkHooks o) ((nlgStream walkHooks o ⟨0, !![p0]⟩).toSmooth (nlgSmooth walkHooks o ⟨0, !![p0]⟩ srest))) (stream 1) Rp user d fuel
            (pathMean (fun x => ψ (x.getD pre.length 0)) 1))) =
        ENNReal.ofReal (exp ll) * ∫⁻ x, ψ x ∂(gauss zs Ps) := by
  obtain ⟨o, ho, -⟩ := C46_last_covariances (none : Option (Fin 1 → ℝ)) (none : Option (Fin 1 → ℝ)) (some !![1]) (some !![r])
    (by rintro _ ⟨⟩; exact single_posDef one_pos) (by rintro _ ⟨⟩; exact single_posDef hr) [] (by simp)
  obtain ⟨z, P, l, zs, Ps, zT, Pf, ll, e1, e2, e3, -⟩ := linear_smoothed (walk_linear (U := U) hp hr ho) first pre post
  refine ⟨o, ho, z, P, l, zs, Ps, zT, Pf, ll, e1, e2, e3, fun {Fl} hF {T s0} hs ψ hψ => ?_⟩
  rw [scalarOut_stream (walk_scalarOut one_pos hr ho)] at hF
  obtain ⟨z', P', l', zs', Ps', zT', Pf', ll', e1', e2', e3', hv⟩ := C108_mhbp (walk_linear hp hr ho) (walk_exact r) hN hn hF hs srest hR d fuel first pre post hne
  cases Except.ok.inj (e1.symm.trans e1')
  cases Except.ok.inj (e2.symm.trans e2')
  cases Except.ok.inj (e3.symm.trans e3')
  rw [← hv ψ hψ, scalarOut_stream (walk_scalarOut one_pos hr ho)]
  rfl

/-- C123 for `smoothing/standard_nonlin_model.py` with `Q = 1` (the script: 100 particles, 10 trajectories, `P0 = 5`, `Q = 1`, `R = 0.1`, 'mcmc'): for any `P0`, `R`, numbers of
particles, trajectories and rounds, threshold and record, the likelihood estimate times the average of any `φ` of the returned trajectories has as its mean the exact value
for the growth model with measurement variance `√R`; also for 'ancestor', 'full' and 'rs'. -/
theorem C123_growth_script {p0 r : ℝ} (hp : 0 < p0) (hr : 0 < r) {N : ℕ} (hN : 0 < N)
    {rest : Callbacks (Fin 1 → ℝ) U (Fin 1 → ℝ) (List (Fin 1 → ℝ)) (Fin N → Fin 1 → ℝ)} {res : ℝ} {name : String}
    {opts : FilterOptions (Fin 1 → ℝ)} (hn : parseFilter name = .ok .pf)
    {srest : SmoothCallbacks (Fin 1 → ℝ) U (Fin 1 → ℝ) (List (Fin 1 → ℝ)) (Fin N → Fin 1 → ℝ)} (hps : NoPostprocessing srest)
    {k : ℕ} (hk : 0 < k) (user : Option SOpts) (hmp : user.bind (·.maxpdf) = none) (d : AllDraws (Fin N → Fin 1 → ℝ)) (fuel : ℕ)
    {φ : List (Fin 1 → ℝ) → ℝ≥0∞} (hφ : ∀ l, Measurable fun x : Fin l → Fin 1 → ℝ => φ (List.ofFn x)) (y0 : Fin 1 → ℝ) (qs : List (Slot U × (Fin 1 → ℝ))) :
    ∃ o : NlgObj 1 1, nlgInit none none (some !![1]) (some !![r]) = .ok o ∧
      ∀ {Fl : FilterOps (Fin 1 → ℝ) U (Fin 1 → ℝ) _ _} (_ : mkFilter ((nlgMarkov N standardHooks o ⟨0, !![p0]⟩).toCallbacks rest) N res name opts = .ok Fl)
        {T : Option ℕ} {s0 : PT (Fin 1 → ℝ) U (Fin 1 → ℝ)} (_ : PT.init N T 0 = .ok s0),
      let estimate := fun E => ∫⁻ ω, stepsE (normals N 1) (asSlots qs) (fun ds => runWeighted E (s0.run Fl (history (some (.obj y0, ω)) ds))) ∂(normals N 1)
      let truth := ∫⁻ x, ENNReal.ofReal (exp (logNormal !![√r] (y0 - fun _ => 0.05 * x 0 ^ 2))) *
        pathsE (fun t _ => gaussKernel (fun x _ => 0.5 * x 0 + 25 * x 0 / (1 + x 0 ^ 2) + 8 * Real.cos (1.2 * t)) (by fun_prop) !![1])
          (nlgLoglik (fun _ x _ => 0.05 * x 0 ^ 2) fun _ _ => !![√r]) φ 0 (asSlots qs) [] x ∂(gauss 0 !![p0])
      (∀ rounds, (choose user (·.R) (.int 30)).range = .ok rounds →
        estimate (smoothRoundsE rounds (ffbsi (nlgLogpXnext standardHooks o) srest) k "mcmc" user d fuel (pathMean φ k)) = truth) ∧
      estimate (smoothRoundsE (choose user (fun u => u.R.map PyNum.intRange) (N / 10))
        (ffbsiRS (nlgLogpXnext standardHooks o) (nlgLogpXnextMax standardHooks o) srest) k "rs" user d fuel (pathMean φ k)) = truth ∧
      ∀ method, method = "ancestor" ∨ method = "full" → estimate (smoothE (ffbsi (nlgLogpXnext standardHooks o) srest) k method user d fuel (pathMean φ k)) = truth := by
  obtain ⟨o, ho, -⟩ := C46_last_covariances (none : Option (Fin 1 → ℝ)) (none : Option (Fin 1 → ℝ)) (some !![1]) (some !![r])
    (by rintro _ ⟨⟩; exact single_posDef one_pos) (by rintro _ ⟨⟩; exact single_posDef hr) [] (by simp)
  refine ⟨o, ho, fun {Fl} hF {T s0} hs => ?_⟩
  have hD := standard_scalarOut (U := U) one_pos hr ho
  have hD' := scalarOut_describes hD
  rw [(C110_same_callbacks hD ⟨0, !![p0]⟩ N).1] at hF
  have hone : TransExact ((standardHooks (U := U)).withR (√r)) fun _ _ _ => !![1] := .inr (.inr fun _ _ _ => one_matrix)
  have hmeas : ∀ t y, Measurable (nlgLoglik (fun _ x _ => 0.05 * x 0 ^ 2) (fun _ (_ : Fin 1 → ℝ) => (!![√r] : Matrix (Fin 1) (Fin 1) ℝ)) t y) := by
    intro t y
    cases y with
    | none => exact measurable_const
    | zero => exact measurable_const
    | obj y => exact (continuous_logNormal _).measurable.comp (by fun_prop)
  obtain ⟨S, v, hS, hv, h1, h2, -⟩ := C98_nonlinear_gaussian hD' hone (o0 := ⟨0, !![p0]⟩) (single_posDef hp) (scalar_initial p0 hp).1 hN
    (M := fun t _ => gaussKernel (fun x _ => 0.5 * x 0 + 25 * x 0 / (1 + x 0 ^ 2) + 8 * Real.cos (1.2 * t)) (by fun_prop) !![1])
    (fun t u x => gaussKernel_apply _ (single_posSemidef zero_le_one) x) hmeas hn hF hs hps hk user hmp d hφ y0 qs
  rw [hS.mpr (scalar_initial p0 hp).2] at hv
  intro estimate truth
  have ht : v = truth := hv
  refine ⟨fun rounds hR => (h1 fuel rounds hR).trans ht, (h2 fuel).trans ht, fun method hm => ?_⟩
  obtain ⟨S, hS, h⟩ := C93_nonlinear_gaussian hD' hone (o0 := ⟨0, !![p0]⟩) (single_posDef hp) (scalar_initial p0 hp).1 hN
    (M := fun t _ => gaussKernel (fun x _ => 0.5 * x 0 + 25 * x 0 / (1 + x 0 ^ 2) + 8 * Real.cos (1.2 * t)) (by fun_prop) !![1])
    (fun t u x => gaussKernel_apply _ (single_posSemidef zero_le_one) x) hmeas hn hF hs hps hk user d fuel hφ hm y0 qs
  rw [hS.mpr (scalar_initial p0 hp).2] at h
  exact h

/-- C123 (Defect): `logp_xnext` of the classes of `basic_model_mhips.py` and `basic_model_ffbp.py` is the log-density of the transition that `update` makes, `N(x, Q)`,
exactly if `Q = 1`. -/
theorem C123_other_variances {q r : ℝ} (hq : 0 < q) (hr : 0 < r) {o : NlgObj 1 1} (ho : nlgInit none none (some !![q]) (some !![r]) = .ok o) (u : Slot U) (t : ℕ) :
    (∀ x x' : Fin 1 → ℝ, nlgLogpXnext walkHooks o [x] [x'] u t = .ok [Real.log (gaussianPDFReal (x 0) q.toNNReal (x' 0))]) ↔ q = 1 := by
  have hD := walk_scalarOut (U := U) hq hr ho
  obtain ⟨o', h1, -, -, h2, -⟩ := C46_last_covariances (none : Option (Fin 1 → ℝ)) (none : Option (Fin 1 → ℝ)) (some !![q]) (some !![r])
    (by rintro _ ⟨⟩; exact single_posDef hq) (by rintro _ ⟨⟩; exact single_posDef hr) [] (by simp)
  obtain rfl := Except.ok.inj (h1.symm.trans ho)
  have key : ∀ x x' : Fin 1 → ℝ, nlgLogpXnext walkHooks o' [x] [x'] u t = .ok [Real.log (gaussianPDFReal (x 0) (√q).toNNReal (x' 0))] := fun x x' => by
    rw [C46_logp_xnext_scalar walkHooks o' [x] [x'] u t (fun x => x) q (hD.drift _ _ _) rfl (h2 _ rfl) rfl]
    rfl
  constructor
  · intro h
    have h3 := (key 0 0).symm.trans (h 0 0)
    simp only [Except.ok.injEq, List.cons.injEq, and_true] at h3
    have h4 := Real.log_injOn_pos (gaussianPDFReal_pos _ _ _ (by simpa using sqrt_pos.mpr hq)) (gaussianPDFReal_pos _ _ _ (by simpa using hq)) h3
    have hs := sqrt_pos.mpr hq
    simp only [gaussianPDFReal, Pi.zero_apply, sub_self, ne_eq, OfNat.ofNat_ne_zero, not_false_eq_true, zero_pow, neg_zero, zero_div, exp_zero, mul_one, _root_.inv_inj,
      coe_toNNReal _ hq.le, coe_toNNReal _ hs.le] at h4
    have h5 := (Real.sqrt_inj (by positivity) (by positivity)).mp h4
    have h6 : √q = q := mul_left_cancel₀ (by positivity : (2 * π) ≠ 0) h5
    have h7 : q * q = q := by
      conv_rhs => rw [← Real.mul_self_sqrt hq.le, h6]
    have h8 : q * (q - 1) = 0 := by linarith
    rcases mul_eq_zero.mp h8 with h | h
    · exact absurd h hq.ne'
    · linarith
  · rintro rfl x x'
    rw [key, Real.sqrt_one]

/-! ### The scripts' own parameters -/

theorem parse_PF : parseFilter "PF" = .ok .pf := by
  have : "PF".toLower = "pf" := by decide +kernel
  simp [parseFilter, this]

/-- `basic_model_mhips.py`: 10 particles, 20 trajectories, `P0 = Q = R = 1`, no measurement at time 0, 30 passes; the mean square of the first state. -/
example (q : Slot ℝ × (Fin 1 → ℝ)) (qs : List (Slot ℝ × (Fin 1 → ℝ))) (rest : Callbacks (Fin 1 → ℝ) ℝ (Fin 1 → ℝ) (List (Fin 1 → ℝ)) (ℕ → Fin 1 → ℝ))
    (srest : SmoothCallbacks (Fin 1 → ℝ) ℝ (Fin 1 → ℝ) (List (Fin 1 → ℝ)) (ℕ → Fin 1 → ℝ)) (d : AllDraws (ℕ → Fin 1 → ℝ)) :
    ∃ (o : NlgObj 1 1) (Fl : _) (s0 : PT (Fin 1 → ℝ) ℝ (Fin 1 → ℝ)) (zs : Fin 1 → ℝ) (Ps : Matrix (Fin 1) (Fin 1) ℝ) (zT : Fin 1 → ℝ) (Pf : Matrix (Fin 1) (Fin 1) ℝ) (ll : ℝ),
      nlgInit none none (some !![1]) (some !![1]) = .ok o ∧ mkFilter ((nlgStream walkHooks o ⟨0, !![1]⟩).toCallbacks rest) 10 (2/3) "PF" .none = .ok Fl ∧
      PT.init 10 none 0 = .ok s0 ∧ rtsData 0 !![1] ((randomWalk ℝ 1 1).data 0 (q :: qs)) = .ok (zs, Ps) ∧
      kfData 0 !![1] ((randomWalk ℝ 1 1).data 0 (q :: qs)) = .ok (zT, Pf, ll) ∧
      runE (stream 1) Fl s0 none (asSlots (q :: qs)) (runWeighted (mhipsE (ffbsi (nlgLogpXnext walkHooks o)
        ((nlgStream walkHooks o ⟨0, !![1]⟩).toSmooth (nlgSmooth walkHooks o ⟨0, !![1]⟩ srest))) (stream 1) 20 "mhips" 30 (some { R := some (.int 30) }) d 0
        (pathMean (fun x => ENNReal.ofReal ((x.getD 0 0) 0 ^ 2)) 20))) = ENNReal.ofReal (exp ll) * ∫⁻ x, ENNReal.ofReal (x 0 ^ 2) ∂(gauss zs Ps) := by
  obtain ⟨o, ho, z, P, l, zs, Ps, zT, Pf, ll, e1, e2, e3, h⟩ := C123_mhips_script (p0 := 1) (r := 1) one_pos one_pos (rest := rest) (N := 10) (by norm_num) (res := 2/3)
    (op := .none) parse_PF srest (k := 20) (by norm_num) (.inl rfl) (user := some { R := some (.int 30) }) (Rp := 30) rfl d 0 none [] (q :: qs) (by simp)
  rw [Real.sqrt_one] at e1 e2 e3
  obtain ⟨rfl, rfl, -⟩ : z = 0 ∧ P = !![1] ∧ l = 0 := by
    have : kfData (0 : Fin 1 → ℝ) !![1] [] = .ok (0, !![1], 0) := rfl
    have := this.symm.trans e1
    simp only [Except.ok.injEq, Prod.mk.injEq] at this
    exact ⟨this.1.symm, this.2.1.symm, this.2.2.symm⟩
  have hF := mkFilter_pf ((nlgStream walkHooks o ⟨0, !![1]⟩).toCallbacks rest) 10 (2/3) parse_PF FilterOptions.none
  obtain ⟨s0, hs⟩ : ∃ s0 : PT (Fin 1 → ℝ) ℝ (Fin 1 → ℝ), PT.init 10 none 0 = .ok s0 := ⟨_, rfl⟩
  have h := h hF hs (fun x => ENNReal.ofReal (x 0 ^ 2)) (by fun_prop)
  exact ⟨o, _, s0, zs, Ps, zT, Pf, ll, ho, hF, hs, e2, e3, h⟩

/-- `basic_model_ffbp.py`: 40 particles, 50 iterations, `P0 = Q = R = 1`; any indicator of the last state. -/
example (qs : List (Slot ℝ × (Fin 1 → ℝ))) (hne : qs ≠ []) (rest : Callbacks (Fin 1 → ℝ) ℝ (Fin 1 → ℝ) (List (Fin 1 → ℝ)) (ℕ → Fin 1 → ℝ))
    (srest : SmoothCallbacks (Fin 1 → ℝ) ℝ (Fin 1 → ℝ) (List (Fin 1 → ℝ)) (ℕ → Fin 1 → ℝ)) (d : AllDraws (ℕ → Fin 1 → ℝ)) {A : Set (Fin 1 → ℝ)} (hA : MeasurableSet A) :
    ∃ (o : NlgObj 1 1) (Fl : _) (s0 : PT (Fin 1 → ℝ) ℝ (Fin 1 → ℝ)) (zs : Fin 1 → ℝ) (Ps : Matrix (Fin 1) (Fin 1) ℝ) (ll : ℝ),
      nlgInit none none (some !![1]) (some !![1]) = .ok o ∧ mkFilter ((nlgStream walkHooks o ⟨0, !![1]⟩).toCallbacks rest) 40 (2/3) "PF" .none = .ok Fl ∧
      PT.init 40 none 0 = .ok s0 ∧
      runE (stream 1) Fl s0 none (asSlots qs) (runWeighted (mhbpE (ffbsi (nlgLogpXnext walkHooks o)
        ((nlgStream walkHooks o ⟨0, !![1]⟩).toSmooth (nlgSmooth walkHooks o ⟨0, !![1]⟩ srest))) (stream 1) 50 (some { R := some (.int 50) }) d 0
        (pathMean (fun x => A.indicator 1 (x.getD qs.length 0)) 1))) = ENNReal.ofReal (exp ll) * gauss zs Ps A := by
  obtain ⟨o, ho, z, P, l, zs, Ps, zT, Pf, ll, e1, e2, e3, h⟩ := C123_mhbp_script (p0 := 1) (r := 1) one_pos one_pos (rest := rest) (N := 40) (by norm_num) (res := 2/3)
    (op := .none) parse_PF srest (user := some { R := some (.int 50) }) (Rp := 50) rfl d 0 none qs [] (by simpa using hne)
  have h := h (mkFilter_pf _ _ _ parse_PF FilterOptions.none) (T := none) rfl (A.indicator 1) (measurable_one.indicator hA)
  rw [lintegral_indicator_one hA, List.append_nil] at h
  exact ⟨o, _, _, zs, Ps, ll, ho, mkFilter_pf _ _ _ parse_PF FilterOptions.none, rfl, h⟩

/-- `standard_nonlin_model.py`: 100 particles, 10 trajectories, `P0 = 5`, `Q = 1`, `R = 0.1`, 'mcmc' with the default number of rounds; the mean square of the first state. -/
example (y0 : Fin 1 → ℝ) (qs : List (Slot ℝ × (Fin 1 → ℝ))) (rest : Callbacks (Fin 1 → ℝ) ℝ (Fin 1 → ℝ) (List (Fin 1 → ℝ)) (Fin 100 → Fin 1 → ℝ))
    (srest : SmoothCallbacks (Fin 1 → ℝ) ℝ (Fin 1 → ℝ) (List (Fin 1 → ℝ)) (Fin 100 → Fin 1 → ℝ)) (d : AllDraws (Fin 100 → Fin 1 → ℝ)) :
    ∃ (o : NlgObj 1 1) (Fl : _) (s0 : PT (Fin 1 → ℝ) ℝ (Fin 1 → ℝ)), nlgInit none none (some !![1]) (some !![0.1]) = .ok o ∧
      mkFilter ((nlgMarkov 100 standardHooks o ⟨0, !![5]⟩).toCallbacks rest) 100 (2/3) "PF" .none = .ok Fl ∧ PT.init 100 none 0 = .ok s0 ∧
      ∫⁻ ω, stepsE (normals 100 1) (asSlots qs) (fun ds => runWeighted (smoothRoundsE 30 (ffbsi (nlgLogpXnext standardHooks o) { srest with postSmoothing := none }) 10 "mcmc" none d 0
          (pathMean (fun x => ENNReal.ofReal ((x.getD 0 0) 0 ^ 2)) 10)) (s0.run Fl (history (some (.obj y0, ω)) ds))) ∂(normals 100 1) =
        ∫⁻ x, ENNReal.ofReal (exp (logNormal !![√0.1] (y0 - fun _ => 0.05 * x 0 ^ 2))) *
          pathsE (fun t _ => gaussKernel (fun x _ => 0.5 * x 0 + 25 * x 0 / (1 + x 0 ^ 2) + 8 * Real.cos (1.2 * t)) (by fun_prop) !![1])
            (nlgLoglik (fun _ x _ => 0.05 * x 0 ^ 2) fun _ _ => !![√0.1]) (fun x => ENNReal.ofReal ((x.getD 0 0) 0 ^ 2)) 0 (asSlots qs) [] x ∂(gauss 0 !![5]) := by
  obtain ⟨o, ho, h⟩ := C123_growth_script (p0 := 5) (r := 0.1) (by norm_num) (by norm_num) (N := 100) (by norm_num) (rest := rest) (res := 2/3) (opts := .none) parse_PF
    (srest := { srest with postSmoothing := none }) (fun _ => rfl) (k := 10) (by norm_num) none rfl d 0 (φ := fun x => ENNReal.ofReal ((x.getD 0 0) 0 ^ 2)) (by
      intro l
      cases l with
      | zero => simp
      | succ l =>
        simp only [List.ofFn_succ, List.getD_cons_zero]
        fun_prop) y0 qs
  exact ⟨o, _, _, ho, mkFilter_pf _ _ _ parse_PF FilterOptions.none, rfl, (h (mkFilter_pf _ _ _ parse_PF FilterOptions.none) (T := none) rfl).1 30 rfl⟩

end PyPE

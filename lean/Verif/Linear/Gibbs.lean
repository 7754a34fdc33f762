import Verif.Linear.Ltv
import Verif.Linear.Smoothers
import Verif.Models.NlgGibbs
import Verif.Smooth.GibbsConv

/-!
# C114 for `NonlinearGaussian` models, and particle Gibbs against the Kalman smoother
-/

namespace PyPE
open Real Spec MeasureTheory ProbabilityTheory Matrix
open scoped ENNReal

variable {n m : ℕ} {U V : Type}

theorem nlg_forgets {H : NlgHooks n m (Slot U) ℕ} {o : NlgObj n m} {F : ℕ → Slot U → (Fin n → ℝ) → Fin n → ℝ}
    {Q : ℕ → Slot U → (Fin n → ℝ) → Matrix (Fin n) (Fin n) ℝ} {G : ℕ → (Fin n → ℝ) → Fin m → ℝ}
    {R : ℕ → (Fin n → ℝ) → Matrix (Fin m) (Fin m) ℝ} (hD : Spec.NlgDescribes H o F Q G R)
    (hone : Spec.TransExact H Q) {o0 : NlgX0 n} (hP : o0.P0.PosDef) (h0 : o0.P0 ≠ 0)
    (hdiag : ∀ i j, i ≠ j → o0.P0 i j = 0)
    {M : ℕ → Slot U → Kernel (Fin n → ℝ) (Fin n → ℝ)} (hM : ∀ t u x, M t u x = Spec.gauss (F t u x) (Q t u x))
    (hmeas : ∀ t y, Measurable (nlgLoglik G R t y)) (hlm : ∀ t u, Measurable fun z : (Fin n → ℝ) × (Fin n → ℝ) => nlgTrans F Q t u z.1 z.2)
    {rest : Callbacks (Fin n → ℝ) U (Fin m → ℝ) (List (Fin n → ℝ)) (Fin 2 → Fin n → ℝ)} {res : ℝ} {name : String} {kind : FilterKind}
    (hkind : kind = .cpf ∨ kind = .cpfas) (hn : parseFilter name = .ok kind) {Fl : List (Fin n → ℝ) → FilterOps (Fin n → ℝ) U (Fin m → ℝ) _ _}
    (hF : ∀ xs, mkFilter ((nlgMarkov 2 H o o0).toCallbacks (ffbsiFilter (nlgLogpXnext H o) rest)) 2 res name (.dict (some (reference xs))) = .ok (Fl xs))
    {T : Option ℕ} {s0 : PT (Fin n → ℝ) U (Fin m → ℝ)} (hs : PT.init 2 T 0 = .ok s0)
    {srest : SmoothCallbacks (Fin n → ℝ) U (Fin m → ℝ) (List (Fin n → ℝ)) (Fin 2 → Fin n → ℝ)} (hps : NoPostprocessing srest)
    {k : ℕ} (hk : 0 < k) (user : Option SOpts) (d : AllDraws (Fin 2 → Fin n → ℝ)) (fuel : ℕ) {method : String}
    (hmethod : method = "ancestor" ∨ method = "full") (first : Option (Fin m → ℝ)) (qs : List (Slot U × Slot (Fin m → ℝ)))
    (hqs : ∀ q ∈ qs, q.2 ≠ .zero) (hne : first = none → qs ≠ []) {c : ℕ → ℝ}
    (hcb : LikBound (nlgLoglik G R) (first.map .obj) qs c) :
    ForgetsStart (qs.length + 1) (fun φ => sweep (normals 2 n) s0 Fl (first.map .obj) qs
        (smoothE (ffbsi (nlgLogpXnext H o) srest) k method user d fuel (pathMean φ k)))
      (smoothingMean (Spec.gauss o0.x0 o0.P0) M (nlgLoglik G R) (first.map .obj) qs)
      (regeneration (Spec.gauss o0.x0 o0.P0) M (nlgLoglik G R) (first.map .obj) qs c) := by
  have hsmp := nlg_samples hD o0 (N := 2) (μ0 := Spec.gauss o0.x0 o0.P0) (nlg_create_diag hP h0 hdiag 2) hM hmeas
  have hgood : ∀ q ∈ qs, q.2 = .none ∨ IsObj q.2 := by
    intro q hq
    have := hqs q hq
    rcases h : q.2 with _ | _ | y
    · exact Or.inl rfl
    · exact absurd h this
    · exact Or.inr ⟨_, rfl⟩
  have hfirst : ∀ y ∈ first.map Slot.obj, IsObj y := by
    intro y hy
    obtain ⟨v, -, rfl⟩ := Option.mem_map.mp hy
    exact ⟨_, rfl⟩
  have hne' : first.map Slot.obj = none → qs ≠ [] := fun h => hne (by simpa using h)
  have hden : ∀ t u x, M t u x = volume.withDensity fun x' => ENNReal.ofReal (exp (nlgTrans F Q t u x x')) := by
    intro t u x
    rw [hM, gauss_density (nlg_posDef hD t u x)]
    rfl
  have hlog := nlg_logDensity hD hone
  rcases hkind with rfl | rfl
  · rcases hmethod with rfl | rfl
    · exact C114_cpf hsmp reference_state hn hF (S := ffbsi (nlgLogpXnext H o) srest) (fun D _ _ _ _ _ _ _ => rfl) hps hk user d fuel hs qs hgood
        _ hfirst hne' hcb
    · exact C114_cpf_full hsmp hlog hlm hden reference_state hn hF hps hk user d fuel hs qs hgood _ hfirst hne' hcb
  · rcases hmethod with rfl | rfl
    · exact C114_cpfas hsmp hlog hlm hden reference_state hn hF (S := ffbsi (nlgLogpXnext H o) srest) (fun D _ _ _ _ _ _ _ => rfl) hps hk user d
        fuel hs qs hgood _ hfirst hne' hcb
    · exact C114_cpfas_full hsmp hlog hlm hden reference_state hn hF hps hk user d fuel hs qs hgood _ hfirst hne' hcb

/-- C114 for `NonlinearGaussianInitialGaussian` with a diagonal `P0`: if the determinant of `R` is bounded away from 0, particle Gibbs with `CPF` or
`CPFAS`, two particles, and trajectories from `perform_smoothing(k, 'ancestor')` or `perform_smoothing(k, 'full')` converges to the smoothing law
of `x_{t+1} ~ N(F(x_t), Q(x_t))`, `y_t ~ N(G(x_t), R(x_t))` from every reference trajectory. -/
theorem C114_nonlinear_gaussian {H : NlgHooks n m (Slot U) ℕ} {o : NlgObj n m} {F : ℕ → Slot U → (Fin n → ℝ) → Fin n → ℝ}
    {Q : ℕ → Slot U → (Fin n → ℝ) → Matrix (Fin n) (Fin n) ℝ} {G : ℕ → (Fin n → ℝ) → Fin m → ℝ}
    {R : ℕ → (Fin n → ℝ) → Matrix (Fin m) (Fin m) ℝ} (hD : Spec.NlgDescribes H o F Q G R)
    (hone : Spec.TransExact H Q) {o0 : NlgX0 n} (hP : o0.P0.PosDef) (h0 : o0.P0 ≠ 0)
    (hdiag : ∀ i j, i ≠ j → o0.P0 i j = 0)
    {M : ℕ → Slot U → Kernel (Fin n → ℝ) (Fin n → ℝ)} (hM : ∀ t u x, M t u x = Spec.gauss (F t u x) (Q t u x))
    (hmeas : ∀ t y, Measurable (nlgLoglik G R t y)) (hlm : ∀ t u, Measurable fun z : (Fin n → ℝ) × (Fin n → ℝ) => nlgTrans F Q t u z.1 z.2)
    {rest : Callbacks (Fin n → ℝ) U (Fin m → ℝ) (List (Fin n → ℝ)) (Fin 2 → Fin n → ℝ)} {res : ℝ} {name : String} {kind : FilterKind}
    (hkind : kind = .cpf ∨ kind = .cpfas) (hn : parseFilter name = .ok kind) {Fl : List (Fin n → ℝ) → FilterOps (Fin n → ℝ) U (Fin m → ℝ) _ _}
    (hF : ∀ xs, mkFilter ((nlgMarkov 2 H o o0).toCallbacks (ffbsiFilter (nlgLogpXnext H o) rest)) 2 res name (.dict (some (reference xs))) = .ok (Fl xs))
    {T : Option ℕ} {s0 : PT (Fin n → ℝ) U (Fin m → ℝ)} (hs : PT.init 2 T 0 = .ok s0)
    {srest : SmoothCallbacks (Fin n → ℝ) U (Fin m → ℝ) (List (Fin n → ℝ)) (Fin 2 → Fin n → ℝ)} (hps : NoPostprocessing srest)
    {k : ℕ} (hk : 0 < k) (user : Option SOpts) (d : AllDraws (Fin 2 → Fin n → ℝ)) (fuel : ℕ) {method : String}
    (hmethod : method = "ancestor" ∨ method = "full") (first : Option (Fin m → ℝ)) (qs : List (Slot U × Slot (Fin m → ℝ)))
    (hqs : ∀ q ∈ qs, q.2 ≠ .zero) (hne : first = none → qs ≠ []) {c : ℕ → ℝ} (hc1 : ∀ t, 1 ≤ c t)
    (hc : ∀ t x, exp (-(m / 2) * Real.log (2 * Real.pi) - 1 / 2 * Real.log (R t x).det) ≤ c t) :
    ForgetsStart (qs.length + 1) (fun φ => sweep (normals 2 n) s0 Fl (first.map .obj) qs
        (smoothE (ffbsi (nlgLogpXnext H o) srest) k method user d fuel (pathMean φ k)))
      (smoothingMean (Spec.gauss o0.x0 o0.P0) M (nlgLoglik G R) (first.map .obj) qs)
      (regeneration (Spec.gauss o0.x0 o0.P0) M (nlgLoglik G R) (first.map .obj) qs c) := by
  have hobj : ∀ t (y : Fin m → ℝ) x, exp (nlgLoglik G R t (.obj y) x) ≤ c t := by
    intro t y x
    refine le_trans (exp_le_exp.mpr (logNormal_le (nlg_out_posDef hD t x) _)) (le_trans (le_of_eq ?_) (hc t x))
    unfold Spec.logNormal
    rw [zero_dotProduct, mul_zero, sub_zero]
  have hcb : LikBound (nlgLoglik G R) (first.map .obj) qs c := by
    constructor
    · intro x
      cases first with
      | none => simpa [firstLik] using hc1 0
      | some y => exact hobj 0 y x
    · intro j q hj x
      have := hqs q (List.mem_of_getElem? hj)
      rcases h : q.2 with _ | _ | y
      · simpa [seen, h] using hc1 (j+1)
      · exact absurd h this
      · simpa [seen, h] using hobj (j+1) y x
  exact nlg_forgets hD hone hP h0 hdiag hM hmeas hlm hkind hn hF hs hps hk user d fuel hmethod first qs hqs hne hcb

/-- The largest value of the density of a measurement at time `t`; 1 if there is no measurement at time 0. -/
noncomputable def Spec.LinearModel.peak (L : LinearModel n m U) (first : Option (Fin m → ℝ)) (t : ℕ) : ℝ :=
  if t = 0 ∧ first = none then 1 else exp (-(m / 2) * Real.log (2 * Real.pi) - 1 / 2 * Real.log (L.R t).det)

/-- C114, against the Kalman smoother: on a linear Gaussian model, run particle Gibbs with `CPF` or `CPFAS` and two particles from any reference
trajectory, and run the Kalman filter and `KalmanSmoother.smooth` on the same record. After `k` iterations the mean of any function `ψ` with values
in `[0, 1]` of the state at any one time is within `(1 - ε)^k` of `E[ψ(X)]`, `X ~ N(zs, Ps)` the law the Kalman smoother returns;
`ε = exp(ll) / Π_t 2 max p(y_t | ·)`, with the log-likelihood `ll` of the Kalman filter. -/
theorem C114_linear {H : NlgHooks n m (Slot U) ℕ} {o : NlgObj n m} {o0 : NlgX0 n} {L : LinearModel n m U} (hL : NlgIsLinear H o o0 L)
    (hone : Spec.TransExact H fun t u _ => L.Q t u)
    {rest : Callbacks (Fin n → ℝ) U (Fin m → ℝ) (List (Fin n → ℝ)) (Fin 2 → Fin n → ℝ)} {res : ℝ} {name : String} {kind : FilterKind}
    (hkind : kind = .cpf ∨ kind = .cpfas) (hn : parseFilter name = .ok kind) {Fl : List (Fin n → ℝ) → FilterOps (Fin n → ℝ) U (Fin m → ℝ) _ _}
    (hF : ∀ xs, mkFilter ((nlgMarkov 2 H o o0).toCallbacks (ffbsiFilter (nlgLogpXnext H o) rest)) 2 res name (.dict (some (reference xs))) = .ok (Fl xs))
    {T : Option ℕ} {s0 : PT (Fin n → ℝ) U (Fin m → ℝ)} (hs : PT.init 2 T 0 = .ok s0)
    {srest : SmoothCallbacks (Fin n → ℝ) U (Fin m → ℝ) (List (Fin n → ℝ)) (Fin 2 → Fin n → ℝ)} (hps : NoPostprocessing srest)
    {k : ℕ} (hk : 0 < k) (user : Option SOpts) (d : AllDraws (Fin 2 → Fin n → ℝ)) (fuel : ℕ) {method : String}
    (hmethod : method = "ancestor" ∨ method = "full")
    (first : Option (Fin m → ℝ)) (pre post : List (Slot U × (Fin m → ℝ))) (hne : first = none → pre ++ post ≠ []) :
    ∃ z P l zs Ps zT PT ll, kfData o0.x0 o0.P0 (L.start first ++ L.data 0 pre) = .ok (z, P, l) ∧
      rtsData z P (L.data pre.length post) = .ok (zs, Ps) ∧
      kfData o0.x0 o0.P0 (L.start first ++ L.data 0 (pre ++ post)) = .ok (zT, PT, ll) ∧
      ∃ ε : ℝ, ε = exp ll / ∏ t ∈ Finset.range ((pre ++ post).length + 1), (2 * L.peak first t) ∧ 0 < ε ∧ ε ≤ 1 ∧
      ∀ ψ : (Fin n → ℝ) → ℝ≥0∞, Measurable ψ → (∀ x, ψ x ≤ 1) → ∀ (iterations : ℕ) (ref : List (Fin n → ℝ)), ref.length = (pre ++ post).length + 1 →
        |(((fun φ => sweep (normals 2 n) s0 Fl (first.map .obj) (asSlots (pre ++ post))
          (smoothE (ffbsi (nlgLogpXnext H o) srest) k method user d fuel (pathMean φ k)))^[iterations] (fun x => ψ (x.getD pre.length 0))) ref).toReal -
          (∫⁻ x, ψ x ∂(gauss zs Ps)).toReal| ≤ (1 - ε)^iterations := by
  obtain ⟨z, P, l, zs, Ps, zT, PT, ll, e1, e2, e3, hsm⟩ := linear_smoothed hL first pre post
  have hQ := fun t u => (nlg_posDef hL.describes t u 0).posSemidef
  have hR := fun t => nlg_out_posDef hL.describes t 0
  have hval : ∀ ψ : (Fin n → ℝ) → ℝ≥0∞, Measurable ψ →
      smoothingE (gauss o0.x0 o0.P0) L.kernel L.lik (first.map .obj) (asSlots (pre ++ post)) (fun x => ψ (x.getD pre.length 0)) =
        ENNReal.ofReal (exp ll) * ∫⁻ x, ψ x ∂(gauss zs Ps) := by
    intro ψ hψ
    rw [← hsm ψ hψ]
    have e := fun x => pathsE_seen L.kernel (ℓ := L.lik) (fun x => ψ (x.getD pre.length 0)) 0 (asSlots (pre ++ post))
      (fun _ _ _ _ _ => rfl) [] x
    cases first with
    | none => simp only [Option.map_none, smoothingE, startWeight, ← e, ENNReal.ofReal_one, one_mul]
    | some y => simp only [Option.map_some, smoothingE, startWeight, ← e]
  have hone' : smoothingE (gauss o0.x0 o0.P0) L.kernel L.lik (first.map .obj) (asSlots (pre ++ post)) (fun _ => 1) = ENNReal.ofReal (exp ll) := by
    have := hval (fun _ => 1) measurable_const
    simpa using this
  have hlen : (asSlots (pre ++ post)).length = (pre ++ post).length := by simp [asSlots]
  have hpk : ∀ t y x, exp (L.lik t (.obj y) x) ≤ exp (-(m / 2) * Real.log (2 * Real.pi) - 1 / 2 * Real.log (L.R t).det) := by
    intro t y x
    refine le_trans (exp_le_exp.mpr (logNormal_le (hR t) _)) (le_of_eq ?_)
    unfold Spec.logNormal
    rw [zero_dotProduct, mul_zero, sub_zero]
  have hcb : LikBound L.lik (first.map .obj) (asSlots (pre ++ post)) (L.peak first) := by
    constructor
    · intro x
      cases first with
      | none => simp [firstLik, Spec.LinearModel.peak]
      | some y => simpa [firstLik, Spec.LinearModel.peak] using hpk 0 y x
    · intro j q hj x
      obtain ⟨y, hy⟩ := asSlots_isObj (pre ++ post) q (List.mem_of_getElem? hj)
      rw [hy]
      simpa [seen, Spec.LinearModel.peak] using hpk (j+1) y x
  have h := nlg_forgets hL.describes hone hL.posDef hL.nonzero hL.diag (L.kernel_apply hQ) L.lik_measurable (fun t u => ?_) hkind hn hF hs hps hk user d fuel
    hmethod first (asSlots (pre ++ post)) (fun q hq => ?_) (fun e => asSlots_ne_nil (hne e)) hcb
  · have hε : regeneration (gauss o0.x0 o0.P0) L.kernel L.lik (first.map .obj) (asSlots (pre ++ post)) (L.peak first) =
        exp ll / ∏ t ∈ Finset.range ((pre ++ post).length + 1), (2 * L.peak first t) := by
      unfold regeneration
      rw [hone', ENNReal.toReal_ofReal (exp_pos _).le, hlen]
    refine ⟨z, P, l, zs, Ps, zT, PT, ll, e1, e2, e3, _, rfl, hε ▸ h.1, hε ▸ h.2.1, fun ψ hψ hle k ref href => ?_⟩
    have := h.2.2 (fun x => ψ (x.getD pre.length 0)) (measurable_stateAt hψ _ _) (fun xs _ => hle _) k ref (by rw [hlen]; exact href)
    change |_ - (smoothingMean (gauss o0.x0 o0.P0) L.kernel L.lik (first.map .obj) (asSlots (pre ++ post)) (fun x => ψ (x.getD pre.length 0))).toReal| ≤
      (1 - regeneration (gauss o0.x0 o0.P0) L.kernel L.lik (first.map .obj) (asSlots (pre ++ post)) (L.peak first))^k at this
    have hmean : smoothingMean (gauss o0.x0 o0.P0) L.kernel L.lik (first.map .obj) (asSlots (pre ++ post)) (fun x => ψ (x.getD pre.length 0)) =
        ∫⁻ x, ψ x ∂(gauss zs Ps) := by
      unfold smoothingMean
      rw [hone', hval ψ hψ, mul_comm, ENNReal.mul_div_cancel_right (ENNReal.ofReal_pos.mpr (exp_pos _)).ne' ENNReal.ofReal_ne_top]
    rw [hε, hmean] at this
    exact this
  · exact ((continuous_logNormal (L.Q t u)).measurable).comp (by unfold Spec.LinearModel.next; fun_prop)
  · obtain ⟨y, hy⟩ := asSlots_isObj _ q hq
    rw [hy]; intro h; cases h

/-- C114 on the model of `nlgLikToy`, `x⁺ ~ N(x/2, I)`, `y ~ N(x, I)`: `CPFAS` with two particles and backward simulation, from any reference
trajectory. The probability that the state at time `pre.length` has a positive first entry tends to the one under the Kalman smoother. -/
example (rest : Callbacks (Fin 2 → ℝ) ℝ (Fin 2 → ℝ) (List (Fin 2 → ℝ)) (Fin 2 → Fin 2 → ℝ)) (y0 : Fin 2 → ℝ) (pre post : List (Slot ℝ × (Fin 2 → ℝ)))
    (srest : SmoothCallbacks (Fin 2 → ℝ) ℝ (Fin 2 → ℝ) (List (Fin 2 → ℝ)) (Fin 2 → Fin 2 → ℝ)) (d : AllDraws (Fin 2 → Fin 2 → ℝ)) :
    ∃ (o : NlgObj 2 2) (Fl : _) (s0 : PT (Fin 2 → ℝ) ℝ (Fin 2 → ℝ)) (z : _) (P : _) (l : _) (zs : _) (Ps : _), nlgInit none none (some 1) (some 1) = .ok o ∧
      (∀ xs, mkFilter ((nlgMarkov 2 nlgLikToy o ⟨0, 1⟩).toCallbacks (ffbsiFilter (nlgLogpXnext nlgLikToy o) rest)) 2 (2/3) "CPFAS"
        (.dict (some (reference xs))) = .ok (Fl xs)) ∧ PT.init 2 none 0 = .ok s0 ∧
      kfData 0 1 (halfModel.start (some y0) ++ halfModel.data 0 pre) = .ok (z, P, l) ∧ rtsData z P (halfModel.data pre.length post) = .ok (zs, Ps) ∧
      ∀ ref : List (Fin 2 → ℝ), ref.length = (pre ++ post).length + 1 →
        Filter.Tendsto (fun k => (((fun φ => sweep (normals 2 2) s0 Fl (some (.obj y0)) (asSlots (pre ++ post))
          (smoothE (ffbsi (nlgLogpXnext nlgLikToy o) { srest with postSmoothing := none }) 3 "full" none d 0 (pathMean φ 3)))^[k]
            (fun x => {x : Fin 2 → ℝ | 0 < x 0}.indicator 1 (x.getD pre.length 0))) ref).toReal) Filter.atTop
          (nhds ((gauss zs Ps).real {x | 0 < x 0})) := by
  obtain ⟨o, ho, hL⟩ := halfModel_linear
  have hn : parseFilter "CPFAS" = .ok .cpfas := by
    have e0 : "CPFAS".toLower = "cpfas" := by decide +kernel
    have e1 : ¬ ("cpfas" = "pf") := by decide +kernel
    have e2 : ¬ ("cpfas" = "apf") := by decide +kernel
    have e3 : ¬ ("cpfas" = "cpf") := by decide +kernel
    have e4 : ¬ ("cpfas" = "sir") := by decide +kernel
    have e5 : ¬ ("cpfas" = "csiras") := by decide +kernel
    simp [parseFilter, e0]
  choose Fl hFl using mkFilter_reference ((nlgMarkov 2 nlgLikToy o ⟨0, 1⟩).toCallbacks (ffbsiFilter (nlgLogpXnext nlgLikToy o) rest)) 2 (2/3) hn (Or.inr rfl)
  obtain ⟨z, P, l, zs, Ps, zT, PT, ll, e1, e2, -, ε, -, h0, h1, h⟩ := C114_linear hL (Or.inl (by norm_num)) (Or.inr rfl) hn hFl (T := none) rfl
    (srest := { srest with postSmoothing := none }) (fun _ => rfl) (k := 3) (by norm_num) none d 0 (method := "full") (Or.inr rfl) (some y0) pre post (by simp)
  refine ⟨o, Fl, _, z, P, l, zs, Ps, ho, hFl, rfl, e1, e2, fun ref href => ?_⟩
  have hA : MeasurableSet {x : Fin 2 → ℝ | 0 < x 0} := measurableSet_lt measurable_const (measurable_pi_apply 0)
  have hb := h ({x : Fin 2 → ℝ | 0 < x 0}.indicator 1) (measurable_one.indicator hA) (fun x => Set.indicator_le_self' (by simp) x)
  rw [lintegral_indicator_one hA] at hb
  rw [tendsto_iff_dist_tendsto_zero]
  refine squeeze_zero (fun _ => dist_nonneg) (fun k => hb k ref href) (tendsto_pow_atTop_nhds_zero_of_lt_one (by linarith) (by linarith))

end PyPE

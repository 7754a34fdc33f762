import Verif.Linear.Data
import Verif.Models.NlgMhips
import Verif.Models.LtvEm

/-!
# C108: on a linear Gaussian model the particle filter and smoother agree with the Kalman filter and smoother
-/

namespace PyPE
open Real Spec MeasureTheory ProbabilityTheory Matrix Filter
open scoped ENNReal

variable {n m : ℕ} {U : Type}

/-- The `NonlinearGaussianInitialGaussian` object is the linear Gaussian model `L` started from `N(x0, Px0)`, with a diagonal `Px0` (for other `Px0`
`create_initial_estimate` draws from another law, C47). -/
structure Spec.NlgIsLinear (H : NlgHooks n m (Slot U) ℕ) (o : NlgObj n m) (o0 : NlgX0 n) (L : LinearModel n m U) : Prop where
  describes : NlgDescribes H o L.next (fun t u _ => L.Q t u) L.seen fun t _ => L.R t
  posDef : o0.P0.PosDef
  nonzero : o0.P0 ≠ 0
  diag : ∀ i j, i ≠ j → o0.P0 i j = 0

theorem nlg_out_posDef {H : NlgHooks n m (Slot U) ℕ} {o : NlgObj n m} {F : ℕ → Slot U → (Fin n → ℝ) → Fin n → ℝ}
    {Q : ℕ → Slot U → (Fin n → ℝ) → Matrix (Fin n) (Fin n) ℝ} {G : ℕ → (Fin n → ℝ) → Fin m → ℝ}
    {R : ℕ → (Fin n → ℝ) → Matrix (Fin m) (Fin m) ℝ} (hD : Spec.NlgDescribes H o F Q G R) (t : ℕ) (x : Fin n → ℝ) : (R t x).PosDef := by
  rcases hD.outCov [x] t with h | ⟨-, -, R0, hR, -, h⟩
  · exact h.2 x
  · rw [h]; exact hR

theorem nlg_create_pi {o0 : NlgX0 n} (hP : o0.P0.PosDef) (h0 : o0.P0 ≠ 0) (hdiag : ∀ i j, i ≠ j → o0.P0 i j = 0) (N : ℕ) :
    ∃ X : (Fin N → Fin n → ℝ) → Fin N → Fin n → ℝ, Measurable X ∧ (normals N n).map X = (Measure.pi fun _ => gauss o0.x0 o0.P0) ∧
      ∀ w, o0.create N (List.ofFn w) = .ok (List.ofFn (X w)) := by
  obtain ⟨c, hc, step, hm, hstep, hlaw⟩ := nlg_create_law o0 hP h0 N
  obtain ⟨S', -, ⟨step', hstep', hlaw'⟩, -, hd⟩ := C47_initial_law o0 hP h0 N
  have hss : step' = step := by
    funext w
    exact List.ofFn_injective (Except.ok.inj ((hstep' w).symm.trans (hstep w)))
  subst hss
  exact ⟨step', hm, by rw [← hd.mpr hdiag]; exact hlaw', hstep'⟩

namespace Spec.LinearModel

theorem data_good (L : LinearModel n m U) (hQ : ∀ t u, (L.Q t u).PosSemidef) (hR : ∀ t, (L.R t).PosDef) (qs : List (Slot U × (Fin m → ℝ))) (k : ℕ) :
    ∀ op ∈ L.data k qs, op.Good := by
  induction qs generalizing k with
  | nil => intro op h; cases h
  | cons q qs ih =>
    intro op h
    rw [data, List.mem_cons, List.mem_cons] at h
    rcases h with rfl | rfl | h
    · exact hQ _ _
    · exact hR _
    · exact ih _ op h

theorem data_strict (L : LinearModel n m U) (hQ : ∀ t u, (L.Q t u).PosDef) (qs : List (Slot U × (Fin m → ℝ))) (k : ℕ) :
    ∀ op ∈ L.data k qs, op.Strict := by
  induction qs generalizing k with
  | nil => intro op h; cases h
  | cons q qs ih =>
    intro op h
    rw [data, List.mem_cons, List.mem_cons] at h
    rcases h with rfl | rfl | h
    · exact hQ _ _
    · trivial
    · exact ih _ op h

theorem start_good (L : LinearModel n m U) (hR : ∀ t, (L.R t).PosDef) (first : Option (Fin m → ℝ)) : ∀ op ∈ L.start first, op.Good := by
  cases first with
  | none => intro op h; cases h
  | some y =>
    intro op h
    obtain rfl := List.mem_singleton.mp h
    exact hR _

theorem data_append (L : LinearModel n m U) (pre post : List (Slot U × (Fin m → ℝ))) (k : ℕ) :
    L.data k (pre ++ post) = L.data k pre ++ L.data (k + pre.length) post := by
  induction pre generalizing k with
  | nil => rfl
  | cons q pre ih => simp only [List.cons_append, data, ih, List.length_cons, show k + 1 + pre.length = k + (pre.length + 1) by omega]

/-- The transition kernels. -/
noncomputable def kernel (L : LinearModel n m U) (t : ℕ) (u : Slot U) : Kernel (Fin n → ℝ) (Fin n → ℝ) :=
  gaussKernel (L.next t u) (Continuous.measurable (by unfold next; fun_prop)) (L.Q t u)

theorem kernel_apply (L : LinearModel n m U) (hQ : ∀ t u, (L.Q t u).PosSemidef) (t : ℕ) (u : Slot U) (x : Fin n → ℝ) :
    L.kernel t u x = gauss (L.next t u x) (L.Q t u) := gaussKernel_apply _ (hQ t u) x

end Spec.LinearModel

/-- C108, filtering: run the bootstrap filter with any number of particles and any resampling threshold on a linear Gaussian model, and the Kalman
filter of `utils/kalman.py` on the same record. The Kalman filter succeeds; the likelihood estimate of the particle filter has as its mean the
likelihood `exp(ll)` the Kalman filter returns, and the estimate times the weighted mean of any non-negative `φ` over the particles has mean
`exp(ll) E[φ(X)]` with `X ~ N(z, P)` for the returned `z`, `P`. -/
theorem C108_filter_unbiased {H : NlgHooks n m (Slot U) ℕ} {o : NlgObj n m} {o0 : NlgX0 n} {L : LinearModel n m U} (hL : NlgIsLinear H o o0 L)
    {N : ℕ} (hN : 0 < N) {rest : Callbacks (Fin n → ℝ) U (Fin m → ℝ) (List (Fin n → ℝ)) (Fin N → Fin n → ℝ)} {res : ℝ} {name : String}
    {opts : FilterOptions (Fin n → ℝ)} (hn : parseFilter name = .ok .pf) {Fl : FilterOps (Fin n → ℝ) U (Fin m → ℝ) _ _}
    (hF : mkFilter ((nlgMarkov N H o o0).toCallbacks rest) N res name opts = .ok Fl) {T : Option ℕ} {s0 : PT (Fin n → ℝ) U (Fin m → ℝ)}
    (hs : PT.init N T 0 = .ok s0) (first : Option (Fin m → ℝ)) (qs : List (Slot U × (Fin m → ℝ))) (hne : first = none → qs ≠ []) :
    ∃ z P ll, kfData o0.x0 o0.P0 (L.start first ++ L.data 0 qs) = .ok (z, P, ll) ∧
      runE (normals N n) Fl s0 (first.map .obj) (asSlots qs) (runEstimate 1) = ENNReal.ofReal (exp ll) ∧
      ∀ φ : (Fin n → ℝ) → ℝ≥0∞, Measurable φ → runE (normals N n) Fl s0 (first.map .obj) (asSlots qs) (runEstimate φ) =
        ENNReal.ofReal (exp ll) * ∫⁻ x, φ x ∂(gauss z P) := by
  have hQ := fun t u => (nlg_posDef hL.describes t u 0).posSemidef
  have hR := fun t => nlg_out_posDef hL.describes t 0
  have hM := L.kernel_apply hQ
  obtain ⟨z, P, ll, h1, h2, h3⟩ := C71_filter_exact o0.x0 o0.P0 hL.posDef.posSemidef (L.start first ++ L.data 0 qs) (by
    intro op h
    rcases List.mem_append.mp h with h | h
    · exact L.start_good hR first op h
    · exact L.data_good hQ hR qs 0 op h)
  have hsmp := nlg_samples hL.describes o0 (N := N) (nlg_create_diag hL.posDef hL.nonzero hL.diag N) hM L.lik_measurable
  have main : ∀ φ : (Fin n → ℝ) → ℝ≥0∞, Measurable φ → runE (normals N n) Fl s0 (first.map .obj) (asSlots qs) (runEstimate φ) =
        ENNReal.ofReal (exp ll) * ∫⁻ x, φ x ∂(gauss z P) := by
    intro φ hφ
    have hv := filtered_exactValue L hQ hM hφ (gauss o0.x0 o0.P0) first qs
    rw [h3, lintegral_smul_measure, smul_eq_mul] at hv
    rw [← hv]
    have hu := C89_bootstrap_unbiased hN hsmp hn hF hφ hs (asSlots qs) (asSlots_isObj qs)
    cases first with
    | none =>
      simp only [runE, Option.map_none, exactValue, startWeight, ENNReal.ofReal_one, one_mul]
      refine hu.2 fun h => hne rfl ?_
      cases qs with
      | nil => rfl
      | cons => cases h
    | some y => exact hu.1 (.obj y) ⟨_, rfl⟩
  refine ⟨z, P, ll, h1, ?_, main⟩
  have := main 1 measurable_const
  simpa using this

/-- The mean over the filtering law, when the latter is normal. -/
theorem exactMean_gauss (L : LinearModel n m U) (hQ : ∀ t u, (L.Q t u).PosSemidef) {μ : Measure (Fin n → ℝ)} [SFinite μ]
    {first : Option (Fin m → ℝ)} {qs : List (Slot U × (Fin m → ℝ))} {z : Fin n → ℝ} {P : Matrix (Fin n) (Fin n) ℝ} {ll : ℝ}
    (h : filtered μ (L.start first ++ L.data 0 qs) = ENNReal.ofReal (exp ll) • gauss z P) {φ : (Fin n → ℝ) → ℝ} (hφ : Measurable φ)
    (hi : Integrable φ (gauss z P)) : exactMean μ L.kernel L.lik (first.map .obj) (asSlots qs) φ = ∫ x, φ x ∂(gauss z P) := by
  have hv : ∀ g : (Fin n → ℝ) → ℝ≥0∞, Measurable g → exactValue μ L.kernel L.lik (first.map .obj) (asSlots qs) g =
      ENNReal.ofReal (exp ll) * ∫⁻ x, g x ∂(gauss z P) := by
    intro g hg
    rw [filtered_exactValue L hQ (L.kernel_apply hQ) hg μ first qs, h, lintegral_smul_measure, smul_eq_mul]
  rw [exactMean, hv _ hφ.ennreal_ofReal, hv (fun x => ENNReal.ofReal (-φ x)) hφ.neg.ennreal_ofReal, hv _ measurable_const]
  rw [MeasureTheory.lintegral_one, measure_univ, mul_one, ENNReal.toReal_mul, ENNReal.toReal_mul, ENNReal.toReal_ofReal (exp_pos ll).le,
    ← mul_sub, mul_div_cancel_left₀ _ (exp_pos ll).ne', ← integral_eq_lintegral_pos_part_sub_lintegral_neg_part hi]

/-- C108, limits: with a resampling threshold `res ≤ 0` and a growing number of particles, the likelihood estimate of the bootstrap filter on a linear
Gaussian model converges in probability to the likelihood the Kalman filter returns for the same record, the weighted means of the particles to the
returned mean, their weighted covariances to the returned covariance, and the weighted mean of every `φ` that is integrable under `N(z, P)` to its
expectation. -/
theorem C108_filter_consistent {H : NlgHooks n m (Slot U) ℕ} {o : NlgObj n m} {o0 : NlgX0 n} {L : LinearModel n m U} (hL : NlgIsLinear H o o0 L)
    {rest : ∀ N, Callbacks (Fin n → ℝ) U (Fin m → ℝ) (List (Fin n → ℝ)) (Fin N → Fin n → ℝ)} {res : ℝ} (hres : res ≤ 0) {name : String}
    {opts : FilterOptions (Fin n → ℝ)} (hn : parseFilter name = .ok .pf) {Fl : ∀ N, FilterOps (Fin n → ℝ) U (Fin m → ℝ) _ (Fin N → Fin n → ℝ)}
    (hF : ∀ N, 0 < N → mkFilter ((nlgMarkov N H o o0).toCallbacks (rest N)) N res name opts = .ok (Fl N)) {T : Option ℕ}
    {s0 : ℕ → PT (Fin n → ℝ) U (Fin m → ℝ)} (hs : ∀ N, 0 < N → PT.init N T 0 = .ok (s0 N)) (first : Option (Fin m → ℝ))
    (qs : List (Slot U × (Fin m → ℝ))) (hne : first = none → qs ≠ []) :
    ∃ z P ll, kfData o0.x0 o0.P0 (L.start first ++ L.data 0 qs) = .ok (z, P, ll) ∧ ∀ ε : ℝ, 0 < ε →
      Tendsto (fun N => runE (normals N n) (Fl N) (s0 N) (first.map .obj) (asSlots qs) (misses likEstimate (exp ll) ε)) atTop (nhds 0) ∧
      (∀ i, Tendsto (fun N => runE (normals N n) (Fl N) (s0 N) (first.map .obj) (asSlots qs)
        (misses (fun traj _ => lastMean (fun x => x i) traj) (z i) ε)) atTop (nhds 0)) ∧
      (∀ i j, Tendsto (fun N => runE (normals N n) (Fl N) (s0 N) (first.map .obj) (asSlots qs)
        (misses (fun traj _ => lastMean (fun x => (x i - z i) * (x j - z j)) traj) (P i j) ε)) atTop (nhds 0)) ∧
      ∀ φ : (Fin n → ℝ) → ℝ, Measurable φ → Integrable φ (gauss z P) →
        Tendsto (fun N => runE (normals N n) (Fl N) (s0 N) (first.map .obj) (asSlots qs)
          (misses (fun traj _ => lastMean φ traj) (∫ x, φ x ∂(gauss z P)) ε)) atTop (nhds 0) := by
  have hQ := fun t u => (nlg_posDef hL.describes t u 0).posSemidef
  have hR := fun t => nlg_out_posDef hL.describes t 0
  have hM := L.kernel_apply hQ
  haveI : ∀ k u, IsMarkovKernel (L.kernel k u) := fun k u => ⟨fun x => by rw [hM]; infer_instance⟩
  obtain ⟨z, P, ll, h1, h2, h3⟩ := C71_filter_exact o0.x0 o0.P0 hL.posDef.posSemidef (L.start first ++ L.data 0 qs) (by
    intro op h
    rcases List.mem_append.mp h with h | h
    · exact L.start_good hR first op h
    · exact L.data_good hQ hR qs 0 op h)
  have hK : ∀ N, 0 < N → IndepSamples (nlgMarkov N H o o0) IsObj (normals N n) N (gauss o0.x0 o0.P0) L.kernel L.lik := fun N _ =>
    nlg_indepSamples hL.describes o0 (nlg_create_pi hL.posDef hL.nonzero hL.diag N) hM L.lik_measurable
  have hv : ∀ g : (Fin n → ℝ) → ℝ≥0∞, Measurable g → exactValue (gauss o0.x0 o0.P0) L.kernel L.lik (first.map .obj) (asSlots qs) g =
      ENNReal.ofReal (exp ll) * ∫⁻ x, g x ∂(gauss z P) := by
    intro g hg
    rw [filtered_exactValue L hQ hM hg (gauss o0.x0 o0.P0) first qs, h3, lintegral_smul_measure, smul_eq_mul]
  have hv1 : exactValue (gauss o0.x0 o0.P0) L.kernel L.lik (first.map .obj) (asSlots qs) (fun _ => 1) = ENNReal.ofReal (exp ll) := by
    rw [hv _ measurable_const, MeasureTheory.lintegral_one, measure_univ, mul_one]
  have hfirst : ∀ y : Slot (Fin m → ℝ), first.map Slot.obj = some y → IsObj y := by
    intro y h
    cases first with
    | none => cases h
    | some v => cases h; exact ⟨_, rfl⟩
  have hne' : first.map (Slot.obj (α := Fin m → ℝ)) = none → asSlots qs ≠ [] := by
    intro h h'
    cases first with
    | none =>
      refine hne rfl ?_
      cases qs with
      | nil => rfl
      | cons => cases h'
    | some v => cases h
  have hfin : exactValue (gauss o0.x0 o0.P0) L.kernel L.lik (first.map .obj) (asSlots qs) (fun _ => 1) ≠ ∞ := by
    rw [hv1]; exact ENNReal.ofReal_ne_top
  refine ⟨z, P, ll, h1, fun ε hε => ?_⟩
  have main : ∀ φ : (Fin n → ℝ) → ℝ, Measurable φ → Integrable φ (gauss z P) →
        Tendsto (fun N => runE (normals N n) (Fl N) (s0 N) (first.map .obj) (asSlots qs)
          (misses (fun traj _ => lastMean φ traj) (∫ x, φ x ∂(gauss z P)) ε)) atTop (nhds 0) := by
    intro φ hφ hi
    have hφi : exactValue (gauss o0.x0 o0.P0) L.kernel L.lik (first.map .obj) (asSlots qs) (fun x => ENNReal.ofReal |φ x|) ≠ ∞ := by
      have hab : Measurable fun x => ENNReal.ofReal |φ x| := hφ.abs.ennreal_ofReal
      rw [hv _ hab]
      refine ENNReal.mul_ne_top ENNReal.ofReal_ne_top ?_
      have := hi.hasFiniteIntegral
      rw [hasFiniteIntegral_iff_norm] at this
      exact this.ne
    have h := C106_mean_consistent hK hres hn hF hs hfirst (asSlots_isObj qs) hne' hfin hφ hφi hε
    rwa [exactMean_gauss L hQ h3 hφ hi] at h
  refine ⟨?_, fun i => ?_, fun i j => ?_, main⟩
  · have h := C106_likelihood_consistent hK hres hn hF hs hfirst (asSlots_isObj qs) hne' hfin hε
    rwa [hv1, ENNReal.toReal_ofReal (exp_pos ll).le] at h
  · have h := main (fun x => x i) (by fun_prop) ((gauss_memLp z P i).integrable one_le_two)
    rwa [gauss_mean] at h
  · have hml : ∀ i, MemLp (fun x : Fin n → ℝ => x i - z i) 2 (gauss z P) := fun i => (gauss_memLp z P i).sub (memLp_const _)
    have h := main (fun x => (x i - z i) * (x j - z j)) (by fun_prop) ((hml i).integrable_mul (hml j))
    have hc := gauss_cov (μ := z) h2 i j
    rw [covariance] at hc
    simp only [gauss_mean] at hc
    rwa [hc] at h

/-- C108, smoothing: run the bootstrap filter with any number of particles and any resampling threshold on a linear Gaussian model, then
`perform_smoothing(M, 'ancestor')` or `perform_smoothing(M, 'full')` with the model's own `logp_xnext`; run the Kalman filter and
`KalmanSmoother.smooth` on the same record. The latter succeed, and the likelihood estimate times the average, over the trajectories, of any
non-negative `ψ` of the state at any one time has mean `exp(ll) E[ψ(X)]` with `X ~ N(zs, Ps)` the smoothed law of that state and `exp(ll)` the
likelihood that `utils/kalman.py` computes. -/
theorem C108_smoother_unbiased {H : NlgHooks n m (Slot U) ℕ} {o : NlgObj n m} {o0 : NlgX0 n} {L : LinearModel n m U} (hL : NlgIsLinear H o o0 L)
    (hone : Spec.TransExact H fun t u _ => L.Q t u)
    {N : ℕ} (hN : 0 < N) {rest : Callbacks (Fin n → ℝ) U (Fin m → ℝ) (List (Fin n → ℝ)) (Fin N → Fin n → ℝ)} {res : ℝ} {name : String}
    {opts : FilterOptions (Fin n → ℝ)} (hn : parseFilter name = .ok .pf) {Fl : FilterOps (Fin n → ℝ) U (Fin m → ℝ) _ _}
    (hF : mkFilter ((nlgMarkov N H o o0).toCallbacks rest) N res name opts = .ok Fl) {T : Option ℕ} {s0 : PT (Fin n → ℝ) U (Fin m → ℝ)}
    (hs : PT.init N T 0 = .ok s0)
    {srest : SmoothCallbacks (Fin n → ℝ) U (Fin m → ℝ) (List (Fin n → ℝ)) (Fin N → Fin n → ℝ)} (hps : NoPostprocessing srest)
    {k : ℕ} (hk : 0 < k) (user : Option SOpts) (d : AllDraws (Fin N → Fin n → ℝ)) (fuel : ℕ)
    {method : String} (hmethod : method = "ancestor" ∨ method = "full")
    (first : Option (Fin m → ℝ)) (pre post : List (Slot U × (Fin m → ℝ))) (hne : first = none → pre ++ post ≠ []) :
    ∃ z P l zs Ps zT PT ll, kfData o0.x0 o0.P0 (L.start first ++ L.data 0 pre) = .ok (z, P, l) ∧
      rtsData z P (L.data pre.length post) = .ok (zs, Ps) ∧
      kfData o0.x0 o0.P0 (L.start first ++ L.data 0 (pre ++ post)) = .ok (zT, PT, ll) ∧
      ∀ ψ : (Fin n → ℝ) → ℝ≥0∞, Measurable ψ →
        runE (normals N n) Fl s0 (first.map .obj) (asSlots (pre ++ post))
          (runWeighted (smoothE (ffbsi (nlgLogpXnext H o) srest) k method user d fuel (pathMean (fun x => ψ (x.getD pre.length 0)) k))) =
        ENNReal.ofReal (exp ll) * ∫⁻ x, ψ x ∂(gauss zs Ps) := by
  have hQ' := fun t u => nlg_posDef hL.describes t u 0
  have hQ := fun t u => (hQ' t u).posSemidef
  have hR := fun t => nlg_out_posDef hL.describes t 0
  have hM := L.kernel_apply hQ
  have hgood : ∀ op ∈ (L.start first ++ L.data 0 pre) ++ L.data pre.length post, op.Good := by
    intro op h
    rcases List.mem_append.mp h with h | h
    · rcases List.mem_append.mp h with h | h
      · exact L.start_good hR first op h
      · exact L.data_good hQ hR pre 0 op h
    · exact L.data_good hQ hR post _ op h
  obtain ⟨z, P, l, e1, e2⟩ := C71_smoother_exact o0.x0 o0.P0 hL.posDef.posSemidef (L.start first ++ L.data 0 pre) (L.data pre.length post) hgood
  obtain ⟨z', P', l', e1', ⟨r, e3⟩⟩ := C71_smoother_succeeds o0.x0 o0.P0 hL.posDef.posSemidef (L.start first ++ L.data 0 pre)
    (L.data pre.length post) hgood (L.data_strict hQ' post _)
  have e4 := Except.ok.inj (e1.symm.trans e1')
  cases e4
  rcases e2 with e2 | ⟨zs, Ps, zT, PT, ll, h1, h2, -, h3⟩
  · rw [e2] at e3; cases e3
  have hdata : L.start first ++ L.data 0 (pre ++ post) = (L.start first ++ L.data 0 pre) ++ L.data pre.length post := by
    rw [L.data_append, zero_add, List.append_assoc]
  refine ⟨z, P, l, zs, Ps, zT, PT, ll, e1, h1, by rw [hdata]; exact h2, fun ψ hψ => ?_⟩
  have hv := smoothed_paths L hQ hM hψ (gauss o0.x0 o0.P0) first pre post
  rw [h3, lintegral_smul_measure, smul_eq_mul] at hv
  rw [← hv]
  have hsmp := nlg_samples hL.describes o0 (N := N) (nlg_create_diag hL.posDef hL.nonzero hL.diag N) hM L.lik_measurable
  have hφ : ∀ j, Measurable fun x : Fin j → Fin n → ℝ => ψ ((List.ofFn x).getD pre.length 0) := by
    intro j
    refine hψ.comp ?_
    by_cases hj : pre.length < j
    · have : (fun x : Fin j → Fin n → ℝ => (List.ofFn x).getD pre.length 0) = fun x => x ⟨pre.length, hj⟩ := by
        funext x
        simp [List.getD_eq_getElem?_getD, hj]
      rw [this]
      exact measurable_pi_apply _
    · have : (fun x : Fin j → Fin n → ℝ => (List.ofFn x).getD pre.length 0) = fun _ => 0 := by
        funext x
        simp [List.getD_eq_getElem?_getD, hj]
      rw [this]
      exact measurable_const
  have hu : (∀ y0, IsObj y0 → ∫⁻ ω, stepsE (normals N n) (asSlots (pre ++ post)) (fun ds => runWeighted (smoothE (ffbsi (nlgLogpXnext H o) srest) k
        method user d fuel (pathMean (fun x => ψ (x.getD pre.length 0)) k)) (s0.run Fl (history (some (y0, ω)) ds))) ∂(normals N n) =
        ∫⁻ x, ENNReal.ofReal (exp (L.lik 0 y0 x)) * pathsE L.kernel L.lik (fun x => ψ (x.getD pre.length 0)) 0 (asSlots (pre ++ post)) [] x
          ∂(gauss o0.x0 o0.P0)) ∧
      (asSlots (pre ++ post) ≠ [] → stepsE (normals N n) (asSlots (pre ++ post)) (fun ds => runWeighted (smoothE (ffbsi (nlgLogpXnext H o) srest) k
        method user d fuel (pathMean (fun x => ψ (x.getD pre.length 0)) k)) (s0.run Fl (history none ds))) =
        ∫⁻ x, pathsE L.kernel L.lik (fun x => ψ (x.getD pre.length 0)) 0 (asSlots (pre ++ post)) [] x ∂(gauss o0.x0 o0.P0)) := by
    rcases hmethod with rfl | rfl
    · exact C92_ancestor_unbiased hN hsmp hn hF (S := ffbsi (nlgLogpXnext H o) srest) (fun D _ _ _ _ _ _ _ => rfl) hps hk user d fuel hφ hs _
        (asSlots_isObj _)
    · refine C93_backward_simulation_unbiased hN hsmp hn hF (nlg_logDensity hL.describes hone) (vol := volume) ?_ ?_ hps hk user d fuel hφ hs _
        (asSlots_isObj _)
      · intro t u x
        exact (continuous_logNormal (L.Q t u)).measurable.comp (by fun_prop)
      · intro t u x
        rw [hM, gauss_density (hQ' t u)]
        rfl
  cases first with
  | none =>
    simp only [runE, Option.map_none, startWeight, ENNReal.ofReal_one, one_mul]
    refine hu.2 fun h => hne rfl ?_
    exact List.map_eq_nil_iff.mp h
  | some y => exact hu.1 (.obj y) ⟨_, rfl⟩

end PyPE

import Verif.Linear.Smoothers
import Verif.Linear.Ltv

/-!
# C108 for pairs of successive states
-/

namespace PyPE
open Real Spec MeasureTheory ProbabilityTheory Matrix Filter
open scoped ENNReal

variable {n m : ℕ} {U V : Type}

section paths
variable {P Y : Type} [MeasurableSpace P] [Inhabited P]

theorem pathsE_before_two {M : ℕ → Slot U → Kernel P P} {ℓ : ℕ → Slot Y → P → ℝ} (hℓ : ∀ k y, Measurable (ℓ k y)) (ψ : P → P → ℝ≥0∞) (t t' : ℕ)
    (qs : List (Slot U × Slot Y)) (k : ℕ) (past : List P) (ht : t < past.length) (ht' : t' < past.length) (x : P) :
    pathsE M ℓ (fun l => ψ (l.getD t default) (l.getD t' default)) k qs past x = ψ (past.getD t default) (past.getD t' default) * pathE M ℓ (fun _ => 1) k qs x := by
  induction qs generalizing k past x with
  | nil => rw [pathsE, pathE, mul_one, List.getD_append _ _ _ _ ht, List.getD_append _ _ _ _ ht']
  | cons q qs ih =>
    have hm : Measurable fun x' => ENNReal.ofReal (exp (ℓ (k+1) q.2 x')) * pathE M ℓ (fun _ => 1) (k+1) qs x' :=
      (measurable_exp.comp (hℓ (k+1) q.2)).ennreal_ofReal.mul (pathE_measurable M hℓ measurable_const qs (k+1))
    rw [pathsE, pathE, ← lintegral_const_mul _ hm]
    refine lintegral_congr fun x' => ?_
    rw [ih (k+1) (past ++ [x]) (by simp; omega) (by simp; omega) x', List.getD_append _ _ _ _ ht, List.getD_append _ _ _ _ ht']
    ring

theorem pathsE_now_two {M : ℕ → Slot U → Kernel P P} {ℓ : ℕ → Slot Y → P → ℝ} (hℓ : ∀ k y, Measurable (ℓ k y)) (ψ : P → P → ℝ≥0∞)
    (qs : List (Slot U × Slot Y)) (k : ℕ) (past : List P) (t : ℕ) (ht : t < past.length) (x : P) :
    pathsE M ℓ (fun l => ψ (l.getD t default) (l.getD past.length default)) k qs past x = ψ (past.getD t default) x * pathE M ℓ (fun _ => 1) k qs x := by
  cases qs with
  | nil =>
    rw [pathsE, pathE, mul_one, List.getD_append _ _ _ _ ht]
    simp
  | cons q qs =>
    have hm : Measurable fun x' => ENNReal.ofReal (exp (ℓ (k+1) q.2 x')) * pathE M ℓ (fun _ => 1) (k+1) qs x' :=
      (measurable_exp.comp (hℓ (k+1) q.2)).ennreal_ofReal.mul (pathE_measurable M hℓ measurable_const qs (k+1))
    rw [pathsE, pathE, ← lintegral_const_mul _ hm]
    refine lintegral_congr fun x' => ?_
    rw [pathsE_before_two hℓ ψ t past.length qs (k+1) (past ++ [x]) (by simp; omega) (by simp) x', List.getD_append _ _ _ _ ht]
    simp only [List.getD_eq_getElem?_getD, List.getElem?_append_right (le_refl _), Nat.sub_self, List.getElem?_cons_zero, Option.getD_some]
    ring

/-- The integral of a function of the states at times `t` and `t+1` over all paths. -/
theorem pathsE_at_two {M : ℕ → Slot U → Kernel P P} {ℓ : ℕ → Slot Y → P → ℝ} (hℓ : ∀ k y, Measurable (ℓ k y)) (ψ : P → P → ℝ≥0∞)
    (pre : List (Slot U × Slot Y)) (q : Slot U × Slot Y) (post : List (Slot U × Slot Y)) (k : ℕ) (past : List P) (x : P) :
    pathsE M ℓ (fun l => ψ (l.getD (past.length + pre.length) default) (l.getD (past.length + pre.length + 1) default)) k (pre ++ q :: post) past x =
      pathE M ℓ (fun x => ∫⁻ x', ENNReal.ofReal (exp (ℓ (k + pre.length + 1) q.2 x')) * (ψ x x' * pathE M ℓ (fun _ => 1) (k + pre.length + 1) post x')
        ∂(M (k + pre.length) q.1 x)) k pre x := by
  induction pre generalizing k past x with
  | nil =>
    simp only [List.nil_append, List.length_nil, add_zero]
    rw [pathsE, pathE]
    refine lintegral_congr fun x' => ?_
    have h := pathsE_now_two (M := M) hℓ ψ post (k+1) (past ++ [x]) past.length (by simp) x'
    rw [List.length_append, List.length_singleton] at h
    rw [h]
    simp only [List.getD_eq_getElem?_getD, List.getElem?_append_right (le_refl _), Nat.sub_self, List.getElem?_cons_zero, Option.getD_some]
  | cons q' pre ih =>
    rw [List.cons_append, pathsE, pathE]
    refine lintegral_congr fun x' => ?_
    have h := ih (k+1) (past ++ [x]) x'
    rw [show (past ++ [x]).length + pre.length = past.length + (q' :: pre).length by simp; omega,
      show k + 1 + pre.length = k + (q' :: pre).length by simp; omega] at h
    rw [h]

end paths

/-- The value the smoothers estimate, for a function of the states at two successive times, is an integral over the joint smoothed law of those states. -/
theorem smoothedPair_paths (L : LinearModel n m U) (hQ : ∀ t u, (L.Q t u).PosSemidef)
    {M : ℕ → Slot U → Kernel (Fin n → ℝ) (Fin n → ℝ)} [∀ t u, IsSFiniteKernel (M t u)] (hM : ∀ t u x, M t u x = gauss (L.next t u x) (L.Q t u))
    {ψ : (Fin n → ℝ) → (Fin n → ℝ) → ℝ≥0∞} (hψ : Measurable fun p : (Fin n → ℝ) × (Fin n → ℝ) => ψ p.1 p.2) (μ : Measure (Fin n → ℝ)) [SFinite μ]
    (first : Option (Fin m → ℝ)) (pre : List (Slot U × (Fin m → ℝ))) (q : Slot U × (Fin m → ℝ)) (post : List (Slot U × (Fin m → ℝ))) :
    ∫⁻ x, ENNReal.ofReal (startWeight L.lik (first.map .obj) x) *
        pathsE M L.lik (fun l => ψ (l.getD pre.length default) (l.getD (pre.length + 1) default)) 0 (asSlots (pre ++ q :: post)) [] x ∂μ =
      ∫⁻ p, ψ p.1 p.2 ∂(smoothedPair μ (L.start first ++ L.data 0 pre) (.move (L.A pre.length q.1) (L.f pre.length q.1) (L.Q pre.length q.1))
        (.meas m (L.C (pre.length+1)) (L.h (pre.length+1)) (L.R (pre.length+1)) q.2 :: L.data (pre.length+1) post)) := by
  obtain ⟨t, ht⟩ : ∃ t, t = pre.length := ⟨_, rfl⟩
  have hpm : Measurable (pathE M L.lik (fun _ => 1) (t+1) (asSlots post)) :=
    pathE_measurable M L.lik_measurable measurable_const (asSlots post) _
  have hlm : Measurable (Spec.likelihood (L.C (t+1)) (L.h (t+1)) (L.R (t+1)) q.2) := measurable_likelihood _ _ _ _
  have hin : Measurable fun p : (Fin n → ℝ) × (Fin n → ℝ) => Spec.likelihood (L.C (t+1)) (L.h (t+1)) (L.R (t+1)) q.2 p.2 *
      (ψ p.1 p.2 * pathE M L.lik (fun _ => 1) (t+1) (asSlots post) p.2) :=
    (hlm.comp measurable_snd).mul (hψ.mul (hpm.comp measurable_snd))
  have hφ : Measurable fun x => ∫⁻ x', Spec.likelihood (L.C (t+1)) (L.h (t+1)) (L.R (t+1)) q.2 x' *
      (ψ x x' * pathE M L.lik (fun _ => 1) (t+1) (asSlots post) x') ∂(M t q.1 x) := hin.lintegral_kernel_prod_right'
  have h1 : ∀ x, pathsE M L.lik (fun l => ψ (l.getD pre.length default) (l.getD (pre.length + 1) default)) 0 (asSlots (pre ++ q :: post)) [] x =
      pathE M L.lik (fun x => ∫⁻ x', Spec.likelihood (L.C (t+1)) (L.h (t+1)) (L.R (t+1)) q.2 x' *
        (ψ x x' * pathE M L.lik (fun _ => 1) (t+1) (asSlots post) x') ∂(M t q.1 x)) 0 (asSlots pre) x := by
    intro x
    have h := pathsE_at_two (M := M) L.lik_measurable ψ (asSlots pre) (q.1, .obj q.2) (asSlots post) 0 [] x
    simp only [List.length_nil, zero_add, asSlots, List.length_map, L.lik_likelihood] at h
    rw [asSlots, List.map_append, List.map_cons, h, ht]
    rfl
  simp only [h1]
  have h2 := filtered_exactValue L hQ hM hφ μ first pre
  rw [exactValue] at h2
  rw [h2, ← ht]
  obtain ⟨η, hη⟩ : ∃ η, η = filtered μ (L.start first ++ L.data 0 pre) := ⟨_, rfl⟩
  haveI : SFinite η := by
    rw [hη]
    haveI := sfinite_follow (L.start first ++ L.data 0 pre) (μ.map fun x => ((), x))
    unfold filtered
    infer_instance
  rw [smoothedPair, ← hη, lintegral_map hψ measurable_fst]
  have hr : Measurable fun x : Fin n → ℝ => (x, x) := by fun_prop
  have hd : Measurable fun p : (Fin n → ℝ) × (Fin n → ℝ) => (p, p.2) := by fun_prop
  have hA : Measurable (fun x : Fin n → ℝ => L.A t q.1 *ᵥ x) := Continuous.measurable (by fun_prop)
  have hst : Measurable fun p : ((Fin n → ℝ) × (Fin n → ℝ)) × (Fin n → ℝ) => (p.1.1, L.A t q.1 *ᵥ p.1.2 + L.f t q.1 + p.2) :=
    (measurable_fst.comp measurable_fst).prodMk (((hA.comp (measurable_snd.comp measurable_fst)).add_const _).add measurable_snd)
  haveI : SFinite (remember η) := by unfold remember; infer_instance
  have hw : Measurable fun p : ((Fin n → ℝ) × (Fin n → ℝ)) × (Fin n → ℝ) => Spec.likelihood (L.C (t+1)) (L.h (t+1)) (L.R (t+1)) q.2 p.2 := hlm.comp measurable_snd
  simp only [Spec.follow]
  have h3 := follow_pathE (S := (Fin n → ℝ) × (Fin n → ℝ)) L hQ hM (φ := fun _ => 1) measurable_const (Φ := fun p => ψ p.1 p.2) hψ post (t+1)
    (((((remember η).prod (gauss 0 (L.Q t q.1))).map fun p => (p.1.1, L.A t q.1 *ᵥ p.1.2 + L.f t q.1 + p.2)).map fun p => (p, p.2)).withDensity
      fun p => Spec.likelihood (L.C (t+1)) (L.h (t+1)) (L.R (t+1)) q.2 p.2)
  simp only [mul_one] at h3
  rw [← h3]
  have hg : Measurable fun p : ((Fin n → ℝ) × (Fin n → ℝ)) × (Fin n → ℝ) => ψ p.1.1 p.1.2 * pathE M L.lik (fun _ => 1) (t+1) (asSlots post) p.2 :=
    (hψ.comp measurable_fst).mul (hpm.comp measurable_snd)
  rw [lintegral_withDensity_eq_lintegral_mul _ hw hg]
  simp only [Pi.mul_apply]
  rw [lintegral_map (f := fun p : ((Fin n → ℝ) × (Fin n → ℝ)) × (Fin n → ℝ) => Spec.likelihood (L.C (t+1)) (L.h (t+1)) (L.R (t+1)) q.2 p.2 *
    (ψ p.1.1 p.1.2 * pathE M L.lik (fun _ => 1) (t+1) (asSlots post) p.2)) (hw.mul hg) hd]
  rw [lintegral_map (f := fun p : (Fin n → ℝ) × (Fin n → ℝ) => Spec.likelihood (L.C (t+1)) (L.h (t+1)) (L.R (t+1)) q.2 p.2 *
    (ψ p.1 p.2 * pathE M L.lik (fun _ => 1) (t+1) (asSlots post) p.2)) hin hst]
  rw [lintegral_prod (fun a : ((Fin n → ℝ) × (Fin n → ℝ)) × (Fin n → ℝ) => Spec.likelihood (L.C (t+1)) (L.h (t+1)) (L.R (t+1)) q.2 (L.A t q.1 *ᵥ a.1.2 + L.f t q.1 + a.2) *
    (ψ a.1.1 (L.A t q.1 *ᵥ a.1.2 + L.f t q.1 + a.2) * pathE M L.lik (fun _ => 1) (t+1) (asSlots post) (L.A t q.1 *ᵥ a.1.2 + L.f t q.1 + a.2))) ((hin.comp hst).aemeasurable)]
  have hout : Measurable fun a : (Fin n → ℝ) × (Fin n → ℝ) => ∫⁻ v, Spec.likelihood (L.C (t+1)) (L.h (t+1)) (L.R (t+1)) q.2 (L.A t q.1 *ᵥ a.2 + L.f t q.1 + v) *
    (ψ a.1 (L.A t q.1 *ᵥ a.2 + L.f t q.1 + v) * pathE M L.lik (fun _ => 1) (t+1) (asSlots post) (L.A t q.1 *ᵥ a.2 + L.f t q.1 + v)) ∂(gauss 0 (L.Q t q.1)) :=
    (hin.comp hst).lintegral_prod_right'
  rw [remember, lintegral_map hout hr]
  refine lintegral_congr fun x => ?_
  have hadd : Measurable fun v : Fin n → ℝ => L.next t q.1 x + v := by fun_prop
  have hψx : Measurable fun x' : Fin n → ℝ => ψ x x' := hψ.comp (measurable_prodMk_left (x := x))
  have hx : Measurable fun x' : Fin n → ℝ => Spec.likelihood (L.C (t+1)) (L.h (t+1)) (L.R (t+1)) q.2 x' *
      (ψ x x' * pathE M L.lik (fun _ => 1) (t+1) (asSlots post) x') := hlm.mul (hψx.mul hpm)
  rw [hM, ← gauss_shift (hQ t q.1) (L.next t q.1 x), lintegral_map hx hadd]
  simp only [Spec.LinearModel.next]

/-- C108 for pairs: what a smoother has to estimate on a linear Gaussian model for a function of the states at two successive times is the likelihood times the integral over the normal
law with the smoothed means and covariances and the cross covariance that `KalmanSmoother.smooth` returns. -/
theorem linear_smoothedPair {H : NlgHooks n m (Slot U) ℕ} {o : NlgObj n m} {o0 : NlgX0 n} {L : LinearModel n m U} (hL : NlgIsLinear H o o0 L)
    (first : Option (Fin m → ℝ)) (pre : List (Slot U × (Fin m → ℝ))) (q : Slot U × (Fin m → ℝ)) (post : List (Slot U × (Fin m → ℝ))) :
    ∃ z P l zn Pn zs Ps C zT PT ll, kfData o0.x0 o0.P0 (L.start first ++ L.data 0 pre) = .ok (z, P, l) ∧
      rtsData (predictFull z P (L.A pre.length q.1) (L.f pre.length q.1) (L.Q pre.length q.1)).1 (predictFull z P (L.A pre.length q.1) (L.f pre.length q.1) (L.Q pre.length q.1)).2
        (.meas m (L.C (pre.length+1)) (L.h (pre.length+1)) (L.R (pre.length+1)) q.2 :: L.data (pre.length+1) post) = .ok (zn, Pn) ∧
      kalmanSmooth z P zn Pn (L.A pre.length q.1) (L.f pre.length q.1) (L.Q pre.length q.1) = .ok (zs, Ps, C) ∧
      kfData o0.x0 o0.P0 (L.start first ++ L.data 0 (pre ++ q :: post)) = .ok (zT, PT, ll) ∧
      ∀ ψ : (Fin n → ℝ) → (Fin n → ℝ) → ℝ≥0∞, Measurable (fun p : (Fin n → ℝ) × (Fin n → ℝ) => ψ p.1 p.2) →
        ∫⁻ x, ENNReal.ofReal (startWeight L.lik (first.map .obj) x) *
          pathsE L.kernel L.lik (fun l => ψ (l.getD pre.length 0) (l.getD (pre.length + 1) 0)) 0 (asSlots (pre ++ q :: post)) [] x ∂(gauss o0.x0 o0.P0) =
        ENNReal.ofReal (exp ll) * ∫⁻ v : Fin n ⊕ Fin n → ℝ, ψ (fun i => v (.inl i)) (fun i => v (.inr i)) ∂(gauss (Sum.elim zs zn) (fromBlocks Ps C Cᵀ Pn)) := by
  have hQ' := fun t u => nlg_posDef hL.describes t u 0
  have hQ := fun t u => (hQ' t u).posSemidef
  have hR := fun t => nlg_out_posDef hL.describes t 0
  have hM := L.kernel_apply hQ
  have hgood : ∀ op ∈ (L.start first ++ L.data 0 pre) ++ L.data pre.length (q :: post), op.Good := by
    intro op h
    rcases List.mem_append.mp h with h | h
    · rcases List.mem_append.mp h with h | h
      · exact L.start_good hR first op h
      · exact L.data_good hQ hR pre 0 op h
    · exact L.data_good hQ hR (q :: post) _ op h
  obtain ⟨z, P, l, e1, ⟨r, e3⟩⟩ := C71_smoother_succeeds o0.x0 o0.P0 hL.posDef.posSemidef (L.start first ++ L.data 0 pre)
    (L.data pre.length (q :: post)) hgood (L.data_strict hQ' (q :: post) _)
  rw [Spec.LinearModel.data, rtsData] at e3
  obtain ⟨⟨zn, Pn⟩, e4, e5⟩ := bind_eq_ok.mp e3
  obtain ⟨⟨zs, Ps, C⟩, e6, -⟩ := bind_eq_ok.mp e5
  have hdata : L.start first ++ L.data 0 (pre ++ q :: post) = (L.start first ++ L.data 0 pre) ++ L.data pre.length (q :: post) := by
    rw [L.data_append, zero_add, List.append_assoc]
  obtain ⟨zT, PT, ll, h2, h3⟩ := C71_pair_exact o0.x0 o0.P0 hL.posDef.posSemidef (L.start first ++ L.data 0 pre)
    (.meas m (L.C (pre.length+1)) (L.h (pre.length+1)) (L.R (pre.length+1)) q.2 :: L.data (pre.length+1) post) _ _ _ hgood e1 e4 e6
  refine ⟨z, P, l, zn, Pn, zs, Ps, C, zT, PT, ll, e1, e4, e6, by rw [hdata]; exact h2, fun ψ hψ => ?_⟩
  haveI : ∀ k u, IsMarkovKernel (L.kernel k u) := fun k u => ⟨fun x => by rw [hM]; infer_instance⟩
  have hv := smoothedPair_paths L hQ hM hψ (gauss o0.x0 o0.P0) first pre q post
  rw [h3, lintegral_smul_measure, smul_eq_mul, lintegral_map hψ (MeasurableEquiv.measurable _)] at hv
  exact hv

/-- A function of the states at two times is a measurable function of the path. -/
theorem measurable_statesAt {ψ : (Fin n → ℝ) → (Fin n → ℝ) → ℝ≥0∞} (hψ : Measurable fun p : (Fin n → ℝ) × (Fin n → ℝ) => ψ p.1 p.2) (t t' j : ℕ) :
    Measurable fun x : Fin j → Fin n → ℝ => ψ ((List.ofFn x).getD t 0) ((List.ofFn x).getD t' 0) := by
  have h : ∀ t, Measurable fun x : Fin j → Fin n → ℝ => (List.ofFn x).getD t 0 := by
    intro t
    by_cases hj : t < j
    · have : (fun x : Fin j → Fin n → ℝ => (List.ofFn x).getD t 0) = fun x => x ⟨t, hj⟩ := by
        funext x
        simp [List.getD_eq_getElem?_getD, hj]
      rw [this]
      exact measurable_pi_apply _
    · have : (fun x : Fin j → Fin n → ℝ => (List.ofFn x).getD t 0) = fun _ => 0 := by
        funext x
        simp [List.getD_eq_getElem?_getD, hj]
      rw [this]
      exact measurable_const
  exact hψ.comp ((h t).prodMk (h t'))

/-- C108, pairs of successive states: run the bootstrap filter with any number of particles and any resampling threshold on a linear Gaussian model, then
`perform_smoothing(M, 'ancestor')` or `perform_smoothing(M, 'full')`. The likelihood estimate times the average, over the trajectories, of any non-negative `ψ(x_t, x_{t+1})` has mean
`exp(ll) E[ψ(X, X')]`, where `(X, X')` is jointly normal with the smoothed means and covariances and with the cross covariance, the third value, that `KalmanSmoother.smooth`
returns: the particle and the Kalman version of the statistics that EM uses agree. -/
theorem C108_smoother_pairs {H : NlgHooks n m (Slot U) ℕ} {o : NlgObj n m} {o0 : NlgX0 n} {L : LinearModel n m U} (hL : NlgIsLinear H o o0 L)
    (hone : Spec.TransExact H fun t u _ => L.Q t u)
    {N : ℕ} (hN : 0 < N) {rest : Callbacks (Fin n → ℝ) U (Fin m → ℝ) (List (Fin n → ℝ)) (Fin N → Fin n → ℝ)} {res : ℝ} {name : String}
    {opts : FilterOptions (Fin n → ℝ)} (hn : parseFilter name = .ok .pf) {Fl : FilterOps (Fin n → ℝ) U (Fin m → ℝ) _ _}
    (hF : mkFilter ((nlgMarkov N H o o0).toCallbacks rest) N res name opts = .ok Fl) {T : Option ℕ} {s0 : PT (Fin n → ℝ) U (Fin m → ℝ)}
    (hs : PT.init N T 0 = .ok s0)
    {srest : SmoothCallbacks (Fin n → ℝ) U (Fin m → ℝ) (List (Fin n → ℝ)) (Fin N → Fin n → ℝ)} (hps : NoPostprocessing srest)
    {k : ℕ} (hk : 0 < k) (user : Option SOpts) (d : AllDraws (Fin N → Fin n → ℝ)) (fuel : ℕ)
    {method : String} (hmethod : method = "ancestor" ∨ method = "full")
    (first : Option (Fin m → ℝ)) (pre : List (Slot U × (Fin m → ℝ))) (q : Slot U × (Fin m → ℝ)) (post : List (Slot U × (Fin m → ℝ))) :
    ∃ z P l zn Pn zs Ps C zT PT ll, kfData o0.x0 o0.P0 (L.start first ++ L.data 0 pre) = .ok (z, P, l) ∧
      rtsData (predictFull z P (L.A pre.length q.1) (L.f pre.length q.1) (L.Q pre.length q.1)).1 (predictFull z P (L.A pre.length q.1) (L.f pre.length q.1) (L.Q pre.length q.1)).2
        (.meas m (L.C (pre.length+1)) (L.h (pre.length+1)) (L.R (pre.length+1)) q.2 :: L.data (pre.length+1) post) = .ok (zn, Pn) ∧
      kalmanSmooth z P zn Pn (L.A pre.length q.1) (L.f pre.length q.1) (L.Q pre.length q.1) = .ok (zs, Ps, C) ∧
      kfData o0.x0 o0.P0 (L.start first ++ L.data 0 (pre ++ q :: post)) = .ok (zT, PT, ll) ∧
      ∀ ψ : (Fin n → ℝ) → (Fin n → ℝ) → ℝ≥0∞, Measurable (fun p : (Fin n → ℝ) × (Fin n → ℝ) => ψ p.1 p.2) →
        runE (normals N n) Fl s0 (first.map .obj) (asSlots (pre ++ q :: post))
          (runWeighted (smoothE (ffbsi (nlgLogpXnext H o) srest) k method user d fuel (pathMean (fun x => ψ (x.getD pre.length 0) (x.getD (pre.length + 1) 0)) k))) =
        ENNReal.ofReal (exp ll) * ∫⁻ v : Fin n ⊕ Fin n → ℝ, ψ (fun i => v (.inl i)) (fun i => v (.inr i)) ∂(gauss (Sum.elim zs zn) (fromBlocks Ps C Cᵀ Pn)) := by
  obtain ⟨z, P, l, zn, Pn, zs, Ps, C, zT, PT, ll, e1, e2, e3, e4, hv⟩ := linear_smoothedPair hL first pre q post
  refine ⟨z, P, l, zn, Pn, zs, Ps, C, zT, PT, ll, e1, e2, e3, e4, fun ψ hψ => ?_⟩
  rw [← hv ψ hψ]
  have hQ' := fun t u => nlg_posDef hL.describes t u 0
  have hM := L.kernel_apply fun t u => (hQ' t u).posSemidef
  have hsmp := nlg_samples hL.describes o0 (N := N) (nlg_create_diag hL.posDef hL.nonzero hL.diag N) hM L.lik_measurable
  have hφ := fun j => measurable_statesAt hψ pre.length (pre.length + 1) j
  refine runE_of_starts (G := fun _ => runWeighted (smoothE (ffbsi (nlgLogpXnext H o) srest) k method user d fuel
      (pathMean (fun x => ψ (x.getD pre.length 0) (x.getD (pre.length + 1) 0)) k))) ?_ _ (obj_isObj first) fun _ => asSlots_ne_nil (by simp)
  rcases hmethod with rfl | rfl
  · exact C92_ancestor_unbiased hN hsmp hn hF (S := ffbsi (nlgLogpXnext H o) srest) (fun D _ _ _ _ _ _ _ => rfl) hps hk user d fuel
      (φ := fun x => ψ (x.getD pre.length 0) (x.getD (pre.length + 1) 0)) hφ hs _ (asSlots_isObj _)
  · refine C93_backward_simulation_unbiased hN hsmp hn hF (nlg_logDensity hL.describes hone) (vol := volume) ?_ ?_ hps hk user d fuel
      (φ := fun x => ψ (x.getD pre.length 0) (x.getD (pre.length + 1) 0)) hφ hs _ (asSlots_isObj _)
    · intro t u x
      exact (continuous_logNormal (L.Q t u)).measurable.comp (by fun_prop)
    · intro t u x
      rw [hM, gauss_density (hQ' t u)]
      rfl

/-! ### Concrete cases -/

/-- C108 on the model of `nlgLikToy`: 7 particles, threshold 2/3; the auxiliary filter and 'ancestor', the squared norm of the state after `pre`. -/
example (rest : Callbacks (Fin 2 → ℝ) ℝ (Fin 2 → ℝ) (List (Fin 2 → ℝ)) (Fin 7 → Fin 2 → ℝ)) (y0 : Fin 2 → ℝ)
    (pre post : List (Slot ℝ × (Fin 2 → ℝ))) (srest : SmoothCallbacks (Fin 2 → ℝ) ℝ (Fin 2 → ℝ) (List (Fin 2 → ℝ)) (Fin 7 → Fin 2 → ℝ))
    (d : AllDraws (Fin 7 → Fin 2 → ℝ)) :
    ∃ (o : NlgObj 2 2) (Fl : _) (s0 : PT (Fin 2 → ℝ) ℝ (Fin 2 → ℝ)) (z : Fin 2 → ℝ) (P : Matrix (Fin 2) (Fin 2) ℝ) (l : ℝ) (zs : Fin 2 → ℝ)
      (Ps : Matrix (Fin 2) (Fin 2) ℝ) (zT : Fin 2 → ℝ) (PT' : Matrix (Fin 2) (Fin 2) ℝ) (ll : ℝ), nlgInit none none (some 1) (some 1) = .ok o ∧
      mkFilter ((nlgMarkov 7 nlgLikToy o ⟨0, 1⟩).toCallbacks (nlgApfRest nlgLikToy o rest)) 7 (2/3) "apf" .none = .ok Fl ∧ PT.init 7 none 0 = .ok s0 ∧
      kfData 0 1 (halfModel.start (some y0) ++ halfModel.data 0 pre) = .ok (z, P, l) ∧
      rtsData z P (halfModel.data pre.length post) = .ok (zs, Ps) ∧
      kfData 0 1 (halfModel.start (some y0) ++ halfModel.data 0 (pre ++ post)) = .ok (zT, PT', ll) ∧
      runE (normals 7 2) Fl s0 (some (.obj y0)) (asSlots (pre ++ post))
        (apfWeighted (nlgPredicted halfModel.next halfModel.seen fun t _ => halfModel.R t) halfModel.lik (smoothE (ffbsi (nlgLogpXnext nlgLikToy o) { srest with postSmoothing := none }) 3 "ancestor" none d 0
          (pathMean (fun x => ENNReal.ofReal ((x.getD pre.length 0) ⬝ᵥ (x.getD pre.length 0))) 3)) (some (.obj y0)) (asSlots (pre ++ post))) =
        ENNReal.ofReal (exp ll) * ∫⁻ x, ENNReal.ofReal (x ⬝ᵥ x) ∂(gauss zs Ps) := by
  obtain ⟨o, ho, hL⟩ := halfModel_linear
  have hn : parseFilter "apf" = .ok .apf := by
    have : "apf".toLower = "apf" := by decide +kernel
    have e : ¬ ("apf" = "pf") := by decide +kernel
    simp [parseFilter, this, e]
  have hmk : ∀ C : Callbacks (Fin 2 → ℝ) ℝ (Fin 2 → ℝ) (List (Fin 2 → ℝ)) (Fin 7 → Fin 2 → ℝ), mkFilter C 7 (2/3) "apf" .none = .ok (apfOps C (2/3)) := by
    intro C
    unfold mkFilter
    rw [hn, ok_bind]; rfl
  obtain ⟨z, P, l, zs, Ps, zT, PT', ll, h1, h2, h3, h4⟩ := C108_auxiliary_smoother hL (.inl (by norm_num)) (N := 7) (by norm_num)
    hn (hmk _) (T := none) rfl (srest := { srest with postSmoothing := none }) (fun _ => rfl) (k := 3) (by norm_num) none d 0
    (method := "ancestor") (.inl rfl) (some y0) pre post (by simp) (rest := rest)
  exact ⟨o, _, _, z, P, l, zs, Ps, zT, PT', ll, ho, hmk _, rfl, h1, h2, h3, h4 (fun x => ENNReal.ofReal (x ⬝ᵥ x)) (by fun_prop)⟩

/-- The other smoothers on the same model with the default options, 25 particles. -/
example (rest : Callbacks (Fin 2 → ℝ) ℝ (Fin 2 → ℝ) (List (Fin 2 → ℝ)) (Fin 25 → Fin 2 → ℝ)) (y0 : Fin 2 → ℝ)
    (pre post : List (Slot ℝ × (Fin 2 → ℝ))) (srest : SmoothCallbacks (Fin 2 → ℝ) ℝ (Fin 2 → ℝ) (List (Fin 2 → ℝ)) (Fin 25 → Fin 2 → ℝ))
    (d : AllDraws (Fin 25 → Fin 2 → ℝ)) :
    ∃ (o : NlgObj 2 2) (Fl : _) (s0 : PT (Fin 2 → ℝ) ℝ (Fin 2 → ℝ)) (z : Fin 2 → ℝ) (P : Matrix (Fin 2) (Fin 2) ℝ) (l : ℝ) (zs : Fin 2 → ℝ)
      (Ps : Matrix (Fin 2) (Fin 2) ℝ) (zT : Fin 2 → ℝ) (PT' : Matrix (Fin 2) (Fin 2) ℝ) (ll : ℝ), nlgInit none none (some 1) (some 1) = .ok o ∧
      mkFilter ((nlgMarkov 25 nlgLikToy o ⟨0, 1⟩).toCallbacks rest) 25 (2/3) "PF" .none = .ok Fl ∧ PT.init 25 none 0 = .ok s0 ∧
      kfData 0 1 (halfModel.start (some y0) ++ halfModel.data 0 pre) = .ok (z, P, l) ∧
      rtsData z P (halfModel.data pre.length post) = .ok (zs, Ps) ∧
      kfData 0 1 (halfModel.start (some y0) ++ halfModel.data 0 (pre ++ post)) = .ok (zT, PT', ll) ∧
      runE (normals 25 2) Fl s0 (some (.obj y0)) (asSlots (pre ++ post))
        (runWeighted (smoothRoundsE 2 (ffbsiRS (nlgLogpXnext nlgLikToy o) (nlgLogpXnextMax nlgLikToy o) { srest with postSmoothing := none }) 3 "rs" none d 0
          (pathMean (fun x => ENNReal.ofReal ((x.getD pre.length 0) ⬝ᵥ (x.getD pre.length 0))) 3))) =
        ENNReal.ofReal (exp ll) * ∫⁻ x, ENNReal.ofReal (x ⬝ᵥ x) ∂(gauss zs Ps) ∧
      runE (normals 25 2) Fl s0 (some (.obj y0)) (asSlots (pre ++ post))
        (runWeighted (smoothRoundsE 30 (ffbsi (nlgLogpXnext nlgLikToy o) { srest with postSmoothing := none }) 3 "mcmc" none d 0
          (pathMean (fun x => ENNReal.ofReal ((x.getD pre.length 0) ⬝ᵥ (x.getD pre.length 0))) 3))) =
        ENNReal.ofReal (exp ll) * ∫⁻ x, ENNReal.ofReal (x ⬝ᵥ x) ∂(gauss zs Ps) := by
  obtain ⟨o, ho, hL⟩ := halfModel_linear
  have hn : parseFilter "PF" = .ok .pf := by
    have : "PF".toLower = "pf" := by decide +kernel
    simp [parseFilter, this]
  obtain ⟨z, P, l, zs, Ps, zT, PT', ll, h1, h2, h3, h4⟩ := C108_other_smoothers hL (.inl (by norm_num)) (N := 25) (by norm_num)
    hn (mkFilter_pf _ 25 (2/3) hn .none) (T := none) rfl (srest := { srest with postSmoothing := none }) (fun _ => rfl) (k := 3) (by norm_num) none rfl d
    (some y0) pre post (by simp) (rest := rest)
  obtain ⟨k1, k2, -⟩ := h4 (fun x => ENNReal.ofReal (x ⬝ᵥ x)) (by fun_prop)
  exact ⟨o, _, _, z, P, l, zs, Ps, zT, PT', ll, ho, mkFilter_pf _ 25 (2/3) hn .none, rfl, h1, h2, h3, k2 0, k1 0 30 rfl⟩

/-- Pairs on the same model: the product of the first coordinates of two successive states (the positive part of it, as `ψ` is non-negative). -/
example (rest : Callbacks (Fin 2 → ℝ) ℝ (Fin 2 → ℝ) (List (Fin 2 → ℝ)) (Fin 7 → Fin 2 → ℝ)) (y0 : Fin 2 → ℝ)
    (pre post : List (Slot ℝ × (Fin 2 → ℝ))) (q : Slot ℝ × (Fin 2 → ℝ)) (srest : SmoothCallbacks (Fin 2 → ℝ) ℝ (Fin 2 → ℝ) (List (Fin 2 → ℝ)) (Fin 7 → Fin 2 → ℝ))
    (d : AllDraws (Fin 7 → Fin 2 → ℝ)) :
    ∃ (o : NlgObj 2 2) (Fl : _) (s0 : PT (Fin 2 → ℝ) ℝ (Fin 2 → ℝ)) (zn : Fin 2 → ℝ) (Pn : Matrix (Fin 2) (Fin 2) ℝ) (zs : Fin 2 → ℝ)
      (Ps C : Matrix (Fin 2) (Fin 2) ℝ) (zT : Fin 2 → ℝ) (PT' : Matrix (Fin 2) (Fin 2) ℝ) (ll : ℝ), nlgInit none none (some 1) (some 1) = .ok o ∧
      mkFilter ((nlgMarkov 7 nlgLikToy o ⟨0, 1⟩).toCallbacks rest) 7 (2/3) "PF" .none = .ok Fl ∧ PT.init 7 none 0 = .ok s0 ∧
      kfData 0 1 (halfModel.start (some y0) ++ halfModel.data 0 (pre ++ q :: post)) = .ok (zT, PT', ll) ∧
      runE (normals 7 2) Fl s0 (some (.obj y0)) (asSlots (pre ++ q :: post))
        (runWeighted (smoothE (ffbsi (nlgLogpXnext nlgLikToy o) { srest with postSmoothing := none }) 3 "full" none d 0
          (pathMean (fun x => ENNReal.ofReal ((x.getD pre.length 0) 0 * (x.getD (pre.length + 1) 0) 0)) 3))) =
        ENNReal.ofReal (exp ll) * ∫⁻ v : Fin 2 ⊕ Fin 2 → ℝ, ENNReal.ofReal (v (.inl 0) * v (.inr 0)) ∂(gauss (Sum.elim zs zn) (fromBlocks Ps C Cᵀ Pn)) := by
  obtain ⟨o, ho, hL⟩ := halfModel_linear
  have hn : parseFilter "PF" = .ok .pf := by
    have : "PF".toLower = "pf" := by decide +kernel
    simp [parseFilter, this]
  obtain ⟨z, P, l, zn, Pn, zs, Ps, C, zT, PT', ll, h1, h2, h3, h5, h4⟩ := C108_smoother_pairs hL (.inl (by norm_num)) (N := 7) (by norm_num)
    hn (mkFilter_pf _ 7 (2/3) hn .none) (T := none) rfl (srest := { srest with postSmoothing := none }) (fun _ => rfl) (k := 3) (by norm_num) none d 0
    (method := "full") (.inr rfl) (some y0) pre q post (rest := rest)
  exact ⟨o, _, _, zn, Pn, zs, Ps, C, zT, PT', ll, ho, mkFilter_pf _ 7 (2/3) hn .none, rfl, h5, h4 (fun x x' => ENNReal.ofReal (x 0 * x' 0)) (by fun_prop)⟩

end PyPE

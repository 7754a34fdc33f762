import Verif.Param.EmAscent
import Verif.Smooth.BsiUnbiased

/-!
# C116 for every backward simulator, and for the SIR filter
-/

namespace PyPE
open Real Spec MeasureTheory ProbabilityTheory
open scoped ENNReal

variable {P U Y V Ω : Type}

/-- `Spec.objectiveE` for a smoother given by `smooth f s`: the expectation, over the draws of the smoother, of `f` of what it returns on the finished run `s`. -/
noncomputable def Spec.objectiveBy [MeasurableSpace Ω] (ν : Measure Ω) (s0 : PT P U Y) (F : FilterOps P U Y V Ω) (first : Option (Slot Y))
    (qs : List (Slot U × Slot Y)) (smooth : (PyM (Option (List (SStep P))) → ℝ≥0∞) → PT P U Y → ℝ≥0∞)
    (evalY : List P → Slot Y → ℕ → PyM (List ℝ)) (evalX : List P → List P → Slot U → ℕ → PyM (List ℝ)) (evalX0 : List P → ℕ → PyM (List ℝ)) (c : ℝ) : ℝ≥0∞ :=
  estimateE ν s0 F first qs fun s => smooth (objMean c (trajFval evalY evalX evalX0 ⟨s.uvec, s.yvec, s.tvec⟩)) s

theorem backDrawsE_ext (R n : ℕ) {f f' : (ℕ → List Attempt × (ℕ → ℝ)) → ℝ≥0∞} (h : ∀ a, f a = f' a) : backDrawsE R n f = backDrawsE R n f' := by
  rw [show f = f' from funext h]

/-- The smoother returns `m` trajectories as long as the run. -/
def SmoothsTo (smooth : (PyM (Option (List (SStep P))) → ℝ≥0∞) → PT P U Y → ℝ≥0∞) (m : ℕ) : Prop :=
  ∀ (s : PT P U Y) f f', (∀ r : PyM (Option (List (SStep P))), (∀ traj, r = .ok (some traj) → Shape traj s.traj.length m) → f r = f' r) →
    smooth f s = smooth f' s

/-- `SmoothsTo` for runs of `n` steps. -/
def SmoothsAt (smooth : (PyM (Option (List (SStep P))) → ℝ≥0∞) → PT P U Y → ℝ≥0∞) (m n : ℕ) : Prop :=
  ∀ (s : PT P U Y) f f', s.traj.length = n → (∀ r : PyM (Option (List (SStep P))), (∀ traj, r = .ok (some traj) → Shape traj n m) → f r = f' r) →
    smooth f s = smooth f' s

theorem SmoothsTo.at {smooth : (PyM (Option (List (SStep P))) → ℝ≥0∞) → PT P U Y → ℝ≥0∞} {m : ℕ} (h : SmoothsTo smooth m) (n : ℕ) : SmoothsAt smooth m n := by
  rintro s f f' rfl hr
  exact h s f f' hr

theorem smoothE_smoothsTo {S : SmoothCallbacks P U Y V Ω} (hpl : ∀ D, PlainSmooth S D) (hps : NoPostprocessing S) {m : ℕ} {method : String}
    (hm : PlainMethod method) (user : Option SOpts) (d : AllDraws Ω) (fuel : ℕ) : SmoothsTo (smoothE S m method user d fuel) m := by
  intro s f f' h
  unfold smoothE
  exact lintegral_congr fun r0 => backE_ext _ fun a => h _ fun traj ht => smoothing_shape (hpl _) (fun traj => hps traj) hm ht

theorem smoothRoundsE_smoothsTo {S : SmoothCallbacks P U Y V Ω} (hpl : ∀ D, PlainSmooth S D) (hps : NoPostprocessing S) {m : ℕ} {method : String}
    (hm : PlainMethod method) (R : ℕ) (user : Option SOpts) (d : AllDraws Ω) (fuel : ℕ) : SmoothsTo (smoothRoundsE R S m method user d fuel) m := by
  intro s f f' h
  unfold smoothRoundsE
  exact lintegral_congr fun r0 => backDrawsE_ext _ _ fun a => h _ fun traj ht => smoothing_shape (hpl _) (fun traj => hps traj) hm ht

section
variable [MeasurableSpace P] [MeasurableSpace Ω] {ν : Measure Ω} {vol μ0 μ0' : Measure P} {M M' : ℕ → Slot U → Kernel P P}
  {ℓ ℓ' : ℕ → Slot Y → P → ℝ} {good : Slot Y → Prop} {F : FilterOps P U Y V Ω} {l0 l0' : P → ℝ} {lx lx' : ℕ → Slot U → P → P → ℝ} {N m : ℕ}
  {T : Option ℕ} {s0 : PT P U Y} {first : Option (Slot Y)} {qs : List (Slot U × Slot Y)} {evalY evalY' : List P → Slot Y → ℕ → PyM (List ℝ)}
  {evalX evalX' : List P → List P → Slot U → ℕ → PyM (List ℝ)} {evalX0 evalX0' : List P → ℕ → PyM (List ℝ)} {c : ℝ}
  {smooth : (PyM (Option (List (SStep P))) → ℝ≥0∞) → PT P U Y → ℝ≥0∞}

theorem objectiveBy_eq (h0 : PT.init N T 0 = .ok s0) (hm : 0 < m) (hs : SmoothsAt smooth m (qs.length + 1))
    (hfirst : ∀ y ∈ first, good y ∧ y ≠ .none) (hne : first = none → qs ≠ []) (hqs : ∀ q ∈ qs, good q.2)
    (hunb : ∀ φ : List P → ℝ≥0∞, (∀ n, Measurable fun x : Fin n → P => φ (List.ofFn x)) →
      estimateE ν s0 F first qs (smooth (pathMean φ m)) = smoothingE μ0 M ℓ first qs φ)
    (hl0' : Measurable l0') (hlx' : ∀ k u, Measurable fun z : P × P => lx' k u z.1 z.2) (hℓ' : ∀ k y, Measurable (ℓ' k y))
    (hL : LogTerms evalY' evalX' evalX0' good l0' lx' ℓ') (hc : ∀ xs, completeLog l0' lx' ℓ' first qs xs ≤ c) :
    objectiveBy ν s0 F first qs smooth evalY' evalX' evalX0' c =
      smoothingE μ0 M ℓ first qs fun xs => ENNReal.ofReal (c - completeLog l0' lx' ℓ' first qs xs) := by
  rw [← hunb _ (fun n => (measurable_const.sub (completeLog_measurable hl0' hlx' hℓ' first qs n)).ennreal_ofReal)]
  unfold objectiveBy
  refine estimateE_congr h0 hne fun s hD hlen => hs s _ _ hlen fun r hr => ?_
  exact objMean_eq hL hD hfirst (fun q hq => .inr (hqs q hq)) hm hc hr

/-- The EM inequality for any filter and smoother whose weighted path averages are unbiased. -/
theorem em_gain_of_unbiased (h0 : PT.init N T 0 = .ok s0) (hm : 0 < m) (hs : SmoothsAt smooth m (qs.length + 1))
    (hfirst : ∀ y ∈ first, good y ∧ y ≠ .none) (hne : first = none → qs ≠ []) (hqs : ∀ q ∈ qs, good q.2)
    (hunb : ∀ φ : List P → ℝ≥0∞, (∀ n, Measurable fun x : Fin n → P => φ (List.ofFn x)) →
      estimateE ν s0 F first qs (smooth (pathMean φ m)) = smoothingE μ0 M ℓ first qs φ)
    (hM : ∀ k u, IsMarkovKernel (M k u)) (hℓ : ∀ k y, Measurable (ℓ k y)) (hℓ' : ∀ k y, Measurable (ℓ' k y))
    (hden : Densities vol μ0 M l0 lx) (hden' : Densities vol μ0' M' l0' lx')
    (hL : LogTerms evalY evalX evalX0 good l0 lx ℓ) (hL' : LogTerms evalY' evalX' evalX0' good l0' lx' ℓ')
    (hc : ∀ xs, completeLog l0 lx ℓ first qs xs ≤ c) (hc' : ∀ xs, completeLog l0' lx' ℓ' first qs xs ≤ c) :
    smoothingE μ0 M ℓ first qs (fun _ => 1) + objectiveBy ν s0 F first qs smooth evalY evalX evalX0 c ≤
      smoothingE μ0' M' ℓ' first qs (fun _ => 1) + objectiveBy ν s0 F first qs smooth evalY' evalX' evalX0' c := by
  rw [objectiveBy_eq h0 hm hs hfirst hne hqs hunb hden.start hden.move hℓ hL hc,
    objectiveBy_eq h0 hm hs hfirst hne hqs hunb hden'.start hden'.move hℓ' hL' hc']
  have hlm : ∀ k u x, Measurable (lx k u x) := fun k u x => (hden.move k u).comp measurable_prodMk_left
  have hlm' : ∀ k u x, Measurable (lx' k u x) := fun k u x => (hden'.move k u).comp measurable_prodMk_left
  refine em_inequality hM hℓ (hden'.start.sub hden.start) ?_ (fun k u x => (hlm' k u x).sub (hlm k u x)) ?_ hc hc'
    fun n => (measurable_const.sub (completeLog_measurable hden'.start hden'.move hℓ' first qs n)).ennreal_ofReal
  · rw [hden.start_law, hden'.start_law]; exact withDensity_change hden.start hden'.start
  · intro k u x
    rw [hden.move_law, hden'.move_law]
    exact withDensity_change (hlm k u x) (hlm' k u x)

/-- The two forms in which the unbiasedness theorems are stated. -/
theorem estimateE_of_forms (hne : first = none → qs ≠ []) (hfirst : ∀ y ∈ first, good y) (hnone : ∀ q ∈ qs, q.2 = .none → ∀ k x, ℓ k .none x = 0)
    {H : PT P U Y → ℝ≥0∞} {φ : List P → ℝ≥0∞}
    (h : (∀ y0, good y0 → ∫⁻ ω, stepsE ν qs (fun ds => runWeighted H (s0.run F (history (some (y0, ω)) ds))) ∂ν =
        ∫⁻ x, ENNReal.ofReal (exp (ℓ 0 y0 x)) * pathsE M ℓ φ 0 qs [] x ∂μ0) ∧
      (qs ≠ [] → stepsE ν qs (fun ds => runWeighted H (s0.run F (history none ds))) = ∫⁻ x, pathsE M ℓ φ 0 qs [] x ∂μ0)) :
    estimateE ν s0 F first qs H = smoothingE μ0 M ℓ first qs φ := by
  have key := fun φ k x => pathsE_seen M (ℓ := ℓ) φ k qs hnone [] x
  cases first with
  | none =>
    refine (h.2 (hne rfl)).trans ?_
    simp only [smoothingE, key]
  | some y0 =>
    refine (h.1 y0 (hfirst y0 rfl)).trans ?_
    simp only [smoothingE, key]

end

/-! ### The theorems -/

section
variable [MeasurableSpace P] [MeasurableSpace Ω] {K : MarkovModel P U Y V Ω} {ν : Measure Ω} [IsProbabilityMeasure ν]
  {N : ℕ} {vol μ0 μ0' : Measure P} {M M' : ℕ → Slot U → Kernel P P} {ℓ ℓ' : ℕ → Slot Y → P → ℝ} {good : Slot Y → Prop}
  {rest : Callbacks P U Y V Ω} {res : ℝ} {name : String} {o : FilterOptions P} {F : FilterOps P U Y V Ω}
  {logpXnext : List P → List P → Slot U → ℕ → PyM (List ℝ)} {logpXnextMax : List P → Slot U → ℕ → PyM ℝ}
  {l0 l0' : P → ℝ} {lx lx' : ℕ → Slot U → P → P → ℝ}
  {srest : SmoothCallbacks P U Y V Ω} {m : ℕ} {T : Option ℕ} {s0 : PT P U Y} {first : Option (Slot Y)} {qs : List (Slot U × Slot Y)}
  {evalY evalY' : List P → Slot Y → ℕ → PyM (List ℝ)} {evalX evalX' : List P → List P → Slot U → ℕ → PyM (List ℝ)}
  {evalX0 evalX0' : List P → ℕ → PyM (List ℝ)} {c : ℝ}

/-- C116 for the smoother 'mcmc' with any number `R` of rounds. -/
theorem C116_em_gain_mcmc (hN : 0 < N) (hK : Spec.Samples K good ν N μ0 M ℓ) (hn : parseFilter name = .ok .pf)
    (hF : mkFilter (K.toCallbacks rest) N res name o = .ok F) (hlx : LogDensity logpXnext lx) (hden : Densities vol μ0 M l0 lx)
    (hden' : Densities vol μ0' M' l0' lx') (hℓ' : ∀ k y, Measurable (ℓ' k y)) (hps : NoPostprocessing srest)
    (hm : 0 < m) {user : Option SOpts} {R : ℕ} (hR : (choose user (·.R) (.int 30)).range = .ok R) (d : AllDraws Ω) (fuel : ℕ) (h0 : PT.init N T 0 = .ok s0)
    (hfirst : ∀ y ∈ first, good y ∧ y ≠ .none) (hne : first = none → qs ≠ []) (hqs : ∀ q ∈ qs, good q.2)
    (hnone : ∀ q ∈ qs, q.2 = .none → ∀ k x, ℓ k .none x = 0)
    (hL : LogTerms evalY evalX evalX0 good l0 lx ℓ) (hL' : LogTerms evalY' evalX' evalX0' good l0' lx' ℓ')
    (hc : ∀ xs, completeLog l0 lx ℓ first qs xs ≤ c) (hc' : ∀ xs, completeLog l0' lx' ℓ' first qs xs ≤ c) :
    let obj := objectiveBy ν s0 F first qs (smoothRoundsE R (ffbsi logpXnext srest) m "mcmc" user d fuel)
    smoothingE μ0 M ℓ first qs (fun _ => 1) + obj evalY evalX evalX0 c ≤ smoothingE μ0' M' ℓ' first qs (fun _ => 1) + obj evalY' evalX' evalX0' c := by
  have hlm : ∀ k u x, Measurable (lx k u x) := fun k u x => (hden.move k u).comp measurable_prodMk_left
  refine em_gain_of_unbiased h0 hm ((smoothRoundsE_smoothsTo (S := ffbsi logpXnext srest) (fun D _ _ _ _ _ _ _ => rfl) hps (.inr (.inl rfl)) R user d fuel).at _) hfirst hne hqs
    (fun φ hφ => estimateE_of_forms hne (fun y hy => (hfirst y hy).1) hnone
      (C98_mcmc_unbiased hN hK hn hF hlx hlm hden.move_law hps hm hR d fuel hφ h0 qs hqs)) (samples_markov hN hK) hK.meas hℓ' hden hden' hL hL' hc hc'

/-- C116 for the smoother 'rs' (rejection sampling), for a model whose `logp_xnext_max` bounds its transition log-density. -/
theorem C116_em_gain_rs (hN : 0 < N) (hK : Spec.Samples K good ν N μ0 M ℓ) (hn : parseFilter name = .ok .pf)
    (hF : mkFilter (K.toCallbacks rest) N res name o = .ok F) (hlx : LogDensity logpXnext lx) (hmax : MaxDensity logpXnextMax lx) (hden : Densities vol μ0 M l0 lx)
    (hden' : Densities vol μ0' M' l0' lx') (hℓ' : ∀ k y, Measurable (ℓ' k y)) (hps : NoPostprocessing srest)
    (hm : 0 < m) {user : Option SOpts} (hmp : user.bind (·.maxpdf) = none) (d : AllDraws Ω) (fuel : ℕ) (h0 : PT.init N T 0 = .ok s0)
    (hfirst : ∀ y ∈ first, good y ∧ y ≠ .none) (hne : first = none → qs ≠ []) (hqs : ∀ q ∈ qs, good q.2)
    (hnone : ∀ q ∈ qs, q.2 = .none → ∀ k x, ℓ k .none x = 0)
    (hL : LogTerms evalY evalX evalX0 good l0 lx ℓ) (hL' : LogTerms evalY' evalX' evalX0' good l0' lx' ℓ')
    (hc : ∀ xs, completeLog l0 lx ℓ first qs xs ≤ c) (hc' : ∀ xs, completeLog l0' lx' ℓ' first qs xs ≤ c) :
    let obj := objectiveBy ν s0 F first qs (smoothRoundsE (choose user (fun u => u.R.map PyNum.intRange) (N / 10)) (ffbsiRS logpXnext logpXnextMax srest) m "rs" user d fuel)
    smoothingE μ0 M ℓ first qs (fun _ => 1) + obj evalY evalX evalX0 c ≤ smoothingE μ0' M' ℓ' first qs (fun _ => 1) + obj evalY' evalX' evalX0' c := by
  have hlm : ∀ k u x, Measurable (lx k u x) := fun k u x => (hden.move k u).comp measurable_prodMk_left
  refine em_gain_of_unbiased h0 hm ((smoothRoundsE_smoothsTo (S := ffbsiRS logpXnext logpXnextMax srest) (fun D _ _ _ _ _ _ _ => rfl) hps (.inr (.inr (.inl rfl))) _ user d fuel).at _) hfirst hne hqs
    (fun φ hφ => estimateE_of_forms hne (fun y hy => (hfirst y hy).1) hnone
      (C98_rejection_unbiased hN hK hn hF hlx hlm hden.move_law hmax hps hm hmp d fuel hφ h0 qs hqs)) (samples_markov hN hK) hK.meas hℓ' hden hden' hL hL' hc hc'

/-- C116 for the SIR filter with any proposal density, followed by 'ancestor' or 'full'. -/
theorem C116_em_gain_sir {C : Callbacks P U Y V Ω} (hN : 0 < N) (hM : ∀ k u, IsMarkovKernel (M k u)) {q : ℕ → Slot U → Slot Y → Kernel P P}
    {lq : ℕ → Slot U → Slot Y → P → P → ℝ} (hC : Spec.SirSamples C good ν N vol μ0 M ℓ q lq lx) (hn : parseFilter name = .ok .sir)
    (hF : mkFilter C N res name o = .ok F) (hlx : LogDensity C.logpXnext lx) (hden : Densities vol μ0 M l0 lx)
    (hden' : Densities vol μ0' M' l0' lx') (hℓ' : ∀ k y, Measurable (ℓ' k y)) (hps : NoPostprocessing srest)
    (hm : 0 < m) {method : String} (hmeth : method = "ancestor" ∨ method = "full") (user : Option SOpts) (d : AllDraws Ω) (fuel : ℕ) (h0 : PT.init N T 0 = .ok s0)
    (hfirst : ∀ y ∈ first, good y ∧ y ≠ .none) (hne : first = none → qs ≠ []) (hqs : ∀ q ∈ qs, good q.2)
    (hnone : ∀ q ∈ qs, q.2 = .none → ∀ k x, ℓ k .none x = 0)
    (hL : LogTerms evalY evalX evalX0 good l0 lx ℓ) (hL' : LogTerms evalY' evalX' evalX0' good l0' lx' ℓ')
    (hc : ∀ xs, completeLog l0 lx ℓ first qs xs ≤ c) (hc' : ∀ xs, completeLog l0' lx' ℓ' first qs xs ≤ c) :
    let obj := objectiveE ν s0 F first qs (ffbsi C.logpXnext srest) m method user d fuel
    smoothingE μ0 M ℓ first qs (fun _ => 1) + obj evalY evalX evalX0 c ≤ smoothingE μ0' M' ℓ' first qs (fun _ => 1) + obj evalY' evalX' evalX0' c := by
  have hpm : PlainMethod method := by
    rcases hmeth with h | h
    · exact .inr (.inr (.inr (.inr h)))
    · exact .inl h
  refine em_gain_of_unbiased h0 hm ((smoothE_smoothsTo (S := ffbsi C.logpXnext srest) (fun D _ _ _ _ _ _ _ => rfl) hps hpm user d fuel).at _) hfirst hne hqs
    (fun φ hφ => estimateE_of_forms hne (fun y hy => (hfirst y hy).1) hnone ?_) hM hC.meas hℓ' hden hden' hL hL' hc hc'
  rcases hmeth with rfl | rfl
  · exact C92_sir hN hM hC hn hF (S := ffbsi C.logpXnext srest) (fun D _ _ _ _ _ _ _ => rfl) hps hm user d fuel hφ h0 qs hqs
  · exact C93_sir hN hM hC hn hF hlx hps hm user d fuel hφ h0 qs hqs

end

end PyPE

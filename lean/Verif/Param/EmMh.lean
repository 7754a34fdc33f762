import Verif.Param.EmSmoothers
import Verif.Smooth.MhShape

/-!
# C116 for the Metropolis-Hastings smoothers and for adaptive rejection sampling
-/

namespace PyPE
open Real Spec MeasureTheory ProbabilityTheory
open scoped ENNReal

variable {P U Y V Ω : Type}

theorem ffbsi_plainMh (logpXnext : List P → List P → Slot U → ℕ → PyM (List ℝ)) (K : MarkovModel P U Y V Ω) (rest : SmoothCallbacks P U Y V Ω) :
    PlainMh (ffbsi logpXnext (K.toSmooth rest)) where
  cond _ _ _ _ _ _ _ := rfl
  init _ _ := rfl
  meas part pt D ind q h := by
    simp only [ffbsi, MarkovModel.toSmooth] at h
    obtain ⟨_, -, h⟩ := bind_eq_ok.mp h
    obtain ⟨_, -, h⟩ := bind_eq_ok.mp h
    obtain ⟨_, -, h⟩ := bind_eq_ok.mp h
    cases h
    rfl
  smooth _ _ _ _ _ _ _ _ := rfl

theorem mhipsE_smoothsAt [MeasurableSpace Ω] {S : SmoothCallbacks P U Y V Ω} (hS : PlainMh S) (hps : NoPostprocessing S) (hpre : ∀ t, applyHook S.preMhips t = .ok t)
    {ν : Measure Ω} {method : String} (hm : method = "mhips" ∨ method = "mhips_reduced") {user : Option SOpts} {R : ℕ} (hR : passes method user = .ok R)
    (m : ℕ) (d : AllDraws Ω) (fuel : ℕ) {n : ℕ} (hn : 2 ≤ n) : SmoothsAt (mhipsE S ν m method R user d fuel) m n := by
  rintro s f f' rfl h
  unfold mhipsE
  refine lintegral_congr fun r0 => ?_
  congr 1
  funext b
  exact h _ fun traj ht => mhips_shape hS hps hpre hm hR hn ht

theorem mhbpE_smoothsAt [MeasurableSpace Ω] {S : SmoothCallbacks P U Y V Ω} (hS : PlainMh S) (hps : NoPostprocessing S) {ν : Measure Ω} {user : Option SOpts} {R : ℕ}
    (hR : (choose user (·.R) (.int 30)).range = .ok R) (d : AllDraws Ω) (fuel n : ℕ) : SmoothsAt (mhbpE S ν R user d fuel) 1 n := by
  rintro s f f' rfl h
  unfold mhbpE
  refine lintegral_congr fun r0 => ?_
  congr 1
  funext b
  exact h _ fun traj ht => mhbp_shape hS hps hR ht

section
variable [MeasurableSpace P] [MeasurableSpace Ω] {K : MarkovModel P U Y V Ω} {ν : Measure Ω} [IsProbabilityMeasure ν]
  {N : ℕ} {vol μ0 μ0' : Measure P} [SigmaFinite vol] {M M' : ℕ → Slot U → Kernel P P} {ℓ ℓ' : ℕ → Slot Y → P → ℝ} {good : Slot Y → Prop}
  {rest : Callbacks P U Y V Ω} {res : ℝ} {name : String} {o : FilterOptions P} {F : FilterOps P U Y V Ω}
  {logpXnext : List P → List P → Slot U → ℕ → PyM (List ℝ)} {logpXnextMax : List P → Slot U → ℕ → PyM ℝ}
  {l0 l0' : P → ℝ} {lx lx' : ℕ → Slot U → P → P → ℝ}
  {srest : SmoothCallbacks P U Y V Ω} {m : ℕ} {T : Option ℕ} {s0 : PT P U Y} {first : Option (Slot Y)} {qs : List (Slot U × Slot Y)}
  {evalY evalY' : List P → Slot Y → ℕ → PyM (List ℝ)} {evalX evalX' : List P → List P → Slot U → ℕ → PyM (List ℝ)}
  {evalX0 evalX0' : List P → ℕ → PyM (List ℝ)} {c : ℝ}

omit [IsProbabilityMeasure ν] [SigmaFinite vol] in
theorem Spec.MhipsModel.densities (hK : MhipsModel K logpXnext srest good ν m vol μ0 M ℓ l0 lx) : Densities vol μ0 M l0 lx :=
  ⟨hK.start, hK.move, hK.start_law, hK.move_law⟩

/-- C116 for the smoothers 'mhips' (with any proposal density) and 'mhips_reduced', any number of passes. -/
theorem C116_em_gain_mhips (hN : 0 < N) (hm : 0 < m) (hKN : Samples K good ν N μ0 M ℓ) (hK : MhipsModel K logpXnext srest good ν m vol μ0 M ℓ l0 lx)
    (hn : parseFilter name = .ok .pf) (hF : mkFilter (K.toCallbacks rest) N res name o = .ok F) (h0 : PT.init N T 0 = .ok s0)
    (hden' : Densities vol μ0' M' l0' lx') (hℓ' : ∀ k y, Measurable (ℓ' k y)) (hfirst : ∀ y ∈ first, good y ∧ y ≠ .none) (hqs : ∀ q ∈ qs, good q.2) (hne : qs ≠ [])
    {method : String} (hme : MhipsMethod (ffbsi logpXnext (K.toSmooth srest)) ν m vol first qs method) {user : Option SOpts} {R : ℕ}
    (hR : passes method user = .ok R) (d : AllDraws Ω) (fuel : ℕ)
    (hL : LogTerms evalY evalX evalX0 good l0 lx ℓ) (hL' : LogTerms evalY' evalX' evalX0' good l0' lx' ℓ')
    (hc : ∀ xs, completeLog l0 lx ℓ first qs xs ≤ c) (hc' : ∀ xs, completeLog l0' lx' ℓ' first qs xs ≤ c) :
    let obj := objectiveBy ν s0 F first qs (mhipsE (ffbsi logpXnext (K.toSmooth srest)) ν m method R user d fuel)
    smoothingE μ0 M ℓ first qs (fun _ => 1) + obj evalY evalX evalX0 c ≤ smoothingE μ0' M' ℓ' first qs (fun _ => 1) + obj evalY' evalX' evalX0' c := by
  have hlen : 2 ≤ qs.length + 1 := by have := List.length_pos_iff.mpr hne; omega
  exact em_gain_of_unbiased h0 hm (mhipsE_smoothsAt (ffbsi_plainMh _ _ _) hK.post hK.pre (hme.elim (fun h => .inl h.1) fun h => .inr h.1) hR m d fuel hlen)
    hfirst (fun _ => hne) hqs (fun φ hφ => C97_mhips_unbiased hN hm hKN hK hn hF h0 (fun y hy => (hfirst y hy).1) hqs hne hme hR d fuel (hφ _))
    (samples_markov hN hKN) hKN.meas hℓ' hK.densities hden' hL hL' hc hc'

/-- C116 for the smoother 'mhbp' with one trajectory, any proposal density and number of iterations. -/
theorem C116_em_gain_mhbp (hN : 0 < N) (hKN : Samples K good ν N μ0 M ℓ) (hK : MhipsModel K logpXnext srest good ν 1 vol μ0 M ℓ l0 lx)
    (hn : parseFilter name = .ok .pf) (hF : mkFilter (K.toCallbacks rest) N res name o = .ok F) (h0 : PT.init N T 0 = .ok s0)
    (hden' : Densities vol μ0' M' l0' lx') (hℓ' : ∀ k y, Measurable (ℓ' k y)) (hfirst : ∀ y ∈ first, good y ∧ y ≠ .none) (hqs : ∀ q ∈ qs, good q.2) (hne : qs ≠ [])
    (hme : MhbpProposal (ffbsi logpXnext (K.toSmooth srest)) ν vol first qs) {user : Option SOpts} {R : ℕ}
    (hR : (choose user (·.R) (.int 30)).range = .ok R) (d : AllDraws Ω) (fuel : ℕ)
    (hL : LogTerms evalY evalX evalX0 good l0 lx ℓ) (hL' : LogTerms evalY' evalX' evalX0' good l0' lx' ℓ')
    (hc : ∀ xs, completeLog l0 lx ℓ first qs xs ≤ c) (hc' : ∀ xs, completeLog l0' lx' ℓ' first qs xs ≤ c) :
    let obj := objectiveBy ν s0 F first qs (mhbpE (ffbsi logpXnext (K.toSmooth srest)) ν R user d fuel)
    smoothingE μ0 M ℓ first qs (fun _ => 1) + obj evalY evalX evalX0 c ≤ smoothingE μ0' M' ℓ' first qs (fun _ => 1) + obj evalY' evalX' evalX0' c :=
  em_gain_of_unbiased h0 one_pos (mhbpE_smoothsAt (ffbsi_plainMh _ _ _) hK.post hR d fuel _)
    hfirst (fun _ => hne) hqs (fun φ hφ => C122_mhbp_unbiased hN hKN hK hn hF h0 (fun y hy => (hfirst y hy).1) hqs hne hme hR d fuel (hφ _))
    (samples_markov hN hKN) hKN.meas hℓ' hK.densities hden' hL hL' hc hc'

omit [SigmaFinite vol] in
/-- C116 for the smoother 'rsas' (rejection sampling with adaptive stopping), when the loop is given enough rounds (C20 shows it stops). -/
theorem C116_em_gain_rsas (hN : 0 < N) (hK : Spec.Samples K good ν N μ0 M ℓ) (hn : parseFilter name = .ok .pf)
    (hF : mkFilter (K.toCallbacks rest) N res name o = .ok F) (hlx : LogDensity logpXnext lx) (hmax : MaxDensity logpXnextMax lx) (hden : Densities vol μ0 M l0 lx)
    (hden' : Densities vol μ0' M' l0' lx') (hℓ' : ∀ k y, Measurable (ℓ' k y)) (hps : NoPostprocessing srest)
    (hm : 0 < m) {user : Option SOpts} (hmp : user.bind (·.maxpdf) = none) (hsw : (rsasParams user).sw ≠ 0) (hratio : 0 < (rsasParams user).ratio)
    (hP1 : 0 < (rsasParams user).P1 ∨ 0 ≤ (rsasParams user).P1 ∧ (rsasParams user).sv ≠ 0) (d : AllDraws Ω) (h0 : PT.init N T 0 = .ok s0)
    (hfirst : ∀ y ∈ first, good y ∧ y ≠ .none) (hne : first = none → qs ≠ []) (hqs : ∀ q ∈ qs, good q.2)
    (hnone : ∀ q ∈ qs, q.2 = .none → ∀ k x, ℓ k .none x = 0)
    (hL : LogTerms evalY evalX evalX0 good l0 lx ℓ) (hL' : LogTerms evalY' evalX' evalX0' good l0' lx' ℓ')
    (hc : ∀ xs, completeLog l0 lx ℓ first qs xs ≤ c) (hc' : ∀ xs, completeLog l0' lx' ℓ' first qs xs ≤ c) :
    ∃ B, ∀ fuel, B ≤ fuel →
      let obj := objectiveBy ν s0 F first qs (smoothRoundsE fuel (ffbsiRS logpXnext logpXnextMax srest) m "rsas" user d fuel)
      smoothingE μ0 M ℓ first qs (fun _ => 1) + obj evalY evalX evalX0 c ≤ smoothingE μ0' M' ℓ' first qs (fun _ => 1) + obj evalY' evalX' evalX0' c := by
  have hlm : ∀ k u x, Measurable (lx k u x) := fun k u x => (hden.move k u).comp measurable_prodMk_left
  obtain ⟨B, hB⟩ := C98_adaptive_rejection_unbiased hN hK hn hF hlx hlm hden.move_law hmax hps hm hmp hsw hratio hP1 d h0 qs hqs
  refine ⟨B, fun fuel hf => ?_⟩
  exact em_gain_of_unbiased h0 hm ((smoothRoundsE_smoothsTo (S := ffbsiRS logpXnext logpXnextMax srest) (fun D _ _ _ _ _ _ _ => rfl) hps (.inr (.inr (.inr (.inl rfl)))) _ user d fuel).at _)
    hfirst hne hqs (fun φ hφ => estimateE_of_forms hne (fun y hy => (hfirst y hy).1) hnone (hB fuel hf φ hφ)) (samples_markov hN hK) hK.meas hℓ' hden hden' hL hL' hc hc'

end

end PyPE

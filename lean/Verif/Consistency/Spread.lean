import Verif.Consistency.Clt
import Verif.Consistency.Filters

/-!
# C107: the spread of the bootstrap filter's estimates without resampling
-/

namespace PyPE
open Real Spec MeasureTheory ProbabilityTheory Filter
open scoped ENNReal NNReal

variable {P U Y V : Type}

/-- `f` of a number read off the stored trajectory and the returned flags; a run that raises contributes `0`. -/
noncomputable def Spec.readout (obs : List (Step P) → List Bool → ℝ) (f : ℝ → ℝ≥0∞) : PT P U Y × PyM (List (Option Bool)) → ℝ≥0∞
  | (s, .ok bs) => f (obs s.traj (bs.filterMap id))
  | (_, .error _) => 0

/-- The log-likelihoods of every measurement taken twice. -/
def Spec.doubled (ℓ : ℕ → Slot Y → P → ℝ) : ℕ → Slot Y → P → ℝ := fun k y x => 2 * ℓ k y x

section law
variable [MeasurableSpace P]

/-- `IndepRun` for functions that are only known where the likelihood estimate is positive. -/
theorem IndepRun.of_pos {N : ℕ} (hN : 0 < N) {ρ : Measure (P × ℝ)} [IsProbabilityMeasure ρ] (hpos : ∀ᵐ z ∂ρ, 0 < z.2)
    {E : (PT P U Y × PyM (List (Option Bool)) → ℝ≥0∞) → ℝ≥0∞} (hE : IndepRun N ρ E) (hmono : ∀ f g, (∀ o, f o ≤ g o) → E f ≤ E g)
    {G : (Fin N → P × ℝ) → ℝ≥0∞} (hG : Measurable G) (H : PT P U Y × PyM (List (Option Bool)) → ℝ≥0∞)
    (hH : ∀ s' bs st (x' : Fin N → P) (w' : Fin N → ℝ), s'.traj.getLast? = some st → st.pa.part = List.ofFn x' → st.pa.w = List.ofFn w' →
      0 < likEstimate s'.traj (bs.filterMap id) →
      H (s', .ok bs) = G fun i => (x' i, N * (likEstimate s'.traj (bs.filterMap id) * (exp (w' i) / ∑ j, exp (w' j))))) :
    E H = ∫⁻ z, G z ∂(Measure.pi fun _ : Fin N => ρ) := by
  haveI : Nonempty (Fin N) := ⟨⟨0, hN⟩⟩
  have hNr : (0:ℝ) < N := by exact_mod_cast hN
  have hms : Measurable fun z : Fin N → P × ℝ => ∑ i, (z i).2 :=
    Finset.measurable_sum _ fun i _ => measurable_snd.comp (measurable_pi_apply i)
  set B : Set (Fin N → P × ℝ) := {z | (∑ i, (z i).2) ≤ 0} with hB
  have hBm : MeasurableSet B := measurableSet_le hms measurable_const
  have hB0 : ∀ᵐ z ∂(Measure.pi fun _ : Fin N => ρ), z ∉ B := by
    have h2 : ∀ᵐ z ∂(Measure.pi fun _ : Fin N => ρ), ∀ i, 0 < (z i).2 :=
      ae_all_iff.mpr fun i => (measurePreserving_eval (fun _ : Fin N => ρ) i).quasiMeasurePreserving.ae hpos
    filter_upwards [h2] with z hz
    exact not_le.mpr (Finset.sum_pos (fun i _ => hz i) Finset.univ_nonempty)
  have key : ∀ b : ℝ≥0∞, E (fun o => match o with
      | (s, .ok bs) => if likEstimate s.traj (bs.filterMap id) ≤ 0 then b else H (s, .ok bs)
      | (s, .error e) => H (s, .error e)) = ∫⁻ z, G z ∂(Measure.pi fun _ : Fin N => ρ) := by
    intro b
    classical
    rw [hE (fun z => if z ∈ B then b else G z) (Measurable.ite hBm measurable_const hG) _ ?_]
    · refine lintegral_congr_ae ?_
      filter_upwards [hB0] with z hz
      rw [if_neg hz]
    · intro s' bs st x' w' hl hx hw
      have hs : 0 < ∑ j, exp (w' j) := Finset.sum_pos (fun _ _ => exp_pos _) Finset.univ_nonempty
      have e1 : ∑ i : Fin N, (N:ℝ) * (likEstimate s'.traj (bs.filterMap id) * (exp (w' i) / ∑ j, exp (w' j))) =
          N * likEstimate s'.traj (bs.filterMap id) := by
        rw [← Finset.mul_sum, ← Finset.mul_sum, ← Finset.sum_div, div_self hs.ne', mul_one]
      simp only [hB, Set.mem_setOf_eq, e1]
      by_cases h0 : likEstimate s'.traj (bs.filterMap id) ≤ 0
      · rw [if_pos h0, if_pos (mul_nonpos_of_nonneg_of_nonpos hNr.le h0)]
      · rw [if_neg h0, if_neg (not_le.mpr (mul_pos hNr (not_le.mp h0))), hH s' bs st x' w' hl hx hw (not_le.mp h0)]
  refine le_antisymm ?_ ?_
  · rw [← key ∞]
    refine hmono _ _ fun o => ?_
    rcases o with ⟨s, e | bs⟩
    · exact le_refl _
    · dsimp only; split
      · exact le_top
      · exact le_refl _
  · rw [← key 0]
    refine hmono _ _ fun o => ?_
    rcases o with ⟨s, e | bs⟩
    · exact le_refl _
    · dsimp only; split
      · exact bot_le
      · exact le_refl _

/-- The second moment of the weight is the exact value for doubled log-likelihoods. -/
theorem weightedSteps_square {M : ℕ → Slot U → Kernel P P} [∀ k u, IsMarkovKernel (M k u)] {ℓ : ℕ → Slot Y → P → ℝ} (hℓ : ∀ k y, Measurable (ℓ k y))
    {φ : P → ℝ≥0∞} (hφ : Measurable φ) (qs : List (Slot U × Slot Y)) (k : ℕ) (z : P × ℝ) :
    ∫⁻ z', ENNReal.ofReal z'.2 ^ 2 * φ z'.1 ∂(weightedSteps (fun k u _ => M k u) (fun k _ y _ x' => ℓ (k+1) y x') k qs z) =
      ENNReal.ofReal z.2 ^ 2 * pathE M (doubled ℓ) φ k qs z.1 := by
  have hℓ2 : ∀ k y, Measurable (doubled ℓ k y) := fun k y => (hℓ k y).const_mul 2
  have hmφ : Measurable fun z' : P × ℝ => ENNReal.ofReal z'.2 ^ 2 * φ z'.1 := (measurable_snd.ennreal_ofReal.pow_const 2).mul (hφ.comp measurable_fst)
  induction qs generalizing k z with
  | nil =>
    simp only [weightedSteps, pathE, Kernel.id_apply]
    rw [lintegral_dirac' _ hmφ]
  | cons q qs ih =>
    have hp := pathE_measurable M hℓ2 hφ qs (k+1)
    have hinc : Measurable (Function.uncurry fun (_ x' : P) => ℓ (k+1) q.2 x') := (hℓ (k+1) q.2).comp measurable_snd
    simp only [weightedSteps]
    rw [Kernel.lintegral_comp _ _ _ hmφ]
    simp only [ih]
    rw [weightedStep_lintegral hinc z (f := fun z => ENNReal.ofReal z.2 ^ 2 * pathE M (doubled ℓ) φ (k+1) qs z.1)
      ((measurable_snd.ennreal_ofReal.pow_const 2).mul (hp.comp measurable_fst))]
    simp only [pathE]
    rw [← lintegral_const_mul' _ _ (by finiteness)]
    refine lintegral_congr fun x' => ?_
    rw [ENNReal.ofReal_mul' (exp_pos _).le, mul_pow, mul_assoc, ← ENNReal.ofReal_pow (exp_pos _).le, ← exp_nat_mul]
    rfl

theorem weightedLaw_square {M : ℕ → Slot U → Kernel P P} [∀ k u, IsMarkovKernel (M k u)] {ℓ : ℕ → Slot Y → P → ℝ} (hℓ : ∀ k y, Measurable (ℓ k y))
    (μ0 : Measure P) (first : Option (Slot Y)) (qs : List (Slot U × Slot Y)) {φ : P → ℝ≥0∞} (hφ : Measurable φ) :
    ∫⁻ z, ENNReal.ofReal z.2 ^ 2 * φ z.1 ∂(weightedLaw (fun k u _ => M k u) (fun k _ y _ x' => ℓ (k+1) y x') μ0 (startWeight ℓ first) qs) =
      exactValue μ0 M (doubled ℓ) first qs φ := by
  rw [weightedLaw_lintegral _ μ0 (startWeight_measurable hℓ first) qs (f := fun z => ENNReal.ofReal z.2 ^ 2 * φ z.1)
    ((measurable_snd.ennreal_ofReal.pow_const 2).mul (hφ.comp measurable_fst))]
  simp only [exactValue]
  apply lintegral_congr
  intro x
  rw [weightedSteps_square hℓ hφ]
  congr 1
  rw [← ENNReal.ofReal_pow (startWeight_pos ℓ first x).le]
  congr 1
  cases first with
  | none => simp [startWeight]
  | some y => simp only [startWeight]; rw [← exp_nat_mul]; rfl

end law

section claims
variable [MeasurableSpace P]

theorem runEstimate_ofFn {N : ℕ} (hN : 0 < N) (φ : P → ℝ≥0∞) {s : PT P U Y} {bs : List (Option Bool)} {st : Step P} (hl : s.traj.getLast? = some st)
    {x : Fin N → P} {w : Fin N → ℝ} (hx : st.pa.part = List.ofFn x) (hw : st.pa.w = List.ofFn w) :
    (N : ℝ≥0∞) * runEstimate φ (s, .ok bs) =
      ∑ i, ENNReal.ofReal (N * (likEstimate s.traj (bs.filterMap id) * (exp (w i) / ∑ j, exp (w j)))) * φ (x i) := by
  simp only [runEstimate, hl, wmean_ofFn φ hx hw, Finset.mul_sum]
  refine Finset.sum_congr rfl fun i _ => ?_
  rw [ENNReal.ofReal_mul (Nat.cast_nonneg N), ENNReal.ofReal_mul (likEstimate_nonneg _ _), ENNReal.ofReal_natCast]
  ring

/-- C107: the exact second moments of the estimates of the bootstrap filter without resampling: `N` times the mean of the product of the estimates of
`φ` and `ψ` is the exact value of `φ ψ` with every measurement taken twice, plus `N - 1` times the product of the exact values. -/
theorem C107_second_moment {Ω : Type} [MeasurableSpace Ω] {K : MarkovModel P U Y V Ω} {ν : Measure Ω} [IsProbabilityMeasure ν] {N : ℕ} (hN : 0 < N)
    {μ0 : Measure P} [IsProbabilityMeasure μ0] {M : ℕ → Slot U → Kernel P P} [∀ k u, IsMarkovKernel (M k u)] {ℓ : ℕ → Slot Y → P → ℝ}
    {good : Slot Y → Prop} (hK : IndepSamples K good ν N μ0 M ℓ) {rest : Callbacks P U Y V Ω} {res : ℝ} (hres : res ≤ 0) {name : String}
    {o : FilterOptions P} (hn : parseFilter name = .ok .pf) {F : FilterOps P U Y V Ω} (hF : mkFilter (K.toCallbacks rest) N res name o = .ok F)
    {T : Option ℕ} {s0 : PT P U Y} (h0 : PT.init N T 0 = .ok s0) {first : Option (Slot Y)} (hfirst : ∀ y, first = some y → good y)
    {qs : List (Slot U × Slot Y)} (hqs : ∀ q ∈ qs, good q.2) (hne : first = none → qs ≠ []) {φ ψ : P → ℝ≥0∞} (hφ : Measurable φ) (hψ : Measurable ψ) :
    N * runE ν F s0 first qs (fun o => runEstimate φ o * runEstimate ψ o) =
      exactValue μ0 M (doubled ℓ) first qs (fun x => φ x * ψ x) + (N - 1 : ℕ) * (exactValue μ0 M ℓ first qs φ * exactValue μ0 M ℓ first qs ψ) := by
  have hℓ := hK.meas
  have hinc : ∀ (k : ℕ) (u : Slot U) (y : Slot Y), Measurable (Function.uncurry fun (_ x' : P) => ℓ (k+1) y x') :=
    fun k u y => (hℓ (k+1) y).comp measurable_snd
  have hv : ∀ f : P → ℝ≥0∞, Measurable f → _ := fun f hf =>
    weightedLaw_value (κ := fun k u _ => M k u) hinc hℓ (fun _ _ _ _ _ _ => rfl) μ0 first qs (φ := f) hf
  haveI := weightedLaw_prob (κ := fun k u _ => M k u) hinc μ0 (startWeight_measurable hℓ first) qs
  obtain ⟨ρ, hρ⟩ : ∃ ρ, ρ = weightedLaw (fun k u _ => M k u) (fun k _ y _ x' => ℓ (k+1) y x') μ0 (startWeight ℓ first) qs := ⟨_, rfl⟩
  have hrun := pf_indepRun hN hK hres hn hF h0 hfirst hqs hne
  have hsq := weightedLaw_square (M := M) hℓ μ0 first qs (φ := fun x => φ x * ψ x) (hφ.mul hψ)
  simp only [← hρ] at hv hrun hsq this
  have hN0 : (N : ℝ≥0∞) ≠ 0 := by exact_mod_cast hN.ne'
  have hNt : (N : ℝ≥0∞) ≠ ∞ := ENNReal.natCast_ne_top N
  have hf : ∀ f : P → ℝ≥0∞, Measurable f → Measurable fun z : P × ℝ => ENNReal.ofReal z.2 * f z.1 := fun f hf =>
    measurable_snd.ennreal_ofReal.mul (hf.comp measurable_fst)
  have hsm : ∀ f : P → ℝ≥0∞, Measurable f → Measurable fun z : Fin N → P × ℝ => ∑ i, ENNReal.ofReal (z i).2 * f (z i).1 := fun f hm =>
    Finset.measurable_sum _ fun i _ => (hf f hm).comp (measurable_pi_apply i)
  rw [hrun (fun z => (N : ℝ≥0∞)⁻¹ * (N : ℝ≥0∞)⁻¹ * ((∑ i, ENNReal.ofReal (z i).2 * φ (z i).1) * ∑ i, ENNReal.ofReal (z i).2 * ψ (z i).1))
    (((hsm φ hφ).mul (hsm ψ hψ)).const_mul _) _ ?_]
  · rw [lintegral_const_mul' _ _ (ENNReal.mul_ne_top (ENNReal.inv_ne_top.mpr hN0) (ENNReal.inv_ne_top.mpr hN0)),
      pi_two ρ (hf φ hφ) (hf ψ hψ), hv φ hφ, hv ψ hψ]
    have e : ∫⁻ z, ENNReal.ofReal z.2 * φ z.1 * (ENNReal.ofReal z.2 * ψ z.1) ∂ρ = exactValue μ0 M (doubled ℓ) first qs (fun x => φ x * ψ x) := by
      rw [← hsq]
      exact lintegral_congr fun z => by ring
    rw [e, Nat.cast_mul]
    generalize exactValue μ0 M (doubled ℓ) first qs (fun x => φ x * ψ x) = A
    generalize exactValue μ0 M ℓ first qs φ * exactValue μ0 M ℓ first qs ψ = B
    have hc : (N : ℝ≥0∞) * (N : ℝ≥0∞)⁻¹ = 1 := ENNReal.mul_inv_cancel hN0 hNt
    calc (N : ℝ≥0∞) * ((N : ℝ≥0∞)⁻¹ * (N : ℝ≥0∞)⁻¹ * (N * A + N * ((N - 1 : ℕ) : ℝ≥0∞) * B))
        = ((N : ℝ≥0∞) * (N : ℝ≥0∞)⁻¹) * ((N : ℝ≥0∞) * (N : ℝ≥0∞)⁻¹) * (A + ((N - 1 : ℕ) : ℝ≥0∞) * B) := by ring
      _ = A + ((N - 1 : ℕ) : ℝ≥0∞) * B := by rw [hc]; ring
  · intro s' bs st x' w' hl hx hw
    dsimp only
    rw [← runEstimate_ofFn hN φ hl hx hw, ← runEstimate_ofFn hN ψ hl hx hw]
    have hc : (N : ℝ≥0∞)⁻¹ * (N : ℝ≥0∞) = 1 := ENNReal.inv_mul_cancel hN0 hNt
    generalize runEstimate φ (s', .ok bs) = a
    generalize runEstimate ψ (s', .ok bs) = b
    calc a * b = ((N : ℝ≥0∞)⁻¹ * (N : ℝ≥0∞)) * ((N : ℝ≥0∞)⁻¹ * (N : ℝ≥0∞)) * (a * b) := by rw [hc]; ring
      _ = _ := by ring

theorem weight_memLp {ρ : Measure (P × ℝ)} (hpos : ∀ᵐ z ∂ρ, 0 < z.2) {φ : P → ℝ} (hφ : Measurable φ)
    (h : ∫⁻ z, ENNReal.ofReal z.2 ^ 2 * ENNReal.ofReal (φ z.1 ^ 2) ∂ρ ≠ ∞) : MemLp (fun z : P × ℝ => z.2 * φ z.1) 2 ρ := by
  have hm : Measurable fun z : P × ℝ => z.2 * φ z.1 := measurable_snd.mul (hφ.comp measurable_fst)
  rw [memLp_two_iff_integrable_sq hm.aestronglyMeasurable]
  refine ⟨(hm.pow_const 2).aestronglyMeasurable, ?_⟩
  rw [hasFiniteIntegral_iff_ofReal (Eventually.of_forall fun z => sq_nonneg _)]
  refine lt_of_le_of_lt (le_of_eq (lintegral_congr_ae ?_)) (lt_top_iff_ne_top.mpr h)
  filter_upwards [hpos] with z hz
  rw [← ENNReal.ofReal_pow hz.le, ← ENNReal.ofReal_mul (by positivity), mul_pow]

theorem weight_integral_sq {ρ : Measure (P × ℝ)} (hpos : ∀ᵐ z ∂ρ, 0 < z.2) {φ : P → ℝ} (hφ : Measurable φ) :
    ∫ z, (z.2 * φ z.1) ^ 2 ∂ρ = (∫⁻ z, ENNReal.ofReal z.2 ^ 2 * ENNReal.ofReal (φ z.1 ^ 2) ∂ρ).toReal := by
  have hm : Measurable fun z : P × ℝ => z.2 * φ z.1 := measurable_snd.mul (hφ.comp measurable_fst)
  rw [integral_eq_lintegral_of_nonneg_ae (Eventually.of_forall fun z => sq_nonneg _) (hm.pow_const 2).aestronglyMeasurable]
  congr 1
  refine lintegral_congr_ae ?_
  filter_upwards [hpos] with z hz
  rw [← ENNReal.ofReal_pow hz.le, ← ENNReal.ofReal_mul (by positivity), mul_pow]

/-- C107: an explicit error bound for any number of particles: without resampling the bootstrap filter's likelihood estimate is off by `ε` or more with
probability at most its variance over `ε²`, and that variance is (exact likelihood with every measurement taken twice - likelihood²) / N. -/
theorem C107_error_bound {Ω : Type} [MeasurableSpace Ω] {K : MarkovModel P U Y V Ω} {ν : Measure Ω} [IsProbabilityMeasure ν] {N : ℕ} (hN : 0 < N)
    {μ0 : Measure P} [IsProbabilityMeasure μ0] {M : ℕ → Slot U → Kernel P P} [∀ k u, IsMarkovKernel (M k u)] {ℓ : ℕ → Slot Y → P → ℝ}
    {good : Slot Y → Prop} (hK : IndepSamples K good ν N μ0 M ℓ) {rest : Callbacks P U Y V Ω} {res : ℝ} (hres : res ≤ 0) {name : String}
    {o : FilterOptions P} (hn : parseFilter name = .ok .pf) {F : FilterOps P U Y V Ω} (hF : mkFilter (K.toCallbacks rest) N res name o = .ok F)
    {T : Option ℕ} {s0 : PT P U Y} (h0 : PT.init N T 0 = .ok s0) {first : Option (Slot Y)} (hfirst : ∀ y, first = some y → good y)
    {qs : List (Slot U × Slot Y)} (hqs : ∀ q ∈ qs, good q.2) (hne : first = none → qs ≠ [])
    (h2 : exactValue μ0 M (doubled ℓ) first qs (fun _ => 1) ≠ ∞) {ε : ℝ} (hε : 0 < ε) :
    runE ν F s0 first qs (misses likEstimate (exactValue μ0 M ℓ first qs fun _ => 1).toReal ε) ≤
      ENNReal.ofReal (((exactValue μ0 M (doubled ℓ) first qs fun _ => 1).toReal - (exactValue μ0 M ℓ first qs fun _ => 1).toReal ^ 2) / (N * ε ^ 2)) := by
  have hℓ := hK.meas
  have hinc : ∀ (k : ℕ) (u : Slot U) (y : Slot Y), Measurable (Function.uncurry fun (_ x' : P) => ℓ (k+1) y x') :=
    fun k u y => (hℓ (k+1) y).comp measurable_snd
  have hv := weightedLaw_value (κ := fun k u _ => M k u) hinc hℓ (fun _ _ _ _ _ _ => rfl) μ0 first qs (φ := fun _ => 1) measurable_const
  haveI := weightedLaw_prob (κ := fun k u _ => M k u) hinc μ0 (startWeight_measurable hℓ first) qs
  have hpos := weightedLaw_pos (κ := fun k u _ => M k u) hinc μ0 (startWeight_measurable hℓ first) (startWeight_pos ℓ first) qs
  obtain ⟨ρ, hρ⟩ : ∃ ρ, ρ = weightedLaw (fun k u _ => M k u) (fun k _ y _ x' => ℓ (k+1) y x') μ0 (startWeight ℓ first) qs := ⟨_, rfl⟩
  have hrun := pf_indepRun hN hK hres hn hF h0 hfirst hqs hne
  have hsq := weightedLaw_square (M := M) hℓ μ0 first qs (φ := fun _ => 1) measurable_const
  simp only [← hρ, mul_one] at hv hrun hsq this hpos
  have hmem : MemLp (fun z : P × ℝ => z.2) 2 ρ := by
    have := weight_memLp (φ := fun _ => 1) hpos measurable_const (by simpa [hsq] using h2)
    simpa using this
  have hnn : 0 ≤ᵐ[ρ] fun z => z.2 := hpos.mono fun z hz => le_of_lt hz
  have hint : ∫ z, z.2 ∂ρ = (exactValue μ0 M ℓ first qs fun _ => 1).toReal := by
    rw [integral_eq_lintegral_of_nonneg_ae hnn measurable_snd.aestronglyMeasurable, hv]
  have hvar : Var[fun z : P × ℝ => z.2; ρ] =
      (exactValue μ0 M (doubled ℓ) first qs fun _ => 1).toReal - (exactValue μ0 M ℓ first qs fun _ => 1).toReal ^ 2 := by
    have e := weight_integral_sq (φ := fun _ => 1) hpos measurable_const
    simp only [mul_one, one_pow, ENNReal.ofReal_one, hsq] at e
    rw [variance_eq_sub hmem, hint, ← e]
    rfl
  rw [← hvar, ← hint]
  refine le_trans (le_of_eq ?_) (pi_chebyshev ρ hN hmem hε)
  haveI : Nonempty (Fin N) := ⟨⟨0, hN⟩⟩
  have hNr : (0:ℝ) < N := by exact_mod_cast hN
  have hs : MeasurableSet {z : Fin N → P × ℝ | ε ≤ |(∑ i, (z i).2) / N - ∫ z, z.2 ∂ρ|} :=
    measurableSet_le measurable_const (continuous_abs.measurable.comp
      (((Finset.measurable_sum _ fun i _ => measurable_snd.comp (measurable_pi_apply i)).div_const _).sub_const _))
  rw [hrun _ (measurable_one.indicator hs) (misses likEstimate _ ε) ?_, lintegral_indicator_one hs]
  intro s' bs st x' w' hl hx hw
  have hS : 0 < ∑ j, exp (w' j) := Finset.sum_pos (fun _ _ => exp_pos _) Finset.univ_nonempty
  have e : (∑ i : Fin N, (N:ℝ) * (likEstimate s'.traj (bs.filterMap id) * (exp (w' i) / ∑ j, exp (w' j)))) / N = likEstimate s'.traj (bs.filterMap id) := by
    rw [← Finset.mul_sum, ← Finset.mul_sum, ← Finset.sum_div, div_self hS.ne']
    field_simp
  simp only [misses, Set.indicator, Set.mem_setOf_eq, e, Pi.one_apply]
  split <;> rename_i h
  · rw [if_neg (not_le.mpr h)]
  · rw [if_pos (not_lt.mp h)]

variable {Ω : ℕ → Type} [∀ N, MeasurableSpace (Ω N)]

/-- C107: a central limit theorem for the likelihood estimate of the bootstrap filter without resampling: `√N` times its error tends in distribution to a
normal law whose variance is the exact likelihood with every measurement taken twice minus the squared likelihood. -/
theorem C107_likelihood_clt {K : ∀ N, MarkovModel P U Y V (Ω N)} {ν : ∀ N, Measure (Ω N)} [∀ N, IsProbabilityMeasure (ν N)]
    {μ0 : Measure P} [IsProbabilityMeasure μ0] {M : ℕ → Slot U → Kernel P P} [∀ k u, IsMarkovKernel (M k u)] {ℓ : ℕ → Slot Y → P → ℝ}
    {good : Slot Y → Prop} (hK : ∀ N, 0 < N → IndepSamples (K N) good (ν N) N μ0 M ℓ) {rest : ∀ N, Callbacks P U Y V (Ω N)} {res : ℝ} (hres : res ≤ 0)
    {name : String} {o : FilterOptions P} (hn : parseFilter name = .ok .pf) {F : ∀ N, FilterOps P U Y V (Ω N)}
    (hF : ∀ N, 0 < N → mkFilter ((K N).toCallbacks (rest N)) N res name o = .ok (F N))
    {T : Option ℕ} {s0 : ℕ → PT P U Y} (h0 : ∀ N, 0 < N → PT.init N T 0 = .ok (s0 N)) {first : Option (Slot Y)} (hfirst : ∀ y, first = some y → good y)
    {qs : List (Slot U × Slot Y)} (hqs : ∀ q ∈ qs, good q.2) (hne : first = none → qs ≠ [])
    (h2 : exactValue μ0 M (doubled ℓ) first qs (fun _ => 1) ≠ ∞) (f : BoundedContinuousFunction ℝ ℝ≥0) :
    Tendsto (fun N => runE (ν N) (F N) (s0 N) first qs
      (readout likEstimate fun z => f (√N * (z - (exactValue μ0 M ℓ first qs fun _ => 1).toReal)))) atTop
      (nhds (∫⁻ x, f x ∂(gaussianReal 0
        ((exactValue μ0 M (doubled ℓ) first qs fun _ => 1).toReal - (exactValue μ0 M ℓ first qs fun _ => 1).toReal ^ 2).toNNReal))) := by
  have hℓ := (hK 1 one_pos).meas
  have hinc : ∀ (k : ℕ) (u : Slot U) (y : Slot Y), Measurable (Function.uncurry fun (_ x' : P) => ℓ (k+1) y x') :=
    fun k u y => (hℓ (k+1) y).comp measurable_snd
  have hv := weightedLaw_value (κ := fun k u _ => M k u) hinc hℓ (fun _ _ _ _ _ _ => rfl) μ0 first qs (φ := fun _ => 1) measurable_const
  haveI := weightedLaw_prob (κ := fun k u _ => M k u) hinc μ0 (startWeight_measurable hℓ first) qs
  have hpos := weightedLaw_pos (κ := fun k u _ => M k u) hinc μ0 (startWeight_measurable hℓ first) (startWeight_pos ℓ first) qs
  obtain ⟨ρ, hρ⟩ : ∃ ρ, ρ = weightedLaw (fun k u _ => M k u) (fun k _ y _ x' => ℓ (k+1) y x') μ0 (startWeight ℓ first) qs := ⟨_, rfl⟩
  have hrun := fun N (hN : 0 < N) => pf_indepRun hN (hK N hN) hres hn (hF N hN) (h0 N hN) hfirst hqs hne
  have hsq := weightedLaw_square (M := M) hℓ μ0 first qs (φ := fun _ => 1) measurable_const
  simp only [← hρ, mul_one] at hv hrun hsq this hpos
  have hmem : MemLp (fun z : P × ℝ => z.2) 2 ρ := by
    have := weight_memLp (φ := fun _ => 1) hpos measurable_const (by simpa [hsq] using h2)
    simpa using this
  have hnn : 0 ≤ᵐ[ρ] fun z => z.2 := hpos.mono fun z hz => le_of_lt hz
  have hint : ∫ z, z.2 ∂ρ = (exactValue μ0 M ℓ first qs fun _ => 1).toReal := by
    rw [integral_eq_lintegral_of_nonneg_ae hnn measurable_snd.aestronglyMeasurable, hv]
  have hvar : Var[fun z : P × ℝ => z.2; ρ] =
      (exactValue μ0 M (doubled ℓ) first qs fun _ => 1).toReal - (exactValue μ0 M ℓ first qs fun _ => 1).toReal ^ 2 := by
    have e := weight_integral_sq (φ := fun _ => 1) hpos measurable_const
    simp only [mul_one, one_pow, ENNReal.ofReal_one, hsq] at e
    rw [variance_eq_sub hmem, hint, ← e]
    rfl
  rw [← hvar]
  obtain ⟨Z, hZ⟩ : ∃ Z, Z = (exactValue μ0 M ℓ first qs fun _ => 1).toReal := ⟨_, rfl⟩
  simp only [← hZ] at hint ⊢
  have hcen : ∫ z, (z.2 - Z) ∂ρ = 0 := by
    rw [integral_sub (hmem.integrable one_le_two) (integrable_const _), hint]
    simp
  have hclt := pi_clt_ratio ρ (f := fun z => z.2 - Z) (g := fun _ => 1) (hmem.sub (memLp_const Z)) (measurable_snd.sub_const Z) hcen measurable_const
    (integrable_const _) (by simp) f
  have hvs : Var[fun z : P × ℝ => z.2 - Z; ρ] = Var[fun z : P × ℝ => z.2; ρ] := variance_sub_const measurable_snd.aestronglyMeasurable Z
  rw [hvs] at hclt
  simp only [integral_const, smul_eq_mul, mul_one, probReal_univ, div_one, Finset.sum_const, Finset.card_univ, Fintype.card_fin, nsmul_eq_mul] at hclt
  refine hclt.congr' ?_
  filter_upwards [eventually_gt_atTop 0] with N hN
  haveI : Nonempty (Fin N) := ⟨⟨0, hN⟩⟩
  have hNr : (0:ℝ) < N := by exact_mod_cast hN
  rw [hrun N hN (fun z => f (√N * ((∑ i, ((z i).2 - Z)) / N))) ?_ (readout likEstimate fun z => f (√N * (z - Z))) ?_]
  · exact (f.continuous.measurable.comp (((Finset.measurable_sum _ fun i _ => (measurable_snd.comp (measurable_pi_apply i)).sub_const Z).div_const _).const_mul _)).coe_nnreal_ennreal
  · intro s' bs st x' w' hl hx hw
    have hS : 0 < ∑ j, exp (w' j) := Finset.sum_pos (fun _ _ => exp_pos _) Finset.univ_nonempty
    have e : (∑ i : Fin N, ((N:ℝ) * (likEstimate s'.traj (bs.filterMap id) * (exp (w' i) / ∑ j, exp (w' j))) - Z)) / N =
        likEstimate s'.traj (bs.filterMap id) - Z := by
      rw [Finset.sum_sub_distrib, ← Finset.mul_sum, ← Finset.mul_sum, ← Finset.sum_div, div_self hS.ne']
      simp only [Finset.sum_const, Finset.card_univ, Fintype.card_fin, nsmul_eq_mul]
      field_simp
    simp only [readout, e]

/-- C107: a central limit theorem for the weighted mean of `φ` over the particles of the bootstrap filter without resampling: `√N` times the difference to
the filtering expectation tends in distribution to a normal law with the variance of importance sampling. -/
theorem C107_mean_clt {K : ∀ N, MarkovModel P U Y V (Ω N)} {ν : ∀ N, Measure (Ω N)} [∀ N, IsProbabilityMeasure (ν N)]
    {μ0 : Measure P} [IsProbabilityMeasure μ0] {M : ℕ → Slot U → Kernel P P} [∀ k u, IsMarkovKernel (M k u)] {ℓ : ℕ → Slot Y → P → ℝ}
    {good : Slot Y → Prop} (hK : ∀ N, 0 < N → IndepSamples (K N) good (ν N) N μ0 M ℓ) {rest : ∀ N, Callbacks P U Y V (Ω N)} {res : ℝ} (hres : res ≤ 0)
    {name : String} {o : FilterOptions P} (hn : parseFilter name = .ok .pf) {F : ∀ N, FilterOps P U Y V (Ω N)}
    (hF : ∀ N, 0 < N → mkFilter ((K N).toCallbacks (rest N)) N res name o = .ok (F N))
    {T : Option ℕ} {s0 : ℕ → PT P U Y} (h0 : ∀ N, 0 < N → PT.init N T 0 = .ok (s0 N)) {first : Option (Slot Y)} (hfirst : ∀ y, first = some y → good y)
    {qs : List (Slot U × Slot Y)} (hqs : ∀ q ∈ qs, good q.2) (hne : first = none → qs ≠ []) {φ : P → ℝ} (hφ : Measurable φ)
    (h2 : exactValue μ0 M (doubled ℓ) first qs (fun _ => 1) ≠ ∞) (h3 : exactValue μ0 M (doubled ℓ) first qs (fun x => ENNReal.ofReal (φ x ^ 2)) ≠ ∞)
    (f : BoundedContinuousFunction ℝ ℝ≥0) :
    Tendsto (fun N => runE (ν N) (F N) (s0 N) first qs
      (readout (fun traj _ => lastMean φ traj) fun z => f (√N * (z - exactMean μ0 M ℓ first qs φ)))) atTop
      (nhds (∫⁻ x, f x ∂(gaussianReal 0
        ((exactValue μ0 M (doubled ℓ) first qs fun x => ENNReal.ofReal ((φ x - exactMean μ0 M ℓ first qs φ) ^ 2)).toReal /
          (exactValue μ0 M ℓ first qs fun _ => 1).toReal ^ 2).toNNReal))) := by
  have hℓ := (hK 1 one_pos).meas
  have hinc : ∀ (k : ℕ) (u : Slot U) (y : Slot Y), Measurable (Function.uncurry fun (_ x' : P) => ℓ (k+1) y x') :=
    fun k u y => (hℓ (k+1) y).comp measurable_snd
  have hv : ∀ f : P → ℝ≥0∞, Measurable f → _ := fun f hf =>
    weightedLaw_value (κ := fun k u _ => M k u) hinc hℓ (fun _ _ _ _ _ _ => rfl) μ0 first qs (φ := f) hf
  haveI := weightedLaw_prob (κ := fun k u _ => M k u) hinc μ0 (startWeight_measurable hℓ first) qs
  have hpos := weightedLaw_pos (κ := fun k u _ => M k u) hinc μ0 (startWeight_measurable hℓ first) (startWeight_pos ℓ first) qs
  obtain ⟨ρ, hρ⟩ : ∃ ρ, ρ = weightedLaw (fun k u _ => M k u) (fun k _ y _ x' => ℓ (k+1) y x') μ0 (startWeight ℓ first) qs := ⟨_, rfl⟩
  have hrun := fun N (hN : 0 < N) => pf_indepRun hN (hK N hN) hres hn (hF N hN) (h0 N hN) hfirst hqs hne
  have hsq : ∀ f : P → ℝ≥0∞, Measurable f → _ := fun f hf => weightedLaw_square (M := M) hℓ μ0 first qs (φ := f) hf
  simp only [← hρ] at hv hrun hsq this hpos
  have hv1 := hv (fun _ => 1) measurable_const
  have hs1 := hsq (fun _ => 1) measurable_const
  simp only [mul_one] at hv1 hs1
  have hmem : MemLp (fun z : P × ℝ => z.2) 2 ρ := by
    have := weight_memLp (φ := fun _ => 1) hpos measurable_const (by simpa [hs1] using h2)
    simpa using this
  have hmemφ : MemLp (fun z : P × ℝ => z.2 * φ z.1) 2 ρ :=
    weight_memLp hpos hφ (by rw [hsq (fun x => ENNReal.ofReal (φ x ^ 2)) (hφ.pow_const 2).ennreal_ofReal]; exact h3)
  have hi := hmem.integrable one_le_two
  have hiφ := hmemφ.integrable one_le_two
  have hnn : 0 ≤ᵐ[ρ] fun z => z.2 := hpos.mono fun z hz => le_of_lt hz
  have hint : ∫ z, z.2 ∂ρ = (exactValue μ0 M ℓ first qs fun _ => 1).toReal := by
    rw [integral_eq_lintegral_of_nonneg_ae hnn measurable_snd.aestronglyMeasurable, hv1]
  have hpi : 0 < ∫ z, z.2 ∂ρ := by
    rw [integral_pos_iff_support_of_nonneg_ae hnn hi]
    have : ρ (Function.support fun z : P × ℝ => z.2) = ρ Set.univ := by
      refine measure_congr ?_
      filter_upwards [hpos] with z hz
      exact propext ⟨fun _ => trivial, fun _ => hz.ne'⟩
    rw [this, measure_univ]
    exact one_pos
  have hnum : ∫ z, z.2 * φ z.1 ∂ρ = (exactValue μ0 M ℓ first qs fun x => ENNReal.ofReal (φ x)).toReal -
      (exactValue μ0 M ℓ first qs fun x => ENNReal.ofReal (-φ x)).toReal := by
    rw [integral_eq_lintegral_pos_part_sub_lintegral_neg_part hiφ, ← hv (fun x => ENNReal.ofReal (φ x)) hφ.ennreal_ofReal,
      ← hv (fun x => ENNReal.ofReal (-φ x)) hφ.neg.ennreal_ofReal]
    congr 2 <;> refine lintegral_congr_ae ?_
    · filter_upwards [hpos] with z hz
      rw [ENNReal.ofReal_mul hz.le]
    · filter_upwards [hpos] with z hz
      rw [← mul_neg, ENNReal.ofReal_mul hz.le]
  have hmean : exactMean μ0 M ℓ first qs φ = (∫ z, z.2 * φ z.1 ∂ρ) / ∫ z, z.2 ∂ρ := by rw [hnum, hint]; rfl
  obtain ⟨m, hm⟩ : ∃ m, m = exactMean μ0 M ℓ first qs φ := ⟨_, rfl⟩
  rw [← hm] at hmean ⊢
  have hφm : Measurable fun x => φ x - m := hφ.sub_const m
  have hfun : (fun z : P × ℝ => z.2 * (φ z.1 - m)) = fun z => z.2 * φ z.1 - m * z.2 := by funext z; ring
  have hmemf : MemLp (fun z : P × ℝ => z.2 * (φ z.1 - m)) 2 ρ := by
    rw [hfun]
    exact hmemφ.sub (hmem.const_mul m)
  have hcen : ∫ z, z.2 * (φ z.1 - m) ∂ρ = 0 := by
    rw [hfun, integral_sub hiφ (hi.const_mul m), integral_const_mul, hmean]
    field_simp
    ring
  have hvar : Var[fun z : P × ℝ => z.2 * (φ z.1 - m); ρ] = (exactValue μ0 M (doubled ℓ) first qs fun x => ENNReal.ofReal ((φ x - m) ^ 2)).toReal := by
    rw [variance_of_integral_eq_zero hmemf.1.aemeasurable hcen, ← hsq (fun x => ENNReal.ofReal ((φ x - m) ^ 2)) (hφm.pow_const 2).ennreal_ofReal]
    exact weight_integral_sq hpos hφm
  have hclt := pi_clt_ratio ρ (f := fun z => z.2 * (φ z.1 - m)) (g := fun z => z.2) hmemf (measurable_snd.mul (hφm.comp measurable_fst)) hcen
    measurable_snd hi hpi.ne' f
  have hFm : Measurable fun x : ℝ => (f x : ℝ≥0∞) := f.continuous.measurable.coe_nnreal_ennreal
  have hgauss : ∫⁻ x, f (x / ∫ z, z.2 ∂ρ) ∂(gaussianReal 0 Var[fun z : P × ℝ => z.2 * (φ z.1 - m); ρ].toNNReal) =
      ∫⁻ x, f x ∂(gaussianReal 0 ((exactValue μ0 M (doubled ℓ) first qs fun x => ENNReal.ofReal ((φ x - m) ^ 2)).toReal /
          (exactValue μ0 M ℓ first qs fun _ => 1).toReal ^ 2).toNNReal) := by
    have := gaussianReal_map_div_const (μ := 0) (v := Var[fun z : P × ℝ => z.2 * (φ z.1 - m); ρ].toNNReal) (∫ z, z.2 ∂ρ)
    rw [← lintegral_map (f := fun x => (f x : ℝ≥0∞)) (g := fun x => x / ∫ z, z.2 ∂ρ) hFm (measurable_id.div_const _), this, zero_div, hvar, ← hint]
    congr 2
    rw [Real.toNNReal_div ENNReal.toReal_nonneg]
    congr 1
    exact (Real.toNNReal_of_nonneg (sq_nonneg _)).symm
  rw [hgauss] at hclt
  refine hclt.congr' ?_
  filter_upwards [eventually_gt_atTop 0] with N hN
  haveI : Nonempty (Fin N) := ⟨⟨0, hN⟩⟩
  have hNr : (0:ℝ) < N := by exact_mod_cast hN
  refine (IndepRun.of_pos hN hpos (hrun N hN) (fun f g hfg => runE_mono (ν N) (F N) (s0 N) first qs hfg)
    (G := fun z => f (√N * ((∑ i, (z i).2 * (φ (z i).1 - m)) / ∑ i, (z i).2))) ?_ _ ?_).symm
  · exact hFm.comp (((Finset.measurable_sum _ fun i _ => (measurable_snd.comp (measurable_pi_apply i)).mul (hφm.comp (measurable_fst.comp (measurable_pi_apply i)))).div
      (Finset.measurable_sum _ fun i _ => measurable_snd.comp (measurable_pi_apply i))).const_mul _)
  · intro s' bs st x' w' hl hx hw hZ
    have hS : 0 < ∑ j, exp (w' j) := Finset.sum_pos (fun _ _ => exp_pos _) Finset.univ_nonempty
    have e1 : ∑ i : Fin N, (N:ℝ) * (likEstimate s'.traj (bs.filterMap id) * (exp (w' i) / ∑ j, exp (w' j))) =
        N * likEstimate s'.traj (bs.filterMap id) := by
      rw [← Finset.mul_sum, ← Finset.mul_sum, ← Finset.sum_div, div_self hS.ne', mul_one]
    have e2 : ∑ i : Fin N, (N:ℝ) * (likEstimate s'.traj (bs.filterMap id) * (exp (w' i) / ∑ j, exp (w' j))) * (φ (x' i) - m) =
        N * likEstimate s'.traj (bs.filterMap id) * (lastMean φ s'.traj - m) := by
      have h1 : ∑ i : Fin N, exp (w' i) / (∑ j, exp (w' j)) = 1 := by rw [← Finset.sum_div, div_self hS.ne']
      rw [lastMean_ofFn φ hl hx hw]
      calc ∑ i : Fin N, (N:ℝ) * (likEstimate s'.traj (bs.filterMap id) * (exp (w' i) / ∑ j, exp (w' j))) * (φ (x' i) - m)
          = N * likEstimate s'.traj (bs.filterMap id) * ∑ i : Fin N, (exp (w' i) / (∑ j, exp (w' j)) * φ (x' i) - m * (exp (w' i) / (∑ j, exp (w' j)))) := by
            rw [Finset.mul_sum]; exact Finset.sum_congr rfl fun i _ => by ring
        _ = _ := by rw [Finset.sum_sub_distrib, ← Finset.mul_sum Finset.univ _ m, h1, mul_one]
    simp only [readout, e1, e2]
    rw [mul_div_cancel_left₀ _ (mul_pos hNr hZ).ne']

end claims

end PyPE

import Verif.Consistency.Run

/-!
# C106: consistency without resampling
-/

namespace PyPE
open Real Spec MeasureTheory ProbabilityTheory Filter
open scoped ENNReal

variable {P U Y V : Type}

/-! ### Specification -/

/-- As `Spec.Samples`, and the particles of a call are independent of each other. -/
structure Spec.IndepSamples {Ω : Type} [MeasurableSpace P] [MeasurableSpace Ω] (K : MarkovModel P U Y V Ω) (good : Slot Y → Prop) (ν : Measure Ω) (N : ℕ)
    (μ0 : Measure P) (M : ℕ → Slot U → Kernel P P) (ℓ : ℕ → Slot Y → P → ℝ) : Prop where
  create : ∃ X : Ω → Fin N → P, Measurable X ∧ ν.map X = (Measure.pi fun _ => μ0) ∧ ∀ ω, K.createInitial N ω = .ok (List.ofFn (X ω))
  move : ∀ (x : Fin N → P) (u : Slot U) (k : ℕ), ∃ X : Ω → Fin N → P, Measurable X ∧ ν.map X = (Measure.pi fun i => M k u (x i)) ∧
    ∀ ω, ∃ v, K.sampleProcessNoise (List.ofFn x) u k ω = .ok v ∧ K.update (List.ofFn x) u k v = .ok (List.ofFn (X ω))
  measure : ∀ (x : Fin N → P) (y : Slot Y) (k : ℕ), good y → K.measure (List.ofFn x) y k = .ok (List.ofFn fun i => ℓ k y (x i))
  meas : ∀ k y, Measurable (ℓ k y)

/-- The weight of the initial particle: the likelihood of the measurement at time 0, if the run starts with one. -/
noncomputable def Spec.startWeight (ℓ : ℕ → Slot Y → P → ℝ) : Option (Slot Y) → P → ℝ
  | none, _ => 1
  | some y, x => exp (ℓ 0 y x)

/-- `E[Π_t p(y_t | x_t) φ(x_T)]` over the whole run; with `φ = 1` the likelihood of the measurements. -/
noncomputable def Spec.exactValue [MeasurableSpace P] (μ0 : Measure P) (M : ℕ → Slot U → Kernel P P) (ℓ : ℕ → Slot Y → P → ℝ) (first : Option (Slot Y))
    (qs : List (Slot U × Slot Y)) (φ : P → ℝ≥0∞) : ℝ≥0∞ :=
  ∫⁻ x, ENNReal.ofReal (startWeight ℓ first x) * pathE M ℓ φ 0 qs x ∂μ0

/-- The filtering expectation `E[φ(x_T) | y_0, ..., y_T]`. -/
noncomputable def Spec.exactMean [MeasurableSpace P] (μ0 : Measure P) (M : ℕ → Slot U → Kernel P P) (ℓ : ℕ → Slot Y → P → ℝ) (first : Option (Slot Y))
    (qs : List (Slot U × Slot Y)) (φ : P → ℝ) : ℝ :=
  ((exactValue μ0 M ℓ first qs fun x => ENNReal.ofReal (φ x)).toReal - (exactValue μ0 M ℓ first qs fun x => ENNReal.ofReal (-φ x)).toReal) /
    (exactValue μ0 M ℓ first qs fun _ => 1).toReal

/-- The weighted mean of `φ` over the particles of the last stored step. -/
noncomputable def Spec.lastMean (φ : P → ℝ) (traj : List (Step P)) : ℝ :=
  match traj.getLast? with
  | none => 0
  | some st => (List.zipWith (fun p x => p * φ x) (normWeights st.pa.w) st.pa.part).sum

/-- `1` if the run raises or if `obs`, read off the stored trajectory and the returned flags, is not within `ε` of `a`; `0` otherwise. -/
noncomputable def Spec.misses (obs : List (Step P) → List Bool → ℝ) (a ε : ℝ) : PT P U Y × PyM (List (Option Bool)) → ℝ≥0∞
  | (s, .ok bs) => if |obs s.traj (bs.filterMap id) - a| < ε then 0 else 1
  | (_, .error _) => 1

/-- Expectation over the random draws of the whole run `measure(y0), forward(u_0, y_1), ...` or `forward(u_0, y_1), ...`. -/
noncomputable def Spec.runE {Ω : Type} [MeasurableSpace Ω] (ν : Measure Ω) (F : FilterOps P U Y V Ω) (s0 : PT P U Y) (first : Option (Slot Y))
    (qs : List (Slot U × Slot Y)) (H : PT P U Y × PyM (List (Option Bool)) → ℝ≥0∞) : ℝ≥0∞ :=
  match first with
  | none => stepsE ν qs fun ds => H (s0.run F (history none ds))
  | some y0 => ∫⁻ ω, stepsE ν qs (fun ds => H (s0.run F (history (some (y0, ω)) ds))) ∂ν

/-! ### The weighted law -/

section law
variable [MeasurableSpace P]

theorem weightedSteps_pos {κ : ℕ → Slot U → Slot Y → Kernel P P} [∀ k u y, IsMarkovKernel (κ k u y)]
    {inc : ℕ → Slot U → Slot Y → P → P → ℝ} (hinc : ∀ k u y, Measurable (Function.uncurry (inc k u y))) (qs : List (Slot U × Slot Y)) (k : ℕ)
    (z : P × ℝ) (hz : 0 < z.2) : weightedSteps κ inc k qs z {z' | z'.2 ≤ 0} = 0 := by
  have hs : MeasurableSet {z' : P × ℝ | z'.2 ≤ 0} := measurableSet_le measurable_snd measurable_const
  induction qs generalizing k z with
  | nil =>
    simp only [weightedSteps, Kernel.id_apply]
    rw [Measure.dirac_apply' _ hs]
    simp [hz]
  | cons q qs ih =>
    simp only [weightedSteps]
    rw [Kernel.comp_apply' _ _ _ hs, weightedStep_lintegral (hinc k q.1 q.2) z (Kernel.measurable_coe _ hs)]
    simp only [ih (k+1) (_, z.2 * exp _) (mul_pos hz (exp_pos _)), lintegral_zero]

theorem weightedLaw_lintegral {κ : ℕ → Slot U → Slot Y → Kernel P P} (inc : ℕ → Slot U → Slot Y → P → P → ℝ) (μ0 : Measure P)
    {c0 : P → ℝ} (hc0 : Measurable c0) (qs : List (Slot U × Slot Y)) {f : P × ℝ → ℝ≥0∞} (hf : Measurable f) :
    ∫⁻ z, f z ∂(weightedLaw κ inc μ0 c0 qs) = ∫⁻ x, ∫⁻ z, f z ∂(weightedSteps κ inc 0 qs (x, c0 x)) ∂μ0 := by
  unfold weightedLaw
  rw [Measure.lintegral_bind (Kernel.measurable _).aemeasurable hf.aemeasurable,
    lintegral_map (g := fun x => (x, c0 x)) hf.lintegral_kernel (measurable_id.prodMk hc0)]

theorem weightedLaw_prob {κ : ℕ → Slot U → Slot Y → Kernel P P} [∀ k u y, IsMarkovKernel (κ k u y)]
    {inc : ℕ → Slot U → Slot Y → P → P → ℝ} (hinc : ∀ k u y, Measurable (Function.uncurry (inc k u y))) (μ0 : Measure P) [IsProbabilityMeasure μ0]
    {c0 : P → ℝ} (hc0 : Measurable c0) (qs : List (Slot U × Slot Y)) : IsProbabilityMeasure (weightedLaw κ inc μ0 c0 qs) := by
  haveI := weightedSteps_markov (κ := κ) hinc qs 0
  constructor
  rw [← MeasureTheory.lintegral_one, weightedLaw_lintegral inc μ0 hc0 qs (f := fun _ => 1) measurable_const]
  simp

theorem weightedLaw_pos {κ : ℕ → Slot U → Slot Y → Kernel P P} [∀ k u y, IsMarkovKernel (κ k u y)]
    {inc : ℕ → Slot U → Slot Y → P → P → ℝ} (hinc : ∀ k u y, Measurable (Function.uncurry (inc k u y))) (μ0 : Measure P)
    {c0 : P → ℝ} (hc0 : Measurable c0) (hp : ∀ x, 0 < c0 x) (qs : List (Slot U × Slot Y)) : ∀ᵐ z ∂(weightedLaw κ inc μ0 c0 qs), 0 < z.2 := by
  have hs : MeasurableSet {z' : P × ℝ | z'.2 ≤ 0} := measurableSet_le measurable_snd measurable_const
  rw [ae_iff]
  simp only [not_lt]
  rw [← lintegral_indicator_one hs, weightedLaw_lintegral inc μ0 hc0 qs (measurable_one.indicator hs)]
  simp only [lintegral_indicator_one hs, weightedSteps_pos hinc qs 0 (_, c0 _) (hp _), lintegral_zero]

end law

/-! ### Consistency of independent weighted particles -/

section consistency
variable [MeasurableSpace P] {ρ : Measure (P × ℝ)} [IsProbabilityMeasure ρ]

theorem weights_consistent (hpos : ∀ᵐ z ∂ρ, 0 < z.2) (hfin : ∫⁻ z, ENNReal.ofReal z.2 ∂ρ ≠ ∞) {ε : ℝ} (hε : 0 < ε) :
    Tendsto (fun N : ℕ => Measure.pi (fun _ : Fin N => ρ) {z | ε ≤ |(∑ i, (z i).2) / N - (∫⁻ z, ENNReal.ofReal z.2 ∂ρ).toReal|}) atTop (nhds 0) := by
  have hnn : 0 ≤ᵐ[ρ] fun z => z.2 := hpos.mono fun z hz => le_of_lt hz
  have hi : Integrable (fun z : P × ℝ => z.2) ρ := by
    refine ⟨measurable_snd.aestronglyMeasurable, ?_⟩
    rw [hasFiniteIntegral_iff_ofReal hnn]
    exact lt_top_iff_ne_top.mpr hfin
  rw [← integral_eq_lintegral_of_nonneg_ae hnn measurable_snd.aestronglyMeasurable]
  refine tendsto_pi ρ (S := fun N z => (∑ i, (z i).2) / N) (fun N => ?_) (sum_law ρ measurable_snd hi) hε
  exact (Finset.measurable_sum _ fun i _ => measurable_snd.comp (measurable_pi_apply i)).div_const _

theorem mean_consistent (hpos : ∀ᵐ z ∂ρ, 0 < z.2) (hfin : ∫⁻ z, ENNReal.ofReal z.2 ∂ρ ≠ ∞) {φ : P → ℝ} (hφ : Measurable φ)
    (hφi : ∫⁻ z, ENNReal.ofReal z.2 * ENNReal.ofReal |φ z.1| ∂ρ ≠ ∞) {ε : ℝ} (hε : 0 < ε) :
    Tendsto (fun N : ℕ => Measure.pi (fun _ : Fin N => ρ) {z | ε ≤ |(∑ i, (z i).2 * φ (z i).1) / (∑ i, (z i).2) -
      ((∫⁻ z, ENNReal.ofReal z.2 * ENNReal.ofReal (φ z.1) ∂ρ).toReal - (∫⁻ z, ENNReal.ofReal z.2 * ENNReal.ofReal (-φ z.1) ∂ρ).toReal) /
        (∫⁻ z, ENNReal.ofReal z.2 ∂ρ).toReal|}) atTop (nhds 0) := by
  have hnn : 0 ≤ᵐ[ρ] fun z => z.2 := hpos.mono fun z hz => le_of_lt hz
  have hi : Integrable (fun z : P × ℝ => z.2) ρ := by
    refine ⟨measurable_snd.aestronglyMeasurable, ?_⟩
    rw [hasFiniteIntegral_iff_ofReal hnn]
    exact lt_top_iff_ne_top.mpr hfin
  have hm : Measurable fun z : P × ℝ => z.2 * φ z.1 := measurable_snd.mul (hφ.comp measurable_fst)
  have hi2 : Integrable (fun z : P × ℝ => z.2 * φ z.1) ρ := by
    refine ⟨hm.aestronglyMeasurable, ?_⟩
    rw [hasFiniteIntegral_iff_norm]
    refine lt_of_le_of_lt (le_of_eq (lintegral_congr_ae ?_)) (lt_top_iff_ne_top.mpr hφi)
    filter_upwards [hpos] with z hz
    rw [Real.norm_eq_abs, abs_mul, abs_of_pos hz, ENNReal.ofReal_mul hz.le]
  have e2 : ∫ z, z.2 * φ z.1 ∂ρ =
      (∫⁻ z, ENNReal.ofReal z.2 * ENNReal.ofReal (φ z.1) ∂ρ).toReal - (∫⁻ z, ENNReal.ofReal z.2 * ENNReal.ofReal (-φ z.1) ∂ρ).toReal := by
    rw [integral_eq_lintegral_pos_part_sub_lintegral_neg_part hi2]
    congr 2 <;> refine lintegral_congr_ae ?_
    · filter_upwards [hpos] with z hz
      rw [ENNReal.ofReal_mul hz.le]
    · filter_upwards [hpos] with z hz
      rw [← mul_neg, ENNReal.ofReal_mul hz.le]
  have hpi : 0 < ∫ z, z.2 ∂ρ := by
    rw [integral_pos_iff_support_of_nonneg_ae hnn hi]
    have : ρ (Function.support fun z : P × ℝ => z.2) = ρ Set.univ := by
      refine measure_congr ?_
      filter_upwards [hpos] with z hz
      exact propext ⟨fun _ => trivial, fun _ => hz.ne'⟩
    rw [this, measure_univ]
    exact one_pos
  rw [← e2, ← integral_eq_lintegral_of_nonneg_ae hnn measurable_snd.aestronglyMeasurable]
  have hms : ∀ N : ℕ, Measurable fun z : Fin N → P × ℝ => ∑ i, (z i).2 := fun N =>
    Finset.measurable_sum _ fun i _ => measurable_snd.comp (measurable_pi_apply i)
  have hmf : ∀ N : ℕ, Measurable fun z : Fin N → P × ℝ => ∑ i, (z i).2 * φ (z i).1 := fun N =>
    Finset.measurable_sum _ fun i _ => hm.comp (measurable_pi_apply i)
  refine tendsto_pi ρ (S := fun N z => (∑ i, (z i).2 * φ (z i).1) / (∑ i, (z i).2)) (fun N => (hmf N).div (hms N)) ?_ hε
  filter_upwards [sum_law ρ measurable_snd hi, sum_law ρ hm hi2] with ω h1 h2
  refine (h2.div h1 hpi.ne').congr' ?_
  filter_upwards [eventually_gt_atTop 0] with N hN
  have : (N:ℝ) ≠ 0 := by exact_mod_cast hN.ne'
  simp only [Pi.div_apply]
  rw [div_div_div_cancel_right₀ this]

end consistency

/-! ### From particles to runs -/

/-- The outcome of a run is distributed as for `N` independent weighted particles with law `ρ`. -/
def IndepRun [MeasurableSpace P] (N : ℕ) (ρ : Measure (P × ℝ)) (E : (PT P U Y × PyM (List (Option Bool)) → ℝ≥0∞) → ℝ≥0∞) : Prop :=
  ∀ (G : (Fin N → P × ℝ) → ℝ≥0∞), Measurable G → ∀ H : PT P U Y × PyM (List (Option Bool)) → ℝ≥0∞,
    (∀ s' bs st (x' : Fin N → P) (w' : Fin N → ℝ), s'.traj.getLast? = some st → st.pa.part = List.ofFn x' → st.pa.w = List.ofFn w' →
      H (s', .ok bs) = G fun i => (x' i, N * (likEstimate s'.traj (bs.filterMap id) * (exp (w' i) / ∑ j, exp (w' j))))) →
    E H = ∫⁻ z, G z ∂(Measure.pi fun _ : Fin N => ρ)

theorem likEstimate_nonneg (traj : List (Step P)) (flags : List Bool) : 0 ≤ likEstimate traj flags := by
  have h : ∀ (l : List (Step P)) fs, 0 ≤ likProd l fs := by
    intro l fs
    induction l generalizing fs with
    | nil => simp [likProd]
    | cons a l ih =>
      cases l with
      | nil => simp [likProd]
      | cons b l => cases fs with
        | nil => simp [likProd]
        | cons f fs => rw [likProd]; exact mul_nonneg (likIncr_nonneg _ _ _) (ih fs)
  unfold likEstimate
  refine mul_nonneg ?_ (h _ _)
  split
  · exact zero_le_one
  · unfold mass
    exact List.sum_nonneg fun x hx => by obtain ⟨z, -, rfl⟩ := List.mem_map.mp hx; exact (exp_pos _).le

theorem likIncr_pos {a b : PA P} (f : Bool) (ha : a.w ≠ []) (hb : b.w ≠ []) : 0 < likIncr a b f := by
  have hp : ∀ (l : List ℝ) (g : ℝ → ℝ), (∀ x, 0 < g x) → l ≠ [] → 0 < (l.map g).sum := by
    intro l g hg hl
    exact List.sum_pos _ (fun x hx => by obtain ⟨z, -, rfl⟩ := List.mem_map.mp hx; exact hg _) (by simpa using hl)
  unfold likIncr mass
  refine div_pos (hp _ _ (fun _ => exp_pos _) hb) ?_
  split
  · exact one_pos
  · exact hp _ _ (fun _ => exp_pos _) ha

theorem run_consistent_lik [MeasurableSpace P] {ρ : Measure (P × ℝ)} [IsProbabilityMeasure ρ] (hpos : ∀ᵐ z ∂ρ, 0 < z.2)
    (hfin : ∫⁻ z, ENNReal.ofReal z.2 ∂ρ ≠ ∞) {E : ℕ → (PT P U Y × PyM (List (Option Bool)) → ℝ≥0∞) → ℝ≥0∞}
    (hE : ∀ N, 0 < N → IndepRun N ρ (E N)) {ε : ℝ} (hε : 0 < ε) :
    Tendsto (fun N => E N (misses likEstimate (∫⁻ z, ENNReal.ofReal z.2 ∂ρ).toReal ε)) atTop (nhds 0) := by
  refine (weights_consistent hpos hfin hε).congr' ?_
  filter_upwards [eventually_gt_atTop 0] with N hN
  haveI : Nonempty (Fin N) := ⟨⟨0, hN⟩⟩
  have hNr : (0:ℝ) < N := by exact_mod_cast hN
  set a := (∫⁻ z, ENNReal.ofReal z.2 ∂ρ).toReal
  have hs : MeasurableSet {z : Fin N → P × ℝ | ε ≤ |(∑ i, (z i).2) / N - a|} :=
    measurableSet_le measurable_const (continuous_abs.measurable.comp
      (((Finset.measurable_sum _ fun i _ => measurable_snd.comp (measurable_pi_apply i)).div_const _).sub_const a))
  rw [hE N hN _ (measurable_one.indicator hs) (misses likEstimate a ε) ?_, lintegral_indicator_one hs]
  intro s' bs st x' w' hl hx hw
  have hS : 0 < ∑ j, exp (w' j) := Finset.sum_pos (fun _ _ => exp_pos _) Finset.univ_nonempty
  have e : (∑ i : Fin N, (N:ℝ) * (likEstimate s'.traj (bs.filterMap id) * (exp (w' i) / ∑ j, exp (w' j)))) / N = likEstimate s'.traj (bs.filterMap id) := by
    rw [← Finset.mul_sum, ← Finset.mul_sum, ← Finset.sum_div, div_self hS.ne']
    field_simp
  simp only [misses, Set.indicator, Set.mem_setOf_eq, e, Pi.one_apply]
  split <;> rename_i h
  · rw [if_neg (not_le.mpr h)]
  · rw [if_pos (not_lt.mp h)]

theorem lastMean_ofFn {N : ℕ} (φ : P → ℝ) {traj : List (Step P)} {st : Step P} (hl : traj.getLast? = some st) {x : Fin N → P} {w : Fin N → ℝ}
    (hx : st.pa.part = List.ofFn x) (hw : st.pa.w = List.ofFn w) : lastMean φ traj = ∑ i, exp (w i) / (∑ j, exp (w j)) * φ (x i) := by
  unfold lastMean normWeights
  rw [hl]
  simp only [hx, hw, List.map_ofFn]
  rw [zipWith_ofFn', List.sum_ofFn, List.sum_ofFn]
  rfl

theorem stepsE_mono {Ω : Type} [MeasurableSpace Ω] (ν : Measure Ω) (qs : List (Slot U × Slot Y)) {f g : List (Slot U × Slot Y × Ω × Draws Ω) → ℝ≥0∞}
    (h : ∀ ds, f ds ≤ g ds) : stepsE ν qs f ≤ stepsE ν qs g := by
  induction qs generalizing f g with
  | nil => exact h []
  | cons q qs ih =>
    simp only [stepsE]
    exact lintegral_mono fun _ => lintegral_mono fun _ => lintegral_mono fun _ => lintegral_mono fun _ => ih fun _ => h _

theorem runE_mono {Ω : Type} [MeasurableSpace Ω] (ν : Measure Ω) (F : FilterOps P U Y V Ω) (s0 : PT P U Y) (first : Option (Slot Y))
    (qs : List (Slot U × Slot Y)) {f g : PT P U Y × PyM (List (Option Bool)) → ℝ≥0∞} (h : ∀ o, f o ≤ g o) :
    runE ν F s0 first qs f ≤ runE ν F s0 first qs g := by
  cases first with
  | none => exact stepsE_mono ν qs fun _ => h _
  | some y => exact lintegral_mono fun _ => stepsE_mono ν qs fun _ => h _

theorem run_consistent_mean [MeasurableSpace P] {ρ : Measure (P × ℝ)} [IsProbabilityMeasure ρ] (hpos : ∀ᵐ z ∂ρ, 0 < z.2)
    (hfin : ∫⁻ z, ENNReal.ofReal z.2 ∂ρ ≠ ∞) {φ : P → ℝ} (hφ : Measurable φ)
    (hφi : ∫⁻ z, ENNReal.ofReal z.2 * ENNReal.ofReal |φ z.1| ∂ρ ≠ ∞) {E : ℕ → (PT P U Y × PyM (List (Option Bool)) → ℝ≥0∞) → ℝ≥0∞}
    (hE : ∀ N, 0 < N → IndepRun N ρ (E N)) (hmono : ∀ N f g, (∀ o, f o ≤ g o) → E N f ≤ E N g) {ε : ℝ} (hε : 0 < ε) :
    Tendsto (fun N => E N (misses (fun traj _ => lastMean φ traj)
      (((∫⁻ z, ENNReal.ofReal z.2 * ENNReal.ofReal (φ z.1) ∂ρ).toReal - (∫⁻ z, ENNReal.ofReal z.2 * ENNReal.ofReal (-φ z.1) ∂ρ).toReal) /
        (∫⁻ z, ENNReal.ofReal z.2 ∂ρ).toReal) ε)) atTop (nhds 0) := by
  obtain ⟨a, ha⟩ : ∃ a : ℝ, a = ((∫⁻ z, ENNReal.ofReal z.2 * ENNReal.ofReal (φ z.1) ∂ρ).toReal - (∫⁻ z, ENNReal.ofReal z.2 * ENNReal.ofReal (-φ z.1) ∂ρ).toReal) /
        (∫⁻ z, ENNReal.ofReal z.2 ∂ρ).toReal := ⟨_, rfl⟩
  have hc := mean_consistent hpos hfin hφ hφi hε
  rw [← ha] at hc ⊢
  refine tendsto_of_tendsto_of_tendsto_of_le_of_le' tendsto_const_nhds hc (Eventually.of_forall fun _ => bot_le) ?_
  filter_upwards [eventually_gt_atTop 0] with N hN
  haveI : Nonempty (Fin N) := ⟨⟨0, hN⟩⟩
  have hNr : (0:ℝ) < N := by exact_mod_cast hN
  have hms : Measurable fun z : Fin N → P × ℝ => ∑ i, (z i).2 :=
    Finset.measurable_sum _ fun i _ => measurable_snd.comp (measurable_pi_apply i)
  have hmf : Measurable fun z : Fin N → P × ℝ => ∑ i, (z i).2 * φ (z i).1 :=
    Finset.measurable_sum _ fun i _ => (measurable_snd.comp (measurable_pi_apply i)).mul (hφ.comp (measurable_fst.comp (measurable_pi_apply i)))
  set S : Set (Fin N → P × ℝ) := {z | ε ≤ |(∑ i, (z i).2 * φ (z i).1) / (∑ i, (z i).2) - a|} with hS
  set B : Set (Fin N → P × ℝ) := {z | (∑ i, (z i).2) ≤ 0} with hB
  have hSm : MeasurableSet S := measurableSet_le measurable_const (continuous_abs.measurable.comp ((hmf.div hms).sub_const a))
  have hBm : MeasurableSet B := measurableSet_le hms measurable_const
  have hB0 : Measure.pi (fun _ : Fin N => ρ) B = 0 := by
    have h1 : ∀ i : Fin N, ∀ᵐ z ∂(Measure.pi fun _ : Fin N => ρ), 0 < (z i).2 := by
      intro i
      have := (measurePreserving_eval (fun _ : Fin N => ρ) i).quasiMeasurePreserving.ae hpos
      exact this
    have h2 : ∀ᵐ z ∂(Measure.pi fun _ : Fin N => ρ), ∀ i, 0 < (z i).2 := ae_all_iff.mpr h1
    refine measure_mono_null (fun z hz => ?_) (ae_iff.mp h2)
    intro h
    exact absurd (Finset.sum_pos (fun i _ => h i) Finset.univ_nonempty) (not_lt.mpr hz)
  set H' : PT P U Y × PyM (List (Option Bool)) → ℝ≥0∞ := fun o => match o with
    | (s, .ok bs) => if likEstimate s.traj (bs.filterMap id) ≤ 0 then 1 else misses (fun traj _ => lastMean φ traj) a ε (s, .ok bs)
    | (_, .error _) => 1 with hH'
  have hle : E N (misses (fun traj _ => lastMean φ traj) a ε) ≤ E N H' := by
    refine hmono N _ _ fun o => ?_
    rcases o with ⟨s, e | bs⟩
    · exact le_refl _
    · simp only [hH']
      split
      · unfold misses; dsimp only; split <;> simp
      · exact le_refl _
  refine hle.trans (le_of_eq ?_)
  rw [hE N hN _ (measurable_one.indicator (hSm.union hBm)) H' ?_, lintegral_indicator_one (hSm.union hBm),
    measure_congr (union_ae_eq_left_of_ae_eq_empty (ae_eq_empty.mpr hB0))]
  intro s' bs st x' w' hl hx hw
  have hs : 0 < ∑ j, exp (w' j) := Finset.sum_pos (fun _ _ => exp_pos _) Finset.univ_nonempty
  set Z := likEstimate s'.traj (bs.filterMap id) with hZ
  have e1 : ∑ i : Fin N, (N:ℝ) * (Z * (exp (w' i) / ∑ j, exp (w' j))) = N * Z := by
    rw [← Finset.mul_sum, ← Finset.mul_sum, ← Finset.sum_div, div_self hs.ne', mul_one]
  have e2 : ∑ i : Fin N, (N:ℝ) * (Z * (exp (w' i) / ∑ j, exp (w' j))) * φ (x' i) = N * Z * lastMean φ s'.traj := by
    rw [lastMean_ofFn φ hl hx hw, Finset.mul_sum]
    exact Finset.sum_congr rfl fun i _ => by ring
  simp only [hH', Set.indicator, Set.mem_union, hS, hB, Set.mem_setOf_eq, e1, e2, ← hZ, Pi.one_apply]
  by_cases h0 : Z ≤ 0
  · rw [if_pos h0, if_pos (Or.inr (mul_nonpos_of_nonneg_of_nonpos hNr.le h0))]
  · have hZ0 : 0 < Z := not_le.mp h0
    have hNZ := mul_pos hNr hZ0
    rw [if_neg h0, mul_div_cancel_left₀ _ hNZ.ne']
    simp only [misses, not_le.mpr hNZ, or_false]
    split <;> rename_i h
    · rw [if_neg (not_le.mpr h)]
    · rw [if_pos (not_lt.mp h)]

end PyPE

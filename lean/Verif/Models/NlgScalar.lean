import Verif.Linear.Claims
import Verif.Models.NlgApf
import Verif.Kalman.Single
import Mathlib.MeasureTheory.Measure.CharacteristicFunction.TaylorExpansion

/-!
# C110: `NonlinearGaussian` models with a scalar measurement are filtered with the standard deviation as the variance

C46 computes what `measure` returns when the measurement is a number and `R` is constant: the log-density of `N(g(x), √R)`. Here: a filter run on
such a model is, call by call, a run on the model with measurement variance `√R`.
-/

namespace PyPE
open Real Spec MeasureTheory ProbabilityTheory Matrix
open scoped ENNReal

variable {n : ℕ} {U : Type}

/-- The same model with a `calc_R` that returns `s` for every particle. -/
def NlgHooks.withR {T : Type} (H : NlgHooks n 1 U T) (s : ℝ) : NlgHooks n 1 U T := { H with calcR := fun parts _ => some (parts.map fun _ => !![s]) }

/-- The object describes `x⁺ ~ N(F, Q)`, `y ~ N(G, r)` with a scalar measurement: there is no `calc_R` hook and `R = r` was given to the constructor
or `set_R`. -/
structure Spec.NlgScalarOut (H : NlgHooks n 1 (Slot U) ℕ) (o : NlgObj n 1) (F : ℕ → Slot U → (Fin n → ℝ) → Fin n → ℝ)
    (Q : ℕ → Slot U → (Fin n → ℝ) → Matrix (Fin n) (Fin n) ℝ) (G : ℕ → (Fin n → ℝ) → Fin 1 → ℝ) (r : ℝ) : Prop where
  drift : ∀ parts u t, Spec.DriftIs parts (H.calcF parts u t) o.f (F t u)
  cov : ∀ parts u t, Spec.CovHook parts (H.calcQ parts u t) (Q t u) ∨
      (H.calcQ parts u t = none ∧ ∃ Q0, Q0.PosDef ∧ Spec.HasQ o Q0 ∧ ∀ x, Q t u x = Q0)
  out : ∀ parts t, Spec.DriftIs parts (H.calcG parts t) o.g (G t)
  noHook : ∀ parts t, H.calcR parts t = none
  hasR : Spec.HasR o !![r]
  pos : 0 < r

variable {H : NlgHooks n 1 (Slot U) ℕ} {o : NlgObj n 1} {F : ℕ → Slot U → (Fin n → ℝ) → Fin n → ℝ}
    {Q : ℕ → Slot U → (Fin n → ℝ) → Matrix (Fin n) (Fin n) ℝ} {G : ℕ → (Fin n → ℝ) → Fin 1 → ℝ} {r : ℝ}

theorem scalarOut_describes (hD : NlgScalarOut H o F Q G r) : NlgDescribes (H.withR (√r)) o F Q G fun _ _ => !![√r] :=
  ⟨hD.drift, hD.cov, hD.out, fun _ _ => .inl ⟨rfl, fun _ => single_posDef (sqrt_pos.2 hD.pos)⟩⟩

theorem logNormal_pdf {s : ℝ} (hs : 0 < s) (y g : Fin 1 → ℝ) : logNormal !![s] (y - g) = Real.log (gaussianPDFReal (g 0) s.toNNReal (y 0)) := by
  rw [logNormal_single _ hs, gaussianPDFReal, coe_toNNReal _ hs.le, Real.log_mul (by positivity) (exp_pos _).ne', Real.log_exp, Real.log_inv,
    Real.log_sqrt (by positivity), Real.log_mul (by positivity) hs.ne']
  simp only [Pi.sub_apply]
  field_simp
  ring

theorem scalarOut_measure (hD : NlgScalarOut H o F Q G r) (parts : List (Fin n → ℝ)) (y : Fin 1 → ℝ) (t : ℕ) :
    nlgMeasure H o parts y t = nlgMeasure (H.withR (√r)) o parts y t := by
  rw [C46_measure_scalar H o parts y t (G t) r (hD.out _ _) (hD.noHook _ _) hD.hasR,
    C46_measure (H.withR (√r)) o parts y t (G t) (fun _ => !![√r]) (hD.out _ _) ((scalarOut_describes hD).outCov _ _)]
  simp only [logNormal_pdf (sqrt_pos.2 hD.pos)]

/-- C110: the model with a constant scalar `R` gives the filters the same results, for every argument, as the model with variance `√R`: the two sets
of callbacks (also with the first-stage weights of the auxiliary filter) are equal, so every run of every filter is the same. -/
theorem C110_same_callbacks (hD : NlgScalarOut H o F Q G r) (o0 : NlgX0 n) (N : ℕ) :
    nlgMarkov N H o o0 = nlgMarkov N (H.withR (√r)) o o0 ∧
      ∀ rest : Callbacks (Fin n → ℝ) U (Fin 1 → ℝ) (List (Fin n → ℝ)) (Fin N → Fin n → ℝ), nlgApfRest H o rest = nlgApfRest (H.withR (√r)) o rest := by
  constructor
  · unfold nlgMarkov
    congr 1
    funext part y t
    cases y with
    | none => rfl
    | zero => rfl
    | obj y => exact scalarOut_measure hD part y t
  · intro rest
    unfold nlgApfRest
    congr 1
    funext part u y t
    cases y with
    | none => rfl
    | zero => rfl
    | obj y =>
      show nlgFirstStage H o part u y t (t + 1) = nlgFirstStage (H.withR (√r)) o part u y t (t + 1)
      unfold nlgFirstStage
      have : ∀ v, nlgUpdate H o part u t v = nlgUpdate (H.withR (√r)) o part u t v := fun v => rfl
      rw [this]
      congr 1
      funext partn
      exact scalarOut_measure hD partn y (t + 1)

/-- C110, what the bootstrap filter estimates: with a diagonal `Px0`, any number of particles and any resampling threshold, the estimate of the
likelihood times the weighted mean of `φ` has as its mean the exact value for the model `x⁺ ~ N(F, Q)`, `y ~ N(G, √R)`. -/
theorem C110_filter_value (hD : NlgScalarOut H o F Q G r) {o0 : NlgX0 n} (hP : o0.P0.PosDef) (h0 : o0.P0 ≠ 0) (hdiag : ∀ i j, i ≠ j → o0.P0 i j = 0)
    {M : ℕ → Slot U → Kernel (Fin n → ℝ) (Fin n → ℝ)} (hM : ∀ t u x, M t u x = gauss (F t u x) (Q t u x)) (hG : ∀ t, Measurable (G t))
    {N : ℕ} (hN : 0 < N) {rest : Callbacks (Fin n → ℝ) U (Fin 1 → ℝ) (List (Fin n → ℝ)) (Fin N → Fin n → ℝ)} {res : ℝ} {name : String}
    {opts : FilterOptions (Fin n → ℝ)} (hn : parseFilter name = .ok .pf) {Fl : FilterOps (Fin n → ℝ) U (Fin 1 → ℝ) _ _}
    (hF : mkFilter ((nlgMarkov N H o o0).toCallbacks rest) N res name opts = .ok Fl) {T : Option ℕ} {s0 : PT (Fin n → ℝ) U (Fin 1 → ℝ)}
    (hs : PT.init N T 0 = .ok s0) (first : Option (Fin 1 → ℝ)) (qs : List (Slot U × (Fin 1 → ℝ))) (hne : first = none → qs ≠ [])
    {φ : (Fin n → ℝ) → ℝ≥0∞} (hφ : Measurable φ) :
    runE (normals N n) Fl s0 (first.map .obj) (asSlots qs) (runEstimate φ) =
      exactValue (gauss o0.x0 o0.P0) M (nlgLoglik G fun _ _ => !![√r]) (first.map .obj) (asSlots qs) φ := by
  rw [(C110_same_callbacks hD o0 N).1] at hF
  have hmeas : ∀ t y, Measurable (nlgLoglik G (fun _ _ => !![√r]) t y) := by
    intro t y
    cases y with
    | none => exact measurable_const
    | zero => exact measurable_const
    | obj y => exact (continuous_logNormal _).measurable.comp (measurable_const.sub (hG t))
  have hsmp := nlg_samples (scalarOut_describes hD) o0 (N := N) (nlg_create_diag hP h0 hdiag N) hM hmeas
  have hu := C89_bootstrap_unbiased hN hsmp hn hF hφ hs (asSlots qs) (asSlots_isObj qs)
  cases first with
  | none =>
    simp only [runE, Option.map_none, exactValue, startWeight, ENNReal.ofReal_one, one_mul]
    refine hu.2 fun h => hne rfl ?_
    cases qs with
    | nil => rfl
    | cons => cases h
  | some y => exact hu.1 (.obj y) ⟨_, rfl⟩

/-! ### The variance can be read off the likelihood -/

/-- The law of a state function plus independent normal noise, as a density. -/
theorem mix_conv {X : Type} [MeasurableSpace X] {μ : Measure X} [IsProbabilityMeasure μ] {g : X → ℝ} (hg : Measurable g) {s : NNReal} (hs : s ≠ 0) :
    (μ.map g).conv (gaussianReal 0 s) = volume.withDensity fun y => ∫⁻ x, gaussianPDF (g x) s y ∂μ := by
  haveI : IsProbabilityMeasure (μ.map g) := Measure.isProbabilityMeasure_map hg.aemeasurable
  have hpdf : Measurable fun p : X × ℝ => gaussianPDF (g p.1) s p.2 := by
    unfold gaussianPDF gaussianPDFReal
    fun_prop
  ext A hA
  have hi : Measurable (A.indicator (1 : ℝ → ℝ≥0∞)) := measurable_one.indicator hA
  have h1 : Measurable fun p : ℝ × ℝ => A.indicator (1 : ℝ → ℝ≥0∞) (p.1 + p.2) := hi.comp (measurable_fst.add measurable_snd)
  rw [← lintegral_indicator_one hA, Measure.lintegral_conv hi, lintegral_map h1.lintegral_prod_right' hg, withDensity_apply _ hA,
    ← lintegral_indicator hA]
  have h2 : ∀ x, ∫⁻ y, A.indicator (1 : ℝ → ℝ≥0∞) (g x + y) ∂(gaussianReal 0 s) = ∫⁻ y, A.indicator (fun y => gaussianPDF (g x) s y) y := by
    intro x
    rw [← lintegral_map (f := A.indicator (1 : ℝ → ℝ≥0∞)) hi (by fun_prop : Measurable fun y : ℝ => g x + y), gaussianReal_map_const_add, zero_add,
      gaussianReal_of_var_ne_zero _ hs, lintegral_withDensity_eq_lintegral_mul _ (measurable_gaussianPDF _ _) hi]
    refine lintegral_congr fun y => ?_
    by_cases hy : y ∈ A <;> simp [hy]
  simp only [h2]
  rw [lintegral_lintegral_swap]
  · refine lintegral_congr fun y => ?_
    by_cases hy : y ∈ A <;> simp [hy]
  · have : Function.uncurry (fun x y => A.indicator (fun y => gaussianPDF (g x) s y) y) =
        (Set.univ ×ˢ A).indicator fun p : X × ℝ => gaussianPDF (g p.1) s p.2 := by
      funext p
      by_cases hp : p.2 ∈ A <;> simp [Function.uncurry, hp]
    rw [this]
    exact (hpdf.indicator (MeasurableSet.univ.prod hA)).aemeasurable

/-- Mixtures of normal densities with the same means and different variances are different, whatever the law of the means is. -/
theorem mix_variance {X : Type} [MeasurableSpace X] {μ : Measure X} [IsProbabilityMeasure μ] {g : X → ℝ} (hg : Measurable g) {s s' : NNReal}
    (hs : s ≠ 0) (hs' : s' ≠ 0) (h : ∀ y, ∫⁻ x, gaussianPDF (g x) s y ∂μ = ∫⁻ x, gaussianPDF (g x) s' y ∂μ) : s = s' := by
  haveI : IsProbabilityMeasure (μ.map g) := Measure.isProbabilityMeasure_map hg.aemeasurable
  have hc : (μ.map g).conv (gaussianReal 0 s) = (μ.map g).conv (gaussianReal 0 s') := by
    rw [mix_conv hg hs, mix_conv hg hs']
    congr 1
    funext y
    exact h y
  have hcont : Continuous (charFun (μ.map g)) := continuous_charFun
  have h1 : charFun (μ.map g) 0 ≠ 0 := by simp [charFun_zero]
  have h2 : ∀ᶠ t in nhdsWithin (0 : ℝ) (Set.Ioi 0), charFun (μ.map g) t ≠ 0 :=
    (hcont.continuousAt.eventually_ne h1).filter_mono nhdsWithin_le_nhds
  obtain ⟨t, ht0, ht⟩ := (h2.and self_mem_nhdsWithin).exists
  have hf := congrArg (fun ρ => charFun ρ t) hc
  simp only [charFun_conv, charFun_gaussianReal] at hf
  have hexp := mul_left_cancel₀ ht0 hf
  have hn := congrArg norm hexp
  rw [Complex.norm_exp, Complex.norm_exp, exp_eq_exp] at hn
  have h3 : ∀ v : NNReal, ((t : ℂ) * ((0 : ℝ) : ℂ) * Complex.I - (v : ℂ) * (t : ℂ) ^ 2 / 2).re = -((v : ℝ) * t ^ 2 / 2) := by
    intro v
    have : ((t : ℂ) * ((0 : ℝ) : ℂ) * Complex.I - (v : ℂ) * (t : ℂ) ^ 2 / 2) = ((-((v : ℝ) * t ^ 2 / 2) : ℝ) : ℂ) := by
      push_cast
      ring
    rw [this, Complex.ofReal_re]
  rw [h3, h3] at hn
  have htp : 0 < t ^ 2 := pow_pos ht 2
  have : (s : ℝ) = s' := by nlinarith
  exact_mod_cast this

/-- C110 (Defect): whatever the model is, the estimate of the likelihood of the first measurement has the likelihood under the stated model,
`y ~ N(G, R)`, as its mean for every measurement exactly if `R = 1`. -/
theorem C110_stated_likelihood (hD : NlgScalarOut H o F Q G r) {o0 : NlgX0 n} (hP : o0.P0.PosDef) (h0 : o0.P0 ≠ 0)
    (hdiag : ∀ i j, i ≠ j → o0.P0 i j = 0) {M : ℕ → Slot U → Kernel (Fin n → ℝ) (Fin n → ℝ)}
    (hM : ∀ t u x, M t u x = gauss (F t u x) (Q t u x)) (hG : ∀ t, Measurable (G t))
    {N : ℕ} (hN : 0 < N) {rest : Callbacks (Fin n → ℝ) U (Fin 1 → ℝ) (List (Fin n → ℝ)) (Fin N → Fin n → ℝ)} {res : ℝ} {name : String}
    {opts : FilterOptions (Fin n → ℝ)} (hn : parseFilter name = .ok .pf) {Fl : FilterOps (Fin n → ℝ) U (Fin 1 → ℝ) _ _}
    (hF : mkFilter ((nlgMarkov N H o o0).toCallbacks rest) N res name opts = .ok Fl) {T : Option ℕ} {s0 : PT (Fin n → ℝ) U (Fin 1 → ℝ)}
    (hs : PT.init N T 0 = .ok s0) :
    (∀ y : Fin 1 → ℝ, runE (normals N n) Fl s0 (some (.obj y)) [] (runEstimate 1) =
      ∫⁻ x, ENNReal.ofReal (exp (logNormal !![r] (y - G 0 x))) ∂(gauss o0.x0 o0.P0)) ↔ r = 1 := by
  have hr := hD.pos
  have hsr : 0 < √r := sqrt_pos.2 hr
  have hpdf : ∀ {s : ℝ}, 0 < s → ∀ (y g : Fin 1 → ℝ), ENNReal.ofReal (exp (logNormal !![s] (y - g))) = gaussianPDF (g 0) s.toNNReal (y 0) := by
    intro s hs y g
    have : s.toNNReal ≠ 0 := by rw [Ne, toNNReal_eq_zero]; exact not_le.2 hs
    rw [logNormal_pdf hs, exp_log (gaussianPDFReal_pos _ _ _ this), gaussianPDF]
  have key : ∀ y : Fin 1 → ℝ, runE (normals N n) Fl s0 (some (.obj y)) [] (runEstimate 1) =
      ∫⁻ x, ENNReal.ofReal (exp (logNormal !![√r] (y - G 0 x))) ∂(gauss o0.x0 o0.P0) := by
    intro y
    have h := C110_filter_value hD hP h0 hdiag hM hG hN hn hF hs (some y) [] (by simp) (φ := 1) measurable_const
    simpa [exactValue, startWeight, asSlots, pathE, nlgLoglik] using h
  constructor
  · intro h
    have hm : Measurable fun x => G 0 x 0 := (measurable_pi_apply 0).comp (hG 0)
    have := mix_variance (μ := gauss o0.x0 o0.P0) hm (s := (√r).toNNReal) (s' := r.toNNReal) (by simpa using hsr) (by simpa using hr) (by
      intro y
      have h1 := h fun _ => y
      rw [key] at h1
      simpa only [hpdf hsr, hpdf hr] using h1)
    have h2 : √r = r := by
      have := congrArg NNReal.toReal this
      rwa [coe_toNNReal _ hsr.le, coe_toNNReal _ hr.le] at this
    have h3 : r = r * r := by
      nth_rw 1 [← Real.mul_self_sqrt hr.le]
      rw [h2]
    have h4 : r * (r - 1) = 0 := by linarith
    rcases mul_eq_zero.mp h4 with h4 | h4
    · exact absurd h4 hr.ne'
    · linarith
  · rintro rfl y
    rw [key, sqrt_one]

end PyPE

import Verif.Smooth.GibbsRun

/-!
# C97: one Metropolis-Hastings update of one state of a path leaves the smoothing law unchanged
-/

namespace PyPE
open Real Spec MeasureTheory ProbabilityTheory
open scoped ENNReal

variable {P U Y V Ω : Type}

/-- Metropolis-Hastings with an independence proposal `Q`, for the target `τ · Q`: accept `z` instead of `x` with probability
`min(1, τ(z)/τ(x))`. -/
theorem mh_swap [MeasurableSpace P] {Q : Measure P} [IsProbabilityMeasure Q] {τ : P → ℝ} (hτ : Measurable τ) (hpos : ∀ x, 0 < τ x)
    {F : P → ℝ≥0∞} (hF : Measurable F) :
    ∫⁻ x, ENNReal.ofReal (τ x) * ∫⁻ z, ENNReal.ofReal (min 1 (τ z / τ x)) * F z + ENNReal.ofReal (1 - min 1 (τ z / τ x)) * F x ∂Q ∂Q =
      ∫⁻ x, ENNReal.ofReal (τ x) * F x ∂Q := by
  have hmin : ∀ x z, τ x * min 1 (τ z / τ x) = min (τ x) (τ z) := by
    intro x z
    rw [mul_min_of_nonneg _ _ (hpos x).le, mul_one, mul_div_cancel₀ _ (hpos x).ne']
  have hm0 : ∀ x z, 0 ≤ min 1 (τ z / τ x) := fun x z => le_min zero_le_one (div_nonneg (hpos z).le (hpos x).le)
  have hm1 : ∀ x z, 0 ≤ 1 - min 1 (τ z / τ x) := fun x z => sub_nonneg.mpr (min_le_left _ _)
  have mA : Measurable fun p : P × P => ENNReal.ofReal (min (τ p.1) (τ p.2)) * F p.2 := by fun_prop
  have mA' : Measurable fun p : P × P => ENNReal.ofReal (min (τ p.1) (τ p.2)) * F p.1 := by fun_prop
  have mB : Measurable fun p : P × P => ENNReal.ofReal (τ p.1 - min (τ p.1) (τ p.2)) * F p.1 := by fun_prop
  have e1 : ∀ x, ENNReal.ofReal (τ x) * ∫⁻ z, ENNReal.ofReal (min 1 (τ z / τ x)) * F z + ENNReal.ofReal (1 - min 1 (τ z / τ x)) * F x ∂Q =
      (∫⁻ z, ENNReal.ofReal (min (τ x) (τ z)) * F z ∂Q) + ∫⁻ z, ENNReal.ofReal (τ x - min (τ x) (τ z)) * F x ∂Q := by
    intro x
    have mx : Measurable fun z => ENNReal.ofReal (min (τ x) (τ z)) * F z := by fun_prop
    rw [← lintegral_const_mul' _ _ ENNReal.ofReal_ne_top, ← lintegral_add_left mx]
    refine lintegral_congr fun z => ?_
    rw [mul_add, ← mul_assoc, ← mul_assoc, ← ENNReal.ofReal_mul (hpos x).le, ← ENNReal.ofReal_mul (hpos x).le, mul_sub, hmin, mul_one]
  rw [lintegral_congr e1, lintegral_add_left mA.lintegral_prod_right', lintegral_lintegral_swap mA.aemeasurable,
    ← lintegral_add_left (by
      have : Measurable fun p : P × P => ENNReal.ofReal (min (τ p.2) (τ p.1)) * F p.1 := by fun_prop
      exact this.lintegral_prod_right')]
  refine lintegral_congr fun x => ?_
  rw [← lintegral_add_left (by fun_prop)]
  have : ∀ z, ENNReal.ofReal (min (τ z) (τ x)) * F x + ENNReal.ofReal (τ x - min (τ x) (τ z)) * F x = ENNReal.ofReal (τ x) * F x := by
    intro z
    rw [← add_mul, ← ENNReal.ofReal_add (le_min (hpos z).le (hpos x).le) (sub_nonneg.mpr (min_le_left _ _)), min_comm]
    congr 2; ring
  rw [lintegral_congr this, lintegral_const, measure_univ, mul_one]

/-- Integrals over all coordinates, with coordinate `k` first. -/
theorem lintegral_pi_insert [MeasurableSpace P] {vol : Measure P} [SigmaFinite vol] {n : ℕ} (k : Fin (n+1)) {f : (Fin (n+1) → P) → ℝ≥0∞} (hf : Measurable f) :
    ∫⁻ s, f s ∂(Measure.pi fun _ => vol) = ∫⁻ r, ∫⁻ x, f (k.insertNth x r) ∂vol ∂(Measure.pi fun _ : Fin n => vol) := by
  have h := (measurePreserving_piFinSuccAbove (fun _ : Fin (n+1) => vol) k).symm
  rw [← h.lintegral_comp hf, lintegral_prod_symm]
  · rfl
  · exact (hf.comp h.measurable).aemeasurable

/-- One update of coordinate `k` of a path with log-density `A`. -/
theorem mh_site [MeasurableSpace P] {vol : Measure P} [SigmaFinite vol] {n : ℕ} (k : Fin n) {A : (Fin n → P) → ℝ} (hA : Measurable A)
    {lq : (Fin n → P) → P → ℝ} (hlq : Measurable fun z : (Fin n → P) × P => lq z.1 z.2) (hloc : ∀ s z, lq (Function.update s k z) = lq s)
    (hone : ∀ s, ∫⁻ z, ENNReal.ofReal (exp (lq s z)) ∂vol = 1) {ψ : (Fin n → P) → ℝ≥0∞} (hψ : Measurable ψ) :
    ∫⁻ s, ENNReal.ofReal (exp (A s)) * ∫⁻ z, ENNReal.ofReal (min 1 (exp (A (Function.update s k z) - A s + (lq s (s k) - lq s z)))) * ψ (Function.update s k z) +
        ENNReal.ofReal (1 - min 1 (exp (A (Function.update s k z) - A s + (lq s (s k) - lq s z)))) * ψ s
          ∂(vol.withDensity fun z => ENNReal.ofReal (exp (lq s z))) ∂(Measure.pi fun _ => vol) =
      ∫⁻ s, ENNReal.ofReal (exp (A s)) * ψ s ∂(Measure.pi fun _ => vol) := by
  obtain ⟨n, rfl⟩ : ∃ m, n = m + 1 := ⟨n - 1, by have := k.2; omega⟩
  obtain ⟨ρ, hρ⟩ : ∃ ρ : (Fin (n+1) → P) → P → ℝ, ρ = fun s z => min 1 (exp (A (Function.update s k z) - A s + (lq s (s k) - lq s z))) := ⟨_, rfl⟩
  have hρe : ∀ s z, min 1 (exp (A (Function.update s k z) - A s + (lq s (s k) - lq s z))) = ρ s z := fun s z => by rw [hρ]
  have mup : Measurable fun p : (Fin (n+1) → P) × P => Function.update p.1 k p.2 := measurable_update'
  have mρ : Measurable fun p : (Fin (n+1) → P) × P => ρ p.1 p.2 := by
    rw [hρ]
    have h1 : Measurable fun p : (Fin (n+1) → P) × P => lq p.1 (p.1 k) := hlq.comp (f := fun p : (Fin (n+1) → P) × P => (p.1, p.1 k)) (by fun_prop)
    exact measurable_const.min (((hA.comp mup).sub (hA.comp measurable_fst)).add (h1.sub hlq)).exp
  have mG : Measurable fun p : (Fin (n+1) → P) × P =>
      ENNReal.ofReal (ρ p.1 p.2) * ψ (Function.update p.1 k p.2) + ENNReal.ofReal (1 - ρ p.1 p.2) * ψ p.1 :=
    (mρ.ennreal_ofReal.mul (hψ.comp mup)).add ((measurable_const.sub mρ).ennreal_ofReal.mul (hψ.comp measurable_fst))
  have mq : ∀ s, Measurable fun z => ENNReal.ofReal (exp (lq s z)) := fun s => (hlq.comp (f := fun z => (s, z)) (by fun_prop)).exp.ennreal_ofReal
  simp only [hρe]
  have hwd : ∀ s, ∫⁻ z, ENNReal.ofReal (ρ s z) * ψ (Function.update s k z) + ENNReal.ofReal (1 - ρ s z) * ψ s
      ∂(vol.withDensity fun z => ENNReal.ofReal (exp (lq s z))) =
      ∫⁻ z, ENNReal.ofReal (exp (lq s z)) * (ENNReal.ofReal (ρ s z) * ψ (Function.update s k z) + ENNReal.ofReal (1 - ρ s z) * ψ s) ∂vol := fun s =>
    lintegral_withDensity_eq_lintegral_mul _ (mq s) (mG.comp (f := fun z => (s, z)) (by fun_prop))
  have mI : Measurable fun s => ENNReal.ofReal (exp (A s)) * ∫⁻ z, ENNReal.ofReal (ρ s z) * ψ (Function.update s k z) + ENNReal.ofReal (1 - ρ s z) * ψ s
      ∂(vol.withDensity fun z => ENNReal.ofReal (exp (lq s z))) := by
    simp only [hwd]
    refine hA.exp.ennreal_ofReal.mul ?_
    exact Measurable.lintegral_prod_right' (f := fun p : (Fin (n+1) → P) × P => ENNReal.ofReal (exp (lq p.1 p.2)) *
      (ENNReal.ofReal (ρ p.1 p.2) * ψ (Function.update p.1 k p.2) + ENNReal.ofReal (1 - ρ p.1 p.2) * ψ p.1)) (hlq.exp.ennreal_ofReal.mul mG)
  rw [lintegral_pi_insert k mI, lintegral_pi_insert k (f := fun s => ENNReal.ofReal (exp (A s)) * ψ s) (hA.exp.ennreal_ofReal.mul hψ)]
  refine lintegral_congr fun r => ?_
  rcases isEmpty_or_nonempty P with hP | ⟨⟨x0⟩⟩
  · rw [Measure.eq_zero_of_isEmpty vol]; simp
  obtain ⟨L, hL⟩ : ∃ L, L = lq (k.insertNth x0 r) := ⟨_, rfl⟩
  have hLx : ∀ x, lq (k.insertNth x r) = L := by
    intro x
    rw [hL, ← hloc (k.insertNth x0 r) x, Fin.update_insertNth]
  have mins : Measurable fun x : P => (k.insertNth x r : Fin (n+1) → P) := by
    have : Measurable fun x : P => Function.update (k.insertNth x0 r : Fin (n+1) → P) k x := measurable_update _
    simpa only [Fin.update_insertNth] using this
  have mL : Measurable L := by rw [hL]; exact hlq.comp (f := fun z => (k.insertNth x0 r, z)) (by fun_prop)
  obtain ⟨Q, hQ⟩ : ∃ Q, Q = vol.withDensity fun z => ENNReal.ofReal (exp (L z)) := ⟨_, rfl⟩
  haveI : IsProbabilityMeasure Q := ⟨by rw [hQ, withDensity_apply _ MeasurableSet.univ, Measure.restrict_univ, hL]; exact hone _⟩
  have key := mh_swap (Q := Q) (τ := fun x => exp (A (k.insertNth x r) - L x)) (((hA.comp mins).sub mL).exp) (fun x => exp_pos _)
    (F := fun x => ψ (k.insertNth x r)) (hψ.comp mins)
  have hsplit : ∀ x, ENNReal.ofReal (exp (A (k.insertNth x r))) = ENNReal.ofReal (exp (L x)) * ENNReal.ofReal (exp (A (k.insertNth x r) - L x)) := by
    intro x
    rw [← ENNReal.ofReal_mul (exp_pos _).le, ← exp_add]; congr 2; ring
  have hρx : ∀ x z, ρ (k.insertNth x r) z = min 1 (exp (A (k.insertNth z r) - L z) / exp (A (k.insertNth x r) - L x)) := by
    intro x z
    rw [← hρe, Fin.update_insertNth, hLx, Fin.insertNth_apply_same, ← exp_sub]
    congr 2; ring
  have toQ : ∀ {G : P → ℝ≥0∞}, Measurable G → ∫⁻ x, ENNReal.ofReal (exp (L x)) * G x ∂vol = ∫⁻ x, G x ∂Q := by
    intro G hG
    rw [hQ]
    exact (lintegral_withDensity_eq_lintegral_mul _ mL.exp.ennreal_ofReal hG).symm
  simp only [hLx, ← hQ, Fin.update_insertNth, hρx, hsplit, mul_assoc]
  rw [toQ, toQ, key]
  · exact (((hA.comp mins).sub mL).exp.ennreal_ofReal).mul (hψ.comp mins)
  · refine (((hA.comp mins).sub mL).exp.ennreal_ofReal).mul ?_
    have m1 : Measurable fun p : P × P => min 1 (exp (A (k.insertNth p.2 r) - L p.2) / exp (A (k.insertNth p.1 r) - L p.1)) :=
      measurable_const.min ((((hA.comp mins).sub mL).exp.comp measurable_snd).div (((hA.comp mins).sub mL).exp.comp measurable_fst))
    exact Measurable.lintegral_prod_right' (f := fun p : P × P => ENNReal.ofReal (min 1 (exp (A (k.insertNth p.2 r) - L p.2) / exp (A (k.insertNth p.1 r) - L p.1))) *
      ψ (k.insertNth p.2 r) + ENNReal.ofReal (1 - min 1 (exp (A (k.insertNth p.2 r) - L p.2) / exp (A (k.insertNth p.1 r) - L p.1))) * ψ (k.insertNth p.1 r))
      ((m1.ennreal_ofReal.mul ((hψ.comp mins).comp measurable_snd)).add
        ((measurable_const.sub m1).ennreal_ofReal.mul ((hψ.comp mins).comp measurable_fst)))

/-! ### The joint density of a path and the measurements -/

/-- The input of step `k`. -/
def inputAt (qs : List (Slot U × Slot Y)) (k : ℕ) : Slot U := (qs.getD k (.none, .none)).1

/-- Log-likelihood of the measurement at time `k`, if there is one. -/
def likAt (ℓ : ℕ → Slot Y → P → ℝ) (first : Option (Slot Y)) (qs : List (Slot U × Slot Y)) : ℕ → P → ℝ
  | 0 => firstLik ℓ first
  | k + 1 => seen ℓ (k+1) (qs.getD k (.none, .none)).2

/-- `log p(x_0) + Σ_t log p(y_t | x_t) + Σ_t log p(x_{t+1} | x_t)`. -/
noncomputable def jointLog (l0 : P → ℝ) (lp : ℕ → P → P → ℝ) (g : ℕ → P → ℝ) (K : ℕ) (s : ℕ → P) : ℝ :=
  l0 (s 0) + (∑ i ∈ Finset.range (K+1), g i (s i)) + ∑ i ∈ Finset.range K, lp i (s i) (s (i+1))

/-- The terms of that sum in which the state at time `k` occurs. -/
def siteLog (l0 : P → ℝ) (lp : ℕ → P → P → ℝ) (g : ℕ → P → ℝ) (K k : ℕ) (s : ℕ → P) (z : P) : ℝ :=
  (match k with
    | 0 => l0 z
    | j + 1 => lp j (s j) z) + g k z + (if k < K then lp k z (s (k+1)) else 0)

theorem jointLog_update (l0 : P → ℝ) (lp : ℕ → P → P → ℝ) (g : ℕ → P → ℝ) {K k : ℕ} (hk : k ≤ K) (s : ℕ → P) (z : P) :
    jointLog l0 lp g K (Function.update s k z) - jointLog l0 lp g K s = siteLog l0 lp g K k s z - siteLog l0 lp g K k s (s k) := by
  have h1 : (∑ i ∈ Finset.range (K+1), g i (Function.update s k z i)) - ∑ i ∈ Finset.range (K+1), g i (s i) = g k z - g k (s k) := by
    rw [← Finset.sum_sub_distrib, Finset.sum_eq_single k]
    · rw [Function.update_self]
    · intro i _ hi; rw [Function.update_of_ne hi, sub_self]
    · intro h; exact absurd (Finset.mem_range.mpr (by omega)) h
  have h2 : (∑ i ∈ Finset.range K, lp i (Function.update s k z i) (Function.update s k z (i+1))) - ∑ i ∈ Finset.range K, lp i (s i) (s (i+1)) =
      (∑ i ∈ Finset.range K, if i = k then lp k z (s (k+1)) - lp k (s k) (s (k+1)) else 0) +
      ∑ i ∈ Finset.range K, if i + 1 = k then lp i (s i) z - lp i (s i) (s k) else 0 := by
    rw [← Finset.sum_sub_distrib, ← Finset.sum_add_distrib]
    refine Finset.sum_congr rfl fun i _ => ?_
    by_cases h : i = k
    · subst h
      rw [Function.update_self, Function.update_of_ne (by omega), if_pos rfl, if_neg (by omega), add_zero]
    · by_cases h' : i + 1 = k
      · rw [Function.update_of_ne h, if_neg h, if_pos h', h', Function.update_self, zero_add]
      · rw [Function.update_of_ne h, Function.update_of_ne h', if_neg h, if_neg h', sub_self, add_zero]
  have h3 : (∑ i ∈ Finset.range K, if i = k then lp k z (s (k+1)) - lp k (s k) (s (k+1)) else 0) =
      if k < K then lp k z (s (k+1)) - lp k (s k) (s (k+1)) else 0 := by
    rw [Finset.sum_ite_eq']
    simp only [Finset.mem_range]
  unfold jointLog
  cases k with
  | zero =>
    have h4 : (∑ i ∈ Finset.range K, if i + 1 = 0 then lp i (s i) z - lp i (s i) (s 0) else 0) = 0 :=
      Finset.sum_eq_zero fun i _ => if_neg (by omega)
    rw [h3, h4] at h2
    simp only [siteLog, Function.update_self]
    split at h2 <;> rename_i hK <;> simp only [hK, if_true, if_false] <;> linarith
  | succ j =>
    have h4 : (∑ i ∈ Finset.range K, if i + 1 = j + 1 then lp i (s i) z - lp i (s i) (s (j+1)) else 0) = lp j (s j) z - lp j (s j) (s (j+1)) := by
      rw [Finset.sum_eq_single j]
      · rw [if_pos rfl]
      · intro i _ hi; exact if_neg (by omega)
      · intro h; exact absurd (Finset.mem_range.mpr (by omega)) h
    rw [h3, h4] at h2
    simp only [siteLog, Function.update_of_ne (show (0:ℕ) ≠ j + 1 by omega)]
    split at h2 <;> rename_i hK <;> simp only [hK, if_true, if_false] <;> linarith

/-- Write `r` to the positions `k, …, k+n-1` of a path. -/
def fill : {n : ℕ} → (ℕ → P) → ℕ → (Fin n → P) → ℕ → P
  | 0, s, _, _ => s
  | _ + 1, s, k, r => fill (Function.update s k (r 0)) (k+1) (Fin.tail r)

theorem fill_eq {n : ℕ} (s : ℕ → P) (k : ℕ) (r : Fin n → P) (t : ℕ) :
    fill s k r t = if h : k ≤ t ∧ t < k + n then r ⟨t - k, by omega⟩ else s t := by
  induction n generalizing s k with
  | zero => rw [dif_neg (by omega)]; rfl
  | succ n ih =>
    show fill (Function.update s k (r 0)) (k+1) (Fin.tail r) t = _
    rw [ih]
    by_cases h : k + 1 ≤ t ∧ t < k + 1 + n
    · rw [dif_pos h, dif_pos (by omega)]
      simp only [Fin.tail]
      congr 1
      ext
      simp only [Fin.val_succ]
      omega
    · rw [dif_neg h]
      by_cases h' : t = k
      · subst h'
        rw [Function.update_self, dif_pos (by omega)]
        congr 1
        ext
        simp
      · rw [Function.update_of_ne h', dif_neg (by omega)]

theorem fill_measurable [MeasurableSpace P] {n : ℕ} (s : ℕ → P) (k : ℕ) : Measurable fun r : Fin n → P => fill s k r := by
  refine measurable_pi_lambda _ fun t => ?_
  simp only [fill_eq]
  by_cases h : k ≤ t ∧ t < k + n
  · simp only [h, and_self, dif_pos]; exact measurable_pi_apply _
  · simp only [h, dif_neg, not_false_eq_true]; exact measurable_const

theorem fill_update {n : ℕ} (s : ℕ → P) (r : Fin n → P) {k : ℕ} (hk : k < n) (z : P) :
    Function.update (fill s 0 r) k z = fill s 0 (Function.update r ⟨k, hk⟩ z) := by
  funext t
  rw [fill_eq]
  by_cases h : t = k
  · subst h
    rw [Function.update_self, dif_pos (by omega)]
    simp
  · rw [Function.update_of_ne h, fill_eq]
    by_cases h' : 0 ≤ t ∧ t < 0 + n
    · rw [dif_pos h', dif_pos h', Function.update_of_ne (by rw [Ne, Fin.ext_iff]; simpa using h)]
    · rw [dif_neg h', dif_neg h']

theorem fill_range {n : ℕ} (s : ℕ → P) (r : Fin n → P) : (List.range n).map (fill s 0 r) = List.ofFn r := by
  refine List.ext_getElem (by simp) fun i h1 h2 => ?_
  have : i < n := by simpa using h1
  rw [List.getElem_ofFn, List.getElem_map, List.getElem_range, fill_eq, dif_pos (by omega)]
  rfl

theorem lintegral_pi_cons [MeasurableSpace P] {vol : Measure P} [SigmaFinite vol] {n : ℕ} {f : (Fin (n+1) → P) → ℝ≥0∞} (hf : Measurable f) :
    ∫⁻ s, f s ∂(Measure.pi fun _ => vol) = ∫⁻ x, ∫⁻ r, f (Fin.cons x r) ∂(Measure.pi fun _ : Fin n => vol) ∂vol := by
  have h := (measurePreserving_piFinSuccAbove (fun _ : Fin (n+1) => vol) 0).symm
  rw [← h.lintegral_comp hf, lintegral_prod]
  · refine lintegral_congr fun x => lintegral_congr fun r => ?_
    congr 1
    funext i
    refine Fin.cases ?_ (fun i => ?_) i
    · simp
    · simp
  · exact (hf.comp h.measurable).aemeasurable

/-- The log-weight of the steps after time `k`. -/
def tailLog (lx : ℕ → Slot U → P → P → ℝ) (L : ℕ → Slot Y → P → ℝ) : ℕ → List (Slot U × Slot Y) → (ℕ → P) → ℝ
  | _, [], _ => 0
  | k, q :: qs, s => lx k q.1 (s k) (s (k+1)) + L (k+1) q.2 (s (k+1)) + tailLog lx L (k+1) qs s

theorem tailLog_measurable [MeasurableSpace P] {lx : ℕ → Slot U → P → P → ℝ} (hlm : ∀ k u, Measurable fun z : P × P => lx k u z.1 z.2)
    {L : ℕ → Slot Y → P → ℝ} (hL : ∀ k y, Measurable (L k y)) (k : ℕ) (qs : List (Slot U × Slot Y)) : Measurable (tailLog lx L k qs) := by
  induction qs generalizing k with
  | nil => exact measurable_const
  | cons q qs ih =>
    refine (Measurable.add ?_ ?_).add (ih (k+1))
    · exact (hlm k q.1).comp (f := fun s : ℕ → P => (s k, s (k+1))) (by fun_prop)
    · exact (hL (k+1) q.2).comp (measurable_pi_apply (k+1))

/-- Integrals over the future of a path, as integrals over independent coordinates. -/
theorem refE_eq_pi [MeasurableSpace P] {vol : Measure P} [SigmaFinite vol] {M : ℕ → Slot U → Kernel P P} {lx : ℕ → Slot U → P → P → ℝ}
    (hlm : ∀ k u, Measurable fun z : P × P => lx k u z.1 z.2) (hden : ∀ k u x, M k u x = vol.withDensity fun x' => ENNReal.ofReal (exp (lx k u x x')))
    (hM : ∀ k u, IsMarkovKernel (M k u))
    {L : ℕ → Slot Y → P → ℝ} (hL : ∀ k y, Measurable (L k y)) {G : (ℕ → P) → ℝ≥0∞} (hG : Measurable G) (k : ℕ) (qs : List (Slot U × Slot Y)) (s : ℕ → P) :
    refE M L k qs G s = ∫⁻ r, ENNReal.ofReal (exp (tailLog lx L k qs (fill s (k+1) r))) * G (fill s (k+1) r)
      ∂(Measure.pi fun _ : Fin qs.length => vol) := by
  induction qs generalizing k s with
  | nil =>
    have e : ∀ r : Fin ([] : List (Slot U × Slot Y)).length → P, ENNReal.ofReal (exp (tailLog lx L k [] (fill s (k+1) r))) * G (fill s (k+1) r) = G s := by
      intro r
      rw [show fill s (k+1) r = s from rfl]
      simp [tailLog]
    simp only [e, refE]
    rw [lintegral_const]
    simp
  | cons q qs ih =>
    have mx : Measurable fun x' => refE M L (k+1) qs G (Function.update s (k+1) x') :=
      (refE_measurable' hM hL hG (k+1) qs).comp (measurable_update s)
    have mlx : Measurable fun x' => lx k q.1 (s k) x' := (hlm k q.1).comp (f := fun x' => (s k, x')) (by fun_prop)
    have mf : Measurable fun r : Fin (qs.length + 1) → P => ENNReal.ofReal (exp (tailLog lx L k (q :: qs) (fill s (k+1) r))) * G (fill s (k+1) r) :=
      (((tailLog_measurable hlm hL k (q :: qs)).comp (fill_measurable s (k+1))).exp.ennreal_ofReal).mul (hG.comp (fill_measurable s (k+1)))
    show ∫⁻ x', _ ∂(M k q.1 (s k)) = ∫⁻ r : Fin (qs.length + 1) → P, _ ∂(Measure.pi fun _ : Fin (qs.length + 1) => vol)
    rw [lintegral_pi_cons mf, hden]
    refine (lintegral_withDensity_eq_lintegral_mul _ mlx.exp.ennreal_ofReal (((hL (k+1) q.2).exp.ennreal_ofReal).mul mx)).trans ?_
    refine lintegral_congr fun x' => ?_
    show ENNReal.ofReal (exp (lx k q.1 (s k) x')) * (ENNReal.ofReal (exp (L (k+1) q.2 x')) * refE M L (k+1) qs G (Function.update s (k+1) x')) = _
    rw [ih, ← mul_assoc, ← ENNReal.ofReal_mul (exp_pos _).le, ← exp_add, ← lintegral_const_mul' _ _ ENNReal.ofReal_ne_top]
    refine lintegral_congr fun r => ?_
    have hfill : fill s (k+1) (Fin.cons x' r : Fin (qs.length + 1) → P) = fill (Function.update s (k+1) x') (k+1+1) r := by
      show fill (Function.update s (k+1) ((Fin.cons x' r : Fin (qs.length + 1) → P) 0)) (k+1+1) (Fin.tail (Fin.cons x' r : Fin (qs.length + 1) → P)) = _
      rw [Fin.cons_zero, Fin.tail_cons]
    rw [hfill, ← mul_assoc, ← ENNReal.ofReal_mul (exp_pos _).le, ← exp_add]
    have e1 : fill (Function.update s (k+1) x') (k+1+1) r k = s k := by
      rw [fill_eq, dif_neg (by omega), Function.update_of_ne (by omega)]
    have e2 : fill (Function.update s (k+1) x') (k+1+1) r (k+1) = x' := by
      rw [fill_eq, dif_neg (by omega), Function.update_self]
    simp only [tailLog, e1, e2]

theorem tailLog_sum (lx : ℕ → Slot U → P → P → ℝ) (L : ℕ → Slot Y → P → ℝ) (k : ℕ) (qs : List (Slot U × Slot Y)) (s : ℕ → P) :
    tailLog lx L k qs s = (∑ i ∈ Finset.range qs.length, lx (k+i) (inputAt qs i) (s (k+i)) (s (k+i+1))) +
      ∑ i ∈ Finset.range qs.length, L (k+i+1) (qs.getD i (.none, .none)).2 (s (k+i+1)) := by
  induction qs generalizing k with
  | nil => simp [tailLog]
  | cons q qs ih =>
    rw [tailLog, ih, List.length_cons, Finset.sum_range_succ', Finset.sum_range_succ']
    have e : ∀ i, k + 1 + i = k + (i + 1) := fun i => by omega
    simp only [e, inputAt, List.getD_cons_succ, List.getD_cons_zero, Nat.add_zero]
    ring

/-- The (unnormalised) smoothing law as a density on the paths. -/
theorem smoothing_eq [MeasurableSpace P] {vol μ0 : Measure P} [SigmaFinite vol] {l0 : P → ℝ} (hl0 : Measurable l0)
    (h0 : μ0 = vol.withDensity fun x => ENNReal.ofReal (exp (l0 x))) {M : ℕ → Slot U → Kernel P P} {lx : ℕ → Slot U → P → P → ℝ}
    (hlm : ∀ k u, Measurable fun z : P × P => lx k u z.1 z.2) (hden : ∀ k u x, M k u x = vol.withDensity fun x' => ENNReal.ofReal (exp (lx k u x x')))
    (hM : ∀ k u, IsMarkovKernel (M k u)) {ℓ : ℕ → Slot Y → P → ℝ} (hℓ : ∀ k y, Measurable (ℓ k y)) (first : Option (Slot Y)) (qs : List (Slot U × Slot Y))
    (x0 : P) {φ : List P → ℝ≥0∞} (hφ : Measurable fun s : ℕ → P => φ ((List.range (qs.length + 1)).map s)) :
    smoothingE μ0 M ℓ first qs φ = ∫⁻ r : Fin (qs.length + 1) → P, ENNReal.ofReal (exp (jointLog l0 (fun k => lx k (inputAt qs k)) (likAt ℓ first qs)
      qs.length (fill (fun _ => x0) 0 r))) * φ ((List.range (qs.length + 1)).map (fill (fun _ => x0) 0 r)) ∂(Measure.pi fun _ => vol) := by
  have hfl : Measurable (firstLik ℓ first) := by cases first <;> [exact measurable_const; exact hℓ _ _]
  have hs : smoothingE μ0 M ℓ first qs φ = ∫⁻ x, ENNReal.ofReal (exp (firstLik ℓ first x)) * pathsE M (seen ℓ) φ 0 qs [] x ∂μ0 := by
    cases first <;> simp [smoothingE, firstLik]
  obtain ⟨G, hG⟩ : ∃ G : (ℕ → P) → ℝ≥0∞, G = fun s => φ ((List.range (qs.length + 1)).map s) := ⟨_, rfl⟩
  have hGm : Measurable G := by rw [hG]; exact hφ
  have hp : ∀ x, pathsE M (seen ℓ) φ 0 qs [] x = refE M (seen ℓ) 0 qs G (Function.update (fun _ => x0) 0 x) := by
    intro x
    have : pathsE M (seen ℓ) φ 0 qs [] x = pathG M (seen ℓ) φ 0 qs (Function.update (fun _ => x0) 0 x) := by simp [pathG]
    rw [this, pathG_refE, hG, Nat.zero_add]
  have mR : Measurable fun x => refE M (seen ℓ) 0 qs G (Function.update (fun _ => x0) 0 x) :=
    (refE_measurable' hM (seen_measurable hℓ) hGm 0 qs).comp (measurable_update _)
  have htl := tailLog_measurable hlm (seen_measurable hℓ) 0 qs
  have hj : ∀ s : ℕ → P, jointLog l0 (fun k => lx k (inputAt qs k)) (likAt ℓ first qs) qs.length s =
      l0 (s 0) + (firstLik ℓ first (s 0) + tailLog lx (seen ℓ) 0 qs s) := by
    intro s
    rw [jointLog, tailLog_sum, Finset.sum_range_succ']
    simp only [likAt, Nat.zero_add]
    ring
  have mj : Measurable fun s : ℕ → P => jointLog l0 (fun k => lx k (inputAt qs k)) (likAt ℓ first qs) qs.length s := by
    simp only [hj]
    exact (hl0.comp (measurable_pi_apply 0)).add ((hfl.comp (measurable_pi_apply 0)).add htl)
  rw [hs, h0]
  simp only [hp]
  refine (lintegral_withDensity_eq_lintegral_mul _ hl0.exp.ennreal_ofReal (hfl.exp.ennreal_ofReal.mul mR)).trans ?_
  have mf : Measurable fun r : Fin (qs.length + 1) → P => ENNReal.ofReal (exp (jointLog l0 (fun k => lx k (inputAt qs k)) (likAt ℓ first qs)
      qs.length (fill (fun _ => x0) 0 r))) * φ ((List.range (qs.length + 1)).map (fill (fun _ => x0) 0 r)) :=
    (mj.comp (fill_measurable _ 0)).exp.ennreal_ofReal.mul (hφ.comp (fill_measurable _ 0))
  rw [lintegral_pi_cons mf]
  refine lintegral_congr fun x => ?_
  show ENNReal.ofReal (exp (l0 x)) * (ENNReal.ofReal (exp (firstLik ℓ first x)) * refE M (seen ℓ) 0 qs G (Function.update (fun _ => x0) 0 x)) = _
  rw [refE_eq_pi hlm hden hM (seen_measurable hℓ) hGm, ← mul_assoc, ← ENNReal.ofReal_mul (exp_pos _).le, ← exp_add,
    ← lintegral_const_mul' _ _ ENNReal.ofReal_ne_top]
  refine lintegral_congr fun r => ?_
  have hfill : fill (fun _ => x0) 0 (Fin.cons x r : Fin (qs.length + 1) → P) = fill (Function.update (fun _ => x0) 0 x) (0+1) r := by
    show fill (Function.update (fun _ => x0) 0 ((Fin.cons x r : Fin (qs.length + 1) → P) 0)) (0+1) (Fin.tail (Fin.cons x r : Fin (qs.length + 1) → P)) = _
    rw [Fin.cons_zero, Fin.tail_cons]
  have e1 : fill (Function.update (fun _ => x0) 0 x) (0+1) r 0 = x := by
    rw [fill_eq, dif_neg (by omega), Function.update_self]
  rw [hfill, hj, e1, hG, ← mul_assoc, ← ENNReal.ofReal_mul (exp_pos _).le, ← exp_add, add_assoc]

/-! ### The update of one state, and a pass over all states -/

/-- The state before time `k`. -/
def before (s : ℕ → P) : ℕ → Option P
  | 0 => none
  | k + 1 => some (s k)

/-- The state after time `k`, for a path over the times `0, …, K`. -/
def after (K : ℕ) (s : ℕ → P) (k : ℕ) : Option P := if k < K then some (s (k+1)) else none

/-- The log-density of everything the state `z` at time `k` enters, given the states `b` before and `a` after it. -/
def Spec.localLog (l0 : P → ℝ) (lp : ℕ → P → P → ℝ) (g : ℕ → P → ℝ) (k : ℕ) (b a : Option P) (z : P) : ℝ :=
  (match b with
    | none => l0 z
    | some x => lp (k-1) x z) + g k z + (match a with
    | none => 0
    | some x => lp k z x)

theorem siteLog_eq (l0 : P → ℝ) (lp : ℕ → P → P → ℝ) (g : ℕ → P → ℝ) (K k : ℕ) (s : ℕ → P) (z : P) :
    siteLog l0 lp g K k s z = localLog l0 lp g k (before s k) (after K s k) z := by
  unfold siteLog localLog after
  cases k <;> (simp only [before, Nat.add_sub_cancel]; split <;> rfl)

/-- The log of the Metropolis-Hastings ratio for replacing `x` by `z` at time `k`. -/
def Spec.mhLog (l0 : P → ℝ) (lp : ℕ → P → P → ℝ) (g : ℕ → P → ℝ) (lq : ℕ → Option P → Option P → P → ℝ) (k : ℕ) (b a : Option P) (x z : P) : ℝ :=
  localLog l0 lp g k b a z - localLog l0 lp g k b a x + (lq k b a x - lq k b a z)

/-- One update of the state at time `k`: propose `z` from the density `exp lq`, accept with probability `min(1, ratio)`. -/
noncomputable def siteE [MeasurableSpace P] (vol : Measure P) (l0 : P → ℝ) (lp : ℕ → P → P → ℝ) (g : ℕ → P → ℝ) (lq : ℕ → Option P → Option P → P → ℝ)
    (K k : ℕ) (ψ : (ℕ → P) → ℝ≥0∞) (s : ℕ → P) : ℝ≥0∞ :=
  ∫⁻ z, ENNReal.ofReal (min 1 (exp (mhLog l0 lp g lq k (before s k) (after K s k) (s k) z))) * ψ (Function.update s k z) +
      ENNReal.ofReal (1 - min 1 (exp (mhLog l0 lp g lq k (before s k) (after K s k) (s k) z))) * ψ s
    ∂(vol.withDensity fun z => ENNReal.ofReal (exp (lq k (before s k) (after K s k) z)))

/-- The updates at the times `n-1, …, 0`, in this order. -/
noncomputable def passOp [MeasurableSpace P] (vol : Measure P) (l0 : P → ℝ) (lp : ℕ → P → P → ℝ) (g : ℕ → P → ℝ) (lq : ℕ → Option P → Option P → P → ℝ)
    (K : ℕ) : ℕ → ((ℕ → P) → ℝ≥0∞) → (ℕ → P) → ℝ≥0∞
  | 0, ψ => ψ
  | n + 1, ψ => siteE vol l0 lp g lq K n (passOp vol l0 lp g lq K n ψ)

/-- The log-densities of a path and of the proposals are measurable, and the proposals are probability densities. -/
structure Spec.PathLaw [MeasurableSpace P] (vol : Measure P) (l0 : P → ℝ) (lp : ℕ → P → P → ℝ) (g : ℕ → P → ℝ)
    (lq : ℕ → Option P → Option P → P → ℝ) : Prop where
  start : Measurable l0
  move : ∀ k, Measurable fun z : P × P => lp k z.1 z.2
  lik : ∀ k, Measurable (g k)
  both : ∀ k, Measurable fun z : (P × P) × P => lq k (some z.1.1) (some z.1.2) z.2
  first : ∀ k, Measurable fun z : P × P => lq k none (some z.1) z.2
  last : ∀ k, Measurable fun z : P × P => lq k (some z.1) none z.2
  alone : ∀ k, Measurable fun z : P => lq k none none z
  one : ∀ k b a, ∫⁻ z, ENNReal.ofReal (exp (lq k b a z)) ∂vol = 1

section
variable [MeasurableSpace P] {vol : Measure P} {l0 : P → ℝ} {lp : ℕ → P → P → ℝ} {g : ℕ → P → ℝ} {lq : ℕ → Option P → Option P → P → ℝ}

theorem lq_measurable (h : PathLaw vol l0 lp g lq) (K k : ℕ) : Measurable fun z : (ℕ → P) × P => lq k (before z.1 k) (after K z.1 k) z.2 := by
  unfold after
  cases k with
  | zero =>
    simp only [before]
    split
    · exact (h.first 0).comp (f := fun z : (ℕ → P) × P => (z.1 (0+1), z.2)) (by fun_prop)
    · exact (h.alone 0).comp measurable_snd
  | succ k =>
    simp only [before]
    split
    · exact (h.both (k+1)).comp (f := fun z : (ℕ → P) × P => ((z.1 k, z.1 (k+1+1)), z.2)) (by fun_prop)
    · exact (h.last (k+1)).comp (f := fun z : (ℕ → P) × P => (z.1 k, z.2)) (by fun_prop)

theorem localLog_measurable (h : PathLaw vol l0 lp g lq) (K k : ℕ) :
    Measurable fun z : (ℕ → P) × P => localLog l0 lp g k (before z.1 k) (after K z.1 k) z.2 := by
  unfold after localLog
  refine (Measurable.add ?_ ((h.lik k).comp measurable_snd)).add ?_
  · cases k with
    | zero => exact h.start.comp measurable_snd
    | succ k => exact (h.move k).comp (f := fun z : (ℕ → P) × P => (z.1 k, z.2)) (by fun_prop)
  · split
    · exact (h.move k).comp (f := fun z : (ℕ → P) × P => (z.2, z.1 (k+1))) (by fun_prop)
    · exact measurable_const

theorem mhLog_measurable (h : PathLaw vol l0 lp g lq) (K k : ℕ) :
    Measurable fun z : (ℕ → P) × P => mhLog l0 lp g lq k (before z.1 k) (after K z.1 k) (z.1 k) z.2 := by
  have m1 := localLog_measurable h K k
  have m2 := lq_measurable h K k
  have mf : Measurable fun z : (ℕ → P) × P => (z.1, z.1 k) := by fun_prop
  exact (m1.sub (m1.comp mf)).add ((m2.comp mf).sub m2)

theorem siteE_measurable [SigmaFinite vol] (h : PathLaw vol l0 lp g lq) (K k : ℕ) {ψ : (ℕ → P) → ℝ≥0∞} (hψ : Measurable ψ) :
    Measurable (siteE vol l0 lp g lq K k ψ) := by
  have mr := mhLog_measurable h K k
  have mq := lq_measurable h K k
  have mup : Measurable fun z : (ℕ → P) × P => Function.update z.1 k z.2 := measurable_update'
  have mG : Measurable fun z : (ℕ → P) × P =>
      ENNReal.ofReal (min 1 (exp (mhLog l0 lp g lq k (before z.1 k) (after K z.1 k) (z.1 k) z.2))) * ψ (Function.update z.1 k z.2) +
      ENNReal.ofReal (1 - min 1 (exp (mhLog l0 lp g lq k (before z.1 k) (after K z.1 k) (z.1 k) z.2))) * ψ z.1 :=
    ((measurable_const.min mr.exp).ennreal_ofReal.mul (hψ.comp mup)).add
      ((measurable_const.sub (measurable_const.min mr.exp)).ennreal_ofReal.mul (hψ.comp measurable_fst))
  have e : siteE vol l0 lp g lq K k ψ = fun s => ∫⁻ z, ENNReal.ofReal (exp (lq k (before s k) (after K s k) z)) *
      (ENNReal.ofReal (min 1 (exp (mhLog l0 lp g lq k (before s k) (after K s k) (s k) z))) * ψ (Function.update s k z) +
      ENNReal.ofReal (1 - min 1 (exp (mhLog l0 lp g lq k (before s k) (after K s k) (s k) z))) * ψ s) ∂vol := by
    funext s
    exact lintegral_withDensity_eq_lintegral_mul _ (mq.comp (f := fun z => (s, z)) (by fun_prop)).exp.ennreal_ofReal
      (mG.comp (f := fun z => (s, z)) (by fun_prop))
  rw [e]
  exact Measurable.lintegral_prod_right' (f := fun z : (ℕ → P) × P => ENNReal.ofReal (exp (lq k (before z.1 k) (after K z.1 k) z.2)) *
      (ENNReal.ofReal (min 1 (exp (mhLog l0 lp g lq k (before z.1 k) (after K z.1 k) (z.1 k) z.2))) * ψ (Function.update z.1 k z.2) +
      ENNReal.ofReal (1 - min 1 (exp (mhLog l0 lp g lq k (before z.1 k) (after K z.1 k) (z.1 k) z.2))) * ψ z.1)) (mq.exp.ennreal_ofReal.mul mG)

theorem passOp_measurable [SigmaFinite vol] (h : PathLaw vol l0 lp g lq) (K n : ℕ) {ψ : (ℕ → P) → ℝ≥0∞} (hψ : Measurable ψ) :
    Measurable (passOp vol l0 lp g lq K n ψ) := by
  induction n with
  | zero => exact hψ
  | succ n ih => exact siteE_measurable h K n ih

theorem before_update (s : ℕ → P) (k : ℕ) (z : P) : before (Function.update s k z) k = before s k := by
  cases k with
  | zero => rfl
  | succ k => simp only [before]; rw [Function.update_of_ne (by omega)]

theorem after_update (K : ℕ) (s : ℕ → P) (k : ℕ) (z : P) : after K (Function.update s k z) k = after K s k := by
  unfold after
  rw [Function.update_of_ne (by omega)]

theorem siteE_invariant [SigmaFinite vol] (h : PathLaw vol l0 lp g lq) {K k : ℕ} (hk : k ≤ K) (x0 : P) {ψ : (ℕ → P) → ℝ≥0∞} (hψ : Measurable ψ) :
    ∫⁻ r : Fin (K+1) → P, ENNReal.ofReal (exp (jointLog l0 lp g K (fill (fun _ => x0) 0 r))) * siteE vol l0 lp g lq K k ψ (fill (fun _ => x0) 0 r)
        ∂(Measure.pi fun _ => vol) =
      ∫⁻ r : Fin (K+1) → P, ENNReal.ofReal (exp (jointLog l0 lp g K (fill (fun _ => x0) 0 r))) * ψ (fill (fun _ => x0) 0 r) ∂(Measure.pi fun _ => vol) := by
  have hkn : k < K + 1 := by omega
  have mf := fill_measurable (n := K+1) (fun _ => x0) 0
  have mj : Measurable fun s : ℕ → P => jointLog l0 lp g K s := by
    unfold jointLog
    refine ((h.start.comp (measurable_pi_apply 0)).add ?_).add ?_
    · exact Finset.measurable_fun_sum _ fun i _ => (h.lik i).comp (measurable_pi_apply i)
    · exact Finset.measurable_fun_sum _ fun i _ => (h.move i).comp (f := fun s : ℕ → P => (s i, s (i+1))) (by fun_prop)
  have key := mh_site (vol := vol) (n := K+1) ⟨k, hkn⟩ (A := fun r => jointLog l0 lp g K (fill (fun _ => x0) 0 r)) (mj.comp mf)
    (lq := fun r z => lq k (before (fill (fun _ => x0) 0 r) k) (after K (fill (fun _ => x0) 0 r) k) z)
    ((lq_measurable h K k).comp (f := fun z : (Fin (K+1) → P) × P => (fill (fun _ => x0) 0 z.1, z.2)) ((mf.comp measurable_fst).prodMk measurable_snd))
    (fun r z => by rw [← fill_update _ _ hkn, before_update, after_update]) (fun r => h.one _ _ _)
    (ψ := fun r => ψ (fill (fun _ => x0) 0 r)) (hψ.comp mf)
  rw [← key]
  refine lintegral_congr fun r => ?_
  congr 1
  unfold siteE
  refine lintegral_congr fun z => ?_
  have e1 : fill (fun _ => x0) 0 r k = r ⟨k, hkn⟩ := by rw [fill_eq, dif_pos (by omega)]; rfl
  simp only [← fill_update _ _ hkn, jointLog_update l0 lp g hk, siteLog_eq, mhLog, e1]

theorem passOp_invariant [SigmaFinite vol] (h : PathLaw vol l0 lp g lq) {K n : ℕ} (hn : n ≤ K + 1) (x0 : P) {ψ : (ℕ → P) → ℝ≥0∞} (hψ : Measurable ψ) :
    ∫⁻ r : Fin (K+1) → P, ENNReal.ofReal (exp (jointLog l0 lp g K (fill (fun _ => x0) 0 r))) * passOp vol l0 lp g lq K n ψ (fill (fun _ => x0) 0 r)
        ∂(Measure.pi fun _ => vol) =
      ∫⁻ r : Fin (K+1) → P, ENNReal.ofReal (exp (jointLog l0 lp g K (fill (fun _ => x0) 0 r))) * ψ (fill (fun _ => x0) 0 r) ∂(Measure.pi fun _ => vol) := by
  induction n with
  | zero => rfl
  | succ n ih => rw [passOp, siteE_invariant h (by omega) x0 (passOp_measurable h K n hψ), ih (by omega)]

end

end PyPE

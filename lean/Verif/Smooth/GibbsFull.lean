import Verif.Smooth.GibbsRun

/-!
# C96, C97: particle Gibbs with backward simulation

After a conditional filter with two particles, `perform_smoothing(M, 'full')` draws trajectories with the law of the lineages of `CPFAS`.
-/

namespace PyPE
open Real Spec MeasureTheory ProbabilityTheory
open scoped ENNReal

variable {P U Y V Ω : Type}

/-- Normalised weight of particle `a`. -/
noncomputable def wx (l : P → ℝ) (x : Fin 2 → P) (a : Fin 2) : ℝ≥0∞ := ENNReal.ofReal (exp (l (x a)) / ∑ j, exp (l (x j)))

/-- Probability of particle `b` as an ancestor of `x'`. -/
noncomputable def aprob (lx : ℕ → Slot U → P → P → ℝ) (k : ℕ) (u : Slot U) (l : P → ℝ) (x : Fin 2 → P) (x' : P) (b : Fin 2) : ℝ≥0∞ :=
  ENNReal.ofReal (exp (l (x b)) * exp (lx k u (x b) x') / ∑ j, exp (l (x j)) * exp (lx k u (x j) x'))

theorem wx_sum (l : P → ℝ) (x : Fin 2 → P) : ∑ a, wx l x a = 1 := wts_sum l 0 fun i _ => x i

theorem aprob_sum (lx : ℕ → Slot U → P → P → ℝ) (k : ℕ) (u : Slot U) (l : P → ℝ) (x : Fin 2 → P) (x' : P) : ∑ b, aprob lx k u l x x' b = 1 := by
  unfold aprob
  have hs : 0 < ∑ j, exp (l (x j)) * exp (lx k u (x j) x') := Finset.sum_pos (fun _ _ => by positivity) Finset.univ_nonempty
  rw [← ENNReal.ofReal_sum_of_nonneg fun i _ => by positivity, ← Finset.sum_div, div_self hs.ne', ENNReal.ofReal_one]

/-- Contribution of the lineage `s` of particle `i`: the value of the drawn trajectory on the event that it continues this lineage. -/
noncomputable def lineE [MeasurableSpace P] (M : ℕ → Slot U → Kernel P P) (ℓ : ℕ → Slot Y → P → ℝ) (lx : ℕ → Slot U → P → P → ℝ)
    (φ : List P → ℝ≥0∞) : ℕ → (P → ℝ) → List (Slot U × Slot Y) → (Fin 2 → P) → (ℕ → P) → Fin 2 → (ℕ → P) → ℝ≥0∞
  | k, l, [], x, _, i, s => wx l x i * φ ((List.range (k+1)).map s)
  | k, l, q :: qs, x, σ, i, s =>
    wx l x i * ∫⁻ z, lineE M ℓ lx φ (k+1) (ℓ (k+1) q.2) qs ![z, σ (k+1)] σ 0 (Function.update s (k+1) z) ∂(M k q.1 (x i)) +
    aprob lx k q.1 l x (σ (k+1)) i * ∑ a, wx l x a *
      ∫⁻ z, lineE M ℓ lx φ (k+1) (ℓ (k+1) q.2) qs ![z, σ (k+1)] σ 1 (Function.update s (k+1) (σ (k+1))) ∂(M k q.1 (x a))

theorem wx_measurable [MeasurableSpace P] {l : P → ℝ} (hl : Measurable l) (a : Fin 2) : Measurable fun x : Fin 2 → P => wx l x a := by
  have h : ∀ c : Fin 2, Measurable fun x : Fin 2 → P => exp (l (x c)) := fun c => measurable_exp.comp (hl.comp (measurable_pi_apply c))
  exact ((h a).div (Finset.measurable_sum _ fun c _ => h c)).ennreal_ofReal

theorem aprob_measurable [MeasurableSpace P] {lx : ℕ → Slot U → P → P → ℝ} (hlx : ∀ k u, Measurable fun z : P × P => lx k u z.1 z.2) (k : ℕ)
    (u : Slot U) {l : P → ℝ} (hl : Measurable l) (b : Fin 2) : Measurable fun z : (Fin 2 → P) × P => aprob lx k u l z.1 z.2 b := by
  have h : ∀ c : Fin 2, Measurable fun z : (Fin 2 → P) × P => exp (l (z.1 c)) * exp (lx k u (z.1 c) z.2) := fun c =>
    (measurable_exp.comp (hl.comp ((measurable_pi_apply c).comp measurable_fst))).mul
      (measurable_exp.comp ((hlx k u).comp (f := fun z : (Fin 2 → P) × P => (z.1 c, z.2)) (((measurable_pi_apply c).comp measurable_fst).prodMk measurable_snd)))
  exact ((h b).div (Finset.measurable_sum _ fun c _ => h c)).ennreal_ofReal

theorem pair_measurable [MeasurableSpace P] {Z : Type} [MeasurableSpace Z] {f g : Z → P} (hf : Measurable f) (hg : Measurable g) :
    Measurable fun z => (![f z, g z] : Fin 2 → P) := by
  refine measurable_pi_lambda _ fun i => ?_
  fin_cases i
  · exact hf
  · exact hg

theorem lineE_measurable [MeasurableSpace P] {M : ℕ → Slot U → Kernel P P} (hM : ∀ k u, IsMarkovKernel (M k u)) {ℓ : ℕ → Slot Y → P → ℝ}
    (hℓ : ∀ k y, Measurable (ℓ k y)) {lx : ℕ → Slot U → P → P → ℝ} (hlx : ∀ k u, Measurable fun z : P × P => lx k u z.1 z.2) {φ : List P → ℝ≥0∞}
    (hφ : ∀ n, Measurable fun x : Fin n → P => φ (List.ofFn x)) (σ : ℕ → P) (k : ℕ) {l : P → ℝ} (hl : Measurable l) (qs : List (Slot U × Slot Y))
    (i : Fin 2) : Measurable fun z : (Fin 2 → P) × (ℕ → P) => lineE M ℓ lx φ k l qs z.1 σ i z.2 := by
  induction qs generalizing k l i with
  | nil =>
    simp only [lineE]
    exact ((wx_measurable hl i).comp measurable_fst).mul ((range_path_measurable hφ (k+1)).comp measurable_snd)
  | cons q qs ih =>
    simp only [lineE]
    haveI := hM k q.1
    have hI : ∀ (a j : Fin 2) (f : ((Fin 2 → P) × (ℕ → P)) × P → P), Measurable f → Measurable fun z : (Fin 2 → P) × (ℕ → P) =>
        ∫⁻ y, lineE M ℓ lx φ (k+1) (ℓ (k+1) q.2) qs ![y, σ (k+1)] σ j (Function.update z.2 (k+1) (f (z, y))) ∂(M k q.1 (z.1 a)) := by
      intro a j f hf
      refine Measurable.lintegral_kernel_prod_right' (κ := (M k q.1).comap (fun z : (Fin 2 → P) × (ℕ → P) => z.1 a)
        ((measurable_pi_apply a).comp measurable_fst))
        (f := fun z => lineE M ℓ lx φ (k+1) (ℓ (k+1) q.2) qs ![z.2, σ (k+1)] σ j (Function.update z.1.2 (k+1) (f z))) ?_
      exact (ih (k+1) (hℓ (k+1) q.2) j).comp (f := fun z : ((Fin 2 → P) × (ℕ → P)) × P => (![z.2, σ (k+1)], Function.update z.1.2 (k+1) (f z)))
        ((pair_measurable measurable_snd measurable_const).prodMk
          ((measurable_updateAt (k+1)).comp ((measurable_snd.comp measurable_fst).prodMk hf)))
    refine Measurable.add (((wx_measurable hl i).comp measurable_fst).mul (hI i 0 (fun z => z.2) measurable_snd)) ?_
    refine Measurable.mul ((aprob_measurable hlx k q.1 hl i).comp (f := fun z : (Fin 2 → P) × (ℕ → P) => (z.1, σ (k+1)))
      (measurable_fst.prodMk measurable_const)) ?_
    exact Finset.measurable_sum _ fun a _ => ((wx_measurable hl a).comp measurable_fst).mul (hI a 1 (fun _ => σ (k+1)) measurable_const)

/-- The value of an iteration is the sum over the two lineages. -/
theorem gibbsE_lines [MeasurableSpace P] {M : ℕ → Slot U → Kernel P P} (hM : ∀ k u, IsMarkovKernel (M k u)) {ℓ : ℕ → Slot Y → P → ℝ}
    (hℓ : ∀ k y, Measurable (ℓ k y)) {lx : ℕ → Slot U → P → P → ℝ} (hlx : ∀ k u, Measurable fun z : P × P => lx k u z.1 z.2) {φ : List P → ℝ≥0∞}
    (hφ : ∀ n, Measurable fun x : Fin n → P => φ (List.ofFn x)) (σ : ℕ → P) (k : ℕ) {l : P → ℝ} (hl : Measurable l) (qs : List (Slot U × Slot Y))
    (p : Fin 2 → ℕ → P) :
    gibbsE M ℓ (cpfasAnc lx) φ k l qs p σ = ∑ i, lineE M ℓ lx φ k l qs (fun i => p i k) σ i (p i) := by
  induction qs generalizing k l p with
  | nil => rfl
  | cons q qs ih =>
    simp only [gibbsE, lineE]
    have hx : ∀ a b z, (fun i => ext2 p k a b z (σ (k+1)) i (k+1)) = ![z, σ (k+1)] := by
      intro a b z
      funext i
      fin_cases i <;> simp [ext2]
    have hmL : ∀ (j : Fin 2) (s : P → ℕ → P), Measurable s → Measurable fun z => lineE M ℓ lx φ (k+1) (ℓ (k+1) q.2) qs ![z, σ (k+1)] σ j (s z) := fun j s hs =>
      (lineE_measurable hM hℓ hlx hφ σ (k+1) (hℓ (k+1) q.2) qs j).comp (f := fun z => (![z, σ (k+1)], s z))
        ((pair_measurable measurable_id measurable_const).prodMk hs)
    have e : ∀ a b, ∫⁻ z, gibbsE M ℓ (cpfasAnc lx) φ (k+1) (ℓ (k+1) q.2) qs (ext2 p k a b z (σ (k+1))) σ ∂(M k q.1 (p a k)) =
        ∫⁻ z, lineE M ℓ lx φ (k+1) (ℓ (k+1) q.2) qs ![z, σ (k+1)] σ 0 (Function.update (p a) (k+1) z) ∂(M k q.1 (p a k)) +
        ∫⁻ z, lineE M ℓ lx φ (k+1) (ℓ (k+1) q.2) qs ![z, σ (k+1)] σ 1 (Function.update (p b) (k+1) (σ (k+1))) ∂(M k q.1 (p a k)) := by
      intro a b
      refine Eq.trans (lintegral_congr fun z => ?_)
        (lintegral_add_left (hmL 0 (fun z => Function.update (p a) (k+1) z) ((measurable_updateAt (k+1)).comp measurable_prodMk_left)) _)
      rw [ih (k+1) (hℓ (k+1) q.2), hx, Fin.sum_univ_two]
      rfl
    simp only [e]
    have hsum : ∀ f : Fin 2 → ℝ≥0∞, ∀ c, ∑ b, cpfasAnc lx k q.1 l p (σ (k+1)) b * (c + f b) = c + ∑ b, aprob lx k q.1 l (fun i => p i k) (σ (k+1)) b * f b := by
      intro f c
      have : ∑ b, cpfasAnc lx k q.1 l p (σ (k+1)) b = 1 := aprob_sum lx k q.1 l (fun i => p i k) (σ (k+1))
      simp only [mul_add, Finset.sum_add_distrib, ← Finset.sum_mul, this, one_mul]
      rfl
    simp only [fun a => hsum (fun b => ∫⁻ z, lineE M ℓ lx φ (k+1) (ℓ (k+1) q.2) qs ![z, σ (k+1)] σ 1 (Function.update (p b) (k+1) (σ (k+1)))
      ∂(M k q.1 (p a k))) (∫⁻ z, lineE M ℓ lx φ (k+1) (ℓ (k+1) q.2) qs ![z, σ (k+1)] σ 0 (Function.update (p a) (k+1) z) ∂(M k q.1 (p a k)))]
    simp only [mul_add, Finset.sum_add_distrib]
    congr 1
    simp only [Finset.mul_sum]
    refine (Finset.sum_comm (f := fun a b => wx l (fun i => p i k) a * (aprob lx k q.1 l (fun i => p i k) (σ (k+1)) b *
      ∫⁻ z, lineE M ℓ lx φ (k+1) (ℓ (k+1) q.2) qs ![z, σ (k+1)] σ 1 (Function.update (p b) (k+1) (σ (k+1))) ∂(M k q.1 (p a k))))).trans ?_
    refine Finset.sum_congr rfl fun b _ => Finset.sum_congr rfl fun a _ => ?_
    ring

/-! ### Backward simulation as an operator -/

theorem bop_param [MeasurableSpace P] {lx : ℕ → Slot U → P → P → ℝ} (hlx : ∀ k u x, Measurable (lx k u x)) (N : ℕ) (x0 : P)
    (tr : List (Step P)) (us : List (Slot U)) (n : ℕ) {Z : Type} [MeasurableSpace Z] {Γ : Z → (ℕ → P) → ℝ≥0∞}
    (hΓ : Measurable fun z : Z × (ℕ → P) => Γ z.1 z.2) {f : Z → ℕ → P} (hf : Measurable f) :
    Measurable fun z => bop lx N x0 tr us n (Γ z) (f z) := by
  induction n generalizing f with
  | zero => exact hΓ.comp (measurable_id.prodMk hf)
  | succ n ih =>
    simp only [bop]
    refine Finset.measurable_sum _ fun i _ => Measurable.mul ?_ ?_
    · exact ((bprob_measurable (hlx n _) N x0 tr n i).comp ((measurable_pi_apply (n+1)).comp hf)).ennreal_ofReal
    · exact ih ((measurable_updateAt n).comp (hf.prodMk measurable_const))

theorem bop_const_mul (lx : ℕ → Slot U → P → P → ℝ) (N : ℕ) (x0 : P) (tr : List (Step P)) (us : List (Slot U)) (n : ℕ) (c : ℝ≥0∞)
    (Γ : (ℕ → P) → ℝ≥0∞) (s : ℕ → P) : bop lx N x0 tr us n (fun s => c * Γ s) s = c * bop lx N x0 tr us n Γ s := by
  induction n generalizing s with
  | zero => rfl
  | succ n ih =>
    simp only [bop, ih, Finset.mul_sum]
    exact Finset.sum_congr rfl fun i _ => by ring

theorem bop_add (lx : ℕ → Slot U → P → P → ℝ) (N : ℕ) (x0 : P) (tr : List (Step P)) (us : List (Slot U)) (n : ℕ)
    (Γ Γ' : (ℕ → P) → ℝ≥0∞) (s : ℕ → P) : bop lx N x0 tr us n (fun s => Γ s + Γ' s) s = bop lx N x0 tr us n Γ s + bop lx N x0 tr us n Γ' s := by
  induction n generalizing s with
  | zero => rfl
  | succ n ih => simp only [bop, ih, mul_add, Finset.sum_add_distrib]

theorem bop_integral [MeasurableSpace P] {lx : ℕ → Slot U → P → P → ℝ} (hlx : ∀ k u x, Measurable (lx k u x)) (N : ℕ) (x0 : P)
    (tr : List (Step P)) (us : List (Slot U)) (n : ℕ) {Γ : P → (ℕ → P) → ℝ≥0∞} (hΓ : Measurable fun z : P × (ℕ → P) => Γ z.1 z.2) (μ : Measure P)
    (s : ℕ → P) : bop lx N x0 tr us n (fun s => ∫⁻ z, Γ z s ∂μ) s = ∫⁻ z, bop lx N x0 tr us n (Γ z) s ∂μ := by
  induction n generalizing s with
  | zero => rfl
  | succ n ih =>
    simp only [bop]
    have hm : ∀ i : Fin N, Measurable fun z => bop lx N x0 tr us n (Γ z) (Function.update s n (partAt x0 tr n i)) := fun i =>
      bop_param hlx N x0 tr us n hΓ measurable_const
    rw [lintegral_finset_sum _ fun i _ => (hm i).const_mul _]
    refine Finset.sum_congr rfl fun i _ => ?_
    rw [lintegral_const_mul _ (hm i), ih]

theorem bop_update (lx : ℕ → Slot U → P → P → ℝ) (N : ℕ) (x0 : P) (tr : List (Step P)) (us : List (Slot U)) {n k : ℕ} (hn : n ≤ k)
    (Γ : (ℕ → P) → ℝ≥0∞) (y : P) (s : ℕ → P) :
    bop lx N x0 tr us n (fun s => Γ (Function.update s (k+1) y)) s = bop lx N x0 tr us n Γ (Function.update s (k+1) y) := by
  induction n generalizing s with
  | zero => rfl
  | succ n ih =>
    simp only [bop]
    refine Finset.sum_congr rfl fun i _ => ?_
    rw [ih (by omega), Function.update_of_ne (by omega), Function.update_comm (by omega)]

/-- Moving by weight and forgetting where the particle came from, then drawing its ancestor backwards. -/
theorem mix_backward [MeasurableSpace P] {κ : Kernel P P} {lx : ℕ → Slot U → P → P → ℝ} (hlx : ∀ k u, Measurable fun z : P × P => lx k u z.1 z.2)
    {vol : Measure P} {k : ℕ} {u : Slot U} (hκ : ∀ x, κ x = vol.withDensity fun x' => ENNReal.ofReal (exp (lx k u x x'))) (l : P → ℝ) (hl : Measurable l)
    (x : Fin 2 → P) {T : Fin 2 → P → ℝ≥0∞} (hT : ∀ j, Measurable (T j)) :
    ∑ a, wx l x a * ∫⁻ z, ∑ j, aprob lx k u l x z j * T j z ∂(κ (x a)) = ∑ j, wx l x j * ∫⁻ z, T j z ∂(κ (x j)) := by
  have hf : ∀ a, Measurable fun z => ENNReal.ofReal (exp (lx k u (x a) z)) := fun a =>
    (measurable_exp.comp ((hlx k u).comp (measurable_prodMk_left (x := x a)))).ennreal_ofReal
  have hap : ∀ j, Measurable fun z => aprob lx k u l x z j := fun j => (aprob_measurable hlx k u hl j).comp (measurable_prodMk_left (x := x))
  have hS : Measurable fun z => ∑ j, aprob lx k u l x z j * T j z := Finset.measurable_sum _ fun j _ => (hap j).mul (hT j)
  have h1 : ∀ a (f : P → ℝ≥0∞), Measurable f → wx l x a * ∫⁻ z, f z ∂(κ (x a)) = ∫⁻ z, wx l x a * (ENNReal.ofReal (exp (lx k u (x a) z)) * f z) ∂vol := by
    intro a f hfm
    rw [hκ, lintegral_withDensity_eq_lintegral_mul _ (hf a) hfm]
    exact (lintegral_const_mul _ ((hf a).mul hfm)).symm
  rw [Finset.sum_congr rfl fun a _ => h1 a _ hS, Finset.sum_congr rfl fun a _ => h1 a _ (hT a)]
  refine (lintegral_finset_sum (μ := vol) Finset.univ (f := fun a z => wx l x a * (ENNReal.ofReal (exp (lx k u (x a) z)) * ∑ j, aprob lx k u l x z j * T j z))
    fun a _ => ((hf a).mul hS).const_mul _).symm.trans (Eq.trans (lintegral_congr fun z => ?_)
    (lintegral_finset_sum (μ := vol) Finset.univ (f := fun a z => wx l x a * (ENNReal.ofReal (exp (lx k u (x a) z)) * T a z))
    fun a _ => ((hf a).mul (hT a)).const_mul _))
  have key : ∀ j, (∑ a, wx l x a * ENNReal.ofReal (exp (lx k u (x a) z))) * aprob lx k u l x z j = wx l x j * ENNReal.ofReal (exp (lx k u (x j) z)) := by
    intro j
    have hs : 0 < ∑ j, exp (l (x j)) := Finset.sum_pos (fun _ _ => exp_pos _) Finset.univ_nonempty
    have hs2 : 0 < ∑ j, exp (l (x j)) * exp (lx k u (x j) z) := Finset.sum_pos (fun _ _ => by positivity) Finset.univ_nonempty
    unfold wx aprob
    simp only [← ENNReal.ofReal_mul (div_nonneg (exp_pos _).le hs.le)]
    rw [← ENNReal.ofReal_sum_of_nonneg fun i _ => mul_nonneg (div_nonneg (exp_pos _).le hs.le) (exp_pos _).le,
      ← ENNReal.ofReal_mul (Finset.sum_nonneg fun i _ => mul_nonneg (div_nonneg (exp_pos _).le hs.le) (exp_pos _).le)]
    congr 1
    have e : ∑ a, (exp (l (x a)) / ∑ j, exp (l (x j))) * exp (lx k u (x a) z) = (∑ a, exp (l (x a)) * exp (lx k u (x a) z)) / ∑ j, exp (l (x j)) := by
      rw [Finset.sum_div]; exact Finset.sum_congr rfl fun a _ => by ring
    rw [e]
    field_simp
  calc ∑ a, wx l x a * (ENNReal.ofReal (exp (lx k u (x a) z)) * ∑ j, aprob lx k u l x z j * T j z)
      = (∑ a, wx l x a * ENNReal.ofReal (exp (lx k u (x a) z))) * ∑ j, aprob lx k u l x z j * T j z := by
        rw [Finset.sum_mul]; exact Finset.sum_congr rfl fun a _ => by ring
    _ = ∑ j, (∑ a, wx l x a * ENNReal.ofReal (exp (lx k u (x a) z))) * aprob lx k u l x z j * T j z := by
        rw [Finset.mul_sum]; exact Finset.sum_congr rfl fun j _ => by ring
    _ = _ := Finset.sum_congr rfl fun j _ => by rw [key]; ring

/-! ### Runs -/

theorem steps_full [MeasurableSpace P] [MeasurableSpace Ω] {F : FilterOps P U Y V Ω} {ν : Measure Ω} [IsProbabilityMeasure ν]
    {M : ℕ → Slot U → Kernel P P} (hM : ∀ k u, IsMarkovKernel (M k u)) {ℓ : ℕ → Slot Y → P → ℝ} (hℓ : ∀ k y, Measurable (ℓ k y))
    {lx : ℕ → Slot U → P → P → ℝ} (hlx : ∀ k u, Measurable fun z : P × P => lx k u z.1 z.2) {vol : Measure P}
    (hden : ∀ k u x, M k u x = vol.withDensity fun x' => ENNReal.ofReal (exp (lx k u x x')))
    {Bv : ℕ → Slot U → P → (Fin 2 → P) → (Fin 2 → ℝ) → Fin 2 → ℝ≥0∞} (hBv : ∀ k u x' x w, ∑ b, Bv k u x' x w b = 1)
    {good : Slot Y → Prop} {K : ℕ} {σ : ℕ → P}
    (hS : ∀ k u y, good y → k < K → CondLaw F ν k u y (M k u) (σ (k+1)) (ℓ (k+1) y) (Bv k u (σ (k+1))))
    {φ : List P → ℝ≥0∞} (hφ : ∀ n, Measurable fun x : Fin n → P => φ (List.ofFn x)) {x0 : P} {H : PT P U Y → ℝ≥0∞}
    (hH : ∀ (s : PT P U Y) us ys last (x : Fin 2 → P) (w : Fin 2 → ℝ), s.Rep ⟨us.map some, ys⟩ → s.traj.length = K + 1 →
      (∀ st ∈ s.traj, GoodStep 2 st) → s.traj.getLast? = some last → last.pa.part = List.ofFn x → last.pa.w = List.ofFn w →
      H s = ∑ i, ENNReal.ofReal (exp (w i) / ∑ j, exp (w j)) * bopE lx 2 x0 s.traj us (fun s => φ ((List.range (K+1)).map s)) i)
    (qs : List (Slot U × Slot Y)) (hqs : ∀ q ∈ qs, good q.2) {s : PT P U Y} {us : List (Slot U)} {ys : List (Slot Y)}
    (hrep : s.Rep ⟨us.map some, ys⟩) (hgs : ∀ st ∈ s.traj, GoodStep 2 st)
    {last : Step P} (hlast : s.traj.getLast? = some last) {x : Fin 2 → P} {w : Fin 2 → ℝ} (hx : last.pa.part = List.ofFn x)
    (hw : last.pa.w = List.ofFn w) {k : ℕ} (hk : s.traj.length = k + 1) (hus : us.length = k) (hK : K = k + qs.length) {l : P → ℝ} (hl : Measurable l)
    {c : ℝ} (hwl : ∀ i, w i = l (x i) + c) :
    stepsE ν qs (fun ds => runValue H (s.run F (fwd ds))) = ∑ i, bopE lx 2 x0 s.traj us (lineE M ℓ lx φ k l qs x σ i) i := by
  have hlx1 : ∀ k u x, Measurable (lx k u x) := fun k u x => (hlx k u).comp (measurable_prodMk_left (x := x))
  induction qs generalizing s us ys last x w k l c with
  | nil =>
    simp only [stepsE, fwd, List.map_nil, PT.run, runValue]
    obtain rfl : K = k := hK
    rw [hH s us ys last x w hrep hk hgs hlast hx hw]
    refine Finset.sum_congr rfl fun i _ => ?_
    have : lineE M ℓ lx φ K l ([] : List (Slot U × Slot Y)) x σ i = fun s => wx l x i * φ ((List.range (K+1)).map s) := by funext s; rfl
    rw [this, norm_shift hwl]
    unfold bopE
    rw [bop_const_mul]
    rfl
  | cons q qs ih =>
    have hys : ys ≠ [] := by
      intro h; have := hrep.len; rw [hk, h] at this; simp at this
    have hysl : ys.length = k + 1 := by rw [← hk]; exact hrep.len.symm
    have hind : s.ind1 = k + 1 := by rw [hrep.ind]; exact hysl
    obtain ⟨b1, b2, b3, b4⟩ := hrep.forward_bufs hys q.1 q.2
    simp only [hind, Nat.add_sub_cancel] at b1 b2 b3 b4
    have hlk := getLast_index hk hlast
    -- the contribution of the new particle `i`
    obtain ⟨Γ, hΓ⟩ : ∃ Γ : Fin 2 → P → (ℕ → P) → ℝ≥0∞, Γ = fun i z s => lineE M ℓ lx φ (k+1) (ℓ (k+1) q.2) qs ![z, σ (k+1)] σ i s := ⟨_, rfl⟩
    have hΓm : ∀ i, Measurable fun z : P × (ℕ → P) => Γ i z.1 z.2 := fun i => by
      rw [hΓ]
      exact (lineE_measurable hM hℓ hlx hφ σ (k+1) (hℓ (k+1) q.2) qs i).comp (f := fun z : P × (ℕ → P) => (![z.1, σ (k+1)], z.2))
        ((pair_measurable measurable_fst measurable_const).prodMk measurable_snd)
    obtain ⟨hv, hhv⟩ : ∃ hv : P → ℝ≥0∞, hv = fun z => ∑ i, bop lx 2 x0 s.traj (us ++ [q.1]) (k+1) (Γ i z)
      (Function.update (fun _ => x0) (k+1) (![z, σ (k+1)] i)) := ⟨_, rfl⟩
    have hup : ∀ f : P → P, Measurable f → Measurable fun z => Function.update (fun _ => x0 : ℕ → P) (k+1) (f z) := fun f hf =>
      (measurable_updateAt (k+1)).comp (measurable_const.prodMk hf)
    have hhvm : Measurable hv := by
      rw [hhv]
      refine Finset.measurable_sum _ fun i _ => bop_param hlx1 2 x0 _ _ (k+1) (hΓm i) (hup _ ?_)
      fin_cases i
      · exact measurable_id
      · exact measurable_const
    have main : ∀ ω0, ∫⁻ r, ∫⁻ r2, ∫⁻ ω, stepsE ν qs (fun ds => runValue H (s.run F (fwd ((q.1, q.2, ω0, ⟨r, r2, ω⟩) :: ds))))
        ∂ν ∂unif ∂unif = ∑ a, wx l x a * ∫⁻ z, hv z ∂(M k q.1 (x a)) := by
      intro ω0
      rw [hS k q.1 q.2 (hqs q (by simp)) (by rw [hK]; simp) s.traj last _ _ _ x w (fun _ _ z => hv z)
        (fun d => stepsE ν qs (fun ds => runValue H (s.run F (fwd ((q.1, q.2, ω0, d) :: ds))))) hk hlast
        (hgs last (List.mem_of_getLast? hlast)) b1 b2 b4 b3 hx hw (fun _ _ => hhvm) ?_]
      · refine Finset.sum_congr rfl fun a _ => ?_
        rw [← Finset.sum_mul, hBv, one_mul, norm_shift hwl]
        rfl
      · rintro d pa f z w' hfw hx' hw' hn' ⟨c', hc'⟩
        have hf : s.forward F q.1 q.2 ω0 d = ({ s.beforeForward q.1 q.2 with traj := s.traj ++ [⟨pa, List.ofFn fun i => (f i : ℕ)⟩] }, .ok true) := by
          rw [PT.forward_eq hrep.inv]
          have he : s.ensureInit F ω0 = (s, .ok ()) := by
            unfold PT.ensureInit
            rw [if_neg (by rw [hk]; omega)]
          rw [he]
          simp only [hind, Nat.add_sub_cancel, hfw]
        set s1 : PT P U Y := { s.beforeForward q.1 q.2 with traj := s.traj ++ [⟨pa, List.ofFn fun i => (f i : ℕ)⟩] } with hs1
        have hrep1 := PT.forward_rep hrep hf
        rw [show Spec.Log.forward ⟨us.map some, ys⟩ q.1 q.2 = ⟨(us ++ [q.1]).map some, ys ++ [q.2]⟩ by
          unfold Spec.Log.forward; rw [if_neg hys]; simp] at hrep1
        have hk1 : s1.traj.length = (k + 1) + 1 := by rw [hs1]; simp [hk]
        have hlast1 : s1.traj.getLast? = some ⟨pa, List.ofFn fun i => (f i : ℕ)⟩ := by rw [hs1]; simp
        have hgs1 : ∀ st ∈ s1.traj, GoodStep 2 st := by
          intro st hst
          rw [hs1] at hst
          rcases List.mem_append.mp hst with h | h
          · exact hgs st h
          · rw [List.mem_singleton.mp h]
            exact goodStep_ofFn hx' hw' hn' rfl
        have hIH := ih (fun q hq => hqs q (by simp [hq])) hrep1 hgs1 hlast1 (x := ![z, σ (k+1)]) (w := w') hx' hw' hk1 (by simp [hus])
          (by rw [hK]; simp only [List.length_cons]; omega) (hℓ (k+1) q.2) hc'
        have hval : hv z = ∑ i, bopE lx 2 x0 s1.traj (us ++ [q.1]) (lineE M ℓ lx φ (k+1) (ℓ (k+1) q.2) qs ![z, σ (k+1)] σ i) i := by
          rw [hhv]
          refine Finset.sum_congr rfl fun i _ => ?_
          unfold bopE
          have hl1 : s1.traj.length - 1 = k + 1 := by omega
          have hi : (s.traj ++ [(⟨pa, List.ofFn fun i => (f i : ℕ)⟩ : Step P)])[k+1]? = some ⟨pa, List.ofFn fun i => (f i : ℕ)⟩ := by
            rw [List.getElem?_append_right (by omega), hk]; simp
          rw [hl1, hs1]
          simp only
          rw [partAt_eq x0 hi hx' i]
          have := bop_append lx 2 x0 (tr := s.traj) (l := [⟨pa, List.ofFn fun i => (f i : ℕ)⟩]) (us := us ++ [q.1]) (us' := []) (n := k+1) (by omega)
            (by simp [hus]) (lineE M ℓ lx φ (k+1) (ℓ (k+1) q.2) qs ![z, σ (k+1)] σ i) (Function.update (fun _ => x0) (k+1) (![z, σ (k+1)] i))
          rw [List.append_nil] at this
          rw [this, hΓ]
        show _ = hv z
        rw [hval, ← hIH]
        congr 1
        funext ds
        have hcons : fwd ((q.1, q.2, ω0, d) :: ds) = .forward q.1 q.2 ω0 d :: fwd ds := rfl
        rw [hcons, run_forward_cons hf]
        rcases s1.run F (fwd ds) with ⟨s2, _ | bs⟩ <;> rfl
    simp only [stepsE]
    rw [lintegral_congr main, lintegral_const, measure_univ, mul_one]
    -- the backward draw of the new particles' ancestors
    obtain ⟨S, hSd⟩ : ∃ S : Fin 2 → Fin 2 → P → P → ℝ≥0∞, S = fun i j z y => bop lx 2 x0 s.traj us k (Γ i z)
      (Function.update (Function.update (fun _ => x0) k (x j)) (k+1) y) := ⟨_, rfl⟩
    have hSm : ∀ i j, Measurable fun z : P × P => S i j z.1 z.2 := fun i j => by
      rw [hSd]
      exact bop_param hlx1 2 x0 _ _ k (Γ := fun z : P × P => Γ i z.1) ((hΓm i).comp ((measurable_fst.comp measurable_fst).prodMk measurable_snd))
        ((measurable_updateAt (k+1)).comp (measurable_const.prodMk measurable_snd))
    have hb : ∀ i z y, bop lx 2 x0 s.traj (us ++ [q.1]) (k+1) (Γ i z) (Function.update (fun _ => x0) (k+1) y) =
        ∑ j, aprob lx k q.1 l x y j * S i j z y := by
      intro i z y
      simp only [bop]
      refine Finset.sum_congr rfl fun j _ => ?_
      rw [Function.update_self, hSd]
      congr 1
      · unfold bprob aprob
        congr 1
        rw [List.getD_eq_getElem?_getD, List.getElem?_append_right (by omega), hus]
        simp only [Nat.sub_self, List.getElem?_cons_zero, Option.getD_some, fun j : Fin 2 => wAt_eq hlk hw j, fun j : Fin 2 => partAt_eq x0 hlk hx j, hwl, exp_add]
        have e : ∀ j, exp (l (x j)) * exp c * exp (lx k q.1 (x j) y) = exp c * (exp (l (x j)) * exp (lx k q.1 (x j) y)) := fun j => by ring
        simp only [e, ← Finset.mul_sum]
        exact mul_div_mul_left _ _ (exp_pos c).ne'
      · rw [partAt_eq x0 hlk hx j, Function.update_comm (by omega)]
        have := bop_append lx 2 x0 (tr := s.traj) (l := []) (us := us) (us' := [q.1]) (n := k) (by omega) (by omega) (Γ i z)
          (Function.update (Function.update (fun _ => x0) k (x j)) (k+1) y)
        rw [List.append_nil] at this
        exact this
    have hhv2 : ∀ z, hv z = ∑ j, aprob lx k q.1 l x z j * S 0 j z z + ∑ j, aprob lx k q.1 l x (σ (k+1)) j * S 1 j z (σ (k+1)) := by
      intro z
      rw [hhv]
      simp only [Fin.sum_univ_two (f := fun i => bop lx 2 x0 s.traj (us ++ [q.1]) (k+1) (Γ i z) (Function.update (fun _ => x0) (k+1) (![z, σ (k+1)] i)))]
      exact congrArg₂ (· + ·) (hb 0 z z) (hb 1 z (σ (k+1)))
    have hm0 : ∀ j, Measurable fun z => S 0 j z z := fun j => (hSm 0 j).comp (measurable_id.prodMk measurable_id)
    have hm1 : ∀ j, Measurable fun z => S 1 j z (σ (k+1)) := fun j => (hSm 1 j).comp (measurable_id.prodMk measurable_const)
    have ham : ∀ j, Measurable fun z => aprob lx k q.1 l x z j := fun j => (aprob_measurable hlx k q.1 hl j).comp (measurable_prodMk_left (x := x))
    have hL : ∀ a, ∫⁻ z, hv z ∂(M k q.1 (x a)) = ∫⁻ z, ∑ j, aprob lx k q.1 l x z j * S 0 j z z ∂(M k q.1 (x a)) +
        ∑ j, aprob lx k q.1 l x (σ (k+1)) j * ∫⁻ z, S 1 j z (σ (k+1)) ∂(M k q.1 (x a)) := by
      intro a
      simp only [hhv2]
      refine (lintegral_add_left (Finset.measurable_sum _ fun j _ => (ham j).mul (hm0 j)) _).trans ?_
      congr 1
      refine (lintegral_finset_sum _ fun j _ => (hm1 j).const_mul _).trans ?_
      exact Finset.sum_congr rfl fun j _ => lintegral_const_mul _ (hm1 j)
    simp only [hL, mul_add, Finset.sum_add_distrib]
    rw [mix_backward hlx (hden k q.1) l hl x hm0]
    -- the other side
    have hR : ∀ i, bopE lx 2 x0 s.traj us (lineE M ℓ lx φ k l (q :: qs) x σ i) i =
        wx l x i * ∫⁻ z, S 0 i z z ∂(M k q.1 (x i)) + aprob lx k q.1 l x (σ (k+1)) i * ∑ a, wx l x a * ∫⁻ z, S 1 i z (σ (k+1)) ∂(M k q.1 (x a)) := by
      intro i
      have e0 : lineE M ℓ lx φ k l (q :: qs) x σ i = fun s => wx l x i * (∫⁻ z, Γ 0 z (Function.update s (k+1) z) ∂(M k q.1 (x i))) +
          aprob lx k q.1 l x (σ (k+1)) i * ∑ a, wx l x a * ∫⁻ z, Γ 1 z (Function.update s (k+1) (σ (k+1))) ∂(M k q.1 (x a)) := by
        rw [hΓ]; rfl
      have hg : ∀ (j : Fin 2) (f : P → P), Measurable f → Measurable fun z : P × (ℕ → P) => Γ j z.1 (Function.update z.2 (k+1) (f z.1)) := fun j f hf =>
        (hΓm j).comp (f := fun z : P × (ℕ → P) => (z.1, Function.update z.2 (k+1) (f z.1)))
          (measurable_fst.prodMk ((measurable_updateAt (k+1)).comp (measurable_snd.prodMk (hf.comp measurable_fst))))
      have hbi : ∀ (j : Fin 2) (f : P → P) (hf : Measurable f) (μ : Measure P) (t : ℕ → P),
          bop lx 2 x0 s.traj us k (fun s => ∫⁻ z, Γ j z (Function.update s (k+1) (f z)) ∂μ) t =
          ∫⁻ z, bop lx 2 x0 s.traj us k (Γ j z) (Function.update t (k+1) (f z)) ∂μ := by
        intro j f hf μ t
        rw [bop_integral hlx1 2 x0 _ _ k (Γ := fun z s => Γ j z (Function.update s (k+1) (f z))) (hg j f hf) μ t]
        exact lintegral_congr fun z => bop_update lx 2 x0 _ _ le_rfl (Γ j z) (f z) t
      unfold bopE
      rw [show s.traj.length - 1 = k by omega, partAt_eq x0 hlk hx i, e0, bop_add, bop_const_mul, bop_const_mul]
      simp only [Fin.sum_univ_two (f := fun a => wx l x a * ∫⁻ z, Γ 1 z (Function.update _ (k+1) (σ (k+1))) ∂(M k q.1 (x a)))]
      rw [bop_add, bop_const_mul, bop_const_mul, hbi 0 (fun z => z) measurable_id, hbi 1 (fun _ => σ (k+1)) measurable_const,
        hbi 1 (fun _ => σ (k+1)) measurable_const, Fin.sum_univ_two, hSd]
    simp only [hR, Finset.sum_add_distrib]
    congr 1
    simp only [Finset.mul_sum]
    rw [Finset.sum_comm]
    exact Finset.sum_congr rfl fun b _ => Finset.sum_congr rfl fun a _ => by ring

theorem list_as_path (x0 : P) {n : ℕ} {xs : List P} (h : xs.length = n) : xs = (List.range n).map fun k => xs.getD k x0 := by
  refine List.ext_getElem (by simp [h]) fun i h1 h2 => ?_
  simp [List.getD_eq_getElem?_getD, h1]

/-- One iteration with backward simulation. -/
theorem full_total [MeasurableSpace P] [MeasurableSpace Ω] {K : MarkovModel P U Y V Ω} {good : Slot Y → Prop} {ν : Measure Ω} [IsProbabilityMeasure ν]
    {μ0 : Measure P} {M : ℕ → Slot U → Kernel P P} {ℓ : ℕ → Slot Y → P → ℝ} (hK : Spec.Samples K good ν 2 μ0 M ℓ) (rest : Callbacks P U Y V Ω)
    {logpXnext : List P → List P → Slot U → ℕ → PyM (List ℝ)} {lx : ℕ → Slot U → P → P → ℝ} (hlog : Spec.LogDensity logpXnext lx)
    (hlx : ∀ k u, Measurable fun z : P × P => lx k u z.1 z.2) {vol : Measure P}
    (hden : ∀ k u x, M k u x = vol.withDensity fun x' => ENNReal.ofReal (exp (lx k u x x')))
    {Bv : ℕ → Slot U → P → (Fin 2 → P) → (Fin 2 → ℝ) → Fin 2 → ℝ≥0∞} (hBv : ∀ k u x' x w, ∑ b, Bv k u x' x w b = 1)
    {ct : List P → List (Step P)} (hct : ∀ xs k x, xs[k]? = some x → RefState (ct xs) k x) {F : List P → FilterOps P U Y V Ω}
    (hFc : ∀ xs, (F xs).create = cpfInitial (K.toCallbacks rest) (ct xs)) (hFm : ∀ xs, (F xs).measure = pfMeasure (K.toCallbacks rest))
    (hFp : ∀ xs, (F xs).usingPfy = false)
    (hFf : ∀ xs k x' u y, RefState (ct xs) (k+1) x' → (y = .none ∨ good y) → CondLaw (F xs) ν k u y (M k u) x' (seen ℓ (k+1) y) (Bv k u x'))
    {srest : SmoothCallbacks P U Y V Ω} (hps : NoPostprocessing srest) {m : ℕ} (hm : 0 < m) (user : Option SOpts)
    (d : AllDraws Ω) (fuel : ℕ) {T : Option ℕ} {s0 : PT P U Y}
    (h0 : PT.init 2 T 0 = .ok s0) (qs : List (Slot U × Slot Y)) (hqs : ∀ q ∈ qs, q.2 = .none ∨ good q.2) (first : Option (Slot Y))
    (hfirst : ∀ y ∈ first, good y) (hne : first = none → qs ≠ []) (x0 : P) {φ : List P → ℝ≥0∞}
    (hφ : Measurable fun x : Fin (qs.length + 1) → P => φ (List.ofFn x)) :
    (Measurable fun x : Fin (qs.length + 1) → P => sweep ν s0 F first qs (smoothE (ffbsi logpXnext srest) m "full" user d fuel (pathMean φ m)) (List.ofFn x)) ∧
    smoothingE μ0 M ℓ first qs (sweep ν s0 F first qs (smoothE (ffbsi logpXnext srest) m "full" user d fuel (pathMean φ m))) = smoothingE μ0 M ℓ first qs φ ∧
    ∀ s : ℕ → P, sweep ν s0 F first qs (smoothE (ffbsi logpXnext srest) m "full" user d fuel (pathMean φ m)) ((List.range (qs.length + 1)).map s) =
      ∫⁻ x, gibbsE M (seen ℓ) (cpfasAnc lx) (cutTo (qs.length + 1) φ) 0 (firstLik ℓ first) qs (pair0 x0 x (s 0)) s ∂μ0 := by
  obtain ⟨X, hX, hc⟩ := hK.create
  have hM := samples_markov (by norm_num) hK
  haveI : IsProbabilityMeasure μ0 := by rw [← (hX 0).2]; exact Measure.isProbabilityMeasure_map (hX 0).1.aemeasurable
  have hφm : ∀ n, Measurable fun x : Fin n → P => cutTo (qs.length + 1) φ (List.ofFn x) := fun n => range_map_measurable hφ n
  have hφe : ∀ xs, xs.length = qs.length + 1 → cutTo (qs.length + 1) φ xs = φ xs := fun xs h => if_pos h
  have hidx : ∀ (s : ℕ → P) k, k ≤ qs.length → ((List.range (qs.length + 1)).map s)[k]? = some (s k) := by
    intro s k hk
    rw [List.getElem?_map, List.getElem?_range (by omega)]; rfl
  refine sweep_total hM hK rest (B := cpfasAnc lx) (fun k u l b hl => cpfasAnc_measurable hlx k u hl b) (fun k u l hl => cpfas_ancOk hlx (hden k u) hl)
    hFm qs first hfirst hne x0 hφm hφe fun σ => ?_
  refine run_pair (xr := σ 0) qs (G := fun l x => gibbsE M (seen ℓ) (cpfasAnc lx) (cutTo (qs.length + 1) φ) 0 l qs (pair0 x0 x (σ 0)) σ) (fun l hl => ?_) ?_ (hX 0).1 (hX 0).2 (by
      intro ω
      obtain ⟨c, h1, h2⟩ := hct _ _ _ (hidx σ 0 (by omega))
      rw [hFc]
      unfold cpfInitial
      have : (K.toCallbacks rest).createInitial 2 ω = .ok (List.ofFn fun i => X i ω) := hc ω
      simp only [this, ok_bind, getIdx_ok.mpr h1, getIdx_ok.mpr h2]
      simp [setLast, ofFn_two]) (hFp _) h0
  · exact (gibbsE_measurable hM (seen_measurable hK.meas) (fun k u l b hl => cpfasAnc_measurable hlx k u hl b) hφm 0 hl qs).comp
      (f := fun x => (pair0 x0 x (σ 0), σ)) ((pair0_measurable x0 measurable_id measurable_const).prodMk measurable_const)
  · intro l s ys st x w c hl hrep htr hgs hx hw hwl
    have := steps_full (F := F ((List.range (qs.length + 1)).map σ)) (ν := ν) (K := qs.length) (σ := σ) (x0 := x0) (φ := cutTo (qs.length + 1) φ)
      (H := smoothE (ffbsi logpXnext srest) m "full" user d fuel (pathMean φ m)) hM (seen_measurable hK.meas) hlx hden hBv
      (good := fun y => y = .none ∨ good y)
      (fun k u y hy hk => hFf _ k _ u y (hct _ _ _ (hidx σ (k+1) (by omega))) hy) hφm
      (fun s us ys last x w hrep hk hgs hlast hx hw => by
        rw [smoothE_full hlog srest hps hm user d fuel φ (by norm_num) x0 hk hgs hlast hw hrep]
        simp only [hφe _ (show ((List.range (qs.length + 1)).map _).length = _ by simp)]) qs hqs hrep (by rw [htr]; simpa using hgs) (last := st)
        (by rw [htr]; rfl) hx hw (k := 0) (by rw [htr]; rfl) rfl (by omega) hl hwl
    rw [this, gibbsE_lines hM (seen_measurable hK.meas) hlx hφm σ 0 hl qs]
    have hp : (fun i => pair0 x0 x (σ 0) i 0) = ![x, σ 0] := funext fun i => Function.update_self _ _ _
    rw [hp]
    refine Finset.sum_congr rfl fun i _ => ?_
    rw [htr]
    exact (bop_pathOp (fun k u x => (hlx k u).comp (measurable_prodMk_left (x := x))) (by norm_num) x0 hden).init st _ hx _ i

theorem cpfas_bv_sum {lx : ℕ → Slot U → P → P → ℝ} (k : ℕ) (u : Slot U) (x' : P) (x : Fin 2 → P) (w : Fin 2 → ℝ) :
    ∑ b, ENNReal.ofReal (exp (w b) * exp (lx k u (x b) x') / ∑ j, exp (w j) * exp (lx k u (x j) x')) = 1 := by
  have hs : 0 < ∑ j, exp (w j) * exp (lx k u (x j) x') := Finset.sum_pos (fun _ _ => by positivity) Finset.univ_nonempty
  rw [← ENNReal.ofReal_sum_of_nonneg fun i _ => by positivity, ← Finset.sum_div, div_self hs.ne', ENNReal.ofReal_one]

/-- C96: particle Gibbs with `CPF`, two particles, and trajectories drawn by backward simulation, `perform_smoothing(m, 'full')`. -/
theorem C96_cpf_full_invariant [MeasurableSpace P] [MeasurableSpace Ω] {K : MarkovModel P U Y V Ω} {good : Slot Y → Prop} {ν : Measure Ω}
    [IsProbabilityMeasure ν] {μ0 : Measure P} {M : ℕ → Slot U → Kernel P P} {ℓ : ℕ → Slot Y → P → ℝ} (hK : Spec.Samples K good ν 2 μ0 M ℓ)
    {logpXnext : List P → List P → Slot U → ℕ → PyM (List ℝ)} {lx : ℕ → Slot U → P → P → ℝ} (hlx : Spec.LogDensity logpXnext lx)
    (hlm : ∀ k u, Measurable fun z : P × P => lx k u z.1 z.2) {vol : Measure P}
    (hden : ∀ k u x, M k u x = vol.withDensity fun x' => ENNReal.ofReal (exp (lx k u x x')))
    {rest : Callbacks P U Y V Ω} {ct : List P → List (Step P)} (hct : ∀ xs k x, xs[k]? = some x → RefState (ct xs) k x) {res : ℝ}
    {name : String} (hn : parseFilter name = .ok .cpf) {F : List P → FilterOps P U Y V Ω}
    (hF : ∀ xs, mkFilter (K.toCallbacks rest) 2 res name (.dict (some (ct xs))) = .ok (F xs))
    {srest : SmoothCallbacks P U Y V Ω} (hps : NoPostprocessing srest) {m : ℕ} (hm : 0 < m) (user : Option SOpts)
    (d : AllDraws Ω) (fuel : ℕ) {T : Option ℕ} {s0 : PT P U Y} (h0 : PT.init 2 T 0 = .ok s0) (qs : List (Slot U × Slot Y))
    (hqs : ∀ q ∈ qs, q.2 = .none ∨ good q.2) (first : Option (Slot Y)) (hfirst : ∀ y ∈ first, good y) (hne : first = none → qs ≠ [])
    {φ : List P → ℝ≥0∞} (hφ : Measurable fun x : Fin (qs.length + 1) → P => φ (List.ofFn x)) (iterations : ℕ) :
    smoothingE μ0 M ℓ first qs ((fun φ => sweep ν s0 F first qs (smoothE (ffbsi logpXnext srest) m "full" user d fuel (pathMean φ m)))^[iterations] φ) =
      smoothingE μ0 M ℓ first qs φ := by
  have hF' := fun xs => mkFilter_cond hn (hF xs)
  obtain ⟨x0⟩ := samples_nonempty hK
  refine iterate_invariant (fun φ hφ => ?_) iterations hφ
  refine (fun h => ⟨h.1, h.2.1⟩) (full_total hK rest hlx hlm hden (Bv := fun _ _ _ _ _ b => if b = 1 then 1 else 0) (fun _ _ _ _ _ => by simp) hct (fun xs => by rw [hF' xs])
    (fun xs => by rw [hF' xs]) (fun xs => by rw [hF' xs]) (fun xs k x' u y hx hy => cpf_condLaw hK rest hx u hy (by rw [hF' xs])) hps hm user d fuel
    h0 qs hqs first hfirst hne x0 hφ)

/-- C96: particle Gibbs with `CPFAS`, two particles, and backward simulation. -/
theorem C96_cpfas_full_invariant [MeasurableSpace P] [MeasurableSpace Ω] {K : MarkovModel P U Y V Ω} {good : Slot Y → Prop} {ν : Measure Ω}
    [IsProbabilityMeasure ν] {μ0 : Measure P} {M : ℕ → Slot U → Kernel P P} {ℓ : ℕ → Slot Y → P → ℝ} (hK : Spec.Samples K good ν 2 μ0 M ℓ)
    {logpXnext : List P → List P → Slot U → ℕ → PyM (List ℝ)} {lx : ℕ → Slot U → P → P → ℝ} (hlx : Spec.LogDensity logpXnext lx)
    (hlm : ∀ k u, Measurable fun z : P × P => lx k u z.1 z.2) {vol : Measure P}
    (hden : ∀ k u x, M k u x = vol.withDensity fun x' => ENNReal.ofReal (exp (lx k u x x')))
    {rest : Callbacks P U Y V Ω} {ct : List P → List (Step P)} (hct : ∀ xs k x, xs[k]? = some x → RefState (ct xs) k x) {res : ℝ}
    {name : String} (hn : parseFilter name = .ok .cpfas) {F : List P → FilterOps P U Y V Ω}
    (hF : ∀ xs, mkFilter (K.toCallbacks (ffbsiFilter logpXnext rest)) 2 res name (.dict (some (ct xs))) = .ok (F xs))
    {srest : SmoothCallbacks P U Y V Ω} (hps : NoPostprocessing srest) {m : ℕ} (hm : 0 < m) (user : Option SOpts)
    (d : AllDraws Ω) (fuel : ℕ) {T : Option ℕ} {s0 : PT P U Y} (h0 : PT.init 2 T 0 = .ok s0) (qs : List (Slot U × Slot Y))
    (hqs : ∀ q ∈ qs, q.2 = .none ∨ good q.2) (first : Option (Slot Y)) (hfirst : ∀ y ∈ first, good y) (hne : first = none → qs ≠ [])
    {φ : List P → ℝ≥0∞} (hφ : Measurable fun x : Fin (qs.length + 1) → P => φ (List.ofFn x)) (iterations : ℕ) :
    smoothingE μ0 M ℓ first qs ((fun φ => sweep ν s0 F first qs (smoothE (ffbsi logpXnext srest) m "full" user d fuel (pathMean φ m)))^[iterations] φ) =
      smoothingE μ0 M ℓ first qs φ := by
  have hF' := fun xs => mkFilter_cond hn (hF xs)
  obtain ⟨x0⟩ := samples_nonempty hK
  refine iterate_invariant (fun φ hφ => ?_) iterations hφ
  refine (fun h => ⟨h.1, h.2.1⟩) (full_total hK (ffbsiFilter logpXnext rest) hlx hlm hden
    (Bv := fun k u x' x w b => ENNReal.ofReal (exp (w b) * exp (lx k u (x b) x') / ∑ j, exp (w j) * exp (lx k u (x j) x'))) cpfas_bv_sum
    hct (fun xs => by rw [hF' xs])
    (fun xs => by rw [hF' xs]) (fun xs => by rw [hF' xs]) (fun xs k x' u y hx hy => cpfas_condLaw hK rest hlx hx u hy (by rw [hF' xs])) hps hm user d fuel
    h0 qs hqs first hfirst hne x0 hφ)

/-- C96: for every reference trajectory, backward simulation after `CPFAS` with two particles has the same law as following the stored
ancestors. -/
theorem C96_full_eq_ancestor [MeasurableSpace P] [MeasurableSpace Ω] {K : MarkovModel P U Y V Ω} {good : Slot Y → Prop} {ν : Measure Ω}
    [IsProbabilityMeasure ν] {μ0 : Measure P} {M : ℕ → Slot U → Kernel P P} {ℓ : ℕ → Slot Y → P → ℝ} (hK : Spec.Samples K good ν 2 μ0 M ℓ)
    {logpXnext : List P → List P → Slot U → ℕ → PyM (List ℝ)} {lx : ℕ → Slot U → P → P → ℝ} (hlx : Spec.LogDensity logpXnext lx)
    (hlm : ∀ k u, Measurable fun z : P × P => lx k u z.1 z.2) {vol : Measure P}
    (hden : ∀ k u x, M k u x = vol.withDensity fun x' => ENNReal.ofReal (exp (lx k u x x')))
    {rest : Callbacks P U Y V Ω} {ct : List P → List (Step P)} (hct : ∀ xs k x, xs[k]? = some x → RefState (ct xs) k x) {res : ℝ}
    {name : String} (hn : parseFilter name = .ok .cpfas) {F : List P → FilterOps P U Y V Ω}
    (hF : ∀ xs, mkFilter (K.toCallbacks (ffbsiFilter logpXnext rest)) 2 res name (.dict (some (ct xs))) = .ok (F xs))
    {srest S : SmoothCallbacks P U Y V Ω} (hps : NoPostprocessing srest) (hS : ∀ D, PlainSmooth S D) (hps' : NoPostprocessing S)
    {m m' : ℕ} (hm : 0 < m) (hm' : 0 < m') (user user' : Option SOpts)
    (d d' : AllDraws Ω) (fuel fuel' : ℕ) {T : Option ℕ} {s0 : PT P U Y} (h0 : PT.init 2 T 0 = .ok s0) (qs : List (Slot U × Slot Y))
    (hqs : ∀ q ∈ qs, q.2 = .none ∨ good q.2) (first : Option (Slot Y)) (hfirst : ∀ y ∈ first, good y) (hne : first = none → qs ≠ [])
    {φ : List P → ℝ≥0∞} (hφ : Measurable fun x : Fin (qs.length + 1) → P => φ (List.ofFn x)) {ref : List P} (href : ref.length = qs.length + 1) :
    sweep ν s0 F first qs (smoothE (ffbsi logpXnext srest) m "full" user d fuel (pathMean φ m)) ref =
      sweep ν s0 F first qs (smoothE S m' "ancestor" user' d' fuel' (pathMean φ m')) ref := by
  have hF' := fun xs => mkFilter_cond hn (hF xs)
  have hM := samples_markov (by norm_num) hK
  obtain ⟨x0⟩ := samples_nonempty hK
  have h1 := full_total (F := F) hK (ffbsiFilter logpXnext rest) hlx hlm hden
    (Bv := fun k u x' x w b => ENNReal.ofReal (exp (w b) * exp (lx k u (x b) x') / ∑ j, exp (w j) * exp (lx k u (x j) x'))) cpfas_bv_sum
    hct (fun xs => by rw [hF' xs])
    (fun xs => by rw [hF' xs]) (fun xs => by rw [hF' xs]) (fun xs k x' u y hx hy => cpfas_condLaw hK rest hlx hx u hy (by rw [hF' xs])) hps hm user d fuel
    h0 qs hqs first hfirst hne x0 hφ
  have h2 := cond_total (F := F) hK (ffbsiFilter logpXnext rest) (B := cpfasAnc lx) (fun k u l b hl => cpfasAnc_measurable hlm k u hl b)
    (fun k u l hl => cpfas_ancOk hlm (hden k u) hl) (Bv := fun k u x' x w b => ENNReal.ofReal (exp (w b) * exp (lx k u (x b) x') / ∑ j, exp (w j) * exp (lx k u (x j) x')))
    (cpfas_bv lx) hct (fun xs => by rw [hF' xs]) (fun xs => by rw [hF' xs])
    (fun xs => by rw [hF' xs]) (fun xs k x' u y hx hy => cpfas_condLaw hK rest hlx hx u hy (by rw [hF' xs])) hS hps' hm' user' d' fuel' h0 qs hqs first
    hfirst hne x0 hφ
  rw [list_as_path x0 href, h1.2.2, h2.2.2]

end PyPE

import Verif.Smooth.GibbsFull

/-!
# Particle Gibbs forgets its first reference trajectory (C114)
-/

namespace PyPE
open Real Spec MeasureTheory ProbabilityTheory
open scoped ENNReal

variable {P U Y V Ω : Type}

/-! ### Specification -/

/-- The states of the chain given the measurements: the smoothing law, normalised. -/
noncomputable def Spec.smoothingMean [MeasurableSpace P] (μ0 : Measure P) (M : ℕ → Slot U → Kernel P P) (ℓ : ℕ → Slot Y → P → ℝ) (first : Option (Slot Y))
    (qs : List (Slot U × Slot Y)) (φ : List P → ℝ≥0∞) : ℝ≥0∞ :=
  smoothingE μ0 M ℓ first qs φ / smoothingE μ0 M ℓ first qs (fun _ => 1)

/-- The rate: the likelihood of the data over `Π_k 2 c_k`, where `c_k` bounds the likelihood of measurement `k`. -/
noncomputable def Spec.regeneration [MeasurableSpace P] (μ0 : Measure P) (M : ℕ → Slot U → Kernel P P) (ℓ : ℕ → Slot Y → P → ℝ) (first : Option (Slot Y))
    (qs : List (Slot U × Slot Y)) (c : ℕ → ℝ) : ℝ :=
  (smoothingE μ0 M ℓ first qs (fun _ => 1)).toReal / ∏ k ∈ Finset.range (qs.length + 1), (2 * c k)

/-- `c_0` bounds the likelihood of the measurement at time 0 and `c_{k+1}` the one of measurement `k` of `qs`; a `None` measurement has
likelihood 1. -/
structure Spec.LikBound (ℓ : ℕ → Slot Y → P → ℝ) (first : Option (Slot Y)) (qs : List (Slot U × Slot Y)) (c : ℕ → ℝ) : Prop where
  first : ∀ x, exp (firstLik ℓ first x) ≤ c 0
  next : ∀ k q, qs[k]? = some q → ∀ x, exp (seen ℓ (k+1) q.2 x) ≤ c (k+1)

/-- `Q` maps a function of a trajectory to its mean after one iteration, for every trajectory the iteration may start from. After `k` iterations the
mean of every function with values in `[0, 1]` (in particular the probability of every event) is within `(1 - ε)^k` of `mean`, whatever the
first trajectory `ref` of `n` states was. -/
def Spec.ForgetsStart [MeasurableSpace P] (n : ℕ) (Q : (List P → ℝ≥0∞) → List P → ℝ≥0∞) (mean : (List P → ℝ≥0∞) → ℝ≥0∞) (ε : ℝ) : Prop :=
  0 < ε ∧ ε ≤ 1 ∧ ∀ φ : List P → ℝ≥0∞, (Measurable fun x : Fin n → P => φ (List.ofFn x)) → (∀ xs, xs.length = n → φ xs ≤ 1) →
    ∀ (iterations : ℕ) (ref : List P), ref.length = n → |((Q^[iterations] φ) ref).toReal - (mean φ).toReal| ≤ (1 - ε)^iterations

/-! ### The recursion -/

theorem pathG_const [MeasurableSpace P] {M : ℕ → Slot U → Kernel P P} (ℓ : ℕ → Slot Y → P → ℝ) {c : ℝ≥0∞} (hc : c ≠ ∞) (k : ℕ)
    (qs : List (Slot U × Slot Y)) (s : ℕ → P) : pathG M ℓ (fun _ => c) k qs s = c * pathG M ℓ (fun _ => 1) k qs s := by
  induction qs generalizing k s with
  | nil => simp [pathG_nil]
  | cons q qs ih =>
    simp only [pathG_cons, ih]
    rw [← lintegral_const_mul' _ _ hc]
    exact lintegral_congr fun x => by ring

theorem pathG_add [MeasurableSpace P] {M : ℕ → Slot U → Kernel P P} (hM : ∀ k u, IsMarkovKernel (M k u)) {ℓ : ℕ → Slot Y → P → ℝ}
    (hℓ : ∀ k y, Measurable (ℓ k y)) {φ ψ : List P → ℝ≥0∞} (hφ : ∀ n, Measurable fun x : Fin n → P => φ (List.ofFn x)) (k : ℕ)
    (qs : List (Slot U × Slot Y)) (s : ℕ → P) : pathG M ℓ (fun l => φ l + ψ l) k qs s = pathG M ℓ φ k qs s + pathG M ℓ ψ k qs s := by
  induction qs generalizing k s with
  | nil => simp [pathG_nil]
  | cons q qs ih =>
    simp only [pathG_cons, ih, mul_add]
    have h1 : Measurable fun x' => ENNReal.ofReal (exp (ℓ (k+1) q.2 x')) * pathG M ℓ φ (k+1) qs (Function.update s (k+1) x') :=
      (measurable_exp.comp (hℓ (k+1) q.2)).ennreal_ofReal.mul
        ((pathG_measurable hM hℓ hφ (k+1) qs).comp (measurable_update s))
    exact lintegral_add_left h1 _

theorem pathG_pos [MeasurableSpace P] {M : ℕ → Slot U → Kernel P P} (hM : ∀ k u, IsMarkovKernel (M k u)) {ℓ : ℕ → Slot Y → P → ℝ}
    (hℓ : ∀ k y, Measurable (ℓ k y)) (k : ℕ) (qs : List (Slot U × Slot Y)) (s : ℕ → P) : 0 < pathG M ℓ (fun _ => 1) k qs s := by
  induction qs generalizing k s with
  | nil => simp [pathG_nil]
  | cons q qs ih =>
    rw [pathG_cons]
    haveI := hM k q.1
    have h1 : Measurable fun x' => ENNReal.ofReal (exp (ℓ (k+1) q.2 x')) * pathG M ℓ (fun _ => 1) (k+1) qs (Function.update s (k+1) x') :=
      (measurable_exp.comp (hℓ (k+1) q.2)).ennreal_ofReal.mul
        ((pathG_measurable hM hℓ (fun _ => measurable_const) (k+1) qs).comp (measurable_update s))
    rw [lintegral_pos_iff_support h1]
    have : (Function.support fun x' => ENNReal.ofReal (exp (ℓ (k+1) q.2 x')) * pathG M ℓ (fun _ => 1) (k+1) qs (Function.update s (k+1) x')) = Set.univ := by
      ext x
      simp only [Function.mem_support, Set.mem_univ, iff_true]
      exact (ENNReal.mul_pos (ENNReal.ofReal_pos.mpr (exp_pos _)).ne' (ih _ _).ne').ne'
    rw [this, measure_univ]
    exact one_pos

theorem gibbsE_congr [MeasurableSpace P] (M : ℕ → Slot U → Kernel P P) (ℓ : ℕ → Slot Y → P → ℝ)
    (B : ℕ → Slot U → (P → ℝ) → (Fin 2 → ℕ → P) → P → Fin 2 → ℝ≥0∞) {φ φ' : List P → ℝ≥0∞} {n : ℕ}
    (h : ∀ xs, xs.length = n → φ xs = φ' xs) (k : ℕ) (l : P → ℝ) (qs : List (Slot U × Slot Y)) (hn : k + qs.length + 1 = n) (p : Fin 2 → ℕ → P) (s : ℕ → P) :
    gibbsE M ℓ B φ k l qs p s = gibbsE M ℓ B φ' k l qs p s := by
  induction qs generalizing k l p with
  | nil =>
    simp only [gibbsE]
    refine Finset.sum_congr rfl fun c _ => ?_
    rw [h _ (by simpa using hn)]
  | cons q qs ih =>
    simp only [gibbsE]
    refine Finset.sum_congr rfl fun a _ => congrArg _ (Finset.sum_congr rfl fun b _ => congrArg _ (lintegral_congr fun x => ?_))
    exact ih (k+1) _ (by simp only [List.length_cons] at hn; omega) _

theorem gibbsE_const [MeasurableSpace P] {M : ℕ → Slot U → Kernel P P} (hM : ∀ k u, IsMarkovKernel (M k u)) (ℓ : ℕ → Slot Y → P → ℝ)
    {B : ℕ → Slot U → (P → ℝ) → (Fin 2 → ℕ → P) → P → Fin 2 → ℝ≥0∞} (hB1 : ∀ k u l p x', ∑ b, B k u l p x' b = 1) (c : ℝ≥0∞)
    (k : ℕ) (l : P → ℝ) (qs : List (Slot U × Slot Y)) (p : Fin 2 → ℕ → P) (s : ℕ → P) :
    gibbsE M ℓ B (fun _ => c) k l qs p s = c := by
  induction qs generalizing k l p with
  | nil => simp only [gibbsE]; rw [← Finset.sum_mul, wts_sum, one_mul]
  | cons q qs ih =>
    haveI := hM k q.1
    simp only [gibbsE, ih, lintegral_const, measure_univ, mul_one, ← Finset.sum_mul, hB1, one_mul, wts_sum]

theorem gibbsE_add [MeasurableSpace P] {M : ℕ → Slot U → Kernel P P} (hM : ∀ k u, IsMarkovKernel (M k u))
    {ℓ : ℕ → Slot Y → P → ℝ} (hℓ : ∀ k y, Measurable (ℓ k y)) {B : ℕ → Slot U → (P → ℝ) → (Fin 2 → ℕ → P) → P → Fin 2 → ℝ≥0∞}
    (hB : ∀ k u l b, Measurable l → Measurable fun z : (Fin 2 → ℕ → P) × P => B k u l z.1 z.2 b) {φ ψ : List P → ℝ≥0∞}
    (hφ : ∀ n, Measurable fun x : Fin n → P => φ (List.ofFn x)) (k : ℕ) {l : P → ℝ} (hl : Measurable l) (qs : List (Slot U × Slot Y))
    (p : Fin 2 → ℕ → P) (s : ℕ → P) :
    gibbsE M ℓ B (fun xs => φ xs + ψ xs) k l qs p s = gibbsE M ℓ B φ k l qs p s + gibbsE M ℓ B ψ k l qs p s := by
  induction qs generalizing k l p with
  | nil => simp only [gibbsE, mul_add, Finset.sum_add_distrib]
  | cons q qs ih =>
    simp only [gibbsE]
    rw [← Finset.sum_add_distrib]
    refine Finset.sum_congr rfl fun a _ => ?_
    rw [← mul_add, ← Finset.sum_add_distrib]
    refine congrArg _ (Finset.sum_congr rfl fun b _ => ?_)
    rw [← mul_add]
    refine congrArg _ ?_
    have h1 : Measurable fun x => gibbsE M ℓ B φ (k+1) (ℓ (k+1) q.2) qs (ext2 p k a b x (s (k+1))) s :=
      (gibbsE_measurable hM hℓ hB hφ (k+1) (hℓ (k+1) q.2) qs).comp (f := fun x => (ext2 p k a b x (s (k+1)), s))
        ((measurable_ext2 (p := fun _ : P => p) (x' := fun _ => s (k+1)) measurable_const measurable_id measurable_const k a b).prodMk measurable_const)
    rw [← lintegral_add_left h1]
    exact lintegral_congr fun x => ih (k+1) (hℓ (k+1) q.2) _

/-- The free particle is picked with at least this probability. -/
theorem wts_ge {l : P → ℝ} {c : ℝ} (hc : ∀ x, exp (l x) ≤ c) (k : ℕ) (p : Fin 2 → ℕ → P) (a : Fin 2) :
    glik l k p a ≤ ENNReal.ofReal (2 * c) * wts l k p a := by
  have hc0 : 0 ≤ c := (exp_pos _).le.trans (hc (p a k))
  unfold glik wts
  rw [← ENNReal.ofReal_mul (by positivity)]
  refine ENNReal.ofReal_le_ofReal ?_
  have hs : 0 < ∑ j, exp (l (p j k)) := Finset.sum_pos (fun _ _ => exp_pos _) Finset.univ_nonempty
  have hs2 : ∑ j, exp (l (p j k)) ≤ 2 * c := by
    rw [Fin.sum_univ_two]; linarith [hc (p 0 k), hc (p 1 k)]
  rw [← mul_div_assoc, le_div_iff₀ hs, mul_comm]
  exact mul_le_mul_of_nonneg_right hs2 (exp_pos _).le

/-- The event that the free particle keeps its own past and is picked at the end. -/
theorem gibbsE_lower [MeasurableSpace P] {M : ℕ → Slot U → Kernel P P} {ℓ : ℕ → Slot Y → P → ℝ}
    {B : ℕ → Slot U → (P → ℝ) → (Fin 2 → ℕ → P) → P → Fin 2 → ℝ≥0∞} (hB1 : ∀ k u l p x', ∑ b, B k u l p x' b = 1) (φ : List P → ℝ≥0∞)
    {c : ℕ → ℝ} (k : ℕ) {l : P → ℝ} (hl : ∀ x, exp (l x) ≤ c k) (qs : List (Slot U × Slot Y))
    (hq : ∀ j q, qs[j]? = some q → ∀ x, exp (ℓ (k+j+1) q.2 x) ≤ c (k+j+1)) (p : Fin 2 → ℕ → P) (s : ℕ → P) :
    glik l k p 0 * pathG M ℓ φ k qs (p 0) ≤ (∏ j ∈ Finset.range (qs.length + 1), ENNReal.ofReal (2 * c (k+j))) * gibbsE M ℓ B φ k l qs p s := by
  induction qs generalizing k l p with
  | nil =>
    simp only [gibbsE, pathG_nil, List.length_nil, zero_add, Finset.prod_range_one, add_zero]
    calc _ ≤ ENNReal.ofReal (2 * c k) * wts l k p 0 * φ ((List.range (k+1)).map (p 0)) := mul_le_mul_left (wts_ge hl k p 0) _
      _ = ENNReal.ofReal (2 * c k) * (wts l k p 0 * φ ((List.range (k+1)).map (p 0))) := by ring
      _ ≤ _ := mul_le_mul_right (Finset.single_le_sum (f := fun c => wts l k p c * φ ((List.range (k+1)).map (p c))) (fun _ _ => bot_le) (Finset.mem_univ 0)) _
  | cons q qs ih =>
    have hl' : ∀ x, exp (ℓ (k+1) q.2 x) ≤ c (k+1) := hq 0 q rfl
    obtain ⟨A, hA⟩ : ∃ A, A = ∏ j ∈ Finset.range (qs.length + 1), ENNReal.ofReal (2 * c (k+1+j)) := ⟨_, rfl⟩
    have hAt : A ≠ ∞ := by rw [hA]; exact ENNReal.prod_ne_top fun _ _ => ENNReal.ofReal_ne_top
    have hprod : (∏ j ∈ Finset.range ((q :: qs).length + 1), ENNReal.ofReal (2 * c (k+j))) = ENNReal.ofReal (2 * c k) * A := by
      rw [List.length_cons, Finset.prod_range_succ', mul_comm, hA, add_zero]
      congr 1
      exact Finset.prod_congr rfl fun j _ => by rw [show k + (j+1) = k+1+j by ring]
    have hi : ∀ b, pathG M ℓ φ k (q :: qs) (p 0) ≤
        A * ∫⁻ x, gibbsE M ℓ B φ (k+1) (ℓ (k+1) q.2) qs (ext2 p k 0 b x (s (k+1))) s ∂(M k q.1 (p 0 k)) := by
      intro b
      rw [pathG_cons, ← lintegral_const_mul' _ _ hAt]
      refine lintegral_mono fun x => ?_
      have := ih (k+1) hl' (fun j q' hj x => by
        have := hq (j+1) q' (by simpa using hj) x
        rwa [show k + (j+1) + 1 = k + 1 + j + 1 by ring] at this) (ext2 p k 0 b x (s (k+1)))
      rw [← hA] at this
      have e : ext2 p k 0 b x (s (k+1)) 0 = Function.update (p 0) (k+1) x := by simp [ext2]
      unfold glik at this
      rw [e, Function.update_self] at this
      exact this
    have hs : pathG M ℓ φ k (q :: qs) (p 0) ≤ A * ∑ b, B k q.1 l p (s (k+1)) b *
        ∫⁻ x, gibbsE M ℓ B φ (k+1) (ℓ (k+1) q.2) qs (ext2 p k 0 b x (s (k+1))) s ∂(M k q.1 (p 0 k)) := by
      rw [Finset.mul_sum]
      calc _ = ∑ b, B k q.1 l p (s (k+1)) b * pathG M ℓ φ k (q :: qs) (p 0) := by rw [← Finset.sum_mul, hB1, one_mul]
        _ ≤ _ := Finset.sum_le_sum fun b _ => by
          rw [mul_left_comm]
          exact mul_le_mul_right (hi b) _
    rw [hprod]
    simp only [gibbsE]
    calc _ ≤ (ENNReal.ofReal (2 * c k) * wts l k p 0) * (A * ∑ b, B k q.1 l p (s (k+1)) b *
        ∫⁻ x, gibbsE M ℓ B φ (k+1) (ℓ (k+1) q.2) qs (ext2 p k 0 b x (s (k+1))) s ∂(M k q.1 (p 0 k))) := mul_le_mul' (wts_ge hl k p 0) hs
      _ = ENNReal.ofReal (2 * c k) * A * (wts l k p 0 * ∑ b, B k q.1 l p (s (k+1)) b *
        ∫⁻ x, gibbsE M ℓ B φ (k+1) (ℓ (k+1) q.2) qs (ext2 p k 0 b x (s (k+1))) s ∂(M k q.1 (p 0 k))) := by ring
      _ ≤ _ := mul_le_mul_right (Finset.single_le_sum (f := fun a => wts l k p a * ∑ b, B k q.1 l p (s (k+1)) b *
        ∫⁻ x, gibbsE M ℓ B φ (k+1) (ℓ (k+1) q.2) qs (ext2 p k a b x (s (k+1))) s ∂(M k q.1 (p a k))) (fun _ _ => bot_le) (Finset.mem_univ 0)) _

/-! ### Doeblin's argument -/

theorem doeblin [MeasurableSpace P] {n : ℕ} {L : (List P → ℝ≥0∞) → ℝ≥0∞} {Q : (List P → ℝ≥0∞) → List P → ℝ≥0∞} {ε : ℝ≥0∞} (hε : ε ≤ 1)
    (hm : ∀ φ : List P → ℝ≥0∞, (Measurable fun x : Fin n → P => φ (List.ofFn x)) → Measurable fun x : Fin n → P => Q φ (List.ofFn x))
    (hadd : ∀ (χ : List P → ℝ≥0∞) (a : ℝ≥0∞) (ψ : List P → ℝ≥0∞), (Measurable fun x : Fin n → P => ψ (List.ofFn x)) →
      (∀ xs, xs.length = n → χ xs = a + ψ xs) → ∀ r, r.length = n → Q χ r = a + Q ψ r)
    (hmin : ∀ φ : List P → ℝ≥0∞, (Measurable fun x : Fin n → P => φ (List.ofFn x)) → ∀ r, r.length = n → ε * L φ ≤ Q φ r)
    (hL : ∀ (χ : List P → ℝ≥0∞) (a : ℝ≥0∞) (ψ : List P → ℝ≥0∞), a ≠ ∞ → (Measurable fun x : Fin n → P => ψ (List.ofFn x)) →
      (∀ xs, xs.length = n → χ xs = a + ψ xs) → L χ = a + L ψ)
    (hinv : ∀ φ : List P → ℝ≥0∞, (Measurable fun x : Fin n → P => φ (List.ofFn x)) → L (Q φ) = L φ)
    {φ : List P → ℝ≥0∞} (hφ : Measurable fun x : Fin n → P => φ (List.ofFn x)) (hfin : L φ ≠ ∞) (k : ℕ) {r : List P} (hr : r.length = n) :
    (1 - (1 - ε)^k) * L φ ≤ Q^[k] φ r := by
  have hmk : ∀ k, Measurable fun x : Fin n → P => Q^[k] φ (List.ofFn x) := by
    intro k
    induction k with
    | zero => exact hφ
    | succ k ih => rw [Function.iterate_succ_apply']; exact hm _ ih
  have hik : ∀ k, L (Q^[k] φ) = L φ := by
    intro k
    induction k with
    | zero => rfl
    | succ k ih => rw [Function.iterate_succ_apply', hinv _ (hmk k), ih]
  induction k generalizing r with
  | zero => simp
  | succ k ih =>
    rw [Function.iterate_succ_apply']
    obtain ⟨a, ha⟩ : ∃ a, a = (1 - ε)^k := ⟨_, rfl⟩
    have ha1 : a ≤ 1 := by rw [ha]; exact pow_le_one₀ bot_le tsub_le_self
    have hpa : (1 - a) + a = 1 := tsub_add_cancel_of_le ha1
    rw [← ha] at ih
    have hp : (1 - a) * L φ ≠ ∞ := ENNReal.mul_ne_top (ne_top_of_le_ne_top ENNReal.one_ne_top tsub_le_self) hfin
    have hsplit : ∀ xs, xs.length = n → Q^[k] φ xs = (1 - a) * L φ + (Q^[k] φ xs - (1 - a) * L φ) :=
      fun xs hxs => (add_tsub_cancel_of_le (ih hxs)).symm
    have hh : Measurable fun x : Fin n → P => (fun xs => Q^[k] φ xs - (1 - a) * L φ) (List.ofFn x) := (hmk k).sub measurable_const
    have h1 := hadd (Q^[k] φ) _ (fun xs => Q^[k] φ xs - (1 - a) * L φ) hh hsplit r hr
    have h2 := hL (Q^[k] φ) _ (fun xs => Q^[k] φ xs - (1 - a) * L φ) hp hh hsplit
    have h3 := hmin (fun xs => Q^[k] φ xs - (1 - a) * L φ) hh r hr
    have h4 : L (fun xs => Q^[k] φ xs - (1 - a) * L φ) = a * L φ := by
      have : (1 - a) * L φ + L (fun xs => Q^[k] φ xs - (1 - a) * L φ) = (1 - a) * L φ + a * L φ := by
        rw [← h2, hik, ← add_mul, hpa, one_mul]
      exact (ENNReal.add_right_inj hp).mp this
    rw [h4] at h3
    have h5 : 1 - (1 - ε)^(k+1) = (1 - a) + ε * a := by
      refine ENNReal.sub_eq_of_eq_add (ne_top_of_le_ne_top ENNReal.one_ne_top (pow_le_one₀ bot_le tsub_le_self)) ?_
      rw [pow_succ, ← ha, add_assoc, mul_comm a, ← add_mul, add_tsub_cancel_of_le hε, one_mul, hpa]
    rw [h1, h5, add_mul, mul_assoc]
    exact add_le_add le_rfl h3

/-! ### Particle Gibbs -/

theorem smoothingE_firstLik [MeasurableSpace P] (μ0 : Measure P) (M : ℕ → Slot U → Kernel P P) (ℓ : ℕ → Slot Y → P → ℝ) (first : Option (Slot Y))
    (qs : List (Slot U × Slot Y)) (φ : List P → ℝ≥0∞) (x0 : P) : smoothingE μ0 M ℓ first qs φ =
      ∫⁻ x, ENNReal.ofReal (exp (firstLik ℓ first x)) * pathG M (seen ℓ) φ 0 qs (Function.update (fun _ => x0) 0 x) ∂μ0 := by
  cases first with
  | some y0 => simp [smoothingE, firstLik, pathG]
  | none => simp [smoothingE, firstLik, pathG]

/-- `Q` maps `φ` to the mean of `φ` over the trajectory drawn after one iteration. -/
structure GibbsKernel [MeasurableSpace P] (μ0 : Measure P) (M : ℕ → Slot U → Kernel P P) (ℓ : ℕ → Slot Y → P → ℝ) (first : Option (Slot Y))
    (qs : List (Slot U × Slot Y)) (B : ℕ → Slot U → (P → ℝ) → (Fin 2 → ℕ → P) → P → Fin 2 → ℝ≥0∞) (x0 : P)
    (Q : (List P → ℝ≥0∞) → List P → ℝ≥0∞) : Prop where
  prob : IsProbabilityMeasure μ0
  markov : ∀ k u, IsMarkovKernel (M k u)
  lik : ∀ k y, Measurable (ℓ k y)
  anc : ∀ k u l b, Measurable l → Measurable fun z : (Fin 2 → ℕ → P) × P => B k u l z.1 z.2 b
  anc_sum : ∀ k u l p x', ∑ b, B k u l p x' b = 1
  step : ∀ φ : List P → ℝ≥0∞, (Measurable fun x : Fin (qs.length + 1) → P => φ (List.ofFn x)) →
    (Measurable fun x : Fin (qs.length + 1) → P => Q φ (List.ofFn x)) ∧ smoothingE μ0 M ℓ first qs (Q φ) = smoothingE μ0 M ℓ first qs φ ∧
    ∀ s : ℕ → P, Q φ ((List.range (qs.length + 1)).map s) =
      ∫⁻ x, gibbsE M (seen ℓ) B (cutTo (qs.length + 1) φ) 0 (firstLik ℓ first) qs (pair0 x0 x (s 0)) s ∂μ0

section
variable [MeasurableSpace P] {μ0 : Measure P} {M : ℕ → Slot U → Kernel P P} {ℓ : ℕ → Slot Y → P → ℝ} {first : Option (Slot Y)}
    {qs : List (Slot U × Slot Y)} {B : ℕ → Slot U → (P → ℝ) → (Fin 2 → ℕ → P) → P → Fin 2 → ℝ≥0∞} {x0 : P}
    {Q : (List P → ℝ≥0∞) → List P → ℝ≥0∞} (h : GibbsKernel μ0 M ℓ first qs B x0 Q)
include h

theorem GibbsKernel.first_measurable : Measurable (firstLik ℓ first) := by
  cases first with
  | some y0 => exact h.lik 0 y0
  | none => exact measurable_const

/-- Sums. -/
theorem GibbsKernel.add {χ φ ψ : List P → ℝ≥0∞} (hφ : Measurable fun x : Fin (qs.length + 1) → P => φ (List.ofFn x))
    (hψ : Measurable fun x : Fin (qs.length + 1) → P => ψ (List.ofFn x)) (hχ : ∀ xs, xs.length = qs.length + 1 → χ xs = φ xs + ψ xs)
    {r : List P} (hr : r.length = qs.length + 1) : Q χ r = Q φ r + Q ψ r := by
  haveI := h.prob
  have hm : Measurable fun x : Fin (qs.length + 1) → P => χ (List.ofFn x) := by
    have : (fun x : Fin (qs.length + 1) → P => χ (List.ofFn x)) = fun x => φ (List.ofFn x) + ψ (List.ofFn x) := funext fun x => hχ _ (by simp)
    rw [this]; exact hφ.add hψ
  obtain ⟨s, rfl⟩ : ∃ s : ℕ → P, r = (List.range (qs.length + 1)).map s := ⟨_, list_as_path x0 hr⟩
  rw [(h.step χ hm).2.2, (h.step φ hφ).2.2, (h.step ψ hψ).2.2]
  have hcφ : ∀ n, Measurable fun x : Fin n → P => cutTo (qs.length + 1) φ (List.ofFn x) := fun n => range_map_measurable hφ n
  have h1 : Measurable fun x => gibbsE M (seen ℓ) B (cutTo (qs.length + 1) φ) 0 (firstLik ℓ first) qs (pair0 x0 x (s 0)) s :=
    (gibbsE_measurable h.markov (seen_measurable h.lik) h.anc hcφ 0 h.first_measurable qs).comp (f := fun x => (pair0 x0 x (s 0), s))
      ((pair0_measurable x0 measurable_id measurable_const).prodMk measurable_const)
  rw [← lintegral_add_left h1]
  refine lintegral_congr fun x => ?_
  rw [← gibbsE_add h.markov (seen_measurable h.lik) h.anc hcφ 0 h.first_measurable qs]
  refine gibbsE_congr M (seen ℓ) B (n := qs.length + 1) (fun xs hxs => ?_) 0 _ qs (by omega) _ _
  simp only [cutTo, hxs, if_true]
  exact hχ xs hxs

/-- Constants. -/
theorem GibbsKernel.const {φ : List P → ℝ≥0∞} {a : ℝ≥0∞} (hφ : ∀ xs, xs.length = qs.length + 1 → φ xs = a)
    {r : List P} (hr : r.length = qs.length + 1) : Q φ r = a := by
  haveI := h.prob
  have hm : Measurable fun x : Fin (qs.length + 1) → P => φ (List.ofFn x) := by
    have : (fun x : Fin (qs.length + 1) → P => φ (List.ofFn x)) = fun _ => a := funext fun x => hφ _ (by simp)
    rw [this]; exact measurable_const
  rw [list_as_path x0 hr, (h.step φ hm).2.2]
  have e : ∀ p s, gibbsE M (seen ℓ) B (cutTo (qs.length + 1) φ) 0 (firstLik ℓ first) qs p s = a := by
    intro p s
    rw [gibbsE_congr M (seen ℓ) B (φ' := fun _ => a) (n := qs.length + 1) (fun xs hxs => ?_) 0 _ qs (by omega) p s]
    · exact gibbsE_const h.markov _ h.anc_sum a 0 _ qs p s
    · simp only [cutTo, hxs, if_true]; exact hφ xs hxs
  simp only [e, lintegral_const, measure_univ, mul_one]

/-- Every iteration has a chance to forget the reference trajectory. -/
theorem GibbsKernel.lower {c : ℕ → ℝ} (hc : LikBound ℓ first qs c) {φ : List P → ℝ≥0∞}
    (hφ : Measurable fun x : Fin (qs.length + 1) → P => φ (List.ofFn x)) {r : List P} (hr : r.length = qs.length + 1) :
    smoothingE μ0 M ℓ first qs φ ≤ (∏ k ∈ Finset.range (qs.length + 1), ENNReal.ofReal (2 * c k)) * Q φ r := by
  obtain ⟨s, rfl⟩ : ∃ s : ℕ → P, r = (List.range (qs.length + 1)).map s := ⟨_, list_as_path x0 hr⟩
  rw [(h.step φ hφ).2.2, smoothingE_firstLik _ _ _ _ _ _ x0]
  rw [← lintegral_const_mul' _ _ (ENNReal.prod_ne_top fun _ _ => ENNReal.ofReal_ne_top)]
  refine lintegral_mono fun x => ?_
  have := gibbsE_lower (M := M) (ℓ := seen ℓ) h.anc_sum (cutTo (qs.length + 1) φ) (c := c) 0 hc.first qs
    (fun j q hj x => by rw [zero_add]; exact hc.next j q hj x) (pair0 x0 x (s 0)) s
  simp only [zero_add] at this
  refine le_trans (le_of_eq ?_) this
  have e : pair0 x0 x (s 0) 0 = Function.update (fun _ => x0) 0 x := rfl
  unfold glik
  rw [e, Function.update_self]
  congr 1
  rw [pathG, pathG]
  exact pathsE_congr M (seen ℓ) (n := qs.length + 1) (fun xs hxs => by simp [cutTo, hxs]) 0 qs _ (by simp) _

theorem GibbsKernel.total_pos : 0 < smoothingE μ0 M ℓ first qs (fun _ => 1) := by
  haveI := h.prob
  rw [smoothingE_firstLik _ _ _ _ _ _ x0]
  have h1 : Measurable fun x => ENNReal.ofReal (exp (firstLik ℓ first x)) * pathG M (seen ℓ) (fun _ => 1) 0 qs (Function.update (fun _ => x0) 0 x) :=
    (measurable_exp.comp h.first_measurable).ennreal_ofReal.mul
      ((pathG_measurable h.markov (seen_measurable h.lik) (fun _ => measurable_const) 0 qs).comp (measurable_update _))
  rw [lintegral_pos_iff_support h1]
  have : (Function.support fun x => ENNReal.ofReal (exp (firstLik ℓ first x)) * pathG M (seen ℓ) (fun _ => 1) 0 qs (Function.update (fun _ => x0) 0 x)) =
      Set.univ := by
    ext x
    simp only [Function.mem_support, Set.mem_univ, iff_true]
    exact (ENNReal.mul_pos (ENNReal.ofReal_pos.mpr (exp_pos _)).ne' (pathG_pos h.markov (seen_measurable h.lik) _ _ _).ne').ne'
  rw [this, measure_univ]
  exact one_pos

theorem GibbsKernel.smoothing_add {χ φ : List P → ℝ≥0∞} {a : ℝ≥0∞} (ha : a ≠ ∞)
    (hφ : Measurable fun x : Fin (qs.length + 1) → P => φ (List.ofFn x)) (hχ : ∀ xs, xs.length = qs.length + 1 → χ xs = a + φ xs) :
    smoothingE μ0 M ℓ first qs χ = a * smoothingE μ0 M ℓ first qs (fun _ => 1) + smoothingE μ0 M ℓ first qs φ := by
  simp only [smoothingE_firstLik _ _ _ _ _ _ x0]
  have h1 : Measurable fun x => ENNReal.ofReal (exp (firstLik ℓ first x)) * pathG M (seen ℓ) (fun _ => 1) 0 qs (Function.update (fun _ => x0) 0 x) :=
    (measurable_exp.comp h.first_measurable).ennreal_ofReal.mul
      ((pathG_measurable h.markov (seen_measurable h.lik) (fun _ => measurable_const) 0 qs).comp (measurable_update _))
  rw [← lintegral_const_mul _ h1, ← lintegral_add_left (h1.const_mul a)]
  refine lintegral_congr fun x => ?_
  have e : pathG M (seen ℓ) χ 0 qs (Function.update (fun _ => x0) 0 x) = pathG M (seen ℓ) (fun l => a + φ l) 0 qs (Function.update (fun _ => x0) 0 x) :=
    pathsE_congr M (seen ℓ) (n := qs.length + 1) hχ 0 qs _ (by simp) _
  rw [e, pathG_add h.markov (seen_measurable h.lik) (fun _ => measurable_const), pathG_const _ ha]
  ring

theorem GibbsKernel.converges {c : ℕ → ℝ} (hc : LikBound ℓ first qs c) :
    ForgetsStart (qs.length + 1) Q (smoothingMean μ0 M ℓ first qs) (regeneration μ0 M ℓ first qs c) := by
  obtain ⟨Z, hZ⟩ : ∃ Z, Z = smoothingE μ0 M ℓ first qs (fun _ => 1) := ⟨_, rfl⟩
  obtain ⟨A, hA⟩ : ∃ A, A = ∏ k ∈ Finset.range (qs.length + 1), ENNReal.ofReal (2 * c k) := ⟨_, rfl⟩
  have hcpos : ∀ k ∈ Finset.range (qs.length + 1), 0 < 2 * c k := by
    intro k hk
    rcases k with _ | k
    · linarith [hc.first x0, exp_pos (firstLik ℓ first x0)]
    · have hk' : k < qs.length := by simpa using hk
      linarith [hc.next k qs[k] (List.getElem?_eq_getElem hk') x0, exp_pos (seen ℓ (k+1) qs[k].2 x0)]
  have hAtop : A ≠ ∞ := by rw [hA]; exact ENNReal.prod_ne_top fun _ _ => ENNReal.ofReal_ne_top
  have hA0 : A ≠ 0 := by rw [hA]; exact Finset.prod_ne_zero_iff.mpr fun k hk => (ENNReal.ofReal_pos.mpr (hcpos k hk)).ne'
  have hAr : A.toReal = ∏ k ∈ Finset.range (qs.length + 1), (2 * c k) := by
    rw [hA, ENNReal.toReal_prod]
    exact Finset.prod_congr rfl fun k hk => ENNReal.toReal_ofReal (hcpos k hk).le
  have hr0 : ((List.range (qs.length + 1)).map fun _ => x0).length = qs.length + 1 := by simp
  have hZA : Z ≤ A := by
    have := h.lower hc (φ := fun _ => 1) measurable_const hr0
    rw [h.const (a := 1) (fun _ _ => rfl) hr0, mul_one, ← hZ, ← hA] at this
    exact this
  have hZtop : Z ≠ ∞ := ne_top_of_le_ne_top hAtop hZA
  have hZ0 : Z ≠ 0 := by rw [hZ]; exact h.total_pos.ne'
  obtain ⟨ε, hε⟩ : ∃ ε, ε = Z / A := ⟨_, rfl⟩
  have hεr : ε.toReal = regeneration μ0 M ℓ first qs c := by
    rw [hε, ENNReal.toReal_div, hAr, hZ]; rfl
  have hε1 : ε ≤ 1 := by rw [hε]; exact ENNReal.div_le_of_le_mul (by simpa using hZA)
  have hεtop : ε ≠ ∞ := ne_top_of_le_ne_top ENNReal.one_ne_top hε1
  have hεpos : 0 < ε.toReal := ENNReal.toReal_pos (by rw [hε]; exact (ENNReal.div_pos hZ0 hAtop).ne') hεtop
  have hε1r : ε.toReal ≤ 1 := by simpa using ENNReal.toReal_mono ENNReal.one_ne_top hε1
  have hLadd : ∀ (χ : List P → ℝ≥0∞) (a : ℝ≥0∞) (ψ : List P → ℝ≥0∞), a ≠ ∞ → (Measurable fun x : Fin (qs.length + 1) → P => ψ (List.ofFn x)) →
      (∀ xs, xs.length = qs.length + 1 → χ xs = a + ψ xs) → smoothingMean μ0 M ℓ first qs χ = a + smoothingMean μ0 M ℓ first qs ψ := by
    intro χ a ψ ha hψ hχ
    unfold smoothingMean
    rw [h.smoothing_add ha hψ hχ, ← hZ, ENNReal.add_div, ENNReal.mul_div_cancel_right hZ0 hZtop]
  have hLle : ∀ ψ : List P → ℝ≥0∞, (Measurable fun x : Fin (qs.length + 1) → P => ψ (List.ofFn x)) → (∀ xs, xs.length = qs.length + 1 → ψ xs ≤ 1) →
      smoothingMean μ0 M ℓ first qs ψ ≠ ∞ := by
    intro ψ hψ hle
    have h1 : smoothingE μ0 M ℓ first qs ψ ≠ ∞ := by
      refine ne_top_of_le_ne_top (ENNReal.mul_ne_top hAtop ENNReal.one_ne_top) ((h.lower hc hψ hr0).trans ?_)
      rw [← hA]
      refine mul_le_mul_right ?_ _
      have h2 := h.add (χ := fun _ => 1) (φ := ψ) (ψ := fun l => 1 - ψ l) hψ (measurable_const.sub hψ) (fun xs hxs => (add_tsub_cancel_of_le (hle xs hxs)).symm) hr0
      rw [h.const (a := 1) (fun _ _ => rfl) hr0] at h2
      rw [h2]; exact le_self_add
    exact (ENNReal.div_lt_top h1 (by rw [← hZ]; exact hZ0)).ne
  have hlow : ∀ ψ : List P → ℝ≥0∞, (Measurable fun x : Fin (qs.length + 1) → P => ψ (List.ofFn x)) → (∀ xs, xs.length = qs.length + 1 → ψ xs ≤ 1) →
      ∀ k (r : List P), r.length = qs.length + 1 → (1 - (1 - ε)^k) * smoothingMean μ0 M ℓ first qs ψ ≤ Q^[k] ψ r := by
    intro ψ hψ hle k r hr
    refine doeblin hε1 (fun φ hφ => (h.step φ hφ).1) (fun χ a ψ hψ hχ r hr => ?_) (fun φ hφ r hr => ?_) hLadd (fun φ hφ => ?_) hψ (hLle ψ hψ hle) k hr
    · rw [h.add (φ := fun _ => a) measurable_const hψ hχ hr, h.const (a := a) (fun _ _ => rfl) hr]
    · have := h.lower hc hφ hr
      rw [← hA] at this
      unfold smoothingMean
      rw [← hZ, hε]
      have e : Z / A * (smoothingE μ0 M ℓ first qs φ / Z) = smoothingE μ0 M ℓ first qs φ / A := by
        rw [mul_comm, ← mul_div_assoc, ENNReal.div_mul_cancel hZ0 hZtop]
      rw [e]
      exact ENNReal.div_le_of_le_mul (by rwa [mul_comm])
    · unfold smoothingMean; rw [(h.step φ hφ).2.1]
  refine ⟨hεr ▸ hεpos, hεr ▸ hε1r, fun φ hφ hle k ref hr => ?_⟩
  rw [← hεr]
  have hψm : Measurable fun x : Fin (qs.length + 1) → P => (fun l => 1 - φ l) (List.ofFn x) := measurable_const.sub hφ
  have hmk : ∀ ψ : List P → ℝ≥0∞, (Measurable fun x : Fin (qs.length + 1) → P => ψ (List.ofFn x)) → ∀ k, Measurable fun x : Fin (qs.length + 1) → P => Q^[k] ψ (List.ofFn x) := by
    intro ψ hψ k
    induction k with
    | zero => exact hψ
    | succ k ih => rw [Function.iterate_succ_apply']; exact (h.step _ ih).1
  have hsum : ∀ k, ∀ r : List P, r.length = qs.length + 1 → Q^[k] φ r + Q^[k] (fun l => 1 - φ l) r = 1 := by
    intro k
    induction k with
    | zero => intro r hr; exact add_tsub_cancel_of_le (hle r hr)
    | succ k ih =>
      intro r hr
      rw [Function.iterate_succ_apply', Function.iterate_succ_apply', ← h.add (χ := fun _ => 1) (hmk φ hφ k) (hmk _ hψm k) (fun xs hxs => (ih xs hxs).symm) hr]
      exact h.const (fun _ _ => rfl) hr
  have e1 := hsum k ref hr
  have e2 : smoothingMean μ0 M ℓ first qs φ + smoothingMean μ0 M ℓ first qs (fun l => 1 - φ l) = 1 := by
    have h0 : smoothingMean μ0 M ℓ first qs (fun _ => 1) = 1 := by unfold smoothingMean; rw [← hZ]; exact ENNReal.div_self hZ0 hZtop
    have h1 : smoothingE μ0 M ℓ first qs (fun _ => 1) = smoothingE μ0 M ℓ first qs φ + smoothingE μ0 M ℓ first qs (fun l => 1 - φ l) := by
      simp only [smoothingE_firstLik _ _ _ _ _ _ x0]
      have hcφ : ∀ n, Measurable fun x : Fin n → P => cutTo (qs.length + 1) φ (List.ofFn x) := fun n => range_map_measurable hφ n
      have ec : ∀ (ψ ψ' : List P → ℝ≥0∞), (∀ xs, xs.length = qs.length + 1 → ψ xs = ψ' xs) → ∀ s, pathG M (seen ℓ) ψ 0 qs s = pathG M (seen ℓ) ψ' 0 qs s :=
        fun ψ ψ' h s => pathsE_congr M (seen ℓ) (n := qs.length + 1) h 0 qs _ (by simp) _
      have h1 : Measurable fun x => ENNReal.ofReal (exp (firstLik ℓ first x)) * pathG M (seen ℓ) (cutTo (qs.length + 1) φ) 0 qs (Function.update (fun _ => x0) 0 x) :=
        (measurable_exp.comp h.first_measurable).ennreal_ofReal.mul
          ((pathG_measurable h.markov (seen_measurable h.lik) hcφ 0 qs).comp (measurable_update _))
      simp only [ec φ (cutTo (qs.length + 1) φ) (fun xs hxs => by simp [cutTo, hxs])]
      rw [← lintegral_add_left h1]
      refine lintegral_congr fun x => ?_
      rw [← mul_add, ← pathG_add h.markov (seen_measurable h.lik) hcφ]
      congr 1
      exact ec _ _ (fun xs hxs => by simp only [cutTo, hxs, if_true]; exact (add_tsub_cancel_of_le (hle xs hxs)).symm) _
    refine Eq.trans ?_ h0
    unfold smoothingMean
    rw [← ENNReal.add_div, ← h1]
  have l1 := hlow φ hφ hle k ref hr
  have l2 := hlow (fun l => 1 - φ l) hψm (fun _ _ => tsub_le_self) k ref hr
  have t1 : Q^[k] φ ref ≠ ∞ := ne_top_of_le_ne_top ENNReal.one_ne_top (le_self_add.trans e1.le)
  have t2 : Q^[k] (fun l => 1 - φ l) ref ≠ ∞ := ne_top_of_le_ne_top ENNReal.one_ne_top (le_add_self.trans e1.le)
  have t3 : smoothingMean μ0 M ℓ first qs φ ≠ ∞ := ne_top_of_le_ne_top ENNReal.one_ne_top (le_self_add.trans e2.le)
  have t4 : smoothingMean μ0 M ℓ first qs (fun l => 1 - φ l) ≠ ∞ := ne_top_of_le_ne_top ENNReal.one_ne_top (le_add_self.trans e2.le)
  have ha1 : (1 - ε)^k ≤ 1 := pow_le_one₀ bot_le tsub_le_self
  have ha : ((1 : ℝ≥0∞) - (1 - ε)^k).toReal = 1 - (1 - ε.toReal)^k := by
    rw [ENNReal.toReal_sub_of_le ha1 ENNReal.one_ne_top, ENNReal.toReal_pow, ENNReal.toReal_sub_of_le hε1 ENNReal.one_ne_top, ENNReal.toReal_one]
  have r1 := ENNReal.toReal_mono t1 l1
  have r2 := ENNReal.toReal_mono t2 l2
  rw [ENNReal.toReal_mul, ha] at r1 r2
  have r3 := congrArg ENNReal.toReal e1
  rw [ENNReal.toReal_add t1 t2, ENNReal.toReal_one] at r3
  have r4 := congrArg ENNReal.toReal e2
  rw [ENNReal.toReal_add t3 t4, ENNReal.toReal_one] at r4
  have p0 : 0 ≤ (1 - ε.toReal)^k := pow_nonneg (by linarith) k
  have p3 : 0 ≤ (smoothingMean μ0 M ℓ first qs φ).toReal := ENNReal.toReal_nonneg
  have p4 : 0 ≤ (smoothingMean μ0 M ℓ first qs (fun l => 1 - φ l)).toReal := ENNReal.toReal_nonneg
  rw [abs_le]
  constructor <;> nlinarith [mul_nonneg p0 p3, mul_nonneg p0 p4]

end

theorem samples_prob [MeasurableSpace P] [MeasurableSpace Ω] {K : MarkovModel P U Y V Ω} {good : Slot Y → Prop} {ν : Measure Ω} [IsProbabilityMeasure ν]
    {μ0 : Measure P} {M : ℕ → Slot U → Kernel P P} {ℓ : ℕ → Slot Y → P → ℝ} (hK : Spec.Samples K good ν 2 μ0 M ℓ) : IsProbabilityMeasure μ0 := by
  obtain ⟨X, hX, -⟩ := hK.create
  rw [← (hX 0).2]; exact Measure.isProbabilityMeasure_map (hX 0).1.aemeasurable

/-- C114: particle Gibbs with `CPF` and two particles, trajectories drawn with `perform_smoothing(m, 'ancestor')`. If the likelihood of
every measurement is bounded, then the trajectory converges to the smoothing law from every first reference trajectory, at the same geometric rate
for all of them: after `k` iterations every probability is within `(1 - ε)^k`, `ε = p(y) / Π_t 2 c_t`. -/
theorem C114_cpf [MeasurableSpace P] [MeasurableSpace Ω] {K : MarkovModel P U Y V Ω} {good : Slot Y → Prop} {ν : Measure Ω}
    [IsProbabilityMeasure ν] {μ0 : Measure P} {M : ℕ → Slot U → Kernel P P} {ℓ : ℕ → Slot Y → P → ℝ} (hK : Spec.Samples K good ν 2 μ0 M ℓ)
    {rest : Callbacks P U Y V Ω} {ct : List P → List (Step P)} (hct : ∀ xs k x, xs[k]? = some x → RefState (ct xs) k x) {res : ℝ}
    {name : String} (hn : parseFilter name = .ok .cpf) {F : List P → FilterOps P U Y V Ω}
    (hF : ∀ xs, mkFilter (K.toCallbacks rest) 2 res name (.dict (some (ct xs))) = .ok (F xs))
    {S : SmoothCallbacks P U Y V Ω} (hS : ∀ D, PlainSmooth S D) (hps : NoPostprocessing S) {m : ℕ} (hm : 0 < m) (user : Option SOpts)
    (d : AllDraws Ω) (fuel : ℕ) {T : Option ℕ} {s0 : PT P U Y} (h0 : PT.init 2 T 0 = .ok s0) (qs : List (Slot U × Slot Y))
    (hqs : ∀ q ∈ qs, q.2 = .none ∨ good q.2) (first : Option (Slot Y)) (hfirst : ∀ y ∈ first, good y) (hne : first = none → qs ≠ [])
    {c : ℕ → ℝ} (hc : LikBound ℓ first qs c) :
    ForgetsStart (qs.length + 1) (fun φ => sweep ν s0 F first qs (smoothE S m "ancestor" user d fuel (pathMean φ m)))
      (smoothingMean μ0 M ℓ first qs) (regeneration μ0 M ℓ first qs c) := by
  have hF' := fun xs => mkFilter_cond hn (hF xs)
  have hM := samples_markov (by norm_num) hK
  obtain ⟨x0⟩ := samples_nonempty hK
  refine GibbsKernel.converges (B := cpfAnc) (x0 := x0) ⟨samples_prob hK, hM, hK.meas, (fun k u l b _ => cpfAnc_measurable k u l b), (fun _ _ _ _ _ => by simp [cpfAnc]), fun φ hφ => ?_⟩ hc
  exact cond_total hK rest (B := cpfAnc) (fun k u l b _ => cpfAnc_measurable k u l b) (fun k u l hl => cpf_ancOk hl k u)
    (Bv := fun _ _ _ _ _ b => if b = 1 then 1 else 0) (fun _ _ _ _ _ _ _ _ _ => rfl) hct (fun xs => by rw [hF' xs]) (fun xs => by rw [hF' xs])
    (fun xs => by rw [hF' xs]) (fun xs k x' u y hx hy => cpf_condLaw hK rest hx u hy (by rw [hF' xs])) hS hps hm user d fuel h0 qs hqs first hfirst
    hne x0 hφ

/-- C114: the same for `CPFAS`. -/
theorem C114_cpfas [MeasurableSpace P] [MeasurableSpace Ω] {K : MarkovModel P U Y V Ω} {good : Slot Y → Prop} {ν : Measure Ω}
    [IsProbabilityMeasure ν] {μ0 : Measure P} {M : ℕ → Slot U → Kernel P P} {ℓ : ℕ → Slot Y → P → ℝ} (hK : Spec.Samples K good ν 2 μ0 M ℓ)
    {logpXnext : List P → List P → Slot U → ℕ → PyM (List ℝ)} {lx : ℕ → Slot U → P → P → ℝ} (hlx : Spec.LogDensity logpXnext lx)
    (hlm : ∀ k u, Measurable fun z : P × P => lx k u z.1 z.2) {vol : Measure P}
    (hden : ∀ k u x, M k u x = vol.withDensity fun x' => ENNReal.ofReal (exp (lx k u x x')))
    {rest : Callbacks P U Y V Ω} {ct : List P → List (Step P)} (hct : ∀ xs k x, xs[k]? = some x → RefState (ct xs) k x) {res : ℝ}
    {name : String} (hn : parseFilter name = .ok .cpfas) {F : List P → FilterOps P U Y V Ω}
    (hF : ∀ xs, mkFilter (K.toCallbacks (ffbsiFilter logpXnext rest)) 2 res name (.dict (some (ct xs))) = .ok (F xs))
    {S : SmoothCallbacks P U Y V Ω} (hS : ∀ D, PlainSmooth S D) (hps : NoPostprocessing S) {m : ℕ} (hm : 0 < m) (user : Option SOpts)
    (d : AllDraws Ω) (fuel : ℕ) {T : Option ℕ} {s0 : PT P U Y} (h0 : PT.init 2 T 0 = .ok s0) (qs : List (Slot U × Slot Y))
    (hqs : ∀ q ∈ qs, q.2 = .none ∨ good q.2) (first : Option (Slot Y)) (hfirst : ∀ y ∈ first, good y) (hne : first = none → qs ≠ [])
    {c : ℕ → ℝ} (hc : LikBound ℓ first qs c) :
    ForgetsStart (qs.length + 1) (fun φ => sweep ν s0 F first qs (smoothE S m "ancestor" user d fuel (pathMean φ m)))
      (smoothingMean μ0 M ℓ first qs) (regeneration μ0 M ℓ first qs c) := by
  have hF' := fun xs => mkFilter_cond hn (hF xs)
  have hM := samples_markov (by norm_num) hK
  obtain ⟨x0⟩ := samples_nonempty hK
  refine GibbsKernel.converges (B := cpfasAnc lx) (x0 := x0) ⟨samples_prob hK, hM, hK.meas, (fun k u l b hl => cpfasAnc_measurable hlm k u hl b), fun k u l p x' => cpfas_bv_sum k u x' (fun b => p b k) (fun b => l (p b k)), fun φ hφ => ?_⟩ hc
  exact cond_total hK (ffbsiFilter logpXnext rest) (B := cpfasAnc lx) (fun k u l b hl => cpfasAnc_measurable hlm k u hl b)
    (fun k u l hl => cpfas_ancOk hlm (hden k u) hl)
    (Bv := fun k u x' x w b => ENNReal.ofReal (exp (w b) * exp (lx k u (x b) x') / ∑ j, exp (w j) * exp (lx k u (x j) x')))
    (cpfas_bv lx) hct (fun xs => by rw [hF' xs]) (fun xs => by rw [hF' xs])
    (fun xs => by rw [hF' xs]) (fun xs k x' u y hx hy => cpfas_condLaw hK rest hlx hx u hy (by rw [hF' xs])) hS hps hm user d fuel h0 qs hqs first
    hfirst hne x0 hφ

/-- C114: `CPF` with trajectories drawn by backward simulation, `perform_smoothing(m, 'full')`. -/
theorem C114_cpf_full [MeasurableSpace P] [MeasurableSpace Ω] {K : MarkovModel P U Y V Ω} {good : Slot Y → Prop} {ν : Measure Ω}
    [IsProbabilityMeasure ν] {μ0 : Measure P} {M : ℕ → Slot U → Kernel P P} {ℓ : ℕ → Slot Y → P → ℝ} (hK : Spec.Samples K good ν 2 μ0 M ℓ)
    {logpXnext : List P → List P → Slot U → ℕ → PyM (List ℝ)} {lx : ℕ → Slot U → P → P → ℝ} (hlx : Spec.LogDensity logpXnext lx)
    (hlm : ∀ k u, Measurable fun z : P × P => lx k u z.1 z.2) {vol : Measure P}
    (hden : ∀ k u x, M k u x = vol.withDensity fun x' => ENNReal.ofReal (exp (lx k u x x')))
    {rest : Callbacks P U Y V Ω} {ct : List P → List (Step P)} (hct : ∀ xs k x, xs[k]? = some x → RefState (ct xs) k x) {res : ℝ}
    {name : String} (hn : parseFilter name = .ok .cpf) {F : List P → FilterOps P U Y V Ω}
    (hF : ∀ xs, mkFilter (K.toCallbacks rest) 2 res name (.dict (some (ct xs))) = .ok (F xs))
    {srest : SmoothCallbacks P U Y V Ω} (hps : NoPostprocessing srest) {m : ℕ} (hm : 0 < m) (user : Option SOpts)
    (d : AllDraws Ω) (fuel : ℕ) {T : Option ℕ} {s0 : PT P U Y} (h0 : PT.init 2 T 0 = .ok s0) (qs : List (Slot U × Slot Y))
    (hqs : ∀ q ∈ qs, q.2 = .none ∨ good q.2) (first : Option (Slot Y)) (hfirst : ∀ y ∈ first, good y) (hne : first = none → qs ≠ [])
    {c : ℕ → ℝ} (hc : LikBound ℓ first qs c) :
    ForgetsStart (qs.length + 1) (fun φ => sweep ν s0 F first qs (smoothE (ffbsi logpXnext srest) m "full" user d fuel (pathMean φ m)))
      (smoothingMean μ0 M ℓ first qs) (regeneration μ0 M ℓ first qs c) := by
  have hF' := fun xs => mkFilter_cond hn (hF xs)
  have hM := samples_markov (by norm_num) hK
  obtain ⟨x0⟩ := samples_nonempty hK
  refine GibbsKernel.converges (B := cpfasAnc lx) (x0 := x0) ⟨samples_prob hK, hM, hK.meas, (fun k u l b hl => cpfasAnc_measurable hlm k u hl b), fun k u l p x' => cpfas_bv_sum k u x' (fun b => p b k) (fun b => l (p b k)), fun φ hφ => ?_⟩ hc
  exact full_total hK rest hlx hlm hden (Bv := fun _ _ _ _ _ b => if b = 1 then 1 else 0) (fun _ _ _ _ _ => by simp) hct (fun xs => by rw [hF' xs])
    (fun xs => by rw [hF' xs]) (fun xs => by rw [hF' xs]) (fun xs k x' u y hx hy => cpf_condLaw hK rest hx u hy (by rw [hF' xs])) hps hm user d fuel
    h0 qs hqs first hfirst hne x0 hφ

/-- C114: `CPFAS` with backward simulation. -/
theorem C114_cpfas_full [MeasurableSpace P] [MeasurableSpace Ω] {K : MarkovModel P U Y V Ω} {good : Slot Y → Prop} {ν : Measure Ω}
    [IsProbabilityMeasure ν] {μ0 : Measure P} {M : ℕ → Slot U → Kernel P P} {ℓ : ℕ → Slot Y → P → ℝ} (hK : Spec.Samples K good ν 2 μ0 M ℓ)
    {logpXnext : List P → List P → Slot U → ℕ → PyM (List ℝ)} {lx : ℕ → Slot U → P → P → ℝ} (hlx : Spec.LogDensity logpXnext lx)
    (hlm : ∀ k u, Measurable fun z : P × P => lx k u z.1 z.2) {vol : Measure P}
    (hden : ∀ k u x, M k u x = vol.withDensity fun x' => ENNReal.ofReal (exp (lx k u x x')))
    {rest : Callbacks P U Y V Ω} {ct : List P → List (Step P)} (hct : ∀ xs k x, xs[k]? = some x → RefState (ct xs) k x) {res : ℝ}
    {name : String} (hn : parseFilter name = .ok .cpfas) {F : List P → FilterOps P U Y V Ω}
    (hF : ∀ xs, mkFilter (K.toCallbacks (ffbsiFilter logpXnext rest)) 2 res name (.dict (some (ct xs))) = .ok (F xs))
    {srest : SmoothCallbacks P U Y V Ω} (hps : NoPostprocessing srest) {m : ℕ} (hm : 0 < m) (user : Option SOpts)
    (d : AllDraws Ω) (fuel : ℕ) {T : Option ℕ} {s0 : PT P U Y} (h0 : PT.init 2 T 0 = .ok s0) (qs : List (Slot U × Slot Y))
    (hqs : ∀ q ∈ qs, q.2 = .none ∨ good q.2) (first : Option (Slot Y)) (hfirst : ∀ y ∈ first, good y) (hne : first = none → qs ≠ [])
    {c : ℕ → ℝ} (hc : LikBound ℓ first qs c) :
    ForgetsStart (qs.length + 1) (fun φ => sweep ν s0 F first qs (smoothE (ffbsi logpXnext srest) m "full" user d fuel (pathMean φ m)))
      (smoothingMean μ0 M ℓ first qs) (regeneration μ0 M ℓ first qs c) := by
  have hF' := fun xs => mkFilter_cond hn (hF xs)
  have hM := samples_markov (by norm_num) hK
  obtain ⟨x0⟩ := samples_nonempty hK
  refine GibbsKernel.converges (B := cpfasAnc lx) (x0 := x0) ⟨samples_prob hK, hM, hK.meas, (fun k u l b hl => cpfasAnc_measurable hlm k u hl b), fun k u l p x' => cpfas_bv_sum k u x' (fun b => p b k) (fun b => l (p b k)), fun φ hφ => ?_⟩ hc
  exact full_total hK (ffbsiFilter logpXnext rest) hlx hlm hden
    (Bv := fun k u x' x w b => ENNReal.ofReal (exp (w b) * exp (lx k u (x b) x') / ∑ j, exp (w j) * exp (lx k u (x j) x'))) cpfas_bv_sum
    hct (fun xs => by rw [hF' xs])
    (fun xs => by rw [hF' xs]) (fun xs => by rw [hF' xs]) (fun xs k x' u y hx hy => cpfas_condLaw hK rest hlx hx u hy (by rw [hF' xs])) hps hm user d fuel
    h0 qs hqs first hfirst hne x0 hφ

end PyPE

import Verif.Smooth.Rsas
import Mathlib.Probability.ProductMeasure
import Mathlib.Probability.ProbabilityMassFunction.Integrals
import Mathlib.Probability.Distributions.Uniform

/-!
# The law of the random draws of the smoothers

Uniform floats are uniform reals on `(0, 1]` (the endpoints have probability 0), `numpy.random.permutation` is a uniform
permutation, all draws are independent.  Expectations over successive independent draws are iterated integrals.
-/

namespace PyPE
open Real Spec MeasureTheory
open scoped Classical

/-! ### Specification: expectations -/

/-- The uniform law on the unit interval. -/
noncomputable def Spec.unif : Measure ℝ := volume.restrict (Set.Ioc 0 1)

instance : IsProbabilityMeasure unif := ⟨by simp [unif]⟩

/-- A sequence of independent uniforms. -/
noncomputable def Spec.unifSeq : Measure (ℕ → ℝ) := Measure.infinitePi fun _ => unif

instance : IsProbabilityMeasure unifSeq := by unfold unifSeq; infer_instance

instance permMeasurable (m : ℕ) : MeasurableSpace (Equiv.Perm (Fin m)) := ⊤

instance (m : ℕ) : DiscreteMeasurableSpace (Equiv.Perm (Fin m)) := ⟨fun _ => trivial⟩

/-- Uniform permutations of every length. -/
noncomputable def Spec.shuffleLaw : Measure Shuffle :=
  Measure.infinitePi fun m => (PMF.uniformOfFintype (Equiv.Perm (Fin m))).toMeasure

instance : IsProbabilityMeasure shuffleLaw := by unfold shuffleLaw; infer_instance

/-- Expectation over the draws of one proposal round. -/
noncomputable def Spec.attemptE (f : Attempt → ℝ) : ℝ :=
  ∫ r, ∫ s, ∫ u, f ⟨r, s, u⟩ ∂unifSeq ∂shuffleLaw ∂unif

/-- Expectation over the draws of `n` successive proposal rounds. -/
noncomputable def Spec.attemptsE : ℕ → (List Attempt → ℝ) → ℝ
  | 0, f => f []
  | n + 1, f => attemptE fun a => attemptsE n fun as => f (a :: as)

/-! ### Lemmas -/

theorem attemptE_const (c : ℝ) : attemptE (fun _ => c) = c := by
  simp [attemptE]

theorem attemptsE_const (n : ℕ) (c : ℝ) : attemptsE n (fun _ => c) = c := by
  induction n with
  | zero => rfl
  | succ n ih => simp only [attemptsE, ih, attemptE_const]

theorem unif_ae : ∀ᵐ r ∂unif, 0 < r ∧ r < 1 := by
  unfold unif
  rw [ae_restrict_iff' measurableSet_Ioc]
  filter_upwards [Measure.ae_ne volume (1:ℝ)] with r hr h
  exact ⟨h.1, lt_of_le_of_ne h.2 hr⟩

theorem unifSeq_ae : ∀ᵐ u ∂unifSeq, ∀ k, Unit01 (u k) := by
  rw [ae_all_iff]
  intro k
  have h := (measurePreserving_eval_infinitePi (fun _ : ℕ => unif) k)
  have := h.quasiMeasurePreserving.ae (p := fun r => 0 < r ∧ r < 1) unif_ae
  filter_upwards [this] with u hu
  exact ⟨hu.1.le, hu.2⟩

/-- Only a.e. equality of the integrands in `r` matters. -/
theorem attemptE_congr {f g : Attempt → ℝ} (h : ∀ a, 0 < a.r → a.r < 1 → f a = g a) : attemptE f = attemptE g := by
  unfold attemptE
  apply integral_congr_ae
  filter_upwards [unif_ae] with r hr
  congr 1; funext s; congr 1; funext u
  exact h ⟨r, s, u⟩ hr.1 hr.2

theorem integral_unifSeq_eval (k : ℕ) {g : ℝ → ℝ} (hg : Measurable g) : ∫ u, g (u k) ∂unifSeq = ∫ x, g x ∂unif := by
  have h := (measurePreserving_eval_infinitePi (fun _ : ℕ => unif) k)
  have e := integral_map (μ := unifSeq) h.measurable.aemeasurable (f := g) hg.aestronglyMeasurable
  rw [show Measure.map (Function.eval k) unifSeq = unif from h.map_eq] at e
  rw [e]

theorem integral_shuffle_eval (m : ℕ) (g : Equiv.Perm (Fin m) → ℝ) :
    ∫ s, g (s m) ∂shuffleLaw = (∑ σ, g σ) / (Nat.factorial m) := by
  have h := (measurePreserving_eval_infinitePi
    (fun m : ℕ => (PMF.uniformOfFintype (Equiv.Perm (Fin m))).toMeasure) m)
  have e := integral_map (μ := shuffleLaw) h.measurable.aemeasurable (f := g)
    (Measurable.of_discrete).aestronglyMeasurable
  rw [show Measure.map (Function.eval m) shuffleLaw = _ from h.map_eq] at e
  have e2 : ∫ s, g (s m) ∂shuffleLaw = ∫ x, g x ∂(PMF.uniformOfFintype (Equiv.Perm (Fin m))).toMeasure := by
    rw [e]
  rw [e2, PMF.integral_eq_sum]
  simp only [PMF.uniformOfFintype_apply, Fintype.card_perm, Fintype.card_fin, smul_eq_mul, ENNReal.toReal_inv,
    ENNReal.toReal_natCast]
  rw [← Finset.mul_sum, div_eq_inv_mul]

/-- Averaging over all permutations the value at a fixed position is averaging over the positions. -/
theorem sum_perm_apply {m : ℕ} (g : Fin m → ℝ) (k : Fin m) :
    (∑ σ : Equiv.Perm (Fin m), g (σ k)) / (Nat.factorial m) = (∑ l, g l) / m := by
  have hsame : ∀ l : Fin m, ∑ σ : Equiv.Perm (Fin m), g (σ l) = ∑ σ : Equiv.Perm (Fin m), g (σ k) := by
    intro l
    refine Fintype.sum_equiv (Equiv.mulRight (Equiv.swap k l)) _ _ ?_
    intro σ
    simp
  have h1 : ∑ l : Fin m, ∑ σ : Equiv.Perm (Fin m), g (σ l) = (Nat.factorial m) * ∑ l, g l := by
    rw [Finset.sum_comm]
    have : ∀ σ : Equiv.Perm (Fin m), ∑ l, g (σ l) = ∑ l, g l := fun σ => Equiv.sum_comp σ g
    simp only [this, Finset.sum_const, Finset.card_univ, Fintype.card_perm, Fintype.card_fin, nsmul_eq_mul]
  have h2 : ∑ l : Fin m, ∑ σ : Equiv.Perm (Fin m), g (σ l) = m * ∑ σ : Equiv.Perm (Fin m), g (σ k) := by
    simp only [hsame, Finset.sum_const, Finset.card_univ, Fintype.card_fin, nsmul_eq_mul]
  have hm : (0:ℝ) < m := by exact_mod_cast (lt_of_le_of_lt (Nat.zero_le _) k.2)
  have hf : (0:ℝ) < Nat.factorial m := by exact_mod_cast Nat.factorial_pos m
  rw [div_eq_div_iff hf.ne' hm.ne']
  linarith

theorem sum_fin_eq_count (l : List ℕ) (N : ℕ) (h : ∀ i ∈ l, i < N) (g : ℕ → ℝ) :
    ∑ k : Fin l.length, g l[k] = ∑ i ∈ Finset.range N, (l.count i : ℝ) * g i := by
  induction l with
  | nil => simp
  | cons a l ih =>
    have h0 := ih fun i hi => h i (by simp [hi])
    have e : ∑ k : Fin (a :: l).length, g (a :: l)[k] = g a + ∑ k : Fin l.length, g l[k] := by
      rw [← List.sum_ofFn, ← List.sum_ofFn]
      simp
    rw [e, h0]
    have e2 : ∀ i, (((a :: l).count i : ℕ) : ℝ) * g i = (if i = a then g i else 0) + (l.count i : ℝ) * g i := by
      intro i
      rw [List.count_cons]
      by_cases hi : a = i
      · subst hi; simp; ring
      · have : ¬ i = a := fun h => hi h.symm
        simp [hi, this]
    simp only [e2]
    rw [Finset.sum_add_distrib, Finset.sum_ite_eq']
    have : a ∈ Finset.range N := Finset.mem_range.mpr (h a (by simp))
    simp [this]

theorem drawCount_integrable {w : List ℝ} (hw : Weights w) (n j : ℕ) :
    IntegrableOn (drawCount w n j) (Set.Ioc 0 1) volume := by
  by_cases hj : j < w.length
  · have : IntegrableOn (fun r : ℝ => ∑ i ∈ Finset.range n,
        (Set.Ioc (n * cum w j) (n * cum w (j+1))).indicator (fun _ => (1:ℝ)) (r + i)) (Set.Ioc 0 1) volume := by
      apply integrable_finset_sum
      intro i _
      have e : (fun r : ℝ => (Set.Ioc (n * cum w j) (n * cum w (j+1))).indicator (fun _ => (1:ℝ)) (r + i)) =
          (Set.Ioc (n * cum w j - i) (n * cum w (j+1) - i)).indicator (fun _ => (1:ℝ)) := by
        funext r
        simp only [Set.indicator_apply, Set.mem_Ioc, sub_lt_iff_lt_add, le_sub_iff_add_le]
      rw [e]
      rw [integrable_indicator_iff measurableSet_Ioc]
      exact integrableOn_const (by
        exact ne_of_lt (lt_of_le_of_lt (Measure.restrict_apply_le _ _) (by simp)))
    apply this.congr_fun _ measurableSet_Ioc
    intro r hr
    exact (drawCount_eq hw n j hj hr.1 hr.2).symm
  · have hz : ∀ r ∈ Set.Ioo (0:ℝ) 1, drawCount w n j r = 0 := by
      intro r hr
      obtain ⟨idx, h, -, hrange⟩ := C01_sample_length_range hw n (r := r) ⟨hr.1.le, hr.2⟩
      have : idx.count j = 0 := List.count_eq_zero.mpr fun hm => hj (hrange j hm)
      simp [drawCount, h, this]
    have : IntegrableOn (fun _ : ℝ => (0:ℝ)) (Set.Ioo 0 1) volume := integrableOn_zero
    rw [integrableOn_Ioc_iff_integrableOn_Ioo]
    exact this.congr_fun (fun r hr => (hz r hr).symm) measurableSet_Ioo

/-- The proposal of entry `k` is a draw from the weights, whatever happens to the other entries: for a quantity that only
depends on entry `k`'s proposed particle and its uniform, the expectation over the whole round is the
expectation over an independent draw `i ~ w`, `u ~ U(0,1)`. -/
theorem attemptE_marginal {w : List ℝ} (hw : Weights w) {m k : ℕ} (hk : k < m) {G : Attempt → ℝ} {g : ℕ → ℝ → ℝ}
    (hg : ∀ i, Measurable (g i))
    (h : ∀ (a : Attempt) (q : List ℕ) (i : ℕ), 0 < a.r → a.r < 1 → sample w m a.r = .ok q →
      (a.sh.app q)[k]? = some i → G a = g i (a.u k)) :
    attemptE G = ∑ i ∈ Finset.range w.length, prob w i * ∫ x, g i x ∂unif := by
  set I : ℕ → ℝ := fun i => ∫ x, g i x ∂unif with hI
  have hm : (0:ℝ) < m := by exact_mod_cast (by omega : 0 < m)
  have step : ∀ r, 0 < r → r < 1 → ∫ s, ∫ u, G ⟨r, s, u⟩ ∂unifSeq ∂shuffleLaw =
      (∑ i ∈ Finset.range w.length, drawCount w m i r * I i) / m := by
    intro r h0 h1
    obtain ⟨q, hq, hql, hqr⟩ := C01_sample_length_range hw m (r := r) ⟨h0.le, h1⟩
    have hkq : k < q.length := by omega
    have e1 : ∀ s : Shuffle, ∫ u, G ⟨r, s, u⟩ ∂unifSeq = I (q[s q.length ⟨k, hkq⟩]) := by
      intro s
      rw [hI]
      simp only
      rw [← integral_unifSeq_eval k (hg _)]
      congr 1; funext u
      exact h ⟨r, s, u⟩ q _ h0 h1 hq (Shuffle.app_get s q k hkq)
    simp only [e1]
    rw [integral_shuffle_eval q.length (fun σ => I q[σ ⟨k, hkq⟩]), sum_perm_apply (fun l : Fin q.length => I q[l]) ⟨k, hkq⟩,
      sum_fin_eq_count q w.length hqr I, hql]
    simp only [drawCount, hq]
  have e2 : attemptE G = ∫ r, (∑ i ∈ Finset.range w.length, drawCount w m i r * I i) / m ∂unif := by
    unfold attemptE
    apply integral_congr_ae
    filter_upwards [unif_ae] with r hr
    exact step r hr.1 hr.2
  rw [e2, integral_div, integral_finsetSum]
  · rw [Finset.sum_div]
    apply Finset.sum_congr rfl
    intro i _
    rw [integral_mul_const]
    have := C03_sample_unbiased hw m i
    rw [intervalIntegral.integral_of_le zero_le_one] at this
    rw [show (∫ r, drawCount w m i r ∂unif) = m * prob w i from this]
    field_simp
    rw [hI]
  · intro i _
    exact (drawCount_integrable hw m i).mul_const _

/-- The acceptance test with probability `p`. -/
theorem integral_unif_lt {p : ℝ} (h0 : 0 ≤ p) (h1 : p ≤ 1) (a b : ℝ) :
    ∫ x, (if x < p then a else b) ∂unif = p * a + (1 - p) * b := by
  have hi : Measurable fun x : ℝ => if x < p then a else b :=
    Measurable.ite measurableSet_Iio measurable_const measurable_const
  have e : (fun x : ℝ => if x < p then a else b) =
      fun x => (Set.Iio p).indicator (fun _ => a - b) x + b := by
    funext x
    by_cases hx : x < p <;> simp [Set.indicator_apply, hx]
  rw [e, integral_add, integral_indicator measurableSet_Iio, setIntegral_const, integral_const]
  · have : unif.real (Set.Iio p) = p := by
      unfold unif
      rw [measureReal_restrict_apply measurableSet_Iio]
      have : (Set.Iio p ∩ Set.Ioc 0 1 : Set ℝ) =ᵐ[volume] (Set.Ioc 0 p : Set ℝ) := by
        have hs : Set.Ioo 0 p ⊆ Set.Iio p ∩ Set.Ioc 0 1 := fun x hx => ⟨hx.2, hx.1, by
          exact (hx.2.trans_le h1).le⟩
        have hs' : Set.Iio p ∩ Set.Ioc 0 1 ⊆ Set.Ioo 0 p := fun x hx => ⟨hx.2.1, hx.1⟩
        rw [Set.Subset.antisymm hs' hs]
        exact Ioo_ae_eq_Ioc
      rw [measureReal_congr this, Measure.real, Real.volume_Ioc]
      simp [h0]
    rw [this]
    simp
    ring
  · exact (integrable_const _).indicator measurableSet_Iio
  · exact integrable_const _

end PyPE

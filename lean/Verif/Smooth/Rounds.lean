import Verif.Smooth.Ffbsi
import Verif.Smooth.Mcmc

/-!
# Averages over the proposal rounds of `bsi_rs`, `bsi_rsas` and `bsi_mcmc`

The same expectations as in `Chance`, of non-negative functions (which may be infinite).
-/

namespace PyPE
open Real Spec MeasureTheory ProbabilityTheory
open scoped ENNReal

variable {P U Y V Ω : Type}

/-! ### Specification -/

/-- Expectation over the draws of one proposal round: the uniform of `sample`, the permutation and the uniforms of the acceptance tests. -/
noncomputable def Spec.roundE (f : Attempt → ℝ≥0∞) : ℝ≥0∞ := ∫⁻ r, ∫⁻ s, ∫⁻ u, f ⟨r, s, u⟩ ∂unifSeq ∂shuffleLaw ∂unif

/-- Expectation over `n` independent rounds. -/
noncomputable def Spec.roundsE : ℕ → (List Attempt → ℝ≥0∞) → ℝ≥0∞
  | 0, f => f []
  | n + 1, f => roundE fun a => roundsE n fun as => f (a :: as)

/-! ### One round -/

theorem roundE_const (c : ℝ≥0∞) : roundE (fun _ => c) = c := by
  simp [roundE]

theorem roundsE_const (n : ℕ) (c : ℝ≥0∞) : roundsE n (fun _ => c) = c := by
  induction n with
  | zero => rfl
  | succ n ih => simp only [roundsE, ih, roundE_const]

theorem roundE_congr {f g : Attempt → ℝ≥0∞} (h : ∀ a, 0 < a.r → a.r < 1 → f a = g a) : roundE f = roundE g := by
  unfold roundE
  apply lintegral_congr_ae
  filter_upwards [unif_ae] with r hr
  refine lintegral_congr fun s => lintegral_congr fun u => h ⟨r, s, u⟩ hr.1 hr.2

theorem roundsE_congr (n : ℕ) {f g : List Attempt → ℝ≥0∞}
    (h : ∀ as, as.length = n → (∀ a ∈ as, 0 < a.r ∧ a.r < 1) → f as = g as) : roundsE n f = roundsE n g := by
  induction n generalizing f g with
  | zero => exact h [] rfl (by simp)
  | succ n ih =>
    simp only [roundsE]
    apply roundE_congr
    intro a h0 h1
    apply ih
    intro as hl hg
    exact h (a :: as) (by simp [hl]) (by
      intro b hb
      rcases List.mem_cons.mp hb with rfl | hb
      · exact ⟨h0, h1⟩
      · exact hg b hb)

theorem lintegral_unifSeq_eval (k : ℕ) {g : ℝ → ℝ≥0∞} (hg : Measurable g) : ∫⁻ u, g (u k) ∂unifSeq = ∫⁻ x, g x ∂unif := by
  have h := (measurePreserving_eval_infinitePi (fun _ : ℕ => unif) k)
  exact h.lintegral_comp hg

/-- Averaging over all permutations the value at a fixed position. -/
theorem lintegral_shuffle (m : ℕ) (g : Fin m → ℝ≥0∞) (k : Fin m) :
    ∫⁻ s, g (s m k) ∂shuffleLaw = ENNReal.ofReal (1 / m) * ∑ l, g l := by
  have h := (measurePreserving_eval_infinitePi
    (fun m : ℕ => (PMF.uniformOfFintype (Equiv.Perm (Fin m))).toMeasure) m)
  have e := h.lintegral_comp (f := fun σ : Equiv.Perm (Fin m) => g (σ k)) Measurable.of_discrete
  rw [show (∫⁻ s, g (s m k) ∂shuffleLaw) = _ from e, lintegral_fintype]
  simp only [PMF.toMeasure_apply_singleton _ _ (measurableSet_singleton _), PMF.uniformOfFintype_apply, Fintype.card_perm, Fintype.card_fin]
  rw [← Finset.sum_mul]
  have hsame : ∀ l : Fin m, ∑ σ : Equiv.Perm (Fin m), g (σ l) = ∑ σ : Equiv.Perm (Fin m), g (σ k) := by
    intro l
    refine Fintype.sum_equiv (Equiv.mulRight (Equiv.swap k l)) _ _ ?_
    intro σ
    simp
  have h1 : ∑ l : Fin m, ∑ σ : Equiv.Perm (Fin m), g (σ l) = (Nat.factorial m) * ∑ l, g l := by
    rw [Finset.sum_comm]
    have : ∀ σ : Equiv.Perm (Fin m), ∑ l, g (σ l) = ∑ l, g l := fun σ => Equiv.sum_comp σ g
    simp only [this, Finset.sum_const, Finset.card_univ, Fintype.card_perm, Fintype.card_fin, nsmul_eq_mul]
  have h2 : ∑ l : Fin m, ∑ σ : Equiv.Perm (Fin m), g (σ l) = m * ∑ σ : Equiv.Perm (Fin m), g (σ k) := by
    simp only [hsame, Finset.sum_const, Finset.card_univ, Fintype.card_fin, nsmul_eq_mul]
  have hm : 0 < m := lt_of_le_of_lt (Nat.zero_le _) k.2
  have hm0 : (m : ℝ≥0∞) ≠ 0 := by exact_mod_cast hm.ne'
  have hf0 : ((Nat.factorial m : ℕ) : ℝ≥0∞) ≠ 0 := by exact_mod_cast (Nat.factorial_pos m).ne'
  have hi : ENNReal.ofReal (1 / m) = (m : ℝ≥0∞)⁻¹ := by
    rw [one_div, ENNReal.ofReal_inv_of_pos (by exact_mod_cast hm), ENNReal.ofReal_natCast]
  rw [hi]
  have h3 : ((Nat.factorial m : ℕ) : ℝ≥0∞) * ∑ l, g l = m * ∑ σ : Equiv.Perm (Fin m), g (σ k) := h1.symm.trans h2
  calc (∑ σ : Equiv.Perm (Fin m), g (σ k)) * ((Nat.factorial m : ℕ) : ℝ≥0∞)⁻¹
      = (m : ℝ≥0∞)⁻¹ * (m * ∑ σ : Equiv.Perm (Fin m), g (σ k)) * ((Nat.factorial m : ℕ) : ℝ≥0∞)⁻¹ := by
        rw [← mul_assoc, ENNReal.inv_mul_cancel hm0 (ENNReal.natCast_ne_top m), one_mul]
    _ = (m : ℝ≥0∞)⁻¹ * (∑ l, g l) * (((Nat.factorial m : ℕ) : ℝ≥0∞) * ((Nat.factorial m : ℕ) : ℝ≥0∞)⁻¹) := by rw [← h3]; ring
    _ = _ := by rw [ENNReal.mul_inv_cancel hf0 (ENNReal.natCast_ne_top _), mul_one]

theorem prob_nonneg {w : List ℝ} (hw : Weights w) (i : ℕ) : 0 ≤ prob w i := by
  refine div_nonneg ?_ hw.2.le
  rw [List.getD_eq_getElem?_getD]
  rcases h : w[i]? with _ | x
  · simp
  · exact hw.1 x (List.mem_of_getElem? h)

/-- A sum over trajectories of quantities of which each depends on one entry of the round only: its proposed particle and its uniform.
Although the entries share one systematic sample, the expectation is that of independent draws `i ~ w`, `u ~ U(0, 1)`. -/
theorem roundE_sum {w : List ℝ} (hw : Weights w) {n M : ℕ} {pos : ℕ → ℕ} (hpos : ∀ m, m < M → pos m < n) {g : ℕ → ℕ → ℝ → ℝ≥0∞}
    (hg : ∀ m i, Measurable (g m i)) {G : Attempt → ℝ≥0∞}
    (h : ∀ (a : Attempt) (q : List ℕ), 0 < a.r → a.r < 1 → sample w n a.r = .ok q → q.length = n →
      G a = ∑ m ∈ Finset.range M, g m ((a.sh.app q).getD (pos m) 0) (a.u (pos m))) :
    roundE G = ∑ m ∈ Finset.range M, ∑ i ∈ Finset.range w.length, ENNReal.ofReal (prob w i) * ∫⁻ x, g m i x ∂unif := by
  by_cases hM : M = 0
  · subst hM
    rw [roundE_congr (g := fun _ => 0), roundE_const]
    · simp
    · intro a h0 h1
      obtain ⟨q, hq, hql, -⟩ := C01_sample_length_range hw n (r := a.r) ⟨h0.le, h1⟩
      rw [h a q h0 h1 hq hql]; simp
  have hn : 0 < n := lt_of_le_of_lt (Nat.zero_le _) (hpos 0 (by omega))
  have hnr : (0:ℝ) < n := by exact_mod_cast hn
  set I : ℕ → ℕ → ℝ≥0∞ := fun m i => ∫⁻ x, g m i x ∂unif with hI
  have key : ∀ r q, 0 < r → r < 1 → sample w n r = .ok q →
      ∫⁻ s, ∫⁻ u, G ⟨r, s, u⟩ ∂unifSeq ∂shuffleLaw = (q.map fun i => ENNReal.ofReal (1 / n) * ∑ m ∈ Finset.range M, I m i).sum := by
    intro r q h0 h1 hq
    obtain ⟨q', hq', hql, hqr⟩ := C01_sample_length_range hw n (r := r) ⟨h0.le, h1⟩
    rw [hq] at hq'
    obtain rfl := Except.ok.inj hq'
    have e1 : ∀ s : Shuffle, ∫⁻ u, G ⟨r, s, u⟩ ∂unifSeq = ∑ m ∈ Finset.range M, I m ((s.app q).getD (pos m) 0) := by
      intro s
      rw [lintegral_congr fun u => h ⟨r, s, u⟩ q h0 h1 hq hql]
      have hm : ∀ m ∈ Finset.range M, Measurable fun u : ℕ → ℝ => g m ((s.app q).getD (pos m) 0) (u (pos m)) :=
        fun m _ => (hg m _).comp (measurable_pi_apply _)
      refine (lintegral_finset_sum _ hm).trans ?_
      exact Finset.sum_congr rfl fun m _ => lintegral_unifSeq_eval (pos m) (hg m _)
    subst hql
    have e2 : ∀ (m : ℕ) (hm : m < M) (s : Shuffle), I m ((s.app q).getD (pos m) 0) =
        (fun l : Fin q.length => I m q[l]) (s q.length ⟨pos m, hpos m hm⟩) := by
      intro m hm s
      rw [List.getD_eq_getElem?_getD, Shuffle.app_get s q (pos m) (hpos m hm)]; rfl
    simp only [e1]
    rw [lintegral_finset_sum]
    · rw [List.sum_map_mul_left]
      have e3 : (q.map fun i => ∑ m ∈ Finset.range M, I m i).sum = ∑ m ∈ Finset.range M, ∑ l : Fin q.length, I m q[l] := by
        rw [Finset.sum_comm, ← List.sum_ofFn]
        congr 1
        apply List.ext_getElem <;> simp
      rw [e3, Finset.mul_sum]
      refine Finset.sum_congr rfl fun m hm => ?_
      rw [lintegral_congr fun s => e2 m (Finset.mem_range.mp hm) s]
      exact lintegral_shuffle q.length (fun l => I m q[l]) ⟨pos m, hpos m (Finset.mem_range.mp hm)⟩
    · intro m hm
      have e : (fun s : Shuffle => I m ((s.app q).getD (pos m) 0)) =
          (fun σ : Equiv.Perm (Fin q.length) => I m q[σ ⟨pos m, hpos m (Finset.mem_range.mp hm)⟩]) ∘ fun s : Shuffle => s q.length :=
        funext fun s => e2 m (Finset.mem_range.mp hm) s
      rw [e]
      exact Measurable.comp Measurable.of_discrete (measurable_pi_apply _)
  unfold roundE
  rw [lintegral_sample hw n (fun i => ENNReal.ofReal (1 / n) * ∑ m ∈ Finset.range M, I m i) _ key, Finset.sum_comm]
  refine Finset.sum_congr rfl fun i _ => ?_
  rw [← mul_assoc, ← ENNReal.ofReal_mul (mul_nonneg hnr.le (prob_nonneg hw i)), Finset.mul_sum]
  refine Finset.sum_congr rfl fun m _ => ?_
  congr 2
  field_simp

/-- The acceptance test with probability `p`. -/
theorem lintegral_unif_lt {p : ℝ} (h0 : 0 ≤ p) (h1 : p ≤ 1) (a b : ℝ≥0∞) :
    ∫⁻ x, (if x < p then a else b) ∂unif = ENNReal.ofReal p * a + ENNReal.ofReal (1 - p) * b := by
  have hU : ∀ s : Set ℝ, unif s = ENNReal.ofReal (unif.real s) := fun s => by rw [Measure.real, ENNReal.ofReal_toReal (measure_ne_top _ _)]
  have h3 := integral_unif_lt h0 h1 1 0
  have e : (fun x : ℝ => if x < p then a else b) = fun x => (Set.Iio p).indicator (fun _ => a) x + (Set.Iio p)ᶜ.indicator (fun _ => b) x := by
    funext x
    by_cases hx : x < p <;> simp [Set.indicator_apply, hx]
  have hp : unif.real (Set.Iio p) = p := by
    have e1 : (fun x : ℝ => if x < p then (1:ℝ) else 0) = (Set.Iio p).indicator fun _ => 1 := by
      funext x; simp [Set.indicator_apply]
    rw [e1, integral_indicator measurableSet_Iio, setIntegral_const] at h3
    simpa using h3
  rw [e, lintegral_add_left (measurable_const.indicator measurableSet_Iio), lintegral_indicator measurableSet_Iio,
    lintegral_indicator measurableSet_Iio.compl, setLIntegral_const, setLIntegral_const, hU (Set.Iio p), hU (Set.Iio p)ᶜ, hp,
    probReal_compl_eq_one_sub measurableSet_Iio, hp]
  ring

end PyPE

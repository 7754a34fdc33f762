import Verif.Smooth.MhPath
import Verif.Smooth.PathOps

/-!
# C122: the Metropolis-Hastings backward proposer, one trajectory

One iteration proposes an ancestor together with a new state. It leaves invariant the law "draw a particle of the step before by its weight, move it, weigh
it by the measurement and by the state after it", so it may be integrated out together with the filter step that made the particle.
-/

namespace PyPE
open Real Spec MeasureTheory ProbabilityTheory
open scoped ENNReal

variable {P U Y V Ω : Type}

/-- The log of the Metropolis-Hastings ratio for replacing the state `x` with predecessor `b` by `z` with predecessor `b'`, at time `k` and with the
state `a` after it. The proposal of the predecessor is drawn by the weights of the filter, which cancel the weights in the target. -/
def Spec.bpLog (l0 : P → ℝ) (lp : ℕ → P → P → ℝ) (g : ℕ → P → ℝ) (lq : ℕ → Option P → Option P → P → ℝ) (k : ℕ) (b b' a : Option P) (x z : P) : ℝ :=
  localLog l0 lp g k b' a z - localLog l0 lp g k b a x + (lq k b a x - lq k b' a z)

section
variable [MeasurableSpace P] {vol : Measure P} {l0 : P → ℝ} {lp : ℕ → P → P → ℝ} {g : ℕ → P → ℝ} {lq : ℕ → Option P → Option P → P → ℝ}

/-- One iteration at time `k`, for the particles `X` of the step before and their weights `W`: the state is the index of the predecessor and the path. -/
noncomputable def bpSite (vol : Measure P) (l0 : P → ℝ) (lp : ℕ → P → P → ℝ) (g : ℕ → P → ℝ) (lq : ℕ → Option P → Option P → P → ℝ)
    (K k N : ℕ) (W : ℕ → ℝ≥0∞) (X : ℕ → P) (Φ : ℕ × (ℕ → P) → ℝ≥0∞) (z : ℕ × (ℕ → P)) : ℝ≥0∞ :=
  ∑ b : Fin N, W b * ∫⁻ y,
      ENNReal.ofReal (min 1 (exp (bpLog l0 lp g lq k (some (X z.1)) (some (X b)) (after K z.2 k) (z.2 k) y))) * Φ (b, Function.update z.2 k y) +
      ENNReal.ofReal (1 - min 1 (exp (bpLog l0 lp g lq k (some (X z.1)) (some (X b)) (after K z.2 k) (z.2 k) y))) * Φ z
    ∂(vol.withDensity fun y => ENNReal.ofReal (exp (lq k (some (X b)) (after K z.2 k) y)))

theorem lq_at_measurable (h : PathLaw vol l0 lp g lq) (K k : ℕ) (b : P) :
    Measurable fun z : (ℕ → P) × P => lq k (some b) (after K z.1 k) z.2 := by
  unfold after
  split
  · exact (h.both k).comp (f := fun z : (ℕ → P) × P => ((b, z.1 (k+1)), z.2)) (by fun_prop)
  · exact (h.last k).comp (f := fun z : (ℕ → P) × P => (b, z.2)) (by fun_prop)

theorem localLog_at_measurable (h : PathLaw vol l0 lp g lq) (K k : ℕ) (b : P) :
    Measurable fun z : (ℕ → P) × P => localLog l0 lp g k (some b) (after K z.1 k) z.2 := by
  unfold after localLog
  refine (Measurable.add ?_ ((h.lik k).comp measurable_snd)).add ?_
  · exact (h.move (k-1)).comp (f := fun z : (ℕ → P) × P => (b, z.2)) (by fun_prop)
  · split
    · exact (h.move k).comp (f := fun z : (ℕ → P) × P => (z.2, z.1 (k+1))) (by fun_prop)
    · exact measurable_const

theorem bpLog_measurable (h : PathLaw vol l0 lp g lq) (K k : ℕ) (b b' : P) :
    Measurable fun z : (ℕ → P) × P => bpLog l0 lp g lq k (some b) (some b') (after K z.1 k) (z.1 k) z.2 := by
  have mf : Measurable fun z : (ℕ → P) × P => (z.1, z.1 k) := by fun_prop
  exact ((localLog_at_measurable h K k b').sub ((localLog_at_measurable h K k b).comp mf)).add
    (((lq_at_measurable h K k b).comp mf).sub (lq_at_measurable h K k b'))

theorem bpSite_measurable [SigmaFinite vol] (h : PathLaw vol l0 lp g lq) (K k N : ℕ) (W : ℕ → ℝ≥0∞) (X : ℕ → P) {Φ : ℕ × (ℕ → P) → ℝ≥0∞}
    (hΦ : Measurable Φ) : Measurable (bpSite vol l0 lp g lq K k N W X Φ) := by
  refine measurable_from_prod_countable_right fun a => ?_
  unfold bpSite
  refine Finset.measurable_fun_sum _ fun b _ => measurable_const.mul ?_
  have mr := bpLog_measurable h K k (X a) (X b)
  have mq := lq_at_measurable h K k (X b)
  have mup : Measurable fun z : (ℕ → P) × P => Function.update z.1 k z.2 := measurable_update'
  have mΦ : ∀ c, Measurable fun s => Φ (c, s) := fun c => hΦ.comp measurable_prodMk_left
  have mG : Measurable fun z : (ℕ → P) × P =>
      ENNReal.ofReal (min 1 (exp (bpLog l0 lp g lq k (some (X a)) (some (X b)) (after K z.1 k) (z.1 k) z.2))) * Φ (b, Function.update z.1 k z.2) +
      ENNReal.ofReal (1 - min 1 (exp (bpLog l0 lp g lq k (some (X a)) (some (X b)) (after K z.1 k) (z.1 k) z.2))) * Φ (a, z.1) :=
    ((measurable_const.min mr.exp).ennreal_ofReal.mul ((mΦ b).comp mup)).add
      ((measurable_const.sub (measurable_const.min mr.exp)).ennreal_ofReal.mul ((mΦ a).comp measurable_fst))
  have e : (fun s : ℕ → P => ∫⁻ y,
      ENNReal.ofReal (min 1 (exp (bpLog l0 lp g lq k (some (X a)) (some (X b)) (after K s k) (s k) y))) * Φ (b, Function.update s k y) +
      ENNReal.ofReal (1 - min 1 (exp (bpLog l0 lp g lq k (some (X a)) (some (X b)) (after K s k) (s k) y))) * Φ (a, s)
    ∂(vol.withDensity fun y => ENNReal.ofReal (exp (lq k (some (X b)) (after K s k) y)))) =
      fun s => ∫⁻ y, ENNReal.ofReal (exp (lq k (some (X b)) (after K s k) y)) *
      (ENNReal.ofReal (min 1 (exp (bpLog l0 lp g lq k (some (X a)) (some (X b)) (after K s k) (s k) y))) * Φ (b, Function.update s k y) +
      ENNReal.ofReal (1 - min 1 (exp (bpLog l0 lp g lq k (some (X a)) (some (X b)) (after K s k) (s k) y))) * Φ (a, s)) ∂vol := by
    funext s
    exact lintegral_withDensity_eq_lintegral_mul _ (mq.comp (f := fun z => (s, z)) (by fun_prop)).exp.ennreal_ofReal
      (mG.comp (f := fun z => (s, z)) (by fun_prop))
  show Measurable (fun s : ℕ → P => ∫⁻ y, _ ∂_)
  rw [e]
  exact Measurable.lintegral_prod_right' (f := fun z : (ℕ → P) × P => ENNReal.ofReal (exp (lq k (some (X b)) (after K z.1 k) z.2)) *
      (ENNReal.ofReal (min 1 (exp (bpLog l0 lp g lq k (some (X a)) (some (X b)) (after K z.1 k) (z.1 k) z.2))) * Φ (b, Function.update z.1 k z.2) +
      ENNReal.ofReal (1 - min 1 (exp (bpLog l0 lp g lq k (some (X a)) (some (X b)) (after K z.1 k) (z.1 k) z.2))) * Φ (a, z.1)))
    (mq.exp.ennreal_ofReal.mul mG)

theorem bpSite_iterate_measurable [SigmaFinite vol] (h : PathLaw vol l0 lp g lq) (K k N R : ℕ) (W : ℕ → ℝ≥0∞) (X : ℕ → P) {Φ : ℕ × (ℕ → P) → ℝ≥0∞}
    (hΦ : Measurable Φ) : Measurable ((bpSite vol l0 lp g lq K k N W X)^[R] Φ) := by
  induction R generalizing Φ with
  | zero => exact hΦ
  | succ R ih => exact ih (bpSite_measurable h K k N W X hΦ)

/-- The law `∑ W_a δ_a ⊗ μ_a` on the indices and states. -/
noncomputable def pickLaw (N : ℕ) (W : ℕ → ℝ≥0∞) (μ : ℕ → Measure P) : Measure (ℕ × P) :=
  ∑ a : Fin N, W a • (μ a).map fun x => ((a : ℕ), x)

theorem lintegral_pickLaw (N : ℕ) (W : ℕ → ℝ≥0∞) (μ : ℕ → Measure P) {f : ℕ × P → ℝ≥0∞} (hf : Measurable f) :
    ∫⁻ z, f z ∂(pickLaw N W μ) = ∑ a : Fin N, W a * ∫⁻ x, f (a, x) ∂(μ a) := by
  unfold pickLaw
  rw [lintegral_finset_sum_measure]
  refine Finset.sum_congr rfl fun a _ => ?_
  rw [lintegral_smul_measure, lintegral_map hf measurable_prodMk_left, smul_eq_mul]

/-- One iteration leaves the law of predecessor and state, given the state after, unchanged. -/
theorem bpSite_invariant [SigmaFinite vol] (h : PathLaw vol l0 lp g lq) (K k N : ℕ) {W : ℕ → ℝ≥0∞} (hW : ∑ a : Fin N, W a = 1) (X : ℕ → P)
    {Φ : ℕ × (ℕ → P) → ℝ≥0∞} (hΦ : Measurable Φ) (s : ℕ → P) :
    ∑ a : Fin N, W a * ∫⁻ x, ENNReal.ofReal (exp (localLog l0 lp g k (some (X a)) (after K s k) x)) *
        bpSite vol l0 lp g lq K k N W X Φ (a, Function.update s k x) ∂vol =
      ∑ a : Fin N, W a * ∫⁻ x, ENNReal.ofReal (exp (localLog l0 lp g k (some (X a)) (after K s k) x)) * Φ (a, Function.update s k x) ∂vol := by
  set A := after K s k with hA
  have mlq : ∀ b, Measurable fun y => lq k (some (X b)) A y := fun b => (lq_at_measurable h K k (X b)).comp (f := fun y => (s, y)) (by fun_prop)
  have mll : ∀ b, Measurable fun y => localLog l0 lp g k (some (X b)) A y := fun b => (localLog_at_measurable h K k (X b)).comp (f := fun y => (s, y)) (by fun_prop)
  have mup : Measurable fun y => Function.update s k y := (measurable_updateAt k).comp measurable_prodMk_left
  obtain ⟨Q, hQ⟩ : ∃ Q, Q = pickLaw N W fun b => vol.withDensity fun y => ENNReal.ofReal (exp (lq k (some (X b)) A y)) := ⟨_, rfl⟩
  obtain ⟨τ, hτ⟩ : ∃ τ : ℕ × P → ℝ, τ = fun z => exp (localLog l0 lp g k (some (X z.1)) A z.2 - lq k (some (X z.1)) A z.2) := ⟨_, rfl⟩
  have mτ : Measurable τ := by
    rw [hτ]
    exact measurable_from_prod_countable_right fun a => ((mll a).sub (mlq a)).exp
  have hQ1 : IsProbabilityMeasure Q := by
    refine ⟨?_⟩
    rw [← MeasureTheory.lintegral_one, hQ, lintegral_pickLaw _ _ _ measurable_const]
    refine (Finset.sum_congr rfl fun a _ => ?_).trans hW
    rw [MeasureTheory.lintegral_one, withDensity_apply _ MeasurableSet.univ, Measure.restrict_univ, h.one, mul_one]
  have mF : Measurable fun z : ℕ × P => Φ (z.1, Function.update s k z.2) := hΦ.comp (measurable_fst.prodMk (mup.comp measurable_snd))
  have mF2 : Measurable fun z : ℕ × P => bpSite vol l0 lp g lq K k N W X Φ (z.1, Function.update s k z.2) :=
    (bpSite_measurable h K k N W X hΦ).comp (measurable_fst.prodMk (mup.comp measurable_snd))
  -- the weighted law
  have hw : ∀ f : ℕ × P → ℝ≥0∞, Measurable f → ∫⁻ z, ENNReal.ofReal (τ z) * f z ∂Q =
      ∑ a : Fin N, W a * ∫⁻ x, ENNReal.ofReal (exp (localLog l0 lp g k (some (X a)) A x)) * f (a, x) ∂vol := by
    intro f hf
    have m0 : Measurable fun z => ENNReal.ofReal (τ z) * f z := mτ.ennreal_ofReal.mul hf
    rw [hQ, lintegral_pickLaw _ _ _ m0]
    refine Finset.sum_congr rfl fun a _ => ?_
    congr 1
    have m1 : Measurable fun x => ENNReal.ofReal (τ ((a : ℕ), x)) * f (a, x) := (mτ.ennreal_ofReal.mul hf).comp measurable_prodMk_left
    rw [lintegral_withDensity_eq_lintegral_mul _ (mlq a).exp.ennreal_ofReal m1]
    refine lintegral_congr fun x => ?_
    rw [Pi.mul_apply, ← mul_assoc, ← ENNReal.ofReal_mul (exp_pos _).le, hτ, ← exp_add]
    congr 3
    ring
  have key := mh_swap (Q := Q) mτ (by intro z; rw [hτ]; exact exp_pos _) mF
  rw [hw _ mF] at key
  rw [← key, ← hw _ mF2]
  refine lintegral_congr fun z => ?_
  congr 1
  have hafter : after K (Function.update s k z.2) k = A := after_update K s k z.2
  have m2 : Measurable fun y : ℕ × P => ENNReal.ofReal (min 1 (τ y / τ z)) * Φ (y.1, Function.update s k y.2) +
      ENNReal.ofReal (1 - min 1 (τ y / τ z)) * Φ (z.1, Function.update s k z.2) :=
    ((measurable_const.min (mτ.div_const _)).ennreal_ofReal.mul mF).add
      ((measurable_const.sub (measurable_const.min (mτ.div_const _))).ennreal_ofReal.mul measurable_const)
  rw [hQ, lintegral_pickLaw _ _ _ m2]
  unfold bpSite
  refine Finset.sum_congr rfl fun b _ => ?_
  simp only [hafter, Function.update_self, Function.update_idem]
  congr 1
  refine lintegral_congr fun y => ?_
  have e : τ ((b : ℕ), y) / τ z = exp (bpLog l0 lp g lq k (some (X z.1)) (some (X b)) A z.2 y) := by
    rw [hτ, ← exp_sub]
    congr 1
    simp only [bpLog]
    ring
  rw [e]

theorem bpSite_iterate_invariant [SigmaFinite vol] (h : PathLaw vol l0 lp g lq) (K k N R : ℕ) {W : ℕ → ℝ≥0∞} (hW : ∑ a : Fin N, W a = 1) (X : ℕ → P)
    {Φ : ℕ × (ℕ → P) → ℝ≥0∞} (hΦ : Measurable Φ) (s : ℕ → P) :
    ∑ a : Fin N, W a * ∫⁻ x, ENNReal.ofReal (exp (localLog l0 lp g k (some (X a)) (after K s k) x)) *
        (bpSite vol l0 lp g lq K k N W X)^[R] Φ (a, Function.update s k x) ∂vol =
      ∑ a : Fin N, W a * ∫⁻ x, ENNReal.ofReal (exp (localLog l0 lp g k (some (X a)) (after K s k) x)) * Φ (a, Function.update s k x) ∂vol := by
  induction R with
  | zero => rfl
  | succ R ih =>
    rw [← ih]
    simp only [Function.iterate_succ_apply']
    exact bpSite_invariant h K k N hW X (bpSite_iterate_measurable h K k N R W X hΦ) s

end

end PyPE

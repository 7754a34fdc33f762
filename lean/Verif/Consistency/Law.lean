import Verif.Filter.Likelihood
import Mathlib.Probability.Kernel.Composition.Comp
import Mathlib.Probability.Kernel.Composition.Prod
import Mathlib.Probability.Kernel.Composition.CompMap
import Mathlib.MeasureTheory.Constructions.Pi
import Mathlib.MeasureTheory.Integral.Pi
import Mathlib.Probability.StrongLaw
import Mathlib.Probability.Independence.InfinitePi
import Mathlib.MeasureTheory.Function.ConvergenceInMeasure

/-!
# C106: specification - the law of one weighted particle, and independent copies of it
-/

namespace PyPE
open Real Spec MeasureTheory ProbabilityTheory
open scoped ENNReal

variable {P U Y : Type}

/-- One step of a particle that carries an importance weight: it moves by `κ` and its weight is multiplied by `exp inc`. -/
noncomputable def Spec.weightedStep [MeasurableSpace P] (κ : Kernel P P) (inc : P → P → ℝ) : Kernel (P × ℝ) (P × ℝ) :=
  Kernel.map (Kernel.id ×ₖ κ.comap Prod.fst measurable_fst) fun z => (z.2, z.1.2 * exp (inc z.1.1 z.2))

/-- The law of a weighted particle after the steps `qs`, starting at time `k`. -/
noncomputable def Spec.weightedSteps [MeasurableSpace P] (κ : ℕ → Slot U → Slot Y → Kernel P P) (inc : ℕ → Slot U → Slot Y → P → P → ℝ) :
    ℕ → List (Slot U × Slot Y) → Kernel (P × ℝ) (P × ℝ)
  | _, [] => Kernel.id
  | k, q :: qs => weightedSteps κ inc (k+1) qs ∘ₖ weightedStep (κ k q.1 q.2) (inc k q.1 q.2)

section kernels
variable [MeasurableSpace P]

theorem weightedStep_lintegral {κ : Kernel P P} [IsMarkovKernel κ] {inc : P → P → ℝ} (hinc : Measurable (Function.uncurry inc)) (z : P × ℝ)
    {f : P × ℝ → ℝ≥0∞} (hf : Measurable f) :
    ∫⁻ z', f z' ∂(weightedStep κ inc z) = ∫⁻ x', f (x', z.2 * exp (inc z.1 x')) ∂(κ z.1) := by
  have hm : Measurable fun z : (P × ℝ) × P => (z.2, z.1.2 * exp (inc z.1.1 z.2)) :=
    measurable_snd.prodMk ((measurable_fst.snd).mul (measurable_exp.comp (hinc.comp (measurable_fst.fst.prodMk measurable_snd))))
  have hfm : Measurable fun z : (P × ℝ) × P => f (z.2, z.1.2 * exp (inc z.1.1 z.2)) := hf.comp hm
  unfold weightedStep
  rw [Kernel.lintegral_map _ hm _ hf, Kernel.lintegral_prod _ _ _ hfm, Kernel.id_apply, lintegral_dirac' _ (Measurable.lintegral_prod_right' hfm)]
  rfl

theorem weightedSteps_markov {κ : ℕ → Slot U → Slot Y → Kernel P P} [∀ k u y, IsMarkovKernel (κ k u y)]
    {inc : ℕ → Slot U → Slot Y → P → P → ℝ} (hinc : ∀ k u y, Measurable (Function.uncurry (inc k u y))) (qs : List (Slot U × Slot Y)) (k : ℕ) :
    IsMarkovKernel (weightedSteps κ inc k qs) := by
  induction qs generalizing k with
  | nil => unfold weightedSteps; infer_instance
  | cons q qs ih =>
    have hm : Measurable fun z : (P × ℝ) × P => (z.2, z.1.2 * exp (inc k q.1 q.2 z.1.1 z.2)) :=
      measurable_snd.prodMk ((measurable_fst.snd).mul (measurable_exp.comp ((hinc k q.1 q.2).comp (measurable_fst.fst.prodMk measurable_snd))))
    have : IsMarkovKernel (weightedStep (κ k q.1 q.2) (inc k q.1 q.2)) := by
      unfold weightedStep
      exact Kernel.IsMarkovKernel.map _ hm
    have := ih (k+1)
    unfold weightedSteps
    infer_instance

end kernels

/-! ### Independent copies -/

theorem measurable_pi_kernel {N : ℕ} {A B : Type} [MeasurableSpace A] [MeasurableSpace B] (K : Kernel A B) [IsMarkovKernel K] :
    Measurable fun x : Fin N → A => Measure.pi fun i => K (x i) := by
  refine Measurable.measure_of_isPiSystem_of_isProbabilityMeasure generateFrom_pi.symm isPiSystem_pi ?_
  rintro s ⟨t, ht, rfl⟩
  simp only [Measure.pi_pi]
  exact Finset.measurable_prod _ fun i _ => (K.measurable_coe (ht i (Set.mem_univ i))).comp (measurable_pi_apply i)

/-- Moving independent particles by a kernel gives independent particles. -/
theorem pi_bind {N : ℕ} {A B : Type} [MeasurableSpace A] [MeasurableSpace B] (K : Kernel A B) [IsMarkovKernel K] (μ : Fin N → Measure A)
    [∀ i, IsProbabilityMeasure (μ i)] {f : (Fin N → B) → ℝ≥0∞} (hf : Measurable f) :
    ∫⁻ x, ∫⁻ z, f z ∂(Measure.pi fun i => K (x i)) ∂(Measure.pi μ) = ∫⁻ z, f z ∂(Measure.pi fun i => (μ i).bind K) := by
  have h : (Measure.pi μ).bind (fun x => Measure.pi fun i => K (x i)) = Measure.pi fun i => (μ i).bind K := by
    refine (Measure.pi_eq fun s hs => ?_).symm
    rw [Measure.bind_apply (MeasurableSet.univ_pi hs) (measurable_pi_kernel K).aemeasurable]
    simp only [Measure.pi_pi]
    rw [lintegral_prod_eq_prod_lintegral_of_indepFun Finset.univ (fun i (x : Fin N → A) => K (x i) (s i))
      (iIndepFun_pi (X := fun i a => K a (s i)) fun i => (K.measurable_coe (hs i)).aemeasurable)
      fun i => (K.measurable_coe (hs i)).comp (measurable_pi_apply i)]
    refine Finset.prod_congr rfl fun i _ => ?_
    rw [Measure.bind_apply (hs i) K.measurable.aemeasurable, ← (measurePreserving_eval μ i).lintegral_comp (K.measurable_coe (hs i))]
  rw [← h, Measure.lintegral_bind (measurable_pi_kernel K).aemeasurable hf.aemeasurable]

/-! ### Laws of large numbers -/

/-- Statistics of `N` independent draws that converge almost surely along an infinite sequence of draws converge in probability. -/
theorem tendsto_pi {A : Type} [MeasurableSpace A] (ρ : Measure A) [IsProbabilityMeasure ρ] {S : ∀ N : ℕ, (Fin N → A) → ℝ}
    (hS : ∀ N, Measurable (S N)) {t : ℝ}
    (h : ∀ᵐ ω ∂(Measure.infinitePi fun _ : ℕ => ρ), Filter.Tendsto (fun N => S N fun i => ω i) Filter.atTop (nhds t)) {ε : ℝ} (hε : 0 < ε) :
    Filter.Tendsto (fun N : ℕ => Measure.pi (fun _ : Fin N => ρ) {z | ε ≤ |S N z - t|}) Filter.atTop (nhds 0) := by
  have hr : ∀ N : ℕ, Measurable fun (ω : ℕ → A) (i : Fin N) => ω i := fun N => measurable_pi_lambda _ fun i => measurable_pi_apply _
  have := tendstoInMeasure_of_tendsto_ae (μ := Measure.infinitePi fun _ : ℕ => ρ) (f := fun N (ω : ℕ → A) => S N fun i => ω i)
    (g := fun _ => t) (fun N => ((hS N).comp (hr N)).aestronglyMeasurable) h
  rw [tendstoInMeasure_iff_dist] at this
  have := this ε hε
  refine this.congr fun N => ?_
  have e : Measure.pi (fun _ : Fin N => ρ) = (Measure.infinitePi fun _ : ℕ => ρ).map fun (ω : ℕ → A) (i : Fin N) => ω i := by
    rw [← Measure.infinitePi_eq_pi]
    exact (Measure.map_infinitePi_infinitePi_of_inj (P := fun _ : ℕ => ρ) (f := fun i : Fin N => (i : ℕ)) Fin.val_injective).symm
  rw [e, Measure.map_apply (hr N)]
  · rfl
  · exact measurableSet_le measurable_const ((continuous_abs.measurable).comp ((hS N).sub_const t))

theorem sum_law {A : Type} [MeasurableSpace A] (ρ : Measure A) [IsProbabilityMeasure ρ] {f : A → ℝ} (hf : Measurable f) (hi : Integrable f ρ) :
    ∀ᵐ ω ∂(Measure.infinitePi fun _ : ℕ => ρ), Filter.Tendsto (fun N : ℕ => (∑ i : Fin N, f (ω i)) / N) Filter.atTop (nhds (∫ a, f a ∂ρ)) := by
  have hmp : ∀ i, MeasurePreserving (fun ω : ℕ → A => ω i) (Measure.infinitePi fun _ : ℕ => ρ) ρ := fun i =>
    measurePreserving_eval_infinitePi (fun _ : ℕ => ρ) i
  have := strong_law_ae_real (μ := Measure.infinitePi fun _ : ℕ => ρ) (fun i (ω : ℕ → A) => f (ω i)) ((hmp 0).integrable_comp_of_integrable hi)
    (fun i j hij => (iIndepFun_infinitePi (P := fun _ : ℕ => ρ) (X := fun _ => f) fun _ => hf).indepFun hij)
    (fun i => ⟨(hf.comp (measurable_pi_apply i)).aemeasurable, (hf.comp (measurable_pi_apply 0)).aemeasurable, ?_⟩)
  · have e : ∫ ω, f (ω 0) ∂(Measure.infinitePi fun _ : ℕ => ρ) = ∫ a, f a ∂ρ := by
      have h := integral_map (hmp 0).measurable.aemeasurable (f := f) (by rw [(hmp 0).map_eq]; exact hf.aestronglyMeasurable)
      rw [(hmp 0).map_eq] at h
      exact h.symm
    rw [e] at this
    filter_upwards [this] with ω hω
    refine hω.congr fun N => ?_
    rw [Finset.sum_range]
  · have e : ∀ i : ℕ, (Measure.infinitePi fun _ : ℕ => ρ).map (fun ω : ℕ → A => f (ω i)) = ρ.map f := by
      intro i
      have h := Measure.map_map hf (hmp i).measurable (μ := Measure.infinitePi fun _ : ℕ => ρ)
      rw [(hmp i).map_eq] at h
      exact h.symm
    rw [e, e]

end PyPE

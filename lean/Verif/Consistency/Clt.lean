import Mathlib.Probability.CentralLimitTheorem
import Verif.Consistency.Claims

/-!
# C107: the spread of the estimates without resampling: exact second moments, an error bound, and a central limit theorem
-/

namespace PyPE
open Real Spec MeasureTheory ProbabilityTheory Filter
open scoped ENNReal NNReal

variable {P U Y V : Type}

/-! ### Independent draws -/

section draws
variable {A : Type} [MeasurableSpace A] (ρ : Measure A) [IsProbabilityMeasure ρ]

theorem pi_of_infinitePi (N : ℕ) : Measure.pi (fun _ : Fin N => ρ) = (Measure.infinitePi fun _ : ℕ => ρ).map fun (ω : ℕ → A) (i : Fin N) => ω i := by
  rw [← Measure.infinitePi_eq_pi]
  exact (Measure.map_infinitePi_infinitePi_of_inj (P := fun _ : ℕ => ρ) (f := fun i : Fin N => (i : ℕ)) Fin.val_injective).symm

theorem pi_two {N : ℕ} {f g : A → ℝ≥0∞} (hf : Measurable f) (hg : Measurable g) :
    ∫⁻ z, (∑ i, f (z i)) * (∑ j, g (z j)) ∂(Measure.pi fun _ : Fin N => ρ) =
      N * ∫⁻ a, f a * g a ∂ρ + (N * (N - 1 : ℕ) : ℕ) * ((∫⁻ a, f a ∂ρ) * ∫⁻ a, g a ∂ρ) := by
  have hfi : ∀ i : Fin N, Measurable fun z : Fin N → A => f (z i) := fun i => hf.comp (measurable_pi_apply i)
  have hgi : ∀ i : Fin N, Measurable fun z : Fin N → A => g (z i) := fun i => hg.comp (measurable_pi_apply i)
  have h1 : ∀ (h : A → ℝ≥0∞), Measurable h → ∀ i : Fin N, ∫⁻ z, h (z i) ∂(Measure.pi fun _ : Fin N => ρ) = ∫⁻ a, h a ∂ρ := fun h hh i =>
    (measurePreserving_eval (fun _ : Fin N => ρ) i).lintegral_comp hh
  have h2 : ∀ i j : Fin N, ∫⁻ z, f (z i) * g (z j) ∂(Measure.pi fun _ : Fin N => ρ) =
      if i = j then ∫⁻ a, f a * g a ∂ρ else (∫⁻ a, f a ∂ρ) * ∫⁻ a, g a ∂ρ := by
    intro i j
    split <;> rename_i hij
    · subst hij
      exact h1 (fun a => f a * g a) (hf.mul hg) i
    · have hind : IndepFun (fun z : Fin N → A => f (z i)) (fun z => g (z j)) (Measure.pi fun _ : Fin N => ρ) := by
        have := (iIndepFun_pi (μ := fun _ : Fin N => ρ) (X := fun _ a => a) fun _ => aemeasurable_id).indepFun hij
        exact this.comp hf hg
      rw [lintegral_mul_eq_lintegral_mul_lintegral_of_indepFun'' (hfi i).aemeasurable (hgi j).aemeasurable hind, h1 f hf, h1 g hg]
  simp only [Finset.sum_mul_sum]
  have hfg : ∀ i j : Fin N, Measurable fun z : Fin N → A => f (z i) * g (z j) := fun i j => (hfi i).mul (hgi j)
  rw [lintegral_finsetSum _ fun i _ => Finset.measurable_sum _ fun j _ => hfg i j]
  simp only [lintegral_finsetSum _ fun j _ => hfg _ j, h2]
  have h3 : ∀ i : Fin N, ∑ j, (if i = j then ∫⁻ a, f a * g a ∂ρ else (∫⁻ a, f a ∂ρ) * ∫⁻ a, g a ∂ρ) =
      ∫⁻ a, f a * g a ∂ρ + (N - 1 : ℕ) * ((∫⁻ a, f a ∂ρ) * ∫⁻ a, g a ∂ρ) := by
    intro i
    rw [← Finset.add_sum_erase Finset.univ _ (Finset.mem_univ i), if_pos rfl]
    congr 1
    rw [Finset.sum_congr rfl fun j hj => if_neg (fun h => (Finset.mem_erase.mp hj).1 h.symm), Finset.sum_const, nsmul_eq_mul,
      Finset.card_erase_of_mem (Finset.mem_univ i), Finset.card_univ, Fintype.card_fin]
  simp only [h3, Finset.sum_const, Finset.card_univ, Fintype.card_fin, nsmul_eq_mul]
  push_cast
  ring

/-- Chebyshev's inequality for the average of `N` independent draws. -/
theorem pi_chebyshev {N : ℕ} (hN : 0 < N) {f : A → ℝ} (hf : MemLp f 2 ρ) {ε : ℝ} (hε : 0 < ε) :
    Measure.pi (fun _ : Fin N => ρ) {z | ε ≤ |(∑ i, f (z i)) / N - ∫ a, f a ∂ρ|} ≤ ENNReal.ofReal (Var[f; ρ] / (N * ε ^ 2)) := by
  have hNr : (0:ℝ) < N := by exact_mod_cast hN
  set S : (Fin N → A) → ℝ := ∑ i, fun z => f (z i) with hS
  have hfi : ∀ i : Fin N, MemLp (fun z : Fin N → A => f (z i)) 2 (Measure.pi fun _ : Fin N => ρ) := fun i =>
    hf.comp_measurePreserving (measurePreserving_eval (fun _ : Fin N => ρ) i)
  have hSm : MemLp S 2 (Measure.pi fun _ : Fin N => ρ) := memLp_finsetSum' _ fun i _ => hfi i
  have hv : Var[S; Measure.pi fun _ : Fin N => ρ] = N * Var[f; ρ] := by
    rw [hS, variance_sum_pi (X := fun _ : Fin N => f) fun _ => hf]
    simp
  have he : ∫ z, S z ∂(Measure.pi fun _ : Fin N => ρ) = N * ∫ a, f a ∂ρ := by
    simp only [hS, Finset.sum_apply]
    rw [integral_finsetSum _ fun i _ => (hfi i).integrable one_le_two]
    have : ∀ i : Fin N, ∫ z, f (z i) ∂(Measure.pi fun _ : Fin N => ρ) = ∫ a, f a ∂ρ := by
      intro i
      have hm := measurePreserving_eval (fun _ : Fin N => ρ) i
      have h := integral_map hm.measurable.aemeasurable (f := f) (by rw [hm.map_eq]; exact hf.1)
      rw [hm.map_eq] at h
      exact h.symm
    simp [this]
  have hc := meas_ge_le_variance_div_sq hSm (c := N * ε) (by positivity)
  have hset : {z : Fin N → A | ε ≤ |(∑ i, f (z i)) / N - ∫ a, f a ∂ρ|} = {z | N * ε ≤ |S z - ∫ z, S z ∂(Measure.pi fun _ : Fin N => ρ)|} := by
    ext z
    rw [Set.mem_setOf_eq, Set.mem_setOf_eq, he]
    simp only [hS, Finset.sum_apply]
    have : (∑ i, f (z i)) / N - ∫ a, f a ∂ρ = (∑ i, f (z i) - N * ∫ a, f a ∂ρ) / N := by field_simp
    rw [this, abs_div, abs_of_pos hNr, le_div_iff₀ hNr, mul_comm]
  rw [hset]
  refine hc.trans (le_of_eq ?_)
  rw [hv]
  congr 1
  field_simp

/-- The central limit theorem for a ratio: numerator centred, denominator with positive mean. -/
theorem pi_clt_ratio {f g : A → ℝ} (hf : MemLp f 2 ρ) (hfm : Measurable f) (hf0 : ∫ a, f a ∂ρ = 0) (hg : Measurable g) (hgi : Integrable g ρ)
    (hgp : ∫ a, g a ∂ρ ≠ 0) (F : BoundedContinuousFunction ℝ ℝ≥0) :
    Tendsto (fun N : ℕ => ∫⁻ z, F (√N * ((∑ i, f (z i)) / ∑ i, g (z i))) ∂(Measure.pi fun _ : Fin N => ρ)) atTop
      (nhds (∫⁻ x, F (x / ∫ a, g a ∂ρ) ∂(gaussianReal 0 Var[f; ρ].toNNReal))) := by
  have hmp : ∀ i, MeasurePreserving (fun ω : ℕ → A => ω i) (Measure.infinitePi fun _ : ℕ => ρ) ρ := fun i =>
    measurePreserving_eval_infinitePi (fun _ : ℕ => ρ) i
  set μ := Measure.infinitePi fun _ : ℕ => ρ with hμ
  have hmap : ∀ i : ℕ, μ.map (fun ω : ℕ → A => f (ω i)) = ρ.map f := by
    intro i
    have h := Measure.map_map hfm (hmp i).measurable (μ := μ)
    rw [(hmp i).map_eq] at h
    exact h.symm
  have hm0 : ∀ i, Measurable fun ω : ℕ → A => f (ω i) := fun i => hfm.comp (measurable_pi_apply i)
  have hE : ∫ ω, f (ω 0) ∂μ = 0 := by
    have h := integral_map (hmp 0).measurable.aemeasurable (f := f) (by rw [(hmp 0).map_eq]; exact hfm.aestronglyMeasurable)
    rw [(hmp 0).map_eq] at h
    rw [← h, hf0]
  have hV : Var[fun ω : ℕ → A => f (ω 0); μ] = Var[f; ρ] := by
    have := variance_map (μ := μ) (X := f) (Y := fun ω : ℕ → A => ω 0) (by rw [(hmp 0).map_eq]; exact hfm.aemeasurable) (hmp 0).measurable.aemeasurable
    rw [(hmp 0).map_eq] at this
    exact this.symm
  have hclt := tendstoInDistribution_inv_sqrt_mul_sum_sub (P := μ) (X := fun i (ω : ℕ → A) => f (ω i)) (Y := fun x : ℝ => x)
    (P' := gaussianReal 0 Var[fun ω : ℕ → A => f (ω 0); μ].toNNReal)
    ⟨aemeasurable_id, Measure.map_id⟩ (hf.comp_measurePreserving (hmp 0))
    (iIndepFun_infinitePi (P := fun _ : ℕ => ρ) (X := fun _ => f) fun _ => hfm)
    (fun i => ⟨(hm0 i).aemeasurable, (hm0 0).aemeasurable, by rw [hmap, hmap]⟩)
  have hden : TendstoInMeasure μ (fun (N : ℕ) (ω : ℕ → A) => ((∑ i : Fin N, g (ω i)) / N)⁻¹) atTop fun _ => (∫ a, g a ∂ρ)⁻¹ := by
    refine tendstoInMeasure_of_tendsto_ae (fun N => ?_) ?_
    · exact (((Finset.measurable_sum _ fun i _ => hg.comp (measurable_pi_apply _)).div_const _).inv).aestronglyMeasurable
    · filter_upwards [sum_law ρ hg hgi] with ω hω
      exact hω.inv₀ hgp
  have hlim := hclt.continuous_comp_prodMk_of_tendstoInMeasure_const (g := fun x : ℝ × ℝ => x.1 * x.2) (by fun_prop) hden
    (fun N => (((Finset.measurable_sum _ fun i _ => hg.comp (measurable_pi_apply _)).div_const _).inv).aemeasurable)
  have ht := ProbabilityMeasure.tendsto_iff_forall_lintegral_tendsto.mp hlim.tendsto F
  have hFm : Measurable fun x : ℝ => (F x : ℝ≥0∞) := F.continuous.measurable.coe_nnreal_ennreal
  simp only [ProbabilityMeasure.coe_mk] at ht
  rw [lintegral_map hFm (by fun_prop)] at ht
  rw [← hV]
  refine (ht.congr fun N => ?_)
  have hSm : Measurable fun z : Fin N → A => √N * ((∑ i, f (z i)) / ∑ i, g (z i)) :=
    ((Finset.measurable_sum _ fun i _ => hfm.comp (measurable_pi_apply i)).div (Finset.measurable_sum _ fun i _ => hg.comp (measurable_pi_apply i))).const_mul _
  have hr : Measurable fun (ω : ℕ → A) (i : Fin N) => ω i := measurable_pi_lambda _ fun i => measurable_pi_apply _
  rw [pi_of_infinitePi ρ N, lintegral_map (f := fun z : Fin N → A => (F (√N * ((∑ i, f (z i)) / ∑ i, g (z i))) : ℝ≥0∞)) (hFm.comp hSm) hr, lintegral_map hFm]
  · refine lintegral_congr fun ω => ?_
    congr 2
    rw [hE, mul_zero, sub_zero, Finset.sum_range]
    rcases Nat.eq_zero_or_pos N with rfl | hN
    · simp
    · have hNr : (0:ℝ) < N := by exact_mod_cast hN
      have h1 : √(N:ℝ) * √N = N := Real.mul_self_sqrt hNr.le
      have h2 : √(N:ℝ) ≠ 0 := (Real.sqrt_pos.mpr hNr).ne'
      rw [inv_div]
      field_simp
      rw [pow_two, h1]
      ring
  · exact ((Finset.measurable_sum _ fun i _ => hm0 i).sub_const _).const_mul _ |>.mul
      (((Finset.measurable_sum _ fun i _ => hg.comp (measurable_pi_apply _)).div_const _).inv)

end draws

end PyPE

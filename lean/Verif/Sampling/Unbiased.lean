import Verif.Sampling.Props
import Mathlib.MeasureTheory.Integral.IntervalIntegral.Basic
import Mathlib.MeasureTheory.Integral.IntervalIntegral.FundThmCalculus
import Mathlib.MeasureTheory.Integral.Bochner.Set

/-!
# C03: the systematic sampler is unbiased

`r` is uniform on `[0, 1]`, i.e. expectations are integrals of `r` over `0..1`.
-/

namespace PyPE
open Spec MeasureTheory intervalIntegral

/-- How often `sample(w, n)` returns `j` when the uniform draw is `r` (`0` if it raises). -/
noncomputable def drawCount (w : List ℝ) (n j : ℕ) (r : ℝ) : ℝ :=
  match sample w n r with
  | .ok idx => (idx.count j : ℝ)
  | .error _ => 0

theorem countP_range_eq_sum (n : ℕ) (p : ℕ → Bool) :
    (((List.range n).countP p : ℕ) : ℝ) = ∑ i ∈ Finset.range n, if p i then (1:ℝ) else 0 := by
  induction n with
  | zero => simp
  | succ n ih =>
    rw [List.range_succ, List.countP_append, Finset.sum_range_succ, ← ih]
    push_cast
    congr 1
    simp only [List.countP_singleton]
    split <;> simp

theorem drawCount_eq {w : List ℝ} (hw : Weights w) (n j : ℕ) (hj : j < w.length) {r : ℝ}
    (h0 : 0 < r) (h1 : r ≤ 1) :
    drawCount w n j r = ∑ i ∈ Finset.range n,
      (Set.Ioc (n * cum w j) (n * cum w (j+1))).indicator (fun _ => (1:ℝ)) (r + i) := by
  unfold drawCount
  rw [sample_eq hw]
  simp only
  rw [count_eq_countP hw n h1 j hj, countP_range_eq_sum]
  apply Finset.sum_congr rfl
  intro i _
  simp only [decide_eq_true_eq, Set.indicator_apply, Set.mem_Ioc]
  have hi : (0:ℝ) ≤ i := Nat.cast_nonneg i
  have e : ((j = 0 ∨ n * cum w j - r < i) ∧ (i:ℝ) ≤ n * cum w (j+1) - r) ↔
      (n * cum w j < r + i ∧ r + i ≤ n * cum w (j+1)) := by
    constructor
    · rintro ⟨h | h, h'⟩
      · subst h; simp only [cum_zero, mul_zero]; constructor <;> linarith
      · constructor <;> linarith
    · rintro ⟨h, h'⟩
      exact ⟨Or.inr (by linarith), by linarith⟩
  simp only [e]

theorem indicator_integrable (a b c d : ℝ) :
    IntervalIntegrable ((Set.Ioc a b).indicator (fun _ => (1:ℝ))) volume c d := by
  apply MeasureTheory.Integrable.intervalIntegrable
  rw [integrable_indicator_iff measurableSet_Ioc]
  exact integrableOn_const (by simp)

/-- C03 (unbiasedness): for usable weights the expected number of times `sample(w, n)` returns
index `j`, over the uniform draw, is exactly `n · w_j / Σ w`. -/
theorem C03_sample_unbiased {w : List ℝ} (hw : Weights w) (n j : ℕ) :
    ∫ r in (0:ℝ)..1, drawCount w n j r = n * prob w j := by
  by_cases hj : j < w.length
  swap
  · have hp : prob w j = 0 := by
      simp [prob, List.getD_eq_getElem?_getD, List.getElem?_eq_none (not_lt.mp hj)]
    rw [hp, mul_zero]
    rw [intervalIntegral.integral_congr_ae (g := fun _ => (0:ℝ))]
    · simp
    · filter_upwards [Measure.ae_ne volume (1:ℝ)] with r hr1 hr
      rw [Set.uIoc_of_le zero_le_one] at hr
      have hu : Unit01 r := ⟨hr.1.le, lt_of_le_of_ne hr.2 hr1⟩
      obtain ⟨idx, h, -, hrange⟩ := C01_sample_length_range hw n hu
      have : idx.count j = 0 := List.count_eq_zero.mpr fun hm => hj (hrange j hm)
      simp [drawCount, h, this]
  set f : ℝ → ℝ := (Set.Ioc (n * cum w j) (n * cum w (j+1))).indicator (fun _ => (1:ℝ)) with hf
  have h1 : ∫ r in (0:ℝ)..1, drawCount w n j r =
      ∫ r in (0:ℝ)..1, ∑ i ∈ Finset.range n, f (r + i) := by
    apply intervalIntegral.integral_congr_ae
    refine Filter.Eventually.of_forall fun r hr => ?_
    rw [Set.uIoc_of_le zero_le_one] at hr
    exact drawCount_eq hw n j hj hr.1 hr.2
  rw [h1, intervalIntegral.integral_finsetSum]
  swap
  · intro i _
    have e : (fun r : ℝ => f (r + i)) = (Set.Ioc (n * cum w j - i) (n * cum w (j+1) - i)).indicator
        (fun _ => (1:ℝ)) := by
      funext r
      simp only [hf, Set.indicator_apply, Set.mem_Ioc, sub_lt_iff_lt_add, le_sub_iff_add_le]
    rw [e]
    exact indicator_integrable _ _ _ _
  have h2 : ∀ i ∈ Finset.range n, ∫ r in (0:ℝ)..1, f (r + i) =
      ∫ x in ((i : ℕ) : ℝ)..((i + 1 : ℕ) : ℝ), f x := by
    intro i _
    rw [intervalIntegral.integral_comp_add_right]
    push_cast
    rw [zero_add, add_comm (1:ℝ)]
  rw [Finset.sum_congr rfl h2, intervalIntegral.sum_integral_adjacent_intervals
    (a := fun i : ℕ => (i:ℝ)) (fun k _ => indicator_integrable _ _ _ _)]
  have hn : (0:ℝ) ≤ n := Nat.cast_nonneg n
  have hA : 0 ≤ n * cum w j := mul_nonneg hn (cum_nonneg hw j)
  have hAB : n * cum w j ≤ n * cum w (j+1) :=
    mul_le_mul_of_nonneg_left (cum_mono hw (Nat.le_succ j)) hn
  have hB : n * cum w (j+1) ≤ n := by nlinarith [cum_le_one hw (j+1)]
  simp only [Nat.cast_zero]
  rw [intervalIntegral.integral_of_le hn, setIntegral_indicator measurableSet_Ioc]
  have hset : Set.Ioc (0:ℝ) n ∩ Set.Ioc (n * cum w j) (n * cum w (j+1)) =
      Set.Ioc (n * cum w j) (n * cum w (j+1)) := by
    apply Set.inter_eq_right.mpr
    intro x hx
    exact ⟨lt_of_le_of_lt hA hx.1, hx.2.trans hB⟩
  rw [hset, setIntegral_const, Measure.real, Real.volume_Ioc, ENNReal.toReal_ofReal (by linarith)]
  rw [cum_succ]; simp; ring

/-- C03: drawing a single index (`sample(w, 1)`, the way the smoothers use it) returns `j` with
probability exactly `w_j / Σ w`. -/
theorem C03_sample_one_prob {w : List ℝ} (hw : Weights w) (j : ℕ) :
    ∫ r in (0:ℝ)..1, (if sample w 1 r = .ok [j] then (1:ℝ) else 0) = prob w j := by
  have := C03_sample_unbiased hw 1 j
  rw [Nat.cast_one, one_mul] at this
  rw [← this]
  apply intervalIntegral.integral_congr_ae
  filter_upwards [Measure.ae_ne volume (1:ℝ)] with r hr1 hr
  rw [Set.uIoc_of_le zero_le_one] at hr
  have hu : Unit01 r := ⟨hr.1.le, lt_of_le_of_ne hr.2 hr1⟩
  obtain ⟨idx, h, hl, -⟩ := C01_sample_length_range hw 1 hu
  obtain ⟨k, rfl⟩ := List.length_eq_one_iff.mp hl
  simp only [drawCount, h, Except.ok.injEq, List.cons.injEq, and_true, List.count_singleton]
  by_cases hk : k = j <;> simp [hk]

/-- Non-vacuity: index 1 of weights `[1, 3]` is drawn with probability `3/4`. -/
example : ∫ r in (0:ℝ)..1, (if sample [1, 3] 1 r = .ok [1] then (1:ℝ) else 0) = 3/4 := by
  rw [C03_sample_one_prob (by constructor <;> norm_num)]; norm_num [prob]

end PyPE

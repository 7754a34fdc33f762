import Verif.Sampling.Props
import Verif.Filter.Likelihood
import Mathlib.Algebra.BigOperators.Module

/-!
# C111: the error of one resampling (filter.py:583-612, `sample`; 744-757, `ParticleApproximation.resample`)

Systematic sampling is exact to one copy on every *initial segment* of the particles. So the mean of a function over the resampled particles
differs from its weighted mean by at most its variation along the particle order divided by the number of particles, for every draw.
-/

namespace PyPE
open Real Spec

/-- The variation of `f 0, ..., f (L-1)` along the order of the particles. -/
noncomputable def Spec.variation (f : ℕ → ℝ) (L : ℕ) : ℝ := ∑ i ∈ Finset.range (L - 1), |f (i + 1) - f i|

/-- C111: among the returned indices those below `k` are `n · (w_0 + ... + w_{k-1})/Σw` in number, up to one, for every draw. -/
theorem C111_prefix_count {w : List ℝ} (hw : Weights w) (n : ℕ) {r : ℝ} (hr : Unit01 r) {idx : List ℕ} (h : sample w n r = .ok idx) (k : ℕ) :
    |(idx.countP (fun i => decide (i < k)) : ℝ) - n * ((w.take k).sum / w.sum)| ≤ 1 := by
  rw [sample_eq hw] at h
  cases h
  rcases Nat.eq_zero_or_pos k with rfl | hk
  · simp
  have e : ((stratGrid n r).map (searchsorted ((cumsum w).map (· / w.sum)))).countP (fun i => decide (i < k)) =
      (List.range n).countP fun i : ℕ => decide ((i:ℝ) ≤ n * cum w k - r) := by
    rw [List.countP_map, stratGrid, List.countP_map]
    apply List.countP_congr
    intro i hi
    simp only [List.mem_range] at hi
    have hn : (0:ℝ) < n := by exact_mod_cast (by omega : 0 < n)
    have mem : ((i:ℝ) + r) / n ∈ stratGrid n r := by
      simp only [stratGrid, List.mem_map, List.mem_range]; exact ⟨i, hi, rfl⟩
    obtain ⟨-, h2, h3⟩ := (searchsorted_eq_iff hw (stratGrid_le_one hr _ mem) _).mp rfl
    simp only [Function.comp, decide_eq_true_eq]
    have e2 : (i:ℝ) ≤ n * cum w k - r ↔ ((i:ℝ) + r) / n ≤ cum w k := by
      rw [div_le_iff₀ hn]; constructor <;> intro h <;> linarith
    rw [e2]
    constructor
    · intro hlt
      exact h3.trans (cum_mono hw (by omega))
    · intro hle
      by_contra hge
      rcases h2 with h2 | h2
      · omega
      · exact absurd (hle.trans (cum_mono hw (by omega : k ≤ _))) (not_le.mpr h2)
  rw [e]
  have c0 := cum_nonneg hw k
  have c1 := cum_le_one hw k
  have hn : (0:ℝ) ≤ n := Nat.cast_nonneg n
  have hc : (n:ℝ) * cum w k ≤ n := by nlinarith
  have hc0 : 0 ≤ (n:ℝ) * cum w k := by positivity
  obtain ⟨b1, b2, -⟩ := countP_le_bounds n (n * cum w k - r) (by linarith [hr.2]) (by linarith [hr.1])
  change |_ - (n:ℝ) * cum w k| ≤ 1
  rw [abs_le]
  constructor <;> linarith [hr.1, hr.2]

theorem sum_countP_lt (l : List ℕ) (k : ℕ) : ∑ i ∈ Finset.range k, (l.count i : ℝ) = (l.countP (fun i => decide (i < k)) : ℝ) := by
  induction k with
  | zero => simp
  | succ k ih =>
    rw [Finset.sum_range_succ, ih, List.count]
    norm_cast
    clear ih
    induction l with
    | nil => rfl
    | cons a l ih => 
      simp only [List.countP_cons]
      by_cases h1 : a < k
      · have h2 : a < k + 1 := by omega
        have h3 : a ≠ k := by omega
        simp [h1, h2, h3] at ih ⊢
        omega
      · by_cases h3 : a = k
        · subst h3
          simp at ih ⊢
          omega
        · have h2 : ¬ a < k + 1 := by omega
          simp [h1, h2, h3] at ih ⊢
          omega

theorem sum_map_count_real (l : List ℕ) (N : ℕ) (h : ∀ i ∈ l, i < N) (g : ℕ → ℝ) :
    (l.map g).sum = ∑ i ∈ Finset.range N, (l.count i : ℝ) * g i := by
  rw [Finset.sum_list_map_count]
  rw [Finset.sum_subset (s₂ := Finset.range N) (fun i hi => Finset.mem_range.mpr (h i (List.mem_toFinset.mp hi)))]
  · exact Finset.sum_congr rfl fun i _ => by rw [nsmul_eq_mul]
  · intro i _ hi
    rw [List.count_eq_zero.mpr (fun hm => hi (List.mem_toFinset.mpr hm)), zero_nsmul]

/-- C111: for every weight vector, number `n > 0` of draws, draw and function `f` of the index, the mean of `f` over the returned indices differs
from its weighted mean by at most the variation of `f` along the indices divided by `n`. -/
theorem C111_variation {w : List ℝ} (hw : Weights w) {n : ℕ} (hn : 0 < n) {r : ℝ} (hr : Unit01 r) {idx : List ℕ} (h : sample w n r = .ok idx)
    (f : ℕ → ℝ) :
    |(idx.map f).sum / n - ∑ i ∈ Finset.range w.length, prob w i * f i| ≤ variation f w.length / n := by
  obtain ⟨idx', h', hlen, hrange⟩ := C01_sample_length_range hw n hr
  obtain rfl := Except.ok.inj (h.symm.trans h')
  have hn' : (0:ℝ) < n := by exact_mod_cast hn
  have hpre : ∀ k, ∑ i ∈ Finset.range k, ((idx.count i : ℝ) - n * prob w i) =
      (idx.countP (fun i => decide (i < k)) : ℝ) - n * ((w.take k).sum / w.sum) := by
    intro k
    rw [Finset.sum_sub_distrib, sum_countP_lt, ← Finset.mul_sum]
    congr 2
    show _ = cum w k
    induction k with
    | zero => simp
    | succ k ih => rw [Finset.sum_range_succ, ih, cum_succ]
  have hlast : ∑ i ∈ Finset.range w.length, ((idx.count i : ℝ) - n * prob w i) = 0 := by
    rw [hpre, List.take_length, div_self hw.2.ne', mul_one]
    have : idx.countP (fun i => decide (i < w.length)) = n := by
      rw [List.countP_eq_length.mpr (by intro a ha; simpa using hrange a ha), hlen]
    rw [this, sub_self]
  have hsum : (idx.map f).sum - n * ∑ i ∈ Finset.range w.length, prob w i * f i =
      -∑ i ∈ Finset.range (w.length - 1), (f (i+1) - f i) * ∑ j ∈ Finset.range (i+1), ((idx.count j : ℝ) - n * prob w j) := by
    rw [sum_map_count_real idx w.length hrange f, Finset.mul_sum, ← Finset.sum_sub_distrib]
    have := Finset.sum_range_by_parts f (fun i => (idx.count i : ℝ) - n * prob w i) w.length
    simp only [smul_eq_mul, hlast, mul_zero, zero_sub] at this
    rw [← this]
    refine Finset.sum_congr rfl fun i _ => by ring
  have : (idx.map f).sum / n - ∑ i ∈ Finset.range w.length, prob w i * f i =
      ((idx.map f).sum - n * ∑ i ∈ Finset.range w.length, prob w i * f i) / n := by
    field_simp
  rw [this, abs_div, abs_of_pos hn', div_le_div_iff_of_pos_right hn', hsum, abs_neg]
  refine (Finset.abs_sum_le_sum_abs _ _).trans (Finset.sum_le_sum fun i _ => ?_)
  rw [abs_mul, hpre]
  exact mul_le_of_le_one_right (abs_nonneg _) (C111_prefix_count hw n hr h _)

/-- C111: if the function is monotone along the particle order, the mean over the resampled indices is exact up to its range divided by `n`. -/
theorem C111_sorted {w : List ℝ} (hw : Weights w) {n : ℕ} (hn : 0 < n) {r : ℝ} (hr : Unit01 r) {idx : List ℕ} (h : sample w n r = .ok idx)
    {f : ℕ → ℝ} (hf : Monotone f) :
    |(idx.map f).sum / n - ∑ i ∈ Finset.range w.length, prob w i * f i| ≤ (f (w.length - 1) - f 0) / n := by
  have := C111_variation hw hn hr h f
  have e : variation f w.length = f (w.length - 1) - f 0 := by
    unfold variation
    rw [← Finset.sum_range_sub]
    exact Finset.sum_congr rfl fun i _ => abs_of_nonneg (sub_nonneg.mpr (hf (Nat.le_succ i)))
  rwa [e] at this

end PyPE

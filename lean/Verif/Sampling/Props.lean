import Verif.Sampling.Lemmas
import Mathlib.Tactic.NormNum
import Mathlib.Tactic.IntervalCases

/-!
# Properties of the systematic sampler `sample(w, n)` (filter.py:10-23)
-/

namespace PyPE
open Spec

/-- C01: for usable weights and any uniform draw, `sample(w, n)` succeeds and returns exactly `n`
indices, all of them valid positions of `w`. -/
theorem C01_sample_length_range {w : List ℝ} (hw : Weights w) (n : ℕ) {r : ℝ} (hr : Unit01 r) :
    ∃ idx, sample w n r = .ok idx ∧ idx.length = n ∧ ∀ j ∈ idx, j < w.length := by
  refine ⟨_, sample_eq hw n r, by simp [stratGrid_length], ?_⟩
  intro j hj
  obtain ⟨u, hu, hju⟩ := List.mem_map.mp hj
  exact ((searchsorted_eq_iff hw (stratGrid_le_one hr u hu) j).mp hju).1

/-- C01: an empty weight vector is the only input on which `sample` raises, and it raises
`IndexError` (numpy's `wc[-1]`). -/
theorem C01_sample_empty (w : List ℝ) (n : ℕ) (r : ℝ) :
    (sample w n r = .error .indexError ↔ w = []) ∧
    (∀ e, sample w n r = .error e → w = []) := by
  by_cases h : w = []
  · subst h; simp [sample, cumsum, getLast, bind, Except.bind]
  · have : ∃ v, sample w n r = .ok v := by
      unfold sample
      simp only [cumsum_getLast h, bind, Except.bind]
      by_cases h0 : w.sum = 0
      · exact ⟨_, by simp only [h0, if_true]; rfl⟩
      · exact ⟨_, by simp only [h0, if_false]; rfl⟩
    obtain ⟨v, hv⟩ := this
    simp [hv, h]

/-- C01: the degenerate all-zero weight vector does not raise: every drawn index is `0`. -/
theorem C01_sample_zero_total {w : List ℝ} (hne : w ≠ []) (h0 : w.sum = 0) (n : ℕ) (r : ℝ) :
    sample w n r = .ok (List.replicate n 0) := by
  unfold sample
  simp only [cumsum_getLast hne, bind, Except.bind, h0, if_true]
  rfl

/-- C04: the `i`-th returned index inverts the cumulative weight function at `(i + r)/n`
(the defining property of systematic sampling). -/
theorem C04_sample_inverse_cdf {w : List ℝ} (hw : Weights w) (n : ℕ) {r : ℝ} (hr : Unit01 r)
    {idx : List ℕ} (h : sample w n r = .ok idx) (i : ℕ) (hi : i < n) :
    ∃ j, idx[i]? = some j ∧ (w.take j).sum / w.sum ≤ ((i:ℝ) + r) / n ∧
      ((i:ℝ) + r) / n ≤ (w.take (j+1)).sum / w.sum := by
  rw [sample_eq hw] at h
  cases h
  have hmem : ((i:ℝ) + r) / n ∈ stratGrid n r := by
    simp only [stratGrid, List.mem_map, List.mem_range]; exact ⟨i, hi, rfl⟩
  refine ⟨searchsorted ((cumsum w).map (· / w.sum)) (((i:ℝ) + r) / n), ?_, ?_⟩
  · simp [stratGrid, hi]
  · obtain ⟨-, h2, h3⟩ := (searchsorted_eq_iff hw (stratGrid_le_one hr _ hmem) _).mp rfl
    refine ⟨?_, h3⟩
    rcases h2 with h2 | h2
    · rw [h2]
      simp only [List.take_zero, List.sum_nil, zero_div]
      exact div_nonneg (add_nonneg (Nat.cast_nonneg _) hr.1) (Nat.cast_nonneg _)
    · exact h2.le

/-- C04: the returned indices are in non-decreasing order. -/
theorem C04_sample_sorted {w : List ℝ} (hw : Weights w) (n : ℕ) {r : ℝ} (hr : Unit01 r)
    {idx : List ℕ} (h : sample w n r = .ok idx) : idx.Pairwise (· ≤ ·) := by
  rw [sample_eq hw] at h
  cases h
  unfold stratGrid
  rw [List.map_map, List.pairwise_map]
  refine List.Pairwise.imp_of_mem ?_ (List.pairwise_lt_range (n := n))
  intro a b ha hb hab
  simp only [List.mem_range] at ha hb
  have mem : ∀ i < n, ((i:ℝ) + r) / n ∈ stratGrid n r := fun i hi => by
    simp only [stratGrid, List.mem_map, List.mem_range]; exact ⟨i, hi, rfl⟩
  obtain ⟨-, ha2, -⟩ := (searchsorted_eq_iff hw (stratGrid_le_one hr _ (mem a ha)) _).mp rfl
  obtain ⟨-, -, hb3⟩ := (searchsorted_eq_iff hw (stratGrid_le_one hr _ (mem b hb)) _).mp rfl
  simp only [Function.comp]
  by_contra hcon
  push Not at hcon
  rcases ha2 with ha2 | ha2
  · omega
  · have h1 := cum_mono hw (show _ + 1 ≤ _ from hcon)
    have : ((a:ℝ) + r) / n ≤ ((b:ℝ) + r) / n := by
      apply div_le_div_of_nonneg_right _ (Nat.cast_nonneg _)
      have : (a:ℝ) ≤ b := by exact_mod_cast hab.le
      linarith
    linarith

theorem list_sum_map_mul (l : List ℝ) (c : ℝ) : (l.map (c * ·)).sum = c * l.sum := by
  induction l with
  | nil => simp
  | cons a l ih => simp only [List.map_cons, List.sum_cons, ih]; ring

theorem cumsum_map_mul (w : List ℝ) (c : ℝ) : cumsum (w.map (c * ·)) = (cumsum w).map (c * ·) := by
  simp only [cumsum, List.length_map, List.map_map]
  apply List.map_congr_left
  intro k _
  simp only [Function.comp, ← List.map_take, list_sum_map_mul]

/-- C04: only the ratios of the weights matter: rescaling every weight by a positive constant
changes nothing (also in the degenerate cases). -/
theorem C04_sample_scale_invariant (w : List ℝ) (n : ℕ) (r : ℝ) {c : ℝ} (hc : 0 < c) :
    sample (w.map (c * ·)) n r = sample w n r := by
  by_cases hne : w = []
  · subst hne; simp
  · have hne' : w.map (c * ·) ≠ [] := by simpa using hne
    have hs : (w.map (c * ·)).sum = c * w.sum := by
      exact list_sum_map_mul w c
    unfold sample
    simp only [cumsum_getLast hne, cumsum_getLast hne', hs, bind, Except.bind, mul_eq_zero, hc.ne',
      false_or]
    split
    · rfl
    · congr 3
      rw [cumsum_map_mul, List.map_map]
      apply List.map_congr_left
      intro x _
      simp only [Function.comp]
      rw [mul_div_mul_left _ _ hc.ne']

theorem count_eq_countP {w : List ℝ} (hw : Weights w) (n : ℕ) {r : ℝ} (hr : r ≤ 1) (j : ℕ)
    (hj : j < w.length) :
    ((stratGrid n r).map (searchsorted ((cumsum w).map (· / w.sum)))).count j =
      (List.range n).countP fun i : ℕ =>
        decide ((j = 0 ∨ n * cum w j - r < i) ∧ (i:ℝ) ≤ n * cum w (j+1) - r) := by
  rw [List.count, List.countP_map, stratGrid, List.countP_map]
  apply List.countP_congr
  intro i hi
  simp only [List.mem_range] at hi
  have hn : (0:ℝ) < n := by exact_mod_cast (by omega : 0 < n)
  have mem : ((i:ℝ) + r) / n ∈ stratGrid n r := by
    simp only [stratGrid, List.mem_map, List.mem_range]; exact ⟨i, hi, rfl⟩
  simp only [Function.comp, beq_iff_eq, decide_eq_true_eq,
    searchsorted_eq_iff hw (stratGrid_le_one' hr _ mem), hj, true_and]
  rw [lt_div_iff₀ hn, div_le_iff₀ hn]
  have e1 : cum w j * n < i + r ↔ n * cum w j - r < i := by constructor <;> intro h <;> linarith
  have e2 : i + r ≤ cum w (j+1) * n ↔ (i:ℝ) ≤ n * cum w (j+1) - r := by
    constructor <;> intro h <;> linarith
  rw [e1, e2]

/-- C02 (low variance): for every draw, index `j` is returned a number of times that differs from
its expected value `n·w_j/Σw` by at most one, and by strictly less than one unless the uniform draw
is exactly `0`. -/
theorem C02_sample_count {w : List ℝ} (hw : Weights w) (n : ℕ) {r : ℝ} (hr : Unit01 r)
    {idx : List ℕ} (h : sample w n r = .ok idx) (j : ℕ) :
    |(idx.count j : ℝ) - n * prob w j| ≤ 1 ∧
      (0 < r → |(idx.count j : ℝ) - n * prob w j| < 1) := by
  obtain ⟨idx', h', -, hrange⟩ := C01_sample_length_range hw n hr
  rw [h] at h'; cases h'
  by_cases hj : j < w.length
  swap
  · have : idx.count j = 0 := List.count_eq_zero.mpr fun hm => hj (hrange j hm)
    have hp : prob w j = 0 := by simp [prob, List.getD_eq_getElem?_getD, List.getElem?_eq_none (not_lt.mp hj)]
    simp [this, hp]
  rw [sample_eq hw] at h
  cases h
  rw [count_eq_countP hw n hr.2.le j hj]
  have hn : (0:ℝ) ≤ n := Nat.cast_nonneg n
  have hnp : n * prob w j = n * cum w (j+1) - n * cum w j := by rw [cum_succ]; ring
  have bnd : ∀ k, -1 ≤ n * cum w k - r ∧ n * cum w k - r ≤ n := by
    intro k
    have h1 : 0 ≤ n * cum w k := mul_nonneg hn (cum_nonneg hw k)
    have h2 : n * cum w k ≤ n := by nlinarith [cum_le_one hw k]
    constructor <;> linarith [hr.1, hr.2]
  obtain ⟨b1, b2, b3⟩ := countP_le_bounds n (n * cum w (j+1) - r) (bnd _).1 (bnd _).2
  obtain ⟨a1, a2, a3⟩ := countP_le_bounds n (n * cum w j - r) (bnd _).1 (bnd _).2
  have strict : ∀ k, 0 < r → n * cum w k - r < n := by
    intro k hr0
    have h2 : n * cum w k ≤ n := by nlinarith [cum_le_one hw k]
    linarith
  by_cases hj0 : j = 0
  · subst hj0
    simp only [true_or, true_and, hnp, cum_zero, mul_zero, sub_zero] at *
    refine ⟨by rw [abs_le]; constructor <;> linarith [hr.1, hr.2], fun hr0 => ?_⟩
    have := b3 (strict _ hr0)
    rw [abs_lt]; constructor <;> linarith [hr.1, hr.2]
  · have hc := countP_sub (List.range n) (fun i : ℕ => decide ((i:ℝ) ≤ n * cum w j - r))
      (fun i : ℕ => decide ((i:ℝ) ≤ n * cum w (j+1) - r)) (by
        intro i _ hi
        simp only [decide_eq_true_eq] at hi ⊢
        have := mul_le_mul_of_nonneg_left (cum_mono hw (Nat.le_succ j)) hn
        simp only [Nat.succ_eq_add_one] at this
        linarith)
    have e : (List.range n).countP (fun i : ℕ =>
        decide ((j = 0 ∨ n * cum w j - r < i) ∧ (i:ℝ) ≤ n * cum w (j+1) - r)) =
        (List.range n).countP (fun i : ℕ =>
          decide ((i:ℝ) ≤ n * cum w (j+1) - r) && !decide ((i:ℝ) ≤ n * cum w j - r)) := by
      apply List.countP_congr
      intro i _
      simp [hj0, and_comm]
    rw [e, hnp]
    have hc' : (((List.range n).countP (fun i : ℕ =>
          decide ((i:ℝ) ≤ n * cum w (j+1) - r) && !decide ((i:ℝ) ≤ n * cum w j - r)) : ℕ) : ℝ) +
        ((List.range n).countP (fun i : ℕ => decide ((i:ℝ) ≤ n * cum w j - r)) : ℕ) =
        ((List.range n).countP (fun i : ℕ => decide ((i:ℝ) ≤ n * cum w (j+1) - r)) : ℕ) := by
      exact_mod_cast hc
    refine ⟨by rw [abs_le]; constructor <;> linarith, fun hr0 => ?_⟩
    have := a3 (strict _ hr0); have := b3 (strict _ hr0)
    rw [abs_lt]; constructor <;> linarith

/-- C05 (partial: needs a non-zero uniform draw): an index of weight zero is never returned. -/
theorem C05_zero_weight_never_drawn {w : List ℝ} (hw : Weights w) (n : ℕ) {r : ℝ}
    (hr : Unit01 r) (hr0 : 0 < r) {idx : List ℕ} (h : sample w n r = .ok idx) {j : ℕ}
    (hj : w[j]? = some 0) : j ∉ idx := by
  have hc := (C02_sample_count hw n hr h j).2 hr0
  have hp : prob w j = 0 := by simp [prob, List.getD_eq_getElem?_getD, hj]
  rw [hp, mul_zero, sub_zero, abs_of_nonneg (Nat.cast_nonneg _)] at hc
  have : idx.count j = 0 := by
    have : idx.count j < 1 := by exact_mod_cast hc
    omega
  exact List.count_eq_zero.mp this

/-- C05 (the full claim is false of the code): with the draw `r = 0`, which `numpy.random.rand` can
return, `sample([0, 1], 1)` returns index `0` although its weight is `0`. -/
theorem C05_zero_weight_drawn_at_zero : sample [0, 1] 1 0 = .ok [0] := by
  have hw : Weights [0, 1] := by constructor <;> simp
  rw [sample_eq hw]
  congr 1
  have : stratGrid 1 0 = [0] := by simp [stratGrid]
  rw [this]
  simp only [List.map_cons, List.map_nil, List.cons.injEq, and_true]
  rw [searchsorted_eq_iff hw (by norm_num)]
  simp [cum]

/-- C05: even with `r = 0` a zero-weight index can only be returned in front of every positive
weight. -/
theorem C05_zero_weight_only_leading {w : List ℝ} (hw : Weights w) (n : ℕ) {r : ℝ}
    (hr : Unit01 r) {idx : List ℕ} (h : sample w n r = .ok idx) {j : ℕ}
    (hj : w[j]? = some 0) (hmem : j ∈ idx) : j = 0 ∧ r = 0 := by
  have hr0 : r = 0 := by
    by_contra hne
    exact C05_zero_weight_never_drawn hw n hr (lt_of_le_of_ne hr.1 (Ne.symm hne)) h hj hmem
  refine ⟨?_, hr0⟩
  rw [sample_eq hw] at h
  cases h
  obtain ⟨u, hu, hju⟩ := List.mem_map.mp hmem
  obtain ⟨-, h2, h3⟩ := (searchsorted_eq_iff hw (stratGrid_le_one hr u hu) j).mp hju
  rcases h2 with h2 | h2
  · exact h2
  · rw [cum_succ] at h3
    have hp : prob w j = 0 := by simp [prob, List.getD_eq_getElem?_getD, hj]
    linarith

/-! ### Non-vacuity -/

example : Weights [0, 2, 1, 0, 5] := by constructor <;> norm_num
example : Unit01 (1/3) := by constructor <;> norm_num
example : ∃ idx, sample [0, 2, 1, 0, 5] 7 (1/3) = .ok idx ∧ idx.length = 7 :=
  let ⟨i, h, hl, _⟩ := C01_sample_length_range (w := [0, 2, 1, 0, 5]) (by constructor <;> norm_num) 7
    (r := 1/3) (by constructor <;> norm_num)
  ⟨i, h, hl⟩

end PyPE

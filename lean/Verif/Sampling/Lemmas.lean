import Verif.Sampling.Model
import Verif.Sampling.Spec
import Mathlib.Algebra.Order.Archimedean.Real.Basic
import Mathlib.Algebra.Order.Floor.Semiring
import Mathlib.Tactic.Linarith
import Mathlib.Tactic.FieldSimp
import Mathlib.Tactic.Ring
import Mathlib.Tactic.Positivity

/-! Helper lemmas about the systematic sampler. -/

namespace PyPE
open Spec

/-- Cumulative probability of the first `k` indices. -/
noncomputable def cum (w : List ℝ) (k : ℕ) : ℝ := (w.take k).sum / w.sum

theorem take_sum_mono {w : List ℝ} (h : ∀ x ∈ w, 0 ≤ x) : Monotone fun k => (w.take k).sum := by
  apply monotone_nat_of_le_succ
  intro k
  by_cases hk : k < w.length
  · show (w.take k).sum ≤ (w.take (k+1)).sum
    rw [List.take_add_one, List.sum_append]
    have : 0 ≤ (w[k]?.toList).sum := by
      rw [List.getElem?_eq_getElem hk]; simp [h _ (List.getElem_mem hk)]
    linarith
  · show (w.take k).sum ≤ (w.take (k+1)).sum
    rw [List.take_of_length_le (by omega), List.take_of_length_le (by omega)]

theorem cum_mono {w : List ℝ} (h : Weights w) : Monotone (cum w) := fun _ _ hab =>
  div_le_div_of_nonneg_right (take_sum_mono h.1 hab) h.2.le

@[simp] theorem cum_zero (w : List ℝ) : cum w 0 = 0 := by simp [cum]

theorem cum_length {w : List ℝ} (h : Weights w) : cum w w.length = 1 := by
  simp [cum, h.2.ne']

theorem cum_nonneg {w : List ℝ} (h : Weights w) (k : ℕ) : 0 ≤ cum w k := by
  have := cum_mono h (Nat.zero_le k); simpa using this

theorem cum_le_one {w : List ℝ} (h : Weights w) (k : ℕ) : cum w k ≤ 1 := by
  by_cases hk : k ≤ w.length
  · have := cum_mono h hk; rwa [cum_length h] at this
  · simp [cum, List.take_of_length_le (by omega : w.length ≤ k), h.2.ne']

theorem cum_succ {w : List ℝ} (j : ℕ) : cum w (j+1) = cum w j + prob w j := by
  unfold cum prob
  rw [List.take_add_one, List.sum_append, add_div]
  congr 2
  cases hj : w[j]? <;> simp [List.getD_eq_getElem?_getD, hj]

theorem cumsum_length (w : List ℝ) : (cumsum w).length = w.length := by simp [cumsum]

theorem weights_ne_nil {w : List ℝ} (h : Weights w) : w ≠ [] := by
  rintro rfl; simpa using h.2

theorem cumsum_getLast {w : List ℝ} (h : w ≠ []) : getLast (cumsum w) = .ok w.sum := by
  have hl : 0 < w.length := List.length_pos_iff.mpr h
  unfold getLast cumsum
  rw [List.getLast?_eq_getElem?]
  have : w.length - 1 + 1 = w.length := by omega
  simp [hl, this]

theorem sample_eq {w : List ℝ} (h : Weights w) (n : ℕ) (r : ℝ) :
    sample w n r = .ok ((stratGrid n r).map (searchsorted ((cumsum w).map (· / w.sum)))) := by
  unfold sample
  simp only [cumsum_getLast (weights_ne_nil h)]
  simp only [bind, Except.bind, h.2.ne', if_false]
  rfl

/-- `searchsorted` on the normalised cumulative sum inverts the cumulative distribution. -/
theorem searchsorted_eq_iff {w : List ℝ} (h : Weights w) {u : ℝ} (hu : u ≤ 1) (j : ℕ) :
    searchsorted ((cumsum w).map (· / w.sum)) u = j ↔
      j < w.length ∧ (j = 0 ∨ cum w j < u) ∧ u ≤ cum w (j+1) := by
  have hlen : ((cumsum w).map (· / w.sum)).length = w.length := by simp [cumsum]
  have hget : ∀ k (hk : k < ((cumsum w).map (· / w.sum)).length),
      ((cumsum w).map (· / w.sum))[k] = cum w (k+1) := by
    intro k hk; simp [cumsum, cum]
  have hlt : searchsorted ((cumsum w).map (· / w.sum)) u < ((cumsum w).map (· / w.sum)).length := by
    unfold searchsorted
    rw [List.findIdx_lt_length]
    have hp : 0 < w.length := List.length_pos_iff.mpr (weights_ne_nil h)
    refine ⟨_, List.getElem_mem (by omega : w.length - 1 < _), ?_⟩
    rw [hget]
    have e : w.length - 1 + 1 = w.length := by omega
    rw [e, cum_length h]; simpa using hu
  constructor
  · rintro rfl
    refine ⟨by omega, ?_, ?_⟩
    · rcases Nat.eq_zero_or_pos (searchsorted ((cumsum w).map (· / w.sum)) u) with h0 | h0
      · exact Or.inl h0
      · right
        have := List.not_of_lt_findIdx (p := fun x => decide (u ≤ x))
          (xs := (cumsum w).map (· / w.sum)) (i := searchsorted ((cumsum w).map (· / w.sum)) u - 1)
          (by unfold searchsorted at h0 ⊢; omega)
        rw [hget] at this
        have e : searchsorted ((cumsum w).map (· / w.sum)) u - 1 + 1 =
          searchsorted ((cumsum w).map (· / w.sum)) u := by omega
        rw [e] at this
        simpa using this
    · have := List.findIdx_getElem (p := fun x => decide (u ≤ x)) (w := hlt)
      have h2 := hget _ hlt
      unfold searchsorted at h2 ⊢
      rw [h2] at this
      simpa using this
  · rintro ⟨hj, hlo, hhi⟩
    unfold searchsorted
    rw [List.findIdx_eq (by omega)]
    rw [hget]
    refine ⟨by simpa using hhi, ?_⟩
    intro k hk
    rw [hget]
    rcases hlo with rfl | hlo
    · omega
    · have := cum_mono h (show k+1 ≤ j by omega)
      simp; linarith

theorem stratGrid_length (n : ℕ) (r : ℝ) : (stratGrid n r).length = n := by simp [stratGrid]

theorem stratGrid_le_one' {n : ℕ} {r : ℝ} (hr : r ≤ 1) : ∀ u ∈ stratGrid n r, u ≤ 1 := by
  intro u hu
  simp only [stratGrid, List.mem_map, List.mem_range] at hu
  obtain ⟨i, hi, rfl⟩ := hu
  have hn : (0:ℝ) < n := by exact_mod_cast (by omega : 0 < n)
  rw [div_le_one hn]
  have : (i:ℝ) + 1 ≤ n := by exact_mod_cast hi
  linarith

theorem stratGrid_le_one {n : ℕ} {r : ℝ} (hr : Unit01 r) : ∀ u ∈ stratGrid n r, u ≤ 1 :=
  stratGrid_le_one' hr.2.le

/-- Number of naturals below `n` not above `y`. -/
theorem countP_le_bounds (n : ℕ) (y : ℝ) (hy : -1 ≤ y) (hn : y ≤ n) :
    y ≤ ((List.range n).countP fun i : ℕ => decide ((i:ℝ) ≤ y)) ∧
    (((List.range n).countP fun i : ℕ => decide ((i:ℝ) ≤ y) : ℕ) : ℝ) ≤ y + 1 ∧
    (y < n → y < ((List.range n).countP fun i : ℕ => decide ((i:ℝ) ≤ y))) := by
  have key : ∀ n : ℕ, (List.range n).countP (fun i : ℕ => decide ((i:ℝ) ≤ y)) =
      if y < 0 then 0 else min n (⌊y⌋₊ + 1) := by
    intro n
    induction n with
    | zero => simp
    | succ n ih =>
      rw [List.range_succ, List.countP_append, ih]
      by_cases h0 : y < 0
      · have : ¬ ((n:ℝ) ≤ y) := by have : (0:ℝ) ≤ n := Nat.cast_nonneg n; linarith
        simp [h0, this]
      · push Not at h0
        have : (n:ℝ) ≤ y ↔ n ≤ ⌊y⌋₊ := by rw [Nat.le_floor_iff h0]
        simp only [not_lt.mpr h0, if_false, List.countP_singleton, decide_eq_true_eq, this]
        split <;> omega
  rw [key]
  by_cases h0 : y < 0
  · simp [h0]; constructor <;> linarith
  · push Not at h0
    have hf := Nat.floor_le h0
    have hf2 := Nat.lt_floor_add_one y
    simp only [not_lt.mpr h0, if_false, Nat.cast_min, Nat.cast_add, Nat.cast_one]
    refine ⟨le_min hn hf2.le, (min_le_right _ _).trans (by linarith), fun h => lt_min h hf2⟩

theorem countP_sub {α : Type*} (l : List α) (p q : α → Bool) (h : ∀ a ∈ l, p a = true → q a = true) :
    (l.countP fun a => q a && !p a) + l.countP p = l.countP q := by
  induction l with
  | nil => simp
  | cons a l ih =>
    have ih := ih (fun b hb => h b (List.mem_cons_of_mem _ hb))
    have ha := h a (by simp)
    simp only [List.countP_cons]
    cases hp : p a <;> cases hq : q a <;> simp_all <;> omega

end PyPE

import Verif.Rounding.Binary
import Verif.Rounding.Exact
import Verif.Filter.Toy

/-!
# C105: double precision
-/

namespace PyPE
open Spec

variable {P U Y V Ω : Type}

/-- The double precision numbers (without a largest exponent), rounding to nearest, ties to even. -/
noncomputable def doubleArith : Arith := binArith 53 (-1074)

/-- **C105.** Double precision arithmetic meets the assumptions of the theorems, for up to `2^53` particles, with relative error `2^-53` and underflow error `2^-1075`. -/
theorem C105_double : Rounded doubleArith (2 ^ 53) ∧ Accurate doubleArith (2 ^ (-53 : ℤ)) (2 ^ (-1075 : ℤ)) := by
  refine ⟨C105_binary_rounded (by norm_num) (by norm_num), ?_⟩
  have h := C105_binary_accurate (p := 53) (emin := -1074) (by norm_num)
  norm_num at h ⊢
  exact h

theorem double_exp_zero {x : ℝ} (h : x ≤ -746) : doubleArith.exp x = 0 := by
  show roundBin 53 (-1074) (Real.exp x) = 0
  refine roundBin_tiny (by norm_num) (Real.exp_pos x) ?_
  have h2 : (2:ℝ) ^ ((-1074:ℤ) - 1) = Real.exp (-1075 * Real.log 2) := by
    rw [show ((-1074:ℤ) - 1) = -((1075:ℕ):ℤ) by norm_num, zpow_neg, zpow_natCast, ← Real.exp_log (show (0:ℝ) < 2 ^ 1075 by positivity), ← Real.exp_neg, Real.log_pow]
    push_cast
    ring_nf
  rw [h2, Real.exp_le_exp]
  have := Real.log_two_lt_d9
  linarith

/-- **C105.** (Defect.) In double precision the sampling that CSIRAS does from its unscaled weights ignores them when they are all below -746: every draw is particle 0. -/
theorem C105_double_underflow {w : List ℝ} (hne : w ≠ []) (h : ∀ x ∈ w, x ≤ -746) (n : ℕ) (r : ℝ) :
    flExpSample doubleArith w n r = .ok (List.replicate n 0) :=
  C105_underflow C105_double.1 hne (fun x hx => double_exp_zero (h x hx)) n r

/-- The exact weights of these particles are 1/1001 and 1000/1001: for nearly every draw exact arithmetic takes particle 1, double precision always takes particle 0. -/
example {r : ℝ} (h0 : 0.001 < r) (h1 : r ≤ 1) : flExpSample doubleArith [-1000, -1000 + Real.log 1000] 1 r = .ok [0] ∧
    sample (expNormalised [-1000, -1000 + Real.log 1000]) 1 r = .ok [1] := by
  have hlog : Real.log 1000 ≤ 254 := by
    have := Real.log_le_sub_one_of_pos (show (0:ℝ) < 1000 / 2 ^ 2 by norm_num)
    have h2 : Real.log 1000 = Real.log (1000 / 2 ^ 2) + 2 * Real.log 2 := by
      rw [Real.log_div (by norm_num) (by norm_num), Real.log_pow]; push_cast; ring
    have := Real.log_two_lt_d9
    rw [h2]
    norm_num at *
    linarith
  refine ⟨C105_double_underflow (by simp) (by intro x hx; simp at hx; rcases hx with rfl | rfl <;> linarith) 1 r, ?_⟩
  have e1 : Real.exp (-1000 + Real.log 1000) = Real.exp (-1000) * 1000 := by rw [Real.exp_add, Real.exp_log (by norm_num)]
  have hp := Real.exp_pos (-1000)
  have ev : expNormalised [-1000, -1000 + Real.log 1000] = [1 / 1001, 1000 / 1001] := by
    unfold expNormalised
    simp only [List.map_cons, List.map_nil, List.sum_cons, List.sum_nil, e1]
    congr 1
    · field_simp; norm_num; ring
    · congr 1
      field_simp; norm_num; ring
  rw [ev]
  unfold sample
  have ec : cumsum [1 / 1001, 1000 / 1001] = [1 / 1001, 1] := by
    simp only [cumsum, List.length_cons, List.length_nil, List.range_succ, List.range_zero, List.nil_append, List.cons_append, List.map_cons, List.map_nil]
    norm_num
  have hl : getLast ([1 / 1001, 1] : List ℝ) = .ok 1 := rfl
  simp only [ec, hl, ok_bind, one_ne_zero, if_false, div_one, List.map_id', pure_eq_ok]
  congr 1
  have hn : ¬ (r ≤ (1001:ℝ)⁻¹) := by
    rw [not_le]; refine lt_trans ?_ h0; norm_num
  simp [stratGrid, searchsorted, List.findIdx_cons, hn, h1]

/-- **C105.** Copies of a particle in double precision: for up to a million weights and draws, at most 1.01 away from the expected number. -/
theorem C105_double_count {w : List ℝ} (hw : FlWeights doubleArith w) (hp : ∃ x ∈ w, 0 < x) (hl : w.length ≤ 10 ^ 6) {n : ℕ} (hn : n ≤ 10 ^ 6) {r : ℝ} (hr : Unit01 r)
    (hrr : doubleArith.fl r = r) : ∃ idx, flSample doubleArith w n r = .ok idx ∧ ∀ j, |(idx.count j : ℝ) - n * prob w j| ≤ 1.01 := by
  obtain ⟨hA, hE⟩ := C105_double
  have hn' : n ≤ 2 ^ 53 := hn.trans (by norm_num)
  obtain ⟨idx, i1, -⟩ := C105_sample_valid hA hw hp hn' hr
  refine ⟨idx, i1, fun j => (C105_sample_count hA hE hw hp hn' hr hrr i1 j).trans ?_⟩
  obtain ⟨e, he⟩ : ∃ e : ℝ, e = 2 ^ (-53 : ℤ) := ⟨_, rfl⟩
  obtain ⟨t, ht⟩ : ∃ t : ℝ, t = 2 ^ (-1075 : ℤ) := ⟨_, rfl⟩
  have e0 : 0 < e := by rw [he]; exact two_zpow_pos _
  have t0 : 0 < t := by rw [ht]; exact two_zpow_pos _
  have te : t ≤ e := by rw [he, ht]; exact zpow_le_zpow_right₀ (by norm_num) (by norm_num)
  have e1 : e ≤ 1.2e-16 := by rw [he]; norm_num
  rw [← he, ← ht]
  have hnR : (n:ℝ) ≤ 1000000 := by exact_mod_cast hn
  have hlR : (w.length:ℝ) ≤ 1000000 := by exact_mod_cast hl
  have h1e : 0 < 1 - e := by linarith
  have hg : flGrowth e w.length ≤ 1 + 6 * e * 1000000 := by
    unfold flGrowth
    have hb : (1 + e) / (1 - e) ≤ Real.exp (3 * e) := by
      refine le_trans ?_ (Real.add_one_le_exp (3 * e))
      rw [div_le_iff₀ h1e]
      nlinarith
    have hb0 : 0 ≤ (1 + e) / (1 - e) := div_nonneg (by linarith) h1e.le
    have h2 := pow_le_pow_left₀ hb0 hb w.length
    rw [← Real.exp_nat_mul] at h2
    have h3 : (w.length:ℝ) * (3 * e) ≤ 1000000 * (3 * e) := mul_le_mul_of_nonneg_right hlR (by linarith)
    have h4 := Real.exp_le_exp.mpr h3
    have h5 := Real.abs_exp_sub_one_le (x := 1000000 * (3 * e)) (by rw [abs_of_nonneg (by linarith)]; linarith)
    rw [abs_of_nonneg (show 0 ≤ 1000000 * (3 * e) by linarith)] at h5
    have h6 := (abs_le.mp h5).2
    linarith
  have hs : 2 * (flGrowth e w.length - 1 + e + t) + 2 * (2 * e + t) ≤ 1e-8 := by linarith
  have hs0 : (n:ℝ) * (2 * (flGrowth e w.length - 1 + e + t) + 2 * (2 * e + t)) ≤ n * 1e-8 := mul_le_mul_of_nonneg_left hs (Nat.cast_nonneg n)
  linarith

/-- Weights in the proportion 2 : 1 : 0. -/
example : FlWeights doubleArith [1, 1 / 2, 0] := by
  intro x hx
  simp only [List.mem_cons, List.not_mem_nil, or_false] at hx
  rcases hx with rfl | rfl | rfl
  · exact ⟨by norm_num, fl_one C105_double.1⟩
  · exact ⟨by norm_num, roundBin_half (by norm_num) (by norm_num)⟩
  · exact ⟨le_rfl, fl_zero C105_double.1⟩

/-- Every run of the toy model in double precision: five particles, a reference of length two. -/
example {k : FilterKind} {F : FilterOps ℝ ℝ ℝ (List ℝ) ℝ} (hF : flOps doubleArith toy (2/3) toyRef k = some F) {s0 : PT ℝ ℝ ℝ} (h0 : PT.init 5 none 0 = .ok s0) :
    ∃ s bs, s0.run F toyOps = (s, .ok bs) ∧ s.traj.length = 2 ∧ ∀ t st, s.traj[t]? = some st → FlStep k toyRef 5 t st := by
  obtain ⟨s, bs, h1, h2, h3⟩ := C105_filter_runs C105_double.1 (toy_full 5) (by norm_num) (by norm_num) (2/3) hF h0 toyOps toyOps_ok' (fun _ => by rw [toyOps_len]; exact toyRef_state)
  rw [toyOps_len] at h2
  exact ⟨s, bs, h1, h2, h3⟩

example : (∀ k ∈ [FilterKind.pf, .sir, .cpf, .cpfas, .csiras], ∃ F, flOps doubleArith toy (2/3) toyRef k = some F) ∧ ∃ s0 : PT ℝ ℝ ℝ, PT.init 5 none 0 = .ok s0 :=
  ⟨by simp [flOps], _, rfl⟩

end PyPE

import Verif.Rounding.Filter
import Mathlib.Data.Int.Log
import Mathlib.Analysis.SpecialFunctions.Log.Basic
import Mathlib.Analysis.Complex.ExponentialBounds

/-!
# Binary floating point meets the assumptions of C105

Precision `p`, least exponent `emin` (gradual underflow), unbounded largest exponent, rounding to nearest with ties to even; `p = 53`, `emin = -1074` are
the double precision numbers.
-/

namespace PyPE
open Spec

variable {p : ℕ} {emin : ℤ}

/-- The exponent of the last digit of the numbers of the size of `x`. -/
noncomputable def lastDigit (p : ℕ) (emin : ℤ) (x : ℝ) : ℤ := max (Int.log 2 x - (p - 1)) emin

/-- The nearest integer, ties to even. -/
noncomputable def nearestEven (t : ℝ) : ℤ :=
  if Int.fract t < 1 / 2 then ⌊t⌋ else if 1 / 2 < Int.fract t then ⌊t⌋ + 1 else if Even ⌊t⌋ then ⌊t⌋ else ⌊t⌋ + 1

theorem nearestEven_int (m : ℤ) : nearestEven m = m := by
  unfold nearestEven
  rw [if_pos (by rw [Int.fract_intCast]; norm_num), Int.floor_intCast]

theorem nearestEven_ge (t : ℝ) : ⌊t⌋ ≤ nearestEven t := by
  unfold nearestEven
  split_ifs <;> omega

theorem nearestEven_le (t : ℝ) : nearestEven t ≤ ⌊t⌋ + 1 := by
  unfold nearestEven
  split_ifs <;> omega

theorem nearestEven_mono {s t : ℝ} (h : s ≤ t) : nearestEven s ≤ nearestEven t := by
  rcases (Int.floor_mono h).lt_or_eq with hl | he
  · have h1 := nearestEven_le s
    have h2 := nearestEven_ge t
    omega
  · have hf : Int.fract s ≤ Int.fract t := by
      unfold Int.fract
      rw [he]
      linarith
    unfold nearestEven
    rw [he]
    split_ifs <;> first | omega | (exfalso; linarith)

theorem nearestEven_error (t : ℝ) : |(nearestEven t : ℝ) - t| ≤ 1 / 2 := by
  have h1 : t = ⌊t⌋ + Int.fract t := (Int.floor_add_fract t).symm
  have h2 := Int.fract_nonneg t
  have h3 := Int.fract_lt_one t
  unfold nearestEven
  rw [abs_le]
  split_ifs <;> push_cast <;> constructor <;> linarith

theorem nearestEven_le_of {t : ℝ} {m : ℤ} (h : t ≤ m) : nearestEven t ≤ m := by
  have := nearestEven_mono h
  rwa [nearestEven_int] at this

theorem nearestEven_ge_of {t : ℝ} {m : ℤ} (h : (m:ℝ) ≤ t) : m ≤ nearestEven t := by
  have := nearestEven_mono h
  rwa [nearestEven_int] at this

/-- Rounding of a non-negative number. -/
noncomputable def roundPos (p : ℕ) (emin : ℤ) (x : ℝ) : ℝ := (nearestEven (x / 2 ^ lastDigit p emin x) : ℤ) * (2:ℝ) ^ lastDigit p emin x

/-- Rounding. -/
noncomputable def roundBin (p : ℕ) (emin : ℤ) (x : ℝ) : ℝ := if 0 ≤ x then roundPos p emin x else -roundPos p emin (-x)

theorem two_zpow_pos (e : ℤ) : (0:ℝ) < 2 ^ e := zpow_pos two_pos e

/-- Multiples of the last digit are not changed. -/
theorem roundPos_of_mult {x : ℝ} {m : ℤ} (h : x = m * (2:ℝ) ^ lastDigit p emin x) : roundPos p emin x = x := by
  have h2 : x / 2 ^ lastDigit p emin x = m := by rw [div_eq_iff (two_zpow_pos _).ne']; exact h
  unfold roundPos
  rw [h2, nearestEven_int]
  exact h.symm

theorem zpow_mult {a b : ℤ} (h : a ≤ b) : ∃ m : ℤ, (2:ℝ) ^ b = m * (2:ℝ) ^ a ∧ 0 < m := by
  obtain ⟨c, rfl⟩ := Int.le.dest h
  refine ⟨2 ^ c, ?_, by positivity⟩
  rw [zpow_add₀ two_ne_zero, zpow_natCast]
  push_cast
  ring

theorem log_bounds {x : ℝ} (hx : 0 < x) : (2:ℝ) ^ Int.log 2 x ≤ x ∧ x < (2:ℝ) ^ (Int.log 2 x + 1) :=
  ⟨by have := Int.zpow_log_le_self (b := 2) (by norm_num) hx; exact_mod_cast this,
   by have := Int.lt_zpow_succ_log_self (b := 2) (by norm_num) x; exact_mod_cast this⟩

theorem log_lt_of {x : ℝ} (hx : 0 < x) {k : ℤ} (h : x < (2:ℝ) ^ k) : Int.log 2 x < k := by
  by_contra hn
  have h1 := (log_bounds hx).1
  have h2 : (2:ℝ) ^ k ≤ 2 ^ Int.log 2 x := zpow_le_zpow_right₀ (by norm_num) (not_lt.mp hn)
  linarith

theorem roundPos_of_le {x : ℝ} {m e : ℤ} (h : x = m * (2:ℝ) ^ e) (hd : lastDigit p emin x ≤ e) : roundPos p emin x = x := by
  obtain ⟨c, hc, -⟩ := zpow_mult hd
  refine roundPos_of_mult (m := m * c) ?_
  rw [hc] at h
  push_cast
  rw [mul_assoc]
  exact h

/-- Numbers `m·2^e` with at most `p` binary digits are not changed. -/
theorem roundPos_fixed (hp : 1 ≤ p) {m : ℕ} (hm : m ≤ 2 ^ p) {e : ℤ} (he : emin ≤ e) : roundPos p emin (m * (2:ℝ) ^ e) = m * (2:ℝ) ^ e := by
  rcases Nat.eq_zero_or_pos m with rfl | hm0
  · refine roundPos_of_mult (m := 0) ?_
    simp
  have hx : 0 < (m:ℝ) * 2 ^ e := mul_pos (by exact_mod_cast hm0) (two_zpow_pos e)
  rcases Nat.lt_or_ge m (2 ^ p) with hlt | hge
  · have hlog : Int.log 2 ((m:ℝ) * 2 ^ e) < p + e := by
      apply log_lt_of hx
      rw [zpow_add₀ two_ne_zero, zpow_natCast]
      exact mul_lt_mul_of_pos_right (by exact_mod_cast hlt) (two_zpow_pos e)
    exact roundPos_of_le (m := m) (e := e) (by push_cast; rfl) (max_le (by omega) he)
  · have hm2 : m = 2 ^ p := le_antisymm hm hge
    have hval : (m:ℝ) * 2 ^ e = ((2 ^ (p - 1) : ℕ) : ℤ) * (2:ℝ) ^ (e + 1) := by
      rw [hm2, zpow_add₀ two_ne_zero, zpow_one]
      obtain ⟨q, rfl⟩ : ∃ q, p = q + 1 := ⟨p - 1, by omega⟩
      rw [Nat.add_sub_cancel]
      push_cast
      rw [pow_succ]; ring
    have hlog : Int.log 2 ((m:ℝ) * 2 ^ e) < p + e + 1 := by
      apply log_lt_of hx
      rw [hm2, add_assoc, zpow_add₀ two_ne_zero, zpow_natCast, zpow_add₀ two_ne_zero, zpow_one]
      push_cast
      have := mul_pos (pow_pos (two_pos (α := ℝ)) p) (two_zpow_pos e)
      nlinarith
    exact roundPos_of_le hval (max_le (by omega) (by omega))

theorem roundPos_zero : roundPos p emin 0 = 0 := roundPos_of_mult (m := 0) (by simp)

theorem roundPos_nonneg {x : ℝ} (hx : 0 ≤ x) : 0 ≤ roundPos p emin x := by
  refine mul_nonneg ?_ (two_zpow_pos _).le
  have : 0 ≤ nearestEven (x / 2 ^ lastDigit p emin x) := nearestEven_ge_of (by rw [Int.cast_zero]; exact div_nonneg hx (two_zpow_pos _).le)
  exact_mod_cast this

/-- The result has at most `p` digits. -/
theorem roundPos_form {x : ℝ} (hx : 0 ≤ x) : ∃ m : ℕ, m ≤ 2 ^ p ∧ ∃ e, emin ≤ e ∧ e = lastDigit p emin x ∧ roundPos p emin x = m * (2:ℝ) ^ e := by
  have hfl : 0 ≤ nearestEven (x / 2 ^ lastDigit p emin x) := nearestEven_ge_of (by rw [Int.cast_zero]; exact div_nonneg hx (two_zpow_pos _).le)
  obtain ⟨m, hm⟩ := Int.eq_ofNat_of_zero_le hfl
  refine ⟨m, ?_, lastDigit p emin x, le_max_right _ _, rfl, by unfold roundPos; rw [hm]; rfl⟩
  rcases hx.lt_or_eq with h0 | h0
  · have h1 := (log_bounds h0).2
    have h2 : (2:ℝ) ^ (Int.log 2 x + 1) ≤ 2 ^ ((p:ℤ) + lastDigit p emin x) :=
      zpow_le_zpow_right₀ (by norm_num) (by have := le_max_left (Int.log 2 x - ((p:ℤ) - 1)) emin; unfold lastDigit; omega)
    have h2' : (2:ℝ) ^ ((p:ℤ) + lastDigit p emin x) = 2 ^ p * 2 ^ lastDigit p emin x := by rw [zpow_add₀ two_ne_zero, zpow_natCast]
    have h3 : x / 2 ^ lastDigit p emin x ≤ ((2 ^ p : ℤ) : ℝ) := by
      rw [div_le_iff₀ (two_zpow_pos _)]
      push_cast
      linarith
    have h4 := nearestEven_le_of h3
    rw [hm] at h4
    exact_mod_cast h4
  · have : nearestEven (x / 2 ^ lastDigit p emin x) = 0 := by rw [← h0, zero_div]; exact_mod_cast nearestEven_int 0
    rw [this] at hm
    have : m = 0 := by simpa using hm.symm
    rw [this]; exact Nat.zero_le _

theorem roundPos_idem (hp : 1 ≤ p) {x : ℝ} (hx : 0 ≤ x) : roundPos p emin (roundPos p emin x) = roundPos p emin x := by
  obtain ⟨m, hm, e, he, -, hr⟩ := roundPos_form (p := p) (emin := emin) hx
  rw [hr, roundPos_fixed hp hm he]

theorem roundPos_mono (hp : 1 ≤ p) {x y : ℝ} (hx : 0 ≤ x) (hxy : x ≤ y) : roundPos p emin x ≤ roundPos p emin y := by
  rcases hx.lt_or_eq with h0 | h0
  swap
  · rw [← h0, roundPos_zero]; exact roundPos_nonneg (hx.trans hxy)
  have hy0 : 0 < y := lt_of_lt_of_le h0 hxy
  have hlog : Int.log 2 x ≤ Int.log 2 y := Int.log_mono_right h0 hxy
  have hld : lastDigit p emin x ≤ lastDigit p emin y := max_le_max (by omega) (le_refl _)
  rcases hld.lt_or_eq with hlt | heq
  · have hy : lastDigit p emin y = Int.log 2 y - (p - 1) := by
      rcases max_choice (Int.log 2 y - ((p:ℤ) - 1)) emin with h | h
      · exact h
      · exfalso
        have h1 : lastDigit p emin y = emin := h
        have h2 : emin ≤ lastDigit p emin x := le_max_right _ _
        omega
    have hx' : Int.log 2 x - ((p:ℤ) - 1) ≤ lastDigit p emin x := le_max_left _ _
    have hle : x ≤ (2:ℝ) ^ Int.log 2 y := by
      refine ((log_bounds h0).2.le).trans (zpow_le_zpow_right₀ (by norm_num) (by omega))
    obtain ⟨c, hc, -⟩ := zpow_mult (a := lastDigit p emin x) (b := Int.log 2 y) (by omega)
    have h1 : roundPos p emin x ≤ 2 ^ Int.log 2 y := by
      unfold roundPos
      rw [hc]
      refine mul_le_mul_of_nonneg_right ?_ (two_zpow_pos _).le
      have := nearestEven_le_of (t := x / 2 ^ lastDigit p emin x) (m := c) (by rw [div_le_iff₀ (two_zpow_pos _), ← hc]; exact hle)
      exact_mod_cast this
    obtain ⟨d, hd, -⟩ := zpow_mult (a := lastDigit p emin y) (b := Int.log 2 y) (by omega)
    have h2 : (2:ℝ) ^ Int.log 2 y ≤ roundPos p emin y := by
      unfold roundPos
      rw [hd]
      refine mul_le_mul_of_nonneg_right ?_ (two_zpow_pos _).le
      have := nearestEven_ge_of (t := y / 2 ^ lastDigit p emin y) (m := d) (by rw [le_div_iff₀ (two_zpow_pos _), ← hd]; exact (log_bounds hy0).1)
      exact_mod_cast this
    exact h1.trans h2
  · unfold roundPos
    rw [heq]
    refine mul_le_mul_of_nonneg_right ?_ (two_zpow_pos _).le
    exact_mod_cast nearestEven_mono (div_le_div_of_nonneg_right hxy (two_zpow_pos _).le)

/-- The error is at most half a unit in the last place. -/
theorem roundPos_error {x : ℝ} : |roundPos p emin x - x| ≤ 2 ^ lastDigit p emin x / 2 := by
  have h := nearestEven_error (x / 2 ^ lastDigit p emin x)
  have h2 : roundPos p emin x - x = (nearestEven (x / 2 ^ lastDigit p emin x) - x / 2 ^ lastDigit p emin x) * 2 ^ lastDigit p emin x := by
    unfold roundPos
    rw [sub_mul, div_mul_cancel₀ _ (two_zpow_pos _).ne']
  rw [h2, abs_mul, abs_of_pos (two_zpow_pos _)]
  nlinarith [two_zpow_pos (lastDigit p emin x)]

theorem roundPos_relative {x : ℝ} (hx : 0 < x) (h : lastDigit p emin x = Int.log 2 x - (p - 1)) : |roundPos p emin x - x| ≤ 2 ^ (-(p:ℤ)) * x := by
  refine roundPos_error.trans ?_
  rw [h]
  have h1 := (log_bounds hx).1
  have h2 : (2:ℝ) ^ (Int.log 2 x - ((p:ℤ) - 1)) / 2 = 2 ^ (-(p:ℤ)) * 2 ^ Int.log 2 x := by
    rw [← zpow_add₀ two_ne_zero, div_eq_mul_inv, ← zpow_neg_one, ← zpow_add₀ two_ne_zero]
    congr 1
    ring
  rw [h2]
  exact mul_le_mul_of_nonneg_left h1 (two_zpow_pos _).le

theorem roundBin_pos {x : ℝ} (h : 0 ≤ x) : roundBin p emin x = roundPos p emin x := if_pos h

theorem roundBin_neg (x : ℝ) : roundBin p emin (-x) = -roundBin p emin x := by
  rcases lt_trichotomy x 0 with h | rfl | h
  · unfold roundBin
    rw [if_pos (by linarith), if_neg (by linarith), neg_neg]
  · rw [neg_zero, roundBin_pos le_rfl, roundPos_zero, neg_zero]
  · unfold roundBin
    rw [if_neg (by linarith), if_pos h.le, neg_neg]

theorem roundBin_mono (hp : 1 ≤ p) : Monotone (roundBin p emin) := by
  intro x y h
  rcases le_or_gt 0 x with hx | hx
  · rw [roundBin_pos hx, roundBin_pos (hx.trans h)]; exact roundPos_mono hp hx h
  · have hx2 : roundBin p emin x = -roundPos p emin (-x) := if_neg (by linarith)
    rcases le_or_gt 0 y with hy | hy
    · rw [hx2, roundBin_pos hy]
      have h1 := roundPos_nonneg (p := p) (emin := emin) (x := -x) (by linarith)
      have h2 := roundPos_nonneg (p := p) (emin := emin) hy
      linarith
    · have hy2 : roundBin p emin y = -roundPos p emin (-y) := if_neg (by linarith)
      rw [hx2, hy2]
      exact neg_le_neg (roundPos_mono hp (by linarith) (by linarith))

theorem roundBin_idem (hp : 1 ≤ p) (x : ℝ) : roundBin p emin (roundBin p emin x) = roundBin p emin x := by
  have key : ∀ z : ℝ, 0 ≤ z → roundBin p emin (roundBin p emin z) = roundBin p emin z := fun z hz => by
    rw [roundBin_pos hz, roundBin_pos (roundPos_nonneg hz), roundPos_idem hp hz]
  rcases le_or_gt 0 x with hx | hx
  · exact key x hx
  · have := key (-x) (by linarith)
    rw [roundBin_neg, roundBin_neg] at this
    linarith

/-- Numbers with at most `p` digits are representable. -/
theorem roundBin_fixed (hp : 1 ≤ p) {m : ℕ} (hm : m ≤ 2 ^ p) {e : ℤ} (he : emin ≤ e) : roundBin p emin (m * (2:ℝ) ^ e) = m * (2:ℝ) ^ e := by
  rw [roundBin_pos (mul_nonneg (Nat.cast_nonneg m) (two_zpow_pos e).le), roundPos_fixed hp hm he]

theorem roundBin_nat (hp : 1 ≤ p) (he : emin ≤ 0) {n : ℕ} (hn : n ≤ 2 ^ p) : roundBin p emin n = n := by
  have := roundBin_fixed (emin := emin) hp hn he
  simpa using this

theorem roundBin_half (hp : 1 ≤ p) (he : emin ≤ -1) : roundBin p emin (1 / 2) = 1 / 2 := by
  have h := roundBin_fixed (p := p) (emin := emin) hp (m := 1) (Nat.one_le_two_pow) he
  have : ((1:ℕ):ℝ) * 2 ^ (-1:ℤ) = 1 / 2 := by norm_num
  rwa [this] at h

/-- What is at most half the least positive number becomes 0. -/
theorem roundBin_tiny {x : ℝ} (hp : 1 ≤ p) (hx : 0 < x) (h : x ≤ 2 ^ (emin - 1)) : roundBin p emin x = 0 := by
  have hlog : Int.log 2 x < emin := by
    apply log_lt_of hx
    exact lt_of_le_of_lt h (zpow_lt_zpow_right₀ (by norm_num) (by omega))
  have hld : lastDigit p emin x = emin := max_eq_right (by omega)
  rw [roundBin_pos hx.le]
  unfold roundPos
  rw [hld]
  have h2 : x / 2 ^ emin ≤ 1 / 2 := by
    rw [div_le_iff₀ (two_zpow_pos _)]
    rw [zpow_sub₀ two_ne_zero, zpow_one] at h
    linarith
  have h3 : 0 < x / 2 ^ emin := div_pos hx (two_zpow_pos _)
  have hfl : ⌊x / (2:ℝ) ^ emin⌋ = 0 := by rw [Int.floor_eq_iff]; constructor <;> push_cast <;> linarith
  have hn : nearestEven (x / 2 ^ emin) = 0 := by
    unfold nearestEven
    have hfr : Int.fract (x / (2:ℝ) ^ emin) = x / 2 ^ emin := by unfold Int.fract; rw [hfl]; simp
    rw [hfl, hfr]
    rw [if_neg (not_lt.mpr h2)]
    simp
  rw [hn]; simp

/-- Binary floating-point arithmetic with precision `p` and least exponent `emin`: `exp` and `log` correctly rounded, sums in order. -/
noncomputable def binArith (p : ℕ) (emin : ℤ) : Arith :=
  { fl := roundBin p emin
    exp := fun x => roundBin p emin (Real.exp x)
    log := fun x => roundBin p emin (Real.log x)
    sum := fun l => match l with
      | [] => 0
      | x :: xs => xs.foldl (fun c y => roundBin p emin (c + y)) x }

theorem foldl_flSum (fl : ℝ → ℝ) (x : ℝ) (xs : List ℝ) : FlSum fl (x :: xs) (xs.foldl (fun c y => fl (c + y)) x) := by
  induction xs using List.reverseRecOn with
  | nil => exact .one x
  | append_singleton l a ih =>
    rw [List.foldl_append]
    exact .add ih (.one a) (by simp)

/-- **C105.** Binary floating point with at least one digit and `2^-p` representable meets the assumptions, for up to `2^p` particles. -/
theorem C105_binary_rounded (hp : 1 ≤ p) (he : emin ≤ -p) : Rounded (binArith p emin) (2 ^ p) := by
  have he0 : emin ≤ 0 := by omega
  refine ⟨roundBin_mono hp, roundBin_idem hp, fun n hn => roundBin_nat hp he0 hn, ?_, ?_, ?_, ?_, ?_, ?_, Nat.one_le_two_pow⟩
  · intro n hn hn2
    have h1 : roundBin p emin (((1:ℕ):ℝ) * 2 ^ emin) = ((1:ℕ):ℝ) * 2 ^ emin := roundBin_fixed hp Nat.one_le_two_pow le_rfl
    have h2 : ((1:ℕ):ℝ) * 2 ^ emin ≤ 1 / n := by
      rw [Nat.cast_one, one_mul, le_div_iff₀ (by exact_mod_cast hn)]
      have h3 : (2:ℝ) ^ emin ≤ 2 ^ (-(p:ℤ)) := zpow_le_zpow_right₀ (by norm_num) he
      have h4 : (n:ℝ) ≤ 2 ^ p := by exact_mod_cast hn2
      calc (2:ℝ) ^ emin * n ≤ 2 ^ (-(p:ℤ)) * 2 ^ p := mul_le_mul h3 h4 (Nat.cast_nonneg n) (two_zpow_pos _).le
        _ = 1 := by rw [zpow_neg, zpow_natCast]; exact inv_mul_cancel₀ (by positivity)
    have h5 := roundBin_mono (emin := emin) hp h2
    rw [h1] at h5
    refine lt_of_lt_of_le ?_ h5
    rw [Nat.cast_one, one_mul]; exact two_zpow_pos _
  · show roundBin p emin (Real.exp 0) = 1
    rw [Real.exp_zero]
    exact_mod_cast roundBin_nat hp he0 (n := 1) Nat.one_le_two_pow
  · intro x
    show 0 ≤ roundBin p emin (Real.exp x)
    rw [roundBin_pos (Real.exp_pos x).le]
    exact roundPos_nonneg (Real.exp_pos x).le
  · intro x hx
    have h1 := roundBin_mono (p := p) (emin := emin) hp (Real.exp_le_one_iff.mpr hx)
    have h2 : roundBin p emin ((1:ℕ):ℝ) = ((1:ℕ):ℝ) := roundBin_nat hp he0 Nat.one_le_two_pow
    rw [Nat.cast_one] at h2
    rw [h2] at h1
    exact h1
  · intro x
    exact roundBin_idem hp _
  · intro l hl
    obtain ⟨x, xs, rfl⟩ := List.exists_cons_of_ne_nil hl
    exact foldl_flSum _ x xs

/-- **C105.** Its accuracy: half a unit in the last place, `2^-p`, and half the least positive number. -/
theorem C105_binary_accurate (hp : 1 ≤ p) : Accurate (binArith p emin) (2 ^ (-(p:ℤ))) (2 ^ (emin - 1)) := by
  have hcase : ∀ x : ℝ, lastDigit p emin x = Int.log 2 x - (p - 1) ∨ lastDigit p emin x = emin := fun x => max_choice _ _
  refine ⟨⟨(two_zpow_pos _).le, ?_⟩, (two_zpow_pos _).le, ?_, ?_⟩
  · exact zpow_lt_one_of_neg₀ (by norm_num) (by omega)
  · intro x y hx hy fx fy
    change roundBin p emin x = x at fx
    change roundBin p emin y = y at fy
    show |roundBin p emin (x + y) - (x + y)| ≤ _
    rw [roundBin_pos hx] at fx
    rw [roundBin_pos hy] at fy
    rw [roundBin_pos (add_nonneg hx hy)]
    rcases (add_nonneg hx hy).lt_or_eq with h0 | h0
    swap
    · rw [← h0, roundPos_zero]; simp
    rcases hcase (x + y) with h | h
    · exact roundPos_relative h0 h
    · obtain ⟨m, -, e, he, -, hm⟩ := roundPos_form (p := p) (emin := emin) hx
      obtain ⟨n, -, d, hd, -, hn⟩ := roundPos_form (p := p) (emin := emin) hy
      rw [fx] at hm
      rw [fy] at hn
      obtain ⟨a, ha, -⟩ := zpow_mult he
      obtain ⟨b, hb, -⟩ := zpow_mult hd
      have hexact : roundPos p emin (x + y) = x + y := by
        refine roundPos_of_mult (m := m * a + n * b) ?_
        rw [h]
        push_cast
        rw [add_mul, mul_assoc, mul_assoc, ← ha, ← hb, ← hm, ← hn]
      rw [hexact, sub_self, abs_zero]
      exact mul_nonneg (two_zpow_pos _).le h0.le
  · intro x hx _
    show |roundBin p emin x - x| ≤ _
    rw [roundBin_pos hx]
    rcases hx.lt_or_eq with h0 | h0
    swap
    · rw [← h0, roundPos_zero]; simp [(two_zpow_pos (emin - 1)).le]
    rcases hcase x with h | h
    · exact (roundPos_relative h0 h).trans (by linarith [two_zpow_pos (emin - 1)])
    · refine roundPos_error.trans ?_
      rw [h, zpow_sub₀ two_ne_zero, zpow_one]
      linarith [mul_nonneg (two_zpow_pos (-(p:ℤ))).le hx]

end PyPE

import Verif.Py
import Verif.PyLemmas
import Mathlib.MeasureTheory.Measure.WithDensity
import Mathlib.MeasureTheory.Group.Convolution
import Mathlib.Analysis.LConvolution
import Mathlib.MeasureTheory.Measure.Lebesgue.Basic
import Mathlib.Probability.ConditionalProbability
import Mathlib.MeasureTheory.Integral.Bochner.Basic
import Mathlib.Tactic.Linarith
import Mathlib.Tactic.FieldSimp
import Mathlib.Tactic.Ring

/-! # `utils/pdf.py`: the density of the sum of two uniform variables (C59) -/

namespace PyPE

open MeasureTheory Set

/-- `x / y` for Python floats: `ZeroDivisionError` when `y` is zero. -/
noncomputable def pyDiv (x y : ℝ) : PyM ℝ :=
  if y = 0 then .error .zeroDivisionError else .ok (x / y)

/-- The attributes of a `unifsum` object. pdf.py 39-46. -/
structure UnifSum where
  c : ℝ
  w_min : ℝ
  w_diff : ℝ
  l : ℝ
  h : ℝ
  t : ℝ

/-- The two limits of one interval, sorted. pdf.py 16-21 and 25-30. -/
noncomputable def sortPair (a : ℝ × ℝ) : ℝ × ℝ :=
  if a.1 < a.2 then (a.1, a.2) else (a.2, a.1)

/-- `unifsum.__init__`, pdf.py 13-46. -/
noncomputable def unifsumInit (a b : ℝ × ℝ) : PyM UnifSum := do
  let a1 := (sortPair a).1
  let b1 := (sortPair a).2
  let a2 := (sortPair b).1
  let b2 := (sortPair b).2
  let w1 := b1 - a1
  let w2 := b2 - a2
  let w ← pyDiv (w1 + w2) 2
  let c ← pyDiv (a1 + a2 + b1 + b2) 2
  let w_min := if w1 < w2 then w1 else w2
  let w_diff := if w1 > w2 then w1 - w2 else w2 - w1
  let l := c - w
  let h := c + w
  let t ← pyDiv 1 (w_min + w_diff)
  pure ⟨c, w_min, w_diff, l, h, t⟩

/-- `unifsum.__call__`, pdf.py 48-68, where `half` is what `self.w_diff / 2` evaluates to. -/
noncomputable def unifsumCallAt (half : ℝ) (u : UnifSum) (p : ℝ) : PyM ℝ :=
  if p < u.l then .ok 0
  else if p < u.c - half then pyDiv (u.t * (p - u.l)) u.w_min
  else if p < u.c + half then .ok u.t
  else if p < u.h then pyDiv (u.t * (u.c + half - p + u.w_min)) u.w_min
  else .ok 0

/-- `unifsum.__call__` in Python 3, and in Python 2 when one of the limits is a float: `self.w_diff / 2` is the quotient. -/
noncomputable def unifsumCall (u : UnifSum) (p : ℝ) : PyM ℝ := unifsumCallAt (u.w_diff / 2) u p

/-- `unifsum.__call__` when the four limits are ints: `self.w_diff` is an int, so `self.w_diff / 2` (pdf.py 60, 62, 65) is the int division of the
interpreter (`self.c`, `self.l`, `self.h`, `self.t` are floats: pdf.py 35-46 divides by `2.0`). -/
noncomputable def unifsumCallInts (v : PyVersion) (u : UnifSum) (p : ℝ) : PyM ℝ := unifsumCallAt (intDiv v u.w_diff 2) u p

/-- The uniform law between the two limits of `a`, in either order (a point mass if they coincide). -/
noncomputable def Spec.uniformLaw (a : ℝ × ℝ) : Measure ℝ :=
  if a.1 = a.2 then Measure.dirac a.1 else ProbabilityTheory.cond volume (uIcc a.1 a.2)

/-! ## Evaluation -/

theorem sortPair_eq (a : ℝ × ℝ) : sortPair a = (min a.1 a.2, max a.1 a.2) := by
  unfold sortPair; split_ifs with h
  · rw [min_eq_left h.le, max_eq_right h.le]
  · rw [min_eq_right (not_lt.mp h), max_eq_left (not_lt.mp h)]

theorem pyDiv_ok {x y : ℝ} (h : y ≠ 0) : pyDiv x y = .ok (x / y) := by simp [pyDiv, h]

/-- The trapezoid the constructor describes, for sorted limits. -/
noncomputable def trapezoid (a1 b1 a2 b2 : ℝ) : UnifSum :=
  { c := (a1 + a2 + b1 + b2) / 2
    w_min := min (b1 - a1) (b2 - a2)
    w_diff := |(b1 - a1) - (b2 - a2)|
    l := a1 + a2
    h := b1 + b2
    t := 1 / max (b1 - a1) (b2 - a2) }

theorem unifsumInit_eq {a b : ℝ × ℝ} (h : a.1 ≠ a.2 ∨ b.1 ≠ b.2) :
    unifsumInit a b = .ok (trapezoid (min a.1 a.2) (max a.1 a.2) (min b.1 b.2) (max b.1 b.2)) := by
  have e1 : min a.1 a.2 ≤ max a.1 a.2 := min_le_max
  have e2 : min b.1 b.2 ≤ max b.1 b.2 := min_le_max
  have e3 : min a.1 a.2 < max a.1 a.2 ∨ min b.1 b.2 < max b.1 b.2 := by
    simpa [min_lt_max, eq_comm] using h
  unfold unifsumInit
  rw [sortPair_eq, sortPair_eq]
  generalize min a.1 a.2 = a1 at *
  generalize max a.1 a.2 = b1 at *
  generalize min b.1 b.2 = a2 at *
  generalize max b.1 b.2 = b2 at *
  have k1 : (if b1 - a1 < b2 - a2 then b1 - a1 else b2 - a2) = min (b1 - a1) (b2 - a2) := by
    split_ifs with g
    · rw [min_eq_left g.le]
    · rw [min_eq_right (not_lt.mp g)]
  have k2 : (if b1 - a1 > b2 - a2 then b1 - a1 - (b2 - a2) else b2 - a2 - (b1 - a1))
      = |(b1 - a1) - (b2 - a2)| := by
    split_ifs with g
    · rw [abs_of_pos (by linarith)]
    · rw [abs_of_nonpos (by linarith)]; ring
  have k3 : min (b1 - a1) (b2 - a2) + |(b1 - a1) - (b2 - a2)| = max (b1 - a1) (b2 - a2) := by
    rcases le_total (b1 - a1) (b2 - a2) with g | g
    · rw [min_eq_left g, max_eq_right g, abs_of_nonpos (by linarith)]; ring
    · rw [min_eq_right g, max_eq_left g, abs_of_nonneg (by linarith)]; ring
  have k4 : max (b1 - a1) (b2 - a2) ≠ 0 := by
    rcases e3 with g | g
    · exact (lt_of_lt_of_le (by linarith) (le_max_left _ _)).ne'
    · exact (lt_of_lt_of_le (by linarith : (0 : ℝ) < b2 - a2) (le_max_right _ _)).ne'
  simp only [k1, k2, k3, pyDiv_ok (two_ne_zero' ℝ), pyDiv_ok k4, ok_bind, trapezoid]
  show Except.ok _ = Except.ok _
  congr 1
  simp only [UnifSum.mk.injEq, true_and, and_true]
  constructor <;> ring

/-- The length of the overlap of the two intervals `[a1, b1]` and `[p - b2, p - a2]`. -/
noncomputable def overlap (a1 b1 a2 b2 p : ℝ) : ℝ := max 0 (min b1 (p - a2) - max a1 (p - b2))

theorem call_overlap {a1 b1 a2 b2 : ℝ} (h1 : a1 < b1) (h2 : a2 < b2) (p : ℝ) :
    unifsumCall (trapezoid a1 b1 a2 b2) p
      = .ok (overlap a1 b1 a2 b2 p / ((b1 - a1) * (b2 - a2))) := by
  have w1 : b1 - a1 ≠ 0 := (sub_pos.mpr h1).ne'
  have w2 : b2 - a2 ≠ 0 := (sub_pos.mpr h2).ne'
  unfold unifsumCall unifsumCallAt trapezoid overlap
  rcases le_total (b1 - a1) (b2 - a2) with g | g
  · simp only [min_eq_left g, max_eq_right g, abs_of_nonpos (by linarith : b1 - a1 - (b2 - a2) ≤ 0),
      pyDiv_ok w1]
    split_ifs with c1 c2 c3 c4 <;> congr 1
    · rw [max_eq_left, zero_div]
      have := min_le_right b1 (p - a2); have := le_max_left a1 (p - b2); linarith
    · rw [min_eq_right (by linarith), max_eq_left (by linarith : p - b2 ≤ a1),
        max_eq_right (by linarith)]
      field_simp; ring
    · rw [min_eq_left (by linarith), max_eq_left (by linarith : p - b2 ≤ a1),
        max_eq_right (by linarith)]
      field_simp
    · rw [min_eq_left (by linarith), max_eq_right (by linarith : a1 ≤ p - b2),
        max_eq_right (by linarith)]
      field_simp; ring
    · rw [max_eq_left, zero_div]
      have := min_le_left b1 (p - a2); have := le_max_right a1 (p - b2); linarith
  · simp only [min_eq_right g, max_eq_left g, abs_of_nonneg (by linarith : 0 ≤ b1 - a1 - (b2 - a2)),
      pyDiv_ok w2]
    split_ifs with c1 c2 c3 c4 <;> congr 1
    · rw [max_eq_left, zero_div]
      have := min_le_right b1 (p - a2); have := le_max_left a1 (p - b2); linarith
    · rw [min_eq_right (by linarith), max_eq_left (by linarith : p - b2 ≤ a1),
        max_eq_right (by linarith)]
      field_simp; ring
    · rw [min_eq_right (by linarith), max_eq_right (by linarith : a1 ≤ p - b2),
        max_eq_right (by linarith)]
      field_simp; ring
    · rw [min_eq_left (by linarith), max_eq_right (by linarith : a1 ≤ p - b2),
        max_eq_right (by linarith)]
      field_simp; ring
    · rw [max_eq_left, zero_div]
      have := min_le_left b1 (p - a2); have := le_max_right a1 (p - b2); linarith

theorem call_degenerate {a1 a2 b2 : ℝ} (h2 : a2 < b2) (p : ℝ) :
    unifsumCall (trapezoid a1 a1 a2 b2) p
      = .ok (if a1 + a2 ≤ p ∧ p < a1 + b2 then 1 / (b2 - a2) else 0) := by
  unfold unifsumCall unifsumCallAt trapezoid
  simp only [sub_self, min_eq_left (by linarith : (0 : ℝ) ≤ b2 - a2),
    max_eq_right (by linarith : (0 : ℝ) ≤ b2 - a2), abs_of_nonpos (by linarith : 0 - (b2 - a2) ≤ 0)]
  by_cases c1 : p < a1 + a2
  · rw [if_pos c1, if_neg (by intro h; linarith [h.1])]
  rw [if_neg c1, if_neg (by linarith)]
  by_cases c3 : p < a1 + b2
  · rw [if_pos (by linarith), if_pos ⟨not_lt.mp c1, c3⟩]
  · rw [if_neg (by linarith), if_neg (by linarith), if_neg (by intro h; linarith [h.2])]

theorem trapezoid_symm (a1 b1 a2 b2 : ℝ) : trapezoid a2 b2 a1 b1 = trapezoid a1 b1 a2 b2 := by
  unfold trapezoid
  simp only [UnifSum.mk.injEq]
  refine ⟨by ring, min_comm _ _, abs_sub_comm _ _, by ring, by ring, by rw [max_comm]⟩

/-! ## The law -/

theorem uniformLaw_density {a : ℝ × ℝ} (h : a.1 ≠ a.2) :
    Spec.uniformLaw a = volume.withDensity
      ((Icc (min a.1 a.2) (max a.1 a.2)).indicator
        fun _ => (ENNReal.ofReal (max a.1 a.2 - min a.1 a.2))⁻¹) := by
  unfold Spec.uniformLaw
  rw [if_neg h, ProbabilityTheory.cond, uIcc, Real.volume_Icc,
    withDensity_indicator measurableSet_Icc, withDensity_const]

theorem conv_withDensity_eq {f g : ℝ → ENNReal} (hf : Measurable f) (hg : Measurable g) :
    (volume.withDensity f).conv (volume.withDensity g)
      = volume.withDensity (fun p => ∫⁻ x, f x * g (-x + p)) :=
  conv_withDensity_eq_lconvolution hf hg

theorem lconv_overlap {a1 b1 a2 b2 : ℝ} (h1 : a1 < b1) (h2 : a2 < b2) (p : ℝ) :
    ∫⁻ x, (Icc a1 b1).indicator (fun _ => (ENNReal.ofReal (b1 - a1))⁻¹) x
        * (Icc a2 b2).indicator (fun _ => (ENNReal.ofReal (b2 - a2))⁻¹) (-x + p)
      = ENNReal.ofReal (overlap a1 b1 a2 b2 p / ((b1 - a1) * (b2 - a2))) := by
  have e : (fun x => (Icc a1 b1).indicator (fun _ => (ENNReal.ofReal (b1 - a1))⁻¹) x
        * (Icc a2 b2).indicator (fun _ => (ENNReal.ofReal (b2 - a2))⁻¹) (-x + p))
      = (Icc (max a1 (p - b2)) (min b1 (p - a2))).indicator
          (fun _ => (ENNReal.ofReal (b1 - a1))⁻¹ * (ENNReal.ofReal (b2 - a2))⁻¹) := by
    funext x
    simp only [indicator_apply, mem_Icc, max_le_iff, le_min_iff]
    by_cases c1 : a1 ≤ x ∧ x ≤ b1 <;> by_cases c2 : a2 ≤ -x + p ∧ -x + p ≤ b2
    · rw [if_pos c1, if_pos c2, if_pos ⟨⟨c1.1, by linarith [c2.2]⟩, c1.2, by linarith [c2.1]⟩]
    · rw [if_pos c1, if_neg c2, if_neg, mul_zero]
      exact fun h => c2 ⟨by linarith [h.2.2], by linarith [h.1.2]⟩
    · rw [if_neg c1, if_pos c2, if_neg, zero_mul]
      exact fun h => c1 ⟨h.1.1, h.2.1⟩
    · rw [if_neg c1, if_neg c2, if_neg, zero_mul]
      exact fun h => c1 ⟨h.1.1, h.2.1⟩
  rw [e, lintegral_indicator measurableSet_Icc, setLIntegral_const, Real.volume_Icc, overlap]
  have p1 : 0 < b1 - a1 := by linarith
  have p2 : 0 < b2 - a2 := by linarith
  rw [div_eq_mul_inv, ENNReal.ofReal_mul (le_max_left _ _), mul_comm, mul_inv,
    ENNReal.ofReal_mul (inv_pos.mpr p1).le, ENNReal.ofReal_inv_of_pos p1, ENNReal.ofReal_inv_of_pos p2]
  congr 1
  rcases le_total (min b1 (p - a2) - max a1 (p - b2)) 0 with g | g
  · rw [ENNReal.ofReal_of_nonpos g, max_eq_left g, ENNReal.ofReal_zero]
  · rw [max_eq_right g]

theorem uniformLaw_prob (a : ℝ × ℝ) : IsProbabilityMeasure (Spec.uniformLaw a) := by
  unfold Spec.uniformLaw
  split_ifs with h
  · infer_instance
  · refine ProbabilityTheory.cond_isProbabilityMeasure_of_finite ?_ ?_
    · rw [uIcc, Real.volume_Icc]
      have : min a.1 a.2 < max a.1 a.2 := min_lt_max.mpr h
      exact (ENNReal.ofReal_pos.mpr (by linarith)).ne'
    · rw [uIcc, Real.volume_Icc]; exact ENNReal.ofReal_ne_top

theorem map_add_withDensity (x : ℝ) {f : ℝ → ENNReal} (hf : Measurable f) :
    (volume.withDensity f).map (fun y => x + y) = volume.withDensity (fun y => f (y - x)) := by
  ext s hs
  rw [Measure.map_apply (by fun_prop) hs, withDensity_apply _ hs,
    withDensity_apply _ (measurableSet_preimage (by fun_prop) hs),
    ← lintegral_indicator hs, ← lintegral_indicator (measurableSet_preimage (by fun_prop) hs),
    ← lintegral_add_left_eq_self (s.indicator fun y => f (y - x)) x]
  refine lintegral_congr fun y => ?_
  show Set.indicator _ f y = Set.indicator s (fun y => f (y - x)) (x + y)
  by_cases h : x + y ∈ s
  · rw [indicator_of_mem h, indicator_of_mem (show y ∈ (fun y => x + y) ⁻¹' s from h), add_sub_cancel_left]
  · rw [indicator_of_notMem h, indicator_of_notMem (show y ∉ (fun y => x + y) ⁻¹' s from h)]

theorem conv_degenerate {a b : ℝ × ℝ} (ha : a.1 = a.2) (hb : b.1 ≠ b.2) :
    (Spec.uniformLaw a).conv (Spec.uniformLaw b) = volume.withDensity (fun p => ENNReal.ofReal
      (if a.1 + min b.1 b.2 ≤ p ∧ p < a.1 + max b.1 b.2 then 1 / (max b.1 b.2 - min b.1 b.2) else 0)) := by
  have hp := uniformLaw_prob b
  have hlt : min b.1 b.2 < max b.1 b.2 := min_lt_max.mpr hb
  have e : Spec.uniformLaw a = Measure.dirac a.1 := by unfold Spec.uniformLaw; rw [if_pos ha]
  rw [e, Measure.dirac_conv, uniformLaw_density hb,
    map_add_withDensity _ (measurable_const.indicator measurableSet_Icc)]
  apply withDensity_congr_ae
  have : ∀ᵐ p : ℝ, p ≠ a.1 + max b.1 b.2 := by
    rw [ae_iff]; simp
  filter_upwards [this] with p hp
  simp only [indicator_apply, mem_Icc]
  have p2 : 0 < max b.1 b.2 - min b.1 b.2 := by linarith
  by_cases c : a.1 + min b.1 b.2 ≤ p ∧ p < a.1 + max b.1 b.2
  · rw [if_pos c, if_pos ⟨by linarith [c.1], by linarith [c.2]⟩, one_div,
      ENNReal.ofReal_inv_of_pos p2]
  · rw [if_neg c, if_neg, ENNReal.ofReal_zero]
    intro h
    exact c ⟨by linarith [h.1], lt_of_le_of_ne (by linarith [h.2]) hp⟩

theorem conv_trapezoid {a b : ℝ × ℝ} (h : a.1 ≠ a.2 ∨ b.1 ≠ b.2) :
    ∃ f : ℝ → ℝ, (∀ p, unifsumCall
        (trapezoid (min a.1 a.2) (max a.1 a.2) (min b.1 b.2) (max b.1 b.2)) p = .ok (f p))
      ∧ (∀ p, 0 ≤ f p) ∧ Measurable f
      ∧ (∀ p, p < min a.1 a.2 + min b.1 b.2 ∨ max a.1 a.2 + max b.1 b.2 < p → f p = 0)
      ∧ (Spec.uniformLaw a).conv (Spec.uniformLaw b) = volume.withDensity fun p => ENNReal.ofReal (f p) := by
  have key : ∀ {a b : ℝ × ℝ}, a.1 = a.2 → b.1 ≠ b.2 → 
      ∃ f : ℝ → ℝ, (∀ p, unifsumCall
        (trapezoid (min a.1 a.2) (max a.1 a.2) (min b.1 b.2) (max b.1 b.2)) p = .ok (f p))
      ∧ (∀ p, 0 ≤ f p) ∧ Measurable f
      ∧ (∀ p, p < min a.1 a.2 + min b.1 b.2 ∨ max a.1 a.2 + max b.1 b.2 < p → f p = 0)
      ∧ (Spec.uniformLaw a).conv (Spec.uniformLaw b) = volume.withDensity fun p => ENNReal.ofReal (f p) := by
    intro a b ha hb
    have hlt : min b.1 b.2 < max b.1 b.2 := min_lt_max.mpr hb
    refine ⟨_, fun p => ?_, ?_, ?_, ?_, conv_degenerate ha hb⟩
    · rw [← ha, min_self, max_self]; exact call_degenerate hlt p
    · intro p; beta_reduce; split_ifs
      · exact one_div_nonneg.mpr (by linarith)
      · exact le_rfl
    · exact Measurable.ite measurableSet_Ico measurable_const measurable_const
    · intro p hp
      beta_reduce
      rw [if_neg]
      rw [← ha, min_self, max_self] at hp
      rintro ⟨h1, h2⟩
      rcases hp with h | h <;> linarith
  by_cases ha : a.1 = a.2
  · exact key ha (h.resolve_left fun k => k ha)
  by_cases hb : b.1 = b.2
  · obtain ⟨f, h1, h2, h3, h4, h5⟩ := key hb ha
    refine ⟨f, fun p => ?_, h2, h3, fun p hp => h4 p ?_, ?_⟩
    · rw [← h1, trapezoid_symm]
    · rw [add_comm (min b.1 _), add_comm (max b.1 _)]; exact hp
    · have := uniformLaw_prob a
      have := uniformLaw_prob b
      rw [← h5, Measure.conv_comm]
  · have hla : min a.1 a.2 < max a.1 a.2 := min_lt_max.mpr ha
    have hlb : min b.1 b.2 < max b.1 b.2 := min_lt_max.mpr hb
    refine ⟨fun p => overlap (min a.1 a.2) (max a.1 a.2) (min b.1 b.2) (max b.1 b.2) p
      / ((max a.1 a.2 - min a.1 a.2) * (max b.1 b.2 - min b.1 b.2)), fun p => call_overlap hla hlb p,
      fun p => div_nonneg (le_max_left _ _) (mul_nonneg (by linarith) (by linarith)), ?_, ?_, ?_⟩
    · unfold overlap; fun_prop
    · intro p hp
      beta_reduce
      rw [overlap, max_eq_left, zero_div]
      have e1 := min_le_right (max a.1 a.2) (p - min b.1 b.2)
      have e2 := min_le_left (max a.1 a.2) (p - min b.1 b.2)
      have e3 := le_max_left (min a.1 a.2) (p - max b.1 b.2)
      have e4 := le_max_right (min a.1 a.2) (p - max b.1 b.2)
      rcases hp with h | h <;> linarith
    · rw [uniformLaw_density ha, uniformLaw_density hb,
        conv_withDensity_eq (measurable_const.indicator measurableSet_Icc)
          (measurable_const.indicator measurableSet_Icc)]
      congr 1
      funext p
      exact lconv_overlap hla hlb p

/-! ## C59 -/

/-- **C59**: unless both intervals are single points, the constructor succeeds, evaluation never raises,
and the values are a density of the law of `X + Y` for independent `X`, `Y` uniform between the limits of
`a` and of `b` (given in either order; one interval may be a single point): non-negative, zero outside
the sum of the intervals, with integral one. -/
theorem C59_density {a b : ℝ × ℝ} (h : a.1 ≠ a.2 ∨ b.1 ≠ b.2) :
    ∃ u f, unifsumInit a b = .ok u ∧ (∀ p, unifsumCall u p = .ok (f p))
      ∧ (Spec.uniformLaw a).conv (Spec.uniformLaw b) = volume.withDensity (fun p => ENNReal.ofReal (f p))
      ∧ (∀ p, 0 ≤ f p)
      ∧ (∀ p, p < min a.1 a.2 + min b.1 b.2 ∨ max a.1 a.2 + max b.1 b.2 < p → f p = 0)
      ∧ Integrable f ∧ ∫ p, f p = 1 := by
  obtain ⟨f, h1, h2, h3, h4, h5⟩ := conv_trapezoid h
  have hpa := uniformLaw_prob a
  have hpb := uniformLaw_prob b
  have hl : ∫⁻ p, ENNReal.ofReal (f p) = 1 := by
    have : (Spec.uniformLaw a).conv (Spec.uniformLaw b) univ = 1 := measure_univ
    rwa [h5, withDensity_apply _ MeasurableSet.univ, setLIntegral_univ] at this
  have hnn : 0 ≤ᵐ[volume] f := Filter.Eventually.of_forall h2
  refine ⟨_, f, unifsumInit_eq h, h1, h5, h2, h4, ⟨h3.aestronglyMeasurable, ?_⟩, ?_⟩
  · rw [hasFiniteIntegral_iff_ofReal hnn, hl]; exact ENNReal.one_lt_top
  · rw [integral_eq_lintegral_of_nonneg_ae hnn h3.aestronglyMeasurable, hl]; rfl

/-- **C59**: when both intervals have positive length, the value at `p` is the length of the set of
splits `x + (p - x)` with `x` in the first interval and `p - x` in the second, divided by the product of
the lengths; so it depends continuously on `p`. -/
theorem C59_pointwise {a b : ℝ × ℝ} (ha : a.1 ≠ a.2) (hb : b.1 ≠ b.2) :
    ∃ u f, unifsumInit a b = .ok u ∧ (∀ p, unifsumCall u p = .ok (f p)) ∧ Continuous f
      ∧ ∀ p, f p = (volume {x | x ∈ uIcc a.1 a.2 ∧ p - x ∈ uIcc b.1 b.2}).toReal
          / (|a.2 - a.1| * |b.2 - b.1|) := by
  have hla : min a.1 a.2 < max a.1 a.2 := min_lt_max.mpr ha
  have hlb : min b.1 b.2 < max b.1 b.2 := min_lt_max.mpr hb
  refine ⟨_, _, unifsumInit_eq (Or.inl ha), fun p => call_overlap hla hlb p, ?_, fun p => ?_⟩
  · unfold overlap; fun_prop
  · have e : {x | x ∈ uIcc a.1 a.2 ∧ p - x ∈ uIcc b.1 b.2}
        = Icc (max (min a.1 a.2) (p - max b.1 b.2)) (min (max a.1 a.2) (p - min b.1 b.2)) := by
      ext x
      simp only [uIcc, mem_setOf_eq, mem_Icc]
      rw [max_le_iff, le_min_iff]
      constructor
      · rintro ⟨⟨h1, h2⟩, h3, h4⟩
        exact ⟨⟨h1, by linarith⟩, h2, by linarith⟩
      · rintro ⟨⟨h1, h2⟩, h3, h4⟩
        exact ⟨⟨h1, h3⟩, by linarith, by linarith⟩
    have m : ∀ x y : ℝ, |y - x| = max x y - min x y := by
      intro x y
      rcases le_total x y with g | g
      · rw [min_eq_left g, max_eq_right g, abs_of_nonneg (by linarith)]
      · rw [min_eq_right g, max_eq_left g, abs_of_nonpos (by linarith)]; ring
    rw [e, Real.volume_Icc, m, m, overlap]
    congr 1
    rw [ENNReal.toReal_ofReal', max_comm]

/-- **C59**: two single points: the sum has no density, the constructor raises `ZeroDivisionError`. -/
theorem C59_zero_division {a b : ℝ × ℝ} (ha : a.1 = a.2) (hb : b.1 = b.2) :
    unifsumInit a b = .error .zeroDivisionError := by
  unfold unifsumInit
  rw [sortPair_eq, sortPair_eq, ha, hb]
  simp only [min_self, max_self, sub_self, lt_irrefl, if_false, gt_iff_lt, add_zero, pyDiv,
    if_neg (two_ne_zero' ℝ), ok_bind, if_true]
  rfl

/-- **C59**: the order of the limits of an interval and the order of the intervals do not matter. -/
theorem C59_symmetric {a b : ℝ × ℝ} (h : a.1 ≠ a.2 ∨ b.1 ≠ b.2) :
    unifsumInit a.swap b = unifsumInit a b ∧ unifsumInit a b.swap = unifsumInit a b
      ∧ unifsumInit b a = unifsumInit a b := by
  refine ⟨?_, ?_, ?_⟩
  · rw [unifsumInit_eq h, unifsumInit_eq (h.imp_left fun k => k.symm)]
    simp only [Prod.fst_swap, Prod.snd_swap, min_comm a.2, max_comm a.2]
  · rw [unifsumInit_eq h, unifsumInit_eq (h.imp_right fun k => k.symm)]
    simp only [Prod.fst_swap, Prod.snd_swap, min_comm b.2, max_comm b.2]
  · rw [unifsumInit_eq h, unifsumInit_eq h.symm, trapezoid_symm]

/-- **C59** (defect) With four int limits Python 3 gives the density above. Python 2 does so iff the lengths of the two intervals differ by an even number: otherwise,
if both intervals have positive length, it returns negative values on the last half unit of the support, and if one of them is a point it
raises `ZeroDivisionError` at the lower end of the support. -/
theorem C59_int_limits {a b : ℤ × ℤ} (h : a.1 ≠ a.2 ∨ b.1 ≠ b.2) :
    ∃ u, unifsumInit ((a.1 : ℝ), (a.2 : ℝ)) ((b.1 : ℝ), (b.2 : ℝ)) = .ok u ∧
      (∀ p, unifsumCallInts .py3 u p = unifsumCall u p) ∧
      (Even ((a.1 - a.2) - (b.1 - b.2)) → ∀ p, unifsumCallInts .py2 u p = unifsumCall u p) ∧
      (¬ Even ((a.1 - a.2) - (b.1 - b.2)) → a.1 ≠ a.2 → b.1 ≠ b.2 →
        ∀ p : ℝ, ((max a.1 a.2 + max b.1 b.2 : ℤ) : ℝ) - 1 / 2 < p → p < ((max a.1 a.2 + max b.1 b.2 : ℤ) : ℝ) → ∃ v, unifsumCallInts .py2 u p = .ok v ∧ v < 0) ∧
      (¬ Even ((a.1 - a.2) - (b.1 - b.2)) → a.1 = a.2 ∨ b.1 = b.2 →
        unifsumCallInts .py2 u ((min a.1 a.2 + min b.1 b.2 : ℤ) : ℝ) = .error .zeroDivisionError) := by
  refine ⟨_, unifsumInit_eq (by simpa using h), fun p => rfl, ?_⟩
  simp only [← Int.cast_min, ← Int.cast_max]
  obtain ⟨a1, ha1⟩ : ∃ x, x = min a.1 a.2 := ⟨_, rfl⟩
  obtain ⟨b1, hb1⟩ : ∃ x, x = max a.1 a.2 := ⟨_, rfl⟩
  obtain ⟨a2, ha2⟩ : ∃ x, x = min b.1 b.2 := ⟨_, rfl⟩
  obtain ⟨b2, hb2⟩ : ∃ x, x = max b.1 b.2 := ⟨_, rfl⟩
  have hpar : Even ((a.1 - a.2) - (b.1 - b.2)) ↔ Even |(b1 - a1) - (b2 - a2)| := by
    rw [even_abs, Int.even_sub, Int.even_sub, Int.even_sub, Int.even_sub, Int.even_sub, Int.even_sub]
    rcases le_total a.1 a.2 with g | g <;> rcases le_total b.1 b.2 with g' | g' <;>
      simp only [ha1, hb1, ha2, hb2, min_eq_left g, max_eq_right g, min_eq_right g, max_eq_left g, min_eq_left g', max_eq_right g', min_eq_right g',
        max_eq_left g'] <;> tauto
  have hd1 : a.1 = a.2 ↔ a1 = b1 := by rw [ha1, hb1]; exact inf_eq_sup.symm
  have hd2 : b.1 = b.2 ↔ a2 = b2 := by rw [ha2, hb2]; exact inf_eq_sup.symm
  have l1 : a1 ≤ b1 := by rw [ha1, hb1]; exact min_le_max
  have l2 : a2 ≤ b2 := by rw [ha2, hb2]; exact min_le_max
  rw [hpar, ← ha1, ← hb1, ← ha2, ← hb2]
  simp only [ne_eq, hd1, hd2] at h ⊢
  clear hd1 hd2 hpar ha1 hb1 ha2 hb2
  obtain ⟨D, hD⟩ : ∃ D : ℤ, D = |(b1 - a1) - (b2 - a2)| := ⟨_, rfl⟩
  obtain ⟨u, hu⟩ : ∃ u, u = trapezoid a1 b1 a2 b2 := ⟨_, rfl⟩
  have hw : u.w_diff = (D : ℝ) := by rw [hu, hD]; simp [trapezoid]
  have hfl : ∀ k : ℤ, ⌊((k + k + 1 : ℤ) : ℝ) / 2⌋ = k := by
    intro k
    rw [Int.floor_eq_iff]
    push_cast
    constructor <;> linarith
  rw [← hD, ← hu]
  refine ⟨?_, ?_, ?_⟩
  · rintro ⟨k, hk⟩ p
    unfold unifsumCallInts unifsumCall
    congr 1
    have : ((D : ℝ) / 2) = (k : ℤ) := by rw [hk]; push_cast; ring
    rw [hw, intDiv, this, Int.floor_intCast]
  · intro hodd h1 h2 p hp1 hp2
    rw [Int.not_even_iff_odd] at hodd
    obtain ⟨k, hk⟩ := hodd
    have hk' : D = k + k + 1 := by omega
    have hhalf : intDiv .py2 u.w_diff 2 = (D : ℝ) / 2 - 1 / 2 := by
      rw [hw, intDiv, hk', hfl k]; push_cast; ring
    have p1 : (a1 : ℝ) < b1 := by exact_mod_cast lt_of_le_of_ne l1 h1
    have p2 : (a2 : ℝ) < b2 := by exact_mod_cast lt_of_le_of_ne l2 h2
    have hmin : 1 ≤ min ((b1 : ℝ) - a1) (b2 - a2) := by
      refine le_min ?_ ?_
      · have : 1 ≤ b1 - a1 := by have := lt_of_le_of_ne l1 h1; omega
        exact_mod_cast this
      · have : 1 ≤ b2 - a2 := by have := lt_of_le_of_ne l2 h2; omega
        exact_mod_cast this
    have hmax : 0 < max ((b1 : ℝ) - a1) (b2 - a2) := lt_of_lt_of_le (by linarith) (le_max_left _ _)
    have hD1 : (1 : ℝ) ≤ D := by
      have h0 : 0 ≤ D := by rw [hD]; exact abs_nonneg _
      have : 1 ≤ D := by omega
      exact_mod_cast this
    have hDr : (D : ℝ) = |((b1 : ℝ) - a1) - (b2 - a2)| := by rw [hD]; push_cast; rfl
    have hsum : 2 * min ((b1 : ℝ) - a1) (b2 - a2) + D = (b1 - a1) + (b2 - a2) := by
      rw [hDr]
      rcases le_total ((b1 : ℝ) - a1) (b2 - a2) with g | g
      · rw [min_eq_left g, abs_of_nonpos (by linarith)]; ring
      · rw [min_eq_right g, abs_of_nonneg (by linarith)]; ring
    obtain ⟨m, hm⟩ : ∃ m, m = min ((b1 : ℝ) - a1) (b2 - a2) := ⟨_, rfl⟩
    have e1 : u.l = a1 + a2 := by rw [hu]; rfl
    have e2 : u.c = (a1 + a2 + b1 + b2) / 2 := by rw [hu]; rfl
    have e3 : u.h = b1 + b2 := by rw [hu]; rfl
    have e4 : u.w_min = m := by rw [hu, hm]; rfl
    have e5 : 0 < u.t := by rw [hu]; exact one_div_pos.2 hmax
    rw [← hm] at hmin hsum
    push_cast at hp1 hp2
    refine ⟨u.t * (u.c + intDiv .py2 u.w_diff 2 - p + u.w_min) / u.w_min, ?_, ?_⟩
    · unfold unifsumCallInts unifsumCallAt
      rw [if_neg (by rw [e1]; linarith), if_neg (by rw [e2, hhalf]; linarith), if_neg (by rw [e2, hhalf]; linarith),
        if_pos (by rw [e3]; linarith), pyDiv_ok (by rw [e4]; linarith)]
    · apply div_neg_of_neg_of_pos
      · refine mul_neg_of_pos_of_neg e5 ?_
        rw [e2, e4, hhalf]; linarith
      · rw [e4]; linarith
  · intro hodd hdeg
    rw [Int.not_even_iff_odd] at hodd
    obtain ⟨k, hk⟩ := hodd
    have hk' : D = k + k + 1 := by omega
    have hhalf : intDiv .py2 u.w_diff 2 = (D : ℝ) / 2 - 1 / 2 := by
      rw [hw, intDiv, hk', hfl k]; push_cast; ring
    have r1 : (a1 : ℝ) ≤ b1 := by exact_mod_cast l1
    have r2 : (a2 : ℝ) ≤ b2 := by exact_mod_cast l2
    have hDr : (D : ℝ) = |((b1 : ℝ) - a1) - (b2 - a2)| := by rw [hD]; push_cast; rfl
    have e4 : u.w_min = 0 := by
      rw [hu]
      show min ((b1 : ℝ) - a1) (b2 - a2) = 0
      rcases hdeg with g | g
      · rw [g, sub_self, min_eq_left (by linarith)]
      · rw [g, sub_self, min_eq_right (by linarith)]
    have hsum : (D : ℝ) = (b1 - a1) + (b2 - a2) := by
      rw [hDr]
      rcases hdeg with g | g
      · rw [g, sub_self, abs_of_nonpos (by linarith)]; ring
      · rw [g, sub_self, abs_of_nonneg (by linarith)]; ring
    have e1 : u.l = a1 + a2 := by rw [hu]; rfl
    have e2 : u.c = (a1 + a2 + b1 + b2) / 2 := by rw [hu]; rfl
    unfold unifsumCallInts unifsumCallAt
    push_cast
    rw [if_neg (by rw [e1]; linarith), if_pos (by rw [e2, hhalf]; linarith), pyDiv, if_pos e4]

/-- Limits 0..2 and 0..1 in Python 2: at 2.75 the "density" is negative. -/
example : ∃ u v, unifsumInit ((0 : ℤ), (2 : ℤ)) ((0 : ℤ), (1 : ℤ)) = .ok u ∧ unifsumCallInts .py2 u (11 / 4) = .ok v ∧ v < 0 := by
  obtain ⟨u, h1, -, -, h2, -⟩ := C59_int_limits (a := (0, 2)) (b := (0, 1)) (Or.inl (by norm_num))
  obtain ⟨v, h3, h4⟩ := h2 (by decide) (by norm_num) (by norm_num) (11 / 4) (by norm_num) (by norm_num)
  exact ⟨u, v, h1, h3, h4⟩

/-- A concrete case: `U(0, 1) + U(0, 2)` has density `1/2` at `1.5`. -/
example : ∃ u, unifsumInit (0, 1) (2, 0) = .ok u ∧ unifsumCall u (3 / 2) = .ok (1 / 2) := by
  refine ⟨_, unifsumInit_eq (Or.inl (by norm_num)), ?_⟩
  simp only [min_eq_left (zero_le_one' ℝ), max_eq_right (zero_le_one' ℝ),
    min_eq_right (zero_le_two : (0 : ℝ) ≤ 2), max_eq_left (zero_le_two : (0 : ℝ) ≤ 2)]
  rw [call_overlap (by norm_num) (by norm_num), overlap]
  norm_num

end PyPE

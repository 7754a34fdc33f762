import Verif.Rounding.Sample
import Mathlib.Tactic.FieldSimp

/-!
# C105: how much rounding can change the number of copies
-/

namespace PyPE
open Spec

variable {A : Arith} {nmax : ℕ} {ε η : ℝ}

theorem take_succ_sum (w : List ℝ) (k : ℕ) : (w.take (k+1)).sum = (w.take k).sum + w.getD k 0 := by
  rw [List.take_add_one, List.sum_append, List.getD_eq_getElem?_getD]
  cases w[k]? <;> simp

/-- Accumulated rounding error of the cumulative sums. -/
theorem cumAt_bounds (hA : Rounded A nmax) (hE : Accurate A ε η) {w : List ℝ} (hw : FlWeights A w) (k : ℕ) :
    (1 - ε) ^ k * (w.take (k+1)).sum ≤ cumAt A w k ∧ cumAt A w k ≤ (1 + ε) ^ k * (w.take (k+1)).sum := by
  have he0 := hE.eps.1
  have he1 := hE.eps.2
  induction k with
  | zero =>
    have : (w.take 1).sum = w.getD 0 0 := by rw [show (1:ℕ) = 0 + 1 from rfl, take_succ_sum]; simp
    simp [cumAt, this]
  | succ k ih =>
    obtain ⟨l, u⟩ := ih
    have hn := cumAt_nonneg hA hw k
    have hwk := flWeights_getD hw hA (k+1)
    have herr := abs_le.mp (hE.add _ _ hn hwk.1 (cumAt_rep hA hw k) hwk.2)
    have e : cumAt A w (k+1) = A.fl (cumAt A w k + w.getD (k+1) 0) := rfl
    rw [take_succ_sum w (k+1), e, pow_succ, pow_succ]
    generalize w.getD (k+1) 0 = x at *
    generalize cumAt A w k = c at *
    generalize (w.take (k+1)).sum = s at *
    have hl1 : (1 - ε) ^ k ≤ 1 := pow_le_one₀ (by linarith) (by linarith)
    have hu1 : 1 ≤ (1 + ε) ^ k := one_le_pow₀ (by linarith)
    have hx := hwk.1
    constructor
    · have h1 : (1 - ε) ^ k * x ≤ x := by nlinarith
      have h2 : (1 - ε) ^ k * (s + x) ≤ c + x := by nlinarith
      have h3 : (1 - ε) * ((1 - ε) ^ k * (s + x)) ≤ (1 - ε) * (c + x) := mul_le_mul_of_nonneg_left h2 (by linarith)
      nlinarith
    · have h1 : x ≤ (1 + ε) ^ k * x := by nlinarith
      have h2 : c + x ≤ (1 + ε) ^ k * (s + x) := by nlinarith
      have h3 : (1 + ε) * (c + x) ≤ (1 + ε) * ((1 + ε) ^ k * (s + x)) := mul_le_mul_of_nonneg_left h2 (by linarith)
      nlinarith

/-- The growth of the relative error over a sum of `L` numbers. -/
noncomputable def Spec.flGrowth (ε : ℝ) (L : ℕ) : ℝ := ((1 + ε) / (1 - ε)) ^ L

theorem flNorm_error (hA : Rounded A nmax) (hE : Accurate A ε η) {w : List ℝ} (hw : FlWeights A w) (hp : ∃ x ∈ w, 0 < x) {k : ℕ} (hk : k < w.length) :
    |flNorm A w k - cum w (k+1)| ≤ flGrowth ε w.length - 1 + ε + η := by
  have he0 := hE.eps.1
  have he1 := hE.eps.2
  have ht := flTotal_pos hA hw hp
  have hW : Weights w := by
    refine ⟨fun x hx => (hw x hx).1, ?_⟩
    obtain ⟨x, hx, h0⟩ := hp
    exact lt_of_lt_of_le h0 (List.single_le_sum (fun y hy => (hw y hy).1) x hx)
  obtain ⟨l, u⟩ := cumAt_bounds hA hE hw k
  obtain ⟨lt, ut⟩ := cumAt_bounds hA hE hw (w.length - 1)
  have hfull : (w.take (w.length - 1 + 1)).sum = w.sum := by rw [Nat.sub_add_cancel (by omega), List.take_length]
  rw [hfull] at lt ut
  change _ ≤ flTotal A w at lt
  change flTotal A w ≤ _ at ut
  set L := w.length with hL
  have hratio : cumAt A w k / flTotal A w ≤ 1 := (div_le_one ht).mpr (cumAt_mono hA hw (by omega))
  have hr0 : 0 ≤ cumAt A w k / flTotal A w := div_nonneg (cumAt_nonneg hA hw k) ht.le
  have herr := hE.unit _ hr0 hratio
  have h1e : 0 < 1 - ε := by linarith
  have hq1 : 1 ≤ flGrowth ε L := one_le_pow₀ (by rw [le_div_iff₀ h1e]; linarith)
  have hS := hW.2
  have hc0 := cum_nonneg hW (k+1)
  have hc1 := cum_le_one hW (k+1)
  have hcum : (w.take (k+1)).sum = cum w (k+1) * w.sum := by rw [cum, div_mul_cancel₀ _ hS.ne']
  rw [hcum] at l u
  have hpa : 0 < (1 - ε) ^ L := pow_pos h1e _
  have hpb : 0 < (1 + ε) ^ L := pow_pos (by linarith) _
  have ha : ∀ m ≤ L, (1 - ε) ^ L ≤ (1 - ε) ^ m := fun m hm => pow_le_pow_of_le_one h1e.le (by linarith) hm
  have hb : ∀ m ≤ L, (1 + ε) ^ m ≤ (1 + ε) ^ L := fun m hm => pow_le_pow_right₀ (by linarith) hm
  have hgr : flGrowth ε L * (1 - ε) ^ L = (1 + ε) ^ L := by
    rw [flGrowth, div_pow, div_mul_cancel₀ _ hpa.ne']
  have hup : cumAt A w k / flTotal A w ≤ cum w (k+1) * flGrowth ε L := by
    rw [div_le_iff₀ ht]
    calc cumAt A w k ≤ (1 + ε) ^ k * (cum w (k+1) * w.sum) := u
      _ ≤ (1 + ε) ^ L * (cum w (k+1) * w.sum) := mul_le_mul_of_nonneg_right (hb k hk.le) (mul_nonneg hc0 hS.le)
      _ = cum w (k+1) * flGrowth ε L * ((1 - ε) ^ L * w.sum) := by rw [← hgr]; ring
      _ ≤ cum w (k+1) * flGrowth ε L * flTotal A w :=
        mul_le_mul_of_nonneg_left ((mul_le_mul_of_nonneg_right (ha _ (by omega)) hS.le).trans lt) (mul_nonneg hc0 (by linarith))
  have hlo : cum w (k+1) ≤ cumAt A w k / flTotal A w * flGrowth ε L := by
    rw [div_mul_eq_mul_div, le_div_iff₀ ht]
    have h2 : (1 - ε) ^ L * (cum w (k+1) * w.sum) ≤ cumAt A w k := (mul_le_mul_of_nonneg_right (ha k hk.le) (mul_nonneg hc0 hS.le)).trans l
    calc cum w (k+1) * flTotal A w ≤ cum w (k+1) * ((1 + ε) ^ L * w.sum) :=
          mul_le_mul_of_nonneg_left (ut.trans (mul_le_mul_of_nonneg_right (hb _ (by omega)) hS.le)) hc0
      _ = ((1 - ε) ^ L * (cum w (k+1) * w.sum)) * flGrowth ε L := by rw [← hgr]; ring
      _ ≤ _ := mul_le_mul_of_nonneg_right h2 (by linarith)
  have hmid : |cumAt A w k / flTotal A w - cum w (k+1)| ≤ flGrowth ε L - 1 := by
    rw [abs_le]
    constructor <;> nlinarith
  have herr' : |flNorm A w k - cumAt A w k / flTotal A w| ≤ ε + η := by
    refine herr.trans ?_
    nlinarith
  have := abs_add_le (flNorm A w k - cumAt A w k / flTotal A w) (cumAt A w k / flTotal A w - cum w (k+1))
  rw [sub_add_sub_cancel] at this
  linarith

/-- The error of the grid of uniforms. -/
theorem flGrid_error (hA : Rounded A nmax) (hE : Accurate A ε η) {n : ℕ} (hn : n ≤ nmax) {r : ℝ} (hr : Unit01 r) (hrr : A.fl r = r) {i : ℕ} (hi : i < n) :
    |A.fl (A.fl ((i:ℝ) + r) / n) - ((i:ℝ) + r) / n| ≤ 2 * ε + η := by
  have hn0 : (0:ℝ) < n := by exact_mod_cast (by omega : 0 < n)
  have hi' : (i:ℝ) + 1 ≤ n := by exact_mod_cast hi
  have hir : (i:ℝ) + r ≤ n := by linarith [hr.2]
  have hi0 : 0 ≤ (i:ℝ) + r := add_nonneg (Nat.cast_nonneg _) hr.1
  have h1 : A.fl ((i:ℝ) + r) ≤ n := by
    have := hA.mono hir
    rwa [hA.nat n hn] at this
  have h0 : 0 ≤ A.fl ((i:ℝ) + r) := fl_nonneg hA hi0
  have e1 := hE.add i r (Nat.cast_nonneg _) hr.1 (hA.nat i (by omega)) hrr
  have e2 := hE.unit (A.fl ((i:ℝ) + r) / n) (div_nonneg h0 hn0.le) ((div_le_one hn0).mpr h1)
  have he0 := hE.eps.1
  have e3 : |A.fl ((i:ℝ) + r) / n - ((i:ℝ) + r) / n| ≤ ε := by
    rw [← sub_div, abs_div, abs_of_pos hn0, div_le_iff₀ hn0]
    exact e1.trans (mul_le_mul_of_nonneg_left hir he0)
  have e4 : ε * (A.fl ((i:ℝ) + r) / n) ≤ ε := by
    have := mul_le_mul_of_nonneg_left ((div_le_one hn0).mpr h1) he0
    linarith
  have := abs_add_le (A.fl (A.fl ((i:ℝ) + r) / n) - A.fl ((i:ℝ) + r) / n) (A.fl ((i:ℝ) + r) / n - ((i:ℝ) + r) / n)
  rw [sub_add_sub_cancel] at this
  linarith

/-- How many of the `n` uniforms are at most `g`. -/
theorem flGrid_count {n : ℕ} {r δ : ℝ} (hr : Unit01 r) (hδ : 0 ≤ δ) {v : ℕ → ℝ} (hv : ∀ i < n, |v i - ((i:ℝ) + r) / n| ≤ δ) {g : ℝ} (hg0 : 0 ≤ g) (hg1 : g ≤ 1) :
    n * (g - δ) - r ≤ ((List.range n).countP fun i => decide (v i ≤ g)) ∧
      (((List.range n).countP fun i => decide (v i ≤ g) : ℕ) : ℝ) ≤ n * (g + δ) - r + 1 := by
  have hr0 := hr.1
  have hr1 := hr.2
  rcases Nat.eq_zero_or_pos n with rfl | hn
  · simp; constructor <;> linarith
  have hn0 : (0:ℝ) < n := by exact_mod_cast hn
  have key : ∀ i : ℕ, ∀ y : ℝ, ((i:ℝ) + r) / n ≤ y ↔ (i:ℝ) ≤ n * y - r := by
    intro i y
    rw [div_le_iff₀ hn0]
    constructor <;> intro h <;> linarith
  constructor
  · by_cases hlow : -1 ≤ n * (g - δ) - r
    · have hle : n * (g - δ) - r ≤ n := by nlinarith
      have h1 := (countP_le_bounds n _ hlow hle).1
      refine h1.trans ?_
      have : (List.range n).countP (fun i : ℕ => decide ((i:ℝ) ≤ n * (g - δ) - r)) ≤ (List.range n).countP (fun i => decide (v i ≤ g)) := by
        refine List.countP_mono_left fun i hi h => ?_
        rw [decide_eq_true_eq] at h ⊢
        have h2 := (key i _).mpr h
        have h3 := (abs_le.mp (hv i (List.mem_range.mp hi))).2
        linarith
      exact_mod_cast this
    · have : (0:ℝ) ≤ (((List.range n).countP fun i => decide (v i ≤ g) : ℕ) : ℝ) := Nat.cast_nonneg _
      linarith
  · by_cases hhi : n * (g + δ) - r ≤ n
    · have hlow : -1 ≤ n * (g + δ) - r := by
        have : 0 ≤ n * (g + δ) := mul_nonneg hn0.le (by linarith)
        linarith
      have h1 := (countP_le_bounds n _ hlow hhi).2.1
      refine le_trans ?_ h1
      have : (List.range n).countP (fun i => decide (v i ≤ g)) ≤ (List.range n).countP (fun i : ℕ => decide ((i:ℝ) ≤ n * (g + δ) - r)) := by
        refine List.countP_mono_left fun i hi h => ?_
        rw [decide_eq_true_eq] at h ⊢
        rw [← key]
        have h3 := (abs_le.mp (hv i (List.mem_range.mp hi))).1
        linarith
      exact_mod_cast this
    · have h1 : (List.range n).countP (fun i => decide (v i ≤ g)) ≤ (List.range n).length := List.countP_le_length
      rw [List.length_range] at h1
      have h2 : (((List.range n).countP fun i => decide (v i ≤ g) : ℕ) : ℝ) ≤ n := by exact_mod_cast h1
      push Not at hhi
      linarith

/-- **C105.** The number of copies of a particle in rounded arithmetic: it differs from the exact expected number `n·w_j/Σw` by at most 1, as without rounding (C02), plus `n`
times a slack that vanishes with the accuracy. -/
theorem C105_sample_count (hA : Rounded A nmax) (hE : Accurate A ε η) {w : List ℝ} (hw : FlWeights A w) (hp : ∃ x ∈ w, 0 < x) {n : ℕ} (hn : n ≤ nmax) {r : ℝ}
    (hr : Unit01 r) (hrr : A.fl r = r) {idx : List ℕ} (h : flSample A w n r = .ok idx) (j : ℕ) :
    |(idx.count j : ℝ) - n * prob w j| ≤ 1 + n * (2 * (flGrowth ε w.length - 1 + ε + η) + 2 * (2 * ε + η)) := by
  have hne : w ≠ [] := by rintro rfl; simp at hp
  have hl : 0 < w.length := List.length_pos_iff.mpr hne
  have ht := flTotal_pos hA hw hp
  have he0 := hE.eps.1
  have heta := hE.eta
  have hnr : (0:ℝ) ≤ n := Nat.cast_nonneg n
  obtain ⟨idx', h', -, hrange, -⟩ := C105_sample_valid hA hw hp hn hr
  rw [h] at h'; cases h'
  obtain ⟨δg, hδg⟩ : ∃ δ, δ = flGrowth ε w.length - 1 + ε + η := ⟨_, rfl⟩
  obtain ⟨δu, hδu⟩ : ∃ δ, δ = 2 * ε + η := ⟨_, rfl⟩
  have hq1 : 1 ≤ flGrowth ε w.length := one_le_pow₀ (by rw [le_div_iff₀ (by linarith [hE.eps.2])]; linarith)
  have hg0 : 0 ≤ δg := by rw [hδg]; linarith
  have hu0 : 0 ≤ δu := by rw [hδu]; linarith
  rw [← hδg, ← hδu]
  by_cases hj : j < w.length
  swap
  · have h1 : idx.count j = 0 := List.count_eq_zero.mpr fun hm => hj (hrange j hm)
    have h2 : prob w j = 0 := by simp [prob, List.getD_eq_getElem?_getD, List.getElem?_eq_none (not_lt.mp hj)]
    rw [h1, h2]
    simp only [Nat.cast_zero, mul_zero, sub_zero, abs_zero]
    have := mul_nonneg hnr (by linarith : 0 ≤ 2 * δg + 2 * δu)
    linarith
  rw [flSample_eq ht hne] at h
  cases h
  obtain ⟨v, hv⟩ : ∃ v : ℕ → ℝ, v = fun i : ℕ => A.fl (A.fl ((i:ℝ) + r) / n) := ⟨_, rfl⟩
  have hverr : ∀ i < n, |v i - ((i:ℝ) + r) / n| ≤ δu := by
    intro i hi; rw [hv, hδu]; exact flGrid_error hA hE hn hr hrr hi
  have hG : flGrid A n r = (List.range n).map v := by rw [hv]; rfl
  have hv1 : ∀ i < n, v i ≤ 1 := fun i hi =>
    (flGrid_le_one hA hn hr (v i) (by rw [hG]; exact List.mem_map.mpr ⟨i, List.mem_range.mpr hi, rfl⟩)).2
  have hnorm : ∀ k, k < w.length → 0 ≤ flNorm A w k ∧ flNorm A w k ≤ 1 ∧ |flNorm A w k - cum w (k+1)| ≤ δg := by
    intro k hk
    refine ⟨fl_nonneg hA (div_nonneg (cumAt_nonneg hA hw k) ht.le), ?_, by rw [hδg]; exact flNorm_error hA hE hw hp hk⟩
    rw [← flNorm_last hA (w := w) ht]
    exact flNorm_mono hA hw ht (by omega)
  have hcount : (((flGrid A n r).map (searchsorted ((List.range w.length).map (flNorm A w)))).count j) =
      (List.range n).countP fun i => decide (v i ≤ flNorm A w j ∧ ∀ k < j, flNorm A w k < v i) := by
    rw [hG, List.count, List.countP_map, List.countP_map]
    apply List.countP_congr
    intro i hi
    simp only [Function.comp, beq_iff_eq, decide_eq_true_eq, flSearch_iff hA hw ht hne (hv1 i (List.mem_range.mp hi)), hj, true_and]
  rw [hcount]
  obtain ⟨n0, n1, n2⟩ := hnorm j hj
  obtain ⟨b1, b2⟩ := flGrid_count hr hu0 hverr n0 n1
  have hpj : prob w j = cum w (j+1) - cum w j := by rw [cum_succ]; ring
  rw [hpj]
  rcases j with _ | k
  · have e : (fun i => decide (v i ≤ flNorm A w 0 ∧ ∀ k : ℕ, k < 0 → flNorm A w k < v i)) = fun i => decide (v i ≤ flNorm A w 0) := by
      funext i; simp
    rw [e, cum_zero, sub_zero]
    have m := abs_le.mp n2
    have m1 : n * (flNorm A w 0 - cum w (0+1)) ≤ n * δg := mul_le_mul_of_nonneg_left m.2 hnr
    have m2 : n * (-δg) ≤ n * (flNorm A w 0 - cum w (0+1)) := mul_le_mul_of_nonneg_left m.1 hnr
    have m3 := mul_nonneg hnr hg0
    have m4 := mul_nonneg hnr hu0
    rw [abs_le]
    constructor <;> nlinarith [hr.1, hr.2]
  · obtain ⟨p0, p1, p2⟩ := hnorm k (by omega)
    obtain ⟨a1, a2⟩ := flGrid_count hr hu0 hverr p0 p1
    have hc := countP_sub (List.range n) (fun i => decide (v i ≤ flNorm A w k)) (fun i => decide (v i ≤ flNorm A w (k+1))) (by
      intro i _ hi
      simp only [decide_eq_true_eq] at hi ⊢
      exact hi.trans (flNorm_mono hA hw ht (Nat.le_succ k)))
    have e : (List.range n).countP (fun i => decide (v i ≤ flNorm A w (k+1) ∧ ∀ k' < k+1, flNorm A w k' < v i)) =
        (List.range n).countP (fun i => decide (v i ≤ flNorm A w (k+1)) && !decide (v i ≤ flNorm A w k)) := by
      apply List.countP_congr
      intro i _
      simp only [decide_eq_true_eq, Bool.and_eq_true, Bool.not_eq_true', decide_eq_false_iff_not, not_le]
      refine and_congr_right fun _ => ⟨fun h => h k (Nat.lt_succ_self k), fun h k' hk' => lt_of_le_of_lt (flNorm_mono hA hw ht (by omega)) h⟩
    rw [e]
    have hc' : (((List.range n).countP (fun i => decide (v i ≤ flNorm A w (k+1)) && !decide (v i ≤ flNorm A w k)) : ℕ) : ℝ) +
        ((List.range n).countP (fun i => decide (v i ≤ flNorm A w k)) : ℕ) = ((List.range n).countP (fun i => decide (v i ≤ flNorm A w (k+1))) : ℕ) := by
      exact_mod_cast hc
    have q1 := abs_le.mp n2
    have q2 := abs_le.mp p2
    have m1 : n * (flNorm A w (k+1) - cum w (k+1+1)) ≤ n * δg := mul_le_mul_of_nonneg_left q1.2 hnr
    have m2 : n * (-δg) ≤ n * (flNorm A w (k+1) - cum w (k+1+1)) := mul_le_mul_of_nonneg_left q1.1 hnr
    have m3 : n * (flNorm A w k - cum w (k+1)) ≤ n * δg := mul_le_mul_of_nonneg_left q2.2 hnr
    have m4 : n * (-δg) ≤ n * (flNorm A w k - cum w (k+1)) := mul_le_mul_of_nonneg_left q2.1 hnr
    rw [abs_le]
    constructor <;> nlinarith

end PyPE

import Verif.Filter.Approx
import Verif.PyLemmas
import Verif.Sampling.Props
import Mathlib.Algebra.Order.Chebyshev

/-!
# Properties of `ParticleApproximation` (filter.py:1051-1143)
-/

namespace PyPE
open Real Spec

/-! ### Specification vocabulary -/

/-- The normalised weights represented by a vector of log-weights. -/
noncomputable def Spec.normWeights (lw : List ℝ) : List ℝ :=
  lw.map fun x => exp x / (lw.map exp).sum

/-- The textbook effective sample size `1 / Σ p_i²` of log-weights `lw`. -/
noncomputable def Spec.ess (lw : List ℝ) : ℝ := 1 / ((Spec.normWeights lw).map fun p => p ^ 2).sum

/-! ### Lemmas -/

theorem sum_exp_pos {l : List ℝ} (h : l ≠ []) : 0 < (l.map exp).sum := by
  apply List.sum_pos
  · intro x hx; obtain ⟨y, -, rfl⟩ := List.mem_map.mp hx; exact exp_pos y
  · simpa using h

theorem weights_exp_sub {l : List ℝ} (h : l ≠ []) (m : ℝ) : Weights (l.map fun x => exp (x - m)) := by
  constructor
  · intro x hx; obtain ⟨y, -, rfl⟩ := List.mem_map.mp hx; exact (exp_pos _).le
  · apply List.sum_pos
    · intro x hx; obtain ⟨y, -, rfl⟩ := List.mem_map.mp hx; exact exp_pos _
    · simpa using h

theorem weights_exp {l : List ℝ} (h : l ≠ []) : Weights (l.map exp) :=
  ⟨by intro x hx; obtain ⟨y, -, rfl⟩ := List.mem_map.mp hx; exact (exp_pos _).le, sum_exp_pos h⟩

theorem map_exp_sub (l : List ℝ) (m : ℝ) :
    (l.map fun x => exp (x - m)) = (l.map exp).map (exp (-m) * ·) := by
  rw [List.map_map]
  apply List.map_congr_left
  intro x _
  simp only [Function.comp]
  rw [← exp_add]; congr 1; ring

theorem sum_exp_sub (l : List ℝ) (m : ℝ) :
    (l.map fun x => exp (x - m)).sum = exp (-m) * (l.map exp).sum := by
  rw [map_exp_sub, list_sum_map_mul]

theorem normWeights_shift (l : List ℝ) (c : ℝ) :
    Spec.normWeights (l.map (· + c)) = Spec.normWeights l := by
  unfold Spec.normWeights
  have h : ((l.map (· + c)).map exp).sum = exp c * (l.map exp).sum := by
    rw [← list_sum_map_mul, List.map_map, List.map_map]
    congr 1
    apply List.map_congr_left
    intro x _
    simp only [Function.comp, exp_add]; ring
  rw [h, List.map_map]
  apply List.map_congr_left
  intro x _
  simp only [Function.comp, exp_add]
  rw [mul_comm (exp x), mul_div_mul_left _ _ (exp_pos c).ne']

theorem normWeights_sum {l : List ℝ} (h : l ≠ []) : (Spec.normWeights l).sum = 1 := by
  unfold Spec.normWeights
  have e : (l.map fun x => exp x / (l.map exp).sum) = (l.map exp).map (((l.map exp).sum)⁻¹ * ·) := by
    rw [List.map_map]; apply List.map_congr_left; intro x _; simp only [Function.comp]; field_simp
  rw [e, list_sum_map_mul, inv_mul_cancel₀ (sum_exp_pos h).ne']

theorem normWeights_length (l : List ℝ) : (Spec.normWeights l).length = l.length := by
  simp [Spec.normWeights]

theorem normWeights_pos {l : List ℝ} (h : l ≠ []) : ∀ p ∈ Spec.normWeights l, 0 < p := by
  intro p hp
  obtain ⟨x, -, rfl⟩ := List.mem_map.mp hp
  exact div_pos (exp_pos x) (sum_exp_pos h)

theorem calcNeff_eq {w : List ℝ} (h : w ≠ []) : calcNeff w = .ok (Spec.ess w) := by
  obtain ⟨m, hm⟩ := npMax_ok h
  unfold calcNeff
  rw [hm]
  simp only [ok_bind, pure_eq_ok]
  unfold Spec.ess
  have e : (w.map fun x => exp (x - m)).map (· / (w.map fun x => exp (x - m)).sum) =
      Spec.normWeights w := by
    unfold Spec.normWeights
    rw [List.map_map, sum_exp_sub]
    apply List.map_congr_left
    intro x _
    simp only [Function.comp]
    rw [sub_eq_add_neg, exp_add, mul_comm (exp x), mul_div_mul_left _ _ (exp_pos _).ne']
  rw [e]

theorem list_var (l : List ℝ) (c : ℝ) :
    (l.map fun p => (p - c) ^ 2).sum =
      (l.map fun p => p ^ 2).sum - 2 * c * l.sum + l.length * c ^ 2 := by
  induction l with
  | nil => simp
  | cons a l ih =>
    simp only [List.map_cons, List.sum_cons, ih, List.length_cons, Nat.cast_add, Nat.cast_one]; ring

theorem list_sq_nonneg (l : List ℝ) (f : ℝ → ℝ) : 0 ≤ (l.map fun p => (f p) ^ 2).sum := by
  apply List.sum_nonneg
  intro x hx; obtain ⟨y, -, rfl⟩ := List.mem_map.mp hx; positivity

theorem list_sq_le (l : List ℝ) (h0 : ∀ p ∈ l, 0 ≤ p) :
    (l.map fun p => p ^ 2).sum ≤ l.sum ^ 2 := by
  induction l with
  | nil => simp
  | cons a l ih =>
    have h1 := ih fun p hp => h0 p (List.mem_cons_of_mem _ hp)
    have h2 : 0 ≤ l.sum := List.sum_nonneg fun p hp => h0 p (List.mem_cons_of_mem _ hp)
    have h3 := h0 a (by simp)
    simp only [List.map_cons, List.sum_cons]
    nlinarith [mul_nonneg h3 h2]

theorem sq_sum_pos {l : List ℝ} (h : l ≠ []) (h0 : ∀ p ∈ l, 0 < p) :
    0 < (l.map fun p => p ^ 2).sum := by
  apply List.sum_pos
  · intro x hx; obtain ⟨y, hy, rfl⟩ := List.mem_map.mp hx; have := h0 y hy; positivity
  · simpa using h

theorem sq_sum_ge {l : List ℝ} (h : l ≠ []) (hs : l.sum = 1) :
    1 / (l.length : ℝ) ≤ (l.map fun p => p ^ 2).sum := by
  have hn : (0:ℝ) < l.length := by exact_mod_cast List.length_pos_iff.mpr h
  have h1 := list_var l (1 / l.length)
  have h2 := list_sq_nonneg l (fun p => p - 1 / l.length)
  rw [h1, hs] at h2
  have e : (l.length : ℝ) * (1 / l.length) ^ 2 = 1 / l.length := by field_simp
  rw [e] at h2
  have e2 : 2 * (1 / (l.length:ℝ)) * 1 = 2 * (1 / l.length) := by ring
  linarith

/-! ### C06: effective sample size -/

/-- C06: `calc_Neff()` is the textbook effective sample size and lies between `1` and the number of
particles. -/
theorem C06_neff_bounds {w : List ℝ} (h : w ≠ []) :
    ∃ n, calcNeff w = .ok n ∧ n = Spec.ess w ∧ 1 ≤ n ∧ n ≤ w.length := by
  refine ⟨_, calcNeff_eq h, rfl, ?_, ?_⟩
  · unfold Spec.ess
    have hne : Spec.normWeights w ≠ [] := by simpa [Spec.normWeights] using h
    have hp := sq_sum_pos hne (normWeights_pos h)
    rw [le_div_iff₀ hp, one_mul]
    have := list_sq_le (Spec.normWeights w) fun p hp => (normWeights_pos h p hp).le
    rw [normWeights_sum h] at this
    linarith
  · unfold Spec.ess
    have hne : Spec.normWeights w ≠ [] := by simpa [Spec.normWeights] using h
    have hp := sq_sum_pos hne (normWeights_pos h)
    have hge := sq_sum_ge hne (normWeights_sum h)
    rw [normWeights_length] at hge
    have hn : (0:ℝ) < w.length := by exact_mod_cast List.length_pos_iff.mpr h
    rw [div_le_iff₀ hp]
    rw [div_le_iff₀ hn] at hge
    linarith

/-- C06: `calc_Neff()` equals the number of particles exactly when all weights are equal. -/
theorem C06_neff_max_iff_uniform {w : List ℝ} (h : w ≠ []) :
    calcNeff w = .ok (w.length : ℝ) ↔ ∀ x ∈ w, ∀ y ∈ w, x = y := by
  have hn : (0:ℝ) < w.length := by exact_mod_cast List.length_pos_iff.mpr h
  have hne : Spec.normWeights w ≠ [] := by simpa [Spec.normWeights] using h
  have hp := sq_sum_pos hne (normWeights_pos h)
  have hS := sum_exp_pos h
  rw [calcNeff_eq h, Except.ok.injEq, Spec.ess, div_eq_iff hp.ne']
  have hv := list_var (Spec.normWeights w) (1 / w.length)
  rw [normWeights_sum h, normWeights_length] at hv
  have e : (w.length : ℝ) * (1 / w.length) ^ 2 = 1 / w.length := by field_simp
  rw [e] at hv
  constructor
  · intro h1
    have hq : ((Spec.normWeights w).map fun p => p ^ 2).sum = 1 / (w.length : ℝ) := by
      rw [eq_div_iff hn.ne']; linarith
    rw [hq] at hv
    have hz : ((Spec.normWeights w).map fun p => (p - 1 / (w.length : ℝ)) ^ 2).sum = 0 := by
      rw [hv]; ring
    have hall : ∀ p ∈ Spec.normWeights w, p = 1 / w.length := by
      intro p hp
      have hle : (p - 1 / (w.length:ℝ)) ^ 2 ≤
          ((Spec.normWeights w).map fun p => (p - 1 / (w.length : ℝ)) ^ 2).sum := by
        apply List.single_le_sum
        · intro x hx; obtain ⟨y, -, rfl⟩ := List.mem_map.mp hx; positivity
        · exact List.mem_map.mpr ⟨p, hp, rfl⟩
      rw [hz] at hle
      have : (p - 1 / (w.length:ℝ)) ^ 2 = 0 := le_antisymm hle (sq_nonneg _)
      linarith [pow_eq_zero_iff (two_ne_zero) |>.mp this]
    intro x hx y hy
    have h1 := hall _ (List.mem_map.mpr ⟨x, hx, rfl⟩)
    have h2 := hall _ (List.mem_map.mpr ⟨y, hy, rfl⟩)
    have h3 : exp x / (w.map exp).sum = exp y / (w.map exp).sum := h1.trans h2.symm
    rw [div_left_inj' hS.ne'] at h3
    exact exp_injective h3
  · intro hall
    obtain ⟨x0, hx0⟩ := List.exists_mem_of_ne_nil _ h
    have hw : w = List.replicate w.length x0 :=
      List.eq_replicate_iff.mpr ⟨rfl, fun b hb => hall b hb x0 hx0⟩
    have hnw : Spec.normWeights w = List.replicate w.length (1 / (w.length : ℝ)) := by
      have hsum : (w.map exp).sum = w.length * exp x0 := by
        rw [hw]; simp
      apply List.eq_replicate_iff.mpr
      refine ⟨normWeights_length w, ?_⟩
      intro b hb
      obtain ⟨y, hy, rfl⟩ := List.mem_map.mp hb
      rw [hsum, hall y hy x0 hx0]
      have := (exp_pos x0).ne'
      field_simp
    rw [hnw]
    simp only [List.map_replicate, List.sum_replicate, nsmul_eq_mul]
    field_simp

/-- C06: adding a constant to every log-weight does not change `calc_Neff()`. -/
theorem C06_neff_shift (w : List ℝ) (c : ℝ) : calcNeff (w.map (· + c)) = calcNeff w := by
  by_cases h : w = []
  · subst h; rfl
  · rw [calcNeff_eq h, calcNeff_eq (by simpa using h), Spec.ess, Spec.ess, normWeights_shift]

/-- C06: the only failure is the empty approximation. -/
theorem C06_neff_empty : calcNeff [] = .error .valueError := rfl

example : ∃ n, calcNeff [0, -1, -3] = .ok n ∧ 1 ≤ n ∧ n ≤ 3 := by
  obtain ⟨n, h1, -, h2, h3⟩ := C06_neff_bounds (w := [0, -1, -3]) (by simp)
  exact ⟨n, h1, h2, by simpa using h3⟩

/-! ### C09: construction -/

/-- C09: without explicit weights every particle gets log-weight `-log N`; the weights sum to one, the
particles are those given. With explicit log-weights they are stored unchanged. Zero particles without
weights raise `ValueError`. -/
theorem C09_new {P : Type} (particles : List P) :
    (particles ≠ [] → ∃ pa, PA.new particles none = .ok pa ∧ pa.part = particles ∧
        pa.num = particles.length ∧ pa.w.length = particles.length ∧
        (∀ x ∈ pa.w, exp x = 1 / particles.length) ∧ (pa.w.map exp).sum = 1 ∧ pa.w_offset = 0) ∧
    (∀ lw, PA.new particles (some lw) = .ok ⟨particles, lw, particles.length, 0⟩) ∧
    (PA.new ([] : List P) none = .error .valueError) := by
  refine ⟨?_, fun _ => rfl, rfl⟩
  intro h
  have hn : (0:ℝ) < particles.length := by exact_mod_cast List.length_pos_iff.mpr h
  have h0 : particles.length ≠ 0 := by simpa using h
  refine ⟨_, by simp only [PA.new, h0, if_false]; rfl, rfl, rfl, by simp, ?_, ?_, rfl⟩
  · intro x hx
    rw [List.eq_of_mem_replicate hx, exp_neg, exp_log hn, one_div]
  · simp only [List.map_replicate, List.sum_replicate, nsmul_eq_mul, exp_neg, exp_log hn]
    field_simp

/-- C09: construction from a seed gives `num` copies of it, equally weighted. -/
theorem C09_new_seed {P : Type} (seed : P) (n : ℕ) (hn : 0 < n) :
    ∃ pa, PA.newSeed seed n = .ok pa ∧ pa.num = n ∧ (∀ x ∈ pa.part, x = seed) ∧
      pa.part.length = n ∧ (pa.w.map exp).sum = 1 := by
  obtain ⟨pa, h1, h2, h3, -, -, h4, -⟩ := (C09_new (List.replicate n seed)).1 (by simp; omega)
  refine ⟨pa, h1, by simpa using h3, ?_, by simp [h2], h4⟩
  intro x hx; rw [h2] at hx; exact List.eq_of_mem_replicate hx

/-! ### C07: resampling -/

/-- C07: `resample(model, N)` of a non-empty approximation succeeds for every draw; the result has `N`
particles, `N` equal log-weights `-log N` (so the weights sum to one), offset `0`; the `i`-th new
particle is the old particle named by the `i`-th returned ancestor index, and the number of copies of
old particle `j` deviates by at most one from `N` times its normalised weight. -/
theorem C07_resample {P : Type} (pa : PA P) (hne : pa.w ≠ []) (hl : pa.part.length = pa.w.length)
    (N : ℕ) (hN : 0 < N) {r : ℝ} (hr : Unit01 r) :
    ∃ pa' anc, pa.resample N r = .ok (pa', anc) ∧
      anc.length = N ∧ (∀ a ∈ anc, a < pa.part.length) ∧
      pa'.part.length = N ∧ pa'.num = N ∧ pa'.w_offset = 0 ∧
      (∀ i a : ℕ, anc[i]? = some a → pa'.part[i]? = pa.part[a]?) ∧
      pa'.w = List.replicate N (-log N) ∧ (pa'.w.map exp).sum = 1 ∧
      (∀ j p, (Spec.normWeights pa.w)[j]? = some p → |(anc.count j : ℝ) - N * p| ≤ 1) := by
  obtain ⟨m, hm⟩ := npMax_ok hne
  have hW := weights_exp_sub hne m
  obtain ⟨anc, hs, hlen, hrange⟩ := C01_sample_length_range hW N hr
  simp only [List.length_map] at hrange
  obtain ⟨part, hpart⟩ := fancy_ok (a := pa.part) (ind := anc) (by rw [hl]; exact hrange)
  obtain ⟨hpl, hpk⟩ := fancy_spec.mp hpart
  have hNr : (0:ℝ) < N := by exact_mod_cast hN
  have hlog : log (1 / (N:ℝ)) = -log N := by rw [one_div, log_inv]
  refine ⟨⟨part, List.replicate N (log (1 / (N:ℝ))), N, 0⟩, anc, ?_, hlen,
    by rw [hl]; exact hrange, by rw [hpl, hlen], rfl, rfl, ?_, by rw [hlog], ?_, ?_⟩
  · unfold PA.resample
    rw [hm]; simp only [ok_bind, hs, hpart, pure_eq_ok]
  · intro i a hi
    exact (hpk i a hi).1.symm
  · simp only [hlog, List.map_replicate, List.sum_replicate, nsmul_eq_mul, exp_neg, exp_log hNr]
    field_simp
  · intro j p hj
    have := (C02_sample_count hW N hr hs j).1
    have hp : prob (pa.w.map fun x => exp (x - m)) j = p := by
      unfold prob
      rw [sum_exp_sub]
      simp only [Spec.normWeights, List.getElem?_map, Option.map_eq_some_iff] at hj
      obtain ⟨x, hx, rfl⟩ := hj
      simp only [List.getD_eq_getElem?_getD, List.getElem?_map, hx, Option.map_some,
        Option.getD_some]
      rw [sub_eq_add_neg, exp_add, mul_comm (exp x), mul_div_mul_left _ _ (exp_pos _).ne']
    rwa [hp] at this

example : ∃ pa' anc, (PA.mk ["a", "b"] [0, -2] 2 0).resample 5 (1/2) = .ok (pa', anc) ∧
    anc.length = 5 := by
  obtain ⟨a, b, h, hl, -⟩ := C07_resample (PA.mk ["a", "b"] [0, -2] 2 0) (by simp) rfl 5 (by norm_num)
    (r := 1/2) (by constructor <;> norm_num)
  exact ⟨a, b, h, hl⟩

/-- C07: `pa.sample()` returns one of the particles. -/
theorem C07_sample_mem {P : Type} (pa : PA P) (hne : pa.w ≠ []) (hl : pa.part.length = pa.w.length)
    {r : ℝ} (hr : Unit01 r) : ∃ x, pa.sample r = .ok x ∧ x ∈ pa.part := by
  obtain ⟨idx, hs, hlen, hrange⟩ := C01_sample_length_range (weights_exp hne) 1 hr
  obtain ⟨k, rfl⟩ := List.length_eq_one_iff.mp hlen
  have hk : k < pa.part.length := by rw [hl]; simpa using hrange k (by simp)
  refine ⟨pa.part[k], ?_, List.getElem_mem hk⟩
  unfold PA.sample
  rw [hs]
  simp only [ok_bind]
  rw [show getIdx [k] 0 = .ok k from rfl]
  simp only [ok_bind, getIdx_of_lt hk]

/-! ### C08: `find_best_particles` -/

/-- C08 (what the code does): for `n ≤ N`, `find_best_particles(n)` returns `n` indices such that every
other particle has at least as large a weight — the *lightest* particles. -/
theorem C08_find_best_returns_lightest {w : List ℝ} {order : List ℕ} (ho : IsArgsort w order) {n : ℕ}
    (hn : n ≤ w.length) :
    ∃ best, findBest order n = .ok best ∧ best.length = n ∧
      ∀ i ∈ best, ∀ j < w.length, j ∉ best → w.getD i 0 ≤ w.getD j 0 := by
  obtain ⟨hp, hs⟩ := ho
  have hlen : order.length = w.length := by simpa using hp.length_eq
  have hb : findBest order n = .ok (order.take n) := by
    unfold findBest
    rw [fancy_spec]
    refine ⟨by simp; omega, ?_⟩
    intro k i hk
    obtain ⟨h1, h2⟩ := List.getElem?_eq_some_iff.mp hk
    simp only [List.getElem_range] at h2
    subst h2
    simp only [List.length_range] at h1
    refine ⟨?_, by omega⟩
    rw [List.getElem?_take_of_lt h1]
  refine ⟨_, hb, by simp; omega, ?_⟩
  intro i hi j hj hj'
  have hjo : j ∈ order := hp.mem_iff.mpr (List.mem_range.mpr hj)
  rw [← List.take_append_drop n order] at hjo hs
  rcases List.mem_append.mp hjo with h | h
  · exact absurd h hj'
  · rw [List.map_append, List.pairwise_append] at hs
    exact hs.2.2 _ (List.mem_map.mpr ⟨i, hi, rfl⟩) _ (List.mem_map.mpr ⟨j, h, rfl⟩)

/-- C08 (the documented claim is false): with log-weights `[0, -5]` particle 0 is the most likely one,
but `find_best_particles(1)` returns particle 1. -/
theorem C08_find_best_not_heaviest :
    IsArgsort [0, -5] [1, 0] ∧ findBest [1, 0] 1 = .ok [1] ∧
      ¬ (∀ i ∈ [1], ∀ j < 2, j ∉ [1] → ([0, -5] : List ℝ).getD j 0 ≤ ([0, -5] : List ℝ).getD i 0) ∧
      (∀ order, IsArgsort [0, -5] order → findBest order 1 = .ok [1]) := by
  refine ⟨⟨by decide, by simp⟩, rfl, ?_, ?_⟩
  · intro h; have := h 1 (by simp) 0 (by norm_num) (by simp); norm_num at this
  · rintro order ⟨hp, hs⟩
    have hlen : order.length = 2 := by simpa using hp.length_eq
    match order, hlen with
    | [a, b], _ =>
      have ha : a < 2 := by have := (hp.mem_iff (a := a)).mp (by simp); simpa using this
      have hb : b < 2 := by have := (hp.mem_iff (a := b)).mp (by simp); simpa using this
      have hnd : ([a, b] : List ℕ).Nodup := hp.nodup_iff.mpr List.nodup_range
      interval_cases a <;> interval_cases b <;> simp at hnd hs <;> first | rfl | (norm_num at hs)

/-- C08: asking for more particles than there are raises `IndexError`. -/
theorem C08_find_best_too_many {w : List ℝ} {order : List ℕ} (ho : IsArgsort w order) {n : ℕ}
    (hn : w.length < n) : findBest order n = .error .indexError := by
  have hlen : order.length = w.length := by simpa using ho.1.length_eq
  unfold findBest
  cases h : fancy order (List.range n) with
  | error e => rw [(fancy_error h).1]
  | ok b =>
    obtain ⟨h1, h2⟩ := fancy_spec.mp h
    have := (h2 w.length w.length (by simp [hn])).2
    omega

end PyPE

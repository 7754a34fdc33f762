import Verif.Filter.Lemmas

/-!
# Per-step properties of the filters (filter.py:26-803)
-/

namespace PyPE
open Real Spec

variable {P U Y V Ω : Type}

/-! ### Specification vocabulary -/

/-- Bayes' rule on a finite set: prior times likelihood, normalised. -/
noncomputable def Spec.bayes (prior lik : List ℝ) : List ℝ :=
  let post := List.zipWith (· * ·) prior lik
  post.map (· / post.sum)

theorem exp_zipWith_add (w l : List ℝ) :
    (List.zipWith (· + ·) w l).map exp = List.zipWith (· * ·) (w.map exp) (l.map exp) := by
  rw [List.map_zipWith, List.zipWith_map]
  congr 1; funext a b; exact exp_add a b

theorem normWeights_eq (w : List ℝ) :
    normWeights w = (w.map exp).map (· / (w.map exp).sum) := by
  simp [normWeights, List.map_map, Function.comp_def]

theorem zipWith_mul_left (c : ℝ) (a b : List ℝ) :
    List.zipWith (· * ·) (a.map (c * ·)) b = (List.zipWith (· * ·) a b).map (c * ·) := by
  rw [List.zipWith_map_left, List.map_zipWith]
  congr 1; funext x y; ring

theorem normWeights_add {w : List ℝ} (hne : w ≠ []) (l : List ℝ) :
    normWeights (List.zipWith (· + ·) w l) = bayes (normWeights w) (l.map exp) := by
  have hS := sum_exp_pos hne
  unfold Spec.bayes
  rw [normWeights_eq, exp_zipWith_add, normWeights_eq w]
  have e : (w.map exp).map (· / (w.map exp).sum) = (w.map exp).map (((w.map exp).sum)⁻¹ * ·) := by
    apply List.map_congr_left; intro x _; field_simp
  rw [e, zipWith_mul_left]
  simp only [list_sum_map_mul, List.map_map]
  apply List.map_congr_left
  intro x _
  simp only [Function.comp]
  rw [mul_div_mul_left _ _ (inv_ne_zero hS.ne')]

/-- Two log-weight vectors with maximum `0` that represent the same distribution are equal. -/
theorem eq_of_max_zero_of_shift {a b : List ℝ} {c : ℝ} (ha : npMax a = .ok 0) (hb : npMax b = .ok 0)
    (h : a = b.map (· - c)) : a = b := by
  have hc : c = 0 := by
    obtain ⟨h1, h2⟩ := npMax_spec ha
    obtain ⟨h3, h4⟩ := npMax_spec hb
    rw [h] at h1 h2
    obtain ⟨x, hx, hxc⟩ := List.mem_map.mp h1
    have := h4 x hx
    have := h2 _ (List.mem_map.mpr ⟨0, h3, rfl⟩)
    linarith
  rw [h, hc]; simp

/-! ### C10: measurement update -/

/-- C10: `ParticleFilter.measure` (and `SIR.measure`) applies Bayes' rule: with `l` the log-likelihoods
returned by the model, the new normalised weights are the posterior of the old ones; each
`w_i + w_offset` grows by exactly `l_i`; the largest log-weight becomes `0`; the particles are
untouched. -/
theorem C10_measure_bayes {M : Callbacks P U Y V Ω} {N : ℕ} (hM : FilterContract M N) (hN : 0 < N)
    (tr : List (Step P)) (anc : List ℕ) {pa : PA P} (h : pa.WF N)
    (uv : List (Slot U)) (yv : List (Slot Y)) (tv : List ℕ) (cur : ℕ) :
    ∃ l pa', M.measure pa.part tr uv (yv.take (cur+1)) (tv.take (cur+1)) anc = .ok l ∧
      pfMeasure M tr anc pa uv yv tv cur = .ok pa' ∧
      normWeights pa'.w = bayes (normWeights pa.w) (l.map exp) ∧
      (∀ i a b : ℝ, ∀ k : ℕ, pa.w[k]? = some a → l[k]? = some b → pa'.w[k]? = some i →
        i + pa'.w_offset = a + b + pa.w_offset) ∧
      (0 ∈ pa'.w ∧ ∀ x ∈ pa'.w, x ≤ 0) ∧ pa'.part = pa.part ∧ pa'.w.length = N := by
  obtain ⟨l, pa', hl, hlen, hm, hw, hwf⟩ := pfMeasure_ok hM hN tr anc h uv yv tv cur
  obtain ⟨h1, h2, h3, h4, h5, c, h6, h7⟩ := weightUpdate_spec hw
  refine ⟨l, pa', hl, hm, ?_, ?_, npMax_spec h5, h1, hwf.w_len⟩
  · rw [h7, normWeights_zipWith, normWeights_add (h.w_ne hN)]
  · intro i a b k ha hb hi
    rw [h7, List.getElem?_zipWith, ha, hb] at hi
    simp only [Option.some.injEq] at hi
    rw [h6, ← hi]; ring

/-- C10: if the model returns no likelihoods or a wrong number of them the update raises `ValueError`
instead of producing weights. -/
theorem C10_measure_bad_length (pa : PA P) (nw : List ℝ) (h : nw = [] ∨ nw.length ≠ pa.w.length) :
    weightUpdate pa nw = .error .valueError := by
  unfold weightUpdate
  by_cases hn : nw = []
  · subst hn; rfl
  · obtain ⟨m, hm⟩ := npMax_ok hn
    have hl := h.resolve_left hn
    rw [hm]
    simp only [ok_bind]
    have : ¬ pa.w.length = (nw.map (· - m)).length := by simpa using fun h => hl h.symm
    simp [npAdd, Ne.symm hl]

/-! ### C11: when resampling happens -/

theorem maybeResample_flag {res : ℝ} {pa pa' : PA P} {r : ℝ} {flag : Bool} {anc : List ℕ}
    (hne : pa.w ≠ []) (h : maybeResample res pa r = .ok (pa', flag, anc)) :
    (flag = true ↔ 0 < res ∧ ess pa.w < res * pa.num) ∧
    (flag = false → pa' = pa ∧ anc = List.range pa.num) := by
  unfold maybeResample at h
  by_cases h0 : 0 < res
  · simp only [h0, if_true, calcNeff_eq hne, ok_bind] at h
    by_cases h1 : ess pa.w < res * pa.num
    · simp only [h1, if_true] at h
      obtain ⟨⟨q, a⟩, -, h⟩ := bind_eq_ok.mp h
      simp only [pure_eq_ok, Except.ok.injEq, Prod.mk.injEq] at h
      simp [h0, h1, ← h.2.1]
    · simp only [h1, if_false, pure_eq_ok, Except.ok.injEq, Prod.mk.injEq] at h
      simp [h1, ← h.2.1, h.1.symm, h.2.2.symm]
  · simp only [h0, if_false, pure_eq_ok, Except.ok.injEq, Prod.mk.injEq] at h
    simp [h0, ← h.2.1, h.1.symm, h.2.2.symm]

/-- The resampling decision as documented: `res` positive and effective sample size below `res·N`. -/
def Spec.ShouldResample (res : ℝ) (lw : List ℝ) (N : ℕ) : Prop := 0 < res ∧ ess lw < res * N

/-- C11 (pf): whenever `ParticleFilter.forward` returns, its flag says whether it resampled, and it
resampled exactly when `res > 0` and `N_eff < res·N` for the last stored weights; without resampling the
ancestors are `0, …, N-1`. -/
theorem C11_pf_resample_iff {M : Callbacks P U Y V Ω} {res : ℝ} {tr : List (Step P)} {last : Step P}
    (hlast : tr.getLast? = some last) (hne : last.pa.w ≠ [])
    {yv : List (Slot Y)} {uv : List (Slot U)} {tv : List ℕ} {cur : ℕ} {d : Draws Ω} {pa : PA P}
    {flag : Bool} {anc : List ℕ} (h : pfForward M res tr yv uv tv cur d = .ok (pa, flag, anc)) :
    (flag = true ↔ ShouldResample res last.pa.w last.pa.part.length) ∧
    (flag = false → anc = List.range last.pa.part.length) := by
  unfold pfForward at h
  obtain ⟨l', hl', h⟩ := bind_eq_ok.mp h
  obtain rfl : last = l' := by rw [getLast_ok, hlast] at hl'; exact Option.some.inj hl'
  obtain ⟨pa0, h0, h⟩ := bind_eq_ok.mp h
  simp only [PA.new, Except.ok.injEq] at h0
  subst h0
  obtain ⟨⟨p1, f1, a1⟩, hm, h⟩ := bind_eq_ok.mp h
  obtain ⟨p2, -, h⟩ := bind_eq_ok.mp h
  obtain ⟨p3, -, h⟩ := bind_eq_ok.mp h
  simp only [pure_eq_ok, Except.ok.injEq, Prod.mk.injEq] at h
  obtain ⟨-, rfl, rfl⟩ := h
  have := maybeResample_flag (pa := ⟨last.pa.part, last.pa.w, last.pa.part.length, 0⟩) hne hm
  exact ⟨this.1, fun hf => (this.2 hf).2⟩

/-- C11 (sir): the same rule for `SIR.forward`. -/
theorem C11_sir_resample_iff {M : Callbacks P U Y V Ω} {res : ℝ} {tr : List (Step P)} {last : Step P}
    (hlast : tr.getLast? = some last) (hne : last.pa.w ≠ [])
    {yv : List (Slot Y)} {uv : List (Slot U)} {tv : List ℕ} {cur : ℕ} {d : Draws Ω} {pa : PA P}
    {flag : Bool} {anc : List ℕ} (h : sirForward M res tr yv uv tv cur d = .ok (pa, flag, anc)) :
    (flag = true ↔ ShouldResample res last.pa.w last.pa.part.length) ∧
    (flag = false → anc = List.range last.pa.part.length) := by
  unfold sirForward at h
  obtain ⟨l', hl', h⟩ := bind_eq_ok.mp h
  obtain rfl : last = l' := by rw [getLast_ok, hlast] at hl'; exact Option.some.inj hl'
  obtain ⟨pa0, h0, h⟩ := bind_eq_ok.mp h
  simp only [PA.new, Except.ok.injEq] at h0
  subst h0
  obtain ⟨⟨p1, f1, a1⟩, hm, h⟩ := bind_eq_ok.mp h
  obtain ⟨_, -, h⟩ := bind_eq_ok.mp h
  obtain ⟨_, -, h⟩ := bind_eq_ok.mp h
  obtain ⟨_, -, h⟩ := bind_eq_ok.mp h
  obtain ⟨_, -, h⟩ := bind_eq_ok.mp h
  obtain ⟨_, -, h⟩ := bind_eq_ok.mp h
  obtain ⟨_, -, h⟩ := bind_eq_ok.mp h
  obtain ⟨_, -, h⟩ := bind_eq_ok.mp h
  obtain ⟨_, -, h⟩ := bind_eq_ok.mp h
  obtain ⟨_, -, h⟩ := bind_eq_ok.mp h
  obtain ⟨_, -, h⟩ := bind_eq_ok.mp h
  obtain ⟨_, -, h⟩ := bind_eq_ok.mp h
  simp only [pure_eq_ok, Except.ok.injEq, Prod.mk.injEq] at h
  obtain ⟨-, rfl, rfl⟩ := h
  have := maybeResample_flag (pa := ⟨last.pa.part, last.pa.w, last.pa.part.length, 0⟩) hne hm
  exact ⟨this.1, fun hf => (this.2 hf).2⟩

/-- C11 (pfy): the same rule for `FFPropY.forward`. -/
theorem C11_pfy_resample_iff {M : Callbacks P U Y V Ω} {res : ℝ} {N : ℕ} {tr : List (Step P)}
    {last : Step P} (hlast : tr.getLast? = some last) (hne : last.pa.w ≠ [])
    {yv : List (Slot Y)} {uv : List (Slot U)} {tv : List ℕ} {cur : ℕ} {d : Draws Ω} {pa : PA P}
    {flag : Bool} {anc : List ℕ} (h : ffpropyForward M res N tr yv uv tv cur d = .ok (pa, flag, anc)) :
    (flag = true ↔ ShouldResample res last.pa.w last.pa.part.length) ∧
    (flag = false → anc = List.range last.pa.part.length) := by
  unfold ffpropyForward at h
  obtain ⟨l', hl', h⟩ := bind_eq_ok.mp h
  obtain rfl : last = l' := by rw [getLast_ok, hlast] at hl'; exact Option.some.inj hl'
  obtain ⟨pa0, h0, h⟩ := bind_eq_ok.mp h
  simp only [PA.new, Except.ok.injEq] at h0
  subst h0
  obtain ⟨⟨p1, f1, a1⟩, hm, h⟩ := bind_eq_ok.mp h
  obtain ⟨_, -, h⟩ := bind_eq_ok.mp h
  obtain ⟨_, -, h⟩ := bind_eq_ok.mp h
  obtain ⟨_, -, h⟩ := bind_eq_ok.mp h
  obtain ⟨_, -, h⟩ := bind_eq_ok.mp h
  obtain ⟨_, -, h⟩ := bind_eq_ok.mp h
  obtain ⟨_, -, h⟩ := bind_eq_ok.mp h
  obtain ⟨_, -, h⟩ := bind_eq_ok.mp h
  obtain ⟨_, -, h⟩ := bind_eq_ok.mp h
  simp only [pure_eq_ok, Except.ok.injEq, Prod.mk.injEq] at h
  obtain ⟨-, rfl, rfl⟩ := h
  have := maybeResample_flag (pa := ⟨last.pa.part, last.pa.w, last.pa.part.length, 0⟩) hne hm
  exact ⟨this.1, fun hf => (this.2 hf).2⟩

/-- C11: `res ≤ 0` never asks for resampling; `res > 1` always does. -/
theorem C11_res_extremes (res : ℝ) {lw : List ℝ} (hne : lw ≠ []) :
    (res ≤ 0 → ¬ ShouldResample res lw lw.length) ∧ (1 < res → ShouldResample res lw lw.length) := by
  refine ⟨fun h hs => absurd hs.1 (not_lt.mpr h), fun h => ⟨by linarith, ?_⟩⟩
  obtain ⟨n, -, rfl, -, hle⟩ := C06_neff_bounds hne
  have hn : (0:ℝ) < lw.length := by exact_mod_cast List.length_pos_iff.mpr hne
  nlinarith

/-- C11: with exactly uniform weights no `res ≤ 1` triggers resampling. -/
theorem C11_uniform_no_resample {res : ℝ} (hres : res ≤ 1) {lw : List ℝ} (hne : lw ≠ [])
    (hu : ∀ x ∈ lw, ∀ y ∈ lw, x = y) : ¬ ShouldResample res lw lw.length := by
  rintro ⟨-, h⟩
  have := (C06_neff_max_iff_uniform hne).mpr hu
  rw [calcNeff_eq hne, Except.ok.injEq] at this
  rw [this] at h
  have hn : (0:ℝ) < lw.length := by exact_mod_cast List.length_pos_iff.mpr hne
  nlinarith

/-! ### C12: well-formedness of one filter step -/

/-- C12: on a well-formed last step and with callbacks honouring their contract,
`ParticleFilter.forward` never raises, for every draw; the result has `N` particles, `N` log-weights
with maximum `0`, `N` valid ancestors. -/
theorem C12_pf_forward_total {M : Callbacks P U Y V Ω} {N : ℕ} (hM : FilterContract M N) (hN : 0 < N)
    (res : ℝ) {tr : List (Step P)} {last : Step P} (hlast : tr.getLast? = some last)
    (hwf : last.pa.WF N) (yv : List (Slot Y)) (uv : List (Slot U)) (tv : List ℕ) (cur : ℕ) (d : Draws Ω)
    (hd : Unit01 d.r) :
    ∃ pa flag anc, pfForward M res tr yv uv tv cur d = .ok (pa, flag, anc) ∧
      pa.part.length = N ∧ pa.w.length = N ∧ pa.num = N ∧ (0 ∈ pa.w ∧ ∀ x ∈ pa.w, x ≤ 0) ∧
      anc.length = N ∧ ∀ a ∈ anc, a < N := by
  obtain ⟨pa0, h0, hwf0, -, -, -⟩ := PA.new_some_wf hwf.part_len hwf.w_len
  obtain ⟨pa1, flag, anc, h1, hwf1, hal, har, -, -, -, -⟩ := maybeResample_spec res hwf0 hN hd
  obtain ⟨pa2, h2, hwf2, -, -⟩ := pfUpdate_ok hM tr anc uv yv tv cur hwf1 d.ω
  obtain ⟨l, pa3, -, -, h3, hw, hwf3⟩ := pfMeasure_ok hM hN tr anc hwf2 uv yv tv (cur+1)
  obtain ⟨-, -, -, -, hmax, -⟩ := weightUpdate_spec hw
  refine ⟨pa3, flag, anc, ?_, hwf3.part_len, hwf3.w_len, hwf3.num_eq, npMax_spec hmax, hal, har⟩
  unfold pfForward
  rw [getLast_ok.mpr hlast]
  simp only [ok_bind, h0, h1, h2, h3, pure_eq_ok]

/-! ### C17: auxiliary particle filter -/

/-- C17: when `AuxiliaryParticleFilter.forward` returns without having resampled, its particles and its
log-weights are exactly those `ParticleFilter.forward` (resampling disabled) computes from the same
data and draws: the first-stage weights cancel. -/
theorem C17_apf_no_resample_eq_pf {M : Callbacks P U Y V Ω} {res : ℝ} {tr : List (Step P)}
    {yv : List (Slot Y)} {uv : List (Slot U)} {tv : List ℕ} {cur : ℕ} {d : Draws Ω} {pa : PA P}
    {anc : List ℕ} (h : apfForward M res tr yv uv tv cur d = .ok (pa, false, anc)) :
    ∃ pa', pfForward M 0 tr yv uv tv cur d = .ok (pa', false, anc) ∧ pa'.part = pa.part ∧
      pa'.w = pa.w := by
  unfold apfForward at h
  obtain ⟨last, hlast, h⟩ := bind_eq_ok.mp h
  obtain ⟨pa0, h0, h⟩ := bind_eq_ok.mp h
  simp only [PA.new, Except.ok.injEq] at h0
  subst h0
  obtain ⟨y, hy, h⟩ := bind_eq_ok.mp h
  obtain ⟨⟨pa1, l1⟩, h1, h⟩ := bind_eq_ok.mp h
  obtain ⟨⟨pa2, flag, anc2, l2⟩, h2, h⟩ := bind_eq_ok.mp h
  obtain ⟨pa3, h3, h⟩ := bind_eq_ok.mp h
  obtain ⟨pa4, h4, h⟩ := bind_eq_ok.mp h
  cases l2 with
  | none => simp at h
  | some l =>
    simp only at h
    obtain ⟨w5, h5, h⟩ := bind_eq_ok.mp h
    obtain ⟨m5, h6, h⟩ := bind_eq_ok.mp h
    simp only [pure_eq_ok, Except.ok.injEq, Prod.mk.injEq] at h
    obtain ⟨hpa, rfl, rfl⟩ := h
    -- not resampled: pa2 = pa1, ancestors are the identity, l2 = l1
    have hnr : pa2 = pa1 ∧ anc2 = List.range pa1.num ∧ l1 = some l := by
      by_cases hres : res ≠ 0
      · simp only [hres, ne_eq, not_false_eq_true, if_true] at h2
        obtain ⟨neff, -, h2⟩ := bind_eq_ok.mp h2
        by_cases hlt : neff < res * pa1.num
        · simp only [hlt, if_true] at h2
          obtain ⟨⟨q, a⟩, -, h2⟩ := bind_eq_ok.mp h2
          cases l1 with
          | none => simp at h2
          | some l1 =>
            simp only at h2
            obtain ⟨l', -, h2⟩ := bind_eq_ok.mp h2
            simp at h2
        · simp only [hlt, if_false, pure_eq_ok, Except.ok.injEq, Prod.mk.injEq] at h2
          exact ⟨h2.1.symm, h2.2.2.1.symm, h2.2.2.2⟩
      · simp only [hres, if_false, pure_eq_ok, Except.ok.injEq, Prod.mk.injEq] at h2
        exact ⟨h2.1.symm, h2.2.2.1.symm, h2.2.2.2⟩
    obtain ⟨rfl, rfl, rfl⟩ := hnr
    -- first stage
    have hfs : ∃ m, pa2.part = last.pa.part ∧ pa2.num = last.pa.part.length ∧
        last.pa.w.length = l.length ∧
        pa2.w = (List.zipWith (· + ·) last.pa.w l).map (· - m) := by
      have : ∀ y', y' ≠ Slot.none → (do
          let u ← getIdx uv cur
          let t ← getIdx tv cur
          let l1w ← M.evalFirstStage last.pa.part u y' t
          let w ← npAdd last.pa.w l1w
          let m ← npMax w
          pure (({ part := last.pa.part, w := w.map (· - m), num := last.pa.part.length, w_offset := 0 } : PA P),
            some l1w)) = Except.ok (ε := PyErr) (pa2, some l) → ∃ m, pa2.part = last.pa.part ∧
              pa2.num = last.pa.part.length ∧ last.pa.w.length = l.length ∧
              pa2.w = (List.zipWith (· + ·) last.pa.w l).map (· - m) := by
        intro y' _ hh
        obtain ⟨_, -, hh⟩ := bind_eq_ok.mp hh
        obtain ⟨_, -, hh⟩ := bind_eq_ok.mp hh
        obtain ⟨l', -, hh⟩ := bind_eq_ok.mp hh
        obtain ⟨w, hw, hh⟩ := bind_eq_ok.mp hh
        obtain ⟨m, -, hh⟩ := bind_eq_ok.mp hh
        simp only [pure_eq_ok, Except.ok.injEq, Prod.mk.injEq, Option.some.injEq] at hh
        obtain ⟨rfl, rfl⟩ := hh
        unfold npAdd at hw
        split at hw
        · rename_i hl
          cases hw
          exact ⟨m, rfl, rfl, hl, rfl⟩
        · cases hw
      cases y with
      | none => simp at h1
      | zero => exact this .zero (by simp) h1
      | obj a => exact this (.obj a) (by simp) h1
    obtain ⟨m, hpart, hnum, hlen, hw2⟩ := hfs
    -- update
    unfold pfUpdate at h3
    obtain ⟨v, hv, h3⟩ := bind_eq_ok.mp h3
    obtain ⟨part3, hp3, h3⟩ := bind_eq_ok.mp h3
    simp only [pure_eq_ok, Except.ok.injEq] at h3
    subst h3
    unfold pfMeasure at h4
    obtain ⟨lik, hlik, h4⟩ := bind_eq_ok.mp h4
    obtain ⟨e1, -, hll, e4, e5, c, -, e7⟩ := weightUpdate_spec h4
    simp only at e1 hll e4 e7 hlik
    -- pf side
    have hlikl : lik.length = last.pa.w.length := by rw [hll, hw2]; simp [hlen]
    have hwne : last.pa.w ≠ [] := by
      intro he
      have hz : pa4.w = [] := by rw [e7, hw2, he]; simp
      rw [hz] at e5; simp [npMax] at e5
    obtain ⟨pa', hpa'⟩ := weightUpdate_ok
      ({ part := part3, w := last.pa.w, num := last.pa.part.length, w_offset := 0 } : PA P) lik hwne hlikl
    obtain ⟨f1, -, -, -, f5, c', -, f7⟩ := weightUpdate_spec hpa'
    simp only at f1 f7
    refine ⟨pa', ?_, ?_, ?_⟩
    · unfold pfForward
      simp only [hlast, ok_bind, PA.new, maybeResample, lt_irrefl, if_false, pure_eq_ok, pfUpdate]
      rw [hnum, hpart] at *
      simp only [hv, ok_bind, hp3, pfMeasure, hlik, hpa']
    · rw [f1, ← hpa]; exact e1.symm
    · symm
      have hpaw : pa.w = w5.map (· - m5) := by rw [← hpa]
      have hmax : npMax pa.w = .ok 0 := by rw [hpaw]; exact npMax_map_sub h6
      have hw5 : w5 = List.zipWith (· - ·) pa4.w l := by
        unfold npSub at h5; split at h5
        · cases h5; rfl
        · cases h5
      apply eq_of_max_zero_of_shift (c := m + c + m5 - c') hmax f5
      rw [hpaw, hw5, e7, hw2, f7]
      apply List.ext_getElem?
      intro k
      simp only [List.getElem?_map, List.getElem?_zipWith]
      have hk : k < last.pa.w.length ↔ k < l.length := by rw [hlen]
      have hk2 : k < last.pa.w.length ↔ k < lik.length := by rw [hlikl]
      cases ha : last.pa.w[k]? <;> cases hb : l[k]? <;> cases hc : lik[k]? <;>
        simp only [Option.map_some, Option.map_none, Option.some.injEq]
      · exfalso
        have := (List.getElem?_eq_some_iff.mp ha).1
        rw [List.getElem?_eq_none_iff] at hb; omega
      · ring

/-- C17: when the auxiliary filter resamples, the ancestors are drawn with weights proportional to
old weight times first-stage likelihood, and each final log-weight is the likelihood of the particle
divided by the first-stage likelihood of its ancestor, up to one common constant, and the largest is
`0`. `l1` are the first-stage log-weights, `lik` the log-likelihoods. -/
theorem C17_apf_resampled_weights {M : Callbacks P U Y V Ω} {res : ℝ} {tr : List (Step P)}
    {yv : List (Slot Y)} {uv : List (Slot U)} {tv : List ℕ} {cur : ℕ} {d : Draws Ω} {pa : PA P}
    {anc : List ℕ} (h : apfForward M res tr yv uv tv cur d = .ok (pa, true, anc)) :
    ∃ last y u t l1 lik c, tr.getLast? = some last ∧ yv[cur+1]? = some y ∧ uv[cur]? = some u ∧
      tv[cur]? = some t ∧
      M.evalFirstStage last.pa.part u y t = .ok l1 ∧
      M.measure pa.part tr uv (yv.take (cur+2)) (tv.take (cur+2)) anc = .ok lik ∧
      sample ((List.zipWith (· + ·) last.pa.w l1).map exp) last.pa.part.length d.r = .ok anc ∧
      (0 ∈ pa.w ∧ ∀ x ∈ pa.w, x ≤ 0) ∧
      ∀ (k a : ℕ) (x ℓ f : ℝ), pa.w[k]? = some x → anc[k]? = some a → lik[k]? = some ℓ → l1[a]? = some f →
        x = ℓ - f - c := by
  unfold apfForward at h
  obtain ⟨last, hlast, h⟩ := bind_eq_ok.mp h
  obtain ⟨pa0, h0, h⟩ := bind_eq_ok.mp h
  simp only [PA.new, Except.ok.injEq] at h0
  subst h0
  obtain ⟨y, hy, h⟩ := bind_eq_ok.mp h
  obtain ⟨⟨pa1, l1⟩, h1, h⟩ := bind_eq_ok.mp h
  obtain ⟨⟨pa2, flag, anc2, l2⟩, h2, h⟩ := bind_eq_ok.mp h
  obtain ⟨pa3, h3, h⟩ := bind_eq_ok.mp h
  obtain ⟨pa4, h4, h⟩ := bind_eq_ok.mp h
  cases l2 with
  | none => simp at h
  | some l =>
    simp only at h
    obtain ⟨w5, h5, h⟩ := bind_eq_ok.mp h
    obtain ⟨m5, h6, h⟩ := bind_eq_ok.mp h
    simp only [pure_eq_ok, Except.ok.injEq, Prod.mk.injEq] at h
    obtain ⟨hpa, rfl, rfl⟩ := h
    have hr : ∃ l1', l1 = some l1' ∧ fancy l1' anc2 = .ok l ∧
        (∃ m, sample (pa1.w.map fun x => exp (x - m)) pa1.num d.r = .ok anc2) ∧
        ∃ N, pa2.w = List.replicate N (log (1 / (N:ℝ))) := by
      by_cases hres : res ≠ 0
      · simp only [hres, ne_eq, not_false_eq_true, if_true] at h2
        obtain ⟨neff, -, h2⟩ := bind_eq_ok.mp h2
        by_cases hlt : neff < res * pa1.num
        · simp only [hlt, if_true] at h2
          obtain ⟨⟨q, a⟩, hq, h2⟩ := bind_eq_ok.mp h2
          cases l1 with
          | none => simp at h2
          | some l1 =>
            simp only at h2
            obtain ⟨l', hl', h2⟩ := bind_eq_ok.mp h2
            simp only [pure_eq_ok, Except.ok.injEq, Prod.mk.injEq, Option.some.injEq] at h2
            obtain ⟨rfl, -, rfl, rfl⟩ := h2
            unfold PA.resample at hq
            obtain ⟨m, -, hq⟩ := bind_eq_ok.mp hq
            obtain ⟨idx, hidx, hq⟩ := bind_eq_ok.mp hq
            obtain ⟨_, -, hq⟩ := bind_eq_ok.mp hq
            simp only [pure_eq_ok, Except.ok.injEq, Prod.mk.injEq] at hq
            exact ⟨l1, rfl, hl', ⟨m, by rw [← hq.2]; exact hidx⟩, pa1.num, by rw [← hq.1]⟩
        · simp [hlt] at h2
      · simp [hres] at h2
    obtain ⟨l1', rfl, hfl, ⟨ms, hsamp⟩, N, hw2⟩ := hr
    have hfs : ∃ u t m, uv[cur]? = some u ∧ tv[cur]? = some t ∧
        M.evalFirstStage last.pa.part u y t = .ok l1' ∧ pa1.num = last.pa.part.length ∧
        pa1.w = (List.zipWith (· + ·) last.pa.w l1').map (· - m) := by
      have : ∀ y', (do
          let u ← getIdx uv cur
          let t ← getIdx tv cur
          let l1w ← M.evalFirstStage last.pa.part u y' t
          let w ← npAdd last.pa.w l1w
          let m ← npMax w
          pure (({ part := last.pa.part, w := w.map (· - m), num := last.pa.part.length, w_offset := 0 } : PA P),
            some l1w)) = Except.ok (ε := PyErr) (pa1, some l1') → ∃ u t m, uv[cur]? = some u ∧
            tv[cur]? = some t ∧ M.evalFirstStage last.pa.part u y' t = .ok l1' ∧
            pa1.num = last.pa.part.length ∧
            pa1.w = (List.zipWith (· + ·) last.pa.w l1').map (· - m) := by
        intro y' hh
        obtain ⟨u, hu, hh⟩ := bind_eq_ok.mp hh
        obtain ⟨t, ht, hh⟩ := bind_eq_ok.mp hh
        obtain ⟨l', hl', hh⟩ := bind_eq_ok.mp hh
        obtain ⟨w, hw, hh⟩ := bind_eq_ok.mp hh
        obtain ⟨m, -, hh⟩ := bind_eq_ok.mp hh
        simp only [pure_eq_ok, Except.ok.injEq, Prod.mk.injEq, Option.some.injEq] at hh
        obtain ⟨rfl, rfl⟩ := hh
        unfold npAdd at hw
        split at hw
        · cases hw
          exact ⟨u, t, m, getIdx_ok.mp hu, getIdx_ok.mp ht, hl', rfl, rfl⟩
        · cases hw
      cases y with
      | none => simp at h1
      | zero => exact this .zero h1
      | obj a => exact this (.obj a) h1
    obtain ⟨u, t, mw, hu, ht, hef, hnum1, hw1⟩ := hfs
    unfold pfUpdate at h3
    obtain ⟨v, hv, h3⟩ := bind_eq_ok.mp h3
    obtain ⟨part3, hp3, h3⟩ := bind_eq_ok.mp h3
    simp only [pure_eq_ok, Except.ok.injEq] at h3
    subst h3
    unfold pfMeasure at h4
    obtain ⟨lik, hlik, h4⟩ := bind_eq_ok.mp h4
    obtain ⟨e1, -, hll, e4, e5, c, -, e7⟩ := weightUpdate_spec h4
    simp only at e1 hll e4 e7 hlik
    have hpaw : pa.w = w5.map (· - m5) := by rw [← hpa]
    have hmax : npMax pa.w = .ok 0 := by rw [hpaw]; exact npMax_map_sub h6
    have hpp : pa.part = part3 := by rw [← hpa]; exact e1
    have hw5 : w5 = List.zipWith (· - ·) pa4.w l := by
      unfold npSub at h5; split at h5
      · cases h5; rfl
      · cases h5
    refine ⟨last, y, u, t, l1', lik, c + m5 - log (1 / (N:ℝ)), getLast_ok.mp hlast, getIdx_ok.mp hy, hu, ht,
      hef, by rw [hpp]; exact hlik, ?_, npMax_spec hmax, ?_⟩
    · rw [hnum1, hw1, List.map_map] at hsamp
      have e : (List.zipWith (· + ·) last.pa.w l1').map ((fun x => exp (x - ms)) ∘ fun x => x - mw) =
          ((List.zipWith (· + ·) last.pa.w l1').map exp).map (exp (-ms - mw) * ·) := by
        rw [List.map_map]; apply List.map_congr_left; intro x _
        simp only [Function.comp]; rw [← exp_add]; congr 1; ring
      rw [e, C04_sample_scale_invariant _ _ _ (exp_pos _)] at hsamp
      exact hsamp
    intro k a x ℓ f hx ha hℓ hf
    have hlk : l[k]? = some f := by
      obtain ⟨-, hk⟩ := fancy_spec.mp hfl
      rw [← (hk k a ha).1, hf]
    rw [hpaw, hw5, e7, hw2, List.getElem?_map, List.getElem?_zipWith, List.getElem?_zipWith, hℓ, hlk] at hx
    have hkN : k < N := by
      have := (List.getElem?_eq_some_iff.mp hℓ).1
      rw [hll, hw2] at this; simpa using this
    rw [List.getElem?_replicate_of_lt hkN] at hx
    simp only [Option.map_some, Option.some.injEq] at hx
    rw [← hx]; ring

/-- C17 (violation): a step without measurement (`y = None`), which `ParticleFilter.forward` handles,
makes `AuxiliaryParticleFilter.forward` raise `UnboundLocalError`, for every model honouring its
contract, every state and every `res`. -/
theorem C17_apf_missing_measurement_crashes {M : Callbacks P U Y V Ω} {N : ℕ} (hM : FilterContract M N)
    (hN : 0 < N) (res : ℝ) {tr : List (Step P)} {last : Step P} (hlast : tr.getLast? = some last)
    (hwf : last.pa.WF N) {yv : List (Slot Y)} (uv : List (Slot U)) (tv : List ℕ) {cur : ℕ} (d : Draws Ω)
    (hd : Unit01 d.r) (hy : yv[cur+1]? = some .none) :
    apfForward M res tr yv uv tv cur d = .error .unboundLocalError ∧
    ∃ v, pfForward M res tr yv uv tv cur d = .ok v := by
  constructor
  · obtain ⟨pa0, h0, hwf0, -, -, -⟩ := PA.new_some_wf hwf.part_len hwf.w_len
    have tail : ∀ anc, (do
        let pa ← pfUpdate M tr anc uv yv tv cur pa0 d.ω
        let pa ← pfMeasure M tr anc pa uv yv tv (cur + 1)
        (.error .unboundLocalError : PyM (PA P × Bool × List ℕ))) = .error .unboundLocalError := by
      intro anc
      obtain ⟨pa2, h2, hwf2, -, -⟩ := pfUpdate_ok hM tr anc uv yv tv cur hwf0 d.ω
      obtain ⟨l, pa3, -, -, h3, -, -⟩ := pfMeasure_ok hM hN tr anc hwf2 uv yv tv (cur+1)
      simp only [h2, ok_bind, h3]
    unfold apfForward
    simp only [getLast_ok.mpr hlast, ok_bind, h0, getIdx_ok.mpr hy, pure_eq_ok]
    by_cases hres : res ≠ 0
    · simp only [hres, ne_eq, not_false_eq_true, if_true, calcNeff_eq (hwf0.w_ne hN), ok_bind]
      by_cases hlt : ess pa0.w < res * pa0.num
      · obtain ⟨pa', anc, hs, -⟩ := C07_resample pa0 (hwf0.w_ne hN) (by rw [hwf0.part_len, hwf0.w_len])
          N hN hd
        simp only [hwf0.num_eq, hs, ok_bind]
        rw [hwf0.num_eq] at hlt
        simp only [hlt, if_true, error_bind]
      · simp only [hlt, if_false, ok_bind]
        exact tail _
    · simp only [hres, if_false, ok_bind]
      exact tail _
  · obtain ⟨pa, f, a, h, -⟩ := C12_pf_forward_total hM hN res hlast hwf yv uv tv cur d hd
    exact ⟨_, h⟩

/-! ### C18: sequential importance resampling -/

/-- C18: whenever `SIR.forward` returns, the new particles are the proposed ones and each log-weight
equals (stored log-weight, or `-log N` after resampling) + log p(y|x') + log p(x'|x) − log q(x'|x,y) minus one
common constant, the largest being `0`. -/
theorem C18_sir_weights {M : Callbacks P U Y V Ω} {res : ℝ} {tr : List (Step P)}
    {yv : List (Slot Y)} {uv : List (Slot U)} {tv : List ℕ} {cur : ℕ} {d : Draws Ω} {pa : PA P}
    {flag : Bool} {anc : List ℕ} (h : sirForward M res tr yv uv tv cur d = .ok (pa, flag, anc)) :
    ∃ last part0 base u y t t1 qw nw yw c, tr.getLast? = some last ∧
      (flag = false → part0 = last.pa.part ∧ base = last.pa.w) ∧
      (flag = true → (∀ i a : ℕ, anc[i]? = some a → part0[i]? = last.pa.part[a]?) ∧
        base = List.replicate last.pa.part.length (-log last.pa.part.length)) ∧
      uv[cur]? = some u ∧ yv[cur+1]? = some y ∧ tv[cur]? = some t ∧ tv[cur+1]? = some t1 ∧
      M.qsample part0 u y t d.ω = .ok pa.part ∧
      M.logpQ part0 pa.part u y t = .ok qw ∧ M.logpXnext part0 pa.part u t = .ok nw ∧
      M.sirMeasure pa.part y t1 = .ok yw ∧
      (0 ∈ pa.w ∧ ∀ x ∈ pa.w, x ≤ 0) ∧ pa.w.length = base.length ∧
      ∀ (k : ℕ) (w0 q n e x : ℝ), base[k]? = some w0 → qw[k]? = some q → nw[k]? = some n →
        yw[k]? = some e → pa.w[k]? = some x → x = w0 + e + n - q - c := by
  unfold sirForward at h
  obtain ⟨last, hlast, h⟩ := bind_eq_ok.mp h
  obtain ⟨pa0, h0, h⟩ := bind_eq_ok.mp h
  simp only [PA.new, Except.ok.injEq] at h0
  subst h0
  obtain ⟨⟨p1, f1, a1⟩, hm, h⟩ := bind_eq_ok.mp h
  obtain ⟨u, hu, h⟩ := bind_eq_ok.mp h
  obtain ⟨y, hy, h⟩ := bind_eq_ok.mp h
  obtain ⟨t, ht, h⟩ := bind_eq_ok.mp h
  obtain ⟨pnext, hpn, h⟩ := bind_eq_ok.mp h
  obtain ⟨qw, hqw, h⟩ := bind_eq_ok.mp h
  obtain ⟨nw, hnw, h⟩ := bind_eq_ok.mp h
  obtain ⟨t1, ht1, h⟩ := bind_eq_ok.mp h
  obtain ⟨yw, hyw, h⟩ := bind_eq_ok.mp h
  obtain ⟨s, hs, h⟩ := bind_eq_ok.mp h
  obtain ⟨w, hw, h⟩ := bind_eq_ok.mp h
  obtain ⟨pa2, hpa2, h⟩ := bind_eq_ok.mp h
  simp only [pure_eq_ok, Except.ok.injEq, Prod.mk.injEq] at h
  obtain ⟨rfl, rfl, rfl⟩ := h
  obtain ⟨-, -, hlen, hlen2, hmax, c, -, hww⟩ := weightUpdate_spec hpa2
  have hbase : (f1 = false → p1.part = last.pa.part ∧ p1.w = last.pa.w) ∧
      (f1 = true → (∀ i a : ℕ, a1[i]? = some a → p1.part[i]? = last.pa.part[a]?) ∧
        p1.w = List.replicate last.pa.part.length (-log last.pa.part.length)) := by
    unfold maybeResample at hm
    by_cases h0 : 0 < res
    · simp only [h0, if_true] at hm
      obtain ⟨neff, -, hm⟩ := bind_eq_ok.mp hm
      by_cases h1 : neff < res * (last.pa.part.length : ℝ)
      · simp only [h1, if_true] at hm
        obtain ⟨⟨q, a⟩, hq, hm⟩ := bind_eq_ok.mp hm
        simp only [pure_eq_ok, Except.ok.injEq, Prod.mk.injEq] at hm
        obtain ⟨rfl, rfl, rfl⟩ := hm
        refine ⟨by simp, fun _ => ?_⟩
        unfold PA.resample at hq
        obtain ⟨_, -, hq⟩ := bind_eq_ok.mp hq
        obtain ⟨idx, -, hq⟩ := bind_eq_ok.mp hq
        obtain ⟨part, hpart, hq⟩ := bind_eq_ok.mp hq
        simp only [pure_eq_ok, Except.ok.injEq, Prod.mk.injEq] at hq
        obtain ⟨rfl, rfl⟩ := hq
        refine ⟨fun i a hi => ((fancy_spec.mp hpart).2 i a hi).1.symm, ?_⟩
        simp only [one_div, log_inv]
      · simp only [h1, if_false, pure_eq_ok, Except.ok.injEq, Prod.mk.injEq] at hm
        obtain ⟨rfl, rfl, rfl⟩ := hm
        simp
    · simp only [h0, if_false, pure_eq_ok, Except.ok.injEq, Prod.mk.injEq] at hm
      obtain ⟨rfl, rfl, rfl⟩ := hm
      simp
  refine ⟨last, p1.part, p1.w, u, y, t, t1, qw, nw, yw, c, getLast_ok.mp hlast, hbase.1, hbase.2, getIdx_ok.mp hu,
    getIdx_ok.mp hy, getIdx_ok.mp ht, getIdx_ok.mp ht1, hpn, hqw, hnw, hyw, npMax_spec hmax, hlen2, ?_⟩
  intro k w0 q n e x h0 hq hn he hx
  unfold npAdd at hs; split at hs
  swap
  · cases hs
  cases hs
  unfold npSub at hw; split at hw
  swap
  · cases hw
  cases hw
  simp only at hx
  rw [hww, List.getElem?_zipWith, List.getElem?_zipWith, List.getElem?_zipWith, h0, hq, hn, he] at hx
  simp only [Option.some.injEq] at hx
  rw [← hx]; ring

end PyPE

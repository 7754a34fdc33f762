import Verif.Filter.Model
import Verif.Filter.ApproxProps

/-! Helper lemmas for the filters. -/

namespace PyPE
open Real Spec

variable {P U Y V Ω : Type}

theorem npMax_map_sub {l : List ℝ} {m : ℝ} (h : npMax l = .ok m) : npMax (l.map (· - m)) = .ok 0 := by
  obtain ⟨h1, h2⟩ := npMax_spec h
  apply npMax_eq_of
  · exact List.mem_map.mpr ⟨m, h1, sub_self m⟩
  · intro x hx; obtain ⟨y, hy, rfl⟩ := List.mem_map.mp hx; linarith [h2 y hy]

theorem weightUpdate_ok (pa : PA P) (nw : List ℝ) (hne : pa.w ≠ []) (hl : nw.length = pa.w.length) :
    ∃ pa', weightUpdate pa nw = .ok pa' := by
  have hne' : nw ≠ [] := by
    intro h; rw [h] at hl; exact hne (List.length_eq_zero_iff.mp hl.symm)
  obtain ⟨m, hm⟩ := npMax_ok hne'
  have hz : List.zipWith (· + ·) pa.w (nw.map (· - m)) ≠ [] := by
    intro h
    have := congrArg List.length h
    simp only [List.length_zipWith, List.length_map, hl, min_self, List.length_nil] at this
    exact hne (List.length_eq_zero_iff.mp this)
  obtain ⟨m', hm'⟩ := npMax_ok hz
  unfold weightUpdate
  rw [hm]
  simp only [ok_bind]
  rw [npAdd_ok (by simp [hl])]
  simp only [ok_bind, hm', pure_eq_ok]
  exact ⟨_, rfl⟩

theorem weightUpdate_spec {pa pa' : PA P} {nw : List ℝ} (h : weightUpdate pa nw = .ok pa') :
    pa'.part = pa.part ∧ pa'.num = pa.num ∧ nw.length = pa.w.length ∧ pa'.w.length = pa.w.length ∧
    npMax pa'.w = .ok 0 ∧
    ∃ c, pa'.w_offset = pa.w_offset + c ∧
      pa'.w = List.zipWith (fun a b => a + b - c) pa.w nw := by
  unfold weightUpdate at h
  obtain ⟨m, hm, h⟩ := bind_eq_ok.mp h
  obtain ⟨w, hw, h⟩ := bind_eq_ok.mp h
  obtain ⟨m', hm', h⟩ := bind_eq_ok.mp h
  cases h
  unfold npAdd at hw
  split at hw
  · rename_i hl
    cases hw
    simp only [List.length_map] at hl
    refine ⟨rfl, rfl, hl.symm, by simp [hl], npMax_map_sub hm', m + m', by simp only; ring, ?_⟩
    simp only [List.zipWith_map_right, List.map_zipWith]
    congr 1
    funext a b; ring
  · cases hw

/-- The normalised weights after a log-weight update that adds `nw` and a constant. -/
theorem normWeights_zipWith (w nw : List ℝ) (c : ℝ) :
    normWeights (List.zipWith (fun a b => a + b - c) w nw) =
      normWeights (List.zipWith (· + ·) w nw) := by
  have : List.zipWith (fun a b => a + b - c) w nw = (List.zipWith (· + ·) w nw).map (· + (-c)) := by
    rw [List.map_zipWith]; congr 1
  rw [this, normWeights_shift]

/-- A well-formed approximation of `N` particles. -/
structure PA.WF (pa : PA P) (N : ℕ) : Prop where
  part_len : pa.part.length = N
  w_len : pa.w.length = N
  num_eq : pa.num = N

theorem PA.WF.w_ne {pa : PA P} {N : ℕ} (h : pa.WF N) (hN : 0 < N) : pa.w ≠ [] := by
  intro he; have := h.w_len; rw [he] at this; simp at this; omega

theorem PA.new_some_wf {part : List P} {w : List ℝ} {N : ℕ} (h1 : part.length = N) (h2 : w.length = N) :
    ∃ pa, PA.new part (some w) = .ok pa ∧ pa.WF N ∧ pa.part = part ∧ pa.w = w ∧ pa.w_offset = 0 :=
  ⟨_, rfl, ⟨h1, h2, h1⟩, rfl, rfl, rfl⟩

theorem PA.new_none_wf {part : List P} {N : ℕ} (h1 : part.length = N) (hN : 0 < N) :
    ∃ pa, PA.new part none = .ok pa ∧ pa.WF N ∧ pa.part = part ∧
      pa.w = List.replicate N (-log N) ∧ pa.w_offset = 0 := by
  have : part.length ≠ 0 := by omega
  refine ⟨_, by simp only [PA.new, this, if_false]; rfl, ⟨h1, by simp [h1], h1⟩, rfl, by rw [h1], rfl⟩

/-- Behaviour of the common resampling test. -/
theorem maybeResample_spec (res : ℝ) {pa : PA P} {N : ℕ} (h : pa.WF N) (hN : 0 < N) {r : ℝ}
    (hr : Unit01 r) :
    ∃ pa' flag anc, maybeResample res pa r = .ok (pa', flag, anc) ∧ pa'.WF N ∧ anc.length = N ∧
      (∀ a ∈ anc, a < N) ∧ (flag = true ↔ 0 < res ∧ ess pa.w < res * N) ∧
      (flag = false → pa' = pa ∧ anc = List.range N) ∧
      (flag = true → pa.resample N r = .ok (pa', anc)) ∧
      (∀ i a : ℕ, anc[i]? = some a → pa'.part[i]? = pa.part[a]?) := by
  have hne := h.w_ne hN
  have hidp : ∀ i a : ℕ, (List.range N)[i]? = some a → pa.part[i]? = pa.part[a]? := by
    intro i a hi
    obtain ⟨h1, h2⟩ := List.getElem?_eq_some_iff.mp hi
    simp only [List.getElem_range] at h2; rw [h2]
  unfold maybeResample
  by_cases h0 : 0 < res
  · simp only [h0, if_true, calcNeff_eq hne, ok_bind, h.num_eq, true_and]
    by_cases h1 : ess pa.w < res * N
    · obtain ⟨pa', anc, hs, h2, h3, h4, h5, h6, h7, h8, h9, h10⟩ :=
        C07_resample pa hne (by rw [h.part_len, h.w_len]) N hN hr
      refine ⟨pa', true, anc, ?_, ⟨h4, by rw [h8]; simp, h5⟩, h2, by rwa [h.part_len] at h3, by simp [h1],
        by simp, fun _ => hs, h7⟩
      simp only [h1, if_true, hs, ok_bind, pure_eq_ok]
    · refine ⟨pa, false, List.range N, by simp [h1], h, by simp, by simp, by simp [h1], by simp, by simp,
        hidp⟩
  · refine ⟨pa, false, List.range N, by simp [h0, h.num_eq], h, by simp, by simp, by simp [h0], by simp,
      by simp, hidp⟩

/-- Contract of the filtering callbacks for `N` particles: they succeed and return arrays whose first
dimension is `N` (interfaces.py:67-135). -/
structure FilterContract (M : Callbacks P U Y V Ω) (N : ℕ) : Prop where
  noise : ∀ tr anc ut tt ω, ∃ v, M.sampleNoise tr anc ut tt ω = .ok v
  update : ∀ part tr ut yt tt anc v, part.length = N →
    ∃ part', M.update part tr ut yt tt anc v = .ok part' ∧ part'.length = N
  measure : ∀ part tr ut yt tt anc, part.length = N →
    ∃ l, M.measure part tr ut yt tt anc = .ok l ∧ l.length = N

theorem pfUpdate_ok {M : Callbacks P U Y V Ω} {N : ℕ} (hM : FilterContract M N) (tr : List (Step P))
    (anc : List ℕ) (uv : List (Slot U)) (yv : List (Slot Y)) (tv : List ℕ) (cur : ℕ) {pa : PA P}
    (h : pa.WF N) (ω : Ω) :
    ∃ pa', pfUpdate M tr anc uv yv tv cur pa ω = .ok pa' ∧ pa'.WF N ∧ pa'.w = pa.w ∧
      pa'.w_offset = pa.w_offset := by
  obtain ⟨v, hv⟩ := hM.noise tr anc (uv.take (cur+1)) (tv.take (cur+1)) ω
  obtain ⟨part, hp, hl⟩ := hM.update pa.part tr (uv.take (cur+1)) (yv.take (cur+1)) (tv.take (cur+1)) anc v
    h.part_len
  refine ⟨{ pa with part := part }, ?_, ⟨hl, h.w_len, h.num_eq⟩, rfl, rfl⟩
  unfold pfUpdate
  simp only [hv, hp, ok_bind, pure_eq_ok]

theorem pfMeasure_ok {M : Callbacks P U Y V Ω} {N : ℕ} (hM : FilterContract M N) (hN : 0 < N)
    (tr : List (Step P)) (anc : List ℕ) {pa : PA P} (h : pa.WF N)
    (uv : List (Slot U)) (yv : List (Slot Y)) (tv : List ℕ) (cur : ℕ) :
    ∃ l pa', M.measure pa.part tr uv (yv.take (cur+1)) (tv.take (cur+1)) anc = .ok l ∧ l.length = N ∧
      pfMeasure M tr anc pa uv yv tv cur = .ok pa' ∧ weightUpdate pa l = .ok pa' ∧ pa'.WF N := by
  obtain ⟨l, hl, hlen⟩ := hM.measure pa.part tr uv (yv.take (cur+1)) (tv.take (cur+1)) anc h.part_len
  obtain ⟨pa', hp⟩ := weightUpdate_ok pa l (h.w_ne hN) (by rw [hlen, h.w_len])
  obtain ⟨h1, h2, h3, h4, -⟩ := weightUpdate_spec hp
  refine ⟨l, pa', hl, hlen, ?_, hp, ⟨by rw [h1, h.part_len], by rw [h4, h.w_len], by rw [h2, h.num_eq]⟩⟩
  unfold pfMeasure
  simp only [hl, ok_bind, hp]

theorem setLast_ok {α : Type} {l : List α} {N : ℕ} (h : l.length = N) (hN : 0 < N) (x : α) :
    ∃ l', setLast l x = .ok l' ∧ l'.length = N ∧ l'[N-1]? = some x ∧
      ∀ i < N - 1, l'[i]? = l[i]? := by
  have h0 : l.length ≠ 0 := by omega
  refine ⟨l.dropLast ++ [x], by simp [setLast, h0], by simp; omega, ?_, ?_⟩
  · rw [List.getElem?_append_right (by simp; omega)]
    have : N - 1 - l.dropLast.length = 0 := by simp; omega
    rw [this]; rfl
  · intro i hi
    rw [List.getElem?_append_left (by simp; omega), List.getElem?_dropLast]
    simp; omega

theorem weights_normalised {w : List ℝ} (h : Weights w) : Weights (w.map (· / w.sum)) := by
  constructor
  · intro x hx; obtain ⟨y, hy, rfl⟩ := List.mem_map.mp hx; exact div_nonneg (h.1 y hy) h.2.le
  · have : (w.map (· / w.sum)) = w.map ((w.sum)⁻¹ * ·) := by
      apply List.map_congr_left; intro x _; field_simp
    rw [this, list_sum_map_mul, inv_mul_cancel₀ h.2.ne']; exact one_pos

theorem expNormalised_weights {w : List ℝ} (h : w ≠ []) : Weights (expNormalised w) :=
  weights_normalised (weights_exp h)

theorem expNormalised_length (w : List ℝ) : (expNormalised w).length = w.length := by
  simp [expNormalised]

theorem expNormalised_eq (w : List ℝ) : expNormalised w = normWeights w := by
  simp [expNormalised, normWeights, List.map_map, Function.comp_def]

theorem condAncestor_ok {wt w : List ℝ} {N : ℕ} (h1 : wt.length = N) (h2 : w.length = N) (hN : 0 < N)
    {r : ℝ} (hr : Unit01 r) : ∃ a, condAncestor wt w r = .ok a ∧ a < N := by
  have hz : List.zipWith (· + ·) wt w ≠ [] := by
    intro h
    have := congrArg List.length h
    simp only [List.length_zipWith, h1, h2, min_self, List.length_nil] at this
    omega
  obtain ⟨m, hm⟩ := npMax_ok hz
  have hne : (List.zipWith (· + ·) wt w).map (· - m) ≠ [] := by simpa using hz
  obtain ⟨idx, hs, hlen, hrange⟩ := C01_sample_length_range (weights_normalised (weights_exp hne)) 1 hr
  obtain ⟨k, rfl⟩ := List.length_eq_one_iff.mp hlen
  refine ⟨k, ?_, by simpa [h1, h2] using hrange k (by simp)⟩
  unfold condAncestor
  simp only [npAdd_ok (h1.trans h2.symm), ok_bind, hm, hs]
  rfl

end PyPE

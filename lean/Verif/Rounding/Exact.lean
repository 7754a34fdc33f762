import Verif.Rounding.Cond

/-!
# C105: with exact arithmetic the rounded model is the real-number model
-/

namespace PyPE
open Spec

variable {P U Y V Ω : Type}

/-- **C105.** Exact arithmetic meets the assumptions, without any error. -/
theorem C105_exact_rounded {nmax : ℕ} (h : 1 ≤ nmax) : Rounded exactArith nmax where
  mono := monotone_id
  idem := fun _ => rfl
  nat := fun _ _ => rfl
  inv_pos := fun n hn _ => by show (0:ℝ) < 1 / n; positivity
  exp_zero := Real.exp_zero
  exp_nonneg := fun x => (Real.exp_pos x).le
  exp_le_one := fun x hx => Real.exp_le_one_iff.mpr hx
  exp_rep := fun _ => rfl
  sum := by
    intro l hl
    induction l with
    | nil => exact absurd rfl hl
    | cons x xs ih =>
      rcases xs with _ | ⟨y, ys⟩
      · have : exactArith.sum [x] = x := by simp [exactArith]
        rw [this]; exact .one x
      · have h2 : exactArith.sum (x :: y :: ys) = exactArith.fl (x + exactArith.sum (y :: ys)) := by simp [exactArith]
        rw [h2]
        exact .add (.one x) (ih (by simp)) (by simp)
  one_le := h

theorem C105_exact_accurate : Accurate exactArith 0 0 where
  eps := ⟨le_rfl, one_pos⟩
  eta := le_rfl
  add := fun x y _ _ _ _ => by simp [exactArith]
  unit := fun x _ _ => by simp [exactArith]

theorem exact_cumAt (w : List ℝ) (k : ℕ) : cumAt exactArith w k = (w.take (k + 1)).sum := by
  induction k with
  | zero => cases w <;> simp [cumAt]
  | succ k ih =>
    rw [cumAt, ih]
    show (w.take (k + 1)).sum + w.getD (k + 1) 0 = _
    rw [List.take_add_one (i := k + 1), List.sum_append, List.getD_eq_getElem?_getD]
    rcases w[k + 1]? with _ | x <;> simp

theorem exact_cumsum (w : List ℝ) : flCumsum exactArith w = cumsum w := by
  rw [flCumsum_eq]
  exact List.map_congr_left fun k _ => exact_cumAt w k

theorem exact_sample (w : List ℝ) (n : ℕ) (r : ℝ) : flSample exactArith w n r = sample w n r := by
  unfold flSample sample
  rw [exact_cumsum]
  rfl

theorem exact_weightUpdate (pa : PA P) (l : List ℝ) : flWeightUpdate exactArith pa l = weightUpdate pa l := rfl

theorem exact_resample (pa : PA P) (N : ℕ) (r : ℝ) : flResample exactArith pa N r = pa.resample N r := by
  unfold flResample PA.resample
  simp only [exact_sample]
  rfl

theorem exact_sumSq {w : List ℝ} (h : w ≠ []) : ∃ q, 0 < q ∧ flSumSq exactArith w = .ok q ∧ calcNeff w = .ok (1 / q) := by
  obtain ⟨m, hm⟩ := npMax_ok h
  refine ⟨_, ?_, by unfold flSumSq; simp only [hm, ok_bind, pure_eq_ok]; rfl, by unfold calcNeff; simp only [hm, ok_bind, pure_eq_ok]; rfl⟩
  show 0 < List.sum (((w.map fun x => Real.exp (x - m)).map fun x => x / (w.map fun x => Real.exp (x - m)).sum).map fun x => x ^ 2)
  have hs : 0 < (w.map fun x => Real.exp (x - m)).sum := List.sum_pos _ (by
    intro x hx
    obtain ⟨y, -, rfl⟩ := List.mem_map.mp hx
    exact Real.exp_pos _) (by simpa using h)
  refine List.sum_pos _ ?_ (by simpa using h)
  intro x hx
  obtain ⟨y, hy, rfl⟩ := List.mem_map.mp hx
  obtain ⟨z, hz, rfl⟩ := List.mem_map.mp hy
  obtain ⟨v, -, rfl⟩ := List.mem_map.mp hz
  exact pow_pos (div_pos (Real.exp_pos _) hs) 2

theorem exact_maybeResample (res : ℝ) (pa : PA P) (r : ℝ) : flMaybeResample exactArith res pa r = maybeResample res pa r := by
  unfold flMaybeResample maybeResample
  by_cases hres : 0 < res
  · rw [if_pos hres, if_pos hres]
    by_cases hw : pa.w = []
    · have e1 : flSumSq exactArith pa.w = .error .valueError := by unfold flSumSq; rw [hw]; rfl
      have e2 : calcNeff pa.w = .error .valueError := by unfold calcNeff; rw [hw]; rfl
      rw [e1, e2]; rfl
    · obtain ⟨q, h1, h2, h3⟩ := exact_sumSq hw
      rw [h2, h3, ok_bind, ok_bind]
      have hiff : flBelow exactArith res pa.num q ↔ 1 / q < res * pa.num := by
        unfold flBelow
        exact ⟨fun h => h.2, fun h => ⟨h1.ne', h⟩⟩
      by_cases hb : 1 / q < res * pa.num
      · rw [if_pos (hiff.mpr hb), if_pos hb, exact_resample]
      · rw [if_neg (mt hiff.mp hb), if_neg hb]
  · rw [if_neg hres, if_neg hres]

theorem exact_measure (M : Callbacks P U Y V Ω) : flMeasure exactArith M = pfMeasure M := rfl

/-- **C105.** With exact arithmetic the rounded particle filter is the particle filter of the other theorems. -/
theorem C105_exact_pf (M : Callbacks P U Y V Ω) (res : ℝ) : flForward exactArith M res = pfForward M res ∧ flMeasure exactArith M = pfMeasure M := by
  refine ⟨?_, rfl⟩
  funext tr yv uv tv cur d
  unfold flForward pfForward
  simp only [exact_maybeResample]
  rfl

theorem exact_maxSample (w : List ℝ) (n : ℕ) (r : ℝ) : flMaxSample exactArith w n r = (do let v ← maxNormalised w; sample v n r) := by
  unfold flMaxSample maxNormalised expNormalised
  simp only [exact_sample]
  rcases npMax w with e | m
  · rfl
  · simp only [ok_bind, pure_eq_ok, List.map_map]
    rfl

theorem exact_expSample (w : List ℝ) (n : ℕ) (r : ℝ) : flExpSample exactArith w n r = sample (expNormalised w) n r := by
  by_cases h : w = []
  · subst h
    unfold flExpSample
    rw [if_pos rfl]
    rfl
  · have hs : 0 < (w.map Real.exp).sum := List.sum_pos _ (by
      intro x hx
      obtain ⟨y, -, rfl⟩ := List.mem_map.mp hx
      exact Real.exp_pos _) (by simpa using h)
    have hs' : exactArith.sum (w.map exactArith.exp) ≠ 0 := hs.ne'
    unfold flExpSample
    simp only [if_neg h, if_neg hs', exact_sample]
    rfl

theorem exact_condAncestor (wt w : List ℝ) (r : ℝ) : flCondAncestor exactArith wt w r = condAncestor wt w r := by
  unfold flCondAncestor condAncestor
  have hadd : flAdd exactArith wt w = npAdd wt w := rfl
  simp only [exact_maxSample, hadd, maxNormalised, expNormalised, bind_assoc, pure_bind]

theorem exact_new (part : List P) : flNew exactArith part = PA.new part none := by
  unfold flNew PA.new
  by_cases h : part.length = 0
  · simp only [if_pos h]; rfl
  · simp only [if_neg h]; rfl

/-- **C105.** So are the conditional filters and SIR. -/
theorem C105_exact_filters (M : Callbacks P U Y V Ω) (res : ℝ) (ct : List (Step P)) :
    flSirForward exactArith M res = sirForward M res ∧ flCpfForward exactArith M ct = cpfForward M ct ∧ flCpfasForward exactArith M ct = cpfasForward M ct ∧
      flCsirasForward exactArith M ct = csirasForward M ct := by
  have hadd : flAdd exactArith = npAdd := rfl
  have hsub : flSub exactArith = npSub := rfl
  have hm : flCondMeasure exactArith M = condMeasure M := rfl
  refine ⟨?_, ?_, ?_, ?_⟩ <;> funext tr yv uv tv cur d
  · unfold flSirForward sirForward
    simp only [exact_maybeResample, hadd, hsub, exact_weightUpdate]
  · unfold flCpfForward cpfForward
    simp only [exact_expSample, exact_new, hm]
  · unfold flCpfasForward cpfasForward
    simp only [exact_expSample, exact_new, exact_condAncestor, hm]
  · unfold flCsirasForward csirasForward
    simp only [exact_expSample, exact_new, exact_condAncestor, hadd, hsub]

/-- **C105.** And the draws of the smoothers and of `ParticleApproximation.sample`. -/
theorem C105_exact_smoothing (S : SmoothCallbacks P U Y V Ω) (pa : PA P) (r : ℝ) : flBsiFull exactArith S = bsiFull S ∧ flDraw exactArith pa r = pa.sample r := by
  have hadd : flAdd exactArith = npAdd := rfl
  refine ⟨?_, ?_⟩
  · funext pa pt pi fut fi D cur rs
    unfold flBsiFull bsiFull
    simp only [exact_maxSample, hadd, bind_assoc]
  · unfold flDraw PA.sample
    simp only [exact_sample]
    rfl

end PyPE

import Verif.Traj.BufferEnd
import Verif.Models.MlStates

/-!
# C101: post-processing with buffers longer than the run

`RBPSBase.post_smoothing` reads the measurement of the last step as `st.y[-1]` (rbpf.py:370-371), the last entry of the copied buffer (smoother.py:212-214).
-/

namespace PyPE

variable {P U Y V Ω : Type} {lxi lz ly : ℕ}

/-- The post-processing of a trajectory with `n` steps reads the inputs, measurements and times before the last step and the last entries of the buffers. -/
theorem mlPostHook_congr (H : MlHooks lxi lz ly (Slot U) ℕ Y) (o : MlObj lxi lz ly) (init : List (VecR lxi) → List (VecR lz × MatR lz lz)) (zero : Y)
    {D D' : SData U Y} (traj : List (SStep (MlRow lxi lz))) (hu : D.u = D'.u) (hy : ∀ i, i + 1 < traj.length → D.y[i]? = D'.y[i]?)
    (ht : ∀ i, i + 1 < traj.length → D.t[i]? = D'.t[i]?) (hyl : D.y.getLast? = D'.y.getLast?) (htl : D.t.getLast? = D'.t.getLast?) :
    mlPostHook H o init zero D traj = mlPostHook H o init zero D' traj := by
  have hs : ∀ i (st : SStep (MlRow lxi lz)), mlStStep zero D traj.length i st = mlStStep zero D' traj.length i st := by
    intro i st
    unfold mlStStep
    split_ifs with hi
    · simp only [getIdx, hu, hy i hi, ht i hi]
    · simp only [getLast, hyl, htl]
  unfold mlPostHook
  simp only [hs]

/-- C101: with preallocated buffers longer than the run, the post-processing of a smoothed trajectory of the run ignores the last measurement. -/
theorem C101_last_measurement_ignored {F : FilterOps P U Y V Ω} {N T : ℕ} {s0 s s' : PT P U Y} (h0 : PT.init N (some T) 0 = .ok s0) (ops : List (Op U Y Ω))
    (u : Slot U) (y y' : Slot Y) (ω0 : Ω) (d d' : Draws Ω) {bs bs' : List (Option Bool)}
    (hrun : s0.run F (ops ++ [.forward u y ω0 d]) = (s, .ok bs)) (hrun' : s0.run F (ops ++ [.forward u y' ω0 d']) = (s', .ok bs')) (hT : s.traj.length < T)
    (H : MlHooks lxi lz ly (Slot U) ℕ Y) (o : MlObj lxi lz ly) (init : List (VecR lxi) → List (VecR lz × MatR lz lz)) (zero : Y)
    (traj : List (SStep (MlRow lxi lz))) (htr : traj.length = s.traj.length) :
    mlPostHook H o init zero ⟨s.uvec, s.yvec, s.tvec⟩ traj = mlPostHook H o init zero ⟨s'.uvec, s'.yvec, s'.tvec⟩ traj := by
  obtain ⟨s1, bs1, b1, e1, e2⟩ := PT.run_concat _ _ hrun
  obtain ⟨s1', bs1', b1', e1', e2'⟩ := PT.run_concat _ _ hrun'
  obtain rfl : s1 = s1' := (Prod.mk.inj (e1.symm.trans e1')).1
  have hr1 := PT.run_rep _ (PT.init_rep h0) e1
  have hr := PT.run_rep _ (PT.init_rep h0) hrun
  have key : ∀ (y : Slot Y) (d : Draws Ω) (s : PT P U Y) b, s1.step F (.forward u y ω0 d) = (s, .ok b) → ∃ s2, s1.ensureInit F ω0 = (s2, .ok ()) ∧
      s.uvec = s2.growForward.uvec.set (s2.ind1 - 1) u ∧ s.yvec = s2.growForward.yvec.set s2.ind1 y ∧ s.tvec = s2.growForward.tvec.set s2.ind1 s2.ind1 ∧
      s.ind1 = s2.ind1 + 1 := by
    intro y d s b hf
    unfold PT.step at hf
    rcases hg : s1.forward F u y ω0 d with ⟨s3, r⟩
    simp only [hg] at hf
    cases r with
    | error e => cases hf
    | ok b =>
      cases hf
      rw [PT.forward_eq hr1.inv] at hg
      rcases he : s1.ensureInit F ω0 with ⟨s2, _ | _⟩
      · simp only [he] at hg; cases hg
      · simp only [he] at hg
        split at hg
        · cases hg
        · cases hg
          exact ⟨s2, rfl, rfl, rfl, rfl, rfl⟩
  obtain ⟨s2, a0, a1, a2, a3, a4⟩ := key y d s _ e2
  obtain ⟨s2', b0, b1, b2, b3, b4⟩ := key y' d' s' _ e2'
  obtain rfl : s2 = s2' := (Prod.mk.inj (a0.symm.trans b0)).1
  have hl : s.ind1 = s.traj.length := by rw [hr.ind, hr.len]
  have hl' : s'.traj.length < T := by
    have hr' := PT.run_rep _ (PT.init_rep h0) hrun'
    rw [hr'.len, ← hr'.ind]
    omega
  obtain ⟨c1, c2⟩ := C101_preallocated h0 _ hrun hT
  obtain ⟨d1, d2⟩ := C101_preallocated h0 _ hrun' hl'
  refine mlPostHook_congr H o init zero traj (a1.trans b1.symm) (fun i hi => ?_) (fun i hi => ?_) (c1.trans d1.symm) (c2.trans d2.symm)
  · simp only [a2, b2]
    rw [List.getElem?_set_ne (by omega), List.getElem?_set_ne (by omega)]
  · simp only [a3, b3]

/-- C101: when the last step was measured again, the post-processing reads the measurement `0` at time `0` for it. -/
theorem C101_reads_zero {F : FilterOps P U Y V Ω} (hF : F.usingPfy = false) {N : ℕ} {T : Option ℕ} {s0 s : PT P U Y} (h0 : PT.init N T 0 = .ok s0) (ops : List (Op U Y Ω))
    (u : Slot U) (y : Slot Y) (ω0 : Ω) (d : Draws Ω) (y' : Slot Y) (ω : Ω) {bs : List (Option Bool)}
    (hrun : s0.run F (ops ++ [.forward u y ω0 d] ++ [.measure y' ω]) = (s, .ok bs)) (hT : T.getD 0 ≤ s.traj.length) (zero : Y) (n : ℕ) (st : SStep (MlRow lxi lz)) :
    mlStStep zero ⟨s.uvec, s.yvec, s.tvec⟩ n (n - 1) st = .ok ⟨st.pa.part.map MlRow.xi, .none, some zero, 0⟩ := by
  obtain ⟨h1, h2⟩ := C101_remeasured hF h0 ops u y ω0 d y' ω hrun hT
  unfold mlStStep
  rw [if_neg (by omega)]
  simp only [getLast, h1, h2, slotY]
  rfl

end PyPE

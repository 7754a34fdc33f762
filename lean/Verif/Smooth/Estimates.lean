import Verif.Smooth.Mhbp
import Verif.Smooth.Dispatch
import Verif.Smooth.Toy
import Verif.Models.MlSmooth

/-!
# C95: every smoother returns `num_traj` trajectories over all time steps
-/

namespace PyPE
open Real Spec

variable {P U Y V Ω : Type} {S : SmoothCallbacks P U Y V Ω} {D : SData U Y} {M N : ℕ} {pt : List (Step P)}

/-- The model can bound its transition density at every step (needed by 'rs' and 'rsas' only). -/
def Spec.HasBound (S : SmoothCallbacks P U Y V Ω) (D : SData U Y) : Prop :=
  ∀ part ptraj anc cur, ∃ c, S.logpXnextMaxFull part ptraj anc D cur = .ok c

/-- `est` has one row of `M` states per time step, and the row of time `t` holds the smoothed states of time `t`. -/
def Spec.Tabulates (traj : List (SStep P)) (T M : ℕ) (est : List (List P)) : Prop :=
  est.length = T ∧ ∀ t, t < T → ∃ s row, traj[t]? = some s ∧ est[t]? = some row ∧ row = s.pa.part ∧ row.length = M

/-- `get_smoothed_estimates` on any trajectory object: `IndexError` if it has no steps, otherwise a row for every step if
each step has one particle or as many as the first step, and `ValueError` if not. -/
theorem C95_get_smoothed_estimates (traj : List (SStep P)) :
    (traj = [] → smoothedEstimates traj = .error .indexError) ∧
    ∀ s0 : SStep P, traj[0]? = some s0 →
      ((∀ s ∈ traj, s.pa.part.length = s0.pa.part.length) → smoothedEstimates traj = .ok (traj.map fun s => s.pa.part)) ∧
      ((∀ s ∈ traj, s.pa.part.length = s0.pa.part.length ∨ s.pa.part.length = 1) → ∃ est, smoothedEstimates traj = .ok est ∧
        est.length = traj.length ∧ ∀ row ∈ est, row.length = s0.pa.part.length) ∧
      ((∃ s ∈ traj, s.pa.part.length ≠ s0.pa.part.length ∧ s.pa.part.length ≠ 1) → smoothedEstimates traj = .error .valueError) := by
  refine ⟨fun h => by subst h; rfl, fun s0 h0 => ?_⟩
  have hg : getIdx traj 0 = .ok s0 := getIdx_ok.mpr h0
  unfold smoothedEstimates
  simp only [hg, ok_bind]
  refine ⟨fun h => ?_, fun h => ?_, ?_⟩
  · exact mapM_ok_map fun s hs => by simp [fillRow, h s hs]
  · refine ⟨_, mapM_ok_map (g := fun s => if s.pa.part.length = s0.pa.part.length then s.pa.part else (s.pa.part.head?.map (List.replicate s0.pa.part.length)).getD []) fun s hs => ?_, by simp, ?_⟩
    · unfold fillRow
      split_ifs with hl
      · rfl
      · obtain ⟨x, hx⟩ := List.length_eq_one_iff.mp ((h s hs).resolve_left hl)
        rw [hx]
        rfl
    · intro row hrow
      obtain ⟨s, hs, rfl⟩ := List.mem_map.mp hrow
      split_ifs with hl
      · exact hl
      · obtain ⟨x, hx⟩ := List.length_eq_one_iff.mp ((h s hs).resolve_left hl)
        rw [hx]
        simp
  · rintro ⟨s, hs, h1, h2⟩
    refine mapM_error_of (fun x _ => ?_) fun hall => ?_
    · unfold fillRow
      split_ifs
      · exact Or.inr ⟨_, rfl⟩
      · split
        · exact Or.inr ⟨_, rfl⟩
        · exact Or.inl rfl
    · obtain ⟨y, hy⟩ := hall s hs
      unfold fillRow at hy
      rw [if_neg h1] at hy
      split at hy
      · rename_i x hx
        rw [hx] at h2
        exact h2 rfl
      · cases hy

theorem tabulates {traj : List (SStep P)} {T : ℕ} (hl : traj.length = T) (hT : 0 < T) (h : ∀ s ∈ traj, s.pa.part.length = M) :
    ∃ est, smoothedEstimates traj = .ok est ∧ Tabulates traj T M est := by
  obtain ⟨s0, h0⟩ : ∃ s0, traj[0]? = some s0 := ⟨traj[0], List.getElem?_eq_getElem (by omega)⟩
  have hs0 := h s0 (List.mem_of_getElem? h0)
  refine ⟨_, ((C95_get_smoothed_estimates traj).2 s0 h0).1 fun s hs => by rw [h s hs, hs0], by simp [hl], fun t ht => ?_⟩
  have ht' : t < traj.length := by omega
  exact ⟨traj[t], traj[t].pa.part, List.getElem?_eq_getElem ht', by simp [ht'], rfl, h _ (List.getElem_mem _)⟩

theorem mhipsPasses_ok (hS : TotalMh S D) (hpre : S.preMhips = none) (hM : 0 < M) (reduced : Bool) (ds : List (PassDraws Ω))
    {traj : List (SStep P)} (h : Paths M traj) (h2 : 2 ≤ traj.length) (hy : traj.length ≤ D.y.length) (ht : traj.length ≤ D.t.length)
    (hred : reduced = true → D.y[traj.length - 1]? ≠ some .none) :
    ∃ out, mhipsPasses S M D reduced ds traj = .ok out ∧ out.length = traj.length ∧ Paths M out := by
  induction ds generalizing traj with
  | nil => exact ⟨traj, rfl, rfl, h⟩
  | cons d ds ih =>
    obtain ⟨out, e1, e2, e3⟩ := C34_mhips_pass hS h h2 hM hy ht reduced hred d
    obtain ⟨out', f1, f2, f3⟩ := ih e3 (by omega) (by omega) (by omega) (by rw [e2]; exact hred)
    refine ⟨out', ?_, f2.trans e2, f3⟩
    simp only [mhipsPasses, hpre, applyHook, ok_bind, e1]
    exact f1

/-- C95: on every run of at least two steps, every smoother called with its default options returns `M` trajectories that
cover all time steps, and `get_smoothed_estimates` tabulates them. -/
theorem C95_every_method (hpt : GoodRun N pt) (h2 : 2 ≤ pt.length) (hM : 0 < M) (hS : TotalMh S D) (hden : HasDensity S pt D M)
    (hb : HasBound S D) (hpost : S.postSmoothing = none) (hpre : S.preMhips = none)
    (hy : pt.length ≤ D.y.length) (ht : pt.length ≤ D.t.length) {d : AllDraws Ω} (hd : GoodSmoothDraws d.bsi) (hmh : GoodMhbpDraws d.mhbp)
    {method : String} (hm : method ∈ knownMethods) (hred : method = "mhips_reduced" → D.y[pt.length - 1]? ≠ some .none) :
    ∃ traj est B, (∀ fuel, B ≤ fuel → performSmoothing S pt M D method none d fuel = .ok (some traj)) ∧
      smoothedEstimates traj = .ok est ∧ Tabulates traj pt.length M est := by
  obtain ⟨st, hst⟩ : ∃ st, pt[0]? = some st := ⟨pt[0], List.getElem?_eq_getElem (by omega)⟩
  obtain ⟨c, hc, hcl⟩ : ∃ c, maxCoeffs S pt D = .ok c ∧ c.length = pt.length - 1 := by
    have : ∀ k ∈ List.range (pt.length - 1), ∃ y, (do
        let st ← getIdx pt k
        S.logpXnextMaxFull st.pa.part ((pt.take k).map Step.toS) st.ancestors D k) = .ok y := by
      intro k hk
      rw [List.mem_range] at hk
      obtain ⟨c, hc⟩ := hb pt[k].pa.part ((pt.take k).map Step.toS) pt[k].ancestors k
      exact ⟨c, by rw [getIdx_ok.mpr (List.getElem?_eq_getElem (by omega : k < pt.length)), ok_bind, hc]⟩
    choose! g hg using this
    exact ⟨_, mapM_ok_map hg, by simp⟩
  have fromBsi : ∀ m : BsiMethod, UsableMethod pt.length m → (∀ fuel, performSmoothing S pt M D method none d fuel = performBsi S (.ok m) pt M D d.bsi fuel) →
      ∃ traj est B, (∀ fuel, B ≤ fuel → performSmoothing S pt M D method none d fuel = .ok (some traj)) ∧
      smoothedEstimates traj = .ok est ∧ Tabulates traj pt.length M est := by
    intro m hu he
    obtain ⟨traj, B, e1, e2, e3⟩ := C33_backward_simulation hpt hS.sample hden hM hu hd
    obtain ⟨est, f1, f2⟩ := tabulates (M := M) e2 (by omega) (fun s hs => by
      obtain ⟨t, ht, rfl⟩ := List.getElem_of_mem hs
      obtain ⟨_, s, -, h1, h2⟩ := e3 t (by omega)
      rw [List.getElem?_eq_getElem ht] at h1
      cases h1
      exact h2.wf.part_len)
    exact ⟨traj, est, B, fun fuel hf => (he fuel).trans (e1 fuel hf), f1, f2⟩
  obtain ⟨ta, a1, a2, a3⟩ := C33_ancestor hpt hS.sample hM hd.r0
  have a4 : Paths M ta := fun s hs => by
    obtain ⟨t, ht, rfl⟩ := List.getElem_of_mem hs
    obtain ⟨_, s, -, h1, h2⟩ := a3 t (by omega)
    rw [List.getElem?_eq_getElem ht] at h1
    cases h1
    exact ⟨h2.wf, h2.anc⟩
  simp only [knownMethods, List.mem_cons, List.not_mem_nil, or_false] at hm
  rcases hm with rfl | rfl | rfl | rfl | rfl | rfl | rfl | rfl
  · refine fromBsi .full trivial fun fuel => ?_
    rw [C26_full]
    simp only [smoothTrajectory, true_or, if_true, bsiOptions, hpost, applyHook]
    cases performBsi S _ pt M D d.bsi fuel with
    | error e => rfl
    | ok r => cases r <;> rfl
  · refine fromBsi (.mcmc 30) trivial fun fuel => ?_
    rw [C26_mcmc S hpost pt h2]
    rfl
  · exact fromBsi (.rs (st.pa.w.length / 10) c) (by simp only [UsableMethod]; omega) fun fuel => C26_rs S hpost h2 M D none d fuel hc hst
  · exact fromBsi (.rsas ⟨1, 1, 1, 1, 1⟩ c) ⟨⟨by norm_num, by norm_num, by norm_num, Or.inl (by norm_num)⟩, by omega⟩ fun fuel => C26_rsas S hpost h2 M D none d fuel hc
  · obtain ⟨est, f1, f2⟩ := tabulates a2 (by omega) fun s hs => (a4 s hs).1.part_len
    refine ⟨ta, est, 0, fun fuel _ => ?_, f1, f2⟩
    have e1 : ¬ ("ancestor" = "rs") := by decide +kernel
    have e2 : ¬ ("ancestor" = "rsas") := by decide +kernel
    have e3 : ¬ ("ancestor" = "mhips") := by decide +kernel
    have e6 : ¬ ("ancestor" = "mhbp") := by decide +kernel
    have e4 : ¬ ("ancestor" = "full") := by decide +kernel
    have e5 : ¬ ("ancestor" = "mcmc") := by decide +kernel
    simp only [performSmoothing, defaultOptions, e1, e2, e3, if_false, pure_eq_ok, ok_bind, smoothTrajectory, e4, e5, e6, or_self, if_true, a1, hpost, applyHook]
  · obtain ⟨out, p1, p2, p3⟩ := mhipsPasses_ok hS hpre hM false ((List.range 30).map d.pass) a4 (by omega) (by omega) (by omega) (by simp)
    obtain ⟨est, f1, f2⟩ := tabulates (p2.trans a2) (by omega) fun s hs => (p3 s hs).1.part_len
    refine ⟨out, est, 0, fun fuel _ => ?_, f1, f2⟩
    obtain ⟨o, ho, hR⟩ := (C26_mh_iterations S pt M D none d fuel).1 "mhips" (Or.inl rfl)
    have hR' : mhIterations (some o) = .ok 30 := hR
    rw [ho]
    have e1 : ¬ ("mhips" = "rs") := by decide +kernel
    have e2 : ¬ ("mhips" = "rsas") := by decide +kernel
    have e3 : ¬ ("mhips" = "full") := by decide +kernel
    have e4 : ¬ ("mhips" = "mcmc") := by decide +kernel
    have e5 : ¬ ("mhips" = "ancestor") := by decide +kernel
    have e6 : ¬ ("mhips" = "mhips_reduced") := by decide +kernel
    simp only [smoothTrajectory, e1, e2, e3, e4, e5, e6, or_self, or_false, if_false, if_true, a1, ok_bind, hR', decide_false, p1, pure_eq_ok, hpost, applyHook]
  · obtain ⟨out, p1, p2, p3⟩ := mhipsPasses_ok hS hpre hM true ((List.range 10).map d.pass) a4 (by omega) (by omega) (by omega)
      (fun _ => by rw [a2]; exact hred rfl)
    obtain ⟨est, f1, f2⟩ := tabulates (p2.trans a2) (by omega) fun s hs => (p3 s hs).1.part_len
    refine ⟨out, est, 0, fun fuel _ => ?_, f1, f2⟩
    obtain ⟨o, ho, hR⟩ := (C26_mh_iterations S pt M D none d fuel).2
    have hR' : mhIterations (some o) = .ok 10 := hR
    rw [ho]
    have e1 : ¬ ("mhips_reduced" = "rs") := by decide +kernel
    have e2 : ¬ ("mhips_reduced" = "rsas") := by decide +kernel
    have e3 : ¬ ("mhips_reduced" = "full") := by decide +kernel
    have e4 : ¬ ("mhips_reduced" = "mcmc") := by decide +kernel
    have e5 : ¬ ("mhips_reduced" = "ancestor") := by decide +kernel
    simp only [smoothTrajectory, e1, e2, e3, e4, e5, or_self, or_true, if_false, if_true, a1, ok_bind, hR', decide_true, p1, pure_eq_ok, hpost, applyHook]
  · obtain ⟨out, p1, p2, p3⟩ := C34_mhbp_runs hS hpt h2 hM 30 hy ht hd.r0 hmh
    obtain ⟨est, f1, f2⟩ := tabulates p2 (by omega) fun s hs => (p3 s hs).1.part_len
    refine ⟨out, est, 0, fun fuel _ => ?_, f1, f2⟩
    obtain ⟨o, ho, hR⟩ := (C26_mh_iterations S pt M D none d fuel).1 "mhbp" (Or.inr rfl)
    have hR' : mhIterations (some o) = .ok 30 := hR
    rw [ho]
    have e1 : ¬ ("mhbp" = "rs") := by decide +kernel
    have e2 : ¬ ("mhbp" = "rsas") := by decide +kernel
    have e3 : ¬ ("mhbp" = "full") := by decide +kernel
    have e4 : ¬ ("mhbp" = "mcmc") := by decide +kernel
    have e5 : ¬ ("mhbp" = "ancestor") := by decide +kernel
    have e6 : ¬ ("mhbp" = "mhips" ∨ "mhbp" = "mhips_reduced") := by decide +kernel
    simp only [smoothTrajectory, e1, e2, e3, e4, e5, e6, or_self, if_false, if_true, ok_bind, hR', p1, pure_eq_ok, hpost, applyHook]

/-- C95 (constructing `SmoothTrajectory` directly): the Metropolis-Hastings smoothers look up `'R' in options`, so without
an options dictionary they raise `TypeError` on every run. -/
theorem C95_options_required (hpt : GoodRun N pt) (hM : 0 < M) (hS : TotalMh S D) {d : AllDraws Ω} (hd : GoodSmoothDraws d.bsi) (fuel : ℕ)
    {method : String} (hm : method ∈ ["mhips", "mhips_reduced", "mhbp"]) :
    smoothTrajectory S pt M D method none d fuel = .error .typeError := by
  obtain ⟨ta, a1, -⟩ := C33_ancestor hpt hS.sample hM hd.r0
  have e : ¬ (method = "full" ∨ method = "mcmc" ∨ method = "rs" ∨ method = "rsas") := by
    simp only [List.mem_cons, List.not_mem_nil, or_false] at hm
    rcases hm with rfl | rfl | rfl <;> decide +kernel
  have e' : ¬ method = "ancestor" := by
    simp only [List.mem_cons, List.not_mem_nil, or_false] at hm
    rcases hm with rfl | rfl | rfl <;> decide +kernel
  unfold smoothTrajectory
  rw [if_neg e, if_neg e', a1]
  split_ifs
  · rfl
  · rfl
  · simp only [List.mem_cons, List.not_mem_nil, or_false] at hm
    tauto

/-- C34 (defect): 'mhbp' stores no ancestors, so an MHIPS pass over its result raises `TypeError`, for every model and draw. -/
theorem C34_mhips_after_mhbp {traj : List (SStep P)} (h : ∀ s ∈ traj, s.pa.WF M ∧ s.ancestors = none) (h2 : 2 ≤ traj.length)
    (reduced : Bool) (d : PassDraws Ω) : mhipsPass S traj M D reduced d = .error .typeError := by
  have hl : getLast traj = .ok traj[traj.length - 1] := by
    rw [getLast_ok, List.getLast?_eq_getElem?, List.getElem?_eq_getElem (by omega)]
  have hl' : getLast (traj.take (traj.length - 1)) = .ok traj[traj.length - 2] := by
    rw [getLast_ok, List.getLast?_take, if_neg (by omega), show traj.length - 1 - 1 = traj.length - 2 by omega,
      List.getElem?_eq_getElem (by omega)]
    rfl
  obtain ⟨hw, ha⟩ := h traj[traj.length - 2] (List.getElem_mem _)
  obtain ⟨old, ho⟩ := fancy_ok (a := traj[traj.length - 2].pa.part) (ind := List.range M) (fun i hi => by
    rw [hw.part_len]; exact List.mem_range.mp hi)
  simp only [mhipsPass, hl, ok_bind, mcStep, mcCurrent, hl', ho, ha]
  rfl

/-- Every smoother on the two-step run `srun`. -/
example {method : String} (hm : method ∈ knownMethods) (pass : ℕ → PassDraws ℝ) : ∃ traj est B,
    (∀ fuel, B ≤ fuel → performSmoothing stoy srun 3 sdata method none ⟨sall, pass, fun _ => ⟨fun _ => 1/2, fun _ => ⟨0, fun _ => 1/2⟩, 0⟩⟩ fuel = .ok (some traj)) ∧
      smoothedEstimates traj = .ok est ∧ Tabulates traj 2 3 est :=
  C95_every_method srun_good (by simp [srun]) (by norm_num) (stoy_total _) (stoy_hasDensity _ _ _) (fun _ _ _ _ => ⟨_, rfl⟩) rfl rfl
    (by simp [srun, sdata]) (by simp [srun, sdata]) sall_good (fun _ _ => by norm_num [Unit01]) hm (fun _ => by simp [srun, sdata])

end PyPE

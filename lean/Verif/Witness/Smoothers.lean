import Verif.Smooth.Toy
import Verif.Smooth.Exact
import Verif.Smooth.Mcmc
import Verif.Sampling.Variation
import Verif.Witness.Filters

/-!
# Concrete cases of the claims about single smoothing steps (C26, C29–C37), sampling (C111) and stored history (C14, C94)
-/

namespace PyPE
open Real Spec

/-- The particles of the backward step `stoy_backStep`. -/
noncomputable def bPa : PA ℝ := ⟨[1, 2, 3], [0, -1, -2], 3, 0⟩
/-- Its future trajectories. -/
noncomputable def bFut : List (SStep ℝ) := [⟨⟨[5, 7], [0, 0], 2, 0⟩, some [0, 1]⟩]
/-- Its backward log-densities. -/
noncomputable def bL (i j : ℕ) : ℝ := -(([5, 7] : List ℝ).getD j 0 - (([1, 2, 3] : List ℝ).getD i 0) / 2) ^ 2 / 2

theorem bStep : BackStep stoy bPa [] [0, 0, 1] bFut sdata 0 3 2 bL := stoy_backStep

theorem bL_le (l j : ℕ) : bL l j ≤ 0 := by
  have := sq_nonneg (([5, 7] : List ℝ).getD j 0 - (([1, 2, 3] : List ℝ).getD l 0) / 2)
  unfold bL; linarith

theorem half_unit : Unit01 (1/2) := by norm_num [Unit01]

/-- C29 -/
example := C29_bsi_full bStep (find := [1, 0, 1]) (by decide) (rs := fun _ => 1/2) fun _ => half_unit
example := C29_bsi_full_prob bStep (find := [1, 0, 1]) (by decide) (rs := fun _ => 1/2) (fun _ => half_unit) (k := 0) (j := 1) rfl 2
/-- C30 -/
example := C30_rs_every_entry bStep (find := [0, 1]) (by decide) 0 4 sdraws_good
example := C30_rs_zero_attempts bStep (M := 2) le_rfl 0 sdraws_good
example := C30_rs_exact bStep 0 4 (find := [0, 1]) (by decide) (j := 1) (i := 2) (by decide) (by decide) (fun l _ => bL_le l 1) (sdraws.attempts 0) 0
/-- C31 -/
example := C31_rsas_exact (o := ⟨1, 1, 1, 1, 1⟩) ⟨by norm_num, by norm_num, by norm_num, Or.inl (by norm_num)⟩ bStep 0 (find := [0, 1]) rfl (j := 1) (i := 2)
  (by decide) (by decide) (fun l _ => bL_le l 1) (sdraws.attempts 0) half_unit 0
/-- C32 -/
example := C32_mcmc_detailed_balance bStep (find := [0, 1]) (anc := [2, 0]) (by decide) rfl (by decide) (k := 1) (j := 1) rfl (sdraws.attempts 0) 0
  (i := 0) (l := 2) (by decide) (by decide)
example := C32_mcmc_invariant bStep (find := [0, 1]) (anc := [2, 0]) (by decide) rfl (by decide) (k := 1) (j := 1) rfl 30 (sdraws.attempts 0) 0
  (i := 2) (by decide)
example := C32_mcmc_step bStep (find := [0, 1]) (anc := [2, 0]) (by decide) rfl (by decide) sdraws_good (k := 1) (i0 := 0) (j := 1) rfl rfl
/-- C33 -/
example := C33_ancestor (M := 3) srun_good (stoy_samples sdata) (by norm_num) sall_good.r0
example := C33_zero_trajectories srun_good (stoy_plain sdata) (.ok (.mcmc 30)) sall_good.r0 100
example : ∃ traj st s, performAncestorsInt stoy srun 3 sdata sall = .ok traj ∧ srun[0]? = some st ∧ traj[0]? = some s ∧
    s.pa.part.length = 3 ∧ ∀ x ∈ s.pa.part, x ∈ st.pa.part := by
  obtain ⟨traj, h1, -, h3⟩ := C33_ancestor (M := 3) srun_good (stoy_samples sdata) (by norm_num) sall_good.r0
  obtain ⟨st, s, e1, e2, e3⟩ := h3 0 (by simp [srun])
  exact ⟨traj, st, s, h1, e1, e2, C33_smoothed_are_filter_particles (stoy_plain sdata) e3⟩
/-- C34 -/
example (draws : ℕ → MhbpDraws ℝ) := C34_mhbp_single_step wStep wStep_good (by norm_num) 3 30 stoy sdata half_unit draws
/-- C35: at the second time of `srun`; trajectory 0 may go from 1 to 4/2 + 1/2 and back with draw -1. -/
example := C35_accept_prob (stoy_mh_later ((srun.take 1).map Step.toS) (some bFut) 3 1 (D := sdata) (y := .obj 2) rfl)
    (srun_anc (a := [1, 0, 1]) rfl (by decide)) (srun_anc (a := [0, 1, 0]) rfl (by decide)) (part := [1, 2, 1])
    (xprop := [4 / 2 + 1/2, 0 / 2 + 1/2, 4 / 2 + 1/2]) rfl rfl ⟨1/2, fun _ => 1/3⟩ rfl (j := 0) rfl rfl rfl rfl
example := C35_detailed_balance (stoy_mh_later ((srun.take 1).map Step.toS) (some bFut) 3 1 (D := sdata) (y := .obj 2) rfl)
    (pp := some [1, 0, 1]) (pc := some [0, 1, 0]) (pp' := some [0, 1, 0]) (pc' := some [1, 0, 1])
    (srun_anc rfl (by decide)) (srun_anc rfl (by decide)) (srun_anc rfl (by decide)) (srun_anc rfl (by decide))
    (part := [0 / 2 + -1, 2, 1]) (xprop := [4 / 2 + 1/2, 0 / 2 + 1/2, 4 / 2 + 1/2]) (part' := [4 / 2 + 1/2, 2, 1])
    (xprop' := [0 / 2 + -1, 4 / 2 + -1, 0 / 2 + -1]) rfl rfl rfl rfl ⟨1/2, fun _ => 1/3⟩ ⟨-1, fun _ => 1/4⟩ rfl rfl (j := 0) rfl rfl rfl rfl rfl rfl rfl rfl
/-- C26 -/
example (user : Option SOpts) (d : AllDraws ℝ) := C26_mcmc stoy rfl srun (by simp [srun]) 3 sdata user d 1000
example (user : Option SOpts) (d : AllDraws ℝ) := C26_rs stoy rfl (pt := srun) (by simp [srun]) 3 sdata user d 1000 (c := [0]) rfl rfl
example (user : Option SOpts) (d : AllDraws ℝ) := C26_rsas stoy rfl (pt := srun) (by simp [srun]) 3 sdata user d 1000 (c := [0]) rfl
/-- C37: a model whose hook reverses the trajectory; a misspelt method -/
example (user : Option SOpts) (d : AllDraws ℝ) := C37_post_smoothing { stoy with postSmoothing := some fun l => .ok l.reverse } rfl srun 3 sdata
  (method := "mhips") (by simp [knownMethods]) user d 1000
example (user : Option SOpts) (d : AllDraws ℝ) := C37_unknown_method stoy srun 3 sdata (method := "fulll") (by simp [knownMethods]) user d 1000

/-- C111: weights 3, 1, 4; a monotone and another function of the index -/
example (idx : List ℕ) (h : sample [3, 1, 4] 5 (1/2) = .ok idx) (k : ℕ) :=
  have hw : Weights [3, 1, 4] := by constructor <;> simp; norm_num
  And.intro (C111_prefix_count hw 5 half_unit h k) (And.intro (C111_sorted hw (by norm_num) half_unit h (f := fun i => (i : ℝ)) Nat.mono_cast)
    (C111_variation hw (by norm_num) half_unit h fun i => (-1) ^ i))
example : ∃ idx, sample [3, 1, 4] 5 (1/2) = .ok idx := by
  obtain ⟨idx, h, -⟩ := C01_sample_length_range (w := [3, 1, 4]) (by constructor <;> simp; norm_num) 5 half_unit
  exact ⟨idx, h⟩

/-! ### C14, C94 -/

theorem toyBuilt : ∃ F, Spec.Built (ofCallbacks toy) 2 0 "pf" .none F :=
  ⟨_, (ofCallbacks_implements toy).honest, by simp [mkFilterH, parse_pf, ok_bind]; rfl, fun _ _ _ => (ofCallbacks_implements toy).gives⟩

/-- Two stored steps in memory. -/
noncomputable def threeHeap : Heap ℝ := ⟨2, fun a => if a = 0 then [7, 1] else [8, 2], fun _ => [0, -1], fun o => ⟨o, o, 2, 0⟩⟩
def threePT : HPT ℝ ℝ := ⟨[.obj 1, .none], [.obj 1, .obj 2], [0, 1], 2, 1, 2, [⟨0, [0, 1]⟩, ⟨1, [1, 1]⟩]⟩

theorem threePT_stored : Spec.Stored threeHeap threePT.traj := ⟨by simp [Spec.Alloc, threeHeap, threePT], by simp [threePT]⟩

theorem three_first : Spec.Alloc threeHeap ⟨0, [0, 1]⟩ ∧ Spec.NotLast threePT.traj ⟨0, [0, 1]⟩ := by
  constructor
  · simp [Spec.Alloc, threeHeap]
  · intro l hl
    simp [threePT] at hl
    subst hl
    simp

/-- C14: the first stored step is the same after `forward`, after `measure` and after any number of calls; the new trajectory has the old as a prefix. -/
example : ∃ F, Spec.Built (ofCallbacks toy) 2 0 "pf" .none F ∧
    Spec.viewStep (threePT.forward F (.obj 1) (.obj 2) 0 wDraws threeHeap).2 ⟨0, [0, 1]⟩ = Spec.viewStep threeHeap ⟨0, [0, 1]⟩ ∧
    Spec.viewStep (threePT.measure F (.obj 1) 0 threeHeap).2 ⟨0, [0, 1]⟩ = Spec.viewStep threeHeap ⟨0, [0, 1]⟩ ∧
    Spec.viewStep (threePT.runCatch F toyOps threeHeap).2 ⟨0, [0, 1]⟩ = Spec.viewStep threeHeap ⟨0, [0, 1]⟩ ∧
    threePT.traj <+: (threePT.forward F (.obj 1) (.obj 2) 0 wDraws threeHeap).1.1.traj ∧
    threePT.traj <+: (threePT.measure F (.obj 1) 0 threeHeap).1.1.traj := by
  obtain ⟨F, hF⟩ := toyBuilt
  exact ⟨F, hF, C14_forward_preserves_history hF threePT_stored _ _ _ _ three_first.1,
    C14_measure_changes_only_last hF threePT_stored _ _ three_first.1 three_first.2,
    (C14_history_immutable hF threePT_stored toyOps).2.2 _ three_first.1 (.inl three_first.2),
    (C14_forward_appends hF threePT_stored _ _ _ _).2.1, (C14_measure_stored hF threePT_stored _ _).2.1⟩

/-- C14, a `measure` that raises: the case of `C14_measure_error_offset`. -/
example : ∃ (F : FilterOpsH ℝ ℝ ℝ ℝ) (s : HPT ℝ ℝ) (st : HStep) (x : ℝ), st ∈ s.traj ∧ (s.measure F (.obj 1) 0 twoHeap).1.2 = .error .valueError ∧
    Spec.viewStep (s.measure F (.obj 1) 0 twoHeap).2 st = { Spec.viewStep twoHeap st with pa := { (Spec.viewStep twoHeap st).pa with w_offset := x } } := by
  obtain ⟨F, s, st, h1, h2, h3, h4, -⟩ := C14_measure_error_offset
  obtain ⟨x, hx⟩ := C14_measure_error h1 h2 (.obj 1) 0 h4 (st := st) (by simp [h3])
  exact ⟨F, s, st, x, by simp [h3], h4, hx⟩

/-- C94: going on from these stored steps; a misspelt filter name. -/
example : ∃ (F : FilterOpsH ℝ ℝ ℝ ℝ) (G : FilterOps ℝ ℝ ℝ (List ℝ) ℝ), mkFilterH (ofCallbacks toy) 2 0 "pf" .none = .ok F ∧
    ((Spec.viewPT threeHeap threePT).run G toyOps).2 = (threePT.run F toyOps threeHeap).1.2 ∧
    ((Spec.viewPT threeHeap threePT).forward G (.obj 1) (.obj 2) 0 wDraws).2 = (threePT.forward F (.obj 1) (.obj 2) 0 wDraws threeHeap).1.2 := by
  obtain ⟨F, hF⟩ := toyBuilt
  have hm : Spec.InMemory threeHeap threePT .none := ⟨threePT_stored, by simp [Spec.condSteps], by simp [Spec.condSteps]⟩
  have hF' : mkFilterH (ofCallbacks toy) 2 0 "pf" .none = .ok F := hF.built
  obtain ⟨G, hG⟩ : ∃ G, mkFilter toy 2 0 "pf" (Spec.viewOpts threeHeap .none) = .ok G := by
    simp [mkFilter, parse_pf, Spec.viewOpts, ok_bind, pure_eq_ok]
  exact ⟨F, G, hF', (C94_continue (ofCallbacks_implements toy) hm hF' hG toyOps).1,
    (C94_forward (ofCallbacks_implements toy) hm hF' hG _ _ _ _).1⟩
example (res : ℝ) := C94_constructor (ofCallbacks_implements toy) (h := refHeap) (opts := .dict (some [⟨0, [0]⟩, ⟨1, [0]⟩]))
  (by simp [Spec.condSteps, Spec.Alloc, refHeap]) 3 res "cpff"

end PyPE

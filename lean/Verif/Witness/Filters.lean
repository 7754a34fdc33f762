import Verif.Filter.Toy
import Verif.Filter.ApproxProps

/-!
# Concrete cases of the claims about single filter steps (C07, C08, C10–C19)

Every example applies one theorem to the scalar model `toy` and a stored step of three particles with unequal weights, so that all its
hypotheses hold at once.
-/

namespace PyPE
open Real Spec

/-- A stored step: three particles with log-weights 0, -1, -7. -/
noncomputable def wStep : Step ℝ := ⟨⟨[5, 6, 8], [0, -1, -7], 3, 2⟩, [0, 0, 2]⟩

theorem wStep_good : GoodStep 3 wStep := ⟨⟨rfl, rfl, rfl⟩, rfl, by simp [wStep]⟩

/-- Random numbers of a step. -/
noncomputable def wDraws : Draws ℝ := ⟨1/2, 1/3, 1⟩

theorem wDraws_ok : Unit01 wDraws.r ∧ Unit01 wDraws.r2 := by
  constructor <;> simp only [wDraws, Unit01] <;> norm_num

/-- Measurements 1 and 2, one input. -/
def wY : List (Slot ℝ) := [.obj 1, .obj 2]
def wU : List (Slot ℝ) := [.obj 1]
def wT : List ℕ := [0, 1]

/-- C07 -/
example : ∃ x, wStep.pa.sample (1/4) = .ok x ∧ x ∈ wStep.pa.part :=
  C07_sample_mem wStep.pa (by simp [wStep]) rfl (by simp only [Unit01]; norm_num)

theorem wOrder : IsArgsort wStep.pa.w [2, 1, 0] := by
  refine ⟨by simp [wStep]; decide, ?_⟩
  simp [wStep]

/-- C08 -/
example : (∃ best, findBest [2, 1, 0] 2 = .ok best ∧ best.length = 2 ∧
      ∀ i ∈ best, ∀ j < 3, j ∉ best → wStep.pa.w.getD i 0 ≤ wStep.pa.w.getD j 0) ∧
    findBest [2, 1, 0] 4 = .error .indexError :=
  ⟨C08_find_best_returns_lightest wOrder (n := 2) (by simp [wStep]), C08_find_best_too_many wOrder (n := 4) (by simp [wStep])⟩

/-- C10 -/
example := C10_measure_bayes (toy_full 3).toFilterContract (by norm_num) [wStep] [0, 1, 2] wStep_good.pa wU wY wT 1
example : weightUpdate wStep.pa [1, 2] = .error .valueError := C10_measure_bad_length _ _ (.inr (by simp [wStep]))

/-- C12, C11 for the bootstrap filter -/
example : ∃ pa flag anc, pfForward toy (2/3) [wStep] wY wU wT 0 wDraws = .ok (pa, flag, anc) ∧
    (flag = true ↔ ShouldResample (2/3) wStep.pa.w 3) := by
  obtain ⟨pa, flag, anc, h, -⟩ := C12_pf_forward_total (toy_full 3).toFilterContract (by norm_num) (2/3) (tr := [wStep]) rfl wStep_good.pa wY wU wT 0
    wDraws wDraws_ok.1
  exact ⟨pa, flag, anc, h, (C11_pf_resample_iff rfl (by simp [wStep]) h).1⟩

/-- C11, C18 for SIR -/
example : ∃ pa flag anc, sirForward toy (2/3) [wStep] wY wU wT 0 wDraws = .ok (pa, flag, anc) ∧
    (flag = true ↔ ShouldResample (2/3) wStep.pa.w 3) ∧ (0 ∈ pa.w ∧ ∀ x ∈ pa.w, x ≤ 0) := by
  obtain ⟨pa, flag, anc, h, -⟩ := sirForward_total (toy_full 3) (by norm_num) (2/3) (tr := [wStep]) rfl wStep_good.pa (yv := wY) (uv := wU) (tv := wT)
    (cur := 0) (by simp [wY]) (by simp [wU]) (by simp [wT]) wDraws wDraws_ok.1
  obtain ⟨_, _, _, _, _, _, _, _, _, _, _, -, -, -, -, -, -, -, -, -, -, -, h1, -⟩ := C18_sir_weights h
  exact ⟨pa, flag, anc, h, (C11_sir_resample_iff rfl (by simp [wStep]) h).1, h1⟩

/-- C11 for the filter that proposes from the measurement -/
example : ∃ pa flag anc, ffpropyForward toy (2/3) 3 [wStep] wY wU wT 0 wDraws = .ok (pa, flag, anc) ∧
    (flag = true ↔ ShouldResample (2/3) wStep.pa.w 3) := by
  obtain ⟨pa, flag, anc, h, -⟩ := ffpropyForward_total (toy_full 3) (by norm_num) (2/3) (tr := [wStep]) (cur := 0) rfl rfl wStep_good
    (yv := wY) wU (tv := wT) rfl rfl wDraws wDraws_ok.1
  exact ⟨pa, flag, anc, h, (C11_pfy_resample_iff rfl (by simp [wStep]) h).1⟩

/-- C11, C17 for the auxiliary filter: without resampling with threshold 0, with resampling with threshold 2 (`ess ≤ 3 < 6`) -/
example : (∃ pa anc pa', apfForward toy 0 [wStep] wY wU wT 0 wDraws = .ok (pa, false, anc) ∧
      pfForward toy 0 [wStep] wY wU wT 0 wDraws = .ok (pa', false, anc) ∧ pa'.w = pa.w) ∧
    (∃ pa anc, apfForward toy 2 [wStep] wY wU wT 0 wDraws = .ok (pa, true, anc) ∧ (0 ∈ pa.w ∧ ∀ x ∈ pa.w, x ≤ 0)) := by
  constructor
  · obtain ⟨pa, flag, anc, h, -⟩ := apfForward_total (toy_full 3) (by norm_num) 0 (tr := [wStep]) rfl wStep_good.pa (yv := wY) (uv := wU) (tv := wT)
      (cur := 0) (y := .obj 2) rfl (by simp) (by simp [wU]) (by simp [wT]) wDraws wDraws_ok.1
    obtain ⟨_, _, _, _, -, -, -, -, -, h1, -⟩ := C11_apf_resample_iff rfl h
    have : flag = false := by
      cases flag with
      | false => rfl
      | true => exact absurd rfl (h1.mp rfl).1
    subst this
    obtain ⟨pa', h2, -, h3⟩ := C17_apf_no_resample_eq_pf h
    exact ⟨pa, anc, pa', h, h2, h3⟩
  · obtain ⟨pa, flag, anc, h, -⟩ := apfForward_total (toy_full 3) (by norm_num) 2 (tr := [wStep]) rfl wStep_good.pa (yv := wY) (uv := wU) (tv := wT)
      (cur := 0) (y := .obj 2) rfl (by simp) (by simp [wU]) (by simp [wT]) wDraws wDraws_ok.1
    obtain ⟨y, u, t, l1, -, -, -, -, h0, h1, -⟩ := C11_apf_resample_iff rfl h
    have : flag = true := by
      refine h1.mpr ⟨by norm_num, ?_⟩
      obtain ⟨l1', e1, e2⟩ := (toy_full 3).first wStep.pa.part u y t rfl
      cases h0.symm.trans e1
      have hl : (List.zipWith (· + ·) wStep.pa.w l1).length = 3 := by simp [e2, wStep]
      have hne : List.zipWith (· + ·) wStep.pa.w l1 ≠ [] := by intro h; rw [h] at hl; simp at hl
      have := (C11_res_extremes 2 hne).2 (by norm_num)
      rw [hl] at this
      exact this.2
    subst this
    obtain ⟨_, _, _, _, _, _, _, -, -, -, -, -, -, -, h2, -⟩ := C17_apf_resampled_weights h
    exact ⟨pa, anc, h, h2⟩

/-- C17: no measurement in the second slot -/
example := C17_apf_missing_measurement_crashes (toy_full 3).toFilterContract (by norm_num) (2/3) (tr := [wStep]) rfl wStep_good.pa
  (yv := [.obj 1, .none]) wU wT (cur := 0) wDraws wDraws_ok.1 rfl

/-- C11: equal weights -/
example : ¬ ShouldResample (2/3) [-1, -1, -1] 3 :=
  C11_uniform_no_resample (by norm_num) (lw := [-1, -1, -1]) (by simp) (by intro x hx y hy; simp at hx hy; rw [hx, hy])

/-- C15, C16: one step of the conditional filters with the reference trajectory `toyRef` -/
example := C15_cpf_step (toy_full 3).toFilterContract (by norm_num) (ctraj := toyRef) (tr := [wStep]) (cur := 0) rfl rfl wStep_good.pa (x := 8) ⟨_, rfl, rfl⟩
  (yv := wY) (by simp [wY]) wU wT wDraws wDraws_ok.1
example := C16_cpfas_step (toy_full 3) (by norm_num) (ctraj := toyRef) (tr := [wStep]) (cur := 0) rfl rfl wStep_good (x := 8) ⟨_, rfl, rfl⟩
  (yv := wY) (by simp [wY]) wU wT wDraws wDraws_ok.1 wDraws_ok.2
example := C16_csiras_step (toy_full 3) (by norm_num) (ctraj := toyRef) (tr := [wStep]) (cur := 0) rfl rfl wStep_good (x := 8) ⟨_, rfl, rfl⟩
  (yv := wY) (by simp [wY]) (uv := wU) (by simp [wU]) (tv := wT) (by simp [wT]) wDraws wDraws_ok.1 wDraws_ok.2
example := C16_cpfyas_step (toy_full 3) (by norm_num) (ctraj := toyRef) (tr := [wStep]) (cur := 0) rfl rfl wStep_good (x := 8) ⟨_, rfl, rfl⟩
  (yv := wY) (by simp [wY]) wU (tv := wT) (by simp [wT]) wDraws wDraws_ok.1 wDraws_ok.2
/-- C16: a reference "trajectory" with three particles, as a filter stores it -/
example := C16_cpfyas_needs_single (toy_full 3) (ctraj := [wStep]) (cur := 0) rfl (by simp [wStep]) (yv := wY) (by simp [wY]) (tv := wT) (by simp [wT]) 0

/-- C63: the step of the run `toyMarkov_run` -/
example : ∃ s0 s s' b, PT.init 2 none 0 = .ok s0 ∧ s0.run (markovPf toyMarkov toy 0) [.measure (.obj 1) 0] = (s, .ok [none]) ∧
    s.forward (markovPf toyMarkov toy 0) (.obj 1) (.obj 2) 0 wDraws = (s', .ok b) ∧
    ∃ k old new, s'.traj[k]? = some old ∧ s'.traj[k+1]? = some new ∧ ∃ lik, toyMarkov.measure new.pa.part (.obj 2) (k + 1) = .ok lik := by
  have h : ∃ s0 s s' b, PT.init 2 none 0 = .ok s0 ∧ s0.run (markovPf toyMarkov toy 0) [.measure (.obj 1) 0] = (s, .ok [none]) ∧
      s.forward (markovPf toyMarkov toy 0) (.obj 1) (.obj 2) 0 wDraws = (s', .ok b) := by
    obtain ⟨s0, h0⟩ : ∃ s0 : PT ℝ ℝ ℝ, PT.init 2 none 0 = .ok s0 := ⟨_, rfl⟩
    refine ⟨s0, (s0.run (markovPf toyMarkov toy 0) [.measure (.obj 1) 0]).1,
      ((s0.run (markovPf toyMarkov toy 0) [.measure (.obj 1) 0]).1.forward (markovPf toyMarkov toy 0) (.obj 1) (.obj 2) 0 wDraws).1, false, h0,
      Prod.ext rfl ?_, Prod.ext rfl ?_⟩ <;> cases h0 <;>
    simp [wDraws, PT.run, PT.step, PT.measure, PT.growMeasure, markovPf, pfOps, MarkovModel.toCallbacks, PT.ensureInit,
      npResize, setIdx, PA.new, getLast, PT.forward, PT.growForward, getIdx, toyMarkov, pfMeasure, weightUpdate, npMax,
      npAdd, List.range_succ, pfForward, maybeResample, pfUpdate, fancy, ok_bind, pure_eq_ok, List.replicate]
  obtain ⟨s0, s, s', b, h0, h1, h2⟩ := h
  obtain ⟨k, old, new, _, _, lik, -, g1, g2, -, -, -, g3, -⟩ := C63_bootstrap_step h0 h1 h2
  exact ⟨s0, s, s', b, h0, h1, h2, k, old, new, g1, g2, lik, g3⟩

/-- C19: `pfy`, without preallocation and with four preallocated steps -/
example (T : Option ℕ) (hT : T = none ∨ T = some 4) : ∃ F s0 s s' r b, mkFilter toy 3 (2/3) "pfy" (.dict (some toyRef)) = .ok F ∧ PT.init 3 T 0 = .ok s0 ∧
    s0.step F (.measure (.obj 1) 0) = (s, .ok r) ∧ s.forward F (.obj 1) (.obj 2) 0 wDraws = (s', .ok b) ∧
    (T = none → ∃ st n, s'.traj.getLast? = some st ∧ toy.proposeFromY n (.obj 2) (s'.traj.length - 1) 1 = .ok st.pa.part) ∧
    (T = some 4 → ∃ st n, s'.traj[1]? = some st ∧ toy.proposeFromY n .none 3 1 = .ok st.pa.part) := by
  obtain ⟨F, hF⟩ : ∃ F, mkFilter toy 3 (2/3) "pfy" (.dict (some toyRef)) = .ok F := by
    simp [mkFilter, parse_pfy, ok_bind, FilterOptions.condTraj, pure_eq_ok]
  obtain ⟨s0, h0⟩ : ∃ s0 : PT ℝ ℝ ℝ, PT.init 3 T 0 = .ok s0 := by rcases hT with rfl | rfl <;> exact ⟨_, rfl⟩
  obtain ⟨s2, bs, h1, -⟩ := C12_every_run_total (k := .pfy) (toy_full 3) (by norm_num) parse_pfy hF h0
    [.measure (.obj 1) 0, .forward (.obj 1) (.obj 2) 0 wDraws] (Q := fun y => y ≠ .none)
    (by intro op h; simp only [List.mem_cons, List.not_mem_nil, or_false] at h
        rcases h with rfl | rfl
        · simp [Op.Ok]
        · simp only [Op.Ok]; exact ⟨by simp, wDraws_ok.1, wDraws_ok.2⟩)
    ⟨fun _ y h => h, fun h => by simp at h, fun h => by simp at h⟩
  rw [PT.run] at h1
  rcases hs : s0.step F (.measure (.obj 1) 0) with ⟨s1, r⟩
  rw [hs] at h1
  cases r with
  | error e => cases h1
  | ok r =>
    rcases hf : s1.forward F (.obj 1) (.obj 2) 0 wDraws with ⟨s', b⟩
    have hf' : s1.step F (.forward (.obj 1) (.obj 2) 0 wDraws) = (s', b.map some) := by
      rw [PT.step, hf]; cases b <;> rfl
    cases b with
    | error e =>
      simp [PT.run, hf', Except.map] at h1
    | ok b =>
      refine ⟨F, s0, s1, s', r, b, hF, h0, hs, hf, ?_, ?_⟩
      · rintro rfl
        exact C19_uses_current_measurement parse_pfy hF h0 (ops := [.measure (.obj 1) 0]) (bs := [r]) (by rw [PT.run, hs]; rfl) hf
      · rintro rfl
        exact C19_preallocated_violation parse_pfy hF (k := 4) (by norm_num) h0 hs hf

end PyPE

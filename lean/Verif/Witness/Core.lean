import Verif.Witness.Filters
import Verif.Special.Runs
import Verif.Sim.Props
import Verif.Sim.Run
import Verif.Traj.Faults

/-!
# Concrete cases of the claims about sampling, float weights, runs and simulations (C01, C05, C09, C20–C24)
-/

namespace PyPE
open Real Spec Flt

/-- C01: total weight zero, three draws -/
example : sample [0, 0] 3 (1/2) = .ok [0, 0, 0] := C01_sample_zero_total (by simp) (by simp) 3 _

/-- C05: a leading zero weight and `r = 0` -/
example : ∃ idx, sample [0, 1] 2 0 = .ok idx ∧ (0 ∈ idx → (0 : ℕ) = 0 ∧ (0 : ℝ) = 0) := by
  have hw : Weights [0, 1] := by constructor <;> simp
  obtain ⟨idx, h, -⟩ := C01_sample_length_range hw 2 (r := 0) (by simp [Unit01])
  exact ⟨idx, h, fun hm => C05_zero_weight_only_leading hw 2 (by simp [Unit01]) h (j := 0) (by simp) hm⟩

/-- C09 -/
example : ∃ pa, PA.newSeed "x0" 4 = .ok pa ∧ pa.part.length = 4 ∧ (pa.w.map exp).sum = 1 := by
  obtain ⟨pa, h, -, -, h1, h2⟩ := C09_new_seed "x0" 4 (by norm_num)
  exact ⟨pa, h, h1, h2⟩

/-- C20: measurement update of the stored step `wStep` -/
example : ∃ pa', weightUpdate wStep.pa [1, 2, 3] = .ok pa' ∧
    fWeightUpdate ⟨wStep.pa.w.map fin, fin wStep.pa.w_offset⟩ ([1, 2, 3].map fin) = .ok ⟨pa'.w.map fin, fin pa'.w_offset⟩ := by
  obtain ⟨pa', h⟩ : ∃ pa', weightUpdate wStep.pa [1, 2, 3] = .ok pa' := by
    simp [weightUpdate, wStep, npAdd, npMax, ok_bind, pure_eq_ok]
  exact ⟨pa', h, C20_agrees_measure h⟩

/-- C20: effective number of particles of `wStep` -/
example : ∃ v, calcNeff wStep.pa.w = .ok v ∧ fNeff (wStep.pa.w.map fin) = .ok (fin v) := by
  obtain ⟨v, h⟩ : ∃ v, calcNeff wStep.pa.w = .ok v := by
    simp [calcNeff, wStep, npMax, ok_bind, pure_eq_ok]
  exact ⟨v, h, C20_agrees_neff h⟩

/-- C20: one of two likelihoods is zero -/
example : ∃ out, fWeightUpdate ⟨[fin 0, fin (-1)], fin 0⟩ [fin 3, ninf] = .ok out ∧ ∃ c : ℝ, out.w_offset = (fin 0).add (fin c)
    ∧ ∃ v, out.w[1]? = some v ∧ Spec.densityOf v * exp c = Spec.densityOf (fin (-1)) * Spec.densityOf ninf := by
  obtain ⟨o, k1, k2, k3⟩ := C20_all_or_none (pa := ⟨[fin 0, fin (-1)], fin 0⟩) (ll := [fin 3, ninf]) rfl (by simp) (by simp)
  have hn : nan ∉ o.w := fun h => by
    have := (C20_nan_iff (pa := ⟨[fin 0, fin (-1)], fin 0⟩) (ll := [fin 3, ninf]) rfl (by simp) (by simp) k1).mp h
    simp at this
    exact this ⟨0, _, _, rfl, rfl⟩
  obtain ⟨c, h1, h2⟩ := C20_bayes (pa := ⟨[fin 0, fin (-1)], fin 0⟩) (ll := [fin 3, ninf]) rfl (by simp) (by simp) k1 hn
  obtain ⟨v, h3, h4⟩ := h2 1 (fin (-1)) ninf rfl rfl
  exact ⟨o, k1, c, h1, v, h3, h4⟩

/-- C20: the impossible particle is not drawn -/
example : ∃ pa ind, fResample ⟨[fin 0, ninf, fin (-1)], fin 2⟩ 3 (1/2) = .ok (pa, ind) ∧ 1 ∉ ind := by
  obtain ⟨pa, ind, h⟩ : ∃ pa ind, fResample ⟨[fin 0, ninf, fin (-1)], fin 2⟩ 3 (1/2) = .ok (pa, ind) := by
    obtain ⟨ind, h⟩ := fResample_ok (pa := ⟨[fin 0, ninf, fin (-1)], fin 2⟩) (by simp) 3 (1/2)
    exact ⟨_, ind, h⟩
  exact ⟨pa, ind, h, C20_impossible_not_resampled (by simp) (by simp) (x := 0) (by simp) (by norm_num) h rfl⟩

/-- C20: one NaN -/
example : fSample [fin 1, nan, fin 0] 2 (1/3) = .ok [0, 0] := C20_sample_nan (by simp) 2 _

/-- C21: five time steps after `measure` and four `forward` calls of the bootstrap filter over `toy` -/
example : ∃ (F : FilterOps ℝ ℝ ℝ (List ℝ) ℝ) (s0 s : PT ℝ ℝ ℝ) (bs : _), mkFilter toy 3 (2/3) "pf" .none = .ok F ∧ PT.init 3 none 0 = .ok s0 ∧
    s0.run F (Op.measure (.obj 1) 0 :: List.replicate 4 (.forward (.obj 1) (.obj 2) 0 wDraws)) = (s, .ok bs) ∧ s.traj.length = 5 := by
  have hF : mkFilter toy 3 (2/3) "pf" .none =
      .ok ⟨toy.createInitial, pfForward toy (2/3), pfMeasure toy, fun _ _ _ _ => .error .typeError, false⟩ := by simp only [mkFilter, parse_pf, ok_bind]; rfl
  obtain ⟨s, bs, h, -⟩ := C12_unconditional_run_total (toy_full 3) (by norm_num) parse_pf (.inl rfl) hF (T := none) rfl
    (Op.measure (.obj 1) 0 :: List.replicate 4 (.forward (.obj 1) (.obj 2) 0 wDraws)) (Q := fun y => True)
    (by intro op h
        rcases List.mem_cons.mp h with rfl | h
        · trivial
        · rw [List.eq_of_mem_replicate h]; exact ⟨trivial, wDraws_ok⟩)
    (by simp)
  exact ⟨_, _, s, bs, hF, rfl, h, by rw [C21_length (N := 3) (T := none) rfl rfl _ (by simp) h]; simp⟩

/-- C22: a filter whose `forward` fails once the input 0 is given -/
noncomputable def failing : FilterOps ℕ ℕ ℕ Unit Unit := { idleFilter false with
  forward := fun tr yv uv tv cur d => if uv[cur]? = some (.obj 0) then .error .valueError else (idleFilter false).forward tr yv uv tv cur d }

example : ∃ s0 s s' s'' bs b, PT.init 1 none 0 = .ok s0 ∧ s0.run failing [.measure (.obj 7) ()] = (s, .ok bs) ∧
    s.forward failing (.obj 0) (.obj 8) () ⟨0, 0, ()⟩ = (s', .error .valueError) ∧ s' ≠ s ∧
    s'.forward failing (.obj 1) (.obj 9) () ⟨0, 0, ()⟩ = (s'', .ok b) ∧
    s''.traj.length = s.traj.length + 1 ∧ s''.yvec[s.traj.length]? = some (.obj 8) ∧ s''.yvec[s.traj.length + 1]? = some (.obj 9) := by
  obtain ⟨s0, h0⟩ : ∃ s0 : PT ℕ ℕ ℕ, PT.init 1 none 0 = .ok s0 := ⟨_, rfl⟩
  have h1 : s0.run failing [.measure (.obj 7) ()] = ((s0.run failing [.measure (.obj 7) ()]).1, .ok [none]) := by
    cases h0
    rfl
  set s := (s0.run failing [.measure (.obj 7) ()]).1 with hs
  have h2 : s.forward failing (.obj 0) (.obj 8) () ⟨0, 0, ()⟩ = ((s.forward failing (.obj 0) (.obj 8) () ⟨0, 0, ()⟩).1, .error .valueError) := by
    rw [hs]; cases h0; rfl
  set s' := (s.forward failing (.obj 0) (.obj 8) () ⟨0, 0, ()⟩).1 with hs'
  have h3 : s'.forward failing (.obj 1) (.obj 9) () ⟨0, 0, ()⟩ = ((s'.forward failing (.obj 1) (.obj 9) () ⟨0, 0, ()⟩).1, .ok false) := by
    rw [hs', hs]; cases h0; rfl
  exact ⟨s0, s, s', _, _, _, h0, h1, h2, C22_failed_forward_changes_state h0 (by simp) h1 h2, h3, C22_retry_misaligns h0 (by simp) h1 h2 h3⟩

/-- C23: two measurements, without and with a measurement before the first step -/
example : ∃ pt0 pt n, PT.init 1 none 0 = .ok pt0 ∧ simForward (idleFilter false) pt0 [.obj 5, .obj 6] [.obj 3, .obj 4] false (fun _ => ((), ⟨0, 0, ()⟩)) = (pt, .ok n) ∧
    pt.traj.length = 3 ∧ pt.yvec[2]? = some (.obj 4) ∧ pt.uvec[1]? = some (.obj 6) ∧ n ≤ 2 := by
  obtain ⟨pt0, pt, n, h0, h⟩ : ∃ pt0 pt n, PT.init 1 none 0 = .ok pt0 ∧ simForward (idleFilter false) pt0 [.obj 5, .obj 6] [.obj 3, .obj 4] false
      (fun _ => ((), ⟨0, 0, ()⟩)) = (pt, .ok n) := ⟨_, _, _, rfl, rfl⟩
  obtain ⟨h1, -, -, h2, -⟩ := C23_alignment h0 (by simp) h
  exact ⟨pt0, pt, n, h0, h, h1, (h2 1 (by simp)).1, (h2 1 (by simp)).2, C24_count_le h⟩

example : ∃ pt0 pt n, PT.init 1 none 0 = .ok pt0 ∧ simForward (idleFilter false) pt0 [.obj 5] [.obj 3, .obj 4] true (fun _ => ((), ⟨0, 0, ()⟩)) = (pt, .ok n) ∧
    pt.traj.length = 2 ∧ pt.yvec[1]? = some (.obj 4) ∧ pt.uvec[0]? = some (.obj 5) := by
  obtain ⟨pt0, pt, n, h0, h⟩ : ∃ pt0 pt n, PT.init 1 none 0 = .ok pt0 ∧ simForward (idleFilter false) pt0 [.obj 5] [.obj 3, .obj 4] true
      (fun _ => ((), ⟨0, 0, ()⟩)) = (pt, .ok n) := ⟨_, _, _, rfl, rfl⟩
  obtain ⟨-, h1, -, h2, h3⟩ := C23_alignment_meas_first h0 h
  exact ⟨pt0, pt, n, h0, h, h1, (h2 1 (by simp)).1, h3 0 (by simp)⟩

/-- C24: the bootstrap filter over `toy` on two measurements -/
example : ∃ pt0 pt n, PT.init 3 none 0 = .ok pt0 ∧ simForward (pfOps toy (2/3)) pt0 [.obj 5, .obj 6] [.obj 3, .obj 4] false (fun _ => (0, wDraws)) = (pt, .ok n) ∧
    n = Spec.resampleCount (2/3) pt.traj := by
  have hF : mkFilter toy 3 (2/3) "pf" .none = .ok (pfOps toy (2/3)) := by simp only [mkFilter, parse_pf, ok_bind]; rfl
  obtain ⟨s0, h0⟩ : ∃ s0 : PT ℝ ℝ ℝ, PT.init 3 none 0 = .ok s0 := ⟨_, rfl⟩
  obtain ⟨s, bs, h, -⟩ := C12_unconditional_run_total (toy_full 3) (by norm_num) parse_pf (.inl rfl) hF h0
    ((List.range 2).map (loopOp [.obj 5, .obj 6] [.obj 3, .obj 4] 0 fun _ => (0, wDraws))) (Q := fun _ => True)
    (by intro op h
        obtain ⟨i, -, rfl⟩ := List.mem_map.mp h
        exact ⟨trivial, wDraws_ok⟩)
    (by simp)
  have hs : simForward (pfOps toy (2/3)) s0 [.obj 5, .obj 6] [.obj 3, .obj 4] false (fun _ => (0, wDraws)) = (s, .ok (0 + bs.count (some true))) := by
    rw [simForward, if_neg (by simp)]
    exact simLoop_of_run _ (by simp) 0 h
  exact ⟨s0, s, _, h0, hs, C24_count_exact h0 hs⟩

end PyPE

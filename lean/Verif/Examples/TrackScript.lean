import Verif.Models.LtvPipeline
import Verif.Models.LtvMissing
import Verif.Sim.Run

/-!
# C121: `Simulator.simulate` with a linear Gaussian (`LTV`) model, and the script test/manual/filtering/ltv_test.py
-/

namespace PyPE
open Matrix Real Spec MeasureTheory
open scoped ENNReal

variable {n m : ℕ} {U V Ω : Type}

/-- **C121** `Simulator(model, u, y).simulate(num_part, num_traj, filter='pf', smoother=…, meas_first=True)` with an `LTV` model whose transition does not change over the
record: it succeeds for any data and draws, and the stored smoothed trajectories hold the means and covariances of the exact smoothing laws. -/
theorem C121_simulate {M : Ltv n m (Slot U) ℕ (Fin m → ℝ)} {kf : KF n m} {D : Spec.LtvSys n m (Slot U) ℕ} (hD : Spec.Describes M kf D)
    (hP0 : M.P0.PosSemidef) (hQ : ∀ u t, (D.Q u t).PosDef) (hR : ∀ t, (D.R t).PosDef) (us : Option (List (Slot U))) (ys : List (Fin m → ℝ)) (hne : ys ≠ [])
    (hus : ∀ l, us = some l → ys.length ≤ l.length + 1) {u : ℕ → Slot U} (hu : ∀ i, u i = us.elim .none fun l => l.getD i .none)
    (hinv : ∀ i, i + 1 < ys.length → D.A (u i) i = D.A (u 0) 0 ∧ D.f (u i) i = D.f (u 0) 0 ∧ D.Q (u i) i = D.Q (u 0) 0)
    {N Mt : ℕ} (hN : 0 < N) (hMt : 0 < Mt) (res : ℝ) (draws : ℕ → Ω × Draws Ω) (hdr : ∀ i, Unit01 (draws i).2.r ∧ Unit01 (draws i).2.r2)
    {rest : SmoothCallbacks (List ℝ) U (Fin m → ℝ) V Ω} (hps : NoPostprocessing rest) {method : String} {user : Option SOpts} (hm : Spec.LtvMethod method user)
    {d : AllDraws Ω} (hd : GoodSmoothDraws d.bsi) :
    ∃ pt k traj B, (∀ fuel, B ≤ fuel →
        (Sim.new us (ys.map Slot.obj)).simulate (.ok (rbfOps (ltvMarkov M kf Ω) res)) N Mt (some method)
          (fun pt nt meth => performSmoothing (ltvSmoothing M kf rest) pt.traj nt ⟨pt.uvec, pt.yvec, pt.tvec⟩ meth user d fuel) true draws =
        ({ (Sim.new us (ys.map Slot.obj) : Sim (List ℝ) U (Fin m → ℝ) (Option (List (SStep (List ℝ))))) with pt := some pt, straj := some (some traj) }, .ok k)) ∧
      traj.length = ys.length ∧ ∀ (i : ℕ) st, traj[i]? = some st → st.pa.part.length = Mt ∧ st.pa.w = List.replicate Mt (-Real.log Mt) ∧
        ∃ z P Ms c, (∀ row ∈ st.pa.part, Spec.StoresSmooth row (z, P) Ms) ∧ P.PosSemidef ∧
          Spec.smoothedAt M D u (fun i => ys[i]?) (ys.length - 1) i = ENNReal.ofReal (exp c) • Spec.gauss z P := by
  have hl : 0 < ys.length := List.length_pos_of_ne_nil hne
  obtain ⟨s0, h0⟩ : ∃ s0 : PT (List ℝ) U (Fin m → ℝ), PT.init N none 0 = .ok s0 := ⟨_, rfl⟩
  obtain ⟨sm, hsm⟩ : ∃ sm : Sim (List ℝ) U (Fin m → ℝ) (Option (List (SStep (List ℝ)))), sm = Sim.new us (ys.map Slot.obj) := ⟨_, rfl⟩
  have hsu : ∀ i, sm.u.getD i .none = u i := by
    intro i
    rw [hsm, hu i]
    cases us with
    | none =>
      simp only [Sim.new, Option.elim, List.getD_eq_getElem?_getD, List.getElem?_replicate]
      split <;> rfl
    | some l => rfl
  have hsl : sm.y.length ≤ sm.u.length + 1 := by
    rw [hsm]
    cases us with
    | none => simp [Sim.new]
    | some l => simpa [Sim.new] using hus l rfl
  have hsy : sm.y = ys.map Slot.obj := by rw [hsm]; rfl
  have hyc : Spec.Complete (fun i => ys[i]?) (ys.length - 1) :=
    ⟨fun i h1 h2 => by simp [show i < ys.length by omega], fun h => by simp at h; exact absurd h hne⟩
  have hds : Spec.CallsFor u (fun i => ys[i]?) (ys.length - 1) (simCalls sm.u sm.y draws) := by
    refine ⟨by simp [simCalls, hsy], fun i q hq => ?_⟩
    simp only [simCalls, List.getElem?_map, List.getElem?_range', hsy] at hq
    obtain ⟨j, hj, rfl⟩ := Option.map_eq_some_iff.mp hq
    have hij : j = i ∧ i < ys.length - 1 := by
      rw [List.getElem?_eq_some_iff] at hj
      obtain ⟨h1, h2⟩ := hj
      simp at h1 h2
      exact ⟨h2.symm, h1⟩
    obtain ⟨rfl, hj⟩ := hij
    refine ⟨hsu j, ?_, hdr (j + 1)⟩
    simp [List.getD_eq_getElem?_getD, show j + 1 < ys.length by omega, Spec.slotOf]
  have hy0 : sm.y[0]? = some (.obj ys[0]) := by rw [hsy]; simp [hl]
  obtain ⟨s, bs, traj, B, h1, h2, h3, h4⟩ := C121_smoother hD hP0 hQ hR (y := fun i => ys[i]?) (K := ys.length - 1) (fun i hi => hinv i (by omega)) hyc hN hMt res h0
    (draws 0).1 hds hps hm hd
  rw [show (ys[0]? : Option (Fin m → ℝ)) = some ys[0] from List.getElem?_eq_getElem hl, Option.map_some] at h1
  have hfwd := simForward_of_history hy0 hsl draws h1
  refine ⟨s, bs.count (some true), traj, B, fun fuel hf => ?_, by omega, h4⟩
  rw [← hsm]
  unfold Sim.simulate
  simp only [h0, hfwd, if_pos hMt, h2 fuel hf]

/-! ## The script test/manual/filtering/ltv_test.py -/

/-- `Model(z0, P0, Q, R)` (ltv_test.py:30-43, 73-80): position and velocity, the position seen along a direction that turns with time. -/
noncomputable def trackModel : Ltv 2 2 (Slot Unit) ℕ (Fin 2 → ℝ) where
  z0 := ![1, 2]
  P0 := (10 : ℝ) • 1
  predDyn := fun _ _ => (none, none, none)
  measDyn := fun y t => (y, some !![Real.cos t, 0; Real.sin t, 0], none, none)

/-- The `kalman.KalmanSmoother` its constructor makes (ltv_test.py:33-37, ltv.py:40-50). -/
noncomputable def trackKf : KF 2 2 := ltvInitKf (some !![1, 1; 0, 1]) (some 0) (some 1) (some ((1 / 10 : ℝ) • 1)) none none

/-- The system the script describes: `x' = (x₁ + x₂, x₂) + v`, `y = (cos t · x₁, sin t · x₁) + e`, with `v ~ N(0, I)` and `e ~ N(0, 0.1 I)`
(the initial law `N((1, 2), 10 I)` is in the theorem). -/
noncomputable def Spec.trackSystem : Spec.LtvSys 2 2 (Slot Unit) ℕ where
  A := fun _ _ => !![1, 1; 0, 1]
  f := fun _ _ => 0
  Q := fun _ _ => 1
  C := fun t => !![Real.cos t, 0; Real.sin t, 0]
  h := fun _ => 0
  R := fun _ => (1 / 10 : ℝ) • 1

theorem track_describes : Spec.Describes trackModel trackKf Spec.trackSystem where
  obs := fun _ _ => rfl
  A := .inr ⟨fun _ => rfl, fun _ => rfl⟩
  f := .inr ⟨fun _ => rfl, fun _ => rfl⟩
  Q := .inr ⟨fun _ => rfl, fun _ => rfl⟩
  C := .inl fun _ => rfl
  h := .inr ⟨fun _ => rfl, rfl, fun _ => rfl⟩
  R := .inr ⟨fun _ => rfl, fun _ => rfl⟩

theorem track_P0 : trackModel.P0.PosDef := Matrix.PosDef.one.smul (by norm_num)
theorem track_Q (u : Slot Unit) (t : ℕ) : (Spec.trackSystem.Q u t).PosDef := Matrix.PosDef.one
theorem track_R (t : ℕ) : (Spec.trackSystem.R t).PosDef := Matrix.PosDef.one.smul (by norm_num)

/-- **C121, the script.** For every (non-empty) data set, every number of particles and trajectories and all draws, `sim.simulate(num, M, filter='PF',
smoother='full', meas_first=True)` succeeds, and the smoothed estimates it plots are the exact smoothing means of the system above. -/
theorem C121_script (ys : List (Fin 2 → ℝ)) (hne : ys ≠ []) {N Mt : ℕ} (hN : 0 < N) (hMt : 0 < Mt) (res : ℝ) (draws : ℕ → Ω × Draws Ω)
    (hdr : ∀ i, Unit01 (draws i).2.r ∧ Unit01 (draws i).2.r2) {rest : SmoothCallbacks (List ℝ) Unit (Fin 2 → ℝ) V Ω} (hps : NoPostprocessing rest)
    {d : AllDraws Ω} (hd : GoodSmoothDraws d.bsi) :
    ∃ pt k traj B, (∀ fuel, B ≤ fuel →
        (Sim.new none (ys.map Slot.obj)).simulate (.ok (rbfOps (ltvMarkov trackModel trackKf Ω) res)) N Mt (some "full")
          (fun pt nt meth => performSmoothing (ltvSmoothing trackModel trackKf rest) pt.traj nt ⟨pt.uvec, pt.yvec, pt.tvec⟩ meth none d fuel) true draws =
        ({ (Sim.new none (ys.map Slot.obj) : Sim (List ℝ) Unit (Fin 2 → ℝ) (Option (List (SStep (List ℝ))))) with
            pt := some pt, straj := some (some traj) }, .ok k)) ∧
      traj.length = ys.length ∧ ∀ (i : ℕ) st, traj[i]? = some st → st.pa.part.length = Mt ∧
        ∃ z P Ms c, (∀ row ∈ st.pa.part, Spec.StoresSmooth row (z, P) Ms) ∧ P.PosSemidef ∧
          Spec.smoothed (Spec.gauss ![1, 2] ((10 : ℝ) • 1))
            (Spec.trackSystem.seenAt (fun i => ys[i]?) id 0 ++ Spec.trackSystem.record (fun _ => .none) (fun i => ys[i]?) id 0 i)
            (Spec.trackSystem.record (fun _ => .none) (fun i => ys[i]?) id i (ys.length - 1 - i)) = ENNReal.ofReal (exp c) • Spec.gauss z P := by
  obtain ⟨pt, k, traj, B, h1, h2, h3⟩ := C121_simulate (Ω := Ω) track_describes track_P0.posSemidef track_Q track_R none ys hne (fun l hl => by cases hl)
    (u := fun _ => .none) (fun _ => rfl) (fun _ _ => ⟨rfl, rfl, rfl⟩) hN hMt res draws hdr hps (method := "full") (user := none) (.inl rfl) hd
  exact ⟨pt, k, traj, B, h1, h2, fun i st hi => ⟨(h3 i st hi).1, (h3 i st hi).2.2⟩⟩

/-! ## The hypotheses can be met -/

/-- The calls `forward` of a run over any record. -/
def trackCalls (y : ℕ → Option (Fin 2 → ℝ)) (K : ℕ) : List (Slot Unit × Slot (Fin 2 → ℝ) × Unit × Draws Unit) :=
  (List.range K).map fun i => (.none, Spec.slotOf (y (i + 1)), (), ⟨0, 0, ()⟩)

theorem trackCalls_for (y : ℕ → Option (Fin 2 → ℝ)) (K : ℕ) : Spec.CallsFor (fun _ => Slot.none) y K (trackCalls y K) := by
  refine ⟨by simp [trackCalls], fun i q hq => ?_⟩
  rw [trackCalls, List.getElem?_map] at hq
  obtain ⟨j, hj, rfl⟩ := Option.map_eq_some_iff.mp hq
  rw [List.getElem?_eq_some_iff] at hj
  obtain ⟨h1, h2⟩ := hj
  simp at h2
  subst h2
  exact ⟨rfl, rfl, by simp [Unit01], by simp [Unit01]⟩

/-- Measurements at all times after the first, or at all times. -/
theorem track_complete (v : ℕ → Fin 2 → ℝ) (first : Bool) : Spec.Complete (fun i => if i = 0 ∧ first = false then none else some (v i)) 50 :=
  ⟨fun i h _ => by simp [h.ne'], fun _ => by omega⟩

/-- The filter with the script's model. -/
example (v : ℕ → Fin 2 → ℝ) (first : Bool) :=
  C121_filter track_describes track_P0.posSemidef (fun u t => (track_Q u t).posSemidef) track_R (track_complete v first) (N := 3) (by omega) (2 / 3) (T := none) rfl ()
    (trackCalls_for _ _)

/-- A missing measurement after the record. -/
example (v : ℕ → Fin 2 → ℝ) (first : Bool) :=
  C121_missing track_describes track_P0.posSemidef (fun u t => (track_Q u t).posSemidef) track_R (track_complete v first) (N := 3) (by omega) (2 / 3) (T := none) rfl ()
    (trackCalls_for _ _) .none () ⟨0, 0, ()⟩ (by simp [Unit01])

/-- The smoothers with the script's model. -/
example (v : ℕ → Fin 2 → ℝ) (first : Bool) (rest : SmoothCallbacks (List ℝ) Unit (Fin 2 → ℝ) Unit Unit) (hps : NoPostprocessing rest) (d : AllDraws Unit)
    (hd : GoodSmoothDraws d.bsi) :=
  C121_smoother track_describes track_P0.posSemidef track_Q track_R (fun _ _ => ⟨rfl, rfl, rfl⟩) (track_complete v first) (N := 3) (Mt := 2) (by omega) (by omega) (2 / 3)
    (T := none) rfl () (trackCalls_for _ _) hps (method := "mcmc") (user := none) (.inr (.inr ⟨rfl, rfl⟩)) hd

/-- The script's model with another measurement noise. -/
noncomputable def trackKf' (r : ℝ) : KF 2 2 := ltvInitKf (some !![1, 1; 0, 1]) (some 0) (some 1) (some (r • 1)) none none

/-- An EM step from the script's measurement noise to another one. -/
example (v : ℕ → Fin 2 → ℝ) (first : Bool) (rest : SmoothCallbacks (List ℝ) Unit (Fin 2 → ℝ) Unit Unit) (hps : NoPostprocessing rest) (d : AllDraws Unit)
    (hd : GoodSmoothDraws d.bsi) (r : ℝ) (hr : 0 < r) :=
  C121_em track_describes (kf' := trackKf' r) (D' := { Spec.trackSystem with R := fun _ => r • 1 })
    { track_describes with R := .inr ⟨fun _ => rfl, fun _ => rfl⟩ } track_P0 track_P0 track_Q track_R track_Q (fun _ => Matrix.PosDef.one.smul hr)
    (fun _ _ => ⟨rfl, rfl, rfl⟩) (track_complete v first) (N := 3) (N' := 5) (Mt := 2) (by omega) (by omega) (by omega) (2 / 3) (1 / 2)
    (T := none) (T' := none) rfl rfl () () (trackCalls_for _ _) (trackCalls_for _ _) hps (method := "full") (user := none) (.inl rfl) hd
    (yt := (List.range 51).map fun i => if i = 0 ∧ first = false then none else some (v i)) (fun i hi => by simp [show i < 51 by omega])

end PyPE

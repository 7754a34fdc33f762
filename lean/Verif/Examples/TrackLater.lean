import Verif.Examples.TrackScript

/-!
# C121: `Simulator.simulate` with `meas_first=False` and a linear Gaussian (`LTV`) model
-/

namespace PyPE
open Matrix Real Spec MeasureTheory
open scoped ENNReal

variable {n m : ℕ} {P U Y V Ω : Type}

/-- The calls `forward` that `simulate` makes without an initial `measure` (simulator.py:97-105). -/
def simCallsLater (u : List (Slot U)) (y : List (Slot Y)) (draws : ℕ → Ω × Draws Ω) : List (Slot U × Slot Y × Ω × Draws Ω) :=
  (List.range y.length).map fun i => (u.getD i .none, y.getD i .none, (draws i).1, (draws i).2)

/-- `simulate` with `meas_first=False` is the history `forward(u[0], y[0]); forward(u[1], y[1]); …`. -/
theorem simForward_of_history_later {F : FilterOps P U Y V Ω} {pt pt' : PT P U Y} {u : List (Slot U)} {y : List (Slot Y)}
    (hu : y.length ≤ u.length) (draws : ℕ → Ω × Draws Ω) {bs : List (Option Bool)}
    (h : pt.run F (history none (simCallsLater u y draws)) = (pt', .ok bs)) :
    simForward F pt u y false draws = (pt', .ok (bs.count (some true))) := by
  have hops : history none (simCallsLater u y draws) = (List.range y.length).map (loopOp u y 0 draws) := by
    apply List.ext_getElem
    · simp [simCallsLater, history]
    · intro i h1 h2
      simp [simCallsLater, loopOp, history]
  rw [hops] at h
  unfold simForward
  rw [if_neg (by simp), simLoop_of_run _ (fun i hi => ?_) 0 h, Nat.zero_add]
  have := List.mem_range.mp hi
  exact ⟨by omega, this⟩

/-- The record of a run that starts with a move: nothing is measured at time 0, and `ys[i]` is measured at time `i + 1`. -/
def Spec.later (ys : List (Fin m → ℝ)) : ℕ → Option (Fin m → ℝ)
  | 0 => none
  | i + 1 => ys[i]?

/-- **C121** `Simulator(model, u, y).simulate(num_part, num_traj, filter='pf', smoother=…, meas_first=False)` with an `LTV` model whose transition does not change over
the record: it succeeds for any data and draws, stores one more time step than there are measurements, and the stored smoothed trajectories hold the means and covariances
of the exact smoothing laws of the system in which `y[i]` is the measurement of time `i + 1` and the initial law is that of time 0. -/
theorem C121_simulate_later {M : Ltv n m (Slot U) ℕ (Fin m → ℝ)} {kf : KF n m} {D : Spec.LtvSys n m (Slot U) ℕ} (hD : Spec.Describes M kf D)
    (hP0 : M.P0.PosSemidef) (hQ : ∀ u t, (D.Q u t).PosDef) (hR : ∀ t, (D.R t).PosDef) (us : Option (List (Slot U))) (ys : List (Fin m → ℝ)) (hne : ys ≠ [])
    (hus : ∀ l, us = some l → ys.length ≤ l.length) {u : ℕ → Slot U} (hu : ∀ i, u i = us.elim .none fun l => l.getD i .none)
    (hinv : ∀ i, i < ys.length → D.A (u i) i = D.A (u 0) 0 ∧ D.f (u i) i = D.f (u 0) 0 ∧ D.Q (u i) i = D.Q (u 0) 0)
    {N Mt : ℕ} (hN : 0 < N) (hMt : 0 < Mt) (res : ℝ) (draws : ℕ → Ω × Draws Ω) (hdr : ∀ i, Unit01 (draws i).2.r ∧ Unit01 (draws i).2.r2)
    {rest : SmoothCallbacks (List ℝ) U (Fin m → ℝ) V Ω} (hps : NoPostprocessing rest) {method : String} {user : Option SOpts} (hm : Spec.LtvMethod method user)
    {d : AllDraws Ω} (hd : GoodSmoothDraws d.bsi) :
    ∃ pt k traj B, (∀ fuel, B ≤ fuel →
        (Sim.new us (ys.map Slot.obj)).simulate (.ok (rbfOps (ltvMarkov M kf Ω) res)) N Mt (some method)
          (fun pt nt meth => performSmoothing (ltvSmoothing M kf rest) pt.traj nt ⟨pt.uvec, pt.yvec, pt.tvec⟩ meth user d fuel) false draws =
        ({ (Sim.new us (ys.map Slot.obj) : Sim (List ℝ) U (Fin m → ℝ) (Option (List (SStep (List ℝ))))) with pt := some pt, straj := some (some traj) }, .ok k)) ∧
      traj.length = ys.length + 1 ∧ ∀ (i : ℕ) st, traj[i]? = some st → st.pa.part.length = Mt ∧ st.pa.w = List.replicate Mt (-Real.log Mt) ∧
        ∃ z P Ms c, (∀ row ∈ st.pa.part, Spec.StoresSmooth row (z, P) Ms) ∧ P.PosSemidef ∧
          Spec.smoothedAt M D u (Spec.later ys) ys.length i = ENNReal.ofReal (exp c) • Spec.gauss z P := by
  have hl : 0 < ys.length := List.length_pos_of_ne_nil hne
  obtain ⟨s0, h0⟩ : ∃ s0 : PT (List ℝ) U (Fin m → ℝ), PT.init N none 0 = .ok s0 := ⟨_, rfl⟩
  obtain ⟨sm, hsm⟩ : ∃ sm : Sim (List ℝ) U (Fin m → ℝ) (Option (List (SStep (List ℝ)))), sm = Sim.new us (ys.map Slot.obj) := ⟨_, rfl⟩
  have hsu : ∀ i, sm.u.getD i .none = u i := by
    intro i
    rw [hsm, hu i]
    cases us with
    | none =>
      simp only [Sim.new, Option.elim, List.getD_eq_getElem?_getD, List.getElem?_replicate]
      split <;> rfl
    | some l => rfl
  have hsl : sm.y.length ≤ sm.u.length := by
    rw [hsm]
    cases us with
    | none => simp [Sim.new]
    | some l => simpa [Sim.new] using hus l rfl
  have hsy : sm.y = ys.map Slot.obj := by rw [hsm]; rfl
  have hyc : Spec.Complete (Spec.later ys) ys.length := by
    refine ⟨fun i h1 h2 => ?_, fun _ => hl⟩
    obtain ⟨j, rfl⟩ : ∃ j, i = j + 1 := ⟨i - 1, by omega⟩
    simp [Spec.later, show j < ys.length by omega]
  have hds : Spec.CallsFor u (Spec.later ys) ys.length (simCallsLater sm.u sm.y draws) := by
    refine ⟨by simp [simCallsLater, hsy], fun i q hq => ?_⟩
    simp only [simCallsLater, List.getElem?_map, hsy] at hq
    obtain ⟨j, hj, rfl⟩ := Option.map_eq_some_iff.mp hq
    have hij : j = i ∧ i < ys.length := by
      rw [List.getElem?_eq_some_iff] at hj
      obtain ⟨h1, h2⟩ := hj
      simp at h1 h2
      exact ⟨h2.symm, h1⟩
    obtain ⟨rfl, hj⟩ := hij
    refine ⟨hsu j, ?_, hdr j⟩
    simp [List.getD_eq_getElem?_getD, hj, Spec.slotOf, Spec.later]
  obtain ⟨s, bs, traj, B, h1, h2, h3, h4⟩ := C121_smoother hD hP0 hQ hR (y := Spec.later ys) (K := ys.length) hinv hyc hN hMt res h0
    (draws 0).1 hds hps hm hd
  have hfwd := simForward_of_history_later hsl draws h1
  refine ⟨s, bs.count (some true), traj, B, fun fuel hf => ?_, h3, h4⟩
  rw [← hsm]
  unfold Sim.simulate
  simp only [h0, hfwd, if_pos hMt, h2 fuel hf]

/-- The hypotheses can be met: the model of ltv_test.py, any data, without inputs. -/
example (ys : List (Fin 2 → ℝ)) (hne : ys ≠ []) (rest : SmoothCallbacks (List ℝ) Unit (Fin 2 → ℝ) Unit Unit) (hps : NoPostprocessing rest) (d : AllDraws Unit)
    (hd : GoodSmoothDraws d.bsi) :=
  C121_simulate_later track_describes track_P0.posSemidef track_Q track_R none ys hne (fun l hl => by cases hl) (u := fun _ => .none) (fun _ => rfl)
    (fun _ _ => ⟨rfl, rfl, rfl⟩) (N := 3) (Mt := 2) (by omega) (by omega) (2 / 3) (fun _ => ((), ⟨0, 0, ()⟩)) (fun _ => by simp [Unit01]) hps
    (method := "full") (user := none) (.inl rfl) hd

end PyPE

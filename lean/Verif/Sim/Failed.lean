import Verif.Sim.Props

/-!
# C62: what a run of `Simulator.simulate` leaves behind, also when it fails
-/

namespace PyPE

variable {P U Y V Ω S : Type}

/-- **C62** Two simulators with the same data but different earlier runs give the same outcome (result or exception). If the filter could be constructed both then hold the
same filter trajectory, also when the run failed half-way (nothing of an earlier filter run is left); if not, nothing is changed. The smoothed trajectories of an earlier run
survive every failed run. -/
theorem C62_earlier_runs (s1 s2 : Sim P U Y S) (hu : s1.u = s2.u) (hy : s1.y = s2.y) (mk : PyM (FilterOps P U Y V Ω)) (np nt : ℕ) (sm : Option String)
    (smooth : PT P U Y → ℕ → String → PyM S) (mf : Bool) (draws : ℕ → Ω × Draws Ω) :
    (s1.simulate mk np nt sm smooth mf draws).2 = (s2.simulate mk np nt sm smooth mf draws).2 ∧
    (∀ F, mk = .ok F → ∃ pt, (s1.simulate mk np nt sm smooth mf draws).1.pt = some pt ∧ (s2.simulate mk np nt sm smooth mf draws).1.pt = some pt) ∧
    (∀ e, mk = .error e → s1.simulate mk np nt sm smooth mf draws = (s1, .error e)) ∧
    (∀ e, (s1.simulate mk np nt sm smooth mf draws).2 = .error e → (s1.simulate mk np nt sm smooth mf draws).1.straj = s1.straj) ∧
    (s1.simulate mk np nt sm smooth mf draws).1.u = s1.u ∧ (s1.simulate mk np nt sm smooth mf draws).1.y = s1.y := by
  cases mk with
  | error e => simp [Sim.simulate]
  | ok F =>
    obtain ⟨s0, h0⟩ : ∃ s0 : PT P U Y, PT.init np none 0 = .ok s0 := ⟨_, rfl⟩
    simp only [Sim.simulate, h0, hu, hy]
    rcases hf : simForward F s0 s2.u s2.y mf draws with ⟨pt, e | k⟩
    · simp [hu, hy]
    · cases sm with
      | none => simp [hu, hy]
      | some meth =>
        by_cases hn : 0 < nt
        · simp only [if_pos hn]
          cases smooth pt nt meth <;> simp [hu, hy]
        · simp [if_neg hn, hu, hy]

/-- The smoother fails: the filter trajectory is the new one, the smoothed trajectories those of the earlier run. -/
example (F : FilterOps ℕ Unit ℕ Unit Unit) (draws : ℕ → Unit × Draws Unit) (old : ℕ) (s : Sim ℕ Unit ℕ ℕ) (hs : s = { u := [], y := [], pt := none, straj := some old }) :
    (s.simulate (.ok F) 3 1 (some "ful") (fun _ _ _ => .error .valueError) false draws).2 = .error .valueError ∧
    (s.simulate (.ok F) 3 1 (some "ful") (fun _ _ _ => .error .valueError) false draws).1.straj = some old := by
  have h : (s.simulate (.ok F) 3 1 (some "ful") (fun _ _ _ => .error .valueError) false draws).2 = .error .valueError := by subst hs; rfl
  exact ⟨h, ((C62_earlier_runs s s rfl rfl _ _ _ _ _ _ _).2.2.2.1 _ h).trans (by subst hs; rfl)⟩

end PyPE

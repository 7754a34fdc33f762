import Verif.Traj.Model

/-!
# Model of `Simulator` (simulator.py:8-185)
-/

namespace PyPE

variable {P U Y V Ω S : Type}

/-- State of a `Simulator` (simulator.py:23-32); `S` is the type of smoothed trajectories. -/
structure Sim (P U Y S : Type) where
  u : List (Slot U)
  y : List (Slot Y)
  pt : Option (PT P U Y)
  straj : Option S

/-- `Simulator.__init__` (simulator.py:23-32): `u=None` becomes `[None] * len(y)`. -/
def Sim.new (u : Option (List (Slot U))) (y : List (Slot Y)) : Sim P U Y S :=
  { u := match u with
         | some u => u
         | none => List.replicate y.length .none
    y := y, pt := none, straj := none }

/-- The loop of `simulate` (simulator.py:104-107) over the remaining values of `i`; `offset` is 1 after an
initial `measure`. `draws i` is the entropy used by call `i`. Returns the trajectory and the number of
resamplings. -/
noncomputable def simLoop (F : FilterOps P U Y V Ω) (u : List (Slot U)) (y : List (Slot Y)) (offset : ℕ)
    (draws : ℕ → Ω × Draws Ω) : List ℕ → PT P U Y → ℕ → PT P U Y × PyM ℕ
  | [], pt, n => (pt, .ok n)
  | i :: is, pt, n =>
    match getIdx u (i - offset) with
    | .error e => (pt, .error e)
    | .ok ui =>
      match getIdx y i with
      | .error e => (pt, .error e)
      | .ok yi =>
        match pt.forward F ui yi (draws i).1 (draws i).2 with
        | (pt, .error e) => (pt, .error e)
        | (pt, .ok true) => simLoop F u y offset draws is pt (n + 1)
        | (pt, .ok false) => simLoop F u y offset draws is pt n

/-- The forward part of `Simulator.simulate` (simulator.py:88-107). `self.y[0]` raises `IndexError` on an
empty data set when `meas_first`. -/
noncomputable def simForward (F : FilterOps P U Y V Ω) (pt : PT P U Y) (u : List (Slot U))
    (y : List (Slot Y)) (meas_first : Bool) (draws : ℕ → Ω × Draws Ω) : PT P U Y × PyM ℕ :=
  if meas_first then
    match getIdx y 0 with
    | .error e => (pt, .error e)
    | .ok y0 =>
      match pt.measure F y0 (draws 0).1 with
      | (pt, .error e) => (pt, .error e)
      | (pt, .ok ()) => simLoop F u y 1 draws ((List.range y.length).drop 1) pt 0
  else simLoop F u y 0 draws (List.range y.length) pt 0

/-- `Simulator.simulate` (simulator.py:45-113): build the trajectory (`T=None`, `t0=0`), run the filter,
then the smoother if one is named and `num_traj > 0`. `mk` is the construction of the filter object
(`mkFilter`), `smooth` is `perform_smoothing`. `self.pt` is only assigned when construction succeeds;
`self.straj` only when the smoother ran. -/
noncomputable def Sim.simulate (s : Sim P U Y S) (mk : PyM (FilterOps P U Y V Ω)) (num_part num_traj : ℕ)
    (smoother : Option String) (smooth : PT P U Y → ℕ → String → PyM S) (meas_first : Bool)
    (draws : ℕ → Ω × Draws Ω) : Sim P U Y S × PyM ℕ :=
  match mk with
  | .error e => (s, .error e)
  | .ok F =>
    match (PT.init num_part none 0 : PyM (PT P U Y)) with
    | .error e => (s, .error e)
    | .ok pt0 =>
      match simForward F pt0 s.u s.y meas_first draws with
      | (pt, .error e) => ({ s with pt := some pt }, .error e)
      | (pt, .ok n) =>
        match smoother with
        | none => ({ s with pt := some pt }, .ok n)
        | some m =>
          if 0 < num_traj then
            match smooth pt num_traj m with
            | .error e => ({ s with pt := some pt }, .error e)
            | .ok st => ({ s with pt := some pt, straj := some st }, .ok n)
          else ({ s with pt := some pt }, .ok n)

/-- `get_filtered_estimates` (simulator.py:115-140): the weights of each time step (the particles are
returned as stored); `exp(w)/sum(exp(w))`. Simplification: all steps have the same number of particles,
so filling the preallocated array never fails; `self.pt.traj[0]` raises `IndexError` on an empty
trajectory. -/
noncomputable def filteredEstimates (traj : List (Step P)) : PyM (List (List P × List ℝ)) :=
  match traj with
  | [] => .error .indexError
  | _ => .ok (traj.map fun st => (st.pa.part, expNormalised st.pa.w))

/-- `get_filtered_mean` (simulator.py:142-159), one component of the state: `coord` selects it. -/
noncomputable def filteredMean (coord : P → ℝ) (traj : List (Step P)) : PyM (List ℝ) := do
  let ew ← filteredEstimates traj
  return ew.map fun (part, w) => (List.zipWith (· * ·) w (part.map coord)).sum

/-- `get_smoothed_estimates` (simulator.py:161-172): `AttributeError` (`None` has no such method) before
any smoothing. -/
def Sim.smoothedEstimates {E : Type} (get : S → PyM E) (s : Sim P U Y S) : PyM E :=
  match s.straj with
  | none => .error .attributeError
  | some st => get st

/-- `numpy.mean` of the numbers of one time step (simulator.py:185). -/
noncomputable def npMean (l : List ℝ) : ℝ := l.sum / l.length

/-- `get_smoothed_mean` (simulator.py:174-185), one component of the state: the mean over axis 1 (the trajectories) of the
array of smoothed estimates, one row per time. Simplification: an empty row gives 0 instead of `nan`. -/
noncomputable def Sim.smoothedMean {Q : Type} (get : S → PyM (List (List Q))) (coord : Q → ℝ) (s : Sim P U Y S) : PyM (List ℝ) := do
  let est ← s.smoothedEstimates get
  return est.map fun row => npMean (row.map coord)

end PyPE

import Verif.Filter.Approx

/-!
# Model of the particle filters of `filter.py`

A user model is a record of callbacks (`Callbacks`), each an arbitrary function that may raise; the
entropy a callback consumes is an argument.  Entries of the `u`/`y` buffers are `Slot`s, because the
code distinguishes `None`.
-/

namespace PyPE
open Real

/-- An entry of the object arrays `uvec`/`yvec` (filter.py:851-852, 856-857): `None`, the integer `0`
that `ndarray.resize` fills new cells with, or a value supplied by the user. -/
inductive Slot (α : Type) where
  | none
  | zero
  | obj (a : α)
  deriving DecidableEq

/-- `TrajectoryStep` (filter.py:806-822). -/
structure Step (P : Type) where
  pa : PA P
  ancestors : List ℕ

/-- The callbacks of a user model (interfaces.py) used by the filters. `P` particle, `U` input, `Y`
measurement, `V` process-noise array, `Ω` entropy.  `update` returns the contents of the particle
array after the in-place update. -/
structure Callbacks (P U Y V Ω : Type) where
  /-- `create_initial_estimate(N)` (interfaces.py:126-135) -/
  createInitial : ℕ → Ω → PyM (List P)
  /-- `sample_process_noise_full(ptraj, ancestors, ut, tt)` (interfaces.py:109-124) -/
  sampleNoise : List (Step P) → List ℕ → List (Slot U) → List ℕ → Ω → PyM V
  /-- `update_full(particles, traj, uvec, yvec, tvec, ancestors, noise)` (interfaces.py:67-86) -/
  update : List P → List (Step P) → List (Slot U) → List (Slot Y) → List ℕ → List ℕ → V → PyM (List P)
  /-- `measure_full(particles, traj, uvec, yvec, tvec, ancestors)` (interfaces.py:88-107) -/
  measure : List P → List (Step P) → List (Slot U) → List (Slot Y) → List ℕ → List ℕ → PyM (List ℝ)
  /-- `eval_1st_stage_weights(particles, u, y, t)` (interfaces.py:300-317) -/
  evalFirstStage : List P → Slot U → Slot Y → ℕ → PyM (List ℝ)
  /-- `logp_xnext_singlestep(part, past_trajs, pind, future_parts, find, ut, yt, tt, cur_ind)` -/
  logpXnextSingle : List P → List (Step P) → List ℕ → List P → List ℕ →
    List (Slot U) → List (Slot Y) → List ℕ → ℕ → PyM (List ℝ)
  /-- `propose_from_y(N, y, t)` (interfaces.py:334-339) -/
  proposeFromY : ℕ → Slot Y → ℕ → Ω → PyM (List P)
  /-- `SIR.qsample(particles, u, y, t)` (interfaces.py:17-19) -/
  qsample : List P → Slot U → Slot Y → ℕ → Ω → PyM (List P)
  /-- `SIR.logp_q(particles, next_part, u, y, t)` (interfaces.py:21-23) -/
  logpQ : List P → List P → Slot U → Slot Y → ℕ → PyM (List ℝ)
  /-- `logp_xnext(particles, next_part, u, t)` (interfaces.py:25-27, 410-426) -/
  logpXnext : List P → List P → Slot U → ℕ → PyM (List ℝ)
  /-- `SIR.measure(particles, y, t)` (interfaces.py:13-15) -/
  sirMeasure : List P → Slot Y → ℕ → PyM (List ℝ)

variable {P U Y V Ω : Type}

/-- The random draws one filter step can consume. -/
structure Draws (Ω : Type) where
  r : ℝ
  r2 : ℝ
  ω : Ω

/-- `a[-1] = x`: `IndexError` on an empty array. -/
def setLast {α : Type} (a : List α) (x : α) : PyM (List α) :=
  if a.length = 0 then .error .indexError else .ok (a.dropLast ++ [x])

/-- The re-scaling of new log-weights shared by `ParticleFilter.measure` (filter.py:159-169),
`SIR.forward` (247-257), `SIR.measure` (314-324) and `FFPropY.forward` (468-478). -/
noncomputable def weightUpdate (pa : PA P) (new_weights : List ℝ) : PyM (PA P) := do
  let m ← npMax new_weights
  let off := pa.w_offset + m
  let nw := new_weights.map (· - m)
  let w ← npAdd pa.w nw
  let m' ← npMax w
  return { pa with w := w.map (· - m'), w_offset := off + m' }

/-- `ParticleFilter.update` (filter.py:96-127), `inplace=True`. -/
noncomputable def pfUpdate (M : Callbacks P U Y V Ω) (traj : List (Step P)) (anc : List ℕ)
    (uvec : List (Slot U)) (yvec : List (Slot Y)) (tvec : List ℕ) (cur : ℕ) (pa : PA P) (ω : Ω) :
    PyM (PA P) := do
  let v ← M.sampleNoise traj anc (uvec.take (cur + 1)) (tvec.take (cur + 1)) ω
  let part ← M.update pa.part traj (uvec.take (cur + 1)) (yvec.take (cur + 1)) (tvec.take (cur + 1))
    anc v
  return { pa with part := part }

/-- `ParticleFilter.measure` (filter.py:130-171), also `SIR.measure` (285-326). -/
noncomputable def pfMeasure (M : Callbacks P U Y V Ω) (traj : List (Step P)) (anc : List ℕ) (pa : PA P)
    (uvec : List (Slot U)) (yvec : List (Slot Y)) (tvec : List ℕ) (cur : ℕ) : PyM (PA P) := do
  let nw ← M.measure pa.part traj uvec (yvec.take (cur + 1)) (tvec.take (cur + 1)) anc
  weightUpdate pa nw

/-- The resampling test shared by pf, sir and pfy (filter.py:77-83, 224-230, 450-456): returns the
approximation, whether it was resampled and the ancestors. -/
noncomputable def maybeResample (res : ℝ) (pa : PA P) (r : ℝ) : PyM (PA P × Bool × List ℕ) := do
  if 0 < res then
    let neff ← calcNeff pa.w
    if neff < res * pa.num then
      let (pa', anc) ← pa.resample pa.num r
      return (pa', true, anc)
    else return (pa, false, List.range pa.num)
  else return (pa, false, List.range pa.num)

/-- `ParticleFilter.forward` (filter.py:57-94). -/
noncomputable def pfForward (M : Callbacks P U Y V Ω) (res : ℝ) (traj : List (Step P))
    (yvec : List (Slot Y)) (uvec : List (Slot U)) (tvec : List ℕ) (cur : ℕ) (d : Draws Ω) :
    PyM (PA P × Bool × List ℕ) := do
  let last ← getLast traj
  let pa ← PA.new last.pa.part (some last.pa.w)
  let (pa, resampled, anc) ← maybeResample res pa d.r
  let pa ← pfUpdate M traj anc uvec yvec tvec cur pa d.ω
  let pa ← pfMeasure M traj anc pa uvec yvec tvec (cur + 1)
  return (pa, resampled, anc)

/-- `SIR.forward` (filter.py:204-260). -/
noncomputable def sirForward (M : Callbacks P U Y V Ω) (res : ℝ) (traj : List (Step P))
    (yvec : List (Slot Y)) (uvec : List (Slot U)) (tvec : List ℕ) (cur : ℕ) (d : Draws Ω) :
    PyM (PA P × Bool × List ℕ) := do
  let last ← getLast traj
  let pa ← PA.new last.pa.part (some last.pa.w)
  let (pa, resampled, anc) ← maybeResample res pa d.r
  let u ← getIdx uvec cur
  let y ← getIdx yvec (cur + 1)
  let t ← getIdx tvec cur
  let pnext ← M.qsample pa.part u y t d.ω
  let qw ← M.logpQ pa.part pnext u y t
  let nw ← M.logpXnext pa.part pnext u t
  let t1 ← getIdx tvec (cur + 1)
  let yw ← M.sirMeasure pnext y t1
  let s ← npAdd yw nw
  let new_weights ← npSub s qw
  let pa ← weightUpdate pa new_weights
  return ({ pa with part := pnext }, resampled, anc)

/-- `numpy.exp(w)/numpy.sum(numpy.exp(w))` (filter.py:353-354, 558-559, 611-612, 736-737). -/
noncomputable def expNormalised (w : List ℝ) : List ℝ :=
  let tmp := w.map exp
  tmp.map (· / tmp.sum)

/-- The selection of the ancestor of the conditioned particle (filter.py:365-370, 627-632, 753-758). -/
noncomputable def condAncestor (wtrans w : List ℝ) (r : ℝ) : PyM ℕ := do
  let wanc ← npAdd wtrans w
  let m ← npMax wanc
  let tmp := (wanc.map (· - m)).map exp
  let condind ← sample (tmp.map (· / tmp.sum)) 1 r
  getIdx condind 0

/-- `CSIRAS.forward` (filter.py:334-395); `ctraj` is the conditional trajectory. -/
noncomputable def csirasForward (M : Callbacks P U Y V Ω) (ctraj : List (Step P)) (traj : List (Step P))
    (yvec : List (Slot Y)) (uvec : List (Slot U)) (tvec : List ℕ) (cur : ℕ) (d : Draws Ω) :
    PyM (PA P × Bool × List ℕ) := do
  let last ← getLast traj
  let N := last.pa.part.length
  let anc0 ← sample (expNormalised last.pa.w) (N - 1) d.r
  let tc ← getIdx traj cur
  let c1 ← getIdx ctraj (cur + 1)
  let cpart ← fancy c1.pa.part (List.replicate N 0)
  let u ← getIdx uvec cur
  let t ← getIdx tvec cur
  let wtrans ← M.logpXnext tc.pa.part cpart u t
  let wpind ← fancy last.pa.w (List.range N)
  let condind ← condAncestor wtrans wpind d.r2
  let anc := anc0 ++ [condind]
  let part ← fancy last.pa.part anc
  let pa ← PA.new part none
  let y ← getIdx yvec (cur + 1)
  let pnext ← M.qsample pa.part u y t d.ω
  let c0 ← getIdx c1.pa.part 0
  let pnext ← setLast pnext c0
  let qw ← M.logpQ pa.part pnext u y t
  let nw ← M.logpXnext pa.part pnext u t
  let t1 ← getIdx tvec (cur + 1)
  let yw ← M.sirMeasure pnext y t1
  let s ← npAdd yw nw
  let w ← npSub s qw
  return ({ pa with w := w, part := pnext }, true, anc)

/-- `FFPropY.forward` (filter.py:429-480). Note `yvec[-1]`, `tvec[-1]` at line 458. `N` is `self.N`. -/
noncomputable def ffpropyForward (M : Callbacks P U Y V Ω) (res : ℝ) (N : ℕ) (traj : List (Step P))
    (yvec : List (Slot Y)) (uvec : List (Slot U)) (tvec : List ℕ) (cur : ℕ) (d : Draws Ω) :
    PyM (PA P × Bool × List ℕ) := do
  let last ← getLast traj
  let pa ← PA.new last.pa.part (some last.pa.w)
  let (pa, resampled, anc) ← maybeResample res pa d.r
  let y ← getLast yvec
  let t ← getLast tvec
  let partn ← M.proposeFromY pa.part.length y t d.ω
  let tc ← getIdx traj cur
  let part ← fancy tc.pa.part anc
  let pind ← fancy tc.ancestors anc
  let wn ← M.logpXnextSingle part (traj.take cur) pind partn (List.range N) uvec yvec tvec cur
  let pa ← weightUpdate { pa with part := partn } wn
  return (pa, resampled, anc)

/-- `FFPropY.measure` (filter.py:482-505) with `inplace=False`. -/
noncomputable def ffpropyMeasure (M : Callbacks P U Y V Ω) (N : ℕ) (yvec : List (Slot Y))
    (tvec : List ℕ) (cur : ℕ) (ω : Ω) : PyM (PA P) := do
  let y ← getIdx yvec cur
  let t ← getIdx tvec cur
  let part ← M.proposeFromY N y t ω
  PA.new part none

/-- `CPF.create_initial_estimate` (filter.py:524-537). -/
def cpfInitial (M : Callbacks P U Y V Ω) (ctraj : List (Step P)) (N : ℕ) (ω : Ω) : PyM (List P) := do
  let part ← M.createInitial N ω
  let c ← getIdx ctraj 0
  let x ← getIdx c.pa.part 0
  setLast part x

/-- The test `yvec is not None and yvec[cur_ind + 1] is not None` followed by the measurement update
(filter.py:574-576, 644-646). -/
noncomputable def condMeasure (M : Callbacks P U Y V Ω) (traj : List (Step P)) (anc : List ℕ) (pa : PA P)
    (uvec : List (Slot U)) (yvec : List (Slot Y)) (tvec : List ℕ) (cur1 : ℕ) : PyM (PA P) := do
  match ← getIdx yvec cur1 with
  | .none => return pa
  | _ => pfMeasure M traj anc pa uvec yvec tvec cur1

/-- `CPF.forward` (filter.py:539-578). -/
noncomputable def cpfForward (M : Callbacks P U Y V Ω) (ctraj : List (Step P)) (traj : List (Step P))
    (yvec : List (Slot Y)) (uvec : List (Slot U)) (tvec : List ℕ) (cur : ℕ) (d : Draws Ω) :
    PyM (PA P × Bool × List ℕ) := do
  let tc ← getIdx traj cur
  let N := tc.pa.part.length
  let last ← getLast traj
  let anc0 ← sample (expNormalised last.pa.w) (N - 1) d.r
  let anc := anc0 ++ [N - 1]
  let part ← fancy last.pa.part anc
  let pa ← PA.new part none
  let pa ← pfUpdate M traj anc uvec yvec tvec cur pa d.ω
  let c1 ← getIdx ctraj (cur + 1)
  let x ← getIdx c1.pa.part 0
  let part ← setLast pa.part x
  let pa ← condMeasure M traj anc { pa with part := part } uvec yvec tvec (cur + 1)
  return (pa, true, anc)

/-- `CPFAS.forward` (filter.py:592-648). -/
noncomputable def cpfasForward (M : Callbacks P U Y V Ω) (ctraj : List (Step P)) (traj : List (Step P))
    (yvec : List (Slot Y)) (uvec : List (Slot U)) (tvec : List ℕ) (cur : ℕ) (d : Draws Ω) :
    PyM (PA P × Bool × List ℕ) := do
  let last ← getLast traj
  let N := last.pa.part.length
  let anc0 ← sample (expNormalised last.pa.w) (N - 1) d.r
  let tc ← getIdx traj cur
  let cparts ← fancy tc.pa.part (List.range N)
  let pind ← fancy tc.ancestors (List.range N)
  let c1 ← getIdx ctraj (cur + 1)
  let wtrans ← M.logpXnextSingle cparts (traj.take cur) pind c1.pa.part (List.replicate N 0)
    uvec yvec tvec cur
  let wpind ← fancy last.pa.w (List.range N)
  let condind ← condAncestor wtrans wpind d.r2
  let anc := anc0 ++ [condind]
  let part ← fancy last.pa.part anc
  let pa ← PA.new part none
  let pa ← pfUpdate M traj anc uvec yvec tvec cur pa d.ω
  let x ← getIdx c1.pa.part 0
  let part ← setLast pa.part x
  let pa ← condMeasure M traj anc { pa with part := part } uvec yvec tvec (cur + 1)
  return (pa, true, anc)

/-- `AuxiliaryParticleFilter.forward` (filter.py:657-707).  `l1w` is a local that is only bound when
there is a measurement at `t+1` (680-685); reading it otherwise raises `UnboundLocalError` (691, 704).
`self.res` is truthy iff it is non-zero (688).  `l1w[ancestors]` (691). -/
noncomputable def apfForward (M : Callbacks P U Y V Ω) (res : ℝ) (traj : List (Step P))
    (yvec : List (Slot Y)) (uvec : List (Slot U)) (tvec : List ℕ) (cur : ℕ) (d : Draws Ω) :
    PyM (PA P × Bool × List ℕ) := do
  let last ← getLast traj
  let pa ← PA.new last.pa.part (some last.pa.w)
  let y ← getIdx yvec (cur + 1)
  let (pa, l1w) ← (match y with
    | .none => (pure (pa, none) : PyM (PA P × Option (List ℝ)))
    | y => do
      let u ← getIdx uvec cur
      let t ← getIdx tvec cur
      let l1w ← M.evalFirstStage pa.part u y t
      let w ← npAdd pa.w l1w
      let m ← npMax w
      pure ({ pa with w := w.map (· - m) }, some l1w))
  let (pa, resampled, anc, l1w) ← (if res ≠ 0 then do
      let neff ← calcNeff pa.w
      if neff < res * pa.num then do
        let (pa', anc) ← pa.resample pa.num d.r
        match l1w with
        | none => .error .unboundLocalError
        | some l => do
          let l' ← fancy l anc
          pure (pa', true, anc, some l')
      else pure (pa, false, List.range pa.num, l1w)
    else (pure (pa, false, List.range pa.num, l1w) : PyM (PA P × Bool × List ℕ × Option (List ℝ))))
  let pa ← pfUpdate M traj anc uvec yvec tvec cur pa d.ω
  let pa ← pfMeasure M traj anc pa uvec yvec tvec (cur + 1)
  match l1w with
  | none => .error .unboundLocalError
  | some l => do
    let w ← npSub pa.w l
    let m ← npMax w
    return ({ pa with w := w.map (· - m) }, resampled, anc)

/-- `partn[-1] = ctraj[k].pa.part` (filter.py:762, 801): the whole particle array of the conditional
trajectory is broadcast into the last row, which numpy accepts only for a single particle. -/
def setLastFrom (a : List P) (c : List P) : PyM (List P) :=
  match c with
  | [x] => setLast a x
  | _ => .error .valueError

/-- `CPFYAS.forward` (filter.py:717-777). -/
noncomputable def cpfyasForward (M : Callbacks P U Y V Ω) (N : ℕ) (ctraj : List (Step P))
    (traj : List (Step P)) (yvec : List (Slot Y)) (uvec : List (Slot U)) (tvec : List ℕ) (cur : ℕ)
    (d : Draws Ω) : PyM (PA P × Bool × List ℕ) := do
  let tc ← getIdx traj cur
  let anc0 ← sample (expNormalised tc.pa.w) (N - 1) d.r
  let cparts ← fancy tc.pa.part (List.range N)
  let pind ← fancy tc.ancestors (List.range N)
  let c1 ← getIdx ctraj (cur + 1)
  let wtrans ← M.logpXnextSingle cparts (traj.take cur) pind c1.pa.part (List.replicate N 0)
    uvec yvec tvec cur
  let wpind ← fancy tc.pa.w (List.range N)
  let condind ← condAncestor wtrans wpind d.r2
  let anc := anc0 ++ [condind]
  let y ← getIdx yvec (cur + 1)
  let t1 ← getIdx tvec (cur + 1)
  let partn ← M.proposeFromY N y t1 d.ω
  let partn ← setLastFrom partn c1.pa.part
  let last ← getLast traj
  let part ← fancy last.pa.part anc
  let pind' ← fancy tc.ancestors anc
  let wn ← M.logpXnextSingle part (traj.take cur) pind' partn (List.range N) uvec yvec tvec cur
  let m ← npMax wn
  let pa ← PA.new partn (some (wn.map (· - m)))
  return ({ pa with w_offset := pa.w_offset + m }, true, anc)

/-- `CPFYAS.measure` (filter.py:779-803) with `inplace=False`. -/
noncomputable def cpfyasMeasure (M : Callbacks P U Y V Ω) (N : ℕ) (ctraj : List (Step P))
    (yvec : List (Slot Y)) (tvec : List ℕ) (cur : ℕ) (ω : Ω) : PyM (PA P) := do
  let y ← getIdx yvec cur
  let t ← getIdx tvec cur
  let part ← M.proposeFromY N y t ω
  let c ← getIdx ctraj cur
  let part ← setLastFrom part c.pa.part
  PA.new part none

end PyPE

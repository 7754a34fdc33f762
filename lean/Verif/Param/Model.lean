import Verif.PyLemmas
import Mathlib.Analysis.SpecialFunctions.Pow.Real
import Mathlib.Data.List.Sort

/-!
# Model of the EM drivers (paramest/paramest.py)

The simulator, the user's model and the random generator are one world `W`; the operations a driver
performs on it are arbitrary functions (`EmHooks`, `PsHooks`) that may raise. Each driver returns, besides
its outcome, the list of calls it made, in order, so that what it did is observable even when it raised.
-/

namespace PyPE

/-- `xrange(n)` (paramest.py:47, 135, 334, 348; interfaces.py:64, 76, 145, 160): `NameError` in Python 3. -/
def xrange : PyVersion → ℕ → PyM (List ℕ)
  | .py2, n => .ok (List.range n)
  | .py3, _ => .error .nameError

/-- `num_part` / `num_traj`: an int or an array of ints (paramest.py:23-28). -/
inductive Sched where
  | scalar (n : ℕ)
  | array (l : List ℕ)

/-- The selection of the number of particles for iteration `i` (paramest.py:50-63, 138-151):
`num[i]` if `i < len(num)`, else `num[-1]` (`IndexError` on an empty array). -/
def Sched.pick : Sched → ℕ → PyM ℕ
  | .scalar n, _ => .ok n
  | .array l, i => if i < l.length then getIdx l i else getLast l

/-- The calls `ParamEstimation.maximize` makes. `maximize` carries the value the model returned. -/
inductive EmCall (Θ : Type) where
  | setParams (θ : Θ)
  | simulate (num_part num_traj : ℕ)
  | callbackSim
  | maximize (ret : Θ)
  | callback (θ : Θ) (cur_iter : ℕ)

/-- The operations on the world used by `ParamEstimation.maximize`: `self.set_params`
(simulator.py:34-43), `self.simulate`, `self.model.maximize(self.straj)` and the two callbacks. -/
structure EmHooks (W Θ : Type) where
  setParams : Θ → W → PyM W
  simulate : ℕ → ℕ → W → PyM W
  maximize : W → PyM (Θ × W)
  callbackSim : Option (W → PyM W)
  callback : Option (Θ → ℕ → W → PyM W)

/-- Outcome of a driver: the calls made and the value or exception. -/
abbrev Traced (C α : Type) := List C × PyM α

/-- Run `x` (a call that raises without being completed leaves no record), then `k`. -/
def Traced.call {C α β : Type} (x : PyM α) (c : α → List C) (k : α → Traced C β) : Traced C β :=
  match x with
  | .error e => ([], .error e)
  | .ok a => (c a ++ (k a).1, (k a).2)

/-- An optional callback (`if (callback is not None)`, paramest.py:67, 80). -/
def optCall {W : Type} (f : Option (W → PyM W)) (w : W) : PyM W :=
  match f with
  | none => .ok w
  | some f => f w

/-- The record of an optional callback. -/
def optRecord {C α : Type} (f : Option α) (c : C) : List C :=
  match f with
  | none => []
  | some _ => [c]

/-- One iteration of the loop of `ParamEstimation.maximize` (paramest.py:48-81). -/
def emIter {W Θ : Type} (H : EmHooks W Θ) (np nt : Sched) (i : ℕ) (θ : Θ) (w : W) :
    Traced (EmCall Θ) (Θ × W) :=
  Traced.call (H.setParams θ w) (fun _ => [.setParams θ]) fun w =>
  Traced.call (np.pick i) (fun _ => []) fun nump =>
  Traced.call (nt.pick i) (fun _ => []) fun numt =>
  Traced.call (H.simulate nump numt w) (fun _ => [.simulate nump numt]) fun w =>
  Traced.call (optCall H.callbackSim w) (fun _ => optRecord H.callbackSim .callbackSim) fun w =>
  Traced.call (H.maximize w) (fun r => [.maximize r.1]) fun (θ', w) =>
  Traced.call (optCall (H.callback.map fun f => f θ' i) w)
    (fun _ => optRecord H.callback (.callback θ' i)) fun w => ([], .ok (θ', w))

/-- The loop over the remaining values of `i` (paramest.py:47-84); `tol` is not used by the code. -/
def emLoop {W Θ : Type} (H : EmHooks W Θ) (np nt : Sched) : List ℕ → Θ → W → Traced (EmCall Θ) (Θ × W)
  | [], θ, w => ([], .ok (θ, w))
  | i :: is, θ, w =>
    match emIter H np nt i θ w with
    | (tr, .error e) => (tr, .error e)
    | (tr, .ok (θ', w')) => (tr ++ (emLoop H np nt is θ' w').1, (emLoop H np nt is θ' w').2)

/-- `ParamEstimation.maximize` (paramest.py:17-86): returns the estimate and `-inf`, with the world left
behind. The second component of the returned pair is written `none` for `-numpy.Inf`. -/
def emMaximize {W Θ : Type} (v : PyVersion) (H : EmHooks W Θ) (param0 : Θ) (np nt : Sched)
    (max_iter : ℕ) (w : W) : Traced (EmCall Θ) ((Θ × Option ℝ) × W) :=
  Traced.call (xrange v max_iter) (fun _ => []) fun is =>
    match emLoop H np nt is param0 w with
    | (tr, .error e) => (tr, .error e)
    | (tr, .ok (θ, w)) => (tr, .ok ((θ, none), w))

/-- `alpha_gen` (paramest.py:88-93). -/
noncomputable def alphaGen (it : ℕ) : ℝ :=
  if it ≤ 100 then 1 else ((it - 100 : ℕ) : ℝ) ^ (-0.51 : ℝ)

/-! ## Weighted trajectories -/

/-- `a[~zero_ind]` / `a[:, ~zero_ind]` with a boolean array `keep = ~zero_ind`: `IndexError` when the
lengths differ. -/
def maskSelect {α : Type} (a : List α) (keep : List Bool) : PyM (List α) :=
  if a.length = keep.length then .ok (((a.zip keep).filter fun p => p.2).map Prod.fst)
  else .error .indexError

/-- The weight recursion (paramest.py:160-163, 246-250). -/
noncomputable def mixWeights (old : Option (List ℝ)) (α : ℝ) (w : List ℝ) : List ℝ :=
  match old with
  | none => w
  | some o => o.map (fun x => (1 - α) * x) ++ w.map (fun x => α * x)

/-- The concatenation of the stored and the new trajectories (paramest.py:168-171, 256-259); a trajectory
(a column `alltrajs[:, j]`) is one element of the list. -/
def mixTrajs {X : Type} (old : Option (List X)) (new : List X) : List X :=
  match old with
  | none => new
  | some o => o ++ new

/-- `numpy.ones((n,)) / n` (paramest.py:157, 244). -/
noncomputable def uniformW (n : ℕ) : List ℝ := List.replicate n (1 / (n : ℝ))

/-- `self.straj.traj` as the array `SAEM` copies (paramest.py:158): a one-dimensional array of `T`
trajectory steps (what every smoother of the library builds), or an array whose second axis enumerates
trajectories. -/
inductive TrajArr (X : Type) where
  | steps (T : ℕ)
  | cols (c : List X)

/-- `numpy.concatenate((a, b), axis=1)` (paramest.py:171): `AxisError` (a `ValueError` and an
`IndexError`; recorded as the latter) on 1-D arrays, `ValueError` on mixed dimensions. -/
def TrajArr.concat {X : Type} : TrajArr X → TrajArr X → PyM (TrajArr X)
  | .cols a, .cols b => .ok (.cols (a ++ b))
  | .steps _, _ => .error .indexError
  | .cols _, .steps _ => .error .valueError

/-- `alltrajs[:, ~zero_ind]` (paramest.py:175): too many indices (`IndexError`) for a 1-D array. -/
def TrajArr.select {X : Type} (keep : List Bool) : TrajArr X → PyM (List X)
  | .steps _ => .error .indexError
  | .cols c => maskSelect c keep

/-- The calls of the weighted drivers. `maximizeWeighted` carries the trajectories and weights the model
is given and the value it returned; `simulate` carries the conditioning trajectory of the options the filter
is given; `newTrajs` are the trajectories and weights the iteration contributes; `setCond` is the assignment
`filter_options['cond_traj'] = ...` to the caller's dictionary. -/
inductive SaCall (Θ X C : Type) where
  | setParams (θ : Θ)
  | simulate (num_part num_traj : ℕ) (cond : Option C)
  | newTrajs (trajs : List X) (weights : List ℝ)
  | setCond (c : C)
  | callbackSim
  | maximizeWeighted (trajs : List X) (weights : List ℝ) (ret : Θ)
  | callback (θ : Θ) (cur_iter : ℕ)

/-- The operations used by `ParamEstimationSAEM.maximize`. -/
structure SaHooks (W Θ X : Type) where
  setParams : Θ → W → PyM W
  simulate : ℕ → ℕ → W → PyM W
  traj : W → PyM (TrajArr X)
  callbackSim : Option (W → PyM W)
  maximizeWeighted : List X → List ℝ → W → PyM (Θ × W)
  callback : Option (Θ → ℕ → W → PyM W)

/-- The accumulation of the trajectories (paramest.py:168-171). -/
def saAppend {X : Type} (acc : Option (List ℝ × List X)) (newtrajs : TrajArr X) : PyM (TrajArr X) :=
  match acc with
  | none => .ok newtrajs
  | some a => (TrajArr.cols a.2).concat newtrajs

/-- One iteration of `ParamEstimationSAEM.maximize` (paramest.py:136-179). The stored trajectories are
already a selection `alltrajs[:, ~zero_ind]`, hence columns. -/
noncomputable def saIter {W Θ X : Type} (H : SaHooks W Θ X) (alpha : ℕ → ℝ) (np nt : Sched) (i : ℕ)
    (acc : Option (List ℝ × List X)) (θ : Θ) (w : W) :
    Traced (SaCall Θ X Unit) ((List ℝ × List X) × Θ × W) :=
  Traced.call (H.setParams θ w) (fun _ => [.setParams θ]) fun w =>
  Traced.call (np.pick i) (fun _ => []) fun nump =>
  Traced.call (nt.pick i) (fun _ => []) fun numt =>
  Traced.call (H.simulate nump numt w) (fun _ => [.simulate nump numt none]) fun w =>
  Traced.call (H.traj w) (fun _ => []) fun newtrajs =>
  Traced.call (optCall H.callbackSim w) (fun _ => optRecord H.callbackSim .callbackSim) fun w =>
  Traced.call (saAppend acc newtrajs) (fun _ => []) fun alltrajs =>
  let weights := mixWeights (acc.map Prod.fst) (alpha i) (uniformW numt)
  let keep := weights.map fun x => decide (x ≠ 0)
  Traced.call (maskSelect weights keep) (fun _ => []) fun weights' =>
  Traced.call (alltrajs.select keep) (fun _ => []) fun trajs' =>
  Traced.call (H.maximizeWeighted trajs' weights' w)
    (fun r => [.maximizeWeighted trajs' weights' r.1]) fun (θ', w) =>
  Traced.call (optCall (H.callback.map fun f => f θ' i) w)
    (fun _ => optRecord H.callback (.callback θ' i)) fun w =>
  ([], .ok ((weights', trajs'), θ', w))

/-- The loop of `ParamEstimationSAEM.maximize` (paramest.py:135-179). -/
noncomputable def saLoop {W Θ X : Type} (H : SaHooks W Θ X) (alpha : ℕ → ℝ) (np nt : Sched) :
    List ℕ → Option (List ℝ × List X) → Θ → W → Traced (SaCall Θ X Unit) (Θ × W)
  | [], _, θ, w => ([], .ok (θ, w))
  | i :: is, acc, θ, w =>
    match saIter H alpha np nt i acc θ w with
    | (tr, .error e) => (tr, .error e)
    | (tr, .ok (acc', θ', w')) =>
      (tr ++ (saLoop H alpha np nt is (some acc') θ' w').1, (saLoop H alpha np nt is (some acc') θ' w').2)

/-- `ParamEstimationSAEM.maximize` (paramest.py:102-180). -/
noncomputable def saMaximize {W Θ X : Type} (v : PyVersion) (H : SaHooks W Θ X) (alpha : ℕ → ℝ)
    (param0 : Θ) (np nt : Sched) (max_iter : ℕ) (w : W) :
    Traced (SaCall Θ X Unit) ((Θ × Option ℝ) × W) :=
  Traced.call (xrange v max_iter) (fun _ => []) fun is =>
    match saLoop H alpha np nt is none param0 w with
    | (tr, .error e) => (tr, .error e)
    | (tr, .ok (θ, w)) => (tr, .ok ((θ, none), w))

/-! ## PSAEM -/

/-- `numpy.percentile(a, q)` (paramest.py:262, 372), default (linear) interpolation: `ValueError` for `q`
outside `[0, 100]`, `IndexError` on an empty array. -/
noncomputable def npPercentile (a : List ℝ) (q : ℝ) : PyM ℝ :=
  if q < 0 ∨ 100 < q then .error .valueError
  else if a = [] then .error .indexError
  else
    let b := a.insertionSort (· ≤ ·)
    let pos := q / 100 * ((a.length - 1 : ℕ) : ℝ)
    let k := ⌊pos⌋₊
    let lo := b.getD k 0
    let hi := b.getD (min (k + 1) (a.length - 1)) 0
    .ok (lo + (pos - k) * (hi - lo))

/-- The discard threshold (paramest.py:262-264, 372-374): `min(discard_eps, wlow)` with `wlow` the largest
weight strictly below the percentile, or 0. -/
noncomputable def discardThreshold (weights : List ℝ) (discard_eps discard_percentile : ℝ) : PyM ℝ := do
  let tmp ← npPercentile weights discard_percentile
  let wlow ← npMax (weights.filter (fun x => decide (x < tmp)) ++ [0])
  return min discard_eps wlow

/-- `x[-max_traj:]` if `max_traj > 0 and len(weights) > max_traj` (paramest.py:269-271); `n` is
`len(weights)`. -/
def keepLast {α : Type} (max_traj n : ℕ) (l : List α) : List α :=
  if 0 < max_traj ∧ max_traj < n then l.drop (l.length - max_traj) else l

/-- `weights /= numpy.sum(weights)` (paramest.py:273, 381). Simplification: real division, `0/0` is not
`nan`. -/
noncomputable def normalise (w : List ℝ) : List ℝ := w.map (· / w.sum)

/-- The pruning of PSAEM (paramest.py:261-273). -/
noncomputable def psPrune {X : Type} (discard_eps discard_percentile : ℝ) (max_traj : ℕ)
    (weights : List ℝ) (alltrajs : List X) : PyM (List ℝ × List X) := do
  let threshold ← discardThreshold weights discard_eps discard_percentile
  let keep := weights.map fun x => decide (threshold < x)
  let weights' ← maskSelect weights keep
  let alltrajs' ← maskSelect alltrajs keep
  return (normalise (keepLast max_traj weights'.length weights'),
    keepLast max_traj weights'.length alltrajs')

/-- `filter_options`: `None`, or a dictionary with or without the key `cond_traj` (whose value may be
`None`). -/
inductive FilterOpts (C : Type) where
  | none
  | dict (cond : Option (Option C))

/-- `filter_options['cond_traj'] = numpy.copy(self.straj.traj)` (paramest.py:252, 363). -/
def FilterOpts.setCond {C : Type} (c : C) : FilterOpts C → PyM (FilterOpts C)
  | .none => .error .typeError
  | .dict _ => .ok (.dict (some (some c)))

/-- The trajectory a conditional filter would be given. -/
def FilterOpts.cond {C : Type} : FilterOpts C → Option C
  | .none => Option.none
  | .dict c => c.join

/-- The operations used by `ParamEstimationPSAEM.maximize`. `simulate` is given the options dictionary;
`estimates` is what paramest.py:232-244 computes from the smoothed trajectories: the new trajectories with
their weights (see `psNew`); `straj` is `numpy.copy(self.straj.traj)`. The callback's result is its truth
value. -/
structure PsHooks (W Θ X C : Type) where
  setParams : Θ → W → PyM W
  simulate : ℕ → ℕ → FilterOpts C → W → PyM W
  smoothed : W → PyM (List X)
  finalWeights : W → PyM (List ℝ)
  straj : W → PyM C
  callbackSim : Option (W → PyM W)
  maximizeWeighted : List X → List ℝ → W → PyM (Θ × W)

/-- The new trajectories and their weights (paramest.py:232-244). With `raoblackwell` the weights are the
normalised final weights of the filter, one per particle, but `newtrajs` is `numpy.empty`, never filled:
`garbage` is its uninitialised content. -/
noncomputable def psNew {W Θ X C : Type} (H : PsHooks W Θ X C) (raoblackwell : Bool)
    (garbage : ℕ → X) (w : W) : PyM (List X × List ℝ) :=
  if raoblackwell then do
    let lw ← H.finalWeights w
    return ((List.range lw.length).map garbage, normalise (lw.map Real.exp))
  else do
    let x ← H.smoothed w
    return (x, uniformW x.length)

/-- The settings of PSAEM. -/
structure PsOpts where
  num_part : ℕ
  M : ℕ
  alpha : ℕ → ℝ
  discard_eps : ℝ
  discard_percentile : ℝ
  max_traj : ℕ
  raoblackwell : Bool

/-- The variables of the PSAEM loop. -/
structure PsState (W Θ X C : Type) where
  θ : Θ
  acc : Option (List ℝ × List X)
  opts : FilterOpts C
  w : W

/-- One iteration of `ParamEstimationPSAEM.maximize` up to the M-step (paramest.py:225-275); `i` is the
value of the counter after `i += 1`. -/
noncomputable def psIter {W Θ X C : Type} (H : PsHooks W Θ X C) (o : PsOpts) (garbage : ℕ → ℕ → X)
    (i : ℕ) (s : PsState W Θ X C) : Traced (SaCall Θ X C) (PsState W Θ X C) :=
  Traced.call (H.setParams s.θ s.w) (fun _ => [.setParams s.θ]) fun w =>
  Traced.call (H.simulate o.num_part o.M s.opts w)
    (fun _ => [.simulate o.num_part o.M s.opts.cond]) fun w =>
  Traced.call (psNew H o.raoblackwell (garbage i) w) (fun n => [.newTrajs n.1 n.2]) fun new =>
  let weights := mixWeights (s.acc.map Prod.fst) (o.alpha (i - 1)) new.2
  Traced.call (H.straj w) (fun _ => []) fun c =>
  Traced.call (s.opts.setCond c) (fun _ => [.setCond c]) fun opts =>
  Traced.call (optCall H.callbackSim w) (fun _ => optRecord H.callbackSim .callbackSim) fun w =>
  let alltrajs := mixTrajs (s.acc.map Prod.snd) new.1
  Traced.call (psPrune o.discard_eps o.discard_percentile o.max_traj weights alltrajs)
    (fun _ => []) fun acc =>
  Traced.call (H.maximizeWeighted acc.2 acc.1 w)
    (fun r => [.maximizeWeighted acc.2 acc.1 r.1]) fun (θ', w) =>
  ([], .ok { θ := θ', acc := some acc, opts := opts, w := w })

/-- `default_callback` (paramest.py:214-216). -/
def defaultCallback {W Θ : Type} (max_iter : ℕ) : Θ → ℕ → W → PyM (Bool × W) :=
  fun _ i w => .ok (decide (max_iter ≤ i), w)

/-- The `while (True)` loop (paramest.py:222-280) with `fuel` iterations left; `i` is the counter before
the increment. `none` is: still running when the fuel is spent. -/
noncomputable def psLoop {W Θ X C : Type} (H : PsHooks W Θ X C) (o : PsOpts) (garbage : ℕ → ℕ → X)
    (cb : Θ → ℕ → W → PyM (Bool × W)) :
    ℕ → ℕ → PsState W Θ X C → List (SaCall Θ X C) × Option (PyM (PsState W Θ X C))
  | 0, _, _ => ([], none)
  | fuel + 1, i, s =>
    match psIter H o garbage (i + 1) s with
    | (tr, .error e) => (tr, some (.error e))
    | (tr, .ok s') =>
      match cb s'.θ (i + 1) s'.w with
      | .error e => (tr, some (.error e))
      | .ok (true, w) => (tr ++ [.callback s'.θ (i + 1)], some (.ok { s' with w := w }))
      | .ok (false, w) =>
        (tr ++ [.callback s'.θ (i + 1)] ++ (psLoop H o garbage cb fuel (i + 1) { s' with w := w }).1,
          (psLoop H o garbage cb fuel (i + 1) { s' with w := w }).2)

/-- `ParamEstimationPSAEM.maximize` (paramest.py:188-281), run for at most `fuel` iterations. The result
also exposes the caller's options dictionary, which the code mutates. -/
noncomputable def psMaximize {W Θ X C : Type} (H : PsHooks W Θ X C) (o : PsOpts) (garbage : ℕ → ℕ → X)
    (callback : Option (Θ → ℕ → W → PyM (Bool × W))) (max_iter : ℕ) (param0 : Θ) (opts : FilterOpts C)
    (w : W) (fuel : ℕ) : List (SaCall Θ X C) × Option (PyM (PsState W Θ X C)) :=
  psLoop H o garbage (callback.getD (defaultCallback max_iter)) fuel 0
    { θ := param0, acc := none, opts := opts, w := w }

/-! ## PSAEM2 -/

/-- The variables of the PSAEM2 loop: the preallocated weight buffer, the trajectory array (`None` before
the first iteration) and the number of valid entries (paramest.py:328-333). -/
structure Ps2State (W Θ X C : Type) where
  θ : Θ
  buf : List ℝ
  trajs : Option (List X)
  datalen : ℕ
  opts : FilterOpts C
  w : W

/-- `a[:n] = v` for a 1-D buffer or along the second axis (paramest.py:378-379): `ValueError` unless the
lengths agree. -/
def assignPrefix {α : Type} (a : List α) (n : ℕ) (v : List α) : PyM (List α) :=
  if v.length = (a.take n).length then .ok (v ++ a.drop n) else .error .valueError

/-- The in-place weight update of PSAEM2 (paramest.py:358-359): `weights[:d] *= (1 - α)`,
`weights[d:d+1] = α`. -/
noncomputable def ps2Mix (buf : List ℝ) (d : ℕ) (α : ℝ) : List ℝ :=
  let b := (buf.take d).map (fun x => x * (1 - α)) ++ buf.drop d
  b.take d ++ ((b.drop d).take 1).map (fun _ => α * 1) ++ b.drop (d + 1)

/-- The compaction of PSAEM2 (paramest.py:371-381); `d` is the number of valid entries including the new
one. Returns the buffers and the new number of valid entries. -/
noncomputable def ps2Prune {X : Type} (discard_eps discard_percentile : ℝ) (buf : List ℝ)
    (alltrajs : List X) (d : ℕ) : PyM (List ℝ × List X × ℕ) := do
  let threshold ← discardThreshold (buf.take d) discard_eps discard_percentile
  let zero := (buf.take d).map fun x => decide (x ≤ threshold)
  let zerolen := zero.count true
  let keep := zero.map (!·)
  let wsel ← maskSelect (buf.take d) keep
  let buf ← assignPrefix buf (d - zerolen) wsel
  let tsel ← maskSelect (alltrajs.take d) keep
  let alltrajs ← assignPrefix alltrajs (d - zerolen) tsel
  let d' := d - zerolen
  let buf := normalise (buf.take d') ++ buf.drop d'
  return (buf, alltrajs, d')

/-- The accumulation of the trajectories in PSAEM2 (paramest.py:366-369). -/
def ps2Append {X : Type} (trajs : Option (List X)) (datalen : ℕ) (new : List X) : List X :=
  match trajs with
  | none => new
  | some o => o.take datalen ++ new

/-- One iteration of `ParamEstimationPSAEM2.maximize` (paramest.py:335-387). The copy of the smoothed
particles into `newtrajs` (paramest.py:341-349, another use of `xrange`, which has succeeded if the loop
runs at all) is `H.smoothed`. -/
noncomputable def ps2Iter {W Θ X C : Type} (H : PsHooks W Θ X C) (o : PsOpts)
    (callback : Option (Θ → ℕ → W → PyM W)) (i : ℕ) (s : Ps2State W Θ X C) :
    Traced (SaCall Θ X C) (Ps2State W Θ X C) :=
  Traced.call (H.setParams s.θ s.w) (fun _ => [.setParams s.θ]) fun w =>
  Traced.call (H.simulate o.num_part 1 s.opts w)
    (fun _ => [.simulate o.num_part 1 s.opts.cond]) fun w =>
  Traced.call (H.smoothed w) (fun n => [.newTrajs n [1]]) fun new =>
  let buf := ps2Mix s.buf s.datalen (o.alpha i)
  Traced.call (H.straj w) (fun _ => []) fun c =>
  Traced.call (s.opts.setCond c) (fun _ => [.setCond c]) fun opts =>
  Traced.call (optCall H.callbackSim w) (fun _ => optRecord H.callbackSim .callbackSim) fun w =>
  let alltrajs := ps2Append s.trajs s.datalen new
  Traced.call (ps2Prune o.discard_eps o.discard_percentile buf alltrajs (s.datalen + 1))
    (fun _ => []) fun (buf, alltrajs, d) =>
  Traced.call (H.maximizeWeighted (alltrajs.take d) (buf.take d) w)
    (fun r => [.maximizeWeighted (alltrajs.take d) (buf.take d) r.1]) fun (θ', w) =>
  Traced.call (optCall (callback.map fun f => f θ' (i + 1)) w)
    (fun _ => optRecord callback (.callback θ' (i + 1))) fun w =>
  ([], .ok { θ := θ', buf := buf, trajs := some alltrajs, datalen := d, opts := opts, w := w })

/-- The loop of `ParamEstimationPSAEM2.maximize` (paramest.py:334-387). -/
noncomputable def ps2Loop {W Θ X C : Type} (H : PsHooks W Θ X C) (o : PsOpts)
    (callback : Option (Θ → ℕ → W → PyM W)) :
    List ℕ → Ps2State W Θ X C → Traced (SaCall Θ X C) (Ps2State W Θ X C)
  | [], s => ([], .ok s)
  | i :: is, s =>
    match ps2Iter H o callback i s with
    | (tr, .error e) => (tr, .error e)
    | (tr, .ok s') => (tr ++ (ps2Loop H o callback is s').1, (ps2Loop H o callback is s').2)

/-- `ParamEstimationPSAEM2.maximize` (paramest.py:290-388); `empty` is the uninitialised content of the
weight buffer `numpy.empty((max_iter * num_part,))`. -/
noncomputable def ps2Maximize {W Θ X C : Type} (v : PyVersion) (H : PsHooks W Θ X C) (o : PsOpts)
    (callback : Option (Θ → ℕ → W → PyM W)) (empty : ℕ → ℝ) (max_iter : ℕ) (param0 : Θ)
    (opts : FilterOpts C) (w : W) : Traced (SaCall Θ X C) (Ps2State W Θ X C) :=
  Traced.call (xrange v max_iter) (fun _ => []) fun is =>
    ps2Loop H o callback is
      { θ := param0, buf := (List.range (max_iter * o.num_part)).map empty, trajs := none, datalen := 0,
        opts := opts, w := w }

end PyPE

import Verif.Filter.Model
import Mathlib.Logic.Equiv.Defs

/-!
# Model of the smoothers (`smoother.py`, and `perform_smoothing` of `filter.py`)

Randomness is an argument: `Attempt` is what one vectorised proposal round consumes.  A test
`numpy.log(numpy.random.uniform()) < d` is modelled as `u < exp d`, which is the same for every `u ∈ [0,1)`
because `numpy.log(0.) = -inf`.
-/

namespace PyPE
open Real

/-- A `TrajectoryStep` as the smoothers see it (filter.py:806-822); `perform_mhbp` stores
`ancestors=None` (smoother.py:499). -/
structure SStep (P : Type) where
  pa : PA P
  ancestors : Option (List ℕ)

/-- A stored filter step used as past trajectory. -/
def Step.toS {P : Type} (s : Step P) : SStep P := ⟨s.pa, some s.ancestors⟩

/-- The arrays `ut`, `yt`, `tt` handed to the callbacks (smoother.py:211-213 copies the filter's). -/
structure SData (U Y : Type) where
  u : List (Slot U)
  y : List (Slot Y)
  t : List ℕ

/-- `ut[:n]`, `yt[:n]`, `tt[:n]`. -/
def SData.take {U Y : Type} (d : SData U Y) (n : ℕ) : SData U Y := ⟨d.u.take n, d.y.take n, d.t.take n⟩

/-- The callbacks of a user model used by the smoothers (interfaces.py:158-240, 320-620).  `None`
arguments are `Option.none`. `measure` also returns the particle array after the call, because
Rao-Blackwellised models update it in place (smoother.py:717-726 therefore copies). -/
structure SmoothCallbacks (P U Y V Ω : Type) where
  /-- `sample_smooth(part, ptraj, anc, future_trajs, find, ut, yt, tt, cur_ind)` -/
  sampleSmooth : List P → Option (List (SStep P)) → List ℕ → Option (List (SStep P)) → Option (List ℕ) →
    SData U Y → ℕ → Ω → PyM (List P)
  /-- `logp_xnext_full(part, past_trajs, pind, future_trajs, find, ut, yt, tt, cur_ind)` -/
  logpXnextFull : List P → Option (List (SStep P)) → Option (List ℕ) → List (SStep P) → List ℕ →
    SData U Y → ℕ → PyM (List ℝ)
  /-- `logp_xnext_max_full(part, past_trajs, pind, uvec, yvec, tvec, cur_ind)` -/
  logpXnextMaxFull : List P → List (SStep P) → List ℕ → SData U Y → ℕ → PyM ℝ
  /-- `cond_predict_single_step(part, past_trajs, pind, future_parts, find, ut, yt, tt, cur_ind)` -/
  condPredict : List P → List (SStep P) → List ℕ → List P → List ℕ → SData U Y → ℕ → PyM (List P)
  /-- `cond_sampled_initial(part, t)` -/
  condInitial : List P → ℕ → PyM (List P)
  /-- `sample_process_noise_full(ptraj, ancestors, ut, tt)` -/
  sampleNoise : List (SStep P) → List ℕ → List (Slot U) → List ℕ → Ω → PyM V
  /-- `update_full(particles, traj, uvec, yvec, tvec, ancestors, noise)`: the array after the call -/
  update : List P → List (SStep P) → SData U Y → List ℕ → V → PyM (List P)
  /-- `create_initial_estimate(N)` -/
  createInitial : ℕ → Ω → PyM (List P)
  /-- `propose_smooth(ptraj, anc, future_trajs, find, yt, ut, tt, cur_ind)` -/
  proposeSmooth : Option (List (SStep P)) → Option (List ℕ) → Option (List (SStep P)) → List ℕ →
    SData U Y → ℕ → Ω → PyM (List P)
  /-- `logp_proposal(prop_part, ptraj, anc, future_trajs, find, yt, ut, tt, cur_ind)` -/
  logpProposal : List P → Option (List (SStep P)) → Option (List ℕ) → Option (List (SStep P)) → List ℕ →
    SData U Y → ℕ → PyM (List ℝ)
  /-- `logp_xnext_singlestep(part, past_trajs, pind, future_parts, find, ut, yt, tt, cur_ind)` -/
  logpXnextSingle : List P → List (SStep P) → List ℕ → List P → List ℕ → SData U Y → ℕ → PyM (List ℝ)
  /-- `eval_logp_x0(particles, t)` -/
  evalLogpX0 : List P → ℕ → PyM (List ℝ)
  /-- `measure_full(particles, traj, uvec, yvec, tvec, ancestors)` -/
  measure : List P → Option (List (SStep P)) → SData U Y → Option (List ℕ) → PyM (List P × List ℝ)
  /-- `post_smoothing(st)`, if the model has it -/
  postSmoothing : Option (List (SStep P) → PyM (List (SStep P)))
  /-- `pre_mhips_pass(st)`, if the model has it -/
  preMhips : Option (List (SStep P) → PyM (List (SStep P)))
  /-- The interpreter the package runs on (only the stopping rule of `bsi_rsas` depends on it). -/
  py : PyVersion := .py3

/-- `numpy.random.permutation` as one draw: a permutation of the positions for every length. -/
abbrev Shuffle := ∀ m : ℕ, Equiv.Perm (Fin m)

/-- `numpy.random.permutation(l)` (smoother.py:72, 127, 184) with the drawn permutation. -/
def Shuffle.app (s : Shuffle) (l : List ℕ) : List ℕ := List.ofFn fun k : Fin l.length => l[s l.length k]

/-- What one vectorised proposal round draws: the uniform of `sample`, the permutation, the uniforms of
the acceptance tests. -/
structure Attempt where
  r : ℝ
  sh : Shuffle
  u : ℕ → ℝ

/-- What one backward step of `perform_bsi` draws. -/
structure BsiDraws (Ω : Type) where
  attempts : ℕ → Attempt
  full : ℕ → ℝ
  ω : Ω

variable {P U Y V Ω : Type}

/-- `w = numpy.copy(w); w -= max(w); w = exp(w); w /= sum(w)` (smoother.py:66-69, 118-121, 175-178, 311-314,
333-336, 440-443). -/
noncomputable def maxNormalised (w : List ℝ) : PyM (List ℝ) := do
  let m ← npMax w
  return expNormalised (w.map (· - m))

/-- `bsi_full` (smoother.py:11-41); `rs j` is the draw for the `j`-th entry. -/
noncomputable def bsiFull (S : SmoothCallbacks P U Y V Ω) (pa : PA P) (ptraj : List (SStep P)) (pind : List ℕ)
    (fut : List (SStep P)) (find : List ℕ) (D : SData U Y) (cur : ℕ) (rs : ℕ → ℝ) : PyM (List ℕ) :=
  find.zipIdx.mapM fun fj => do
    let p_next ← S.logpXnextFull pa.part (some ptraj) (some pind) fut (List.replicate pa.w.length fj.1) D cur
    let w ← npAdd pa.w p_next
    let w_norm ← maxNormalised w
    let s ← sample w_norm 1 (rs fj.2)
    getIdx s 0

/-- `a[ind] = b` for an index array without repetitions: entry `ind[k]` becomes `b[k]`. -/
def scatter {α : Type} (a : List α) (ind : List ℕ) (b : List α) : List α :=
  (ind.zip b).foldl (fun a p => a.set p.1 p.2) a

/-- One round of rejection sampling, common to `bsi_rs` (smoother.py:72-80) and `bsi_rsas` (127-138):
returns the new `res`, the new `todo` and the number of accepted entries. -/
noncomputable def rsRound (S : SmoothCallbacks P U Y V Ω) (pa : PA P) (ptraj : List (SStep P)) (pind : List ℕ)
    (fut : List (SStep P)) (D : SData U Y) (cur : ℕ) (weights : List ℝ) (maxpdf : ℝ) (a : Attempt)
    (todo : List ℕ) (res : List (Option ℕ)) : PyM (List (Option ℕ) × List ℕ) := do
  let s ← sample weights todo.length a.r
  let ind := a.sh.app s
  let part ← fancy pa.part ind
  let pi ← fancy pind ind
  let pn ← S.logpXnextFull part (some ptraj) (some pi) fut todo D cur
  if pn.length = todo.length then
    let accept := pn.zipIdx.map fun pk => decide (a.u pk.2 < exp (pk.1 - maxpdf))
    let acc := ((todo.zip ind).zip accept).filter (·.2)
    let rej := (todo.zip accept).filter (fun p => !p.2)
    return (scatter res (acc.map (·.1.1)) (acc.map fun p => some p.1.2), rej.map (·.1))
  else .error .valueError

/-- The attempt loop of `bsi_rs` (smoother.py:70-80); stops early when nothing is left. -/
noncomputable def rsLoop (S : SmoothCallbacks P U Y V Ω) (pa : PA P) (ptraj : List (SStep P)) (pind : List ℕ)
    (fut : List (SStep P)) (D : SData U Y) (cur : ℕ) (weights : List ℝ) (maxpdf : ℝ) :
    List Attempt → List ℕ → List (Option ℕ) → PyM (List (Option ℕ) × List ℕ)
  | [], todo, res => .ok (res, todo)
  | a :: as, todo, res => do
    let (res, todo) ← rsRound S pa ptraj pind fut D cur weights maxpdf a todo res
    if todo.length = 0 then return (res, [])
    else rsLoop S pa ptraj pind fut D cur weights maxpdf as todo res

/-- The fall-back `res[todo] = bsi_full(...)` (smoother.py:84, 150).  When nothing is left `bsi_rs` has already
returned (79-80); with `max_iter = 0` it is reached with everything left. -/
noncomputable def rsFallback (S : SmoothCallbacks P U Y V Ω) (pa : PA P) (ptraj : List (SStep P)) (pind : List ℕ)
    (fut : List (SStep P)) (D : SData U Y) (cur : ℕ) (full : ℕ → ℝ) (todo : List ℕ) (res : List (Option ℕ)) :
    PyM (List (Option ℕ)) := do
  let b ← bsiFull S pa ptraj pind fut todo D cur full
  return scatter res todo (b.map some)

/-- `bsi_rs` (smoother.py:44-85). `res = numpy.empty(M)` is uninitialised: `none`.  `M = len(find)`; note that
`find` itself is not used any more, `todo` plays its role (74-76). -/
noncomputable def bsiRs (S : SmoothCallbacks P U Y V Ω) (pa : PA P) (ptraj : List (SStep P)) (pind : List ℕ)
    (fut : List (SStep P)) (find : List ℕ) (D : SData U Y) (cur : ℕ) (maxpdf : ℝ) (maxIter : ℕ)
    (d : BsiDraws Ω) : PyM (List (Option ℕ)) := do
  let weights ← maxNormalised pa.w
  let (res, todo) ← rsLoop S pa ptraj pind fut D cur weights maxpdf ((List.range maxIter).map d.attempts)
    (List.range find.length) (List.replicate find.length none)
  if todo.length = 0 ∧ 0 < maxIter then return res
  else rsFallback S pa ptraj pind fut D cur d.full todo res

/-- Options of the adaptive stopping rule. -/
structure RsasOpts where
  x1 : ℝ
  P1 : ℝ
  sv : ℝ
  sw : ℝ
  ratio : ℝ

/-- The Kalman filter of the adaptive stopping rule (smoother.py:140-147): `mk` tried, `ak` accepted. Both are ints, so what `ak / mk` is depends on the
interpreter. -/
noncomputable def rsasUpdate (v : PyVersion) (o : RsasOpts) (mk ak : ℝ) (pk Pk : ℝ) : ℝ × ℝ :=
  let mk2 := mk * mk
  let sw2 := o.sw * o.sw
  let pk := pk + (mk * Pk) / (mk2 * Pk + sw2) * (ak - mk * pk)
  let Pk := (1 - (mk2 * Pk) / (mk2 * Pk + sw2)) * Pk
  ((1 - intDiv v ak mk) * pk, (1 - intDiv v ak mk) ^ 2 * Pk + o.sv * o.sv)

/-- The loop of `bsi_rsas` (smoother.py:125-149), cut off after `fuel` rounds: `none` means it was still running.
Simplification: the other divisions are real divisions (a zero denominator needs `sw = 0`; the options are floats). -/
noncomputable def rsasLoop (S : SmoothCallbacks P U Y V Ω) (pa : PA P) (ptraj : List (SStep P)) (pind : List ℕ)
    (fut : List (SStep P)) (D : SData U Y) (cur : ℕ) (weights : List ℝ) (maxpdf : ℝ) (o : RsasOpts)
    (attempts : ℕ → Attempt) : ℕ → ℕ → List ℕ → List (Option ℕ) → ℝ → ℝ →
      PyM (Option (List (Option ℕ) × List ℕ))
  | 0, _, _, _, _, _ => .ok none
  | fuel + 1, k, todo, res, pk, Pk => do
    let (res, todo') ← rsRound S pa ptraj pind fut D cur weights maxpdf (attempts k) todo res
    if todo'.length = 0 then return some (res, [])
    else
      let p := rsasUpdate S.py o todo.length ((todo.length : ℝ) - todo'.length) pk Pk
      if p.1 < o.ratio / pa.num then return some (res, todo')
      else rsasLoop S pa ptraj pind fut D cur weights maxpdf o attempts fuel (k + 1) todo' res p.1 p.2

/-- `bsi_rsas` (smoother.py:87-151), cut off after `fuel` rounds. `len(pa)` is `pa.num` (filter.py:1086-1087). -/
noncomputable def bsiRsas (S : SmoothCallbacks P U Y V Ω) (pa : PA P) (ptraj : List (SStep P)) (pind : List ℕ)
    (fut : List (SStep P)) (find : List ℕ) (D : SData U Y) (cur : ℕ) (maxpdf : ℝ) (o : RsasOpts)
    (d : BsiDraws Ω) (fuel : ℕ) : PyM (Option (List (Option ℕ))) := do
  let weights ← maxNormalised pa.w
  match ← rsasLoop S pa ptraj pind fut D cur weights maxpdf o d.attempts fuel 0
    (List.range find.length) (List.replicate find.length none) o.x1 o.P1 with
  | none => return none
  | some (res, todo) =>
    if todo.length = 0 then return some res
    else do
      let r ← rsFallback S pa ptraj pind fut D cur d.full todo res
      return some r

/-- One iteration of `bsi_mcmc` (smoother.py:183-192). -/
noncomputable def mcmcRound (S : SmoothCallbacks P U Y V Ω) (pa : PA P) (ptraj : List (SStep P)) (pind : List ℕ)
    (fut : List (SStep P)) (find : List ℕ) (D : SData U Y) (cur : ℕ) (weights : List ℝ) (a : Attempt)
    (s : List ℕ × List ℝ) : PyM (List ℕ × List ℝ) := do
  let q ← sample weights find.length a.r
  let propind := a.sh.app q
  let part ← fancy pa.part propind
  let pi ← fancy pind propind
  let pprop ← S.logpXnextFull part (some ptraj) (some pi) fut find D cur
  let diff ← npSub pprop s.2
  if diff.length = find.length ∧ s.1.length = find.length then
    let diff := diff.map fun x => if 0 < x then 0 else x
    let accept := diff.zipIdx.map fun dk => decide (a.u dk.2 < exp dk.1)
    return (List.zipWith (fun (b : Bool) (xy : ℕ × ℕ) => if b then xy.1 else xy.2) accept (propind.zip s.1),
      List.zipWith (fun (b : Bool) (xy : ℝ × ℝ) => if b then xy.1 else xy.2) accept (pprop.zip s.2))
  else .error .valueError

/-- `bsi_mcmc` (smoother.py:153-194). `ancestors` is a private array of the caller (a fancy-indexing copy), so
updating it in place (173, 191) has no other effect. -/
noncomputable def bsiMcmc (S : SmoothCallbacks P U Y V Ω) (pa : PA P) (ptraj : List (SStep P)) (pind : List ℕ)
    (fut : List (SStep P)) (find : List ℕ) (D : SData U Y) (cur : ℕ) (R : ℕ) (ancestors : List ℕ)
    (d : BsiDraws Ω) : PyM (List ℕ) := do
  let weights ← maxNormalised pa.w
  let part ← fancy pa.part ancestors
  let pi ← fancy pind ancestors
  let pcurr ← S.logpXnextFull part (some ptraj) (some pi) fut find D cur
  let s ← ((List.range R).map d.attempts).foldlM
    (fun s a => mcmcRound S pa ptraj pind fut find D cur weights a s) (ancestors, pcurr)
  return s.1

/-- The sampler `perform_bsi` uses (smoother.py:350-362), with its options. -/
inductive BsiMethod where
  | full
  | mcmc (R : ℕ)
  | rs (maxIter : ℕ) (maxpdf : List ℝ)
  | rsas (o : RsasOpts) (maxpdf : List ℝ)

/-- Reading a finished index array. An entry that was never written would be garbage; it is reported as an
error here and `C30`/`C33` show that it does not happen. -/
def finished (r : List (Option ℕ)) : PyM (List ℕ) :=
  r.mapM fun x => match x with | some i => .ok i | none => .error .unboundLocalError

/-- The choice of indices in one backward step (smoother.py:373-402).  `none`: `bsi_rsas` still running
after `fuel` rounds. -/
noncomputable def bsiPick (S : SmoothCallbacks P U Y V Ω) (m : BsiMethod) (st : Step P) (ptraj : List (SStep P))
    (fut : List (SStep P)) (find : List ℕ) (D : SData U Y) (cur : ℕ) (ancestors : List ℕ) (d : BsiDraws Ω)
    (fuel : ℕ) : PyM (Option (List ℕ)) :=
  match m with
  | .full => do
    let i ← bsiFull S st.pa ptraj st.ancestors fut find D cur d.full
    return some i
  | .mcmc R => do
    let i ← bsiMcmc S st.pa ptraj st.ancestors fut find D cur R ancestors d
    return some i
  | .rs k mp => do
    let m ← getIdx mp cur
    let r ← bsiRs S st.pa ptraj st.ancestors fut find D cur m k d
    let i ← finished r
    return some i
  | .rsas o mp => do
    let m ← getIdx mp cur
    match ← bsiRsas S st.pa ptraj st.ancestors fut find D cur m o d fuel with
    | none => return none
    | some r => do
      let i ← finished r
      return some i

/-- The backward loop of `perform_bsi` (smoother.py:366-415): times `n-1, …, 0` given the already smoothed
`fut` (`traj[n:]`). -/
noncomputable def bsiLoop (S : SmoothCallbacks P U Y V Ω) (m : BsiMethod) (pt : List (Step P)) (M : ℕ)
    (D : SData U Y) (draws : ℕ → BsiDraws Ω) (fuel : ℕ) :
    ℕ → List ℕ → List (SStep P) → PyM (Option (List (SStep P)))
  | 0, _, fut => .ok (some fut)
  | cur + 1, ancestors, fut => do
    let st ← getIdx pt cur
    let ptraj := (pt.take cur).map Step.toS
    match ← bsiPick S m st ptraj fut (List.range M) D cur ancestors (draws cur) fuel with
    | none => return none
    | some ind => do
      let anc ← fancy st.ancestors ind
      let part ← fancy st.pa.part ind
      let tmp ← S.sampleSmooth part (some ptraj) anc (some fut) (some (List.range M)) D cur (draws cur).ω
      let pa ← PA.new tmp none
      bsiLoop S m pt M D draws fuel cur anc (⟨pa, some (List.range M)⟩ :: fut)

/-- What a whole backward pass draws. -/
structure SmoothDraws (Ω : Type) where
  r0 : ℝ
  ω0 : Ω
  step : ℕ → BsiDraws Ω

/-- Selection of the end particles (smoother.py:311-316, 333-338). -/
noncomputable def drawEnd (last : Step P) (M : ℕ) (r : ℝ) : PyM (List ℕ) := do
  let tmp ← maxNormalised last.pa.w
  sample tmp M r

/-- `perform_bsi` (smoother.py:321-415) for the methods 'full', 'mcmc', 'rs', 'rsas'.  `opts` is the lookup of the sampler
options (350-362), which happens after the end particles have been smoothed.  `numpy.int` (364) is `int` in the numpy
versions of the time. -/
noncomputable def performBsi (S : SmoothCallbacks P U Y V Ω) (opts : PyM BsiMethod) (pt : List (Step P)) (M : ℕ)
    (D : SData U Y) (d : SmoothDraws Ω) (fuel : ℕ) : PyM (Option (List (SStep P))) := do
  let last ← getLast pt
  let ind ← drawEnd last M d.r0
  let anc ← fancy last.ancestors ind
  let part ← fancy last.pa.part ind
  let lp ← S.sampleSmooth part (some ((pt.take (pt.length - 1)).map Step.toS)) anc none none D (pt.length - 1) d.ω0
  let pa ← PA.new lp none
  let m ← opts
  bsiLoop S m pt M D d.step fuel (pt.length - 1) anc [⟨pa, some (List.range M)⟩]

/-- The backward loop of `calculate_ancestors` (smoother.py:284-299). -/
noncomputable def ancLoop (S : SmoothCallbacks P U Y V Ω) (pt : List (Step P)) (M : ℕ) (D : SData U Y)
    (ω : ℕ → Ω) : ℕ → List ℕ → List (SStep P) → PyM (List (SStep P))
  | 0, _, fut => .ok fut
  | t + 1, ind, fut => do
    let st ← getIdx pt t
    let anc ← fancy st.ancestors ind
    let part ← fancy st.pa.part ind
    let tmp ← S.sampleSmooth part (some ((pt.take t).map Step.toS)) anc (some fut) (some (List.range M)) D t (ω t)
    let pa ← PA.new tmp none
    ancLoop S pt M D ω t anc (⟨pa, some (List.range M)⟩ :: fut)

/-- `calculate_ancestors` (smoother.py:269-301). -/
noncomputable def calculateAncestors (S : SmoothCallbacks P U Y V Ω) (pt : List (Step P)) (ind : List ℕ)
    (D : SData U Y) (ω0 : Ω) (ω : ℕ → Ω) : PyM (List (SStep P)) := do
  let last ← getLast pt
  let anc ← fancy last.ancestors ind
  let part ← fancy last.pa.part ind
  let lp ← S.sampleSmooth part (some ((pt.take (pt.length - 1)).map Step.toS)) anc none none D (pt.length - 1) ω0
  let pa ← PA.new lp none
  ancLoop S pt ind.length D ω (pt.length - 1) anc [⟨pa, some (List.range ind.length)⟩]

/-- `perform_ancestors_int` (smoother.py:303-319). -/
noncomputable def performAncestorsInt (S : SmoothCallbacks P U Y V Ω) (pt : List (Step P)) (M : ℕ)
    (D : SData U Y) (d : SmoothDraws Ω) : PyM (List (SStep P)) := do
  let last ← getLast pt
  let ind ← drawEnd last M d.r0
  calculateAncestors S pt ind D d.ω0 fun t => (d.step t).ω

/-! ### Metropolis-Hastings -/

/-- The draws of one `mc_step`: proposal, and the uniforms of the test. -/
structure McDraws (Ω : Type) where
  ω : Ω
  u : ℕ → ℝ

/-- A log-probability that is either an array or the scalar `0.0` (smoother.py:675-678, 728-729, 753-754). -/
abbrev Term := Option (List ℝ)

/-- `a - b`: both arrays or both the scalar. -/
noncomputable def Term.sub : Term → Term → PyM Term
  | some a, some b => do let r ← npSub a b; return some r
  | some a, none => .ok (some a)
  | none, some b => .ok (some (b.map (0 - ·)))
  | none, none => .ok none

/-- `a + b` with a scalar `0.0` broadcast. -/
noncomputable def Term.add : Term → Term → PyM Term
  | some a, some b => do let r ← npAdd a b; return some r
  | some a, none => .ok (some a)
  | none, some b => .ok (some b)
  | none, none => .ok none

/-- `x[mask] = y[mask]` (smoother.py:778): the mask must have the length of the array. -/
def maskSet (acc : List Bool) (x y : List P) : PyM (List P) :=
  if acc.length = x.length ∧ acc.length = y.length then
    .ok (List.zipWith (fun (b : Bool) (p : P × P) => if b then p.1 else p.2) acc (y.zip x))
  else .error .indexError

/-- The first part of `mc_step`: the current particle stripped of its measurement (smoother.py:654-662). -/
def mcCurrent (S : SmoothCallbacks P U Y V Ω) (part : List P) (ptraj : Option (List (SStep P)))
    (pindCurr : Option (List ℕ)) (D : SData U Y) (cur : ℕ) : PyM (List P) :=
  match ptraj, pindCurr with
  | some pt, some pc => do
    let prev ← getLast pt
    let old ← fancy prev.pa.part pc
    match prev.ancestors with
    | none => .error .typeError
    | some a => do
      let pi ← fancy a pc
      S.condPredict old pt.dropLast pi part (List.range pc.length) D (cur - 1)
  | some _, none => .error .typeError
  | none, _ => do
    let t ← getIdx D.t cur
    S.condInitial part t

/-- The transition term of the ratio for candidate `x` with ancestors `pi` (smoother.py:699-714). -/
def mcPrev (S : SmoothCallbacks P U Y V Ω) (x : List P) (ptraj : Option (List (SStep P)))
    (pind : Option (List ℕ)) (D : SData U Y) (cur : ℕ) : PyM (List ℝ) :=
  match ptraj, pind with
  | some pt, some pc => do
    let prev ← getLast pt
    let old ← fancy prev.pa.part pc
    match prev.ancestors with
    | none => .error .typeError
    | some a => do
      let pi ← fancy a pc
      S.logpXnextSingle old pt.dropLast pi x (List.range x.length) D (cur - 1)
  | some _, none => .error .typeError
  | none, _ => do
    let t ← getIdx D.t 0
    S.evalLogpX0 x t

/-- The reduced proposal: a draw from the prior dynamics (smoother.py:664-678). -/
def mcProposeReduced (S : SmoothCallbacks P U Y V Ω) (ptraj : Option (List (SStep P)))
    (pindProp : Option (List ℕ)) (fut : Option (List (SStep P))) (D : SData U Y) (cur : ℕ) (ω : Ω) :
    PyM (List P) :=
  match ptraj, pindProp with
  | some pt, some pp => do
    let noise ← S.sampleNoise pt pp (D.u.take cur) (D.t.take cur) ω
    let prev ← getLast pt
    let x ← fancy prev.pa.part pp
    S.update x pt (D.take cur) pp noise
  | some _, none => .error .typeError
  | none, _ =>
    match fut with
    | none => .error .typeError
    | some f => do
      let f0 ← getIdx f 0
      S.createInitial f0.pa.part.length ω

/-- The measurement terms and the measured particles (smoother.py:717-729). -/
def mcMeasure (S : SmoothCallbacks P U Y V Ω) (xprop part : List P) (ptraj : Option (List (SStep P)))
    (pindProp pindCurr : Option (List ℕ)) (D : SData U Y) (cur : ℕ) (y : Slot Y) :
    PyM (List P × Term × List P × Term) :=
  match y with
  | .none => .ok (xprop, none, part, none)
  | _ => do
    let (xp, lp) ← S.measure xprop ptraj (D.take (cur + 1)) pindProp
    let (cp, lc) ← S.measure part ptraj (D.take (cur + 1)) pindCurr
    return (xp, some lp, cp, some lc)

/-- The terms of the future trajectories (smoother.py:731-754). -/
def mcFuture (S : SmoothCallbacks P U Y V Ω) (xpropy curparty : List P) (ptraj : Option (List (SStep P)))
    (pindProp pindCurr : Option (List ℕ)) (fut : Option (List (SStep P))) (find : List ℕ) (D : SData U Y)
    (cur : ℕ) : PyM (Term × Term) :=
  match fut with
  | none => .ok (none, none)
  | some f => do
    let a ← S.logpXnextFull xpropy ptraj pindProp f find D cur
    let b ← S.logpXnextFull curparty ptraj pindCurr f find D cur
    return (some a, some b)

/-- The acceptance part of `mc_step` (smoother.py:717-779), given the proposal `xprop`, the current `part` and
the prior/proposal terms. -/
noncomputable def mcAccept (S : SmoothCallbacks P U Y V Ω) (xprop part : List P)
    (ptraj : Option (List (SStep P))) (pindProp pindCurr : Option (List ℕ)) (fut : Option (List (SStep P)))
    (find : List ℕ) (D : SData U Y) (cur : ℕ) (prevProp prevCurr qProp qCurr : Term) (u : ℕ → ℝ) :
    PyM (List P × List Bool) := do
  let y ← getIdx D.y cur
  let (xpropy, yProp, curparty, yCurr) ← mcMeasure S xprop part ptraj pindProp pindCurr D cur y
  let (nProp, nCurr) ← mcFuture S xpropy curparty ptraj pindProp pindCurr fut find D cur
  let t1 ← Term.sub prevProp prevCurr
  let t2 ← Term.sub yProp yCurr
  let t3 ← Term.sub nProp nCurr
  let t4 ← Term.sub qCurr qProp
  let s1 ← Term.add t1 t2
  let s2 ← Term.add s1 t3
  let ratio ← Term.add s2 t4
  match ratio with
  | none => .error .typeError
  | some ratio => do
    let acc := ratio.zipIdx.map fun rk => decide (u rk.2 < exp rk.1)
    let out ← maskSet acc curparty xpropy
    return (out, acc)

/-- `mc_step` (smoother.py:632-779). -/
noncomputable def mcStep (S : SmoothCallbacks P U Y V Ω) (part : List P) (ptraj : Option (List (SStep P)))
    (pindProp pindCurr : Option (List ℕ)) (fut : Option (List (SStep P))) (find : List ℕ) (D : SData U Y)
    (cur : ℕ) (reduced : Bool) (d : McDraws Ω) : PyM (List P × List Bool) := do
  let part ← mcCurrent S part ptraj pindCurr D cur
  if reduced then do
    let xprop ← mcProposeReduced S ptraj pindProp fut D cur d.ω
    mcAccept S xprop part ptraj pindProp pindCurr fut find D cur none none none none d.u
  else do
    let xprop ← S.proposeSmooth ptraj pindProp fut find D cur d.ω
    let qProp ← S.logpProposal xprop ptraj pindProp fut find D cur
    let qCurr ← S.logpProposal part ptraj pindCurr fut find D cur
    let pProp ← mcPrev S xprop ptraj pindProp D cur
    let pCurr ← mcPrev S part ptraj pindCurr D cur
    mcAccept S xprop part ptraj pindProp pindCurr fut find D cur (some pProp) (some pCurr) (some qProp)
      (some qCurr) d.u

/-- The draws of one `perform_mhips_pass`: per time the `mc_step` and `sample_smooth` draws. -/
structure PassDraws (Ω : Type) where
  mc : ℕ → McDraws Ω
  ω : ℕ → Ω

/-- The loop `for i in reversed(range(1, T-1))` (smoother.py:555-587). -/
noncomputable def mhipsLoop (S : SmoothCallbacks P U Y V Ω) (traj : List (SStep P)) (M : ℕ) (D : SData U Y)
    (reduced : Bool) (d : PassDraws Ω) : ℕ → List (SStep P) → PyM (List (SStep P))
  | 0, fut => .ok fut
  | i + 1, fut => do
    let st ← getIdx traj (i + 1)
    let pt := traj.take (i + 1)
    let (part, _) ← mcStep S st.pa.part (some pt) (some (List.range M)) (some (List.range M)) (some fut)
      (List.range M) D (i + 1) reduced (d.mc (i + 1))
    let tmp ← S.sampleSmooth part (some pt) (List.range M) (some fut) (some (List.range M)) D (i + 1) (d.ω (i + 1))
    let pa ← PA.new tmp none
    mhipsLoop S traj M D reduced d i (⟨pa, some (List.range M)⟩ :: fut)

/-- `perform_mhips_pass` (smoother.py:511-607). -/
noncomputable def mhipsPass (S : SmoothCallbacks P U Y V Ω) (traj : List (SStep P)) (M : ℕ) (D : SData U Y)
    (reduced : Bool) (d : PassDraws Ω) : PyM (List (SStep P)) := do
  let T := traj.length
  let pind := List.range M
  let last ← getLast traj
  let pt := traj.take (T - 1)
  let (part, _) ← mcStep S last.pa.part (some pt) (some pind) (some pind) none pind D (T - 1) reduced (d.mc (T - 1))
  let tmp ← S.sampleSmooth part (some pt) pind none (some pind) D (T - 1) (d.ω (T - 1))
  let pa ← PA.new tmp none
  let fut ← mhipsLoop S traj M D reduced d (T - 2) [⟨pa, some pind⟩]
  let first ← getIdx traj 0
  let (part, _) ← mcStep S first.pa.part none none none (some fut) pind D 0 reduced (d.mc 0)
  let tmp ← S.sampleSmooth part none pind (some fut) (some pind) D 0 (d.ω 0)
  let pa ← PA.new tmp none
  return ⟨pa, some pind⟩ :: fut

/-- One time step of `perform_mhbp`: the draws. -/
structure MhbpDraws (Ω : Type) where
  r : ℕ → ℝ
  mc : ℕ → McDraws Ω
  ω : Ω

/-- The proposed ancestors of one iteration (smoother.py:472-474): drawn if `t > 0`, otherwise whatever the local
variable still holds. -/
noncomputable def mhbpPropose (tmp : Option (List ℝ)) (panc : Option (List ℕ)) (M : ℕ) (r : ℝ) : PyM (List ℕ) :=
  match tmp, panc with
  | some w, _ => sample w M r
  | none, some p => .ok p
  | none, none => .error .unboundLocalError

/-- The proposal loop of `perform_mhbp` at one time (smoother.py:470-489). `panc` is the last value of that local
variable; `tmp = none` at `t = 0`, where no new ancestors are proposed and the old `panc` is used. -/
noncomputable def mhbpInner (S : SmoothCallbacks P U Y V Ω) (ptraj : Option (List (SStep P)))
    (fut : Option (List (SStep P))) (M : ℕ) (D : SData U Y) (t : ℕ) (tmp : Option (List ℝ)) (d : MhbpDraws Ω) :
    List ℕ → List P × List ℕ × Option (List ℕ) → PyM (List P × List ℕ × Option (List ℕ))
  | [], s => .ok s
  | i :: is, (pnew, anc, panc) => do
    let panc ← mhbpPropose tmp panc M (d.r i)
    let (pnew, acc) ← mcStep S pnew ptraj (some panc) (some anc) fut (List.range M) D t false (d.mc i)
    mhbpInner S ptraj fut M D t tmp d is
      (pnew, List.zipWith (fun (b : Bool) (p : ℕ × ℕ) => if b then p.1 else p.2) acc (panc.zip anc), some panc)

/-- The time loop of `perform_mhbp` (smoother.py:455-501): times `n-1, …, 0`; `anc`/`panc` are the locals left by
the previous iteration (`none`: not yet bound). -/
noncomputable def mhbpLoop (S : SmoothCallbacks P U Y V Ω) (pt : List (Step P)) (M R : ℕ) (D : SData U Y)
    (draws : ℕ → MhbpDraws Ω) :
    ℕ → List ℕ → Option (List ℕ) → Option (List ℕ) → List (SStep P) → PyM (List (SStep P))
  | 0, _, _, _, fut => .ok fut
  | t + 1, cind, anc, panc, futs => do
    let st ← getIdx pt t
    let fut := if t + 1 < pt.length then some futs else none
    let pnew ← fancy st.pa.part cind
    let (anc, tmp, ptraj) ← (if 0 < t then do
        let a ← fancy st.ancestors cind
        let prev ← getIdx pt (t - 1)
        let w ← maxNormalised prev.pa.w
        pure (some a, some w, some ((pt.take t).map Step.toS))
      else (pure (anc, none, none) : PyM (Option (List ℕ) × Option (List ℝ) × Option (List (SStep P)))))
    match anc with
    | none => .error .unboundLocalError
    | some anc => do
      let (pnew, anc, panc) ← mhbpInner S ptraj fut M D t tmp (draws t) (List.range R) (pnew, anc, panc)
      let fp ← S.sampleSmooth pnew ptraj anc fut (some (List.range M)) D t (draws t).ω
      let pa ← PA.new fp none
      mhbpLoop S pt M R D draws t anc (some anc) panc (⟨pa, none⟩ :: futs)

/-- `perform_mhbp` (smoother.py:421-502), without the post-processing. -/
noncomputable def performMhbp (S : SmoothCallbacks P U Y V Ω) (pt : List (Step P)) (M R : ℕ) (D : SData U Y)
    (r0 : ℝ) (draws : ℕ → MhbpDraws Ω) : PyM (List (SStep P)) := do
  let last ← getLast pt
  let cind ← drawEnd last M r0
  mhbpLoop S pt M R D draws pt.length cind none none []

/-! ### Options and dispatch -/

/-- A number in an option dictionary: the code distinguishes `int` and `float`. -/
inductive PyNum where
  | int (n : ℤ)
  | float (x : ℝ)

/-- `range(R)`: its length; a float raises `TypeError`, a negative number gives the empty range. -/
def PyNum.range : PyNum → PyM ℕ
  | .int n => .ok n.toNat
  | .float _ => .error .typeError

/-- `range(int(R))`: `int` truncates towards zero. -/
noncomputable def PyNum.intRange : PyNum → ℕ
  | .int n => n.toNat
  | .float x => ⌊x⌋₊

/-- An option dictionary (filter.py:1015-1047, smoother.py:226-248, 350-362): `none` is an absent key. Other keys are
ignored by the code and not represented. -/
structure SOpts where
  R : Option PyNum := none
  x1 : Option ℝ := none
  P1 : Option ℝ := none
  sv : Option ℝ := none
  sw : Option ℝ := none
  ratio : Option ℝ := none
  maxpdf : Option (List ℝ) := none

/-- `options[key]`. -/
def look {α : Type} : Option α → PyM α
  | some x => .ok x
  | none => .error .keyError

/-- `options.update(user)` (filter.py:1047). -/
def SOpts.update (a b : SOpts) : SOpts where
  R := b.R <|> a.R
  x1 := b.x1 <|> a.x1
  P1 := b.P1 <|> a.P1
  sv := b.sv <|> a.sv
  sw := b.sw <|> a.sw
  ratio := b.ratio <|> a.ratio
  maxpdf := b.maxpdf <|> a.maxpdf

/-- The bounds for rejection sampling (filter.py:1018-1027). The last cell of `coeffs` stays uninitialised and is never
read (`perform_bsi` only reads `maxpdf[cur_ind]` for `cur_ind < T-1`): it is left out here. -/
def maxCoeffs (S : SmoothCallbacks P U Y V Ω) (pt : List (Step P)) (D : SData U Y) : PyM (List ℝ) :=
  (List.range (pt.length - 1)).mapM fun k => do
    let st ← getIdx pt k
    S.logpXnextMaxFull st.pa.part ((pt.take k).map Step.toS) st.ancestors D k

/-- The default options (filter.py:1015-1045). -/
noncomputable def defaultOptions (S : SmoothCallbacks P U Y V Ω) (pt : List (Step P)) (D : SData U Y)
    (method : String) : PyM SOpts := do
  if method = "rs" then
    let c ← maxCoeffs S pt D
    let st ← getIdx pt 0
    return { maxpdf := some c, R := some (.float (st.pa.w.length / 10)) }
  else if method = "rsas" then
    let c ← maxCoeffs S pt D
    return { maxpdf := some c, x1 := some 1, P1 := some 1, sv := some 1, sw := some 1, ratio := some 1 }
  else if method = "mcmc" ∨ method = "mhips" ∨ method = "mhbp" then
    return { R := some (.int 30) }
  else return {}

/-- The options lookups of `perform_bsi` (smoother.py:350-362, 378-393); `T` is the number of time steps.
Simplification: the lookups `options['maxpdf']` and, for 'mcmc', `options['R']`, which the code makes in every
iteration of the loop, are made once if there is an iteration. -/
noncomputable def bsiOptions (method : String) (T : ℕ) (o : Option SOpts) : PyM BsiMethod :=
  if method = "full" then .ok .full
  else match o with
  | none => if method = "mcmc" ∧ T ≤ 1 then .ok (.mcmc 0) else .error .typeError
  | some o =>
    if method = "mcmc" then
      if T ≤ 1 then .ok (.mcmc 0) else do
        let R ← look o.R
        let n ← R.range
        return .mcmc n
    else if method = "rs" then do
      let R ← look o.R
      if T ≤ 1 then return .rs 0 []
      else do
        let m ← look o.maxpdf
        return .rs R.intRange m
    else do
      let x1 ← look o.x1
      let P1 ← look o.P1
      let sv ← look o.sv
      let sw ← look o.sw
      let ratio ← look o.ratio
      if T ≤ 1 then return .rsas ⟨x1, P1, sv, sw, ratio⟩ []
      else do
        let m ← look o.maxpdf
        return .rsas ⟨x1, P1, sv, sw, ratio⟩ m

/-- `if 'R' in options: R = options['R'] else: R = 10` and `range(R)` (smoother.py:231-234, 243-246). -/
def mhIterations : Option SOpts → PyM ℕ
  | none => .error .typeError
  | some o => match o.R with
    | some R => R.range
    | none => .ok 10

/-- `if hasattr(self.model, 'post_smoothing'): self.traj = self.model.post_smoothing(self)`
(smoother.py:251-252, 266-268, 505-507). -/
def applyHook (f : Option (List (SStep P) → PyM (List (SStep P)))) (traj : List (SStep P)) : PyM (List (SStep P)) :=
  match f with
  | none => .ok traj
  | some f => f traj

/-- All random draws of one smoother run. -/
structure AllDraws (Ω : Type) where
  bsi : SmoothDraws Ω
  pass : ℕ → PassDraws Ω
  mhbp : ℕ → MhbpDraws Ω

/-- The loop over MHIPS passes (smoother.py:235-239). -/
noncomputable def mhipsPasses (S : SmoothCallbacks P U Y V Ω) (M : ℕ) (D : SData U Y) (reduced : Bool) :
    List (PassDraws Ω) → List (SStep P) → PyM (List (SStep P))
  | [], traj => .ok traj
  | d :: ds, traj => do
    let traj ← applyHook S.preMhips traj
    let traj ← mhipsPass S traj M D reduced d
    mhipsPasses S M D reduced ds traj

/-- `SmoothTrajectory.__init__` (smoother.py:208-252): the result is `self.traj`; `none` as for `bsiLoop`.  The method
names are compared case-sensitively. -/
noncomputable def smoothTrajectory (S : SmoothCallbacks P U Y V Ω) (pt : List (Step P)) (M : ℕ) (D : SData U Y)
    (method : String) (o : Option SOpts) (d : AllDraws Ω) (fuel : ℕ) : PyM (Option (List (SStep P))) := do
  let r ← (if method = "full" ∨ method = "mcmc" ∨ method = "rs" ∨ method = "rsas" then
      performBsi S (bsiOptions method pt.length o) pt M D d.bsi fuel
    else if method = "ancestor" then do
      let t ← performAncestorsInt S pt M D d.bsi
      let t ← applyHook S.postSmoothing t
      return some t
    else if method = "mhips" ∨ method = "mhips_reduced" then do
      let t ← performAncestorsInt S pt M D d.bsi
      let R ← mhIterations o
      let t ← mhipsPasses S M D (method = "mhips_reduced") ((List.range R).map d.pass) t
      return some t
    else if method = "mhbp" then do
      let R ← mhIterations o
      let t ← performMhbp S pt M R D d.bsi.r0 d.mhbp
      let t ← applyHook S.postSmoothing t
      return some t
    else .error .valueError : PyM (Option (List (SStep P))))
  match r with
  | none => return none
  | some t => do
    let t ← applyHook S.postSmoothing t
    return some t

/-- `ParticleTrajectory.perform_smoothing` (filter.py:1000-1049). -/
noncomputable def performSmoothing (S : SmoothCallbacks P U Y V Ω) (pt : List (Step P)) (M : ℕ) (D : SData U Y)
    (method : String) (user : Option SOpts) (d : AllDraws Ω) (fuel : ℕ) : PyM (Option (List (SStep P))) := do
  let o ← defaultOptions S pt D method
  let o := match user with
    | some u => o.update u
    | none => o
  smoothTrajectory S pt M D method (some o) d fuel

/-- `est[t] = part` for a row `est[t]` of `n` states (smoother.py:626-627): the right hand side is broadcast, so a single
particle fills the whole row; any other difference raises `ValueError`. The dimension of the states is a type here. -/
def fillRow (n : ℕ) (part : List P) : PyM (List P) :=
  if part.length = n then .ok part
  else match part with
    | [x] => .ok (List.replicate n x)
    | _ => .error .valueError

/-- `SmoothTrajectory.get_smoothed_estimates` (smoother.py:609-629): one row of particles per time. -/
def smoothedEstimates (traj : List (SStep P)) : PyM (List (List P)) := do
  let s0 ← getIdx traj 0
  traj.mapM fun s => fillRow s0.pa.part.length s.pa.part

end PyPE

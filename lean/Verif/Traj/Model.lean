import Verif.Filter.Model

/-!
# Model of `ParticleTrajectory` (filter.py:825-1049) and of `Simulator.simulate` (simulator.py)

Methods that can raise half-way return the state they leave behind together with the result or the
exception: `PT → PT × PyM α`.
-/

namespace PyPE

variable {P U Y V Ω : Type}

/-- What `ParticleTrajectory` needs from its filter object `self.pf`. -/
structure FilterOps (P U Y V Ω : Type) where
  /-- `pf.create_initial_estimate(N)` -/
  create : ℕ → Ω → PyM (List P)
  /-- `pf.forward(traj, yvec, uvec, tvec, cur_ind)` -/
  forward : List (Step P) → List (Slot Y) → List (Slot U) → List ℕ → ℕ → Draws Ω →
    PyM (PA P × Bool × List ℕ)
  /-- `pf.measure(..., inplace=True)` (all filters except pfy/cpfyas) -/
  measure : List (Step P) → List ℕ → PA P → List (Slot U) → List (Slot Y) → List ℕ → ℕ → PyM (PA P)
  /-- `pf.measure(..., pa=None, inplace=False)` (pfy, cpfyas) -/
  measureNew : List (Slot Y) → List ℕ → ℕ → Ω → PyM (PA P)
  /-- `self.using_pfy` -/
  usingPfy : Bool

/-- The filters selectable by name (filter.py:867-885). -/
inductive FilterKind where
  | pf | apf | pfy | cpfyas | cpfas | cpf | sir | csiras
  deriving DecidableEq, Repr

/-- The name dispatch of `ParticleTrajectory.__init__` (filter.py:867-885); `filter.lower()`. -/
def parseFilter (name : String) : PyM FilterKind :=
  if name.toLower = "pf" then .ok .pf
  else if name.toLower = "apf" then .ok .apf
  else if name.toLower = "pfy" then .ok .pfy
  else if name.toLower = "cpfyas" then .ok .cpfyas
  else if name.toLower = "cpfas" then .ok .cpfas
  else if name.toLower = "cpf" then .ok .cpf
  else if name.toLower = "sir" then .ok .sir
  else if name.toLower = "csiras" then .ok .csiras
  else .error .valueError

/-- `filter_options` as passed by the user: `None`, or a dictionary of which only the entry
`'cond_traj'` matters. -/
inductive FilterOptions (P : Type) where
  | none
  | dict (condTraj : Option (List (Step P)))

/-- `filter_options['cond_traj']`: `TypeError` on `None`, `KeyError` when missing. -/
def FilterOptions.condTraj : FilterOptions P → PyM (List (Step P))
  | .none => .error .typeError
  | .dict Option.none => .error .keyError
  | .dict (Option.some c) => .ok c

/-- The filter object built by `ParticleTrajectory.__init__` (filter.py:867-885). -/
noncomputable def mkFilter (M : Callbacks P U Y V Ω) (N : ℕ) (res : ℝ) (name : String)
    (opts : FilterOptions P) : PyM (FilterOps P U Y V Ω) := do
  let kind ← parseFilter name
  match kind with
  | .pf => return ⟨M.createInitial, pfForward M res, pfMeasure M, fun _ _ _ _ => .error .typeError, false⟩
  | .apf => return ⟨M.createInitial, apfForward M res, pfMeasure M, fun _ _ _ _ => .error .typeError, false⟩
  | .pfy => return ⟨M.createInitial, ffpropyForward M res N, fun _ _ _ _ _ _ _ => .error .assertionError,
      ffpropyMeasure M N, true⟩
  | .cpfyas => do
    let c ← opts.condTraj
    return ⟨cpfInitial M c, cpfyasForward M N c, fun _ _ _ _ _ _ _ => .error .assertionError,
      cpfyasMeasure M N c, true⟩
  | .cpfas => do
    let c ← opts.condTraj
    return ⟨cpfInitial M c, cpfasForward M c, pfMeasure M, fun _ _ _ _ => .error .typeError, false⟩
  | .cpf => do
    let c ← opts.condTraj
    return ⟨cpfInitial M c, cpfForward M c, pfMeasure M, fun _ _ _ _ => .error .typeError, false⟩
  | .sir => return ⟨M.createInitial, sirForward M res, pfMeasure M, fun _ _ _ _ => .error .typeError, false⟩
  | .csiras => do
    let c ← opts.condTraj
    return ⟨M.createInitial, csirasForward M c, pfMeasure M, fun _ _ _ _ => .error .typeError, false⟩

/-- State of a `ParticleTrajectory`. `ind1` is `self.ind + 1` (the code starts at `ind = -1`). -/
structure PT (P U Y : Type) where
  uvec : List (Slot U)
  yvec : List (Slot Y)
  tvec : List ℕ
  T : ℕ
  ind1 : ℕ
  N : ℕ
  traj : List (Step P)

/-- The buffers allocated by `ParticleTrajectory.__init__` (filter.py:844-866, 887): object arrays
start out as `None`; an explicit `T = 0` makes `self.tvec[0] = t0` raise `IndexError`; `t0 ≠ 0` fails
the assertion at line 863. `T=None`: `tvec` has one uninitialised cell, set to `t0 = 0`. -/
def PT.init (N : ℕ) (T : Option ℕ) (t0 : ℕ) : PyM (PT P U Y) :=
  if t0 ≠ 0 then .error .assertionError
  else match T with
    | some 0 => .error .indexError
    | some k => .ok { uvec := List.replicate k .none, yvec := List.replicate k .none,
                      tvec := List.range k, T := k, ind1 := 0, N := N, traj := [] }
    | none => .ok { uvec := [.none], yvec := [.none], tvec := [0], T := 0, ind1 := 0, N := N, traj := [] }

/-- `ndarray.resize` along the first axis: truncate or pad with zeros. -/
def npResize {α : Type} (l : List α) (n : ℕ) (fill : α) : List α :=
  l.take n ++ List.replicate (n - l.length) fill

/-- `a[i] = x`: `IndexError` when out of range. -/
def setIdx {α : Type} (a : List α) (i : ℕ) (x : α) : PyM (List α) :=
  if i < a.length then .ok (a.set i x) else .error .indexError

/-- The buffer growth of `forward` (filter.py:909-919). -/
def PT.growForward (s : PT P U Y) : PT P U Y :=
  if s.T ≤ s.ind1 then
    { s with uvec := npResize s.uvec s.ind1 .zero, yvec := npResize s.yvec (s.ind1 + 1) .zero,
             tvec := npResize s.tvec (s.ind1 + 1) 0, T := s.ind1 + 1 }
  else s

/-- The buffer growth of `measure` (filter.py:947-957). -/
def PT.growMeasure (s : PT P U Y) : PT P U Y :=
  if s.T ≤ s.ind1 then
    { s with uvec := npResize s.uvec (s.ind1 + 1) .zero, yvec := npResize s.yvec (s.ind1 + 1) .zero,
             tvec := npResize s.tvec (s.ind1 + 1) 0, T := s.ind1 + 1 }
  else s

/-- The lazy creation of the first step (filter.py:903-907, 975-980). -/
noncomputable def PT.ensureInit (F : FilterOps P U Y V Ω) (s : PT P U Y) (ω : Ω) :
    PT P U Y × PyM Unit :=
  if s.traj.length = 0 then
    let s := { s with ind1 := 1 }
    match F.create s.N ω with
    | .error e => (s, .error e)
    | .ok particles =>
      match PA.new particles none with
      | .error e => (s, .error e)
      | .ok pa => ({ s with traj := s.traj ++ [⟨pa, List.range s.N⟩] }, .ok ())
  else (s, .ok ())

/-- `ParticleTrajectory.forward(u, y)` (filter.py:891-934). -/
noncomputable def PT.forward (F : FilterOps P U Y V Ω) (s : PT P U Y) (u : Slot U) (y : Slot Y)
    (ω0 : Ω) (d : Draws Ω) : PT P U Y × PyM Bool :=
  match s.ensureInit F ω0 with
  | (s, .error e) => (s, .error e)
  | (s, .ok ()) =>
    let s := s.growForward
    match setIdx s.uvec (s.ind1 - 1) u with
    | .error e => (s, .error e)
    | .ok uv =>
      let s := { s with uvec := uv }
      match setIdx s.yvec s.ind1 y with
      | .error e => (s, .error e)
      | .ok yv =>
        let s := { s with yvec := yv }
        match setIdx s.tvec s.ind1 s.ind1 with
        | .error e => (s, .error e)
        | .ok tv =>
          let ind := s.ind1 - 1
          let s := { s with tvec := tv, ind1 := s.ind1 + 1 }
          match F.forward s.traj s.yvec s.uvec s.tvec ind d with
          | .error e => (s, .error e)
          | .ok (pa, resampled, anc) => ({ s with traj := s.traj ++ [⟨pa, anc⟩] }, .ok resampled)

/-- `ParticleTrajectory.measure(y)` (filter.py:936-988). In the non-pfy branch `pf.measure` mutates
`self.traj[-1].pa` in place. -/
noncomputable def PT.measure (F : FilterOps P U Y V Ω) (s : PT P U Y) (y : Slot Y) (ω : Ω) :
    PT P U Y × PyM Unit :=
  let s := s.growMeasure
  if F.usingPfy then
    let s := { s with ind1 := s.ind1 + 1 }
    match setIdx s.yvec (s.ind1 - 1) y with
    | .error e => (s, .error e)
    | .ok yv =>
      let s := { s with yvec := yv }
      match setIdx s.tvec (s.ind1 - 1) (s.ind1 - 1) with
      | .error e => (s, .error e)
      | .ok tv =>
        let s := { s with tvec := tv }
        match F.measureNew s.yvec s.tvec (s.ind1 - 1) ω with
        | .error e => (s, .error e)
        | .ok pa => ({ s with traj := s.traj ++ [⟨pa, List.range s.N⟩] }, .ok ())
  else
    match s.ensureInit F ω with
    | (s, .error e) => (s, .error e)
    | (s, .ok ()) =>
      match setIdx s.yvec (s.ind1 - 1) y with
      | .error e => (s, .error e)
      | .ok yv =>
        let s := { s with yvec := yv }
        match setIdx s.tvec (s.ind1 - 1) (s.ind1 - 1) with
        | .error e => (s, .error e)
        | .ok tv =>
          let s := { s with tvec := tv }
          match getLast s.traj with
          | .error e => (s, .error e)
          | .ok last =>
            match F.measure s.traj last.ancestors last.pa s.uvec s.yvec s.tvec (s.ind1 - 1) with
            | .error e => (s, .error e)
            | .ok pa => ({ s with traj := s.traj.dropLast ++ [⟨pa, last.ancestors⟩] }, .ok ())

/-- `ParticleTrajectory.spawn` (filter.py:996-1001): the keyword argument `lp_hack` does not exist (and
`self.pf.lp_hack`, `TrajectoryStep.t` do not either), so the call raises. Python evaluates the
arguments first: `self.traj[-1]` (`IndexError` when empty), `self.pf.res` (missing for the conditional
filters), then `self.traj[-1].t` — `AttributeError`. -/
def PT.spawn (s : PT P U Y) : PyM (PT P U Y) :=
  if s.traj.length = 0 then .error .indexError else .error .attributeError

/-- One user-level operation on a `ParticleTrajectory`, with the entropy it consumes. -/
inductive Op (U Y Ω : Type) where
  | forward (u : Slot U) (y : Slot Y) (ω0 : Ω) (d : Draws Ω)
  | measure (y : Slot Y) (ω : Ω)

/-- Execute one operation; `.ok (some b)` is the boolean returned by `forward`. -/
noncomputable def PT.step (F : FilterOps P U Y V Ω) (s : PT P U Y) : Op U Y Ω → PT P U Y × PyM (Option Bool)
  | .forward u y ω0 d =>
    match s.forward F u y ω0 d with
    | (s, .ok b) => (s, .ok (some b))
    | (s, .error e) => (s, .error e)
  | .measure y ω =>
    match s.measure F y ω with
    | (s, .ok ()) => (s, .ok none)
    | (s, .error e) => (s, .error e)

/-- Execute a sequence of operations, stopping at the first exception. -/
noncomputable def PT.run (F : FilterOps P U Y V Ω) (s : PT P U Y) :
    List (Op U Y Ω) → PT P U Y × PyM (List (Option Bool))
  | [] => (s, .ok [])
  | op :: ops =>
    match s.step F op with
    | (s, .error e) => (s, .error e)
    | (s, .ok b) =>
      match PT.run F s ops with
      | (s, .error e) => (s, .error e)
      | (s, .ok bs) => (s, .ok (b :: bs))

/-- Execute a sequence of operations where the caller catches every exception and goes on. -/
noncomputable def PT.runCatch (F : FilterOps P U Y V Ω) (s : PT P U Y) (ops : List (Op U Y Ω)) : PT P U Y :=
  ops.foldl (fun s op => (s.step F op).1) s

end PyPE

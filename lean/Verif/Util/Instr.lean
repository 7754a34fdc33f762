import Verif.Py
import Verif.PyLemmas
import Verif.Smooth.Dispatch

/-! # `utils/intrument.py`: the operation counting wrapper (C60, C61)

The wrapper is modelled at the level of Python calls: objects with a table of methods, calls with
positional and keyword arguments that are bound to the parameters of the method, and values of an
arbitrary type `V` with a partial `len`. -/

namespace PyPE
namespace Instr

/-- The method names in question: those of the wrapper, and those the rest of the library calls on a
model but the wrapper does not define. -/
inductive Meth where
  | create_initial_estimate | sample_process_noise_full | update_full | measure_full | copy_ind
  | logp_xnext | logp_xnext_max_full | sample_smooth | propose_smooth | logp_proposal
  | logp_xnext_full | logp_xnext_singlestep | eval_1st_stage_weights | pre_mhips_pass
  | post_smoothing | eval_logp_x0 | cond_predict_single_step | cond_sampled_initial
  | qsample | logp_q | measure | propose_from_y | set_params | maximize | maximize_weighted
  deriving DecidableEq

/-- Parameter names. -/
inductive Par where
  | N | ptraj | ancestors | ut | tt | particles | traj | uvec | yvec | tvec | noise | new_ind
  | next_part | u | y | t | part | past_trajs | pind | cur_ind | anc | future_trajs | find | yt
  | prop_part | future_parts | st
  deriving DecidableEq

/-- What the wrapper needs to know about Python values: `None`, and `len` (which raises `TypeError` for
objects without a length, in particular for `None`). -/
structure PyVal (V : Type) where
  none : V
  isNone : V → Bool
  len : V → PyM ℕ

variable {V S : Type}

/-- A Python object: for every attribute name the method found there, if any, with its parameters (name
and default value) and its body. The state `S` is everything a call can modify; a call that raises may
have modified it. -/
structure PyObj (V S : Type) where
  meth : Meth → Option (List (Par × Option V) × (List V → S → PyM V × S))

/-- Value of a parameter that was not given positionally. -/
def bindRest (kw : List (Par × V)) (p : Par × Option V) : PyM V :=
  match kw.lookup p.1 with
  | some v => .ok v
  | none => match p.2 with
    | some v => .ok v
    | none => .error .typeError

/-- Python's binding of positional and keyword arguments to parameters: `TypeError` for too many
positional arguments, unexpected or doubly given keywords, and missing arguments. -/
def bindArgs (params : List (Par × Option V)) (pos : List V) (kw : List (Par × V)) : PyM (List V) :=
  if params.length < pos.length then .error .typeError
  else if kw.any (fun k => ! ((params.drop pos.length).map Prod.fst).contains k.1) then .error .typeError
  else do
    let rest ← (params.drop pos.length).mapM (bindRest kw)
    pure (pos ++ rest)

/-- `obj.m(*pos, **kw)`: `AttributeError` if there is no such attribute. -/
def callMeth (o : PyObj V S) (m : Meth) (pos : List V) (kw : List (Par × V)) (s : S) : PyM V × S :=
  match o.meth m with
  | none => (.error .attributeError, s)
  | some (params, body) =>
    match bindArgs params pos kw with
    | .error e => (.error e, s)
    | .ok args => body args s

/-- `OpCount` (intrument.py:7-20). -/
@[ext] structure OpCount where
  cnt_sample : ℕ := 0
  cnt_update : ℕ := 0
  cnt_measure : ℕ := 0
  cnt_pdfxn : ℕ := 0
  cnt_pdfxn_full : ℕ := 0
  cnt_pdfxnmax : ℕ := 0
  cnt_propsmooth : ℕ := 0
  cnt_pdfsmooth : ℕ := 0
  cnt_eval1st : ℕ := 0
  cnt_eval_logp_x0 : ℕ := 0

/-- `OpCount.__add__` (intrument.py:22-33). -/
def OpCount.add (a b : OpCount) : OpCount :=
  { cnt_sample := a.cnt_sample + b.cnt_sample
    cnt_update := a.cnt_update + b.cnt_update
    cnt_measure := a.cnt_measure + b.cnt_measure
    cnt_pdfxn := a.cnt_pdfxn + b.cnt_pdfxn
    cnt_pdfxn_full := a.cnt_pdfxn_full + b.cnt_pdfxn_full
    cnt_pdfxnmax := a.cnt_pdfxnmax + b.cnt_pdfxnmax
    cnt_propsmooth := a.cnt_propsmooth + b.cnt_propsmooth
    cnt_pdfsmooth := a.cnt_pdfsmooth + b.cnt_pdfsmooth
    cnt_eval1st := a.cnt_eval1st + b.cnt_eval1st
    cnt_eval_logp_x0 := a.cnt_eval_logp_x0 + b.cnt_eval_logp_x0 }

/-- The parameters of the methods of `Instrumenter` (the `def` lines of intrument.py:84-164). -/
def wrapSig (pv : PyVal V) : Meth → Option (List (Par × Option V))
  | .create_initial_estimate => some [(.N, none)]
  | .sample_process_noise_full => some [(.ptraj, none), (.ancestors, none), (.ut, none), (.tt, none)]
  | .update_full => some [(.particles, none), (.traj, none), (.uvec, none), (.yvec, none), (.tvec, none),
      (.ancestors, none), (.noise, none)]
  | .measure_full => some [(.particles, none), (.traj, none), (.uvec, none), (.yvec, none), (.tvec, none),
      (.ancestors, none)]
  | .copy_ind => some [(.particles, none), (.new_ind, some pv.none)]
  | .logp_xnext => some [(.particles, none), (.next_part, none), (.u, none), (.t, none)]
  | .logp_xnext_max_full => some [(.part, none), (.past_trajs, none), (.pind, none), (.uvec, none),
      (.yvec, none), (.tvec, none), (.cur_ind, none)]
  | .sample_smooth => some [(.part, none), (.ptraj, none), (.anc, none), (.future_trajs, none),
      (.find, none), (.ut, none), (.yt, none), (.tt, none), (.cur_ind, none)]
  | .propose_smooth => some [(.ptraj, none), (.anc, none), (.future_trajs, none), (.find, none),
      (.yt, none), (.ut, none), (.tt, none), (.cur_ind, none)]
  | .logp_proposal => some [(.prop_part, none), (.ptraj, none), (.anc, none), (.future_trajs, none),
      (.find, none), (.yt, none), (.ut, none), (.tt, none), (.cur_ind, none)]
  | .logp_xnext_full => some [(.part, none), (.past_trajs, none), (.pind, none), (.future_trajs, none),
      (.find, none), (.ut, none), (.yt, none), (.tt, none), (.cur_ind, none)]
  | .logp_xnext_singlestep => some [(.part, none), (.past_trajs, none), (.pind, none),
      (.future_parts, none), (.find, none), (.ut, none), (.yt, none), (.tt, none), (.cur_ind, none)]
  | .eval_1st_stage_weights => some [(.particles, none), (.u, none), (.y, none), (.t, none)]
  | .pre_mhips_pass => some [(.st, none)]
  | .post_smoothing => some [(.st, none)]
  | .eval_logp_x0 => some [(.particles, none), (.t, none)]
  | .cond_predict_single_step => some [(.part, none), (.past_trajs, none), (.pind, none),
      (.future_parts, none), (.find, none), (.ut, none), (.yt, none), (.tt, none), (.cur_ind, none)]
  | .cond_sampled_initial => some [(.part, none), (.t, none)]
  | _ => none

/-- The bodies of the methods of `Instrumenter` (intrument.py:84-164): the increment of the counters and
the positional arguments of the call of the wrapped model that follows. -/
def wrapBody (pv : PyVal V) : Meth → List V → PyM (OpCount × List V)
  | .create_initial_estimate, [N] => pure ({}, [N])
  | .sample_process_noise_full, [ptraj, ancestors, ut, tt] => do
    let n ← pv.len ancestors
    pure ({ cnt_sample := n }, [ptraj, ancestors, ut, tt])
  | .update_full, [particles, traj, uvec, yvec, tvec, ancestors, noise] => do
    let n ← pv.len particles
    pure ({ cnt_update := n }, [particles, traj, uvec, yvec, tvec, ancestors, noise])
  | .measure_full, [particles, traj, uvec, yvec, tvec, ancestors] => do
    let n ← pv.len particles
    pure ({ cnt_measure := n }, [particles, traj, uvec, yvec, tvec, ancestors])
  | .copy_ind, [particles, new_ind] => pure ({}, [particles, new_ind])
  | .logp_xnext, [particles, next_part, u, t] => do
    let n ← pv.len particles
    let k ← pv.len next_part
    pure ({ cnt_pdfxn := max n k }, [particles, next_part, u, t])
  | .logp_xnext_max_full, [part, past_trajs, pind, uvec, yvec, tvec, cur_ind] => do
    let n ← pv.len part
    pure ({ cnt_pdfxnmax := n }, [part, past_trajs, pind, uvec, yvec, tvec, cur_ind])
  | .sample_smooth, [part, ptraj, anc, future_trajs, find, ut, yt, tt, cur_ind] =>
    pure ({}, [part, ptraj, anc, future_trajs, find, ut, yt, tt, cur_ind])
  | .propose_smooth, [ptraj, anc, future_trajs, find, yt, ut, tt, cur_ind] => do
    let n ← if pv.isNone ptraj then pv.len find else pv.len anc
    pure ({ cnt_propsmooth := n }, [ptraj, anc, future_trajs, find, yt, ut, tt, cur_ind])
  | .logp_proposal, [prop_part, ptraj, anc, future_trajs, find, yt, ut, tt, cur_ind] => do
    let n ← pv.len prop_part
    pure ({ cnt_pdfsmooth := n }, [prop_part, ptraj, anc, future_trajs, find, yt, ut, tt, cur_ind])
  | .logp_xnext_full, [part, past_trajs, pind, future_trajs, find, ut, yt, tt, cur_ind] => do
    let n ← pv.len part
    let k ← pv.len find
    pure ({ cnt_pdfxn := max n k }, [part, past_trajs, pind, future_trajs, find, ut, yt, tt, cur_ind])
  | .logp_xnext_singlestep, [part, past_trajs, pind, future_parts, find, ut, yt, tt, cur_ind] => do
    let n ← pv.len part
    let k ← pv.len find
    pure ({ cnt_pdfxn := max n k }, [part, past_trajs, pind, future_parts, find, ut, yt, tt, cur_ind])
  | .eval_1st_stage_weights, [particles, u, y, t] => do
    let n ← pv.len particles
    pure ({ cnt_eval1st := n }, [particles, u, y, t])
  | .pre_mhips_pass, [st] => pure ({}, [st])
  | .post_smoothing, [st] => pure ({}, [st])
  | .eval_logp_x0, [particles, t] => do
    let n ← pv.len particles
    pure ({ cnt_eval_logp_x0 := n }, [particles, t])
  | .cond_predict_single_step, [part, past_trajs, pind, future_parts, find, ut, yt, tt, cur_ind] =>
    pure ({}, [part, past_trajs, pind, future_parts, find, ut, yt, tt, cur_ind])
  | .cond_sampled_initial, [part, t] => pure ({}, [part, t])
  | _, _ => .error .typeError

/-- One method of the wrapper around `M`: count, then call the model. -/
def wrapMeth (pv : PyVal V) (M : PyObj V S) (m : Meth) (args : List V) (s : S × OpCount) :
    PyM V × (S × OpCount) :=
  match wrapBody pv m args with
  | .error e => (.error e, s)
  | .ok (inc, fwd) =>
    ((callMeth M m fwd [] s.1).1, ((callMeth M m fwd [] s.1).2, s.2.add inc))

/-- `Instrumenter(model)` (intrument.py:36-164); its state is that of the model and the counters. -/
def instrument (pv : PyVal V) (M : PyObj V S) : PyObj V (S × OpCount) :=
  ⟨fun m => (wrapSig pv m).map fun ps => (ps, wrapMeth pv M m)⟩

/-- A program using a model object: it calls methods, sees results or exceptions, may ask
`hasattr(model, m)`, and continues depending on the answers; no bound on the number of calls. -/
inductive Client (V R : Type) where
  | ret (r : R)
  | call (m : Meth) (pos : List V) (kw : List (Par × V)) (k : PyM V → Client V R)
  | has (m : Meth) (k : Bool → Client V R)

/-- Running a program with a given object. -/
def run {R : Type} (o : PyObj V S) : Client V R → S → R × S
  | .ret r, s => (r, s)
  | .call m pos kw k, s => run o (k (callMeth o m pos kw s).1) (callMeth o m pos kw s).2
  | .has m k, s => run o (k (o.meth m).isSome) s

/-! ## Specification -/

/-- The parameters of these methods according to the interface classes (interfaces.py: 126, 109, 67, 88,
137, 410, 434, 157, 491, 514, 323, 327, 300, 190, 218; paramest/interfaces.py `eval_logp_x0`;
the hooks of rbpf.py). -/
def signature (pv : PyVal V) : Meth → Option (List (Par × Option V))
  | .create_initial_estimate => some [(.N, none)]
  | .sample_process_noise_full => some ([.ptraj, .ancestors, .ut, .tt].map (·, none))
  | .update_full => some ([.particles, .traj, .uvec, .yvec, .tvec, .ancestors, .noise].map (·, none))
  | .measure_full => some ([.particles, .traj, .uvec, .yvec, .tvec, .ancestors].map (·, none))
  | .copy_ind => some [(.particles, none), (.new_ind, some pv.none)]
  | .logp_xnext => some ([.particles, .next_part, .u, .t].map (·, none))
  | .logp_xnext_max_full => some ([.part, .past_trajs, .pind, .uvec, .yvec, .tvec, .cur_ind].map (·, none))
  | .sample_smooth => some ([.part, .ptraj, .anc, .future_trajs, .find, .ut, .yt, .tt, .cur_ind].map (·, none))
  | .propose_smooth => some ([.ptraj, .anc, .future_trajs, .find, .yt, .ut, .tt, .cur_ind].map (·, none))
  | .logp_proposal =>
    some ([.prop_part, .ptraj, .anc, .future_trajs, .find, .yt, .ut, .tt, .cur_ind].map (·, none))
  | .logp_xnext_full =>
    some ([.part, .past_trajs, .pind, .future_trajs, .find, .ut, .yt, .tt, .cur_ind].map (·, none))
  | .logp_xnext_singlestep =>
    some ([.part, .past_trajs, .pind, .future_parts, .find, .ut, .yt, .tt, .cur_ind].map (·, none))
  | .eval_1st_stage_weights => some ([.particles, .u, .y, .t].map (·, none))
  | .pre_mhips_pass => some [(.st, none)]
  | .post_smoothing => some [(.st, none)]
  | .eval_logp_x0 => some ([.particles, .t].map (·, none))
  | .cond_predict_single_step =>
    some ([.part, .past_trajs, .pind, .future_parts, .find, .ut, .yt, .tt, .cur_ind].map (·, none))
  | .cond_sampled_initial => some ([.part, .t].map (·, none))
  | _ => none

/-- The model's methods have the parameters the interface classes prescribe. -/
def Conforms (pv : PyVal V) (M : PyObj V S) : Prop :=
  ∀ m ps ps' body, M.meth m = some (ps, body) → signature pv m = some ps' → ps = ps'

/-- The counters. -/
inductive Counter where
  | sample | update | measure | pdfxn | pdfxnmax | propsmooth | pdfsmooth | eval1st | logp_x0
  deriving DecidableEq

/-- Which counter a method is counted in, and the arguments whose (largest) length is the number of
particles of the call. For `propose_smooth` this depends on whether there is a past. -/
def counted (hasPast : Bool) : Meth → Option (Counter × List Par)
  | .sample_process_noise_full => some (.sample, [.ancestors])
  | .update_full => some (.update, [.particles])
  | .measure_full => some (.measure, [.particles])
  | .logp_xnext => some (.pdfxn, [.particles, .next_part])
  | .logp_xnext_full => some (.pdfxn, [.part, .find])
  | .logp_xnext_singlestep => some (.pdfxn, [.part, .find])
  | .logp_xnext_max_full => some (.pdfxnmax, [.part])
  | .propose_smooth => some (.propsmooth, if hasPast then [.anc] else [.find])
  | .logp_proposal => some (.pdfsmooth, [.prop_part])
  | .eval_1st_stage_weights => some (.eval1st, [.particles])
  | .eval_logp_x0 => some (.logp_x0, [.particles])
  | _ => none

/-- The arguments of a call by name. -/
def named (pv : PyVal V) (m : Meth) (args : List V) (p : Par) : V :=
  ((((signature pv m).getD []).map Prod.fst).zip args).lookup p |>.getD pv.none

/-- The counted arguments of a call all have a length (they are arrays, not `None`). -/
def Sized (pv : PyVal V) (m : Meth) (args : List V) : Prop :=
  ∀ cp, counted (!pv.isNone (named pv m args .ptraj)) m = some cp →
    ∀ p ∈ cp.2, ∃ n, pv.len (named pv m args p) = .ok n

/-- `len`, as a number (0 if there is none). -/
def lenD (pv : PyVal V) (v : V) : ℕ :=
  match pv.len v with
  | .ok n => n
  | .error _ => 0

/-- The number of particles of a call counted in `c`. -/
def particlesOf (pv : PyVal V) (c : Counter) (call : Meth × List V) : ℕ :=
  match counted (!pv.isNone (named pv call.1 call.2 .ptraj)) call.1 with
  | none => 0
  | some (c', ps) =>
    if c' = c then (ps.map fun p => lenD pv (named pv call.1 call.2 p)).foldl max 0 else 0

/-- Reading a counter of `oc`. -/
def OpCount.get (a : OpCount) : Counter → ℕ
  | .sample => a.cnt_sample
  | .update => a.cnt_update
  | .measure => a.cnt_measure
  | .pdfxn => a.cnt_pdfxn
  | .pdfxnmax => a.cnt_pdfxnmax
  | .propsmooth => a.cnt_propsmooth
  | .pdfsmooth => a.cnt_pdfsmooth
  | .eval1st => a.cnt_eval1st
  | .logp_x0 => a.cnt_eval_logp_x0

/-- The calls a program makes when run with the unwrapped object `o`, with their bound arguments; `none`
if it makes a call the wrapper is not meant for: of a method the wrapper does not define, with arguments
that do not fit the interface, with a counted argument without length, or a `hasattr` question about a
method that is not defined by both the wrapper and the model. -/
inductive Trace {R : Type} (pv : PyVal V) (o : PyObj V S) : Client V R → S → List (Meth × List V) → Prop
  | ret (r : R) (s : S) : Trace pv o (.ret r) s []
  | call {m : Meth} {pos : List V} {kw : List (Par × V)} {k : PyM V → Client V R} {s : S}
      {ps : List (Par × Option V)} {args : List V} {log : List (Meth × List V)}
      (hsig : signature pv m = some ps) (hbind : bindArgs ps pos kw = .ok args)
      (hsz : Sized pv m args)
      (hk : Trace pv o (k (callMeth o m pos kw s).1) (callMeth o m pos kw s).2 log) :
      Trace pv o (.call m pos kw k) s ((m, args) :: log)
  | has {m : Meth} {k : Bool → Client V R} {s : S} {log : List (Meth × List V)}
      (hsig : (signature pv m).isSome) (hdef : (o.meth m).isSome) (hk : Trace pv o (k true) s log) :
      Trace pv o (.has m k) s log

/-! ## Lemmas -/

theorem wrapSig_eq (pv : PyVal V) (m : Meth) : wrapSig pv m = signature pv m := by
  cases m <;> rfl

theorem bindRest_ok_length {ps : List (Par × Option V)} {kw : List (Par × V)} {rest : List V}
    (h : ps.mapM (bindRest kw) = .ok rest) : rest.length = ps.length := by
  induction ps generalizing rest with
  | nil =>
    rw [List.mapM_nil] at h
    cases h; rfl
  | cons p ps ih =>
    rw [List.mapM_cons, bind_eq_ok] at h
    obtain ⟨a, _, h⟩ := h
    rw [bind_eq_ok] at h
    obtain ⟨b, hb, h⟩ := h
    cases h
    simp [ih hb]

theorem bindArgs_length {ps : List (Par × Option V)} {pos : List V} {kw : List (Par × V)}
    {args : List V} (h : bindArgs ps pos kw = .ok args) : args.length = ps.length := by
  unfold bindArgs at h
  split_ifs at h with h1 h2
  rw [bind_eq_ok] at h
  obtain ⟨rest, hr, h⟩ := h
  cases h
  rw [List.length_append, bindRest_ok_length hr, List.length_drop]
  omega

theorem bindArgs_pos {ps : List (Par × Option V)} {args : List V} (h : args.length = ps.length) :
    bindArgs ps args [] = .ok args := by
  unfold bindArgs
  rw [if_neg (by omega), h, List.drop_length]
  simp [pure_eq_ok]

theorem callMeth_eq {pv : PyVal V} {M : PyObj V S} (hM : Conforms pv M) {m : Meth}
    {ps : List (Par × Option V)} (hsig : signature pv m = some ps) {pos : List V} {kw : List (Par × V)}
    {args : List V} (hb : bindArgs ps pos kw = .ok args) (s : S) :
    callMeth M m args [] s = callMeth M m pos kw s := by
  unfold callMeth
  rcases h : M.meth m with _ | ⟨ps', body⟩
  · rfl
  · have := hM m ps' ps body h hsig
    subst this
    simp only [hb, bindArgs_pos (bindArgs_length hb)]

theorem len1 {l : List V} (h : l.length = 1) : ∃ a, l = [a] := by
  match l, h with
  | [a], _ => exact ⟨a, rfl⟩

theorem len2 {l : List V} (h : l.length = 2) : ∃ a b, l = [a, b] := by
  match l, h with
  | [a, b], _ => exact ⟨a, b, rfl⟩

theorem len4 {l : List V} (h : l.length = 4) : ∃ a b c d, l = [a, b, c, d] := by
  match l, h with
  | [a, b, c, d], _ => exact ⟨a, b, c, d, rfl⟩

theorem len6 {l : List V} (h : l.length = 6) : ∃ a b c d e f, l = [a, b, c, d, e, f] := by
  match l, h with
  | [a, b, c, d, e, f], _ => exact ⟨a, b, c, d, e, f, rfl⟩

theorem len7 {l : List V} (h : l.length = 7) : ∃ a b c d e f g, l = [a, b, c, d, e, f, g] := by
  match l, h with
  | [a, b, c, d, e, f, g], _ => exact ⟨a, b, c, d, e, f, g, rfl⟩

theorem len8 {l : List V} (h : l.length = 8) : ∃ a b c d e f g h, l = [a, b, c, d, e, f, g, h] := by
  match l, h with
  | [a, b, c, d, e, f, g, h], _ => exact ⟨a, b, c, d, e, f, g, h, rfl⟩

theorem len9 {l : List V} (h : l.length = 9) : ∃ a b c d e f g h i, l = [a, b, c, d, e, f, g, h, i] := by
  match l, h with
  | [a, b, c, d, e, f, g, h, i], _ => exact ⟨a, b, c, d, e, f, g, h, i, rfl⟩

/-- What the body of a wrapper method does with fitting arguments. -/
theorem wrapBody_ok {pv : PyVal V} {m : Meth} {ps : List (Par × Option V)}
    (hsig : signature pv m = some ps) {args : List V} (hl : args.length = ps.length)
    (hsz : Sized pv m args) :
    ∃ inc, wrapBody pv m args = .ok (inc, args) ∧ inc.cnt_pdfxn_full = 0
      ∧ ∀ c, inc.get c = particlesOf pv c (m, args) := by
  cases m <;> simp only [signature, Option.some.injEq, reduceCtorEq] at hsig <;> subst hsig
  · obtain ⟨N, rfl⟩ := len1 (by simpa using hl)
    exact ⟨{}, rfl, rfl, fun c => by cases c <;> rfl⟩
  · obtain ⟨ptraj, ancestors, ut, tt, rfl⟩ := len4 (by simpa using hl)
    obtain ⟨n0, hn0⟩ := hsz _ rfl .ancestors (by simp)
    replace hn0 : pv.len ancestors = .ok n0 := hn0
    refine ⟨{ cnt_sample := n0 }, by simp [wrapBody, hn0, ok_bind, pure_eq_ok], rfl, fun c => ?_⟩
    have e : particlesOf pv c (.sample_process_noise_full, [ptraj, ancestors, ut, tt])
        = if Counter.sample = c then max 0 (lenD pv ancestors) else 0 := rfl
    rw [e]
    cases c <;> simp [OpCount.get, lenD, hn0]
  · obtain ⟨particles, traj, uvec, yvec, tvec, ancestors, noise, rfl⟩ := len7 (by simpa using hl)
    obtain ⟨n0, hn0⟩ := hsz _ rfl .particles (by simp)
    replace hn0 : pv.len particles = .ok n0 := hn0
    refine ⟨{ cnt_update := n0 }, by simp [wrapBody, hn0, ok_bind, pure_eq_ok], rfl, fun c => ?_⟩
    have e : particlesOf pv c (.update_full, [particles, traj, uvec, yvec, tvec, ancestors, noise])
        = if Counter.update = c then max 0 (lenD pv particles) else 0 := rfl
    rw [e]
    cases c <;> simp [OpCount.get, lenD, hn0]
  · obtain ⟨particles, traj, uvec, yvec, tvec, ancestors, rfl⟩ := len6 (by simpa using hl)
    obtain ⟨n0, hn0⟩ := hsz _ rfl .particles (by simp)
    replace hn0 : pv.len particles = .ok n0 := hn0
    refine ⟨{ cnt_measure := n0 }, by simp [wrapBody, hn0, ok_bind, pure_eq_ok], rfl, fun c => ?_⟩
    have e : particlesOf pv c (.measure_full, [particles, traj, uvec, yvec, tvec, ancestors])
        = if Counter.measure = c then max 0 (lenD pv particles) else 0 := rfl
    rw [e]
    cases c <;> simp [OpCount.get, lenD, hn0]
  · obtain ⟨particles, new_ind, rfl⟩ := len2 (by simpa using hl)
    exact ⟨{}, rfl, rfl, fun c => by cases c <;> rfl⟩
  · obtain ⟨particles, next_part, u, t, rfl⟩ := len4 (by simpa using hl)
    obtain ⟨n0, hn0⟩ := hsz _ rfl .particles (by simp)
    replace hn0 : pv.len particles = .ok n0 := hn0
    obtain ⟨n1, hn1⟩ := hsz _ rfl .next_part (by simp)
    replace hn1 : pv.len next_part = .ok n1 := hn1
    refine ⟨{ cnt_pdfxn := max n0 n1 }, by simp [wrapBody, hn0, hn1, ok_bind, pure_eq_ok], rfl, fun c => ?_⟩
    have e : particlesOf pv c (.logp_xnext, [particles, next_part, u, t])
        = if Counter.pdfxn = c then max (max 0 (lenD pv particles)) (lenD pv next_part) else 0 := rfl
    rw [e]
    cases c <;> simp [OpCount.get, lenD, hn0, hn1]
  · obtain ⟨part, past_trajs, pind, uvec, yvec, tvec, cur_ind, rfl⟩ := len7 (by simpa using hl)
    obtain ⟨n0, hn0⟩ := hsz _ rfl .part (by simp)
    replace hn0 : pv.len part = .ok n0 := hn0
    refine ⟨{ cnt_pdfxnmax := n0 }, by simp [wrapBody, hn0, ok_bind, pure_eq_ok], rfl, fun c => ?_⟩
    have e : particlesOf pv c (.logp_xnext_max_full, [part, past_trajs, pind, uvec, yvec, tvec, cur_ind])
        = if Counter.pdfxnmax = c then max 0 (lenD pv part) else 0 := rfl
    rw [e]
    cases c <;> simp [OpCount.get, lenD, hn0]
  · obtain ⟨part, ptraj, anc, future_trajs, find, ut, yt, tt, cur_ind, rfl⟩ := len9 (by simpa using hl)
    exact ⟨{}, rfl, rfl, fun c => by cases c <;> rfl⟩
  · obtain ⟨ptraj, anc, future_trajs, find, yt, ut, tt, cur_ind, rfl⟩ := len8 (by simpa using hl)
    by_cases hp : pv.isNone ptraj = true
    · obtain ⟨n, hn⟩ := hsz (.propsmooth, [.find]) (by
        show some (Counter.propsmooth, if (!pv.isNone ptraj) = true then [Par.anc] else [Par.find]) = _
        simp [hp]) .find (by simp)
      replace hn : pv.len find = .ok n := hn
      refine ⟨{ cnt_propsmooth := n }, by simp [wrapBody, hp, hn, ok_bind, pure_eq_ok], rfl, fun c => ?_⟩
      have e : particlesOf pv c (.propose_smooth, [ptraj, anc, future_trajs, find, yt, ut, tt, cur_ind])
          = if Counter.propsmooth = c then max 0 (lenD pv find) else 0 := by
        have : counted (!pv.isNone ptraj) .propose_smooth = some (.propsmooth, [.find]) := by
          simp [counted, hp]
        unfold particlesOf
        rw [show named pv _ _ .ptraj = ptraj from rfl, this]
        rfl
      rw [e]
      cases c <;> simp [OpCount.get, lenD, hn]
    · obtain ⟨n, hn⟩ := hsz (.propsmooth, [.anc]) (by
        show some (Counter.propsmooth, if (!pv.isNone ptraj) = true then [Par.anc] else [Par.find]) = _
        simp [hp]) .anc (by simp)
      replace hn : pv.len anc = .ok n := hn
      refine ⟨{ cnt_propsmooth := n }, by simp [wrapBody, hp, hn, ok_bind, pure_eq_ok], rfl, fun c => ?_⟩
      have e : particlesOf pv c (.propose_smooth, [ptraj, anc, future_trajs, find, yt, ut, tt, cur_ind])
          = if Counter.propsmooth = c then max 0 (lenD pv anc) else 0 := by
        have : counted (!pv.isNone ptraj) .propose_smooth = some (.propsmooth, [.anc]) := by
          simp [counted, hp]
        unfold particlesOf
        rw [show named pv _ _ .ptraj = ptraj from rfl, this]
        rfl
      rw [e]
      cases c <;> simp [OpCount.get, lenD, hn]
  · obtain ⟨prop_part, ptraj, anc, future_trajs, find, yt, ut, tt, cur_ind, rfl⟩ := len9 (by simpa using hl)
    obtain ⟨n0, hn0⟩ := hsz _ rfl .prop_part (by simp)
    replace hn0 : pv.len prop_part = .ok n0 := hn0
    refine ⟨{ cnt_pdfsmooth := n0 }, by simp [wrapBody, hn0, ok_bind, pure_eq_ok], rfl, fun c => ?_⟩
    have e : particlesOf pv c (.logp_proposal, [prop_part, ptraj, anc, future_trajs, find, yt, ut, tt, cur_ind])
        = if Counter.pdfsmooth = c then max 0 (lenD pv prop_part) else 0 := rfl
    rw [e]
    cases c <;> simp [OpCount.get, lenD, hn0]
  · obtain ⟨part, past_trajs, pind, future_trajs, find, ut, yt, tt, cur_ind, rfl⟩ := len9 (by simpa using hl)
    obtain ⟨n0, hn0⟩ := hsz _ rfl .part (by simp)
    replace hn0 : pv.len part = .ok n0 := hn0
    obtain ⟨n1, hn1⟩ := hsz _ rfl .find (by simp)
    replace hn1 : pv.len find = .ok n1 := hn1
    refine ⟨{ cnt_pdfxn := max n0 n1 }, by simp [wrapBody, hn0, hn1, ok_bind, pure_eq_ok], rfl, fun c => ?_⟩
    have e : particlesOf pv c (.logp_xnext_full, [part, past_trajs, pind, future_trajs, find, ut, yt, tt, cur_ind])
        = if Counter.pdfxn = c then max (max 0 (lenD pv part)) (lenD pv find) else 0 := rfl
    rw [e]
    cases c <;> simp [OpCount.get, lenD, hn0, hn1]
  · obtain ⟨part, past_trajs, pind, future_parts, find, ut, yt, tt, cur_ind, rfl⟩ := len9 (by simpa using hl)
    obtain ⟨n0, hn0⟩ := hsz _ rfl .part (by simp)
    replace hn0 : pv.len part = .ok n0 := hn0
    obtain ⟨n1, hn1⟩ := hsz _ rfl .find (by simp)
    replace hn1 : pv.len find = .ok n1 := hn1
    refine ⟨{ cnt_pdfxn := max n0 n1 }, by simp [wrapBody, hn0, hn1, ok_bind, pure_eq_ok], rfl, fun c => ?_⟩
    have e : particlesOf pv c (.logp_xnext_singlestep, [part, past_trajs, pind, future_parts, find, ut, yt, tt, cur_ind])
        = if Counter.pdfxn = c then max (max 0 (lenD pv part)) (lenD pv find) else 0 := rfl
    rw [e]
    cases c <;> simp [OpCount.get, lenD, hn0, hn1]
  · obtain ⟨particles, u, y, t, rfl⟩ := len4 (by simpa using hl)
    obtain ⟨n0, hn0⟩ := hsz _ rfl .particles (by simp)
    replace hn0 : pv.len particles = .ok n0 := hn0
    refine ⟨{ cnt_eval1st := n0 }, by simp [wrapBody, hn0, ok_bind, pure_eq_ok], rfl, fun c => ?_⟩
    have e : particlesOf pv c (.eval_1st_stage_weights, [particles, u, y, t])
        = if Counter.eval1st = c then max 0 (lenD pv particles) else 0 := rfl
    rw [e]
    cases c <;> simp [OpCount.get, lenD, hn0]
  · obtain ⟨st, rfl⟩ := len1 (by simpa using hl)
    exact ⟨{}, rfl, rfl, fun c => by cases c <;> rfl⟩
  · obtain ⟨st, rfl⟩ := len1 (by simpa using hl)
    exact ⟨{}, rfl, rfl, fun c => by cases c <;> rfl⟩
  · obtain ⟨particles, t, rfl⟩ := len2 (by simpa using hl)
    obtain ⟨n0, hn0⟩ := hsz _ rfl .particles (by simp)
    replace hn0 : pv.len particles = .ok n0 := hn0
    refine ⟨{ cnt_eval_logp_x0 := n0 }, by simp [wrapBody, hn0, ok_bind, pure_eq_ok], rfl, fun c => ?_⟩
    have e : particlesOf pv c (.eval_logp_x0, [particles, t])
        = if Counter.logp_x0 = c then max 0 (lenD pv particles) else 0 := rfl
    rw [e]
    cases c <;> simp [OpCount.get, lenD, hn0]
  · obtain ⟨part, past_trajs, pind, future_parts, find, ut, yt, tt, cur_ind, rfl⟩ := len9 (by simpa using hl)
    exact ⟨{}, rfl, rfl, fun c => by cases c <;> rfl⟩
  · obtain ⟨part, t, rfl⟩ := len2 (by simpa using hl)
    exact ⟨{}, rfl, rfl, fun c => by cases c <;> rfl⟩

theorem OpCount.add_get (a b : OpCount) (c : Counter) : (a.add b).get c = a.get c + b.get c := by
  cases c <;> rfl

/-! ## C60 -/

/-- **C60**: the wrapper is transparent. Let a program make only calls the wrapper is meant for when run
with the unwrapped model (`Trace`; their number is not bounded, and every call may depend on the results
and exceptions of the earlier ones). Run with the wrapped model it gives the same result and leaves the
model in the same state, and every counter of the wrapper has grown by the number of particles of the
calls it counts. -/
theorem C60_transparent {R : Type} {pv : PyVal V} {M : PyObj V S} (hM : Conforms pv M)
    {c : Client V R} {s : S} {log : List (Meth × List V)} (h : Trace pv M c s log) (oc : OpCount) :
    ∃ oc', run (instrument pv M) c (s, oc) = ((run M c s).1, ((run M c s).2, oc'))
      ∧ (∀ k, oc'.get k = oc.get k + (log.map (particlesOf pv k)).sum)
      ∧ oc'.cnt_pdfxn_full = oc.cnt_pdfxn_full := by
  induction h generalizing oc with
  | ret r s => exact ⟨oc, rfl, fun k => by simp, rfl⟩
  | @call m pos kw k s ps args log hsig hbind hsz hk ih =>
    obtain ⟨inc, h1, h2, h3⟩ := wrapBody_ok hsig (bindArgs_length hbind) hsz
    have e : callMeth (instrument pv M) m pos kw (s, oc)
        = ((callMeth M m pos kw s).1, ((callMeth M m pos kw s).2, oc.add inc)) := by
      have : (instrument pv M).meth m = some (ps, wrapMeth pv M m) := by
        simp only [instrument, wrapSig_eq, hsig, Option.map_some]
      rw [callMeth, this]
      simp only [hbind, wrapMeth, h1, callMeth_eq hM hsig hbind]
    obtain ⟨oc', k1, k2, k3⟩ := ih (oc.add inc)
    refine ⟨oc', ?_, fun c => ?_, ?_⟩
    · simp only [run, e, k1]
    · rw [k2, OpCount.add_get, h3, List.map_cons, List.sum_cons]; ring
    · rw [k3]; simp [OpCount.add, h2]
  | @has m k s log hsig hdef hk ih =>
    obtain ⟨oc', k1, k2, k3⟩ := ih oc
    refine ⟨oc', ?_, k2, k3⟩
    have : ((instrument pv M).meth m).isSome = true := by
      simp only [instrument, wrapSig_eq, Option.isSome_map, hsig]
    simp only [run, this, hdef, k1]

/-- **C60**: adding two `OpCount` objects adds every counter. -/
theorem C60_add (a b : OpCount) : (∀ c, (a.add b).get c = a.get c + b.get c)
    ∧ (a.add b).cnt_pdfxn_full = a.cnt_pdfxn_full + b.cnt_pdfxn_full :=
  ⟨OpCount.add_get a b, rfl⟩

/-! ## C61 -/

/-- **C61**: `hasattr` of the wrapper is the same for every model: true for the methods the wrapper
defines, whether or not the model has them, and false for all others. -/
theorem C61_hasattr (pv : PyVal V) (M : PyObj V S) (m : Meth) :
    ((instrument pv M).meth m).isSome = (signature pv m).isSome := by
  simp only [instrument, wrapSig_eq, Option.isSome_map]

/-- `if hasattr(model, m): x = model.m(st)`, otherwise `x` keeps its value, then the rest of the program. -/
def guarded {R : Type} (m : Meth) (st : V) (x : V) (k : PyM V → Client V R) : Client V R :=
  .has m fun b => if b then .call m [st] [] k else k (.ok x)

/-- **C61**: a model without the hook `post_smoothing` (or `pre_mhips_pass`): where the unwrapped model
skips the hook, the wrapped one raises `AttributeError`. -/
theorem C61_missing_hook {R : Type} {pv : PyVal V} {M : PyObj V S} {m : Meth}
    (hm : m = .post_smoothing ∨ m = .pre_mhips_pass) (hno : M.meth m = none) (st x : V)
    (k : PyM V → Client V R) (s : S) (oc : OpCount) :
    run M (guarded m st x k) s = run M (k (.ok x)) s
      ∧ run (instrument pv M) (guarded m st x k) (s, oc)
        = run (instrument pv M) (k (.error .attributeError)) (s, oc) := by
  refine ⟨by simp [guarded, run, hno], ?_⟩
  have h0 : ∀ oc : OpCount, oc.add {} = oc := fun oc => rfl
  rcases hm with rfl | rfl
  · have e : callMeth (instrument pv M) .post_smoothing [st] [] (s, oc) = (.error .attributeError, (s, oc)) := by
      simp [callMeth, instrument, wrapSig, bindArgs, wrapMeth, wrapBody, hno, h0, pure_eq_ok, ok_bind]
    simp only [guarded, run, C61_hasattr, signature, Option.isSome_some, if_true, e]
  · have e : callMeth (instrument pv M) .pre_mhips_pass [st] [] (s, oc) = (.error .attributeError, (s, oc)) := by
      simp [callMeth, instrument, wrapSig, bindArgs, wrapMeth, wrapBody, hno, h0, pure_eq_ok, ok_bind]
    simp only [guarded, run, C61_hasattr, signature, Option.isSome_some, if_true, e]

/-- **C61**: the methods the library needs for the 'SIR' and propose-from-measurement filters and for
parameter estimation are not available on a wrapped model, whatever the model defines: the call raises
`AttributeError` and nothing else happens. -/
theorem C61_not_forwarded (pv : PyVal V) (M : PyObj V S) {m : Meth}
    (hm : m ∈ [Meth.qsample, .logp_q, .measure, .propose_from_y, .set_params, .maximize, .maximize_weighted])
    (pos : List V) (kw : List (Par × V)) (s : S) (oc : OpCount) :
    callMeth (instrument pv M) m pos kw (s, oc) = (.error .attributeError, (s, oc)) := by
  simp only [List.mem_cons, List.not_mem_nil, or_false] at hm
  rcases hm with rfl | rfl | rfl | rfl | rfl | rfl | rfl <;> rfl

/-- **C61**: `propose_smooth` for a trajectory of one step (no past, no future: `find` is `None`) raises
`TypeError` when wrapped, before the model is called. -/
theorem C61_single_step (pv : PyVal V) (M : PyObj V S) (hnone : pv.isNone pv.none = true)
    (hlen : pv.len pv.none = .error .typeError) (anc ft yt ut tt ci : V) (s : S) (oc : OpCount) :
    callMeth (instrument pv M) .propose_smooth [pv.none, anc, ft, pv.none, yt, ut, tt, ci] [] (s, oc)
      = (.error .typeError, (s, oc)) := by
  have : wrapBody pv .propose_smooth [pv.none, anc, ft, pv.none, yt, ut, tt, ci] = .error .typeError := by
    simp only [wrapBody, hnone, if_true, hlen]; rfl
  simp [callMeth, instrument, wrapSig, bindArgs, wrapMeth, this, pure_eq_ok, ok_bind]

end Instr

/-- The smoother's view of a wrapped model: both hooks are present; calling one the model lacks raises
`AttributeError` (`Instr.C61_missing_hook`); everything else is forwarded (`Instr.C60_transparent`). -/
def Spec.instrumented {P U Y V Ω : Type} (S : SmoothCallbacks P U Y V Ω) : SmoothCallbacks P U Y V Ω :=
  { S with
    postSmoothing := some (S.postSmoothing.getD fun _ => .error .attributeError)
    preMhips := some (S.preMhips.getD fun _ => .error .attributeError) }

variable {P U Y V Ω : Type}

section
open Spec

set_option smartUnfolding false in
theorem performBsi_instr (S : SmoothCallbacks P U Y V Ω) (opts : PyM BsiMethod) (pt : List (Step P)) (M : ℕ)
    (D : SData U Y) (d : SmoothDraws Ω) (fuel : ℕ) :
    performBsi (instrumented S) opts pt M D d fuel = performBsi S opts pt M D d fuel := rfl

set_option smartUnfolding false in
theorem performAncestorsInt_instr (S : SmoothCallbacks P U Y V Ω) (pt : List (Step P)) (M : ℕ)
    (D : SData U Y) (d : SmoothDraws Ω) :
    performAncestorsInt (instrumented S) pt M D d = performAncestorsInt S pt M D d := rfl

set_option smartUnfolding false in
theorem performMhbp_instr (S : SmoothCallbacks P U Y V Ω) (pt : List (Step P)) (M R : ℕ)
    (D : SData U Y) (r0 : ℝ) (d : ℕ → MhbpDraws Ω) :
    performMhbp (instrumented S) pt M R D r0 d = performMhbp S pt M R D r0 d := rfl

set_option smartUnfolding false in
theorem mhipsPass_instr (S : SmoothCallbacks P U Y V Ω) (traj : List (SStep P)) (M : ℕ)
    (D : SData U Y) (reduced : Bool) (d : PassDraws Ω) :
    mhipsPass (instrumented S) traj M D reduced d = mhipsPass S traj M D reduced d := rfl

theorem mhipsPasses_instr (S : SmoothCallbacks P U Y V Ω) (M : ℕ) (D : SData U Y) (reduced : Bool)
    (ds : List (PassDraws Ω)) (traj : List (SStep P)) :
    mhipsPasses (instrumented S) M D reduced ds traj = .error .attributeError
      ∨ mhipsPasses (instrumented S) M D reduced ds traj = mhipsPasses S M D reduced ds traj := by
  cases hp : S.preMhips with
  | none =>
    cases ds with
    | nil => exact Or.inr rfl
    | cons d ds =>
      refine Or.inl ?_
      have : (instrumented S).preMhips = some fun _ => .error .attributeError := by
        simp [instrumented, hp]
      simp only [mhipsPasses, applyHook, this]
      rfl
  | some f =>
    refine Or.inr ?_
    have : (instrumented S).preMhips = S.preMhips := by simp [instrumented, hp]
    induction ds generalizing traj with
    | nil => rfl
    | cons d ds ih => simp only [mhipsPasses, this, mhipsPass_instr, ih]

/-- **C61**: smoothing with a wrapped model that lacks `post_smoothing` always fails: whenever the
unwrapped model gives a trajectory, the wrapped one raises `AttributeError`, for every method. -/
theorem C61_smoothing {S : SmoothCallbacks P U Y V Ω} (hS : S.postSmoothing = none) {pt : List (Step P)}
    {M : ℕ} {D : SData U Y} {method : String} {o : Option SOpts} {d : AllDraws Ω} {fuel : ℕ}
    {t : List (SStep P)} (h : smoothTrajectory S pt M D method o d fuel = .ok (some t)) :
    smoothTrajectory (instrumented S) pt M D method o d fuel = .error .attributeError := by
  have hp : (instrumented S).postSmoothing = some fun _ => .error .attributeError := by
    simp [instrumented, hS]
  unfold smoothTrajectory at h ⊢
  by_cases m1 : method = "full" ∨ method = "mcmc" ∨ method = "rs" ∨ method = "rsas"
  · simp only [if_pos m1] at h ⊢
    rw [performBsi_instr]
    cases hr : performBsi S (bsiOptions method pt.length o) pt M D d.bsi fuel with
    | error e => rw [hr] at h; cases h
    | ok r =>
      rw [hr] at h
      cases r with
      | none => cases h
      | some t => simp only [ok_bind, applyHook, hp]; rfl
  · simp only [if_neg m1] at h ⊢
    by_cases m2 : method = "ancestor"
    · simp only [if_pos m2] at h ⊢
      rw [performAncestorsInt_instr]
      cases hr : performAncestorsInt S pt M D d.bsi with
      | error e => rw [hr] at h; cases h
      | ok r => simp only [ok_bind, applyHook, hp]; rfl
    · simp only [if_neg m2] at h ⊢
      by_cases m3 : method = "mhips" ∨ method = "mhips_reduced"
      · simp only [if_pos m3] at h ⊢
        rw [performAncestorsInt_instr]
        cases hr : performAncestorsInt S pt M D d.bsi with
        | error e => rw [hr] at h; cases h
        | ok r =>
          simp only [hr, ok_bind] at h ⊢
          cases hR : mhIterations o with
          | error e => rw [hR] at h; cases h
          | ok R =>
            simp only [hR, ok_bind] at h ⊢
            rcases mhipsPasses_instr S M D (method = "mhips_reduced") ((List.range R).map d.pass) r with e | e
            · rw [e]; rfl
            · rw [e]
              cases hq : mhipsPasses S M D (method = "mhips_reduced") ((List.range R).map d.pass) r with
              | error e => rw [hq] at h; cases h
              | ok q => simp only [ok_bind, applyHook, hp, pure_eq_ok]; rfl
      · simp only [if_neg m3] at h ⊢
        by_cases m4 : method = "mhbp"
        · simp only [if_pos m4] at h ⊢
          cases hR : mhIterations o with
          | error e => rw [hR] at h; cases h
          | ok R =>
            simp only [hR, ok_bind] at h ⊢
            rw [performMhbp_instr]
            cases hq : performMhbp S pt M R D d.bsi.r0 d.mhbp with
            | error e => rw [hq] at h; cases h
            | ok q => simp only [ok_bind, applyHook, hp]; rfl
        · simp only [if_neg m4] at h
          cases h

/-- **C61**: … while a model that has both hooks is smoothed the same way wrapped and unwrapped. -/
theorem C61_with_hooks {S : SmoothCallbacks P U Y V Ω} (h1 : S.postSmoothing.isSome)
    (h2 : S.preMhips.isSome) : instrumented S = S := by
  obtain ⟨f, hf⟩ := Option.isSome_iff_exists.mp h1
  obtain ⟨g, hg⟩ := Option.isSome_iff_exists.mp h2
  cases S
  simp only at hf hg
  subst hf hg
  rfl

end

/-! ## The documented way to read the counters -/

namespace Instr

/-- The attributes the reporting methods and the class documentation refer to. -/
inductive Attr where
  | model | oc | cnt_sample | cnt_update | cnt_measure | cnt_pdfxn | cnt_pdfxn_full | cnt_pdfxnmax
  | cnt_propsmooth | cnt_pdfsmooth | cnt_eval1st

/-- `self.<attribute>` of an `Instrumenter`: `__init__` sets `model` and `oc` only
(intrument.py:60-62). -/
def attr (oc : OpCount) : Attr → PyM (Option OpCount)
  | .model => .ok none
  | .oc => .ok (some oc)
  | _ => .error .attributeError

/-- `Instrumenter.print_statistics` (intrument.py:64-72), as the list of attributes it formats: the first
line prints the type of the model, the second needs `self.cnt_sample`. -/
def printStatistics (oc : OpCount) : PyM Unit := do
  let _ ← attr oc .model
  let _ ← attr oc .cnt_sample
  let _ ← attr oc .cnt_update
  let _ ← attr oc .cnt_measure
  let _ ← attr oc .cnt_pdfxn
  let _ ← attr oc .cnt_pdfxn_full
  let _ ← attr oc .cnt_pdfxnmax
  let _ ← attr oc .cnt_propsmooth
  let _ ← attr oc .cnt_pdfsmooth
  pure ()

/-- `Instrumenter.print_total_ops` (intrument.py:75-79). -/
def printTotalOps (oc : OpCount) : PyM Unit := do
  let _ ← attr oc .cnt_sample
  let _ ← attr oc .cnt_update
  let _ ← attr oc .cnt_measure
  let _ ← attr oc .cnt_pdfxn
  let _ ← attr oc .cnt_pdfxnmax
  let _ ← attr oc .cnt_propsmooth
  let _ ← attr oc .cnt_pdfsmooth
  pure ()

/-- **C61**: both reporting methods always raise `AttributeError`: the counters are attributes of `oc`,
not of the wrapper. -/
theorem C61_reports (oc : OpCount) :
    printStatistics oc = .error .attributeError ∧ printTotalOps oc = .error .attributeError :=
  ⟨rfl, rfl⟩

/-! ## A concrete case -/

/-- Values of the example: `None`, numbers, arrays given by their length. -/
inductive TVal where
  | none | num (n : ℕ) | arr (n : ℕ)

/-- Python's view of the example values. -/
def tval : PyVal TVal :=
  ⟨.none, fun v => match v with | .none => true | _ => false,
    fun v => match v with | .arr n => .ok n | _ => .error .typeError⟩

/-- A model with `create_initial_estimate` and `eval_logp_x0`; its state counts the calls. -/
def toyObj : PyObj TVal ℕ :=
  ⟨fun m => match m with
    | .create_initial_estimate => some ([(.N, none)], fun a s =>
        (match a with | [.num n] => .ok (.arr n) | _ => .error .typeError, s + 1))
    | .eval_logp_x0 => some ([(.particles, none), (.t, none)], fun a s =>
        (match a with | [.arr n, _] => .ok (.arr n) | _ => .error .typeError, s + 1))
    | _ => none⟩

/-- A program: create particles and evaluate their initial density twice. -/
def toyClient : Client TVal (PyM TVal) :=
  .call .create_initial_estimate [.num 7] [] fun r => match r with
    | .ok x => .call .eval_logp_x0 [] [(.t, .none), (.particles, x)] fun _ =>
        .call .eval_logp_x0 [x, .none] [] fun r => .ret r
    | .error e => .ret (.error e)

/-- `C60_transparent` applies to it, and the counter ends at 14. -/
example : ∃ oc', run (instrument tval toyObj) toyClient (0, {}) = (.ok (.arr 7), (3, oc'))
    ∧ oc'.cnt_eval_logp_x0 = 14 := by
  have hM : Conforms tval toyObj := by
    intro m ps ps' body h1 h2
    cases m <;> simp [toyObj, signature] at h1 h2 <;> rw [← h1.1, ← h2]
  have hs : Sized tval .eval_logp_x0 [.arr 7, .none] := by
    rintro cp h p hp
    cases h
    simp only [List.mem_singleton] at hp
    subst hp
    exact ⟨7, rfl⟩
  have ht : Trace tval toyObj toyClient 0
      [(.create_initial_estimate, [.num 7]), (.eval_logp_x0, [.arr 7, .none]), (.eval_logp_x0, [.arr 7, .none])] := by
    refine .call rfl rfl ?_ ?_
    · rintro cp h; cases h
    · exact .call rfl rfl hs (.call rfl rfl hs (.ret _ _))
  obtain ⟨oc', h1, h2, _⟩ := C60_transparent hM ht {}
  exact ⟨oc', h1, h2 .logp_x0⟩

end Instr

end PyPE

import Verif.Kalman.Claims
import Verif.Models.Ltv

/-!
# Model of `pyparticleest/models/nlg.py`

A particle array of shape `(N, lxi)` is a list of `N` vectors. Random numbers are arguments: `w` is the list of the `N` columns of
`numpy.random.normal(size=(lxi, N))`.
-/

namespace PyPE
open Matrix

variable {n m : ℕ} {U T : Type}

/-- numpy broadcasting of a binary operation along the first axis of two arrays of rows. -/
def bcRows {α β γ : Type} (op : α → β → γ) (a : List α) (b : List β) : PyM (List γ) :=
  if a.length = b.length then .ok (List.zipWith op a b)
  else match a, b with
    | [x], b => .ok (b.map (op x))
    | a, [y] => .ok (a.map (op · y))
    | _, _ => .error .valueError

/-- `particles[:] = v` for an array with `N` rows. -/
def assignRows {α : Type} (N : ℕ) (v : List α) : PyM (List α) :=
  if v.length = N then .ok v
  else match v with
    | [x] => .ok (List.replicate N x)
    | _ => .error .valueError

/-- The methods a class extending `NonlinearGaussian` can override (nlg.py:42-98): all may return `None`. -/
structure NlgHooks (n m : ℕ) (U T : Type) where
  calcF : List (Fin n → ℝ) → U → T → Option (List (Fin n → ℝ))
  calcQ : List (Fin n → ℝ) → U → T → Option (List (Matrix (Fin n) (Fin n) ℝ))
  calcG : List (Fin n → ℝ) → T → Option (List (Fin m → ℝ))
  calcR : List (Fin n → ℝ) → T → Option (List (Matrix (Fin m) (Fin m) ℝ))

/-- The attributes of a `NonlinearGaussian` object (nlg.py:100-118): `f`, `g`, `(Qchol, logpdfmax)` and `Rchol`; the last two
may not exist. (`Qcholtri`, `Rcholtri` are `triu` of them.) -/
structure NlgObj (n m : ℕ) where
  f : Option (Fin n → ℝ)
  g : Option (Fin m → ℝ)
  qfac : Option (Matrix (Fin n) (Fin n) ℝ × ℝ)
  rfac : Option (Matrix (Fin m) (Fin m) ℝ)

/-- `cho_factor(Q)` and `logpdfmax` (nlg.py:110-113, 121-124). -/
noncomputable def nlgQfac (Q : Matrix (Fin n) (Fin n) ℝ) : PyM (Matrix (Fin n) (Fin n) ℝ × ℝ) := do
  let c ← choFactor Q
  return (c, -(1 / 2) * (n * l2pi + choLogDet c))

/-- `NonlinearGaussian.set_Q` (nlg.py:120-124). -/
noncomputable def NlgObj.setQ (o : NlgObj n m) (Q : Matrix (Fin n) (Fin n) ℝ) : PyM (NlgObj n m) := do
  let q ← nlgQfac Q
  return { o with qfac := some q }

/-- `NonlinearGaussian.set_R` (nlg.py:126-128). -/
noncomputable def NlgObj.setR (o : NlgObj n m) (R : Matrix (Fin m) (Fin m) ℝ) : PyM (NlgObj n m) := do
  let c ← choFactor R
  return { o with rfac := some c }

/-- `NonlinearGaussian.__init__` (nlg.py:100-118). -/
noncomputable def nlgInit (f : Option (Fin n → ℝ)) (g : Option (Fin m → ℝ)) (Q : Option (Matrix (Fin n) (Fin n) ℝ))
    (R : Option (Matrix (Fin m) (Fin m) ℝ)) : PyM (NlgObj n m) := do
  let o : NlgObj n m := ⟨f, g, none, none⟩
  let o ← match Q with
    | none => .ok o
    | some Q => o.setQ Q
  match R with
    | none => .ok o
    | some R => o.setR R

/-- `noise[:, i] = Qchol.T.dot(noise[:, i])` with `Qchol = numpy.triu(cho_factor(Q[i])[0])` (nlg.py:150-151). -/
noncomputable def nlgScale (Q : Matrix (Fin n) (Fin n) ℝ) (w : Fin n → ℝ) : PyM (Fin n → ℝ) := do
  let c ← choFactor Q
  return (triu c)ᵀ *ᵥ w

/-- `NonlinearGaussian.sample_process_noise` (nlg.py:130-153). -/
noncomputable def nlgNoise (H : NlgHooks n m U T) (o : NlgObj n m) (parts : List (Fin n → ℝ)) (u : U) (t : T)
    (w : List (Fin n → ℝ)) : PyM (List (Fin n → ℝ)) :=
  match H.calcQ parts u t with
  | none => do
    let q ← unwrap o.qfac
    return w.map fun x => (triu q.1)ᵀ *ᵥ x
  | some Q => w.zipIdx.mapM fun xi => do
    let Qi ← getIdx Q xi.2
    nlgScale Qi xi.1

/-- `f` as used by `update` and `logp_xnext` (nlg.py:170-172, 284-286): the array returned by `calc_f` or `self.f`, which has shape
`(lxi,)` and is broadcast; arithmetic with `None` is `TypeError`. -/
def nlgF (H : NlgHooks n m U T) (o : NlgObj n m) (parts : List (Fin n → ℝ)) (u : U) (t : T) : PyM (List (Fin n → ℝ)) :=
  match H.calcF parts u t with
  | some f => .ok f
  | none => match o.f with
    | some f => .ok [f]
    | none => .error .typeError

/-- `NonlinearGaussian.update` (nlg.py:155-174): the new content of `particles`, which is returned. -/
def nlgUpdate (H : NlgHooks n m U T) (o : NlgObj n m) (parts : List (Fin n → ℝ)) (u : U) (t : T) (noise : List (Fin n → ℝ)) :
    PyM (List (Fin n → ℝ)) := do
  let f ← nlgF H o parts u t
  let v ← bcRows (· + ·) f noise
  assignRows parts.length v

/-- `g` as used by `measure` (nlg.py:192-198). Simplification: an array returned by `calc_g` whose number of rows is not `N` raises
`ValueError` (in the code the reshape may regroup entries). -/
def nlgG (H : NlgHooks n m U T) (o : NlgObj n m) (parts : List (Fin n → ℝ)) (t : T) : PyM (List (Fin m → ℝ)) :=
  match H.calcG parts t with
  | some g => if g.length = parts.length then .ok g else .error .valueError
  | none => match o.g with
    | some g => .ok (List.replicate parts.length g)
    | none => .error .attributeError

/-- The branch for a constant covariance (nlg.py:201-205, 288-292): in one dimension the scalar function is called with the
Cholesky factor. -/
noncomputable def nlgConstLogpdf {k : ℕ} (diff : List (Fin k → ℝ)) (c : Matrix (Fin k) (Fin k) ℝ) : PyM (List ℝ) :=
  if h : k = 1 then lognormpdfScalar (diff.map fun d => d ⟨0, by omega⟩) (triu c ⟨0, by omega⟩ ⟨0, by omega⟩)
  else .ok (lognormpdfChoVec diff c)

/-- One iteration of the loops nlg.py:208-210, 296-298. -/
noncomputable def nlgEachLogpdf {k : ℕ} (diff : List (Fin k → ℝ)) (S : Matrix (Fin k) (Fin k) ℝ) (i : ℕ) : PyM ℝ := do
  let c ← choFactor S
  let d ← getIdx diff i
  return lognormpdfCho d c

/-- The loops nlg.py:206-210, 293-298: `N` values, `S[i]` and `diff[i]` are subscripted. -/
noncomputable def nlgVarLogpdf {k : ℕ} (N : ℕ) (diff : List (Fin k → ℝ)) (S : List (Matrix (Fin k) (Fin k) ℝ)) : PyM (List ℝ) :=
  (List.range N).mapM fun i => do
    let Si ← getIdx S i
    nlgEachLogpdf diff Si i

/-- `NonlinearGaussian.measure` (nlg.py:176-212). `y` has the dimension of `g`. -/
noncomputable def nlgMeasure (H : NlgHooks n m U T) (o : NlgObj n m) (parts : List (Fin n → ℝ)) (y : Fin m → ℝ) (t : T) :
    PyM (List ℝ) := do
  let g ← nlgG H o parts t
  let diff := g.map fun gi => y - gi
  match H.calcR parts t with
  | none => do
    let c ← unwrap o.rfac
    nlgConstLogpdf diff c
  | some R => nlgVarLogpdf parts.length diff R

/-- `NonlinearGaussian.eval_1st_stage_weights` (nlg.py:214-234); `tnext` is `t + 1`. The propagation works on a copy. -/
noncomputable def nlgFirstStage (H : NlgHooks n m U T) (o : NlgObj n m) (parts : List (Fin n → ℝ)) (u : U) (y : Fin m → ℝ) (t tnext : T) :
    PyM (List ℝ) := do
  let partn ← nlgUpdate H o parts u t (parts.map fun _ => 0)
  nlgMeasure H o partn y tnext

/-- One iteration of the loop of `logp_xnext_max` (nlg.py:260-263). -/
noncomputable def nlgMaxOf (Q : Matrix (Fin n) (Fin n) ℝ) : PyM ℝ := do
  let c ← choFactor Q
  return -(1 / 2) * (n * l2pi + choLogDet c)

/-- `NonlinearGaussian.logp_xnext_max` (nlg.py:236-264). -/
noncomputable def nlgLogpXnextMax (H : NlgHooks n m U T) (o : NlgObj n m) (parts : List (Fin n → ℝ)) (u : U) (t : T) : PyM ℝ :=
  match H.calcQ parts u t with
  | none => do
    let q ← unwrap o.qfac
    return q.2
  | some Q => do
    let l ← (List.range parts.length).mapM fun i => do
      let Qi ← getIdx Q i
      nlgMaxOf Qi
    npMax l

/-- `NonlinearGaussian.logp_xnext` (nlg.py:266-300). -/
noncomputable def nlgLogpXnext (H : NlgHooks n m U T) (o : NlgObj n m) (parts next : List (Fin n → ℝ)) (u : U) (t : T) :
    PyM (List ℝ) := do
  let f ← nlgF H o parts u t
  let diff ← bcRows (· - ·) next f
  match H.calcQ parts u t with
  | none => do
    let q ← unwrap o.qfac
    nlgConstLogpdf diff q.1
  | some Q => nlgVarLogpdf parts.length diff Q

/-- The attributes `x0`, `Px0` of `NonlinearGaussianInitialGaussian` (nlg.py:385-402). -/
structure NlgX0 (n : ℕ) where
  x0 : Fin n → ℝ
  P0 : Matrix (Fin n) (Fin n) ℝ

/-- `NonlinearGaussianInitialGaussian.__init__` (nlg.py:385-402), the part about `x0` and `Px0`; `lxi` says whether the number of states
was given. -/
def nlgX0Init (x0 : Option (Fin n → ℝ)) (P0 : Option (Matrix (Fin n) (Fin n) ℝ)) (lxi : Bool) : PyM (NlgX0 n) :=
  match x0, lxi, P0 with
  | some x, _, P => .ok ⟨x, P.getD 0⟩
  | none, true, P => .ok ⟨0, P.getD 0⟩
  | none, false, some P => .ok ⟨0, P⟩
  | none, false, none => .error .valueError

open scoped Classical in
/-- `NonlinearGaussianInitialGaussian.create_initial_estimate` (nlg.py:404-418): the upper factor is used without `triu` and without
transposition. -/
noncomputable def NlgX0.create (o : NlgX0 n) (N : ℕ) (w : List (Fin n → ℝ)) : PyM (List (Fin n → ℝ)) :=
  if o.P0 ≠ 0 then do
    let c ← choFactor o.P0
    return w.map fun x => o.x0 + c *ᵥ x
  else .ok (List.replicate N o.x0)

/-- A value of `eval_logp_x0`: a number or `-inf`. -/
abbrev LogVal := WithBot ℝ

open scoped Classical in
/-- `NonlinearGaussianInitialGaussian.eval_logp_x0` (nlg.py:420-445). -/
noncomputable def NlgX0.evalLogpX0 (o : NlgX0 n) (parts : List (Fin n → ℝ)) : PyM (List LogVal) :=
  if o.P0 = 0 then .ok (parts.map fun x => if x = o.x0 then WithBot.some 0 else ⊥)
  else do
    let c ← choFactor o.P0
    return parts.map fun x => WithBot.some (lognormpdfCho (x - o.x0) c)

/-- `NonlinearGaussian.propose_smooth` (nlg.py:302-329): `prev` is `ptraj[-1].pa.part` (`None` at the first step), `up`, `tp` are the
input and time stamp of index `cur_ind - 1`. Random numbers `w` as above, `find` has `w.length` elements. -/
noncomputable def nlgProposeSmooth (H : NlgHooks n m U T) (o : NlgObj n m) (o0 : NlgX0 n) (prev : Option (List (Fin n → ℝ)))
    (anc : List ℕ) (up : U) (tp : T) (w : List (Fin n → ℝ)) : PyM (List (Fin n → ℝ)) :=
  match prev with
  | some p => do
    let prop ← fancy p anc
    let noise ← nlgNoise H o prop up tp w
    nlgUpdate H o prop up tp noise
  | none => o0.create w.length w

/-- `NonlinearGaussian.logp_proposal` (nlg.py:331-357). -/
noncomputable def nlgLogpProposal (H : NlgHooks n m U T) (o : NlgObj n m) (o0 : NlgX0 n) (prop : List (Fin n → ℝ))
    (prev : Option (List (Fin n → ℝ))) (anc : List ℕ) (up : U) (tp : T) : PyM (List LogVal) :=
  match prev with
  | some p => do
    let pp ← fancy p anc
    let l ← nlgLogpXnext H o pp prop up tp
    return List.map WithBot.some l
  | none => o0.evalLogpX0 prop

end PyPE

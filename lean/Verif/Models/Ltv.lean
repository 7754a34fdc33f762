import Verif.Kalman.Claims
import Verif.Models.Pack

/-!
# Model of `pyparticleest/models/ltv.py`

A particle is a row of numbers `[z | P | M]`: the mean, the covariance (row-major) and, after smoothing, the third result of
`smooth`.  A particle array is a list of rows.
-/

namespace PyPE
open Matrix

variable {n m : ℕ}

/-- A state estimate: mean and covariance. -/
abbrev Est (n : ℕ) := (Fin n → ℝ) × Matrix (Fin n) (Fin n) ℝ

/-- One iteration of `LTV.get_states` (ltv.py:108-111). Simplification: a row with fewer than `lz` entries raises `ValueError` here,
in the code it is the reshape of the covariance that raises (same error). -/
def ltvReadRow (n : ℕ) (row : List ℝ) : PyM (Est n) := do
  let z ← readSlice n 0 row
  let p ← readSlice (n * n) n row
  return (z, unravel p)

/-- One iteration of `LTV.set_states` (ltv.py:87-89). -/
def ltvWriteRow (s : Est n) (row : List ℝ) : PyM (List ℝ) := do
  let row ← writeSlice 0 s.1 row
  writeSlice n (ravel s.2) row

/-- `LTV.get_states` (ltv.py:91-113). The two returned lists, which have equal length, are one list of pairs here. -/
def ltvGetStates (n : ℕ) (rows : List (List ℝ)) : PyM (List (Est n)) := rows.mapM (ltvReadRow n)

/-- `LTV.set_states` (ltv.py:74-89), the new content of `particles`; `IndexError` if the lists are too short. -/
def ltvSetStates (rows : List (List ℝ)) (l : List (Est n)) : PyM (List (List ℝ)) :=
  rows.zipIdx.mapM fun ri => do
    let s ← getIdx l ri.2
    ltvWriteRow s ri.1

/-- A row as `numpy.hstack((z.ravel(), P.ravel()))`. -/
def packEst (s : Est n) : List ℝ := List.ofFn s.1 ++ List.ofFn (ravel s.2)

/-- What a class extending `LTV` provides: the initial estimate (`__init__`, ltv.py:40-50), `get_pred_dynamics` (115-134) and
`get_meas_dynamics` (163-182). `Y` is the type of raw measurements. Both are functions of their arguments only. -/
structure Ltv (n m : ℕ) (U T Y : Type) where
  z0 : Fin n → ℝ
  P0 : Matrix (Fin n) (Fin n) ℝ
  predDyn : U → T → Option (Matrix (Fin n) (Fin n) ℝ) × Option (Fin n → ℝ) × Option (Matrix (Fin n) (Fin n) ℝ)
  measDyn : Y → T → (Fin m → ℝ) × Option (Matrix (Fin m) (Fin n) ℝ) × Option (Fin m → ℝ) × Option (Matrix (Fin m) (Fin m) ℝ)

variable {U T Y : Type}

/-- The Kalman filter object created by `LTV.__init__` (ltv.py:44-49). -/
def ltvInitKf (A : Option (Matrix (Fin n) (Fin n) ℝ)) (C : Option (Matrix (Fin m) (Fin n) ℝ))
    (Q : Option (Matrix (Fin n) (Fin n) ℝ)) (R : Option (Matrix (Fin m) (Fin m) ℝ)) (f : Option (Fin n → ℝ))
    (h : Option (Fin m → ℝ)) : KF n m :=
  KF.new A C Q R (some (match f with | none => 0 | some f => f)) h

/-- `LTV.create_initial_estimate` (ltv.py:52-72). -/
def Ltv.initial (M : Ltv n m U T Y) (N : ℕ) : List (List ℝ) := List.replicate N (packEst (M.z0, M.P0))

/-- `LTV.update` (ltv.py:136-161): the object's Kalman filter and the particles afterwards. -/
def Ltv.update (M : Ltv n m U T Y) (kf : KF n m) (rows : List (List ℝ)) (u : U) (t : T) : PyM (KF n m × List (List ℝ)) := do
  let l ← ltvGetStates n rows
  let d := M.predDyn u t
  let kf := kf.setDynamics d.1 none d.2.2 none d.2.1 none
  let l ← l.mapM fun s => kf.predict s.1 s.2
  let rows ← ltvSetStates rows l
  return (kf, rows)

/-- `LTV.measure` (ltv.py:184-210): filter object, particles and returned log-likelihoods. (`kf.measure` also writes the new values
through the views returned by `get_states`; `set_states` writes the same numbers again.) -/
noncomputable def Ltv.measure (M : Ltv n m U T Y) (kf : KF n m) (rows : List (List ℝ)) (y : Y) (t : T) :
    PyM (KF n m × List (List ℝ) × List ℝ) := do
  let l ← ltvGetStates n rows
  let d := M.measDyn y t
  let kf := kf.setDynamics none d.2.1 none d.2.2.2 none d.2.2.1
  let l ← l.mapM fun s => kf.measure d.1 s.1 s.2
  let rows ← ltvSetStates rows (l.map fun r => (r.1, r.2.1))
  return (kf, rows, l.map fun r => r.2.2)

/-- `LTV.logp_xnext` (ltv.py:212-233). -/
def ltvLogpXnext (rows : List (List ℝ)) : List ℝ := List.replicate rows.length 0

/-- `self.kf.smooth(z, P, zn, Pn, self.kf.A, self.kf.f_k, self.kf.Q)` (ltv.py:284-285); `None` matrices raise as in `predict`. -/
noncomputable def KF.smoothOwn (kf : KF n m) (s sn : Est n) : PyM (Est n × Matrix (Fin n) (Fin n) ℝ) :=
  match kf.A, kf.fk, kf.Q with
  | none, _, _ => .error .attributeError
  | some _, none, _ => .error .typeError
  | some _, some _, none => .error .typeError
  | some A, some f, some Q => do
    let r ← kalmanSmooth s.1 s.2 sn.1 sn.2 A f Q
    return ((r.1, r.2.1), r.2.2)

/-- `numpy.hstack((zs.ravel(), Ps.ravel(), Ms.ravel()))` (ltv.py:290). -/
def packSmooth (s : Est n) (Ms : Matrix (Fin n) (Fin n) ℝ) : List ℝ := packEst s ++ List.ofFn (ravel Ms)

/-- One iteration of the loop of `LTV.sample_smooth` (ltv.py:278-290). `fut` is `future_trajs[0].pa.part`. -/
noncomputable def Ltv.smoothIter (M : Ltv n m U T Y) (l : List (Est n)) (fut : Option (List (List ℝ))) (ut : List U) (tt : List T)
    (kf : KF n m) (j : ℕ) : PyM (KF n m × List ℝ) :=
  match fut with
  | some rows => do
    let frow ← getIdx rows j
    let sn ← ltvReadRow n frow
    let u ← getIdx ut 0
    let t ← getIdx tt 0
    let d := M.predDyn u t
    let kf := kf.setDynamics d.1 none d.2.2 none d.2.1 none
    let s ← getIdx l 0
    let r ← kf.smoothOwn s sn
    return (kf, packSmooth r.1 r.2)
  | none => do
    let s ← getIdx l j
    return (kf, packSmooth s 0)

/-- The loop of `LTV.sample_smooth` (ltv.py:278-290) from iteration `j` on, `k` iterations left. -/
noncomputable def Ltv.smoothLoop (M : Ltv n m U T Y) (l : List (Est n)) (fut : Option (List (List ℝ))) (ut : List U) (tt : List T) :
    KF n m → ℕ → ℕ → PyM (KF n m × List (List ℝ))
  | kf, _, 0 => .ok (kf, [])
  | kf, j, k + 1 => do
    let (kf, row) ← M.smoothIter l fut ut tt kf j
    let (kf, rows) ← M.smoothLoop l fut ut tt kf (j + 1) k
    return (kf, row :: rows)

/-- `LTV.sample_smooth` (ltv.py:251-292); `ptraj`, `anc`, `find`, `yt`, `cur_ind` are ignored by the code. -/
noncomputable def Ltv.sampleSmooth (M : Ltv n m U T Y) (kf : KF n m) (rows : List (List ℝ)) (fut : Option (List (List ℝ)))
    (ut : List U) (tt : List T) : PyM (KF n m × List (List ℝ)) := do
  let l ← ltvGetStates n rows
  M.smoothLoop l fut ut tt kf 0 rows.length

/-- An attribute of `self.kf` used as a matrix: `AttributeError` when it is `None`. -/
def unwrap {α : Type} : Option α → PyM α
  | some a => .ok a
  | none => .error .attributeError

/-- `numpy.linalg.slogdet(S)`, `numpy.linalg.solve(S, l)`, `-0.5 * (ld + numpy.trace(tmp))` (ltv.py:323-325, 386-388, 458-460). -/
noncomputable def halfLogForm {k : ℕ} (S l : Matrix (Fin k) (Fin k) ℝ) : PyM ℝ :=
  if S.det = 0 then .error .linAlgError else .ok (-(1 / 2) * (Real.log |S.det| + (S⁻¹ * l).trace))

/-- `LTV.calc_l1` (ltv.py:556-560). -/
def ltvL1 (z : Fin n → ℝ) (P : Matrix (Fin n) (Fin n) ℝ) (z0 : Fin n → ℝ) : Matrix (Fin n) (Fin n) ℝ :=
  let d := z - z0
  vecMulVec d d + P

/-- `LTV.eval_logp_x0` (ltv.py:309-327). -/
noncomputable def Ltv.evalLogpX0 (M : Ltv n m U T Y) (rows : List (List ℝ)) : PyM (List ℝ) := do
  let l ← ltvGetStates n rows
  l.mapM fun s => halfLogForm M.P0 (ltvL1 s.1 s.2 M.z0)

/-- `LTV.calc_l2` (ltv.py:574-580), first component. -/
def ltvL2 (zn : Fin n → ℝ) (Pn : Matrix (Fin n) (Fin n) ℝ) (z : Fin n → ℝ) (P A : Matrix (Fin n) (Fin n) ℝ) (f : Fin n → ℝ)
    (M : Matrix (Fin n) (Fin n) ℝ) : Matrix (Fin n) (Fin n) ℝ :=
  let predictErr := zn - f - A *ᵥ z
  let AM := A * M
  vecMulVec predictErr predictErr + (Pn + A * P * Aᵀ - AMᵀ - AM)

/-- One iteration of `eval_logp_xnext` (ltv.py:382-388): `particles[k][lzP:].reshape((lz, lz))` needs exactly `n²` further entries. -/
noncomputable def ltvXnextRow (A : Matrix (Fin n) (Fin n) ℝ) (f : Fin n → ℝ) (Q : Matrix (Fin n) (Fin n) ℝ) (row : List ℝ)
    (s sn : Est n) : PyM ℝ := do
  let Mz ← if row.length = n + n * n + n * n then readSlice (n * n) (n + n * n) row else .error .valueError
  halfLogForm Q (ltvL2 sn.1 sn.2 s.1 s.2 A f (unravel Mz))

/-- `LTV.eval_logp_xnext` (ltv.py:360-390): filter object and returned values. Simplification: a `None` matrix is `AttributeError`. -/
noncomputable def Ltv.evalLogpXnext (M : Ltv n m U T Y) (kf : KF n m) (rows nrows : List (List ℝ)) (u : U) (t : T) :
    PyM (KF n m × List ℝ) := do
  let l ← ltvGetStates n rows
  let ln ← ltvGetStates n nrows
  let d := M.predDyn u t
  let kf := kf.setDynamics d.1 none d.2.2 none d.2.1 none
  let r ← rows.zipIdx.mapM fun ri => do
    let A ← unwrap kf.A
    let f ← unwrap kf.fk
    let Q ← unwrap kf.Q
    let s ← getIdx l ri.2
    let sn ← getIdx ln ri.2
    ltvXnextRow A f Q ri.1 s sn
  return (kf, r)

/-- `LTV.calc_l3` (ltv.py:604-612). -/
def ltvL3 (y : Fin m → ℝ) (z : Fin n → ℝ) (P : Matrix (Fin n) (Fin n) ℝ) (C : Matrix (Fin m) (Fin n) ℝ) (h : Option (Fin m → ℝ)) :
    Matrix (Fin m) (Fin m) ℝ :=
  let d := measurementDiff y z (some C) h
  vecMulVec d d + C * P * Cᵀ

/-- `LTV.eval_logp_y` (ltv.py:437-462). -/
noncomputable def Ltv.evalLogpY (M : Ltv n m U T Y) (kf : KF n m) (rows : List (List ℝ)) (y : Y) (t : T) :
    PyM (KF n m × List ℝ) := do
  let d := M.measDyn y t
  let kf := kf.setDynamics none d.2.1 none d.2.2.2 none d.2.2.1
  let l ← ltvGetStates n rows
  let r ← l.mapM fun s => do
    let C ← unwrap kf.C
    let R ← unwrap kf.R
    halfLogForm R (ltvL3 d.1 s.1 s.2 C kf.hk)
  return (kf, r)

end PyPE

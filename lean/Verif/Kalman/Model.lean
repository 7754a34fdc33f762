import Verif.Py
import Mathlib.LinearAlgebra.Matrix.NonsingularInverse
import Mathlib.LinearAlgebra.Matrix.PosDef
import Mathlib.Analysis.SpecialFunctions.Log.Basic
import Mathlib.Analysis.Real.Pi.Bounds

/-!
# Model of `pyparticleest/utils/kalman.py`

Column vectors are functions `Fin n → ℝ`, matrices `Matrix (Fin n) (Fin m) ℝ`; shape errors are therefore not
modelled.  Arithmetic is exact.  Methods that update `z` and `P` in place return the new values.
-/

namespace PyPE
open Matrix

/-- `l2pi = math.log(2 * math.pi)` (kalman.py:9). -/
noncomputable def l2pi : ℝ := Real.log (2 * Real.pi)

/-- The matrix LAPACK sees when it is told to read the upper triangle only. -/
def symUpper {n : ℕ} (S : Matrix (Fin n) (Fin n) ℝ) : Matrix (Fin n) (Fin n) ℝ := .of fun i j => if i ≤ j then S i j else S j i

/-- `U` is an upper triangular Cholesky factor of `S`: `Uᵀ U = S`, positive diagonal. -/
structure IsCho {n : ℕ} (U S : Matrix (Fin n) (Fin n) ℝ) : Prop where
  upper : ∀ i j, j < i → U i j = 0
  pos : ∀ i, 0 < U i i
  eq : Uᵀ * U = S

open scoped Classical in
/-- `scipy.linalg.cho_factor(S, check_finite=False)[0]` (called at kalman.py:154, 166 and throughout the models;
`lower=False`): LAPACK `potrf` reads the upper triangle of `S` and overwrites it with the factor; the part below the
diagonal keeps the entries of `S` ("garbage").  `LinAlgError` when there is no factor. Uniqueness of the factor is
`IsCho.unique`. -/
noncomputable def choFactor {n : ℕ} (S : Matrix (Fin n) (Fin n) ℝ) : PyM (Matrix (Fin n) (Fin n) ℝ) :=
  if h : ∃ U, IsCho U (symUpper S) then
    .ok (.of fun i j => if i ≤ j then h.choose i j else S i j)
  else .error .linAlgError

/-- `numpy.triu(c)`. -/
def triu {n : ℕ} (c : Matrix (Fin n) (Fin n) ℝ) : Matrix (Fin n) (Fin n) ℝ := .of fun i j => if i ≤ j then c i j else 0

/-- `scipy.linalg.cho_solve((c, False), b)`: solves `Uᵀ U x = b` with `U` the upper triangle of `c` (LAPACK `potrs`). -/
noncomputable def choSolve {n : ℕ} (c : Matrix (Fin n) (Fin n) ℝ) (b : Fin n → ℝ) : Fin n → ℝ :=
  ((triu c)ᵀ * triu c)⁻¹ *ᵥ b

/-- `scipy.linalg.cho_solve` for a matrix right-hand side. -/
noncomputable def choSolveM {n m : ℕ} (c : Matrix (Fin n) (Fin n) ℝ) (B : Matrix (Fin n) (Fin m) ℝ) :
    Matrix (Fin n) (Fin m) ℝ := ((triu c)ᵀ * triu c)⁻¹ * B

/-- `np.sum(np.log(np.diag(Schol[0]))) * 2` (kalman.py:22, 32, 171). -/
noncomputable def choLogDet {n : ℕ} (c : Matrix (Fin n) (Fin n) ℝ) : ℝ := (∑ i, Real.log (c i i)) * 2

/-- `lognormpdf(err, S)` (kalman.py:10-15); `slogdet(S)[1]` is `log |det S|`, `numpy.linalg.solve` raises `LinAlgError` for a
singular matrix. -/
noncomputable def lognormpdf {n : ℕ} (err : Fin n → ℝ) (S : Matrix (Fin n) (Fin n) ℝ) : PyM ℝ :=
  if S.det = 0 then .error .linAlgError
  else .ok (-(1 / 2) * (n * l2pi + Real.log |S.det| + (S⁻¹ *ᵥ err) ⬝ᵥ err))

/-- `lognormpdf_cho(err, Schol)` (kalman.py:17-23). -/
noncomputable def lognormpdfCho {n : ℕ} (err : Fin n → ℝ) (c : Matrix (Fin n) (Fin n) ℝ) : ℝ :=
  -(1 / 2) * (n * l2pi + choLogDet c + choSolve c err ⬝ᵥ err)

/-- `lognormpdf_cho_vec(err, Schol)` (kalman.py:25-36). -/
noncomputable def lognormpdfChoVec {n : ℕ} (err : List (Fin n → ℝ)) (c : Matrix (Fin n) (Fin n) ℝ) : List ℝ :=
  err.map fun e => -(1 / 2) * (n * l2pi + choLogDet c) + -(1 / 2) * (choSolve c e ⬝ᵥ e)

/-- `lognormpdf_vec(err, Sl)` (kalman.py:38-49); `IndexError` if `Sl` is shorter than `err`. -/
noncomputable def lognormpdfVec {n : ℕ} (err : List (Fin n → ℝ)) (Sl : List (Matrix (Fin n) (Fin n) ℝ)) : PyM (List ℝ) :=
  err.zipIdx.mapM fun ei => do
    let S ← getIdx Sl ei.2
    lognormpdf ei.1 S

/-- `lognormpdf_scalar(err, S)` (kalman.py:51-56): `math.log` raises `ValueError` for a number `≤ 0`. -/
noncomputable def lognormpdfScalar (err : List ℝ) (s : ℝ) : PyM (List ℝ) :=
  if s ≤ 0 then .error .valueError
  else .ok (err.map fun e => -(1 / 2) * (l2pi + Real.log s + e ^ 2 / s))

/-- The attributes of a `KalmanFilter` (kalman.py:69-80). `none` is `None`; `fk = none` also covers the attribute that does
not exist (see `KF.new`). -/
structure KF (n m : ℕ) where
  A : Option (Matrix (Fin n) (Fin n) ℝ)
  C : Option (Matrix (Fin m) (Fin n) ℝ)
  Q : Option (Matrix (Fin n) (Fin n) ℝ)
  R : Option (Matrix (Fin m) (Fin m) ℝ)
  fk : Option (Fin n → ℝ)
  hk : Option (Fin m → ℝ)

/-- `KalmanFilter.set_dynamics` (kalman.py:82-94). -/
def KF.setDynamics {n m : ℕ} (s : KF n m) (A : Option (Matrix (Fin n) (Fin n) ℝ)) (C : Option (Matrix (Fin m) (Fin n) ℝ))
    (Q : Option (Matrix (Fin n) (Fin n) ℝ)) (R : Option (Matrix (Fin m) (Fin m) ℝ)) (fk : Option (Fin n → ℝ))
    (hk : Option (Fin m → ℝ)) : KF n m :=
  let s := match A with | some A => { s with A := some A } | none => s
  let s := match C with | some C => { s with C := some C } | none => s
  let s := match Q with | some Q => { s with Q := some Q } | none => s
  let s := match R with | some R => { s with R := some R } | none => s
  let s := match fk with | some f => { s with fk := some f } | none => s
  match hk with | some h => { s with hk := some h } | none => s

/-- `KalmanFilter.__init__` (kalman.py:69-80): `f_k` starts as zero when it is not given. -/
def KF.new {n m : ℕ} (A : Option (Matrix (Fin n) (Fin n) ℝ)) (C : Option (Matrix (Fin m) (Fin n) ℝ))
    (Q : Option (Matrix (Fin n) (Fin n) ℝ)) (R : Option (Matrix (Fin m) (Fin m) ℝ)) (fk : Option (Fin n → ℝ))
    (hk : Option (Fin m → ℝ)) : KF n m :=
  let s : KF n m := ⟨none, none, none, none, match fk with | none => some 0 | some _ => none, none⟩
  s.setDynamics A C Q R fk hk

/-- `KalmanFilter.predict_full` (kalman.py:119-126), also `predict_full_inplace` (111-117). -/
def predictFull {n k : ℕ} (z : Fin n → ℝ) (P : Matrix (Fin n) (Fin n) ℝ) (A : Matrix (Fin k) (Fin n) ℝ) (fk : Fin k → ℝ)
    (Q : Matrix (Fin k) (Fin k) ℝ) : (Fin k → ℝ) × Matrix (Fin k) (Fin k) ℝ :=
  (fk + A *ᵥ z, A * P * Aᵀ + Q)

/-- `KalmanFilter.time_update` (kalman.py:96-102): calls `predict_full` without its two positional arguments. -/
def KF.timeUpdate {n m : ℕ} (_ : KF n m) : PyM (KF n m) := .error .typeError

/-- `KalmanFilter.predict` (kalman.py:104-109): an attribute that is `None` has no `dot` (`AttributeError`) or cannot be
added (`TypeError`). `f_k` is never `None` (`KF.new`). -/
def KF.predict {n m : ℕ} (s : KF n m) (z : Fin n → ℝ) (P : Matrix (Fin n) (Fin n) ℝ) :
    PyM ((Fin n → ℝ) × Matrix (Fin n) (Fin n) ℝ) :=
  match s.A, s.fk, s.Q with
  | none, _, _ => .error .attributeError
  | some _, none, _ => .error .typeError
  | some _, some _, none => .error .typeError
  | some A, some f, some Q => .ok (predictFull z P A f Q)

/-- `KalmanFilter.measurement_diff` (kalman.py:128-137). -/
def measurementDiff {n m : ℕ} (y : Fin m → ℝ) (z : Fin n → ℝ) (C : Option (Matrix (Fin m) (Fin n) ℝ))
    (hk : Option (Fin m → ℝ)) : Fin m → ℝ :=
  let yhat : Fin m → ℝ := 0
  let yhat := match C with | some C => yhat + C *ᵥ z | none => yhat
  let yhat := match hk with | some h => yhat + h | none => yhat
  y - yhat

/-- `err` of the measurement updates (kalman.py:155-157, 162-165, 183-185, 191-194). -/
def measErr {n m : ℕ} (y : Fin m → ℝ) (z : Fin n → ℝ) (C : Option (Matrix (Fin m) (Fin n) ℝ)) (hk : Option (Fin m → ℝ)) :
    Fin m → ℝ :=
  match C, hk with
  | some C, some h => y - C *ᵥ z - h
  | some C, none => y - C *ᵥ z
  | none, some h => y - h
  | none, none => y

/-- `KalmanFilter.measure_full` (kalman.py:147-172): new `z`, new `P` and the returned log-likelihood.  When `cho_factor`
raises nothing has been written yet. -/
noncomputable def measureFull {n m : ℕ} (y : Fin m → ℝ) (z : Fin n → ℝ) (P : Matrix (Fin n) (Fin n) ℝ)
    (C : Option (Matrix (Fin m) (Fin n) ℝ)) (hk : Option (Fin m → ℝ)) (R : Matrix (Fin m) (Fin m) ℝ) :
    PyM ((Fin n → ℝ) × Matrix (Fin n) (Fin n) ℝ × ℝ) :=
  let err := measErr y z C hk
  match C with
  | some C => do
    let S := C * P * Cᵀ + R
    let c ← choFactor S
    let sinvErr := choSolve c err
    return (z + (P * Cᵀ) *ᵥ sinvErr, P - P * Cᵀ * choSolveM c (C * P),
      -(1 / 2) * (m * l2pi + choLogDet c + err ⬝ᵥ sinvErr))
  | none => do
    let c ← choFactor R
    let sinvErr := choSolve c err
    return (z, P, -(1 / 2) * (m * l2pi + choLogDet c + err ⬝ᵥ sinvErr))

/-- `KalmanFilter.measure` (kalman.py:139-145). Simplification: a missing `R` is a `TypeError` also when `C` is missing too. -/
noncomputable def KF.measure {n m : ℕ} (s : KF n m) (y : Fin m → ℝ) (z : Fin n → ℝ) (P : Matrix (Fin n) (Fin n) ℝ) :
    PyM ((Fin n → ℝ) × Matrix (Fin n) (Fin n) ℝ × ℝ) :=
  match s.R with
  | none => .error .typeError
  | some R => measureFull y z P s.C s.hk R

/-- `KalmanFilter.measure_full_scalar` (kalman.py:174-197) for a one-dimensional measurement. Simplification: when `S[0, 0]` is zero numpy writes
`inf`/`nan` into `z` and `P` before `ValueError` is raised, here the written numbers mean nothing in that case. The new `z` and `P` are
written before `lognormpdf_scalar` can raise; the model therefore returns them separately from the result. -/
noncomputable def measureFullScalar {n : ℕ} (y : Fin 1 → ℝ) (z : Fin n → ℝ) (P : Matrix (Fin n) (Fin n) ℝ)
    (C : Option (Matrix (Fin 1) (Fin n) ℝ)) (hk : Option (Fin 1 → ℝ)) (R : Matrix (Fin 1) (Fin 1) ℝ) :
    ((Fin n → ℝ) × Matrix (Fin n) (Fin n) ℝ) × PyM (List ℝ) :=
  let err := measErr y z C hk
  match C with
  | some C =>
    let S := C * P * Cᵀ + R
    let tmp := C * P
    ((z + (S 0 0)⁻¹ • (P * Cᵀ) *ᵥ err, P - (S 0 0)⁻¹ • (tmpᵀ * tmp)), lognormpdfScalar [err 0] (S 0 0))
  | none => ((z, P), lognormpdfScalar [err 0] (R 0 0))

/-- `KalmanSmoother.smooth` (kalman.py:208-219): smoothed mean and covariance and the third return value;
`numpy.linalg.inv` raises `LinAlgError` for a singular matrix. -/
noncomputable def kalmanSmooth {n k : ℕ} (z : Fin n → ℝ) (P : Matrix (Fin n) (Fin n) ℝ) (zNext : Fin k → ℝ)
    (PNext : Matrix (Fin k) (Fin k) ℝ) (A : Matrix (Fin k) (Fin n) ℝ) (f : Fin k → ℝ) (Q : Matrix (Fin k) (Fin k) ℝ) :
    PyM ((Fin n → ℝ) × Matrix (Fin n) (Fin n) ℝ × Matrix (Fin n) (Fin k) ℝ) :=
  let np := predictFull z P A f Q
  if np.2.det = 0 then .error .linAlgError
  else
    let J := P * (Aᵀ * np.2⁻¹)
    .ok (z + J *ᵥ (zNext - np.1), P + J * ((PNext - np.2) * Jᵀ), J * PNext)

end PyPE

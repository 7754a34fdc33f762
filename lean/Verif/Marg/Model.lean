import Verif.Models.MlSpec

/-!
# Model of `MixedNLGaussianMarginalized` (`models/mlnlg.py:1169-1365`)

A step of a smoothed trajectory is stored as the nonlinear state together with the statistics `Omega`, `Lambda`
(`res[j, :lxi]`, `res[j, lxi:lxi+lz*lz]`, `res[j, lxi+lz*lz:]`, mlnlg.py:1330-1337); here it is a triple (`MgN`).
Simplifications: a missing matrix is a `TypeError`; `numpy.linalg.solve` raises `LinAlgError` exactly for singular matrices; the raw
measurement `yt[cur_ind]` has as many entries as the measurement equation.
-/

namespace PyPE
open Matrix

variable {lxi lz ly : ℕ} {U T Y : Type}

/-- One row of the array returned by `sample_smooth` (mlnlg.py:1326-1337): nonlinear state, `Omega`, `Lambda`. -/
abbrev MgN (lxi lz : ℕ) := VecR lxi × MatR lz lz × VecR lz

/-- `factor_psd` (mlnlg.py:1169-1172); `svd` gives the first two results of `numpy.linalg.svd`. -/
noncomputable def factorPsd (svd : MatR lz lz → MatR lz lz × VecR lz) (A : MatR lz lz) : MatR lz lz :=
  (svd A).1 * diagonal fun i => √((svd A).2 i)

/-- `numpy.linalg.solve(A, B)`. -/
noncomputable def npSolveM {a b : ℕ} (A : MatR a a) (B : MatR a b) : PyM (MatR a b) :=
  if A.det = 0 then .error .linAlgError else .ok (A⁻¹ * B)

/-- `numpy.linalg.solve(A, b)` for a column vector `b`. -/
noncomputable def npSolveV {a : ℕ} (A : MatR a a) (b : VecR a) : PyM (VecR a) :=
  if A.det = 0 then .error .linAlgError else .ok (A⁻¹ *ᵥ b)

/-- One iteration of the loop of `calc_prop1` (mlnlg.py:1209-1231): `(logZ[j], Omega[j], Lambda[j])`. `xinl[j]` is a row of shape
`(lxi,)`, so for `lxi ≠ 1` the difference `xinl[j] - fxi[j]` has shape `(lxi, lxi)` and the assignment to `Lambda[j]` raises
`ValueError`. -/
noncomputable def mgProp1One (svd : MatR lz lz → MatR lz lz × VecR lz) (x : MgN lxi lz) (Az : MatR lz lz) (fz : VecR lz) (Qz : MatR lz lz)
    (Axi : MatR lxi lz) (fxi : VecR lxi) (Qxi : MatR lxi lxi) : PyM (ℝ × MatR lz lz × VecR lz) := do
  let F := factorPsd svd Qz
  let OH := x.2.1
  let LH := x.2.2
  let m := LH - OH *ᵥ fz
  let Mt := Fᵀ * OH * F + 1
  let xidiff := x.1 - fxi
  let s1 ← npSolveV Qxi xidiff
  let tmp := Fᵀ *ᵥ m
  let s2 ← npSolveV Mt tmp
  let Tau := xidiff ⬝ᵥ s1 + fz ⬝ᵥ OH *ᵥ fz + -2 * (LH ⬝ᵥ fz) + tmp ⬝ᵥ s2
  let s3 ← npSolveM Mt Fᵀ
  let tmp := F * s3
  let s4 ← npSolveM Qxi Axi
  let Omega := Azᵀ * (OH - OH * tmp * OH) * Az + Axiᵀ * s4
  if lxi = 1 then
    let Lambda := Azᵀ *ᵥ ((1 - OH * tmp) *ᵥ m) + Axiᵀ *ᵥ s1
    return (-(1 / 2) * (Real.log |Mt.det| + Real.log |Qxi.det| + Tau), Omega, Lambda)
  else .error .valueError

/-- The matrices of one particle, none of which may be missing. -/
noncomputable def mgProp1Opt (svd : MatR lz lz → MatR lz lz × VecR lz) (x : MgN lxi lz) (Az : Option (MatR lz lz)) (fz : Option (VecR lz))
    (Qz : Option (MatR lz lz)) (Axi : Option (MatR lxi lz)) (fxi : Option (VecR lxi)) (Qxi : Option (MatR lxi lxi)) :
    PyM (ℝ × MatR lz lz × VecR lz) :=
  match Az, fz, Qz, Axi, fxi, Qxi with
  | some Az, some fz, some Qz, some Axi, some fxi, some Qxi => mgProp1One svd x Az fz Qz Axi fxi Qxi
  | _, _, _, _, _, _ => .error .typeError

/-- `calc_prop1` (mlnlg.py:1187-1233); `reshape((M, ...))` raises `ValueError` when the number of rows is wrong. -/
noncomputable def mgProp1 (svd : MatR lz lz → MatR lz lz × VecR lz) (H : MlHooks lxi lz ly U T Y) (o : MlObj lxi lz ly)
    (parts : List (RbP lxi lz)) (next : List (MgN lxi lz)) (u : U) (t : T) : PyM (List (ℝ × MatR lz lz × VecR lz)) :=
  if next.length = parts.length then
    let d := mlLin H o (xisOf parts) u t
    let e := mlNonlin H o (xisOf parts) u t
    (List.range parts.length).mapM fun j => do
      let x ← getIdx next j
      let Az ← getIdx d.A.1 j
      let fz ← getIdx d.f.1 j
      let Qz ← getIdx d.Q.1 j
      let Axi ← getIdx e.A.1 j
      let fxi ← getIdx e.f.1 j
      let Qxi ← getIdx e.Q.1 j
      mgProp1Opt svd x Az fz Qz Axi fxi Qxi
  else .error .valueError

/-- One iteration of the loop of `calc_prop3` (mlnlg.py:1243-1251): `(eta[j], L[j])`. -/
noncomputable def mgProp3One (svd : MatR lz lz → MatR lz lz × VecR lz) (p : RbP lxi lz) (Omega : MatR lz lz) (Lambda : VecR lz) :
    PyM (ℝ × MatR lz lz) := do
  let G := factorPsd svd p.2.2
  let L := Gᵀ * Omega * G + 1
  let tmp := Gᵀ *ᵥ (Lambda - Omega *ᵥ p.2.1)
  let s ← npSolveV L tmp
  return (p.2.1 ⬝ᵥ Omega *ᵥ p.2.1 - 2 * (Lambda ⬝ᵥ p.2.1) - tmp ⬝ᵥ s, L)

/-- `calc_prop3` (mlnlg.py:1236-1252). -/
noncomputable def mgProp3 (svd : MatR lz lz → MatR lz lz × VecR lz) (parts : List (RbP lxi lz)) (q : List (ℝ × MatR lz lz × VecR lz)) :
    PyM (List (ℝ × MatR lz lz)) :=
  (List.range parts.length).mapM fun j => do
    let p ← getIdx parts j
    let w ← getIdx q j
    mgProp3One svd p w.2.1 w.2.2

/-- `logp_xnext_full` (mlnlg.py:1254-1300); `fut` is `future_trajs[0].pa.part`. -/
noncomputable def mgLogpFull (svd : MatR lz lz → MatR lz lz × VecR lz) (H : MlHooks lxi lz ly U T Y) (o : MlObj lxi lz ly)
    (parts : List (RbP lxi lz)) (fut : List (MgN lxi lz)) (find : List ℕ) (u : U) (t : T) : PyM (List ℝ) := do
  let next ← fancy fut find
  let q ← mgProp1 svd H o parts next u t
  let r ← mgProp3 svd parts q
  (List.range parts.length).mapM fun i => do
    let w ← getIdx q i
    let e ← getIdx r i
    return w.1 - 1 / 2 * (Real.log |e.2.det| + e.1)

/-- `logp_xnext_max` (mlnlg.py:1183-1184), which `logp_xnext_max_full` (interfaces.py:481-482) calls. -/
def mgLogpMax : PyM ℝ := .error .notImplementedError

/-- `res[:, lxi:]` before the measurement is added (mlnlg.py:1313-1337): zeros at the last time step. -/
noncomputable def mgPred (svd : MatR lz lz → MatR lz lz × VecR lz) (H : MlHooks lxi lz ly U T Y) (o : MlObj lxi lz ly)
    (parts : List (RbP lxi lz)) (fut : Option (List (MgN lxi lz))) (find : List ℕ) (u : U) (t : T) : PyM (List (MatR lz lz × VecR lz)) :=
  match fut with
  | none => .ok (parts.map fun _ => (0, 0))
  | some fut => do
    let next ← fancy fut find
    let q ← mgProp1 svd H o parts next u t
    return q.map fun w => w.2

/-- One iteration of the last loop of `sample_smooth` (mlnlg.py:1339-1345). When there is no `C` the name `tmp` is unbound. The raw
measurement is used, not the one preprocessed by `get_meas_dynamics`; without a measurement `Omega` is changed all the same. -/
noncomputable def mgMeasOne (w : MatR lz lz × VecR lz) (C : Option (MatR ly lz)) (h : Option (VecR ly)) (R : Option (MatR ly ly))
    (y : Option (VecR ly)) : PyM (MatR lz lz × VecR lz) :=
  match C, y with
  | none, none => .ok w
  | none, some _ => .error .unboundLocalError
  | some C, y => do
    let R ← (match R with | some R => .ok R | none => .error .typeError : PyM (MatR ly ly))
    let tmp ← npSolveM R C
    match y, h with
    | none, _ => return (w.1 + Cᵀ * tmp, w.2)
    | some y, some h => return (w.1 + Cᵀ * tmp, w.2 + tmpᵀ *ᵥ (y - h))
    | some _, none => .error .typeError

/-- `sample_smooth` (mlnlg.py:1302-1347). `raw` reads the measurement object as a column of numbers. -/
noncomputable def mgSampleSmooth (svd : MatR lz lz → MatR lz lz × VecR lz) (raw : Y → VecR ly) (H : MlHooks lxi lz ly U T (Option Y))
    (o : MlObj lxi lz ly) (parts : List (RbP lxi lz)) (fut : Option (List (MgN lxi lz))) (find : List ℕ) (u : U) (y : Option Y) (t : T) :
    PyM (List (MgN lxi lz)) := do
  let w ← mgPred svd H o parts fut find u t
  let d ← mlMeasDyn H o (xisOf parts) y t
  (List.range parts.length).mapM fun j => do
    let p ← getIdx parts j
    let w ← getIdx w j
    let C ← getIdx d.2.A.1 j
    let h ← getIdx d.2.f.1 j
    let R ← getIdx d.2.Q.1 j
    let r ← mgMeasOne w C h R (y.map raw)
    return (p.1, r)

/-- A time step of the backward pass: the chosen particles `pt[t].pa.part[ind]`, the index of the continuation of each trajectory, input,
measurement and time stamp. -/
structure MgTime (lxi lz : ℕ) (U T Y : Type) where
  parts : List (RbP lxi lz)
  find : List ℕ
  u : U
  y : Option Y
  t : T

/-- The calls of `sample_smooth` in the backward pass of the smoothers (smoother.py:270-301, 339-413): last time step first, then each
earlier step with the trajectories built so far. Which particles are chosen is given. -/
noncomputable def mgBackward (svd : MatR lz lz → MatR lz lz × VecR lz) (raw : Y → VecR ly) (H : MlHooks lxi lz ly U T (Option Y))
    (o : MlObj lxi lz ly) : List (MgTime lxi lz U T Y) → PyM (List (MgN lxi lz))
  | [] => .error .indexError
  | [τ] => mgSampleSmooth svd raw H o τ.parts none τ.find τ.u τ.y τ.t
  | τ :: τ' :: rest => do
    let fut ← mgBackward svd raw H o (τ' :: rest)
    mgSampleSmooth svd raw H o τ.parts (some fut) τ.find τ.u τ.y τ.t

end PyPE

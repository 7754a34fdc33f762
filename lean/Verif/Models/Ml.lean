import Verif.Models.RbPack
import Verif.Kalman.Model

/-!
# Model of the Rao-Blackwellised models: `models/rbpf.py` and the base class of `models/mlnlg.py`

A particle array is a list of `RbP` (nonlinear state, mean and covariance of the linear state); how rows of numbers represent it is
`Models/RbPack.lean` (C49).  Simplifications: the overridable methods `get_nonlin_pred_dynamics`, `get_lin_pred_dynamics`,
`get_meas_dynamics`, `get_cross_covariance` are functions of the nonlinear states, input and time (that is their documented contract;
the code passes the whole array).  When an exception is raised in the middle of a loop, the particles already written are lost here.
`numpy.random.multivariate_normal` draws exactly from the normal law.
-/

namespace PyPE
open Matrix

/-- Matrices and column vectors of numbers. -/
abbrev MatR (a b : ℕ) := Matrix (Fin a) (Fin b) ℝ
/-- Column vectors of numbers. -/
abbrev VecR (a : ℕ) := Fin a → ℝ

variable {lxi lz ly : ℕ} {U T Y : Type}

/-- What a class extending `MixedNLGaussianSampled` provides; `None` means "use the constant". -/
structure MlHooks (lxi lz ly : ℕ) (U T Y : Type) where
  /-- `get_nonlin_pred_dynamics` (rbpf.py:57-77). -/
  nonlin : List (VecR lxi) → U → T → Option (List (MatR lxi lz)) × Option (List (VecR lxi)) × Option (List (MatR lxi lxi))
  /-- `get_lin_pred_dynamics` (rbpf.py:114-132). -/
  lin : List (VecR lxi) → U → T → Option (List (MatR lz lz)) × Option (List (VecR lz)) × Option (List (MatR lz lz))
  /-- `get_meas_dynamics` (rbpf.py:173-192). -/
  meas : List (VecR lxi) → Y → T → VecR ly × Option (List (MatR ly lz)) × Option (List (VecR ly)) × Option (List (MatR ly ly))
  /-- `get_cross_covariance` (mlnlg.py:211-225). -/
  cross : List (VecR lxi) → U → T → Option (List (MatR lxi lz))

/-- The attributes of a `MixedNLGaussianSampled` object used below. -/
structure MlObj (lxi lz ly : ℕ) where
  Axi : Option (MatR lxi lz)
  fxi : VecR lxi
  Qxi : Option (MatR lxi lxi)
  Qxiz : Option (MatR lxi lz)
  kf : KF lz ly

/-- `MixedNLGaussianSampled.__init__` (mlnlg.py:46-71) and `RBPFBase.__init__` (rbpf.py:35-41). -/
def MlObj.init (Az : Option (MatR lz lz)) (C : Option (MatR ly lz)) (Qz : Option (MatR lz lz)) (R : Option (MatR ly ly))
    (fz : Option (VecR lz)) (Axi : Option (MatR lxi lz)) (Qxi : Option (MatR lxi lxi)) (Qxiz : Option (MatR lxi lz))
    (fxi : Option (VecR lxi)) (h : Option (VecR ly)) : MlObj lxi lz ly :=
  { Axi := Axi, fxi := match fxi with | some f => f | none => 0, Qxi := Qxi, Qxiz := Qxiz, kf := KF.new Az C Qz R fz h }

/-- `MixedNLGaussianSampled.set_dynamics` (mlnlg.py:73-109) and `RBPFBase.set_dynamics` (rbpf.py:43-55). The attributes `Az`, `Qz`, `fz`
written there are read nowhere. -/
def MlObj.setDynamics (o : MlObj lxi lz ly) (Az : Option (MatR lz lz)) (fz : Option (VecR lz)) (Qz : Option (MatR lz lz))
    (R : Option (MatR ly ly)) (Axi : Option (MatR lxi lz)) (fxi : Option (VecR lxi)) (Qxi : Option (MatR lxi lxi))
    (Qxiz : Option (MatR lxi lz)) (C : Option (MatR ly lz)) (h : Option (VecR ly)) : MlObj lxi lz ly :=
  let o := { o with kf := o.kf.setDynamics Az C Qz R fz h }
  let o := match Axi with | some A => { o with Axi := some A } | none => o
  let o := match Qxi with | some Q => { o with Qxi := some Q } | none => o
  let o := match Qxiz with | some Q => { o with Qxiz := some Q } | none => o
  match fxi with | some f => { o with fxi := f } | none => o

/-- `X if X is not None else N * (self.X,)` together with the flag `X_identical` (rbpf.py:100-111, 157-169, 218-232). -/
def perPart {α : Type} (N : ℕ) (hook : Option (List α)) (own : Option α) : List (Option α) × Bool :=
  match hook with
  | some l => (l.map some, false)
  | none => (List.replicate N own, true)

/-- Lists of matrices per particle with the flags "identical for all particles". -/
structure Dyns (a b : ℕ) where
  A : List (Option (MatR a b)) × Bool
  f : List (Option (VecR a)) × Bool
  Q : List (Option (MatR a a)) × Bool

/-- The nonlinear states of the particles. -/
def xisOf (parts : List (RbP lxi lz)) : List (VecR lxi) := parts.map fun p => p.1

/-- `get_nonlin_pred_dynamics_int` (rbpf.py:79-112). -/
def mlNonlin (H : MlHooks lxi lz ly U T Y) (o : MlObj lxi lz ly) (xis : List (VecR lxi)) (u : U) (t : T) : Dyns lxi lz :=
  let d := H.nonlin xis u t
  ⟨perPart xis.length d.1 o.Axi, perPart xis.length d.2.1 (some o.fxi), perPart xis.length d.2.2 o.Qxi⟩

/-- `get_lin_pred_dynamics_int` (rbpf.py:134-171). -/
def mlLin (H : MlHooks lxi lz ly U T Y) (o : MlObj lxi lz ly) (xis : List (VecR lxi)) (u : U) (t : T) : Dyns lz lz :=
  let d := H.lin xis u t
  ⟨perPart xis.length d.1 o.kf.A, perPart xis.length d.2.1 o.kf.fk, perPart xis.length d.2.2 o.kf.Q⟩

/-- The measurement matrices when `get_meas_dynamics` gives none (rbpf.py:218-224). `hz[0]` raises `IndexError` if `hz` is empty. -/
def mlDefaultC (o : MlObj lxi lz ly) (N : ℕ) (hz : Option (List (VecR ly))) : PyM (List (Option (MatR ly lz))) :=
  match o.kf.C, hz with
  | none, some [] => .error .indexError
  | none, some (_ :: _) => .ok (List.replicate N (some 0))
  | C, _ => .ok (List.replicate N C)

/-- `get_meas_dynamics_int` (rbpf.py:194-233): the processed measurement and the lists. -/
def mlMeasDyn (H : MlHooks lxi lz ly U T Y) (o : MlObj lxi lz ly) (xis : List (VecR lxi)) (y : Y) (t : T) :
    PyM (VecR ly × Dyns ly lz) :=
  let d := H.meas xis y t
  let h := perPart xis.length d.2.2.1 o.kf.hk
  let R := perPart xis.length d.2.2.2 o.kf.R
  match d.2.1 with
  | some C => .ok (d.1, ⟨(C.map some, false), h, R⟩)
  | none => do
    let C ← mlDefaultC o xis.length d.2.2.1
    return (d.1, ⟨(C, true), h, R⟩)

/-- `kf.measure_full(y, z, P, C, h_k, R)` where `R` may be `None`: `TypeError` from the sum, or an exception from `cho_factor` when `C` is
`None` too (which one depends on the version of scipy; `ValueError` stands for it). -/
noncomputable def measFullOpt {a : ℕ} (y : VecR a) (z : VecR lz) (P : MatR lz lz) (C : Option (MatR a lz)) (h : Option (VecR a))
    (R : Option (MatR a a)) : PyM (VecR lz × MatR lz lz × ℝ) :=
  match R, C with
  | some R, C => measureFull y z P C h R
  | none, some _ => .error .typeError
  | none, none => .error .valueError

/-- `MixedNLGaussianSampled.meas_xi_next` (mlnlg.py:186-209), the new particles. -/
noncomputable def mlMeasXiNext (H : MlHooks lxi lz ly U T Y) (o : MlObj lxi lz ly) (parts : List (RbP lxi lz))
    (xiN : List (VecR lxi)) (u : U) (t : T) : PyM (List (RbP lxi lz)) :=
  let d := mlNonlin H o (xisOf parts) u t
  (List.range parts.length).mapM fun i => do
    let p ← getIdx parts i
    let y ← getIdx xiN i
    let A ← getIdx d.A.1 i
    let f ← getIdx d.f.1 i
    let Q ← getIdx d.Q.1 i
    let r ← measFullOpt y p.2.1 p.2.2 A f Q
    return (p.1, r.1, r.2.1)

/-- One iteration of the loop of `calc_cond_dynamics` (mlnlg.py:261-267). `scipy.linalg.inv` raises `LinAlgError` for a singular matrix.
Simplification: every missing matrix is a `TypeError`. -/
noncomputable def mlCondOne (Qxiz : MatR lxi lz) (Qxi : Option (MatR lxi lxi)) (Axi : Option (MatR lxi lz)) (fxi : Option (VecR lxi))
    (Az : Option (MatR lz lz)) (fz : Option (VecR lz)) (Qz : Option (MatR lz lz)) (xiN : VecR lxi) :
    PyM (Option (MatR lz lz) × Option (VecR lz) × Option (MatR lz lz)) :=
  match Qxi, Axi, fxi, Az, fz with
  | some Qxi, some Axi, some fxi, some Az, some fz =>
    if Qxi.det = 0 then .error .linAlgError
    else
      let tmp := Qxizᵀ * Qxi⁻¹
      .ok (some (Az - tmp * Axi), some (fz + tmp *ᵥ (xiN - fxi)), Qz)
  | _, _, _, _, _ => .error .typeError

/-- The cross covariances used by `calc_cond_dynamics` (mlnlg.py:251-255); `none` when there are none. -/
def mlCross (H : MlHooks lxi lz ly U T Y) (o : MlObj lxi lz ly) (xis : List (VecR lxi)) (u : U) (t : T) :
    Option (List (MatR lxi lz)) :=
  match H.cross xis u t, o.Qxiz with
  | some l, _ => some l
  | none, some X => some (List.replicate xis.length X)
  | none, none => none

/-- `MixedNLGaussianSampled.calc_cond_dynamics` (mlnlg.py:227-270). Simplification: `xi_next` holds column vectors; the two-dimensional array
passed by `update` and `cond_predict_single_step` is broadcast to something else when `lxi > 1` and there are cross covariances. -/
noncomputable def mlCondDyn (H : MlHooks lxi lz ly U T Y) (o : MlObj lxi lz ly) (parts : List (RbP lxi lz)) (xiN : List (VecR lxi))
    (u : U) (t : T) : PyM (List (Option (MatR lz lz) × Option (VecR lz) × Option (MatR lz lz))) :=
  let l := mlLin H o (xisOf parts) u t
  let d := mlNonlin H o (xisOf parts) u t
  match mlCross H o (xisOf parts) u t with
  | none => (List.range parts.length).mapM fun i => do
    let A ← getIdx l.A.1 i
    let f ← getIdx l.f.1 i
    let Q ← getIdx l.Q.1 i
    return (A, f, Q)
  | some X => (List.range parts.length).mapM fun i => do
    let X ← getIdx X i
    let Qxi ← getIdx d.Q.1 i
    let A ← getIdx l.A.1 i
    let Axi ← getIdx d.A.1 i
    let f ← getIdx l.f.1 i
    let fxi ← getIdx d.f.1 i
    let x ← getIdx xiN i
    let Q ← getIdx l.Q.1 i
    mlCondOne X Qxi Axi fxi A f Q x

/-- `kf.predict_full` with matrices that may be `None`. -/
def predOpt (z : VecR lz) (P : MatR lz lz) (d : Option (MatR lz lz) × Option (VecR lz) × Option (MatR lz lz)) :
    PyM (VecR lz × MatR lz lz) :=
  match d with
  | (none, _, _) => .error .attributeError
  | (some A, some f, some Q) => .ok (predictFull z P A f Q)
  | (some _, _, _) => .error .typeError

/-- `RBPFBase.cond_predict` (rbpf.py:288-310), the new particles; `set_states` raises `ValueError` when `xi_next` has not one entry per
particle. -/
noncomputable def mlCondPredict (H : MlHooks lxi lz ly U T Y) (o : MlObj lxi lz ly) (parts : List (RbP lxi lz))
    (xiN : List (VecR lxi)) (u : U) (t : T) : PyM (List (RbP lxi lz)) := do
  let parts ← mlMeasXiNext H o parts xiN u t
  let dyn ← mlCondDyn H o parts xiN u t
  if xiN.length = parts.length then
    (List.range parts.length).mapM fun i => do
      let p ← getIdx parts i
      let d ← getIdx dyn i
      let x ← getIdx xiN i
      let r ← predOpt p.2.1 p.2.2 d
      return (x, r.1, r.2)
  else .error .valueError

/-- `MixedNLGaussianSampled.pred_xi` (mlnlg.py:161-184). A `(lxi, 1)` array is assigned to a row of length `lxi`: `ValueError` unless
`lxi = 1`. -/
def mlPredXi (H : MlHooks lxi lz ly U T Y) (o : MlObj lxi lz ly) (parts : List (RbP lxi lz)) (u : U) (t : T) :
    PyM (List (VecR lxi)) :=
  let d := mlNonlin H o (xisOf parts) u t
  (List.range parts.length).mapM fun i => do
    let p ← getIdx parts i
    let A ← getIdx d.A.1 i
    let f ← getIdx d.f.1 i
    match A, f with
    | some A, some f => if lxi = 1 then .ok (A *ᵥ p.2.1 + f) else .error .valueError
    | none, _ => .error .attributeError
    | some _, none => .error .typeError

/-- `Sigma` of `sample_process_noise` (mlnlg.py:134-135) for every particle: the noise of particle `i` is drawn from `N(0, Sigma_i)`. -/
def mlNoiseCov (H : MlHooks lxi lz ly U T Y) (o : MlObj lxi lz ly) (parts : List (RbP lxi lz)) (u : U) (t : T) :
    PyM (List (MatR lxi lxi)) :=
  let d := mlNonlin H o (xisOf parts) u t
  (List.range parts.length).mapM fun i => do
    let p ← getIdx parts i
    let Q ← getIdx d.Q.1 i
    let A ← getIdx d.A.1 i
    match A, Q with
    | none, _ => .error .attributeError
    | some _, none => .error .typeError
    | some A, some Q => .ok (Q + A * p.2.2 * Aᵀ)

/-- `MixedNLGaussianSampled.calc_xi_next` (mlnlg.py:138-159). -/
def mlCalcXiNext (H : MlHooks lxi lz ly U T Y) (o : MlObj lxi lz ly) (parts : List (RbP lxi lz)) (noise : List (VecR lxi))
    (u : U) (t : T) : PyM (List (VecR lxi)) := do
  let xp ← mlPredXi H o parts u t
  if noise.length = xp.length then .ok (List.zipWith (· + ·) xp noise) else .error .valueError

/-- `RBPFBase.update` (rbpf.py:238-259). -/
noncomputable def mlUpdate (H : MlHooks lxi lz ly U T Y) (o : MlObj lxi lz ly) (parts : List (RbP lxi lz)) (u : U) (t : T)
    (noise : List (VecR lxi)) : PyM (List (RbP lxi lz)) := do
  let xin ← mlCalcXiNext H o parts noise u t
  mlCondPredict H o parts xin u t

/-- `measure_full_scalar` for one-dimensional measurements, `measure_full` otherwise (mlnlg.py:327-346). -/
noncomputable def mlMeasOne : (ly : ℕ) → VecR ly → VecR lz → MatR lz lz → Option (MatR ly lz) → Option (VecR ly) → Option (MatR ly ly) →
    PyM (VecR lz × MatR lz lz × ℝ)
  | 1, y, z, P, C, h, some R => do
    let ll ← (measureFullScalar y z P C h R).2
    let l ← getIdx ll 0
    return ((measureFullScalar y z P C h R).1.1, (measureFullScalar y z P C h R).1.2, l)
  | _, y, z, P, C, h, R => measFullOpt y z P C h R

/-- The vectorised evaluation when there is no measurement matrix (mlnlg.py:317-325): the log-densities of `y - hz`. -/
noncomputable def mlMeasVec : (ly : ℕ) → VecR ly → List (VecR ly) → MatR ly ly → PyM (List ℝ)
  | 1, y, hz, R => lognormpdfScalar (hz.map fun h => y 0 - h 0) (R 0 0)
  | _, y, hz, R => do
    let c ← choFactor R
    return lognormpdfChoVec (hz.map fun h => y - h) c

/-- All entries of a list must be present (`y - hz` with a `None` raises `TypeError`). -/
def allSome {α : Type} (l : List (Option α)) : PyM (List α) := l.mapM fun x => match x with | some a => .ok a | none => .error .typeError

/-- The branch `Cz_identical and Cz[0] is None` of `measure` (mlnlg.py:316-325). -/
noncomputable def mlMeasNoC (parts : List (RbP lxi lz)) (y : VecR ly) (d : Dyns ly lz) : PyM (List (RbP lxi lz) × List ℝ) := do
  let hs ← allSome d.f.1
  let R0 ← getIdx d.Q.1 0
  match R0 with
  | none => .error .attributeError
  | some R => do
    let l ← mlMeasVec ly y hs R
    return (parts, l)

/-- The loops of `measure` (mlnlg.py:327-346): one Kalman measurement update per particle. `Rz[0].shape` raises `AttributeError` for
`None`. -/
noncomputable def mlMeasLoop (parts : List (RbP lxi lz)) (y : VecR ly) (d : Dyns ly lz) : PyM (List (RbP lxi lz) × List ℝ) := do
  let R0 ← getIdx d.Q.1 0
  match R0 with
  | none => .error .attributeError
  | some _ => do
    let res ← (List.range parts.length).mapM fun i => do
      let p ← getIdx parts i
      let C ← getIdx d.A.1 i
      let h ← getIdx d.f.1 i
      let R ← getIdx d.Q.1 i
      let r ← mlMeasOne ly y p.2.1 p.2.2 C h R
      return ((p.1, r.1, r.2.1), r.2.2)
    return (res.map fun r => r.1, res.map fun r => r.2)

/-- Is `Rz_identical and Cz_identical and Cz[0] is None`? (mlnlg.py:315-316); `IndexError` without particles. -/
def mlNoC (d : Dyns ly lz) : PyM Bool :=
  if d.Q.2 ∧ d.A.2 then do
    let C ← getIdx d.A.1 0
    return C.isNone
  else .ok false

/-- The case distinction of `measure` (mlnlg.py:314-346). -/
noncomputable def mlMeasDispatch (parts : List (RbP lxi lz)) (y : VecR ly) (d : Dyns ly lz) : PyM (List (RbP lxi lz) × List ℝ) := do
  let b ← mlNoC d
  match b with
  | true => mlMeasNoC parts y d
  | false => mlMeasLoop parts y d

/-- `MixedNLGaussianSampled.measure` (mlnlg.py:295-349): new particles and returned log-likelihoods. -/
noncomputable def mlMeasure (H : MlHooks lxi lz ly U T Y) (o : MlObj lxi lz ly) (parts : List (RbP lxi lz)) (y : Y) (t : T) :
    PyM (List (RbP lxi lz) × List ℝ) := do
  let yd ← mlMeasDyn H o (xisOf parts) y t
  mlMeasDispatch parts yd.1 yd.2

/-- `MixedNLGaussianSampled.eval_1st_stage_weights` (mlnlg.py:272-293); the particles themselves are not changed. -/
noncomputable def mlFirstStage (H : MlHooks lxi lz ly U T Y) (o : MlObj lxi lz ly) (parts : List (RbP lxi lz)) (u : U) (y : Y) (t : T)
    (tnext : T) : PyM (List ℝ) := do
  let xin ← mlPredXi H o parts u t
  let part ← mlCondPredict H o parts xin u t
  let r ← mlMeasure H o part y tnext
  return r.2

/-- `numpy.vstack` of two matrices. -/
def vstackM {a b c : ℕ} (A : MatR a c) (B : MatR b c) : MatR (a + b) c := (fromRows A B).submatrix finSumFinEquiv.symm id

/-- `numpy.vstack` of two column vectors. -/
def vstackV {a b : ℕ} (f : VecR a) (g : VecR b) : VecR (a + b) := fun i => Sum.elim f g (finSumFinEquiv.symm i)

/-- `numpy.vstack((numpy.hstack((Qxi, Qxiz)), numpy.hstack((Qxiz.T, Qz))))`. -/
def stackQ {a b : ℕ} (Qxi : MatR a a) (Qxiz : MatR a b) (Qz : MatR b b) : MatR (a + b) (a + b) :=
  (fromBlocks Qxi Qxiz Qxizᵀ Qz).submatrix finSumFinEquiv.symm finSumFinEquiv.symm

/-- Both matrices must be given (`ValueError` from `vstack`/`hstack` otherwise). -/
def both {α β γ : Type} (g : α → β → γ) (a : Option α) (b : Option β) : PyM γ :=
  match a, b with
  | some a, some b => .ok (g a b)
  | _, _ => .error .valueError

/-- Stacking element by element, or `N` copies of the first one when all are identical (mlnlg.py:388-402). -/
def mlStack {α β γ : Type} (N : ℕ) (g : α → β → γ) (a : List (Option α) × Bool) (b : List (Option β) × Bool) : PyM (List γ) :=
  if a.2 ∧ b.2 then do
    let x ← getIdx a.1 0
    let y ← getIdx b.1 0
    let s ← both g x y
    return List.replicate N s
  else (List.range N).mapM fun i => do
    let x ← getIdx a.1 i
    let y ← getIdx b.1 i
    both g x y

/-- The cross covariances used by `calc_A_f_Q` with the flag `Qxiz_identical` (mlnlg.py:377-386). Simplification: the zero matrix gets its shape from the
types, in the code from `Qxi[0]` and `Qz[0]`. -/
def mlCrossStack (H : MlHooks lxi lz ly U T Y) (o : MlObj lxi lz ly) (xis : List (VecR lxi)) (u : U) (t : T) : List (MatR lxi lz) × Bool :=
  match H.cross xis u t, o.Qxiz with
  | some l, _ => (l, false)
  | none, none => (List.replicate xis.length 0, true)
  | none, some X => (List.replicate xis.length X, true)

/-- The stacked noise covariances (mlnlg.py:404-411). -/
def mlStackQ (N : ℕ) (qx : List (Option (MatR lxi lxi)) × Bool) (qz : List (Option (MatR lz lz)) × Bool)
    (X : List (MatR lxi lz) × Bool) : PyM (List (MatR (lxi + lz) (lxi + lz))) :=
  if qx.2 ∧ qz.2 ∧ X.2 then do
    let a ← getIdx qx.1 0
    let x ← getIdx X.1 0
    let b ← getIdx qz.1 0
    let s ← both (fun a b => stackQ a x b) a b
    return List.replicate N s
  else (List.range N).mapM fun i => do
    let a ← getIdx qx.1 i
    let x ← getIdx X.1 i
    let b ← getIdx qz.1 i
    both (fun a b => stackQ a x b) a b

/-- `MixedNLGaussianSampled.calc_A_f_Q` (mlnlg.py:351-411): stacked matrices of every particle, `Q_identical` last. -/
def mlCalcAfQ (H : MlHooks lxi lz ly U T Y) (o : MlObj lxi lz ly) (xis : List (VecR lxi)) (u : U) (t : T) :
    PyM (List (MatR (lxi + lz) lz) × List (VecR (lxi + lz)) × List (MatR (lxi + lz) (lxi + lz)) × Bool) := do
  let l := mlLin H o xis u t
  let d := mlNonlin H o xis u t
  let X := mlCrossStack H o xis u t
  let A ← mlStack xis.length vstackM d.A l.A
  let f ← mlStack xis.length vstackV d.f l.f
  let Q ← mlStackQ xis.length d.Q l.Q X
  return (A, f, Q, d.Q.2 && l.Q.2 && X.2)

/-- `MixedNLGaussianSampled.logp_xnext_max` (mlnlg.py:413-441). -/
noncomputable def mlLogpXnextMax (H : MlHooks lxi lz ly U T Y) (o : MlObj lxi lz ly) (parts : List (RbP lxi lz)) (u : U) (t : T) :
    PyM ℝ := do
  let s ← mlCalcAfQ H o (xisOf parts) u t
  let l ← (List.range parts.length).mapM fun i => do
    let p ← getIdx parts i
    let A ← getIdx s.1 i
    let Q ← getIdx s.2.2.1 i
    let c ← choFactor (Q + A * p.2.2 * Aᵀ)
    return -(1 / 2) * (((lxi + lz : ℕ) : ℝ) * l2pi + choLogDet c)
  npMax l

/-- `if (N > 1 and Nn == 1): next_part = numpy.repeat(next_part, N, 0)` (mlnlg.py:465-468). -/
def repeatNext {α : Type} (N : ℕ) (next : List α) : List α :=
  match next with
  | [x] => if 1 < N then List.replicate N x else [x]
  | l => l

/-- `MixedNLGaussianSampled.logp_xnext` (mlnlg.py:443-479); `next` are the sampled nonlinear and linear states at the next time. -/
noncomputable def mlLogpXnext (H : MlHooks lxi lz ly U T Y) (o : MlObj lxi lz ly) (parts : List (RbP lxi lz))
    (next : List (VecR lxi × VecR lz)) (u : U) (t : T) : PyM (List ℝ) := do
  let next := repeatNext parts.length next
  let s ← mlCalcAfQ H o (xisOf parts) u t
  (List.range parts.length).mapM fun i => do
    let p ← getIdx parts i
    let x ← getIdx next i
    let A ← getIdx s.1 i
    let f ← getIdx s.2.1 i
    let Q ← getIdx s.2.2.1 i
    let c ← choFactor (A * p.2.2 * Aᵀ + Q)
    return lognormpdfCho (vstackV x.1 x.2 - (f + A *ᵥ p.2.1)) c

/-- One iteration of the loop of `logp_xnext_singlestep` (mlnlg.py:521-526). Simplification: every missing matrix is a `TypeError`. -/
noncomputable def mlXiLogpdf (p : RbP lxi lz) (x : VecR lxi) (A : Option (MatR lxi lz)) (f : Option (VecR lxi)) (Q : Option (MatR lxi lxi)) :
    PyM ℝ :=
  match A, f, Q with
  | some A, some f, some Q => do
    let c ← choFactor (Q + A * p.2.2 * Aᵀ)
    return lognormpdfCho (x - (f + A *ᵥ p.2.1)) c
  | _, _, _ => .error .typeError

/-- `MixedNLGaussianSampled.logp_xnext_singlestep` (mlnlg.py:481-528); `next` are the nonlinear states of `future_parts`. -/
noncomputable def mlLogpSingle (H : MlHooks lxi lz ly U T Y) (o : MlObj lxi lz ly) (parts : List (RbP lxi lz))
    (next : List (VecR lxi)) (find : List ℕ) (u : U) (t : T) : PyM (List ℝ) := do
  let next ← fancy next find
  let d := mlNonlin H o (xisOf parts) u t
  (List.range parts.length).mapM fun i => do
    let p ← getIdx parts i
    let x ← getIdx next i
    let A ← getIdx d.A.1 i
    let f ← getIdx d.f.1 i
    let Q ← getIdx d.Q.1 i
    mlXiLogpdf p x A f Q

/-- `MixedNLGaussianSampled.sample_smooth` (mlnlg.py:530-589): the nonlinear state, mean and covariance from which the linear state of
every trajectory is drawn (mlnlg.py:583-588). `fut` is `future_trajs[0].pa.part` (`None` at the last time step). -/
noncomputable def mlSampleSmooth (H : MlHooks lxi lz ly U T Y) (o : MlObj lxi lz ly) (parts : List (RbP lxi lz))
    (fut : Option (List (VecR lxi × VecR lz))) (find : List ℕ) (u : U) (t : T) : PyM (List (RbP lxi lz)) :=
  match fut with
  | none => .ok parts
  | some fut => do
    let nxt ← fancy fut find
    if nxt.length = parts.length then do
      let dyn ← mlCondDyn H o parts (nxt.map fun p => p.1) u t
      let parts ← mlMeasXiNext H o parts (nxt.map fun p => p.1) u t
      (List.range parts.length).mapM fun j => do
        let p ← getIdx parts j
        let x ← getIdx nxt j
        let d ← getIdx dyn j
        let r ← measFullOpt x.2 p.2.1 p.2.2 d.1 d.2.1 d.2.2
        return (p.1, r.1, r.2.1)
    else .error .valueError

/-- `RBPFBase.cond_predict_single_step` (rbpf.py:261-286): on a copy. -/
noncomputable def mlCondPredictSingle (H : MlHooks lxi lz ly U T Y) (o : MlObj lxi lz ly) (parts : List (RbP lxi lz))
    (future : List (VecR lxi)) (find : List ℕ) (u : U) (t : T) : PyM (List (RbP lxi lz)) := do
  let xin ← fancy future find
  mlCondPredict H o parts xin u t

/-- One step of the loop of `pre_mhips_pass` before `cond_predict` (rbpf.py:410-411, 420-421): measurement update unless `y` is `None`. -/
noncomputable def mlMaybeMeasure (H : MlHooks lxi lz ly U T Y) (o : MlObj lxi lz ly) (parts : List (RbP lxi lz)) (y : Option Y) (t : T) :
    PyM (List (RbP lxi lz)) :=
  match y with
  | none => .ok parts
  | some y => do
    let r ← mlMeasure H o parts y t
    return r.1

/-- What `pre_mhips_pass` and `post_smoothing` read from the smoothed trajectories at one time: nonlinear states of all trajectories, input,
measurement, time stamp (`st.traj[i].pa.part[:, :lxi]`, `st.u[i]`, `st.y[i]`, `st.t[i]`). -/
structure StStep (lxi : ℕ) (U T Y : Type) where
  xi : List (VecR lxi)
  u : U
  y : Option Y
  t : T

/-- The loop of `pre_mhips_pass` (rbpf.py:409-425) from time `i` on, `parts` being the particles at its start; returns the stored filtered
particles of time `i` and later. -/
noncomputable def mlForward (H : MlHooks lxi lz ly U T Y) (o : MlObj lxi lz ly) (parts : List (RbP lxi lz)) :
    StStep lxi U T Y → List (StStep lxi U T Y) → PyM (List (List (RbP lxi lz)))
  | s, [] => do
    let p ← mlMaybeMeasure H o parts s.y s.t
    return [p]
  | s, s' :: rest => do
    let p ← mlMaybeMeasure H o parts s.y s.t
    let p' ← mlCondPredict H o p s'.xi s.u s.t
    let l ← mlForward H o p' s' rest
    return p :: l

/-- `RBPSBase.pre_mhips_pass` (rbpf.py:383-426); `init` is the overridable `get_rb_initial`. Simplification: `T > 0` time steps, one input, measurement
and time stamp per step. -/
noncomputable def mlPreMhips (H : MlHooks lxi lz ly U T Y) (o : MlObj lxi lz ly) (init : List (VecR lxi) → List (VecR lz × MatR lz lz))
    (s : StStep lxi U T Y) (rest : List (StStep lxi U T Y)) : PyM (List (List (RbP lxi lz))) :=
  if (init s.xi).length = s.xi.length then mlForward H o (List.zipWith (fun x zp => (x, zp.1, zp.2)) s.xi (init s.xi)) s rest
  else .error .valueError

/-- A smoothed particle: nonlinear state, smoothed mean and covariance, cross covariance `Mz` with the next time. -/
abbrev RbS (lxi lz : ℕ) := RbP lxi lz × MatR lz lz

/-- `kf.smooth(z, P, zn, Pn, A, f, Q)` with matrices that may be `None`: `A.dot` first (`AttributeError`), then the sums. -/
noncomputable def smoothOpt (p pn : RbP lxi lz) (d : Option (MatR lz lz) × Option (VecR lz) × Option (MatR lz lz)) :
    PyM (VecR lz × MatR lz lz × MatR lz lz) :=
  match d with
  | (none, _, _) => .error .attributeError
  | (some A, some f, some Q) => kalmanSmooth p.2.1 p.2.2 pn.2.1 pn.2.2 A f Q
  | (some _, _, _) => .error .typeError

/-- One iteration of the backward loop of `post_smoothing` (rbpf.py:361-379): `fp` are the filtered particles of this time, `next` the smoothed
particles of the next time. -/
noncomputable def mlBackStep (H : MlHooks lxi lz ly U T Y) (o : MlObj lxi lz ly) (fp : List (RbP lxi lz)) (next : List (RbS lxi lz))
    (u : U) (t : T) : PyM (List (RbS lxi lz)) := do
  let xin := next.map fun p => p.1.1
  let parts ← mlMeasXiNext H o fp xin u t
  let dyn ← mlCondDyn H o parts xin u t
  (List.range parts.length).mapM fun j => do
    let p ← getIdx parts j
    let pn ← getIdx next j
    let d ← getIdx dyn j
    let r ← smoothOpt p pn.1 d
    return ((p.1, r.1, r.2.1), r.2.2)

/-- The backward loop of `post_smoothing` (rbpf.py:354-379) over the filtered particles of the forward pass. The last step keeps the filtered
particles, with a zero block for `Mz`. -/
noncomputable def mlBackward (H : MlHooks lxi lz ly U T Y) (o : MlObj lxi lz ly) :
    List (List (RbP lxi lz) × StStep lxi U T Y) → PyM (List (List (RbS lxi lz)))
  | [] => .error .indexError
  | [(fp, _)] => .ok [fp.map fun p => (p, 0)]
  | (fp, s) :: q :: rest => do
    let l ← mlBackward H o (q :: rest)
    let nxt ← getIdx l 0
    let r ← mlBackStep H o fp nxt s.u s.t
    return r :: l

/-- `RBPSBase.post_smoothing` (rbpf.py:330-381). -/
noncomputable def mlPostSmoothing (H : MlHooks lxi lz ly U T Y) (o : MlObj lxi lz ly) (init : List (VecR lxi) → List (VecR lz × MatR lz lz))
    (s : StStep lxi U T Y) (rest : List (StStep lxi U T Y)) : PyM (List (List (RbS lxi lz))) := do
  let ft ← mlPreMhips H o init s rest
  mlBackward H o (ft.zip (s :: rest))

end PyPE

import Verif.Models.MlComputeClaims
import Verif.Models.MlDensity
import Verif.Models.LtvGrad

/-!
# Model of the EM objective of `MixedNLGaussianSampled` (mlnlg.py:683-1033)

Particles are smoothed particles `RbS`: nonlinear state, mean, covariance and cross covariance `Mz` with the next time (how they are packed into the rows of
the array is C73). Simplifications: the model interleaves loops over the particles that the code runs one after the other, so when several particles
make it raise, the exception may be another one; without particles the code may raise where the model does not. Gradients with respect to the `p` parameters are functions on `Fin p`.
-/

namespace PyPE
open Matrix MeasureTheory ProbabilityTheory

variable {lxi lz ly p : ℕ} {U T Y : Type}

/-- `-0.5 * (ld + numpy.trace(cho_solve(cho, l)))` with `ld = numpy.sum(numpy.log(numpy.diagonal(cho[0]))) * 2` (mlnlg.py:741-745, 847-850, 857-858). -/
noncomputable def choHalf {k : ℕ} (c l : MatR k k) : ℝ := -(1 / 2) * (choLogDet c + (choSolveM c l).trace)

/-- One iteration of the loop of `eval_logp_x0` (mlnlg.py:738-745). -/
noncomputable def mlX0One (p : RbP lxi lz) (zp : VecR lz × MatR lz lz) : PyM ℝ := do
  let c ← choFactor zp.2
  return choHalf c (vecMulVec (p.2.1 - zp.1) (p.2.1 - zp.1) + p.2.2)

/-- `MixedNLGaussianSampled.eval_logp_x0` (mlnlg.py:722-746); `init` is `get_rb_initial`, `lpxi0` is `eval_logp_xi0`, both overridable.
Simplification: a result of `eval_logp_xi0` without one entry per particle raises `ValueError`. -/
noncomputable def mlEvalX0 (init : List (VecR lxi) → List (VecR lz × MatR lz lz)) (lpxi0 : List (VecR lxi) → List ℝ)
    (parts : List (RbS lxi lz)) : PyM (List ℝ) := do
  let xil := parts.map fun s => s.1.1
  let lpz0 ← (List.range parts.length).mapM fun i => do
    let s ← getIdx parts i
    let zp ← getIdx (init xil) i
    mlX0One s.1 zp
  if (lpxi0 xil).length = parts.length then .ok (List.zipWith (· + ·) (lpxi0 xil) lpz0) else .error .valueError

/-- `calc_l2` (mlnlg.py:784-794) for one particle `s` and its successor `n`; the helpers treat the particles independently. -/
def mlL2 (s : RbS lxi lz) (n : RbP lxi lz) (A : MatR (lxi + lz) lz) (f : VecR (lxi + lz)) : MatR (lxi + lz) (lxi + lz) :=
  computeL2 (N := 1) (computePredErr (fun _ => vstackV n.1 n.2.1) (fun _ => f) (fun _ => A) (fun _ => s.1.2.1)) (fun _ => n.2.2)
    (fun _ => A) (fun _ => s.1.2.2) (fun _ => s.2) 0

/-- The factor used for particle `i`: of `X[0]` when all are identical (computed once, before the loop), else of `X[i]`
(mlnlg.py:844-858, 969-981). -/
noncomputable def choOf {k : ℕ} (identical : Bool) (X : List (MatR k k)) (i : ℕ) : PyM (MatR k k) := do
  let Q ← getIdx X (if identical then 0 else i)
  choFactor Q

/-- `MixedNLGaussianSampled.eval_logp_xnext` (mlnlg.py:818-860): the sum over the particles. -/
noncomputable def mlEvalXnext (H : MlHooks lxi lz ly U T Y) (o : MlObj lxi lz ly) (parts : List (RbS lxi lz)) (next : List (RbP lxi lz))
    (u : U) (t : T) : PyM ℝ := do
  let s ← mlCalcAfQ H o (parts.map fun s => s.1.1) u t
  let l ← (List.range parts.length).mapM fun i => do
    let q ← getIdx parts i
    let n ← getIdx next i
    let A ← getIdx s.1 i
    let f ← getIdx s.2.1 i
    let c ← choOf s.2.2.2 s.2.2.1 i
    return choHalf c (mlL2 q n A f)
  return l.sum

/-- `calc_l3` (mlnlg.py:922-929) for one particle; a missing `C` has no `dot`. -/
def mlL3 (y : VecR ly) (p : RbP lxi lz) (C : Option (MatR ly lz)) (h : Option (VecR ly)) : PyM (MatR ly ly) :=
  match C with
  | none => .error .attributeError
  | some C => .ok (vecMulVec (measurementDiff y p.2.1 (some C) h) (measurementDiff y p.2.1 (some C) h) + C * p.2.2 * Cᵀ)

/-- The factor of the measurement covariance of particle `i` (mlnlg.py:969-981); `cho_factor(None)` raises an exception (which one depends on the
version of scipy; `ValueError` stands for it). -/
noncomputable def choOfOpt {k : ℕ} (identical : Bool) (X : List (Option (MatR k k))) (i : ℕ) : PyM (MatR k k) := do
  let R ← getIdx X (if identical then 0 else i)
  match R with
  | none => .error .valueError
  | some R => choFactor R

/-- `MixedNLGaussianSampled.eval_logp_y` (mlnlg.py:951-984): the sum over the particles. -/
noncomputable def mlEvalY (H : MlHooks lxi lz ly U T Y) (o : MlObj lxi lz ly) (parts : List (RbS lxi lz)) (y : Y) (t : T) : PyM ℝ := do
  let yd ← mlMeasDyn H o (parts.map fun s => s.1.1) y t
  let l ← (List.range parts.length).mapM fun i => do
    let q ← getIdx parts i
    let C ← getIdx yd.2.A.1 i
    let h ← getIdx yd.2.f.1 i
    let l3 ← mlL3 yd.1 q.1 C h
    let c ← choOfOpt yd.2.Q.2 yd.2.Q.1 i
    return choHalf c l3
  return l.sum

/-! ## Gradients -/

/-- One particle of the loop of `eval_logp_x0_val_grad` (mlnlg.py:767-780): value and gradient; `dz`, `dP` are its entries of
`get_rb_initial_grad`. -/
noncomputable def mlX0GradOne (s : RbP lxi lz) (zp : VecR lz × MatR lz lz) (dz : Fin p → VecR lz) (dP : Fin p → MatR lz lz) :
    PyM (ℝ × (Fin p → ℝ)) := do
  let c ← choFactor zp.2
  let d := s.2.1 - zp.1
  let l1 := vecMulVec d d + s.2.2
  return (choHalf c l1, fun j => -(1 / 2) * logprodDerivative c (dP j) l1 (-vecMulVec d (dz j) - (vecMulVec d (dz j))ᵀ))

/-- `MixedNLGaussianSampled.eval_logp_x0_val_grad` (mlnlg.py:748-782): `lpxi0` is an array, `lpz0` a number; both results are divided
by `N`. `initGrad` is `get_rb_initial_grad`, `lpxi0Grad` is `eval_logp_xi0_grad`. -/
noncomputable def mlEvalX0ValGrad (init : List (VecR lxi) → List (VecR lz × MatR lz lz))
    (initGrad : List (VecR lxi) → List ((Fin p → VecR lz) × (Fin p → MatR lz lz))) (lpxi0 : List (VecR lxi) → List ℝ)
    (lpxi0Grad : List (VecR lxi) → Fin p → ℝ) (parts : List (RbS lxi lz)) : PyM (List ℝ × (Fin p → ℝ)) := do
  let xil := parts.map fun s => s.1.1
  let l ← (List.range parts.length).mapM fun i => do
    let s ← getIdx parts i
    let zp ← getIdx (init xil) i
    let dzp ← getIdx (initGrad xil) i
    mlX0GradOne s.1 zp dzp.1 dzp.2
  return ((lpxi0 xil).map fun x => (x + (l.map fun r => r.1).sum) / parts.length,
    fun j => (lpxi0Grad xil j + (l.map fun r => r.2 j).sum) / parts.length)

/-- `calc_l2_grad` (mlnlg.py:796-816), the gradient, for one particle; `df`, `dA` are its entries of the gradients, if given. -/
def mlL2Grad (s : RbS lxi lz) (n : RbP lxi lz) (A : MatR (lxi + lz) lz) (f : VecR (lxi + lz)) (df : Option (Fin p → VecR (lxi + lz)))
    (dA : Option (Fin p → MatR (lxi + lz) lz)) : Fin p → MatR (lxi + lz) (lxi + lz) :=
  let perr := computePredErr (N := 1) (fun _ => vstackV n.1 n.2.1) (fun _ => f) (fun _ => A) (fun _ => s.1.2.1)
  let g : Fin 1 → Fin p → MatR (lxi + lz) (lxi + lz) := fun _ _ => 0
  let g := match df with
    | none => g
    | some df => computeL2GradF g perr (fun _ => df)
  match dA with
  | none => g 0
  | some dA => computeL2GradA g perr (fun _ => s.1.2.1) (fun _ => s.1.2.2) (fun _ => s.2) (fun _ => A) (fun _ => dA) 0

/-- Entry `i` of an optional list of gradients. -/
def optIdx {α : Type} (l : Option (List α)) (i : ℕ) : PyM (Option α) :=
  match l with
  | none => .ok none
  | some l => do
    let x ← getIdx l i
    return some x

/-- `MixedNLGaussianSampled.eval_logp_xnext_val_grad` (mlnlg.py:862-920); the three gradients are what `get_pred_dynamics_grad` returns, one
entry per particle. -/
noncomputable def mlEvalXnextValGrad (H : MlHooks lxi lz ly U T Y) (o : MlObj lxi lz ly) (dA : Option (List (Fin p → MatR (lxi + lz) lz)))
    (df : Option (List (Fin p → VecR (lxi + lz)))) (dQ : Option (List (Fin p → MatR (lxi + lz) (lxi + lz))))
    (parts : List (RbS lxi lz)) (next : List (RbP lxi lz)) (u : U) (t : T) : PyM (ℝ × (Fin p → ℝ)) :=
  match dA, df, dQ with
  | none, none, none => do
    let v ← mlEvalXnext H o parts next u t
    return (v, fun _ => 0)
  | dA, df, dQ => do
    let s ← mlCalcAfQ H o (parts.map fun s => s.1.1) u t
    let l ← (List.range parts.length).mapM fun i => do
      let q ← getIdx parts i
      let n ← getIdx next i
      let A ← getIdx s.1 i
      let f ← getIdx s.2.1 i
      let c ← choOf s.2.2.2 s.2.2.1 i
      let dAi ← optIdx dA i
      let dfi ← optIdx df i
      let dQi ← optIdx dQ i
      return (choHalf c (mlL2 q n A f), fun j => -(1 / 2) * logprodDerivative c (dQi.getD (fun _ => 0) j) (mlL2 q n A f)
        (mlL2Grad q n A f dfi dAi j))
    return ((l.map fun r => r.1).sum, fun j => (l.map fun r => r.2 j).sum)

/-- `calc_l3_grad` (mlnlg.py:931-949), the gradient, for one particle: the argument `C_grad`, when given, is replaced by zeros
(mlnlg.py:940). -/
def mlL3Grad (y : VecR ly) (q : RbP lxi lz) (C : MatR ly lz) (h : Option (VecR ly)) (dC : Option (Fin p → MatR ly lz))
    (dh : Option (Fin p → VecR ly)) : Fin p → MatR ly ly := fun j =>
  let d := measurementDiff y q.2.1 (some C) h
  let g : MatR ly ly := 0
  let g := match dC with
    | none => g
    | some _ =>
      let dC : MatR ly lz := 0
      let tmp2 := dC * q.2.2 * Cᵀ
      let tmp := vecMulVec (dC *ᵥ q.2.1) d
      g + (-tmp - tmpᵀ + tmp2 + tmp2ᵀ)
  match dh with
  | none => g
  | some dh => g + (-vecMulVec (dh j) d - (vecMulVec (dh j) d)ᵀ)

/-- The matrix `C` of a particle (a missing one has no `dot`). -/
def mlNeedC (C : Option (MatR ly lz)) : PyM (MatR ly lz) :=
  match C with
  | none => .error .attributeError
  | some C => .ok C

/-- The factor in `eval_logp_y_val_grad` (mlnlg.py:1016-1026): when the covariances are not identical, line 1026 reads `Rzcho` before it is
assigned (`UnboundLocalError`). -/
noncomputable def mlGradCho (identical : Bool) (X : List (Option (MatR ly ly))) : PyM (MatR ly ly) :=
  if identical then choOfOpt true X 0 else .error .unboundLocalError

/-- `MixedNLGaussianSampled.eval_logp_y_val_grad` (mlnlg.py:986-1033); the three gradients are what `get_meas_dynamics_grad` returns. Without
gradients, `eval_logp_y` is called with the already processed measurement, as an argument of `get_meas_dynamics`: `asY`. -/
noncomputable def mlEvalYValGrad (asY : VecR ly → Y) (H : MlHooks lxi lz ly U T Y) (o : MlObj lxi lz ly) (dC : Option (List (Fin p → MatR ly lz)))
    (dh : Option (List (Fin p → VecR ly))) (dR : Option (List (Fin p → MatR ly ly))) (parts : List (RbS lxi lz)) (y : Y) (t : T) :
    PyM (ℝ × (Fin p → ℝ)) := do
  let yd ← mlMeasDyn H o (parts.map fun s => s.1.1) y t
  match dC, dh, dR with
  | none, none, none => do
    let v ← mlEvalY H o parts (asY yd.1) t
    return (v, fun _ => 0)
  | dC, dh, dR => do
    let l ← (List.range parts.length).mapM fun i => do
      let q ← getIdx parts i
      let C ← getIdx yd.2.A.1 i
      let h ← getIdx yd.2.f.1 i
      let l3 ← mlL3 yd.1 q.1 C h
      let C ← mlNeedC C
      let dhi ← optIdx dh i
      let dRi ← optIdx dR i
      let c ← mlGradCho yd.2.Q.2 yd.2.Q.1
      return (choHalf c l3, fun j => -(1 / 2) * logprodDerivative c (dRi.getD (fun _ => 0) j) l3
        (mlL3Grad yd.1 q.1 C h (dC.map fun _ => fun _ => 0) dhi j))
    return ((l.map fun r => r.1).sum, fun j => (l.map fun r => r.2 j).sum)

end PyPE

import Verif.Models.Ml

/-!
# Model of the hierarchical models: `models/hierarchial.py`

The nonlinear state moves by itself; given its trajectory the linear state is a linear Gaussian system.  As in `Models/Ml.lean` a particle array is
a list of `RbP`.  `get_states` returns views, so that `measure_full` writes into the array; this is modelled where it matters
(`hiSampleSmooth`).
-/

namespace PyPE
open Matrix

variable {lxi lz ly : ℕ} {U T Y Noise : Type}

/-- What a class extending `HierarchicalRSBase` provides. -/
structure HiHooks (lxi lz ly : ℕ) (U T Y Noise : Type) where
  /-- `get_lin_pred_dynamics` (rbpf.py:114-132). -/
  lin : List (VecR lxi) → U → T → Option (List (MatR lz lz)) × Option (List (VecR lz)) × Option (List (MatR lz lz))
  /-- `get_lin_meas_dynamics` (called in hierarchial.py:52, declared nowhere): processed measurement, `Cz`, `hz`, `Rz`. -/
  meas : List (VecR lxi) → Y → T → VecR ly × Option (List (MatR ly lz)) × Option (List (VecR ly)) × Option (List (MatR ly ly))
  /-- `measure_nonlin` (hierarchial.py:216-231). -/
  measNonlin : List (RbP lxi lz) → Y → T → List ℝ
  /-- `calc_xi_next` (hierarchial.py:198-214). -/
  xiNext : List (RbP lxi lz) → U → T → List Noise → List (VecR lxi)
  /-- `logp_xnext_xi` (hierarchial.py:180-196). -/
  logpXi : List (RbP lxi lz) → List (VecR lxi) → U → T → List ℝ
  /-- `logp_xnext_xi_max` (hierarchial.py:266-280). -/
  logpXiMax : List (RbP lxi lz) → U → T → List ℝ

/-- `X if X is not None else numpy.repeat(self.kf.X[numpy.newaxis, :, :], N, axis=0)` (hierarchial.py:53-58); indexing `None` raises
`TypeError`. -/
def hiRepeat {α : Type} (N : ℕ) (hook : Option (List α)) (own : Option α) : PyM (List α) :=
  match hook, own with
  | some l, _ => .ok l
  | none, some a => .ok (List.replicate N a)
  | none, none => .error .typeError

/-- `HierarchicalBase.measure` (hierarchial.py:33-66): new particles and returned values. Simplification: a result of `measure_nonlin` without one
entry per particle raises `ValueError`. -/
noncomputable def hiMeasure (H : HiHooks lxi lz ly U T Y Noise) (kf : KF lz ly) (parts : List (RbP lxi lz)) (y : Y) (t : T) :
    PyM (List (RbP lxi lz) × List ℝ) := do
  let lyxi := H.measNonlin parts y t
  let d := H.meas (xisOf parts) y t
  let C ← hiRepeat parts.length d.2.1 kf.C
  let h ← hiRepeat parts.length d.2.2.1 kf.hk
  let R ← hiRepeat parts.length d.2.2.2 kf.R
  if lyxi.length = parts.length then do
    let res ← (List.range parts.length).mapM fun i => do
      let p ← getIdx parts i
      let C ← getIdx C i
      let h ← getIdx h i
      let R ← getIdx R i
      let r ← measureFull d.1 p.2.1 p.2.2 (some C) (some h) R
      return ((p.1, r.1, r.2.1), r.2.2)
    return (res.map fun r => r.1, List.zipWith (· + ·) lyxi (res.map fun r => r.2))
  else .error .valueError

/-- `get_lin_pred_dynamics_int` (rbpf.py:134-171). -/
def hiLin (H : HiHooks lxi lz ly U T Y Noise) (kf : KF lz ly) (xis : List (VecR lxi)) (u : U) (t : T) : Dyns lz lz :=
  let d := H.lin xis u t
  ⟨perPart xis.length d.1 kf.A, perPart xis.length d.2.1 kf.fk, perPart xis.length d.2.2 kf.Q⟩

/-- Matrix, offset and covariance for particle `i`. -/
def hiDyn (l : Dyns lz lz) (i : ℕ) : PyM (Option (MatR lz lz) × Option (VecR lz) × Option (MatR lz lz)) := do
  let A ← getIdx l.A.1 i
  let f ← getIdx l.f.1 i
  let Q ← getIdx l.Q.1 i
  return (A, f, Q)

/-- `RBPFBase.cond_predict` (rbpf.py:288-310) with the `meas_xi_next` (does nothing) and `calc_cond_dynamics` of this class (hierarchial.py:68-92). -/
def hiCondPredict (H : HiHooks lxi lz ly U T Y Noise) (kf : KF lz ly) (parts : List (RbP lxi lz)) (xiN : List (VecR lxi)) (u : U) (t : T) :
    PyM (List (RbP lxi lz)) :=
  let l := hiLin H kf (xisOf parts) u t
  if xiN.length = parts.length then
    (List.range parts.length).mapM fun i => do
      let p ← getIdx parts i
      let d ← hiDyn l i
      let x ← getIdx xiN i
      let r ← predOpt p.2.1 p.2.2 d
      return (x, r.1, r.2)
  else .error .valueError

/-- `RBPFBase.update` (rbpf.py:238-259). -/
def hiUpdate (H : HiHooks lxi lz ly U T Y Noise) (kf : KF lz ly) (parts : List (RbP lxi lz)) (u : U) (t : T) (noise : List Noise) :
    PyM (List (RbP lxi lz)) :=
  hiCondPredict H kf parts (H.xiNext parts u t noise) u t

/-- `kalman.lognormpdf` of the next linear state (hierarchial.py:131-134). -/
noncomputable def hiLogpZ (p : RbP lxi lz) (zn : VecR lz) (d : Option (MatR lz lz) × Option (VecR lz) × Option (MatR lz lz)) : PyM ℝ := do
  let r ← predOpt p.2.1 p.2.2 d
  lognormpdf (zn - r.1) r.2

/-- `HierarchicalBase.logp_xnext` (hierarchial.py:94-136). Simplification: a result of `logp_xnext_xi` without one entry per particle raises
`ValueError`. -/
noncomputable def hiLogpXnext (H : HiHooks lxi lz ly U T Y Noise) (kf : KF lz ly) (parts : List (RbP lxi lz))
    (next : List (VecR lxi × VecR lz)) (u : U) (t : T) : PyM (List ℝ) := do
  let next := repeatNext parts.length next
  let l := hiLin H kf (xisOf parts) u t
  let lpxi := H.logpXi parts (next.map fun x => x.1) u t
  let lpz ← (List.range parts.length).mapM fun i => do
    let p ← getIdx parts i
    let d ← hiDyn l i
    let x ← getIdx next i
    hiLogpZ p x.2 d
  if lpxi.length = parts.length then .ok (List.zipWith (· + ·) lpxi lpz) else .error .valueError

/-- `Pn` of `logp_xnext_max` (hierarchial.py:261). Simplification: every missing matrix is a `TypeError`. -/
def hiPredCov (p : RbP lxi lz) (A : Option (MatR lz lz)) (Q : Option (MatR lz lz)) : PyM (MatR lz lz) :=
  match A, Q with
  | some A, some Q => .ok (A * p.2.2 * Aᵀ + Q)
  | _, _ => .error .typeError

/-- `HierarchicalRSBase.logp_xnext_max` (hierarchial.py:238-264); `slogdet(Pn)[1]` is the logarithm of the absolute value of the determinant. -/
noncomputable def hiLogpXnextMax (H : HiHooks lxi lz ly U T Y Noise) (kf : KF lz ly) (parts : List (RbP lxi lz)) (u : U) (t : T) : PyM ℝ := do
  let lpxi := H.logpXiMax parts u t
  let l := hiLin H kf (xisOf parts) u t
  let lpz ← (List.range parts.length).mapM fun i => do
    let p ← getIdx parts i
    let A ← getIdx l.A.1 i
    let Q ← getIdx l.Q.1 i
    let Pn ← hiPredCov p A Q
    return -(1 / 2) * (lz : ℝ) * Real.log (2 * Real.pi) + Real.log |Pn.det|
  if lpxi.length = parts.length then npMax (List.zipWith (· + ·) lpxi lpz) else .error .valueError

/-- One iteration of the loop of `sample_smooth` (hierarchial.py:161-176): `part` is the array (written to by `measure_full` through the views), `j` the
trajectory. Returns the array after the iteration and the nonlinear state, mean and covariance used for row `j` of the result. -/
noncomputable def hiSampleStep (H : HiHooks lxi lz ly U T Y Noise) (kf : KF lz ly) (fut : Option (List (VecR lxi × VecR lz))) (find : List ℕ)
    (u : U) (t : T) (part : List (RbP lxi lz)) (j : ℕ) : PyM (List (RbP lxi lz) × RbP lxi lz) := do
  let pj ← getIdx part j
  let p0 ← getIdx part 0
  match fut with
  | none => return (part, p0)
  | some fut => do
    let d ← hiDyn (hiLin H kf [pj.1] u t) 0
    let k ← getIdx find j
    let x ← getIdx fut k
    let r ← measFullOpt x.2 p0.2.1 p0.2.2 d.1 d.2.1 d.2.2
    let p0' : RbP lxi lz := (p0.1, r.1, r.2.1)
    return (part.set 0 p0', p0')

/-- The iterations `js` of the loop of `sample_smooth`. -/
noncomputable def hiSampleLoop (H : HiHooks lxi lz ly U T Y Noise) (kf : KF lz ly) (fut : Option (List (VecR lxi × VecR lz))) (find : List ℕ)
    (u : U) (t : T) : List (RbP lxi lz) → List ℕ → PyM (List (RbP lxi lz))
  | _, [] => .ok []
  | part, j :: js => do
    let r ← hiSampleStep H kf fut find u t part j
    let l ← hiSampleLoop H kf fut find u t r.1 js
    return r.2 :: l

/-- `HierarchicalBase.sample_smooth` (hierarchial.py:138-178): for every trajectory the nonlinear state of the row and the mean and covariance from which
its linear state is drawn. `fut` is `future_trajs[0].pa.part` (`None` at the last time step). -/
noncomputable def hiSampleSmooth (H : HiHooks lxi lz ly U T Y Noise) (kf : KF lz ly) (part : List (RbP lxi lz))
    (fut : Option (List (VecR lxi × VecR lz))) (find : List ℕ) (u : U) (t : T) : PyM (List (RbP lxi lz)) :=
  hiSampleLoop H kf fut find u t part (List.range part.length)

/-- Measurement update unless `y` is `None` (rbpf.py:410-411, 420-421). -/
noncomputable def hiMaybeMeasure (H : HiHooks lxi lz ly U T Y Noise) (kf : KF lz ly) (parts : List (RbP lxi lz)) (y : Option Y) (t : T) :
    PyM (List (RbP lxi lz)) :=
  match y with
  | none => .ok parts
  | some y => do
    let r ← hiMeasure H kf parts y t
    return r.1

/-- The loop of `pre_mhips_pass` (rbpf.py:409-425), as `mlForward`. -/
noncomputable def hiForward (H : HiHooks lxi lz ly U T Y Noise) (kf : KF lz ly) (parts : List (RbP lxi lz)) :
    StStep lxi U T Y → List (StStep lxi U T Y) → PyM (List (List (RbP lxi lz)))
  | s, [] => do
    let p ← hiMaybeMeasure H kf parts s.y s.t
    return [p]
  | s, s' :: rest => do
    let p ← hiMaybeMeasure H kf parts s.y s.t
    let p' ← hiCondPredict H kf p s'.xi s.u s.t
    let l ← hiForward H kf p' s' rest
    return p :: l

/-- One iteration of the backward loop of `post_smoothing` (rbpf.py:361-379), as `mlBackStep`. -/
noncomputable def hiBackStep (H : HiHooks lxi lz ly U T Y Noise) (kf : KF lz ly) (fp : List (RbP lxi lz)) (next : List (RbS lxi lz)) (u : U)
    (t : T) : PyM (List (RbS lxi lz)) :=
  let l := hiLin H kf (xisOf fp) u t
  (List.range fp.length).mapM fun j => do
    let p ← getIdx fp j
    let pn ← getIdx next j
    let d ← hiDyn l j
    let r ← smoothOpt p pn.1 d
    return ((p.1, r.1, r.2.1), r.2.2)

/-- The backward loop of `post_smoothing` (rbpf.py:354-379), as `mlBackward`. -/
noncomputable def hiBackward (H : HiHooks lxi lz ly U T Y Noise) (kf : KF lz ly) :
    List (List (RbP lxi lz) × StStep lxi U T Y) → PyM (List (List (RbS lxi lz)))
  | [] => .error .indexError
  | [(fp, _)] => .ok [fp.map fun p => (p, 0)]
  | (fp, s) :: q :: rest => do
    let l ← hiBackward H kf (q :: rest)
    let nxt ← getIdx l 0
    let r ← hiBackStep H kf fp nxt s.u s.t
    return r :: l

/-- `RBPSBase.post_smoothing` (rbpf.py:330-381) with `pre_mhips_pass` (rbpf.py:383-426). -/
noncomputable def hiPostSmoothing (H : HiHooks lxi lz ly U T Y Noise) (kf : KF lz ly) (init : List (VecR lxi) → List (VecR lz × MatR lz lz))
    (s : StStep lxi U T Y) (rest : List (StStep lxi U T Y)) : PyM (List (List (RbS lxi lz))) := do
  if (init s.xi).length = s.xi.length then do
    let ft ← hiForward H kf (List.zipWith (fun x zp => (x, zp.1, zp.2)) s.xi (init s.xi)) s rest
    hiBackward H kf (ft.zip (s :: rest))
  else .error .valueError

end PyPE

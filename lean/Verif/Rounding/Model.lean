import Verif.Traj.Model
import Verif.Smooth.Model

/-!
# The weight arithmetic of the filters and smoothers in rounded arithmetic

The rest of the model computes with real numbers.  Here every addition, subtraction, multiplication and division is followed by a rounding `fl`, and `numpy.exp`, `numpy.log`
are arbitrary functions `exp`, `log`; what is known about them is the separate `Spec.Rounded`.  Values are finite: overflow is not modelled (`Verif/Special` models the
special values).
-/

namespace PyPE
open Real

variable {P U Y V Ω : Type}

/-- An arithmetic: the rounding after an exact operation, `numpy.exp`, `numpy.log` and `numpy.sum`. -/
structure Arith where
  fl : ℝ → ℝ
  exp : ℝ → ℝ
  log : ℝ → ℝ
  sum : List ℝ → ℝ

/-- `numpy.cumsum(w)` (filter.py:20): sequential, every partial sum is rounded. -/
def flCumsum (A : Arith) : List ℝ → List ℝ
  | [] => []
  | x :: xs => xs.scanl (fun c y => A.fl (c + y)) x

/-- `u = (range(n) + numpy.random.rand(1)) / n` (filter.py:22). -/
noncomputable def flGrid (A : Arith) (n : ℕ) (r : ℝ) : List ℝ :=
  (List.range n).map fun (i : ℕ) => A.fl (A.fl ((i : ℝ) + r) / n)

/-- `sample(w, n)` (filter.py:10-23) for weights without negative entries; see `sample` for the total `0`. -/
noncomputable def flSample (A : Arith) (w : List ℝ) (n : ℕ) (r : ℝ) : PyM (List ℕ) := do
  let wc := flCumsum A w
  let tot ← getLast wc
  if tot = 0 then
    return List.replicate n 0
  else
    let wcn := wc.map fun c => A.fl (c / tot)
    return (flGrid A n r).map (searchsorted wcn)

/-- `calc_Neff` (filter.py:1089-1099): the sum of the squared normalised weights, whose inverse is the effective sample size. -/
noncomputable def flSumSq (A : Arith) (w : List ℝ) : PyM ℝ := do
  let m ← npMax w
  let tmp := w.map fun x => A.exp (A.fl (x - m))
  let s := A.sum tmp
  let tmp := tmp.map fun x => A.fl (x / s)
  return A.sum (tmp.map fun x => A.fl (x ^ 2))

/-- `pa.calc_Neff() < res * pa.num` (filter.py:78); `1.0 / 0.0` is `inf`. -/
noncomputable def flBelow (A : Arith) (res : ℝ) (num : ℕ) (q : ℝ) : Prop := q ≠ 0 ∧ A.fl (1 / q) < A.fl (res * num)

/-- `resample(model, N)` (filter.py:1101-1123). -/
noncomputable def flResample (A : Arith) (pa : PA P) (N : ℕ) (r : ℝ) : PyM (PA P × List ℕ) := do
  let m ← npMax pa.w
  let new_ind ← flSample A (pa.w.map fun x => A.exp (A.fl (x - m))) N r
  let new_part ← fancy pa.part new_ind
  return ({ part := new_part, w := List.replicate N (A.log (A.fl (1 / (N : ℝ)))), num := N, w_offset := 0 }, new_ind)

/-- `a + b` for two 1-D arrays. -/
noncomputable def flAdd (A : Arith) (a b : List ℝ) : PyM (List ℝ) :=
  if a.length = b.length then .ok (List.zipWith (fun x y => A.fl (x + y)) a b) else .error .valueError

/-- The re-scaling of new log-weights (filter.py:159-169, 247-257, 314-324, 468-478). -/
noncomputable def flWeightUpdate (A : Arith) (pa : PA P) (new_weights : List ℝ) : PyM (PA P) := do
  let m ← npMax new_weights
  let off := A.fl (pa.w_offset + m)
  let nw := new_weights.map fun x => A.fl (x - m)
  let w ← flAdd A pa.w nw
  let m' ← npMax w
  return { pa with w := w.map fun x => A.fl (x - m'), w_offset := A.fl (off + m') }

/-- The resampling test (filter.py:77-83, 224-230, 450-456). -/
noncomputable def flMaybeResample (A : Arith) (res : ℝ) (pa : PA P) (r : ℝ) : PyM (PA P × Bool × List ℕ) :=
  open Classical in
  if 0 < res then do
    let q ← flSumSq A pa.w
    if flBelow A res pa.num q then do
      let (pa', anc) ← flResample A pa pa.num r
      return (pa', true, anc)
    else return (pa, false, List.range pa.num)
  else return (pa, false, List.range pa.num)

/-- `ParticleFilter.measure` (filter.py:130-171). -/
noncomputable def flMeasure (A : Arith) (M : Callbacks P U Y V Ω) (traj : List (Step P)) (anc : List ℕ) (pa : PA P)
    (uvec : List (Slot U)) (yvec : List (Slot Y)) (tvec : List ℕ) (cur : ℕ) : PyM (PA P) := do
  let nw ← M.measure pa.part traj uvec (yvec.take (cur + 1)) (tvec.take (cur + 1)) anc
  flWeightUpdate A pa nw

/-- `ParticleFilter.forward` (filter.py:57-94). -/
noncomputable def flForward (A : Arith) (M : Callbacks P U Y V Ω) (res : ℝ) (traj : List (Step P))
    (yvec : List (Slot Y)) (uvec : List (Slot U)) (tvec : List ℕ) (cur : ℕ) (d : Draws Ω) :
    PyM (PA P × Bool × List ℕ) := do
  let last ← getLast traj
  let pa ← PA.new last.pa.part (some last.pa.w)
  let (pa, resampled, anc) ← flMaybeResample A res pa d.r
  let pa ← pfUpdate M traj anc uvec yvec tvec cur pa d.ω
  let pa ← flMeasure A M traj anc pa uvec yvec tvec (cur + 1)
  return (pa, resampled, anc)

/-- The filter 'pf' in rounded arithmetic.  (Simplification: the weights `-log N` of the first time step come from `PA.new` and are exact; the theorems below hold for any
weights of a step.) -/
noncomputable def flPfOps (A : Arith) (M : Callbacks P U Y V Ω) (res : ℝ) : FilterOps P U Y V Ω :=
  ⟨M.createInitial, flForward A M res, flMeasure A M, fun _ _ _ _ => .error .assertionError, false⟩

/-- `sample(numpy.exp(w)/numpy.sum(numpy.exp(w)), n)` (filter.py:353-355, 558-560, 611-613, 736-738), without subtraction of the maximum: with total `0` the normalised
weights are NaN, so are their cumulative sums, and `searchsorted` answers `0`. -/
noncomputable def flExpSample (A : Arith) (w : List ℝ) (n : ℕ) (r : ℝ) : PyM (List ℕ) :=
  let tmp := w.map A.exp
  let s := A.sum tmp
  if w = [] then .error .indexError
  else if s = 0 then .ok (List.replicate n 0)
  else flSample A (tmp.map fun x => A.fl (x / s)) n r

/-- `w -= max(w); tmp = exp(w); tmp /= sum(tmp); sample(tmp, n)`: the selection of the end particles (smoother.py:311-316, 333-338), of a smoothed particle in `bsi_full`
(smoother.py:33-39, `n = 1`) and of the ancestor of the conditioned particle (filter.py:366-369). -/
noncomputable def flMaxSample (A : Arith) (w : List ℝ) (n : ℕ) (r : ℝ) : PyM (List ℕ) := do
  let m ← npMax w
  let tmp := w.map fun x => A.exp (A.fl (x - m))
  let s := A.sum tmp
  flSample A (tmp.map fun x => A.fl (x / s)) n r

/-- `bsi_full` (smoother.py:11-41). -/
noncomputable def flBsiFull (A : Arith) (S : SmoothCallbacks P U Y V Ω) (pa : PA P) (ptraj : List (SStep P)) (pind : List ℕ)
    (fut : List (SStep P)) (find : List ℕ) (D : SData U Y) (cur : ℕ) (rs : ℕ → ℝ) : PyM (List ℕ) :=
  find.zipIdx.mapM fun fj => do
    let p_next ← S.logpXnextFull pa.part (some ptraj) (some pind) fut (List.replicate pa.w.length fj.1) D cur
    let w ← flAdd A pa.w p_next
    let s ← flMaxSample A w 1 (rs fj.2)
    getIdx s 0

/-- `ParticleApproximation.sample` (filter.py:1125-1131). -/
noncomputable def flDraw (A : Arith) (pa : PA P) (r : ℝ) : PyM P := do
  let idx ← flSample A (pa.w.map A.exp) 1 r
  let i ← getIdx idx 0
  getIdx pa.part i

/-- `ParticleApproximation(particles)` (filter.py:1066-1086) without weights: `-math.log(num) * numpy.ones(num)`. -/
noncomputable def flNew (A : Arith) (part : List P) : PyM (PA P) := do
  let pa ← PA.new part none
  return { pa with w := List.replicate part.length (-A.log part.length) }

/-- `a - b` for two 1-D arrays. -/
noncomputable def flSub (A : Arith) (a b : List ℝ) : PyM (List ℝ) :=
  if a.length = b.length then .ok (List.zipWith (fun x y => A.fl (x - y)) a b) else .error .valueError

/-- `SIR.forward` (filter.py:204-260). -/
noncomputable def flSirForward (A : Arith) (M : Callbacks P U Y V Ω) (res : ℝ) (traj : List (Step P))
    (yvec : List (Slot Y)) (uvec : List (Slot U)) (tvec : List ℕ) (cur : ℕ) (d : Draws Ω) :
    PyM (PA P × Bool × List ℕ) := do
  let last ← getLast traj
  let pa ← PA.new last.pa.part (some last.pa.w)
  let (pa, resampled, anc) ← flMaybeResample A res pa d.r
  let u ← getIdx uvec cur
  let y ← getIdx yvec (cur + 1)
  let t ← getIdx tvec cur
  let pnext ← M.qsample pa.part u y t d.ω
  let qw ← M.logpQ pa.part pnext u y t
  let nw ← M.logpXnext pa.part pnext u t
  let t1 ← getIdx tvec (cur + 1)
  let yw ← M.sirMeasure pnext y t1
  let s ← flAdd A yw nw
  let new_weights ← flSub A s qw
  let pa ← flWeightUpdate A pa new_weights
  return ({ pa with part := pnext }, resampled, anc)

/-- The selection of the ancestor of the conditioned particle (filter.py:365-370, 627-632, 753-758). -/
noncomputable def flCondAncestor (A : Arith) (wtrans w : List ℝ) (r : ℝ) : PyM ℕ := do
  let wanc ← flAdd A wtrans w
  let condind ← flMaxSample A wanc 1 r
  getIdx condind 0

/-- `CSIRAS.forward` (filter.py:334-395): the weights `yw + nw - qw` are stored without scaling by their maximum. -/
noncomputable def flCsirasForward (A : Arith) (M : Callbacks P U Y V Ω) (ctraj : List (Step P)) (traj : List (Step P))
    (yvec : List (Slot Y)) (uvec : List (Slot U)) (tvec : List ℕ) (cur : ℕ) (d : Draws Ω) :
    PyM (PA P × Bool × List ℕ) := do
  let last ← getLast traj
  let N := last.pa.part.length
  let anc0 ← flExpSample A last.pa.w (N - 1) d.r
  let tc ← getIdx traj cur
  let c1 ← getIdx ctraj (cur + 1)
  let cpart ← fancy c1.pa.part (List.replicate N 0)
  let u ← getIdx uvec cur
  let t ← getIdx tvec cur
  let wtrans ← M.logpXnext tc.pa.part cpart u t
  let wpind ← fancy last.pa.w (List.range N)
  let condind ← flCondAncestor A wtrans wpind d.r2
  let anc := anc0 ++ [condind]
  let part ← fancy last.pa.part anc
  let pa ← flNew A part
  let y ← getIdx yvec (cur + 1)
  let pnext ← M.qsample pa.part u y t d.ω
  let c0 ← getIdx c1.pa.part 0
  let pnext ← setLast pnext c0
  let qw ← M.logpQ pa.part pnext u y t
  let nw ← M.logpXnext pa.part pnext u t
  let t1 ← getIdx tvec (cur + 1)
  let yw ← M.sirMeasure pnext y t1
  let s ← flAdd A yw nw
  let w ← flSub A s qw
  return ({ pa with w := w, part := pnext }, true, anc)

/-- The test `yvec is not None and yvec[cur_ind + 1] is not None` followed by the measurement update (filter.py:574-576, 644-646). -/
noncomputable def flCondMeasure (A : Arith) (M : Callbacks P U Y V Ω) (traj : List (Step P)) (anc : List ℕ) (pa : PA P)
    (uvec : List (Slot U)) (yvec : List (Slot Y)) (tvec : List ℕ) (cur1 : ℕ) : PyM (PA P) := do
  match ← getIdx yvec cur1 with
  | .none => return pa
  | _ => flMeasure A M traj anc pa uvec yvec tvec cur1

/-- `CPF.forward` (filter.py:539-578). -/
noncomputable def flCpfForward (A : Arith) (M : Callbacks P U Y V Ω) (ctraj : List (Step P)) (traj : List (Step P))
    (yvec : List (Slot Y)) (uvec : List (Slot U)) (tvec : List ℕ) (cur : ℕ) (d : Draws Ω) :
    PyM (PA P × Bool × List ℕ) := do
  let tc ← getIdx traj cur
  let N := tc.pa.part.length
  let last ← getLast traj
  let anc0 ← flExpSample A last.pa.w (N - 1) d.r
  let anc := anc0 ++ [N - 1]
  let part ← fancy last.pa.part anc
  let pa ← flNew A part
  let pa ← pfUpdate M traj anc uvec yvec tvec cur pa d.ω
  let c1 ← getIdx ctraj (cur + 1)
  let x ← getIdx c1.pa.part 0
  let part ← setLast pa.part x
  let pa ← flCondMeasure A M traj anc { pa with part := part } uvec yvec tvec (cur + 1)
  return (pa, true, anc)

/-- `CPFAS.forward` (filter.py:592-648). -/
noncomputable def flCpfasForward (A : Arith) (M : Callbacks P U Y V Ω) (ctraj : List (Step P)) (traj : List (Step P))
    (yvec : List (Slot Y)) (uvec : List (Slot U)) (tvec : List ℕ) (cur : ℕ) (d : Draws Ω) :
    PyM (PA P × Bool × List ℕ) := do
  let last ← getLast traj
  let N := last.pa.part.length
  let anc0 ← flExpSample A last.pa.w (N - 1) d.r
  let tc ← getIdx traj cur
  let cparts ← fancy tc.pa.part (List.range N)
  let pind ← fancy tc.ancestors (List.range N)
  let c1 ← getIdx ctraj (cur + 1)
  let wtrans ← M.logpXnextSingle cparts (traj.take cur) pind c1.pa.part (List.replicate N 0)
    uvec yvec tvec cur
  let wpind ← fancy last.pa.w (List.range N)
  let condind ← flCondAncestor A wtrans wpind d.r2
  let anc := anc0 ++ [condind]
  let part ← fancy last.pa.part anc
  let pa ← flNew A part
  let pa ← pfUpdate M traj anc uvec yvec tvec cur pa d.ω
  let x ← getIdx c1.pa.part 0
  let part ← setLast pa.part x
  let pa ← flCondMeasure A M traj anc { pa with part := part } uvec yvec tvec (cur + 1)
  return (pa, true, anc)

/-- Exact arithmetic. -/
noncomputable def exactArith : Arith := ⟨id, Real.exp, Real.log, List.sum⟩

end PyPE

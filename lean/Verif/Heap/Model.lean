import Verif.Filter.Model
import Verif.Traj.Model

/-!
# Heap model of the filter steps (C14)

Everywhere else arrays are values. Here numpy arrays and `ParticleApproximation` objects live at
addresses of a heap, so that sharing and in-place updates are visible.  Modelled: `__init__`, `resample`,
the `forward`, `update`, `measure` and `create_initial_estimate` methods of all eight filters and
`ParticleTrajectory.{forward,measure}` (the buffers `u`/`y`/`t` are values; ancestor arrays are values: no code
writes to one after it was stored).
-/

namespace PyPE
open Real

/-- A `ParticleApproximation` object: addresses of its arrays, and its scalar fields. -/
structure HPA where
  part : ℕ
  w : ℕ
  num : ℕ
  off : ℝ

/-- Particle arrays, weight arrays and objects, by address; addresses below `next` are allocated. -/
structure Heap (P : Type) where
  next : ℕ
  part : ℕ → List P
  w : ℕ → List ℝ
  obj : ℕ → HPA

/-- A computation on the heap; an exception keeps the heap effects made before it. -/
def HM (P α : Type) := Heap P → PyM α × Heap P

variable {P U Y V Ω α β : Type}

instance : Monad (HM P) where
  pure v := fun h => (.ok v, h)
  bind x f := fun h => match x h with
    | (.ok v, h') => f v h'
    | (.error e, h') => (.error e, h')

namespace HM
def throw (e : PyErr) : HM P α := fun h => (.error e, h)
/-- A computation without heap effects. -/
def lift (x : PyM α) : HM P α := fun h => (x, h)
/-- A new particle array (`numpy.copy`, `numpy.empty`, fancy indexing). -/
def allocPart (l : List P) : HM P ℕ := fun h =>
  (.ok h.next, { h with next := h.next + 1, part := Function.update h.part h.next l })
/-- A new weight array (`numpy.copy`, the result of `a + b`). -/
def allocW (l : List ℝ) : HM P ℕ := fun h =>
  (.ok h.next, { h with next := h.next + 1, w := Function.update h.w h.next l })
/-- A new object. -/
def allocObj (o : HPA) : HM P ℕ := fun h =>
  (.ok h.next, { h with next := h.next + 1, obj := Function.update h.obj h.next o })
def readPart (a : ℕ) : HM P (List P) := fun h => (.ok (h.part a), h)
def readW (a : ℕ) : HM P (List ℝ) := fun h => (.ok (h.w a), h)
def readObj (a : ℕ) : HM P HPA := fun h => (.ok (h.obj a), h)
/-- In-place write into a particle array. -/
def writePart (a : ℕ) (l : List P) : HM P Unit := fun h =>
  (.ok (), { h with part := Function.update h.part a l })
/-- In-place write into a weight array (`w -= m`, `w += l`). -/
def writeW (a : ℕ) (l : List ℝ) : HM P Unit := fun h =>
  (.ok (), { h with w := Function.update h.w a l })
/-- Assignment to the attributes of an object. -/
def writeObj (a : ℕ) (o : HPA) : HM P Unit := fun h =>
  (.ok (), { h with obj := Function.update h.obj a o })
end HM

/-- A `TrajectoryStep`: a reference to a `ParticleApproximation`, and the ancestors. -/
structure HStep where
  pa : ℕ
  ancestors : List ℕ

/-- The callbacks of a user model, with heap effects. Arrays are passed and returned by reference. -/
structure HCallbacks (P U Y V Ω : Type) where
  createInitial : ℕ → Ω → HM P ℕ
  sampleNoise : List HStep → List ℕ → List (Slot U) → List ℕ → Ω → HM P V
  update : ℕ → List HStep → List (Slot U) → List (Slot Y) → List ℕ → List ℕ → V → HM P Unit
  measure : ℕ → List HStep → List (Slot U) → List (Slot Y) → List ℕ → List ℕ → HM P ℕ
  copyInd : ℕ → List ℕ → HM P ℕ
  evalFirstStage : ℕ → Slot U → Slot Y → ℕ → HM P ℕ
  qsample : ℕ → Slot U → Slot Y → ℕ → Ω → HM P ℕ
  logpQ : ℕ → ℕ → Slot U → Slot Y → ℕ → HM P ℕ
  logpXnext : ℕ → ℕ → Slot U → ℕ → HM P ℕ
  sirMeasure : ℕ → Slot Y → ℕ → HM P ℕ
  logpXnextSingle : ℕ → List HStep → List ℕ → ℕ → List ℕ → List (Slot U) → List (Slot Y) → List ℕ → ℕ → HM P ℕ
  proposeFromY : ℕ → Slot Y → ℕ → Ω → HM P ℕ

/-- `ParticleApproximation.__init__(particles, logw)` (filter.py:1066-1084): both arrays are copied. -/
noncomputable def newH (part : ℕ) (w : Option ℕ) : HM P ℕ := do
  let p ← HM.readPart part
  let a ← HM.allocPart p
  match w with
  | some w => do
    let lw ← HM.readW w
    let b ← HM.allocW lw
    HM.allocObj ⟨a, b, p.length, 0⟩
  | none =>
    if p.length = 0 then HM.throw .valueError
    else do
      let b ← HM.allocW (List.replicate p.length (-log (p.length : ℝ)))
      HM.allocObj ⟨a, b, p.length, 0⟩

/-- `resample(model, N)` (filter.py:1101-1123). -/
noncomputable def resampleH (C : HCallbacks P U Y V Ω) (o : ℕ) (N : ℕ) (r : ℝ) : HM P (List ℕ) := do
  let pa ← HM.readObj o
  let w ← HM.readW pa.w
  let m ← HM.lift (npMax w)
  let ind ← HM.lift (sample (w.map fun x => exp (x - m)) N r)
  let np ← C.copyInd pa.part ind
  let nw ← HM.allocW (List.replicate N (log (1 / (N : ℝ))))
  HM.writeObj o ⟨np, nw, N, 0⟩
  return ind

/-- The re-scaling of new log-weights (filter.py:159-169, 247-257): `m = max(new_weights);
pa.w_offset += m; new_weights -= m` (in place, in the array the model returned), `pa.w = pa.w + new_weights`
(a new array), `pa.w_offset += m'; pa.w -= m'` (in place, in that new array). -/
noncomputable def weightUpdateH (o nw : ℕ) : HM P Unit := do
  let l ← HM.readW nw
  let m ← HM.lift (npMax l)
  let pa ← HM.readObj o
  HM.writeObj o { pa with off := pa.off + m }
  HM.writeW nw (l.map (· - m))
  let pa ← HM.readObj o
  let w ← HM.readW pa.w
  let l ← HM.readW nw
  let s ← HM.lift (npAdd w l)
  let a ← HM.allocW s
  HM.writeObj o { pa with w := a }
  let m' ← HM.lift (npMax s)
  HM.writeObj o { pa with w := a, off := pa.off + m' }
  HM.writeW a (s.map (· - m'))

/-- `ParticleFilter.update` (filter.py:96-127), `inplace=True`. -/
noncomputable def updateH (C : HCallbacks P U Y V Ω) (traj : List HStep) (anc : List ℕ)
    (uvec : List (Slot U)) (yvec : List (Slot Y)) (tvec : List ℕ) (cur : ℕ) (o : ℕ) (ω : Ω) : HM P Unit := do
  let v ← C.sampleNoise traj anc (uvec.take (cur + 1)) (tvec.take (cur + 1)) ω
  let pa ← HM.readObj o
  C.update pa.part traj (uvec.take (cur + 1)) (yvec.take (cur + 1)) (tvec.take (cur + 1)) anc v

/-- `ParticleFilter.measure` (filter.py:130-171), `inplace=True`. -/
noncomputable def measureH (C : HCallbacks P U Y V Ω) (traj : List HStep) (anc : List ℕ) (o : ℕ)
    (uvec : List (Slot U)) (yvec : List (Slot Y)) (tvec : List ℕ) (cur : ℕ) : HM P Unit := do
  let pa ← HM.readObj o
  let nw ← C.measure pa.part traj uvec (yvec.take (cur + 1)) (tvec.take (cur + 1)) anc
  weightUpdateH o nw

/-- The resampling test (filter.py:77-83, 224-230). -/
noncomputable def maybeResampleH (C : HCallbacks P U Y V Ω) (res : ℝ) (o : ℕ) (r : ℝ) :
    HM P (Bool × List ℕ) := do
  let pa ← HM.readObj o
  if 0 < res then do
    let w ← HM.readW pa.w
    let neff ← HM.lift (calcNeff w)
    if neff < res * pa.num then do
      let anc ← resampleH C o pa.num r
      return (true, anc)
    else return (false, List.range pa.num)
  else return (false, List.range pa.num)

/-- `ParticleFilter.forward` (filter.py:57-94). -/
noncomputable def pfForwardH (C : HCallbacks P U Y V Ω) (res : ℝ) (traj : List HStep)
    (yvec : List (Slot Y)) (uvec : List (Slot U)) (tvec : List ℕ) (cur : ℕ) (d : Draws Ω) :
    HM P (ℕ × Bool × List ℕ) := do
  let last ← HM.lift (getLast traj)
  let lpa ← HM.readObj last.pa
  let o ← newH lpa.part (some lpa.w)
  let (flag, anc) ← maybeResampleH C res o d.r
  updateH C traj anc uvec yvec tvec cur o d.ω
  measureH C traj anc o uvec yvec tvec (cur + 1)
  return (o, flag, anc)

/-- The first-stage weights of `AuxiliaryParticleFilter.forward` (filter.py:680-685): the in-place updates
`pa.w += l1w`, `pa.w -= max`. Without a measurement `l1w` stays unbound. -/
noncomputable def apfFirstH (C : HCallbacks P U Y V Ω) (uvec : List (Slot U)) (tvec : List ℕ) (cur o : ℕ) :
    Slot Y → HM P (Option ℕ)
  | .none => pure none
  | y => do
    let u ← HM.lift (getIdx uvec cur)
    let t ← HM.lift (getIdx tvec cur)
    let pa ← HM.readObj o
    let l1 ← C.evalFirstStage pa.part u y t
    let w ← HM.readW pa.w
    let l ← HM.readW l1
    let w1 ← HM.lift (npAdd w l)
    HM.writeW pa.w w1
    let m ← HM.lift (npMax w1)
    HM.writeW pa.w (w1.map (· - m))
    pure (some l1)

/-- The resampling of `AuxiliaryParticleFilter.forward` (filter.py:687-693). `l1w[ancestors]` is a new array. -/
noncomputable def apfResampleH (C : HCallbacks P U Y V Ω) (res : ℝ) (o : ℕ) (r : ℝ) (l1 : Option ℕ) :
    HM P (Bool × List ℕ × Option ℕ) := do
  let pa ← HM.readObj o
  if res ≠ 0 then do
    let w ← HM.readW pa.w
    let neff ← HM.lift (calcNeff w)
    if neff < res * pa.num then do
      let anc ← resampleH C o pa.num r
      match l1 with
      | none => HM.throw .unboundLocalError
      | some a => do
        let l ← HM.readW a
        let l' ← HM.lift (fancy l anc)
        let a' ← HM.allocW l'
        pure (true, anc, some a')
    else pure (false, List.range pa.num, l1)
  else pure (false, List.range pa.num, l1)

/-- The end of `AuxiliaryParticleFilter.forward` (filter.py:704-705): `pa.w -= l1w; pa.w -= max`. -/
noncomputable def apfSecondH (o : ℕ) : Option ℕ → HM P Unit
  | none => HM.throw .unboundLocalError
  | some a => do
    let pa ← HM.readObj o
    let w ← HM.readW pa.w
    let l ← HM.readW a
    let w2 ← HM.lift (npSub w l)
    HM.writeW pa.w w2
    let m ← HM.lift (npMax w2)
    HM.writeW pa.w (w2.map (· - m))

/-- `AuxiliaryParticleFilter.forward` (filter.py:657-707). -/
noncomputable def apfForwardH (C : HCallbacks P U Y V Ω) (res : ℝ) (traj : List HStep)
    (yvec : List (Slot Y)) (uvec : List (Slot U)) (tvec : List ℕ) (cur : ℕ) (d : Draws Ω) :
    HM P (ℕ × Bool × List ℕ) := do
  let last ← HM.lift (getLast traj)
  let lpa ← HM.readObj last.pa
  let o ← newH lpa.part (some lpa.w)
  let y ← HM.lift (getIdx yvec (cur + 1))
  let l1 ← apfFirstH C uvec tvec cur o y
  let (flag, anc, l1) ← apfResampleH C res o d.r l1
  updateH C traj anc uvec yvec tvec cur o d.ω
  measureH C traj anc o uvec yvec tvec (cur + 1)
  apfSecondH o l1
  return (o, flag, anc)

/-- `SIR.forward` (filter.py:204-260); `yw + nw - qw` is a new array. -/
noncomputable def sirForwardH (C : HCallbacks P U Y V Ω) (res : ℝ) (traj : List HStep)
    (yvec : List (Slot Y)) (uvec : List (Slot U)) (tvec : List ℕ) (cur : ℕ) (d : Draws Ω) :
    HM P (ℕ × Bool × List ℕ) := do
  let last ← HM.lift (getLast traj)
  let lpa ← HM.readObj last.pa
  let o ← newH lpa.part (some lpa.w)
  let (flag, anc) ← maybeResampleH C res o d.r
  let pa ← HM.readObj o
  let u ← HM.lift (getIdx uvec cur)
  let y ← HM.lift (getIdx yvec (cur + 1))
  let t ← HM.lift (getIdx tvec cur)
  let pnext ← C.qsample pa.part u y t d.ω
  let qw ← C.logpQ pa.part pnext u y t
  let nw ← C.logpXnext pa.part pnext u t
  let t1 ← HM.lift (getIdx tvec (cur + 1))
  let yw ← C.sirMeasure pnext y t1
  let yw ← HM.readW yw
  let nw ← HM.readW nw
  let qw ← HM.readW qw
  let s ← HM.lift (npAdd yw nw)
  let s ← HM.lift (npSub s qw)
  let a ← HM.allocW s
  weightUpdateH o a
  let pa ← HM.readObj o
  HM.writeObj o { pa with part := pnext }
  return (o, flag, anc)

/-- The particle array of step `k` of the conditional trajectory, `self.ctraj[k].pa.part`. -/
def condPartH (ct : List HStep) (k : ℕ) : HM P ℕ := do
  let c ← HM.lift (getIdx ct k)
  let cpa ← HM.readObj c.pa
  return cpa.part

/-- `a[-1] = ctraj[k].pa.part[0]`, in place, where `c` is the address of `ctraj[k].pa.part`. -/
def setRefH (a c : ℕ) : HM P Unit := do
  let cp ← HM.readPart c
  let x ← HM.lift (getIdx cp 0)
  let p ← HM.readPart a
  let p' ← HM.lift (setLast p x)
  HM.writePart a p'

/-- `CPF.create_initial_estimate` (filter.py:524-537): writes into the array the model returned. -/
def cpfInitialH (C : HCallbacks P U Y V Ω) (ct : List HStep) (N : ℕ) (ω : Ω) : HM P ℕ := do
  let a ← C.createInitial N ω
  let c ← condPartH ct 0
  setRefH a c
  return a

/-- The measurement update of the conditional filters, if there is a measurement (filter.py:574-576, 644-646). -/
noncomputable def condMeasureH (C : HCallbacks P U Y V Ω) (traj : List HStep) (anc : List ℕ) (o : ℕ)
    (uvec : List (Slot U)) (yvec : List (Slot Y)) (tvec : List ℕ) (cur1 : ℕ) : HM P Unit := do
  match ← HM.lift (getIdx yvec cur1) with
  | .none => return ()
  | _ => measureH C traj anc o uvec yvec tvec cur1

/-- `CPF.forward` (filter.py:539-578). -/
noncomputable def cpfForwardH (C : HCallbacks P U Y V Ω) (ct : List HStep) (traj : List HStep)
    (yvec : List (Slot Y)) (uvec : List (Slot U)) (tvec : List ℕ) (cur : ℕ) (d : Draws Ω) :
    HM P (ℕ × Bool × List ℕ) := do
  let tc ← HM.lift (getIdx traj cur)
  let tpa ← HM.readObj tc.pa
  let tp ← HM.readPart tpa.part
  let last ← HM.lift (getLast traj)
  let lpa ← HM.readObj last.pa
  let w ← HM.readW lpa.w
  let anc0 ← HM.lift (sample (expNormalised w) (tp.length - 1) d.r)
  let anc := anc0 ++ [tp.length - 1]
  let np ← C.copyInd lpa.part anc
  let o ← newH np none
  updateH C traj anc uvec yvec tvec cur o d.ω
  let c ← condPartH ct (cur + 1)
  let pa ← HM.readObj o
  setRefH pa.part c
  condMeasureH C traj anc o uvec yvec tvec (cur + 1)
  return (o, true, anc)

/-- The choice of the ancestor of the conditioned particle (filter.py:365-370, 627-632, 753-758): `wtrans` and
`w` are addresses, `wtrans + w[pind]` is a new array. -/
noncomputable def condAncestorH (wtrans w N : ℕ) (r : ℝ) : HM P ℕ := do
  let lw ← HM.readW w
  let wpind ← HM.lift (fancy lw (List.range N))
  let wt ← HM.readW wtrans
  HM.lift (condAncestor wt wpind r)

/-- `part[idx]` for a stored particle array: a new array. -/
def indexPartH (p : ℕ) (idx : List ℕ) : HM P ℕ := do
  let l ← HM.readPart p
  let l' ← HM.lift (fancy l idx)
  HM.allocPart l'

/-- `CPFAS.forward` (filter.py:592-648). -/
noncomputable def cpfasForwardH (C : HCallbacks P U Y V Ω) (ct : List HStep) (traj : List HStep)
    (yvec : List (Slot Y)) (uvec : List (Slot U)) (tvec : List ℕ) (cur : ℕ) (d : Draws Ω) :
    HM P (ℕ × Bool × List ℕ) := do
  let last ← HM.lift (getLast traj)
  let lpa ← HM.readObj last.pa
  let lp ← HM.readPart lpa.part
  let w ← HM.readW lpa.w
  let anc0 ← HM.lift (sample (expNormalised w) (lp.length - 1) d.r)
  let tc ← HM.lift (getIdx traj cur)
  let tpa ← HM.readObj tc.pa
  let cp ← indexPartH tpa.part (List.range lp.length)
  let pind ← HM.lift (fancy tc.ancestors (List.range lp.length))
  let c ← condPartH ct (cur + 1)
  let wtrans ← C.logpXnextSingle cp (traj.take cur) pind c (List.replicate lp.length 0) uvec yvec tvec cur
  let condind ← condAncestorH wtrans lpa.w lp.length d.r2
  let anc := anc0 ++ [condind]
  let np ← C.copyInd lpa.part anc
  let o ← newH np none
  updateH C traj anc uvec yvec tvec cur o d.ω
  let pa ← HM.readObj o
  setRefH pa.part c
  condMeasureH C traj anc o uvec yvec tvec (cur + 1)
  return (o, true, anc)

/-- `CSIRAS.forward` (filter.py:334-395): `pnext[-1] = …` writes into the array `qsample` returned,
`pa.part[:] = pnext` into the new approximation (simplification: of the same length). -/
noncomputable def csirasForwardH (C : HCallbacks P U Y V Ω) (ct : List HStep) (traj : List HStep)
    (yvec : List (Slot Y)) (uvec : List (Slot U)) (tvec : List ℕ) (cur : ℕ) (d : Draws Ω) :
    HM P (ℕ × Bool × List ℕ) := do
  let last ← HM.lift (getLast traj)
  let lpa ← HM.readObj last.pa
  let lp ← HM.readPart lpa.part
  let w ← HM.readW lpa.w
  let anc0 ← HM.lift (sample (expNormalised w) (lp.length - 1) d.r)
  let tc ← HM.lift (getIdx traj cur)
  let tpa ← HM.readObj tc.pa
  let c ← condPartH ct (cur + 1)
  let cp ← indexPartH c (List.replicate lp.length 0)
  let u ← HM.lift (getIdx uvec cur)
  let t ← HM.lift (getIdx tvec cur)
  let wtrans ← C.logpXnext tpa.part cp u t
  let condind ← condAncestorH wtrans lpa.w lp.length d.r2
  let anc := anc0 ++ [condind]
  let np ← C.copyInd lpa.part anc
  let o ← newH np none
  let pa ← HM.readObj o
  let y ← HM.lift (getIdx yvec (cur + 1))
  let pnext ← C.qsample pa.part u y t d.ω
  setRefH pnext c
  let qw ← C.logpQ pa.part pnext u y t
  let nw ← C.logpXnext pa.part pnext u t
  let t1 ← HM.lift (getIdx tvec (cur + 1))
  let yw ← C.sirMeasure pnext y t1
  let yw ← HM.readW yw
  let nw ← HM.readW nw
  let qw ← HM.readW qw
  let s ← HM.lift (npAdd yw nw)
  let s ← HM.lift (npSub s qw)
  let a ← HM.allocW s
  HM.writeObj o { pa with w := a }
  let l ← HM.readPart pnext
  HM.writePart pa.part l
  return (o, true, anc)

/-- `FFPropY.forward` (filter.py:429-480); `pa.part = partn` shares the array the model returned. -/
noncomputable def ffpropyForwardH (C : HCallbacks P U Y V Ω) (res : ℝ) (N : ℕ) (traj : List HStep)
    (yvec : List (Slot Y)) (uvec : List (Slot U)) (tvec : List ℕ) (cur : ℕ) (d : Draws Ω) :
    HM P (ℕ × Bool × List ℕ) := do
  let last ← HM.lift (getLast traj)
  let lpa ← HM.readObj last.pa
  let o ← newH lpa.part (some lpa.w)
  let (flag, anc) ← maybeResampleH C res o d.r
  let pa ← HM.readObj o
  let p ← HM.readPart pa.part
  let y ← HM.lift (getLast yvec)
  let t ← HM.lift (getLast tvec)
  let partn ← C.proposeFromY p.length y t d.ω
  let tc ← HM.lift (getIdx traj cur)
  let tpa ← HM.readObj tc.pa
  let part ← indexPartH tpa.part anc
  let pind ← HM.lift (fancy tc.ancestors anc)
  let wn ← C.logpXnextSingle part (traj.take cur) pind partn (List.range N) uvec yvec tvec cur
  let pa ← HM.readObj o
  HM.writeObj o { pa with part := partn }
  weightUpdateH o wn
  return (o, flag, anc)

/-- `FFPropY.measure` (filter.py:482-505) with `inplace=False`. -/
noncomputable def ffpropyMeasureH (C : HCallbacks P U Y V Ω) (N : ℕ) (yvec : List (Slot Y))
    (tvec : List ℕ) (cur : ℕ) (ω : Ω) : HM P ℕ := do
  let y ← HM.lift (getIdx yvec cur)
  let t ← HM.lift (getIdx tvec cur)
  let part ← C.proposeFromY N y t ω
  newH part none

/-- `partn[-1] = ctraj[k].pa.part` (filter.py:762, 801), in place. -/
def setRefFromH (a c : ℕ) : HM P Unit := do
  let cp ← HM.readPart c
  let p ← HM.readPart a
  let p' ← HM.lift (setLastFrom p cp)
  HM.writePart a p'

/-- `CPFYAS.forward` (filter.py:717-777); `wn -= m` in place. -/
noncomputable def cpfyasForwardH (C : HCallbacks P U Y V Ω) (N : ℕ) (ct : List HStep) (traj : List HStep)
    (yvec : List (Slot Y)) (uvec : List (Slot U)) (tvec : List ℕ) (cur : ℕ) (d : Draws Ω) :
    HM P (ℕ × Bool × List ℕ) := do
  let tc ← HM.lift (getIdx traj cur)
  let tpa ← HM.readObj tc.pa
  let w ← HM.readW tpa.w
  let anc0 ← HM.lift (sample (expNormalised w) (N - 1) d.r)
  let cp ← indexPartH tpa.part (List.range N)
  let pind ← HM.lift (fancy tc.ancestors (List.range N))
  let c ← condPartH ct (cur + 1)
  let wtrans ← C.logpXnextSingle cp (traj.take cur) pind c (List.replicate N 0) uvec yvec tvec cur
  let condind ← condAncestorH wtrans tpa.w N d.r2
  let anc := anc0 ++ [condind]
  let y ← HM.lift (getIdx yvec (cur + 1))
  let t1 ← HM.lift (getIdx tvec (cur + 1))
  let partn ← C.proposeFromY N y t1 d.ω
  setRefFromH partn c
  let last ← HM.lift (getLast traj)
  let lpa ← HM.readObj last.pa
  let part ← indexPartH lpa.part anc
  let pind' ← HM.lift (fancy tc.ancestors anc)
  let wn ← C.logpXnextSingle part (traj.take cur) pind' partn (List.range N) uvec yvec tvec cur
  let l ← HM.readW wn
  let m ← HM.lift (npMax l)
  HM.writeW wn (l.map (· - m))
  let o ← newH partn (some wn)
  let pa ← HM.readObj o
  HM.writeObj o { pa with off := pa.off + m }
  return (o, true, anc)

/-- `CPFYAS.measure` (filter.py:779-803) with `inplace=False`. -/
noncomputable def cpfyasMeasureH (C : HCallbacks P U Y V Ω) (N : ℕ) (ct : List HStep)
    (yvec : List (Slot Y)) (tvec : List ℕ) (cur : ℕ) (ω : Ω) : HM P ℕ := do
  let y ← HM.lift (getIdx yvec cur)
  let t ← HM.lift (getIdx tvec cur)
  let part ← C.proposeFromY N y t ω
  let c ← condPartH ct cur
  setRefFromH part c
  newH part none

abbrev ForwardH (P U Y Ω : Type) := List HStep → List (Slot Y) → List (Slot U) → List ℕ → ℕ → Draws Ω →
  HM P (ℕ × Bool × List ℕ)

/-- A filter object, as used by `ParticleTrajectory`. -/
structure FilterOpsH (P U Y Ω : Type) where
  create : ℕ → Ω → HM P ℕ
  forward : ForwardH P U Y Ω
  measure : List HStep → List ℕ → ℕ → List (Slot U) → List (Slot Y) → List ℕ → ℕ → HM P Unit
  measureNew : List (Slot Y) → List ℕ → ℕ → Ω → HM P ℕ
  usingPfy : Bool

/-- `filter_options`, whose conditional trajectory consists of stored steps. -/
inductive FilterOptionsH where
  | none
  | dict (condTraj : Option (List HStep))

/-- `filter_options['cond_traj']`. -/
def FilterOptionsH.condTraj : FilterOptionsH → PyM (List HStep)
  | .none => .error .typeError
  | .dict Option.none => .error .keyError
  | .dict (Option.some c) => .ok c

/-- The filter object built by `ParticleTrajectory.__init__` (filter.py:867-885). -/
noncomputable def mkFilterH (C : HCallbacks P U Y V Ω) (N : ℕ) (res : ℝ) (name : String)
    (opts : FilterOptionsH) : PyM (FilterOpsH P U Y Ω) := do
  let kind ← parseFilter name
  match kind with
  | .pf => return ⟨C.createInitial, pfForwardH C res, measureH C, fun _ _ _ _ => HM.throw .typeError, false⟩
  | .apf => return ⟨C.createInitial, apfForwardH C res, measureH C, fun _ _ _ _ => HM.throw .typeError, false⟩
  | .pfy => return ⟨C.createInitial, ffpropyForwardH C res N, fun _ _ _ _ _ _ _ => HM.throw .assertionError,
      ffpropyMeasureH C N, true⟩
  | .cpfyas => do
    let c ← opts.condTraj
    return ⟨cpfInitialH C c, cpfyasForwardH C N c, fun _ _ _ _ _ _ _ => HM.throw .assertionError,
      cpfyasMeasureH C N c, true⟩
  | .cpfas => do
    let c ← opts.condTraj
    return ⟨cpfInitialH C c, cpfasForwardH C c, measureH C, fun _ _ _ _ => HM.throw .typeError, false⟩
  | .cpf => do
    let c ← opts.condTraj
    return ⟨cpfInitialH C c, cpfForwardH C c, measureH C, fun _ _ _ _ => HM.throw .typeError, false⟩
  | .sir => return ⟨C.createInitial, sirForwardH C res, measureH C, fun _ _ _ _ => HM.throw .typeError, false⟩
  | .csiras => do
    let c ← opts.condTraj
    return ⟨C.createInitial, csirasForwardH C c, measureH C, fun _ _ _ _ => HM.throw .typeError, false⟩

/-- State of a `ParticleTrajectory` whose steps live on the heap. -/
structure HPT (U Y : Type) where
  uvec : List (Slot U)
  yvec : List (Slot Y)
  tvec : List ℕ
  T : ℕ
  ind1 : ℕ
  N : ℕ
  traj : List HStep

/-- The buffer growth of `forward` (filter.py:909-919). -/
def HPT.growForward (s : HPT U Y) : HPT U Y :=
  if s.T ≤ s.ind1 then
    { s with uvec := npResize s.uvec s.ind1 .zero, yvec := npResize s.yvec (s.ind1 + 1) .zero,
             tvec := npResize s.tvec (s.ind1 + 1) 0, T := s.ind1 + 1 }
  else s

/-- The buffer growth of `measure` (filter.py:947-957). -/
def HPT.growMeasure (s : HPT U Y) : HPT U Y :=
  if s.T ≤ s.ind1 then
    { s with uvec := npResize s.uvec (s.ind1 + 1) .zero, yvec := npResize s.yvec (s.ind1 + 1) .zero,
             tvec := npResize s.tvec (s.ind1 + 1) 0, T := s.ind1 + 1 }
  else s

/-- A method call on a `ParticleTrajectory`: new state (also after an exception), result, heap. -/
abbrev HRes (P U Y α : Type) := (HPT U Y × PyM α) × Heap P

/-- The lazy creation of the first step (filter.py:903-907, 975-980). -/
noncomputable def HPT.ensureInit (F : FilterOpsH P U Y Ω) (s : HPT U Y) (ω : Ω) (h : Heap P) : HRes P U Y Unit :=
  if s.traj.length = 0 then
    let s := { s with ind1 := 1 }
    match (do let p ← F.create s.N ω; newH p none : HM P ℕ) h with
    | (.error e, h) => ((s, .error e), h)
    | (.ok o, h) => (({ s with traj := s.traj ++ [⟨o, List.range s.N⟩] }, .ok ()), h)
  else ((s, .ok ()), h)

/-- `ParticleTrajectory.forward(u, y)` (filter.py:891-934). -/
noncomputable def HPT.forward (F : FilterOpsH P U Y Ω) (s : HPT U Y) (u : Slot U) (y : Slot Y)
    (ω0 : Ω) (d : Draws Ω) (h : Heap P) : HRes P U Y Bool :=
  match s.ensureInit F ω0 h with
  | ((s, .error e), h) => ((s, .error e), h)
  | ((s, .ok ()), h) =>
    let s := s.growForward
    match setIdx s.uvec (s.ind1 - 1) u with
    | .error e => ((s, .error e), h)
    | .ok uv =>
      let s := { s with uvec := uv }
      match setIdx s.yvec s.ind1 y with
      | .error e => ((s, .error e), h)
      | .ok yv =>
        let s := { s with yvec := yv }
        match setIdx s.tvec s.ind1 s.ind1 with
        | .error e => ((s, .error e), h)
        | .ok tv =>
          let ind := s.ind1 - 1
          let s := { s with tvec := tv, ind1 := s.ind1 + 1 }
          match F.forward s.traj s.yvec s.uvec s.tvec ind d h with
          | (.error e, h) => ((s, .error e), h)
          | (.ok (o, resampled, anc), h) => (({ s with traj := s.traj ++ [⟨o, anc⟩] }, .ok resampled), h)

/-- `ParticleTrajectory.measure(y)` (filter.py:936-988). -/
noncomputable def HPT.measure (F : FilterOpsH P U Y Ω) (s : HPT U Y) (y : Slot Y) (ω : Ω) (h : Heap P) :
    HRes P U Y Unit :=
  let s := s.growMeasure
  if F.usingPfy then
    let s := { s with ind1 := s.ind1 + 1 }
    match setIdx s.yvec (s.ind1 - 1) y with
    | .error e => ((s, .error e), h)
    | .ok yv =>
      let s := { s with yvec := yv }
      match setIdx s.tvec (s.ind1 - 1) (s.ind1 - 1) with
      | .error e => ((s, .error e), h)
      | .ok tv =>
        let s := { s with tvec := tv }
        match F.measureNew s.yvec s.tvec (s.ind1 - 1) ω h with
        | (.error e, h) => ((s, .error e), h)
        | (.ok o, h) => (({ s with traj := s.traj ++ [⟨o, List.range s.N⟩] }, .ok ()), h)
  else
    match s.ensureInit F ω h with
    | ((s, .error e), h) => ((s, .error e), h)
    | ((s, .ok ()), h) =>
      match setIdx s.yvec (s.ind1 - 1) y with
      | .error e => ((s, .error e), h)
      | .ok yv =>
        let s := { s with yvec := yv }
        match setIdx s.tvec (s.ind1 - 1) (s.ind1 - 1) with
        | .error e => ((s, .error e), h)
        | .ok tv =>
          let s := { s with tvec := tv }
          match getLast s.traj with
          | .error e => ((s, .error e), h)
          | .ok last =>
            match F.measure s.traj last.ancestors last.pa s.uvec s.yvec s.tvec (s.ind1 - 1) h with
            | (.error e, h) => ((s, .error e), h)
            | (.ok (), h) => ((s, .ok ()), h)

/-- Execute one operation. -/
noncomputable def HPT.step (F : FilterOpsH P U Y Ω) (s : HPT U Y) (op : Op U Y Ω) (h : Heap P) : HRes P U Y (Option Bool) :=
  match op with
  | .forward u y ω0 d =>
    match s.forward F u y ω0 d h with
    | ((s, .ok b), h) => ((s, .ok (some b)), h)
    | ((s, .error e), h) => ((s, .error e), h)
  | .measure y ω =>
    match s.measure F y ω h with
    | ((s, .ok ()), h) => ((s, .ok none), h)
    | ((s, .error e), h) => ((s, .error e), h)

/-- Execute a sequence of operations, stopping at the first exception. -/
noncomputable def HPT.run (F : FilterOpsH P U Y Ω) (s : HPT U Y) : List (Op U Y Ω) → Heap P → HRes P U Y (List (Option Bool))
  | [], h => ((s, .ok []), h)
  | op :: ops, h =>
    match s.step F op h with
    | ((s, .error e), h) => ((s, .error e), h)
    | ((s, .ok b), h) =>
      match HPT.run F s ops h with
      | ((s, .error e), h) => ((s, .error e), h)
      | ((s, .ok bs), h) => ((s, .ok (b :: bs)), h)

/-- Execute a sequence of operations where the caller catches every exception and goes on. -/
noncomputable def HPT.runCatch (F : FilterOpsH P U Y Ω) (s : HPT U Y) (ops : List (Op U Y Ω)) (h : Heap P) : HPT U Y × Heap P :=
  ops.foldl (fun q op => let r := q.1.step F op q.2; (r.1.1, r.2)) (s, h)

end PyPE

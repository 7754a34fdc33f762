import Verif.Py
import Verif.PyLemmas
import Verif.Filter.Model

/-! # IEEE special values in the weight update of the filters (C20)

Floats are real numbers plus `nan`, `+inf`, `-inf`; operations on numbers are exact (no rounding, no
overflow or underflow), operations on special values follow IEEE 754 and numpy. The sign of zero is not
modelled. -/

namespace PyPE
open Real

/-- A float: a number or a special value. -/
inductive Flt where
  | fin (x : ℝ)
  | ninf
  | pinf
  | nan

namespace Flt

/-- IEEE addition. -/
noncomputable def add : Flt → Flt → Flt
  | fin x, fin y => fin (x + y)
  | nan, _ => nan
  | _, nan => nan
  | pinf, ninf => nan
  | ninf, pinf => nan
  | pinf, _ => pinf
  | _, pinf => pinf
  | ninf, _ => ninf
  | _, ninf => ninf

/-- Sign change. -/
noncomputable def neg : Flt → Flt
  | fin x => fin (-x)
  | nan => nan
  | pinf => ninf
  | ninf => pinf

/-- IEEE subtraction. -/
noncomputable def sub (a b : Flt) : Flt := add a (neg b)

/-- IEEE division (a zero divisor counts as `+0`). -/
noncomputable def div : Flt → Flt → Flt
  | nan, _ => nan
  | _, nan => nan
  | fin x, fin y => if y = 0 then (if x = 0 then nan else if 0 < x then pinf else ninf) else fin (x / y)
  | fin _, _ => fin 0
  | pinf, fin y => if 0 ≤ y then pinf else ninf
  | ninf, fin y => if 0 ≤ y then ninf else pinf
  | _, _ => nan

/-- `numpy.square`. -/
noncomputable def sq : Flt → Flt
  | fin x => fin (x ^ 2)
  | nan => nan
  | _ => pinf

/-- `numpy.exp`. -/
noncomputable def fexp : Flt → Flt
  | fin x => fin (exp x)
  | ninf => fin 0
  | pinf => pinf
  | nan => nan

/-- `a < b`: false whenever `nan` is involved. -/
def lt : Flt → Flt → Prop
  | fin x, fin y => x < y
  | ninf, fin _ => True
  | ninf, pinf => True
  | fin _, pinf => True
  | _, _ => False

/-- The larger of two floats; `nan` if one of them is (`numpy.maximum`). -/
noncomputable def fmax : Flt → Flt → Flt
  | fin x, fin y => fin (max x y)
  | nan, _ => nan
  | _, nan => nan
  | pinf, _ => pinf
  | _, pinf => pinf
  | ninf, y => y
  | x, ninf => x

end Flt

open Flt

/-- `numpy.max(a)`: `ValueError` for an empty array; `nan` propagates. -/
noncomputable def fMax : List Flt → PyM Flt
  | [] => .error .valueError
  | x :: xs => .ok (xs.foldl fmax x)

/-- `numpy.sum(a)`. -/
noncomputable def fSum (a : List Flt) : Flt := a.foldl add (fin 0)

/-- `numpy.cumsum(a)`. -/
noncomputable def fCumsum (a : List Flt) : List Flt :=
  (List.range a.length).map fun k => fSum (a.take (k + 1))

/-- `numpy.searchsorted(a, v)` for a number `v`: the first position whose element is not smaller than
`v`, where `nan` sorts after everything (numpy ≥ 1.4). -/
noncomputable def fSearchsorted (a : List Flt) (v : ℝ) : ℕ :=
  open Classical in a.findIdx fun x => decide (¬ Flt.lt x (fin v))

/-- `sample(w, n)` (filter.py:10-23). -/
noncomputable def fSample (w : List Flt) (n : ℕ) (r : ℝ) : PyM (List ℕ) := do
  let wc := fCumsum w
  let tot ← getLast wc
  pure ((stratGrid n r).map (fSearchsorted (wc.map (div · tot))))

/-- The weights and their offset in a `ParticleApproximation` (filter.py:1051-1084). -/
structure FW where
  w : List Flt
  w_offset : Flt

/-- The re-scaling of new log-weights, `ParticleFilter.measure` (filter.py:159-169), as `weightUpdate`. -/
noncomputable def fWeightUpdate (pa : FW) (new_weights : List Flt) : PyM FW := do
  let m ← fMax new_weights
  let off := pa.w_offset.add m
  let nw := new_weights.map (sub · m)
  let w ← if pa.w.length = nw.length then pure (List.zipWith add pa.w nw) else .error .valueError
  let m' ← fMax w
  pure { w := w.map (sub · m'), w_offset := off.add m' }

/-- `calc_Neff` (filter.py:1089-1099). -/
noncomputable def fNeff (w : List Flt) : PyM Flt := do
  let m ← fMax w
  let tmp := w.map fun x => fexp (sub x m)
  let s := fSum tmp
  let tmp := tmp.map (div · s)
  pure (div (fin 1) (fSum (tmp.map sq)))

/-- `ParticleApproximation.resample` (filter.py:1101-1123), the weights and the chosen indices. -/
noncomputable def fResample (pa : FW) (N : ℕ) (r : ℝ) : PyM (FW × List ℕ) := do
  let m ← fMax pa.w
  let new_ind ← fSample (pa.w.map fun x => fexp (sub x m)) N r
  pure ({ w := List.replicate N (fin (log (1 / (N : ℝ)))), w_offset := fin 0 }, new_ind)

/-- The resampling test (filter.py:77-83). -/
noncomputable def fMaybeResample (res : ℝ) (pa : FW) (r : ℝ) : PyM (FW × Bool × List ℕ) :=
  open Classical in
  if 0 < res then do
    let neff ← fNeff pa.w
    if Flt.lt neff (fin (res * pa.w.length)) then do
      let (pa', anc) ← fResample pa pa.w.length r
      pure (pa', true, anc)
    else pure (pa, false, List.range pa.w.length)
  else pure (pa, false, List.range pa.w.length)

/-- The weights in `ParticleFilter.forward` (filter.py:57-94): the offset restarts at 0 (line 75), the
model contributes the log-likelihoods `ll` of the new particles. -/
noncomputable def fForward (res : ℝ) (w : List Flt) (r : ℝ) (ll : List Flt) : PyM (FW × Bool × List ℕ) := do
  let (pa, resampled, anc) ← fMaybeResample res ⟨w, fin 0⟩ r
  let pa ← fWeightUpdate pa ll
  pure (pa, resampled, anc)

/-- The weights through a whole run: one draw and one vector of log-likelihoods per step; the result
lists the weights and the resampling decision of every step. -/
noncomputable def fRun (res : ℝ) (w : List Flt) : List (ℝ × List Flt) → PyM (List (List Flt × Bool))
  | [] => pure []
  | (r, ll) :: rest => do
    let (pa, resampled, _) ← fForward res w r ll
    let later ← fRun res pa.w rest
    pure ((pa.w, resampled) :: later)

end PyPE

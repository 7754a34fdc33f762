import Verif.Sampling.Model
import Mathlib.Analysis.SpecialFunctions.Log.Basic

/-!
# Model of `ParticleApproximation` (filter.py:1051-1143)
-/

namespace PyPE
open Real

/-- `ParticleApproximation` (filter.py:1051-1084): particles, log-weights, number, log offset. -/
structure PA (P : Type) where
  part : List P
  w : List ℝ
  num : ℕ
  w_offset : ℝ

/-- `ParticleApproximation.__init__(particles, logw)` (filter.py:1066-1084) for the
`particles is not None` branch.  `math.log(0)` raises `ValueError` when there are no particles and no
weights are given. The arrays are copied (1068, 1076); copies are values here (C14 has the heap
model). -/
noncomputable def PA.new {P : Type} (particles : List P) (logw : Option (List ℝ)) : PyM (PA P) :=
  match logw with
  | some lw => .ok { part := particles, w := lw, num := particles.length, w_offset := 0 }
  | none =>
    if particles.length = 0 then .error .valueError
    else .ok { part := particles, w := List.replicate particles.length (-log (particles.length : ℝ)),
               num := particles.length, w_offset := 0 }

/-- `ParticleApproximation.__init__(seed=s, num=n)` (filter.py:1070-1084). -/
noncomputable def PA.newSeed {P : Type} (seed : P) (n : ℕ) : PyM (PA P) :=
  PA.new (List.replicate n seed) none

/-- `calc_Neff` (filter.py:1089-1099). -/
noncomputable def calcNeff (w : List ℝ) : PyM ℝ := do
  let m ← npMax w
  let tmp := w.map fun x => exp (x - m)
  let s := tmp.sum
  let tmp := tmp.map (· / s)
  return 1 / (tmp.map fun x => x ^ 2).sum

/-- `resample(model, N)` (filter.py:1101-1123); `model.copy_ind` is the default
`numpy.copy(particles[new_ind])` (interfaces.py:137-155). -/
noncomputable def PA.resample {P : Type} (pa : PA P) (N : ℕ) (r : ℝ) : PyM (PA P × List ℕ) := do
  let m ← npMax pa.w
  let new_ind ← sample (pa.w.map fun x => exp (x - m)) N r
  let new_part ← fancy pa.part new_ind
  return ({ part := new_part, w := List.replicate N (log (1 / (N : ℝ))), num := N, w_offset := 0 },
    new_ind)

/-- `ParticleApproximation.sample` (filter.py:1125-1131). -/
noncomputable def PA.sample {P : Type} (pa : PA P) (r : ℝ) : PyM P := do
  let idx ← PyPE.sample (pa.w.map fun x => exp x) 1 r
  let i ← getIdx idx 0
  getIdx pa.part i

/-- `find_best_particles(n)` (filter.py:1133-1143): `numpy.argsort(self.w)[range(n)]`.  `order` is the
permutation `numpy.argsort` returned (any permutation that sorts ascending, its default quicksort
is not stable); `indices[range(n)]` raises `IndexError` when `n > N`. -/
def findBest (order : List ℕ) (n : ℕ) : PyM (List ℕ) :=
  fancy order (List.range n)

/-- Contract of `numpy.argsort`: a permutation of the positions that makes the values ascending. -/
def IsArgsort (w : List ℝ) (order : List ℕ) : Prop :=
  order.Perm (List.range w.length) ∧ (order.map fun i => w.getD i 0).Pairwise (· ≤ ·)

end PyPE

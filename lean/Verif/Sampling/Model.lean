import Verif.Py

/-!
# Model of `pyparticleest/filter.py:10-23` (`sample`), the systematic sampler

The only random quantity, `numpy.random.rand(1)`, is the explicit argument `r`; every theorem
quantifies over it.
-/

namespace PyPE

/-- `numpy.cumsum(w)` (filter.py:20). -/
noncomputable def cumsum (w : List ℝ) : List ℝ :=
  (List.range w.length).map fun k => (w.take (k + 1)).sum

/-- `numpy.searchsorted(a, v)` (side='left') on an ascending `a` (filter.py:23): the first position
whose element is `≥ v`, or `len(a)` when there is none.  numpy does this by bisection; on an
ascending array the answer is the same. -/
noncomputable def searchsorted (a : List ℝ) (v : ℝ) : ℕ :=
  a.findIdx fun x => decide (v ≤ x)

/-- `u = (range(n) + numpy.random.rand(1)) / n` (filter.py:22). -/
noncomputable def stratGrid (n : ℕ) (r : ℝ) : List ℝ :=
  (List.range n).map fun (i : ℕ) => ((i : ℝ) + r) / n

/-- `sample(w, n)` (filter.py:10-23).

* `wc[-1]` on an empty array raises `IndexError` (line 21);
* when the total is `0` the division at line 21 yields NaN entries, NaN sorts after every number,
  so `searchsorted` answers `0` for every `u` — modelled by the explicit `replicate`. -/
noncomputable def sample (w : List ℝ) (n : ℕ) (r : ℝ) : PyM (List ℕ) := do
  let wc := cumsum w
  let tot ← getLast wc
  if tot = 0 then
    return List.replicate n 0
  else
    let wcn := wc.map (· / tot)
    return (stratGrid n r).map (searchsorted wcn)

end PyPE

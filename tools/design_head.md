# Formal model of pyParticleEst in Lean 4

## Trusted base

* Lean 4.33.0's kernel. Every property theorem depends on at most the axioms `propext`,
  `Classical.choice` and `Quot.sound`; the development adds no axiom.
* Mathlib, as installed (its theorems are kernel-checked).
* The reading of the Python code into Lean: every definition of the model cites the file and lines it
  models. The code was not executed.

### Modelling decisions that the theorems rest on

* **Floats are real numbers** (`ℝ`), `exp`/`log` are the exact functions. Rounding, overflow and
  underflow are not modelled, except that `Verif/Special` models the IEEE special values (`nan`, `±inf`)
  in the weight update, resampling test and sampling (C20) and proves agreement on finite values, and
  `Verif/Rounding` models the weight arithmetic of the filters (pf, sir, cpf, cpfas, csiras) and of the
  sampling steps of the smoothers with a rounding after every operation (C105), of which binary floating
  point (ties to even, gradual underflow, no largest exponent) is proved to be an instance.
* **Exceptions are values** of `PyErr`; a computation is `Except PyErr α`.
* **Randomness is an argument.** Every draw of `numpy.random` appears as a parameter that the theorems
  quantify over; distributional claims integrate over it. The pseudo-random generator itself is not
  modelled.
* **Model callbacks** (user code deriving from `interfaces.py`) are arbitrary functions, with the
  entropy they consume as an extra argument. Where a theorem needs a contract of the callback (array
  lengths, positivity of a density) it is an explicit hypothesis.
* **Arrays** are `List`s (1-D) or Mathlib matrices. Broadcasting of length-1 arrays and dtype
  conversions are not modelled.
* **In-place mutation** is modelled by returning the new value; where aliasing itself is the subject
  (C14) there is an explicit heap model, and C94 proves the value-level filter refined by the heap
  program. The value-level filter of C89 passes particles to `measure` and keeps them unchanged; the
  one of C99 (`Verif/Filter/RbFilter.lean`) stores what `measure` has written into them.
* numpy/scipy primitives (`cumsum`, `searchsorted`, `argsort`, `cho_factor`, `solve`, `permutation`,
  …) are modelled by their documented contracts.
* Python 2/3: the language version is an explicit parameter (`PyVersion`) where it matters: `xrange` raises `NameError` under
  Python 3 (`Verif/Param`), and `/` between two ints is an integer division under Python 2 (the stopping rule of `bsi_rsas`,
  `unifsum` with int limits). Everywhere else an operand is a float and the division is the quotient. The library's use of `numpy.int`/`numpy.float` is read as `int`/`float`
  (numpy < 1.24).

### Not modelled

The Cython duplicates `ckalman.pyx` and `cmlnlg_compute.pyx` as compiled code: statement by statement they are the
`.py` files (the loops of `cmlnlg_compute.pyx` with bounds checks switched off, C90), so the models of those cite both. Plotting and
the example scripts under `/repo/test` (except the model classes of `test/manual/filtering/basic_model*.py`, `nonlin_model.py` and
`smoothing/standard_nonlin_model.py`, `smoothing/basic_model_mhips.py`, `smoothing/basic_model_ffbp.py`: C109, C110, C123, of `filtering/rbapf_test.py`: C120, `filtering/ltv_test.py`: C121, and of `test/manual/paramest/standard_nonlin_model.py`, `standard_nonlin_model_psaem.py`: C117, C118), `scipy.optimize.minimize` (an arbitrary function),
`gradienttest.py`'s plotting, performance. `numpy.ndarray.resize` in `ParticleTrajectory.forward/measure` (filter.py:905-956) is taken to succeed; it raises
if a caller keeps a view of the trajectory's buffers alive (the smoother copies them, so only user code can).

## Layout

`lean/Verif/<Area>/Model.lean` (model, with citations), `Spec.lean` (independent vocabulary),
`Lemmas.lean` (helpers), `Props.lean` (the property theorems `Cnn_…` with non-vacuity examples).
Areas: `Sampling` (pdf/resampling primitives of `filter.py`), `Filter`, `Traj`, `Heap`, `Smooth`, `Sim`
(`filter.py`, `smoother.py`, `simulator.py`), `Kalman` (`kalman.py`), `Models` (`models/ltv.py`, `nlg.py`,
`rbpf.py`, `mlnlg.py`, `mlnlg_compute.py`, `hierarchical.py`), `Param` (`paramest/`), `Util` (`utils/pdf.py`,
`utils/intrument.py`), `Marg` (the marginalised smoother of `mlnlg.py`), `Special` (IEEE special values in the filter weights),
`Rounding` (rounded arithmetic in the filter weights), `Consistency` (limits for many particles), `Linear` and `Examples` (linear Gaussian models and the example scripts),
`Witness` (concrete runs to which the filter and smoother theorems are applied, for theorems whose own file has no `example`).
`tools/claims.py` and `tools/results.py` are the source of `properties.jsonl`, `MANIFEST.json` and the
list below (`tools/gen.py` regenerates them). `seeded/LOG.jsonl` records the mutation experiments.

## Properties

# Formal model of pyParticleEst in Lean 4

## Trusted base

* Lean 4.33.0's kernel. Every property theorem depends on at most the axioms `propext`,
  `Classical.choice` and `Quot.sound`; the development adds no axiom.
* Mathlib, as installed (its theorems are kernel-checked).
* The reading of the Python code into Lean: every definition of the model cites the file and lines it
  models. The code was not executed.

### Modelling decisions that the theorems rest on

* **Floats are real numbers** (`ℝ`), `exp`/`log` are the exact functions. Rounding, overflow and
  underflow are not modelled, except that `Verif/Special` models the IEEE special values (`nan`, `±inf`)
  in the weight update, resampling test and sampling (C20) and proves agreement on finite values, and
  `Verif/Rounding` models the weight arithmetic of the filters (pf, sir, cpf, cpfas, csiras) and of the
  sampling steps of the smoothers with a rounding after every operation (C105), of which binary floating
  point (ties to even, gradual underflow, no largest exponent) is proved to be an instance.
* **Exceptions are values** of `PyErr`; a computation is `Except PyErr α`.
* **Randomness is an argument.** Every draw of `numpy.random` appears as a parameter that the theorems
  quantify over; distributional claims integrate over it. The pseudo-random generator itself is not
  modelled.
* **Model callbacks** (user code deriving from `interfaces.py`) are arbitrary functions, with the
  entropy they consume as an extra argument. Where a theorem needs a contract of the callback (array
  lengths, positivity of a density) it is an explicit hypothesis.
* **Arrays** are `List`s (1-D) or Mathlib matrices. Broadcasting of length-1 arrays and dtype
  conversions are not modelled.
* **In-place mutation** is modelled by returning the new value; where aliasing itself is the subject
  (C14) there is an explicit heap model, and C94 proves the value-level filter refined by the heap
  program. The value-level filter of C89 passes particles to `measure` and keeps them unchanged; the
  one of C99 (`Verif/Filter/RbFilter.lean`) stores what `measure` has written into them.
* numpy/scipy primitives (`cumsum`, `searchsorted`, `argsort`, `cho_factor`, `solve`, `permutation`,
  …) are modelled by their documented contracts.
* Python 2/3: the language version is an explicit parameter (`PyVersion`) where it matters: `xrange` raises `NameError` under
  Python 3 (`Verif/Param`), and `/` between two ints is an integer division under Python 2 (the stopping rule of `bsi_rsas`,
  `unifsum` with int limits). Everywhere else an operand is a float and the division is the quotient. The library's use of `numpy.int`/`numpy.float` is read as `int`/`float`
  (numpy < 1.24).

### Not modelled

The Cython duplicates `ckalman.pyx` and `cmlnlg_compute.pyx` as compiled code: statement by statement they are the
`.py` files (the loops of `cmlnlg_compute.pyx` with bounds checks switched off, C90), so the models of those cite both. Plotting and
the example scripts under `/repo/test` (except the model classes of `test/manual/filtering/basic_model*.py`, `nonlin_model.py` and
`smoothing/standard_nonlin_model.py`, `smoothing/basic_model_mhips.py`, `smoothing/basic_model_ffbp.py`: C109, C110, C123, of `filtering/rbapf_test.py`: C120, `filtering/ltv_test.py`: C121, and of `test/manual/paramest/standard_nonlin_model.py`, `standard_nonlin_model_psaem.py`: C117, C118), `scipy.optimize.minimize` (an arbitrary function),
`gradienttest.py`'s plotting, performance. `numpy.ndarray.resize` in `ParticleTrajectory.forward/measure` (filter.py:905-956) is taken to succeed; it raises
if a caller keeps a view of the trajectory's buffers alive (the smoother copies them, so only user code can).

## Layout

`lean/Verif/<Area>/Model.lean` (model, with citations), `Spec.lean` (independent vocabulary),
`Lemmas.lean` (helpers), `Props.lean` (the property theorems `Cnn_…` with non-vacuity examples).
Areas: `Sampling` (pdf/resampling primitives of `filter.py`), `Filter`, `Traj`, `Heap`, `Smooth`, `Sim`
(`filter.py`, `smoother.py`, `simulator.py`), `Kalman` (`kalman.py`), `Models` (`models/ltv.py`, `nlg.py`,
`rbpf.py`, `mlnlg.py`, `mlnlg_compute.py`, `hierarchical.py`), `Param` (`paramest/`), `Util` (`utils/pdf.py`,
`utils/intrument.py`), `Marg` (the marginalised smoother of `mlnlg.py`), `Special` (IEEE special values in the filter weights),
`Rounding` (rounded arithmetic in the filter weights), `Consistency` (limits for many particles), `Linear` and `Examples` (linear Gaussian models and the example scripts),
`Witness` (concrete runs to which the filter and smoother theorems are applied, for theorems whose own file has no `example`).
`tools/claims.py` and `tools/results.py` are the source of `properties.jsonl`, `MANIFEST.json` and the
list below (`tools/gen.py` regenerates them). `seeded/LOG.jsonl` records the mutation experiments.

## Properties

### C01 — sample returns n valid indices

sample(w, n) with non-negative weights of positive sum never raises, returns exactly n indices and each is a valid position of w; an empty weight vector (and nothing else) raises IndexError.

*Plan / method:* list model of cumsum/searchsorted with the uniform draw as an argument; induction on the weight list.

*Status:* **proved**. 

*Theorems:* `PyPE.C01_sample_empty`, `PyPE.C01_sample_length_range`, `PyPE.C01_sample_zero_total`

### C02 — systematic sampling has deviation below one

The number of times sample(w, n) returns index j differs from n*w_j/sum(w) by at most 1, and by strictly less than 1 unless the uniform draw is exactly 0.

*Plan / method:* floor-counting argument on the grid (i+r)/n.

*Status:* **proved**. 

*Theorems:* `PyPE.C02_sample_count`

### C03 — systematic sampling is unbiased

Averaged over the uniform draw, sample(w, n) returns index j exactly n*w_j/sum(w) times; in particular sample(w, 1) returns j with probability w_j/sum(w).

*Plan / method:* interval integral over r of the count, adjacent intervals lemma.

*Status:* **proved**. r uniform on [0,1] = integral over 0..1.

*Theorems:* `PyPE.C03_sample_one_prob`, `PyPE.C03_sample_unbiased`

### C04 — sample inverts the cumulative weights

The i-th returned index is a generalised inverse of the cumulative weight function at (i+r)/n; the indices are in non-decreasing order and depend only on the ratios of the weights.

*Plan / method:* characterisation of searchsorted on the cumulative sum.

*Status:* **proved**. 

*Theorems:* `PyPE.C04_sample_inverse_cdf`, `PyPE.C04_sample_scale_invariant`, `PyPE.C04_sample_sorted`

### C05 — impossible particles are never drawn

An index with weight zero is returned by sample only if the uniform draw is exactly 0 and the index is 0; for every draw r>0 impossible particles are never drawn. (Defect: at r=0 a leading zero-weight particle is drawn.)

*Plan / method:* corollary of C02 for r>0; concrete counterexample at r=0.

*Status:* **proved**. Includes the counterexample sample([0,1],1) at r=0.

*Theorems:* `PyPE.C05_zero_weight_drawn_at_zero`, `PyPE.C05_zero_weight_never_drawn`, `PyPE.C05_zero_weight_only_leading`

### C06 — effective sample size is between 1 and N

calc_Neff() of a non-empty approximation lies in [1, N], equals N exactly when all weights are equal, and does not change when a constant is added to all log-weights.

*Plan / method:* Cauchy-Schwarz on the normalised weights.

*Status:* **proved**. 

*Theorems:* `PyPE.C06_neff_bounds`, `PyPE.C06_neff_empty`, `PyPE.C06_neff_max_iff_uniform`, `PyPE.C06_neff_shift`

### C07 — resampling yields an equally weighted copy of existing particles

pa.resample(model, N) leaves an approximation with N particles, all log-weights equal to -log N, offset 0, whose i-th particle is the old particle with the returned ancestor index; every returned index is valid and counts follow C02.

*Plan / method:* Except model of resample, corollaries of C01/C02.

*Status:* **proved**. 

*Theorems:* `PyPE.C07_resample`, `PyPE.C07_sample_mem`

### C08 — find_best_particles returns the n lightest particles

find_best_particles(n) with n <= N returns n indices whose weights are at most those of all other particles, i.e. the lightest ones; n > N raises IndexError. (Defect: the name promises the heaviest; argsort is ascending.)

*Plan / method:* model argsort as any ascending sorting permutation; prove the returned ones are minimal and refute the claim.

*Status:* **proved**. numpy.argsort is modelled as an arbitrary ascending sorting permutation.

*Theorems:* `PyPE.C08_find_best_not_heaviest`, `PyPE.C08_find_best_returns_lightest`, `PyPE.C08_find_best_too_many`

### C09 — a new approximation is uniform

ParticleApproximation(particles) gives every particle the log-weight -log N so the weights sum to one, stores a copy of the particles and offset 0; given log-weights are stored as they are.

*Plan / method:* direct computation with exp/log.

*Status:* **proved**. 

*Theorems:* `PyPE.C09_new`, `PyPE.C09_new_seed`

### C10 — measurement update implements Bayes' rule and keeps the largest log-weight at 0

After ParticleFilter.measure, w_i + w_offset has grown by exactly the model's log-likelihood of particle i, and the largest log-weight is 0, so the normalised weights are proportional to old weight times likelihood.

*Plan / method:* algebra on the list model.

*Status:* **proved**. 

*Theorems:* `PyPE.C10_measure_bad_length`, `PyPE.C10_measure_bayes`

### C11 — resampling happens exactly when N_eff < res*N

forward() of pf, apf, sir and pfy resamples iff the filter's res is positive and N_eff < res*N; res<=0 never resamples, res>1 always does, and the returned flag reports it; without resampling the ancestors are 0..N-1.

*Plan / method:* model of forward; C06 for the extreme thresholds.

*Status:* **proved**. apf: the weights tested include the first-stage weights, and res is tested for truthiness, so a negative res is treated as 'on' (and then never fires).

*Theorems:* `PyPE.C11_apf_resample_iff`, `PyPE.C11_pf_resample_iff`, `PyPE.C11_pfy_resample_iff`, `PyPE.C11_res_extremes`, `PyPE.C11_sir_resample_iff`, `PyPE.C11_uniform_no_resample`

### C12 — forward keeps the approximation well formed

ParticleFilter.forward on a well-formed trajectory returns N particles, N weights with maximum 0, N ancestors all below N, and raises nothing, provided the model callbacks return arrays of the right length.

*Plan / method:* invariant preserved by forward.

*Status:* **proved**. 

*Theorems:* `PyPE.C12_every_run_total`, `PyPE.C12_pf_forward_total`, `PyPE.C12_unconditional_run_total`

### C13 — bootstrap weights are the product of likelihoods

With resampling disabled, after any number of steps the normalised weight of particle i is proportional to the product over time of the likelihoods along its own path (sequential importance sampling).

*Plan / method:* induction over the list of measurements.

*Status:* **proved**. Markov models through the ParticleFiltering adapter.

*Theorems:* `PyPE.C13_sequential_importance_weights`

### C14 — stored history is never changed by later steps

For every filter ('PF', 'APF', 'PFY', 'SIR', 'CPF', 'CPFAS', 'CPFYAS', 'CSIRAS'): once forward() has returned, no later forward() changes the particles, weights or ancestors stored for any earlier time, nor the conditional trajectory, even if it raises; measure() changes only the last step, and a measure() that raises leaves its particles, weights and ancestors as they were. (Defect: it may already have changed w_offset of that step.)

*Plan / method:* heap model with array addresses; frame theorem.

*Status:* **proved**. Heap model of all eight filters; honest callbacks (do not write into arrays they were not given for writing); the conditional filters in addition write into arrays the model returned, so for them these must be new (GivesAway).

*Theorems:* `PyPE.C14_forward_appends`, `PyPE.C14_forward_preserves_history`, `PyPE.C14_history_immutable`, `PyPE.C14_measure_changes_only_last`, `PyPE.C14_measure_error`, `PyPE.C14_measure_error_offset`, `PyPE.C14_measure_stored`

### C15 — conditional particle filter keeps the reference trajectory

In CPF the last particle at every time equals the conditional trajectory and its ancestor is the last particle, so tracing back the last particle yields the conditional trajectory.

*Plan / method:* invariant over the run.

*Status:* **proved**. 

*Theorems:* `PyPE.C15_cpf_run`, `PyPE.C15_cpf_step`

### C16 — ancestor-sampling filters keep the reference state

In CPFAS (and CPFYAS/CSIRAS) the last particle at every time equals the conditional trajectory's state and its ancestor index is valid, except that CSIRAS does not insert the reference state at time 0. (Defect: CSIRAS initial step.)

*Plan / method:* invariant; counterexample for CSIRAS initial step.

*Status:* **proved**. CPFYAS additionally needs single-particle reference steps (C16_cpfyas_needs_single).

*Theorems:* `PyPE.C16_cpfas_step`, `PyPE.C16_cpfyas_needs_single`, `PyPE.C16_cpfyas_step`, `PyPE.C16_csiras_initial_violation`, `PyPE.C16_csiras_step`, `PyPE.C16_run`

### C17 — auxiliary particle filter weights are unbiased by the look-ahead

If AuxiliaryParticleFilter does not resample, its weights equal (up to a common constant) those of ParticleFilter; if it resamples, they equal likelihood divided by first-stage likelihood. With no measurement at t+1 every call raises UnboundLocalError. (Defect: it should behave as ParticleFilter.)

*Plan / method:* algebra on the model; counterexample trace for the None measurement.

*Status:* **proved**. 

*Theorems:* `PyPE.C17_apf_missing_measurement_crashes`, `PyPE.C17_apf_no_resample_eq_pf`, `PyPE.C17_apf_resampled_weights`

### C18 — SIR importance weights

SIR.forward multiplies each weight by p(y|x')p(x'|x)/q(x'|x,y) up to a common constant and returns the proposed particles.

*Plan / method:* algebra on the model.

*Status:* **proved**. 

*Theorems:* `PyPE.C18_sir_weights`

### C19 — proposal-from-measurement filter uses the current measurement

FFPropY.forward on a trajectory created without preallocation proposes from the measurement and time of this forward() call; on a trajectory preallocated with T >= 3 the second step proposes from the empty last slot (None, time T-1) instead. (Defect.)

*Plan / method:* vector-layout model; proved for T=None, refuted for preallocated T.

*Status:* **proved**. 

*Theorems:* `PyPE.C19_preallocated_violation`, `PyPE.C19_uses_current_measurement`

### C20 — weights become NaN only when every particle is impossible, and then for ever

For every old log-weights without +inf and every log-likelihoods (IEEE special values included) measure() gives either only NaN weights or none; NaN iff a NaN or +inf was supplied or no particle has both a finite old weight and a finite log-likelihood; otherwise it is Bayes' rule with -inf as weight zero and the maximum is 0; impossible particles are not resampled. (Defect: once the weights are NaN the filter neither raises nor resamples: they stay NaN for ever, and every later sampling by these weights returns particle 0.)

*Plan / method:* IEEE special-value model (nan/-inf/finite/+inf), induction over the run, agreement with the real-number model on finite values.

*Status:* **proved**. Special values are modelled, rounding is not. Restated with the defect.

*Theorems:* `PyPE.C20_agrees_measure`, `PyPE.C20_agrees_neff`, `PyPE.C20_agrees_sample`, `PyPE.C20_all_or_none`, `PyPE.C20_bayes`, `PyPE.C20_impossible_not_resampled`, `PyPE.C20_nan_iff`, `PyPE.C20_no_resampling`, `PyPE.C20_run`, `PyPE.C20_sample_nan`

### C21 — trajectory bookkeeping never runs out of buffer

Any sequence of forward/measure calls on a ParticleTrajectory (with or without preallocated T) never raises IndexError from the u/y/t buffers; len(traj) grows by one per forward (plus one initial step), t[k]=k, and u[k], y[k] hold the values passed at those steps. For pf, apf and sir this includes histories in which the model raises at any calls and the caller catches the exceptions: no later call raises IndexError and every stored step keeps N particles, N weights and N ancestors.

*Plan / method:* state machine with invariant by induction over operations.

*Status:* **proved**. 

*Theorems:* `PyPE.C21_contents`, `PyPE.C21_faults`, `PyPE.C21_length`, `PyPE.C21_no_index_error`

### C22 — a failing step keeps the stored steps but advances the clock

If the model raises during forward(), the stored steps are untouched, but the time index has advanced by one and u/y hold the failed data, so a successful retry stores its step one position before its own measurement; the conditional filters cpf, cpfas, cpfyas and csiras never recover: after the failure and any further calls every forward() raises, for cpf and cpfyas IndexError. (Defect: not failure-atomic.)

*Plan / method:* state machine with exceptions carrying the state; counterexample and a partial theorem on what is preserved.

*Status:* **proved**. 

*Theorems:* `PyPE.C22_conditional_never_recovers`, `PyPE.C22_failed_forward_changes_state`, `PyPE.C22_failed_forward_state`, `PyPE.C22_retry_misaligns`, `PyPE.C22_retry_misaligns_counterexample`

### C23 — simulate aligns inputs and measurements

simulate() with meas_first=False produces T+1 steps with y[0] missing and y[k+1]=Y[k], u[k]=U[k]; with meas_first=True it produces T steps with y[k]=Y[k], u[k]=U[k]; u=None means no input everywhere.

*Plan / method:* induction over the data; refinement to a list specification.

*Status:* **proved**. 

*Theorems:* `PyPE.C23_alignment`, `PyPE.C23_alignment_meas_first`, `PyPE.C23_empty_data`, `PyPE.C23_no_input`

### C24 — resampling count

simulate() returns exactly the number of time steps whose forward() resampled, which is at most the number of measurements; for the bootstrap filter these are the steps whose stored weights had N_eff < res*N.

*Plan / method:* fold invariant.

*Status:* **proved**. 

*Theorems:* `PyPE.C24_count_exact`, `PyPE.C24_count_le`

### C25 — filter name dispatch

The filter name is case-insensitive; the eight documented names select their filter, every other name raises ValueError; conditional filters need filter_options['cond_traj'] and otherwise fail with KeyError (TypeError when filter_options is None, as Simulator passes by default); t0 other than 0 is rejected.

*Plan / method:* decision function model over strings.

*Status:* **proved**. 

*Theorems:* `PyPE.C25_case_insensitive`, `PyPE.C25_cond_traj`, `PyPE.C25_init`, `PyPE.C25_parse`, `PyPE.C25_spawn_always_raises`, `PyPE.C25_unknown_name`, `PyPE.C25_unknown_name_construct`, `PyPE.C25_using_pfy`

### C26 — smoother option defaults

perform_smoothing supplies a default for every option of each method and each user option overrides its default separately: R=30 for mcmc, mhips and mhbp, R=int(N/10) and the computed bounds for rs, the computed bounds and the value 1 for every parameter of rsas; 'full' uses none. (Defects: mhips_reduced is missing from the table and runs 10 iterations; for N<10 the limit int(N/10) is 0 and 'rs' silently returns exactly what 'full' returns.)

*Plan / method:* association-list model of the options.

*Status:* **proved**. 

*Theorems:* `PyPE.C26_full`, `PyPE.C26_mcmc`, `PyPE.C26_mh_iterations`, `PyPE.C26_rs`, `PyPE.C26_rs_small`, `PyPE.C26_rsas`

### C27 — filtered estimates are a probability-weighted mean

get_filtered_estimates returns non-negative weights summing to one per time step, proportional to exp(log-weight), get_filtered_mean is the weighted mean with these weights and lies componentwise between the smallest and largest particle, and get_smoothed_mean is the plain average over the trajectories.

*Plan / method:* convexity.

*Status:* **proved**. 

*Theorems:* `PyPE.C27_filtered_mean_bounds`, `PyPE.C27_filtered_mean_eq`, `PyPE.C27_filtered_weights`, `PyPE.C27_smoothed_mean`

### C28 — ancestor smoother returns genealogies

method='ancestor' returns trajectories whose state at time t is the filter particle reached by following the stored ancestor indices back from a particle drawn at the final time.

*Plan / method:* induction backwards over time against an iterated-lookup specification.

*Status:* **proved**. 

*Theorems:* `PyPE.C28_ancestor_lineage`

### C29 — backward simulation draws from the right categorical distribution

bsi_full returns for each trajectory a valid index, drawn with probability proportional to w_i*p(x_{t+1}|x_i); the shift by the maximum does not matter.

*Plan / method:* C01/C03 applied to the normalised weights.

*Status:* **proved**. 

*Theorems:* `PyPE.C29_bsi_full`, `PyPE.C29_bsi_full_prob`

### C30 — rejection sampling backward simulation is exact

For every attempt limit and draw bsi_rs succeeds and each entry of its result is a valid index that was either accepted by the rejection test or produced by bsi_full; if log p <= maxpdf, entry j is particle i with probability exactly w_i p(future_j|x_i)/sum_l w_l p(future_j|x_l), the distribution of bsi_full, whatever the attempt limit, although all trajectories share one systematic sample per attempt; a limit of 0 gives bsi_full.

*Plan / method:* loop invariant on (todo,res); integral of the acceptance event.

*Status:* **proved**. The expectation over attempts is the iterated expectation over r, the uniform permutation and the independent uniforms (Spec.attemptsE).

*Theorems:* `PyPE.C30_rs_every_entry`, `PyPE.C30_rs_exact`, `PyPE.C30_rs_zero_attempts`

### C31 — adaptive rejection smoother terminates

in Python 3 the stopping rule of bsi_rsas is the package's own Kalman filter applied to the number of accepted proposals, with a prediction that shrinks the rate by the accepted fraction (Defect: in Python 2 that fraction is an integer division, zero as long as something was rejected, so the prediction leaves the rate as it is); in both, bsi_rsas terminates for every random stream, within a number of rounds fixed by the options, N and M, if sw != 0, P1>=0, P1>0 or sv != 0, and ratio > 0; every entry is written and valid and, with a valid bound, exactly distributed as in bsi_full. (Defect: with P1 = 0 and sv = 0 it may loop forever.)

*Plan / method:* Kalman recursion bounds; explicit non-terminating stream.

*Status:* **proved**. 

*Theorems:* `PyPE.C31_rsas_exact`, `PyPE.C31_rsas_may_loop`, `PyPE.C31_rsas_terminates`, `PyPE.C31_stop_rule_is_kalman`, `PyPE.C31_stop_rule_python2`

### C32 — MCMC backward simulation leaves the target invariant

Every iteration of bsi_mcmc moves an entry to its proposed particle iff its uniform is below min(1, p(future|new)/p(future|old)); each entry satisfies detailed balance w.r.t. w_i p(future_j|x_i) and that distribution is invariant under any number of iterations; R=0 returns the filter ancestors; returned indices are valid.

*Plan / method:* finite-state kernel; loop invariant.

*Status:* **proved**. 

*Theorems:* `PyPE.C32_mcmc_detailed_balance`, `PyPE.C32_mcmc_invariant`, `PyPE.C32_mcmc_step`, `PyPE.C32_mcmc_valid`

### C33 — smoothed states are filter particles

For models whose sample_smooth returns its input, every smoothed trajectory produced by 'full', 'rs', 'rsas', 'mcmc' or 'ancestor' consists of T states each being one of the filter particles of that time, and there are exactly M equally weighted trajectories, for every M >= 1 (for other models: each state is made by sample_smooth from such a particle). M = 0 raises ValueError.

*Plan / method:* backward induction.

*Status:* **proved**. 

*Theorems:* `PyPE.C33_ancestor`, `PyPE.C33_backward_simulation`, `PyPE.C33_smoothed_are_filter_particles`, `PyPE.C33_zero_trajectories`

### C34 — Metropolis-Hastings smoothers work on every run of at least two steps

For every run of at least two steps, every model answering its callbacks, every number of iterations and every draw, mhbp and every pass of mhips (mhips_reduced if the last step has a measurement) succeed and return one step of M trajectories per time. (Defects: for a single step mhbp raises UnboundLocalError and mhips IndexError, whatever the model; steps returned by mhbp carry ancestors=None.)

*Plan / method:* control-flow model with unbound locals.

*Status:* **proved**. 

*Theorems:* `PyPE.C34_mhbp_runs`, `PyPE.C34_mhbp_single_step`, `PyPE.C34_mhips_after_mhbp`, `PyPE.C34_mhips_pass`, `PyPE.C34_mhips_single_step`

### C35 — Metropolis-Hastings smoothing step satisfies detailed balance

mc_step replaces the state of trajectory j iff its uniform is below the Metropolis-Hastings ratio of transition, likelihood, future and proposal densities, so it accepts with probability min(1, ratio), satisfies detailed balance and leaves the smoothing density of (state, ancestor) invariant.

*Plan / method:* algebra over positive densities; integral of the acceptance test.

*Status:* **proved**. Models without a Rao-Blackwellised part. Invariance is stated for finitely many states.

*Theorems:* `PyPE.C35_accept_prob`, `PyPE.C35_detailed_balance`, `PyPE.C35_invariant`, `PyPE.C35_mc_step`

### C36 — reduced acceptance ratio

With a proposal equal to the prior dynamics, the reduced step (mhips_reduced) returns exactly what the full one returns, provided there is a measurement or a future. (Defect: with neither, it raises TypeError, always.)

*Plan / method:* cancellation; error branch for no measurement and no future.

*Status:* **proved**. Models without a Rao-Blackwellised part.

*Theorems:* `PyPE.C36_reduced_eq_full`, `PyPE.C36_reduced_no_information`

### C37 — smoother method dispatch and post-processing

Unknown smoother names raise ValueError; names are case-sensitive; the model's post_smoothing hook is applied to the result exactly once for full, mcmc, rs, rsas, mhips and mhips_reduced. (Defect: twice for 'ancestor' and 'mhbp'.)

*Plan / method:* call-trace model.

*Status:* **proved**. 

*Theorems:* `PyPE.C37_post_smoothing`, `PyPE.C37_unknown_method`

### C38 — Kalman prediction preserves covariance validity

predict_full returns mean A z + f and covariance A P A' + Q; these are the moments of A x + f + v for x ~ N(z,P), v ~ N(0,Q) (the law of the predicted state is normal with exactly these moments), and the covariance stays symmetric PSD, also for singular P and Q.

*Plan / method:* characteristic functions of multivariate normal laws.

*Status:* **proved**. Law of the predicted state, moments, positive definiteness.

*Theorems:* `PyPE.C38_predict_is_law`, `PyPE.C38_predict_moments`, `PyPE.C38_predict_posDef`

### C39 — Kalman measurement update is Bayes' rule

measure_full succeeds iff the innovation covariance is positive definite (else LinAlgError before writing anything); the updated N(z,P) is the conditional law of the state given the measurement, the covariance is symmetric PSD, never larger than the prior, equal to (P^-1 + C'R^-1C)^-1 when P and R are invertible, and the returned value is the log density of the measurement. Without C the state is unchanged.

*Plan / method:* regular conditional distribution by equality of joint normal laws; Joseph form.

*Status:* **proved**. Exact success condition; regular conditional distribution; density of the measurement; shrinking; information form; C=None.

*Theorems:* `PyPE.C39_measure_information`, `PyPE.C39_measure_is_bayes`, `PyPE.C39_measure_shrinks`, `PyPE.C39_measure_succeeds_iff`, `PyPE.C39_measure_without_C`, `PyPE.C39_upper_triangle`

### C40 — scalar and matrix measurement updates agree

For a one-dimensional measurement with positive innovation variance measure_full_scalar and measure_full produce the same mean, covariance and log-likelihood; otherwise measure_full raises LinAlgError and measure_full_scalar ValueError. (Defect: the latter after overwriting z and P.)

*Plan / method:* 1x1 matrix algebra.

*Status:* **proved**. Agreement for positive innovation variance, both failures otherwise, and a concrete failure after the write.

*Theorems:* `PyPE.C40_scalar_and_full_raise`, `PyPE.C40_scalar_eq_full`, `PyPE.C40_scalar_error_after_write`

### C41 — RTS smoother step

KalmanSmoother.smooth is exact: combining the filter's conditional law of x given x+ with any N(z_next,P_next) for x+ gives a normal pair whose moments are the returned mean, covariance (PSD) and lag-one cross covariance; if the next smoothed moments equal the predicted ones the filtered moments are returned unchanged; LinAlgError iff the predicted covariance is singular.

*Plan / method:* joint normal laws.

*Status:* **proved**. Exactness of the smoothing step in law, cross covariance, fixed point, failure condition.

*Theorems:* `PyPE.C41_smooth_fixed_point`, `PyPE.C41_smooth_is_exact`, `PyPE.C41_smooth_raises_iff`

### C42 — Gaussian log-density helpers agree

lognormpdf, lognormpdf_vec, lognormpdf_cho(_vec) (given cho_factor's output) and lognormpdf_scalar return the logarithm of the Lebesgue density of the normal law with the given positive definite covariance / variance; a singular matrix or non-positive variance raises. (Defect: an indefinite matrix is not detected by lognormpdf.)

*Plan / method:* Cholesky existence and uniqueness; change of variables.

*Status:* **proved**. All helpers return the log of the Lebesgue density; failure conditions.

*Theorems:* `PyPE.C42_helpers_agree`, `PyPE.C42_is_density`, `PyPE.C42_lognormpdf_total`, `PyPE.C42_scalar`, `PyPE.C42_vec_short`

### C43 — KalmanFilter.set_dynamics keeps unspecified matrices

After construction and any sequence of set_dynamics calls each matrix is the one given most recently; a matrix never given is None (f_k zero), and predict uses exactly these, raising AttributeError without A and TypeError without Q. The same holds of the constant matrices of a mixed linear/nonlinear model and its set_dynamics. (Defect: time_update always raises TypeError.)

*Plan / method:* state machine, induction over the history.

*Status:* **proved**. Induction over the history of set_dynamics calls.

*Theorems:* `PyPE.C43_mixed_model_history`, `PyPE.C43_predict_uses_latest`, `PyPE.C43_set_dynamics_history`, `PyPE.C43_time_update_raises`

### C44 — linear time-varying model stores and returns its statistics

LTV set_states followed by get_states returns the same mean and covariance for every particle (and set_states succeeds exactly when the rows are long enough and the lists match); create_initial_estimate, update and measure act on every particle by the Kalman filter's own step and store its result.

*Plan / method:* packing into a flat vector.

*Status:* **proved**. 

*Theorems:* `PyPE.C44_get_states`, `PyPE.C44_initial`, `PyPE.C44_measure`, `PyPE.C44_read_iff`, `PyPE.C44_set_get`, `PyPE.C44_set_states_succeeds_iff`, `PyPE.C44_update`

### C45 — LTV smoothing takes the dynamics from particle, input and time index 0

LTV.sample_smooth reads the input and the time stamp at index 0 of the slices it is given, whatever the particle; the smoothed statistics are the right ones when the dynamics do not depend on input and time. (Defect: with time-varying dynamics the result differs from the smoother of the current time.)

*Plan / method:* loop model; right for time-invariant dynamics, counterexample otherwise.

*Status:* **proved**. The English property as a user expects it is false; the exact behaviour is proved.

*Theorems:* `PyPE.C45_last_step`, `PyPE.C45_logp_xnext`, `PyPE.C45_right_if_time_invariant`, `PyPE.C45_uses_index_zero`, `PyPE.C45_wrong_if_time_varying`

### C46 — nonlinear Gaussian model evaluates Gaussian densities

NonlinearGaussian.logp_xnext and measure return, for every particle, the log density of N(f(x), Q(x)) resp. N(g(x), R(x)), with the covariances last given by the constructor, set_Q, set_R or the hooks. (Defect: with a constant covariance in dimension one the standard deviation is used as variance, which is the stated density only for variance 1.)

*Plan / method:* model of both code paths; exact value in each.

*Status:* **proved**. 

*Theorems:* `PyPE.C46_last_covariances`, `PyPE.C46_logp_xnext`, `PyPE.C46_logp_xnext_scalar`, `PyPE.C46_measure`, `PyPE.C46_measure_scalar`, `PyPE.C46_scalar_wrong`

### C47 — nonlinear Gaussian model samples from its laws

sample_process_noise followed by update draws the next states independently from N(f(x), Q(x)); eval_logp_x0 is the log density of N(x0, Px0) (0 / -inf when Px0 = 0); the constructor keeps the given x0 and Px0, zero for a missing one, ValueError when neither they nor lxi are given. (Defect: create_initial_estimate uses the raw, untransposed Cholesky array, so the particles have mean x0 but covariance Px0 exactly when Px0 is diagonal; otherwise their total variance exceeds that of Px0 by the sum of the squared entries below the diagonal.)

*Plan / method:* push-forward of product normal laws; trace argument for the defect.

*Status:* **proved**. 

*Theorems:* `PyPE.C47_eval_logp_x0`, `PyPE.C47_initial_defaults`, `PyPE.C47_initial_fixed`, `PyPE.C47_initial_law`, `PyPE.C47_transition_law`

### C48 — maximum transition density is an upper bound

NonlinearGaussian.logp_xnext_max is at least every value logp_xnext can return for the given particles, and is attained, which rejection smoothing needs. (Defect: with a constant scalar variance q it is an upper bound exactly when q <= 1.)

*Plan / method:* positive definite quadratic form.

*Status:* **proved**. 

*Theorems:* `PyPE.C48_bound`, `PyPE.C48_bound_scalar`

### C49 — Rao-Blackwellised particles store state and statistics independently

Rao-Blackwellised set_states/get_states round-trip exactly, set_Mz/get_Mz likewise, and each of the two writes leaves what the other one stores unchanged.

*Plan / method:* packing model.

*Status:* **proved**. 

*Theorems:* `PyPE.C49_get_states`, `PyPE.C49_get_states_short`, `PyPE.C49_set_Mz`, `PyPE.C49_set_states`, `PyPE.C49_set_states_error`

### C50 — conditional linear dynamics given the nonlinear state

calc_cond_dynamics returns for every particle the matrix and offset of the conditional law of the next linear state given the next nonlinear state, also for correlated noises. (Defect: the covariance it returns is Qz instead of Qz - Qxiz' Qxi^-1 Qxiz; it is right exactly when the noises are uncorrelated, otherwise too large.)

*Plan / method:* normal conditional laws (Schur complement).

*Status:* **proved**. Restated with the covariance defect.

*Theorems:* `PyPE.C50_cond_covariance`, `PyPE.C50_cond_dynamics`

### C51 — EM gradient helpers are the derivatives of the objective

compute_logprod_derivative is the derivative of log det Q + tr(Q^-1 B); compute_l2 is the second moment of the prediction error and compute_l2_grad_f / compute_l2_grad_A give its derivative.

*Plan / method:* Mathlib derivatives.

*Status:* **proved**. 

*Theorems:* `PyPE.C51_l2_gradient`, `PyPE.C51_l2_is_second_moment`, `PyPE.C51_logprod_derivative`

### C52 — hierarchical backward sampling

HierarchicalBase.sample_smooth with one trajectory draws the linear state from its exact law given the particle and the next linear state (the particle's own law at the last step). (Defect: with several trajectories every row carries the nonlinear state of the first particle, and the linear state of trajectory j is drawn from the first particle's law conditioned on the next linear states of all trajectories up to j.)

*Plan / method:* loop model with the in-place writes, induction.

*Status:* **proved**. Restated with the defect (index 0 and accumulated in-place updates).

*Theorems:* `PyPE.C52_sample_smooth`, `PyPE.C52_single_exact`

### C53 — EM runs the requested schedule

Under Python 2 a completed ParamEstimation.maximize ran exactly max_iter iterations: iteration i installs the current estimate, simulates with num_part[i] / num_traj[i] (the last entry repeated when the schedule is shorter) and replaces the estimate by the result of its M-step; it returns the last estimate. A completed maximize of ParamEstimationSAEM / PSAEM installs param0 and then each M-step result in order, hands each result to the callback, and returns the last one. ParamEstimation.maximize completes whenever no callback or model operation raises and the schedules are not empty (IndexError otherwise). (Defects: the returned estimate is never installed in the model; under Python 3 the method raises NameError before doing anything.)

*Plan / method:* loop model with a log of the calls.

*Status:* **proved**. Restated with the defects. xrange is modelled explicitly (PyVersion).

*Theorems:* `PyPE.C53_calls_received`, `PyPE.C53_completes`, `PyPE.C53_counts`, `PyPE.C53_empty_schedule`, `PyPE.C53_final_estimate`, `PyPE.C53_psaem_returns`, `PyPE.C53_python3`, `PyPE.C53_saem_returns`, `PyPE.C53_schedule`

### C54 — stochastic approximation step sizes

alpha_gen returns step sizes in (0,1], equal to 1 up to iteration 101 and non-increasing, with divergent sum and convergent sum of squares (Robbins-Monro).

*Plan / method:* p-series comparison.

*Status:* **proved**. 

*Theorems:* `PyPE.C54_antitone`, `PyPE.C54_one_iff`, `PyPE.C54_range`, `PyPE.C54_squares_converge`, `PyPE.C54_sum_diverges`

### C55 — SAEM / PSAEM trajectory weights stay a probability vector

In every run of PSAEM every M-step gets a non-empty list of trajectories with positive weights of sum one (at most max_traj), pruning only discards weights not above the threshold, and with default pruning the weighted average of any trajectory statistic is the stochastic approximation recursion S_k = (1-a_k) S_(k-1) + a_k m_k (the first 102 M-steps remember nothing with the default step sizes). (Defect: ParamEstimationSAEM raises IndexError in its first iteration for every model using the default trajectory representation; no M-step is ever run.)

*Plan / method:* invariant by induction over the iterations.

*Status:* **proved**. Restated with the defect of SAEM.

*Theorems:* `PyPE.C55_burn_in`, `PyPE.C55_calls_received`, `PyPE.C55_contribution_mean`, `PyPE.C55_prune_default`, `PyPE.C55_prune_discards`, `PyPE.C55_prune_weights`, `PyPE.C55_psaem_average`, `PyPE.C55_psaem_weights`, `PyPE.C55_saem_index_error`, `PyPE.C55_saem_never_completes`, `PyPE.C55_saem_weights`

### C56 — PSAEM iteration count, callback and conditioning

With the default callback PSAEM stops after exactly max(1, max_iter) iterations; with a user callback it stops exactly when the callback first asks to, so one that never does makes it run forever, whatever max_iter is; every simulation after the first is conditioned on the trajectory produced in the iteration before. (Defect: the default filter_options=None always fails with TypeError in the first iteration.)

*Plan / method:* fuel model; monotone fuel theorem.

*Status:* **proved**. Restated with the defect of filter_options=None.

*Theorems:* `PyPE.C56_callback_stops`, `PyPE.C56_calls_received`, `PyPE.C56_completes`, `PyPE.C56_conditioning`, `PyPE.C56_default_count`, `PyPE.C56_default_stops`, `PyPE.C56_never_returns`, `PyPE.C56_no_options`, `PyPE.C56_no_options_typeError`

### C57 — the trajectory log-likelihood terms sum over the right steps

The default measurement term is the average over the trajectories of the sum over exactly the time steps that have a measurement, the transition term the same over all transitions with the input and time of the earlier step; the value-and-gradient forms return the gradient of the returned value. (Defect: under Python 3 both raise NameError.)

*Plan / method:* fold over the data.

*Status:* **proved**. Restated with the Python 3 defect.

*Theorems:* `PyPE.C57_gradient_measurement`, `PyPE.C57_gradient_transition`, `PyPE.C57_measurement_term`, `PyPE.C57_python3`, `PyPE.C57_transition_term`

### C58 — numeric gradient of the initial-state term

One expects ParamEstBaseNumericGrad to hand the optimiser the gradient of the value it hands it. (Defect: it adds to every component the mean over the parameters of the initial-state gradient; component k is right if and only if the k-th component of that gradient equals this mean, so always with a single parameter and in general not with more.)

*Plan / method:* model; Mathlib derivatives; counterexample.

*Status:* **proved**. Restated as the exact behaviour; C58_counterexample shows the expectation fails.

*Theorems:* `PyPE.C58_counterexample`, `PyPE.C58_gradient_correct_iff`, `PyPE.C58_gradient_exact`, `PyPE.C58_single_parameter`

### C59 — density of a sum of two uniforms

unifsum(a, b), called at p, is the density of X+Y for independent uniforms between the limits of a and of b: non-negative, zero outside the support, a density of the convolution of the two laws (one of them may be a point mass), integrating to one; when both intervals have positive length the value is the overlap length over the product of the lengths at every point, hence continuous; the order of limits and intervals does not matter; two single points raise ZeroDivisionError. (Defect: with four int limits in Python 2 this holds iff the lengths of the intervals differ by an even number; otherwise the value is negative near the upper end, or ZeroDivisionError is raised at the lower end if one interval is a point.)

*Plan / method:* piecewise case analysis; convolution of measures.

*Status:* **proved**. 

*Theorems:* `PyPE.C59_density`, `PyPE.C59_int_limits`, `PyPE.C59_pointwise`, `PyPE.C59_symmetric`, `PyPE.C59_zero_division`

### C60 — instrumentation is transparent

For every program that only makes calls the wrapper is meant for (any number, each depending on earlier results and exceptions), wrapping the model in the instrumenter gives the same result and the same final model state, and every counter grows by exactly the number of particles of the calls it counts.

*Plan / method:* refinement over programs (free monad), Python argument binding modelled.

*Status:* **proved**. 

*Theorems:* `PyPE.Instr.C60_add`, `PyPE.Instr.C60_transparent`

### C61 — wrapping a model without optional hooks

One expects a model that lacks post_smoothing / pre_mhips_pass to behave the same when wrapped. (Defects: hasattr of the wrapper does not depend on the model, so every smoothing of a wrapped model without post_smoothing that would succeed raises AttributeError; qsample, logp_q, measure, propose_from_y, set_params, maximize and maximize_weighted are not forwarded and raise AttributeError; propose_smooth without past and future raises TypeError; print_statistics and print_total_ops always raise AttributeError. A model with both hooks is smoothed the same way.)

*Plan / method:* attribute-table model; smoother model with absent hooks.

*Status:* **proved**. Restated as the exact (defective) behaviour.

*Theorems:* `PyPE.C61_smoothing`, `PyPE.C61_with_hooks`, `PyPE.Instr.C61_hasattr`, `PyPE.Instr.C61_missing_hook`, `PyPE.Instr.C61_not_forwarded`, `PyPE.Instr.C61_reports`, `PyPE.Instr.C61_single_step`

### C62 — smoothed estimates belong to the last simulate call that smoothed

get_smoothed_estimates returns the result of the last simulate() call that had a smoother and num_traj>0; a later simulate(smoother=None) leaves the old result in place, and before any smoothing the call raises AttributeError. A run that fails also leaves the old smoothed result in place, while the filter trajectory is already the new, partial one (nothing of an earlier filter run is left once the filter has been constructed). (Defect: stale estimates.)

*Plan / method:* state machine of the Simulator object.

*Status:* **proved**. 

*Theorems:* `PyPE.C62_earlier_runs`, `PyPE.C62_no_smoothing_attribute_error`, `PyPE.C62_smoother_runs_iff`, `PyPE.C62_stale_smoothed_estimates`

### C63 — one bootstrap step uses the right data

After any successful history, forward(u, y) of the bootstrap filter samples process noise for the selected ancestors with (u, k), propagates those ancestors with (u, k, noise), evaluates the likelihood at (y, k+1), and the weights are the Bayes update of the previous ones (the likelihood alone after resampling).

*Plan / method:* composition of the trajectory representation invariant with the step function.

*Status:* **proved**. 

*Theorems:* `PyPE.C63_bootstrap_step`

### C64 — mhbp proposes ancestors without shuffling

One would expect every trajectory's proposed ancestor in mhbp to be drawn from the filter weights. (Defect: the systematic sample is not permuted, so the proposals of the M trajectories are always in ascending order; with equal weights and M = N trajectory j is always proposed particle j, and no number of iterations can give it any ancestor other than j or the one it started with.)

*Plan / method:* inverse-cdf property of systematic sampling; induction over the iterations.

*Status:* **proved**. 

*Theorems:* `PyPE.C64_mhbp_equal_weights`, `PyPE.C64_mhbp_never_mixes`, `PyPE.C64_mhbp_proposals_sorted`

### C65 — repeated prediction and measurement is the exact Bayesian filter

Starting from N(z0, P0), any sequence of predict_full / measure_full calls with arbitrary time-varying matrices (positive semidefinite noise, invertible measurement noise) succeeds, returns the mean and covariance of the conditional law of the current state given all measurements so far, and the sum of the returned log-likelihoods is the log density of the whole measurement record.

*Plan / method:* induction over the steps with the representation state = mean(history) + independent Gaussian.

*Status:* **proved**. Induction over the steps; regular conditional distribution and Lebesgue density of the record.

*Theorems:* `PyPE.C65_kalman_filter_exact`

### C66 — an LTV model filters exactly

Starting from create_initial_estimate, any sequence of update / measure calls on an LTV model whose hooks describe a linear Gaussian system keeps every particle equal to mean and covariance of the conditional law of the state given all measurements, and the accumulated weights are the log density of the measurement record.

*Plan / method:* refinement to C65.

*Status:* **proved**. 

*Theorems:* `PyPE.C66_ltv_filter_exact`

### C67 — the EM objective of an LTV model is the expected complete-data log-likelihood

eval_logp_x0, eval_logp_xnext and eval_logp_y return, for every particle, the expectation of the log Gaussian density of the initial state, the transition, the measurement under the smoothed law stored in the particle, without the constant (d/2) log 2 pi.

*Plan / method:* second moments of Gaussian laws.

*Status:* **proved**. 

*Theorems:* `PyPE.C67_logp_x0`, `PyPE.C67_logp_xnext`, `PyPE.C67_logp_y`

### C68 — analytic gradients of an LTV model

eval_logp_x0_val_grad and eval_logp_xnext_val_grad return the sum over the particles of the objective and its exact gradient whenever the hooks return the exact derivatives of the matrices. (Defects: eval_logp_y_val_grad raises TypeError whenever a gradient is given and there is a particle; without gradients the methods return an array instead of the sum.)

*Plan / method:* Mathlib derivatives.

*Status:* **proved**. Defects proved as such.

*Theorems:* `PyPE.C68_no_gradient_returns_array`, `PyPE.C68_x0_constant`, `PyPE.C68_x0_gradient`, `PyPE.C68_xnext_gradient`, `PyPE.C68_y_gradient_raises`

### C69 — the proposal density matches the proposal

NonlinearGaussian.propose_smooth draws independent proposals whose joint law has the density exp(logp_proposal), as the Metropolis-Hastings smoothers require (at the first step: when Px0 is diagonal).

*Plan / method:* C46 + C47.

*Status:* **proved**. 

*Theorems:* `PyPE.C69_initial_proposal`, `PyPE.C69_proposal`

### C70 — first-stage weights of the nonlinear Gaussian model

eval_1st_stage_weights returns the measurement log density at the noise-free one-step prediction of every particle, at time t+1.

*Plan / method:* composition of update with zero noise and measure.

*Status:* **proved**. 

*Theorems:* `PyPE.C70_first_stage`

### C71 — filtering and smoothing of recorded data is exact

Running predict_full and measure_full over a record of data and then KalmanSmoother.smooth backwards gives, for every time, the exact normal law of the state given all data, the exact cross covariance of successive states, and the exact log-likelihood of the data; LinAlgError is raised only if a predicted covariance is singular, never with invertible process noise.

*Plan / method:* measure-theoretic Bayes rule for Gaussian laws, induction over the record.

*Status:* **proved**. Spec.follow is the unnormalised joint law; kfData/rtsData fold the modelled methods over the record.

*Theorems:* `PyPE.C71_filter_exact`, `PyPE.C71_pair_exact`, `PyPE.C71_smoother_exact`, `PyPE.C71_smoother_succeeds`

### C72 — the Rao-Blackwellised filter is exact per particle

For one nonlinear state, update draws every particle's next nonlinear state from its exact law given the particle and leaves the exact conditional law of the next linear state in the particle; measure is Bayes' rule per particle and returns the log-likelihood; eval_1st_stage_weights equals measure after an update without noise; for any number of nonlinear states cond_predict and cond_predict_single_step leave the exact law of the next linear state given the given next nonlinear state. Qz is the covariance of the linear noise given the nonlinear noise. (Defect: with more than one nonlinear state update always raises ValueError.)

*Plan / method:* conditional laws of the normal distribution.

*Status:* **proved**. Restated with the defect for several nonlinear states. Spec.RbDescribes relates the object and its overridable methods to the model on paper.

*Theorems:* `PyPE.C72_cond_predict`, `PyPE.C72_cond_predict_single_step`, `PyPE.C72_first_stage`, `PyPE.C72_measure_exact`, `PyPE.C72_update_exact`, `PyPE.C72_update_raises`

### C73 — the constrained smoother is exact along every trajectory

post_smoothing gives for every trajectory and time the exact normal law of the linear state given all measurements and all nonlinear states of that trajectory, and the exact cross covariance of successive linear states (zero at the end); it raises LinAlgError only when a predicted covariance is singular, never with invertible linear process noise.

*Plan / method:* C71 along every trajectory, induction over time.

*Status:* **proved**. 

*Theorems:* `PyPE.C73_smoothing_exact`, `PyPE.C73_smoothing_succeeds`

### C74 — transition densities of the Rao-Blackwellised model

logp_xnext is the exact log density of the stacked next state given the particle (Qz here the marginal covariance), logp_xnext_max its attained supremum over particles and next states, logp_xnext_singlestep the exact log density of the next nonlinear state.

*Plan / method:* densities of normal laws.

*Status:* **proved**. With correlated noises logp_xnext reads Qz as marginal covariance while the filter (C72) reads it as conditional covariance: an inconsistency of the code.

*Theorems:* `PyPE.C74_logp_singlestep`, `PyPE.C74_logp_xnext`, `PyPE.C74_logp_xnext_max`

### C75 — backward sampling of the linear state is exact

sample_smooth draws the linear state of every trajectory from its exact law given the particle and the trajectory's next nonlinear and linear state; at the last step from the particle's own law.

*Plan / method:* Bayes rule twice.

*Status:* **proved**. 

*Theorems:* `PyPE.C75_sample_smooth`

### C76 — the hierarchical filter is exact per particle

measure of a hierarchical model keeps the nonlinear state, updates the law of the linear state with Bayes' rule and returns the sum of both log-likelihoods; update moves the law of the linear state exactly. (Defect: when no measurement offset h is given at all, measure raises TypeError.)

*Plan / method:* C71 per particle.

*Status:* **proved**. 

*Theorems:* `PyPE.C76_measure_exact`, `PyPE.C76_measure_raises`, `PyPE.C76_update_exact`

### C77 — transition densities of hierarchical models

logp_xnext is the user's nonlinear log density plus the exact log density of the next linear state. (Defect: logp_xnext_max uses +log det instead of -log det / 2; it bounds logp_xnext when all predicted covariances have determinant >= 1, and for one particle only then.)

*Plan / method:* densities of normal laws.

*Status:* **proved**. Restated with the defect of logp_xnext_max.

*Theorems:* `PyPE.C77_logp_xnext`, `PyPE.C77_logp_xnext_max`, `PyPE.C77_max_bound_iff`

### C78 — smoothing of hierarchical models is exact

post_smoothing of a hierarchical model gives for every trajectory and time the exact normal law of the linear state given all measurements and the trajectory of the nonlinear state, with exact cross covariances; LinAlgError only when a predicted covariance is singular.

*Plan / method:* reduction to C73.

*Status:* **proved**. 

*Theorems:* `PyPE.C78_smoothing_exact`, `PyPE.C78_smoothing_succeeds`, `PyPE.C78_wrong_initial_count`

### C79 — PSAEM with raoblackwell=True uses the filter's trajectories

One expects PSAEM with raoblackwell=True to give the M-step the weighted trajectories of the filter. (Defect: every trajectory it gives to an M-step is uninitialised memory, an entry of the array numpy.empty returned.)

*Plan / method:* provenance invariant over the iterations.

*Status:* **proved**. Restated as the exact (defective) behaviour.

*Theorems:* `PyPE.C79_raoblackwell_garbage`

### C80 — PSAEM2 is PSAEM

ParamEstimationPSAEM2.maximize (preallocated buffers updated in place) performs the same calls, gives the M-steps the same trajectories and weights and returns the same estimate or exception as PSAEM with one trajectory per iteration and no limit, whatever its uninitialised buffers contain (max_iter >= 1, positive first step size). Under Python 3 it raises NameError before doing anything.

*Plan / method:* simulation relation between the two loops.

*Status:* **proved**. 

*Theorems:* `PyPE.C80_calls_received`, `PyPE.C80_psaem2_refines`, `PyPE.C80_python3`

### C81 — the M-step maximises the Monte-Carlo Q function

The function ParamEstBaseNumeric.maximize minimises is minus the average over the smoothed trajectories of the complete-data log-likelihood, when the model's terms return one log-density per particle. (Defect: if eval_logp_x0 returns the sum over the particles, the other form its interface allows, the initial term counts M times as much as the others.)

*Plan / method:* composition of C57.

*Status:* **proved**. 

*Theorems:* `PyPE.C81_em_objective`, `PyPE.C81_summed_initial_term`

### C82 — EM terms of the Rao-Blackwellised model are expected log-densities

eval_logp_x0, eval_logp_xnext and eval_logp_y of a mixed linear/nonlinear model are, up to the constant multiples of log 2 pi, log p(xi0) plus the expected log-density of the linear initial state per particle, and the sums over the particles of the expected log-densities of the next state and of the measurement, the expectation taken over the smoothed law of the linear states (with the smoothed cross covariance of successive states); the objective the numeric M-step minimises is minus the average over the trajectories of the expected complete-data log-likelihood. (Defect: with a constant measurement offset h and no measurement matrix, which can be filtered, eval_logp_y raises AttributeError.)

*Plan / method:* second moments of normal laws (C51) and the trace form of the Gaussian log-density.

*Status:* **proved**. Restated with the defect.

*Theorems:* `PyPE.C82_em_objective`, `PyPE.C82_logp_x0`, `PyPE.C82_logp_xnext`, `PyPE.C82_logp_y`, `PyPE.C82_logp_y_without_C`

### C83 — EM gradients of the Rao-Blackwellised model

The val_grad variants return the exact gradient of the C82 terms: for the next state whenever the hooks return the derivatives of A, f, Q (None = no dependence); for the measurement with C kept at its present value (Defects: the derivative of C given by the model is ignored; with R computed per particle UnboundLocalError is raised; without any gradient the already processed measurement is processed again); for the initial state the gradient of the average of eval_logp_x0. (Defect: the value returned with it counts log p(xi0) with weight 1/N.)

*Plan / method:* matrix calculus of C51.

*Status:* **proved**. Restated as the exact behaviour, with the defects.

*Theorems:* `PyPE.C83_x0_gradient`, `PyPE.C83_x0_value_mean`, `PyPE.C83_xnext_gradient`, `PyPE.C83_y_gradient`, `PyPE.C83_y_gradient_ignores_C`, `PyPE.C83_y_gradient_per_particle_R`, `PyPE.C83_y_no_gradient`

### C84 — the marginalised smoother stores the likelihood of the future

MixedNLGaussianMarginalized.sample_smooth stores with every nonlinear state a positive semidefinite Omega and a Lambda such that exp(-z'Omega z/2 + Lambda'z) is, up to a positive factor, p(y_t, xi_{t+1}, y_{t+1}, ..., xi_T, y_T | xi_t, z_t) as a function of the linear state z_t, for the whole backward pass: any number of steps and trajectories, any selection of continuations, missing measurements, singular Qz.

*Plan / method:* integral of exp(quadratic) over a normal law; induction over time.

*Status:* **proved**. numpy.linalg.svd is a parameter with its specification (Spec.SvdOk); cross covariances are ignored by the class, the model is assumed to have none.

*Theorems:* `PyPE.C84_backward_pass`, `PyPE.C84_sample_smooth`

### C85 — the backward weights of the marginalised smoother

logp_xnext_full returns, for every particle, log p(xi_{t+1:T}, y_{t+1:T} | particle) minus m'(I + Qz Omega)^-1 Qz m with m = Lambda - Omega fz, plus a constant depending on the trajectory only. Hence when fz and Qz are the same for all particles the backward probabilities are exactly w_i p(future | particle i) normalised. (Defect: a wrong sign in calc_prop1; when fz or Qz depends on the nonlinear state the backward probabilities are wrong.)

*Plan / method:* the integral of C84 once more, over the particle's normal law; counterexample for the defect.

*Status:* **proved**. Restated as the exact behaviour, with the defect.

*Theorems:* `PyPE.C85_backward_weights`, `PyPE.C85_end_to_end`, `PyPE.C85_logp_xnext_full`, `PyPE.C85_sign_defect`

### C86 — what the marginalised smoother cannot do

(Defects) With any number of nonlinear states other than one, logp_xnext_full and sample_smooth raise ValueError for every valid model; a missing measurement is treated as an observation equal to its prediction h; a model without measurement matrix raises UnboundLocalError as soon as there is a measurement; rejection sampling raises NotImplementedError for every run of two or more steps, even when the user supplies maxpdf.

*Plan / method:* evaluation of the model with arbitrary inputs.

*Status:* **proved**. Negative results.

*Theorems:* `PyPE.C86_missing_measurement`, `PyPE.C86_no_measurement_matrix`, `PyPE.C86_no_rejection_sampling`, `PyPE.C86_one_nonlinear_state`

### C87 — initial distribution of mixed models

MixedNLGaussianSampledInitialGaussian: create_initial_estimate returns particles whose nonlinear states are independent draws from N(xi0, Pxi0) and whose linear statistics are exactly (z0, Pz0); cond_sampled_initial keeps the nonlinear states and replaces the linear statistics by get_rb_initial; eval_logp_xi0 is the exact log-density, eval_logp_x0 adds the expected log-density of the linear state; eval_logp_xi0_grad is the exact gradient when get_xi_intitial_grad returns the derivatives (zero by default). (Defects: without Pz0 the constructor raises AttributeError; without Pxi0 the density raises LinAlgError; the default get_rb_initial_grad has a dimension too much and makes eval_logp_x0_val_grad raise ValueError unless there is one linear state and one parameter.)

*Plan / method:* laws of independent draws, row layout of C49, matrix calculus of C51.

*Status:* **proved**. Restated with the defects; the shape defect is proved of a model of the array shapes in the first loop iteration.

*Theorems:* `PyPE.C87_cond_sampled_initial`, `PyPE.C87_constructor`, `PyPE.C87_default_gradient`, `PyPE.C87_default_rb_gradient_raises`, `PyPE.C87_initial_particles`, `PyPE.C87_logp_x0`, `PyPE.C87_logp_xi0`, `PyPE.C87_no_initial_covariance`, `PyPE.C87_xi0_gradient`

### C88 — smoothing proposals of mixed models

propose_smooth of a mixed linear/nonlinear model (one nonlinear state) draws the nonlinear states independently from their exact law given the ancestors and attaches the exact conditional law of the linear state; logp_proposal returns for every particle the log-density of that law, at the nonlinear state of proposal find[i] - its own when find is 0, 1, .... At the first step the proposals are initial particles and logp_proposal is their log-density plus a constant common to all particles with the initial linear statistics.

*Plan / method:* C72, C74 and C87 combined.

*Status:* **proved**. With more than one nonlinear state propose_smooth raises ValueError (C72).

*Theorems:* `PyPE.C88_initial_proposal`, `PyPE.C88_proposal`

### C89 — unbiased likelihood estimate

For the bootstrap filter and for the SIR filter with any proposal that has a density, the likelihood estimate that can be read off the stored log-weights, their w_offset and the resampling flags returned by forward() - times the filtered mean of any non-negative function at the last step - has, over all the random draws of the run, expectation exactly E[prod_t p(y_t|x_t) phi(x_T)]; with phi = 1 this is the likelihood of the measurements. It holds for any number of particles, any resampling threshold, any length, whether or not the run starts with measure(), and for the shipped NonlinearGaussian models with Gaussian kernels and likelihoods.

*Plan / method:* law of one step from C07 and C47, then induction over the run with the estimate so far as a factor.

*Status:* **proved**. The particles of one step need only have the right marginal laws. For NonlinearGaussianInitialGaussian the initial law is the Gaussian with the covariance create_initial_estimate really uses (C47). Runs of the other filters (APF, conditional filters) are not covered.

*Theorems:* `PyPE.C89_bootstrap_unbiased`, `PyPE.C89_nonlinear_gaussian`, `PyPE.C89_sir_unbiased`

### C90 — the gradient loops stay inside their buffers and do not depend on scratch memory

compute_l2_grad_f and compute_l2_grad_A, the element-by-element loops behind the analytic EM gradients (the compiled version runs them without bounds checks), never access an element outside the arrays calc_l2_grad passes to them, for any number of particles, parameters, nonlinear states and at least one linear state; what they leave in the result depends only on the inputs, not on the previous content of the scratch buffers, and is for every particle, parameter and entry the derivative of the expected squared prediction error that calc_l2 returns. (Defect: with no linear states and a gradient of A the loops address a column that does not exist.)

*Plan / method:* an imperative model with explicit buffers and bounds checks; loop invariants per statement; the final buffer equals the functional model of C51.

*Status:* **proved**. The three buffers out, tmp1, tmp2 are different arrays, as calc_l2_grad allocates them.

*Theorems:* `PyPE.C90_grad_A`, `PyPE.C90_grad_f`, `PyPE.C90_gradient`, `PyPE.C90_no_linear_states`, `PyPE.C90_refines`

### C91 — gradient test tabulates the right points

GradientTest.test(param_id, param_vals) smooths once with the current parameters and tabulates every EM term at exactly the parameter vector whose component param_id is replaced by the tested value, with no trace of the values tested before; the slopes of the measurement and transition terms are derivatives of the plotted curves whenever the model's gradients are right. (Defects: the slope of the initial term is the mean over all parameters' gradients, right exactly when that equals the tested component; the model is left at the last tested value; an empty list leaves the plots of an earlier test.)

*Plan / method:* induction over the tested values; uniqueness of derivatives.

*Status:* **proved**. param_id is non-negative; plotting itself is not modelled.

*Theorems:* `PyPE.C91_errors`, `PyPE.C91_slopes`, `PyPE.C91_tables`

### C92 — ancestral trajectories estimate path expectations without bias

After a run of the bootstrap filter, or of the SIR filter with any proposal that has a density, perform_smoothing(M, 'ancestor') returns trajectories such that the likelihood estimate (C89) times the average of any non-negative function phi over the M trajectories has, over all random draws of filter and smoother, expectation exactly E[prod_t p(y_t|x_t) phi(x_0,...,x_T)] - a functional of the whole path, not only of the last state. It holds for any number of particles and trajectories, any resampling threshold and any length.

*Plan / method:* one operator per stored step that follows the ancestor indices; the law of one step (C89) turns the operator of step t+1 into that of step t; induction over the run.

*Status:* **proved**. sample_smooth is the default one and the model has no post_smoothing. C92_last_state shows the right hand side is that of C89 when phi depends on the last state only. Bootstrap and SIR filters.

*Theorems:* `PyPE.C92_ancestor_unbiased`, `PyPE.C92_last_state`, `PyPE.C92_sir`

### C93 — backward simulation estimates path expectations without bias

The same holds for perform_smoothing(M, 'full') (FFBSi) with the default FFBSi callbacks, whenever logp_xnext evaluates a density of the transition kernels: the likelihood estimate times the average of phi over the trajectories of the backward simulator has expectation exactly E[prod_t p(y_t|x_t) phi(x_0,...,x_T)]; in particular the simulated backward kernels introduce no bias although they use the approximate filter weights. It holds for the shipped NonlinearGaussian models with their own logp_xnext (state dimension other than one, or a covariance per particle: see C46 for the scalar defect).

*Plan / method:* the backward weights are those of the ancestor given the new particle, so averaging over the ancestor of the filter step equals averaging over the backward draw; then the induction of C92.

*Status:* **proved**. Method 'full' with default FFBSi callbacks, no post_smoothing. For the other backward samplers see C98.

*Theorems:* `PyPE.C93_backward_simulation_unbiased`, `PyPE.C93_nonlinear_gaussian`, `PyPE.C93_sir`

### C94 — updating arrays in place gives the values the algorithm defines

The filters pass arrays by reference, share them between approximations and update weights and particles in place. For every filter name, every options dictionary and any sequence of forward()/measure() calls, the results, the exceptions and everything that can be read from the trajectory afterwards are those of the algorithm on values (new array for each result), for every model that returns new arrays and writes only into the array given to update().

*Plan / method:* heap model of all filters with allocation; simulation of the value-level model by the heap model.

*Status:* **proved**. If a measure() call raises, the two differ in w_offset of the newest step (C14_measure_error_offset); states are compared when no call of the run raises (C94_run) and for a forward() that raises (C94_forward). Smoothers are modelled on values only.

*Theorems:* `PyPE.C94_constructor`, `PyPE.C94_continue`, `PyPE.C94_forward`, `PyPE.C94_run`

### C95 — every smoother returns num_traj trajectories over all time steps

On every filter run of at least two steps, perform_smoothing(M, method) with default options succeeds for each of the eight methods and returns M trajectories covering all time steps; get_smoothed_estimates returns the array with one row of M states per time step. (On other trajectory objects: IndexError if empty, single particles are broadcast over the row, other differing counts raise ValueError. Constructing SmoothTrajectory for an MH method without options raises TypeError.)

*Plan / method:* combine the totality theorems of all methods; characterise the tabulation.

*Status:* **proved**. No post_smoothing/pre_mhips hooks. 'mhips_reduced' additionally needs a measurement at the last step (known defect, see C36).

*Theorems:* `PyPE.C95_every_method`, `PyPE.C95_get_smoothed_estimates`, `PyPE.C95_options_required`

### C96 — particle Gibbs with two particles leaves the smoothing law invariant

Take a reference trajectory distributed as the smoothing law (the law of the state trajectory given the measurements), run simulate's conditional filter 'CPF' or 'CPFAS' with two particles on it, draw trajectories with perform_smoothing(m, 'ancestor') or 'full', use one of them as the next reference, and repeat: after any number of iterations the trajectory has the smoothing law. For 'CPFAS', 'full' and 'ancestor' give the same law of the next trajectory. This covers every nonlinear Gaussian model. (Defect: with three particles the smoothing law is not invariant, because the free particles are resampled systematically without conditioning on the reference.)

*Plan / method:* reduce a run to a Markov kernel on pairs of paths, show exchangeability of the pair under the extended law, induct on the history; backward simulation by a mixture identity.

*Status:* **proved**. Two particles (the reference and one free particle). C96_three_particles: a model where three particles change the smoothing law (29/60 instead of 1/2).

*Theorems:* `PyPE.C96_cpf_full_invariant`, `PyPE.C96_cpf_invariant`, `PyPE.C96_cpfas_full_invariant`, `PyPE.C96_cpfas_invariant`, `PyPE.C96_full_eq_ancestor`, `PyPE.C96_nonlinear_gaussian`, `PyPE.C96_three_particles`

### C97 — MHIPS smoothing is unbiased and leaves the smoothing law invariant

Run the bootstrap filter or the SIR filter, then call perform_smoothing(m, 'mhips') or perform_smoothing(m, 'mhips_reduced') with any number of passes R. Over all random draws of filter and smoother, the likelihood estimate times the average of any test function over the m returned trajectories has the expectation of the likelihood times the test function under the model, for every N, m and R. Each pass is a Markov kernel on trajectories that has the smoothing law as invariant law, whatever the proposal density. Used in place of 'ancestor' inside particle Gibbs with two particles ('CPF' or 'CPFAS') it keeps the smoothing law invariant over any number of iterations. This covers nonlinear Gaussian models with the default proposals.

*Plan / method:* show that one Metropolis-Hastings site update satisfies detailed balance for the joint density, lift it to a pass, to R passes, and compose with the unbiased ancestor trajectories of the filter.

*Status:* **proved**. For histories of at least two time steps (a one-step history raises, C34). 'mhips' with any proposal density that the model samples from and evaluates; 'mhips_reduced' with a measurement at the last time (without one the code raises, C36).

*Theorems:* `PyPE.C97_gibbs_cpf`, `PyPE.C97_gibbs_cpfas`, `PyPE.C97_mhips_kernel`, `PyPE.C97_mhips_sir`, `PyPE.C97_mhips_unbiased`, `PyPE.C97_nonlinear_gaussian`, `PyPE.C97_nonlinear_gaussian_gibbs`

### C98 — backward simulation by rejection sampling and by MCMC is unbiased

Run the bootstrap filter or the SIR filter, then call perform_smoothing(m, method) with method 'rs', 'rsas' or 'mcmc'. Over all random draws of filter and smoother, the likelihood estimate times the average of any test function over the m returned trajectories has expectation exactly E[prod_t p(y_t|x_t) phi(x_0,...,x_T)], as with 'full' (C93), for every N and m. For 'mcmc' this holds for every number of rounds R, also R = 0 (the trajectories are then ancestral lines); for 'rs' for every R, whatever part of the trajectories is left to the exact fallback; for 'rsas' once the number of rounds it may need are drawn. 'rs' and 'rsas' need a logp_xnext_max that bounds logp_xnext; nonlinear Gaussian models have one.

*Plan / method:* the law of one backward pick is a kernel that keeps the backward weights of the particles (an exact draw, or R Metropolis-Hastings rounds from the ancestor); such kernels can be exchanged with the filter step as in C93.

*Status:* **proved**. Default FFBSi/FFBSiRS callbacks, no post_smoothing, maxpdf computed from logp_xnext_max (not given by the user). For 'rsas' the stopping parameters must satisfy the conditions under which it stops (C31); the draws counted are as many rounds as it may need.

*Theorems:* `PyPE.C98_adaptive_rejection_sir`, `PyPE.C98_adaptive_rejection_unbiased`, `PyPE.C98_mcmc_sir`, `PyPE.C98_mcmc_unbiased`, `PyPE.C98_nonlinear_gaussian`, `PyPE.C98_rejection_sir`, `PyPE.C98_rejection_unbiased`

### C99 — the Rao-Blackwellised bootstrap filter is unbiased

Run the bootstrap filter on a model whose particles carry a Gaussian law for part of the state (MixedNLGaussianSampledInitialGaussian, HierarchicalBase; measure conditions that law in place and returns the predictive log-density). Over all random draws, the likelihood estimate read off the stored weights, offsets and resampling flags, times the filtered mean of E[phi(xi,z) | particle] at the last step, has expectation exactly E[prod_t p(y_t|xi_t,z_t) phi(xi_T,z_T)] under the joint model in which both xi and z are random, for every number of particles, resampling threshold and history. So marginalising z neither changes the likelihood that is estimated nor the target of the filter. For a model whose measure writes nothing it is the filter of C89.

*Plan / method:* an operator argument: pushing a function through one step of the joint model and integrating it over the law of a particle equals drawing the particle's successor and integrating over its law; conditioning is Bayes' rule (C72, C76); then induction over the history as in C89.

*Status:* **proved**. 'pf' only. For mixed models with one nonlinear state (with more, update always raises: the defect of C72); for hierarchical models with any number. Every measurement is an object, not None.

*Theorems:* `PyPE.C99_hierarchical`, `PyPE.C99_mixed_gaussian`, `PyPE.C99_plain`, `PyPE.C99_unbiased`

### C100 — backward simulation for Rao-Blackwellised models targets the joint smoothing law

Run the bootstrap filter on a model whose particles carry a Gaussian law for part of the state (MixedNLGaussianSampledInitialGaussian) and then perform_smoothing(m, 'full'), which draws z of the last step with sample_smooth, then for every earlier step picks particles with the weights times logp_xnext, draws z with sample_smooth, and finally replaces all sampled z by the smoothed mean and covariance (post_smoothing). Over all random draws of filter and smoother, the likelihood estimate times the average over the m returned trajectories of phi(xi_0,...,xi_T) has expectation exactly E[prod_t p(y_t|xi_t,z_t) phi(xi_0,...,xi_T)] under the joint model in which both xi and z are random, for every N, m, resampling threshold and history. The same holds for the linear states that post_smoothing stores: replacing phi by the integral of psi(xi_0,...,xi_T, z) over the normal law with the stored mean and covariance of z at a time n gives E[prod_t p(y_t|xi_t,z_t) psi(xi_0,...,xi_T, z_n)], when the buffers are not preallocated longer than the run (see C101). (Needs uncorrelated noise, Qxiz = 0: otherwise logp_xnext takes Qz as the total covariance of z while sample_smooth and update take it as the covariance given xi, and the result is biased.)

*Plan / method:* operators as in C97: picking an index by weight times density and then drawing from the backward kernel of the picked particle equals integrating the forward model over the particle's law, by Bayes' rule for the pair (state now, next state); induction over the backward loop, then over the history as in C99; post_smoothing (C73) succeeds and keeps xi.

*Status:* **proved**. Method 'full' after 'pf'. C100_unbiased is the statement for any Rao-Blackwellised model (user-written callbacks that satisfy Spec.RbSamples and Spec.RbBackward), C100_mixed_gaussian instantiates it with the modelled code of mlnlg.py and rbpf.py, C100_linear_states covers the stored mean and covariance of the linear states. Every measurement is an object, not None.

*Theorems:* `PyPE.C100_linear_states`, `PyPE.C100_mixed_gaussian`, `PyPE.C100_unbiased`

### C101 — post_smoothing of Rao-Blackwellised models uses the last entry of the buffers as the last measurement

The smoothed estimates of the linear states use st.y[-1], st.t[-1], the last entries of the copied buffers, as the measurement of the last step. After every successful history that ends with forward and whose number of steps is at least the preallocated T, these are that measurement and its time. (Defect: with T preallocated larger than the number of steps they are None and T-1, so the last measurement is ignored: two runs that differ only in the last measurement give the same result of post_smoothing on every smoothed trajectory. When the last step is measured again with measure() after forward, the buffers have grown by an entry 0, so post_smoothing uses the measurement 0 at time 0 for the last step.)

*Plan / method:* invariants over the call history: the unused entries keep their initial values while the run is shorter than T, and T is at most one more than the number of steps otherwise; the hook reads only indices below the last step and the last entry.

*Status:* **proved**. For the filters with the default measure() in C101_remeasured; C101_preallocated and C101_filled for all filters. The hook is the one of MixedNLGaussian models (rbpf.py).

*Theorems:* `PyPE.C101_filled`, `PyPE.C101_last_measurement_ignored`, `PyPE.C101_preallocated`, `PyPE.C101_reads_zero`, `PyPE.C101_remeasured`

### C102 — incomplete models raise instead of computing

A matrix that neither the callback nor the constructor supplies stays None, and callbacks may return arrays of the wrong length. Then the calls raise: KalmanFilter.predict returns exactly when A, f_k and Q are set (AttributeError without A, TypeError otherwise); smoothing with the model's matrices likewise, with LinAlgError for a singular predicted covariance; sample_process_noise and the prediction of the nonlinear states of a mixed model succeed exactly when Axi, Qxi, fxi are there for every particle (AttributeError without Axi, TypeError without Qxi); cond_predict of a hierarchical model exactly when Az, fz, Qz are there and one next state per particle is given; measure without R is an AttributeError; noise, next states, initial laws or continuations for another number of particles are ValueErrors, continuation indices out of range IndexErrors; and the backward statistics of the marginalised model raise UnboundLocalError for a measurement without measurement matrix, TypeError without R or h, LinAlgError for singular R. Likelihood terms of a linear model raise AttributeError for a measurement without C or R, LinAlgError for a singular R or initial covariance, TypeError for gradients of z0 without those of P0; a nonlinear Gaussian model without f (TypeError) or Q (AttributeError) cannot be propagated or sampled.

*Plan / method:* case analysis for one particle, lifted to the particle loops: a loop succeeds iff every iteration does, and fails with the exception of the first iteration that fails.

*Status:* **proved**. Kinds of exceptions are stated where the model distinguishes them; comments in the model say where several missing attributes are lumped together.

*Theorems:* `PyPE.C102_cond_predict_length`, `PyPE.C102_hierarchical_exceptions`, `PyPE.C102_hierarchical_measure`, `PyPE.C102_hierarchical_predict`, `PyPE.C102_initial_length`, `PyPE.C102_kalman_measure`, `PyPE.C102_kalman_predict`, `PyPE.C102_kalman_smooth`, `PyPE.C102_ltv_initial_gradient`, `PyPE.C102_ltv_terms`, `PyPE.C102_marginal_length`, `PyPE.C102_marginal_measurement`, `PyPE.C102_measure_noise`, `PyPE.C102_mixed_empty_h`, `PyPE.C102_nlg_missing`, `PyPE.C102_noise_covariance`, `PyPE.C102_noise_exception`, `PyPE.C102_noise_length`, `PyPE.C102_predict_exception`, `PyPE.C102_predict_nonlinear`, `PyPE.C102_sample_smooth_length`

### C103 — the auxiliary particle filter is unbiased

For the auxiliary particle filter on a Markov model with every measurement present, the likelihood estimate that belongs to the scheme - per step the weighted mean of the likelihood without resampling, and with resampling the weighted mean of the first-stage weights times the mean over the new particles of likelihood divided by the first-stage weight of the ancestor - times the filtered mean of any non-negative function at the last step has, over all the random draws of the run, expectation exactly E[prod_t p(y_t|x_t) phi(x_T)], whatever the first-stage weights are; also for the shipped NonlinearGaussian models with their own first-stage weights. (Defect: w_offset records only one of the three shifts of the log-weights, so the estimate that C89 reads off the offsets is wrong for this filter: on a model with uninformative measurements it is 2 instead of 1 with probability one.)

*Plan / method:* law of one step with and without resampling, then induction over the run with the estimate so far as a factor; a two-particle model for the defect.

*Status:* **proved**. 

*Theorems:* `PyPE.C103_apf_unbiased`, `PyPE.C103_nonlinear_gaussian`, `PyPE.C103_offsets_not_recorded`

### C104 — the filter that proposes from the measurement is unbiased up to its constants

For the filter 'pfy' on a model whose propose_from_y samples from the likelihood normalised to a law of the state (constant Z_t) and whose logp_xnext_singlestep is the transition log-density, on a trajectory without preallocation: prod_t Z_t times the likelihood estimate read off the weights and offsets, times the filtered mean of any non-negative function at the last step, has expectation E[prod_t p(y_t|x_t) phi(x_T)] exactly, when the run starts with forward. (Defect: when the run starts with measure(y0) the particles are drawn from the measurement and the model's initial law is never evaluated: the expectation is that of a model with a flat initial law; for a scalar random walk the estimate is sqrt(2 pi) where the likelihood under the initial law is at most 1. With preallocation the filter reads the wrong measurement, see C19.)

*Plan / method:* on exactly sized buffers the step equals one that reads the current measurement; its law is that of a proposal weighted with the transition density; induction over the run.

*Status:* **proved**. 

*Theorems:* `PyPE.C104_initial_law_ignored`, `PyPE.C104_pfy_unbiased`

### C105 — the weight arithmetic is safe in floating point

With a rounding after every addition, subtraction, multiplication and division (any monotone rounding that keeps representable numbers and integers up to the number of particles; sums in any order; rounded exp and log; double precision with ties to even is an instance, up to 2^53 particles): sample() with non-negative weights, not all zero, never fails, returns n ascending indices in range, never one of weight zero except index 0, and the number of copies of a particle differs from its expected number by at most 1 plus n times a slack of the size of the accumulated rounding error (1.01 in double precision up to a million weights and draws). The weight update keeps the largest log-weight exactly 0 and the order of the weights; so for every history of calls no run of pf, sir, cpf, cpfas and csiras raises, ancestors are valid, and the weights of pf, sir, cpf, cpfas never underflow all at once, however long the run. bsi_full, the draw of end particles and ancestor sampling never fail. With exact arithmetic this model is the model of the other claims. (Defect: CSIRAS stores its weights without subtracting their maximum and exponentiates them as they are: in double precision, when all log-weights of a step are below -746, all particles but the conditioned one descend from particle 0, whatever their weights.)

*Plan / method:* monotonicity of the rounding gives ascending cumulative sums that end at exactly 1 and a grid at most 1; induction over the summation tree and the run; error propagation by induction over the cumulative sums; binary floating point is shown to be such an arithmetic.

*Status:* **proved**. Finite values: overflow is not part of this model (C20 has the special values). The error bound of C105_sample_count is for sample(); numpy.cumsum is sequential, numpy.sum may add in any order. Callback results are arbitrary real numbers. The -log N weights of the first stored step are exact.

*Theorems:* `PyPE.C105_binary_accurate`, `PyPE.C105_binary_rounded`, `PyPE.C105_bsi_full`, `PyPE.C105_csiras_step`, `PyPE.C105_double`, `PyPE.C105_double_count`, `PyPE.C105_double_underflow`, `PyPE.C105_draw`, `PyPE.C105_exact_accurate`, `PyPE.C105_exact_filters`, `PyPE.C105_exact_pf`, `PyPE.C105_exact_rounded`, `PyPE.C105_exact_smoothing`, `PyPE.C105_exp_sample`, `PyPE.C105_filter_runs`, `PyPE.C105_max_sample`, `PyPE.C105_measure`, `PyPE.C105_resample`, `PyPE.C105_run`, `PyPE.C105_sample_count`, `PyPE.C105_sample_valid`, `PyPE.C105_underflow`

### C106 — without resampling the filter is independent importance sampling, and it is consistent

For a bootstrap ('PF') or SIR filter with resampling threshold 0 or less, on a model whose particles are drawn independently: over the random draws of a run (with or without an initial measure(), any number of forward() calls) no call raises and the particles of the last step, each with the weight N * (likelihood estimate) * (normalised weight), are N independent draws - every particle moves by the model's kernels (for SIR: the proposal) on its own and its weight is the product of the likelihoods it met (for SIR: times transition density over proposal density). As N grows, the likelihood estimate read off the stored log-weights and offsets converges in probability to the likelihood of the measurements, whenever that is finite, and the weighted mean of every integrable function over the particles of the last step converges in probability to its filtering expectation. Both hold for NonlinearGaussianInitialGaussian models whose measurement density is bounded in the state, for the normal initial law they sample from (C47).

*Plan / method:* induction over the steps: the joint law stays a product and the stored log-weights plus offsets are the logs of the products of increments; then the strong law of large numbers on the infinite product, transported to the N-particle runs.

*Status:* **proved**. Idealisation: exact real arithmetic, ideal independent draws. Without resampling only; with resampling the estimates are unbiased for every N (C89) but their limit is not treated. Runs with res > 0 are not covered.

*Theorems:* `PyPE.C106_independent`, `PyPE.C106_likelihood_consistent`, `PyPE.C106_mean_consistent`, `PyPE.C106_nonlinear_gaussian`, `PyPE.C106_sir_consistent`, `PyPE.C106_sir_independent`

### C107 — exact second moments, an error bound and central limit theorems without resampling

In the setting of C106 for the bootstrap filter: N times the mean of the product of the estimates of two non-negative functions is the exact value of their product with every measurement taken twice plus N-1 times the product of their exact values; so for every N the likelihood estimate is off by eps or more with probability at most (likelihood with every measurement taken twice - likelihood^2) / (N eps^2). If the likelihood with every measurement taken twice is finite, sqrt(N) times the error of the likelihood estimate tends in distribution to a normal law with that variance; and sqrt(N) times the error of the weighted mean of a function over the last particles tends in distribution to a normal law with the importance-sampling variance E[(products of likelihoods)^2 (phi - m)^2] / likelihood^2.

*Plan / method:* from the product law of C106: expansion of the double sum, Chebyshev's inequality, Mathlib's central limit theorem and Slutsky's theorem on the infinite product.

*Status:* **proved**. As C106. The limit theorems are stated for bounded continuous test functions.

*Theorems:* `PyPE.C107_error_bound`, `PyPE.C107_likelihood_clt`, `PyPE.C107_mean_clt`, `PyPE.C107_second_moment`

### C108 — on a linear Gaussian model the particle filter and smoother agree with the Kalman filter and smoother

A NonlinearGaussianInitialGaussian model with linear transition and measurement functions, positive definite covariances and a diagonal Px0, and the functions of utils/kalman.py, given the same record. The Kalman pass never fails. For any number of particles and any resampling threshold, the bootstrap filter's likelihood estimate has as its mean exactly exp(ll), ll the sum of the log-likelihoods the Kalman filter returns, and estimate times weighted mean of phi has mean exp(ll) E[phi(X)], X ~ N(z, P) with the returned z and P. An LTV model of the same system stores this z and P in every particle and its log-likelihoods add up to ll. After perform_smoothing with 'ancestor' or 'full' (the model's own logp_xnext), the estimate times the average of psi(state at time t) over the trajectories has mean exp(ll) E[psi(X)], X ~ N(zs, Ps) with the zs, Ps that KalmanSmoother.smooth returns for time t; so it has for 'mcmc', 'rs', 'rsas' (default bound), 'mhips', 'mhips_reduced' and 'mhbp' with one trajectory, and, with the estimate of C103, after the auxiliary filter. For psi(state at t, state at t+1) it has mean exp(ll) E[psi(X, X')], X and X' jointly normal with the smoothed means and covariances and the cross covariance that KalmanSmoother.smooth returns. With res <= 0 and growing N the likelihood estimate, the weighted means and the weighted covariances of the particles converge in probability to exp(ll), z and P.

*Plan / method:* the path integrals of C89, C92, C93 and C106 are integrals over the filtered and smoothed laws of C71 (induction over the record, Fubini), which C71 and C66 relate to the Kalman code.

*Status:* **proved**. Diagonal Px0 because create_initial_estimate draws from another law otherwise (C47). 'full' needs n != 1 or calc_Q (the one-dimensional case of logp_xnext without calc_Q is C46). Convergence without resampling only.

*Theorems:* `PyPE.C108_auxiliary_filter`, `PyPE.C108_auxiliary_smoother`, `PyPE.C108_filter_consistent`, `PyPE.C108_filter_unbiased`, `PyPE.C108_ltv_agrees`, `PyPE.C108_mhbp`, `PyPE.C108_mhips`, `PyPE.C108_other_smoothers`, `PyPE.C108_smoother_pairs`, `PyPE.C108_smoother_unbiased`

### C109 — what the scalar random-walk example scripts estimate

For the example classes of test/manual/filtering/basic_model*.py (x' = x + w, y = x + e), any number of particles, any threshold and any record, the estimates have as means what the Kalman filter returns: for basic_model and basic_model_apf (with the estimate of C103) for the walk with initial variance P0^2 and process variance Q^2; for basic_model_sir for process variance Q and initial variance P0^2, where its proposal is the optimal one (the weight of a new particle does not depend on what was drawn); for basic_model_propy for the documented walk. (Defects: numpy.random.normal takes standard deviations, so basic_model agrees with its docstring, where P0 and Q are variances, exactly if P0^2 + Q^2 = P0 + Q, already for one step; negative values raise ValueError. basic_model_sir with meas_first raises AttributeError, as interfaces.SIR has no measure_full. basic_model_propy with a first measurement ignores P0 and starts from N(y0, R). logp_xnext_full of basic_model, which the backward smoothers use, is the density of the particles that update makes exactly if Q = 1.)

*Plan / method:* the classes sample from scalar Gaussian kernels (laws of scaled normal draws); then C89, C103, C104 and the Kalman recursion of C71.

*Status:* **proved**. Idealisation: exact real arithmetic, ideal draws. basic_model_propy without preallocation (C19, C104).

*Theorems:* `PyPE.C109_apf_example`, `PyPE.C109_backward_density`, `PyPE.C109_bootstrap_example`, `PyPE.C109_documented_variances`, `PyPE.C109_negative_scale`, `PyPE.C109_propy_example`, `PyPE.C109_sir_example`, `PyPE.C109_sir_measure_raises`, `PyPE.C109_sir_weights`

### C110 — nonlinear Gaussian models with one measurement and constant R

A NonlinearGaussian model with a scalar measurement, constant R and no calc_R gives every filter exactly the callbacks of the same model with measurement variance sqrt(R), so every run of every filter is the same for both; the bootstrap filter's estimates have as means the exact values for y ~ N(g(x), sqrt(R)). The classes of nonlin_model.py and standard_nonlin_model.py are such models. (Defect: scipy.stats.norm takes a standard deviation: the likelihood estimate of one measurement has the mean stated by the model, y ~ N(g(x), R), for every measurement exactly if R = 1.)

*Plan / method:* equality of the callbacks as functions; unbiasedness of C89; a Gaussian mixture determines the variance of its component (second moments).

*Status:* **proved**. Diagonal Px0 (C47).

*Theorems:* `PyPE.C110_filter_value`, `PyPE.C110_same_callbacks`, `PyPE.C110_sine_example`, `PyPE.C110_standard_example`, `PyPE.C110_stated_likelihood`

### C111 — the error of one resampling, and why the order of the particles matters

For every draw, the number of resampled indices below k is n times the share of the first k weights, up to one; so the mean of a function over the particles after resample() differs from the weighted mean before by at most the sum of its jumps between neighbouring particles divided by the number of new particles - the range of the function over n if it is monotone along the particle order. (Defect: in an unfavourable order the error does not vanish as N grows: a model whose initial particles each have the right law, so that every estimate is unbiased (C89), but alternate; for every even N and every threshold above 0.64, such as the default, the filtered probability after one resampling is 1 or 1/2 instead of 7/8 with probability one.)

*Plan / method:* counts on initial segments by the inverse distribution function, then summation by parts; the counterexample by computing the sample from alternating weights.

*Status:* **proved**. Idealisation: exact real arithmetic. The defect needs dependent initial particles (which C89 allows); no statement is made about independent ones with resampling.

*Theorems:* `PyPE.C111_never_close`, `PyPE.C111_prefix_count`, `PyPE.C111_resample`, `PyPE.C111_sorted`, `PyPE.C111_variation`

### C112 — smoothed trajectories after the auxiliary particle filter

After a run of the auxiliary particle filter on a Markov model with every measurement present, perform_smoothing with 'ancestor' or with 'full': the likelihood estimate that belongs to the auxiliary scheme (C103) times the average of any non-negative function phi of the path over the returned trajectories has, over all random draws of filter and smoother, expectation exactly E[prod_t p(y_t|x_t) phi(x_0,...,x_T)], whatever the first-stage weights are, although the stored run does not keep them; also for the shipped NonlinearGaussian models with their own first-stage weights and transition densities.

*Plan / method:* law of one step jointly with the ancestor indices, induction over the run with the smoothing operators of C92 and C93.

*Status:* **proved**. Idealisation: exact real arithmetic, ideal draws; measurements present at every step (C103). Diagonal Px0 for the law N(x0, Px0) (C47).

*Theorems:* `PyPE.C112_ancestor`, `PyPE.C112_backward_simulation`, `PyPE.C112_nonlinear_gaussian`

### C113 — smoothed trajectories after the filter that proposes from the measurement

After a run of the filter 'pfy' under the assumptions of C104 (no preallocation), perform_smoothing with 'ancestor' or 'full': prod_t Z_t times the likelihood estimate times the average of any non-negative function of the path over the returned trajectories has expectation E[prod_t p(y_t|x_t) phi(x_0,...,x_T)] exactly when the run starts with forward. (Defect inherited from C104: when the run starts with measure(y0) the value is that of a model with a flat initial law.)

*Plan / method:* the step law of C104 jointly with the ancestors, induction over the run with the smoothing operators of C92 and C93.

*Status:* **proved**. Idealisation: exact real arithmetic, ideal draws; trajectory without preallocation (C19, C104).

*Theorems:* `PyPE.C113_ancestor`, `PyPE.C113_backward_simulation`

### C114 — particle Gibbs with two particles converges from every reference trajectory

Repeat: run simulate's conditional filter 'CPF' or 'CPFAS' with two particles on the current reference trajectory, draw trajectories with perform_smoothing(m, 'ancestor') or 'full', take one of them as the next reference. If every measurement has a bounded likelihood, p(y_t|x) <= c_t, then from every first reference trajectory the law of the k-th one converges to the smoothing law, uniformly and geometrically: the mean of every function with values in [0,1] (the probability of every event) differs by at most (1-eps)^k, eps = p(y_0..y_T) / prod_t 2 c_t > 0. It holds for nonlinear Gaussian models whose R stays away from singular. On linear Gaussian models the limit for the state at one time is the law N(zs, Ps) that the Kalman filter and KalmanSmoother.smooth return, and eps = exp(ll) / prod_t 2 max p(y_t|.) with the filter's log-likelihood ll.

*Plan / method:* lower bound for one iteration: the free particle keeps its own past and is chosen at the end with probability at least prod_t p(y_t|x_t)/(2 c_t), by induction on the history; with the invariance of C96 this gives the geometric rate (Doeblin).

*Status:* **proved**. Idealisation: exact real arithmetic, ideal draws. Diagonal Px0 for the nonlinear Gaussian models (C47).

*Theorems:* `PyPE.C114_cpf`, `PyPE.C114_cpf_full`, `PyPE.C114_cpfas`, `PyPE.C114_cpfas_full`, `PyPE.C114_linear`, `PyPE.C114_nonlinear_gaussian`

### C115 — EM with a linear Gaussian model never makes the record less likely

Filter a record with an LTV model at parameters theta, smooth it, and evaluate with the smoothed trajectories the objective fval that ParamEstBaseNumeric.maximize minimises, at theta and at theta': filtering, smoothing and both evaluations succeed, and fval(theta) - fval(theta') <= ll(theta') - ll(theta), where ll is the log-likelihood of the record that the filter's measure() calls add up to. So whatever the optimiser does, new parameters at which the objective is not larger never decrease the likelihood, and along a whole EM run the log-likelihoods are non-decreasing. (Needed because of C45: the transition at the first time must serve for all times of the record at theta.) For the Kalman filter and smoother themselves the inequality holds for every record: Q(theta,theta') - Q(theta,theta) <= ll(theta') - ll(theta), Q the expected complete-data log-likelihood under the smoothing law, on every record of moves and measurements.

*Plan / method:* log of the likelihood ratio as the log of a mean of an exponential under the smoothing law (Jensen); the exponent's mean is the difference of the two Q by C71; the objective's value by C67, along the whole record by induction.

*Status:* **proved**. Exact real arithmetic. The runs of filter and smoother are stated without resampling and with an arbitrary choice by the smoother among the stored particles; C121 is the same for the full pipeline (weights, resampling, backward draws). Positive definite P0, Q, R (otherwise eval_logp_* raise LinAlgError).

*Theorems:* `PyPE.C115_em_inequality`, `PyPE.C115_ltv_em`, `PyPE.C115_ltv_em_run`

### C116 — the objective of particle EM, and what lowering it does to the likelihood

Run a filter, smooth the record into m trajectories and evaluate fval of ParamEstBaseNumeric.maximize (the default terms of ParamEstInterface) at any parameter: it is exactly minus the average over the trajectories of log p(x_0) + sum of log p(y_t|x_t) over the measurements that are present + sum of log p(x_(t+1)|x_t,u_t). If the run used the parameter theta, the bootstrap filter (or the SIR filter with any proposal) and the smoother 'ancestor' or 'full' (after the bootstrap filter also 'mcmc', 'rs', 'rsas', 'mhips', 'mhips_reduced', and 'mhbp' with one trajectory), then over all draws the likelihood estimate of the run times (c + fval(theta')) has the expectation integral p_theta(x,y) (c - log p_theta'(x,y)) dx for every c above log p_theta'; and the likelihood p(y) grows from theta to theta' at least by the decrease of the expected objective: a theta' whose expected objective is not above that of theta has p_theta'(y) >= p_theta(y). For NonlinearGaussian models the terms are the Gaussian log-densities.

*Plan / method:* shape of the smoother's result by induction, so that the loops of fval sum over paths; unbiasedness of the path averages (C92, C93, C97, C98, C122) with the function c - log p; change of measure along the path and 1 + log z <= z.

*Status:* **proved**. Exact real arithmetic, ideal draws, Python 2 (C57: fval raises NameError under Python 3). The statement is about the expected objective, not about one run: with finitely many particles a single run can lower fval and lower the likelihood. Diagonal Px0 for the nonlinear Gaussian models (C47).

*Theorems:* `PyPE.C116_em_gain`, `PyPE.C116_em_gain_mcmc`, `PyPE.C116_em_gain_mhbp`, `PyPE.C116_em_gain_mhips`, `PyPE.C116_em_gain_rs`, `PyPE.C116_em_gain_rsas`, `PyPE.C116_em_gain_sir`, `PyPE.C116_em_step`, `PyPE.C116_nonlinear_gaussian`, `PyPE.C116_nonlinear_gaussian_mh`, `PyPE.C116_nonlinear_gaussian_rounds`, `PyPE.C116_nonlinear_gaussian_rsas`, `PyPE.C116_objective_unbiased`, `PyPE.C116_objective_value`

### C117 — the parameter estimation script standard_nonlin_model.py

The Model of test/manual/paramest/standard_nonlin_model.py, for any P0, Q, R: its filter and its logp_xnext use exactly the documented growth model x+ = x/2 + 25x/(1+x^2) + 8cos(1.2t) + N(0,Q), y = x^2/20 + N(0,R), and set_params sets Q = exp(theta0), R = exp(theta1). On a run with a measurement at every time its vectorised eval_logp_y_fulltraj and eval_logp_xnext_fulltraj make fval minus the average complete-data log-likelihood, the same value as with the default terms they override; as a function of theta it has exactly one minimiser, where exp(theta0) is the mean squared transition residual and exp(theta1) the mean squared measurement residual. With the script's call (bootstrap filter, first measurement, smoother 'mcmc') the likelihood p(y) grows from theta to theta' at least by the decrease of the expected objective. (Defects: if a measurement is missing, or the run starts without one, the overriding terms return nan for every parameter, where the defaults skip it; set_params does not update logp_xnext_max, so that for smoother 'rs' the value is a valid bound iff exp(theta0) is at least the Q given to the constructor.)

*Plan / method:* closed form of the vectorised sums; exact length of the data vectors after the last forward(); log z <= z - 1; C116 for 'mcmc'.

*Status:* **proved**. Exact real arithmetic, ideal draws. numpy.random.normal with a (1,1) scale and size (N,) is taken to broadcast (old NumPy; newer versions raise). What scipy.optimize.minimize returns is not modelled: the theorem gives the minimiser it looks for.

*Theorems:* `PyPE.C117_broadcast`, `PyPE.C117_closed_form`, `PyPE.C117_em_gain`, `PyPE.C117_logp_xnext`, `PyPE.C117_minimiser`, `PyPE.C117_missing_measurement`, `PyPE.C117_objective`, `PyPE.C117_parameters`, `PyPE.C117_samples`, `PyPE.C117_stale_bound`

### C118 — the PSAEM script standard_nonlin_model_psaem.py

The Model of test/manual/paramest/standard_nonlin_model_psaem.py (the growth model of C117 with set_params taking the variances themselves): maximize_weighted returns Q = the weighted mean squared transition residual and R = the weighted mean squared measurement residual of the trajectories, whatever uninitialised memory its buffers start with. For weights of sum one and positive results this (Q,R) is the unique maximiser, over all positive variances, of the weighted complete-data log-likelihood, and the unique minimiser of the objective of the numerical search the script keeps beside it (maximize_weighted_numeric). In every run of ParamEstimationPSAEM with this model every M-step returns such a maximiser, and with default pruning the sequence of estimates is the stochastic approximation Q_k = (1-a_k) Q_(k-1) + a_k q_k, R_k = (1-a_k) R_(k-1) + a_k r_k, q_k and r_k being the mean squared residuals of the trajectories of iteration k. (Defects: a missing measurement makes the new R nan; with a single time step the new Q is nan.)

*Plan / method:* closed form of the array loops by induction; log z <= z - 1; the weights and the averaging recursion of C55.

*Status:* **proved**. Exact real arithmetic. Arrays of different first dimension are rejected (NumPy would broadcast a single row). The trajectories of a run are whatever the smoother returned (arbitrary).

*Theorems:* `PyPE.C118_closed_form`, `PyPE.C118_maximiser`, `PyPE.C118_missing_measurement`, `PyPE.C118_numeric`, `PyPE.C118_parameters`, `PyPE.C118_run`, `PyPE.C118_run_maximises`, `PyPE.C118_single_step`

### C119 — the auxiliary particle filter is unbiased on Rao-Blackwellised models

For the auxiliary particle filter on a model whose particles carry normal laws of the linear states (measure conditions them in place, so the likelihoods of a step cannot be evaluated again from the stored particles): the log-likelihoods measure returned in a successful step can be read off the stored weights, the offset and the ancestors together with the first-stage weights, exactly and for every model; and the likelihood estimate built from them, times the filtered mean of the conditional expectations of any non-negative function of nonlinear and linear states at the last step, has expectation exactly E[prod_t p(y_t|s_t) phi(s_T)] under the joint model, whatever the first-stage weights are; also for the shipped mixed linear/nonlinear Gaussian models with their own eval_1st_stage_weights, which never raise on valid particles.

*Plan / method:* inversion of a successful step; the largest log-weight before the last division is 0, which fixes the constant the last normalisation drops; then the law of one step with and without resampling and induction over the run as in C103, with Bayes' rule for measure.

*Status:* **proved**. Exact real arithmetic. The shipped model: one nonlinear state (with more the code fails, see C72), measurements given at every step; without one the filter raises UnboundLocalError (C17).

*Theorems:* `PyPE.C119_mixed_gaussian`, `PyPE.C119_plain`, `PyPE.C119_recovers`, `PyPE.C119_unbiased`

### C120 — the script rbapf_test.py: particle filter and three auxiliary filters for the Lindsten-Schoen model

For the model of test/manual/filtering/rbapf_test.py (e' = 0.85 e + b z + N(0, Q_b), z' = 0.9 z + N(0, Qz), y = e^2 + b z + N(0, R), b switching with the parity of time) run as Simulator.simulate runs it: the particle filter, the auxiliary filter with the model's own first stage, with the script's 'EKF' first stage and with any other first stage returning one number per particle (the 'UKF' class) all give a likelihood estimate that, times the filtered mean of E[phi(e, z) | particle], is unbiased for E[prod_t p(y_t | e_t, z_t) phi(e_T, z_T)] under the model of generate_dataset started from e = 0, z ~ N(0, 1). The 'EKF' weights are given in closed form. (Defect: their variance is not that of the linearised measurement: 0.81 (0.81 P + Qz) + (2e+1)^2 Qes + R instead of 0.81 P + Qz + 4 e^2 Qes + R at even times, and P after conditioning and prediction instead of P at odd times; this costs efficiency, not unbiasedness.)

*Plan / method:* the hooks describe the model of C72; C99 and C119 with the explicit law of a step; the conditional Kalman update with zero residual in closed form.

*Status:* **proved**. Exact real arithmetic; the sigma-point computation of the 'UKF' class is not modelled, it is covered as an arbitrary first-stage function. Measurements are numbers where the script passes one-element lists.

*Theorems:* `PyPE.C120_ekf`, `PyPE.C120_unbiased`

### C121 — A particle filter or smoother run with a linear Gaussian (LTV) model gives exactly the Kalman filter and smoother, for any number of particles and any random numbers

Take an LTV model (model.ltv) whose matrices, given at construction or by its get_..._dynamics hooks, describe a linear system with positive definite measurement noise. Run the plain particle filter with it (measure / forward on a trajectory, or Simulator.simulate): for every number N > 0 of particles, every resampling threshold, every record of measurements and all random numbers, no call fails; every particle stored for time i holds the mean and covariance of the exact filtering law; all weights of a time are equal; and the likelihood read off the stored weights and resampling flags is the exact likelihood. With positive definite process noise and a transition that is the same at all steps of the record, the smoothers 'full', 'ancestor' and (default options) 'mcmc' also succeed, return num_traj trajectories with equal weights, and all stored rows hold the mean and covariance of the exact smoothing law at their time. If the smoothed trajectories are then used in an EM step, a decrease of the (numerically evaluated) objective by d increases the log-likelihood read off the next filter run by at least d. Hence the script test/manual/filtering/ltv_test.py with its single particle plots the exact smoothing means, whatever its data. The answers do not depend on which calls the model object has served before (its stored Kalman filter is changed by every call).

*Plan / method:* Invariant of a run: all particles of a time store the same mean and covariance, which is that of the deterministic recursion of C115; resampling and ancestor choice keep it (Traj/Track, Models/LtvSim); the backward pass keeps the invariant that all rows store the Rauch-Tung-Striebel result (Smooth/Track, Models/LtvSmoothRun); exactness from C71. The state of the model's Kalman filter object is eliminated by Models/LtvPure..

*Status:* **proved**. Full pipeline with real weights, resampling, draws and Simulator.simulate (with either value of meas_first). C121_missing: the record must be complete, since forward(u, None) raises. A transition that changes over time is excluded for smoothing because of the code's defect proved in C45/C67 (the smoother evaluates the dynamics with the first input and time).

*Theorems:* `PyPE.C121_em`, `PyPE.C121_filter`, `PyPE.C121_measure_stateless`, `PyPE.C121_missing`, `PyPE.C121_sample_smooth_stateless`, `PyPE.C121_script`, `PyPE.C121_simulate`, `PyPE.C121_simulate_later`, `PyPE.C121_smoother`, `PyPE.C121_update_stateless`

### C122 — Metropolis-Hastings backward proposing ('mhbp') with one trajectory estimates the exact smoothing law without bias

Run the bootstrap filter (or the SIR filter with any proposal density) over a history, then call perform_smoothing(1, 'mhbp', {'R': R}). Over all random draws of filter and smoother, the likelihood estimate times any non-negative function phi of the returned trajectory has expectation E[prod_t p(y_t | x_t) phi(x_0, ..., x_T)] under the model: for every number of particles and of iterations per time, every proposal density that propose_smooth samples and logp_proposal evaluates, every resampling threshold, and histories that start with measure(y0) or with forward. Hence the iterations, which move the state of one time and its ancestor index jointly and then go to the previous time from the accepted ancestor, never pull the result away from the smoothing law. In particular this holds for NonlinearGaussianInitialGaussian models with their own propose_smooth and logp_proposal. (For more than one trajectory the ancestors are proposed by an unpermuted systematic sample and the property fails: C64.)

*Plan / method:* detailed balance of one iteration on (index, state) for the mixture of the filter's weighted particles; induction over the times of the run with the later states integrated out; loop invariant for the code.

*Status:* **proved**. C122_mhbp_unbiased (bootstrap), C122_mhbp_sir, C122_nonlinear_gaussian with an example on a concrete model.

*Theorems:* `PyPE.C122_mhbp_sir`, `PyPE.C122_mhbp_unbiased`, `PyPE.C122_nonlinear_gaussian`

### C123 — what the smoothing scripts estimate

The classes of test/manual/smoothing/basic_model_mhips.py and basic_model_ffbp.py (NonlinearGaussianInitialGaussian, x' = x + v, y = x + e) with Q = 1, as in the scripts, and any P0, R: after the bootstrap filter and 'mhips' or 'mhips_reduced' with any number of passes and trajectories, or 'mhbp' with one trajectory and any number of iterations, the likelihood estimate times the average of psi(state at time t) over the trajectories has mean exp(ll) E[psi(X)], X ~ N(zs, Ps) with the zs, Ps of KalmanSmoother.smooth and the ll of the Kalman filter for the random walk with measurement variance sqrt(R) (R itself for the scripts' R = 1). The growth model of smoothing/standard_nonlin_model.py with Q = 1 and the smoothers 'mcmc', 'rs', 'ancestor', 'full': the average of any function of the trajectories, times the likelihood estimate, has as its mean the exact value for measurement variance sqrt(R). (Defects: logp_xnext of these classes is the log-density of the transition that update makes exactly if Q = 1; the scripts' R = 0.1 for the growth model means measurement variance sqrt(0.1); basic_model_ffbp.py asks for 20 trajectories, where the property fails: C64.)

*Plan / method:* C97, C98, C108 and C122 extended to scalar models with unit variance, where the standard deviation used by the scalar code is the variance; the model with constant R makes the same calls as the one with variance sqrt(R) (C110).

*Status:* **proved**. C123_mhips_script, C123_mhbp_script, C123_growth_script with examples at the scripts' parameters; C123_other_variances is the defect.

*Theorems:* `PyPE.C123_growth_script`, `PyPE.C123_mhbp_script`, `PyPE.C123_mhips_script`, `PyPE.C123_other_variances`

### C124 — the script hierarchical_model.py: the filter, and the bound used by its rejection sampler

The Model of test/manual/filtering/hierarchical_model.py (xi' = xi + v, z turned by the angle xi plus noise, y measures xi and the first coordinate of the turned z): for any covariances, number of particles, threshold and sequence of measurements, run as Simulator.simulate runs it (prediction first), the likelihood estimate times the filtered mean of E[phi(xi, z) | particle] is an unbiased estimate of E[prod p(y_t | xi_t, z_t) phi(xi_T, z_T)] under the documented model. (Defect: with the script's constants and a measurement at each of up to 800 times the filter never fails, and at every time after the first logp_xnext_max of the stored particles, used by the script's smoother 'rsas' to accept ancestors, is smaller than logp_xnext of some next state for one of these particles; only at time zero it is an upper bound.)

*Plan / method:* Model the overridden methods of the script (Examples/HierScript.lean) as hooks of the hierarchical class. The first part is C99 for hierarchical models with the kernel of the documented model. Second part: an invariant of the run: covariances are at most 1 + 0.01 k in every direction, and after a measurement at most 0.1 in the measured direction, which the next step turns onto an axis, so that the determinant of the predicted covariance is below one and log det is below -log det / 2..

*Status:* **proved**. The counter pn_count and the plotting are not modelled; R_xi and R_z (1 x 1 matrices in the script) are numbers.

*Theorems:* `PyPE.C124_filter`, `PyPE.C124_rejection_bound`, `PyPE.C124_xi_density`

### C125 — the script mlnlg_model.py: the Rao-Blackwellized filter agrees in the mean with the Kalman filter for the joint state

The Model of test/manual/smoothing/mlnlg_model.py (position xi as nonlinear, velocity z as linear state): for any covariances, number of particles, threshold, input and sequence of measurements, with or without a measurement at time zero, the Kalman filter of utils/kalman.py with transition [[1, 1], [0, 1]] and a measurement of xi succeeds on the same record, the likelihood estimate of the Rao-Blackwellized particle filter has as its mean the likelihood exp(ll) that the Kalman filter returns, and times the filtered mean of E[phi(xi, z) | particle] it has mean exp(ll) E[phi(X)], X ~ N(z, P) for the returned z and P. (Defects: the noise covariance for which this holds is [[Qxi, Qxiz], [Qxiz, Qz + Qxiz^2/Qxi]], not the [[Qxi, Qxiz], [Qxiz, Qz]] of the script's docstring and generate_dataset: for Qxiz nonzero the filter treats Qz as the covariance of the velocity noise given the position noise; and the measurement is xi + e, not xi + z + e as the docstring has it.) The same holds for every mixed linear/nonlinear model with a scalar nonlinear state whose joint state follows a linear Gaussian model.

*Plan / method:* Model the overridden methods of the script as hooks of the mixed class (Examples/MixedScript.lean). An integral along the paths of a chain equals the one along its image when the image is again a chain (Models/MlLinear.lean); with C99 for mixed models and C71 for the Kalman filter this gives the general form, and the script's joint law is computed from affine images of normal laws..

*Status:* **proved**. Smoothing by this script ('mhips_reduced') is not part of the claim. The counter pn_count and the plotting are not modelled.

*Theorems:* `PyPE.C125_filter`, `PyPE.C125_jointly_linear`

### C126 — the script test_lsb.py: filter and marginalised backward simulator

ParticleLSB of test/manual/smoothing/test_lsb.py (a scalar nonlinear state driven by a four-dimensional linear one; measurement 0.05 xi^2 plus noise; the constructor is given neither C nor h): for any number of particles, threshold and nonempty record, prediction first as Simulator.simulate does, the likelihood estimate times the filtered mean of E[phi(xi, z) | particle] is an unbiased estimate of E[prod p(y_t | xi_t) phi(xi_T, z_T)] for the process simulated by generate_dataset; and for every set of particles and trajectories built so far, with measurements present or missing, the backward pass succeeds and the backward probabilities computed from logp_xnext_full are w_i p(future xi and y | particle i), normalised.

*Plan / method:* Model the overridden methods as hooks of the mixed class (Examples/LsbScript.lean); the filter is C99, the backward simulator C85, both generalised to models that give h and no C, and for which nothing is given when the measurement is missing..

*Status:* **proved**. The error measures and the plotting of the script are not modelled.

*Theorems:* `PyPE.C126_backward`, `PyPE.C126_filter`

### C127 — the script test_ls2.py: parameters, filter and gradient

ParticleLS2 of test/manual/paramest/test_ls2.py (five unknown parameters): set_params leaves the object the constructor would have built with the new parameters; after any sequence of set_params, for any number of particles, threshold and nonempty record, prediction first as Simulator.simulate does, the likelihood estimate times the filtered mean of E[phi(xi, z) | particle] is an unbiased estimate of E[prod p(y_t | xi_t, z_t) phi(xi_T, z_T)] for the transitions of generate_dataset with the last parameters and the measurement noise given to the constructor; and eval_logp_xnext_val_grad, fed with the matrices of get_pred_dynamics_grad, returns the expected log-density of the next states (up to its constant) and its derivative in each of the five parameters. The function the maximisation step hands to the optimiser succeeds for all parameters and smoothed trajectories; its value is minus the average over the trajectories of log p(xi_0) plus the expected log-densities of all transitions and of all measurements present, and its gradient is the gradient of that value.

*Plan / method:* Model the overridden methods as hooks of the mixed class (Examples/Ls2Script.lean); the filter is C99 and the gradient C83, with the derivatives of all entries checked..

*Status:* **proved**. generate_dataset adds no measurement noise, the model of the class has R = 0.1 I; the theorem is about the model of the class. The optimiser call and the plotting of the script are not modelled.

*Theorems:* `PyPE.C127_filter`, `PyPE.C127_gradient`, `PyPE.C127_maximisation`, `PyPE.C127_set_params`

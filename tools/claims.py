# Single source for properties.jsonl, MANIFEST.json and the per-property table in DESIGN.md.
# P(id, title, statement, quantifier, why_tests_cant, anchors, plan)
# R[id] = (status, [theorems], note)      (filled in as proofs land)
PROPS = []
R = {}
def P(id, title, statement, quantifier, why, anchors, plan):
    PROPS.append(dict(id=id, title=title, statement=statement, quantifier=quantifier,
                      why_tests_cant=why, anchors=anchors, plan=plan))

F = "pyparticleest/filter.py"
S = "pyparticleest/smoother.py"
SIM = "pyparticleest/simulator.py"
K = "pyparticleest/utils/kalman.py"
PDF = "pyparticleest/utils/pdf.py"
MC = "pyparticleest/utils/mlnlg_compute.py"
INS = "pyparticleest/utils/intrument.py"
LTV = "pyparticleest/models/ltv.py"
NLG = "pyparticleest/models/nlg.py"
RB = "pyparticleest/models/rbpf.py"
ML = "pyparticleest/models/mlnlg.py"
HI = "pyparticleest/models/hierarchial.py"
PE = "pyparticleest/paramest/paramest.py"
PEI = "pyparticleest/paramest/interfaces.py"
IF = "pyparticleest/interfaces.py"

# ---------------------------------------------------------------- sampling
P("C01", "sample returns n valid indices",
  "sample(w, n) with non-negative weights of positive sum never raises, returns exactly n indices and each is a valid position of w; an empty weight vector (and nothing else) raises IndexError.",
  "every weight vector (any length), every n, every uniform draw r in [0,1)",
  "depends on a continuous random draw and on arbitrary weight vectors; boundary draws have probability zero in a test",
  [F+":sample"], "list model of cumsum/searchsorted with the uniform draw as an argument; induction on the weight list")
P("C02", "systematic sampling has deviation below one",
  "The number of times sample(w, n) returns index j differs from n*w_j/sum(w) by at most 1, and by strictly less than 1 unless the uniform draw is exactly 0.",
  "every weight vector, n, j and draw", "a test samples draws; the bound must hold for all of them",
  [F+":sample"], "floor-counting argument on the grid (i+r)/n")
P("C03", "systematic sampling is unbiased",
  "Averaged over the uniform draw, sample(w, n) returns index j exactly n*w_j/sum(w) times; in particular sample(w, 1) returns j with probability w_j/sum(w).",
  "every weight vector, n, j", "an expectation over a continuous random variable cannot be computed by running the code",
  [F+":sample"], "interval integral over r of the count, adjacent intervals lemma")
P("C04", "sample inverts the cumulative weights",
  "The i-th returned index is a generalised inverse of the cumulative weight function at (i+r)/n; the indices are in non-decreasing order and depend only on the ratios of the weights.",
  "every weight vector, n, draw, positive scale", "universally quantified over reals",
  [F+":sample"], "characterisation of searchsorted on the cumulative sum")
P("C05", "impossible particles are never drawn",
  "An index with weight zero is returned by sample only if the uniform draw is exactly 0 and the index is 0; for every draw r>0 impossible particles are never drawn. (Defect: at r=0 a leading zero-weight particle is drawn.)",
  "every weight vector, n, draw", "the failing draw r=0 has probability 2^-53 in a test",
  [F+":sample"], "corollary of C02 for r>0; concrete counterexample at r=0")
# ---------------------------------------------------------------- particle approximation
P("C06", "effective sample size is between 1 and N",
  "calc_Neff() of a non-empty approximation lies in [1, N], equals N exactly when all weights are equal, and does not change when a constant is added to all log-weights.",
  "every non-empty log-weight vector", "inequality over all real vectors",
  [F+":ParticleApproximation.calc_Neff"], "Cauchy-Schwarz on the normalised weights")
P("C07", "resampling yields an equally weighted copy of existing particles",
  "pa.resample(model, N) leaves an approximation with N particles, all log-weights equal to -log N, offset 0, whose i-th particle is the old particle with the returned ancestor index; every returned index is valid and counts follow C02.",
  "every approximation with at least one particle, every N>0, every draw", "random draws and arbitrary particle types",
  [F+":ParticleApproximation.resample", IF+":ParticleFiltering.copy_ind"], "Except model of resample, corollaries of C01/C02")
P("C08", "find_best_particles returns the n lightest particles",
  "find_best_particles(n) with n <= N returns n indices whose weights are at most those of all other particles, i.e. the lightest ones; n > N raises IndexError. (Defect: the name promises the heaviest; argsort is ascending.)",
  "every approximation and n <= N", "needs all weight vectors",
  [F+":ParticleApproximation.find_best_particles"], "model argsort as any ascending sorting permutation; prove the returned ones are minimal and refute the claim")
P("C09", "a new approximation is uniform",
  "ParticleApproximation(particles) gives every particle the log-weight -log N so the weights sum to one, stores a copy of the particles and offset 0; given log-weights are stored as they are.",
  "every non-empty particle list", "all sizes", [F+":ParticleApproximation.__init__"], "direct computation with exp/log")
# ---------------------------------------------------------------- filters
P("C10", "measurement update implements Bayes' rule and keeps the largest log-weight at 0",
  "After ParticleFilter.measure, w_i + w_offset has grown by exactly the model's log-likelihood of particle i, and the largest log-weight is 0, so the normalised weights are proportional to old weight times likelihood.",
  "every approximation, model and measurement", "all models and weights",
  [F+":ParticleFilter.measure", F+":SIR.measure"], "algebra on the list model")
P("C11", "resampling happens exactly when N_eff < res*N",
  "forward() of pf, apf, sir and pfy resamples iff the filter's res is positive and N_eff < res*N; res<=0 never resamples, res>1 always does, and the returned flag reports it; without resampling the ancestors are 0..N-1.",
  "every trajectory, model, res", "threshold behaviour over all reals",
  [F+":ParticleFilter.forward", F+":SIR.forward", F+":FFPropY.forward", F+":AuxiliaryParticleFilter.forward"],
  "model of forward; C06 for the extreme thresholds")
P("C12", "forward keeps the approximation well formed",
  "ParticleFilter.forward on a well-formed trajectory returns N particles, N weights with maximum 0, N ancestors all below N, and raises nothing, provided the model callbacks return arrays of the right length.",
  "every model, trajectory, draw, noise", "all executions",
  [F+":ParticleFilter.forward", F+":ParticleFilter.update"], "invariant preserved by forward")
P("C13", "bootstrap weights are the product of likelihoods",
  "With resampling disabled, after any number of steps the normalised weight of particle i is proportional to the product over time of the likelihoods along its own path (sequential importance sampling).",
  "every number of steps, every model", "induction over unbounded time",
  [F+":ParticleFilter.forward", F+":ParticleTrajectory.forward"], "induction over the list of measurements")
P("C14", "stored history is never changed by later steps",
  "For every filter ('PF', 'APF', 'PFY', 'SIR', 'CPF', 'CPFAS', 'CPFYAS', 'CSIRAS'): once forward() has returned, no later forward() changes the particles, weights or ancestors stored for any earlier time, nor the conditional trajectory, even if it raises; measure() changes only the last step, and a measure() that raises leaves its particles, weights and ancestors as they were. (Defect: it may already have changed w_offset of that step.)",
  "every sequence of forward/measure calls with every exception caught, every filter name, every model that only writes the array it is given", "aliasing bugs need all histories",
  [F+":ParticleTrajectory.forward", F+":ParticleTrajectory.measure", F+":ParticleApproximation.__init__"],
  "heap model with array addresses; frame theorem")
P("C15", "conditional particle filter keeps the reference trajectory",
  "In CPF the last particle at every time equals the conditional trajectory and its ancestor is the last particle, so tracing back the last particle yields the conditional trajectory.",
  "every run length, model, draw", "induction over time",
  [F+":CPF.create_initial_estimate", F+":CPF.forward"], "invariant over the run")
P("C16", "ancestor-sampling filters keep the reference state",
  "In CPFAS (and CPFYAS/CSIRAS) the last particle at every time equals the conditional trajectory's state and its ancestor index is valid, except that CSIRAS does not insert the reference state at time 0. (Defect: CSIRAS initial step.)",
  "every run length, model, draw", "induction over time",
  [F+":CPFAS.forward", F+":CSIRAS.forward", F+":CPFYAS.forward"], "invariant; counterexample for CSIRAS initial step")
P("C17", "auxiliary particle filter weights are unbiased by the look-ahead",
  "If AuxiliaryParticleFilter does not resample, its weights equal (up to a common constant) those of ParticleFilter; if it resamples, they equal likelihood divided by first-stage likelihood. With no measurement at t+1 every call raises UnboundLocalError. (Defect: it should behave as ParticleFilter.)",
  "every model, weights, draw", "all weights", [F+":AuxiliaryParticleFilter.forward"],
  "algebra on the model; counterexample trace for the None measurement")
P("C18", "SIR importance weights",
  "SIR.forward multiplies each weight by p(y|x')p(x'|x)/q(x'|x,y) up to a common constant and returns the proposed particles.",
  "every model and weights", "all weights", [F+":SIR.forward"], "algebra on the model")
P("C19", "proposal-from-measurement filter uses the current measurement",
  "FFPropY.forward on a trajectory created without preallocation proposes from the measurement and time of this forward() call; on a trajectory preallocated with T >= 3 the second step proposes from the empty last slot (None, time T-1) instead. (Defect.)",
  "every T and history", "depends on buffer layout over all histories", [F+":FFPropY.forward", F+":ParticleTrajectory.forward"],
  "vector-layout model; proved for T=None, refuted for preallocated T")
P("C20", "weights become NaN only when every particle is impossible, and then for ever",
  "For every old log-weights without +inf and every log-likelihoods (IEEE special values included) measure() gives either only NaN weights or none; NaN iff a NaN or +inf was supplied or no particle has both a finite old weight and a finite log-likelihood; otherwise it is Bayes' rule with -inf as weight zero and the maximum is 0; impossible particles are not resampled. (Defect: once the weights are NaN the filter neither raises nor resamples: they stay NaN for ever, and every later sampling by these weights returns particle 0.)",
  "every vector of extended log-weights, every run length, threshold and draw", "floating special values over all vectors and histories",
  [F+":ParticleFilter.measure", F+":ParticleFilter.forward", F+":ParticleApproximation.calc_Neff", F+":ParticleApproximation.resample", F+":sample"], "IEEE special-value model (nan/-inf/finite/+inf), induction over the run, agreement with the real-number model on finite values")
# ---------------------------------------------------------------- trajectory / simulator
P("C21", "trajectory bookkeeping never runs out of buffer",
  "Any sequence of forward/measure calls on a ParticleTrajectory (with or without preallocated T) never raises IndexError from the u/y/t buffers; len(traj) grows by one per forward (plus one initial step), t[k]=k, and u[k], y[k] hold the values passed at those steps. For pf, apf and sir this includes histories in which the model raises at any calls and the caller catches the exceptions: no later call raises IndexError and every stored step keeps N particles, N weights and N ancestors.",
  "every sequence of calls, every T", "unbounded histories",
  [F+":ParticleTrajectory.__init__", F+":ParticleTrajectory.forward", F+":ParticleTrajectory.measure"], "state machine with invariant by induction over operations")
P("C22", "a failing step keeps the stored steps but advances the clock",
  "If the model raises during forward(), the stored steps are untouched, but the time index has advanced by one and u/y hold the failed data, so a successful retry stores its step one position before its own measurement; the conditional filters cpf, cpfas, cpfyas and csiras never recover: after the failure and any further calls every forward() raises, for cpf and cpfyas IndexError. (Defect: not failure-atomic.)",
  "every history and every exception point", "needs fault injection at every point",
  [F+":ParticleTrajectory.forward"], "state machine with exceptions carrying the state; counterexample and a partial theorem on what is preserved")
P("C23", "simulate aligns inputs and measurements",
  "simulate() with meas_first=False produces T+1 steps with y[0] missing and y[k+1]=Y[k], u[k]=U[k]; with meas_first=True it produces T steps with y[k]=Y[k], u[k]=U[k]; u=None means no input everywhere.",
  "every data set length and content", "all lengths", [SIM+":Simulator.simulate", SIM+":Simulator.__init__"], "induction over the data; refinement to a list specification")
P("C24", "resampling count",
  "simulate() returns exactly the number of time steps whose forward() resampled, which is at most the number of measurements; for the bootstrap filter these are the steps whose stored weights had N_eff < res*N.",
  "every data set", "all lengths", [SIM+":Simulator.simulate"], "fold invariant")
P("C25", "filter name dispatch",
  "The filter name is case-insensitive; the eight documented names select their filter, every other name raises ValueError; conditional filters need filter_options['cond_traj'] and otherwise fail with KeyError (TypeError when filter_options is None, as Simulator passes by default); t0 other than 0 is rejected.",
  "every string", "all strings", [F+":ParticleTrajectory.__init__"], "decision function model over strings")
P("C26", "smoother option defaults",
  "perform_smoothing supplies a default for every option of each method and each user option overrides its default separately: R=30 for mcmc, mhips and mhbp, R=int(N/10) and the computed bounds for rs, the computed bounds and the value 1 for every parameter of rsas; 'full' uses none. (Defects: mhips_reduced is missing from the table and runs 10 iterations; for N<10 the limit int(N/10) is 0 and 'rs' silently returns exactly what 'full' returns.)",
  "every method string, N and option dictionary", "all strings/dictionaries", [F+":ParticleTrajectory.perform_smoothing"], "association-list model of the options")
P("C27", "filtered estimates are a probability-weighted mean",
  "get_filtered_estimates returns non-negative weights summing to one per time step, proportional to exp(log-weight), get_filtered_mean is the weighted mean with these weights and lies componentwise between the smallest and largest particle, and get_smoothed_mean is the plain average over the trajectories.",
  "every run", "all weights", [SIM+":Simulator.get_filtered_estimates", SIM+":Simulator.get_filtered_mean", SIM+":Simulator.get_smoothed_mean"], "convexity")
# ---------------------------------------------------------------- smoothers
P("C28", "ancestor smoother returns genealogies",
  "method='ancestor' returns trajectories whose state at time t is the filter particle reached by following the stored ancestor indices back from a particle drawn at the final time.",
  "every run length, M and draw", "unbounded depth", [S+":SmoothTrajectory.calculate_ancestors", S+":SmoothTrajectory.perform_ancestors_int"], "induction backwards over time against an iterated-lookup specification")
P("C29", "backward simulation draws from the right categorical distribution",
  "bsi_full returns for each trajectory a valid index, drawn with probability proportional to w_i*p(x_{t+1}|x_i); the shift by the maximum does not matter.",
  "every approximation, model and M", "distributional claim", [S+":bsi_full"], "C01/C03 applied to the normalised weights")
P("C30", "rejection sampling backward simulation is exact",
  "For every attempt limit and draw bsi_rs succeeds and each entry of its result is a valid index that was either accepted by the rejection test or produced by bsi_full; if log p <= maxpdf, entry j is particle i with probability exactly w_i p(future_j|x_i)/sum_l w_l p(future_j|x_l), the distribution of bsi_full, whatever the attempt limit, although all trajectories share one systematic sample per attempt; a limit of 0 gives bsi_full.",
  "every approximation, model, attempt limit, draws", "random loop with unbounded attempts", [S+":bsi_rs"], "loop invariant on (todo,res); integral of the acceptance event")
P("C31", "adaptive rejection smoother terminates",
  "in Python 3 the stopping rule of bsi_rsas is the package's own Kalman filter applied to the number of accepted proposals, with a prediction that shrinks the rate by the accepted fraction (Defect: in Python 2 that fraction is an integer division, zero as long as something was rejected, so the prediction leaves the rate as it is); in both, bsi_rsas terminates for every random stream, within a number of rounds fixed by the options, N and M, if sw != 0, P1>=0, P1>0 or sv != 0, and ratio > 0; every entry is written and valid and, with a valid bound, exactly distributed as in bsi_full. (Defect: with P1 = 0 and sv = 0 it may loop forever.)",
  "every infinite random stream", "non-termination cannot be tested", [S+":bsi_rsas"], "Kalman recursion bounds; explicit non-terminating stream")
P("C32", "MCMC backward simulation leaves the target invariant",
  "Every iteration of bsi_mcmc moves an entry to its proposed particle iff its uniform is below min(1, p(future|new)/p(future|old)); each entry satisfies detailed balance w.r.t. w_i p(future_j|x_i) and that distribution is invariant under any number of iterations; R=0 returns the filter ancestors; returned indices are valid.",
  "every approximation, model, R, draws", "distributional", [S+":bsi_mcmc"], "finite-state kernel; loop invariant")
P("C33", "smoothed states are filter particles",
  "For models whose sample_smooth returns its input, every smoothed trajectory produced by 'full', 'rs', 'rsas', 'mcmc' or 'ancestor' consists of T states each being one of the filter particles of that time, and there are exactly M equally weighted trajectories, for every M >= 1 (for other models: each state is made by sample_smooth from such a particle). M = 0 raises ValueError.",
  "every run", "all runs", [S+":SmoothTrajectory.perform_bsi"], "backward induction")
P("C34", "Metropolis-Hastings smoothers work on every run of at least two steps",
  "For every run of at least two steps, every model answering its callbacks, every number of iterations and every draw, mhbp and every pass of mhips (mhips_reduced if the last step has a measurement) succeed and return one step of M trajectories per time. (Defects: for a single step mhbp raises UnboundLocalError and mhips IndexError, whatever the model; steps returned by mhbp carry ancestors=None.)",
  "every length", "all lengths", [S+":SmoothTrajectory.perform_mhbp"], "control-flow model with unbound locals")
P("C35", "Metropolis-Hastings smoothing step satisfies detailed balance",
  "mc_step replaces the state of trajectory j iff its uniform is below the Metropolis-Hastings ratio of transition, likelihood, future and proposal densities, so it accepts with probability min(1, ratio), satisfies detailed balance and leaves the smoothing density of (state, ancestor) invariant.",
  "every model densities", "distributional", [S+":mc_step"], "algebra over positive densities; integral of the acceptance test")
P("C36", "reduced acceptance ratio",
  "With a proposal equal to the prior dynamics, the reduced step (mhips_reduced) returns exactly what the full one returns, provided there is a measurement or a future. (Defect: with neither, it raises TypeError, always.)",
  "every model densities", "all reals", [S+":mc_step"], "cancellation; error branch for no measurement and no future")
P("C37", "smoother method dispatch and post-processing",
  "Unknown smoother names raise ValueError; names are case-sensitive; the model's post_smoothing hook is applied to the result exactly once for full, mcmc, rs, rsas, mhips and mhips_reduced. (Defect: twice for 'ancestor' and 'mhbp'.)",
  "every method string", "all strings", [S+":SmoothTrajectory.__init__"], "call-trace model")
# ---------------------------------------------------------------- kalman
P("C38", "Kalman prediction preserves covariance validity",
  "predict_full returns mean A z + f and covariance A P A' + Q; these are the moments of A x + f + v for x ~ N(z,P), v ~ N(0,Q) (the law of the predicted state is normal with exactly these moments), and the covariance stays symmetric PSD, also for singular P and Q.",
  "every dimension and matrices", "all matrices", [K+":KalmanFilter.predict_full"], "characteristic functions of multivariate normal laws")
P("C39", "Kalman measurement update is Bayes' rule",
  "measure_full succeeds iff the innovation covariance is positive definite (else LinAlgError before writing anything); the updated N(z,P) is the conditional law of the state given the measurement, the covariance is symmetric PSD, never larger than the prior, equal to (P^-1 + C'R^-1C)^-1 when P and R are invertible, and the returned value is the log density of the measurement. Without C the state is unchanged.",
  "every dimension, prior (also singular) and measurement", "all matrices", [K+":KalmanFilter.measure_full"], "regular conditional distribution by equality of joint normal laws; Joseph form")
P("C40", "scalar and matrix measurement updates agree",
  "For a one-dimensional measurement with positive innovation variance measure_full_scalar and measure_full produce the same mean, covariance and log-likelihood; otherwise measure_full raises LinAlgError and measure_full_scalar ValueError. (Defect: the latter after overwriting z and P.)",
  "every state dimension", "all matrices", [K+":KalmanFilter.measure_full_scalar"], "1x1 matrix algebra")
P("C41", "RTS smoother step",
  "KalmanSmoother.smooth is exact: combining the filter's conditional law of x given x+ with any N(z_next,P_next) for x+ gives a normal pair whose moments are the returned mean, covariance (PSD) and lag-one cross covariance; if the next smoothed moments equal the predicted ones the filtered moments are returned unchanged; LinAlgError iff the predicted covariance is singular.",
  "every dimension and matrices", "all matrices", [K+":KalmanSmoother.smooth"], "joint normal laws")
P("C42", "Gaussian log-density helpers agree",
  "lognormpdf, lognormpdf_vec, lognormpdf_cho(_vec) (given cho_factor's output) and lognormpdf_scalar return the logarithm of the Lebesgue density of the normal law with the given positive definite covariance / variance; a singular matrix or non-positive variance raises. (Defect: an indefinite matrix is not detected by lognormpdf.)",
  "every dimension and matrices", "all matrices", [K+":lognormpdf", K+":lognormpdf_vec", K+":lognormpdf_cho", K+":lognormpdf_cho_vec", K+":lognormpdf_scalar"], "Cholesky existence and uniqueness; change of variables")
P("C43", "KalmanFilter.set_dynamics keeps unspecified matrices",
  "After construction and any sequence of set_dynamics calls each matrix is the one given most recently; a matrix never given is None (f_k zero), and predict uses exactly these, raising AttributeError without A and TypeError without Q. The same holds of the constant matrices of a mixed linear/nonlinear model and its set_dynamics. (Defect: time_update always raises TypeError.)",
  "every history of calls", "all histories", [K+":KalmanFilter.set_dynamics", K+":KalmanFilter.predict", K+":KalmanFilter.time_update", ML+":MixedNLGaussianSampled.set_dynamics", RB+":RBPFBase.set_dynamics"], "state machine, induction over the history")
# ---------------------------------------------------------------- models
P("C44", "linear time-varying model stores and returns its statistics",
  "LTV set_states followed by get_states returns the same mean and covariance for every particle (and set_states succeeds exactly when the rows are long enough and the lists match); create_initial_estimate, update and measure act on every particle by the Kalman filter's own step and store its result.",
  "every dimension, number of particles and contents", "all dimensions", [LTV+":LTV.set_states", LTV+":LTV.get_states", LTV+":LTV.create_initial_estimate", LTV+":LTV.update", LTV+":LTV.measure"], "packing into a flat vector")
P("C45", "LTV smoothing takes the dynamics from particle, input and time index 0",
  "LTV.sample_smooth reads the input and the time stamp at index 0 of the slices it is given, whatever the particle; the smoothed statistics are the right ones when the dynamics do not depend on input and time. (Defect: with time-varying dynamics the result differs from the smoother of the current time.)",
  "every LTV model, number of particles and stored history", "needs time-varying dynamics", [LTV+":LTV.sample_smooth"], "loop model; right for time-invariant dynamics, counterexample otherwise")
P("C46", "nonlinear Gaussian model evaluates Gaussian densities",
  "NonlinearGaussian.logp_xnext and measure return, for every particle, the log density of N(f(x), Q(x)) resp. N(g(x), R(x)), with the covariances last given by the constructor, set_Q, set_R or the hooks. (Defect: with a constant covariance in dimension one the standard deviation is used as variance, which is the stated density only for variance 1.)",
  "every model, particle set, state pair, measurement and history of set_Q/set_R calls", "all reals and matrices", [NLG+":NonlinearGaussian.logp_xnext", NLG+":NonlinearGaussian.measure", NLG+":NonlinearGaussian.set_Q", NLG+":NonlinearGaussian.set_R"], "model of both code paths; exact value in each")
P("C47", "nonlinear Gaussian model samples from its laws",
  "sample_process_noise followed by update draws the next states independently from N(f(x), Q(x)); eval_logp_x0 is the log density of N(x0, Px0) (0 / -inf when Px0 = 0); the constructor keeps the given x0 and Px0, zero for a missing one, ValueError when neither they nor lxi are given. (Defect: create_initial_estimate uses the raw, untransposed Cholesky array, so the particles have mean x0 but covariance Px0 exactly when Px0 is diagonal; otherwise their total variance exceeds that of Px0 by the sum of the squared entries below the diagonal.)",
  "every covariance, number of particles and dimension", "laws over all draws", [NLG+":NonlinearGaussianInitialGaussian.create_initial_estimate", NLG+":NonlinearGaussian.sample_process_noise", NLG+":NonlinearGaussian.update", NLG+":NonlinearGaussianInitialGaussian.eval_logp_x0"], "push-forward of product normal laws; trace argument for the defect")
P("C48", "maximum transition density is an upper bound",
  "NonlinearGaussian.logp_xnext_max is at least every value logp_xnext can return for the given particles, and is attained, which rejection smoothing needs. (Defect: with a constant scalar variance q it is an upper bound exactly when q <= 1.)",
  "every particle set and next state", "all reals", [NLG+":NonlinearGaussian.logp_xnext_max", NLG+":NonlinearGaussian.logp_xnext"], "positive definite quadratic form")
P("C49", "Rao-Blackwellised particles store state and statistics independently",
  "Rao-Blackwellised set_states/get_states round-trip exactly, set_Mz/get_Mz likewise, and each of the two writes leaves what the other one stores unchanged.",
  "every dimension", "all dimensions", [RB+":RBPSBase.set_states", RB+":RBPSBase.get_states", RB+":RBPSBase.set_Mz", RB+":RBPSBase.get_Mz"], "packing model")
P("C50", "conditional linear dynamics given the nonlinear state",
  "calc_cond_dynamics returns for every particle the matrix and offset of the conditional law of the next linear state given the next nonlinear state, also for correlated noises. (Defect: the covariance it returns is Qz instead of Qz - Qxiz' Qxi^-1 Qxiz; it is right exactly when the noises are uncorrelated, otherwise too large.)",
  "every particle array, every noise covariance, methods overridden or not", "all matrices", [ML+":MixedNLGaussianSampled.calc_cond_dynamics"], "normal conditional laws (Schur complement)")
P("C51", "EM gradient helpers are the derivatives of the objective",
  "compute_logprod_derivative is the derivative of log det Q + tr(Q^-1 B); compute_l2 is the second moment of the prediction error and compute_l2_grad_f / compute_l2_grad_A give its derivative.",
  "every differentiable family of matrices", "all matrices", [MC+":compute_logprod_derivative", MC+":compute_l2_grad_f", MC+":compute_l2_grad_A", MC+":compute_l2"], "Mathlib derivatives")
P("C52", "hierarchical backward sampling",
  "HierarchicalBase.sample_smooth with one trajectory draws the linear state from its exact law given the particle and the next linear state (the particle's own law at the last step). (Defect: with several trajectories every row carries the nonlinear state of the first particle, and the linear state of trajectory j is drawn from the first particle's law conditioned on the next linear states of all trajectories up to j.)",
  "every number of trajectories, every future", "needs >= 2 trajectories; laws over all states", [HI+":HierarchicalBase.sample_smooth"], "loop model with the in-place writes, induction")
# ---------------------------------------------------------------- parameter estimation
P("C53", "EM runs the requested schedule",
  "Under Python 2 a completed ParamEstimation.maximize ran exactly max_iter iterations: iteration i installs the current estimate, simulates with num_part[i] / num_traj[i] (the last entry repeated when the schedule is shorter) and replaces the estimate by the result of its M-step; it returns the last estimate. A completed maximize of ParamEstimationSAEM / PSAEM installs param0 and then each M-step result in order, hands each result to the callback, and returns the last one. ParamEstimation.maximize completes whenever no callback or model operation raises and the schedules are not empty (IndexError otherwise). (Defects: the returned estimate is never installed in the model; under Python 3 the method raises NameError before doing anything.)",
  "every schedule, max_iter and model", "all lists, both language versions", [PE+":ParamEstimation.maximize", PE+":ParamEstimationSAEM.maximize", PE+":ParamEstimationPSAEM.maximize"], "loop model with a log of the calls")
P("C54", "stochastic approximation step sizes",
  "alpha_gen returns step sizes in (0,1], equal to 1 up to iteration 101 and non-increasing, with divergent sum and convergent sum of squares (Robbins-Monro).",
  "every iteration", "infinite series", [PE+":alpha_gen"], "p-series comparison")
P("C55", "SAEM / PSAEM trajectory weights stay a probability vector",
  "In every run of PSAEM every M-step gets a non-empty list of trajectories with positive weights of sum one (at most max_traj), pruning only discards weights not above the threshold, and with default pruning the weighted average of any trajectory statistic is the stochastic approximation recursion S_k = (1-a_k) S_(k-1) + a_k m_k (the first 102 M-steps remember nothing with the default step sizes). (Defect: ParamEstimationSAEM raises IndexError in its first iteration for every model using the default trajectory representation; no M-step is ever run.)",
  "every model, iteration count and step-size sequence in [0,1]", "unbounded iterations", [PE+":ParamEstimationSAEM.maximize", PE+":ParamEstimationPSAEM.maximize"], "invariant by induction over the iterations")
P("C56", "PSAEM iteration count, callback and conditioning",
  "With the default callback PSAEM stops after exactly max(1, max_iter) iterations; with a user callback it stops exactly when the callback first asks to, so one that never does makes it run forever, whatever max_iter is; every simulation after the first is conditioned on the trajectory produced in the iteration before. (Defect: the default filter_options=None always fails with TypeError in the first iteration.)",
  "every callback, model and max_iter", "non-termination", [PE+":ParamEstimationPSAEM.maximize"], "fuel model; monotone fuel theorem")
P("C57", "the trajectory log-likelihood terms sum over the right steps",
  "The default measurement term is the average over the trajectories of the sum over exactly the time steps that have a measurement, the transition term the same over all transitions with the input and time of the earlier step; the value-and-gradient forms return the gradient of the returned value. (Defect: under Python 3 both raise NameError.)",
  "every data set, trajectory length and number of trajectories", "all patterns of missing data", [PEI+":ParamEstInterface"], "fold over the data")
P("C58", "numeric gradient of the initial-state term",
  "One expects ParamEstBaseNumericGrad to hand the optimiser the gradient of the value it hands it. (Defect: it adds to every component the mean over the parameters of the initial-state gradient; component k is right if and only if the k-th component of that gradient equals this mean, so always with a single parameter and in general not with more.)",
  "every parameter dimension, parameter value and differentiable model", "derivatives at every point", [PEI+":ParamEstBaseNumericGrad"], "model; Mathlib derivatives; counterexample")
# ---------------------------------------------------------------- utilities
P("C59", "density of a sum of two uniforms",
  "unifsum(a, b), called at p, is the density of X+Y for independent uniforms between the limits of a and of b: non-negative, zero outside the support, a density of the convolution of the two laws (one of them may be a point mass), integrating to one; when both intervals have positive length the value is the overlap length over the product of the lengths at every point, hence continuous; the order of limits and intervals does not matter; two single points raise ZeroDivisionError. (Defect: with four int limits in Python 2 this holds iff the lengths of the intervals differ by an even number; otherwise the value is negative near the upper end, or ZeroDivisionError is raised at the lower end if one interval is a point.)",
  "every pair of intervals and point", "all reals", [PDF+":unifsum"], "piecewise case analysis; convolution of measures")
P("C60", "instrumentation is transparent",
  "For every program that only makes calls the wrapper is meant for (any number, each depending on earlier results and exceptions), wrapping the model in the instrumenter gives the same result and the same final model state, and every counter grows by exactly the number of particles of the calls it counts.",
  "every model object conforming to the interfaces, every adaptive sequence of calls with positional and keyword arguments", "all histories", [INS+":Instrumenter"], "refinement over programs (free monad), Python argument binding modelled")
P("C61", "wrapping a model without optional hooks",
  "One expects a model that lacks post_smoothing / pre_mhips_pass to behave the same when wrapped. (Defects: hasattr of the wrapper does not depend on the model, so every smoothing of a wrapped model without post_smoothing that would succeed raises AttributeError; qsample, logp_q, measure, propose_from_y, set_params, maximize and maximize_weighted are not forwarded and raise AttributeError; propose_smooth without past and future raises TypeError; print_statistics and print_total_ops always raise AttributeError. A model with both hooks is smoothed the same way.)",
  "every model, smoothing method, data set and draw", "attribute presence combinations over all runs", [INS+":Instrumenter", S+":SmoothTrajectory.__init__"], "attribute-table model; smoother model with absent hooks")
P("C62", "smoothed estimates belong to the last simulate call that smoothed",
  "get_smoothed_estimates returns the result of the last simulate() call that had a smoother and num_traj>0; a later simulate(smoother=None) leaves the old result in place, and before any smoothing the call raises AttributeError. A run that fails also leaves the old smoothed result in place, while the filter trajectory is already the new, partial one (nothing of an earlier filter run is left once the filter has been constructed). (Defect: stale estimates.)",
  "every simulator state, data set, filter and draw", "depends on the history of calls", [SIM+":Simulator.simulate", SIM+":Simulator.get_smoothed_estimates"],
  "state machine of the Simulator object")
P("C63", "one bootstrap step uses the right data",
  "After any successful history, forward(u, y) of the bootstrap filter samples process noise for the selected ancestors with (u, k), propagates those ancestors with (u, k, noise), evaluates the likelihood at (y, k+1), and the weights are the Bayes update of the previous ones (the likelihood alone after resampling).",
  "every Markov model, history, draw, with or without preallocation", "index bookkeeping over all histories", [F+":ParticleFilter.forward", F+":ParticleTrajectory.forward", IF+":ParticleFiltering"],
  "composition of the trajectory representation invariant with the step function")
P("C64", "mhbp proposes ancestors without shuffling",
  "One would expect every trajectory's proposed ancestor in mhbp to be drawn from the filter weights. (Defect: the systematic sample is not permuted, so the proposals of the M trajectories are always in ascending order; with equal weights and M = N trajectory j is always proposed particle j, and no number of iterations can give it any ancestor other than j or the one it started with.)",
  "every weight vector, M, model, number of iterations and draws", "distributional claim over all draws and iterations", [S+":SmoothTrajectory.perform_mhbp", F+":sample"], "inverse-cdf property of systematic sampling; induction over the iterations")
P("C65", "repeated prediction and measurement is the exact Bayesian filter",
  "Starting from N(z0, P0), any sequence of predict_full / measure_full calls with arbitrary time-varying matrices (positive semidefinite noise, invertible measurement noise) succeeds, returns the mean and covariance of the conditional law of the current state given all measurements so far, and the sum of the returned log-likelihoods is the log density of the whole measurement record.",
  "every sequence of steps, every system matrices and every measurement record", "a statement about conditional laws for sequences of unbounded length", [K+":KalmanFilter.predict_full", K+":KalmanFilter.measure_full"],
  "induction over the steps with the representation state = mean(history) + independent Gaussian")

P("C66", "an LTV model filters exactly",
  "Starting from create_initial_estimate, any sequence of update / measure calls on an LTV model whose hooks describe a linear Gaussian system keeps every particle equal to mean and covariance of the conditional law of the state given all measurements, and the accumulated weights are the log density of the measurement record.",
  "every linear Gaussian system, number of particles, sequence of steps and data", "conditional laws over unbounded sequences", [LTV+":LTV.update", LTV+":LTV.measure", LTV+":LTV.create_initial_estimate"], "refinement to C65")
P("C67", "the EM objective of an LTV model is the expected complete-data log-likelihood",
  "eval_logp_x0, eval_logp_xnext and eval_logp_y return, for every particle, the expectation of the log Gaussian density of the initial state, the transition, the measurement under the smoothed law stored in the particle, without the constant (d/2) log 2 pi.",
  "every model, particle and smoothed law", "integrals over all Gaussian laws", [LTV+":LTV.eval_logp_x0", LTV+":LTV.eval_logp_xnext", LTV+":LTV.eval_logp_y"], "second moments of Gaussian laws")
P("C68", "analytic gradients of an LTV model",
  "eval_logp_x0_val_grad and eval_logp_xnext_val_grad return the sum over the particles of the objective and its exact gradient whenever the hooks return the exact derivatives of the matrices. (Defects: eval_logp_y_val_grad raises TypeError whenever a gradient is given and there is a particle; without gradients the methods return an array instead of the sum.)",
  "every differentiable model, parameter vector and set of particles", "derivatives at every point", [LTV+":LTV.eval_logp_x0_val_grad", LTV+":LTV.eval_logp_xnext_val_grad", LTV+":LTV.eval_logp_y_val_grad"], "Mathlib derivatives")

P("C69", "the proposal density matches the proposal",
  "NonlinearGaussian.propose_smooth draws independent proposals whose joint law has the density exp(logp_proposal), as the Metropolis-Hastings smoothers require (at the first step: when Px0 is diagonal).",
  "every model, ancestor array and proposal", "laws over all draws", [NLG+":NonlinearGaussian.propose_smooth", NLG+":NonlinearGaussian.logp_proposal"], "C46 + C47")
P("C70", "first-stage weights of the nonlinear Gaussian model",
  "eval_1st_stage_weights returns the measurement log density at the noise-free one-step prediction of every particle, at time t+1.",
  "every model and particle set", "all reals", [NLG+":NonlinearGaussian.eval_1st_stage_weights"], "composition of update with zero noise and measure")
P("C71", "filtering and smoothing of recorded data is exact",
  "Running predict_full and measure_full over a record of data and then KalmanSmoother.smooth backwards gives, for every time, the exact normal law of the state given all data, the exact cross covariance of successive states, and the exact log-likelihood of the data; LinAlgError is raised only if a predicted covariance is singular, never with invertible process noise.",
  "every record length, time-varying (also data-dependent) dynamics, measured values and measurement dimensions, singular covariances included", "integrals over all states, unbounded records", [K+":KalmanFilter.predict_full", K+":KalmanFilter.measure_full", K+":KalmanSmoother.smooth"], "measure-theoretic Bayes rule for Gaussian laws, induction over the record")

P("C72", "the Rao-Blackwellised filter is exact per particle",
  "For one nonlinear state, update draws every particle's next nonlinear state from its exact law given the particle and leaves the exact conditional law of the next linear state in the particle; measure is Bayes' rule per particle and returns the log-likelihood; eval_1st_stage_weights equals measure after an update without noise; for any number of nonlinear states cond_predict and cond_predict_single_step leave the exact law of the next linear state given the given next nonlinear state. Qz is the covariance of the linear noise given the nonlinear noise. (Defect: with more than one nonlinear state update always raises ValueError.)",
  "every particle array, every mix of overridden methods and constants, every measurement", "laws over all states, all code paths of the dispatch", [RB+":RBPFBase.measure", ML+":MixedNLGaussianSampled.update", ML+":MixedNLGaussianSampled.measure", ML+":MixedNLGaussianSampled.eval_1st_stage_weights", RB+":RBPFBase.cond_predict", RB+":RBPFBase.cond_predict_single_step"], "conditional laws of the normal distribution")
P("C73", "the constrained smoother is exact along every trajectory",
  "post_smoothing gives for every trajectory and time the exact normal law of the linear state given all measurements and all nonlinear states of that trajectory, and the exact cross covariance of successive linear states (zero at the end); it raises LinAlgError only when a predicted covariance is singular, never with invertible linear process noise.",
  "every number of trajectories, every length, missing measurements", "integrals over all states, unbounded length", [RB+":RBPSBase.post_smoothing", RB+":RBPSBase.pre_mhips_pass"], "C71 along every trajectory, induction over time")
P("C74", "transition densities of the Rao-Blackwellised model",
  "logp_xnext is the exact log density of the stacked next state given the particle (Qz here the marginal covariance), logp_xnext_max its attained supremum over particles and next states, logp_xnext_singlestep the exact log density of the next nonlinear state.",
  "every particle array and next states", "all states", [ML+":MixedNLGaussianSampled.logp_xnext", ML+":MixedNLGaussianSampled.logp_xnext_max", ML+":MixedNLGaussianSampled.logp_xnext_singlestep"], "densities of normal laws")
P("C75", "backward sampling of the linear state is exact",
  "sample_smooth draws the linear state of every trajectory from its exact law given the particle and the trajectory's next nonlinear and linear state; at the last step from the particle's own law.",
  "every particle array, future and index list", "laws over all states", [ML+":MixedNLGaussianSampled.sample_smooth"], "Bayes rule twice")

P("C76", "the hierarchical filter is exact per particle",
  "measure of a hierarchical model keeps the nonlinear state, updates the law of the linear state with Bayes' rule and returns the sum of both log-likelihoods; update moves the law of the linear state exactly. (Defect: when no measurement offset h is given at all, measure raises TypeError.)",
  "every particle array, every mix of overridden methods and constants", "laws over all states", [HI+":HierarchicalBase.measure", RB+":RBPFBase.update"], "C71 per particle")
P("C77", "transition densities of hierarchical models",
  "logp_xnext is the user's nonlinear log density plus the exact log density of the next linear state. (Defect: logp_xnext_max uses +log det instead of -log det / 2; it bounds logp_xnext when all predicted covariances have determinant >= 1, and for one particle only then.)",
  "every particle array and next states", "all states", [HI+":HierarchicalBase.logp_xnext", HI+":HierarchicalRSBase.logp_xnext_max"], "densities of normal laws")
P("C78", "smoothing of hierarchical models is exact",
  "post_smoothing of a hierarchical model gives for every trajectory and time the exact normal law of the linear state given all measurements and the trajectory of the nonlinear state, with exact cross covariances; LinAlgError only when a predicted covariance is singular.",
  "every number of trajectories, every length, missing measurements", "integrals over all states, unbounded length", [RB+":RBPSBase.post_smoothing", HI+":HierarchicalBase.calc_cond_dynamics", HI+":HierarchicalBase.meas_xi_next"], "reduction to C73")

P("C79", "PSAEM with raoblackwell=True uses the filter's trajectories",
  "One expects PSAEM with raoblackwell=True to give the M-step the weighted trajectories of the filter. (Defect: every trajectory it gives to an M-step is uninitialised memory, an entry of the array numpy.empty returned.)",
  "every run, model and step-size sequence", "all iterations", [PE+":ParamEstimationPSAEM.maximize"], "provenance invariant over the iterations")
P("C80", "PSAEM2 is PSAEM",
  "ParamEstimationPSAEM2.maximize (preallocated buffers updated in place) performs the same calls, gives the M-steps the same trajectories and weights and returns the same estimate or exception as PSAEM with one trajectory per iteration and no limit, whatever its uninitialised buffers contain (max_iter >= 1, positive first step size). Under Python 3 it raises NameError before doing anything.",
  "every model, step-size sequence and buffer content", "refinement over unbounded runs", [PE+":ParamEstimationPSAEM2.maximize", PE+":ParamEstimationPSAEM.maximize"], "simulation relation between the two loops")
P("C81", "the M-step maximises the Monte-Carlo Q function",
  "The function ParamEstBaseNumeric.maximize minimises is minus the average over the smoothed trajectories of the complete-data log-likelihood, when the model's terms return one log-density per particle. (Defect: if eval_logp_x0 returns the sum over the particles, the other form its interface allows, the initial term counts M times as much as the others.)",
  "every model, data set and set of trajectories", "all reals, all sizes", [PEI+":ParamEstBaseNumeric.maximize", PEI+":ParamEstInterface.eval_logp_y_fulltraj"], "composition of C57")
P("C82", "EM terms of the Rao-Blackwellised model are expected log-densities",
  "eval_logp_x0, eval_logp_xnext and eval_logp_y of a mixed linear/nonlinear model are, up to the constant multiples of log 2 pi, log p(xi0) plus the expected log-density of the linear initial state per particle, and the sums over the particles of the expected log-densities of the next state and of the measurement, the expectation taken over the smoothed law of the linear states (with the smoothed cross covariance of successive states); the objective the numeric M-step minimises is minus the average over the trajectories of the expected complete-data log-likelihood. (Defect: with a constant measurement offset h and no measurement matrix, which can be filtered, eval_logp_y raises AttributeError.)",
  "every particle array, smoothed law, mix of overridden methods and constants", "integrals over all linear states, all matrices", [ML+":MixedNLGaussianSampled.eval_logp_x0", ML+":MixedNLGaussianSampled.eval_logp_xnext", ML+":MixedNLGaussianSampled.eval_logp_y", ML+":MixedNLGaussianSampled.calc_l2", ML+":MixedNLGaussianSampled.calc_l3", PEI+":ParamEstBaseNumeric.maximize"], "second moments of normal laws (C51) and the trace form of the Gaussian log-density")
P("C83", "EM gradients of the Rao-Blackwellised model",
  "The val_grad variants return the exact gradient of the C82 terms: for the next state whenever the hooks return the derivatives of A, f, Q (None = no dependence); for the measurement with C kept at its present value (Defects: the derivative of C given by the model is ignored; with R computed per particle UnboundLocalError is raised; without any gradient the already processed measurement is processed again); for the initial state the gradient of the average of eval_logp_x0. (Defect: the value returned with it counts log p(xi0) with weight 1/N.)",
  "every differentiable parametrisation, every particle array", "derivatives at every real parameter vector", [ML+":MixedNLGaussianSampled.eval_logp_x0_val_grad", ML+":MixedNLGaussianSampled.eval_logp_xnext_val_grad", ML+":MixedNLGaussianSampled.eval_logp_y_val_grad"], "matrix calculus of C51")
P("C84", "the marginalised smoother stores the likelihood of the future",
  "MixedNLGaussianMarginalized.sample_smooth stores with every nonlinear state a positive semidefinite Omega and a Lambda such that exp(-z'Omega z/2 + Lambda'z) is, up to a positive factor, p(y_t, xi_{t+1}, y_{t+1}, ..., xi_T, y_T | xi_t, z_t) as a function of the linear state z_t, for the whole backward pass: any number of steps and trajectories, any selection of continuations, missing measurements, singular Qz.",
  "every valid model with one nonlinear state and independent process noises, every backward pass", "Gaussian integrals over all linear states, induction over the length", [ML+":MixedNLGaussianMarginalized.sample_smooth", ML+":MixedNLGaussianMarginalized.calc_prop1", ML+":factor_psd"], "integral of exp(quadratic) over a normal law; induction over time")
P("C85", "the backward weights of the marginalised smoother",
  "logp_xnext_full returns, for every particle, log p(xi_{t+1:T}, y_{t+1:T} | particle) minus m'(I + Qz Omega)^-1 Qz m with m = Lambda - Omega fz, plus a constant depending on the trajectory only. Hence when fz and Qz are the same for all particles the backward probabilities are exactly w_i p(future | particle i) normalised. (Defect: a wrong sign in calc_prop1; when fz or Qz depends on the nonlinear state the backward probabilities are wrong.)",
  "every valid model with one nonlinear state, every set of particles and trajectories", "real integrals and all inputs", [ML+":MixedNLGaussianMarginalized.logp_xnext_full", ML+":MixedNLGaussianMarginalized.calc_prop1", ML+":MixedNLGaussianMarginalized.calc_prop3"], "the integral of C84 once more, over the particle's normal law; counterexample for the defect")
P("C86", "what the marginalised smoother cannot do",
  "(Defects) With any number of nonlinear states other than one, logp_xnext_full and sample_smooth raise ValueError for every valid model; a missing measurement is treated as an observation equal to its prediction h; a model without measurement matrix raises UnboundLocalError as soon as there is a measurement; rejection sampling raises NotImplementedError for every run of two or more steps, even when the user supplies maxpdf.",
  "every valid model, every particle array", "negative statements about all inputs", [ML+":MixedNLGaussianMarginalized", F+":ParticleTrajectory.perform_smoothing"], "evaluation of the model with arbitrary inputs")
P("C87", "initial distribution of mixed models",
  "MixedNLGaussianSampledInitialGaussian: create_initial_estimate returns particles whose nonlinear states are independent draws from N(xi0, Pxi0) and whose linear statistics are exactly (z0, Pz0); cond_sampled_initial keeps the nonlinear states and replaces the linear statistics by get_rb_initial; eval_logp_xi0 is the exact log-density, eval_logp_x0 adds the expected log-density of the linear state; eval_logp_xi0_grad is the exact gradient when get_xi_intitial_grad returns the derivatives (zero by default). (Defects: without Pz0 the constructor raises AttributeError; without Pxi0 the density raises LinAlgError; the default get_rb_initial_grad has a dimension too much and makes eval_logp_x0_val_grad raise ValueError unless there is one linear state and one parameter.)",
  "every mean, covariance, number of particles, particle array and differentiable parametrisation", "laws and derivatives over the reals", [ML+":MixedNLGaussianSampledInitialGaussian"], "laws of independent draws, row layout of C49, matrix calculus of C51")
P("C88", "smoothing proposals of mixed models",
  "propose_smooth of a mixed linear/nonlinear model (one nonlinear state) draws the nonlinear states independently from their exact law given the ancestors and attaches the exact conditional law of the linear state; logp_proposal returns for every particle the log-density of that law, at the nonlinear state of proposal find[i] - its own when find is 0, 1, .... At the first step the proposals are initial particles and logp_proposal is their log-density plus a constant common to all particles with the initial linear statistics.",
  "every valid model, ancestor selection and set of proposals", "laws of random proposals", [ML+":MixedNLGaussianSampled.propose_smooth", ML+":MixedNLGaussianSampled.logp_proposal"], "C72, C74 and C87 combined")
P("C89", "unbiased likelihood estimate",
  "For the bootstrap filter and for the SIR filter with any proposal that has a density, the likelihood estimate that can be read off the stored log-weights, their w_offset and the resampling flags returned by forward() - times the filtered mean of any non-negative function at the last step - has, over all the random draws of the run, expectation exactly E[prod_t p(y_t|x_t) phi(x_T)]; with phi = 1 this is the likelihood of the measurements. It holds for any number of particles, any resampling threshold, any length, whether or not the run starts with measure(), and for the shipped NonlinearGaussian models with Gaussian kernels and likelihoods.",
  "every Markov model that samples from its chain, every N > 0, threshold, input and measurement sequence", "an expectation over all random draws of a run of unbounded length", [F+":ParticleFilter.forward", F+":SIR.forward", F+":ParticleTrajectory.forward", F+":ParticleTrajectory.measure", F+":ParticleApproximation.resample", NLG+":NonlinearGaussian"], "law of one step from C07 and C47, then induction over the run with the estimate so far as a factor")
P("C90", "the gradient loops stay inside their buffers and do not depend on scratch memory",
  "compute_l2_grad_f and compute_l2_grad_A, the element-by-element loops behind the analytic EM gradients (the compiled version runs them without bounds checks), never access an element outside the arrays calc_l2_grad passes to them, for any number of particles, parameters, nonlinear states and at least one linear state; what they leave in the result depends only on the inputs, not on the previous content of the scratch buffers, and is for every particle, parameter and entry the derivative of the expected squared prediction error that calc_l2 returns. (Defect: with no linear states and a gradient of A the loops address a column that does not exist.)",
  "all array sizes, contents and initial buffer contents", "unbounded sizes; out-of-bounds accesses in the compiled version are silent", ["pyparticleest/utils/mlnlg_compute.py:compute_l2_grad_f", "pyparticleest/utils/mlnlg_compute.py:compute_l2_grad_A", "pyparticleest/utils/cmlnlg_compute.pyx:compute_l2_grad_f", "pyparticleest/utils/cmlnlg_compute.pyx:compute_l2_grad_A", ML+":MixedNLGaussianSampled.calc_l2_grad"], "an imperative model with explicit buffers and bounds checks; loop invariants per statement; the final buffer equals the functional model of C51")
P("C91", "gradient test tabulates the right points",
  "GradientTest.test(param_id, param_vals) smooths once with the current parameters and tabulates every EM term at exactly the parameter vector whose component param_id is replaced by the tested value, with no trace of the values tested before; the slopes of the measurement and transition terms are derivatives of the plotted curves whenever the model's gradients are right. (Defects: the slope of the initial term is the mean over all parameters' gradients, right exactly when that equals the tested component; the model is left at the last tested value; an empty list leaves the plots of an earlier test.)",
  "every model whose set_params overwrites, every parameter, list of values and starting point", "any sequence of tested values; identities between derivatives", ["pyparticleest/paramest/gradienttest.py:GradientTest.test"], "induction over the tested values; uniqueness of derivatives")
P("C92", "ancestral trajectories estimate path expectations without bias",
  "After a run of the bootstrap filter, or of the SIR filter with any proposal that has a density, perform_smoothing(M, 'ancestor') returns trajectories such that the likelihood estimate (C89) times the average of any non-negative function phi over the M trajectories has, over all random draws of filter and smoother, expectation exactly E[prod_t p(y_t|x_t) phi(x_0,...,x_T)] - a functional of the whole path, not only of the last state. It holds for any number of particles and trajectories, any resampling threshold and any length.",
  "every Markov model that samples from its chain, every N > 0, M > 0, threshold, input and measurement sequence, every measurable phi of the path", "an expectation over all random draws of a run of unbounded length, in which resampling makes the ancestors dependent", [S+":SmoothTrajectory.perform_ancestors", S+":SmoothTrajectory.calculate_ancestors", F+":ParticleTrajectory.perform_smoothing", F+":ParticleFilter.forward", F+":SIR.forward"], "one operator per stored step that follows the ancestor indices; the law of one step (C89) turns the operator of step t+1 into that of step t; induction over the run")
P("C93", "backward simulation estimates path expectations without bias",
  "The same holds for perform_smoothing(M, 'full') (FFBSi) with the default FFBSi callbacks, whenever logp_xnext evaluates a density of the transition kernels: the likelihood estimate times the average of phi over the trajectories of the backward simulator has expectation exactly E[prod_t p(y_t|x_t) phi(x_0,...,x_T)]; in particular the simulated backward kernels introduce no bias although they use the approximate filter weights. It holds for the shipped NonlinearGaussian models with their own logp_xnext (state dimension other than one, or a covariance per particle: see C46 for the scalar defect).",
  "every Markov model with transition densities, every N > 0, M > 0, threshold, input and measurement sequence, every measurable phi of the path", "an expectation over all random draws of filter and smoother for runs of unbounded length", [S+":bsi_full", S+":SmoothTrajectory.perform_bsi", F+":ParticleTrajectory.perform_smoothing", "pyparticleest/interfaces.py:FFBSi", NLG+":NonlinearGaussian.logp_xnext"], "the backward weights are those of the ancestor given the new particle, so averaging over the ancestor of the filter step equals averaging over the backward draw; then the induction of C92")
P("C94", "updating arrays in place gives the values the algorithm defines",
  "The filters pass arrays by reference, share them between approximations and update weights and particles in place. For every filter name, every options dictionary and any sequence of forward()/measure() calls, the results, the exceptions and everything that can be read from the trajectory afterwards are those of the algorithm on values (new array for each result), for every model that returns new arrays and writes only into the array given to update().",
  "every filter, every model following the interface, every conditional trajectory, every sequence of calls", "aliasing: a shared array written in place is visible only in some later call of some history",
  [F+":ParticleFilter", F+":AuxiliaryParticleFilter", F+":FFPropY", F+":CPF", F+":CPFAS", F+":CPFYAS", F+":SIR", F+":CSIRAS", F+":ParticleTrajectory"],
  "heap model of all filters with allocation; simulation of the value-level model by the heap model")
P("C95", "every smoother returns num_traj trajectories over all time steps",
  "On every filter run of at least two steps, perform_smoothing(M, method) with default options succeeds for each of the eight methods and returns M trajectories covering all time steps; get_smoothed_estimates returns the array with one row of M states per time step. (On other trajectory objects: IndexError if empty, single particles are broadcast over the row, other differing counts raise ValueError. Constructing SmoothTrajectory for an MH method without options raises TypeError.)",
  "every run of length >= 2, M > 0, method, draw, and model whose callbacks return one value per particle", "any run length, number of trajectories and acceptance pattern", [S+":SmoothTrajectory.__init__", S+":SmoothTrajectory.get_smoothed_estimates", F+":ParticleTrajectory.perform_smoothing"],
  "combine the totality theorems of all methods; characterise the tabulation")
P("C96", "particle Gibbs with two particles leaves the smoothing law invariant",
  "Take a reference trajectory distributed as the smoothing law (the law of the state trajectory given the measurements), run simulate's conditional filter 'CPF' or 'CPFAS' with two particles on it, draw trajectories with perform_smoothing(m, 'ancestor') or 'full', use one of them as the next reference, and repeat: after any number of iterations the trajectory has the smoothing law. For 'CPFAS', 'full' and 'ancestor' give the same law of the next trajectory. This covers every nonlinear Gaussian model. (Defect: with three particles the smoothing law is not invariant, because the free particles are resampled systematically without conditioning on the reference.)",
  "every Markov model, measurement history (with or without initial measurement), resampling threshold, number of trajectories, test function, number of iterations; N = 2", "a statement about expectations over all draws, composed over any number of iterations", [F+":CPF",F+":CPFAS",F+":ParticleTrajectory",S+":bsi_full",S+":SmoothTrajectory",NLG+":NonlinearGaussian"],
  "reduce a run to a Markov kernel on pairs of paths, show exchangeability of the pair under the extended law, induct on the history; backward simulation by a mixture identity")

P("C97", "MHIPS smoothing is unbiased and leaves the smoothing law invariant",
  "Run the bootstrap filter or the SIR filter, then call perform_smoothing(m, 'mhips') or perform_smoothing(m, 'mhips_reduced') with any number of passes R. Over all random draws of filter and smoother, the likelihood estimate times the average of any test function over the m returned trajectories has the expectation of the likelihood times the test function under the model, for every N, m and R. Each pass is a Markov kernel on trajectories that has the smoothing law as invariant law, whatever the proposal density. Used in place of 'ancestor' inside particle Gibbs with two particles ('CPF' or 'CPFAS') it keeps the smoothing law invariant over any number of iterations. This covers nonlinear Gaussian models with the default proposals.",
  "every Markov model with densities, measurement history of at least two time steps, N, m, R, proposal density, resampling threshold, test function, number of Gibbs iterations; 'mhips_reduced' needs a measurement at the last time", "a statement about expectations over all draws, for arbitrary state spaces and history lengths", [S+":SmoothTrajectory.perform_mhips_pass",S+":mc_step",S+":SmoothTrajectory",F+":ParticleTrajectory",F+":ParticleFilter",NLG+":NonlinearGaussian"],
  "show that one Metropolis-Hastings site update satisfies detailed balance for the joint density, lift it to a pass, to R passes, and compose with the unbiased ancestor trajectories of the filter")
P("C98", "backward simulation by rejection sampling and by MCMC is unbiased",
  "Run the bootstrap filter or the SIR filter, then call perform_smoothing(m, method) with method 'rs', 'rsas' or 'mcmc'. Over all random draws of filter and smoother, the likelihood estimate times the average of any test function over the m returned trajectories has expectation exactly E[prod_t p(y_t|x_t) phi(x_0,...,x_T)], as with 'full' (C93), for every N and m. For 'mcmc' this holds for every number of rounds R, also R = 0 (the trajectories are then ancestral lines); for 'rs' for every R, whatever part of the trajectories is left to the exact fallback; for 'rsas' once the number of rounds it may need are drawn. 'rs' and 'rsas' need a logp_xnext_max that bounds logp_xnext; nonlinear Gaussian models have one.",
  "every Markov model with transition densities, every N > 0, m > 0, R, stopping parameters, threshold, input and measurement sequence, every measurable phi of the path", "an expectation over all random draws of filter and smoother, including the random number and order of rejections, for runs of unbounded length",
  [S+":bsi_rs", S+":bsi_rsas", S+":bsi_mcmc", S+":SmoothTrajectory.perform_bsi", F+":ParticleTrajectory.perform_smoothing", "pyparticleest/interfaces.py:FFBSiRS", NLG+":NonlinearGaussian.logp_xnext_max"],
  "the law of one backward pick is a kernel that keeps the backward weights of the particles (an exact draw, or R Metropolis-Hastings rounds from the ancestor); such kernels can be exchanged with the filter step as in C93")
P("C99", "the Rao-Blackwellised bootstrap filter is unbiased",
  "Run the bootstrap filter on a model whose particles carry a Gaussian law for part of the state (MixedNLGaussianSampledInitialGaussian, HierarchicalBase; measure conditions that law in place and returns the predictive log-density). Over all random draws, the likelihood estimate read off the stored weights, offsets and resampling flags, times the filtered mean of E[phi(xi,z) | particle] at the last step, has expectation exactly E[prod_t p(y_t|xi_t,z_t) phi(xi_T,z_T)] under the joint model in which both xi and z are random, for every number of particles, resampling threshold and history. So marginalising z neither changes the likelihood that is estimated nor the target of the filter. For a model whose measure writes nothing it is the filter of C89.",
  "every Gaussian-conditional model and its good matrices, every N > 0, threshold, input and measurement sequence, every non-negative measurable phi", "an expectation over all random draws of the run for unbounded histories, against a joint model the code never evaluates",
  [F+":ParticleFilter", F+":ParticleTrajectory", RB+":RBPFBase", ML+":MixedNLGaussianSampledInitialGaussian", HI+":HierarchicalBase", K+":KalmanFilter"],
  "an operator argument: pushing a function through one step of the joint model and integrating it over the law of a particle equals drawing the particle's successor and integrating over its law; conditioning is Bayes' rule (C72, C76); then induction over the history as in C89")

P("C100", "backward simulation for Rao-Blackwellised models targets the joint smoothing law",
  "Run the bootstrap filter on a model whose particles carry a Gaussian law for part of the state (MixedNLGaussianSampledInitialGaussian) and then perform_smoothing(m, 'full'), which draws z of the last step with sample_smooth, then for every earlier step picks particles with the weights times logp_xnext, draws z with sample_smooth, and finally replaces all sampled z by the smoothed mean and covariance (post_smoothing). Over all random draws of filter and smoother, the likelihood estimate times the average over the m returned trajectories of phi(xi_0,...,xi_T) has expectation exactly E[prod_t p(y_t|xi_t,z_t) phi(xi_0,...,xi_T)] under the joint model in which both xi and z are random, for every N, m, resampling threshold and history. The same holds for the linear states that post_smoothing stores: replacing phi by the integral of psi(xi_0,...,xi_T, z) over the normal law with the stored mean and covariance of z at a time n gives E[prod_t p(y_t|xi_t,z_t) psi(xi_0,...,xi_T, z_n)], when the buffers are not preallocated longer than the run (see C101). (Needs uncorrelated noise, Qxiz = 0: otherwise logp_xnext takes Qz as the total covariance of z while sample_smooth and update take it as the covariance given xi, and the result is biased.)",
  "every mixed linear/nonlinear Gaussian model with one nonlinear state, Qxiz = 0 and positive definite Qz, every N > 0, m > 0, threshold, preallocated length, input and measurement sequence, every non-negative measurable phi", "an expectation over all random draws of filter and smoother for unbounded histories, against a joint model the code never evaluates",
  [F+":ParticleFilter", S+":SmoothTrajectory.perform_bsi", S+":SmoothTrajectory.perform_smoothing", RB+":RBPSBase.post_smoothing", ML+":MixedNLGaussianSampled.logp_xnext", ML+":MixedNLGaussianSampled.sample_smooth"],
  "operators as in C97: picking an index by weight times density and then drawing from the backward kernel of the picked particle equals integrating the forward model over the particle's law, by Bayes' rule for the pair (state now, next state); induction over the backward loop, then over the history as in C99; post_smoothing (C73) succeeds and keeps xi")
P("C101", "post_smoothing of Rao-Blackwellised models uses the last entry of the buffers as the last measurement",
  "The smoothed estimates of the linear states use st.y[-1], st.t[-1], the last entries of the copied buffers, as the measurement of the last step. After every successful history that ends with forward and whose number of steps is at least the preallocated T, these are that measurement and its time. (Defect: with T preallocated larger than the number of steps they are None and T-1, so the last measurement is ignored: two runs that differ only in the last measurement give the same result of post_smoothing on every smoothed trajectory. When the last step is measured again with measure() after forward, the buffers have grown by an entry 0, so post_smoothing uses the measurement 0 at time 0 for the last step.)",
  "every filter, every successful sequence of forward and measure calls of any length, every preallocated T, every model and smoothed trajectory", "the behaviour depends on the relation between the preallocated length and the whole call history; tests use one of them",
  [F+":ParticleTrajectory.forward", F+":ParticleTrajectory.measure", S+":SmoothTrajectory", RB+":RBPSBase.post_smoothing"],
  "invariants over the call history: the unused entries keep their initial values while the run is shorter than T, and T is at most one more than the number of steps otherwise; the hook reads only indices below the last step and the last entry")
P("C102", "incomplete models raise instead of computing",
  "A matrix that neither the callback nor the constructor supplies stays None, and callbacks may return arrays of the wrong length. Then the calls raise: KalmanFilter.predict returns exactly when A, f_k and Q are set (AttributeError without A, TypeError otherwise); smoothing with the model's matrices likewise, with LinAlgError for a singular predicted covariance; sample_process_noise and the prediction of the nonlinear states of a mixed model succeed exactly when Axi, Qxi, fxi are there for every particle (AttributeError without Axi, TypeError without Qxi); cond_predict of a hierarchical model exactly when Az, fz, Qz are there and one next state per particle is given; measure without R is an AttributeError; noise, next states, initial laws or continuations for another number of particles are ValueErrors, continuation indices out of range IndexErrors; and the backward statistics of the marginalised model raise UnboundLocalError for a measurement without measurement matrix, TypeError without R or h, LinAlgError for singular R. Likelihood terms of a linear model raise AttributeError for a measurement without C or R, LinAlgError for a singular R or initial covariance, TypeError for gradients of z0 without those of P0; a nonlinear Gaussian model without f (TypeError) or Q (AttributeError) cannot be propagated or sampled.",
  "every model object, callback result, particle array of any size and time", "any subset of the matrices may be missing at any particle; tests only use complete models",
  [K+":KalmanFilter.predict", K+":KalmanSmoother.smooth", ML+":MixedNLGaussianSampled.sample_process_noise", ML+":MixedNLGaussianSampled.calc_xi_next", RB+":RBPFBase.cond_predict", HI+":HierarchicalBase.measure", ML+":MixedNLGaussianSampled.sample_smooth"],
  "case analysis for one particle, lifted to the particle loops: a loop succeeds iff every iteration does, and fails with the exception of the first iteration that fails")
P("C103", "the auxiliary particle filter is unbiased",
  "For the auxiliary particle filter on a Markov model with every measurement present, the likelihood estimate that belongs to the scheme - per step the weighted mean of the likelihood without resampling, and with resampling the weighted mean of the first-stage weights times the mean over the new particles of likelihood divided by the first-stage weight of the ancestor - times the filtered mean of any non-negative function at the last step has, over all the random draws of the run, expectation exactly E[prod_t p(y_t|x_t) phi(x_T)], whatever the first-stage weights are; also for the shipped NonlinearGaussian models with their own first-stage weights. (Defect: w_offset records only one of the three shifts of the log-weights, so the estimate that C89 reads off the offsets is wrong for this filter: on a model with uninformative measurements it is 2 instead of 1 with probability one.)",
  "every Markov model that samples from its chain, every first-stage weight function, N > 0, threshold, input and measurement sequence", "an expectation over all random draws of a run of unbounded length", [F+":AuxiliaryParticleFilter.forward", F+":ParticleTrajectory.forward", F+":ParticleTrajectory.measure", F+":ParticleApproximation.resample", NLG+":NonlinearGaussian.eval_1st_stage_weights"],
  "law of one step with and without resampling, then induction over the run with the estimate so far as a factor; a two-particle model for the defect")
P("C104", "the filter that proposes from the measurement is unbiased up to its constants",
  "For the filter 'pfy' on a model whose propose_from_y samples from the likelihood normalised to a law of the state (constant Z_t) and whose logp_xnext_singlestep is the transition log-density, on a trajectory without preallocation: prod_t Z_t times the likelihood estimate read off the weights and offsets, times the filtered mean of any non-negative function at the last step, has expectation E[prod_t p(y_t|x_t) phi(x_T)] exactly, when the run starts with forward. (Defect: when the run starts with measure(y0) the particles are drawn from the measurement and the model's initial law is never evaluated: the expectation is that of a model with a flat initial law; for a scalar random walk the estimate is sqrt(2 pi) where the likelihood under the initial law is at most 1. With preallocation the filter reads the wrong measurement, see C19.)",
  "every such model, N > 0, threshold, input and measurement sequence", "an expectation over all random draws of a run of unbounded length", [F+":FFPropY.forward", F+":FFPropY.measure", F+":ParticleTrajectory.forward", F+":ParticleTrajectory.measure"],
  "on exactly sized buffers the step equals one that reads the current measurement; its law is that of a proposal weighted with the transition density; induction over the run")
P("C105", "the weight arithmetic is safe in floating point",
  "With a rounding after every addition, subtraction, multiplication and division (any monotone rounding that keeps representable numbers and integers up to the number of particles; sums in any order; rounded exp and log; double precision with ties to even is an instance, up to 2^53 particles): sample() with non-negative weights, not all zero, never fails, returns n ascending indices in range, never one of weight zero except index 0, and the number of copies of a particle differs from its expected number by at most 1 plus n times a slack of the size of the accumulated rounding error (1.01 in double precision up to a million weights and draws). The weight update keeps the largest log-weight exactly 0 and the order of the weights; so for every history of calls no run of pf, sir, cpf, cpfas and csiras raises, ancestors are valid, and the weights of pf, sir, cpf, cpfas never underflow all at once, however long the run. bsi_full, the draw of end particles and ancestor sampling never fail. With exact arithmetic this model is the model of the other claims. (Defect: CSIRAS stores its weights without subtracting their maximum and exponentiates them as they are: in double precision, when all log-weights of a step are below -746, all particles but the conditioned one descend from particle 0, whatever their weights.)",
  "every rounding, every order of summation, all weights, draws, callbacks and call histories, every number of particles up to the largest exact integer", "rounding errors depend on every operand and accumulate over runs of unbounded length; tests see single values on one machine",
  [F+":sample", F+":ParticleApproximation.calc_Neff", F+":ParticleApproximation.resample", F+":ParticleFilter", F+":SIR", F+":CSIRAS", F+":CPF", F+":CPFAS", S+":bsi_full"],
  "monotonicity of the rounding gives ascending cumulative sums that end at exactly 1 and a grid at most 1; induction over the summation tree and the run; error propagation by induction over the cumulative sums; binary floating point is shown to be such an arithmetic")

P("C106", "without resampling the filter is independent importance sampling, and it is consistent",
  "For a bootstrap ('PF') or SIR filter with resampling threshold 0 or less, on a model whose particles are drawn independently: over the random draws of a run (with or without an initial measure(), any number of forward() calls) no call raises and the particles of the last step, each with the weight N * (likelihood estimate) * (normalised weight), are N independent draws - every particle moves by the model's kernels (for SIR: the proposal) on its own and its weight is the product of the likelihoods it met (for SIR: times transition density over proposal density). As N grows, the likelihood estimate read off the stored log-weights and offsets converges in probability to the likelihood of the measurements, whenever that is finite, and the weighted mean of every integrable function over the particles of the last step converges in probability to its filtering expectation. Both hold for NonlinearGaussianInitialGaussian models whose measurement density is bounded in the state, for the normal initial law they sample from (C47).",
  "every model, data record, integrable function, number of particles and accuracy; both ways to start a run", "a statement about the law of the particles and about the limit of infinitely many of them",
  [F+":ParticleFilter.forward", F+":ParticleFilter.measure", F+":SIR.forward", F+":ParticleTrajectory.forward", F+":ParticleTrajectory.measure", NLG+":NonlinearGaussian", NLG+":NonlinearGaussianInitialGaussian"],
  "induction over the steps: the joint law stays a product and the stored log-weights plus offsets are the logs of the products of increments; then the strong law of large numbers on the infinite product, transported to the N-particle runs")

P("C107", "exact second moments, an error bound and central limit theorems without resampling",
  "In the setting of C106 for the bootstrap filter: N times the mean of the product of the estimates of two non-negative functions is the exact value of their product with every measurement taken twice plus N-1 times the product of their exact values; so for every N the likelihood estimate is off by eps or more with probability at most (likelihood with every measurement taken twice - likelihood^2) / (N eps^2). If the likelihood with every measurement taken twice is finite, sqrt(N) times the error of the likelihood estimate tends in distribution to a normal law with that variance; and sqrt(N) times the error of the weighted mean of a function over the last particles tends in distribution to a normal law with the importance-sampling variance E[(products of likelihoods)^2 (phi - m)^2] / likelihood^2.",
  "every model, data record, number of particles, pair of functions and accuracy", "second moments and limit laws are about all draws at once",
  [F+":ParticleFilter.forward", F+":ParticleFilter.measure", F+":ParticleTrajectory.forward"],
  "from the product law of C106: expansion of the double sum, Chebyshev's inequality, Mathlib's central limit theorem and Slutsky's theorem on the infinite product")

P("C108", "on a linear Gaussian model the particle filter and smoother agree with the Kalman filter and smoother",
  "A NonlinearGaussianInitialGaussian model with linear transition and measurement functions, positive definite covariances and a diagonal Px0, and the functions of utils/kalman.py, given the same record. The Kalman pass never fails. For any number of particles and any resampling threshold, the bootstrap filter's likelihood estimate has as its mean exactly exp(ll), ll the sum of the log-likelihoods the Kalman filter returns, and estimate times weighted mean of phi has mean exp(ll) E[phi(X)], X ~ N(z, P) with the returned z and P. An LTV model of the same system stores this z and P in every particle and its log-likelihoods add up to ll. After perform_smoothing with 'ancestor' or 'full' (the model's own logp_xnext), the estimate times the average of psi(state at time t) over the trajectories has mean exp(ll) E[psi(X)], X ~ N(zs, Ps) with the zs, Ps that KalmanSmoother.smooth returns for time t; so it has for 'mcmc', 'rs', 'rsas' (default bound), 'mhips', 'mhips_reduced' and 'mhbp' with one trajectory, and, with the estimate of C103, after the auxiliary filter. For psi(state at t, state at t+1) it has mean exp(ll) E[psi(X, X')], X and X' jointly normal with the smoothed means and covariances and the cross covariance that KalmanSmoother.smooth returns. With res <= 0 and growing N the likelihood estimate, the weighted means and the weighted covariances of the particles converge in probability to exp(ll), z and P.",
  "every linear Gaussian model (parameters may depend on time and input), data record, number of particles and trajectories, threshold, time and test function", "relates a random algorithm, over all its draws, to a closed-form recursion on real numbers",
  [F+":ParticleFilter", S+":SmoothTrajectory.perform_bsi", S+":SmoothTrajectory.perform_ancestors", NLG+":NonlinearGaussianInitialGaussian", K+":KalmanFilter.measure_full", K+":KalmanFilter.predict_full", K+":KalmanSmoother.smooth", LTV+":LTV"],
  "the path integrals of C89, C92, C93 and C106 are integrals over the filtered and smoothed laws of C71 (induction over the record, Fubini), which C71 and C66 relate to the Kalman code")

P("C109", "what the scalar random-walk example scripts estimate",
  "For the example classes of test/manual/filtering/basic_model*.py (x' = x + w, y = x + e), any number of particles, any threshold and any record, the estimates have as means what the Kalman filter returns: for basic_model and basic_model_apf (with the estimate of C103) for the walk with initial variance P0^2 and process variance Q^2; for basic_model_sir for process variance Q and initial variance P0^2, where its proposal is the optimal one (the weight of a new particle does not depend on what was drawn); for basic_model_propy for the documented walk. (Defects: numpy.random.normal takes standard deviations, so basic_model agrees with its docstring, where P0 and Q are variances, exactly if P0^2 + Q^2 = P0 + Q, already for one step; negative values raise ValueError. basic_model_sir with meas_first raises AttributeError, as interfaces.SIR has no measure_full. basic_model_propy with a first measurement ignores P0 and starts from N(y0, R). logp_xnext_full of basic_model, which the backward smoothers use, is the density of the particles that update makes exactly if Q = 1.)",
  "all parameters P0, Q, R, numbers of particles, thresholds, records and test functions", "an expectation over all random draws of a run of unbounded length, compared to a closed form",
  ["test/manual/filtering/basic_model.py:Model", "test/manual/filtering/basic_model_apf.py:Model", "test/manual/filtering/basic_model_sir.py:Model", "test/manual/filtering/basic_model_propy.py:Model", F+":ParticleFilter", F+":SIR", F+":FFPropY", F+":AuxiliaryParticleFilter", IF+":SIR"],
  "the classes sample from scalar Gaussian kernels (laws of scaled normal draws); then C89, C103, C104 and the Kalman recursion of C71")
P("C110", "nonlinear Gaussian models with one measurement and constant R",
  "A NonlinearGaussian model with a scalar measurement, constant R and no calc_R gives every filter exactly the callbacks of the same model with measurement variance sqrt(R), so every run of every filter is the same for both; the bootstrap filter's estimates have as means the exact values for y ~ N(g(x), sqrt(R)). The classes of nonlin_model.py and standard_nonlin_model.py are such models. (Defect: scipy.stats.norm takes a standard deviation: the likelihood estimate of one measurement has the mean stated by the model, y ~ N(g(x), R), for every measurement exactly if R = 1.)",
  "every such model (any state dimension, transition and measurement functions), number of particles, threshold and record", "an expectation over all random draws for every model",
  [NLG+":NonlinearGaussian.measure", NLG+":NonlinearGaussian.eval_1st_stage_weights", "test/manual/filtering/nonlin_model.py:Model", "test/manual/smoothing/standard_nonlin_model.py:Model", F+":ParticleFilter"],
  "equality of the callbacks as functions; unbiasedness of C89; a Gaussian mixture determines the variance of its component (second moments)")

P("C111", "the error of one resampling, and why the order of the particles matters",
  "For every draw, the number of resampled indices below k is n times the share of the first k weights, up to one; so the mean of a function over the particles after resample() differs from the weighted mean before by at most the sum of its jumps between neighbouring particles divided by the number of new particles - the range of the function over n if it is monotone along the particle order. (Defect: in an unfavourable order the error does not vanish as N grows: a model whose initial particles each have the right law, so that every estimate is unbiased (C89), but alternate; for every even N and every threshold above 0.64, such as the default, the filtered probability after one resampling is 1 or 1/2 instead of 7/8 with probability one.)",
  "all weights, draws, functions, numbers of old and new particles; every even number of particles for the defect", "a bound for every draw and function; a failure that is there for every number of particles",
  [F+":sample", F+":ParticleApproximation.resample", F+":ParticleFilter.forward", SIM+":Simulator.simulate"],
  "counts on initial segments by the inverse distribution function, then summation by parts; the counterexample by computing the sample from alternating weights")
P("C112", "smoothed trajectories after the auxiliary particle filter",
  "After a run of the auxiliary particle filter on a Markov model with every measurement present, perform_smoothing with 'ancestor' or with 'full': the likelihood estimate that belongs to the auxiliary scheme (C103) times the average of any non-negative function phi of the path over the returned trajectories has, over all random draws of filter and smoother, expectation exactly E[prod_t p(y_t|x_t) phi(x_0,...,x_T)], whatever the first-stage weights are, although the stored run does not keep them; also for the shipped NonlinearGaussian models with their own first-stage weights and transition densities.",
  "every such model, first-stage weight function, N > 0, threshold, number of trajectories, input and measurement sequence, path function, with and without measurement at time 0", "an expectation over all random draws of a run and of a smoother of unbounded length",
  [F+":AuxiliaryParticleFilter.forward", S+":SmoothTrajectory.perform_ancestors", S+":SmoothTrajectory.perform_bsi", S+":bsi_full", NLG+":NonlinearGaussian.eval_1st_stage_weights", NLG+":NonlinearGaussian.logp_xnext"],
  "law of one step jointly with the ancestor indices, induction over the run with the smoothing operators of C92 and C93")
P("C113", "smoothed trajectories after the filter that proposes from the measurement",
  "After a run of the filter 'pfy' under the assumptions of C104 (no preallocation), perform_smoothing with 'ancestor' or 'full': prod_t Z_t times the likelihood estimate times the average of any non-negative function of the path over the returned trajectories has expectation E[prod_t p(y_t|x_t) phi(x_0,...,x_T)] exactly when the run starts with forward. (Defect inherited from C104: when the run starts with measure(y0) the value is that of a model with a flat initial law.)",
  "every such model, N > 0, threshold, number of trajectories, input and measurement sequence, path function", "an expectation over all random draws of a run and of a smoother of unbounded length",
  [F+":FFPropY.forward", F+":FFPropY.measure", S+":SmoothTrajectory.perform_ancestors", S+":SmoothTrajectory.perform_bsi"],
  "the step law of C104 jointly with the ancestors, induction over the run with the smoothing operators of C92 and C93")
P("C114", "particle Gibbs with two particles converges from every reference trajectory",
  "Repeat: run simulate's conditional filter 'CPF' or 'CPFAS' with two particles on the current reference trajectory, draw trajectories with perform_smoothing(m, 'ancestor') or 'full', take one of them as the next reference. If every measurement has a bounded likelihood, p(y_t|x) <= c_t, then from every first reference trajectory the law of the k-th one converges to the smoothing law, uniformly and geometrically: the mean of every function with values in [0,1] (the probability of every event) differs by at most (1-eps)^k, eps = p(y_0..y_T) / prod_t 2 c_t > 0. It holds for nonlinear Gaussian models whose R stays away from singular. On linear Gaussian models the limit for the state at one time is the law N(zs, Ps) that the Kalman filter and KalmanSmoother.smooth return, and eps = exp(ll) / prod_t 2 max p(y_t|.) with the filter's log-likelihood ll.",
  "every Markov model with bounded likelihoods, measurement history (with or without initial measurement), resampling threshold, number of trajectories, first reference trajectory, test function with values in [0,1], number of iterations; N = 2 (with N = 3 the smoothing law is not invariant, C96)", "a statement about the law after any number of iterations, each an unbounded run with its own draws, uniformly over all starting points",
  [F+":CPF",F+":CPFAS",F+":ParticleTrajectory",S+":bsi_full",S+":SmoothTrajectory",NLG+":NonlinearGaussian",K+":KalmanSmoother"],
  "lower bound for one iteration: the free particle keeps its own past and is chosen at the end with probability at least prod_t p(y_t|x_t)/(2 c_t), by induction on the history; with the invariance of C96 this gives the geometric rate (Doeblin)")
P("C115", "EM with a linear Gaussian model never makes the record less likely",
  "Filter a record with an LTV model at parameters theta, smooth it, and evaluate with the smoothed trajectories the objective fval that ParamEstBaseNumeric.maximize minimises, at theta and at theta': filtering, smoothing and both evaluations succeed, and fval(theta) - fval(theta') <= ll(theta') - ll(theta), where ll is the log-likelihood of the record that the filter's measure() calls add up to. So whatever the optimiser does, new parameters at which the objective is not larger never decrease the likelihood, and along a whole EM run the log-likelihoods are non-decreasing. (Needed because of C45: the transition at the first time must serve for all times of the record at theta.) For the Kalman filter and smoother themselves the inequality holds for every record: Q(theta,theta') - Q(theta,theta) <= ll(theta') - ll(theta), Q the expected complete-data log-likelihood under the smoothing law, on every record of moves and measurements.",
  "every pair of LTV models (any z0, P0, A, f, Q, C, h, R, time-dependent or fixed in the constructor, positive definite covariances), record length, measured values (present or missing at the first time, present later: a missing one makes LTV.measure fail), number of particles and trajectories, choice of the stored particles by the smoother, EM run of any length", "an inequality between integrals for all parameters and records; needs the smoothing law of unbounded records",
  [LTV+":LTV.update", LTV+":LTV.measure", LTV+":LTV.sample_smooth", LTV+":LTV.eval_logp_x0", LTV+":LTV.eval_logp_y", LTV+":LTV.eval_logp_xnext", K+":KalmanFilter", K+":KalmanSmoother", PEI+":ParamEstBaseNumeric.maximize", PEI+":ParamEstInterface.eval_logp_y_fulltraj", PE+":ParamEstimation.maximize"],
  "log of the likelihood ratio as the log of a mean of an exponential under the smoothing law (Jensen); the exponent's mean is the difference of the two Q by C71; the objective's value by C67, along the whole record by induction")

P("C116", "the objective of particle EM, and what lowering it does to the likelihood",
  "Run a filter, smooth the record into m trajectories and evaluate fval of ParamEstBaseNumeric.maximize (the default terms of ParamEstInterface) at any parameter: it is exactly minus the average over the trajectories of log p(x_0) + sum of log p(y_t|x_t) over the measurements that are present + sum of log p(x_(t+1)|x_t,u_t). If the run used the parameter theta, the bootstrap filter (or the SIR filter with any proposal) and the smoother 'ancestor' or 'full' (after the bootstrap filter also 'mcmc', 'rs', 'rsas', 'mhips', 'mhips_reduced', and 'mhbp' with one trajectory), then over all draws the likelihood estimate of the run times (c + fval(theta')) has the expectation integral p_theta(x,y) (c - log p_theta'(x,y)) dx for every c above log p_theta'; and the likelihood p(y) grows from theta to theta' at least by the decrease of the expected objective: a theta' whose expected objective is not above that of theta has p_theta'(y) >= p_theta(y). For NonlinearGaussian models the terms are the Gaussian log-densities.",
  "every Markov model with transition densities and a bounded complete-data likelihood, pair of parameters, numbers of particles and trajectories, threshold, input and measurement history (with or without initial measurement); for the value: every trajectory returned by any smoother", "an expectation over all random draws of filter and smoother, and an inequality for every pair of models",
  [PEI+":ParamEstInterface.eval_logp_y_fulltraj", PEI+":ParamEstInterface.eval_logp_xnext_fulltraj", PEI+":ParamEstBaseNumeric.maximize", PE+":ParamEstimation.maximize", S+":SmoothTrajectory", NLG+":NonlinearGaussian", NLG+":NonlinearGaussianInitialGaussian.eval_logp_x0"],
  "shape of the smoother's result by induction, so that the loops of fval sum over paths; unbiasedness of the path averages (C92, C93, C97, C98, C122) with the function c - log p; change of measure along the path and 1 + log z <= z")
P("C117", "the parameter estimation script standard_nonlin_model.py",
  "The Model of test/manual/paramest/standard_nonlin_model.py, for any P0, Q, R: its filter and its logp_xnext use exactly the documented growth model x+ = x/2 + 25x/(1+x^2) + 8cos(1.2t) + N(0,Q), y = x^2/20 + N(0,R), and set_params sets Q = exp(theta0), R = exp(theta1). On a run with a measurement at every time its vectorised eval_logp_y_fulltraj and eval_logp_xnext_fulltraj make fval minus the average complete-data log-likelihood, the same value as with the default terms they override; as a function of theta it has exactly one minimiser, where exp(theta0) is the mean squared transition residual and exp(theta1) the mean squared measurement residual. With the script's call (bootstrap filter, first measurement, smoother 'mcmc') the likelihood p(y) grows from theta to theta' at least by the decrease of the expected objective. (Defects: if a measurement is missing, or the run starts without one, the overriding terms return nan for every parameter, where the defaults skip it; set_params does not update logp_xnext_max, so that for smoother 'rs' the value is a valid bound iff exp(theta0) is at least the Q given to the constructor.)",
  "all parameters, numbers of particles, trajectories and rounds, thresholds, data records of any length >= 1 step, trajectories", "identities and inequalities for all trajectories and parameters, and an expectation over all draws of a run",
  ["test/manual/paramest/standard_nonlin_model.py:Model", PEI+":ParamEstBaseNumeric.maximize", PE+":ParamEstimation.maximize", K+":lognormpdf_scalar", IF+":FFBSiRS", S+":bsi_mcmc"],
  "closed form of the vectorised sums; exact length of the data vectors after the last forward(); log z <= z - 1; C116 for 'mcmc'")
P("C118", "the PSAEM script standard_nonlin_model_psaem.py",
  "The Model of test/manual/paramest/standard_nonlin_model_psaem.py (the growth model of C117 with set_params taking the variances themselves): maximize_weighted returns Q = the weighted mean squared transition residual and R = the weighted mean squared measurement residual of the trajectories, whatever uninitialised memory its buffers start with. For weights of sum one and positive results this (Q,R) is the unique maximiser, over all positive variances, of the weighted complete-data log-likelihood, and the unique minimiser of the objective of the numerical search the script keeps beside it (maximize_weighted_numeric). In every run of ParamEstimationPSAEM with this model every M-step returns such a maximiser, and with default pruning the sequence of estimates is the stochastic approximation Q_k = (1-a_k) Q_(k-1) + a_k q_k, R_k = (1-a_k) R_(k-1) + a_k r_k, q_k and r_k being the mean squared residuals of the trajectories of iteration k. (Defects: a missing measurement makes the new R nan; with a single time step the new Q is nan.)",
  "all trajectories, weights, records of any length, step sizes in [0,1], pruning settings, callbacks and numbers of iterations", "identities and inequalities for all trajectories and all runs of an unbounded loop",
  ["test/manual/paramest/standard_nonlin_model_psaem.py:Model", PE+":ParamEstimationPSAEM.maximize", K+":lognormpdf_scalar"],
  "closed form of the array loops by induction; log z <= z - 1; the weights and the averaging recursion of C55")
P("C119", "the auxiliary particle filter is unbiased on Rao-Blackwellised models",
  "For the auxiliary particle filter on a model whose particles carry normal laws of the linear states (measure conditions them in place, so the likelihoods of a step cannot be evaluated again from the stored particles): the log-likelihoods measure returned in a successful step can be read off the stored weights, the offset and the ancestors together with the first-stage weights, exactly and for every model; and the likelihood estimate built from them, times the filtered mean of the conditional expectations of any non-negative function of nonlinear and linear states at the last step, has expectation exactly E[prod_t p(y_t|s_t) phi(s_T)] under the joint model, whatever the first-stage weights are; also for the shipped mixed linear/nonlinear Gaussian models with their own eval_1st_stage_weights, which never raise on valid particles.",
  "every such model, every first-stage weight function, N > 0, threshold, input and measurement sequence", "an expectation over all random draws of a run of unbounded length, for every first-stage weight function", [F+":AuxiliaryParticleFilter.forward", F+":ParticleTrajectory.forward", F+":ParticleTrajectory.measure", ML+":MixedNLGaussianSampled.eval_1st_stage_weights", ML+":MixedNLGaussianSampled.measure", ML+":MixedNLGaussianSampled.update"],
  "inversion of a successful step; the largest log-weight before the last division is 0, which fixes the constant the last normalisation drops; then the law of one step with and without resampling and induction over the run as in C103, with Bayes' rule for measure")
P("C120", "the script rbapf_test.py: particle filter and three auxiliary filters for the Lindsten-Schoen model",
  "For the model of test/manual/filtering/rbapf_test.py (e' = 0.85 e + b z + N(0, Q_b), z' = 0.9 z + N(0, Qz), y = e^2 + b z + N(0, R), b switching with the parity of time) run as Simulator.simulate runs it: the particle filter, the auxiliary filter with the model's own first stage, with the script's 'EKF' first stage and with any other first stage returning one number per particle (the 'UKF' class) all give a likelihood estimate that, times the filtered mean of E[phi(e, z) | particle], is unbiased for E[prod_t p(y_t | e_t, z_t) phi(e_T, z_T)] under the model of generate_dataset started from e = 0, z ~ N(0, 1). The 'EKF' weights are given in closed form. (Defect: their variance is not that of the linearised measurement: 0.81 (0.81 P + Qz) + (2e+1)^2 Qes + R instead of 0.81 P + Qz + 4 e^2 Qes + R at even times, and P after conditioning and prediction instead of P at odd times; this costs efficiency, not unbiasedness.)",
  "all positive variances Qz, R, Qes, Qeb, particle counts, thresholds, nonempty measurement sequences, test functions and first-stage functions", "an expectation over all random draws of a run of unbounded length; the wrong variance changes no expectation and so no averaged test", ["test/manual/filtering/rbapf_test.py:ParticleAPF", "test/manual/filtering/rbapf_test.py:ParticleAPF_EKF.eval_1st_stage_weights", "test/manual/filtering/rbapf_test.py:generate_dataset", F+":AuxiliaryParticleFilter.forward", ML+":MixedNLGaussianSampledInitialGaussian"],
  "the hooks describe the model of C72; C99 and C119 with the explicit law of a step; the conditional Kalman update with zero residual in closed form")
P("C121", "A particle filter or smoother run with a linear Gaussian (LTV) model gives exactly the Kalman filter and smoother, for any number of particles and any random numbers",
  "Take an LTV model (model.ltv) whose matrices, given at construction or by its get_..._dynamics hooks, describe a linear system with positive definite measurement noise. Run the plain particle filter with it (measure / forward on a trajectory, or Simulator.simulate): for every number N > 0 of particles, every resampling threshold, every record of measurements and all random numbers, no call fails; every particle stored for time i holds the mean and covariance of the exact filtering law; all weights of a time are equal; and the likelihood read off the stored weights and resampling flags is the exact likelihood. With positive definite process noise and a transition that is the same at all steps of the record, the smoothers 'full', 'ancestor' and (default options) 'mcmc' also succeed, return num_traj trajectories with equal weights, and all stored rows hold the mean and covariance of the exact smoothing law at their time. If the smoothed trajectories are then used in an EM step, a decrease of the (numerically evaluated) objective by d increases the log-likelihood read off the next filter run by at least d. Hence the script test/manual/filtering/ltv_test.py with its single particle plots the exact smoothing means, whatever its data. The answers do not depend on which calls the model object has served before (its stored Kalman filter is changed by every call).",
  "every LTV model and system it describes, every record length, inputs and measurements, every N and num_traj > 0, resampling threshold, buffer size and all random draws; both models of an EM step", "Every particle is a bundle of floats and every draw permutes them: only an induction over the run shows that equal particles stay equal through resampling, and exactness of the law is a statement about Gaussian integrals for all matrices and data.", [LTV+":LTV.update", LTV+":LTV.measure", LTV+":LTV.smooth", LTV+":LTV.sample_smooth", LTV+":LTV.logp_xnext", F+":ParticleFilter.forward", F+":ParticleTrajectory.forward", F+":ParticleTrajectory.measure", S+":SmoothTrajectory.perform_bsi", S+":bsi_full", S+":SmoothTrajectory.perform_ancestors_int", SIM+":Simulator.simulate", "test/manual/filtering/ltv_test.py"],
  "Invariant of a run: all particles of a time store the same mean and covariance, which is that of the deterministic recursion of C115; resampling and ancestor choice keep it (Traj/Track, Models/LtvSim); the backward pass keeps the invariant that all rows store the Rauch-Tung-Striebel result (Smooth/Track, Models/LtvSmoothRun); exactness from C71. The state of the model's Kalman filter object is eliminated by Models/LtvPure.")
P("C122", "Metropolis-Hastings backward proposing ('mhbp') with one trajectory estimates the exact smoothing law without bias",
  "Run the bootstrap filter (or the SIR filter with any proposal density) over a history, then call perform_smoothing(1, 'mhbp', {'R': R}). Over all random draws of filter and smoother, the likelihood estimate times any non-negative function phi of the returned trajectory has expectation E[prod_t p(y_t | x_t) phi(x_0, ..., x_T)] under the model: for every number of particles and of iterations per time, every proposal density that propose_smooth samples and logp_proposal evaluates, every resampling threshold, and histories that start with measure(y0) or with forward. Hence the iterations, which move the state of one time and its ancestor index jointly and then go to the previous time from the accepted ancestor, never pull the result away from the smoothing law. In particular this holds for NonlinearGaussianInitialGaussian models with their own propose_smooth and logp_proposal. (For more than one trajectory the ancestors are proposed by an unpermuted systematic sample and the property fails: C64.)",
  "every model with densities, history of two or more times, number of particles and iterations, proposal density, resampling threshold and function of the trajectory", "An equality of expectations over all draws, for every model and length of the history; each time step's Markov chain acts on (ancestor index, state) with weights that are themselves random.", [S+":SmoothTrajectory.perform_mhbp", S+":mc_step", NLG+":NonlinearGaussian.propose_smooth", NLG+":NonlinearGaussian.logp_proposal"],
  "detailed balance of one iteration on (index, state) for the mixture of the filter's weighted particles; induction over the times of the run with the later states integrated out; loop invariant for the code")
P("C123", "what the smoothing scripts estimate",
  "The classes of test/manual/smoothing/basic_model_mhips.py and basic_model_ffbp.py (NonlinearGaussianInitialGaussian, x' = x + v, y = x + e) with Q = 1, as in the scripts, and any P0, R: after the bootstrap filter and 'mhips' or 'mhips_reduced' with any number of passes and trajectories, or 'mhbp' with one trajectory and any number of iterations, the likelihood estimate times the average of psi(state at time t) over the trajectories has mean exp(ll) E[psi(X)], X ~ N(zs, Ps) with the zs, Ps of KalmanSmoother.smooth and the ll of the Kalman filter for the random walk with measurement variance sqrt(R) (R itself for the scripts' R = 1). The growth model of smoothing/standard_nonlin_model.py with Q = 1 and the smoothers 'mcmc', 'rs', 'ancestor', 'full': the average of any function of the trajectories, times the likelihood estimate, has as its mean the exact value for measurement variance sqrt(R). (Defects: logp_xnext of these classes is the log-density of the transition that update makes exactly if Q = 1; the scripts' R = 0.1 for the growth model means measurement variance sqrt(0.1); basic_model_ffbp.py asks for 20 trajectories, where the property fails: C64.)",
  "all P0, R, numbers of particles, trajectories, rounds, passes and iterations, thresholds, records of any length and test functions", "an expectation over all random draws of filter and smoother of unbounded length, compared to a closed form", ["test/manual/smoothing/basic_model_mhips.py:Model", "test/manual/smoothing/basic_model_ffbp.py:Model", "test/manual/smoothing/standard_nonlin_model.py:Model", S+":SmoothTrajectory.perform_mhbp", S+":SmoothTrajectory.perform_mhips_pass", NLG+":NonlinearGaussian.logp_xnext", K+":lognormpdf_scalar"],
  "C97, C98, C108 and C122 extended to scalar models with unit variance, where the standard deviation used by the scalar code is the variance; the model with constant R makes the same calls as the one with variance sqrt(R) (C110)")
P("C124", "the script hierarchical_model.py: the filter, and the bound used by its rejection sampler",
  "The Model of test/manual/filtering/hierarchical_model.py (xi' = xi + v, z turned by the angle xi plus noise, y measures xi and the first coordinate of the turned z): for any covariances, number of particles, threshold and sequence of measurements, run as Simulator.simulate runs it (prediction first), the likelihood estimate times the filtered mean of E[phi(xi, z) | particle] is an unbiased estimate of E[prod p(y_t | xi_t, z_t) phi(xi_T, z_T)] under the documented model. (Defect: with the script's constants and a measurement at each of up to 800 times the filter never fails, and at every time after the first logp_xnext_max of the stored particles, used by the script's smoother 'rsas' to accept ancestors, is smaller than logp_xnext of some next state for one of these particles; only at time zero it is an upper bound.)",
  "all covariances, numbers of particles, resampling thresholds, inputs, measurement sequences and test functions; for the bound all random numbers and every time of every run of up to 800 steps", "The first part is about the mean over all random numbers, the second about every particle the filter can reach for any noise and measurements; a test sees single runs.", ["test/manual/filtering/hierarchical_model.py:Model", HI+":HierarchicalRSBase.logp_xnext_max", HI+":HierarchicalBase.measure"],
  "Model the overridden methods of the script (Examples/HierScript.lean) as hooks of the hierarchical class. The first part is C99 for hierarchical models with the kernel of the documented model. Second part: an invariant of the run: covariances are at most 1 + 0.01 k in every direction, and after a measurement at most 0.1 in the measured direction, which the next step turns onto an axis, so that the determinant of the predicted covariance is below one and log det is below -log det / 2.")
P("C125", "the script mlnlg_model.py: the Rao-Blackwellized filter agrees in the mean with the Kalman filter for the joint state",
  "The Model of test/manual/smoothing/mlnlg_model.py (position xi as nonlinear, velocity z as linear state): for any covariances, number of particles, threshold, input and sequence of measurements, with or without a measurement at time zero, the Kalman filter of utils/kalman.py with transition [[1, 1], [0, 1]] and a measurement of xi succeeds on the same record, the likelihood estimate of the Rao-Blackwellized particle filter has as its mean the likelihood exp(ll) that the Kalman filter returns, and times the filtered mean of E[phi(xi, z) | particle] it has mean exp(ll) E[phi(X)], X ~ N(z, P) for the returned z and P. (Defects: the noise covariance for which this holds is [[Qxi, Qxiz], [Qxiz, Qz + Qxiz^2/Qxi]], not the [[Qxi, Qxiz], [Qxiz, Qz]] of the script's docstring and generate_dataset: for Qxiz nonzero the filter treats Qz as the covariance of the velocity noise given the position noise; and the measurement is xi + e, not xi + z + e as the docstring has it.) The same holds for every mixed linear/nonlinear model with a scalar nonlinear state whose joint state follows a linear Gaussian model.",
  "all covariances with Qxi, R > 0 and the others non-negative, numbers of particles, resampling thresholds, inputs, measurement sequences and test functions; in the general form all such models", "It is about the mean over all random numbers for every record, compared with a different algorithm; a test sees single runs with Monte Carlo error.", ["test/manual/smoothing/mlnlg_model.py:Model", ML+":MixedNLGaussianSampled.sample_process_noise", ML+":MixedNLGaussianSampled.calc_cond_dynamics", K+":KalmanFilter.measure_full"],
  "Model the overridden methods of the script as hooks of the mixed class (Examples/MixedScript.lean). An integral along the paths of a chain equals the one along its image when the image is again a chain (Models/MlLinear.lean); with C99 for mixed models and C71 for the Kalman filter this gives the general form, and the script's joint law is computed from affine images of normal laws.")
P("C126", "the script test_lsb.py: filter and marginalised backward simulator",
  "ParticleLSB of test/manual/smoothing/test_lsb.py (a scalar nonlinear state driven by a four-dimensional linear one; measurement 0.05 xi^2 plus noise; the constructor is given neither C nor h): for any number of particles, threshold and nonempty record, prediction first as Simulator.simulate does, the likelihood estimate times the filtered mean of E[phi(xi, z) | particle] is an unbiased estimate of E[prod p(y_t | xi_t) phi(xi_T, z_T)] for the process simulated by generate_dataset; and for every set of particles and trajectories built so far, with measurements present or missing, the backward pass succeeds and the backward probabilities computed from logp_xnext_full are w_i p(future xi and y | particle i), normalised.",
  "all numbers of particles, resampling thresholds, inputs, measurement sequences and test functions; all sets of particles with covariance matrices, all sets of trajectories of any length, all singular value decompositions", "The first part is about the mean over all random numbers; the second is an identity between computed numbers and integrals over all linear states for every history.", ["test/manual/smoothing/test_lsb.py:ParticleLSB", "test/manual/smoothing/test_lsb.py:generate_dataset", ML+":MixedNLGaussianMarginalized.logp_xnext_full", ML+":MixedNLGaussianMarginalized.sample_smooth"],
  "Model the overridden methods as hooks of the mixed class (Examples/LsbScript.lean); the filter is C99, the backward simulator C85, both generalised to models that give h and no C, and for which nothing is given when the measurement is missing.")
P("C127", "the script test_ls2.py: parameters, filter and gradient",
  "ParticleLS2 of test/manual/paramest/test_ls2.py (five unknown parameters): set_params leaves the object the constructor would have built with the new parameters; after any sequence of set_params, for any number of particles, threshold and nonempty record, prediction first as Simulator.simulate does, the likelihood estimate times the filtered mean of E[phi(xi, z) | particle] is an unbiased estimate of E[prod p(y_t | xi_t, z_t) phi(xi_T, z_T)] for the transitions of generate_dataset with the last parameters and the measurement noise given to the constructor; and eval_logp_xnext_val_grad, fed with the matrices of get_pred_dynamics_grad, returns the expected log-density of the next states (up to its constant) and its derivative in each of the five parameters. The function the maximisation step hands to the optimiser succeeds for all parameters and smoothed trajectories; its value is minus the average over the trajectories of log p(xi_0) plus the expected log-densities of all transitions and of all measurements present, and its gradient is the gradient of that value.",
  "all parameter values and sequences of set_params, numbers of particles, resampling thresholds, inputs, measurement sequences and test functions; all sets of smoothed trajectories", "Hand-written derivatives have to agree with the model for every parameter value and trajectory; unbiasedness is about the mean over all random numbers.", ["test/manual/paramest/test_ls2.py:ParticleLS2", "test/manual/paramest/test_ls2.py:generate_dataset", ML+":MixedNLGaussianSampled.set_dynamics", ML+":MixedNLGaussianSampled.eval_logp_xnext_val_grad"],
  "Model the overridden methods as hooks of the mixed class (Examples/Ls2Script.lean); the filter is C99 and the gradient C83, with the derivatives of all entries checked.")

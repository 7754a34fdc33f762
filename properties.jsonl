{"id": "C01", "title": "sample returns n valid indices", "statement": "sample(w, n) with non-negative weights of positive sum never raises, returns exactly n indices and each is a valid position of w; an empty weight vector (and nothing else) raises IndexError.", "quantifier": "every weight vector (any length), every n, every uniform draw r in [0,1)", "why_tests_cant": "depends on a continuous random draw and on arbitrary weight vectors; boundary draws have probability zero in a test", "anchors": ["pyparticleest/filter.py:sample"]}
{"id": "C02", "title": "systematic sampling has deviation below one", "statement": "The number of times sample(w, n) returns index j differs from n*w_j/sum(w) by at most 1, and by strictly less than 1 unless the uniform draw is exactly 0.", "quantifier": "every weight vector, n, j and draw", "why_tests_cant": "a test samples draws; the bound must hold for all of them", "anchors": ["pyparticleest/filter.py:sample"]}
{"id": "C03", "title": "systematic sampling is unbiased", "statement": "Averaged over the uniform draw, sample(w, n) returns index j exactly n*w_j/sum(w) times; in particular sample(w, 1) returns j with probability w_j/sum(w).", "quantifier": "every weight vector, n, j", "why_tests_cant": "an expectation over a continuous random variable cannot be computed by running the code", "anchors": ["pyparticleest/filter.py:sample"]}
{"id": "C04", "title": "sample inverts the cumulative weights", "statement": "The i-th returned index is a generalised inverse of the cumulative weight function at (i+r)/n; the indices are in non-decreasing order and depend only on the ratios of the weights.", "quantifier": "every weight vector, n, draw, positive scale", "why_tests_cant": "universally quantified over reals", "anchors": ["pyparticleest/filter.py:sample"]}
{"id": "C05", "title": "impossible particles are never drawn", "statement": "An index with weight zero is returned by sample only if the uniform draw is exactly 0 and the index is 0; for every draw r>0 impossible particles are never drawn. (Defect: at r=0 a leading zero-weight particle is drawn.)", "quantifier": "every weight vector, n, draw", "why_tests_cant": "the failing draw r=0 has probability 2^-53 in a test", "anchors": ["pyparticleest/filter.py:sample"]}
{"id": "C06", "title": "effective sample size is between 1 and N", "statement": "calc_Neff() of a non-empty approximation lies in [1, N], equals N exactly when all weights are equal, and does not change when a constant is added to all log-weights.", "quantifier": "every non-empty log-weight vector", "why_tests_cant": "inequality over all real vectors", "anchors": ["pyparticleest/filter.py:ParticleApproximation.calc_Neff"]}
{"id": "C07", "title": "resampling yields an equally weighted copy of existing particles", "statement": "pa.resample(model, N) leaves an approximation with N particles, all log-weights equal to -log N, offset 0, whose i-th particle is the old particle with the returned ancestor index; every returned index is valid and counts follow C02.", "quantifier": "every approximation with at least one particle, every N>0, every draw", "why_tests_cant": "random draws and arbitrary particle types", "anchors": ["pyparticleest/filter.py:ParticleApproximation.resample", "pyparticleest/interfaces.py:ParticleFiltering.copy_ind"]}
{"id": "C08", "title": "find_best_particles returns the n lightest particles", "statement": "find_best_particles(n) with n <= N returns n indices whose weights are at most those of all other particles, i.e. the lightest ones; n > N raises IndexError. (Defect: the name promises the heaviest; argsort is ascending.)", "quantifier": "every approximation and n <= N", "why_tests_cant": "needs all weight vectors", "anchors": ["pyparticleest/filter.py:ParticleApproximation.find_best_particles"]}
{"id": "C09", "title": "a new approximation is uniform", "statement": "ParticleApproximation(particles) gives every particle the log-weight -log N so the weights sum to one, stores a copy of the particles and offset 0; given log-weights are stored as they are.", "quantifier": "every non-empty particle list", "why_tests_cant": "all sizes", "anchors": ["pyparticleest/filter.py:ParticleApproximation.__init__"]}
{"id": "C10", "title": "measurement update implements Bayes' rule and keeps the largest log-weight at 0", "statement": "After ParticleFilter.measure, w_i + w_offset has grown by exactly the model's log-likelihood of particle i, and the largest log-weight is 0, so the normalised weights are proportional to old weight times likelihood.", "quantifier": "every approximation, model and measurement", "why_tests_cant": "all models and weights", "anchors": ["pyparticleest/filter.py:ParticleFilter.measure", "pyparticleest/filter.py:SIR.measure"]}
{"id": "C11", "title": "resampling happens exactly when N_eff < res*N", "statement": "forward() of pf, apf, sir and pfy resamples iff the filter's res is positive and N_eff < res*N; res<=0 never resamples, res>1 always does, and the returned flag reports it; without resampling the ancestors are 0..N-1.", "quantifier": "every trajectory, model, res", "why_tests_cant": "threshold behaviour over all reals", "anchors": ["pyparticleest/filter.py:ParticleFilter.forward", "pyparticleest/filter.py:SIR.forward", "pyparticleest/filter.py:FFPropY.forward", "pyparticleest/filter.py:AuxiliaryParticleFilter.forward"]}
{"id": "C12", "title": "forward keeps the approximation well formed", "statement": "ParticleFilter.forward on a well-formed trajectory returns N particles, N weights with maximum 0, N ancestors all below N, and raises nothing, provided the model callbacks return arrays of the right length.", "quantifier": "every model, trajectory, draw, noise", "why_tests_cant": "all executions", "anchors": ["pyparticleest/filter.py:ParticleFilter.forward", "pyparticleest/filter.py:ParticleFilter.update"]}
{"id": "C13", "title": "bootstrap weights are the product of likelihoods", "statement": "With resampling disabled, after any number of steps the normalised weight of particle i is proportional to the product over time of the likelihoods along its own path (sequential importance sampling).", "quantifier": "every number of steps, every model", "why_tests_cant": "induction over unbounded time", "anchors": ["pyparticleest/filter.py:ParticleFilter.forward", "pyparticleest/filter.py:ParticleTrajectory.forward"]}
{"id": "C14", "title": "stored history is never changed by later steps", "statement": "For every filter ('PF', 'APF', 'PFY', 'SIR', 'CPF', 'CPFAS', 'CPFYAS', 'CSIRAS'): once forward() has returned, no later forward() changes the particles, weights or ancestors stored for any earlier time, nor the conditional trajectory, even if it raises; measure() changes only the last step, and a measure() that raises leaves its particles, weights and ancestors as they were. (Defect: it may already have changed w_offset of that step.)", "quantifier": "every sequence of forward/measure calls with every exception caught, every filter name, every model that only writes the array it is given", "why_tests_cant": "aliasing bugs need all histories", "anchors": ["pyparticleest/filter.py:ParticleTrajectory.forward", "pyparticleest/filter.py:ParticleTrajectory.measure", "pyparticleest/filter.py:ParticleApproximation.__init__"]}
{"id": "C15", "title": "conditional particle filter keeps the reference trajectory", "statement": "In CPF the last particle at every time equals the conditional trajectory and its ancestor is the last particle, so tracing back the last particle yields the conditional trajectory.", "quantifier": "every run length, model, draw", "why_tests_cant": "induction over time", "anchors": ["pyparticleest/filter.py:CPF.create_initial_estimate", "pyparticleest/filter.py:CPF.forward"]}
{"id": "C16", "title": "ancestor-sampling filters keep the reference state", "statement": "In CPFAS (and CPFYAS/CSIRAS) the last particle at every time equals the conditional trajectory's state and its ancestor index is valid, except that CSIRAS does not insert the reference state at time 0. (Defect: CSIRAS initial step.)", "quantifier": "every run length, model, draw", "why_tests_cant": "induction over time", "anchors": ["pyparticleest/filter.py:CPFAS.forward", "pyparticleest/filter.py:CSIRAS.forward", "pyparticleest/filter.py:CPFYAS.forward"]}
{"id": "C17", "title": "auxiliary particle filter weights are unbiased by the look-ahead", "statement": "If AuxiliaryParticleFilter does not resample, its weights equal (up to a common constant) those of ParticleFilter; if it resamples, they equal likelihood divided by first-stage likelihood. With no measurement at t+1 every call raises UnboundLocalError. (Defect: it should behave as ParticleFilter.)", "quantifier": "every model, weights, draw", "why_tests_cant": "all weights", "anchors": ["pyparticleest/filter.py:AuxiliaryParticleFilter.forward"]}
{"id": "C18", "title": "SIR importance weights", "statement": "SIR.forward multiplies each weight by p(y|x')p(x'|x)/q(x'|x,y) up to a common constant and returns the proposed particles.", "quantifier": "every model and weights", "why_tests_cant": "all weights", "anchors": ["pyparticleest/filter.py:SIR.forward"]}
{"id": "C19", "title": "proposal-from-measurement filter uses the current measurement", "statement": "FFPropY.forward on a trajectory created without preallocation proposes from the measurement and time of this forward() call; on a trajectory preallocated with T >= 3 the second step proposes from the empty last slot (None, time T-1) instead. (Defect.)", "quantifier": "every T and history", "why_tests_cant": "depends on buffer layout over all histories", "anchors": ["pyparticleest/filter.py:FFPropY.forward", "pyparticleest/filter.py:ParticleTrajectory.forward"]}
{"id": "C20", "title": "weights become NaN only when every particle is impossible, and then for ever", "statement": "For every old log-weights without +inf and every log-likelihoods (IEEE special values included) measure() gives either only NaN weights or none; NaN iff a NaN or +inf was supplied or no particle has both a finite old weight and a finite log-likelihood; otherwise it is Bayes' rule with -inf as weight zero and the maximum is 0; impossible particles are not resampled. (Defect: once the weights are NaN the filter neither raises nor resamples: they stay NaN for ever, and every later sampling by these weights returns particle 0.)", "quantifier": "every vector of extended log-weights, every run length, threshold and draw", "why_tests_cant": "floating special values over all vectors and histories", "anchors": ["pyparticleest/filter.py:ParticleFilter.measure", "pyparticleest/filter.py:ParticleFilter.forward", "pyparticleest/filter.py:ParticleApproximation.calc_Neff", "pyparticleest/filter.py:ParticleApproximation.resample", "pyparticleest/filter.py:sample"]}
{"id": "C21", "title": "trajectory bookkeeping never runs out of buffer", "statement": "Any sequence of forward/measure calls on a ParticleTrajectory (with or without preallocated T) never raises IndexError from the u/y/t buffers; len(traj) grows by one per forward (plus one initial step), t[k]=k, and u[k], y[k] hold the values passed at those steps. For pf, apf and sir this includes histories in which the model raises at any calls and the caller catches the exceptions: no later call raises IndexError and every stored step keeps N particles, N weights and N ancestors.", "quantifier": "every sequence of calls, every T", "why_tests_cant": "unbounded histories", "anchors": ["pyparticleest/filter.py:ParticleTrajectory.__init__", "pyparticleest/filter.py:ParticleTrajectory.forward", "pyparticleest/filter.py:ParticleTrajectory.measure"]}
{"id": "C22", "title": "a failing step keeps the stored steps but advances the clock", "statement": "If the model raises during forward(), the stored steps are untouched, but the time index has advanced by one and u/y hold the failed data, so a successful retry stores its step one position before its own measurement; the conditional filters cpf, cpfas, cpfyas and csiras never recover: after the failure and any further calls every forward() raises, for cpf and cpfyas IndexError. (Defect: not failure-atomic.)", "quantifier": "every history and every exception point", "why_tests_cant": "needs fault injection at every point", "anchors": ["pyparticleest/filter.py:ParticleTrajectory.forward"]}
{"id": "C23", "title": "simulate aligns inputs and measurements", "statement": "simulate() with meas_first=False produces T+1 steps with y[0] missing and y[k+1]=Y[k], u[k]=U[k]; with meas_first=True it produces T steps with y[k]=Y[k], u[k]=U[k]; u=None means no input everywhere.", "quantifier": "every data set length and content", "why_tests_cant": "all lengths", "anchors": ["pyparticleest/simulator.py:Simulator.simulate", "pyparticleest/simulator.py:Simulator.__init__"]}
{"id": "C24", "title": "resampling count", "statement": "simulate() returns exactly the number of time steps whose forward() resampled, which is at most the number of measurements; for the bootstrap filter these are the steps whose stored weights had N_eff < res*N.", "quantifier": "every data set", "why_tests_cant": "all lengths", "anchors": ["pyparticleest/simulator.py:Simulator.simulate"]}
{"id": "C25", "title": "filter name dispatch", "statement": "The filter name is case-insensitive; the eight documented names select their filter, every other name raises ValueError; conditional filters need filter_options['cond_traj'] and otherwise fail with KeyError (TypeError when filter_options is None, as Simulator passes by default); t0 other than 0 is rejected.", "quantifier": "every string", "why_tests_cant": "all strings", "anchors": ["pyparticleest/filter.py:ParticleTrajectory.__init__"]}
{"id": "C26", "title": "smoother option defaults", "statement": "perform_smoothing supplies a default for every option of each method and each user option overrides its default separately: R=30 for mcmc, mhips and mhbp, R=int(N/10) and the computed bounds for rs, the computed bounds and the value 1 for every parameter of rsas; 'full' uses none. (Defects: mhips_reduced is missing from the table and runs 10 iterations; for N<10 the limit int(N/10) is 0 and 'rs' silently returns exactly what 'full' returns.)", "quantifier": "every method string, N and option dictionary", "why_tests_cant": "all strings/dictionaries", "anchors": ["pyparticleest/filter.py:ParticleTrajectory.perform_smoothing"]}
{"id": "C27", "title": "filtered estimates are a probability-weighted mean", "statement": "get_filtered_estimates returns non-negative weights summing to one per time step, proportional to exp(log-weight), get_filtered_mean is the weighted mean with these weights and lies componentwise between the smallest and largest particle, and get_smoothed_mean is the plain average over the trajectories.", "quantifier": "every run", "why_tests_cant": "all weights", "anchors": ["pyparticleest/simulator.py:Simulator.get_filtered_estimates", "pyparticleest/simulator.py:Simulator.get_filtered_mean", "pyparticleest/simulator.py:Simulator.get_smoothed_mean"]}
{"id": "C28", "title": "ancestor smoother returns genealogies", "statement": "method='ancestor' returns trajectories whose state at time t is the filter particle reached by following the stored ancestor indices back from a particle drawn at the final time.", "quantifier": "every run length, M and draw", "why_tests_cant": "unbounded depth", "anchors": ["pyparticleest/smoother.py:SmoothTrajectory.calculate_ancestors", "pyparticleest/smoother.py:SmoothTrajectory.perform_ancestors_int"]}
{"id": "C29", "title": "backward simulation draws from the right categorical distribution", "statement": "bsi_full returns for each trajectory a valid index, drawn with probability proportional to w_i*p(x_{t+1}|x_i); the shift by the maximum does not matter.", "quantifier": "every approximation, model and M", "why_tests_cant": "distributional claim", "anchors": ["pyparticleest/smoother.py:bsi_full"]}
{"id": "C30", "title": "rejection sampling backward simulation is exact", "statement": "For every attempt limit and draw bsi_rs succeeds and each entry of its result is a valid index that was either accepted by the rejection test or produced by bsi_full; if log p <= maxpdf, entry j is particle i with probability exactly w_i p(future_j|x_i)/sum_l w_l p(future_j|x_l), the distribution of bsi_full, whatever the attempt limit, although all trajectories share one systematic sample per attempt; a limit of 0 gives bsi_full.", "quantifier": "every approximation, model, attempt limit, draws", "why_tests_cant": "random loop with unbounded attempts", "anchors": ["pyparticleest/smoother.py:bsi_rs"]}
{"id": "C31", "title": "adaptive rejection smoother terminates", "statement": "in Python 3 the stopping rule of bsi_rsas is the package's own Kalman filter applied to the number of accepted proposals, with a prediction that shrinks the rate by the accepted fraction (Defect: in Python 2 that fraction is an integer division, zero as long as something was rejected, so the prediction leaves the rate as it is); in both, bsi_rsas terminates for every random stream, within a number of rounds fixed by the options, N and M, if sw != 0, P1>=0, P1>0 or sv != 0, and ratio > 0; every entry is written and valid and, with a valid bound, exactly distributed as in bsi_full. (Defect: with P1 = 0 and sv = 0 it may loop forever.)", "quantifier": "every infinite random stream", "why_tests_cant": "non-termination cannot be tested", "anchors": ["pyparticleest/smoother.py:bsi_rsas"]}
{"id": "C32", "title": "MCMC backward simulation leaves the target invariant", "statement": "Every iteration of bsi_mcmc moves an entry to its proposed particle iff its uniform is below min(1, p(future|new)/p(future|old)); each entry satisfies detailed balance w.r.t. w_i p(future_j|x_i) and that distribution is invariant under any number of iterations; R=0 returns the filter ancestors; returned indices are valid.", "quantifier": "every approximation, model, R, draws", "why_tests_cant": "distributional", "anchors": ["pyparticleest/smoother.py:bsi_mcmc"]}
{"id": "C33", "title": "smoothed states are filter particles", "statement": "For models whose sample_smooth returns its input, every smoothed trajectory produced by 'full', 'rs', 'rsas', 'mcmc' or 'ancestor' consists of T states each being one of the filter particles of that time, and there are exactly M equally weighted trajectories, for every M >= 1 (for other models: each state is made by sample_smooth from such a particle). M = 0 raises ValueError.", "quantifier": "every run", "why_tests_cant": "all runs", "anchors": ["pyparticleest/smoother.py:SmoothTrajectory.perform_bsi"]}
{"id": "C34", "title": "Metropolis-Hastings smoothers work on every run of at least two steps", "statement": "For every run of at least two steps, every model answering its callbacks, every number of iterations and every draw, mhbp and every pass of mhips (mhips_reduced if the last step has a measurement) succeed and return one step of M trajectories per time. (Defects: for a single step mhbp raises UnboundLocalError and mhips IndexError, whatever the model; steps returned by mhbp carry ancestors=None.)", "quantifier": "every length", "why_tests_cant": "all lengths", "anchors": ["pyparticleest/smoother.py:SmoothTrajectory.perform_mhbp"]}
{"id": "C35", "title": "Metropolis-Hastings smoothing step satisfies detailed balance", "statement": "mc_step replaces the state of trajectory j iff its uniform is below the Metropolis-Hastings ratio of transition, likelihood, future and proposal densities, so it accepts with probability min(1, ratio), satisfies detailed balance and leaves the smoothing density of (state, ancestor) invariant.", "quantifier": "every model densities", "why_tests_cant": "distributional", "anchors": ["pyparticleest/smoother.py:mc_step"]}
{"id": "C36", "title": "reduced acceptance ratio", "statement": "With a proposal equal to the prior dynamics, the reduced step (mhips_reduced) returns exactly what the full one returns, provided there is a measurement or a future. (Defect: with neither, it raises TypeError, always.)", "quantifier": "every model densities", "why_tests_cant": "all reals", "anchors": ["pyparticleest/smoother.py:mc_step"]}
{"id": "C37", "title": "smoother method dispatch and post-processing", "statement": "Unknown smoother names raise ValueError; names are case-sensitive; the model's post_smoothing hook is applied to the result exactly once for full, mcmc, rs, rsas, mhips and mhips_reduced. (Defect: twice for 'ancestor' and 'mhbp'.)", "quantifier": "every method string", "why_tests_cant": "all strings", "anchors": ["pyparticleest/smoother.py:SmoothTrajectory.__init__"]}
{"id": "C38", "title": "Kalman prediction preserves covariance validity", "statement": "predict_full returns mean A z + f and covariance A P A' + Q; these are the moments of A x + f + v for x ~ N(z,P), v ~ N(0,Q) (the law of the predicted state is normal with exactly these moments), and the covariance stays symmetric PSD, also for singular P and Q.", "quantifier": "every dimension and matrices", "why_tests_cant": "all matrices", "anchors": ["pyparticleest/utils/kalman.py:KalmanFilter.predict_full"]}
{"id": "C39", "title": "Kalman measurement update is Bayes' rule", "statement": "measure_full succeeds iff the innovation covariance is positive definite (else LinAlgError before writing anything); the updated N(z,P) is the conditional law of the state given the measurement, the covariance is symmetric PSD, never larger than the prior, equal to (P^-1 + C'R^-1C)^-1 when P and R are invertible, and the returned value is the log density of the measurement. Without C the state is unchanged.", "quantifier": "every dimension, prior (also singular) and measurement", "why_tests_cant": "all matrices", "anchors": ["pyparticleest/utils/kalman.py:KalmanFilter.measure_full"]}
{"id": "C40", "title": "scalar and matrix measurement updates agree", "statement": "For a one-dimensional measurement with positive innovation variance measure_full_scalar and measure_full produce the same mean, covariance and log-likelihood; otherwise measure_full raises LinAlgError and measure_full_scalar ValueError. (Defect: the latter after overwriting z and P.)", "quantifier": "every state dimension", "why_tests_cant": "all matrices", "anchors": ["pyparticleest/utils/kalman.py:KalmanFilter.measure_full_scalar"]}
{"id": "C41", "title": "RTS smoother step", "statement": "KalmanSmoother.smooth is exact: combining the filter's conditional law of x given x+ with any N(z_next,P_next) for x+ gives a normal pair whose moments are the returned mean, covariance (PSD) and lag-one cross covariance; if the next smoothed moments equal the predicted ones the filtered moments are returned unchanged; LinAlgError iff the predicted covariance is singular.", "quantifier": "every dimension and matrices", "why_tests_cant": "all matrices", "anchors": ["pyparticleest/utils/kalman.py:KalmanSmoother.smooth"]}
{"id": "C42", "title": "Gaussian log-density helpers agree", "statement": "lognormpdf, lognormpdf_vec, lognormpdf_cho(_vec) (given cho_factor's output) and lognormpdf_scalar return the logarithm of the Lebesgue density of the normal law with the given positive definite covariance / variance; a singular matrix or non-positive variance raises. (Defect: an indefinite matrix is not detected by lognormpdf.)", "quantifier": "every dimension and matrices", "why_tests_cant": "all matrices", "anchors": ["pyparticleest/utils/kalman.py:lognormpdf", "pyparticleest/utils/kalman.py:lognormpdf_vec", "pyparticleest/utils/kalman.py:lognormpdf_cho", "pyparticleest/utils/kalman.py:lognormpdf_cho_vec", "pyparticleest/utils/kalman.py:lognormpdf_scalar"]}
{"id": "C43", "title": "KalmanFilter.set_dynamics keeps unspecified matrices", "statement": "After construction and any sequence of set_dynamics calls each matrix is the one given most recently; a matrix never given is None (f_k zero), and predict uses exactly these, raising AttributeError without A and TypeError without Q. The same holds of the constant matrices of a mixed linear/nonlinear model and its set_dynamics. (Defect: time_update always raises TypeError.)", "quantifier": "every history of calls", "why_tests_cant": "all histories", "anchors": ["pyparticleest/utils/kalman.py:KalmanFilter.set_dynamics", "pyparticleest/utils/kalman.py:KalmanFilter.predict", "pyparticleest/utils/kalman.py:KalmanFilter.time_update", "pyparticleest/models/mlnlg.py:MixedNLGaussianSampled.set_dynamics", "pyparticleest/models/rbpf.py:RBPFBase.set_dynamics"]}
{"id": "C44", "title": "linear time-varying model stores and returns its statistics", "statement": "LTV set_states followed by get_states returns the same mean and covariance for every particle (and set_states succeeds exactly when the rows are long enough and the lists match); create_initial_estimate, update and measure act on every particle by the Kalman filter's own step and store its result.", "quantifier": "every dimension, number of particles and contents", "why_tests_cant": "all dimensions", "anchors": ["pyparticleest/models/ltv.py:LTV.set_states", "pyparticleest/models/ltv.py:LTV.get_states", "pyparticleest/models/ltv.py:LTV.create_initial_estimate", "pyparticleest/models/ltv.py:LTV.update", "pyparticleest/models/ltv.py:LTV.measure"]}
{"id": "C45", "title": "LTV smoothing takes the dynamics from particle, input and time index 0", "statement": "LTV.sample_smooth reads the input and the time stamp at index 0 of the slices it is given, whatever the particle; the smoothed statistics are the right ones when the dynamics do not depend on input and time. (Defect: with time-varying dynamics the result differs from the smoother of the current time.)", "quantifier": "every LTV model, number of particles and stored history", "why_tests_cant": "needs time-varying dynamics", "anchors": ["pyparticleest/models/ltv.py:LTV.sample_smooth"]}
{"id": "C46", "title": "nonlinear Gaussian model evaluates Gaussian densities", "statement": "NonlinearGaussian.logp_xnext and measure return, for every particle, the log density of N(f(x), Q(x)) resp. N(g(x), R(x)), with the covariances last given by the constructor, set_Q, set_R or the hooks. (Defect: with a constant covariance in dimension one the standard deviation is used as variance, which is the stated density only for variance 1.)", "quantifier": "every model, particle set, state pair, measurement and history of set_Q/set_R calls", "why_tests_cant": "all reals and matrices", "anchors": ["pyparticleest/models/nlg.py:NonlinearGaussian.logp_xnext", "pyparticleest/models/nlg.py:NonlinearGaussian.measure", "pyparticleest/models/nlg.py:NonlinearGaussian.set_Q", "pyparticleest/models/nlg.py:NonlinearGaussian.set_R"]}
{"id": "C47", "title": "nonlinear Gaussian model samples from its laws", "statement": "sample_process_noise followed by update draws the next states independently from N(f(x), Q(x)); eval_logp_x0 is the log density of N(x0, Px0) (0 / -inf when Px0 = 0); the constructor keeps the given x0 and Px0, zero for a missing one, ValueError when neither they nor lxi are given. (Defect: create_initial_estimate uses the raw, untransposed Cholesky array, so the particles have mean x0 but covariance Px0 exactly when Px0 is diagonal; otherwise their total variance exceeds that of Px0 by the sum of the squared entries below the diagonal.)", "quantifier": "every covariance, number of particles and dimension", "why_tests_cant": "laws over all draws", "anchors": ["pyparticleest/models/nlg.py:NonlinearGaussianInitialGaussian.create_initial_estimate", "pyparticleest/models/nlg.py:NonlinearGaussian.sample_process_noise", "pyparticleest/models/nlg.py:NonlinearGaussian.update", "pyparticleest/models/nlg.py:NonlinearGaussianInitialGaussian.eval_logp_x0"]}
{"id": "C48", "title": "maximum transition density is an upper bound", "statement": "NonlinearGaussian.logp_xnext_max is at least every value logp_xnext can return for the given particles, and is attained, which rejection smoothing needs. (Defect: with a constant scalar variance q it is an upper bound exactly when q <= 1.)", "quantifier": "every particle set and next state", "why_tests_cant": "all reals", "anchors": ["pyparticleest/models/nlg.py:NonlinearGaussian.logp_xnext_max", "pyparticleest/models/nlg.py:NonlinearGaussian.logp_xnext"]}
{"id": "C49", "title": "Rao-Blackwellised particles store state and statistics independently", "statement": "Rao-Blackwellised set_states/get_states round-trip exactly, set_Mz/get_Mz likewise, and each of the two writes leaves what the other one stores unchanged.", "quantifier": "every dimension", "why_tests_cant": "all dimensions", "anchors": ["pyparticleest/models/rbpf.py:RBPSBase.set_states", "pyparticleest/models/rbpf.py:RBPSBase.get_states", "pyparticleest/models/rbpf.py:RBPSBase.set_Mz", "pyparticleest/models/rbpf.py:RBPSBase.get_Mz"]}
{"id": "C50", "title": "conditional linear dynamics given the nonlinear state", "statement": "calc_cond_dynamics returns for every particle the matrix and offset of the conditional law of the next linear state given the next nonlinear state, also for correlated noises. (Defect: the covariance it returns is Qz instead of Qz - Qxiz' Qxi^-1 Qxiz; it is right exactly when the noises are uncorrelated, otherwise too large.)", "quantifier": "every particle array, every noise covariance, methods overridden or not", "why_tests_cant": "all matrices", "anchors": ["pyparticleest/models/mlnlg.py:MixedNLGaussianSampled.calc_cond_dynamics"]}
{"id": "C51", "title": "EM gradient helpers are the derivatives of the objective", "statement": "compute_logprod_derivative is the derivative of log det Q + tr(Q^-1 B); compute_l2 is the second moment of the prediction error and compute_l2_grad_f / compute_l2_grad_A give its derivative.", "quantifier": "every differentiable family of matrices", "why_tests_cant": "all matrices", "anchors": ["pyparticleest/utils/mlnlg_compute.py:compute_logprod_derivative", "pyparticleest/utils/mlnlg_compute.py:compute_l2_grad_f", "pyparticleest/utils/mlnlg_compute.py:compute_l2_grad_A", "pyparticleest/utils/mlnlg_compute.py:compute_l2"]}
{"id": "C52", "title": "hierarchical backward sampling", "statement": "HierarchicalBase.sample_smooth with one trajectory draws the linear state from its exact law given the particle and the next linear state (the particle's own law at the last step). (Defect: with several trajectories every row carries the nonlinear state of the first particle, and the linear state of trajectory j is drawn from the first particle's law conditioned on the next linear states of all trajectories up to j.)", "quantifier": "every number of trajectories, every future", "why_tests_cant": "needs >= 2 trajectories; laws over all states", "anchors": ["pyparticleest/models/hierarchial.py:HierarchicalBase.sample_smooth"]}
{"id": "C53", "title": "EM runs the requested schedule", "statement": "Under Python 2 a completed ParamEstimation.maximize ran exactly max_iter iterations: iteration i installs the current estimate, simulates with num_part[i] / num_traj[i] (the last entry repeated when the schedule is shorter) and replaces the estimate by the result of its M-step; it returns the last estimate. A completed maximize of ParamEstimationSAEM / PSAEM installs param0 and then each M-step result in order, hands each result to the callback, and returns the last one. ParamEstimation.maximize completes whenever no callback or model operation raises and the schedules are not empty (IndexError otherwise). (Defects: the returned estimate is never installed in the model; under Python 3 the method raises NameError before doing anything.)", "quantifier": "every schedule, max_iter and model", "why_tests_cant": "all lists, both language versions", "anchors": ["pyparticleest/paramest/paramest.py:ParamEstimation.maximize", "pyparticleest/paramest/paramest.py:ParamEstimationSAEM.maximize", "pyparticleest/paramest/paramest.py:ParamEstimationPSAEM.maximize"]}
{"id": "C54", "title": "stochastic approximation step sizes", "statement": "alpha_gen returns step sizes in (0,1], equal to 1 up to iteration 101 and non-increasing, with divergent sum and convergent sum of squares (Robbins-Monro).", "quantifier": "every iteration", "why_tests_cant": "infinite series", "anchors": ["pyparticleest/paramest/paramest.py:alpha_gen"]}
{"id": "C55", "title": "SAEM / PSAEM trajectory weights stay a probability vector", "statement": "In every run of PSAEM every M-step gets a non-empty list of trajectories with positive weights of sum one (at most max_traj), pruning only discards weights not above the threshold, and with default pruning the weighted average of any trajectory statistic is the stochastic approximation recursion S_k = (1-a_k) S_(k-1) + a_k m_k (the first 102 M-steps remember nothing with the default step sizes). (Defect: ParamEstimationSAEM raises IndexError in its first iteration for every model using the default trajectory representation; no M-step is ever run.)", "quantifier": "every model, iteration count and step-size sequence in [0,1]", "why_tests_cant": "unbounded iterations", "anchors": ["pyparticleest/paramest/paramest.py:ParamEstimationSAEM.maximize", "pyparticleest/paramest/paramest.py:ParamEstimationPSAEM.maximize"]}
{"id": "C56", "title": "PSAEM iteration count, callback and conditioning", "statement": "With the default callback PSAEM stops after exactly max(1, max_iter) iterations; with a user callback it stops exactly when the callback first asks to, so one that never does makes it run forever, whatever max_iter is; every simulation after the first is conditioned on the trajectory produced in the iteration before. (Defect: the default filter_options=None always fails with TypeError in the first iteration.)", "quantifier": "every callback, model and max_iter", "why_tests_cant": "non-termination", "anchors": ["pyparticleest/paramest/paramest.py:ParamEstimationPSAEM.maximize"]}
{"id": "C57", "title": "the trajectory log-likelihood terms sum over the right steps", "statement": "The default measurement term is the average over the trajectories of the sum over exactly the time steps that have a measurement, the transition term the same over all transitions with the input and time of the earlier step; the value-and-gradient forms return the gradient of the returned value. (Defect: under Python 3 both raise NameError.)", "quantifier": "every data set, trajectory length and number of trajectories", "why_tests_cant": "all patterns of missing data", "anchors": ["pyparticleest/paramest/interfaces.py:ParamEstInterface"]}
{"id": "C58", "title": "numeric gradient of the initial-state term", "statement": "One expects ParamEstBaseNumericGrad to hand the optimiser the gradient of the value it hands it. (Defect: it adds to every component the mean over the parameters of the initial-state gradient; component k is right if and only if the k-th component of that gradient equals this mean, so always with a single parameter and in general not with more.)", "quantifier": "every parameter dimension, parameter value and differentiable model", "why_tests_cant": "derivatives at every point", "anchors": ["pyparticleest/paramest/interfaces.py:ParamEstBaseNumericGrad"]}
{"id": "C59", "title": "density of a sum of two uniforms", "statement": "unifsum(a, b), called at p, is the density of X+Y for independent uniforms between the limits of a and of b: non-negative, zero outside the support, a density of the convolution of the two laws (one of them may be a point mass), integrating to one; when both intervals have positive length the value is the overlap length over the product of the lengths at every point, hence continuous; the order of limits and intervals does not matter; two single points raise ZeroDivisionError. (Defect: with four int limits in Python 2 this holds iff the lengths of the intervals differ by an even number; otherwise the value is negative near the upper end, or ZeroDivisionError is raised at the lower end if one interval is a point.)", "quantifier": "every pair of intervals and point", "why_tests_cant": "all reals", "anchors": ["pyparticleest/utils/pdf.py:unifsum"]}
{"id": "C60", "title": "instrumentation is transparent", "statement": "For every program that only makes calls the wrapper is meant for (any number, each depending on earlier results and exceptions), wrapping the model in the instrumenter gives the same result and the same final model state, and every counter grows by exactly the number of particles of the calls it counts.", "quantifier": "every model object conforming to the interfaces, every adaptive sequence of calls with positional and keyword arguments", "why_tests_cant": "all histories", "anchors": ["pyparticleest/utils/intrument.py:Instrumenter"]}
{"id": "C61", "title": "wrapping a model without optional hooks", "statement": "One expects a model that lacks post_smoothing / pre_mhips_pass to behave the same when wrapped. (Defects: hasattr of the wrapper does not depend on the model, so every smoothing of a wrapped model without post_smoothing that would succeed raises AttributeError; qsample, logp_q, measure, propose_from_y, set_params, maximize and maximize_weighted are not forwarded and raise AttributeError; propose_smooth without past and future raises TypeError; print_statistics and print_total_ops always raise AttributeError. A model with both hooks is smoothed the same way.)", "quantifier": "every model, smoothing method, data set and draw", "why_tests_cant": "attribute presence combinations over all runs", "anchors": ["pyparticleest/utils/intrument.py:Instrumenter", "pyparticleest/smoother.py:SmoothTrajectory.__init__"]}
{"id": "C62", "title": "smoothed estimates belong to the last simulate call that smoothed", "statement": "get_smoothed_estimates returns the result of the last simulate() call that had a smoother and num_traj>0; a later simulate(smoother=None) leaves the old result in place, and before any smoothing the call raises AttributeError. A run that fails also leaves the old smoothed result in place, while the filter trajectory is already the new, partial one (nothing of an earlier filter run is left once the filter has been constructed). (Defect: stale estimates.)", "quantifier": "every simulator state, data set, filter and draw", "why_tests_cant": "depends on the history of calls", "anchors": ["pyparticleest/simulator.py:Simulator.simulate", "pyparticleest/simulator.py:Simulator.get_smoothed_estimates"]}
{"id": "C63", "title": "one bootstrap step uses the right data", "statement": "After any successful history, forward(u, y) of the bootstrap filter samples process noise for the selected ancestors with (u, k), propagates those ancestors with (u, k, noise), evaluates the likelihood at (y, k+1), and the weights are the Bayes update of the previous ones (the likelihood alone after resampling).", "quantifier": "every Markov model, history, draw, with or without preallocation", "why_tests_cant": "index bookkeeping over all histories", "anchors": ["pyparticleest/filter.py:ParticleFilter.forward", "pyparticleest/filter.py:ParticleTrajectory.forward", "pyparticleest/interfaces.py:ParticleFiltering"]}
{"id": "C64", "title": "mhbp proposes ancestors without shuffling", "statement": "One would expect every trajectory's proposed ancestor in mhbp to be drawn from the filter weights. (Defect: the systematic sample is not permuted, so the proposals of the M trajectories are always in ascending order; with equal weights and M = N trajectory j is always proposed particle j, and no number of iterations can give it any ancestor other than j or the one it started with.)", "quantifier": "every weight vector, M, model, number of iterations and draws", "why_tests_cant": "distributional claim over all draws and iterations", "anchors": ["pyparticleest/smoother.py:SmoothTrajectory.perform_mhbp", "pyparticleest/filter.py:sample"]}
{"id": "C65", "title": "repeated prediction and measurement is the exact Bayesian filter", "statement": "Starting from N(z0, P0), any sequence of predict_full / measure_full calls with arbitrary time-varying matrices (positive semidefinite noise, invertible measurement noise) succeeds, returns the mean and covariance of the conditional law of the current state given all measurements so far, and the sum of the returned log-likelihoods is the log density of the whole measurement record.", "quantifier": "every sequence of steps, every system matrices and every measurement record", "why_tests_cant": "a statement about conditional laws for sequences of unbounded length", "anchors": ["pyparticleest/utils/kalman.py:KalmanFilter.predict_full", "pyparticleest/utils/kalman.py:KalmanFilter.measure_full"]}
{"id": "C66", "title": "an LTV model filters exactly", "statement": "Starting from create_initial_estimate, any sequence of update / measure calls on an LTV model whose hooks describe a linear Gaussian system keeps every particle equal to mean and covariance of the conditional law of the state given all measurements, and the accumulated weights are the log density of the measurement record.", "quantifier": "every linear Gaussian system, number of particles, sequence of steps and data", "why_tests_cant": "conditional laws over unbounded sequences", "anchors": ["pyparticleest/models/ltv.py:LTV.update", "pyparticleest/models/ltv.py:LTV.measure", "pyparticleest/models/ltv.py:LTV.create_initial_estimate"]}
{"id": "C67", "title": "the EM objective of an LTV model is the expected complete-data log-likelihood", "statement": "eval_logp_x0, eval_logp_xnext and eval_logp_y return, for every particle, the expectation of the log Gaussian density of the initial state, the transition, the measurement under the smoothed law stored in the particle, without the constant (d/2) log 2 pi.", "quantifier": "every model, particle and smoothed law", "why_tests_cant": "integrals over all Gaussian laws", "anchors": ["pyparticleest/models/ltv.py:LTV.eval_logp_x0", "pyparticleest/models/ltv.py:LTV.eval_logp_xnext", "pyparticleest/models/ltv.py:LTV.eval_logp_y"]}
{"id": "C68", "title": "analytic gradients of an LTV model", "statement": "eval_logp_x0_val_grad and eval_logp_xnext_val_grad return the sum over the particles of the objective and its exact gradient whenever the hooks return the exact derivatives of the matrices. (Defects: eval_logp_y_val_grad raises TypeError whenever a gradient is given and there is a particle; without gradients the methods return an array instead of the sum.)", "quantifier": "every differentiable model, parameter vector and set of particles", "why_tests_cant": "derivatives at every point", "anchors": ["pyparticleest/models/ltv.py:LTV.eval_logp_x0_val_grad", "pyparticleest/models/ltv.py:LTV.eval_logp_xnext_val_grad", "pyparticleest/models/ltv.py:LTV.eval_logp_y_val_grad"]}
{"id": "C69", "title": "the proposal density matches the proposal", "statement": "NonlinearGaussian.propose_smooth draws independent proposals whose joint law has the density exp(logp_proposal), as the Metropolis-Hastings smoothers require (at the first step: when Px0 is diagonal).", "quantifier": "every model, ancestor array and proposal", "why_tests_cant": "laws over all draws", "anchors": ["pyparticleest/models/nlg.py:NonlinearGaussian.propose_smooth", "pyparticleest/models/nlg.py:NonlinearGaussian.logp_proposal"]}
{"id": "C70", "title": "first-stage weights of the nonlinear Gaussian model", "statement": "eval_1st_stage_weights returns the measurement log density at the noise-free one-step prediction of every particle, at time t+1.", "quantifier": "every model and particle set", "why_tests_cant": "all reals", "anchors": ["pyparticleest/models/nlg.py:NonlinearGaussian.eval_1st_stage_weights"]}
{"id": "C71", "title": "filtering and smoothing of recorded data is exact", "statement": "Running predict_full and measure_full over a record of data and then KalmanSmoother.smooth backwards gives, for every time, the exact normal law of the state given all data, the exact cross covariance of successive states, and the exact log-likelihood of the data; LinAlgError is raised only if a predicted covariance is singular, never with invertible process noise.", "quantifier": "every record length, time-varying (also data-dependent) dynamics, measured values and measurement dimensions, singular covariances included", "why_tests_cant": "integrals over all states, unbounded records", "anchors": ["pyparticleest/utils/kalman.py:KalmanFilter.predict_full", "pyparticleest/utils/kalman.py:KalmanFilter.measure_full", "pyparticleest/utils/kalman.py:KalmanSmoother.smooth"]}
{"id": "C72", "title": "the Rao-Blackwellised filter is exact per particle", "statement": "For one nonlinear state, update draws every particle's next nonlinear state from its exact law given the particle and leaves the exact conditional law of the next linear state in the particle; measure is Bayes' rule per particle and returns the log-likelihood; eval_1st_stage_weights equals measure after an update without noise; for any number of nonlinear states cond_predict and cond_predict_single_step leave the exact law of the next linear state given the given next nonlinear state. Qz is the covariance of the linear noise given the nonlinear noise. (Defect: with more than one nonlinear state update always raises ValueError.)", "quantifier": "every particle array, every mix of overridden methods and constants, every measurement", "why_tests_cant": "laws over all states, all code paths of the dispatch", "anchors": ["pyparticleest/models/rbpf.py:RBPFBase.measure", "pyparticleest/models/mlnlg.py:MixedNLGaussianSampled.update", "pyparticleest/models/mlnlg.py:MixedNLGaussianSampled.measure", "pyparticleest/models/mlnlg.py:MixedNLGaussianSampled.eval_1st_stage_weights", "pyparticleest/models/rbpf.py:RBPFBase.cond_predict", "pyparticleest/models/rbpf.py:RBPFBase.cond_predict_single_step"]}
{"id": "C73", "title": "the constrained smoother is exact along every trajectory", "statement": "post_smoothing gives for every trajectory and time the exact normal law of the linear state given all measurements and all nonlinear states of that trajectory, and the exact cross covariance of successive linear states (zero at the end); it raises LinAlgError only when a predicted covariance is singular, never with invertible linear process noise.", "quantifier": "every number of trajectories, every length, missing measurements", "why_tests_cant": "integrals over all states, unbounded length", "anchors": ["pyparticleest/models/rbpf.py:RBPSBase.post_smoothing", "pyparticleest/models/rbpf.py:RBPSBase.pre_mhips_pass"]}
{"id": "C74", "title": "transition densities of the Rao-Blackwellised model", "statement": "logp_xnext is the exact log density of the stacked next state given the particle (Qz here the marginal covariance), logp_xnext_max its attained supremum over particles and next states, logp_xnext_singlestep the exact log density of the next nonlinear state.", "quantifier": "every particle array and next states", "why_tests_cant": "all states", "anchors": ["pyparticleest/models/mlnlg.py:MixedNLGaussianSampled.logp_xnext", "pyparticleest/models/mlnlg.py:MixedNLGaussianSampled.logp_xnext_max", "pyparticleest/models/mlnlg.py:MixedNLGaussianSampled.logp_xnext_singlestep"]}
{"id": "C75", "title": "backward sampling of the linear state is exact", "statement": "sample_smooth draws the linear state of every trajectory from its exact law given the particle and the trajectory's next nonlinear and linear state; at the last step from the particle's own law.", "quantifier": "every particle array, future and index list", "why_tests_cant": "laws over all states", "anchors": ["pyparticleest/models/mlnlg.py:MixedNLGaussianSampled.sample_smooth"]}
{"id": "C76", "title": "the hierarchical filter is exact per particle", "statement": "measure of a hierarchical model keeps the nonlinear state, updates the law of the linear state with Bayes' rule and returns the sum of both log-likelihoods; update moves the law of the linear state exactly. (Defect: when no measurement offset h is given at all, measure raises TypeError.)", "quantifier": "every particle array, every mix of overridden methods and constants", "why_tests_cant": "laws over all states", "anchors": ["pyparticleest/models/hierarchial.py:HierarchicalBase.measure", "pyparticleest/models/rbpf.py:RBPFBase.update"]}
{"id": "C77", "title": "transition densities of hierarchical models", "statement": "logp_xnext is the user's nonlinear log density plus the exact log density of the next linear state. (Defect: logp_xnext_max uses +log det instead of -log det / 2; it bounds logp_xnext when all predicted covariances have determinant >= 1, and for one particle only then.)", "quantifier": "every particle array and next states", "why_tests_cant": "all states", "anchors": ["pyparticleest/models/hierarchial.py:HierarchicalBase.logp_xnext", "pyparticleest/models/hierarchial.py:HierarchicalRSBase.logp_xnext_max"]}
{"id": "C78", "title": "smoothing of hierarchical models is exact", "statement": "post_smoothing of a hierarchical model gives for every trajectory and time the exact normal law of the linear state given all measurements and the trajectory of the nonlinear state, with exact cross covariances; LinAlgError only when a predicted covariance is singular.", "quantifier": "every number of trajectories, every length, missing measurements", "why_tests_cant": "integrals over all states, unbounded length", "anchors": ["pyparticleest/models/rbpf.py:RBPSBase.post_smoothing", "pyparticleest/models/hierarchial.py:HierarchicalBase.calc_cond_dynamics", "pyparticleest/models/hierarchial.py:HierarchicalBase.meas_xi_next"]}
{"id": "C79", "title": "PSAEM with raoblackwell=True uses the filter's trajectories", "statement": "One expects PSAEM with raoblackwell=True to give the M-step the weighted trajectories of the filter. (Defect: every trajectory it gives to an M-step is uninitialised memory, an entry of the array numpy.empty returned.)", "quantifier": "every run, model and step-size sequence", "why_tests_cant": "all iterations", "anchors": ["pyparticleest/paramest/paramest.py:ParamEstimationPSAEM.maximize"]}
{"id": "C80", "title": "PSAEM2 is PSAEM", "statement": "ParamEstimationPSAEM2.maximize (preallocated buffers updated in place) performs the same calls, gives the M-steps the same trajectories and weights and returns the same estimate or exception as PSAEM with one trajectory per iteration and no limit, whatever its uninitialised buffers contain (max_iter >= 1, positive first step size). Under Python 3 it raises NameError before doing anything.", "quantifier": "every model, step-size sequence and buffer content", "why_tests_cant": "refinement over unbounded runs", "anchors": ["pyparticleest/paramest/paramest.py:ParamEstimationPSAEM2.maximize", "pyparticleest/paramest/paramest.py:ParamEstimationPSAEM.maximize"]}
{"id": "C81", "title": "the M-step maximises the Monte-Carlo Q function", "statement": "The function ParamEstBaseNumeric.maximize minimises is minus the average over the smoothed trajectories of the complete-data log-likelihood, when the model's terms return one log-density per particle. (Defect: if eval_logp_x0 returns the sum over the particles, the other form its interface allows, the initial term counts M times as much as the others.)", "quantifier": "every model, data set and set of trajectories", "why_tests_cant": "all reals, all sizes", "anchors": ["pyparticleest/paramest/interfaces.py:ParamEstBaseNumeric.maximize", "pyparticleest/paramest/interfaces.py:ParamEstInterface.eval_logp_y_fulltraj"]}
{"id": "C82", "title": "EM terms of the Rao-Blackwellised model are expected log-densities", "statement": "eval_logp_x0, eval_logp_xnext and eval_logp_y of a mixed linear/nonlinear model are, up to the constant multiples of log 2 pi, log p(xi0) plus the expected log-density of the linear initial state per particle, and the sums over the particles of the expected log-densities of the next state and of the measurement, the expectation taken over the smoothed law of the linear states (with the smoothed cross covariance of successive states); the objective the numeric M-step minimises is minus the average over the trajectories of the expected complete-data log-likelihood. (Defect: with a constant measurement offset h and no measurement matrix, which can be filtered, eval_logp_y raises AttributeError.)", "quantifier": "every particle array, smoothed law, mix of overridden methods and constants", "why_tests_cant": "integrals over all linear states, all matrices", "anchors": ["pyparticleest/models/mlnlg.py:MixedNLGaussianSampled.eval_logp_x0", "pyparticleest/models/mlnlg.py:MixedNLGaussianSampled.eval_logp_xnext", "pyparticleest/models/mlnlg.py:MixedNLGaussianSampled.eval_logp_y", "pyparticleest/models/mlnlg.py:MixedNLGaussianSampled.calc_l2", "pyparticleest/models/mlnlg.py:MixedNLGaussianSampled.calc_l3", "pyparticleest/paramest/interfaces.py:ParamEstBaseNumeric.maximize"]}
{"id": "C83", "title": "EM gradients of the Rao-Blackwellised model", "statement": "The val_grad variants return the exact gradient of the C82 terms: for the next state whenever the hooks return the derivatives of A, f, Q (None = no dependence); for the measurement with C kept at its present value (Defects: the derivative of C given by the model is ignored; with R computed per particle UnboundLocalError is raised; without any gradient the already processed measurement is processed again); for the initial state the gradient of the average of eval_logp_x0. (Defect: the value returned with it counts log p(xi0) with weight 1/N.)", "quantifier": "every differentiable parametrisation, every particle array", "why_tests_cant": "derivatives at every real parameter vector", "anchors": ["pyparticleest/models/mlnlg.py:MixedNLGaussianSampled.eval_logp_x0_val_grad", "pyparticleest/models/mlnlg.py:MixedNLGaussianSampled.eval_logp_xnext_val_grad", "pyparticleest/models/mlnlg.py:MixedNLGaussianSampled.eval_logp_y_val_grad"]}
{"id": "C84", "title": "the marginalised smoother stores the likelihood of the future", "statement": "MixedNLGaussianMarginalized.sample_smooth stores with every nonlinear state a positive semidefinite Omega and a Lambda such that exp(-z'Omega z/2 + Lambda'z) is, up to a positive factor, p(y_t, xi_{t+1}, y_{t+1}, ..., xi_T, y_T | xi_t, z_t) as a function of the linear state z_t, for the whole backward pass: any number of steps and trajectories, any selection of continuations, missing measurements, singular Qz.", "quantifier": "every valid model with one nonlinear state and independent process noises, every backward pass", "why_tests_cant": "Gaussian integrals over all linear states, induction over the length", "anchors": ["pyparticleest/models/mlnlg.py:MixedNLGaussianMarginalized.sample_smooth", "pyparticleest/models/mlnlg.py:MixedNLGaussianMarginalized.calc_prop1", "pyparticleest/models/mlnlg.py:factor_psd"]}
{"id": "C85", "title": "the backward weights of the marginalised smoother", "statement": "logp_xnext_full returns, for every particle, log p(xi_{t+1:T}, y_{t+1:T} | particle) minus m'(I + Qz Omega)^-1 Qz m with m = Lambda - Omega fz, plus a constant depending on the trajectory only. Hence when fz and Qz are the same for all particles the backward probabilities are exactly w_i p(future | particle i) normalised. (Defect: a wrong sign in calc_prop1; when fz or Qz depends on the nonlinear state the backward probabilities are wrong.)", "quantifier": "every valid model with one nonlinear state, every set of particles and trajectories", "why_tests_cant": "real integrals and all inputs", "anchors": ["pyparticleest/models/mlnlg.py:MixedNLGaussianMarginalized.logp_xnext_full", "pyparticleest/models/mlnlg.py:MixedNLGaussianMarginalized.calc_prop1", "pyparticleest/models/mlnlg.py:MixedNLGaussianMarginalized.calc_prop3"]}
{"id": "C86", "title": "what the marginalised smoother cannot do", "statement": "(Defects) With any number of nonlinear states other than one, logp_xnext_full and sample_smooth raise ValueError for every valid model; a missing measurement is treated as an observation equal to its prediction h; a model without measurement matrix raises UnboundLocalError as soon as there is a measurement; rejection sampling raises NotImplementedError for every run of two or more steps, even when the user supplies maxpdf.", "quantifier": "every valid model, every particle array", "why_tests_cant": "negative statements about all inputs", "anchors": ["pyparticleest/models/mlnlg.py:MixedNLGaussianMarginalized", "pyparticleest/filter.py:ParticleTrajectory.perform_smoothing"]}
{"id": "C87", "title": "initial distribution of mixed models", "statement": "MixedNLGaussianSampledInitialGaussian: create_initial_estimate returns particles whose nonlinear states are independent draws from N(xi0, Pxi0) and whose linear statistics are exactly (z0, Pz0); cond_sampled_initial keeps the nonlinear states and replaces the linear statistics by get_rb_initial; eval_logp_xi0 is the exact log-density, eval_logp_x0 adds the expected log-density of the linear state; eval_logp_xi0_grad is the exact gradient when get_xi_intitial_grad returns the derivatives (zero by default). (Defects: without Pz0 the constructor raises AttributeError; without Pxi0 the density raises LinAlgError; the default get_rb_initial_grad has a dimension too much and makes eval_logp_x0_val_grad raise ValueError unless there is one linear state and one parameter.)", "quantifier": "every mean, covariance, number of particles, particle array and differentiable parametrisation", "why_tests_cant": "laws and derivatives over the reals", "anchors": ["pyparticleest/models/mlnlg.py:MixedNLGaussianSampledInitialGaussian"]}
{"id": "C88", "title": "smoothing proposals of mixed models", "statement": "propose_smooth of a mixed linear/nonlinear model (one nonlinear state) draws the nonlinear states independently from their exact law given the ancestors and attaches the exact conditional law of the linear state; logp_proposal returns for every particle the log-density of that law, at the nonlinear state of proposal find[i] - its own when find is 0, 1, .... At the first step the proposals are initial particles and logp_proposal is their log-density plus a constant common to all particles with the initial linear statistics.", "quantifier": "every valid model, ancestor selection and set of proposals", "why_tests_cant": "laws of random proposals", "anchors": ["pyparticleest/models/mlnlg.py:MixedNLGaussianSampled.propose_smooth", "pyparticleest/models/mlnlg.py:MixedNLGaussianSampled.logp_proposal"]}
{"id": "C89", "title": "unbiased likelihood estimate", "statement": "For the bootstrap filter and for the SIR filter with any proposal that has a density, the likelihood estimate that can be read off the stored log-weights, their w_offset and the resampling flags returned by forward() - times the filtered mean of any non-negative function at the last step - has, over all the random draws of the run, expectation exactly E[prod_t p(y_t|x_t) phi(x_T)]; with phi = 1 this is the likelihood of the measurements. It holds for any number of particles, any resampling threshold, any length, whether or not the run starts with measure(), and for the shipped NonlinearGaussian models with Gaussian kernels and likelihoods.", "quantifier": "every Markov model that samples from its chain, every N > 0, threshold, input and measurement sequence", "why_tests_cant": "an expectation over all random draws of a run of unbounded length", "anchors": ["pyparticleest/filter.py:ParticleFilter.forward", "pyparticleest/filter.py:SIR.forward", "pyparticleest/filter.py:ParticleTrajectory.forward", "pyparticleest/filter.py:ParticleTrajectory.measure", "pyparticleest/filter.py:ParticleApproximation.resample", "pyparticleest/models/nlg.py:NonlinearGaussian"]}
{"id": "C90", "title": "the gradient loops stay inside their buffers and do not depend on scratch memory", "statement": "compute_l2_grad_f and compute_l2_grad_A, the element-by-element loops behind the analytic EM gradients (the compiled version runs them without bounds checks), never access an element outside the arrays calc_l2_grad passes to them, for any number of particles, parameters, nonlinear states and at least one linear state; what they leave in the result depends only on the inputs, not on the previous content of the scratch buffers, and is for every particle, parameter and entry the derivative of the expected squared prediction error that calc_l2 returns. (Defect: with no linear states and a gradient of A the loops address a column that does not exist.)", "quantifier": "all array sizes, contents and initial buffer contents", "why_tests_cant": "unbounded sizes; out-of-bounds accesses in the compiled version are silent", "anchors": ["pyparticleest/utils/mlnlg_compute.py:compute_l2_grad_f", "pyparticleest/utils/mlnlg_compute.py:compute_l2_grad_A", "pyparticleest/utils/cmlnlg_compute.pyx:compute_l2_grad_f", "pyparticleest/utils/cmlnlg_compute.pyx:compute_l2_grad_A", "pyparticleest/models/mlnlg.py:MixedNLGaussianSampled.calc_l2_grad"]}
{"id": "C91", "title": "gradient test tabulates the right points", "statement": "GradientTest.test(param_id, param_vals) smooths once with the current parameters and tabulates every EM term at exactly the parameter vector whose component param_id is replaced by the tested value, with no trace of the values tested before; the slopes of the measurement and transition terms are derivatives of the plotted curves whenever the model's gradients are right. (Defects: the slope of the initial term is the mean over all parameters' gradients, right exactly when that equals the tested component; the model is left at the last tested value; an empty list leaves the plots of an earlier test.)", "quantifier": "every model whose set_params overwrites, every parameter, list of values and starting point", "why_tests_cant": "any sequence of tested values; identities between derivatives", "anchors": ["pyparticleest/paramest/gradienttest.py:GradientTest.test"]}
{"id": "C92", "title": "ancestral trajectories estimate path expectations without bias", "statement": "After a run of the bootstrap filter, or of the SIR filter with any proposal that has a density, perform_smoothing(M, 'ancestor') returns trajectories such that the likelihood estimate (C89) times the average of any non-negative function phi over the M trajectories has, over all random draws of filter and smoother, expectation exactly E[prod_t p(y_t|x_t) phi(x_0,...,x_T)] - a functional of the whole path, not only of the last state. It holds for any number of particles and trajectories, any resampling threshold and any length.", "quantifier": "every Markov model that samples from its chain, every N > 0, M > 0, threshold, input and measurement sequence, every measurable phi of the path", "why_tests_cant": "an expectation over all random draws of a run of unbounded length, in which resampling makes the ancestors dependent", "anchors": ["pyparticleest/smoother.py:SmoothTrajectory.perform_ancestors", "pyparticleest/smoother.py:SmoothTrajectory.calculate_ancestors", "pyparticleest/filter.py:ParticleTrajectory.perform_smoothing", "pyparticleest/filter.py:ParticleFilter.forward", "pyparticleest/filter.py:SIR.forward"]}
{"id": "C93", "title": "backward simulation estimates path expectations without bias", "statement": "The same holds for perform_smoothing(M, 'full') (FFBSi) with the default FFBSi callbacks, whenever logp_xnext evaluates a density of the transition kernels: the likelihood estimate times the average of phi over the trajectories of the backward simulator has expectation exactly E[prod_t p(y_t|x_t) phi(x_0,...,x_T)]; in particular the simulated backward kernels introduce no bias although they use the approximate filter weights. It holds for the shipped NonlinearGaussian models with their own logp_xnext (state dimension other than one, or a covariance per particle: see C46 for the scalar defect).", "quantifier": "every Markov model with transition densities, every N > 0, M > 0, threshold, input and measurement sequence, every measurable phi of the path", "why_tests_cant": "an expectation over all random draws of filter and smoother for runs of unbounded length", "anchors": ["pyparticleest/smoother.py:bsi_full", "pyparticleest/smoother.py:SmoothTrajectory.perform_bsi", "pyparticleest/filter.py:ParticleTrajectory.perform_smoothing", "pyparticleest/interfaces.py:FFBSi", "pyparticleest/models/nlg.py:NonlinearGaussian.logp_xnext"]}
{"id": "C94", "title": "updating arrays in place gives the values the algorithm defines", "statement": "The filters pass arrays by reference, share them between approximations and update weights and particles in place. For every filter name, every options dictionary and any sequence of forward()/measure() calls, the results, the exceptions and everything that can be read from the trajectory afterwards are those of the algorithm on values (new array for each result), for every model that returns new arrays and writes only into the array given to update().", "quantifier": "every filter, every model following the interface, every conditional trajectory, every sequence of calls", "why_tests_cant": "aliasing: a shared array written in place is visible only in some later call of some history", "anchors": ["pyparticleest/filter.py:ParticleFilter", "pyparticleest/filter.py:AuxiliaryParticleFilter", "pyparticleest/filter.py:FFPropY", "pyparticleest/filter.py:CPF", "pyparticleest/filter.py:CPFAS", "pyparticleest/filter.py:CPFYAS", "pyparticleest/filter.py:SIR", "pyparticleest/filter.py:CSIRAS", "pyparticleest/filter.py:ParticleTrajectory"]}
{"id": "C95", "title": "every smoother returns num_traj trajectories over all time steps", "statement": "On every filter run of at least two steps, perform_smoothing(M, method) with default options succeeds for each of the eight methods and returns M trajectories covering all time steps; get_smoothed_estimates returns the array with one row of M states per time step. (On other trajectory objects: IndexError if empty, single particles are broadcast over the row, other differing counts raise ValueError. Constructing SmoothTrajectory for an MH method without options raises TypeError.)", "quantifier": "every run of length >= 2, M > 0, method, draw, and model whose callbacks return one value per particle", "why_tests_cant": "any run length, number of trajectories and acceptance pattern", "anchors": ["pyparticleest/smoother.py:SmoothTrajectory.__init__", "pyparticleest/smoother.py:SmoothTrajectory.get_smoothed_estimates", "pyparticleest/filter.py:ParticleTrajectory.perform_smoothing"]}
{"id": "C96", "title": "particle Gibbs with two particles leaves the smoothing law invariant", "statement": "Take a reference trajectory distributed as the smoothing law (the law of the state trajectory given the measurements), run simulate's conditional filter 'CPF' or 'CPFAS' with two particles on it, draw trajectories with perform_smoothing(m, 'ancestor') or 'full', use one of them as the next reference, and repeat: after any number of iterations the trajectory has the smoothing law. For 'CPFAS', 'full' and 'ancestor' give the same law of the next trajectory. This covers every nonlinear Gaussian model. (Defect: with three particles the smoothing law is not invariant, because the free particles are resampled systematically without conditioning on the reference.)", "quantifier": "every Markov model, measurement history (with or without initial measurement), resampling threshold, number of trajectories, test function, number of iterations; N = 2", "why_tests_cant": "a statement about expectations over all draws, composed over any number of iterations", "anchors": ["pyparticleest/filter.py:CPF", "pyparticleest/filter.py:CPFAS", "pyparticleest/filter.py:ParticleTrajectory", "pyparticleest/smoother.py:bsi_full", "pyparticleest/smoother.py:SmoothTrajectory", "pyparticleest/models/nlg.py:NonlinearGaussian"]}
{"id": "C97", "title": "MHIPS smoothing is unbiased and leaves the smoothing law invariant", "statement": "Run the bootstrap filter or the SIR filter, then call perform_smoothing(m, 'mhips') or perform_smoothing(m, 'mhips_reduced') with any number of passes R. Over all random draws of filter and smoother, the likelihood estimate times the average of any test function over the m returned trajectories has the expectation of the likelihood times the test function under the model, for every N, m and R. Each pass is a Markov kernel on trajectories that has the smoothing law as invariant law, whatever the proposal density. Used in place of 'ancestor' inside particle Gibbs with two particles ('CPF' or 'CPFAS') it keeps the smoothing law invariant over any number of iterations. This covers nonlinear Gaussian models with the default proposals.", "quantifier": "every Markov model with densities, measurement history of at least two time steps, N, m, R, proposal density, resampling threshold, test function, number of Gibbs iterations; 'mhips_reduced' needs a measurement at the last time", "why_tests_cant": "a statement about expectations over all draws, for arbitrary state spaces and history lengths", "anchors": ["pyparticleest/smoother.py:SmoothTrajectory.perform_mhips_pass", "pyparticleest/smoother.py:mc_step", "pyparticleest/smoother.py:SmoothTrajectory", "pyparticleest/filter.py:ParticleTrajectory", "pyparticleest/filter.py:ParticleFilter", "pyparticleest/models/nlg.py:NonlinearGaussian"]}
{"id": "C98", "title": "backward simulation by rejection sampling and by MCMC is unbiased", "statement": "Run the bootstrap filter or the SIR filter, then call perform_smoothing(m, method) with method 'rs', 'rsas' or 'mcmc'. Over all random draws of filter and smoother, the likelihood estimate times the average of any test function over the m returned trajectories has expectation exactly E[prod_t p(y_t|x_t) phi(x_0,...,x_T)], as with 'full' (C93), for every N and m. For 'mcmc' this holds for every number of rounds R, also R = 0 (the trajectories are then ancestral lines); for 'rs' for every R, whatever part of the trajectories is left to the exact fallback; for 'rsas' once the number of rounds it may need are drawn. 'rs' and 'rsas' need a logp_xnext_max that bounds logp_xnext; nonlinear Gaussian models have one.", "quantifier": "every Markov model with transition densities, every N > 0, m > 0, R, stopping parameters, threshold, input and measurement sequence, every measurable phi of the path", "why_tests_cant": "an expectation over all random draws of filter and smoother, including the random number and order of rejections, for runs of unbounded length", "anchors": ["pyparticleest/smoother.py:bsi_rs", "pyparticleest/smoother.py:bsi_rsas", "pyparticleest/smoother.py:bsi_mcmc", "pyparticleest/smoother.py:SmoothTrajectory.perform_bsi", "pyparticleest/filter.py:ParticleTrajectory.perform_smoothing", "pyparticleest/interfaces.py:FFBSiRS", "pyparticleest/models/nlg.py:NonlinearGaussian.logp_xnext_max"]}
{"id": "C99", "title": "the Rao-Blackwellised bootstrap filter is unbiased", "statement": "Run the bootstrap filter on a model whose particles carry a Gaussian law for part of the state (MixedNLGaussianSampledInitialGaussian, HierarchicalBase; measure conditions that law in place and returns the predictive log-density). Over all random draws, the likelihood estimate read off the stored weights, offsets and resampling flags, times the filtered mean of E[phi(xi,z) | particle] at the last step, has expectation exactly E[prod_t p(y_t|xi_t,z_t) phi(xi_T,z_T)] under the joint model in which both xi and z are random, for every number of particles, resampling threshold and history. So marginalising z neither changes the likelihood that is estimated nor the target of the filter. For a model whose measure writes nothing it is the filter of C89.", "quantifier": "every Gaussian-conditional model and its good matrices, every N > 0, threshold, input and measurement sequence, every non-negative measurable phi", "why_tests_cant": "an expectation over all random draws of the run for unbounded histories, against a joint model the code never evaluates", "anchors": ["pyparticleest/filter.py:ParticleFilter", "pyparticleest/filter.py:ParticleTrajectory", "pyparticleest/models/rbpf.py:RBPFBase", "pyparticleest/models/mlnlg.py:MixedNLGaussianSampledInitialGaussian", "pyparticleest/models/hierarchial.py:HierarchicalBase", "pyparticleest/utils/kalman.py:KalmanFilter"]}
{"id": "C100", "title": "backward simulation for Rao-Blackwellised models targets the joint smoothing law", "statement": "Run the bootstrap filter on a model whose particles carry a Gaussian law for part of the state (MixedNLGaussianSampledInitialGaussian) and then perform_smoothing(m, 'full'), which draws z of the last step with sample_smooth, then for every earlier step picks particles with the weights times logp_xnext, draws z with sample_smooth, and finally replaces all sampled z by the smoothed mean and covariance (post_smoothing). Over all random draws of filter and smoother, the likelihood estimate times the average over the m returned trajectories of phi(xi_0,...,xi_T) has expectation exactly E[prod_t p(y_t|xi_t,z_t) phi(xi_0,...,xi_T)] under the joint model in which both xi and z are random, for every N, m, resampling threshold and history. The same holds for the linear states that post_smoothing stores: replacing phi by the integral of psi(xi_0,...,xi_T, z) over the normal law with the stored mean and covariance of z at a time n gives E[prod_t p(y_t|xi_t,z_t) psi(xi_0,...,xi_T, z_n)], when the buffers are not preallocated longer than the run (see C101). (Needs uncorrelated noise, Qxiz = 0: otherwise logp_xnext takes Qz as the total covariance of z while sample_smooth and update take it as the covariance given xi, and the result is biased.)", "quantifier": "every mixed linear/nonlinear Gaussian model with one nonlinear state, Qxiz = 0 and positive definite Qz, every N > 0, m > 0, threshold, preallocated length, input and measurement sequence, every non-negative measurable phi", "why_tests_cant": "an expectation over all random draws of filter and smoother for unbounded histories, against a joint model the code never evaluates", "anchors": ["pyparticleest/filter.py:ParticleFilter", "pyparticleest/smoother.py:SmoothTrajectory.perform_bsi", "pyparticleest/smoother.py:SmoothTrajectory.perform_smoothing", "pyparticleest/models/rbpf.py:RBPSBase.post_smoothing", "pyparticleest/models/mlnlg.py:MixedNLGaussianSampled.logp_xnext", "pyparticleest/models/mlnlg.py:MixedNLGaussianSampled.sample_smooth"]}
{"id": "C101", "title": "post_smoothing of Rao-Blackwellised models uses the last entry of the buffers as the last measurement", "statement": "The smoothed estimates of the linear states use st.y[-1], st.t[-1], the last entries of the copied buffers, as the measurement of the last step. After every successful history that ends with forward and whose number of steps is at least the preallocated T, these are that measurement and its time. (Defect: with T preallocated larger than the number of steps they are None and T-1, so the last measurement is ignored: two runs that differ only in the last measurement give the same result of post_smoothing on every smoothed trajectory. When the last step is measured again with measure() after forward, the buffers have grown by an entry 0, so post_smoothing uses the measurement 0 at time 0 for the last step.)", "quantifier": "every filter, every successful sequence of forward and measure calls of any length, every preallocated T, every model and smoothed trajectory", "why_tests_cant": "the behaviour depends on the relation between the preallocated length and the whole call history; tests use one of them", "anchors": ["pyparticleest/filter.py:ParticleTrajectory.forward", "pyparticleest/filter.py:ParticleTrajectory.measure", "pyparticleest/smoother.py:SmoothTrajectory", "pyparticleest/models/rbpf.py:RBPSBase.post_smoothing"]}
{"id": "C102", "title": "incomplete models raise instead of computing", "statement": "A matrix that neither the callback nor the constructor supplies stays None, and callbacks may return arrays of the wrong length. Then the calls raise: KalmanFilter.predict returns exactly when A, f_k and Q are set (AttributeError without A, TypeError otherwise); smoothing with the model's matrices likewise, with LinAlgError for a singular predicted covariance; sample_process_noise and the prediction of the nonlinear states of a mixed model succeed exactly when Axi, Qxi, fxi are there for every particle (AttributeError without Axi, TypeError without Qxi); cond_predict of a hierarchical model exactly when Az, fz, Qz are there and one next state per particle is given; measure without R is an AttributeError; noise, next states, initial laws or continuations for another number of particles are ValueErrors, continuation indices out of range IndexErrors; and the backward statistics of the marginalised model raise UnboundLocalError for a measurement without measurement matrix, TypeError without R or h, LinAlgError for singular R. Likelihood terms of a linear model raise AttributeError for a measurement without C or R, LinAlgError for a singular R or initial covariance, TypeError for gradients of z0 without those of P0; a nonlinear Gaussian model without f (TypeError) or Q (AttributeError) cannot be propagated or sampled.", "quantifier": "every model object, callback result, particle array of any size and time", "why_tests_cant": "any subset of the matrices may be missing at any particle; tests only use complete models", "anchors": ["pyparticleest/utils/kalman.py:KalmanFilter.predict", "pyparticleest/utils/kalman.py:KalmanSmoother.smooth", "pyparticleest/models/mlnlg.py:MixedNLGaussianSampled.sample_process_noise", "pyparticleest/models/mlnlg.py:MixedNLGaussianSampled.calc_xi_next", "pyparticleest/models/rbpf.py:RBPFBase.cond_predict", "pyparticleest/models/hierarchial.py:HierarchicalBase.measure", "pyparticleest/models/mlnlg.py:MixedNLGaussianSampled.sample_smooth"]}
{"id": "C103", "title": "the auxiliary particle filter is unbiased", "statement": "For the auxiliary particle filter on a Markov model with every measurement present, the likelihood estimate that belongs to the scheme - per step the weighted mean of the likelihood without resampling, and with resampling the weighted mean of the first-stage weights times the mean over the new particles of likelihood divided by the first-stage weight of the ancestor - times the filtered mean of any non-negative function at the last step has, over all the random draws of the run, expectation exactly E[prod_t p(y_t|x_t) phi(x_T)], whatever the first-stage weights are; also for the shipped NonlinearGaussian models with their own first-stage weights. (Defect: w_offset records only one of the three shifts of the log-weights, so the estimate that C89 reads off the offsets is wrong for this filter: on a model with uninformative measurements it is 2 instead of 1 with probability one.)", "quantifier": "every Markov model that samples from its chain, every first-stage weight function, N > 0, threshold, input and measurement sequence", "why_tests_cant": "an expectation over all random draws of a run of unbounded length", "anchors": ["pyparticleest/filter.py:AuxiliaryParticleFilter.forward", "pyparticleest/filter.py:ParticleTrajectory.forward", "pyparticleest/filter.py:ParticleTrajectory.measure", "pyparticleest/filter.py:ParticleApproximation.resample", "pyparticleest/models/nlg.py:NonlinearGaussian.eval_1st_stage_weights"]}
{"id": "C104", "title": "the filter that proposes from the measurement is unbiased up to its constants", "statement": "For the filter 'pfy' on a model whose propose_from_y samples from the likelihood normalised to a law of the state (constant Z_t) and whose logp_xnext_singlestep is the transition log-density, on a trajectory without preallocation: prod_t Z_t times the likelihood estimate read off the weights and offsets, times the filtered mean of any non-negative function at the last step, has expectation E[prod_t p(y_t|x_t) phi(x_T)] exactly, when the run starts with forward. (Defect: when the run starts with measure(y0) the particles are drawn from the measurement and the model's initial law is never evaluated: the expectation is that of a model with a flat initial law; for a scalar random walk the estimate is sqrt(2 pi) where the likelihood under the initial law is at most 1. With preallocation the filter reads the wrong measurement, see C19.)", "quantifier": "every such model, N > 0, threshold, input and measurement sequence", "why_tests_cant": "an expectation over all random draws of a run of unbounded length", "anchors": ["pyparticleest/filter.py:FFPropY.forward", "pyparticleest/filter.py:FFPropY.measure", "pyparticleest/filter.py:ParticleTrajectory.forward", "pyparticleest/filter.py:ParticleTrajectory.measure"]}
{"id": "C105", "title": "the weight arithmetic is safe in floating point", "statement": "With a rounding after every addition, subtraction, multiplication and division (any monotone rounding that keeps representable numbers and integers up to the number of particles; sums in any order; rounded exp and log; double precision with ties to even is an instance, up to 2^53 particles): sample() with non-negative weights, not all zero, never fails, returns n ascending indices in range, never one of weight zero except index 0, and the number of copies of a particle differs from its expected number by at most 1 plus n times a slack of the size of the accumulated rounding error (1.01 in double precision up to a million weights and draws). The weight update keeps the largest log-weight exactly 0 and the order of the weights; so for every history of calls no run of pf, sir, cpf, cpfas and csiras raises, ancestors are valid, and the weights of pf, sir, cpf, cpfas never underflow all at once, however long the run. bsi_full, the draw of end particles and ancestor sampling never fail. With exact arithmetic this model is the model of the other claims. (Defect: CSIRAS stores its weights without subtracting their maximum and exponentiates them as they are: in double precision, when all log-weights of a step are below -746, all particles but the conditioned one descend from particle 0, whatever their weights.)", "quantifier": "every rounding, every order of summation, all weights, draws, callbacks and call histories, every number of particles up to the largest exact integer", "why_tests_cant": "rounding errors depend on every operand and accumulate over runs of unbounded length; tests see single values on one machine", "anchors": ["pyparticleest/filter.py:sample", "pyparticleest/filter.py:ParticleApproximation.calc_Neff", "pyparticleest/filter.py:ParticleApproximation.resample", "pyparticleest/filter.py:ParticleFilter", "pyparticleest/filter.py:SIR", "pyparticleest/filter.py:CSIRAS", "pyparticleest/filter.py:CPF", "pyparticleest/filter.py:CPFAS", "pyparticleest/smoother.py:bsi_full"]}
{"id": "C106", "title": "without resampling the filter is independent importance sampling, and it is consistent", "statement": "For a bootstrap ('PF') or SIR filter with resampling threshold 0 or less, on a model whose particles are drawn independently: over the random draws of a run (with or without an initial measure(), any number of forward() calls) no call raises and the particles of the last step, each with the weight N * (likelihood estimate) * (normalised weight), are N independent draws - every particle moves by the model's kernels (for SIR: the proposal) on its own and its weight is the product of the likelihoods it met (for SIR: times transition density over proposal density). As N grows, the likelihood estimate read off the stored log-weights and offsets converges in probability to the likelihood of the measurements, whenever that is finite, and the weighted mean of every integrable function over the particles of the last step converges in probability to its filtering expectation. Both hold for NonlinearGaussianInitialGaussian models whose measurement density is bounded in the state, for the normal initial law they sample from (C47).", "quantifier": "every model, data record, integrable function, number of particles and accuracy; both ways to start a run", "why_tests_cant": "a statement about the law of the particles and about the limit of infinitely many of them", "anchors": ["pyparticleest/filter.py:ParticleFilter.forward", "pyparticleest/filter.py:ParticleFilter.measure", "pyparticleest/filter.py:SIR.forward", "pyparticleest/filter.py:ParticleTrajectory.forward", "pyparticleest/filter.py:ParticleTrajectory.measure", "pyparticleest/models/nlg.py:NonlinearGaussian", "pyparticleest/models/nlg.py:NonlinearGaussianInitialGaussian"]}
{"id": "C107", "title": "exact second moments, an error bound and central limit theorems without resampling", "statement": "In the setting of C106 for the bootstrap filter: N times the mean of the product of the estimates of two non-negative functions is the exact value of their product with every measurement taken twice plus N-1 times the product of their exact values; so for every N the likelihood estimate is off by eps or more with probability at most (likelihood with every measurement taken twice - likelihood^2) / (N eps^2). If the likelihood with every measurement taken twice is finite, sqrt(N) times the error of the likelihood estimate tends in distribution to a normal law with that variance; and sqrt(N) times the error of the weighted mean of a function over the last particles tends in distribution to a normal law with the importance-sampling variance E[(products of likelihoods)^2 (phi - m)^2] / likelihood^2.", "quantifier": "every model, data record, number of particles, pair of functions and accuracy", "why_tests_cant": "second moments and limit laws are about all draws at once", "anchors": ["pyparticleest/filter.py:ParticleFilter.forward", "pyparticleest/filter.py:ParticleFilter.measure", "pyparticleest/filter.py:ParticleTrajectory.forward"]}
{"id": "C108", "title": "on a linear Gaussian model the particle filter and smoother agree with the Kalman filter and smoother", "statement": "A NonlinearGaussianInitialGaussian model with linear transition and measurement functions, positive definite covariances and a diagonal Px0, and the functions of utils/kalman.py, given the same record. The Kalman pass never fails. For any number of particles and any resampling threshold, the bootstrap filter's likelihood estimate has as its mean exactly exp(ll), ll the sum of the log-likelihoods the Kalman filter returns, and estimate times weighted mean of phi has mean exp(ll) E[phi(X)], X ~ N(z, P) with the returned z and P. An LTV model of the same system stores this z and P in every particle and its log-likelihoods add up to ll. After perform_smoothing with 'ancestor' or 'full' (the model's own logp_xnext), the estimate times the average of psi(state at time t) over the trajectories has mean exp(ll) E[psi(X)], X ~ N(zs, Ps) with the zs, Ps that KalmanSmoother.smooth returns for time t; so it has for 'mcmc', 'rs', 'rsas' (default bound), 'mhips', 'mhips_reduced' and 'mhbp' with one trajectory, and, with the estimate of C103, after the auxiliary filter. For psi(state at t, state at t+1) it has mean exp(ll) E[psi(X, X')], X and X' jointly normal with the smoothed means and covariances and the cross covariance that KalmanSmoother.smooth returns. With res <= 0 and growing N the likelihood estimate, the weighted means and the weighted covariances of the particles converge in probability to exp(ll), z and P.", "quantifier": "every linear Gaussian model (parameters may depend on time and input), data record, number of particles and trajectories, threshold, time and test function", "why_tests_cant": "relates a random algorithm, over all its draws, to a closed-form recursion on real numbers", "anchors": ["pyparticleest/filter.py:ParticleFilter", "pyparticleest/smoother.py:SmoothTrajectory.perform_bsi", "pyparticleest/smoother.py:SmoothTrajectory.perform_ancestors", "pyparticleest/models/nlg.py:NonlinearGaussianInitialGaussian", "pyparticleest/utils/kalman.py:KalmanFilter.measure_full", "pyparticleest/utils/kalman.py:KalmanFilter.predict_full", "pyparticleest/utils/kalman.py:KalmanSmoother.smooth", "pyparticleest/models/ltv.py:LTV"]}
{"id": "C109", "title": "what the scalar random-walk example scripts estimate", "statement": "For the example classes of test/manual/filtering/basic_model*.py (x' = x + w, y = x + e), any number of particles, any threshold and any record, the estimates have as means what the Kalman filter returns: for basic_model and basic_model_apf (with the estimate of C103) for the walk with initial variance P0^2 and process variance Q^2; for basic_model_sir for process variance Q and initial variance P0^2, where its proposal is the optimal one (the weight of a new particle does not depend on what was drawn); for basic_model_propy for the documented walk. (Defects: numpy.random.normal takes standard deviations, so basic_model agrees with its docstring, where P0 and Q are variances, exactly if P0^2 + Q^2 = P0 + Q, already for one step; negative values raise ValueError. basic_model_sir with meas_first raises AttributeError, as interfaces.SIR has no measure_full. basic_model_propy with a first measurement ignores P0 and starts from N(y0, R). logp_xnext_full of basic_model, which the backward smoothers use, is the density of the particles that update makes exactly if Q = 1.)", "quantifier": "all parameters P0, Q, R, numbers of particles, thresholds, records and test functions", "why_tests_cant": "an expectation over all random draws of a run of unbounded length, compared to a closed form", "anchors": ["test/manual/filtering/basic_model.py:Model", "test/manual/filtering/basic_model_apf.py:Model", "test/manual/filtering/basic_model_sir.py:Model", "test/manual/filtering/basic_model_propy.py:Model", "pyparticleest/filter.py:ParticleFilter", "pyparticleest/filter.py:SIR", "pyparticleest/filter.py:FFPropY", "pyparticleest/filter.py:AuxiliaryParticleFilter", "pyparticleest/interfaces.py:SIR"]}
{"id": "C110", "title": "nonlinear Gaussian models with one measurement and constant R", "statement": "A NonlinearGaussian model with a scalar measurement, constant R and no calc_R gives every filter exactly the callbacks of the same model with measurement variance sqrt(R), so every run of every filter is the same for both; the bootstrap filter's estimates have as means the exact values for y ~ N(g(x), sqrt(R)). The classes of nonlin_model.py and standard_nonlin_model.py are such models. (Defect: scipy.stats.norm takes a standard deviation: the likelihood estimate of one measurement has the mean stated by the model, y ~ N(g(x), R), for every measurement exactly if R = 1.)", "quantifier": "every such model (any state dimension, transition and measurement functions), number of particles, threshold and record", "why_tests_cant": "an expectation over all random draws for every model", "anchors": ["pyparticleest/models/nlg.py:NonlinearGaussian.measure", "pyparticleest/models/nlg.py:NonlinearGaussian.eval_1st_stage_weights", "test/manual/filtering/nonlin_model.py:Model", "test/manual/smoothing/standard_nonlin_model.py:Model", "pyparticleest/filter.py:ParticleFilter"]}
{"id": "C111", "title": "the error of one resampling, and why the order of the particles matters", "statement": "For every draw, the number of resampled indices below k is n times the share of the first k weights, up to one; so the mean of a function over the particles after resample() differs from the weighted mean before by at most the sum of its jumps between neighbouring particles divided by the number of new particles - the range of the function over n if it is monotone along the particle order. (Defect: in an unfavourable order the error does not vanish as N grows: a model whose initial particles each have the right law, so that every estimate is unbiased (C89), but alternate; for every even N and every threshold above 0.64, such as the default, the filtered probability after one resampling is 1 or 1/2 instead of 7/8 with probability one.)", "quantifier": "all weights, draws, functions, numbers of old and new particles; every even number of particles for the defect", "why_tests_cant": "a bound for every draw and function; a failure that is there for every number of particles", "anchors": ["pyparticleest/filter.py:sample", "pyparticleest/filter.py:ParticleApproximation.resample", "pyparticleest/filter.py:ParticleFilter.forward", "pyparticleest/simulator.py:Simulator.simulate"]}
{"id": "C112", "title": "smoothed trajectories after the auxiliary particle filter", "statement": "After a run of the auxiliary particle filter on a Markov model with every measurement present, perform_smoothing with 'ancestor' or with 'full': the likelihood estimate that belongs to the auxiliary scheme (C103) times the average of any non-negative function phi of the path over the returned trajectories has, over all random draws of filter and smoother, expectation exactly E[prod_t p(y_t|x_t) phi(x_0,...,x_T)], whatever the first-stage weights are, although the stored run does not keep them; also for the shipped NonlinearGaussian models with their own first-stage weights and transition densities.", "quantifier": "every such model, first-stage weight function, N > 0, threshold, number of trajectories, input and measurement sequence, path function, with and without measurement at time 0", "why_tests_cant": "an expectation over all random draws of a run and of a smoother of unbounded length", "anchors": ["pyparticleest/filter.py:AuxiliaryParticleFilter.forward", "pyparticleest/smoother.py:SmoothTrajectory.perform_ancestors", "pyparticleest/smoother.py:SmoothTrajectory.perform_bsi", "pyparticleest/smoother.py:bsi_full", "pyparticleest/models/nlg.py:NonlinearGaussian.eval_1st_stage_weights", "pyparticleest/models/nlg.py:NonlinearGaussian.logp_xnext"]}
{"id": "C113", "title": "smoothed trajectories after the filter that proposes from the measurement", "statement": "After a run of the filter 'pfy' under the assumptions of C104 (no preallocation), perform_smoothing with 'ancestor' or 'full': prod_t Z_t times the likelihood estimate times the average of any non-negative function of the path over the returned trajectories has expectation E[prod_t p(y_t|x_t) phi(x_0,...,x_T)] exactly when the run starts with forward. (Defect inherited from C104: when the run starts with measure(y0) the value is that of a model with a flat initial law.)", "quantifier": "every such model, N > 0, threshold, number of trajectories, input and measurement sequence, path function", "why_tests_cant": "an expectation over all random draws of a run and of a smoother of unbounded length", "anchors": ["pyparticleest/filter.py:FFPropY.forward", "pyparticleest/filter.py:FFPropY.measure", "pyparticleest/smoother.py:SmoothTrajectory.perform_ancestors", "pyparticleest/smoother.py:SmoothTrajectory.perform_bsi"]}
{"id": "C114", "title": "particle Gibbs with two particles converges from every reference trajectory", "statement": "Repeat: run simulate's conditional filter 'CPF' or 'CPFAS' with two particles on the current reference trajectory, draw trajectories with perform_smoothing(m, 'ancestor') or 'full', take one of them as the next reference. If every measurement has a bounded likelihood, p(y_t|x) <= c_t, then from every first reference trajectory the law of the k-th one converges to the smoothing law, uniformly and geometrically: the mean of every function with values in [0,1] (the probability of every event) differs by at most (1-eps)^k, eps = p(y_0..y_T) / prod_t 2 c_t > 0. It holds for nonlinear Gaussian models whose R stays away from singular. On linear Gaussian models the limit for the state at one time is the law N(zs, Ps) that the Kalman filter and KalmanSmoother.smooth return, and eps = exp(ll) / prod_t 2 max p(y_t|.) with the filter's log-likelihood ll.", "quantifier": "every Markov model with bounded likelihoods, measurement history (with or without initial measurement), resampling threshold, number of trajectories, first reference trajectory, test function with values in [0,1], number of iterations; N = 2 (with N = 3 the smoothing law is not invariant, C96)", "why_tests_cant": "a statement about the law after any number of iterations, each an unbounded run with its own draws, uniformly over all starting points", "anchors": ["pyparticleest/filter.py:CPF", "pyparticleest/filter.py:CPFAS", "pyparticleest/filter.py:ParticleTrajectory", "pyparticleest/smoother.py:bsi_full", "pyparticleest/smoother.py:SmoothTrajectory", "pyparticleest/models/nlg.py:NonlinearGaussian", "pyparticleest/utils/kalman.py:KalmanSmoother"]}
{"id": "C115", "title": "EM with a linear Gaussian model never makes the record less likely", "statement": "Filter a record with an LTV model at parameters theta, smooth it, and evaluate with the smoothed trajectories the objective fval that ParamEstBaseNumeric.maximize minimises, at theta and at theta': filtering, smoothing and both evaluations succeed, and fval(theta) - fval(theta') <= ll(theta') - ll(theta), where ll is the log-likelihood of the record that the filter's measure() calls add up to. So whatever the optimiser does, new parameters at which the objective is not larger never decrease the likelihood, and along a whole EM run the log-likelihoods are non-decreasing. (Needed because of C45: the transition at the first time must serve for all times of the record at theta.) For the Kalman filter and smoother themselves the inequality holds for every record: Q(theta,theta') - Q(theta,theta) <= ll(theta') - ll(theta), Q the expected complete-data log-likelihood under the smoothing law, on every record of moves and measurements.", "quantifier": "every pair of LTV models (any z0, P0, A, f, Q, C, h, R, time-dependent or fixed in the constructor, positive definite covariances), record length, measured values (present or missing at the first time, present later: a missing one makes LTV.measure fail), number of particles and trajectories, choice of the stored particles by the smoother, EM run of any length", "why_tests_cant": "an inequality between integrals for all parameters and records; needs the smoothing law of unbounded records", "anchors": ["pyparticleest/models/ltv.py:LTV.update", "pyparticleest/models/ltv.py:LTV.measure", "pyparticleest/models/ltv.py:LTV.sample_smooth", "pyparticleest/models/ltv.py:LTV.eval_logp_x0", "pyparticleest/models/ltv.py:LTV.eval_logp_y", "pyparticleest/models/ltv.py:LTV.eval_logp_xnext", "pyparticleest/utils/kalman.py:KalmanFilter", "pyparticleest/utils/kalman.py:KalmanSmoother", "pyparticleest/paramest/interfaces.py:ParamEstBaseNumeric.maximize", "pyparticleest/paramest/interfaces.py:ParamEstInterface.eval_logp_y_fulltraj", "pyparticleest/paramest/paramest.py:ParamEstimation.maximize"]}
{"id": "C116", "title": "the objective of particle EM, and what lowering it does to the likelihood", "statement": "Run a filter, smooth the record into m trajectories and evaluate fval of ParamEstBaseNumeric.maximize (the default terms of ParamEstInterface) at any parameter: it is exactly minus the average over the trajectories of log p(x_0) + sum of log p(y_t|x_t) over the measurements that are present + sum of log p(x_(t+1)|x_t,u_t). If the run used the parameter theta, the bootstrap filter (or the SIR filter with any proposal) and the smoother 'ancestor' or 'full' (after the bootstrap filter also 'mcmc', 'rs', 'rsas', 'mhips', 'mhips_reduced', and 'mhbp' with one trajectory), then over all draws the likelihood estimate of the run times (c + fval(theta')) has the expectation integral p_theta(x,y) (c - log p_theta'(x,y)) dx for every c above log p_theta'; and the likelihood p(y) grows from theta to theta' at least by the decrease of the expected objective: a theta' whose expected objective is not above that of theta has p_theta'(y) >= p_theta(y). For NonlinearGaussian models the terms are the Gaussian log-densities.", "quantifier": "every Markov model with transition densities and a bounded complete-data likelihood, pair of parameters, numbers of particles and trajectories, threshold, input and measurement history (with or without initial measurement); for the value: every trajectory returned by any smoother", "why_tests_cant": "an expectation over all random draws of filter and smoother, and an inequality for every pair of models", "anchors": ["pyparticleest/paramest/interfaces.py:ParamEstInterface.eval_logp_y_fulltraj", "pyparticleest/paramest/interfaces.py:ParamEstInterface.eval_logp_xnext_fulltraj", "pyparticleest/paramest/interfaces.py:ParamEstBaseNumeric.maximize", "pyparticleest/paramest/paramest.py:ParamEstimation.maximize", "pyparticleest/smoother.py:SmoothTrajectory", "pyparticleest/models/nlg.py:NonlinearGaussian", "pyparticleest/models/nlg.py:NonlinearGaussianInitialGaussian.eval_logp_x0"]}
{"id": "C117", "title": "the parameter estimation script standard_nonlin_model.py", "statement": "The Model of test/manual/paramest/standard_nonlin_model.py, for any P0, Q, R: its filter and its logp_xnext use exactly the documented growth model x+ = x/2 + 25x/(1+x^2) + 8cos(1.2t) + N(0,Q), y = x^2/20 + N(0,R), and set_params sets Q = exp(theta0), R = exp(theta1). On a run with a measurement at every time its vectorised eval_logp_y_fulltraj and eval_logp_xnext_fulltraj make fval minus the average complete-data log-likelihood, the same value as with the default terms they override; as a function of theta it has exactly one minimiser, where exp(theta0) is the mean squared transition residual and exp(theta1) the mean squared measurement residual. With the script's call (bootstrap filter, first measurement, smoother 'mcmc') the likelihood p(y) grows from theta to theta' at least by the decrease of the expected objective. (Defects: if a measurement is missing, or the run starts without one, the overriding terms return nan for every parameter, where the defaults skip it; set_params does not update logp_xnext_max, so that for smoother 'rs' the value is a valid bound iff exp(theta0) is at least the Q given to the constructor.)", "quantifier": "all parameters, numbers of particles, trajectories and rounds, thresholds, data records of any length >= 1 step, trajectories", "why_tests_cant": "identities and inequalities for all trajectories and parameters, and an expectation over all draws of a run", "anchors": ["test/manual/paramest/standard_nonlin_model.py:Model", "pyparticleest/paramest/interfaces.py:ParamEstBaseNumeric.maximize", "pyparticleest/paramest/paramest.py:ParamEstimation.maximize", "pyparticleest/utils/kalman.py:lognormpdf_scalar", "pyparticleest/interfaces.py:FFBSiRS", "pyparticleest/smoother.py:bsi_mcmc"]}
{"id": "C118", "title": "the PSAEM script standard_nonlin_model_psaem.py", "statement": "The Model of test/manual/paramest/standard_nonlin_model_psaem.py (the growth model of C117 with set_params taking the variances themselves): maximize_weighted returns Q = the weighted mean squared transition residual and R = the weighted mean squared measurement residual of the trajectories, whatever uninitialised memory its buffers start with. For weights of sum one and positive results this (Q,R) is the unique maximiser, over all positive variances, of the weighted complete-data log-likelihood, and the unique minimiser of the objective of the numerical search the script keeps beside it (maximize_weighted_numeric). In every run of ParamEstimationPSAEM with this model every M-step returns such a maximiser, and with default pruning the sequence of estimates is the stochastic approximation Q_k = (1-a_k) Q_(k-1) + a_k q_k, R_k = (1-a_k) R_(k-1) + a_k r_k, q_k and r_k being the mean squared residuals of the trajectories of iteration k. (Defects: a missing measurement makes the new R nan; with a single time step the new Q is nan.)", "quantifier": "all trajectories, weights, records of any length, step sizes in [0,1], pruning settings, callbacks and numbers of iterations", "why_tests_cant": "identities and inequalities for all trajectories and all runs of an unbounded loop", "anchors": ["test/manual/paramest/standard_nonlin_model_psaem.py:Model", "pyparticleest/paramest/paramest.py:ParamEstimationPSAEM.maximize", "pyparticleest/utils/kalman.py:lognormpdf_scalar"]}
{"id": "C119", "title": "the auxiliary particle filter is unbiased on Rao-Blackwellised models", "statement": "For the auxiliary particle filter on a model whose particles carry normal laws of the linear states (measure conditions them in place, so the likelihoods of a step cannot be evaluated again from the stored particles): the log-likelihoods measure returned in a successful step can be read off the stored weights, the offset and the ancestors together with the first-stage weights, exactly and for every model; and the likelihood estimate built from them, times the filtered mean of the conditional expectations of any non-negative function of nonlinear and linear states at the last step, has expectation exactly E[prod_t p(y_t|s_t) phi(s_T)] under the joint model, whatever the first-stage weights are; also for the shipped mixed linear/nonlinear Gaussian models with their own eval_1st_stage_weights, which never raise on valid particles.", "quantifier": "every such model, every first-stage weight function, N > 0, threshold, input and measurement sequence", "why_tests_cant": "an expectation over all random draws of a run of unbounded length, for every first-stage weight function", "anchors": ["pyparticleest/filter.py:AuxiliaryParticleFilter.forward", "pyparticleest/filter.py:ParticleTrajectory.forward", "pyparticleest/filter.py:ParticleTrajectory.measure", "pyparticleest/models/mlnlg.py:MixedNLGaussianSampled.eval_1st_stage_weights", "pyparticleest/models/mlnlg.py:MixedNLGaussianSampled.measure", "pyparticleest/models/mlnlg.py:MixedNLGaussianSampled.update"]}
{"id": "C120", "title": "the script rbapf_test.py: particle filter and three auxiliary filters for the Lindsten-Schoen model", "statement": "For the model of test/manual/filtering/rbapf_test.py (e' = 0.85 e + b z + N(0, Q_b), z' = 0.9 z + N(0, Qz), y = e^2 + b z + N(0, R), b switching with the parity of time) run as Simulator.simulate runs it: the particle filter, the auxiliary filter with the model's own first stage, with the script's 'EKF' first stage and with any other first stage returning one number per particle (the 'UKF' class) all give a likelihood estimate that, times the filtered mean of E[phi(e, z) | particle], is unbiased for E[prod_t p(y_t | e_t, z_t) phi(e_T, z_T)] under the model of generate_dataset started from e = 0, z ~ N(0, 1). The 'EKF' weights are given in closed form. (Defect: their variance is not that of the linearised measurement: 0.81 (0.81 P + Qz) + (2e+1)^2 Qes + R instead of 0.81 P + Qz + 4 e^2 Qes + R at even times, and P after conditioning and prediction instead of P at odd times; this costs efficiency, not unbiasedness.)", "quantifier": "all positive variances Qz, R, Qes, Qeb, particle counts, thresholds, nonempty measurement sequences, test functions and first-stage functions", "why_tests_cant": "an expectation over all random draws of a run of unbounded length; the wrong variance changes no expectation and so no averaged test", "anchors": ["test/manual/filtering/rbapf_test.py:ParticleAPF", "test/manual/filtering/rbapf_test.py:ParticleAPF_EKF.eval_1st_stage_weights", "test/manual/filtering/rbapf_test.py:generate_dataset", "pyparticleest/filter.py:AuxiliaryParticleFilter.forward", "pyparticleest/models/mlnlg.py:MixedNLGaussianSampledInitialGaussian"]}
{"id": "C121", "title": "A particle filter or smoother run with a linear Gaussian (LTV) model gives exactly the Kalman filter and smoother, for any number of particles and any random numbers", "statement": "Take an LTV model (model.ltv) whose matrices, given at construction or by its get_..._dynamics hooks, describe a linear system with positive definite measurement noise. Run the plain particle filter with it (measure / forward on a trajectory, or Simulator.simulate): for every number N > 0 of particles, every resampling threshold, every record of measurements and all random numbers, no call fails; every particle stored for time i holds the mean and covariance of the exact filtering law; all weights of a time are equal; and the likelihood read off the stored weights and resampling flags is the exact likelihood. With positive definite process noise and a transition that is the same at all steps of the record, the smoothers 'full', 'ancestor' and (default options) 'mcmc' also succeed, return num_traj trajectories with equal weights, and all stored rows hold the mean and covariance of the exact smoothing law at their time. If the smoothed trajectories are then used in an EM step, a decrease of the (numerically evaluated) objective by d increases the log-likelihood read off the next filter run by at least d. Hence the script test/manual/filtering/ltv_test.py with its single particle plots the exact smoothing means, whatever its data. The answers do not depend on which calls the model object has served before (its stored Kalman filter is changed by every call).", "quantifier": "every LTV model and system it describes, every record length, inputs and measurements, every N and num_traj > 0, resampling threshold, buffer size and all random draws; both models of an EM step", "why_tests_cant": "Every particle is a bundle of floats and every draw permutes them: only an induction over the run shows that equal particles stay equal through resampling, and exactness of the law is a statement about Gaussian integrals for all matrices and data.", "anchors": ["pyparticleest/models/ltv.py:LTV.update", "pyparticleest/models/ltv.py:LTV.measure", "pyparticleest/models/ltv.py:LTV.smooth", "pyparticleest/models/ltv.py:LTV.sample_smooth", "pyparticleest/models/ltv.py:LTV.logp_xnext", "pyparticleest/filter.py:ParticleFilter.forward", "pyparticleest/filter.py:ParticleTrajectory.forward", "pyparticleest/filter.py:ParticleTrajectory.measure", "pyparticleest/smoother.py:SmoothTrajectory.perform_bsi", "pyparticleest/smoother.py:bsi_full", "pyparticleest/smoother.py:SmoothTrajectory.perform_ancestors_int", "pyparticleest/simulator.py:Simulator.simulate", "test/manual/filtering/ltv_test.py"]}
{"id": "C122", "title": "Metropolis-Hastings backward proposing ('mhbp') with one trajectory estimates the exact smoothing law without bias", "statement": "Run the bootstrap filter (or the SIR filter with any proposal density) over a history, then call perform_smoothing(1, 'mhbp', {'R': R}). Over all random draws of filter and smoother, the likelihood estimate times any non-negative function phi of the returned trajectory has expectation E[prod_t p(y_t | x_t) phi(x_0, ..., x_T)] under the model: for every number of particles and of iterations per time, every proposal density that propose_smooth samples and logp_proposal evaluates, every resampling threshold, and histories that start with measure(y0) or with forward. Hence the iterations, which move the state of one time and its ancestor index jointly and then go to the previous time from the accepted ancestor, never pull the result away from the smoothing law. In particular this holds for NonlinearGaussianInitialGaussian models with their own propose_smooth and logp_proposal. (For more than one trajectory the ancestors are proposed by an unpermuted systematic sample and the property fails: C64.)", "quantifier": "every model with densities, history of two or more times, number of particles and iterations, proposal density, resampling threshold and function of the trajectory", "why_tests_cant": "An equality of expectations over all draws, for every model and length of the history; each time step's Markov chain acts on (ancestor index, state) with weights that are themselves random.", "anchors": ["pyparticleest/smoother.py:SmoothTrajectory.perform_mhbp", "pyparticleest/smoother.py:mc_step", "pyparticleest/models/nlg.py:NonlinearGaussian.propose_smooth", "pyparticleest/models/nlg.py:NonlinearGaussian.logp_proposal"]}
{"id": "C123", "title": "what the smoothing scripts estimate", "statement": "The classes of test/manual/smoothing/basic_model_mhips.py and basic_model_ffbp.py (NonlinearGaussianInitialGaussian, x' = x + v, y = x + e) with Q = 1, as in the scripts, and any P0, R: after the bootstrap filter and 'mhips' or 'mhips_reduced' with any number of passes and trajectories, or 'mhbp' with one trajectory and any number of iterations, the likelihood estimate times the average of psi(state at time t) over the trajectories has mean exp(ll) E[psi(X)], X ~ N(zs, Ps) with the zs, Ps of KalmanSmoother.smooth and the ll of the Kalman filter for the random walk with measurement variance sqrt(R) (R itself for the scripts' R = 1). The growth model of smoothing/standard_nonlin_model.py with Q = 1 and the smoothers 'mcmc', 'rs', 'ancestor', 'full': the average of any function of the trajectories, times the likelihood estimate, has as its mean the exact value for measurement variance sqrt(R). (Defects: logp_xnext of these classes is the log-density of the transition that update makes exactly if Q = 1; the scripts' R = 0.1 for the growth model means measurement variance sqrt(0.1); basic_model_ffbp.py asks for 20 trajectories, where the property fails: C64.)", "quantifier": "all P0, R, numbers of particles, trajectories, rounds, passes and iterations, thresholds, records of any length and test functions", "why_tests_cant": "an expectation over all random draws of filter and smoother of unbounded length, compared to a closed form", "anchors": ["test/manual/smoothing/basic_model_mhips.py:Model", "test/manual/smoothing/basic_model_ffbp.py:Model", "test/manual/smoothing/standard_nonlin_model.py:Model", "pyparticleest/smoother.py:SmoothTrajectory.perform_mhbp", "pyparticleest/smoother.py:SmoothTrajectory.perform_mhips_pass", "pyparticleest/models/nlg.py:NonlinearGaussian.logp_xnext", "pyparticleest/utils/kalman.py:lognormpdf_scalar"]}
{"id": "C124", "title": "the script hierarchical_model.py: the filter, and the bound used by its rejection sampler", "statement": "The Model of test/manual/filtering/hierarchical_model.py (xi' = xi + v, z turned by the angle xi plus noise, y measures xi and the first coordinate of the turned z): for any covariances, number of particles, threshold and sequence of measurements, run as Simulator.simulate runs it (prediction first), the likelihood estimate times the filtered mean of E[phi(xi, z) | particle] is an unbiased estimate of E[prod p(y_t | xi_t, z_t) phi(xi_T, z_T)] under the documented model. (Defect: with the script's constants and a measurement at each of up to 800 times the filter never fails, and at every time after the first logp_xnext_max of the stored particles, used by the script's smoother 'rsas' to accept ancestors, is smaller than logp_xnext of some next state for one of these particles; only at time zero it is an upper bound.)", "quantifier": "all covariances, numbers of particles, resampling thresholds, inputs, measurement sequences and test functions; for the bound all random numbers and every time of every run of up to 800 steps", "why_tests_cant": "The first part is about the mean over all random numbers, the second about every particle the filter can reach for any noise and measurements; a test sees single runs.", "anchors": ["test/manual/filtering/hierarchical_model.py:Model", "pyparticleest/models/hierarchial.py:HierarchicalRSBase.logp_xnext_max", "pyparticleest/models/hierarchial.py:HierarchicalBase.measure"]}
{"id": "C125", "title": "the script mlnlg_model.py: the Rao-Blackwellized filter agrees in the mean with the Kalman filter for the joint state", "statement": "The Model of test/manual/smoothing/mlnlg_model.py (position xi as nonlinear, velocity z as linear state): for any covariances, number of particles, threshold, input and sequence of measurements, with or without a measurement at time zero, the Kalman filter of utils/kalman.py with transition [[1, 1], [0, 1]] and a measurement of xi succeeds on the same record, the likelihood estimate of the Rao-Blackwellized particle filter has as its mean the likelihood exp(ll) that the Kalman filter returns, and times the filtered mean of E[phi(xi, z) | particle] it has mean exp(ll) E[phi(X)], X ~ N(z, P) for the returned z and P. (Defects: the noise covariance for which this holds is [[Qxi, Qxiz], [Qxiz, Qz + Qxiz^2/Qxi]], not the [[Qxi, Qxiz], [Qxiz, Qz]] of the script's docstring and generate_dataset: for Qxiz nonzero the filter treats Qz as the covariance of the velocity noise given the position noise; and the measurement is xi + e, not xi + z + e as the docstring has it.) The same holds for every mixed linear/nonlinear model with a scalar nonlinear state whose joint state follows a linear Gaussian model.", "quantifier": "all covariances with Qxi, R > 0 and the others non-negative, numbers of particles, resampling thresholds, inputs, measurement sequences and test functions; in the general form all such models", "why_tests_cant": "It is about the mean over all random numbers for every record, compared with a different algorithm; a test sees single runs with Monte Carlo error.", "anchors": ["test/manual/smoothing/mlnlg_model.py:Model", "pyparticleest/models/mlnlg.py:MixedNLGaussianSampled.sample_process_noise", "pyparticleest/models/mlnlg.py:MixedNLGaussianSampled.calc_cond_dynamics", "pyparticleest/utils/kalman.py:KalmanFilter.measure_full"]}
{"id": "C126", "title": "the script test_lsb.py: filter and marginalised backward simulator", "statement": "ParticleLSB of test/manual/smoothing/test_lsb.py (a scalar nonlinear state driven by a four-dimensional linear one; measurement 0.05 xi^2 plus noise; the constructor is given neither C nor h): for any number of particles, threshold and nonempty record, prediction first as Simulator.simulate does, the likelihood estimate times the filtered mean of E[phi(xi, z) | particle] is an unbiased estimate of E[prod p(y_t | xi_t) phi(xi_T, z_T)] for the process simulated by generate_dataset; and for every set of particles and trajectories built so far, with measurements present or missing, the backward pass succeeds and the backward probabilities computed from logp_xnext_full are w_i p(future xi and y | particle i), normalised.", "quantifier": "all numbers of particles, resampling thresholds, inputs, measurement sequences and test functions; all sets of particles with covariance matrices, all sets of trajectories of any length, all singular value decompositions", "why_tests_cant": "The first part is about the mean over all random numbers; the second is an identity between computed numbers and integrals over all linear states for every history.", "anchors": ["test/manual/smoothing/test_lsb.py:ParticleLSB", "test/manual/smoothing/test_lsb.py:generate_dataset", "pyparticleest/models/mlnlg.py:MixedNLGaussianMarginalized.logp_xnext_full", "pyparticleest/models/mlnlg.py:MixedNLGaussianMarginalized.sample_smooth"]}
{"id": "C127", "title": "the script test_ls2.py: parameters, filter and gradient", "statement": "ParticleLS2 of test/manual/paramest/test_ls2.py (five unknown parameters): set_params leaves the object the constructor would have built with the new parameters; after any sequence of set_params, for any number of particles, threshold and nonempty record, prediction first as Simulator.simulate does, the likelihood estimate times the filtered mean of E[phi(xi, z) | particle] is an unbiased estimate of E[prod p(y_t | xi_t, z_t) phi(xi_T, z_T)] for the transitions of generate_dataset with the last parameters and the measurement noise given to the constructor; and eval_logp_xnext_val_grad, fed with the matrices of get_pred_dynamics_grad, returns the expected log-density of the next states (up to its constant) and its derivative in each of the five parameters. The function the maximisation step hands to the optimiser succeeds for all parameters and smoothed trajectories; its value is minus the average over the trajectories of log p(xi_0) plus the expected log-densities of all transitions and of all measurements present, and its gradient is the gradient of that value.", "quantifier": "all parameter values and sequences of set_params, numbers of particles, resampling thresholds, inputs, measurement sequences and test functions; all sets of smoothed trajectories", "why_tests_cant": "Hand-written derivatives have to agree with the model for every parameter value and trajectory; unbiasedness is about the mean over all random numbers.", "anchors": ["test/manual/paramest/test_ls2.py:ParticleLS2", "test/manual/paramest/test_ls2.py:generate_dataset", "pyparticleest/models/mlnlg.py:MixedNLGaussianSampled.set_dynamics", "pyparticleest/models/mlnlg.py:MixedNLGaussianSampled.eval_logp_xnext_val_grad"]}

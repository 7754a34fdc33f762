# R[id] = (status, "auto" | [theorem names], note)
R["C01"] = ("proved", "auto", "")
R["C02"] = ("proved", "auto", "")
R["C03"] = ("proved", "auto", "r uniform on [0,1] = integral over 0..1.")
R["C04"] = ("proved", "auto", "")
R["C05"] = ("proved", "auto", "Includes the counterexample sample([0,1],1) at r=0.")
for _c in ["C06","C07","C09","C10","C12","C18","C21","C23","C25","C27"]:
    R[_c] = ("proved", "auto", "")
R["C08"] = ("proved", "auto", "numpy.argsort is modelled as an arbitrary ascending sorting permutation.")
R["C11"] = ("proved", "auto", "apf: the weights tested include the first-stage weights, and res is tested for truthiness, so a negative res is treated as 'on' (and then never fires).")
R["C13"] = ("proved", "auto", "Markov models through the ParticleFiltering adapter.")
R["C14"] = ("proved", "auto", "Heap model of all eight filters; honest callbacks (do not write into arrays they were not given for writing); the conditional filters in addition write into arrays the model returned, so for them these must be new (GivesAway).")
R["C15"] = ("proved", "auto", "")
R["C16"] = ("proved", "auto", "CPFYAS additionally needs single-particle reference steps (C16_cpfyas_needs_single).")
R["C17"] = ("proved", "auto", "")
R["C19"] = ("proved", "auto", "")
R["C22"] = ("proved", "auto", "")
R["C24"] = ("proved", "auto", "")
R["C62"] = ("proved", "auto", "")
R["C63"] = ("proved", "auto", "")

R["C26"] = ("proved", "auto", "")
for _c in ["C28","C29","C32","C33","C64"]:
    R[_c] = ("proved", "auto", "")
R["C30"] = ("proved", "auto", "The expectation over attempts is the iterated expectation over r, the uniform permutation and the independent uniforms (Spec.attemptsE).")
R["C31"] = ("proved", "auto", "")
R["C34"] = ("proved", "auto", "")
R["C35"] = ("proved", "auto", "Models without a Rao-Blackwellised part. Invariance is stated for finitely many states.")
R["C36"] = ("proved", "auto", "Models without a Rao-Blackwellised part.")
R["C37"] = ("proved", "auto", "")

R["C38"]=("proved","auto","Law of the predicted state, moments, positive definiteness.")
R["C39"]=("proved","auto","Exact success condition; regular conditional distribution; density of the measurement; shrinking; information form; C=None.")
R["C40"]=("proved","auto","Agreement for positive innovation variance, both failures otherwise, and a concrete failure after the write.")
R["C41"]=("proved","auto","Exactness of the smoothing step in law, cross covariance, fixed point, failure condition.")
R["C42"]=("proved","auto","All helpers return the log of the Lebesgue density; failure conditions.")
R["C43"]=("proved","auto","Induction over the history of set_dynamics calls.")
R["C65"]=("proved","auto","Induction over the steps; regular conditional distribution and Lebesgue density of the record.")

R["C44"]=("proved","auto","")
R["C45"]=("proved","auto","The English property as a user expects it is false; the exact behaviour is proved.")
R["C51"]=("proved","auto","")
R["C66"]=("proved","auto","")
R["C67"]=("proved","auto","")
R["C68"]=("proved","auto","Defects proved as such.")
R["C46"]=("proved","auto","")
R["C47"]=("proved","auto","")
R["C48"]=("proved","auto","")
R["C69"]=("proved","auto","")
R["C70"]=("proved","auto","")
R["C71"]=("proved","auto","Spec.follow is the unnormalised joint law; kfData/rtsData fold the modelled methods over the record.")
R["C49"]=("proved","auto","")
R["C50"]=("proved","auto","Restated with the covariance defect.")
R["C72"]=("proved","auto","Restated with the defect for several nonlinear states. Spec.RbDescribes relates the object and its overridable methods to the model on paper.")
R["C73"]=("proved","auto","")
R["C74"]=("proved","auto","With correlated noises logp_xnext reads Qz as marginal covariance while the filter (C72) reads it as conditional covariance: an inconsistency of the code.")
R["C75"]=("proved","auto","")

R["C52"]=("proved","auto","Restated with the defect (index 0 and accumulated in-place updates).")
R["C76"]=("proved","auto","")
R["C77"]=("proved","auto","Restated with the defect of logp_xnext_max.")
R["C78"]=("proved","auto","")
R["C53"]=("proved","auto","Restated with the defects. xrange is modelled explicitly (PyVersion).")
R["C54"]=("proved","auto","")
R["C55"]=("proved","auto","Restated with the defect of SAEM.")
R["C56"]=("proved","auto","Restated with the defect of filter_options=None.")
R["C57"]=("proved","auto","Restated with the Python 3 defect.")
R["C58"]=("proved","auto","Restated as the exact behaviour; C58_counterexample shows the expectation fails.")
R["C79"]=("proved","auto","Restated as the exact (defective) behaviour.")
R["C80"]=("proved","auto","")
R["C81"]=("proved","auto","")
R["C59"]=("proved","auto","")
R["C60"]=("proved","auto","")
R["C61"]=("proved","auto","Restated as the exact (defective) behaviour.")
R["C20"]=("proved","auto","Special values are modelled, rounding is not. Restated with the defect.")
R["C82"]=("proved","auto","Restated with the defect.")
R["C83"]=("proved","auto","Restated as the exact behaviour, with the defects.")
R["C84"]=("proved","auto","numpy.linalg.svd is a parameter with its specification (Spec.SvdOk); cross covariances are ignored by the class, the model is assumed to have none.")
R["C85"]=("proved","auto","Restated as the exact behaviour, with the defect.")
R["C86"]=("proved","auto","Negative results.")
R["C87"]=("proved","auto","Restated with the defects; the shape defect is proved of a model of the array shapes in the first loop iteration.")
R["C88"]=("proved","auto","With more than one nonlinear state propose_smooth raises ValueError (C72).")
R["C89"]=("proved","auto","The particles of one step need only have the right marginal laws. For NonlinearGaussianInitialGaussian the initial law is the Gaussian with the covariance create_initial_estimate really uses (C47). Runs of the other filters (APF, conditional filters) are not covered.")
R["C90"]=("proved","auto","The three buffers out, tmp1, tmp2 are different arrays, as calc_l2_grad allocates them.")
R["C91"]=("proved","auto","param_id is non-negative; plotting itself is not modelled.")
R["C92"]=("proved","auto","sample_smooth is the default one and the model has no post_smoothing. C92_last_state shows the right hand side is that of C89 when phi depends on the last state only. Bootstrap and SIR filters.")
R["C93"]=("proved","auto","Method 'full' with default FFBSi callbacks, no post_smoothing. For the other backward samplers see C98.")
R["C94"]=("proved","auto","If a measure() call raises, the two differ in w_offset of the newest step (C14_measure_error_offset); states are compared when no call of the run raises (C94_run) and for a forward() that raises (C94_forward). Smoothers are modelled on values only.")
R["C95"]=("proved","auto","No post_smoothing/pre_mhips hooks. 'mhips_reduced' additionally needs a measurement at the last step (known defect, see C36).")
R["C96"]=("proved","auto","Two particles (the reference and one free particle). C96_three_particles: a model where three particles change the smoothing law (29/60 instead of 1/2).")
R["C97"]=("proved","auto","For histories of at least two time steps (a one-step history raises, C34). 'mhips' with any proposal density that the model samples from and evaluates; 'mhips_reduced' with a measurement at the last time (without one the code raises, C36).")
R["C98"]=("proved","auto","Default FFBSi/FFBSiRS callbacks, no post_smoothing, maxpdf computed from logp_xnext_max (not given by the user). For 'rsas' the stopping parameters must satisfy the conditions under which it stops (C31); the draws counted are as many rounds as it may need.")
R["C99"]=("proved","auto","'pf' only. For mixed models with one nonlinear state (with more, update always raises: the defect of C72); for hierarchical models with any number. Every measurement is an object, not None.")

R["C100"]=("proved","auto","Method 'full' after 'pf'. C100_unbiased is the statement for any Rao-Blackwellised model (user-written callbacks that satisfy Spec.RbSamples and Spec.RbBackward), C100_mixed_gaussian instantiates it with the modelled code of mlnlg.py and rbpf.py, C100_linear_states covers the stored mean and covariance of the linear states. Every measurement is an object, not None.")
R["C101"]=("proved","auto","For the filters with the default measure() in C101_remeasured; C101_preallocated and C101_filled for all filters. The hook is the one of MixedNLGaussian models (rbpf.py).")
R["C102"]=("proved","auto","Kinds of exceptions are stated where the model distinguishes them; comments in the model say where several missing attributes are lumped together.")
R["C103"]=("proved","auto","")
R["C104"]=("proved","auto","")
R["C105"]=("proved","auto","Finite values: overflow is not part of this model (C20 has the special values). The error bound of C105_sample_count is for sample(); numpy.cumsum is sequential, numpy.sum may add in any order. Callback results are arbitrary real numbers. The -log N weights of the first stored step are exact.")
R["C106"]=("proved","auto","Idealisation: exact real arithmetic, ideal independent draws. Without resampling only; with resampling the estimates are unbiased for every N (C89) but their limit is not treated. Runs with res > 0 are not covered.")
R["C107"]=("proved","auto","As C106. The limit theorems are stated for bounded continuous test functions.")
R["C108"]=("proved","auto","Diagonal Px0 because create_initial_estimate draws from another law otherwise (C47). 'full' needs n != 1 or calc_Q (the one-dimensional case of logp_xnext without calc_Q is C46). Convergence without resampling only.")
R["C109"]=("proved","auto","Idealisation: exact real arithmetic, ideal draws. basic_model_propy without preallocation (C19, C104).")
R["C110"]=("proved","auto","Diagonal Px0 (C47).")
R["C111"]=("proved","auto","Idealisation: exact real arithmetic. The defect needs dependent initial particles (which C89 allows); no statement is made about independent ones with resampling.")
R["C112"]=("proved","auto","Idealisation: exact real arithmetic, ideal draws; measurements present at every step (C103). Diagonal Px0 for the law N(x0, Px0) (C47).")
R["C113"]=("proved","auto","Idealisation: exact real arithmetic, ideal draws; trajectory without preallocation (C19, C104).")
R["C114"]=("proved","auto","Idealisation: exact real arithmetic, ideal draws. Diagonal Px0 for the nonlinear Gaussian models (C47).")
R["C115"]=("proved","auto","Exact real arithmetic. The runs of filter and smoother are stated without resampling and with an arbitrary choice by the smoother among the stored particles; C121 is the same for the full pipeline (weights, resampling, backward draws). Positive definite P0, Q, R (otherwise eval_logp_* raise LinAlgError).")
R["C116"]=("proved","auto","Exact real arithmetic, ideal draws, Python 2 (C57: fval raises NameError under Python 3). The statement is about the expected objective, not about one run: with finitely many particles a single run can lower fval and lower the likelihood. Diagonal Px0 for the nonlinear Gaussian models (C47).")
R["C117"]=("proved","auto","Exact real arithmetic, ideal draws. numpy.random.normal with a (1,1) scale and size (N,) is taken to broadcast (old NumPy; newer versions raise). What scipy.optimize.minimize returns is not modelled: the theorem gives the minimiser it looks for.")
R["C118"]=("proved","auto","Exact real arithmetic. Arrays of different first dimension are rejected (NumPy would broadcast a single row). The trajectories of a run are whatever the smoother returned (arbitrary).")
R["C119"]=("proved","auto","Exact real arithmetic. The shipped model: one nonlinear state (with more the code fails, see C72), measurements given at every step; without one the filter raises UnboundLocalError (C17).")
R["C120"]=("proved","auto","Exact real arithmetic; the sigma-point computation of the 'UKF' class is not modelled, it is covered as an arbitrary first-stage function. Measurements are numbers where the script passes one-element lists.")
R["C121"]=("proved","auto","Full pipeline with real weights, resampling, draws and Simulator.simulate (with either value of meas_first). C121_missing: the record must be complete, since forward(u, None) raises. A transition that changes over time is excluded for smoothing because of the code's defect proved in C45/C67 (the smoother evaluates the dynamics with the first input and time).")
R["C122"]=("proved","auto","C122_mhbp_unbiased (bootstrap), C122_mhbp_sir, C122_nonlinear_gaussian with an example on a concrete model.")
R["C123"]=("proved","auto","C123_mhips_script, C123_mhbp_script, C123_growth_script with examples at the scripts' parameters; C123_other_variances is the defect.")
R["C124"]=("proved","auto","The counter pn_count and the plotting are not modelled; R_xi and R_z (1 x 1 matrices in the script) are numbers.")
R["C125"]=("proved","auto","Smoothing by this script ('mhips_reduced') is not part of the claim. The counter pn_count and the plotting are not modelled.")
R["C126"]=("proved","auto","The error measures and the plotting of the script are not modelled.")
R["C127"]=("proved","auto","generate_dataset adds no measurement noise, the model of the class has R = 0.1 I; the theorem is about the model of the class. The optimiser call and the plotting of the script are not modelled.")

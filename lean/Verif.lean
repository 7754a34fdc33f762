import Verif.Py
import Verif.PyLemmas
import Verif.Sampling.Props
import Verif.Sampling.Unbiased
import Verif.Filter.ApproxProps
import Verif.Filter.Props
import Verif.Filter.Cond
import Verif.Filter.Runs
import Verif.Traj.Props
import Verif.Traj.Run
import Verif.Sim.Props
import Verif.Filter.Markov
import Verif.Heap.Props
import Verif.Heap.History
import Verif.Heap.Refine
import Verif.Heap.RefineFilters
import Verif.Heap.RefineCond
import Verif.Heap.Sim
import Verif.Filter.Toy
import Verif.Smooth.Bsi
import Verif.Smooth.Rsas
import Verif.Smooth.Chance
import Verif.Smooth.Exact
import Verif.Smooth.Mcmc
import Verif.Smooth.Traj
import Verif.Smooth.Mh
import Verif.Smooth.Mhbp
import Verif.Smooth.Dispatch
import Verif.Smooth.Toy
import Verif.Smooth.MhbpMix
import Verif.Kalman.Model
import Verif.Kalman.Cho
import Verif.Kalman.Gauss
import Verif.Kalman.Density
import Verif.Kalman.Joint
import Verif.Kalman.Claims
import Verif.Kalman.RsasLink
import Verif.Kalman.Exact
import Verif.Kalman.Bayes
import Verif.Models.Pack
import Verif.Models.Ltv
import Verif.Models.LtvStore
import Verif.Models.LtvRun
import Verif.Models.LtvSmooth
import Verif.Models.LtvEm
import Verif.Models.MatDeriv
import Verif.Models.MlCompute
import Verif.Models.MlComputeClaims
import Verif.Models.LtvGrad
import Verif.Models.Nlg
import Verif.Models.NlgClaims
import Verif.Models.RbPack
import Verif.Models.Ml
import Verif.Models.MlSpec
import Verif.Models.MlClaims
import Verif.Models.MlDensity
import Verif.Models.MlSmooth
import Verif.Models.MlToy
import Verif.Models.Hier
import Verif.Models.HierClaims
import Verif.Models.HierSmooth
import Verif.Param.Model
import Verif.Param.EmProps
import Verif.Param.SaProps
import Verif.Param.PsProps
import Verif.Param.PsRuns
import Verif.Param.Ps2Props
import Verif.Param.PsToy
import Verif.Param.Objective
import Verif.Param.Gradient
import Verif.Util.Pdf
import Verif.Util.Instr
import Verif.Special.Model
import Verif.Special.Props
import Verif.Special.Runs
import Verif.Models.MlEm
import Verif.Models.MlEmClaims
import Verif.Models.MlEmGrad
import Verif.Models.MlEmObj
import Verif.Models.MlMore
import Verif.Marg.Gauss
import Verif.Marg.Model
import Verif.Marg.Claims
import Verif.Marg.Weights
import Verif.Marg.Toy
import Verif.Param.Faithful
import Verif.Models.MlInit
import Verif.Filter.Likelihood
import Verif.Models.NlgLik
import Verif.Filter.ApfUnbiased
import Verif.Models.NlgApf
import Verif.Models.MlLoops
import Verif.Param.GradTest
import Verif.Smooth.Paths
import Verif.Smooth.PathOps
import Verif.Smooth.Ffbsi
import Verif.Models.NlgPaths
import Verif.Smooth.Estimates
import Verif.Smooth.Gibbs
import Verif.Smooth.GibbsRun
import Verif.Smooth.GibbsFull
import Verif.Models.NlgGibbs
import Verif.Smooth.GibbsThree
import Verif.Smooth.MhPath
import Verif.Smooth.MhChain
import Verif.Smooth.MhRun
import Verif.Smooth.MhModel
import Verif.Models.NlgMhips
import Verif.Smooth.Rounds
import Verif.Smooth.PickLaw
import Verif.Smooth.BackOps
import Verif.Smooth.BsiPaths
import Verif.Smooth.BsiUnbiased
import Verif.Smooth.RbPaths
import Verif.Smooth.RbBack
import Verif.Models.NlgBsi
import Verif.Filter.RbFilter
import Verif.Models.MlFilter
import Verif.Models.MlBayes
import Verif.Models.MlFfbsi
import Verif.Models.HierFilter
import Verif.Smooth.Disint
import Verif.Models.MlStates
import Verif.Traj.BufferEnd
import Verif.Models.MlBuffer
import Verif.Models.Incomplete
import Verif.Filter.PfyUnbiased
import Verif.Rounding.Model
import Verif.Rounding.Spec
import Verif.Rounding.Sample
import Verif.Rounding.Count
import Verif.Rounding.Filter
import Verif.Rounding.Cond
import Verif.Rounding.Binary
import Verif.Rounding.Exact
import Verif.Rounding.Double
import Verif.Models.IncompleteLtv
import Verif.Consistency.Law
import Verif.Consistency.Steps
import Verif.Consistency.Run
import Verif.Consistency.Claims
import Verif.Consistency.Filters
import Verif.Consistency.Clt
import Verif.Consistency.Spread
import Verif.Consistency.Nlg
import Verif.Linear.Data
import Verif.Linear.Claims
import Verif.Linear.Ltv
import Verif.Kalman.Single
import Verif.Examples.Basic
import Verif.Examples.Proposals
import Verif.Models.NlgScalar
import Verif.Examples.Nonlin
import Verif.Sampling.Variation
import Verif.Filter.ResampleOrder
import Verif.Smooth.ApfPaths
import Verif.Models.NlgApfPaths
import Verif.Smooth.PfyPaths
import Verif.Linear.Smoothers
import Verif.Linear.Pairs
import Verif.Smooth.GibbsConv
import Verif.Linear.Gibbs
import Verif.Kalman.Em
import Verif.Models.LtvEstep
import Verif.Models.LtvEmRun
import Verif.Models.LtvEmStep
import Verif.Smooth.Shape
import Verif.Param.EmParticle
import Verif.Param.EmAscent
import Verif.Models.NlgEm
import Verif.Param.EmSmoothers
import Verif.Models.NlgEmRounds
import Verif.Models.NlgEmRsas
import Verif.Witness.Filters
import Verif.Witness.Smoothers
import Verif.Examples.ParamScript
import Verif.Examples.ParamScriptObj
import Verif.Examples.ParamScriptEm
import Verif.Examples.ParamScriptStep
import Verif.Examples.PsaemScript
import Verif.Examples.PsaemScriptRun
import Verif.Filter.RbApf
import Verif.Models.MlApf
import Verif.Examples.RbApfScript
import Verif.Witness.Param
import Verif.Models.LtvPure
import Verif.Traj.Track
import Verif.Models.LtvSim
import Verif.Smooth.Track
import Verif.Models.LtvSmoothRun
import Verif.Models.LtvPipeline
import Verif.Models.LtvMissing
import Verif.Sim.Run
import Verif.Sim.Failed
import Verif.Examples.TrackScript
import Verif.Examples.TrackLater
import Verif.Smooth.BpKernel
import Verif.Smooth.BpFuture
import Verif.Smooth.BpCode
import Verif.Smooth.BpRun
import Verif.Smooth.BpUnbiased
import Verif.Models.NlgMhbp
import Verif.Smooth.MhShape
import Verif.Param.EmMh
import Verif.Models.NlgEmMh
import Verif.Traj.Faults
import Verif.Traj.Stuck
import Verif.Witness.Core
import Verif.Witness.Kalman
import Verif.Witness.SirSmoothers
import Verif.Witness.Models
import Verif.Param.SaReturn
import Verif.Linear.Mhbp
import Verif.Examples.SmoothScripts
import Verif.Examples.HierScript
import Verif.Models.MlLinear
import Verif.Examples.MixedScript
import Verif.Kalman.Upper
import Verif.Examples.LsbScript
import Verif.Examples.Ls2Script
import Verif.Examples.Ls2Em

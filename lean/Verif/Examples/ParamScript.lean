import Verif.Examples.Basic
import Verif.Param.EmSmoothers
import Verif.Models.NlgEm
import Verif.Models.NlgBsi
import Verif.Traj.BufferEnd

/-!
# C117: the script `test/manual/paramest/standard_nonlin_model.py`

Its `Model` is a scalar growth model that implements every callback itself and overrides the default trajectory terms of `ParamEstInterface` by vectorised
ones. Here the class is modelled, with what its filter and smoother sample and what its objective computes.
-/

namespace PyPE
open Real Spec MeasureTheory ProbabilityTheory Matrix
open scoped ENNReal

variable {U : Type}

/-! ### The code -/

/-- The attributes of `Model` (test/manual/paramest/standard_nonlin_model.py:32-37). The arrays `P0`, `Q`, `R` of shape (1,1) are numbers here. -/
structure StdObj where
  p0 : ℝ
  q : ℝ
  r : ℝ
  logxnMax : ℝ

/-- `Model.__init__` (standard_nonlin_model.py:32-37). -/
noncomputable def stdInit (p0 q r : ℝ) : PyM StdObj := do
  let l ← lognormpdfScalar [0] q
  let b ← getIdx l 0
  return ⟨p0, q, r, b⟩

/-- `Model.set_params` (standard_nonlin_model.py:67-71). `params` itself is not stored here. -/
noncomputable def stdSet (o : StdObj) (params : List ℝ) : PyM StdObj := do
  let a ← getIdx params 0
  let b ← getIdx params 1
  return { o with q := exp a, r := exp b }

/-- `0.5 * part + 25.0 * part / (1 + part ** 2) + 8 * math.cos(1.2 * t)` (standard_nonlin_model.py:49, 57, 90). -/
noncomputable def stdPredict (part : List (Fin 1 → ℝ)) (t : ℕ) : List (Fin 1 → ℝ) :=
  part.map fun x _ => 0.5 * x 0 + 25 * x 0 / (1 + x 0 ^ 2) + 8 * Real.cos (1.2 * t)

/-- A measurement as a float, `none` for Python's `None`: `float(None)` raises in arithmetic, and `numpy.asarray([..., None], dtype=float)` turns it into nan. -/
def stdNum : Slot (Fin 1 → ℝ) → Option ℝ
  | .none => none
  | .zero => some 0
  | .obj y => some (y 0)

/-- `Model.measure` (standard_nonlin_model.py:51-53). -/
noncomputable def stdMeasure (o : StdObj) (part : List (Fin 1 → ℝ)) (y : Slot (Fin 1 → ℝ)) : PyM (List ℝ) :=
  match stdNum y with
  | some y => lognormpdfScalar (part.map fun x => 0.05 * x 0 ^ 2 - y) o.r
  | none => .error .typeError

/-- `create_initial_estimate`, `sample_process_noise`, `update`, `measure` (standard_nonlin_model.py:39-53). The scale is the *square root* of the variance; it
has shape (1,1), which the NumPy of that time broadcasts against the size `(N,)`. The square root of a negative number (nan in NumPy) is 0 here. -/
noncomputable def stdModel (N : ℕ) (o : StdObj) : MarkovModel (Fin 1 → ℝ) U (Fin 1 → ℝ) (List (Fin 1 → ℝ)) (Fin N → Fin 1 → ℝ) where
  createInitial k ω := npNormal 0 (√o.p0) ((List.ofFn ω).take k)
  sampleProcessNoise part _ _ ω := npNormal 0 (√o.q) ((List.ofFn ω).take part.length)
  update part _ t noise := .ok (List.zipWith (· + ·) (stdPredict part t) noise)
  measure part y _ := stdMeasure o part y

/-- `Model.logp_xnext` (standard_nonlin_model.py:55-58). -/
noncomputable def stdLogpXnext (o : StdObj) (part next : List (Fin 1 → ℝ)) (_u : Slot U) (t : ℕ) : PyM (List ℝ) := do
  let diff ← npSub ((stdPredict part t).map (· 0)) (next.map (· 0))
  lognormpdfScalar diff o.q

/-- `Model.logp_xnext_max` (standard_nonlin_model.py:60-61): an attribute that only the constructor assigns. -/
noncomputable def stdLogpXnextMax (o : StdObj) (_part : List (Fin 1 → ℝ)) (_u : Slot U) (_t : ℕ) : PyM ℝ := .ok o.logxnMax

/-- `Model.eval_logp_x0` (standard_nonlin_model.py:73-78). -/
noncomputable def stdEvalX0 (o : StdObj) (part : List (Fin 1 → ℝ)) (_t : ℕ) : PyM (List ℝ) := lognormpdfScalar (part.map (· 0)) o.p0

/-- NumPy broadcasting of two arrays along the first axis. -/
def npBroadcast {α β : Type} (a : List α) (b : List β) : PyM (List (α × β)) :=
  if a.length = b.length then .ok (a.zip b)
  else match a, b with
    | [x], b => .ok (b.map fun y => (x, y))
    | a, [y] => .ok (a.map fun x => (x, y))
    | _, _ => .error .valueError

/-- `kalman.lognormpdf_scalar` on an array with nan entries, which are `none` here. -/
noncomputable def nanLogpdf (err : List (Option ℝ)) (s : ℝ) : PyM (List (Option ℝ)) :=
  if s ≤ 0 then .error .valueError
  else .ok (err.map fun e => e.map fun e => -(1 / 2) * (l2pi + Real.log s + e ^ 2 / s))

/-- `numpy.sum` of an array that may have nan entries. -/
noncomputable def nanSum (l : List (Option ℝ)) : Option ℝ := (l.mapM id).map List.sum

/-- `Model.eval_logp_y_fulltraj` (standard_nonlin_model.py:96-102) on the array of smoothed estimates. Simplification: no trajectories (`M = 0`) gives 0
instead of nan. -/
noncomputable def stdYFull (o : StdObj) (sest : List (List (Fin 1 → ℝ))) (yt : List (Slot (Fin 1 → ℝ))) : PyM (Option ℝ) := do
  let M ← estShape sest
  let pairs ← npBroadcast sest (yt.map stdNum)
  let logp ← nanLogpdf (pairs.flatMap fun p => p.1.map fun x => p.2.map fun y => 0.05 * x 0 ^ 2 - y) o.r
  return (nanSum logp).map fun s => s / M

/-- `Model.eval_logp_xnext_fulltraj` (standard_nonlin_model.py:86-93) on the array of smoothed estimates. Simplification: as above. -/
noncomputable def stdXFull (o : StdObj) (sest : List (List (Fin 1 → ℝ))) (tt : List ℕ) : PyM ℝ := do
  let M ← estShape sest
  let pairs ← npBroadcast sest tt
  let xp := pairs.map fun p => stdPredict p.1 p.2
  let d ← npBroadcast (sest.drop 1) (xp.take (xp.length - 1))
  let logp ← lognormpdfScalar (d.flatMap fun p => List.zipWith (fun a b => a 0 - b 0) p.1 p.2) o.q
  return logp.sum / M

/-- `fval` of `ParamEstBaseNumeric.maximize` (interfaces.py:240-255) with the overridden terms, for a model whose attributes after `set_params` are `o`; nan is
`none`. -/
noncomputable def stdFval (o : StdObj) (D : SData U (Fin 1 → ℝ)) (traj : List (SStep (Fin 1 → ℝ))) : PyM (Option ℝ) := do
  let sest ← smoothedEstimates traj
  let logPy ← stdYFull o sest D.y
  let logPxnext ← stdXFull o sest D.t
  let s0 ← getIdx traj 0
  let t0 ← getIdx D.t 0
  let tmp ← stdEvalX0 o s0.pa.part t0
  return logPy.map fun a => (-1) * (a + npMean tmp + logPxnext)

/-! ### Specification -/

/-- The documented growth model: `f_t(x) = x/2 + 25 x / (1 + x²) + 8 cos(1.2 t)`. -/
noncomputable def Spec.growth (t : ℕ) (x : ℝ) : ℝ := 0.5 * x + 25 * x / (1 + x ^ 2) + 8 * Real.cos (1.2 * t)

/-- `x_{t+1} = f_t(x_t) + v_t`, `v_t ~ N(0, q)`. -/
noncomputable def Spec.growthKernel (U : Type) (q : ℝ) (t : ℕ) (_ : Slot U) : Kernel (Fin 1 → ℝ) (Fin 1 → ℝ) :=
  gaussKernel (fun x _ => growth t (x 0)) (by unfold growth; fun_prop) !![q]

/-- `log p(x_{t+1} | x_t)`. -/
noncomputable def Spec.growthTrans (q : ℝ) : ℕ → Slot U → (Fin 1 → ℝ) → (Fin 1 → ℝ) → ℝ := nlgTrans (fun t _ x _ => growth t (x 0)) fun _ _ _ => !![q]

/-- `log p(y_t | x_t)` for `y_t = x_t²/20 + e_t`, `e_t ~ N(0, r)`. -/
noncomputable def Spec.growthLik (r : ℝ) : ℕ → Slot (Fin 1 → ℝ) → (Fin 1 → ℝ) → ℝ := nlgLoglik (fun _ x _ => x 0 ^ 2 / 20) fun _ _ => !![r]

/-! ### The samplers -/

theorem growthKernel_apply {q : ℝ} (hq : 0 ≤ q) (t : ℕ) (u : Slot U) (x : Fin 1 → ℝ) : growthKernel U q t u x = gauss (fun _ => growth t (x 0)) !![q] :=
  gaussKernel_apply _ (single_posSemidef hq) x

theorem growthLik_measurable (r : ℝ) (t : ℕ) (y : Slot (Fin 1 → ℝ)) : Measurable (growthLik r t y) := by
  cases y with
  | obj y =>
    show Measurable fun x : Fin 1 → ℝ => logNormal !![r] (y - fun _ => x 0 ^ 2 / 20)
    exact (continuous_logNormal _).measurable.comp (by fun_prop)
  | none => exact measurable_const
  | zero => exact measurable_const

theorem stdMeasure_ok {o : StdObj} (hr : 0 < o.r) (part : List (Fin 1 → ℝ)) (y : Fin 1 → ℝ) (t : ℕ) :
    stdMeasure o part (.obj y) = .ok (part.map (growthLik o.r t (.obj y))) := by
  show lognormpdfScalar _ _ = _
  rw [lognormpdfScalar, if_neg (not_le.2 hr), List.map_map]
  congr 1
  refine List.map_congr_left fun x _ => ?_
  show _ = logNormal !![o.r] (y - fun _ => x 0 ^ 2 / 20)
  rw [logNormal_single _ hr, l2pi]
  simp only [Function.comp, Pi.sub_apply]
  have : (0.05 * x 0 ^ 2 - y 0) ^ 2 = (y 0 - x 0 ^ 2 / 20) ^ 2 := by ring
  rw [this]

/-- C117: the filter of the script draws from the documented model, with the variances `P0`, `Q` and `R` (unlike the filtering examples, C109). -/
theorem C117_samples {o : StdObj} (hp : 0 ≤ o.p0) (hq : 0 ≤ o.q) (hr : 0 < o.r) (N : ℕ) :
    Spec.Samples (stdModel (U := U) N o) IsObj (normals N 1) N (gauss 0 !![o.p0]) (growthKernel U o.q) (growthLik o.r) where
  create := by
    refine ⟨fun i ω _ => 0 + √o.p0 * ω i 0, fun i => ⟨scaled_measurable i _ _, ?_⟩, fun ω => ?_⟩
    · have := scaled_law i (0 : Fin 1 → ℝ) (√o.p0)
      rwa [sq_sqrt hp] at this
    · show npNormal 0 (√o.p0) ((List.ofFn ω).take N) = _
      rw [take_ofFn, npNormal_ok (sqrt_nonneg _)]
  move x u k := by
    refine ⟨fun i ω _ => growth k (x i 0) + √o.q * ω i 0, fun i => ⟨scaled_measurable i _ _, ?_⟩,
      fun ω => ⟨List.ofFn fun i _ => 0 + √o.q * ω i 0, ?_, ?_⟩⟩
    · rw [growthKernel_apply hq]
      have := scaled_law i (fun _ => growth k (x i 0)) (√o.q)
      rwa [sq_sqrt hq] at this
    · show npNormal 0 (√o.q) ((List.ofFn ω).take (List.ofFn x).length) = _
      rw [List.length_ofFn, take_ofFn, npNormal_ok (sqrt_nonneg _)]
    · show Except.ok (List.zipWith (· + ·) (stdPredict (List.ofFn x) k) (List.ofFn fun i _ => 0 + √o.q * ω i 0)) = _
      rw [stdPredict, List.map_ofFn, zipWith_ofFn']
      congr 2
      funext i j
      simp [growth]
  measure x y k hy := by
    obtain ⟨v, rfl⟩ := hy
    show stdMeasure o (List.ofFn x) (.obj v) = _
    rw [stdMeasure_ok hr _ v k, List.map_ofFn]
    rfl
  meas := growthLik_measurable o.r

theorem growth_single {s : ℝ} (hs : 0 < s) (a b : ℝ) :
    -(1 / 2) * (l2pi + Real.log s + (a - b) ^ 2 / s) = logNormal !![s] ((fun _ => b) - fun _ : Fin 1 => a) := by
  rw [logNormal_single _ hs, l2pi]
  simp only [Pi.sub_apply]
  have : (a - b) ^ 2 = (b - a) ^ 2 := by ring
  rw [this]

/-- C117: `logp_xnext` evaluates the transition log-density of the documented model. -/
theorem C117_logp_xnext {o : StdObj} (hq : 0 < o.q) : LogDensity (stdLogpXnext (U := U) o) (growthTrans o.q) := by
  intro a b u k hab
  unfold stdLogpXnext
  rw [npSub, if_pos (by simp [stdPredict, hab]), ok_bind, lognormpdfScalar, if_neg (not_le.2 hq), stdPredict, List.map_map, List.zipWith_map, List.map_zipWith]
  congr 1
  apply List.zipWith_congr
  rw [List.forall₂_iff_get]
  refine ⟨hab, fun i h1 h2 => ?_⟩
  show -(1 / 2) * (l2pi + Real.log o.q + (growth k ((a.get ⟨i, h1⟩) 0) - (b.get ⟨i, h2⟩) 0) ^ 2 / o.q) = logNormal !![o.q] (b.get ⟨i, h2⟩ - fun _ => growth k ((a.get ⟨i, h1⟩) 0))
  rw [growth_single hq]
  congr 2
  funext j
  fin_cases j
  rfl

end PyPE

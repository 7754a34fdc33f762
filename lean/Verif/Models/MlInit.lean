import Verif.Models.MlEmGrad
import Verif.Models.MlMore

/-!
# C87: `MixedNLGaussianSampledInitialGaussian` (mlnlg.py:1037-1165); C88: the smoothing proposals of mixed models (mlnlg.py:591-655)

`numpy.random.multivariate_normal` is a parameter: `mvn (mean, cov) w` is the value drawn from mean and covariance with the random bits `w : Ω`.
-/

namespace PyPE
open Matrix MeasureTheory ProbabilityTheory
open scoped MatrixOrder Matrix.Norms.L2Operator

variable {lxi lz ly p : ℕ} {U T Y Ω : Type}

/-! ## Model -/

/-- The attributes set by the constructor. -/
structure MlX0 (lxi lz : ℕ) where
  xi0 : VecR lxi
  Pxi0 : MatR lxi lxi
  z0 : VecR lz
  Pz0 : MatR lz lz

/-- `MixedNLGaussianSampledInitialGaussian.__init__` (mlnlg.py:1038-1055), the initial distribution: without `Pz0` the attribute `z0` is read
before it is set (mlnlg.py:1047). Simplification: arguments of the right shape. -/
def mlX0Init (xi0 : VecR lxi) (z0 : VecR lz) (Pxi0 : Option (MatR lxi lxi)) (Pz0 : Option (MatR lz lz)) : PyM (MlX0 lxi lz) :=
  let Pxi := match Pxi0 with
    | none => 0
    | some P => P
  match Pz0 with
  | none => .error .attributeError
  | some Pz => .ok ⟨xi0, Pxi, z0, Pz⟩

/-- `create_initial_estimate` (mlnlg.py:1057-1073): row `i` is `[xi | z0 | Pz0.ravel()]` with `xi` drawn with the random bits `w[i]`; `N` is
`w.length`. -/
def MlX0.create (o : MlX0 lxi lz) (mvn : VecR lxi × MatR lxi lxi → Ω → VecR lxi) (w : List Ω) : List (List ℝ) :=
  w.map fun w => List.ofFn (mvn (o.xi0, o.Pxi0) w) ++ List.ofFn o.z0 ++ List.ofFn (ravel o.Pz0)

/-- The default `get_rb_initial` (mlnlg.py:1075-1093). -/
def MlX0.rbInitial (o : MlX0 lxi lz) (xs : List (VecR lxi)) : List (VecR lz × MatR lz lz) := List.replicate xs.length (o.z0, o.Pz0)

/-- `cond_sampled_initial` (mlnlg.py:1095-1100); `init` is `get_rb_initial`, overridable. The new array has the shape of `part`. Simplification: rows
shorter than `lxi` raise `ValueError` in the model when read (in the code when written). -/
def mlCondSampledInitial (init : List (VecR lxi) → List (VecR lz × MatR lz lz)) (part : List (List ℝ)) : PyM (List (List ℝ)) := do
  let xi ← part.mapM (readSlice lxi 0)
  let zp := init xi
  rbSetStates (part.map fun row => List.replicate row.length 0) (xi.zip zp)

/-- `eval_logp_xi0` (mlnlg.py:1121-1135). -/
noncomputable def MlX0.logpXi0 (o : MlX0 lxi lz) (xil : List (VecR lxi)) : PyM (List ℝ) := do
  let c ← choFactor o.Pxi0
  return xil.map fun x => lognormpdfCho (x - o.xi0) c

/-- The default `get_xi_intitial_grad(N)` (mlnlg.py:1137-1145). -/
def xiInitialGrad (lxi p N : ℕ) : List ((Fin p → VecR lxi) × (Fin p → MatR lxi lxi)) := List.replicate N (fun _ => 0, fun _ => 0)

/-- `eval_logp_xi0_grad` (mlnlg.py:1147-1167); `grads` is `get_xi_intitial_grad`, overridable. -/
noncomputable def MlX0.logpXi0Grad (o : MlX0 lxi lz) (grads : ℕ → List ((Fin p → VecR lxi) × (Fin p → MatR lxi lxi)))
    (xil : List (VecR lxi)) : PyM (Fin p → ℝ) := do
  let c ← choFactor o.Pxi0
  let l ← (List.range xil.length).mapM fun i => do
    let x ← getIdx xil i
    let g ← getIdx (grads xil.length) i
    let tmp := x - o.xi0
    return fun j => 1 / 2 * logprodDerivative c (g.2 j) (vecMulVec tmp tmp) (-vecMulVec tmp (g.1 j) - (vecMulVec tmp (g.1 j))ᵀ)
  return fun j => 0 - (l.map fun r => r j).sum

/-- `eval_logp_x0` (mlnlg.py:722-746) of this class. -/
noncomputable def MlX0.evalLogpX0 (o : MlX0 lxi lz) (parts : List (RbS lxi lz)) : PyM (List ℝ) := do
  let lp ← o.logpXi0 (parts.map fun s => s.1.1)
  mlEvalX0 o.rbInitial (fun _ => lp) parts

/-- `MixedNLGaussianSampled.propose_smooth` (mlnlg.py:591-619): `prev` is `ptraj[-1].pa.part` (`None` at the first step), `up`, `tp` are the input and
time stamp of index `cur_ind - 1`; the noise of particle `i` is drawn (mlnlg.py:133-136) with the random bits `w[i]`. At the first step `find` has
`w.length` elements; the rows of `create_initial_estimate` are read back (`get_states`, C49). -/
noncomputable def mlProposeSmooth (H : MlHooks lxi lz ly U T Y) (o : MlObj lxi lz ly) (o0 : MlX0 lxi lz)
    (mvn : VecR lxi × MatR lxi lxi → Ω → VecR lxi) (prev : Option (List (RbP lxi lz))) (anc : List ℕ) (up : U) (tp : T) (w : List Ω) :
    PyM (List (RbP lxi lz)) :=
  match prev with
  | some q => do
    let prop ← fancy q anc
    let Ss ← mlNoiseCov H o prop up tp
    mlUpdate H o prop up tp (List.zipWith (fun S w => mvn (0, S) w) Ss w)
  | none => rbGetStates lxi lz (o0.create mvn w)

/-- `MixedNLGaussianSampled.logp_proposal` (mlnlg.py:621-655): the proposal of particle `i` is looked up at `find[i]`; at the first step its
linear state is weighed as well. -/
noncomputable def mlLogpProposal (H : MlHooks lxi lz ly U T Y) (o : MlObj lxi lz ly) (o0 : MlX0 lxi lz) (prop : List (RbP lxi lz))
    (prev : Option (List (RbP lxi lz))) (anc find : List ℕ) (up : U) (tp : T) : PyM (List ℝ) :=
  match prev with
  | some q => do
    let part ← fancy q anc
    mlLogpSingle H o part (xisOf prop) find up tp
  | none => o0.evalLogpX0 (prop.map fun s => (s, 0))

/-! ### Shapes of the default `get_rb_initial_grad` -/

/-- `numpy.broadcast` of two equal-length shapes; `none` when they do not fit. -/
def bcastShape : List ℕ → List ℕ → Option (List ℕ)
  | [], [] => some []
  | a :: l, b :: m => (bcastShape l m).bind fun r => if a = b then some (a :: r) else if a = 1 then some (b :: r) else if b = 1 then some (a :: r) else none
  | _, _ => none

/-- `dot` of a matrix of shape `(a, b)` with an array of shape `(c, d, e)`. -/
def dotShape23 (s : ℕ × ℕ) (u : ℕ × ℕ × ℕ) : PyM (List ℕ) := if s.2 = u.2.1 then .ok [s.1, u.1, u.2.2] else .error .valueError

/-- The first iteration (`i = j = 0`) of the gradient loop of `eval_logp_x0_val_grad` (mlnlg.py:776-780) with the default `get_rb_initial_grad`
(mlnlg.py:1102-1119), shapes only: its entries `z0_grad[i]`, `P0_grad[i]` have shape `(N, p, lz, 1)`, `(N, p, lz, lz)` - a dimension too much - so
`z0_grad[0][0].T` has shape `(1, lz, p)`; `compute_logprod_derivative` (mlnlg_compute.py:9-15) calls `cho_solve` with the sum of arrays of
shape `(p, lz, lz)` and that of `dl1`, whose first dimension has to be `lz`. -/
def defaultRbGradShapes (N p lz : ℕ) : PyM Unit :=
  if N = 0 then .error .indexError else do
    let tmp ← dotShape23 (lz, 1) (1, lz, p)
    match bcastShape tmp tmp.reverse with
    | none => .error .valueError
    | some dl1 => match bcastShape dl1 [p, lz, lz] with
      | none => .error .valueError
      | some b => if b.head? = some lz then .ok () else .error .valueError

/-! ## C87 -/

/-- **C87** The constructor keeps mean and covariances (covariance zero when `Pxi0` is not given). (Defect: `Pz0` is documented as optional, but
without it the constructor always raises `AttributeError`.) -/
theorem C87_constructor (xi0 : VecR lxi) (z0 : VecR lz) (Pxi0 : Option (MatR lxi lxi)) (Pz0 : Option (MatR lz lz)) :
    (∀ Pz, Pz0 = some Pz → ∃ o, mlX0Init xi0 z0 Pxi0 Pz0 = .ok o ∧ o.xi0 = xi0 ∧ o.z0 = z0 ∧ o.Pxi0 = Pxi0.getD 0 ∧ o.Pz0 = Pz) ∧
    (Pz0 = none → mlX0Init xi0 z0 Pxi0 Pz0 = .error .attributeError) := by
  constructor
  · rintro Pz rfl
    exact ⟨_, rfl, rfl, rfl, by cases Pxi0 <;> rfl, rfl⟩
  · rintro rfl; rfl

theorem rowOf_stores (xi : VecR lxi) (z : VecR lz) (P : MatR lz lz) :
    rbReadRow lxi lz (List.ofFn xi ++ List.ofFn z ++ List.ofFn (ravel P)) = .ok (xi, z, P) := by
  rw [rbReadRow_iff (by simp; omega)]
  refine ⟨fun i => ?_, fun i => ?_, fun i j => ?_⟩
  · rw [List.append_assoc, List.getElem?_append_left (by simp)]; simp
  · rw [List.append_assoc, List.getElem?_append_right (by simp), List.getElem?_append_left (by simp)]
    simp
  · have h := rowMajor_lt i j
    rw [List.getElem?_append_right (by simp), List.length_append, List.length_ofFn, List.length_ofFn, Nat.add_sub_cancel_left,
      List.getElem?_ofFn, dif_pos h, ravel_rowMajor P i j h]

theorem create_read (o : MlX0 lxi lz) (mvn : VecR lxi × MatR lxi lxi → Ω → VecR lxi) (w : List Ω) :
    rbGetStates lxi lz (o.create mvn w) = .ok (w.map fun w => (mvn (o.xi0, o.Pxi0) w, o.z0, o.Pz0)) := by
  unfold rbGetStates MlX0.create
  rw [mapM_ok_iff]
  refine ⟨by simp, fun i row hrow => ?_⟩
  rw [List.getElem?_map, Option.map_eq_some_iff] at hrow
  obtain ⟨a, ha, rfl⟩ := hrow
  exact ⟨_, by rw [List.getElem?_map, ha]; rfl, rowOf_stores _ _ _⟩

/-- **C87** `create_initial_estimate`: `N` rows; read back (C49), every particle has the linear statistics `(z0, Pz0)`, and the nonlinear states are
independent draws from `N(xi0, Pxi0)`. -/
theorem C87_initial_particles (o : MlX0 lxi lz) (hP : o.Pxi0.PosSemidef) [MeasurableSpace Ω] (ρ : Measure Ω) [IsProbabilityMeasure ρ]
    (mvn : VecR lxi × MatR lxi lxi → Ω → VecR lxi) (hm : ∀ a, Measurable (mvn a)) (hmvn : ∀ a, a.2.PosSemidef → ρ.map (mvn a) = Spec.gauss a.1 a.2) (N : ℕ) :
    ∃ xi : (Fin N → Ω) → Fin N → VecR lxi,
      (∀ w, rbGetStates lxi lz (o.create mvn (List.ofFn w)) = .ok (List.ofFn fun i => (xi w i, o.z0, o.Pz0))) ∧
      (Measure.pi fun _ : Fin N => ρ).map xi = Measure.pi fun _ => Spec.gauss o.xi0 o.Pxi0 := by
  refine ⟨fun w i => mvn (o.xi0, o.Pxi0) (w i), fun w => ?_, ?_⟩
  · rw [create_read, List.map_ofFn]; rfl
  · haveI : ∀ i : Fin N, SigmaFinite (ρ.map (mvn (o.xi0, o.Pxi0))) := fun i => by rw [hmvn _ hP]; infer_instance
    rw [Measure.pi_map_pi (f := fun _ => mvn (o.xi0, o.Pxi0)) (fun i => (hm _).aemeasurable)]
    simp only [hmvn (o.xi0, o.Pxi0) hP]

/-- **C87** `cond_sampled_initial` on rows that can hold a particle: the nonlinear states are kept, the linear statistics are replaced by what
`get_rb_initial` returns for these nonlinear states, everything behind them in the row is zero. -/
theorem C87_cond_sampled_initial (init : List (VecR lxi) → List (VecR lz × MatR lz lz)) (rows : List (List ℝ)) (l : List (RbP lxi lz))
    (hl : rbGetStates lxi lz rows = .ok l) (hinit : ∀ xs, (init xs).length = xs.length) :
    ∃ rows' l', mlCondSampledInitial init rows = .ok rows' ∧ rbGetStates lxi lz rows' = .ok l' ∧ l'.length = l.length ∧
      (∀ (i : ℕ) s zp, l[i]? = some s → (init (xisOf l))[i]? = some zp → l'[i]? = some (s.1, zp)) ∧
      ∀ (i : ℕ) row row', rows[i]? = some row → rows'[i]? = some row' → row'.length = row.length ∧
        ∀ k, lxi + lz + lz * lz ≤ k → k < row.length → row'[k]? = some 0 := by
  have hrl : ∀ row ∈ rows, lxi + lz + lz * lz ≤ row.length := by
    intro row hrow
    by_contra hlt
    obtain ⟨k, hk⟩ := List.mem_iff_getElem?.1 hrow
    obtain ⟨s, -, hs⟩ := (mapM_ok_iff.1 hl).2 k row hk
    rw [rbReadRow_short (by omega)] at hs
    cases hs
  obtain ⟨hll, hst⟩ := (C49_get_states rows l hrl).1 hl
  have hxi : rows.mapM (readSlice lxi 0) = .ok (xisOf l) := by
    rw [mapM_ok_iff]
    refine ⟨by simp [xisOf, hll], fun k row hk => ?_⟩
    obtain ⟨s, hs, h1, -, -⟩ := hst k row hk
    refine ⟨s.1, by rw [xisOf_getElem?, hs]; rfl, ?_⟩
    have := hrl row (List.mem_of_getElem? hk)
    exact readSlice_of (by omega) fun i => by rw [Nat.zero_add]; exact h1 i
  have hxl : (xisOf l).length = l.length := by simp [xisOf]
  have hlen : (init (xisOf l)).length = l.length := by rw [hinit, hxl]
  obtain ⟨h1, h2⟩ := C49_set_states (rows.map fun row => List.replicate row.length 0) ((xisOf l).zip (init (xisOf l)))
  obtain ⟨rows', hr⟩ := h1.2 ⟨by simp [hlen, hxl, hll], by
    intro row hrow
    obtain ⟨r, hr, rfl⟩ := List.mem_map.1 hrow
    simpa using hrl r hr⟩
  obtain ⟨g1, g2, g3⟩ := h2 rows' hr
  refine ⟨rows', _, by rw [mlCondSampledInitial, hxi, ok_bind]; exact hr, g1, by simp [hlen, hxl], fun i s zp hs hz => ?_,
    fun i row row' hi hi' => ?_⟩
  · rw [List.getElem?_zip_eq_some]
    exact ⟨by rw [xisOf_getElem?, hs]; rfl, hz⟩
  · obtain ⟨e1, e2⟩ := g3 i (List.replicate row.length 0) row' (by rw [List.getElem?_map, hi]; rfl) hi'
    refine ⟨by simpa using e1, fun k hk hkr => ?_⟩
    rw [e2 k hk, List.getElem?_replicate, if_pos hkr]

/-- **C87** `eval_logp_xi0` returns the exact log-density of `N(xi0, Pxi0)` at every nonlinear state. -/
theorem C87_logp_xi0 (o : MlX0 lxi lz) (hP : o.Pxi0.PosDef) (xil : List (VecR lxi)) :
    o.logpXi0 xil = .ok (xil.map fun x => Spec.logNormal o.Pxi0 (x - o.xi0)) ∧
    Spec.gauss o.xi0 o.Pxi0 = volume.withDensity fun x => ENNReal.ofReal (Real.exp (Spec.logNormal o.Pxi0 (x - o.xi0))) := by
  obtain ⟨c, hc, _, h, _⟩ := C42_helpers_agree o.Pxi0 hP
  refine ⟨?_, gauss_density hP _⟩
  rw [MlX0.logpXi0, hc, ok_bind, pure_eq_ok]
  simp only [h]

/-- **C87** (Defect) `Pxi0` is documented as optional: a model constructed without it always raises `LinAlgError` when its initial density is
evaluated, although its initial particles can be drawn. -/
theorem C87_no_initial_covariance [Nonempty (Fin lxi)] (xi0 : VecR lxi) (z0 : VecR lz) (Pz : MatR lz lz) (parts : List (RbS lxi lz)) :
    ∃ o, mlX0Init xi0 z0 none (some Pz) = .ok o ∧ o.logpXi0 (parts.map fun s => s.1.1) = .error .linAlgError ∧
      o.evalLogpX0 parts = .error .linAlgError := by
  have h0 : choFactor (0 : MatR lxi lxi) = .error .linAlgError := by
    unfold choFactor
    rw [dif_neg]
    intro h
    have hp : (symUpper (0 : MatR lxi lxi)).PosDef := (choFactor_ok_iff _).1 ⟨_, by unfold choFactor; rw [dif_pos h]⟩
    have hz : symUpper (0 : MatR lxi lxi) = 0 := symUpper_of_isSymm (by simp [Matrix.IsSymm])
    rw [hz] at hp
    have := hp.det_pos
    rw [det_zero] at this
    exact lt_irrefl _ this
  have h1 : (⟨xi0, 0, z0, Pz⟩ : MlX0 lxi lz).logpXi0 (parts.map fun s => s.1.1) = .error .linAlgError := by
    unfold MlX0.logpXi0
    simp only [h0]; rfl
  exact ⟨_, rfl, h1, by unfold MlX0.evalLogpX0; rw [h1]; rfl⟩

/-- **C87** `eval_logp_x0` returns for every particle the log-density of its nonlinear state plus, up to the constant `lz/2 log 2π`, the expected
log-density `log N(z; z0, Pz0)` of the initial linear state over the smoothed law of the particle. -/
theorem C87_logp_x0 (o : MlX0 lxi lz) (hPx : o.Pxi0.PosDef) (hPz : o.Pz0.PosDef) (parts : List (RbS lxi lz))
    (hP : ∀ s ∈ parts, s.1.2.2.PosSemidef) :
    o.evalLogpX0 parts = .ok (parts.map fun s => Spec.logNormal o.Pxi0 (s.1.1 - o.xi0) +
      (∫ z, Spec.logNormal o.Pz0 (z - o.z0) ∂(Spec.gauss s.1.2.1 s.1.2.2) + lz / 2 * Real.log (2 * Real.pi))) := by
  rw [MlX0.evalLogpX0, (C87_logp_xi0 o hPx _).1, ok_bind]
  obtain ⟨r, hr, hrl, hri⟩ := C82_logp_x0 o.rbInitial (fun _ => (parts.map fun s => s.1.1).map fun x => Spec.logNormal o.Pxi0 (x - o.xi0)) parts
    (by simp [MlX0.rbInitial]) (by simp) (by
      intro zp hzp
      rw [MlX0.rbInitial, List.mem_replicate] at hzp
      rw [hzp.2]; exact hPz) hP
  rw [hr]
  congr 1
  refine List.ext_getElem? fun i => ?_
  by_cases hi : i < parts.length
  · rw [hri i parts[i] (o.z0, o.Pz0) (Spec.logNormal o.Pxi0 (parts[i].1.1 - o.xi0)) (List.getElem?_eq_getElem hi)
      (by simp [MlX0.rbInitial, hi]) (by simp [hi])]
    simp [hi]
  · rw [List.getElem?_eq_none (by omega), List.getElem?_eq_none (by simpa using Nat.le_of_not_lt hi)]

theorem trace_outer {k : ℕ} (A : MatR k k) (x : VecR k) : (A * vecMulVec x x).trace = x ⬝ᵥ A *ᵥ x := by
  rw [trace_mul_comm, vecMulVec_mul, trace_vecMulVec, dotProduct_comm, ← dotProduct_mulVec]

/-- **C87** `eval_logp_xi0_grad` for a model with parameters, when `get_xi_intitial_grad` returns the derivatives of `xi0` and `Pxi0`: exactly the
gradient of the total log-density of the nonlinear states. -/
theorem C87_xi0_gradient (o : (Fin p → ℝ) → MlX0 lxi lz) (params : Fin p → ℝ) (hP : (o params).Pxi0.PosDef)
    (grads : ℕ → List ((Fin p → VecR lxi) × (Fin p → MatR lxi lxi))) (dx : Fin p → VecR lxi) (dP : Fin p → MatR lxi lxi)
    (hg : ∀ N, grads N = List.replicate N (dx, dP))
    (hx : ∀ j, Spec.VecDerivAt (fun θ => (o (Function.update params j θ)).xi0) (dx j) (params j))
    (hPd : ∀ j, Spec.MatDerivAt (fun θ => (o (Function.update params j θ)).Pxi0) (dP j) (params j)) (xil : List (VecR lxi)) :
    ∃ g, (o params).logpXi0Grad grads xil = .ok g ∧ ∀ j, HasDerivAt (fun θ => (xil.map fun x =>
      Spec.logNormal (o (Function.update params j θ)).Pxi0 (x - (o (Function.update params j θ)).xi0)).sum) (g j) (params j) := by
  have hupd : ∀ j, Function.update params j (params j) = params := fun j => Function.update_eq_self j params
  obtain ⟨c, hc, hv⟩ := choHalf_eq hP
  set G : VecR lxi → Fin p → ℝ := fun x j => 1 / 2 * logprodDerivative c (dP j) (vecMulVec (x - (o params).xi0) (x - (o params).xi0))
    (-vecMulVec (x - (o params).xi0) (dx j) - (vecMulVec (x - (o params).xi0) (dx j))ᵀ) with hG
  have hcomp : (o params).logpXi0Grad grads xil = .ok fun j => 0 - ((xil.map G).map fun r => r j).sum := by
    unfold MlX0.logpXi0Grad
    rw [hc, ok_bind, mapM_range_eq xil _ (fun x => .ok (G x)), mapM_ok_map (g := G) fun _ _ => rfl]
    · rfl
    intro i x hi
    rw [getIdx_ok.2 hi, ok_bind, getIdx_ok.2 (show (grads xil.length)[i]? = some (dx, dP) by
      rw [hg, List.getElem?_replicate, if_pos (lt_of_getElem?_some hi)]), ok_bind, pure_eq_ok]
  refine ⟨_, hcomp, fun j => ?_⟩
  have hone : ∀ x ∈ xil, HasDerivAt (fun θ => Spec.logNormal (o (Function.update params j θ)).Pxi0 (x - (o (Function.update params j θ)).xi0))
      (-(G x j)) (params j) := by
    intro x _
    have hdd : Spec.VecDerivAt (fun θ => x - (o (Function.update params j θ)).xi0) (-dx j) (params j) := by
      have := vecDeriv_sub (vecDeriv_const (x := params j) x) (hx j)
      simpa using this
    have hp : ((fun θ => (o (Function.update params j θ)).Pxi0) (params j)).PosDef := by simp only [hupd]; exact hP
    obtain ⟨c', h1, h2, h3⟩ := choHalf_deriv (fun θ => (o (Function.update params j θ)).Pxi0) _ _ _ _ (hPd j) (matDeriv_vecMulVec hdd hdd) hp
    simp only [hupd] at h1 h3
    obtain rfl : c = c' := Except.ok.inj (hc.symm.trans h1)
    have e : (fun θ => Spec.logNormal (o (Function.update params j θ)).Pxi0 (x - (o (Function.update params j θ)).xi0)) = fun θ =>
        -(lxi / 2) * Real.log (2 * Real.pi) + -(1 / 2) * (Real.log (o (Function.update params j θ)).Pxi0.det +
          ((o (Function.update params j θ)).Pxi0⁻¹ * vecMulVec (x - (o (Function.update params j θ)).xi0)
            (x - (o (Function.update params j θ)).xi0)).trace) := by
      funext θ
      rw [Spec.logNormal, trace_outer]
      ring
    rw [e]
    refine (h3.const_add _).congr_deriv ?_
    rw [hG]
    simp only [transpose_vecMulVec, neg_vecMulVec, vecMulVec_neg]
    rw [← neg_mul]
    congr 2
    abel
  have := hasDerivAt_list_sum xil _ (fun x => -(G x j)) (params j) hone
  refine this.congr_deriv ?_
  rw [List.map_map, zero_sub]
  clear this hone hcomp
  induction xil with
  | nil => simp
  | cons x l ih => simp only [List.map_cons, List.sum_cons, ih, Function.comp]; ring

/-- **C87** With the default `get_xi_intitial_grad` the gradient is zero, as it must be when the initial nonlinear state does not depend on the
parameters. -/
theorem C87_default_gradient (o : MlX0 lxi lz) (hP : o.Pxi0.PosDef) (xil : List (VecR lxi)) :
    o.logpXi0Grad (p := p) (xiInitialGrad lxi p) xil = .ok fun _ => 0 := by
  obtain ⟨g, h1, h2⟩ := C87_xi0_gradient (p := p) (fun _ => o) 0 hP (xiInitialGrad lxi p) (fun _ => 0) (fun _ => 0) (fun N => rfl)
    (fun j => vecDeriv_const _) (fun j => matDeriv_const _) xil
  rw [h1]
  congr 1
  funext j
  exact (h2 j).unique (hasDerivAt_const _ _)

/-- **C87** (Defect) With the default `get_rb_initial_grad` the gradient of the initial density cannot be evaluated: `ValueError` for any number of
particles, unless there is a single linear state and a single parameter. -/
theorem C87_default_rb_gradient_raises (N p lz : ℕ) (hN : 0 < N) (hp : 0 < p) (hlz : 0 < lz) (h : ¬ (lz = 1 ∧ p = 1)) :
    defaultRbGradShapes N p lz = .error .valueError := by
  unfold defaultRbGradShapes
  rw [if_neg (by omega)]
  unfold dotShape23
  by_cases h1 : lz = 1
  · subst h1
    have hp1 : p ≠ 1 := fun hp => h ⟨rfl, hp⟩
    simp [bcastShape, hp1, Ne.symm hp1]
  · simp only [if_neg (Ne.symm h1)]; rfl

/-- C87: hypotheses met by `xi0 ~ N(θ, 1)` with two particles; the gradient at `θ = 1` is `Σ (xi - 1)`. -/
example : ∃ o : (Fin 1 → ℝ) → MlX0 1 1, (∀ θ, mlX0Init (lxi := 1) (lz := 1) (fun _ => θ 0) 0 (some 1) (some 1) = .ok (o θ)) ∧
    ∃ g, (o 1).logpXi0Grad (p := 1) (fun N => List.replicate N (fun _ _ => 1, fun _ => 0)) [fun _ => 3, fun _ => 0] = .ok g ∧ g 0 = 1 := by
  refine ⟨fun θ => ⟨fun _ => θ 0, 1, 0, 1⟩, fun θ => rfl, ?_⟩
  obtain ⟨g, h1, h2⟩ := C87_xi0_gradient (p := 1) (lxi := 1) (lz := 1) (fun θ => ⟨fun _ => θ 0, 1, 0, 1⟩) 1 PosDef.one
    (fun N => List.replicate N (fun _ _ => 1, fun _ => 0)) (fun _ _ => 1) (fun _ => 0) (fun N => rfl)
    (fun j i => by fin_cases j; simpa using hasDerivAt_id' (1 : ℝ)) (fun j => matDeriv_const _) [fun _ => 3, fun _ => 0]
  refine ⟨g, h1, ?_⟩
  have h3 := h2 0
  have e : (fun θ : ℝ => ([fun _ => 3, fun _ => 0].map fun x : VecR 1 => Spec.logNormal (1 : MatR 1 1)
      (x - fun _ => Function.update (1 : Fin 1 → ℝ) 0 θ 0)).sum) =
      fun θ => -(1 / 2) * Real.log (2 * Real.pi) - 1 / 2 * (3 - θ) ^ 2 + (-(1 / 2) * Real.log (2 * Real.pi) - 1 / 2 * θ ^ 2) := by
    funext θ
    simp [Spec.logNormal, dotProduct]
    ring
  rw [e] at h3
  have h4 : HasDerivAt (fun θ : ℝ => -(1 / 2) * Real.log (2 * Real.pi) - 1 / 2 * (3 - θ) ^ 2 + (-(1 / 2) * Real.log (2 * Real.pi) - 1 / 2 * θ ^ 2))
      1 1 := by
    have a : HasDerivAt (fun θ : ℝ => 3 - θ) (-1) 1 := by simpa using (hasDerivAt_id' (1 : ℝ)).const_sub 3
    exact ((((a.pow 2).const_mul (1 / 2 : ℝ)).const_sub _).add
      ((((hasDerivAt_id' (1 : ℝ)).pow 2).const_mul (1 / 2 : ℝ)).const_sub _)).congr_deriv (by norm_num)
  exact h3.unique h4

/-! ## C88 -/

/-- The log-density of the next nonlinear state given the particle. -/
noncomputable def xiLogDens (M : Spec.RbModel lxi lz ly U T Y) (q : RbP lxi lz) (u : U) (t : T) (x : VecR lxi) : ℝ :=
  Spec.logNormal (M.Axi q.1 u t * q.2.2 * (M.Axi q.1 u t)ᵀ + M.Qxi q.1 u t) (x - (M.Axi q.1 u t *ᵥ q.2.1 + M.fxi q.1 u t))

theorem xiLogDens_law {M : Spec.RbModel lxi lz ly U T Y} (hG : M.Good) (p : RbP lxi lz) (hPp : p.2.2.PosSemidef) (u : U) (t : T) :
    (M.step p u t).map Prod.snd = volume.withDensity fun x => ENNReal.ofReal (Real.exp (xiLogDens M p u t x)) := by
  have hSp : (M.Axi p.1 u t * p.2.2 * (M.Axi p.1 u t)ᵀ + M.Qxi p.1 u t).PosDef :=
    Matrix.PosDef.posSemidef_add (posSemidef_conj hPp _) (hG.Qxi p.1 u t)
  have hK : p.2.2 * (M.Axi p.1 u t)ᵀ * (M.Axi p.1 u t * p.2.2 * (M.Axi p.1 u t)ᵀ + M.Qxi p.1 u t)⁻¹ *
      (M.Axi p.1 u t * p.2.2 * (M.Axi p.1 u t)ᵀ + M.Qxi p.1 u t) = p.2.2 * (M.Axi p.1 u t)ᵀ := by
    rw [Matrix.mul_assoc, nonsing_inv_mul _ hSp.det_pos.ne'.isUnit, Matrix.mul_one]
  have hcF : Measurable (M.condF p.1 u t) := Continuous.measurable (by unfold Spec.RbModel.condF; fun_prop)
  unfold xiLogDens
  rw [step_eq M hG p hPp u t hK, ← gauss_density hSp]
  refine (normalGiven_cond ?_ ?_).1
  · exact hcF.add (Continuous.measurable (by fun_prop))
  · exact (posSemidef_conj (posterior_posSemidef hPp (hG.Qxi p.1 u t).posSemidef hK) _).add (hG.Qz p.1 u t)

theorem mlLogpSingle_eq {H : MlHooks lxi lz ly U T Y} {o : MlObj lxi lz ly} {M : Spec.RbModel lxi lz ly U T Y} (hD : Spec.RbDescribes H o M)
    (hG : M.Good) (N : ℕ) (q : Fin N → RbP lxi lz) (hP : ∀ i, (q i).2.2.PosSemidef) (u : U) (t : T) (next : List (VecR lxi)) (find : List ℕ)
    (x : Fin N → VecR lxi) (hx : fancy next find = .ok (List.ofFn x)) :
    mlLogpSingle H o (List.ofFn q) next find u t = .ok (List.ofFn fun i => xiLogDens M (q i) u t (x i)) := by
  obtain ⟨hA, hfx, hQ⟩ := mlNonlin_eq hD (xisOf (List.ofFn q)) u t
  unfold mlLogpSingle
  rw [hx, ok_bind]
  simp only [hA, hfx, hQ]
  rw [mapM_ok_iff]
  refine ⟨by simp, fun k i hk => ?_⟩
  obtain ⟨hki, rfl⟩ : k < N ∧ k = i := by
    have h1 := lt_of_getElem?_some hk
    rw [List.length_range, List.length_ofFn] at h1
    rw [List.getElem?_range (by simpa using h1)] at hk
    exact ⟨h1, Option.some.inj hk⟩
  have hSp : (M.Axi (q ⟨k, hki⟩).1 u t * (q ⟨k, hki⟩).2.2 * (M.Axi (q ⟨k, hki⟩).1 u t)ᵀ + M.Qxi (q ⟨k, hki⟩).1 u t).PosDef :=
    Matrix.PosDef.posSemidef_add (posSemidef_conj (hP _) _) (hG.Qxi _ u t)
  obtain ⟨c, hc, -, h2, -⟩ := C42_helpers_agree _ hSp
  rw [add_comm] at hc
  have hxq : (xisOf (List.ofFn q))[k]? = some (q ⟨k, hki⟩).1 := by rw [xisOf_getElem?]; simp [hki]
  refine ⟨xiLogDens M (q ⟨k, hki⟩) u t (x ⟨k, hki⟩), by simp [hki], ?_⟩
  simp only [getIdx_ok.2 (show (List.ofFn q)[k]? = some (q ⟨k, hki⟩) by simp [hki]),
    getIdx_ok.2 (show (List.ofFn x)[k]? = some (x ⟨k, hki⟩) by simp [hki]), ok_bind, mlXiLogpdf,
    getIdx_ok.2 (show ((xisOf (List.ofFn q)).map fun x => some (M.Axi x u t))[k]? = some (some (M.Axi (q ⟨k, hki⟩).1 u t)) by simp [hxq]),
    getIdx_ok.2 (show ((xisOf (List.ofFn q)).map fun x => some (M.fxi x u t))[k]? = some (some (M.fxi (q ⟨k, hki⟩).1 u t)) by simp [hxq]),
    getIdx_ok.2 (show ((xisOf (List.ofFn q)).map fun x => some (M.Qxi x u t))[k]? = some (some (M.Qxi (q ⟨k, hki⟩).1 u t)) by simp [hxq]), hc, h2,
    pure_eq_ok, add_comm (M.fxi _ u t), xiLogDens]

/-- **C88** `propose_smooth` and `logp_proposal` after the first time step (one nonlinear state): the proposed nonlinear states are independent, the
proposal of ancestor `anc[i]` has the exact law of the next nonlinear state given that particle, the linear statistics that go with it are the
exact conditional law given the proposed nonlinear state; `logp_proposal` returns for `i` the log-density of that law, at the nonlinear state of
proposal `find[i]` (its own proposal when `find` is `0, 1, ...`). -/
theorem C88_proposal {H : MlHooks 1 lz ly U T Y} {o : MlObj 1 lz ly} {M : Spec.RbModel 1 lz ly U T Y} (hD : Spec.RbDescribes H o M) (hG : M.Good)
    (o0 : MlX0 1 lz) [MeasurableSpace Ω] (ρ : Measure Ω) [IsProbabilityMeasure ρ] (mvn : VecR 1 × MatR 1 1 → Ω → VecR 1)
    (hm : ∀ a, Measurable (mvn a)) (hmvn : ∀ a, a.2.PosSemidef → ρ.map (mvn a) = Spec.gauss a.1 a.2) (prev : List (RbP 1 lz))
    (hP : ∀ s ∈ prev, s.2.2.PosSemidef) (N : ℕ) (anc : Fin N → ℕ) (ha : ∀ i, anc i < prev.length) (up : U) (tp : T) :
    ∃ (step : (Fin N → Ω) → Fin N → VecR 1) (mean : Fin N → VecR 1 → VecR lz) (cov : Fin N → MatR lz lz) (lp : Fin N → VecR 1 → ℝ),
      (∀ w, mlProposeSmooth H o o0 mvn (some prev) (List.ofFn anc) up tp (List.ofFn w) =
        .ok (List.ofFn fun i => (step w i, mean i (step w i), cov i))) ∧
      (Measure.pi fun _ : Fin N => ρ).map step = (Measure.pi fun i => (M.step (prev[anc i]'(ha i)) up tp).map Prod.snd) ∧
      (∀ i, Spec.IsCondLaw (M.step (prev[anc i]'(ha i)) up tp) fun x => Spec.gauss (mean i x) (cov i)) ∧
      (∀ i, (M.step (prev[anc i]'(ha i)) up tp).map Prod.snd = volume.withDensity fun x => ENNReal.ofReal (Real.exp (lp i x))) ∧
      ∀ (K : ℕ) (X : Fin K → RbP 1 lz) (find : Fin N → Fin K),
        mlLogpProposal H o o0 (List.ofFn X) (some prev) (List.ofFn anc) (List.ofFn fun i => (find i : ℕ)) up tp =
          .ok (List.ofFn fun i => lp i (X (find i)).1) := by
  set pp : List (RbP 1 lz) := List.ofFn fun i => prev[anc i]'(ha i) with hpp
  have hfancy : fancy prev (List.ofFn anc) = .ok pp := by
    rw [fancy_spec]
    refine ⟨by simp [hpp], fun i k hk => ?_⟩
    rw [List.getElem?_ofFn] at hk
    split at hk
    · rename_i hi
      cases hk
      have := ha ⟨i, hi⟩
      exact ⟨by simp [hpp, hi, this], this⟩
    · cases hk
  have hppl : pp.length = N := by simp [hpp]
  have hppi : ∀ i : Fin N, pp[(i : ℕ)]? = some (prev[anc i]'(ha i)) := fun i => by simp [hpp]
  have hpsd : ∀ s ∈ pp, s.2.2.PosSemidef := by
    intro s hs
    obtain ⟨i, rfl⟩ := (List.mem_ofFn' _ _).1 hs
    exact hP _ (List.getElem_mem _)
  obtain ⟨Ss, hSs, hSl, hS⟩ := C72_update_exact hD hG pp hpsd up tp
  choose S mean cov hSi hcov hup hlaw hcond using fun i : Fin N => hS i _ (hppi i)
  set q : Fin N → RbP 1 lz := fun i => prev[anc i]'(ha i) with hq
  have hSpsd : ∀ i, (S i).PosSemidef := by
    intro i
    have h1 := hSi i
    rw [← Except.ok.inj ((mlNoiseCov_eq hD pp up tp).symm.trans hSs), List.getElem?_map, hppi i] at h1
    rw [← Option.some.inj h1]
    exact (hG.Qxi _ up tp).posSemidef.add (posSemidef_conj (hP _ (List.getElem_mem _)) _)
  refine ⟨fun w i => M.Axi (q i).1 up tp *ᵥ (q i).2.1 + M.fxi (q i).1 up tp + mvn (0, S i) (w i), mean, cov, fun i => xiLogDens M (q i) up tp,
    fun w => ?_, ?_, fun i => (hcond i).1, fun i => xiLogDens_law hG _ (hP _ (List.getElem_mem _)) up tp, fun K X find => ?_⟩
  · have hSs' : Ss = List.ofFn S := by
      refine List.ext_getElem? fun k => ?_
      by_cases hk : k < N
      · rw [hSi ⟨k, hk⟩]; simp [hk]
      · rw [List.getElem?_eq_none (by omega), List.getElem?_eq_none (by simpa using Nat.le_of_not_lt hk)]
    have hnl : (List.zipWith (fun S w => mvn (0, S) w) Ss (List.ofFn w)).length = pp.length := by simp [hSl, hppl]
    have hex : ∃ r, mlUpdate H o pp up tp (List.zipWith (fun S w => mvn (0, S) w) Ss (List.ofFn w)) = .ok r ∧ r.length = N := by
      have hcalc : mlCalcXiNext H o pp (List.zipWith (fun S w => mvn (0, S) w) Ss (List.ofFn w)) up tp =
          .ok (List.zipWith (· + ·) (pp.map fun p => M.Axi p.1 up tp *ᵥ p.2.1 + M.fxi p.1 up tp)
            (List.zipWith (fun S w => mvn (0, S) w) Ss (List.ofFn w))) := by
        rw [mlCalcXiNext, mlPredXi_one hD, ok_bind, if_pos (by rw [hnl]; simp)]
      obtain ⟨r, hr, hrl, -⟩ := mlCondPredict_good hD hG pp hpsd (List.zipWith (· + ·)
        (pp.map fun p => M.Axi p.1 up tp *ᵥ p.2.1 + M.fxi p.1 up tp) (List.zipWith (fun S w => mvn (0, S) w) Ss (List.ofFn w)))
        (by rw [List.length_zipWith, hnl]; simp) up tp
      exact ⟨r, by rw [mlUpdate, hcalc, ok_bind, hr], by rw [hrl, hppl]⟩
    obtain ⟨r, hr, hrl⟩ := hex
    rw [mlProposeSmooth]
    simp only [hfancy, ok_bind, hSs, hr, Except.ok.injEq]
    refine List.ext_getElem? fun k => ?_
    by_cases hk : k < N
    · obtain ⟨r', n, e1, e2, e3, e4⟩ := hup ⟨k, hk⟩ _ hnl
      obtain rfl := Except.ok.inj (hr.symm.trans e1)
      rw [e4]
      have : n = mvn (0, S ⟨k, hk⟩) (w ⟨k, hk⟩) := by
        rw [List.getElem?_zipWith, hSi ⟨k, hk⟩] at e3
        simpa [hk] using e3.symm
      subst this
      rw [List.getElem?_ofFn, dif_pos hk]
    · rw [List.getElem?_eq_none (by omega), List.getElem?_eq_none (by simpa using Nat.le_of_not_lt hk)]
  · have hf : ∀ i, Measurable fun w => M.Axi (q i).1 up tp *ᵥ (q i).2.1 + M.fxi (q i).1 up tp + mvn (0, S i) w := fun i =>
      measurable_const.add (hm _)
    have hl' : ∀ i, ρ.map (fun w => M.Axi (q i).1 up tp *ᵥ (q i).2.1 + M.fxi (q i).1 up tp + mvn (0, S i) w) =
        (M.step (q i) up tp).map Prod.snd := fun i => by
      rw [← hlaw i, ← hmvn (0, S i) (hSpsd i), Measure.map_map (by fun_prop) (hm _)]
      rfl
    haveI : ∀ i, IsProbabilityMeasure (ρ.map (fun w => M.Axi (q i).1 up tp *ᵥ (q i).2.1 + M.fxi (q i).1 up tp + mvn (0, S i) w)) :=
      fun i => Measure.isProbabilityMeasure_map (hf i).aemeasurable
    rw [Measure.pi_map_pi (f := fun i w => M.Axi (q i).1 up tp *ᵥ (q i).2.1 + M.fxi (q i).1 up tp + mvn (0, S i) w)
      (fun i => (hf i).aemeasurable)]
    exact congrArg Measure.pi (funext hl')
  · rw [mlLogpProposal]
    simp only [hfancy, ok_bind]
    refine mlLogpSingle_eq hD hG N q (fun i => hP _ (List.getElem_mem _)) up tp _ _ (fun i => (X (find i)).1) ?_
    rw [fancy_spec]
    refine ⟨by simp, fun k i hk => ?_⟩
    rw [List.getElem?_ofFn] at hk
    split at hk
    · rename_i hkN
      cases hk
      simp [xisOf_getElem?, hkN, xisOf]
    · cases hk

/-- **C88** At the first time step the proposals are the initial particles (C87), and `logp_proposal` of particles with the initial linear statistics
(as proposed, and as left by `cond_sampled_initial`) is the log-density of the law they are drawn from plus a constant that is the same
for all particles. -/
theorem C88_initial_proposal (H : MlHooks lxi lz ly U T Y) (o : MlObj lxi lz ly) (o0 : MlX0 lxi lz) (hPx : o0.Pxi0.PosDef) (hPz : o0.Pz0.PosDef)
    [MeasurableSpace Ω] (ρ : Measure Ω) [IsProbabilityMeasure ρ] (mvn : VecR lxi × MatR lxi lxi → Ω → VecR lxi) (hm : ∀ a, Measurable (mvn a))
    (hmvn : ∀ a, a.2.PosSemidef → ρ.map (mvn a) = Spec.gauss a.1 a.2) (N : ℕ) (anc : List ℕ) (up : U) (tp : T) :
    ∃ (step : (Fin N → Ω) → Fin N → VecR lxi) (lp : VecR lxi → ℝ) (κ : ℝ),
      (∀ w, mlProposeSmooth H o o0 mvn none anc up tp (List.ofFn w) = .ok (List.ofFn fun i => (step w i, o0.z0, o0.Pz0))) ∧
      (Measure.pi fun _ : Fin N => ρ).map step = (Measure.pi fun _ => volume.withDensity fun x => ENNReal.ofReal (Real.exp (lp x))) ∧
      ∀ (xs : List (VecR lxi)) (find : List ℕ), mlLogpProposal H o o0 (xs.map fun x => (x, o0.z0, o0.Pz0)) none anc find up tp =
        .ok (xs.map fun x => lp x + κ) := by
  obtain ⟨xi, h1, h2⟩ := C87_initial_particles o0 hPx.posSemidef ρ mvn hm hmvn N
  refine ⟨xi, fun x => Spec.logNormal o0.Pxi0 (x - o0.xi0), ∫ z, Spec.logNormal o0.Pz0 (z - o0.z0) ∂(Spec.gauss o0.z0 o0.Pz0) +
    lz / 2 * Real.log (2 * Real.pi), fun w => h1 w, by rw [h2, gauss_density hPx], fun xs find => ?_⟩
  rw [mlLogpProposal]
  simp only
  rw [C87_logp_x0 o0 hPx hPz _ (by
    intro s hs
    simp only [List.map_map, List.mem_map, Function.comp] at hs
    obtain ⟨x, -, rfl⟩ := hs
    exact hPz.posSemidef), List.map_map, List.map_map]
  rfl

/-- There is such a `multivariate_normal`: mean plus a square root of the covariance times standard normal numbers. -/
theorem exists_mvn (k : ℕ) : ∃ mvn : VecR k × MatR k k → VecR k → VecR k, (∀ a, Measurable (mvn a)) ∧
    ∀ a, a.2.PosSemidef → (Spec.gauss (0 : VecR k) 1).map (mvn a) = Spec.gauss a.1 a.2 := by
  classical
  have hB : ∀ S : MatR k k, ∃ B : MatR k k, S.PosSemidef → B * Bᵀ = S := by
    intro S
    by_cases h : S.PosSemidef
    · obtain ⟨B, hB⟩ := CStarAlgebra.nonneg_iff_eq_star_mul_self.1 h.nonneg
      exact ⟨Bᵀ, fun _ => by rw [transpose_transpose, hB]; rfl⟩
    · exact ⟨0, fun h' => absurd h' h⟩
  choose B hB using hB
  refine ⟨fun a w => a.1 + B a.2 *ᵥ w, fun a => Continuous.measurable (by fun_prop), fun a ha => ?_⟩
  rw [gauss_affine_one PosSemidef.one, mulVec_zero, add_zero, Matrix.mul_one, hB _ ha]

/-- C88: hypotheses met by the toy model with its two particles in swapped order. -/
example : ∃ r, mlLogpProposal mlToyH mlToyO ⟨0, 1, 0, 1⟩ (List.ofFn fun i : Fin 2 => (fun _ => (i : ℝ), 0, 1)) (some mlToyParts) (List.ofFn ![1, 0])
    (List.ofFn fun i : Fin 2 => (i : ℕ)) 0 0 = .ok r := by
  obtain ⟨mvn, h1, h2⟩ := exists_mvn 1
  obtain ⟨_, _, _, lp, -, -, -, -, h⟩ := C88_proposal mlToy_describes mlToy_good ⟨0, 1, 0, 1⟩ (Spec.gauss 0 1) mvn h1 h2
    mlToyParts mlToyParts_psd 2 ![1, 0] (by intro i; fin_cases i <;> simp [mlToyParts]) 0 0
  exact ⟨_, h 2 (fun i => (fun _ => (i : ℝ), 0, 1)) id⟩

end PyPE

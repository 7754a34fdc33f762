import Verif.Linear.Claims
import Verif.Filter.ApfUnbiased
import Verif.Filter.PfyUnbiased
import Verif.Kalman.Single

/-!
# C109: the scalar random walk examples of `test/manual/filtering`

`basic_model.py`, `basic_model_apf.py`, `basic_model_sir.py` and `basic_model_propy.py` implement the same documented model

    x_{k+1} = x_k + v_k, v_k ~ N(0,Q),   y_k = x_k + e_k, e_k ~ N(0,R),   x(0) ~ N(0,P0)

for four different filters. Here the four classes are modelled and what their filters estimate is compared with the Kalman filter for the
documented model.
-/

namespace PyPE
open Real Spec MeasureTheory ProbabilityTheory Matrix
open scoped ENNReal

variable {U : Type}

/-- The documented random walk with variances `q` and `r` (the docstring of the four classes). -/
def Spec.randomWalk (U : Type) (q r : ℝ) : LinearModel 1 1 U where
  A _ _ := 1
  f _ _ := 0
  Q _ _ := !![q]
  C _ := 1
  h _ := 0
  R _ := !![r]

/-- What the Kalman filter computes for a linear model is what the particle filters estimate. -/
theorem kalman_value {n m : ℕ} (L : LinearModel n m U) (hQ : ∀ t u, (L.Q t u).PosSemidef) (hR : ∀ t, (L.R t).PosDef) (z0 : Fin n → ℝ)
    {P0 : Matrix (Fin n) (Fin n) ℝ} (hP : P0.PosSemidef) (first : Option (Fin m → ℝ)) (qs : List (Slot U × (Fin m → ℝ))) :
    ∃ z P ll, kfData z0 P0 (L.start first ++ L.data 0 qs) = .ok (z, P, ll) ∧ ∀ φ : (Fin n → ℝ) → ℝ≥0∞, Measurable φ →
      exactValue (gauss z0 P0) L.kernel L.lik (first.map .obj) (asSlots qs) φ = ENNReal.ofReal (exp ll) * ∫⁻ x, φ x ∂(gauss z P) := by
  obtain ⟨z, P, ll, h1, h2, h3⟩ := C71_filter_exact z0 P0 hP (L.start first ++ L.data 0 qs) (by
    intro op h
    rcases List.mem_append.mp h with h | h
    · exact L.start_good hR first op h
    · exact L.data_good hQ hR qs 0 op h)
  refine ⟨z, P, ll, h1, fun φ hφ => ?_⟩
  rw [filtered_exactValue L hQ (L.kernel_apply hQ) hφ (gauss z0 P0) first qs, h3, lintegral_smul_measure, smul_eq_mul]

/-- `numpy.random.normal(loc, scale, (N,)).reshape((-1, 1))`: the standard normal draws scaled by the *standard deviation* `scale`; `ValueError`
for a negative one. -/
noncomputable def npNormal (loc scale : ℝ) (w : List (Fin 1 → ℝ)) : PyM (List (Fin 1 → ℝ)) :=
  if scale < 0 then .error .valueError else .ok (w.map fun w _ => loc + scale * w 0)

/-- `for k in range(len(particles)): kalman.lognormpdf(particles[k].reshape(-1, 1) - y, self.R)` (basic_model.py:42-47, basic_model_apf.py:42-47,
basic_model_sir.py:66-71). The measurement is a number, stored here as an array with one entry. -/
noncomputable def basicMeasure (r : ℝ) (part : List (Fin 1 → ℝ)) (y : Slot (Fin 1 → ℝ)) : PyM (List ℝ) :=
  match y with
  | .obj y => part.mapM fun x => lognormpdf (x - y) !![r]
  | _ => .error .typeError

/-- `class Model` of basic_model.py:21-47 (and basic_model_apf.py:21-47): `create_initial_estimate`, `sample_process_noise`, `update` and
`measure`; `P0` and `Q` are numbers, as in the script (lines 63-64). The draws that `numpy.random.normal` makes are the first entries of `ω`. -/
noncomputable def basicModel (N : ℕ) (p0 q r : ℝ) : MarkovModel (Fin 1 → ℝ) U (Fin 1 → ℝ) (List (Fin 1 → ℝ)) (Fin N → Fin 1 → ℝ) where
  createInitial k ω := npNormal 0 p0 ((List.ofFn ω).take k)
  sampleProcessNoise part _ _ ω := npNormal 0 q ((List.ofFn ω).take part.length)
  update part _ _ noise := .ok (List.zipWith (· + ·) part noise)
  measure part y _ := basicMeasure r part y

/-- `eval_1st_stage_weights` of basic_model_apf.py:49-66, on top of the other callbacks `rest`. -/
noncomputable def basicApfRest {V Ω : Type} (r : ℝ) (rest : Callbacks (Fin 1 → ℝ) U (Fin 1 → ℝ) V Ω) : Callbacks (Fin 1 → ℝ) U (Fin 1 → ℝ) V Ω :=
  { rest with evalFirstStage := fun part _ y _ => basicMeasure r part y }

/-! ### One-dimensional normal laws -/

theorem normals_eval {N : ℕ} (i : Fin N) : (normals N 1).map (fun ω => ω i) = gauss (0 : Fin 1 → ℝ) 1 :=
  (measurePreserving_eval (fun _ : Fin N => gauss (0 : Fin 1 → ℝ) 1) i).map_eq

theorem scaled_measurable {N : ℕ} (i : Fin N) (a s : ℝ) : Measurable fun (ω : Fin N → Fin 1 → ℝ) (_ : Fin 1) => a + s * ω i 0 := by
  fun_prop

theorem scaled_law {N : ℕ} (i : Fin N) (μ : Fin 1 → ℝ) (s : ℝ) :
    (normals N 1).map (fun (ω : Fin N → Fin 1 → ℝ) (_ : Fin 1) => μ 0 + s * ω i 0) = gauss μ !![s ^ 2] := by
  rw [← single_law, ← normals_eval i, Measure.map_map (by fun_prop) (by fun_prop)]
  rfl

theorem npNormal_ok {loc s : ℝ} (hs : 0 ≤ s) {N : ℕ} (w : Fin N → Fin 1 → ℝ) :
    npNormal loc s (List.ofFn w) = .ok (List.ofFn fun i _ => loc + s * w i 0) := by
  rw [npNormal, if_neg (not_lt.2 hs), List.map_ofFn]
  rfl

theorem take_ofFn {α : Type} {N : ℕ} (w : Fin N → α) : (List.ofFn w).take N = List.ofFn w := List.take_of_length_le (by simp)

theorem walk_lik (q r : ℝ) (t : ℕ) (y x : Fin 1 → ℝ) : (randomWalk U q r).lik t (.obj y) x = logNormal !![r] (x - y) := by
  rw [← logNormal_neg, neg_sub]
  simp [LinearModel.lik, nlgLoglik, LinearModel.seen, randomWalk]

theorem walk_next (q r : ℝ) (t : ℕ) (u : Slot U) (x : Fin 1 → ℝ) : (randomWalk U q r).next t u x = x := by
  simp [LinearModel.next, randomWalk]

theorem basicMeasure_ok {r : ℝ} (hr : 0 < r) (q : ℝ) (part : List (Fin 1 → ℝ)) (y : Fin 1 → ℝ) (t : ℕ) :
    basicMeasure r part (.obj y) = .ok (part.map ((randomWalk U q r).lik t (.obj y))) := by
  obtain ⟨c, -, h, -⟩ := C42_helpers_agree !![r] (single_posDef hr)
  refine mapM_ok_map fun x _ => ?_
  rw [h, walk_lik]

/-! ### `basic_model.py` and `basic_model_apf.py` -/

/-- The bootstrap example draws from the walk with the *squared* parameters. -/
theorem basic_samples {p0 q r : ℝ} (hp : 0 ≤ p0) (hq : 0 ≤ q) (hr : 0 < r) (N : ℕ) :
    Spec.Samples (basicModel (U := U) N p0 q r) IsObj (normals N 1) N (gauss 0 !![p0 ^ 2]) (randomWalk U (q ^ 2) r).kernel (randomWalk U (q ^ 2) r).lik where
  create := by
    refine ⟨fun i ω _ => 0 + p0 * ω i 0, fun i => ⟨scaled_measurable i _ _, ?_⟩, fun ω => ?_⟩
    · exact scaled_law i 0 p0
    · show npNormal 0 p0 ((List.ofFn ω).take N) = _
      rw [take_ofFn, npNormal_ok hp]
  move x u k := by
    refine ⟨fun i ω _ => x i 0 + q * ω i 0, fun i => ⟨scaled_measurable i _ _, ?_⟩, fun ω => ⟨List.ofFn fun i _ => 0 + q * ω i 0, ?_, ?_⟩⟩
    · rw [LinearModel.kernel_apply _ (fun _ _ => single_posSemidef (sq_nonneg q)), walk_next]
      exact scaled_law i (x i) q
    · show npNormal 0 q ((List.ofFn ω).take (List.ofFn x).length) = _
      rw [List.length_ofFn, take_ofFn, npNormal_ok hq]
    · show Except.ok (List.zipWith (· + ·) (List.ofFn x) (List.ofFn fun i _ => 0 + q * ω i 0)) = _
      rw [zipWith_ofFn']
      congr 2
      funext i j
      fin_cases j
      simp
  measure x y k hy := by
    obtain ⟨v, rfl⟩ := hy
    show basicMeasure r (List.ofFn x) (.obj v) = _
    rw [basicMeasure_ok (U := U) hr (q ^ 2) _ v k, List.map_ofFn]
    rfl
  meas := LinearModel.lik_measurable _

/-- C109, `basic_model.py` with the bootstrap filter: for non-negative `P0`, `Q` and positive `R`, any number of particles and any resampling
threshold, the estimates have as means what the Kalman filter returns for the walk with initial variance `P0²` and process noise variance `Q²`. -/
theorem C109_bootstrap_example {p0 q r : ℝ} (hp : 0 ≤ p0) (hq : 0 ≤ q) (hr : 0 < r) {N : ℕ} (hN : 0 < N)
    {rest : Callbacks (Fin 1 → ℝ) U (Fin 1 → ℝ) (List (Fin 1 → ℝ)) (Fin N → Fin 1 → ℝ)} {res : ℝ} {name : String}
    {opts : FilterOptions (Fin 1 → ℝ)} (hn : parseFilter name = .ok .pf) {F : FilterOps (Fin 1 → ℝ) U (Fin 1 → ℝ) _ _}
    (hF : mkFilter ((basicModel N p0 q r).toCallbacks rest) N res name opts = .ok F) {T : Option ℕ} {s0 : PT (Fin 1 → ℝ) U (Fin 1 → ℝ)}
    (hs : PT.init N T 0 = .ok s0) (first : Option (Fin 1 → ℝ)) (qs : List (Slot U × (Fin 1 → ℝ))) (hne : first = none → qs ≠ []) :
    ∃ z P ll, kfData 0 !![p0 ^ 2] ((randomWalk U (q ^ 2) r).start first ++ (randomWalk U (q ^ 2) r).data 0 qs) = .ok (z, P, ll) ∧
      ∀ φ : (Fin 1 → ℝ) → ℝ≥0∞, Measurable φ →
        runE (normals N 1) F s0 (first.map .obj) (asSlots qs) (runEstimate φ) = ENNReal.ofReal (exp ll) * ∫⁻ x, φ x ∂(gauss z P) := by
  obtain ⟨z, P, ll, h1, h2⟩ := kalman_value (randomWalk U (q ^ 2) r) (fun _ _ => single_posSemidef (sq_nonneg q)) (fun _ => single_posDef hr) 0
    (single_posSemidef (sq_nonneg p0)) first qs
  refine ⟨z, P, ll, h1, fun φ hφ => ?_⟩
  rw [← h2 φ hφ]
  have hu := C89_bootstrap_unbiased hN (basic_samples hp hq hr N) hn hF hφ hs (asSlots qs) (asSlots_isObj qs)
  cases first with
  | none =>
    simp only [runE, Option.map_none, exactValue, startWeight, ENNReal.ofReal_one, one_mul]
    refine hu.2 fun h => hne rfl ?_
    cases qs with
    | nil => rfl
    | cons => cases h
  | some y => exact hu.1 (.obj y) ⟨_, rfl⟩

/-- `basic_model.py` with a negative `P0` or `Q`: `numpy.random.normal` raises. -/
theorem C109_negative_scale {p0 q r : ℝ} {N : ℕ} :
    (p0 < 0 → ∀ k ω, (basicModel (U := U) N p0 q r).createInitial k ω = .error .valueError) ∧
    (q < 0 → ∀ part u t ω, (basicModel (U := U) N p0 q r).sampleProcessNoise part u t ω = .error .valueError) :=
  ⟨fun h _ _ => if_pos h, fun h _ _ _ _ => if_pos h⟩

theorem basic_firstStage {r : ℝ} (hr : 0 < r) (q : ℝ) {V Ω : Type} (rest : Callbacks (Fin 1 → ℝ) U (Fin 1 → ℝ) V Ω) :
    Spec.FirstStage (basicApfRest r rest) IsObj fun k _ y x => (randomWalk U q r).lik (k + 1) y x := by
  rintro parts u y k ⟨v, rfl⟩
  exact basicMeasure_ok hr q parts v (k + 1)

/-- C109, `basic_model_apf.py` with the auxiliary filter: the same, with the estimate that accounts for the first-stage weights
(`Spec.apfEstimate`, C103). -/
theorem C109_apf_example {p0 q r : ℝ} (hp : 0 ≤ p0) (hq : 0 ≤ q) (hr : 0 < r) {N : ℕ} (hN : 0 < N)
    {rest : Callbacks (Fin 1 → ℝ) U (Fin 1 → ℝ) (List (Fin 1 → ℝ)) (Fin N → Fin 1 → ℝ)} {res : ℝ} {name : String}
    {opts : FilterOptions (Fin 1 → ℝ)} (hn : parseFilter name = .ok .apf) {F : FilterOps (Fin 1 → ℝ) U (Fin 1 → ℝ) _ _}
    (hF : mkFilter ((basicModel N p0 q r).toCallbacks (basicApfRest r rest)) N res name opts = .ok F) {T : Option ℕ}
    {s0 : PT (Fin 1 → ℝ) U (Fin 1 → ℝ)} (hs : PT.init N T 0 = .ok s0) (first : Option (Fin 1 → ℝ)) (qs : List (Slot U × (Fin 1 → ℝ)))
    (hne : first = none → qs ≠ []) :
    ∃ z P ll, kfData 0 !![p0 ^ 2] ((randomWalk U (q ^ 2) r).start first ++ (randomWalk U (q ^ 2) r).data 0 qs) = .ok (z, P, ll) ∧
      ∀ φ : (Fin 1 → ℝ) → ℝ≥0∞, Measurable φ →
        runE (normals N 1) F s0 (first.map .obj) (asSlots qs) (apfEstimate (fun k _ y x => (randomWalk U (q ^ 2) r).lik (k + 1) y x)
          (randomWalk U (q ^ 2) r).lik φ (first.map .obj) (asSlots qs)) = ENNReal.ofReal (exp ll) * ∫⁻ x, φ x ∂(gauss z P) := by
  obtain ⟨z, P, ll, h1, h2⟩ := kalman_value (randomWalk U (q ^ 2) r) (fun _ _ => single_posSemidef (sq_nonneg q)) (fun _ => single_posDef hr) 0
    (single_posSemidef (sq_nonneg p0)) first qs
  refine ⟨z, P, ll, h1, fun φ hφ => ?_⟩
  rw [← h2 φ hφ]
  have hu := C103_apf_unbiased hN (basic_samples hp hq hr N) (by rintro _ ⟨v, rfl⟩; simp) (basic_firstStage hr (q ^ 2) rest) hn hF hφ hs
    (asSlots qs) (asSlots_isObj qs)
  cases first with
  | none =>
    simp only [runE, Option.map_none, exactValue, startWeight, ENNReal.ofReal_one, one_mul]
    refine hu.2 fun h => hne rfl ?_
    cases qs with
    | nil => rfl
    | cons => cases h
  | some y => exact hu.1 (.obj y) ⟨_, rfl⟩

end PyPE

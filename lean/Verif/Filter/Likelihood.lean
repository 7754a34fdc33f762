import Verif.Filter.Markov
import Verif.Smooth.Chance
import Mathlib.Probability.Kernel.Basic
import Mathlib.Probability.Kernel.MeasurableLIntegral
import Mathlib.Probability.Kernel.WithDensity

/-!
# C89: the weights a run stores give an unbiased estimate of the likelihood of the data

`ParticleFilter.forward`, `SIR.forward` and `ParticleFilter.measure` keep the amount they subtract from the log-weights in
`pa.w_offset` (filter.py:159-169, 247-257), `resample` and the constructor reset it to `0` (1084, 1122).  Together with the
returned "resampled" flags this determines an estimate of the likelihood of all measurements; over the random draws of the run
its expectation is exactly the likelihood, for every number of particles and every resampling threshold.
-/

namespace PyPE
open Real Spec MeasureTheory ProbabilityTheory
open scoped ENNReal

variable {P U Y V Ω : Type}

/-! ### Specification -/

/-- The total weight of an approximation on its original scale, `Σ exp(w_i + w_offset)`. -/
noncomputable def Spec.mass (pa : PA P) : ℝ := (pa.w.map fun x => exp (x + pa.w_offset)).sum

/-- What one step contributes to the likelihood estimate: the total weight after the step divided by the total weight it
started from, which is 1 when the step resampled. -/
noncomputable def Spec.likIncr (prev next : PA P) (resampled : Bool) : ℝ :=
  mass next / if resampled then 1 else (prev.w.map exp).sum

/-- The product of the contributions of successive steps. -/
noncomputable def Spec.likProd : List (Step P) → List Bool → ℝ
  | a :: b :: l, f :: fs => likIncr a.pa b.pa f * likProd (b :: l) fs
  | _, _ => 1

/-- The likelihood estimate read off a stored trajectory and the flags returned by `forward`. -/
noncomputable def Spec.likEstimate (traj : List (Step P)) (flags : List Bool) : ℝ :=
  (match traj with
    | [] => 1
    | a :: _ => mass a.pa) * likProd traj flags

/-- The weighted mean of `φ` under an approximation. -/
noncomputable def Spec.wmean (φ : P → ℝ≥0∞) (pa : PA P) : ℝ≥0∞ :=
  (List.zipWith (fun p x => ENNReal.ofReal p * φ x) (normWeights pa.w) pa.part).sum

/-- Likelihood estimate times filtered mean of `φ` at the last step, for the outcome of a run; a run that raises contributes `0`. -/
noncomputable def Spec.runEstimate (φ : P → ℝ≥0∞) : PT P U Y × PyM (List (Option Bool)) → ℝ≥0∞
  | (s, .ok bs) => ENNReal.ofReal (likEstimate s.traj (bs.filterMap id)) *
      (match s.traj.getLast? with
        | none => 0
        | some st => wmean φ st.pa)
  | (_, .error _) => 0

/-- Expectation over the random draws of the calls `forward(u, y)`, made one after the other: every call gets fresh uniforms and
fresh model noise. -/
noncomputable def Spec.stepsE [MeasurableSpace Ω] (ν : Measure Ω) : List (Slot U × Slot Y) →
    (List (Slot U × Slot Y × Ω × Draws Ω) → ℝ≥0∞) → ℝ≥0∞
  | [], f => f []
  | q :: qs, f => ∫⁻ ω0, ∫⁻ r, ∫⁻ r2, ∫⁻ ω, stepsE ν qs (fun ds => f ((q.1, q.2, ω0, ⟨r, r2, ω⟩) :: ds)) ∂ν ∂unif ∂unif ∂ν

/-- The exact value: `E[Π_t g_t(x_t) φ(x_T) | x_k = x]` for a Markov chain with kernels `M` and likelihoods `exp ℓ`. With `φ = 1`
this is the likelihood of the measurements given `x_k = x`. -/
noncomputable def Spec.pathE [MeasurableSpace P] (M : ℕ → Slot U → Kernel P P) (ℓ : ℕ → Slot Y → P → ℝ) (φ : P → ℝ≥0∞) :
    ℕ → List (Slot U × Slot Y) → P → ℝ≥0∞
  | _, [], x => φ x
  | k, q :: qs, x => ∫⁻ x', ENNReal.ofReal (exp (ℓ (k+1) q.2 x')) * pathE M ℓ φ (k+1) qs x' ∂(M k q.1 x)

/-- The Markov model samples from the chain with initial law `μ0` and kernels `M`, and evaluates the log-likelihood `ℓ`: every
particle has the right marginal law (the particles need not be independent of each other). `good` says which measurements the
model accepts. -/
structure Spec.Samples [MeasurableSpace P] [MeasurableSpace Ω] (K : MarkovModel P U Y V Ω) (good : Slot Y → Prop) (ν : Measure Ω) (N : ℕ) (μ0 : Measure P)
    (M : ℕ → Slot U → Kernel P P) (ℓ : ℕ → Slot Y → P → ℝ) : Prop where
  create : ∃ X : Fin N → Ω → P, (∀ i, Measurable (X i) ∧ ν.map (X i) = μ0) ∧
    ∀ ω, K.createInitial N ω = .ok (List.ofFn fun i => X i ω)
  move : ∀ (x : Fin N → P) (u : Slot U) (k : ℕ), ∃ X : Fin N → Ω → P, (∀ i, Measurable (X i) ∧ ν.map (X i) = M k u (x i)) ∧
    ∀ ω, ∃ v, K.sampleProcessNoise (List.ofFn x) u k ω = .ok v ∧ K.update (List.ofFn x) u k v = .ok (List.ofFn fun i => X i ω)
  measure : ∀ (x : Fin N → P) (y : Slot Y) (k : ℕ), good y → K.measure (List.ofFn x) y k = .ok (List.ofFn fun i => ℓ k y (x i))
  meas : ∀ k y, Measurable (ℓ k y)

/-! ### Sampling inside an integral -/

theorem sum_map_count (l : List ℕ) (N : ℕ) (h : ∀ i ∈ l, i < N) (g : ℕ → ℝ≥0∞) :
    (l.map g).sum = ∑ i ∈ Finset.range N, (l.count i : ℝ≥0∞) * g i := by
  rw [Finset.sum_list_map_count]
  rw [Finset.sum_subset (s₂ := Finset.range N) (fun i hi => Finset.mem_range.mpr (h i (List.mem_toFinset.mp hi)))]
  · exact Finset.sum_congr rfl fun i _ => by rw [nsmul_eq_mul]
  · intro i _ hi
    rw [List.count_eq_zero.mpr (fun hm => hi (List.mem_toFinset.mpr hm)), zero_nsmul]

theorem lintegral_drawCount {w : List ℝ} (hw : Weights w) (n j : ℕ) :
    ∫⁻ r, ENNReal.ofReal (drawCount w n j r) ∂unif = ENNReal.ofReal (n * prob w j) := by
  rw [← ofReal_integral_eq_lintegral_ofReal]
  · have := C03_sample_unbiased hw n j
    rw [intervalIntegral.integral_of_le zero_le_one] at this
    rw [← this]; rfl
  · exact drawCount_integrable hw n j
  · refine Filter.Eventually.of_forall fun r => ?_
    show 0 ≤ drawCount w n j r
    unfold drawCount; split
    · exact Nat.cast_nonneg _
    · exact le_rfl

/-- Averaging over the systematic sampler's uniform. -/
theorem lintegral_sample {w : List ℝ} (hw : Weights w) (n : ℕ) (g : ℕ → ℝ≥0∞) (G : ℝ → ℝ≥0∞)
    (hG : ∀ r a, 0 < r → r < 1 → sample w n r = .ok a → G r = (a.map g).sum) :
    ∫⁻ r, G r ∂unif = ∑ j ∈ Finset.range w.length, ENNReal.ofReal (n * prob w j) * g j := by
  have e : ∫⁻ r, G r ∂unif = ∫⁻ r, ∑ j ∈ Finset.range w.length, ENNReal.ofReal (drawCount w n j r) * g j ∂unif := by
    apply lintegral_congr_ae
    filter_upwards [unif_ae] with r hr
    obtain ⟨q, hq, hql, hqr⟩ := C01_sample_length_range hw n (r := r) ⟨hr.1.le, hr.2⟩
    rw [hG r q hr.1 hr.2 hq, sum_map_count q w.length hqr g]
    refine Finset.sum_congr rfl fun j _ => ?_
    simp only [drawCount, hq, ENNReal.ofReal_natCast]
  rw [e, lintegral_finset_sum' _ (fun j _ => ?_)]
  · refine Finset.sum_congr rfl fun j _ => ?_
    rw [lintegral_mul_const'', lintegral_drawCount hw]
    exact (drawCount_integrable hw n j).aestronglyMeasurable.aemeasurable.ennreal_ofReal
  · exact ((drawCount_integrable hw n j).aestronglyMeasurable.aemeasurable.ennreal_ofReal).mul_const _

/-! ### One step -/

theorem zipWith_ofFn' {α β γ : Type} {n : ℕ} (f : α → β → γ) (a : Fin n → α) (b : Fin n → β) :
    List.zipWith f (List.ofFn a) (List.ofFn b) = List.ofFn fun i => f (a i) (b i) := by
  apply List.ext_getElem <;> simp

theorem wmean_ofFn {N : ℕ} (φ : P → ℝ≥0∞) {pa : PA P} {x : Fin N → P} {w : Fin N → ℝ} (hx : pa.part = List.ofFn x)
    (hw : pa.w = List.ofFn w) : wmean φ pa = ∑ i, ENNReal.ofReal (exp (w i) / ∑ j, exp (w j)) * φ (x i) := by
  unfold wmean normWeights
  rw [hx, hw]
  simp only [List.map_ofFn]
  rw [zipWith_ofFn', List.sum_ofFn, List.sum_ofFn]
  rfl

theorem mass_ofFn {N : ℕ} {pa : PA P} {w : Fin N → ℝ} (hw : pa.w = List.ofFn w) :
    mass pa = ∑ i, exp (w i + pa.w_offset) := by
  unfold mass
  rw [hw, List.map_ofFn, List.sum_ofFn]; rfl

theorem mass_sum {N : ℕ} (hN : 0 < N) (c : Fin N → ℝ≥0∞) {pa : PA P} {w : Fin N → ℝ}
    (hw : pa.w = List.ofFn w) (D : ℝ) (hD : 0 < D) :
    ENNReal.ofReal (mass pa / D) * ∑ i, ENNReal.ofReal (exp (w i) / ∑ j, exp (w j)) * c i =
      ∑ i, ENNReal.ofReal (exp (w i + pa.w_offset) / D) * c i := by
  rw [mass_ofFn hw, Finset.mul_sum]
  haveI : Nonempty (Fin N) := ⟨⟨0, hN⟩⟩
  have hs : 0 < ∑ j, exp (w j) := Finset.sum_pos (fun _ _ => exp_pos _) Finset.univ_nonempty
  refine Finset.sum_congr rfl fun i _ => ?_
  rw [← mul_assoc, ← ENNReal.ofReal_mul (div_nonneg (Finset.sum_nonneg fun _ _ => (exp_pos _).le) hD.le)]
  congr 2
  simp only [exp_add, ← Finset.sum_mul]
  field_simp

theorem mass_wmean {N : ℕ} (hN : 0 < N) (φ : P → ℝ≥0∞) {pa : PA P} {x : Fin N → P} {w : Fin N → ℝ} (hx : pa.part = List.ofFn x)
    (hw : pa.w = List.ofFn w) (D : ℝ) (hD : 0 < D) :
    ENNReal.ofReal (mass pa / D) * wmean φ pa = ∑ i, ENNReal.ofReal (exp (w i + pa.w_offset) / D) * φ (x i) := by
  rw [wmean_ofFn φ hx hw, mass_sum hN (fun i => φ (x i)) hw D hD]

/-- A filter step is sequential importance resampling with proposal kernel `κ` and log-weight increment `inc`. -/
def StepLaw [MeasurableSpace P] [MeasurableSpace Ω] (F : FilterOps P U Y V Ω) (ν : Measure Ω) (N : ℕ) (res : ℝ) (k : ℕ) (u : Slot U)
    (y : Slot Y) (κ : Kernel P P) (inc : P → P → ℝ) : Prop :=
  (∀ x, Measurable (inc x)) ∧
  ∀ x : Fin N → P, ∃ X : Fin N → Ω → P, (∀ i, Measurable (X i) ∧ ν.map (X i) = κ (x i)) ∧
    ∀ (tr : List (Step P)) (last : Step P) (yv : List (Slot Y)) (uv : List (Slot U)) (tv : List ℕ) (d : Draws Ω) (pa1 : PA P)
      (b : Bool) (anc : List ℕ), tr.getLast? = some last → uv[k]? = some u → yv[k+1]? = some y → tv[k]? = some k →
      tv[k+1]? = some (k+1) → maybeResample res ⟨last.pa.part, last.pa.w, last.pa.part.length, 0⟩ d.r = .ok (pa1, b, anc) →
      fancy last.pa.part anc = .ok (List.ofFn x) → pa1.part = List.ofFn x → pa1.w.length = N → pa1.w_offset = 0 →
      ∃ pa w', F.forward tr yv uv tv k d = .ok (pa, b, anc) ∧ pa.part = List.ofFn (fun i => X i d.ω) ∧ pa.w = List.ofFn w' ∧
        pa.num = pa1.num ∧ ∀ i : Fin N, w' i + pa.w_offset = pa1.w.getD i 0 + inc (x i) (X i d.ω)

theorem resample_spec {pa pa' : PA P} {N : ℕ} {r : ℝ} {anc : List ℕ} (h : pa.resample N r = .ok (pa', anc)) :
    ∃ m, npMax pa.w = .ok m ∧ sample (pa.w.map fun x => exp (x - m)) N r = .ok anc ∧ fancy pa.part anc = .ok pa'.part ∧
      pa'.w = List.replicate N (Real.log (1 / (N:ℝ))) ∧ pa'.w_offset = 0 := by
  unfold PA.resample at h
  obtain ⟨m, hm, h⟩ := bind_eq_ok.mp h
  obtain ⟨ind, hi, h⟩ := bind_eq_ok.mp h
  obtain ⟨part, hp, h⟩ := bind_eq_ok.mp h
  cases h
  exact ⟨m, hm, hi, hp, rfl, rfl⟩

theorem fancy_ofFn {α : Type} {N : ℕ} (x : Fin N → α) {anc : List ℕ} (hr : ∀ a ∈ anc, a < N) :
    ∃ f : Fin anc.length → Fin N, anc = List.ofFn (fun i => (f i : ℕ)) ∧ fancy (List.ofFn x) anc = .ok (List.ofFn fun i => x (f i)) := by
  refine ⟨fun i => ⟨anc[i], hr _ (List.getElem_mem _)⟩, ?_, ?_⟩
  · apply List.ext_getElem <;> simp
  · rw [fancy_spec]
    refine ⟨by simp, fun i a hi => ?_⟩
    obtain ⟨h1, h2⟩ := List.getElem?_eq_some_iff.mp hi
    subst h2
    have := hr _ (List.getElem_mem h1)
    simp [h1, this]

theorem prob_exp_sub {N : ℕ} (w : Fin N → ℝ) (m : ℝ) (j : Fin N) :
    prob ((List.ofFn w).map fun x => exp (x - m)) j = exp (w j) / ∑ i, exp (w i) := by
  unfold prob
  rw [sum_exp_sub]
  simp only [List.getD_eq_getElem?_getD, List.getElem?_map, List.getElem?_ofFn, j.2, dif_pos, Option.map_some, Option.getD_some,
    List.map_ofFn, List.sum_ofFn, Function.comp_apply, Fin.eta]
  rw [sub_eq_add_neg, exp_add, mul_comm (exp (w j)), mul_div_mul_left _ _ (exp_pos _).ne']

/-- A filter step, seen through functions `h` of the new particles: the new weight is the resampled one plus `I`, and averaging `exp(I) * h` over the model
noise gives `Q0 h` of the parent. `ok` is an invariant of the particles. -/
def OpStep [MeasurableSpace Ω] {ι : Type} (F : FilterOps P U Y V Ω) (ν : Measure Ω) (N : ℕ) (res : ℝ) (k : ℕ) (u : Slot U)
    (y : Slot Y) (ok : P → Prop) (h Q0 : ι → P → ℝ≥0∞) : Prop :=
  ∀ x : Fin N → P, (∀ i, ok (x i)) → ∃ (X : Fin N → Ω → P) (I : Fin N → Ω → ℝ),
    (∀ i j, Measurable (fun ω => ENNReal.ofReal (exp (I i ω)) * h j (X i ω)) ∧
      ∫⁻ ω, ENNReal.ofReal (exp (I i ω)) * h j (X i ω) ∂ν = Q0 j (x i)) ∧ (∀ i ω, ok (X i ω)) ∧
    ∀ (tr : List (Step P)) (last : Step P) (yv : List (Slot Y)) (uv : List (Slot U)) (tv : List ℕ) (d : Draws Ω) (pa1 : PA P)
      (b : Bool) (anc : List ℕ), tr.getLast? = some last → uv[k]? = some u → yv[k+1]? = some y → tv[k]? = some k →
      tv[k+1]? = some (k+1) → maybeResample res ⟨last.pa.part, last.pa.w, last.pa.part.length, 0⟩ d.r = .ok (pa1, b, anc) →
      fancy last.pa.part anc = .ok (List.ofFn x) → pa1.part = List.ofFn x → pa1.w.length = N → pa1.w_offset = 0 →
      ∃ pa w', F.forward tr yv uv tv k d = .ok (pa, b, anc) ∧ pa.part = List.ofFn (fun i => X i d.ω) ∧ pa.w = List.ofFn w' ∧
        pa.num = pa1.num ∧ ∀ i : Fin N, w' i + pa.w_offset = pa1.w.getD i 0 + I i d.ω

theorem StepLaw.op [MeasurableSpace P] [MeasurableSpace Ω] {ι : Type} {F : FilterOps P U Y V Ω} {ν : Measure Ω}
    {N : ℕ} {res : ℝ} {k : ℕ} {u : Slot U} {y : Slot Y} {κ : Kernel P P} {inc : P → P → ℝ}
    (hS : StepLaw F ν N res k u y κ inc) {h : ι → P → ℝ≥0∞} (hh : ∀ i, Measurable (h i)) :
    OpStep F ν N res k u y (fun _ => True) h fun j x => ∫⁻ x', ENNReal.ofReal (exp (inc x x')) * h j x' ∂(κ x) := by
  obtain ⟨hinc, hX⟩ := hS
  intro x _
  obtain ⟨X, hXm, hXs⟩ := hX x
  have hgm : ∀ i j, Measurable fun x' => ENNReal.ofReal (exp (inc (x i) x')) * h j x' := fun i j =>
    ((measurable_exp.comp (hinc (x i))).ennreal_ofReal).mul (hh j)
  refine ⟨X, fun i ω => inc (x i) (X i ω), fun i j => ⟨(hgm i j).comp (hXm i).1, ?_⟩, fun _ _ => trivial, hXs⟩
  beta_reduce
  rw [← (hXm i).2, lintegral_map (hgm i j) (hXm i).1]

/-- One step, for a function of the new particle and of the index of its ancestor. -/
theorem opStep_anc [MeasurableSpace Ω] {F : FilterOps P U Y V Ω} {ν : Measure Ω}
    {N : ℕ} (hN : 0 < N) {res : ℝ} {k : ℕ} {u : Slot U} {y : Slot Y} {ok : P → Prop}
    {h Q0 : Fin N → P → ℝ≥0∞} (hS : OpStep F ν N res k u y ok h Q0) {tr : List (Step P)} {last : Step P}
    {yv : List (Slot Y)} {uv : List (Slot U)} {tv : List ℕ} (hlast : tr.getLast? = some last) (hu : uv[k]? = some u)
    (hy : yv[k+1]? = some y) (ht : tv[k]? = some k) (ht1 : tv[k+1]? = some (k+1)) {x : Fin N → P} {w : Fin N → ℝ}
    (hx : last.pa.part = List.ofFn x) (hok : ∀ i, ok (x i)) (hw : last.pa.w = List.ofFn w) (G : Draws Ω → ℝ≥0∞)
    (hG : ∀ d pa b anc (x' : Fin N → P) (w' : Fin N → ℝ) (f : Fin N → Fin N), 0 < d.r → d.r < 1 →
      F.forward tr yv uv tv k d = .ok (pa, b, anc) → pa.part = List.ofFn x' → pa.w = List.ofFn w' → pa.num = N → anc = List.ofFn (fun i => (f i : ℕ)) →
      (∀ i, ok (x' i)) → G d = ENNReal.ofReal (likIncr last.pa pa b) * ∑ i, ENNReal.ofReal (exp (w' i) / ∑ j, exp (w' j)) * h (f i) (x' i)) :
    ∫⁻ r, ∫⁻ r2, ∫⁻ ω, G ⟨r, r2, ω⟩ ∂ν ∂unif ∂unif =
      ∑ i, ENNReal.ofReal (exp (w i) / ∑ j, exp (w j)) * Q0 i (x i) := by
  set Q : Fin N → ℝ≥0∞ := fun i => Q0 i (x i) with hQ
  haveI : Nonempty (Fin N) := ⟨⟨0, hN⟩⟩
  have hs : 0 < ∑ j, exp (w j) := Finset.sum_pos (fun _ _ => exp_pos _) Finset.univ_nonempty
  have hNr : (0:ℝ) < N := by exact_mod_cast hN
  have hlen : last.pa.part.length = N := by rw [hx]; simp
  set pa0 : PA P := ⟨last.pa.part, last.pa.w, last.pa.part.length, 0⟩ with hpa0
  have hwf : pa0.WF N := ⟨hlen, by simp [hpa0, hw], hlen⟩
  have hwne : pa0.w ≠ [] := hwf.w_ne hN
  -- the average over the model noise, given the resampled particles
  have hω : ∀ (f : Fin N → Fin N) (v : Fin N → ℝ) (D : ℝ) (r r2 : ℝ), 0 < D → 0 < r → r < 1 →
      (∀ i, 0 ≤ v i) →
      (∃ pa1 b anc, maybeResample res pa0 r = .ok (pa1, b, anc) ∧ anc = List.ofFn (fun i => (f i : ℕ)) ∧
        fancy last.pa.part anc = .ok (List.ofFn fun i => x (f i)) ∧ pa1.part = List.ofFn (fun i => x (f i)) ∧ pa1.WF N ∧ pa1.w_offset = 0 ∧ (if b then (1:ℝ) else (last.pa.w.map exp).sum) = D ∧
        ∀ i : Fin N, exp (pa1.w.getD i 0) / D = v i) →
      ∫⁻ ω, G ⟨r, r2, ω⟩ ∂ν = ∑ i, ENNReal.ofReal (v i) * Q (f i) := by
    rintro f v D r r2 hD h0 h1 hv ⟨pa1, b, anc, e1, ea, e2, e3, e4, e5, e6, e7⟩
    obtain ⟨X, I, hXm, hXo, hXs⟩ := hS (fun i => x (f i)) (fun i => hok (f i))
    have hGe : ∀ ω, G ⟨r, r2, ω⟩ = ∑ i, ENNReal.ofReal (v i) *
        (ENNReal.ofReal (exp (I i ω)) * h (f i) (X i ω)) := by
      intro ω
      obtain ⟨pa, w', f1, f2, f3, fn, f4⟩ := hXs tr last yv uv tv ⟨r, r2, ω⟩ pa1 b anc hlast hu hy ht ht1 e1 e2 e3 e4.w_len e5
      rw [hG ⟨r, r2, ω⟩ pa b anc _ _ f h0 h1 f1 f2 f3 (fn.trans e4.num_eq) ea (fun i => hXo i ω), likIncr, e6, mass_sum hN (fun i => h (f i) (X i ω)) f3 D hD]
      refine Finset.sum_congr rfl fun i _ => ?_
      rw [f4 i, exp_add, mul_div_right_comm, e7 i, ENNReal.ofReal_mul (hv i), mul_assoc]
    have hcm := fun i => (hXm i (f i)).1
    simp only [hGe]
    rw [lintegral_finset_sum _ (fun i _ => (hcm i).const_mul _)]
    refine Finset.sum_congr rfl fun i _ => ?_
    rw [lintegral_const_mul _ (hcm i)]
    rw [(hXm i (f i)).2]
  by_cases hres : 0 < res ∧ ess last.pa.w < res * N
  · -- resampling
    obtain ⟨m, hm⟩ := npMax_ok hwne
    have hW := weights_exp_sub hwne m
    have key : ∀ r r2, ∀ a : List ℕ, 0 < r → r < 1 → sample (last.pa.w.map fun x => exp (x - m)) N r = .ok a →
        ∫⁻ ω, G ⟨r, r2, ω⟩ ∂ν = (a.map fun j => ENNReal.ofReal (1 / N) * (if hj : j < N then Q ⟨j, hj⟩ else 0)).sum := by
      intro r r2 a h0 h1 ha
      obtain ⟨pa1, b, anc, e1, e2, e3, e4, e5, -, e6, -⟩ := maybeResample_spec res hwf hN (r := r) ⟨h0.le, h1⟩
      have hb : b = true := e5.mpr hres
      subst hb
      obtain ⟨m', g1, g2, g3, g4, g5⟩ := resample_spec (e6 rfl)
      have hmm : m' = m := by rw [hm] at g1; exact (Except.ok.inj g1).symm
      subst hmm
      rw [show sample (last.pa.w.map fun x => exp (x - m')) N r = _ from g2] at ha
      obtain rfl := Except.ok.inj ha
      obtain ⟨f, hf1, hf2⟩ := fancy_ofFn x e4
      obtain ⟨f', hf1', hf2'⟩ : ∃ f' : Fin N → Fin N, anc = List.ofFn (fun i => (f' i : ℕ)) ∧
          fancy (List.ofFn x) anc = .ok (List.ofFn fun i => x (f' i)) := by
        clear e1 e2 g2 g3 e6 
        subst e3
        exact ⟨f, hf1, hf2⟩
      rw [hω f' (fun _ => 1 / N) 1 r r2 one_pos h0 h1 (fun _ => by positivity)
        ⟨pa1, true, anc, e1, hf1', by rw [hx]; exact hf2', ?_, e2, g5, rfl, fun i => ?_⟩]
      · rw [hf1', List.map_ofFn, List.sum_ofFn]
        refine Finset.sum_congr rfl fun i _ => ?_
        simp
      · rw [show fancy pa0.part anc = fancy (List.ofFn x) anc by rw [hpa0]; simp only [hx], hf2'] at g3
        exact (Except.ok.inj g3).symm
      · rw [g4, List.getD_eq_getElem?_getD, List.getElem?_replicate_of_lt i.2, Option.getD_some, exp_log (by positivity), div_one]
    have e2 : ∀ r2 : ℝ, ∀ r, ∀ a : List ℕ, 0 < r → r < 1 → sample (last.pa.w.map fun x => exp (x - m)) N r = .ok a →
        ∫⁻ r2, ∫⁻ ω, G ⟨r, r2, ω⟩ ∂ν ∂unif = (a.map fun j => ENNReal.ofReal (1 / N) * (if hj : j < N then Q ⟨j, hj⟩ else 0)).sum := by
      intro _ r a h0 h1 ha
      rw [lintegral_congr (fun r2 => key r r2 a h0 h1 ha), lintegral_const]
      simp
    rw [lintegral_sample hW N (fun j => ENNReal.ofReal (1 / N) * (if hj : j < N then Q ⟨j, hj⟩ else 0)) _ (e2 0)]
    have hl : (pa0.w.map fun x => exp (x - m)).length = N := by simp [hpa0, hw]
    rw [hl, Finset.sum_range]
    refine Finset.sum_congr rfl fun j _ => ?_
    rw [dif_pos j.2, ← mul_assoc, ← ENNReal.ofReal_mul (mul_nonneg hNr.le ?_)]
    · congr 2
      rw [show pa0.w = List.ofFn w from hw, prob_exp_sub, mul_comm, ← mul_assoc, one_div, inv_mul_cancel₀ hNr.ne', one_mul]
    · rw [show pa0.w = List.ofFn w from hw, prob_exp_sub]
      exact div_nonneg (exp_pos _).le hs.le
  · -- no resampling
    have key : ∀ r r2, 0 < r → r < 1 → ∫⁻ ω, G ⟨r, r2, ω⟩ ∂ν = ∑ i, ENNReal.ofReal (exp (w i) / ∑ j, exp (w j)) * Q i := by
      intro r r2 h0 h1
      obtain ⟨pa1, b, anc, e1, e2, e3, e4, e5, e6, -, -⟩ := maybeResample_spec res hwf hN (r := r) ⟨h0.le, h1⟩
      have hb : b = false := by
        rcases hbb : b with _ | _
        · rfl
        · exact absurd (e5.mp hbb) hres
      subst hb
      obtain ⟨rfl, rfl⟩ := e6 rfl
      refine hω id (fun i => exp (w i) / ∑ j, exp (w j)) (∑ j, exp (w j)) r r2 hs h0 h1 (fun i => div_nonneg (exp_pos _).le hs.le)
        ⟨pa0, false, List.range N, e1, by apply List.ext_getElem <;> simp, ?_, hx, hwf, rfl, ?_, fun i => ?_⟩
      · rw [fancy_spec, hx]
        refine ⟨by simp, fun i a hi => ?_⟩
        obtain ⟨h1, h2⟩ := List.getElem?_eq_some_iff.mp hi
        simp only [List.getElem_range] at h2
        subst h2
        simp only [List.length_range] at h1
        simp [h1]
      · rw [hw, List.map_ofFn, List.sum_ofFn]; rfl
      · simp [hpa0, hw]
    rw [lintegral_congr_ae (g := fun _ => ∑ i, ENNReal.ofReal (exp (w i) / ∑ j, exp (w j)) * Q i)]
    · rw [lintegral_const, measure_univ, mul_one]
    · filter_upwards [unif_ae] with r hr
      rw [lintegral_congr (fun r2 => key r r2 hr.1 hr.2), lintegral_const]
      simp

/-- One step, for a function of the new particle and of the index of its ancestor. -/
theorem stepLaw_anc [MeasurableSpace P] [MeasurableSpace Ω] {F : FilterOps P U Y V Ω} {ν : Measure Ω}
    {N : ℕ} (hN : 0 < N) {res : ℝ} {k : ℕ} {u : Slot U} {y : Slot Y} {κ : Kernel P P} {inc : P → P → ℝ}
    (hS : StepLaw F ν N res k u y κ inc) {h : Fin N → P → ℝ≥0∞} (hh : ∀ i, Measurable (h i)) {tr : List (Step P)} {last : Step P}
    {yv : List (Slot Y)} {uv : List (Slot U)} {tv : List ℕ} (hlast : tr.getLast? = some last) (hu : uv[k]? = some u)
    (hy : yv[k+1]? = some y) (ht : tv[k]? = some k) (ht1 : tv[k+1]? = some (k+1)) {x : Fin N → P} {w : Fin N → ℝ}
    (hx : last.pa.part = List.ofFn x) (hw : last.pa.w = List.ofFn w) (G : Draws Ω → ℝ≥0∞)
    (hG : ∀ d pa b anc (x' : Fin N → P) (w' : Fin N → ℝ) (f : Fin N → Fin N), 0 < d.r → d.r < 1 →
      F.forward tr yv uv tv k d = .ok (pa, b, anc) → pa.part = List.ofFn x' → pa.w = List.ofFn w' → pa.num = N → anc = List.ofFn (fun i => (f i : ℕ)) →
      G d = ENNReal.ofReal (likIncr last.pa pa b) * ∑ i, ENNReal.ofReal (exp (w' i) / ∑ j, exp (w' j)) * h (f i) (x' i)) :
    ∫⁻ r, ∫⁻ r2, ∫⁻ ω, G ⟨r, r2, ω⟩ ∂ν ∂unif ∂unif =
      ∑ i, ENNReal.ofReal (exp (w i) / ∑ j, exp (w j)) * ∫⁻ x', ENNReal.ofReal (exp (inc (x i) x')) * h i x' ∂(κ (x i)) :=
  opStep_anc hN (hS.op hh) hlast hu hy ht ht1 hx (fun _ => trivial) hw G fun d pa b anc x' w' f h0 h1 h2 h3 h4 h5 h6 _ =>
    hG d pa b anc x' w' f h0 h1 h2 h3 h4 h5 h6

theorem stepLaw_lintegral [MeasurableSpace P] [MeasurableSpace Ω] {F : FilterOps P U Y V Ω} {ν : Measure Ω}
    {N : ℕ} (hN : 0 < N) {res : ℝ} {k : ℕ} {u : Slot U} {y : Slot Y} {κ : Kernel P P} {inc : P → P → ℝ}
    (hS : StepLaw F ν N res k u y κ inc) {h : P → ℝ≥0∞} (hh : Measurable h) {tr : List (Step P)} {last : Step P}
    {yv : List (Slot Y)} {uv : List (Slot U)} {tv : List ℕ} (hlast : tr.getLast? = some last) (hu : uv[k]? = some u)
    (hy : yv[k+1]? = some y) (ht : tv[k]? = some k) (ht1 : tv[k+1]? = some (k+1)) {x : Fin N → P} {w : Fin N → ℝ}
    (hx : last.pa.part = List.ofFn x) (hw : last.pa.w = List.ofFn w) (G : Draws Ω → ℝ≥0∞)
    (hG : ∀ d pa b anc (x' : Fin N → P) (w' : Fin N → ℝ), 0 < d.r → d.r < 1 → F.forward tr yv uv tv k d = .ok (pa, b, anc) →
      pa.part = List.ofFn x' → pa.w = List.ofFn w' → G d = ENNReal.ofReal (likIncr last.pa pa b) * wmean h pa) :
    ∫⁻ r, ∫⁻ r2, ∫⁻ ω, G ⟨r, r2, ω⟩ ∂ν ∂unif ∂unif =
      ∑ i, ENNReal.ofReal (exp (w i) / ∑ j, exp (w j)) * ∫⁻ x', ENNReal.ofReal (exp (inc (x i) x')) * h x' ∂(κ (x i)) :=
  stepLaw_anc hN hS (h := fun _ => h) (fun _ => hh) hlast hu hy ht ht1 hx hw G fun d pa b anc x' w' _ h0 h1 hf hx' hw' _ _ => by
    rw [hG d pa b anc x' w' h0 h1 hf hx' hw', wmean_ofFn h hx' hw']

/-! ### A run -/

theorem stepsE_const_mul [MeasurableSpace Ω] (ν : Measure Ω) (c : ℝ≥0∞) (hc : c ≠ ∞) (qs : List (Slot U × Slot Y))
    (f : List (Slot U × Slot Y × Ω × Draws Ω) → ℝ≥0∞) : stepsE ν qs (fun ds => c * f ds) = c * stepsE ν qs f := by
  induction qs generalizing f with
  | nil => rfl
  | cons q qs ih =>
    simp only [stepsE, ih]
    simp only [lintegral_const_mul' c _ hc]

theorem pathE_measurable [MeasurableSpace P] (M : ℕ → Slot U → Kernel P P) {ℓ : ℕ → Slot Y → P → ℝ} (hℓ : ∀ k y, Measurable (ℓ k y))
    {φ : P → ℝ≥0∞} (hφ : Measurable φ) (qs : List (Slot U × Slot Y)) (k : ℕ) : Measurable (pathE M ℓ φ k qs) := by
  induction qs generalizing k with
  | nil => exact hφ
  | cons q qs ih =>
    exact Measurable.lintegral_kernel (κ := M k q.1)
      ((measurable_exp.comp (hℓ (k+1) q.2)).ennreal_ofReal.mul (ih (k+1)))

theorem forward_prefix {F : FilterOps P U Y V Ω} {s s' : PT P U Y} {lg : Spec.Log U Y} (h : s.Rep lg) (hne : s.traj ≠ [])
    {u : Slot U} {y : Slot Y} {ω0 : Ω} {d : Draws Ω} {b : Bool} (hf : s.forward F u y ω0 d = (s', .ok b)) :
    ∃ pa anc, s'.traj = s.traj ++ [⟨pa, anc⟩] := by
  rw [PT.forward_eq h.inv] at hf
  rcases he : s.ensureInit F ω0 with ⟨s1, r⟩
  rw [he] at hf
  cases r with
  | error e => cases hf
  | ok _ =>
    obtain rfl := ensureInit_started hne he
    simp only at hf
    split at hf
    · cases hf
    · rename_i pa res anc heq
      cases hf
      exact ⟨pa, anc, rfl⟩

/-- The sequence of `forward` calls. -/
def fwd (steps : List (Slot U × Slot Y × Ω × Draws Ω)) : List (Op U Y Ω) := steps.map fun q => .forward q.1 q.2.1 q.2.2.1 q.2.2.2

theorem run_forward_cons {F : FilterOps P U Y V Ω} {s s1 : PT P U Y} {u : Slot U} {y : Slot Y} {ω0 : Ω} {d : Draws Ω} {b : Bool}
    (hf : s.forward F u y ω0 d = (s1, .ok b)) (ops : List (Op U Y Ω)) :
    s.run F (.forward u y ω0 d :: ops) = match s1.run F ops with
      | (s, .error e) => (s, .error e)
      | (s, .ok bs) => (s, .ok (some b :: bs)) := by
  simp only [PT.run, PT.step, hf]
  rcases s1.run F ops with ⟨_, _ | _⟩ <;> rfl

theorem fwd_prefix {F : FilterOps P U Y V Ω} (steps : List (Slot U × Slot Y × Ω × Draws Ω)) {s s' : PT P U Y} {lg : Spec.Log U Y}
    (h : s.Rep lg) (hne : s.traj ≠ []) {bs : List (Option Bool)} (hrun : s.run F (fwd steps) = (s', .ok bs)) :
    ∃ l, s'.traj = s.traj ++ l := by
  induction steps generalizing s lg bs with
  | nil => cases hrun; exact ⟨[], by simp⟩
  | cons q steps ih =>
    rcases hf : s.forward F q.1 q.2.1 q.2.2.1 q.2.2.2 with ⟨s1, r⟩
    cases r with
    | error e => simp only [fwd, List.map_cons, PT.run, PT.step, hf] at hrun; cases hrun
    | ok b =>
      simp only [fwd, List.map_cons] at hrun
      rw [run_forward_cons hf] at hrun
      obtain ⟨pa, anc, h1⟩ := forward_prefix h hne hf
      rcases hr : s1.run F (fwd steps) with ⟨s2, r2⟩
      simp only [fwd] at hr
      rw [hr] at hrun
      cases r2 with
      | error e => cases hrun
      | ok bs' =>
        cases hrun
        obtain ⟨l, hl⟩ := ih (PT.forward_rep h hf) (by rw [h1]; simp) (by simp only [fwd]; exact hr)
        exact ⟨_ :: l, by rw [hl, h1]; simp; rfl⟩

/-- The estimate over the steps from index `k` on. -/
noncomputable def tailEst (φ : P → ℝ≥0∞) (k : ℕ) : PT P U Y × PyM (List (Option Bool)) → ℝ≥0∞
  | (s, .ok bs) => ENNReal.ofReal (likProd (s.traj.drop k) (bs.filterMap id)) *
      (match s.traj.getLast? with
        | none => 0
        | some st => wmean φ st.pa)
  | (_, .error _) => 0

theorem likIncr_nonneg (a b : PA P) (f : Bool) : 0 ≤ likIncr a b f := by
  unfold likIncr mass
  refine div_nonneg (List.sum_nonneg fun x hx => ?_) ?_
  · obtain ⟨z, -, rfl⟩ := List.mem_map.mp hx; exact (exp_pos _).le
  · split
    · exact zero_le_one
    · exact List.sum_nonneg fun x hx => by obtain ⟨z, -, rfl⟩ := List.mem_map.mp hx; exact (exp_pos _).le

/-- The expectation of the estimate over a sequence of steps. -/
theorem steps_value [MeasurableSpace Ω] {F : FilterOps P U Y V Ω} {ν : Measure Ω} [IsProbabilityMeasure ν]
    {N : ℕ} (hN : 0 < N) {res : ℝ} {good : Slot Y → Prop} {ok : P → Prop} {φ : P → ℝ≥0∞} {W : ℕ → List (Slot U × Slot Y) → P → ℝ≥0∞}
    (hS : ∀ k u y qs, good y → OpStep F ν N res k u y ok (fun _ : Fin N => W (k+1) qs) (fun _ => W k ((u, y) :: qs))) (hW : ∀ k, W k [] = φ)
    (qs : List (Slot U × Slot Y)) (hqs : ∀ q ∈ qs, good q.2) {s : PT P U Y} {lg : Spec.Log U Y} (hrep : s.Rep lg)
    {last : Step P} (hlast : s.traj.getLast? = some last) {x : Fin N → P} {w : Fin N → ℝ} (hx : last.pa.part = List.ofFn x)
    (hok : ∀ i, ok (x i))
    (hw : last.pa.w = List.ofFn w) {k : ℕ} (hk : s.traj.length = k + 1) :
    stepsE ν qs (fun ds => tailEst φ k (s.run F (fwd ds))) = wmean (W k qs) last.pa := by
  induction qs generalizing s lg last x w k with
  | nil =>
    simp only [stepsE, fwd, List.map_nil, PT.run, tailEst, hlast]
    simp only [List.filterMap_nil]
    have : likProd (s.traj.drop k) [] = 1 := by
      unfold likProd; split
      · simp_all
      · rfl
    rw [this, ENNReal.ofReal_one, one_mul, hW]
  | cons q qs ih =>
    have hne : s.traj ≠ [] := by intro h; rw [h] at hlast; simp at hlast
    have hys : lg.ys ≠ [] := by
      intro h; have := hrep.len; rw [h, hk] at this; simp at this
    have hind : s.ind1 = k + 1 := by rw [hrep.ind, ← hrep.len, hk]
    obtain ⟨b1, b2, b3, b4⟩ := hrep.forward_bufs hys q.1 q.2
    simp only [hind, Nat.add_sub_cancel] at b1 b2 b3 b4
    have main : ∀ ω0, ∫⁻ r, ∫⁻ r2, ∫⁻ ω, stepsE ν qs (fun ds => tailEst φ k (s.run F (fwd ((q.1, q.2, ω0, ⟨r, r2, ω⟩) :: ds))))
        ∂ν ∂unif ∂unif = wmean (W k (q :: qs)) last.pa := by
      intro ω0
      rw [opStep_anc hN (hS k q.1 q.2 qs (hqs q (by simp))) hlast b1 b2 b4 b3 hx hok hw
        (fun d => stepsE ν qs (fun ds => tailEst φ k (s.run F (fwd ((q.1, q.2, ω0, d) :: ds))))) ?_]
      · rw [wmean_ofFn _ hx hw]
      · intro d pa b anc x' w' _ h0 h1 hfw hx' hw' _ _ hok'
        rw [← wmean_ofFn _ hx' hw']
        have hf : s.forward F q.1 q.2 ω0 d = ({ s.beforeForward q.1 q.2 with traj := s.traj ++ [⟨pa, anc⟩] }, .ok b) := by
          rw [PT.forward_eq hrep.inv]
          have he : s.ensureInit F ω0 = (s, .ok ()) := by
            unfold PT.ensureInit
            rw [if_neg (by rw [hk]; omega)]
          rw [he]
          simp only [hind, Nat.add_sub_cancel, hfw]
        set s1 : PT P U Y := { s.beforeForward q.1 q.2 with traj := s.traj ++ [⟨pa, anc⟩] } with hs1
        have hrep1 := PT.forward_rep hrep hf
        have hk1 : s1.traj.length = (k + 1) + 1 := by rw [hs1]; simp [hk]
        have hlast1 : s1.traj.getLast? = some ⟨pa, anc⟩ := by rw [hs1]; simp
        rw [← ih (fun q hq => hqs q (by simp [hq])) hrep1 hlast1 (x := x') (w := w') hx' hok' hw' hk1, ← stepsE_const_mul ν _ ENNReal.ofReal_ne_top]
        congr 1
        funext ds
        have hcons : fwd ((q.1, q.2, ω0, d) :: ds) = .forward q.1 q.2 ω0 d :: fwd ds := rfl
        rw [hcons, run_forward_cons hf]
        rcases hr : s1.run F (fwd ds) with ⟨s2, r2⟩
        cases r2 with
        | error e => simp [tailEst]
        | ok bs =>
          obtain ⟨l, hl⟩ := fwd_prefix ds hrep1 (by rw [hs1]; simp) hr
          simp only [tailEst, List.filterMap_cons_some (f := id) (b := b) rfl]
          rw [← mul_assoc, ← ENNReal.ofReal_mul (likIncr_nonneg _ _ _)]
          congr 2
          have hd : s2.traj.drop k = last :: ⟨pa, anc⟩ :: l := by
            rw [hl, hs1]
            obtain ⟨pre, hpre⟩ : ∃ pre, s.traj = pre ++ [last] := ⟨s.traj.dropLast, by
              rw [List.getLast?_eq_some_getLast hne, Option.some.injEq] at hlast
              rw [← hlast, List.dropLast_append_getLast]⟩
            have hpl : pre.length = k := by rw [hpre] at hk; simpa using hk
            simp only [hpre, List.append_assoc]
            rw [List.drop_append_of_le_length (by omega), ← hpl, List.drop_length]
            rfl
          have hd1 : s2.traj.drop (k+1) = ⟨pa, anc⟩ :: l := by
            rw [show k + 1 = k + 1 from rfl, ← List.drop_drop, hd]; rfl
          rw [hd, hd1, likProd]
    simp only [stepsE]
    rw [lintegral_congr main, lintegral_const, measure_univ, mul_one]

/-- The same for importance resampling. -/
theorem steps_estimate [MeasurableSpace P] [MeasurableSpace Ω] {F : FilterOps P U Y V Ω} {ν : Measure Ω} [IsProbabilityMeasure ν]
    {N : ℕ} (hN : 0 < N) {res : ℝ} {κ : ℕ → Slot U → Slot Y → Kernel P P} {inc : ℕ → Slot U → Slot Y → P → P → ℝ}
    {good : Slot Y → Prop} (hS : ∀ k u y, good y → StepLaw F ν N res k u y (κ k u y) (inc k u y)) {M : ℕ → Slot U → Kernel P P} {ℓ : ℕ → Slot Y → P → ℝ}
    (hℓ : ∀ k y, Measurable (ℓ k y))
    (hQ : ∀ k u y (h : P → ℝ≥0∞), Measurable h → ∀ x, ∫⁻ x', ENNReal.ofReal (exp (inc k u y x x')) * h x' ∂(κ k u y x) =
      ∫⁻ x', ENNReal.ofReal (exp (ℓ (k+1) y x')) * h x' ∂(M k u x))
    {φ : P → ℝ≥0∞} (hφ : Measurable φ) (qs : List (Slot U × Slot Y)) (hqs : ∀ q ∈ qs, good q.2) {s : PT P U Y} {lg : Spec.Log U Y} (hrep : s.Rep lg)
    {last : Step P} (hlast : s.traj.getLast? = some last) {x : Fin N → P} {w : Fin N → ℝ} (hx : last.pa.part = List.ofFn x)
    (hw : last.pa.w = List.ofFn w) {k : ℕ} (hk : s.traj.length = k + 1) :
    stepsE ν qs (fun ds => tailEst φ k (s.run F (fwd ds))) = wmean (pathE M ℓ φ k qs) last.pa :=
  steps_value hN (W := pathE M ℓ φ) (ok := fun _ => True) (good := good) (fun k u y qs hy => by
    have h := (hS k u y hy).op (h := fun _ : Fin N => pathE M ℓ φ (k+1) qs) fun _ => pathE_measurable M hℓ hφ qs (k+1)
    simp only [hQ k u y _ (pathE_measurable M hℓ hφ qs (k+1))] at h
    exact h) (fun _ => rfl) qs hqs hrep hlast hx (fun _ => trivial) hw hk

theorem steps_estimate_head [MeasurableSpace Ω] {F : FilterOps P U Y V Ω} {ν : Measure Ω} [IsProbabilityMeasure ν]
    {s : PT P U Y} {k : ℕ} (hk : s.traj.length = k + 1) (hi : s.Inv) {φ : P → ℝ≥0∞} (q : Slot U × Slot Y)
    (qs : List (Slot U × Slot Y)) (ω0 : Ω) :
    ∫⁻ r, ∫⁻ r2, ∫⁻ ω, stepsE ν qs (fun ds => tailEst φ k (s.run F (fwd ((q.1, q.2, ω0, ⟨r, r2, ω⟩) :: ds)))) ∂ν ∂unif ∂unif =
      stepsE ν (q :: qs) (fun ds => tailEst φ k (s.run F (fwd ds))) := by
  simp only [stepsE]
  have he : ∀ ω0, s.ensureInit F ω0 = (s, .ok ()) := by
    intro ω0
    unfold PT.ensureInit
    rw [if_neg (by rw [hk]; omega)]
  have hf : ∀ ω0 ω1 d, s.forward F q.1 q.2 ω0 d = s.forward F q.1 q.2 ω1 d := by
    intro ω0 ω1 d
    rw [PT.forward_eq hi, PT.forward_eq hi, he, he]
  have hr : ∀ ω1 d ds, s.run F (fwd ((q.1, q.2, ω1, d) :: ds)) = s.run F (fwd ((q.1, q.2, ω0, d) :: ds)) := by
    intro ω1 d ds
    simp only [fwd, List.map_cons, PT.run, PT.step, hf ω1 ω0]
  simp only [fun ω1 d ds => hr ω1 d ds]
  rw [lintegral_const, measure_univ, mul_one]

theorem runEstimate_of_single (φ : P → ℝ≥0∞) {F : FilterOps P U Y V Ω} {s : PT P U Y} {lg : Spec.Log U Y} (hrep : s.Rep lg)
    {st : Step P} (hs : s.traj = [st]) (ds : List (Slot U × Slot Y × Ω × Draws Ω)) :
    runEstimate φ (s.run F (fwd ds)) = ENNReal.ofReal (mass st.pa) * tailEst φ 0 (s.run F (fwd ds)) := by
  rcases hr : s.run F (fwd ds) with ⟨s2, r2⟩
  cases r2 with
  | error e => simp [runEstimate, tailEst]
  | ok bs =>
    obtain ⟨l, hl⟩ := fwd_prefix ds hrep (by rw [hs]; simp) hr
    rw [hs] at hl
    simp only [runEstimate, tailEst, likEstimate, hl, List.drop_zero, List.cons_append, List.nil_append]
    rw [ENNReal.ofReal_mul, mul_assoc]
    unfold mass
    exact List.sum_nonneg fun x hx => by obtain ⟨z, -, rfl⟩ := List.mem_map.mp hx; exact (exp_pos _).le

theorem init_N {N : ℕ} {T : Option ℕ} {s0 : PT P U Y} (h0 : PT.init N T 0 = .ok s0) : s0.N = N ∧ s0.traj = [] := by
  unfold PT.init at h0
  simp only [ne_eq, not_true_eq_false, if_false] at h0
  split at h0
  · cases h0
  · cases h0; exact ⟨rfl, rfl⟩
  · cases h0; exact ⟨rfl, rfl⟩

theorem ensureInit_create {F : FilterOps P U Y V Ω} {s : PT P U Y} {N : ℕ} (hN : 0 < N) (hsN : s.N = N) (hs : s.traj = []) {x : Fin N → P}
    {ω : Ω} (hc : F.create N ω = .ok (List.ofFn x)) :
    s.ensureInit F ω = ({ s with ind1 := 1, traj := [⟨⟨List.ofFn x, List.replicate N (-Real.log N), N, 0⟩, List.range N⟩] }, .ok ()) := by
  unfold PT.ensureInit
  simp only [hs, List.length_nil, if_true, hsN, hc, PA.new, List.length_ofFn]
  rw [if_neg (by omega)]
  rfl

theorem forward_ensureInit {F : FilterOps P U Y V Ω} {s s1 : PT P U Y} {ω0 : Ω} (he : s.ensureInit F ω0 = (s1, .ok ()))
    (hne : s1.traj ≠ []) (u : Slot U) (y : Slot Y) (d : Draws Ω) : s.forward F u y ω0 d = s1.forward F u y ω0 d := by
  have he1 : s1.ensureInit F ω0 = (s1, .ok ()) := by
    unfold PT.ensureInit
    rw [if_neg (fun h => hne (List.length_eq_zero_iff.mp h))]
  unfold PT.forward
  rw [he, he1]

/-- The average over the initial particles. -/
theorem init_average [MeasurableSpace P] [MeasurableSpace Ω] {ν : Measure Ω} [IsProbabilityMeasure ν] {N : ℕ} (hN : 0 < N)
    {μ0 : Measure P} {X : Fin N → Ω → P} (hX : ∀ i, Measurable (X i) ∧ ν.map (X i) = μ0) {h : P → ℝ≥0∞} (hh : Measurable h) :
    ∫⁻ ω, ∑ i, ENNReal.ofReal (1 / N) * h (X i ω) ∂ν = ∫⁻ x, h x ∂μ0 := by
  have hm : ∀ i, Measurable fun ω => h (X i ω) := fun i => hh.comp (hX i).1
  rw [lintegral_finset_sum _ (fun i _ => (hm i).const_mul _)]
  have : ∀ i : Fin N, ∫⁻ ω, ENNReal.ofReal (1 / N) * h (X i ω) ∂ν = ENNReal.ofReal (1 / N) * ∫⁻ x, h x ∂μ0 := by
    intro i
    rw [lintegral_const_mul _ (hm i), ← (hX i).2, lintegral_map hh (hX i).1]
  have hNr : (0:ℝ) < N := by exact_mod_cast hN
  rw [Finset.sum_congr rfl fun i _ => this i, Finset.sum_const, Finset.card_univ, Fintype.card_fin, nsmul_eq_mul, ← mul_assoc,
    ← ENNReal.ofReal_natCast, ← ENNReal.ofReal_mul hNr.le, mul_one_div_cancel hNr.ne', ENNReal.ofReal_one, one_mul]

/-- The average over the initial particles. -/
theorem value_average [MeasurableSpace Ω] {ν : Measure Ω} {N : ℕ} (hN : 0 < N) {E : ℝ≥0∞} {g : Fin N → Ω → ℝ≥0∞}
    (hg : ∀ i, Measurable (g i) ∧ ∫⁻ ω, g i ω ∂ν = E) : ∫⁻ ω, ∑ i, ENNReal.ofReal (1 / N) * g i ω ∂ν = E := by
  rw [lintegral_finset_sum _ (fun i _ => (hg i).1.const_mul _)]
  have : ∀ i : Fin N, ∫⁻ ω, ENNReal.ofReal (1 / N) * g i ω ∂ν = ENNReal.ofReal (1 / N) * E := by
    intro i
    rw [lintegral_const_mul _ (hg i).1, (hg i).2]
  have hNr : (0:ℝ) < N := by exact_mod_cast hN
  rw [Finset.sum_congr rfl fun i _ => this i, Finset.sum_const, Finset.card_univ, Fintype.card_fin, nsmul_eq_mul, ← mul_assoc,
    ← ENNReal.ofReal_natCast, ← ENNReal.ofReal_mul hNr.le, mul_one_div_cancel hNr.ne', ENNReal.ofReal_one, one_mul]

/-- Both kinds of histories, for every filter whose steps act on value functions `W`. -/
theorem run_value [MeasurableSpace Ω] {F : FilterOps P U Y V Ω} {ν : Measure Ω} [IsProbabilityMeasure ν]
    {N : ℕ} (hN : 0 < N) {res : ℝ} {good : Slot Y → Prop} {ok : P → Prop} {φ : P → ℝ≥0∞} {W : ℕ → List (Slot U × Slot Y) → P → ℝ≥0∞}
    (hS : ∀ k u y qs, good y → OpStep F ν N res k u y ok (fun _ : Fin N => W (k+1) qs) (fun _ => W k ((u, y) :: qs))) (hW : ∀ k, W k [] = φ)
    {W0 : Slot Y → List (Slot U × Slot Y) → P → ℝ≥0∞} {E0 : Slot Y → List (Slot U × Slot Y) → ℝ≥0∞} {E : List (Slot U × Slot Y) → ℝ≥0∞}
    {X : Fin N → Ω → P} (hX0 : ∀ y qs i, good y → Measurable (fun ω => W0 y qs (X i ω)) ∧ ∫⁻ ω, W0 y qs (X i ω) ∂ν = E0 y qs)
    (hX : ∀ qs i, Measurable (fun ω => W 0 qs (X i ω)) ∧ ∫⁻ ω, W 0 qs (X i ω) ∂ν = E qs) (hXo : ∀ i ω, ok (X i ω))
    (hc : ∀ ω, F.create N ω = .ok (List.ofFn fun i => X i ω)) (hpfy : F.usingPfy = false)
    (hm : ∀ (tr : List (Step P)) (anc : List ℕ) (pa : PA P) (x : Fin N → P) uv yv tv (y : Slot Y), good y → (∀ i, ok (x i)) →
      pa.part = List.ofFn x → pa.w.length = N → yv[0]? = some y → tv[0]? = some 0 →
      ∃ pa' x' w', F.measure tr anc pa uv yv tv 0 = .ok pa' ∧ pa'.part = List.ofFn x' ∧ (∀ i, ok (x' i)) ∧ pa'.w = List.ofFn w' ∧
        pa'.num = pa.num ∧ ∀ i : Fin N, ∃ c, w' i + pa'.w_offset = pa.w.getD i 0 + pa.w_offset + c ∧
          ∀ qs, ENNReal.ofReal (exp c) * W 0 qs (x' i) = W0 y qs (x i))
    {T : Option ℕ} {s0 : PT P U Y} (h0 : PT.init N T 0 = .ok s0) (qs : List (Slot U × Slot Y)) (hqs : ∀ q ∈ qs, good q.2) :
    (∀ y0, good y0 → ∫⁻ ω, stepsE ν qs (fun ds => runEstimate φ (s0.run F (history (some (y0, ω)) ds))) ∂ν =
      E0 y0 qs) ∧
    (qs ≠ [] → stepsE ν qs (fun ds => runEstimate φ (s0.run F (history none ds))) = E qs) := by
  have hrep0 := PT.init_rep h0
  obtain ⟨hsN, htr⟩ := init_N h0
  have hNr : (0:ℝ) < N := by exact_mod_cast hN
  have hrepl : List.replicate N (-Real.log N) = List.ofFn (fun _ : Fin N => -Real.log N) := by
    rw [List.ofFn_const]
  have hu : exp (-Real.log N) = 1 / N := by rw [exp_neg, exp_log hNr, one_div]
  constructor
  · intro y0 hy0g
    rw [← value_average hN (fun i => hX0 y0 qs i hy0g)]
    apply lintegral_congr
    intro ω
    obtain ⟨hg, g1, g2, g3, g4⟩ := PT.growMeasure_inv hrep0.inv
    have he := ensureInit_create (s := s0.growMeasure) hN (g2.trans hsN) (by rw [← htr]; assumption) (hc ω)
    set sI : PT P U Y := { s0.growMeasure with ind1 := 1, traj := [⟨⟨List.ofFn fun i => X i ω, List.replicate N (-Real.log N), N, 0⟩,
      List.range N⟩] } with hsI
    have hrepI : sI.Rep ⟨[], [.none]⟩ := (hrep0.growMeasure.ensureInit he).1 rfl
    have hy0 : 0 < sI.yvec.length := lt_of_getElem?_some (hrepI.ys 0 (by simp))
    have ht0 : 0 < sI.tvec.length := lt_of_getElem?_some (hrepI.ts 0 (by simp))
    obtain ⟨pa', x', w', f1, f2, f2', f3, -, f4⟩ := hm sI.traj (List.range N) ⟨List.ofFn fun i => X i ω, List.replicate N (-Real.log N), N, 0⟩
      (fun i => X i ω) (sI.beforeMeasure y0).uvec (sI.beforeMeasure y0).yvec (sI.beforeMeasure y0).tvec y0 hy0g (fun i => hXo i ω) rfl (by simp)
      (by simp only [PT.beforeMeasure, hsI]; exact List.getElem?_set_self hy0)
      (by simp only [PT.beforeMeasure, hsI]; exact List.getElem?_set_self ht0)
    have hmeas : s0.measure F y0 ω = ({ sI.beforeMeasure y0 with traj := [⟨pa', List.range N⟩] }, .ok ()) := by
      rw [PT.measure_eq hpfy hrep0.inv, he]
      have hgl : getLast sI.traj = .ok ⟨⟨List.ofFn fun i => X i ω, List.replicate N (-Real.log N), N, 0⟩, List.range N⟩ := rfl
      simp only [hgl]
      have hind : sI.ind1 - 1 = 0 := rfl
      rw [hind, f1]
      rfl
    have hrep1 := PT.measure_rep hrep0 hmeas
    set s1 : PT P U Y := { sI.beforeMeasure y0 with traj := [⟨pa', List.range N⟩] } with hs1
    have hrun : ∀ ds, runEstimate φ (s0.run F (history (some (y0, ω)) ds)) = ENNReal.ofReal (mass pa') * tailEst φ 0 (s1.run F (fwd ds)) := by
      intro ds
      rw [← runEstimate_of_single φ hrep1 (st := ⟨pa', List.range N⟩) rfl ds]
      have : history (some (y0, ω)) ds = .measure y0 ω :: fwd ds := rfl
      rw [this]
      simp only [PT.run, PT.step, hmeas]
      rcases s1.run F (fwd ds) with ⟨s2, _ | bs⟩
      · rfl
      · simp only [runEstimate, List.filterMap_cons_none (f := id) (a := (none : Option Bool)) rfl]
    simp only [hrun]
    rw [stepsE_const_mul ν _ ENNReal.ofReal_ne_top, steps_value hN hS hW qs hqs hrep1 (last := ⟨pa', List.range N⟩) rfl f2 f2' f3 (k := 0) rfl]
    have := mass_wmean hN (W 0 qs) f2 f3 1 one_pos
    rw [div_one] at this
    rw [this]
    refine Finset.sum_congr rfl fun i _ => ?_
    obtain ⟨c, g1, g2⟩ := f4 i
    rw [g1, div_one, hrepl]
    simp only [List.getD_eq_getElem?_getD, List.getElem?_ofFn, i.2, dif_pos, Option.getD_some, add_zero]
    rw [exp_add, hu, ENNReal.ofReal_mul (by positivity), mul_assoc, g2 qs]
  · intro hne
    obtain ⟨q, qs, rfl⟩ := List.exists_cons_of_ne_nil hne
    rw [← value_average hN (hX (q :: qs))]
    show ∫⁻ ω0, _ ∂ν = _
    apply lintegral_congr
    intro ω
    have he := ensureInit_create (s := s0) hN hsN htr (hc ω)
    set s1 : PT P U Y := { s0 with ind1 := 1, traj := [⟨⟨List.ofFn fun i => X i ω, List.replicate N (-Real.log N), N, 0⟩,
      List.range N⟩] } with hs1
    have hrep1 : s1.Rep ⟨[], [.none]⟩ := (hrep0.ensureInit he).1 rfl
    have hrun : ∀ d ds, runEstimate φ (s0.run F (history none ((q.1, q.2, ω, d) :: ds))) =
        tailEst φ 0 (s1.run F (fwd ((q.1, q.2, ω, d) :: ds))) := by
      intro d ds
      have h1 : s0.run F (history none ((q.1, q.2, ω, d) :: ds)) = s1.run F (fwd ((q.1, q.2, ω, d) :: ds)) := by
        simp only [history, fwd, List.nil_append, List.map_cons, PT.run, PT.step,
          forward_ensureInit he (by rw [hs1]; simp) q.1 q.2 d]
      rw [h1, runEstimate_of_single φ hrep1 (st := ⟨⟨List.ofFn fun i => X i ω, List.replicate N (-Real.log N), N, 0⟩, List.range N⟩) rfl]
      have hmass : mass (⟨List.ofFn fun i => X i ω, List.replicate N (-Real.log N), N, 0⟩ : PA P) = 1 := by
        unfold mass
        simp only [add_zero, List.map_replicate, List.sum_replicate, nsmul_eq_mul, hu]
        exact mul_one_div_cancel hNr.ne'
      rw [hmass, ENNReal.ofReal_one, one_mul]
    simp only [hrun]
    rw [steps_estimate_head (s := s1) (k := 0) rfl hrep1.inv q qs ω,
      steps_value hN hS hW (q :: qs) hqs hrep1 (last := ⟨⟨List.ofFn fun i => X i ω, List.replicate N (-Real.log N), N, 0⟩, List.range N⟩)
        rfl rfl (fun i => hXo i ω) hrepl (k := 0) rfl]
    rw [wmean_ofFn _ rfl hrepl]
    refine Finset.sum_congr rfl fun i _ => ?_
    congr 2
    rw [Finset.sum_const, Finset.card_univ, Fintype.card_fin, nsmul_eq_mul, hu]
    field_simp

/-- Both kinds of histories, for every filter whose steps are importance resampling. -/
theorem run_unbiased [MeasurableSpace P] [MeasurableSpace Ω] {F : FilterOps P U Y V Ω} {ν : Measure Ω} [IsProbabilityMeasure ν]
    {N : ℕ} (hN : 0 < N) {res : ℝ} {κ : ℕ → Slot U → Slot Y → Kernel P P} {inc : ℕ → Slot U → Slot Y → P → P → ℝ}
    {good : Slot Y → Prop} (hS : ∀ k u y, good y → StepLaw F ν N res k u y (κ k u y) (inc k u y)) {M : ℕ → Slot U → Kernel P P} {ℓ : ℕ → Slot Y → P → ℝ}
    (hℓ : ∀ k y, Measurable (ℓ k y))
    (hQ : ∀ k u y (h : P → ℝ≥0∞), Measurable h → ∀ x, ∫⁻ x', ENNReal.ofReal (exp (inc k u y x x')) * h x' ∂(κ k u y x) =
      ∫⁻ x', ENNReal.ofReal (exp (ℓ (k+1) y x')) * h x' ∂(M k u x))
    {φ : P → ℝ≥0∞} (hφ : Measurable φ) {μ0 : Measure P} {X : Fin N → Ω → P} (hX : ∀ i, Measurable (X i) ∧ ν.map (X i) = μ0)
    (hc : ∀ ω, F.create N ω = .ok (List.ofFn fun i => X i ω)) (hpfy : F.usingPfy = false)
    (hm : ∀ (tr : List (Step P)) (anc : List ℕ) (pa : PA P) (x : Fin N → P) uv yv tv (y : Slot Y), good y → pa.part = List.ofFn x → pa.w.length = N →
      yv[0]? = some y → tv[0]? = some 0 → ∃ pa' w', F.measure tr anc pa uv yv tv 0 = .ok pa' ∧ pa'.part = List.ofFn x ∧ pa'.w = List.ofFn w' ∧
        pa'.num = pa.num ∧ ∀ i : Fin N, w' i + pa'.w_offset = pa.w.getD i 0 + pa.w_offset + ℓ 0 y (x i))
    {T : Option ℕ} {s0 : PT P U Y} (h0 : PT.init N T 0 = .ok s0) (qs : List (Slot U × Slot Y)) (hqs : ∀ q ∈ qs, good q.2) :
    (∀ y0, good y0 → ∫⁻ ω, stepsE ν qs (fun ds => runEstimate φ (s0.run F (history (some (y0, ω)) ds))) ∂ν =
      ∫⁻ x, ENNReal.ofReal (exp (ℓ 0 y0 x)) * pathE M ℓ φ 0 qs x ∂μ0) ∧
    (qs ≠ [] → stepsE ν qs (fun ds => runEstimate φ (s0.run F (history none ds))) = ∫⁻ x, pathE M ℓ φ 0 qs x ∂μ0) := by
  have hpm := fun (k : ℕ) (qs : List (Slot U × Slot Y)) => pathE_measurable M hℓ hφ qs k
  have hlm := fun y0 qs => (measurable_exp.comp (hℓ 0 y0)).ennreal_ofReal.mul (hpm 0 qs)
  refine run_value hN (W := pathE M ℓ φ) (ok := fun _ => True) (good := good) (res := res) (X := X)
    (W0 := fun y qs x => ENNReal.ofReal (exp (ℓ 0 y x)) * pathE M ℓ φ 0 qs x)
    (E0 := fun y qs => ∫⁻ x, ENNReal.ofReal (exp (ℓ 0 y x)) * pathE M ℓ φ 0 qs x ∂μ0) (E := fun qs => ∫⁻ x, pathE M ℓ φ 0 qs x ∂μ0)
    (fun k u y qs hy => ?_) (fun _ => rfl) (fun y qs i _ => ⟨(hlm y qs).comp (hX i).1, ?_⟩) (fun qs i => ⟨(hpm 0 qs).comp (hX i).1, ?_⟩)
    (fun _ _ => trivial) hc hpfy (fun tr anc pa x uv yv tv y hy _ h1 h2 h3 h4 => ?_) h0 qs hqs
  · have h := (hS k u y hy).op (h := fun _ : Fin N => pathE M ℓ φ (k+1) qs) fun _ => hpm (k+1) qs
    simp only [hQ k u y _ (hpm (k+1) qs)] at h
    exact h
  · rw [← (hX i).2, lintegral_map (f := fun x => ENNReal.ofReal (exp (ℓ 0 y x)) * pathE M ℓ φ 0 qs x) (hlm y qs) (hX i).1]
  · rw [← (hX i).2, lintegral_map (hpm 0 qs) (hX i).1]
  · obtain ⟨pa', w', e1, e2, e3, e4, e5⟩ := hm tr anc pa x uv yv tv y hy h1 h2 h3 h4
    exact ⟨pa', x, w', e1, e2, fun _ => trivial, e3, e4, fun i => ⟨_, e5 i, fun _ => rfl⟩⟩

/-! ### The bootstrap filter -/

/-- The SIR filter, as `mkFilter` builds it. -/
noncomputable def sirOps (M : Callbacks P U Y V Ω) (res : ℝ) : FilterOps P U Y V Ω :=
  ⟨M.createInitial, sirForward M res, pfMeasure M, fun _ _ _ _ => .error .typeError, false⟩

theorem mkFilter_sir {M : Callbacks P U Y V Ω} {N : ℕ} {res : ℝ} {name : String} {o : FilterOptions P} (h : parseFilter name = .ok .sir)
    {F : FilterOps P U Y V Ω} (hF : mkFilter M N res name o = .ok F) : F = sirOps M res := by
  unfold mkFilter at hF
  rw [h, ok_bind] at hF
  cases hF; rfl

theorem weightUpdate_offset {pa : PA P} {N : ℕ} (hN : 0 < N) (hw : pa.w.length = N) (l : Fin N → ℝ) :
    ∃ pa' w', weightUpdate pa (List.ofFn l) = .ok pa' ∧ pa'.part = pa.part ∧ pa'.w = List.ofFn w' ∧
      pa'.num = pa.num ∧ ∀ i : Fin N, w' i + pa'.w_offset = pa.w.getD i 0 + pa.w_offset + l i := by
  obtain ⟨pa', h⟩ := weightUpdate_ok pa (List.ofFn l) (by intro h; rw [h] at hw; simp at hw; omega) (by simp [hw])
  obtain ⟨e1, e2, e3, e4, -, c, e5, e6⟩ := weightUpdate_spec h
  refine ⟨pa', fun i => pa'.w.getD i 0, h, e1, ?_, e2, fun i => ?_⟩
  · apply List.ext_getElem
    · simp [e4, hw]
    · intro i h1 h2
      simp [List.getD_eq_getElem?_getD, h1]
  · have hi : (i : ℕ) < pa.w.length := by rw [hw]; exact i.2
    rw [e5, e6]
    simp only [List.getD_eq_getElem?_getD, List.getElem?_zipWith, List.getElem?_eq_getElem hi, List.getElem?_ofFn, i.2, dif_pos,
      Option.getD_some]
    ring

theorem pf_stepLaw [MeasurableSpace P] [MeasurableSpace Ω] {K : MarkovModel P U Y V Ω} {ν : Measure Ω} {N : ℕ} (hN : 0 < N) {μ0 : Measure P}
    {M : ℕ → Slot U → Kernel P P} {ℓ : ℕ → Slot Y → P → ℝ} {good : Slot Y → Prop} (hK : Spec.Samples K good ν N μ0 M ℓ) (rest : Callbacks P U Y V Ω) (res : ℝ)
    (k : ℕ) (u : Slot U) (y : Slot Y) (hy0 : good y) :
    StepLaw (markovPf K rest res) ν N res k u y (M k u) (fun _ x' => ℓ (k+1) y x') := by
  refine ⟨fun _ => hK.meas _ _, fun x => ?_⟩
  obtain ⟨X, hX, hmove⟩ := hK.move x u k
  refine ⟨X, hX, ?_⟩
  intro tr last yv uv tv d pa1 b anc hlast hu hy ht ht1 hres hfan hp1 hw1 ho1
  obtain ⟨v, hv1, hv2⟩ := hmove d.ω
  obtain ⟨pa', w', f1, f2, f3, fn, f4⟩ := weightUpdate_offset (pa := { pa1 with part := List.ofFn fun i => X i d.ω }) hN hw1
    (fun i => ℓ (k+1) y (X i d.ω))
  refine ⟨pa', w', ?_, f2, f3, fn, fun i => by rw [f4 i, ho1, add_zero]⟩
  show pfForward (K.toCallbacks rest) res tr yv uv tv k d = _
  unfold pfForward
  rw [getLast_ok.mpr hlast]
  simp only [ok_bind, PA.new, hres]
  unfold pfUpdate
  simp only [MarkovModel.toCallbacks, getLast_ok.mpr hlast, ok_bind, hfan, getLast_take_succ hu, getLast_take_succ ht, hv1, hp1, hv2,
    pure_eq_ok]
  unfold pfMeasure
  simp only [getLast_take_succ hy, getLast_take_succ ht1, ok_bind, hK.measure _ _ _ hy0, f1]

/-- C89: run the bootstrap filter with any number `N > 0` of particles and any resampling threshold on a Markov model that
samples from a chain with initial law `μ0` and kernels `M` and evaluates log-likelihoods `ℓ`. Over the random draws of the run, the
estimate read off the stored log-weights, offsets and resampling flags, times the filtered mean of any non-negative `φ` at the last step,
has expectation `E[Π_t p(y_t | x_t) φ(x_T)]` — in a history that starts with `measure(y0)` and in one that starts with `forward`. -/
theorem C89_bootstrap_unbiased [MeasurableSpace P] [MeasurableSpace Ω] {K : MarkovModel P U Y V Ω} {ν : Measure Ω} [IsProbabilityMeasure ν]
    {N : ℕ} (hN : 0 < N) {μ0 : Measure P} {M : ℕ → Slot U → Kernel P P} {ℓ : ℕ → Slot Y → P → ℝ} {good : Slot Y → Prop} (hK : Spec.Samples K good ν N μ0 M ℓ)
    {rest : Callbacks P U Y V Ω} {res : ℝ} {name : String} {o : FilterOptions P} (hn : parseFilter name = .ok .pf)
    {F : FilterOps P U Y V Ω} (hF : mkFilter (K.toCallbacks rest) N res name o = .ok F)
    {φ : P → ℝ≥0∞} (hφ : Measurable φ) {T : Option ℕ} {s0 : PT P U Y}
    (h0 : PT.init N T 0 = .ok s0) (qs : List (Slot U × Slot Y)) (hqs : ∀ q ∈ qs, good q.2) :
    (∀ y0, good y0 → ∫⁻ ω, stepsE ν qs (fun ds => runEstimate φ (s0.run F (history (some (y0, ω)) ds))) ∂ν =
      ∫⁻ x, ENNReal.ofReal (exp (ℓ 0 y0 x)) * pathE M ℓ φ 0 qs x ∂μ0) ∧
    (qs ≠ [] → stepsE ν qs (fun ds => runEstimate φ (s0.run F (history none ds))) = ∫⁻ x, pathE M ℓ φ 0 qs x ∂μ0) := by
  rw [mkFilter_pf _ N res hn o] at hF
  obtain rfl := (Except.ok.inj hF).symm
  obtain ⟨X, hX, hc⟩ := hK.create
  refine run_unbiased hN (fun k u y hy => pf_stepLaw hN hK rest res k u y hy) hK.meas (fun _ _ _ _ _ _ => rfl) hφ hX hc rfl ?_ h0 qs hqs
  intro tr anc pa x uv yv tv y hgy hx hw hy ht
  obtain ⟨pa', w', f1, f2, f3, fn, f4⟩ := weightUpdate_offset (pa := pa) hN hw (fun i => ℓ 0 y (x i))
  refine ⟨pa', w', ?_, by rw [f2, hx], f3, fn, f4⟩
  show pfMeasure (K.toCallbacks rest) tr anc pa uv yv tv 0 = _
  unfold pfMeasure
  simp only [MarkovModel.toCallbacks, hx, getLast_take_succ hy, getLast_take_succ ht, ok_bind, hK.measure _ _ _ hgy, f1]

/-! ### The SIR filter -/

/-- The callbacks of the SIR filter sample from a proposal `q` and evaluate its log-density `lq`, the transition log-density `lx` (both
with respect to `vol`) and the log-likelihood `ℓ`. -/
structure Spec.SirSamples [MeasurableSpace P] [MeasurableSpace Ω] (C : Callbacks P U Y V Ω) (good : Slot Y → Prop) (ν : Measure Ω) (N : ℕ) (vol μ0 : Measure P)
    (M : ℕ → Slot U → Kernel P P) (ℓ : ℕ → Slot Y → P → ℝ) (q : ℕ → Slot U → Slot Y → Kernel P P)
    (lq : ℕ → Slot U → Slot Y → P → P → ℝ) (lx : ℕ → Slot U → P → P → ℝ) : Prop where
  create : ∃ X : Fin N → Ω → P, (∀ i, Measurable (X i) ∧ ν.map (X i) = μ0) ∧
    ∀ ω, C.createInitial N ω = .ok (List.ofFn fun i => X i ω)
  propose : ∀ (x : Fin N → P) (u : Slot U) (y : Slot Y) (k : ℕ), good y → ∃ X : Fin N → Ω → P,
    (∀ i, Measurable (X i) ∧ ν.map (X i) = q k u y (x i)) ∧ ∀ ω, C.qsample (List.ofFn x) u y k ω = .ok (List.ofFn fun i => X i ω)
  logpQ : ∀ (x x' : Fin N → P) (u : Slot U) (y : Slot Y) (k : ℕ), good y →
    C.logpQ (List.ofFn x) (List.ofFn x') u y k = .ok (List.ofFn fun i => lq k u y (x i) (x' i))
  logpX : ∀ (x x' : Fin N → P) (u : Slot U) (k : ℕ), C.logpXnext (List.ofFn x) (List.ofFn x') u k = .ok (List.ofFn fun i => lx k u (x i) (x' i))
  measure : ∀ (x : Fin N → P) (y : Slot Y) (k : ℕ), good y → C.sirMeasure (List.ofFn x) y k = .ok (List.ofFn fun i => ℓ k y (x i))
  measureFull : ∀ (x : Fin N → P) (y : Slot Y) (k : ℕ) tr uv yv tv anc, good y → getLast yv = .ok y → getLast tv = .ok k →
    C.measure (List.ofFn x) tr uv yv tv anc = .ok (List.ofFn fun i => ℓ k y (x i))
  density_q : ∀ k u y x, q k u y x = vol.withDensity fun x' => ENNReal.ofReal (exp (lq k u y x x'))
  density_x : ∀ k u x, M k u x = vol.withDensity fun x' => ENNReal.ofReal (exp (lx k u x x'))
  meas : ∀ k y, Measurable (ℓ k y)
  meas_q : ∀ k u y x, Measurable (lq k u y x)
  meas_x : ∀ k u x, Measurable (lx k u x)

theorem sir_stepLaw [MeasurableSpace P] [MeasurableSpace Ω] {C : Callbacks P U Y V Ω} {ν : Measure Ω} {N : ℕ} (hN : 0 < N)
    {vol μ0 : Measure P} {M : ℕ → Slot U → Kernel P P} {ℓ : ℕ → Slot Y → P → ℝ} {q : ℕ → Slot U → Slot Y → Kernel P P}
    {lq : ℕ → Slot U → Slot Y → P → P → ℝ} {lx : ℕ → Slot U → P → P → ℝ} {good : Slot Y → Prop} (hC : Spec.SirSamples C good ν N vol μ0 M ℓ q lq lx) (res : ℝ)
    (k : ℕ) (u : Slot U) (y : Slot Y) (hy0 : good y) :
    StepLaw (sirOps C res) ν N res k u y (q k u y) (fun x x' => ℓ (k+1) y x' + lx k u x x' - lq k u y x x') := by
  refine ⟨fun x => ((hC.meas _ _).add (hC.meas_x _ _ _)).sub (hC.meas_q _ _ _ _), fun x => ?_⟩
  obtain ⟨X, hX, hprop⟩ := hC.propose x u y k hy0
  refine ⟨X, hX, ?_⟩
  intro tr last yv uv tv d pa1 b anc hlast hu hy ht ht1 hres hfan hp1 hw1 ho1
  obtain ⟨pa', w', f1, f2, f3, fn, f4⟩ := weightUpdate_offset (pa := pa1) hN hw1
    (fun i => ℓ (k+1) y (X i d.ω) + lx k u (x i) (X i d.ω) - lq k u y (x i) (X i d.ω))
  refine ⟨{ pa' with part := List.ofFn fun i => X i d.ω }, w', ?_, rfl, f3, fn, fun i => by
    have := f4 i; rw [ho1, add_zero] at this; exact this⟩
  show sirForward C res tr yv uv tv k d = _
  unfold sirForward
  rw [getLast_ok.mpr hlast]
  simp only [ok_bind, PA.new, hres, getIdx_ok.mpr hu, getIdx_ok.mpr hy, getIdx_ok.mpr ht, getIdx_ok.mpr ht1, hp1, hprop, hC.logpQ _ _ _ _ _ hy0,
    hC.logpX, hC.measure _ _ _ hy0]
  rw [npAdd_ok (by simp), ok_bind, npSub_ok (by simp), ok_bind, zipWith_ofFn', zipWith_ofFn', f1]
  rfl

/-- The importance increments of the SIR filter turn the proposal kernel into the transition kernel weighted by the likelihood. -/
theorem sir_tilt [MeasurableSpace P] [MeasurableSpace Ω] {C : Callbacks P U Y V Ω} {ν : Measure Ω}
    {N : ℕ} {vol μ0 : Measure P} {M : ℕ → Slot U → Kernel P P} {ℓ : ℕ → Slot Y → P → ℝ}
    {q : ℕ → Slot U → Slot Y → Kernel P P} {lq : ℕ → Slot U → Slot Y → P → P → ℝ} {lx : ℕ → Slot U → P → P → ℝ}
    {good : Slot Y → Prop} (hC : Spec.SirSamples C good ν N vol μ0 M ℓ q lq lx) (k : ℕ) (u : Slot U) (y : Slot Y) (h : P → ℝ≥0∞) (hh : Measurable h)
    (x : P) : ∫⁻ x', ENNReal.ofReal (exp (ℓ (k+1) y x' + lx k u x x' - lq k u y x x')) * h x' ∂(q k u y x) =
      ∫⁻ x', ENNReal.ofReal (exp (ℓ (k+1) y x')) * h x' ∂(M k u x) := by
  have hm1 : Measurable fun x' => ENNReal.ofReal (exp (lq k u y x x')) := (measurable_exp.comp (hC.meas_q k u y x)).ennreal_ofReal
  have hm2 : Measurable fun x' => ENNReal.ofReal (exp (lx k u x x')) := (measurable_exp.comp (hC.meas_x k u x)).ennreal_ofReal
  have hm3 : Measurable fun x' => ENNReal.ofReal (exp (ℓ (k+1) y x')) * h x' :=
    (measurable_exp.comp (hC.meas (k+1) y)).ennreal_ofReal.mul hh
  have hm4 : Measurable fun x' => ENNReal.ofReal (exp (ℓ (k+1) y x' + lx k u x x' - lq k u y x x')) * h x' :=
    (measurable_exp.comp (((hC.meas (k+1) y).add (hC.meas_x k u x)).sub (hC.meas_q k u y x))).ennreal_ofReal.mul hh
  rw [hC.density_q, hC.density_x, lintegral_withDensity_eq_lintegral_mul _ hm1 hm4,
    lintegral_withDensity_eq_lintegral_mul _ hm2 hm3]
  apply lintegral_congr
  intro x'
  simp only [Pi.mul_apply]
  rw [← mul_assoc, ← mul_assoc, ← ENNReal.ofReal_mul (exp_pos _).le, ← ENNReal.ofReal_mul (exp_pos _).le, ← exp_add, ← exp_add]
  congr 3
  ring

theorem sir_measure_law [MeasurableSpace P] [MeasurableSpace Ω] {C : Callbacks P U Y V Ω} {ν : Measure Ω}
    {N : ℕ} (hN : 0 < N) {vol μ0 : Measure P} {M : ℕ → Slot U → Kernel P P} {ℓ : ℕ → Slot Y → P → ℝ}
    {q : ℕ → Slot U → Slot Y → Kernel P P} {lq : ℕ → Slot U → Slot Y → P → P → ℝ} {lx : ℕ → Slot U → P → P → ℝ}
    {good : Slot Y → Prop} (hC : Spec.SirSamples C good ν N vol μ0 M ℓ q lq lx) (res : ℝ)
    (tr : List (Step P)) (anc : List ℕ) (pa : PA P) (x : Fin N → P) (uv : List (Slot U)) (yv : List (Slot Y))
    (tv : List ℕ) (y : Slot Y) (hgy : good y) (hx : pa.part = List.ofFn x) (hw : pa.w.length = N) (hy : yv[0]? = some y) (ht : tv[0]? = some 0) :
    ∃ pa' w', (sirOps C res).measure tr anc pa uv yv tv 0 = .ok pa' ∧ pa'.part = List.ofFn x ∧ pa'.w = List.ofFn w' ∧
        pa'.num = pa.num ∧ ∀ i : Fin N, w' i + pa'.w_offset = pa.w.getD i 0 + pa.w_offset + ℓ 0 y (x i) := by
  obtain ⟨pa', w', f1, f2, f3, fn, f4⟩ := weightUpdate_offset (pa := pa) hN hw (fun i => ℓ 0 y (x i))
  refine ⟨pa', w', ?_, by rw [f2, hx], f3, fn, f4⟩
  show pfMeasure C tr anc pa uv yv tv 0 = _
  unfold pfMeasure
  rw [hx, hC.measureFull x y 0 _ _ _ _ _ hgy (getLast_take_succ hy) (getLast_take_succ ht), ok_bind, f1]

/-- C89: the same for the SIR filter, whatever the proposal: importance weighting with the proposal's density keeps the
estimate unbiased. -/
theorem C89_sir_unbiased [MeasurableSpace P] [MeasurableSpace Ω] {C : Callbacks P U Y V Ω} {ν : Measure Ω} [IsProbabilityMeasure ν]
    {N : ℕ} (hN : 0 < N) {vol μ0 : Measure P} {M : ℕ → Slot U → Kernel P P} {ℓ : ℕ → Slot Y → P → ℝ}
    {q : ℕ → Slot U → Slot Y → Kernel P P} {lq : ℕ → Slot U → Slot Y → P → P → ℝ} {lx : ℕ → Slot U → P → P → ℝ}
    {good : Slot Y → Prop} (hC : Spec.SirSamples C good ν N vol μ0 M ℓ q lq lx) {res : ℝ} {name : String} {o : FilterOptions P} (hn : parseFilter name = .ok .sir)
    {F : FilterOps P U Y V Ω} (hF : mkFilter C N res name o = .ok F) {φ : P → ℝ≥0∞} (hφ : Measurable φ) {T : Option ℕ} {s0 : PT P U Y}
    (h0 : PT.init N T 0 = .ok s0) (qs : List (Slot U × Slot Y)) (hqs : ∀ q ∈ qs, good q.2) :
    (∀ y0, good y0 → ∫⁻ ω, stepsE ν qs (fun ds => runEstimate φ (s0.run F (history (some (y0, ω)) ds))) ∂ν =
      ∫⁻ x, ENNReal.ofReal (exp (ℓ 0 y0 x)) * pathE M ℓ φ 0 qs x ∂μ0) ∧
    (qs ≠ [] → stepsE ν qs (fun ds => runEstimate φ (s0.run F (history none ds))) = ∫⁻ x, pathE M ℓ φ 0 qs x ∂μ0) := by
  obtain rfl := mkFilter_sir hn hF
  obtain ⟨X, hX, hc⟩ := hC.create
  refine run_unbiased hN (fun k u y hy => sir_stepLaw hN hC res k u y hy) hC.meas (sir_tilt hC) hφ hX hc rfl
    (fun tr anc pa x uv yv tv y => sir_measure_law hN hC res tr anc pa x uv yv tv y) h0 qs hqs

end PyPE

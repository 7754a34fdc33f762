import Verif.Models.MlFilter
import Verif.Linear.Claims

/-!
# A mixed linear/nonlinear model that is jointly linear

When the joint state of a mixed linear/nonlinear Gaussian model follows a linear Gaussian model, the Rao-Blackwellized particle filter can be compared
with the Kalman filter for the joint state.
-/

namespace PyPE
open Real Spec MeasureTheory ProbabilityTheory Matrix
open scoped ENNReal

variable {U Y Ω : Type} {lz ly n m : ℕ}

/-- The joint law of a mixed model is that of the linear model `L` started from `N(x0, P0)`, with the joint state written as the vector `e (xi, z)`. -/
structure Spec.RbIsLinear (M : Spec.RbModel 1 lz m (Slot U) ℕ (Fin m → ℝ)) (o0 : MlX0 1 lz) (L : LinearModel n m U) (e : VecR 1 × VecR lz → Fin n → ℝ)
    (x0 : Fin n → ℝ) (P0 : Matrix (Fin n) (Fin n) ℝ) : Prop where
  meas : Measurable e
  init : ((Spec.gauss o0.xi0 o0.Pxi0).prod (Spec.gauss o0.z0 o0.Pz0)).map e = Spec.gauss x0 P0
  move : ∀ t u s, (M.joint t u s).map e = Spec.gauss (L.next t u (e s)) (L.Q t u)
  lik : ∀ t y s, M.loglik t y s = L.lik t y (e s)
  cov : P0.PosSemidef
  noise : ∀ t u, (L.Q t u).PosSemidef
  error : ∀ t, (L.R t).PosDef

/-- An integral along the paths of a Markov chain only depends on the image chain. -/
theorem pathE_image {S S' : Type} [MeasurableSpace S] [MeasurableSpace S'] {K : ℕ → Slot U → Kernel S S} {M : ℕ → Slot U → Kernel S' S'}
    {ℓ : ℕ → Slot Y → S → ℝ} {ℓ' : ℕ → Slot Y → S' → ℝ} {e : S → S'} (he : Measurable e) (hK : ∀ t u s, (K t u s).map e = M t u (e s))
    (hl : ∀ t y s, ℓ t y s = ℓ' t y (e s)) (hm : ∀ t y, Measurable (ℓ' t y)) {φ : S' → ℝ≥0∞} (hφ : Measurable φ) (qs : List (Slot U × Slot Y)) (k : ℕ) (s : S) :
    pathE K ℓ (fun s => φ (e s)) k qs s = pathE M ℓ' φ k qs (e s) := by
  induction qs generalizing k s with
  | nil => rfl
  | cons q qs ih =>
    simp only [pathE]
    rw [← hK k q.1 s, lintegral_map _ he]
    · exact lintegral_congr fun x => by rw [ih, hl]
    · exact ((hm _ _).exp.ennreal_ofReal).mul (pathE_measurable M hm hφ qs (k+1))

/-- The Rao-Blackwellized particle filter of a mixed model that is jointly linear, against the Kalman filter for the joint state. -/
theorem C125_jointly_linear [MeasurableSpace Ω] {H : MlHooks 1 lz m (Slot U) ℕ (Fin m → ℝ)} {o : MlObj 1 lz m} {M : Spec.RbModel 1 lz m (Slot U) ℕ (Fin m → ℝ)}
    (hD : Spec.RbDescribes H o M) (hG : M.Good) {o0 : MlX0 1 lz} (hPx : o0.Pxi0.PosSemidef) (hPz : o0.Pz0.PosSemidef) {ρ : Measure Ω} [IsProbabilityMeasure ρ]
    {mvn : VecR 1 × MatR 1 1 → Ω → VecR 1} (hm : ∀ a, Measurable (mvn a)) (hmvn : ∀ a, a.2.PosSemidef → ρ.map (mvn a) = Spec.gauss a.1 a.2) {N : ℕ}
    (hN : 0 < N) {K : ℕ → Slot U → Kernel (VecR 1 × VecR lz) (VecR 1 × VecR lz)} (hK : ∀ t u s, K t u s = M.joint t u s)
    {L : LinearModel n m U} {e : VecR 1 × VecR lz → Fin n → ℝ} {x0 : Fin n → ℝ} {P0 : Matrix (Fin n) (Fin n) ℝ} (hL : RbIsLinear M o0 L e x0 P0)
    (res : ℝ) {T : Option ℕ} {s0 : PT (RbP 1 lz) U (Fin m → ℝ)} (hs : PT.init N T 0 = .ok s0) (first : Option (Fin m → ℝ))
    (qs : List (Slot U × (Fin m → ℝ))) (hne : first = none → qs ≠ []) :
    ∃ z P ll, kfData x0 P0 (L.start first ++ L.data 0 qs) = .ok (z, P, ll) ∧
      runE (Measure.pi fun _ : Fin N => ρ) (rbfOps (mlMarkov N H o o0 mvn) res) s0 (first.map .obj) (asSlots qs) (runEstimate 1) = ENNReal.ofReal (exp ll) ∧
      ∀ φ : (Fin n → ℝ) → ℝ≥0∞, Measurable φ →
        runE (Measure.pi fun _ : Fin N => ρ) (rbfOps (mlMarkov N H o o0 mvn) res) s0 (first.map .obj) (asSlots qs)
          (runEstimate fun q => ∫⁻ z, φ (e (q.1, z)) ∂Spec.gauss q.2.1 q.2.2) = ENNReal.ofReal (exp ll) * ∫⁻ x, φ x ∂(Spec.gauss z P) := by
  have hM := L.kernel_apply hL.noise
  have hlm : ∀ t y, Measurable (M.loglik t y) := fun t y => by
    have : M.loglik t y = fun s => L.lik t y (e s) := funext (hL.lik t y)
    rw [this]
    exact (L.lik_measurable t y).comp hL.meas
  have hS := ml_samples hD hG hPx hPz hm hmvn hN hK hlm
  obtain ⟨z, P, ll, h1, h2, h3⟩ := C71_filter_exact x0 P0 hL.cov (L.start first ++ L.data 0 qs) (by
    intro op h
    rcases List.mem_append.mp h with h | h
    · exact L.start_good hL.error first op h
    · exact L.data_good hL.noise hL.error qs 0 op h)
  have main : ∀ φ : (Fin n → ℝ) → ℝ≥0∞, Measurable φ →
      runE (Measure.pi fun _ : Fin N => ρ) (rbfOps (mlMarkov N H o o0 mvn) res) s0 (first.map .obj) (asSlots qs)
        (runEstimate fun q => ∫⁻ z, φ (e (q.1, z)) ∂Spec.gauss q.2.1 q.2.2) = ENNReal.ofReal (exp ll) * ∫⁻ x, φ x ∂(Spec.gauss z P) := by
    intro φ hφ
    have hv := filtered_exactValue L hL.noise hM hφ (Spec.gauss x0 P0) first qs
    rw [h3, lintegral_smul_measure, smul_eq_mul] at hv
    rw [← hv]
    have hφe : Measurable fun s => φ (e s) := hφ.comp hL.meas
    have hu := C99_unbiased hN hS res hφe hs (asSlots qs) (asSlots_isObj qs)
    simp only [lintegral_rbLaw _ hφe] at hu
    have hp : ∀ s, pathE K M.loglik (fun s => φ (e s)) 0 (asSlots qs) s = pathE L.kernel L.lik φ 0 (asSlots qs) (e s) :=
      pathE_image hL.meas (fun t u s => by rw [hK, hL.move, hM]) hL.lik L.lik_measurable hφ (asSlots qs) 0
    have hpm := pathE_measurable L.kernel L.lik_measurable hφ (asSlots qs) 0
    cases first with
    | none =>
      simp only [runE, Option.map_none, exactValue, startWeight, ENNReal.ofReal_one, one_mul]
      rw [hu.2 fun h => hne rfl (by cases qs with | nil => rfl | cons => cases h)]
      rw [← hL.init, lintegral_map hpm hL.meas]
      exact lintegral_congr hp
    | some y =>
      simp only [runE, Option.map_some, exactValue, startWeight]
      rw [hu.1 (.obj y) ⟨_, rfl⟩, ← hL.init]
      refine ((lintegral_map (((L.lik_measurable 0 (.obj y)).exp.ennreal_ofReal).mul hpm) hL.meas).trans (lintegral_congr fun s => ?_)).symm
      simp only [Pi.mul_apply]
      rw [hp, hL.lik]
  refine ⟨z, P, ll, h1, ?_, main⟩
  have := main 1 measurable_const
  simpa [show (fun _ : RbP 1 lz => (1 : ℝ≥0∞)) = 1 from rfl] using this

end PyPE

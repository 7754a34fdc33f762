import Verif.Models.NlgMhbp
import Verif.Linear.Data
import Verif.Models.NlgBsi
import Verif.Models.NlgEmRounds

/-!
# Concrete cases of C97, C98 and C122 for the SIR filter

The SIR filter `sirGaussToy` of `x⁺ ~ N(x/2, I)`, `y ~ N(x, I)`, whose proposal looks at the measurement, drawing from the same stream of normals as the
smoother of the class `NonlinearGaussianInitialGaussian`.
-/

namespace PyPE
open Real Matrix MeasureTheory ProbabilityTheory Spec
open scoped ENNReal

/-- `sirGaussToy` that takes its normals from a stream. -/
noncomputable def sirStreamToy : Callbacks (Fin 2 → ℝ) ℝ (Fin 2 → ℝ) (List (Fin 2 → ℝ)) (ℕ → Fin 2 → ℝ) where
  createInitial N ω := sirGaussToy.createInitial N (streamHead 5 ω)
  sampleNoise _ _ _ _ _ := .error .attributeError
  update _ _ _ _ _ _ _ := .error .attributeError
  measure := sirGaussToy.measure
  evalFirstStage := sirGaussToy.evalFirstStage
  logpXnextSingle := sirGaussToy.logpXnextSingle
  proposeFromY _ _ _ _ := .error .attributeError
  qsample part u y t ω := sirGaussToy.qsample part u y t (streamHead 5 ω)
  logpQ := sirGaussToy.logpQ
  logpXnext := sirGaussToy.logpXnext
  sirMeasure := sirGaussToy.sirMeasure

theorem sirStreamToy_samples : Spec.SirSamples sirStreamToy Spec.IsObj (stream 2) 5 volume (Spec.gauss 0 1)
    (fun _ _ => gaussKernel (fun x => (1/2 : ℝ) • x) (by fun_prop) 1) (nlgLoglik (fun _ x => x) (fun _ _ => 1))
    (fun _ _ y => gaussKernel (fun x => (1/2 : ℝ) • (x + slotArr y)) (by fun_prop) 1)
    (fun _ _ y x x' => Spec.logNormal 1 (x' - (1/2 : ℝ) • (x + slotArr y))) (nlgTrans (fun _ _ x => (1/2 : ℝ) • x) fun _ _ _ => 1) := by
  have h := sirGaussToy_samples
  have hmap : ∀ {X : (Fin 5 → Fin 2 → ℝ) → Fin 2 → ℝ} {μ : Measure (Fin 2 → ℝ)}, Measurable X ∧ (normals 5 2).map X = μ →
      Measurable (fun ω => X (streamHead 5 ω)) ∧ (stream 2).map (fun ω => X (streamHead 5 ω)) = μ := by
    rintro X μ ⟨h1, h2⟩
    refine ⟨h1.comp (streamHead_measurable 5), ?_⟩
    rw [← h2, ← streamHead_law 5 2, Measure.map_map h1 (streamHead_measurable 5)]
    rfl
  obtain ⟨X, hX, hXe⟩ := h.create
  refine ⟨⟨fun i ω => X i (streamHead 5 ω), fun i => hmap (hX i), fun ω => hXe _⟩, ?_, h.logpQ, h.logpX, h.measure, h.measureFull, h.density_q, h.density_x, h.meas, h.meas_q,
    h.meas_x⟩
  intro x u y k hy
  obtain ⟨X, hX, hXe⟩ := h.propose x u y k hy
  exact ⟨fun i ω => X i (streamHead 5 ω), fun i => hmap (hX i), fun ω => hXe _⟩

/-- C97 (`mhips`, three trajectories, four passes) and C122 (`mhbp`, one trajectory, four iterations) after the SIR filter with five particles; the squared norm of the first
state. -/
example (q : Slot ℝ × (Fin 2 → ℝ)) (qs : List (Slot ℝ × (Fin 2 → ℝ)))
    (y0 : Fin 2 → ℝ) (srest : SmoothCallbacks (Fin 2 → ℝ) ℝ (Fin 2 → ℝ) (List (Fin 2 → ℝ)) (ℕ → Fin 2 → ℝ)) (d : AllDraws (ℕ → Fin 2 → ℝ)) (res : ℝ) :
    ∃ (o : NlgObj 2 2) (Fl : _) (s0 : PT (Fin 2 → ℝ) ℝ (Fin 2 → ℝ)), nlgInit none none (some 1) (some 1) = .ok o ∧
      mkFilter sirStreamToy 5 res "sir" .none = .ok Fl ∧ PT.init 5 none 0 = .ok s0 ∧
      let S := ffbsi (nlgLogpXnext nlgLikToy o) ((nlgStream nlgLikToy o ⟨0, 1⟩).toSmooth (nlgSmooth nlgLikToy o ⟨0, 1⟩ srest))
      let φ := fun l : List (Fin 2 → ℝ) => ENNReal.ofReal ((l.getD 0 0) ⬝ᵥ (l.getD 0 0))
      let truth := smoothingE (Spec.gauss 0 1) (fun _ _ => gaussKernel (fun x => (1/2 : ℝ) • x) (by fun_prop) 1) (nlgLoglik (fun _ x => x) (fun _ _ => 1)) (some (.obj y0))
        (asSlots (q :: qs)) φ
      estimateE (stream 2) s0 Fl (some (.obj y0)) (asSlots (q :: qs)) (mhipsE S (stream 2) 3 "mhips" 4 (some { R := some (.int 4) }) d 0 (pathMean φ 3)) = truth ∧
      estimateE (stream 2) s0 Fl (some (.obj y0)) (asSlots (q :: qs)) (mhbpE S (stream 2) 4 (some { R := some (.int 4) }) d 0 (pathMean φ 1)) = truth := by
  obtain ⟨o, ho, -, -, h1, h2⟩ := C46_last_covariances (n := 2) (m := 2) none none (some 1) (some 1)
    (by rintro _ ⟨⟩; exact PosDef.one) (by rintro _ ⟨⟩; exact PosDef.one) [] (by simp)
  have hD : Spec.NlgDescribes nlgLikToy o (fun _ _ x => (1/2 : ℝ) • x) (fun _ _ _ => 1) (fun _ x => x) (fun _ _ => 1) :=
    ⟨fun _ _ _ => Or.inl rfl, fun _ _ _ => Or.inr ⟨rfl, 1, PosDef.one, h1 _ rfl, fun _ => rfl⟩, fun _ _ => Or.inl rfl,
      fun _ _ => Or.inr ⟨by norm_num, rfl, 1, PosDef.one, h2 _ rfl, fun _ => rfl⟩⟩
  have hF : mkFilter sirStreamToy 5 res "sir" .none = .ok (sirOps sirStreamToy res) := by
    simp only [mkFilter, parse_sir, ok_bind]; rfl
  have hne0 : (⟨0, 1⟩ : NlgX0 2).P0 ≠ 0 := by intro h; have := congrFun (congrFun h 0) 0; simp at this
  have hdiag : ∀ i j : Fin 2, i ≠ j → (⟨0, 1⟩ : NlgX0 2).P0 i j = 0 := fun i j hij => by simp [hij]
  have hlm : ∀ (t : ℕ) (u : Slot ℝ), Measurable fun z : (Fin 2 → ℝ) × (Fin 2 → ℝ) => nlgTrans (fun _ _ x => (1/2 : ℝ) • x) (fun _ _ _ => 1) t u z.1 z.2 := by
    intro t u
    exact ((continuous_logNormal 1).measurable).comp (by fun_prop)
  have hK := fun k => nlgMhips_model hD (Or.inl (by norm_num)) (o0 := ⟨0, 1⟩) PosDef.one hne0 hdiag
    (M := fun _ _ => gaussKernel (fun x => (1/2 : ℝ) • x) (by fun_prop) 1) (fun t u x => gaussKernel_apply _ PosDef.one.posSemidef x) sirGaussToy_samples.meas hlm srest k
  have hφ : Measurable fun x : Fin ((asSlots (q :: qs)).length + 1) → Fin 2 → ℝ => ENNReal.ofReal (((List.ofFn x).getD 0 0) ⬝ᵥ ((List.ofFn x).getD 0 0)) := by
    simp only [List.ofFn_succ, List.getD_cons_zero, dotProduct]
    fun_prop
  have hfirst : ∀ y ∈ some (Slot.obj y0), IsObj y := by rintro _ ⟨⟩; exact ⟨_, rfl⟩
  refine ⟨o, _, _, ho, hF, rfl, ?_, ?_⟩
  · exact C97_mhips_sir (by norm_num) (by norm_num) sirStreamToy_samples (hK 3) parse_sir hF (T := none) rfl hfirst (asSlots_isObj (q :: qs)) (by simp [asSlots])
      (nlg_mhipsMethod hD (Or.inl (by norm_num)) PosDef.one hne0 hdiag hlm srest 3 _ _ (Or.inl rfl)) (R := 4) rfl d 0 hφ
  · exact C122_mhbp_sir (by norm_num) sirStreamToy_samples (hK 1) parse_sir hF (T := none) rfl hfirst (asSlots_isObj (q :: qs)) (by simp [asSlots])
      ⟨_, nlg_proposalDensity hD PosDef.one hlm _, fun D hR => nlg_backProposal hD (Or.inl (by norm_num)) PosDef.one hne0 hdiag srest hR⟩ (R := 4) rfl d 0 hφ

/-- C98 (`mcmc`, `rs` with `R = 7` and `rsas`, three trajectories) after the SIR filter with five particles; the squared norm of the first state. -/
example (y0 : Fin 2 → ℝ) (qs : List (Slot ℝ × (Fin 2 → ℝ))) (srest : SmoothCallbacks (Fin 2 → ℝ) ℝ (Fin 2 → ℝ) Unit (Fin 5 → Fin 2 → ℝ))
    (d : AllDraws (Fin 5 → Fin 2 → ℝ)) (res : ℝ) :
    ∃ (o : NlgObj 2 2) (Fl : _) (s0 : PT (Fin 2 → ℝ) ℝ (Fin 2 → ℝ)) (B : ℕ), nlgInit none none (some ((1 : ℝ) • 1)) (some 1) = .ok o ∧
      mkFilter sirGaussToy 5 res "sir" .none = .ok Fl ∧ PT.init 5 none 0 = .ok s0 ∧
      let φ := fun l : List (Fin 2 → ℝ) => ENNReal.ofReal ((l.getD 0 0) ⬝ᵥ (l.getD 0 0))
      let S := ffbsi sirGaussToy.logpXnext { srest with postSmoothing := none }
      let SR := ffbsiRS sirGaussToy.logpXnext (nlgLogpXnextMax nlgLikToy o) { srest with postSmoothing := none }
      let estimate := fun (E : PT (Fin 2 → ℝ) ℝ (Fin 2 → ℝ) → ℝ≥0∞) => ∫⁻ ω, stepsE (normals 5 2) (asSlots qs) (fun ds =>
        runWeighted E (s0.run Fl (history (some (.obj y0, ω)) ds))) ∂(normals 5 2)
      let truth := ∫⁻ x, ENNReal.ofReal (exp (nlgLoglik (fun _ x => x) (fun _ _ => 1) 0 (.obj y0) x)) *
        pathsE (fun _ _ => gaussKernel (fun x => (1/2 : ℝ) • x) (by fun_prop) 1) (nlgLoglik (fun _ x => x) (fun _ _ => 1)) φ 0 (asSlots qs) [] x ∂(gauss 0 1)
      estimate (smoothRoundsE 30 S 3 "mcmc" none d 0 (pathMean φ 3)) = truth ∧
      estimate (smoothRoundsE 7 SR 3 "rs" (some { R := some (.int 7) }) d 0 (pathMean φ 3)) = truth ∧
      estimate (smoothRoundsE B SR 3 "rsas" none d B (pathMean φ 3)) = truth := by
  obtain ⟨o, ho, hD⟩ := nlgLikToy_set one_pos
  simp only [one_smul] at hD
  have hF : mkFilter sirGaussToy 5 res "sir" .none = .ok (sirOps sirGaussToy res) := by
    unfold mkFilter
    rw [parse_sir, ok_bind]; rfl
  have hM : ∀ (_ : ℕ) (_ : Slot ℝ), IsMarkovKernel (gaussKernel (fun x : Fin 2 → ℝ => (1/2 : ℝ) • x) (by fun_prop) 1) := by
    intro _ _
    refine ⟨fun x => ?_⟩
    rw [gaussKernel_apply _ PosDef.one.posSemidef]
    infer_instance
  have hlx : Spec.LogDensity sirGaussToy.logpXnext (nlgTrans (fun _ _ x => (1/2 : ℝ) • x) fun _ _ _ => 1) := by
    intro a b u k _
    rfl
  have hmax := nlg_maxDensity hD (.inl (by norm_num))
  have hφ : ∀ n, Measurable fun x : Fin n → Fin 2 → ℝ => ENNReal.ofReal (((List.ofFn x).getD 0 0) ⬝ᵥ ((List.ofFn x).getD 0 0)) := by
    intro n
    cases n with
    | zero => simp
    | succ n =>
      simp only [List.ofFn_succ, List.getD_cons_zero, dotProduct]
      fun_prop
  obtain ⟨B, hB⟩ := C98_adaptive_rejection_sir (by norm_num) hM sirGaussToy_samples parse_sir hF hlx hmax (srest := { srest with postSmoothing := none }) (fun _ => rfl) (m := 3)
    (by norm_num) (user := none) rfl (by norm_num [rsasParams, choose]) (by norm_num [rsasParams, choose]) (by norm_num [rsasParams, choose]) d (T := none) rfl (asSlots qs) (asSlots_isObj qs)
  refine ⟨o, _, _, B, ho, hF, rfl, ?_, ?_, ?_⟩
  · exact (C98_mcmc_sir (by norm_num) hM sirGaussToy_samples parse_sir hF hlx (srest := { srest with postSmoothing := none }) (fun _ => rfl) (m := 3) (by norm_num) (user := none)
      (R := 30) rfl d 0 hφ (T := none) rfl (asSlots qs) (asSlots_isObj qs)).1 _ ⟨y0, rfl⟩
  · exact (C98_rejection_sir (by norm_num) hM sirGaussToy_samples parse_sir hF hlx hmax (srest := { srest with postSmoothing := none }) (fun _ => rfl) (m := 3) (by norm_num)
      (user := some { R := some (.int 7) }) rfl d 0 hφ (T := none) rfl (asSlots qs) (asSlots_isObj qs)).1 _ ⟨y0, rfl⟩
  · exact (hB B le_rfl _ hφ).1 _ ⟨y0, rfl⟩

end PyPE

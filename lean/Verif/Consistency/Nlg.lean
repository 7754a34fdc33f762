import Verif.Consistency.Spread
import Verif.Models.NlgLik

/-!
# C106/C107 for the nonlinear Gaussian models
-/

namespace PyPE
open Real Spec MeasureTheory ProbabilityTheory Filter Matrix
open scoped ENNReal NNReal

section bounds
variable {P U Y : Type} [MeasurableSpace P]

theorem pathE_bounded {M : ℕ → Slot U → Kernel P P} [∀ k u, IsMarkovKernel (M k u)] {ℓ : ℕ → Slot Y → P → ℝ} {good : Slot Y → Prop}
    (hb : ∀ k y, good y → ∃ B, ∀ x, ℓ k y x ≤ B)
    {φ : P → ℝ≥0∞} {C : ℝ≥0∞} (hC : C ≠ ∞) (hφ : ∀ x, φ x ≤ C) (qs : List (Slot U × Slot Y)) (hqs : ∀ q ∈ qs, good q.2) (k : ℕ) :
    ∃ D, D ≠ ∞ ∧ ∀ x, pathE M ℓ φ k qs x ≤ D := by
  induction qs generalizing k with
  | nil => exact ⟨C, hC, hφ⟩
  | cons q qs ih =>
    obtain ⟨D, hD, h⟩ := ih (fun q hq => hqs q (by simp [hq])) (k+1)
    obtain ⟨B, hB⟩ := hb (k+1) q.2 (hqs q (by simp))
    refine ⟨ENNReal.ofReal (exp B) * D, ENNReal.mul_ne_top ENNReal.ofReal_ne_top hD, fun x => ?_⟩
    rw [pathE]
    refine (lintegral_mono fun x' => mul_le_mul' (ENNReal.ofReal_le_ofReal (exp_le_exp.mpr (hB x'))) (h x')).trans ?_
    rw [lintegral_const, measure_univ, mul_one]

/-- With log-likelihoods that are bounded above, the exact value of a bounded function is finite. -/
theorem exactValue_finite {μ0 : Measure P} [IsProbabilityMeasure μ0] {M : ℕ → Slot U → Kernel P P} [∀ k u, IsMarkovKernel (M k u)] {ℓ : ℕ → Slot Y → P → ℝ}
    {good : Slot Y → Prop} (hb : ∀ k y, good y → ∃ B, ∀ x, ℓ k y x ≤ B) {φ : P → ℝ≥0∞} {C : ℝ≥0∞} (hC : C ≠ ∞) (hφ : ∀ x, φ x ≤ C)
    (first : Option (Slot Y)) (hfirst : ∀ y, first = some y → good y) (qs : List (Slot U × Slot Y)) (hqs : ∀ q ∈ qs, good q.2) :
    exactValue μ0 M ℓ first qs φ ≠ ∞ := by
  obtain ⟨D, hD, h⟩ := pathE_bounded (M := M) hb hC hφ qs hqs 0
  obtain ⟨B, hB⟩ : ∃ B, ∀ x, startWeight ℓ first x ≤ B := by
    cases first with
    | none => exact ⟨1, fun _ => le_refl _⟩
    | some y =>
      obtain ⟨B, hB⟩ := hb 0 y (hfirst y rfl)
      exact ⟨exp B, fun x => exp_le_exp.mpr (hB x)⟩
  refine ne_top_of_le_ne_top (ENNReal.mul_ne_top (ENNReal.ofReal_ne_top (r := B)) hD) ?_
  refine (lintegral_mono fun x => mul_le_mul' (ENNReal.ofReal_le_ofReal (hB x)) (h x)).trans ?_
  rw [lintegral_const, measure_univ, mul_one]

end bounds

variable {n m : ℕ} {U : Type}

/-- The particles of a `NonlinearGaussian` object move independently of each other. -/
theorem nlg_indepSamples {H : NlgHooks n m (Slot U) ℕ} {o : NlgObj n m} {F : ℕ → Slot U → (Fin n → ℝ) → Fin n → ℝ}
    {Q : ℕ → Slot U → (Fin n → ℝ) → Matrix (Fin n) (Fin n) ℝ} {G : ℕ → (Fin n → ℝ) → Fin m → ℝ}
    {R : ℕ → (Fin n → ℝ) → Matrix (Fin m) (Fin m) ℝ} (hD : NlgDescribes H o F Q G R) (o0 : NlgX0 n) {N : ℕ} {μ0 : Measure (Fin n → ℝ)}
    (hcreate : ∃ X : (Fin N → Fin n → ℝ) → Fin N → Fin n → ℝ, Measurable X ∧ (normals N n).map X = (Measure.pi fun _ => μ0) ∧
      ∀ w, o0.create N (List.ofFn w) = .ok (List.ofFn (X w)))
    {M : ℕ → Slot U → Kernel (Fin n → ℝ) (Fin n → ℝ)} (hM : ∀ t u x, M t u x = gauss (F t u x) (Q t u x))
    (hmeas : ∀ t y, Measurable (nlgLoglik G R t y)) :
    IndepSamples (nlgMarkov N H o o0) IsObj (normals N n) N μ0 M (nlgLoglik G R) where
  create := hcreate
  move x u k := by
    obtain ⟨step, h1, h2, h3⟩ := nlg_move hD (N := N) (List.ofFn x) (by simp) u k
    refine ⟨step, h1, ?_, fun ω => ?_⟩
    · rw [h3]
      simp [hM]
    · obtain ⟨v, hv1, hv2⟩ := bind_eq_ok.mp (h2 ω)
      exact ⟨v, hv1, hv2⟩
  measure x y k hy := by
    obtain ⟨v, rfl⟩ := hy
    show nlgMeasure H o (List.ofFn x) v k = _
    rw [C46_measure H o (List.ofFn x) v k (G k) (R k) (hD.out _ _) (hD.outCov _ _), List.map_ofFn]
    rfl
  meas := hmeas

/-- C106 for `NonlinearGaussianInitialGaussian`: with a resampling threshold `res ≤ 0` and measurement densities that are bounded in the state, the
likelihood estimate converges in probability, as the number of particles grows, to the likelihood under `x_{t+1} ~ N(F(x_t), Q(x_t))`,
`y_t ~ N(G(x_t), R(x_t))` started from a normal law with mean `x0` - `N(x0, Px0)` exactly when `Px0` is diagonal (C47) - and the weighted mean of every
integrable `φ` converges to its filtering expectation. -/
theorem C106_nonlinear_gaussian {H : NlgHooks n m (Slot U) ℕ} {o : NlgObj n m} {F : ℕ → Slot U → (Fin n → ℝ) → Fin n → ℝ}
    {Q : ℕ → Slot U → (Fin n → ℝ) → Matrix (Fin n) (Fin n) ℝ} {G : ℕ → (Fin n → ℝ) → Fin m → ℝ}
    {R : ℕ → (Fin n → ℝ) → Matrix (Fin m) (Fin m) ℝ} (hD : NlgDescribes H o F Q G R) {o0 : NlgX0 n} (hP : o0.P0.PosDef) (h0 : o0.P0 ≠ 0)
    {M : ℕ → Slot U → Kernel (Fin n → ℝ) (Fin n → ℝ)} (hM : ∀ t u x, M t u x = gauss (F t u x) (Q t u x))
    (hmeas : ∀ t y, Measurable (nlgLoglik G R t y)) (hb : ∀ t y, ∃ B, ∀ x, logNormal (R t x) (y - G t x) ≤ B)
    {rest : ∀ N, Callbacks (Fin n → ℝ) U (Fin m → ℝ) (List (Fin n → ℝ)) (Fin N → Fin n → ℝ)} {res : ℝ} (hres : res ≤ 0) {name : String}
    {opts : FilterOptions (Fin n → ℝ)} (hn : parseFilter name = .ok .pf) {Fl : ∀ N, FilterOps (Fin n → ℝ) U (Fin m → ℝ) _ (Fin N → Fin n → ℝ)}
    (hF : ∀ N, 0 < N → mkFilter ((nlgMarkov N H o o0).toCallbacks (rest N)) N res name opts = .ok (Fl N)) {T : Option ℕ}
    {s0 : ℕ → PT (Fin n → ℝ) U (Fin m → ℝ)} (hs : ∀ N, 0 < N → PT.init N T 0 = .ok (s0 N)) (y0 : Fin m → ℝ) (qs : List (Slot U × (Fin m → ℝ))) :
    ∃ S : Matrix (Fin n) (Fin n) ℝ, (gauss o0.x0 S = gauss o0.x0 o0.P0 ↔ ∀ i j, i ≠ j → o0.P0 i j = 0) ∧
      ∀ ε : ℝ, 0 < ε →
        Tendsto (fun N => runE (normals N n) (Fl N) (s0 N) (some (.obj y0)) (qs.map fun q => (q.1, .obj q.2)) (misses likEstimate
          (exactValue (gauss o0.x0 S) M (nlgLoglik G R) (some (.obj y0)) (qs.map fun q => (q.1, .obj q.2)) fun _ => 1).toReal ε)) atTop (nhds 0) ∧
        ∀ φ : (Fin n → ℝ) → ℝ, Measurable φ →
          exactValue (gauss o0.x0 S) M (nlgLoglik G R) (some (.obj y0)) (qs.map fun q => (q.1, .obj q.2)) (fun x => ENNReal.ofReal |φ x|) ≠ ∞ →
          Tendsto (fun N => runE (normals N n) (Fl N) (s0 N) (some (.obj y0)) (qs.map fun q => (q.1, .obj q.2)) (misses (fun traj _ => lastMean φ traj)
            (exactMean (gauss o0.x0 S) M (nlgLoglik G R) (some (.obj y0)) (qs.map fun q => (q.1, .obj q.2)) φ) ε)) atTop (nhds 0) := by
  obtain ⟨S, hS, hdiag⟩ : ∃ S, (∀ N, ∃ X : (Fin N → Fin n → ℝ) → Fin N → Fin n → ℝ, Measurable X ∧ (normals N n).map X = (Measure.pi fun _ => gauss o0.x0 S) ∧
      ∀ w, o0.create N (List.ofFn w) = .ok (List.ofFn (X w))) ∧ (gauss o0.x0 S = gauss o0.x0 o0.P0 ↔ ∀ i j, i ≠ j → o0.P0 i j = 0) := by
    obtain ⟨c, hc, step1, hm1, hstep1, hlaw1⟩ := nlg_create_law o0 hP h0 1
    obtain ⟨S', -, ⟨step', hstep', hlaw'⟩, -, hdiag⟩ := C47_initial_law o0 hP h0 1
    have hss : step' = step1 := by
      funext w
      exact List.ofFn_injective (Except.ok.inj ((hstep' w).symm.trans (hstep1 w)))
    subst hss
    have hg : gauss o0.x0 S' = gauss o0.x0 (c * cᵀ) := by
      rw [← map_eval_pi (fun _ : Fin 1 => gauss o0.x0 S') hm1 hlaw' 0, ← map_eval_pi (fun _ : Fin 1 => gauss o0.x0 (c * cᵀ)) hm1 hlaw1 0]
    refine ⟨S', fun N => ?_, hdiag⟩
    obtain ⟨c2, hc2, step, hm, hstep, hlaw⟩ := nlg_create_law o0 hP h0 N
    obtain rfl : c2 = c := Except.ok.inj (hc2.symm.trans hc)
    exact ⟨step, hm, by rw [hg]; exact hlaw, hstep⟩
  refine ⟨S, hdiag, fun ε hε => ?_⟩
  haveI : ∀ k u, IsMarkovKernel (M k u) := fun k u => ⟨fun x => by rw [hM]; infer_instance⟩
  have hK : ∀ N, 0 < N → IndepSamples (nlgMarkov N H o o0) IsObj (normals N n) N (gauss o0.x0 S) M (nlgLoglik G R) := fun N _ =>
    nlg_indepSamples hD o0 (hS N) hM hmeas
  have hbb : ∀ k y, IsObj y → ∃ B, ∀ x, nlgLoglik G R k y x ≤ B := by
    rintro k _ ⟨y, rfl⟩
    exact hb k y
  have hfirst : ∀ y : Slot (Fin m → ℝ), some (Slot.obj y0) = some y → IsObj y := by
    rintro _ ⟨⟩; exact ⟨_, rfl⟩
  have hqs : ∀ q ∈ (qs.map fun q => ((q.1, .obj q.2) : Slot U × Slot (Fin m → ℝ))), IsObj q.2 := by
    intro q hq
    obtain ⟨q', -, rfl⟩ := List.mem_map.mp hq
    exact ⟨_, rfl⟩
  have hfin := exactValue_finite (μ0 := gauss o0.x0 S) (M := M) hbb (φ := fun _ => 1) ENNReal.one_ne_top (fun _ => le_refl _) (some (.obj y0)) hfirst _ hqs
  refine ⟨C106_likelihood_consistent hK hres hn hF hs hfirst hqs (by simp) hfin hε, fun φ hφ hφi => ?_⟩
  exact C106_mean_consistent hK hres hn hF hs hfirst hqs (by simp) hfin hφ hφi hε

/-! ### A concrete case -/

theorem toy_kernel : ∀ (_ : ℕ) (_ : Slot ℝ) (x : Fin 2 → ℝ), gaussKernel (fun x => (1/2 : ℝ) • x) (by fun_prop) 1 x = gauss ((1/2 : ℝ) • x) 1 :=
  fun _ _ x => gaussKernel_apply (by fun_prop) PosDef.one.posSemidef x

/-- C106 on the model `x⁺ = x/2 + v`, `y = x + e` with two states: the hypotheses hold for every sequence of measurements. -/
example (rest : ∀ N, Callbacks (Fin 2 → ℝ) ℝ (Fin 2 → ℝ) (List (Fin 2 → ℝ)) (Fin N → Fin 2 → ℝ)) (qs : List (Slot ℝ × (Fin 2 → ℝ))) (y0 : Fin 2 → ℝ) :
    ∃ (o : NlgObj 2 2) (Fl : ∀ N, FilterOps (Fin 2 → ℝ) ℝ (Fin 2 → ℝ) _ (Fin N → Fin 2 → ℝ)) (s0 : ℕ → PT (Fin 2 → ℝ) ℝ (Fin 2 → ℝ)),
      nlgInit none none (some 1) (some 1) = .ok o ∧
      (∀ N, mkFilter ((nlgMarkov N nlgLikToy o ⟨0, 1⟩).toCallbacks (rest N)) N 0 "PF" .none = .ok (Fl N)) ∧ (∀ N, 0 < N → PT.init N none 0 = .ok (s0 N)) ∧
      (∀ ε : ℝ, 0 < ε → Tendsto (fun N => runE (normals N 2) (Fl N) (s0 N) (some (.obj y0)) (qs.map fun q => (q.1, .obj q.2)) (misses likEstimate
        (exactValue (gauss 0 1) (fun _ _ => gaussKernel (fun x => (1/2 : ℝ) • x) (by fun_prop) 1) (nlgLoglik (fun _ x => x) (fun _ _ => 1))
          (some (.obj y0)) (qs.map fun q => (q.1, .obj q.2)) fun _ => 1).toReal ε)) atTop (nhds 0)) ∧
      (∀ f : BoundedContinuousFunction ℝ ℝ≥0, Tendsto (fun N => runE (normals N 2) (Fl N) (s0 N) (some (.obj y0)) (qs.map fun q => (q.1, .obj q.2))
        (readout (fun traj _ => lastMean (fun x => sin (x 0)) traj) fun z => f (√N * (z - exactMean (gauss 0 1)
          (fun _ _ => gaussKernel (fun x => (1/2 : ℝ) • x) (by fun_prop) 1) (nlgLoglik (fun _ x => x) (fun _ _ => 1))
          (some (.obj y0)) (qs.map fun q => (q.1, .obj q.2)) fun x => sin (x 0))))) atTop
        (nhds (∫⁻ x, f x ∂(gaussianReal 0 ((exactValue (gauss 0 1)
          (fun _ _ => gaussKernel (fun x => (1/2 : ℝ) • x) (by fun_prop) 1) (doubled (nlgLoglik (fun _ x => x) (fun _ _ => 1)))
          (some (.obj y0)) (qs.map fun q => (q.1, .obj q.2)) fun x => ENNReal.ofReal ((sin (x 0) - exactMean (gauss 0 1)
          (fun _ _ => gaussKernel (fun x => (1/2 : ℝ) • x) (by fun_prop) 1) (nlgLoglik (fun _ x => x) (fun _ _ => 1))
          (some (.obj y0)) (qs.map fun q => (q.1, .obj q.2)) fun x => sin (x 0)) ^ 2)).toReal / (exactValue (gauss 0 1)
          (fun _ _ => gaussKernel (fun x => (1/2 : ℝ) • x) (by fun_prop) 1) (nlgLoglik (fun _ x => x) (fun _ _ => 1))
          (some (.obj y0)) (qs.map fun q => (q.1, .obj q.2)) fun _ => 1).toReal ^ 2).toNNReal)))) := by
  obtain ⟨o, ho, -, -, h1, h2⟩ := C46_last_covariances (n := 2) (m := 2) none none (some 1) (some 1)
    (by rintro _ ⟨⟩; exact PosDef.one) (by rintro _ ⟨⟩; exact PosDef.one) [] (by simp)
  have hD : Spec.NlgDescribes nlgLikToy o (fun _ _ x => (1/2 : ℝ) • x) (fun _ _ _ => 1) (fun _ x => x) (fun _ _ => 1) :=
    ⟨fun _ _ _ => Or.inl rfl, fun _ _ _ => Or.inr ⟨rfl, 1, PosDef.one, h1 _ rfl, fun _ => rfl⟩, fun _ _ => Or.inl rfl,
      fun _ _ => Or.inr ⟨by norm_num, rfl, 1, PosDef.one, h2 _ rfl, fun _ => rfl⟩⟩
  have hn : parseFilter "PF" = .ok .pf := by
    have : "PF".toLower = "pf" := by decide +kernel
    simp [parseFilter, this]
  have hmeas : ∀ t y, Measurable (nlgLoglik (fun (_ : ℕ) (x : Fin 2 → ℝ) => x) (fun _ _ => 1) t y) := by
    intro t y
    cases y with
    | obj y => exact ((continuous_logNormal 1).measurable).comp (by fun_prop)
    | none => exact measurable_const
    | zero => exact measurable_const
  have hb : ∀ (t : ℕ) (y : Fin 2 → ℝ), ∃ B, ∀ x : Fin 2 → ℝ, logNormal 1 (y - x) ≤ B := fun t y => ⟨_, fun x => logNormal_le PosDef.one _⟩
  have hP0 : (1 : Matrix (Fin 2) (Fin 2) ℝ) ≠ 0 := by
    intro h; have := congrFun (congrFun h 0) 0; simp at this
  have hs0 : ∀ N : ℕ, ∃ s : PT (Fin 2 → ℝ) ℝ (Fin 2 → ℝ), PT.init N none 0 = .ok s := fun N => ⟨_, rfl⟩
  choose s0 hs0 using hs0
  refine ⟨o, _, s0, ho, fun N => mkFilter_pf _ _ _ hn _, fun N _ => hs0 N, ?_, ?_⟩
  · obtain ⟨S, hS, h⟩ := C106_nonlinear_gaussian hD (o0 := ⟨0, 1⟩) PosDef.one hP0 toy_kernel hmeas hb (rest := rest) (res := 0) le_rfl hn
      (fun N _ => mkFilter_pf _ _ _ hn .none) (T := none) (fun N _ => hs0 N) y0 qs
    rw [hS.mpr (fun i j hij => by simp [hij])] at h
    exact fun ε hε => (h ε hε).1
  · intro f
    haveI : IsMarkovKernel (gaussKernel (n := 2) (fun x => (1/2 : ℝ) • x) (by fun_prop) 1) :=
      ⟨fun x => by rw [toy_kernel 0 .none]; infer_instance⟩
    have hK : ∀ N, 0 < N → IndepSamples (nlgMarkov N nlgLikToy o ⟨0, 1⟩) IsObj (normals N 2) N (gauss 0 1)
        (fun _ _ => gaussKernel (fun x => (1/2 : ℝ) • x) (by fun_prop) 1) (nlgLoglik (fun _ x => x) (fun _ _ => 1)) := by
      intro N hN
      obtain ⟨c2, hc2, step, hm, hstep, hlaw⟩ := nlg_create_law (⟨0, 1⟩ : NlgX0 2) PosDef.one hP0 N
      obtain ⟨S', -, ⟨step', hstep', hlaw'⟩, -, hdiag⟩ := C47_initial_law (⟨0, 1⟩ : NlgX0 2) PosDef.one hP0 N
      obtain rfl : step' = step := by
        funext w
        exact List.ofFn_injective (Except.ok.inj ((hstep' w).symm.trans (hstep w)))
      refine nlg_indepSamples hD _ ⟨step', hm, ?_, hstep'⟩ toy_kernel hmeas
      rw [show (normals N 2).map step' = _ from hlaw']
      simp only [hdiag.mpr (fun i j hij => by simp [hij])]
    have hbb : ∀ (k : ℕ) (y : Slot (Fin 2 → ℝ)), IsObj y → ∃ B, ∀ x : Fin 2 → ℝ, doubled (nlgLoglik (fun _ x => x) (fun _ _ => 1)) k y x ≤ B := by
      rintro k _ ⟨y, rfl⟩
      obtain ⟨B, hB⟩ := hb k y
      exact ⟨2 * B, fun x => mul_le_mul_of_nonneg_left (hB x) (by norm_num)⟩
    have hfirst : ∀ y : Slot (Fin 2 → ℝ), some (Slot.obj y0) = some y → IsObj y := by
      rintro _ ⟨⟩; exact ⟨_, rfl⟩
    have hqs : ∀ q ∈ (qs.map fun q => ((q.1, .obj q.2) : Slot ℝ × Slot (Fin 2 → ℝ))), IsObj q.2 := by
      intro q hq
      obtain ⟨q', -, rfl⟩ := List.mem_map.mp hq
      exact ⟨_, rfl⟩
    exact C107_mean_clt hK (rest := rest) (res := 0) le_rfl hn (fun N _ => mkFilter_pf _ _ _ hn .none) (T := none) (fun N _ => hs0 N) hfirst hqs (by simp)
      (φ := fun x => sin (x 0)) (by fun_prop)
      (exactValue_finite hbb ENNReal.one_ne_top (fun _ => le_refl _) _ hfirst _ hqs)
      (exactValue_finite hbb ENNReal.one_ne_top (fun x => by
        rw [← ENNReal.ofReal_one]; exact ENNReal.ofReal_le_ofReal (sin_sq_le_one _)) _ hfirst _ hqs) f

end PyPE

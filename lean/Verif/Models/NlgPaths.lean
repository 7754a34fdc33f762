import Verif.Models.NlgLik
import Verif.Smooth.Ffbsi

/-!
# C92, C93 for `NonlinearGaussian` models (nlg.py)
-/

namespace PyPE
open Real Spec MeasureTheory ProbabilityTheory Matrix
open scoped ENNReal

variable {n m : ℕ} {U V : Type}

/-- The log-density of a transition. -/
noncomputable def Spec.nlgTrans (F : ℕ → Slot U → (Fin n → ℝ) → Fin n → ℝ) (Q : ℕ → Slot U → (Fin n → ℝ) → Matrix (Fin n) (Fin n) ℝ)
    (t : ℕ) (u : Slot U) (x x' : Fin n → ℝ) : ℝ := Spec.logNormal (Q t u x) (x' - F t u x)

/-- `logp_xnext` of a `NonlinearGaussian` object evaluates its transition density. -/
theorem nlg_logDensity {H : NlgHooks n m (Slot U) ℕ} {o : NlgObj n m} {F : ℕ → Slot U → (Fin n → ℝ) → Fin n → ℝ}
    {Q : ℕ → Slot U → (Fin n → ℝ) → Matrix (Fin n) (Fin n) ℝ} {G : ℕ → (Fin n → ℝ) → Fin m → ℝ}
    {R : ℕ → (Fin n → ℝ) → Matrix (Fin m) (Fin m) ℝ} (hD : Spec.NlgDescribes H o F Q G R)
    (hn : Spec.TransExact H Q) :
    Spec.LogDensity (nlgLogpXnext H o) (nlgTrans F Q) := by
  intro a b u k hl
  refine C46_logp_xnext H o a b u k (F k u) (Q k u) (hD.drift _ _ _) ?_ hl.symm
  rcases hn with h | h | h
  · rcases hD.cov a u k with h' | h'
    · exact .inl h'
    · exact .inr ⟨.inl h, h'⟩
  · exact .inl (h _ _ _)
  · rcases hD.cov a u k with h' | h'
    · exact .inl h'
    · exact .inr ⟨.inr (h k u), h'⟩

theorem nlg_posDef {H : NlgHooks n m (Slot U) ℕ} {o : NlgObj n m} {F : ℕ → Slot U → (Fin n → ℝ) → Fin n → ℝ}
    {Q : ℕ → Slot U → (Fin n → ℝ) → Matrix (Fin n) (Fin n) ℝ} {G : ℕ → (Fin n → ℝ) → Fin m → ℝ}
    {R : ℕ → (Fin n → ℝ) → Matrix (Fin m) (Fin m) ℝ} (hD : Spec.NlgDescribes H o F Q G R) (t : ℕ) (u : Slot U) (x : Fin n → ℝ) :
    (Q t u x).PosDef := by
  rcases hD.cov [x] u t with h | ⟨-, Q0, hQ, -, h⟩
  · exact h.2 x
  · rw [h]; exact hQ

/-- C92 and C93 for `NonlinearGaussianInitialGaussian` with its own `logp_xnext`: filter with any number of particles and any resampling
threshold, then `perform_smoothing(M, 'ancestor')` or `perform_smoothing(M, 'full')`. The likelihood estimate times the average of `φ` over the
trajectories is an unbiased estimate of `E[Π_t p(y_t | x_t) φ(x_0, …, x_T)]` under `x_{t+1} ~ N(F(x_t), Q(x_t))`, `y_t ~ N(G(x_t), R(x_t))`
started from a normal law with mean `x0`, which is `N(x0, Px0)` exactly when `Px0` is diagonal (C47). -/
theorem C93_nonlinear_gaussian {H : NlgHooks n m (Slot U) ℕ} {o : NlgObj n m} {F : ℕ → Slot U → (Fin n → ℝ) → Fin n → ℝ}
    {Q : ℕ → Slot U → (Fin n → ℝ) → Matrix (Fin n) (Fin n) ℝ} {G : ℕ → (Fin n → ℝ) → Fin m → ℝ}
    {R : ℕ → (Fin n → ℝ) → Matrix (Fin m) (Fin m) ℝ} (hD : Spec.NlgDescribes H o F Q G R)
    (hone : Spec.TransExact H Q) {o0 : NlgX0 n} (hP : o0.P0.PosDef)
    (h0 : o0.P0 ≠ 0) {N : ℕ} (hN : 0 < N)
    {M : ℕ → Slot U → Kernel (Fin n → ℝ) (Fin n → ℝ)} (hM : ∀ t u x, M t u x = Spec.gauss (F t u x) (Q t u x))
    (hmeas : ∀ t y, Measurable (nlgLoglik G R t y))
    {rest : Callbacks (Fin n → ℝ) U (Fin m → ℝ) (List (Fin n → ℝ)) (Fin N → Fin n → ℝ)} {res : ℝ} {name : String}
    {opts : FilterOptions (Fin n → ℝ)} (hn : parseFilter name = .ok .pf) {Fl : FilterOps (Fin n → ℝ) U (Fin m → ℝ) _ _}
    (hF : mkFilter ((nlgMarkov N H o o0).toCallbacks rest) N res name opts = .ok Fl) {T : Option ℕ} {s0 : PT (Fin n → ℝ) U (Fin m → ℝ)}
    (hs : PT.init N T 0 = .ok s0)
    {srest : SmoothCallbacks (Fin n → ℝ) U (Fin m → ℝ) (List (Fin n → ℝ)) (Fin N → Fin n → ℝ)} (hps : NoPostprocessing srest)
    {k : ℕ} (hk : 0 < k) (user : Option SOpts) (d : AllDraws (Fin N → Fin n → ℝ)) (fuel : ℕ)
    {φ : List (Fin n → ℝ) → ℝ≥0∞} (hφ : ∀ l, Measurable fun x : Fin l → Fin n → ℝ => φ (List.ofFn x))
    {method : String} (hmethod : method = "ancestor" ∨ method = "full")
    (y0 : Fin m → ℝ) (qs : List (Slot U × (Fin m → ℝ))) :
    ∃ S : Matrix (Fin n) (Fin n) ℝ, (Spec.gauss o0.x0 S = Spec.gauss o0.x0 o0.P0 ↔ ∀ i j, i ≠ j → o0.P0 i j = 0) ∧
      ∫⁻ ω, stepsE (normals N n) (qs.map fun q => (q.1, .obj q.2)) (fun ds =>
          runWeighted (smoothE (ffbsi (nlgLogpXnext H o) srest) k method user d fuel (pathMean φ k)) (s0.run Fl (history (some (.obj y0, ω)) ds)))
          ∂(normals N n) =
        ∫⁻ x, ENNReal.ofReal (exp (Spec.logNormal (R 0 x) (y0 - G 0 x))) *
          pathsE M (nlgLoglik G R) φ 0 (qs.map fun q => (q.1, .obj q.2)) [] x ∂(Spec.gauss o0.x0 S) := by
  obtain ⟨c, hc, step, hm, hstep, hlaw⟩ := nlg_create_law o0 hP h0 N
  obtain ⟨S', -, ⟨step', hstep', hlaw'⟩, -, hdiag⟩ := C47_initial_law o0 hP h0 N
  haveI : Nonempty (Fin N) := ⟨⟨0, hN⟩⟩
  have hss : step' = step := by
    funext w
    have := (hstep' w).symm.trans (hstep w)
    exact List.ofFn_injective (Except.ok.inj this)
  subst hss
  refine ⟨S', hdiag, ?_⟩
  have hsmp := nlg_samples hD o0 (N := N) (μ0 := Spec.gauss o0.x0 S')
    ⟨fun i w => step' w i, fun i => ⟨measurable_pi_iff.mp hm i, map_eval_pi (fun _ => Spec.gauss o0.x0 S') hm hlaw' i⟩, hstep'⟩ hM hmeas
  have hobj : ∀ q ∈ (qs.map fun q => (q.1, Slot.obj q.2) : List (Slot U × Slot (Fin m → ℝ))), IsObj q.2 := by
    intro q hq
    obtain ⟨q', -, rfl⟩ := List.mem_map.mp hq
    exact ⟨_, rfl⟩
  rcases hmethod with rfl | rfl
  · exact (C92_ancestor_unbiased hN hsmp hn hF (S := ffbsi (nlgLogpXnext H o) srest) (fun D _ _ _ _ _ _ _ => rfl) hps hk user d fuel hφ hs _ hobj).1 (.obj y0) ⟨_, rfl⟩
  · refine (C93_backward_simulation_unbiased hN hsmp hn hF (nlg_logDensity hD hone) (vol := volume) ?_ ?_ hps hk user d fuel hφ hs _ hobj).1 (.obj y0) ⟨_, rfl⟩
    · intro t u x
      exact (continuous_logNormal (Q t u x)).measurable.comp (by fun_prop)
    · intro t u x
      rw [hM, gauss_density (nlg_posDef hD t u x)]
      rfl

/-! ### Concrete cases -/

/-- C92, C93 on the model of `nlgLikToy`: 5 particles, resampling threshold 2/3, `x⁺ ~ N(x/2, I)`, `y ~ N(x, I)`; the average of the squared
norm of the first state over 3 smoothed trajectories. -/
example (rest : Callbacks (Fin 2 → ℝ) ℝ (Fin 2 → ℝ) (List (Fin 2 → ℝ)) (Fin 5 → Fin 2 → ℝ)) (qs : List (Slot ℝ × (Fin 2 → ℝ))) (y0 : Fin 2 → ℝ)
    (srest : SmoothCallbacks (Fin 2 → ℝ) ℝ (Fin 2 → ℝ) (List (Fin 2 → ℝ)) (Fin 5 → Fin 2 → ℝ)) (d : AllDraws (Fin 5 → Fin 2 → ℝ)) :
    ∃ (o : NlgObj 2 2) (Fl : _) (s0 : PT (Fin 2 → ℝ) ℝ (Fin 2 → ℝ)), nlgInit none none (some 1) (some 1) = .ok o ∧
      mkFilter ((nlgMarkov 5 nlgLikToy o ⟨0, 1⟩).toCallbacks rest) 5 (2/3) "PF" .none = .ok Fl ∧ PT.init 5 none 0 = .ok s0 ∧
      ∫⁻ ω, stepsE (normals 5 2) (qs.map fun q => (q.1, .obj q.2)) (fun ds =>
          runWeighted (smoothE (ffbsi (nlgLogpXnext nlgLikToy o) { srest with postSmoothing := none }) 3 "full" none d 0
            (pathMean (fun l => ENNReal.ofReal ((l.getD 0 0) ⬝ᵥ (l.getD 0 0))) 3)) (s0.run Fl (history (some (.obj y0, ω)) ds)))
          ∂(normals 5 2) =
        ∫⁻ x, ENNReal.ofReal (exp (Spec.logNormal 1 (y0 - x))) *
          pathsE (fun _ _ => gaussKernel (fun x => (1/2 : ℝ) • x) (by fun_prop) 1) (nlgLoglik (fun _ x => x) (fun _ _ => 1))
            (fun l => ENNReal.ofReal ((l.getD 0 0) ⬝ᵥ (l.getD 0 0))) 0 (qs.map fun q => (q.1, .obj q.2)) [] x ∂(Spec.gauss 0 1) := by
  obtain ⟨o, ho, -, -, h1, h2⟩ := C46_last_covariances (n := 2) (m := 2) none none (some 1) (some 1)
    (by rintro _ ⟨⟩; exact PosDef.one) (by rintro _ ⟨⟩; exact PosDef.one) [] (by simp)
  have hD : Spec.NlgDescribes nlgLikToy o (fun _ _ x => (1/2 : ℝ) • x) (fun _ _ _ => 1) (fun _ x => x) (fun _ _ => 1) :=
    ⟨fun _ _ _ => Or.inl rfl, fun _ _ _ => Or.inr ⟨rfl, 1, PosDef.one, h1 _ rfl, fun _ => rfl⟩, fun _ _ => Or.inl rfl,
      fun _ _ => Or.inr ⟨by norm_num, rfl, 1, PosDef.one, h2 _ rfl, fun _ => rfl⟩⟩
  have hn : parseFilter "PF" = .ok .pf := by
    have : "PF".toLower = "pf" := by decide +kernel
    simp [parseFilter, this]
  refine ⟨o, _, _, ho, mkFilter_pf _ _ _ hn _, rfl, ?_⟩
  have hφ : ∀ l, Measurable fun x : Fin l → Fin 2 → ℝ =>
      (fun l : List (Fin 2 → ℝ) => ENNReal.ofReal ((l.getD 0 0) ⬝ᵥ (l.getD 0 0))) (List.ofFn x) := by
    intro l
    cases l with
    | zero => simp only [List.ofFn_zero]; exact measurable_const
    | succ l =>
      simp only [List.ofFn_succ, List.getD_cons_zero, dotProduct]
      fun_prop
  obtain ⟨S, hS, h⟩ := C93_nonlinear_gaussian hD (Or.inl (by norm_num)) (o0 := ⟨0, 1⟩) PosDef.one (by
      intro h; have := congrFun (congrFun h 0) 0; simp at this) (N := 5) (by norm_num)
    (M := fun _ _ => gaussKernel (fun x => (1/2 : ℝ) • x) (by fun_prop) 1)
    (fun t u x => gaussKernel_apply _ PosDef.one.posSemidef x) (by
      intro t y
      cases y with
      | obj y => exact ((continuous_logNormal 1).measurable).comp (by fun_prop)
      | none => exact measurable_const
      | zero => exact measurable_const) (rest := rest) (res := 2/3) hn (mkFilter_pf _ _ _ hn .none) (T := none) rfl
    (srest := { srest with postSmoothing := none }) (fun _ => rfl) (k := 3) (by norm_num) none d 0
    (φ := fun l => ENNReal.ofReal ((l.getD 0 0) ⬝ᵥ (l.getD 0 0))) hφ (Or.inr rfl) y0 qs
  rw [hS.mpr (fun i j hij => by simp [hij])] at h
  exact h

/-- C93 for the SIR filter `sirGaussToy`. -/
example (res : ℝ) (qs : List (Slot ℝ × (Fin 2 → ℝ))) (y0 : Fin 2 → ℝ)
    (srest : SmoothCallbacks (Fin 2 → ℝ) ℝ (Fin 2 → ℝ) Unit (Fin 5 → Fin 2 → ℝ)) (d : AllDraws (Fin 5 → Fin 2 → ℝ)) :
    ∃ (Fl : _) (s0 : PT (Fin 2 → ℝ) ℝ (Fin 2 → ℝ)), mkFilter sirGaussToy 5 res "sir" .none = .ok Fl ∧ PT.init 5 none 0 = .ok s0 ∧
      ∫⁻ ω, stepsE (normals 5 2) (qs.map fun q => (q.1, .obj q.2)) (fun ds =>
          runWeighted (smoothE (ffbsi sirGaussToy.logpXnext { srest with postSmoothing := none }) 3 "full" none d 0
            (pathMean (fun l => (l.length : ℝ≥0∞)) 3)) (s0.run Fl (history (some (.obj y0, ω)) ds)))
          ∂(normals 5 2) =
        ∫⁻ x, ENNReal.ofReal (exp (Spec.logNormal 1 (y0 - x))) *
          pathsE (fun _ _ => gaussKernel (fun x => (1/2 : ℝ) • x) (by fun_prop) 1) (nlgLoglik (fun _ x => x) (fun _ _ => 1))
            (fun l => (l.length : ℝ≥0∞)) 0 (qs.map fun q => (q.1, .obj q.2)) [] x ∂(Spec.gauss 0 1) := by
  have hF : mkFilter sirGaussToy 5 res "sir" .none = .ok (sirOps sirGaussToy res) := by
    unfold mkFilter
    rw [parse_sir, ok_bind]; rfl
  refine ⟨_, _, hF, rfl, ?_⟩
  refine (C93_sir (by norm_num) ?_ sirGaussToy_samples parse_sir hF ?_ (srest := { srest with postSmoothing := none }) (fun _ => rfl) (m := 3) (by norm_num)
    none d 0 (φ := fun l => (l.length : ℝ≥0∞)) ?_ (T := none) rfl (qs.map fun q => (q.1, .obj q.2)) (by
    intro q hq
    obtain ⟨q', -, rfl⟩ := List.mem_map.mp hq
    exact ⟨_, rfl⟩)).1 (.obj y0) ⟨_, rfl⟩
  · intro _ _
    refine ⟨fun x => ?_⟩
    rw [gaussKernel_apply _ PosDef.one.posSemidef]
    infer_instance
  · intro a b u k _
    rfl
  · intro l
    simp

end PyPE

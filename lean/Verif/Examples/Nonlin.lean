import Verif.Models.NlgScalar

/-!
# C110 for the scripts `nonlin_model.py` and `standard_nonlin_model.py`
-/

namespace PyPE
open Real Spec MeasureTheory ProbabilityTheory Matrix
open scoped ENNReal

variable {U : Type}

/-- The hooks of `Model` in test/manual/filtering/nonlin_model.py:23-40: `calc_f` is the sine of the particles, `calc_g` the particles themselves. -/
noncomputable def sineHooks : NlgHooks 1 1 (Slot U) ℕ where
  calcF parts _ _ := some (parts.map fun x _ => Real.sin (x 0))
  calcQ _ _ _ := none
  calcG parts _ := some parts
  calcR _ _ := none

/-- The hooks of `Model` in test/manual/smoothing/standard_nonlin_model.py:23-35 (the same class is in test/manual/paramest). -/
noncomputable def standardHooks : NlgHooks 1 1 (Slot U) ℕ where
  calcF parts _ t := some (parts.map fun x _ => 0.5 * x 0 + 25 * x 0 / (1 + x 0 ^ 2) + 8 * Real.cos (1.2 * t))
  calcQ _ _ _ := none
  calcG parts _ := some (parts.map fun x _ => 0.05 * x 0 ^ 2)
  calcR _ _ := none

theorem standard_scalarOut {q r : ℝ} (hq : 0 < q) (hr : 0 < r) {o : NlgObj 1 1} (ho : nlgInit none none (some !![q]) (some !![r]) = .ok o) :
    NlgScalarOut (standardHooks (U := U)) o (fun t _ x _ => 0.5 * x 0 + 25 * x 0 / (1 + x 0 ^ 2) + 8 * Real.cos (1.2 * t)) (fun _ _ _ => !![q])
      (fun _ x _ => 0.05 * x 0 ^ 2) r := by
  obtain ⟨o', h1, -, -, h2, h3⟩ := C46_last_covariances (none : Option (Fin 1 → ℝ)) (none : Option (Fin 1 → ℝ)) (some !![q]) (some !![r])
    (by rintro _ ⟨⟩; exact single_posDef hq) (by rintro _ ⟨⟩; exact single_posDef hr) [] (by simp)
  obtain rfl := Except.ok.inj (h1.symm.trans ho)
  exact ⟨fun _ _ _ => .inl rfl, fun _ _ _ => .inr ⟨rfl, _, single_posDef hq, h2 _ rfl, fun _ => rfl⟩, fun _ _ => .inl rfl, fun _ _ => rfl, h3 _ rfl, hr⟩

theorem sine_scalarOut {q r : ℝ} (hq : 0 < q) (hr : 0 < r) {o : NlgObj 1 1} (ho : nlgInit none none (some !![q]) (some !![r]) = .ok o) :
    NlgScalarOut (sineHooks (U := U)) o (fun _ _ x _ => Real.sin (x 0)) (fun _ _ _ => !![q]) (fun _ x => x) r := by
  obtain ⟨o', h1, -, -, h2, h3⟩ := C46_last_covariances (none : Option (Fin 1 → ℝ)) (none : Option (Fin 1 → ℝ)) (some !![q]) (some !![r])
    (by rintro _ ⟨⟩; exact single_posDef hq) (by rintro _ ⟨⟩; exact single_posDef hr) [] (by simp)
  obtain rfl := Except.ok.inj (h1.symm.trans ho)
  exact ⟨fun _ _ _ => .inl rfl, fun _ _ _ => .inr ⟨rfl, _, single_posDef hq, h2 _ rfl, fun _ => rfl⟩,
    fun _ _ => .inl (by simp [sineHooks]), fun _ _ => rfl, h3 _ rfl, hr⟩

theorem scalar_initial (p : ℝ) (hp : 0 < p) : (!![p] : Matrix (Fin 1) (Fin 1) ℝ) ≠ 0 ∧ ∀ i j, i ≠ j → (!![p] : Matrix (Fin 1) (Fin 1) ℝ) i j = 0 := by
  refine ⟨fun h => hp.ne' ?_, fun i j h => absurd (Subsingleton.elim i j) h⟩
  have := congrFun (congrFun h 0) 0
  simpa using this

/-- C110 for `standard_nonlin_model.py` (its parameters are `P0 = 5`, `Q = 1`, `R = 0.1`), for any positive parameters, any number of particles, any
threshold and any record: the constructor succeeds, the estimates have as means the exact values for the documented growth model with measurement
variance `√R`. -/
theorem C110_standard_example {p0 q r : ℝ} (hp : 0 < p0) (hq : 0 < q) (hr : 0 < r) {N : ℕ} (hN : 0 < N)
    {rest : Callbacks (Fin 1 → ℝ) U (Fin 1 → ℝ) (List (Fin 1 → ℝ)) (Fin N → Fin 1 → ℝ)} {res : ℝ} {name : String}
    {opts : FilterOptions (Fin 1 → ℝ)} (hn : parseFilter name = .ok .pf) :
    ∃ o : NlgObj 1 1, nlgInit none none (some !![q]) (some !![r]) = .ok o ∧
      ∀ {Fl : FilterOps (Fin 1 → ℝ) U (Fin 1 → ℝ) _ _} (_ : mkFilter ((nlgMarkov N standardHooks o ⟨0, !![p0]⟩).toCallbacks rest) N res name opts = .ok Fl)
        {T : Option ℕ} {s0 : PT (Fin 1 → ℝ) U (Fin 1 → ℝ)} (_ : PT.init N T 0 = .ok s0) (first : Option (Fin 1 → ℝ))
        (qs : List (Slot U × (Fin 1 → ℝ))) (_ : first = none → qs ≠ []) (φ : (Fin 1 → ℝ) → ℝ≥0∞) (_ : Measurable φ),
        runE (normals N 1) Fl s0 (first.map .obj) (asSlots qs) (runEstimate φ) =
          exactValue (gauss 0 !![p0]) (fun t _ => gaussKernel (fun x _ => 0.5 * x 0 + 25 * x 0 / (1 + x 0 ^ 2) + 8 * Real.cos (1.2 * t))
            (by fun_prop) !![q]) (nlgLoglik (fun _ x _ => 0.05 * x 0 ^ 2) fun _ _ => !![√r]) (first.map .obj) (asSlots qs) φ := by
  obtain ⟨o, ho, -⟩ := C46_last_covariances (none : Option (Fin 1 → ℝ)) (none : Option (Fin 1 → ℝ)) (some !![q]) (some !![r])
    (by rintro _ ⟨⟩; exact single_posDef hq) (by rintro _ ⟨⟩; exact single_posDef hr) [] (by simp)
  refine ⟨o, ho, fun {Fl} hF {T s0} hs first qs hne φ hφ => ?_⟩
  exact C110_filter_value (standard_scalarOut hq hr ho) (o0 := ⟨0, !![p0]⟩) (single_posDef hp) (scalar_initial p0 hp).1 (scalar_initial p0 hp).2
    (fun t u x => gaussKernel_apply _ (single_posSemidef hq.le) x) (fun t => by fun_prop) hN hn hF hs first qs hne hφ

/-- C110 for `nonlin_model.py` (`P0 = Q = 1`, `R = 0.0001`): the same with the sine. The script filters with measurement variance 0.01. -/
theorem C110_sine_example {p0 q r : ℝ} (hp : 0 < p0) (hq : 0 < q) (hr : 0 < r) {N : ℕ} (hN : 0 < N)
    {rest : Callbacks (Fin 1 → ℝ) U (Fin 1 → ℝ) (List (Fin 1 → ℝ)) (Fin N → Fin 1 → ℝ)} {res : ℝ} {name : String}
    {opts : FilterOptions (Fin 1 → ℝ)} (hn : parseFilter name = .ok .pf) :
    ∃ o : NlgObj 1 1, nlgInit none none (some !![q]) (some !![r]) = .ok o ∧
      ∀ {Fl : FilterOps (Fin 1 → ℝ) U (Fin 1 → ℝ) _ _} (_ : mkFilter ((nlgMarkov N sineHooks o ⟨0, !![p0]⟩).toCallbacks rest) N res name opts = .ok Fl)
        {T : Option ℕ} {s0 : PT (Fin 1 → ℝ) U (Fin 1 → ℝ)} (_ : PT.init N T 0 = .ok s0) (first : Option (Fin 1 → ℝ))
        (qs : List (Slot U × (Fin 1 → ℝ))) (_ : first = none → qs ≠ []) (φ : (Fin 1 → ℝ) → ℝ≥0∞) (_ : Measurable φ),
        runE (normals N 1) Fl s0 (first.map .obj) (asSlots qs) (runEstimate φ) =
          exactValue (gauss 0 !![p0]) (fun _ _ => gaussKernel (fun x _ => Real.sin (x 0)) (by fun_prop) !![q])
            (nlgLoglik (fun _ x => x) fun _ _ => !![√r]) (first.map .obj) (asSlots qs) φ := by
  obtain ⟨o, ho, -⟩ := C46_last_covariances (none : Option (Fin 1 → ℝ)) (none : Option (Fin 1 → ℝ)) (some !![q]) (some !![r])
    (by rintro _ ⟨⟩; exact single_posDef hq) (by rintro _ ⟨⟩; exact single_posDef hr) [] (by simp)
  refine ⟨o, ho, fun {Fl} hF {T s0} hs first qs hne φ hφ => ?_⟩
  exact C110_filter_value (sine_scalarOut hq hr ho) (o0 := ⟨0, !![p0]⟩) (single_posDef hp) (scalar_initial p0 hp).1 (scalar_initial p0 hp).2
    (fun t u x => gaussKernel_apply _ (single_posSemidef hq.le) x) (fun t => measurable_id) hN hn hF hs first qs hne hφ

/-- The parameters of `standard_nonlin_model.py` are not the special case `R = 1` of `C110_stated_likelihood`. -/
example {rest : Callbacks (Fin 1 → ℝ) ℝ (Fin 1 → ℝ) (List (Fin 1 → ℝ)) (Fin 100 → Fin 1 → ℝ)} :
    ∃ o : NlgObj 1 1, ∃ Fl s0, nlgInit none none (some !![1]) (some !![0.1]) = .ok o ∧
      mkFilter ((nlgMarkov 100 (standardHooks (U := ℝ)) o ⟨0, !![5]⟩).toCallbacks rest) 100 (2/3) "pf" .none = .ok Fl ∧ PT.init 100 none 0 = .ok s0 ∧
      ¬ ∀ y : Fin 1 → ℝ, runE (normals 100 1) Fl s0 (some (.obj y)) [] (runEstimate 1) =
        ∫⁻ x, ENNReal.ofReal (exp (logNormal !![0.1] (y - fun _ => 0.05 * x 0 ^ 2))) ∂(gauss 0 !![5]) := by
  obtain ⟨o, ho, -⟩ := C46_last_covariances (none : Option (Fin 1 → ℝ)) (none : Option (Fin 1 → ℝ)) (some !![1]) (some !![0.1])
    (by rintro _ ⟨⟩; exact single_posDef (by norm_num)) (by rintro _ ⟨⟩; exact single_posDef (by norm_num)) [] (by simp)
  have hF : mkFilter ((nlgMarkov 100 (standardHooks (U := ℝ)) o ⟨0, !![5]⟩).toCallbacks rest) 100 (2/3) "pf" .none =
      .ok (pfOps ((nlgMarkov 100 (standardHooks (U := ℝ)) o ⟨0, !![5]⟩).toCallbacks rest) (2/3)) := by
    unfold mkFilter
    rw [parse_pf, ok_bind]; rfl
  refine ⟨o, _, _, ho, hF, rfl, fun h => ?_⟩
  have := (C110_stated_likelihood (standard_scalarOut (U := ℝ) (by norm_num) (by norm_num) ho) (o0 := ⟨0, !![5]⟩) (single_posDef (by norm_num))
    (scalar_initial 5 (by norm_num)).1 (scalar_initial 5 (by norm_num)).2
    (M := fun t _ => gaussKernel (fun x _ => 0.5 * x 0 + 25 * x 0 / (1 + x 0 ^ 2) + 8 * Real.cos (1.2 * t)) (by fun_prop) !![1])
    (fun t u x => gaussKernel_apply _ (single_posSemidef (by norm_num)) x) (fun t => by fun_prop) (by norm_num) parse_pf hF (T := none) rfl).mp h
  norm_num at this

end PyPE

import Verif.Param.EmParticle

/-!
# C116: an EM step on the expected objective does not decrease the likelihood

For a Markov model with transition densities: the objective of `ParamEstBaseNumeric.maximize`, weighted with the likelihood estimate of the filter run, has the
expectation `∫ p_θ(x, y) (c - log p_θ'(x, y))`, and a parameter `θ'` with a smaller expected objective than `θ` has a likelihood at least as large.
-/

namespace PyPE
open Real Spec MeasureTheory ProbabilityTheory
open scoped ENNReal

variable {P U Y V Ω : Type}

/-! ### Integrals over paths -/

section
variable [MeasurableSpace P] {M M' : ℕ → Slot U → Kernel P P} {ℓ ℓ' : ℕ → Slot Y → P → ℝ}

theorem pathsE_prefix {φ φ' : List P → ℝ≥0∞} (k : ℕ) (qs : List (Slot U × Slot Y)) (past : List P) (x : P)
    (h : ∀ xs, φ (past ++ x :: xs) = φ' (past ++ x :: xs)) : pathsE M ℓ φ k qs past x = pathsE M ℓ φ' k qs past x := by
  induction qs generalizing k past x with
  | nil => exact h []
  | cons q qs ih =>
    simp only [pathsE]
    refine lintegral_congr fun x' => ?_
    rw [ih (k+1) (past ++ [x]) x' fun xs => by simpa using h (x' :: xs)]

theorem pathsE_const_mul {φ : List P → ℝ≥0∞} {a : ℝ≥0∞} (ha : a ≠ ⊤) (k : ℕ) (qs : List (Slot U × Slot Y)) (past : List P) (x : P) :
    pathsE M ℓ (fun p => a * φ p) k qs past x = a * pathsE M ℓ φ k qs past x := by
  induction qs generalizing k past x with
  | nil => rfl
  | cons q qs ih =>
    simp only [pathsE, ih]
    rw [← lintegral_const_mul' _ _ ha]
    refine lintegral_congr fun x' => ?_
    rw [mul_left_comm]

theorem pathsE_mono {φ φ' : List P → ℝ≥0∞} (h : ∀ xs, φ xs ≤ φ' xs) (k : ℕ) (qs : List (Slot U × Slot Y)) (past : List P) (x : P) :
    pathsE M ℓ φ k qs past x ≤ pathsE M ℓ φ' k qs past x := by
  induction qs generalizing k past x with
  | nil => exact h _
  | cons q qs ih =>
    simp only [pathsE]
    exact lintegral_mono fun x' => mul_le_mul_right (ih _ _ _) _

theorem pathsE_measurable (hM : ∀ k u, IsMarkovKernel (M k u)) (hℓ : ∀ k y, Measurable (ℓ k y)) {φ : List P → ℝ≥0∞}
    (hφ : ∀ n, Measurable fun x : Fin n → P => φ (List.ofFn x)) (k : ℕ) (qs : List (Slot U × Slot Y)) {past : List P} (hp : past.length = k) :
    Measurable (pathsE M ℓ φ k qs past) := by
  rcases isEmpty_or_nonempty P with he | ⟨⟨x0⟩⟩
  · exact measurable_of_empty _
  · have e : pathsE M ℓ φ k qs past = fun x' => pathG M ℓ φ k qs (Function.update (fun i => past.getD i x0) k x') := by
      funext x'
      unfold pathG
      rw [Function.update_self]
      congr 1
      apply List.ext_getElem
      · simp [hp]
      · intro i h1 h2
        have hik : i ≠ k := by omega
        simp [Function.update_of_ne hik, h1]
    rw [e]
    exact (pathG_measurable hM hℓ hφ k qs).comp (measurable_update _)

theorem pathsE_add (hM : ∀ k u, IsMarkovKernel (M k u)) (hℓ : ∀ k y, Measurable (ℓ k y)) {φ φ' : List P → ℝ≥0∞}
    (hφ : ∀ n, Measurable fun x : Fin n → P => φ (List.ofFn x)) (k : ℕ) (qs : List (Slot U × Slot Y)) {past : List P} (hp : past.length = k) (x : P) :
    pathsE M ℓ (fun p => φ p + φ' p) k qs past x = pathsE M ℓ φ k qs past x + pathsE M ℓ φ' k qs past x := by
  induction qs generalizing k past x with
  | nil => rfl
  | cons q qs ih =>
    simp only [pathsE]
    rw [← lintegral_add_left]
    · refine lintegral_congr fun x' => ?_
      rw [ih (k+1) (by simp [hp]), mul_add]
    · exact (measurable_exp.comp (hℓ (k+1) q.2)).ennreal_ofReal.mul (pathsE_measurable hM hℓ hφ (k+1) qs (by simp [hp]))

/-- Change of the transition densities and likelihoods, from those of `θ` to those of `θ'`. -/
theorem pathsE_change {lx lx' : ℕ → Slot U → P → P → ℝ} (hm : ∀ k u x, Measurable fun x' => lx' k u x x' - lx k u x x')
    (hd : ∀ k u x, M' k u x = (M k u x).withDensity fun x' => ENNReal.ofReal (exp (lx' k u x x' - lx k u x x'))) (ψ : List P → ℝ≥0∞) (k : ℕ)
    (qs : List (Slot U × Slot Y)) (past : List P) (x : P) : pathsE M' (seen ℓ') ψ k qs past x =
      pathsE M (seen ℓ) (fun p => ψ p * ENNReal.ofReal (exp (pathLog lx' ℓ' k qs (p.drop past.length) - pathLog lx ℓ k qs (p.drop past.length)))) k qs past x := by
  induction qs generalizing k past x with
  | nil => simp [pathsE, pathLog]
  | cons q qs ih =>
    simp only [pathsE]
    rw [hd, lintegral_withDensity_eq_lintegral_mul_non_measurable _ (hm k q.1 x).exp.ennreal_ofReal
      (Filter.Eventually.of_forall fun _ => ENNReal.ofReal_lt_top)]
    refine lintegral_congr fun x' => ?_
    have e : pathsE M (seen ℓ) (fun p => ψ p * ENNReal.ofReal (exp (pathLog lx' ℓ' k (q :: qs) (p.drop past.length) -
        pathLog lx ℓ k (q :: qs) (p.drop past.length)))) (k+1) qs (past ++ [x]) x' =
        ENNReal.ofReal (exp (lx' k q.1 x x' + seen ℓ' (k+1) q.2 x' - (lx k q.1 x x' + seen ℓ (k+1) q.2 x'))) *
          pathsE M' (seen ℓ') ψ (k+1) qs (past ++ [x]) x' := by
      rw [ih, ← pathsE_const_mul ENNReal.ofReal_ne_top]
      refine pathsE_prefix _ _ _ _ fun xs => ?_
      have d1 : (past ++ [x] ++ x' :: xs).drop past.length = x :: x' :: xs := by simp
      have d2 : (past ++ [x] ++ x' :: xs).drop (past ++ [x]).length = x' :: xs := by simp
      simp only [d1, d2, pathLog]
      rw [mul_left_comm, ← ENNReal.ofReal_mul (exp_pos _).le, ← exp_add]
      congr 3
      ring
    rw [e]
    simp only [Pi.mul_apply]
    rw [← mul_assoc, ← mul_assoc, ← ENNReal.ofReal_mul (exp_pos _).le, ← ENNReal.ofReal_mul (exp_pos _).le, ← exp_add, ← exp_add]
    congr 3
    ring

variable {μ0 μ0' : Measure P} {first : Option (Slot Y)} {qs : List (Slot U × Slot Y)}

theorem smoothingE_eq (φ : List P → ℝ≥0∞) : smoothingE μ0 M ℓ first qs φ =
    ∫⁻ x, ENNReal.ofReal (exp (firstLik ℓ first x)) * pathsE M (seen ℓ) φ 0 qs [] x ∂μ0 := by
  cases first with
  | some y0 => rfl
  | none => simp [smoothingE, firstLik]

theorem smoothingE_mono {φ φ' : List P → ℝ≥0∞} (h : ∀ xs, φ xs ≤ φ' xs) : smoothingE μ0 M ℓ first qs φ ≤ smoothingE μ0 M ℓ first qs φ' := by
  rw [smoothingE_eq, smoothingE_eq]
  exact lintegral_mono fun x => mul_le_mul_right (pathsE_mono h _ _ _ _) _

theorem firstLik_measurable (hℓ : ∀ k y, Measurable (ℓ k y)) : Measurable (firstLik ℓ first) := by
  cases first with
  | none => exact measurable_const
  | some y => exact hℓ 0 y

theorem smoothingE_add (hM : ∀ k u, IsMarkovKernel (M k u)) (hℓ : ∀ k y, Measurable (ℓ k y)) {φ φ' : List P → ℝ≥0∞}
    (hφ : ∀ n, Measurable fun x : Fin n → P => φ (List.ofFn x)) :
    smoothingE μ0 M ℓ first qs (fun p => φ p + φ' p) = smoothingE μ0 M ℓ first qs φ + smoothingE μ0 M ℓ first qs φ' := by
  simp only [smoothingE_eq]
  rw [← lintegral_add_left]
  · refine lintegral_congr fun x => ?_
    rw [pathsE_add hM (seen_measurable hℓ) hφ 0 qs rfl, mul_add]
  · exact (measurable_exp.comp (firstLik_measurable hℓ)).ennreal_ofReal.mul (pathsE_measurable hM (seen_measurable hℓ) hφ 0 qs rfl)

/-- The likelihood of `θ'`, and any integral over its paths, as an integral over the paths of `θ`. -/
theorem smoothingE_change {l0 l0' : P → ℝ} {lx lx' : ℕ → Slot U → P → P → ℝ} (hm0 : Measurable fun x => l0' x - l0 x)
    (hd0 : μ0' = μ0.withDensity fun x => ENNReal.ofReal (exp (l0' x - l0 x))) (hm : ∀ k u x, Measurable fun x' => lx' k u x x' - lx k u x x')
    (hd : ∀ k u x, M' k u x = (M k u x).withDensity fun x' => ENNReal.ofReal (exp (lx' k u x x' - lx k u x x'))) (ψ : List P → ℝ≥0∞) :
    smoothingE μ0' M' ℓ' first qs ψ = smoothingE μ0 M ℓ first qs fun p =>
      ψ p * ENNReal.ofReal (exp (completeLog l0' lx' ℓ' first qs p - completeLog l0 lx ℓ first qs p)) := by
  simp only [smoothingE_eq]
  rw [hd0, lintegral_withDensity_eq_lintegral_mul_non_measurable _ hm0.exp.ennreal_ofReal
    (Filter.Eventually.of_forall fun _ => ENNReal.ofReal_lt_top)]
  refine lintegral_congr fun x => ?_
  have e : pathsE M (seen ℓ) (fun p => ψ p * ENNReal.ofReal (exp (completeLog l0' lx' ℓ' first qs p - completeLog l0 lx ℓ first qs p))) 0 qs [] x =
      ENNReal.ofReal (exp (l0' x + firstLik ℓ' first x - (l0 x + firstLik ℓ first x))) * pathsE M' (seen ℓ') ψ 0 qs [] x := by
    rw [pathsE_change hm hd, ← pathsE_const_mul ENNReal.ofReal_ne_top]
    refine pathsE_prefix _ _ _ _ fun xs => ?_
    simp only [List.nil_append, List.length_nil, List.drop_zero, completeLog]
    rw [mul_left_comm, ← ENNReal.ofReal_mul (exp_pos _).le, ← exp_add]
    congr 3
    ring
  rw [e]
  simp only [Pi.mul_apply]
  rw [← mul_assoc, ← mul_assoc, ← ENNReal.ofReal_mul (exp_pos _).le, ← ENNReal.ofReal_mul (exp_pos _).le, ← exp_add, ← exp_add]
  congr 3
  ring

/-- The EM inequality: likelihood of `θ'` plus `∫ p_θ (c - log p_θ')` is at least likelihood of `θ` plus `∫ p_θ (c - log p_θ)`. -/
theorem em_inequality (hM : ∀ k u, IsMarkovKernel (M k u)) (hℓ : ∀ k y, Measurable (ℓ k y)) {l0 l0' : P → ℝ} {lx lx' : ℕ → Slot U → P → P → ℝ}
    (hm0 : Measurable fun x => l0' x - l0 x) (hd0 : μ0' = μ0.withDensity fun x => ENNReal.ofReal (exp (l0' x - l0 x)))
    (hm : ∀ k u x, Measurable fun x' => lx' k u x x' - lx k u x x')
    (hd : ∀ k u x, M' k u x = (M k u x).withDensity fun x' => ENNReal.ofReal (exp (lx' k u x x' - lx k u x x'))) {c : ℝ}
    (hc : ∀ xs, completeLog l0 lx ℓ first qs xs ≤ c) (hc' : ∀ xs, completeLog l0' lx' ℓ' first qs xs ≤ c)
    (hφ : ∀ n, Measurable fun x : Fin n → P => ENNReal.ofReal (c - completeLog l0' lx' ℓ' first qs (List.ofFn x))) :
    smoothingE μ0 M ℓ first qs (fun _ => 1) + smoothingE μ0 M ℓ first qs (fun xs => ENNReal.ofReal (c - completeLog l0 lx ℓ first qs xs)) ≤
      smoothingE μ0' M' ℓ' first qs (fun _ => 1) + smoothingE μ0 M ℓ first qs (fun xs => ENNReal.ofReal (c - completeLog l0' lx' ℓ' first qs xs)) := by
  rw [smoothingE_change (ℓ := ℓ) hm0 hd0 hm hd, ← smoothingE_add hM hℓ fun n => measurable_const, add_comm, ← smoothingE_add hM hℓ hφ]
  refine smoothingE_mono fun xs => ?_
  have h1 := hc xs
  have h2 := hc' xs
  rw [one_mul, show (1 : ℝ≥0∞) = ENNReal.ofReal 1 from ENNReal.ofReal_one.symm, ← ENNReal.ofReal_add zero_le_one (by linarith),
    ← ENNReal.ofReal_add (by linarith) (exp_pos _).le]
  refine ENNReal.ofReal_le_ofReal ?_
  have := add_one_le_exp (completeLog l0' lx' ℓ' first qs xs - completeLog l0 lx ℓ first qs xs)
  linarith

end

/-! ### The objective of a run -/

/-- `c + fval` of what the smoother returned; a smoother that raises contributes `0`. -/
noncomputable def Spec.objMean (c : ℝ) (fval : List (SStep P) → PyM ℝ) : PyM (Option (List (SStep P))) → ℝ≥0∞
  | .ok (some traj) => match fval traj with
    | .ok v => ENNReal.ofReal (c + v)
    | .error _ => 0
  | _ => 0

/-- Expectation, over all draws of the filter and the smoother, of the likelihood estimate of the filter run times `c + fval`, where `fval` is the objective
`ParamEstBaseNumeric.maximize` computes from the smoothed trajectories and the stored data with the model's `evalY`, `evalX`, `evalX0`. -/
noncomputable def Spec.objectiveE [MeasurableSpace Ω] (ν : Measure Ω) (s0 : PT P U Y) (F : FilterOps P U Y V Ω) (first : Option (Slot Y))
    (qs : List (Slot U × Slot Y)) (S : SmoothCallbacks P U Y V Ω) (m : ℕ) (method : String) (user : Option SOpts) (d : AllDraws Ω) (fuel : ℕ)
    (evalY : List P → Slot Y → ℕ → PyM (List ℝ)) (evalX : List P → List P → Slot U → ℕ → PyM (List ℝ)) (evalX0 : List P → ℕ → PyM (List ℝ)) (c : ℝ) : ℝ≥0∞ :=
  estimateE ν s0 F first qs fun s =>
    smoothE S m method user d fuel (objMean c (trajFval evalY evalX evalX0 ⟨s.uvec, s.yvec, s.tvec⟩)) s

/-- The initial law and the transition kernels have the densities `exp l0` and `exp lx`. -/
structure Spec.Densities [MeasurableSpace P] (vol μ0 : Measure P) (M : ℕ → Slot U → Kernel P P) (l0 : P → ℝ) (lx : ℕ → Slot U → P → P → ℝ) : Prop where
  start : Measurable l0
  move : ∀ k u, Measurable fun z : P × P => lx k u z.1 z.2
  start_law : μ0 = vol.withDensity fun x => ENNReal.ofReal (exp (l0 x))
  move_law : ∀ k u x, M k u x = vol.withDensity fun x' => ENNReal.ofReal (exp (lx k u x x'))

theorem withDensity_change [MeasurableSpace P] {vol : Measure P} {l l' : P → ℝ} (hl : Measurable l) (hl' : Measurable l') :
    vol.withDensity (fun x => ENNReal.ofReal (exp (l' x))) =
      (vol.withDensity fun x => ENNReal.ofReal (exp (l x))).withDensity fun x => ENNReal.ofReal (exp (l' x - l x)) := by
  have hs : Measurable fun x => l' x - l x := hl'.sub hl
  rw [← withDensity_mul _ hl.exp.ennreal_ofReal hs.exp.ennreal_ofReal]
  congr 1
  funext x
  rw [Pi.mul_apply, ← ENNReal.ofReal_mul (exp_pos _).le, ← exp_add]
  congr 2
  ring

theorem estimateE_congr [MeasurableSpace Ω] {ν : Measure Ω} {F : FilterOps P U Y V Ω} {N : ℕ} {T : Option ℕ} {s0 : PT P U Y} (h0 : PT.init N T 0 = .ok s0)
    {first : Option (Slot Y)} {qs : List (Slot U × Slot Y)} (hne : first = none → qs ≠ []) {H H' : PT P U Y → ℝ≥0∞}
    (h : ∀ s, Recorded first qs ⟨s.uvec, s.yvec, s.tvec⟩ → s.traj.length = qs.length + 1 → H s = H' s) :
    estimateE ν s0 F first qs H = estimateE ν s0 F first qs H' := by
  have key : ∀ (fs : Option (Slot Y × Ω)) (ds : List (Slot U × Slot Y × Ω × Draws Ω)), fs.map (·.1) = first → (ds.map fun q => (q.1, q.2.1)) = qs →
      runWeighted H (s0.run F (history fs ds)) = runWeighted H' (s0.run F (history fs ds)) := by
    intro fs ds hfs hds
    have hne' : fs = none → qs ≠ [] := fun e => hne (by rw [← hfs, e]; rfl)
    rcases hr : s0.run F (history fs ds) with ⟨s, e | bs⟩
    · rfl
    · have h1 := run_recorded h0 fs hds hne' hr
      have h2 := (PT.run_rep _ (PT.init_rep h0) hr).len
      rw [history_log _ _ _ (fun e hd => hne' e (by rw [← hds, hd]; rfl))] at h2
      have hl : ds.length = qs.length := by rw [← hds, List.length_map]
      rw [hfs] at h1
      simp only [runWeighted]
      rw [h s h1 (by rw [h2]; simp [hl])]
  cases first with
  | none => exact stepsE_congr ν fun ds hds => key none ds rfl hds
  | some y0 => exact lintegral_congr fun ω => stepsE_congr ν fun ds hds => key (some (y0, ω)) ds rfl hds

theorem backE_ext (n : ℕ) {f f' : (ℕ → ℕ → ℝ) → ℝ≥0∞} (h : ∀ a, f a = f' a) : backE n f = backE n f' := by
  rw [show f = f' from funext h]

theorem pathLog_measurable [MeasurableSpace P] {lx : ℕ → Slot U → P → P → ℝ} {ly : ℕ → Slot Y → P → ℝ} (hlx : ∀ k u, Measurable fun z : P × P => lx k u z.1 z.2)
    (hly : ∀ k y, Measurable (ly k y)) (k : ℕ) (qs : List (Slot U × Slot Y)) (n : ℕ) : Measurable fun x : Fin n → P => pathLog lx ly k qs (List.ofFn x) := by
  induction qs generalizing k n with
  | nil =>
    have : (fun x : Fin n → P => pathLog lx ly k [] (List.ofFn x)) = fun _ => 0 := by funext x; simp [pathLog]
    rw [this]; exact measurable_const
  | cons q qs ih =>
    rcases n with _ | _ | n
    · simp only [List.ofFn_zero, pathLog]; exact measurable_const
    · simp only [List.ofFn_succ, List.ofFn_zero, pathLog]; exact measurable_const
    · have e : (fun x : Fin (n+1+1) → P => pathLog lx ly k (q :: qs) (List.ofFn x)) = fun x => lx k q.1 (x 0) (x 1) + seen ly (k+1) q.2 (x 1) +
          pathLog lx ly (k+1) qs (List.ofFn fun i : Fin (n+1) => x i.succ) := by
        funext x
        have e1 : List.ofFn x = x 0 :: x 1 :: List.ofFn (fun i : Fin n => x i.succ.succ) := by
          rw [List.ofFn_succ, List.ofFn_succ]; rfl
        have e2 : List.ofFn (fun i : Fin (n+1) => x i.succ) = x 1 :: List.ofFn (fun i : Fin n => x i.succ.succ) := by
          rw [List.ofFn_succ]; rfl
        rw [e1, e2, pathLog]
      rw [e]
      have m1 : Measurable fun x : Fin (n+1+1) → P => (x 0, x 1) := (measurable_pi_apply 0).prodMk (measurable_pi_apply 1)
      have m2 : Measurable fun x : Fin (n+1+1) → P => fun i : Fin (n+1) => x i.succ := measurable_pi_lambda _ fun i => measurable_pi_apply _
      exact (((hlx k q.1).comp m1).add ((seen_measurable hly (k+1) q.2).comp (measurable_pi_apply 1))).add ((ih (k+1) (n+1)).comp m2)

theorem completeLog_measurable [MeasurableSpace P] {l0 : P → ℝ} (hl0 : Measurable l0) {lx : ℕ → Slot U → P → P → ℝ} {ly : ℕ → Slot Y → P → ℝ}
    (hlx : ∀ k u, Measurable fun z : P × P => lx k u z.1 z.2) (hly : ∀ k y, Measurable (ly k y)) (first : Option (Slot Y)) (qs : List (Slot U × Slot Y)) (n : ℕ) :
    Measurable fun x : Fin n → P => completeLog l0 lx ly first qs (List.ofFn x) := by
  rcases n with _ | n
  · simp only [List.ofFn_zero, completeLog]; exact measurable_const
  · have e : (fun x : Fin (n+1) → P => completeLog l0 lx ly first qs (List.ofFn x)) = fun x => l0 (x 0) + firstLik ly first (x 0) +
        pathLog lx ly 0 qs (List.ofFn x) := by
      funext x
      rw [List.ofFn_succ, completeLog]
    rw [e]
    exact ((hl0.comp (measurable_pi_apply 0)).add ((firstLik_measurable hly).comp (measurable_pi_apply 0))).add (pathLog_measurable hlx hly 0 qs (n+1))

/-- On recorded data, `c + fval` is the average over the trajectories of `c` minus the complete-data log-likelihood. -/
theorem objMean_eq {evalY : List P → Slot Y → ℕ → PyM (List ℝ)} {evalX : List P → List P → Slot U → ℕ → PyM (List ℝ)}
    {evalX0 : List P → ℕ → PyM (List ℝ)} {good : Slot Y → Prop} {l0 : P → ℝ} {lx : ℕ → Slot U → P → P → ℝ} {ly : ℕ → Slot Y → P → ℝ}
    (hL : LogTerms evalY evalX evalX0 good l0 lx ly) {first : Option (Slot Y)} {qs : List (Slot U × Slot Y)} {D : SData U Y} (hD : Recorded first qs D)
    (hfirst : ∀ y ∈ first, good y ∧ y ≠ .none) (hqs : ∀ q ∈ qs, q.2 = .none ∨ good q.2) {m : ℕ} (hm : 0 < m) {c : ℝ}
    (hc : ∀ xs, completeLog l0 lx ly first qs xs ≤ c) {r : PyM (Option (List (SStep P)))}
    (hr : ∀ traj, r = .ok (some traj) → Shape traj (qs.length + 1) m) :
    objMean c (trajFval evalY evalX evalX0 D) r = pathMean (fun xs => ENNReal.ofReal (c - completeLog l0 lx ly first qs xs)) m r := by
  rcases r with e | _ | traj
  · rfl
  · rfl
  · simp only [objMean, pathMean, C116_objective_value hL hD hfirst hqs (hr traj rfl)]
    have hm' : (0 : ℝ) < m := by exact_mod_cast hm
    rw [← ENNReal.ofReal_sum_of_nonneg fun j _ => by have := hc (pathOf traj j); linarith, ← ENNReal.ofReal_mul (by positivity)]
    congr 1
    rw [Finset.sum_sub_distrib, Finset.sum_const, Finset.card_range, nsmul_eq_mul]
    field_simp
    ring

variable [MeasurableSpace P] [MeasurableSpace Ω] {K : MarkovModel P U Y V Ω} {ν : Measure Ω} [IsProbabilityMeasure ν]
  {N : ℕ} {vol μ0 μ0' : Measure P} {M M' : ℕ → Slot U → Kernel P P} {ℓ ℓ' : ℕ → Slot Y → P → ℝ} {good : Slot Y → Prop}
  {rest : Callbacks P U Y V Ω} {res : ℝ} {name : String} {o : FilterOptions P} {F : FilterOps P U Y V Ω}
  {logpXnext : List P → List P → Slot U → ℕ → PyM (List ℝ)} {l0 l0' : P → ℝ} {lx lx' : ℕ → Slot U → P → P → ℝ}
  {srest : SmoothCallbacks P U Y V Ω} {m : ℕ} {method : String} {T : Option ℕ} {s0 : PT P U Y} {first : Option (Slot Y)} {qs : List (Slot U × Slot Y)}
  {evalY evalY' : List P → Slot Y → ℕ → PyM (List ℝ)} {evalX evalX' : List P → List P → Slot U → ℕ → PyM (List ℝ)}
  {evalX0 evalX0' : List P → ℕ → PyM (List ℝ)} {c : ℝ}

/-- C92 and C93 in one statement. -/
theorem paths_unbiased (hN : 0 < N) (hK : Spec.Samples K good ν N μ0 M ℓ) (hn : parseFilter name = .ok .pf)
    (hF : mkFilter (K.toCallbacks rest) N res name o = .ok F) (hlx : LogDensity logpXnext lx) (hden : Densities vol μ0 M l0 lx) (hps : NoPostprocessing srest)
    (hm : 0 < m) (hmeth : method = "ancestor" ∨ method = "full") (user : Option SOpts) (d : AllDraws Ω) (fuel : ℕ) (h0 : PT.init N T 0 = .ok s0)
    (hfirst : ∀ y ∈ first, good y) (hne : first = none → qs ≠ []) (hqs : ∀ q ∈ qs, good q.2) (hnone : ∀ q ∈ qs, q.2 = .none → ∀ k x, ℓ k .none x = 0)
    {φ : List P → ℝ≥0∞} (hφ : ∀ n, Measurable fun x : Fin n → P => φ (List.ofFn x)) :
    estimateE ν s0 F first qs (smoothE (ffbsi logpXnext srest) m method user d fuel (pathMean φ m)) = smoothingE μ0 M ℓ first qs φ := by
  have key := fun φ k x => pathsE_seen M (ℓ := ℓ) φ k qs hnone [] x
  have hlm : ∀ k u x, Measurable (lx k u x) := fun k u x => (hden.move k u).comp measurable_prodMk_left
  rcases hmeth with rfl | rfl
  · have h := C92_ancestor_unbiased hN hK hn hF (S := ffbsi logpXnext srest) (fun D _ _ _ _ _ _ _ => rfl) hps hm user d fuel hφ h0 qs hqs
    cases first with
    | none =>
      refine (h.2 (hne rfl)).trans ?_
      simp only [smoothingE, key]
    | some y0 =>
      refine (h.1 y0 (hfirst y0 rfl)).trans ?_
      simp only [smoothingE, key]
  · have h := C93_backward_simulation_unbiased hN hK hn hF hlx hlm hden.move_law hps hm user d fuel hφ h0 qs hqs
    cases first with
    | none =>
      refine (h.2 (hne rfl)).trans ?_
      simp only [smoothingE, key]
    | some y0 =>
      refine (h.1 y0 (hfirst y0 rfl)).trans ?_
      simp only [smoothingE, key]

/-- C116: run the bootstrap filter (any number of particles, any resampling threshold) with the parameter `θ`, smooth with 'ancestor' or 'full' and evaluate
the objective `fval` at any parameter `θ'`. Over all draws, the likelihood estimate times `c + fval(θ')` has the expectation `∫ p_θ(x, y) (c - log p_θ'(x, y)) dx`:
up to a constant and the factor `p_θ(y)`, minus the `Q` function of EM. -/
theorem C116_objective_unbiased (hN : 0 < N) (hK : Spec.Samples K good ν N μ0 M ℓ) (hn : parseFilter name = .ok .pf)
    (hF : mkFilter (K.toCallbacks rest) N res name o = .ok F) (hlx : LogDensity logpXnext lx) (hden : Densities vol μ0 M l0 lx) (hps : NoPostprocessing srest)
    (hm : 0 < m) (hmeth : method = "ancestor" ∨ method = "full") (user : Option SOpts) (d : AllDraws Ω) (fuel : ℕ) (h0 : PT.init N T 0 = .ok s0)
    (hfirst : ∀ y ∈ first, good y ∧ y ≠ .none) (hne : first = none → qs ≠ []) (hqs : ∀ q ∈ qs, good q.2)
    (hnone : ∀ q ∈ qs, q.2 = .none → ∀ k x, ℓ k .none x = 0)
    (hl0' : Measurable l0') (hlx' : ∀ k u, Measurable fun z : P × P => lx' k u z.1 z.2) (hℓ' : ∀ k y, Measurable (ℓ' k y))
    (hL : LogTerms evalY' evalX' evalX0' good l0' lx' ℓ') (hc : ∀ xs, completeLog l0' lx' ℓ' first qs xs ≤ c) :
    objectiveE ν s0 F first qs (ffbsi logpXnext srest) m method user d fuel evalY' evalX' evalX0' c =
      smoothingE μ0 M ℓ first qs fun xs => ENNReal.ofReal (c - completeLog l0' lx' ℓ' first qs xs) := by
  rw [← paths_unbiased hN hK hn hF hlx hden hps hm hmeth user d fuel h0 (fun y hy => (hfirst y hy).1) hne hqs hnone
    (fun n => (measurable_const.sub (completeLog_measurable hl0' hlx' hℓ' first qs n)).ennreal_ofReal)]
  unfold objectiveE
  refine estimateE_congr h0 hne fun s hD hs => ?_
  unfold smoothE
  refine lintegral_congr fun r0 => backE_ext _ fun a => ?_
  refine objMean_eq hL hD hfirst (fun q hq => .inr (hqs q hq)) hm hc fun traj htraj => ?_
  rw [← hs]
  have hpl : PlainSmooth (ffbsi logpXnext srest) (⟨s.uvec, s.yvec, s.tvec⟩ : SData U Y) := fun _ _ _ _ _ _ _ => rfl
  refine smoothing_shape (S := ffbsi logpXnext srest) hpl (fun traj => hps traj) ?_ htraj
  rcases hmeth with h | h
  · exact .inr (.inr (.inr (.inr h)))
  · exact .inl h

/-- C116: going from `θ` to `θ'`, the likelihood grows by at least as much as the expected objective falls. -/
theorem C116_em_gain (hN : 0 < N) (hK : Spec.Samples K good ν N μ0 M ℓ) (hn : parseFilter name = .ok .pf)
    (hF : mkFilter (K.toCallbacks rest) N res name o = .ok F) (hlx : LogDensity logpXnext lx) (hden : Densities vol μ0 M l0 lx)
    (hden' : Densities vol μ0' M' l0' lx') (hℓ' : ∀ k y, Measurable (ℓ' k y)) (hps : NoPostprocessing srest)
    (hm : 0 < m) (hmeth : method = "ancestor" ∨ method = "full") (user : Option SOpts) (d : AllDraws Ω) (fuel : ℕ) (h0 : PT.init N T 0 = .ok s0)
    (hfirst : ∀ y ∈ first, good y ∧ y ≠ .none) (hne : first = none → qs ≠ []) (hqs : ∀ q ∈ qs, good q.2)
    (hnone : ∀ q ∈ qs, q.2 = .none → ∀ k x, ℓ k .none x = 0)
    (hL : LogTerms evalY evalX evalX0 good l0 lx ℓ) (hL' : LogTerms evalY' evalX' evalX0' good l0' lx' ℓ')
    (hc : ∀ xs, completeLog l0 lx ℓ first qs xs ≤ c) (hc' : ∀ xs, completeLog l0' lx' ℓ' first qs xs ≤ c) :
    smoothingE μ0 M ℓ first qs (fun _ => 1) + objectiveE ν s0 F first qs (ffbsi logpXnext srest) m method user d fuel evalY evalX evalX0 c ≤
      smoothingE μ0' M' ℓ' first qs (fun _ => 1) + objectiveE ν s0 F first qs (ffbsi logpXnext srest) m method user d fuel evalY' evalX' evalX0' c := by
  rw [C116_objective_unbiased hN hK hn hF hlx hden hps hm hmeth user d fuel h0 hfirst hne hqs hnone hden.start hden.move hK.meas hL hc,
    C116_objective_unbiased hN hK hn hF hlx hden hps hm hmeth user d fuel h0 hfirst hne hqs hnone hden'.start hden'.move hℓ' hL' hc']
  have hlm : ∀ k u x, Measurable (lx k u x) := fun k u x => (hden.move k u).comp measurable_prodMk_left
  have hlm' : ∀ k u x, Measurable (lx' k u x) := fun k u x => (hden'.move k u).comp measurable_prodMk_left
  refine em_inequality (samples_markov hN hK) hK.meas (hden'.start.sub hden.start) ?_ (fun k u x => (hlm' k u x).sub (hlm k u x)) ?_ hc hc'
    fun n => (measurable_const.sub (completeLog_measurable hden'.start hden'.move hℓ' first qs n)).ennreal_ofReal
  · rw [hden.start_law, hden'.start_law]; exact withDensity_change hden.start hden'.start
  · intro k u x
    rw [hden.move_law, hden'.move_law]
    exact withDensity_change (hlm k u x) (hlm' k u x)

/-- C116: if the expected objective at `θ'` is at most the (finite) expected objective at `θ`, the likelihood `p_θ'(y)` is at least `p_θ(y)`. -/
theorem C116_em_step (hN : 0 < N) (hK : Spec.Samples K good ν N μ0 M ℓ) (hn : parseFilter name = .ok .pf)
    (hF : mkFilter (K.toCallbacks rest) N res name o = .ok F) (hlx : LogDensity logpXnext lx) (hden : Densities vol μ0 M l0 lx)
    (hden' : Densities vol μ0' M' l0' lx') (hℓ' : ∀ k y, Measurable (ℓ' k y)) (hps : NoPostprocessing srest)
    (hm : 0 < m) (hmeth : method = "ancestor" ∨ method = "full") (user : Option SOpts) (d : AllDraws Ω) (fuel : ℕ) (h0 : PT.init N T 0 = .ok s0)
    (hfirst : ∀ y ∈ first, good y ∧ y ≠ .none) (hne : first = none → qs ≠ []) (hqs : ∀ q ∈ qs, good q.2)
    (hnone : ∀ q ∈ qs, q.2 = .none → ∀ k x, ℓ k .none x = 0)
    (hL : LogTerms evalY evalX evalX0 good l0 lx ℓ) (hL' : LogTerms evalY' evalX' evalX0' good l0' lx' ℓ')
    (hc : ∀ xs, completeLog l0 lx ℓ first qs xs ≤ c) (hc' : ∀ xs, completeLog l0' lx' ℓ' first qs xs ≤ c)
    (hfin : objectiveE ν s0 F first qs (ffbsi logpXnext srest) m method user d fuel evalY evalX evalX0 c ≠ ⊤)
    (hle : objectiveE ν s0 F first qs (ffbsi logpXnext srest) m method user d fuel evalY' evalX' evalX0' c ≤
      objectiveE ν s0 F first qs (ffbsi logpXnext srest) m method user d fuel evalY evalX evalX0 c) :
    smoothingE μ0 M ℓ first qs (fun _ => 1) ≤ smoothingE μ0' M' ℓ' first qs (fun _ => 1) := by
  have h := C116_em_gain hN hK hn hF hlx hden hden' hℓ' hps hm hmeth user d fuel h0 hfirst hne hqs hnone hL hL' hc hc'
  exact (ENNReal.add_le_add_iff_right hfin).mp (h.trans (add_le_add le_rfl hle))

end PyPE

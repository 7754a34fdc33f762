import Verif.Filter.RbApf
import Verif.Models.MlFilter

/-!
# C119 for mixed linear/nonlinear Gaussian models (mlnlg.py): the Rao-Blackwellised auxiliary particle filter
-/

namespace PyPE
open Real Spec MeasureTheory ProbabilityTheory Matrix
open scoped ENNReal

variable {lz ly : ℕ} {U Y Ω : Type}

/-- `eval_1st_stage_weights(particles, u, y, t)` as `AuxiliaryParticleFilter.forward` calls it (filter.py:682-684, mlnlg.py:272-293, which measures at `t + 1`). -/
noncomputable def mlFirst (H : MlHooks 1 lz ly (Slot U) ℕ Y) (o : MlObj 1 lz ly) (parts : List (RbP 1 lz)) (u : Slot U) (y : Slot Y) (t : ℕ) : PyM (List ℝ) :=
  match y with
  | .obj y => mlFirstStage H o parts u y t (t + 1)
  | _ => .error .typeError

/-- The first-stage weights exist for valid particles: no call raises. -/
theorem ml_firstStage {H : MlHooks 1 lz ly (Slot U) ℕ Y} {o : MlObj 1 lz ly} {M : Spec.RbModel 1 lz ly (Slot U) ℕ Y}
    (hD : Spec.RbDescribes H o M) (hG : M.Good) {N : ℕ} (hN : 0 < N) :
    Spec.RbFirstStage (mlFirst H o) IsObj (fun p => p.2.2.PosSemidef) N := by
  rintro x u _ k ⟨y, rfl⟩ hx
  have hP : ∀ p ∈ List.ofFn x, p.2.2.PosSemidef := fun p hp => by obtain ⟨i, rfl⟩ := (List.mem_ofFn' _ _).1 hp; exact hx i
  obtain ⟨Ss, -, -, hS⟩ := C72_update_exact hD hG (List.ofFn x) hP u k
  have hxi : ∀ i : Fin N, (List.ofFn x)[(i : ℕ)]? = some (x i) := fun i => by simp
  choose S mean cov hSi hcov hup hlaw hcond hmean using fun i : Fin N => hS i _ (hxi i)
  obtain ⟨r, -, hr, hrl, -⟩ := hup ⟨0, hN⟩ (List.replicate (List.ofFn x).length 0) (by simp)
  have hrP : ∀ p ∈ r, p.2.2.PosSemidef := by
    intro p hp
    obtain ⟨j, hj, rfl⟩ := List.getElem_of_mem hp
    have hjN : j < N := by simpa [hrl] using hj
    obtain ⟨r', n, hr', -, -, hi⟩ := hup ⟨j, hjN⟩ (List.replicate (List.ofFn x).length 0) (by simp)
    obtain rfl := Except.ok.inj (hr.symm.trans hr')
    rw [List.getElem?_eq_getElem hj, Option.some.injEq] at hi
    rw [hi]
    exact hcov _
  have hne : r ≠ [] := by intro h; rw [h] at hrl; simp at hrl; omega
  obtain ⟨r2, ll, h1, h2, h3, h4⟩ := C72_measure_exact hD hG r hne hrP y (k+1)
  refine ⟨fun i => ll.getD i 0, ?_⟩
  show mlFirstStage H o (List.ofFn x) u y k (k+1) = _
  rw [C72_first_stage, hr, ok_bind, h1]
  have hl : ll.length = N := by rw [h3, hrl]; simp
  have : ll = List.ofFn fun i : Fin N => ll.getD i 0 := by
    apply List.ext_getElem
    · simp [hl]
    · intro i g1 g2
      simp [List.getD_eq_getElem?_getD, g1]
  show Except.ok ll = _
  rw [← this]

/-- **C119** for mixed linear/nonlinear Gaussian models with one nonlinear state: run the auxiliary particle filter with the model's own
`eval_1st_stage_weights`, any number of particles and any resampling threshold. The likelihood estimate read off the stored weights, offsets, ancestors and flags times
the filtered mean of `E[φ(xi, z) | particle]` is an unbiased estimate of `E[Π_t p(y_t | xi_t, z_t) φ(xi_T, z_T)]` under the joint model
`xi' = Axi z + fxi + vxi`, `z' = Az z + fz + Qxizᵀ Qxi⁻¹ vxi + w`, `y = C z + h + e`, started from independent `xi ~ N(xi0, Pxi0)`, `z ~ N(z0, Pz0)`. -/
theorem C119_mixed_gaussian [MeasurableSpace Ω] {H : MlHooks 1 lz ly (Slot U) ℕ Y} {o : MlObj 1 lz ly} {M : Spec.RbModel 1 lz ly (Slot U) ℕ Y}
    (hD : Spec.RbDescribes H o M) (hG : M.Good) {o0 : MlX0 1 lz} (hPx : o0.Pxi0.PosSemidef) (hPz : o0.Pz0.PosSemidef) {ρ : Measure Ω}
    [IsProbabilityMeasure ρ] {mvn : VecR 1 × MatR 1 1 → Ω → VecR 1} (hm : ∀ a, Measurable (mvn a))
    (hmvn : ∀ a, a.2.PosSemidef → ρ.map (mvn a) = Spec.gauss a.1 a.2) {N : ℕ} (hN : 0 < N)
    {K : ℕ → Slot U → Kernel (VecR 1 × VecR lz) (VecR 1 × VecR lz)} (hK : ∀ t u s, K t u s = M.joint t u s)
    (hmeas : ∀ t y, Measurable (M.loglik t y)) (res : ℝ) {φ : VecR 1 × VecR lz → ℝ≥0∞} (hφ : Measurable φ) {T : Option ℕ}
    {s0 : PT (RbP 1 lz) U Y} (hs : PT.init N T 0 = .ok s0) (y0 : Y) (qs : List (Slot U × Y)) :
    ∫⁻ ω, stepsE (Measure.pi fun _ : Fin N => ρ) (qs.map fun q => (q.1, .obj q.2))
        (fun ds => storedEstimate (mlFirst H o) (fun p => ∫⁻ z, φ (p.1, z) ∂Spec.gauss p.2.1 p.2.2) (qs.map fun q => (q.1, .obj q.2))
          (s0.run (rbApfOps (mlMarkov N H o o0 mvn) (mlFirst H o) res) (history (some (.obj y0, ω)) ds))) ∂(Measure.pi fun _ : Fin N => ρ) =
      ∫⁻ x, ∫⁻ z, ENNReal.ofReal (exp (Spec.logNormal (M.R x y0 0) (M.y y0 0 - M.C x y0 0 *ᵥ z - M.h x y0 0))) *
        pathE K M.loglik φ 0 (qs.map fun q => (q.1, .obj q.2)) (x, z) ∂Spec.gauss o0.z0 o0.Pz0 ∂Spec.gauss o0.xi0 o0.Pxi0 := by
  have h := (C119_unbiased hN (ml_samples hD hG hPx hPz hm hmvn hN hK hmeas) (by rintro _ ⟨y, rfl⟩; simp) (ml_firstStage hD hG hN) res hφ hs
    (qs.map fun q => (q.1, .obj q.2)) (by
    intro q hq
    obtain ⟨q', -, rfl⟩ := List.mem_map.mp hq
    exact ⟨_, rfl⟩)).1 (.obj y0) ⟨_, rfl⟩
  simp only [lintegral_rbLaw _ hφ] at h
  rw [h, lintegral_prod]
  · rfl
  · exact ((measurable_exp.comp (hmeas 0 (.obj y0))).ennreal_ofReal.mul (pathE_measurable K hmeas hφ _ 0)).aemeasurable

/-- A concrete case: the random walk with a linear drift state, three particles, two steps. -/
example (y0 y1 y2 : ℝ) : ∃ (mvn : VecR 1 × MatR 1 1 → VecR 1 → VecR 1) (K : ℕ → Slot ℝ → Kernel (VecR 1 × VecR 1) (VecR 1 × VecR 1))
    (s0 : PT (RbP 1 1) ℝ ℝ), (∀ t u s, K t u s = rbfToyM.joint t u s) ∧ ∫⁻ ω, stepsE (Measure.pi fun _ : Fin 3 => Spec.gauss 0 1) [(.none, .obj y1), (.none, .obj y2)]
        (fun ds => storedEstimate (mlFirst rbfToyH rbfToyO) (fun p => ∫⁻ z, ENNReal.ofReal (z 0 ^ 2) ∂Spec.gauss p.2.1 p.2.2)
          [(.none, .obj y1), (.none, .obj y2)]
          (s0.run (rbApfOps (mlMarkov 3 rbfToyH rbfToyO ⟨0, 1, 0, 1⟩ mvn) (mlFirst rbfToyH rbfToyO) 0.5) (history (some (.obj y0, ω)) ds)))
          ∂(Measure.pi fun _ : Fin 3 => Spec.gauss 0 1) =
      ∫⁻ x, ∫⁻ z, ENNReal.ofReal (exp (Spec.logNormal !![1] ((fun _ => y0) - !![1] *ᵥ z - x))) *
        pathE K rbfToyM.loglik (fun s => ENNReal.ofReal (s.2 0 ^ 2)) 0 [(.none, .obj y1), (.none, .obj y2)] (x, z) ∂Spec.gauss (0 : VecR 1) 1
        ∂Spec.gauss (0 : VecR 1) 1 := by
  obtain ⟨mvn, h1, h2⟩ := exists_mvn 1
  have hk : ∀ t u, ∃ K : Kernel (VecR 1 × VecR 1) (VecR 1 × VecR 1), ∀ s, K s = rbfToyM.joint t u s := fun t u =>
    joint_kernel rbfToyM t u (fun _ => rfl) (fun _ => rfl) (Continuous.measurable (by simp only [rbfToyM]; fun_prop))
  choose K hK using hk
  obtain ⟨s0, hs⟩ : ∃ s0 : PT (RbP 1 1) ℝ ℝ, PT.init 3 none 0 = .ok s0 := ⟨_, rfl⟩
  refine ⟨mvn, K, s0, hK, ?_⟩
  have h := C119_mixed_gaussian rbfToy_describes rbfToy_good (o0 := ⟨0, 1, 0, 1⟩) (PosSemidef.one) PosSemidef.one h1 h2 (N := 3) (by omega) hK
    (fun t y => by
      cases y with
      | obj y => 
        have : Continuous fun s : VecR 1 × VecR 1 => Spec.logNormal (!![1] : MatR 1 1) ((fun _ => y) - !![1] *ᵥ s.2 - s.1) :=
          (continuous_logNormal _).comp (by fun_prop)
        exact this.measurable
      | _ => exact measurable_const) 0.5 (φ := fun s => ENNReal.ofReal (s.2 0 ^ 2)) (by fun_prop) hs y0 [(.none, y1), (.none, y2)]
  exact h

/-- The hypotheses of `C119_recovers`: a step from three equal particles succeeds. -/
example (y0 y1 : ℝ) (ω : Fin 3 → VecR 1) : ∃ (mvn : VecR 1 × MatR 1 1 → VecR 1 → VecR 1) (pa : PA (RbP 1 1)) (b : Bool) (anc : List ℕ),
    rbApfForward (mlMarkov 3 rbfToyH rbfToyO ⟨0, 1, 0, 1⟩ mvn) (mlFirst rbfToyH rbfToyO) 0.5
      [⟨⟨List.ofFn fun _ : Fin 3 => ((0 : VecR 1), (0 : VecR 1), (1 : MatR 1 1)), List.ofFn fun _ : Fin 3 => -Real.log 3, 3, 0⟩, List.range 3⟩]
      [.obj y0, .obj y1] [.none] [0, 1] 0 ⟨0.5, 0.5, ω⟩ = .ok (pa, b, anc) := by
  obtain ⟨mvn, h1, h2⟩ := exists_mvn 1
  have hk : ∀ t u, ∃ K : Kernel (VecR 1 × VecR 1) (VecR 1 × VecR 1), ∀ s, K s = rbfToyM.joint t u s := fun t u =>
    joint_kernel rbfToyM t u (fun _ => rfl) (fun _ => rfl) (Continuous.measurable (by simp only [rbfToyM]; fun_prop))
  choose K hK using hk
  have hS := ml_samples rbfToy_describes rbfToy_good (o0 := ⟨0, 1, 0, 1⟩) (PosSemidef.one) PosSemidef.one h1 h2 (N := 3) (by omega) hK
    (fun t y => by
      cases y with
      | obj y =>
        have : Continuous fun s : VecR 1 × VecR 1 => Spec.logNormal (!![1] : MatR 1 1) ((fun _ => y) - !![1] *ᵥ s.2 - s.1) :=
          (continuous_logNormal _).comp (by fun_prop)
        exact this.measurable
      | _ => exact measurable_const)
  have hm := rb_moveMeasure hS (h := fun _ => 0) measurable_const 0 (.none : Slot ℝ) (.obj y1) ⟨_, rfl⟩
  obtain ⟨A, hA⟩ := ml_firstStage rbfToy_describes rbfToy_good (N := 3) (by omega) (fun _ => ((0 : VecR 1), (0 : VecR 1), (1 : MatR 1 1))) (.none : Slot ℝ)
    (.obj y1) 0 ⟨_, rfl⟩ (fun _ => PosSemidef.one)
  refine ⟨mvn, ?_⟩
  obtain ⟨st, hst⟩ : ∃ st : Step (RbP 1 1), st = ⟨⟨List.ofFn fun _ : Fin 3 => ((0 : VecR 1), (0 : VecR 1), (1 : MatR 1 1)),
      List.ofFn fun _ : Fin 3 => -Real.log 3, 3, 0⟩, List.range 3⟩ := ⟨_, rfl⟩
  rw [← hst]
  rcases rbapf_step_ok (by omega) 0.5 (by simp) hm (tr := [st]) (last := st) (yv := [.obj y0, .obj y1]) (uv := [.none]) (tv := [0, 1])
      (x := fun _ => ((0 : VecR 1), (0 : VecR 1), (1 : MatR 1 1))) (w := fun _ => -Real.log 3) rfl rfl rfl rfl rfl (by rw [hst]) (by rw [hst])
      (fun _ => PosSemidef.one) hA with ⟨m, hs⟩ | ⟨X, L, -, -, hs⟩
  · obtain ⟨f, X, L, -, -, -, hs⟩ := hs 0.5 (by norm_num) (by norm_num)
    obtain ⟨pa, c, e, -⟩ := hs 0.5 ω
    exact ⟨pa, _, _, e⟩
  · obtain ⟨pa, c, e, -⟩ := hs 0.5 0.5 ω
    exact ⟨pa, _, _, e⟩

end PyPE

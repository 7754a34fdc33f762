import Verif.Consistency.Nlg
import Verif.Kalman.Bayes
import Verif.Smooth.Ffbsi

/-!
# Linear Gaussian models: path integrals are Kalman recursions

The particle filters estimate integrals over the states of a Markov chain (`pathE`, `pathsE`); `utils/kalman.py` computes normal laws
recursively. For `x⁺ = A x + f + v`, `y = C x + h + e` with Gaussian `v`, `e` both describe the same thing. Here the path integrals are
rewritten as integrals over `Spec.filtered` and `Spec.smoothed`, which C71 relates to the code of `utils/kalman.py`.
-/

namespace PyPE
open Real Spec MeasureTheory ProbabilityTheory Matrix
open scoped ENNReal

variable {n m : ℕ} {U : Type}

/-- A linear Gaussian state space model: `x⁺ = A x + f + v`, `v ~ N(0, Q)`, `y = C x + h + e`, `e ~ N(0, R)`; all parameters may depend on time
and those of the transition on the input. -/
structure Spec.LinearModel (n m : ℕ) (U : Type) where
  A : ℕ → Slot U → Matrix (Fin n) (Fin n) ℝ
  f : ℕ → Slot U → Fin n → ℝ
  Q : ℕ → Slot U → Matrix (Fin n) (Fin n) ℝ
  C : ℕ → Matrix (Fin m) (Fin n) ℝ
  h : ℕ → Fin m → ℝ
  R : ℕ → Matrix (Fin m) (Fin m) ℝ

/-- What happens from time `k` on: a move, then the measurement of the next time, for every element of the record. -/
def Spec.LinearModel.data (L : LinearModel n m U) : ℕ → List (Slot U × (Fin m → ℝ)) → List (DataOp n)
  | _, [] => []
  | k, q :: qs => .move (L.A k q.1) (L.f k q.1) (L.Q k q.1) :: .meas m (L.C (k+1)) (L.h (k+1)) (L.R (k+1)) q.2 :: L.data (k+1) qs

/-- The measurement at time 0, if there is one. -/
def Spec.LinearModel.start (L : LinearModel n m U) : Option (Fin m → ℝ) → List (DataOp n)
  | none => []
  | some y => [.meas m (L.C 0) (L.h 0) (L.R 0) y]

/-- The mean of the next state. -/
def Spec.LinearModel.next (L : LinearModel n m U) (t : ℕ) (u : Slot U) (x : Fin n → ℝ) : Fin n → ℝ := L.A t u *ᵥ x + L.f t u

/-- The mean of the measurement. -/
def Spec.LinearModel.seen (L : LinearModel n m U) (t : ℕ) (x : Fin n → ℝ) : Fin m → ℝ := L.C t *ᵥ x + L.h t

/-- The log-density of a measurement. -/
noncomputable def Spec.LinearModel.lik (L : LinearModel n m U) : ℕ → Slot (Fin m → ℝ) → (Fin n → ℝ) → ℝ :=
  nlgLoglik L.seen fun t _ => L.R t

/-- The record as the filter gets it. -/
def Spec.asSlots (qs : List (Slot U × (Fin m → ℝ))) : List (Slot U × Slot (Fin m → ℝ)) := qs.map fun q => (q.1, .obj q.2)

theorem asSlots_isObj (qs : List (Slot U × (Fin m → ℝ))) : ∀ q ∈ asSlots qs, IsObj q.2 := by
  intro q hq
  obtain ⟨q', -, rfl⟩ := List.mem_map.mp hq
  exact ⟨_, rfl⟩

theorem Spec.LinearModel.lik_measurable (L : LinearModel n m U) (t : ℕ) (y : Slot (Fin m → ℝ)) : Measurable (L.lik t y) := by
  cases y with
  | none => exact measurable_const
  | zero => exact measurable_const
  | obj y =>
    have : Measurable fun x : Fin n → ℝ => y - L.seen t x := by
      have h : Continuous fun x : Fin n → ℝ => y - L.seen t x := by
        unfold Spec.LinearModel.seen
        fun_prop
      exact h.measurable
    exact (continuous_logNormal (L.R t)).measurable.comp this

theorem Spec.LinearModel.lik_likelihood (L : LinearModel n m U) (t : ℕ) (y : Fin m → ℝ) (x : Fin n → ℝ) :
    ENNReal.ofReal (exp (L.lik t (.obj y) x)) = Spec.likelihood (L.C t) (L.h t) (L.R t) y x := by
  rw [Spec.likelihood, Spec.LinearModel.lik, nlgLoglik, Spec.LinearModel.seen]
  congr 3
  abel

theorem follow_concat {S : Type} [MeasurableSpace S] (l l' : List (DataOp n)) (μ : Measure (S × (Fin n → ℝ))) :
    Spec.follow (l ++ l') μ = Spec.follow l' (Spec.follow l μ) := by
  induction l generalizing μ with
  | nil => rfl
  | cons op l ih => cases op <;> simp only [List.cons_append, Spec.follow, ih]

/-- The path integral against anything remembered. -/
theorem follow_pathE {S : Type} [MeasurableSpace S] (L : LinearModel n m U) (hQ : ∀ t u, (L.Q t u).PosSemidef)
    {M : ℕ → Slot U → Kernel (Fin n → ℝ) (Fin n → ℝ)} (hM : ∀ t u x, M t u x = gauss (L.next t u x) (L.Q t u))
    {φ : (Fin n → ℝ) → ℝ≥0∞} (hφ : Measurable φ) {Φ : S → ℝ≥0∞} (hΦ : Measurable Φ)
    (qs : List (Slot U × (Fin m → ℝ))) (k : ℕ) (μ : Measure (S × (Fin n → ℝ))) [SFinite μ] :
    ∫⁻ p, Φ p.1 * pathE M L.lik φ k (asSlots qs) p.2 ∂μ = ∫⁻ p, Φ p.1 * φ p.2 ∂(Spec.follow (L.data k qs) μ) := by
  induction qs generalizing k μ with
  | nil => simp [asSlots, Spec.LinearModel.data, Spec.follow, pathE]
  | cons q qs ih =>
    have hpm : Measurable (pathE M L.lik φ (k+1) (asSlots qs)) := pathE_measurable M L.lik_measurable hφ (asSlots qs) (k+1)
    have hlm : Measurable (Spec.likelihood (L.C (k+1)) (L.h (k+1)) (L.R (k+1)) q.2) := measurable_likelihood _ _ _ _
    rw [Spec.LinearModel.data, Spec.follow, Spec.follow, ← ih]
    have hst : Measurable fun p : (S × (Fin n → ℝ)) × (Fin n → ℝ) => (p.1.1, L.A k q.1 *ᵥ p.1.2 + L.f k q.1 + p.2) := by
      have hA : Measurable (fun x : Fin n → ℝ => L.A k q.1 *ᵥ x) := Continuous.measurable (by fun_prop)
      exact (measurable_fst.comp measurable_fst).prodMk
        (((hA.comp (measurable_snd.comp measurable_fst)).add_const _).add measurable_snd)
    have hin : Measurable fun p : S × (Fin n → ℝ) => Φ p.1 * pathE M L.lik φ (k+1) (asSlots qs) p.2 :=
      (hΦ.comp measurable_fst).mul (hpm.comp measurable_snd)
    have hw : Measurable fun p : S × (Fin n → ℝ) => Spec.likelihood (L.C (k+1)) (L.h (k+1)) (L.R (k+1)) q.2 p.2 := hlm.comp measurable_snd
    rw [lintegral_withDensity_eq_lintegral_mul _ hw hin]
    simp only [Pi.mul_apply]
    rw [lintegral_map (f := fun p : S × (Fin n → ℝ) => Spec.likelihood (L.C (k+1)) (L.h (k+1)) (L.R (k+1)) q.2 p.2 *
      (Φ p.1 * pathE M L.lik φ (k+1) (asSlots qs) p.2)) (hw.mul hin) hst]
    rw [lintegral_prod (fun a : (S × (Fin n → ℝ)) × (Fin n → ℝ) =>
      Spec.likelihood (L.C (k+1)) (L.h (k+1)) (L.R (k+1)) q.2 (L.A k q.1 *ᵥ a.1.2 + L.f k q.1 + a.2) *
        (Φ a.1.1 * pathE M L.lik φ (k+1) (asSlots qs) (L.A k q.1 *ᵥ a.1.2 + L.f k q.1 + a.2))) (((hw.mul hin).comp hst).aemeasurable)]
    refine lintegral_congr fun p => ?_
    show Φ p.1 * ∫⁻ x', ENNReal.ofReal (exp (L.lik (k+1) (.obj q.2) x')) * pathE M L.lik φ (k+1) (asSlots qs) x' ∂(M k q.1 p.2) = _
    have hadd : Measurable fun v : Fin n → ℝ => L.next k q.1 p.2 + v := by fun_prop
    have hg : Measurable fun x' : Fin n → ℝ => ENNReal.ofReal (exp (L.lik (k+1) (.obj q.2) x')) * pathE M L.lik φ (k+1) (asSlots qs) x' := by
      simp only [L.lik_likelihood]
      exact hlm.mul hpm
    rw [hM, ← gauss_shift (hQ k q.1) (L.next k q.1 p.2), lintegral_map hg hadd]
    have hg' : Measurable fun v : Fin n → ℝ => ENNReal.ofReal (exp (L.lik (k+1) (.obj q.2) (L.next k q.1 p.2 + v))) *
      pathE M L.lik φ (k+1) (asSlots qs) (L.next k q.1 p.2 + v) := hg.comp hadd
    rw [← lintegral_const_mul _ hg']
    refine lintegral_congr fun v => ?_
    simp only [L.lik_likelihood, Spec.LinearModel.next]
    ring

/-- The value the particle filters estimate is an integral over the filtered law. -/
theorem filtered_exactValue (L : LinearModel n m U) (hQ : ∀ t u, (L.Q t u).PosSemidef)
    {M : ℕ → Slot U → Kernel (Fin n → ℝ) (Fin n → ℝ)} (hM : ∀ t u x, M t u x = gauss (L.next t u x) (L.Q t u))
    {φ : (Fin n → ℝ) → ℝ≥0∞} (hφ : Measurable φ) (μ : Measure (Fin n → ℝ)) [SFinite μ] (first : Option (Fin m → ℝ))
    (qs : List (Slot U × (Fin m → ℝ))) :
    exactValue μ M L.lik (first.map .obj) (asSlots qs) φ = ∫⁻ x, φ x ∂(filtered μ (L.start first ++ L.data 0 qs)) := by
  have hpm : Measurable (pathE M L.lik φ 0 (asSlots qs)) := pathE_measurable M L.lik_measurable hφ (asSlots qs) 0
  have hp2 : Measurable fun p : Unit × (Fin n → ℝ) => pathE M L.lik φ 0 (asSlots qs) p.2 := hpm.comp measurable_snd
  have hu : Measurable fun x : Fin n → ℝ => ((), x) := by fun_prop
  rw [filtered, lintegral_map hφ measurable_snd, follow_concat]
  cases first with
  | none =>
    have h := follow_pathE (S := Unit) L hQ hM hφ (Φ := fun _ => 1) measurable_const qs 0 (μ.map fun x => ((), x))
    simp only [one_mul] at h
    rw [Spec.LinearModel.start, Spec.follow, ← h, lintegral_map hp2 hu]
    refine lintegral_congr fun x => ?_
    simp [startWeight]
  | some y =>
    have hw : Measurable fun p : Unit × (Fin n → ℝ) => Spec.likelihood (L.C 0) (L.h 0) (L.R 0) y p.2 :=
      (measurable_likelihood _ _ _ _).comp measurable_snd
    have h := follow_pathE (S := Unit) L hQ hM hφ (Φ := fun _ => 1) measurable_const qs 0
      ((μ.map fun x => ((), x)).withDensity fun p => Spec.likelihood (L.C 0) (L.h 0) (L.R 0) y p.2)
    simp only [one_mul] at h
    rw [Spec.LinearModel.start, Spec.follow, Spec.follow, ← h, lintegral_withDensity_eq_lintegral_mul _ hw hp2]
    simp only [Pi.mul_apply]
    rw [lintegral_map (f := fun p : Unit × (Fin n → ℝ) => Spec.likelihood (L.C 0) (L.h 0) (L.R 0) y p.2 * pathE M L.lik φ 0 (asSlots qs) p.2)
      (hw.mul hp2) hu]
    refine lintegral_congr fun x => ?_
    show ENNReal.ofReal (exp (L.lik 0 (.obj y) x)) * _ = _
    rw [L.lik_likelihood]

/-! ### Functions of the state at one time -/

section paths
variable {P Y : Type} [MeasurableSpace P] [Inhabited P]

theorem pathsE_before {M : ℕ → Slot U → Kernel P P} {ℓ : ℕ → Slot Y → P → ℝ} (hℓ : ∀ k y, Measurable (ℓ k y)) (ψ : P → ℝ≥0∞) (t : ℕ)
    (qs : List (Slot U × Slot Y)) (k : ℕ) (past : List P) (ht : t < past.length) (x : P) :
    pathsE M ℓ (fun l => ψ (l.getD t default)) k qs past x = ψ (past.getD t default) * pathE M ℓ (fun _ => 1) k qs x := by
  induction qs generalizing k past x with
  | nil => rw [pathsE, pathE, mul_one, List.getD_append _ _ _ _ ht]
  | cons q qs ih =>
    have hm : Measurable fun x' => ENNReal.ofReal (exp (ℓ (k+1) q.2 x')) * pathE M ℓ (fun _ => 1) (k+1) qs x' :=
      (measurable_exp.comp (hℓ (k+1) q.2)).ennreal_ofReal.mul (pathE_measurable M hℓ measurable_const qs (k+1))
    rw [pathsE, pathE, ← lintegral_const_mul _ hm]
    refine lintegral_congr fun x' => ?_
    rw [ih (k+1) (past ++ [x]) (by simp; omega) x', List.getD_append _ _ _ _ ht]
    ring

theorem pathsE_now {M : ℕ → Slot U → Kernel P P} {ℓ : ℕ → Slot Y → P → ℝ} (hℓ : ∀ k y, Measurable (ℓ k y)) (ψ : P → ℝ≥0∞)
    (qs : List (Slot U × Slot Y)) (k : ℕ) (past : List P) (x : P) :
    pathsE M ℓ (fun l => ψ (l.getD past.length default)) k qs past x = ψ x * pathE M ℓ (fun _ => 1) k qs x := by
  cases qs with
  | nil => simp [pathsE, pathE]
  | cons q qs =>
    have hm : Measurable fun x' => ENNReal.ofReal (exp (ℓ (k+1) q.2 x')) * pathE M ℓ (fun _ => 1) (k+1) qs x' :=
      (measurable_exp.comp (hℓ (k+1) q.2)).ennreal_ofReal.mul (pathE_measurable M hℓ measurable_const qs (k+1))
    rw [pathsE, pathE, ← lintegral_const_mul _ hm]
    refine lintegral_congr fun x' => ?_
    rw [pathsE_before hℓ ψ past.length qs (k+1) (past ++ [x]) (by simp) x']
    simp only [List.getD_eq_getElem?_getD, List.getElem?_append_right (le_refl _), Nat.sub_self, List.getElem?_cons_zero, Option.getD_some]
    ring

/-- The integral of a function of the state at time `t` over all paths: over the states up to `t` of the function times the integral over the
later states. -/
theorem pathsE_at {M : ℕ → Slot U → Kernel P P} {ℓ : ℕ → Slot Y → P → ℝ} (hℓ : ∀ k y, Measurable (ℓ k y)) (ψ : P → ℝ≥0∞)
    (pre post : List (Slot U × Slot Y)) (k : ℕ) (past : List P) (x : P) :
    pathsE M ℓ (fun l => ψ (l.getD (past.length + pre.length) default)) k (pre ++ post) past x =
      pathE M ℓ (fun x => ψ x * pathE M ℓ (fun _ => 1) (k + pre.length) post x) k pre x := by
  induction pre generalizing k past x with
  | nil => exact pathsE_now hℓ ψ post k past x
  | cons q pre ih =>
    rw [List.cons_append, pathsE, pathE]
    refine lintegral_congr fun x' => ?_
    have h := ih (k+1) (past ++ [x]) x'
    rw [show (past ++ [x]).length + pre.length = past.length + (q :: pre).length by simp; omega,
      show k + 1 + pre.length = k + (q :: pre).length by simp; omega] at h
    rw [h]

end paths

/-- The value the smoothers estimate, for a function of the state at one time, is an integral over the smoothed law of that state. -/
theorem smoothed_paths (L : LinearModel n m U) (hQ : ∀ t u, (L.Q t u).PosSemidef)
    {M : ℕ → Slot U → Kernel (Fin n → ℝ) (Fin n → ℝ)} (hM : ∀ t u x, M t u x = gauss (L.next t u x) (L.Q t u))
    {ψ : (Fin n → ℝ) → ℝ≥0∞} (hψ : Measurable ψ) (μ : Measure (Fin n → ℝ)) [SFinite μ] (first : Option (Fin m → ℝ))
    (pre post : List (Slot U × (Fin m → ℝ))) :
    ∫⁻ x, ENNReal.ofReal (startWeight L.lik (first.map .obj) x) *
        pathsE M L.lik (fun l => ψ (l.getD pre.length default)) 0 (asSlots (pre ++ post)) [] x ∂μ =
      ∫⁻ x, ψ x ∂(smoothed μ (L.start first ++ L.data 0 pre) (L.data pre.length post)) := by
  have hpm : Measurable (pathE M L.lik (fun _ => 1) pre.length (asSlots post)) :=
    pathE_measurable M L.lik_measurable measurable_const (asSlots post) _
  have hφ : Measurable fun x => ψ x * pathE M L.lik (fun _ => 1) pre.length (asSlots post) x := hψ.mul hpm
  have h1 : ∀ x, pathsE M L.lik (fun l => ψ (l.getD pre.length default)) 0 (asSlots (pre ++ post)) [] x =
      pathE M L.lik (fun x => ψ x * pathE M L.lik (fun _ => 1) pre.length (asSlots post) x) 0 (asSlots pre) x := by
    intro x
    have h := pathsE_at (M := M) L.lik_measurable ψ (asSlots pre) (asSlots post) 0 [] x
    simp only [List.length_nil, zero_add, asSlots, List.length_map] at h
    rw [asSlots, List.map_append, h]
    rfl
  simp only [h1]
  have h2 := filtered_exactValue L hQ hM hφ μ first pre
  rw [exactValue] at h2
  rw [h2, smoothed, lintegral_map hψ measurable_fst]
  haveI : SFinite (filtered μ (L.start first ++ L.data 0 pre)) := by
    haveI := sfinite_follow (L.start first ++ L.data 0 pre) (μ.map fun x => ((), x))
    unfold filtered
    infer_instance
  have hr : Measurable fun x : Fin n → ℝ => (x, x) := by fun_prop
  haveI : SFinite (remember (filtered μ (L.start first ++ L.data 0 pre))) := by unfold remember; infer_instance
  have h3 := follow_pathE (S := Fin n → ℝ) L hQ hM (φ := fun _ => 1) measurable_const hψ post pre.length
    (remember (filtered μ (L.start first ++ L.data 0 pre)))
  simp only [mul_one] at h3
  rw [← h3, remember, lintegral_map (f := fun p : (Fin n → ℝ) × (Fin n → ℝ) => ψ p.1 * pathE M L.lik (fun _ => 1) pre.length (asSlots post) p.2) ((hψ.comp measurable_fst).mul (hpm.comp measurable_snd)) hr]

end PyPE

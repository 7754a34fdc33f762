import Verif.Models.MlApf
import Verif.Kalman.Single

/-!
# C120: the script test/manual/filtering/rbapf_test.py

Model (60)-(61) of Lindsten and Schön (2011) with three variants of the auxiliary particle filter.
-/

namespace PyPE
open Real Spec MeasureTheory ProbabilityTheory Matrix
open scoped ENNReal

variable {U Ω : Type}

/-! ### The model -/

/-- The arguments of `ParticleAPF.__init__` (rbapf_test.py:49-62): `1 x 1` matrices. -/
structure ApfPar where
  Qz : ℝ
  R : ℝ
  Qes : ℝ
  Qeb : ℝ

/-- `a = 1 if (t % 2 == 0) else 0` (rbapf_test.py:66, 90, 104, 113). -/
def apfEven (t : ℕ) : ℝ := if t % 2 = 0 then 1 else 0

/-- `ParticleAPF.get_nonlin_pred_dynamics`, `get_lin_pred_dynamics`, `get_meas_dynamics` (rbapf_test.py:64-92); a measurement is a number, in the script a list with one
number. Of a particle only the first entry is read. -/
noncomputable def apfHooks (p : ApfPar) : MlHooks 1 1 1 (Slot U) ℕ ℝ where
  nonlin xs _ t := (some (List.replicate xs.length !![1 - apfEven t]), some (xs.map fun x => fun _ => 0.85 * x 0),
    some (List.replicate xs.length !![apfEven t * p.Qes + (1 - apfEven t) * p.Qeb]))
  lin _ _ _ := (none, none, none)
  meas xs y t := (fun _ => y, some (List.replicate xs.length !![1 - apfEven t]), some (xs.map fun x => fun _ => x 0 ^ 2), none)
  cross _ _ _ := none

/-- `ParticleAPF.__init__` (rbapf_test.py:49-62): the call of the constructor of the base class. -/
noncomputable def apfObj (p : ApfPar) : MlObj 1 1 1 :=
  MlObj.init (some !![0.9]) none (some !![p.Qz]) (some !![p.R]) none none none none none none

/-- The initial distribution given to the constructor (rbapf_test.py:53-56, 62). -/
noncomputable def apfX0 : PyM (MlX0 1 1) := mlX0Init 0 0 none (some 1)

/-- The first-stage log-weight of `ParticleAPF_EKF` for a particle after `cond_predict` (rbapf_test.py:103-134). -/
noncomputable def ekfLog (p : ApfPar) (y : ℝ) (t : ℕ) (q : RbP 1 1) : ℝ :=
  let Axi := 1 - apfEven t
  let Qxi := apfEven t * p.Qes + (1 - apfEven t) * p.Qeb
  let C := 1 - apfEven (t + 1)
  let grad := 2 * q.1 0
  let tmp1 := C * 0.9 + grad * Axi
  let tmp2 := grad + C
  let Rext := tmp1 * q.2.2 0 0 * tmp1 + tmp2 * Qxi * tmp2 + p.R
  let diff := y - q.1 0 ^ 2 - C * q.2.1 0;
  -(1/2) * (Real.log (2 * Real.pi) + Real.log Rext + diff ^ 2 / Rext)

/-- `ParticleAPF_EKF.eval_1st_stage_weights` (rbapf_test.py:96-134). -/
noncomputable def ekfFirst (p : ApfPar) (parts : List (RbP 1 1)) (u : Slot U) (y : Slot ℝ) (t : ℕ) : PyM (List ℝ) :=
  match y with
  | .obj y => do
    let xin ← mlPredXi (apfHooks p) (apfObj p) parts u t
    let part ← mlCondPredict (apfHooks p) (apfObj p) parts xin u t
    return part.map (ekfLog p y t)
  | _ => .error .typeError

/-! ### Specification -/

/-- One step of `generate_dataset` (rbapf_test.py:33-38): `e' = 0.85 e + (1 - a) z + N(0, a Qes + (1 - a) Qeb)`, `z' = 0.9 z + N(0, Qz)`, `a = 1` at even times. -/
noncomputable def Spec.apfMove (p : ApfPar) (t : ℕ) (s : VecR 1 × VecR 1) : Measure (VecR 1 × VecR 1) :=
  ((Spec.gauss 0 !![if Even t then p.Qes else p.Qeb]).prod (Spec.gauss 0 !![p.Qz])).map fun v =>
    (fun _ => 0.85 * s.1 0 + (if Even t then 0 else s.2 0) + v.1 0, fun _ => 0.9 * s.2 0 + v.2 0)

/-- The log-density of the measurement `y = e² + (1 - a) z + N(0, R)` at time `t` (rbapf_test.py:40-41). -/
noncomputable def Spec.apfLoglik (p : ApfPar) (t : ℕ) : Slot ℝ → VecR 1 × VecR 1 → ℝ
  | .obj y, s => -(1/2) * (Real.log (2 * Real.pi) + Real.log p.R + (y - s.1 0 ^ 2 - if Even t then 0 else s.2 0) ^ 2 / p.R)
  | _, _ => 0

/-! ### Proof -/

/-- The model the class implements, in the form of C72. -/
noncomputable def apfPaper (p : ApfPar) : Spec.RbModel 1 1 1 (Slot U) ℕ ℝ where
  Axi _ _ t := !![1 - apfEven t]
  fxi x _ _ := fun _ => 0.85 * x 0
  Qxi _ _ t := !![apfEven t * p.Qes + (1 - apfEven t) * p.Qeb]
  Az _ _ _ := !![0.9]
  fz _ _ _ := 0
  Qz _ _ _ := !![p.Qz]
  Qxiz _ _ _ := 0
  C _ _ t := !![1 - apfEven t]
  h x _ _ := fun _ => x 0 ^ 2
  R _ _ _ := !![p.R]
  y y _ := fun _ => y

theorem apf_describes (p : ApfPar) : Spec.RbDescribes (apfHooks (U := U) p) (apfObj p) (apfPaper p) := by
  constructor <;> intros <;>
    simp_all [Spec.Gives, Spec.GivesOrZero, apfHooks, apfObj, apfPaper, MlObj.init, KF.new, KF.setDynamics, List.map_const']

theorem apf_noise_pos {p : ApfPar} (h1 : 0 < p.Qes) (h2 : 0 < p.Qeb) (t : ℕ) : 0 < apfEven t * p.Qes + (1 - apfEven t) * p.Qeb := by
  unfold apfEven
  split <;> simpa

theorem apf_good {p : ApfPar} (h1 : 0 < p.Qes) (h2 : 0 < p.Qeb) (hz : 0 < p.Qz) (hR : 0 < p.R) : (apfPaper (U := U) p).Good :=
  ⟨fun _ _ t => posDef_one_iff.2 (by simpa [apfPaper] using apf_noise_pos h1 h2 t),
    fun _ _ _ => (posDef_one_iff.2 (by simpa [apfPaper] using hz)).posSemidef,
    fun _ _ _ => posDef_one_iff.2 (by simpa [apfPaper] using hR)⟩

theorem apfEven_of {t : ℕ} : (Even t → apfEven t = 1) ∧ (¬ Even t → apfEven t = 0) := by
  constructor
  · intro h; unfold apfEven; rw [if_pos (Nat.even_iff.mp h)]
  · intro h; unfold apfEven; rw [if_neg (fun h' => h (Nat.even_iff.mpr h'))]

theorem apf_joint (p : ApfPar) (t : ℕ) (u : Slot U) (s : VecR 1 × VecR 1) : (apfPaper p).joint t u s = Spec.apfMove p t s := by
  unfold Spec.RbModel.joint Spec.apfMove
  have hQ : (apfPaper (U := U) p).Qxi s.1 u t = !![if Even t then p.Qes else p.Qeb] := by
    simp only [apfPaper]
    by_cases h : Even t
    · rw [apfEven_of.1 h, if_pos h]; congr; ring
    · rw [apfEven_of.2 h, if_neg h]; congr; ring
  rw [hQ]
  congr 1
  funext v
  refine Prod.ext ?_ ?_
  · funext i
    fin_cases i
    by_cases h : Even t
    · simp [apfPaper, apfEven_of.1 h, h]
    · simp [apfPaper, apfEven_of.2 h, h, vecHead]; ring
  · funext i
    fin_cases i
    simp [apfPaper, vecHead]

theorem apf_loglik {p : ApfPar} (hR : 0 < p.R) : (apfPaper (U := U) p).loglik = Spec.apfLoglik p := by
  funext t y s
  cases y with
  | obj y =>
    simp only [Spec.RbModel.loglik, Spec.apfLoglik, apfPaper]
    rw [logNormal_single _ hR]
    by_cases h : Even t
    · simp [apfEven_of.1 h, h]
    · simp [apfEven_of.2 h, h, vecHead]
      ring
  | _ => rfl

theorem apf_loglik_measurable {p : ApfPar} (t : ℕ) (y : Slot ℝ) : Measurable (Spec.apfLoglik p t y) := by
  cases y with
  | obj y =>
    unfold Spec.apfLoglik
    by_cases h : Even t
    · simp only [h, if_true]; fun_prop
    · simp only [h, if_false]; fun_prop
  | _ => exact measurable_const

theorem apf_kernel (p : ApfPar) : ∃ K : ℕ → Slot U → Kernel (VecR 1 × VecR 1) (VecR 1 × VecR 1), ∀ t u s, K t u s = Spec.apfMove p t s := by
  have hk : ∀ t (u : Slot U), ∃ K : Kernel (VecR 1 × VecR 1) (VecR 1 × VecR 1), ∀ s, K s = (apfPaper p).joint t u s := fun t u =>
    joint_kernel (apfPaper p) t u (fun _ => rfl) (fun _ => rfl) (Continuous.measurable (by simp only [apfPaper]; fun_prop))
  choose K hK using hk
  exact ⟨K, fun t u s => (hK t u s).trans (apf_joint p t u s)⟩

theorem ekf_firstStage {p : ApfPar} (h1 : 0 < p.Qes) (h2 : 0 < p.Qeb) (hz : 0 < p.Qz) (hR : 0 < p.R) (N : ℕ) :
    Spec.RbFirstStage (ekfFirst (U := U) p) IsObj (fun p => p.2.2.PosSemidef) N := by
  rintro x u _ k ⟨y, rfl⟩ hx
  have hP : ∀ p ∈ List.ofFn x, p.2.2.PosSemidef := fun p hp => by obtain ⟨i, rfl⟩ := (List.mem_ofFn' _ _).1 hp; exact hx i
  obtain ⟨r, hr, hl, -⟩ := mlCondPredict_good (apf_describes (U := U) p) (apf_good h1 h2 hz hR) (List.ofFn x) hP
    ((List.ofFn x).map fun q => (apfPaper (U := U) p).Axi q.1 u k *ᵥ q.2.1 + (apfPaper (U := U) p).fxi q.1 u k) (by simp) u k
  refine ⟨fun i => ekfLog p y k (r.getD i 0), ?_⟩
  simp only [ekfFirst, mlPredXi_one (apf_describes p), ok_bind, hr]
  rw [pure_eq_ok]
  congr 1
  apply List.ext_getElem
  · simpa using hl
  · intro i g1 g2
    have : i < r.length := by simpa using g1
    simp [List.getD_eq_getElem?_getD, this]

theorem measureFull_zero {P A Q : ℝ} (hP : 0 ≤ P) (hQ : 0 < Q) (z f : VecR 1) : ∃ dl, measureFull (!![A] *ᵥ z + f) z !![P] (some !![A]) (some f) !![Q] =
    .ok (z, !![P * Q / (A ^ 2 * P + Q)], dl) := by
  have hs : 0 < A ^ 2 * P + Q := by positivity
  have hT : (!![A] : MatR 1 1)ᵀ = !![A] := by ext i j; fin_cases i; fin_cases j; rfl
  have hS : (!![A] * !![P] * !![A]ᵀ + !![Q] : MatR 1 1) = !![A ^ 2 * P + Q] := by
    rw [hT]
    ext i j; fin_cases i; fin_cases j; simp; ring
  have hi : (!![A ^ 2 * P + Q] : MatR 1 1)⁻¹ = !![(A ^ 2 * P + Q)⁻¹] := by
    apply inv_eq_left_inv
    ext i j; fin_cases i; fin_cases j
    simp [hs.ne']
  have hsym : ∀ a : ℝ, (!![a] : MatR 1 1).IsSymm := fun a => by ext i j; fin_cases i; fin_cases j; rfl
  rw [measureFull_eq (hsym P) (hsym Q) (by rw [hS]; exact single_posDef hs), hS, hi]
  have e1 : z + (!![P] * !![A]ᵀ * !![(A ^ 2 * P + Q)⁻¹]) *ᵥ (!![A] *ᵥ z + f - !![A] *ᵥ z - Spec.offset (some f)) = z := by
    simp [Spec.offset]
  have e2 : (!![P] - !![P] * !![A]ᵀ * !![(A ^ 2 * P + Q)⁻¹] * (!![A] * !![P]) : MatR 1 1) = !![P * Q / (A ^ 2 * P + Q)] := by
    rw [hT]
    ext i j; fin_cases i; fin_cases j
    simp
    field_simp
    ring
  rw [e1, e2]
  exact ⟨_, rfl⟩

/-- The first-stage weights of the script's "EKF" class, in closed form. For a particle `(x, z, P)`: at even `t` with `e = 0.85 x` and `P' = 0.81 P + Qz`,
`log N(y; e² + 0.9 z, 0.81 P' + (2e + 1)² Qes + R)`, where linearisation gives the variance `P' + 4e² Qes + R`; at odd `t` with `e = 0.85 x + z` and
`P' = 0.81 P Qeb / (P + Qeb) + Qz`, `log N(y; e², 4e² (P' + Qeb) + R)`, where linearisation gives `4e² (P + Qeb) + R`. -/
theorem C120_ekf {p : ApfPar} (h1 : 0 < p.Qes) (h2 : 0 < p.Qeb) (hz : 0 < p.Qz) (hR : 0 < p.R) (parts : List (RbP 1 1)) (hP : ∀ q ∈ parts, 0 ≤ q.2.2 0 0)
    (u : Slot U) (y : ℝ) (t : ℕ) : ∃ a, ekfFirst p parts u (.obj y) t = .ok a ∧ a.length = parts.length ∧ ∀ (i : ℕ) (q : RbP 1 1), parts[i]? = some q →
      (Even t → a[i]? = some (Spec.logNormal !![0.81 * (0.81 * q.2.2 0 0 + p.Qz) + (2 * (0.85 * q.1 0) + 1) ^ 2 * p.Qes + p.R]
        (fun _ => y - (0.85 * q.1 0) ^ 2 - 0.9 * q.2.1 0))) ∧
      (¬ Even t → a[i]? = some (Spec.logNormal !![4 * (0.85 * q.1 0 + q.2.1 0) ^ 2 *
          (0.81 * (q.2.2 0 0 * p.Qeb / (q.2.2 0 0 + p.Qeb)) + p.Qz + p.Qeb) + p.R] (fun _ => y - (0.85 * q.1 0 + q.2.1 0) ^ 2))) := by
  have hP' : ∀ q ∈ parts, q.2.2.PosSemidef := fun q hq => by
    have : q.2.2 = !![q.2.2 0 0] := by ext i j; fin_cases i; fin_cases j; rfl
    rw [this]
    exact single_posSemidef (hP q hq)
  obtain ⟨r, hr, hl, hi⟩ := mlCondPredict_good (apf_describes (U := U) p) (apf_good h1 h2 hz hR) parts hP'
    (parts.map fun q => (apfPaper (U := U) p).Axi q.1 u t *ᵥ q.2.1 + (apfPaper (U := U) p).fxi q.1 u t) (by simp) u t
  refine ⟨r.map (ekfLog p y t), ?_, by simpa using hl, fun i q hq => ?_⟩
  · simp only [ekfFirst, mlPredXi_one (apf_describes p), ok_bind, hr]; rfl
  have hq0 := hP q (List.mem_of_getElem? hq)
  obtain ⟨z1, P1, dl, hm, -, hri⟩ := hi i q _ hq (by rw [List.getElem?_map, hq]; rfl)
  obtain ⟨x, z, P⟩ := q
  have hPe : P = !![P 0 0] := by ext i j; fin_cases i; fin_cases j; rfl
  obtain ⟨P0, hP0⟩ : ∃ P0, P0 = P 0 0 := ⟨_, rfl⟩
  simp only at hq0 hm hri ⊢
  rw [← hP0] at hq0 hPe ⊢
  rw [hPe] at hm
  obtain ⟨dl', hm'⟩ := measureFull_zero (A := 1 - apfEven t) hq0 (apf_noise_pos h1 h2 t) z ((apfPaper (U := U) p).fxi x u t)
  obtain ⟨rfl, rfl, -⟩ : z1 = z ∧ P1 = _ ∧ dl = dl' := by
    have := Except.ok.inj (hm.symm.trans hm')
    simpa using this
  rw [List.getElem?_map, hri, Option.map_some]
  have hv : ∀ a : ℝ, (![a] ᵥ* (!![0.9] : MatR 1 1)ᵀ) 0 = a * 0.9 := fun a => by
    have : (!![0.9] : MatR 1 1)ᵀ = !![0.9] := by ext i j; fin_cases i; fin_cases j; rfl
    rw [this]; simp
  have hd : ∀ d s s' : ℝ, s = s' → -(1/2) * (Real.log (2 * Real.pi) + Real.log s + d ^ 2 / s) =
      -(1/2) * (Real.log (2 * Real.pi) + Real.log s' + d ^ 2 / s') := fun d s s' h => by rw [h]
  constructor
  · intro ht
    have hs : 0 < 0.81 * (0.81 * P0 + p.Qz) + (2 * (0.85 * x 0) + 1) ^ 2 * p.Qes + p.R := by positivity
    rw [logNormal_single _ hs]
    have ht' : ¬ Even (t + 1) := by rw [Nat.even_add_one]; exact not_not.2 ht
    congr 1
    simp only [ekfLog, apfEven_of.1 ht, apfEven_of.2 ht', predictFull, Spec.RbModel.condA, Spec.RbModel.condF, apfPaper]
    simp [hv, vecHead]
    rw [mul_div_cancel_right₀ _ h1.ne']
    ring_nf
  · intro ht
    have hs : 0 < 4 * (0.85 * x 0 + z1 0) ^ 2 * (0.81 * (P0 * p.Qeb / (P0 + p.Qeb)) + p.Qz + p.Qeb) + p.R := by positivity
    rw [logNormal_single _ hs]
    have ht' : Even (t + 1) := by rw [Nat.even_add_one]; exact ht
    congr 1
    simp only [ekfLog, apfEven_of.2 ht, apfEven_of.1 ht', predictFull, Spec.RbModel.condA, Spec.RbModel.condF, apfPaper]
    simp [hv, vecHead]
    have hq : ∀ v : ℝ, 2 * (z1 0 + 0.85 * x 0) * (0.9 * v * 0.9 + p.Qz) * (2 * (z1 0 + 0.85 * x 0)) +
        2 * (z1 0 + 0.85 * x 0) * p.Qeb * (2 * (z1 0 + 0.85 * x 0)) + p.R =
        4 * (0.85 * x 0 + z1 0) ^ 2 * (0.81 * v + p.Qz + p.Qeb) + p.R := fun v => by ring
    rw [hq, add_comm (z1 0)]

/-- **C120** The script's auxiliary filters for its model `e' = 0.85 e + b z + N(0, Q_b)`, `z' = 0.9 z + N(0, Qz)`, `y = e² + b z + N(0, R)` (`b = 0` at even times
with `Q_b = Qes`, `b = 1` at odd times with `Q_b = Qeb`), started from `e = 0`, `z ~ N(0, 1)`, run as `Simulator.simulate` does: prediction first. For any number of
particles, threshold, nonempty sequence of measurements and test function: the likelihood estimate times the filtered mean of `E[φ(e, z) | particle]` is an unbiased
estimate of `E[Π_t p(y_t | e_t, z_t) φ(e_T, z_T)]`, for the particle filter, and for the auxiliary particle filter with the model's own first stage, with that of the
"EKF" class, and with any other that returns a number for each particle (the "UKF" class). -/
theorem C120_unbiased [MeasurableSpace Ω] {p : ApfPar} (h1 : 0 < p.Qes) (h2 : 0 < p.Qeb) (hz : 0 < p.Qz) (hR : 0 < p.R) {ρ : Measure Ω} [IsProbabilityMeasure ρ]
    {mvn : VecR 1 × MatR 1 1 → Ω → VecR 1} (hm : ∀ a, Measurable (mvn a)) (hmvn : ∀ a, a.2.PosSemidef → ρ.map (mvn a) = Spec.gauss a.1 a.2) {N : ℕ}
    (hN : 0 < N) (res : ℝ) {φ : VecR 1 × VecR 1 → ℝ≥0∞} (hφ : Measurable φ) {T : Option ℕ} {s0 : PT (RbP 1 1) U ℝ} (hs : PT.init N T 0 = .ok s0)
    (qs : List (Slot U × Slot ℝ)) (hq : ∀ q ∈ qs, IsObj q.2) (hne : qs ≠ []) : ∃ o0, apfX0 = .ok o0 ∧
    ∃ K : ℕ → Slot U → Kernel (VecR 1 × VecR 1) (VecR 1 × VecR 1), (∀ t u s, K t u s = Spec.apfMove p t s) ∧
      stepsE (Measure.pi fun _ : Fin N => ρ) qs (fun ds => runEstimate (fun q => ∫⁻ z, φ (q.1, z) ∂Spec.gauss q.2.1 q.2.2)
        (s0.run (rbfOps (mlMarkov N (apfHooks p) (apfObj p) o0 mvn) res) (history none ds))) =
          ∫⁻ z, pathE K (Spec.apfLoglik p) φ 0 qs (0, z) ∂Spec.gauss 0 1 ∧
      ∀ first : List (RbP 1 1) → Slot U → Slot ℝ → ℕ → PyM (List ℝ), first = mlFirst (apfHooks p) (apfObj p) ∨ first = ekfFirst p ∨
          Spec.RbFirstStage first IsObj (fun q => q.2.2.PosSemidef) N →
        stepsE (Measure.pi fun _ : Fin N => ρ) qs (fun ds => storedEstimate first (fun q => ∫⁻ z, φ (q.1, z) ∂Spec.gauss q.2.1 q.2.2) qs
          (s0.run (rbApfOps (mlMarkov N (apfHooks p) (apfObj p) o0 mvn) first res) (history none ds))) =
            ∫⁻ z, pathE K (Spec.apfLoglik p) φ 0 qs (0, z) ∂Spec.gauss 0 1 := by
  obtain ⟨K, hK⟩ := apf_kernel (U := U) p
  have hmeas := apf_loglik_measurable (p := p)
  have hS := ml_samples (o0 := ⟨0, 0, 0, 1⟩) (apf_describes (U := U) p) (apf_good h1 h2 hz hR) PosSemidef.zero PosSemidef.one hm hmvn hN
    (fun t u s => (hK t u s).trans (apf_joint p t u s).symm) (by rw [apf_loglik hR]; exact hmeas)
  rw [apf_loglik hR] at hS
  have hr : ∫⁻ s, pathE K (Spec.apfLoglik p) φ 0 qs s ∂((Spec.gauss (0 : VecR 1) 0).prod (Spec.gauss (0 : VecR 1) 1)) =
      ∫⁻ z, pathE K (Spec.apfLoglik p) φ 0 qs (0, z) ∂Spec.gauss 0 1 := by
    have hd : Spec.gauss (0 : VecR 1) 0 = Measure.dirac 0 := by
      rw [Spec.gauss, multivariateGaussian]
      simp
    rw [hd, Measure.dirac_prod, lintegral_map (pathE_measurable K hmeas hφ qs 0) (by fun_prop)]
  refine ⟨⟨0, 0, 0, 1⟩, rfl, K, hK, ?_, fun first hf => ?_⟩
  · have h := (C99_unbiased hN hS res hφ hs qs hq).2 hne
    simp only [lintegral_rbLaw _ hφ] at h
    rw [← hr, ← h]
  · have ha : Spec.RbFirstStage first IsObj (fun q => q.2.2.PosSemidef) N := by
      rcases hf with rfl | rfl | h
      · exact ml_firstStage (apf_describes p) (apf_good h1 h2 hz hR) hN
      · exact ekf_firstStage h1 h2 hz hR N
      · exact h
    have h := (C119_unbiased hN hS (by rintro _ ⟨y, rfl⟩; simp) ha res hφ hs qs hq).2 hne
    simp only [lintegral_rbLaw _ hφ] at h
    rw [← hr, ← h]

/-- The script's constants (rbapf_test.py:200-203): 50 particles, two measurements. -/
example (y1 y2 : ℝ) : ∃ (mvn : VecR 1 × MatR 1 1 → VecR 1 → VecR 1) (s0 : PT (RbP 1 1) ℝ ℝ) (o0 : MlX0 1 1)
    (K : ℕ → Slot ℝ → Kernel (VecR 1 × VecR 1) (VecR 1 × VecR 1)),
    stepsE (Measure.pi fun _ : Fin 50 => Spec.gauss 0 1) [(.none, .obj y1), (.none, .obj y2)]
        (fun ds => storedEstimate (ekfFirst ⟨0.1, 0.1, 0.1, 0.5⟩) (fun q => ∫⁻ z, ENNReal.ofReal (z 0 ^ 2) ∂Spec.gauss q.2.1 q.2.2)
          [(.none, .obj y1), (.none, .obj y2)]
          (s0.run (rbApfOps (mlMarkov 50 (apfHooks ⟨0.1, 0.1, 0.1, 0.5⟩) (apfObj ⟨0.1, 0.1, 0.1, 0.5⟩) o0 mvn) (ekfFirst ⟨0.1, 0.1, 0.1, 0.5⟩) 0.67)
            (history none ds))) =
      ∫⁻ z, pathE K (Spec.apfLoglik ⟨0.1, 0.1, 0.1, 0.5⟩) (fun s => ENNReal.ofReal (s.2 0 ^ 2)) 0 [(.none, .obj y1), (.none, .obj y2)] (0, z)
        ∂Spec.gauss (0 : VecR 1) 1 := by
  obtain ⟨mvn, h1, h2⟩ := exists_mvn 1
  obtain ⟨s0, hs⟩ : ∃ s0 : PT (RbP 1 1) ℝ ℝ, PT.init 50 none 0 = .ok s0 := ⟨_, rfl⟩
  obtain ⟨o0, -, K, -, -, h⟩ := C120_unbiased (p := ⟨0.1, 0.1, 0.1, 0.5⟩) (by norm_num) (by norm_num) (by norm_num) (by norm_num) h1 h2 (N := 50) (by norm_num) 0.67
    (φ := fun s => ENNReal.ofReal (s.2 0 ^ 2)) (by fun_prop) hs [(.none, .obj y1), (.none, .obj y2)] (by simp [IsObj]) (by simp)
  exact ⟨mvn, s0, o0, K, h _ (.inr (.inl rfl))⟩

/-- The weights of the "EKF" class for one particle. -/
example : ∃ a, ekfFirst (U := ℝ) ⟨0.1, 0.1, 0.1, 0.5⟩ [(0, 0, 1)] .none (.obj 2) 0 = .ok a ∧ a.length = 1 := by
  obtain ⟨a, h, hl, -⟩ := C120_ekf (U := ℝ) (p := ⟨0.1, 0.1, 0.1, 0.5⟩) (by norm_num) (by norm_num) (by norm_num) (by norm_num) [(0, 0, 1)] (by simp) .none 2 0
  exact ⟨a, h, hl⟩

end PyPE

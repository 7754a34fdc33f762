import Verif.Kalman.Exact
import Verif.Models.LtvRun
import Verif.Models.LtvStore
import Verif.Models.RbPack
import Verif.Models.NlgClaims
import Verif.Models.MlComputeClaims

/-!
# Concrete cases of the claims about the model classes (C44, C48, C49, C51, C65, C66, C69, C70)
-/

namespace PyPE
open Matrix Spec MeasureTheory ProbabilityTheory

/-- C65: measure, move without noise, measure again -/
def wOps : List (Spec.LinOp 2 1) := [.meas !![1, 0] ![3] 1, .move !![1, 1; 0, 1] ![0, 1] 0, .meas !![1, 0] 0 ((2 : ℝ) • 1)]

example : ∃ (mean : Spec.Hist wOps → Fin 2 → ℝ) (cov : Matrix (Fin 2) (Fin 2) ℝ) (loglik : Spec.Hist wOps → ℝ),
    (∀ ys, kfRun ![0, 1] 1 wOps ys = .ok (mean ys, cov, loglik ys)) ∧
      Spec.IsCondLaw (Spec.joint ![0, 1] 1 wOps) (fun ys => Spec.gauss (mean ys) cov) := by
  obtain ⟨mean, cov, ll, h1, -, h2, -⟩ := C65_kalman_filter_exact ![0, 1] 1 PosSemidef.one wOps (by
    intro op h
    simp only [wOps, List.mem_cons, List.not_mem_nil, or_false] at h
    rcases h with rfl | rfl | rfl
    · exact PosDef.one
    · exact PosSemidef.zero
    · exact PosDef.one.smul (by norm_num))
  exact ⟨mean, cov, ll, h1, h2⟩

/-- C66: a random walk with a known input, whose process noise grows with time -/
noncomputable def wLtv : Ltv 1 1 ℝ ℕ (Fin 1 → ℝ) where
  z0 := 0
  P0 := 1
  predDyn u t := (none, some fun _ => u, some (t • 1))
  measDyn y _ := (y, none, none, none)

/-- its description -/
noncomputable def wLtvSys : Spec.LtvSys 1 1 ℝ ℕ where
  A _ _ := 1
  f u _ _ := u
  Q _ t := t • 1
  C _ := 1
  h _ := 0
  R _ := 1

example (ops : List (Spec.LtvOp ℝ ℕ)) : ∃ (mean : Spec.Hist (ops.map wLtvSys.op) → Fin 1 → ℝ) (cov : Matrix (Fin 1) (Fin 1) ℝ)
    (loglik : Spec.Hist (ops.map wLtvSys.op) → ℝ),
    Spec.IsCondLaw (Spec.joint 0 1 (ops.map wLtvSys.op)) (fun ys => Spec.gauss (mean ys) cov) ∧
    ∀ ys, ∃ kf' rows, ltvRun wLtv (ltvInitKf (some 1) (some 1) none (some 1) none none) 5 wLtvSys ops ys = .ok (kf', rows, List.replicate 5 (loglik ys)) ∧
      rows.length = 5 ∧ ∀ row ∈ rows, Spec.Stores row (mean ys, cov) := by
  obtain ⟨mean, cov, ll, h1, -, -, h2⟩ := C66_ltv_filter_exact wLtv (ltvInitKf (some 1) (some 1) none (some 1) none none) 5 wLtvSys
    { obs := fun _ _ => rfl
      A := .inr ⟨fun _ => rfl, fun _ => rfl⟩
      f := .inl fun _ => rfl
      Q := .inl fun _ => rfl
      C := .inr ⟨fun _ => rfl, fun _ => rfl⟩
      h := .inr ⟨fun _ => rfl, rfl, fun _ => rfl⟩
      R := .inr ⟨fun _ => rfl, fun _ => rfl⟩ }
    PosSemidef.one (fun _ t => by
      show ((t : ℕ) • (1 : Matrix (Fin 1) (Fin 1) ℝ)).PosSemidef
      rw [← Nat.cast_smul_eq_nsmul ℝ]; exact PosSemidef.one.smul (Nat.cast_nonneg t)) (fun _ => PosDef.one) ops
  exact ⟨mean, cov, ll, h1, h2⟩

/-- A model whose drift, noise and measurement all depend on the state, given by its hooks -/
noncomputable def wHooks : NlgHooks 2 1 ℝ ℕ where
  calcF parts u _ := some (parts.map fun x i => Real.sin (x i) + u)
  calcQ parts _ _ := some (parts.map fun x => (1 + x 0 ^ 2) • 1)
  calcG parts _ := some (parts.map fun x => ![x 0 * x 1])
  calcR parts _ := some (parts.map fun x => (1 + x 1 ^ 2) • 1)

theorem wHooks_pos (k : ℕ) (r : ℝ) : ((1 + r ^ 2) • (1 : Matrix (Fin k) (Fin k) ℝ)).PosDef := PosDef.one.smul (by positivity)

/-- No attribute set -/
def wObj : NlgObj 2 1 where
  f := none
  g := none
  qfac := none
  rfac := none

/-- C48: for two particles -/
example : ∃ b, nlgLogpXnextMax wHooks wObj [![0, 1], ![2, 3]] 1 0 = .ok b ∧
    ∀ next, next.length = 2 → ∃ l, nlgLogpXnext wHooks wObj [![0, 1], ![2, 3]] next 1 0 = .ok l ∧ ∀ v ∈ l, v ≤ b := by
  obtain ⟨b, h, h', -⟩ := C48_bound wHooks wObj [![0, 1], ![2, 3]] 1 0 _ (fun x => (1 + x 0 ^ 2) • 1) (.inl rfl)
    (.inl ⟨rfl, fun x => wHooks_pos 2 _⟩) (by simp)
  exact ⟨b, h, h'⟩

/-- C69: ancestors three and one of three -/
example (o0 : NlgX0 2) : ∃ (step : (Fin 2 → Fin 2 → ℝ) → Fin 2 → Fin 2 → ℝ) (lp : Fin 2 → (Fin 2 → ℝ) → ℝ),
    (∀ w, nlgProposeSmooth wHooks wObj o0 (some [![0, 1], ![2, 3], ![4, 5]]) [2, 0] 1 0 (List.ofFn w) = .ok (List.ofFn (step w))) ∧
    (Measure.pi fun _ => Spec.gauss (0 : Fin 2 → ℝ) 1).map step =
      Measure.pi fun i => volume.withDensity fun x => ENNReal.ofReal (Real.exp (lp i x)) := by
  obtain ⟨step, lp, h, -, h'⟩ := C69_proposal wHooks wObj o0 [![0, 1], ![2, 3], ![4, 5]] [2, 0] 1 0 [![4, 5], ![0, 1]] rfl _
    (fun x => (1 + x 0 ^ 2) • 1) (.inl rfl) (.inl ⟨rfl, fun x => wHooks_pos 2 _⟩)
  exact ⟨step, lp, h, h'⟩

/-- C70 -/
example (y : Fin 1 → ℝ) : nlgFirstStage wHooks wObj [![0, 1], ![2, 3]] 1 y 0 1 =
    .ok ([![0, 1], ![2, 3]].map fun x : Fin 2 → ℝ => Spec.logNormal ((1 + (Real.sin (x 1) + 1) ^ 2) • 1)
      (y - ![(Real.sin (x 0) + 1) * (Real.sin (x 1) + 1)])) :=
  C70_first_stage wHooks wObj [![0, 1], ![2, 3]] 1 y 0 1 (fun x i => Real.sin (x i) + 1) (fun x => ![x 0 * x 1]) (fun x => (1 + x 1 ^ 2) • 1)
    (.inl rfl) (.inl rfl) (.inl ⟨rfl, fun x => wHooks_pos 1 _⟩)

/-- C44: two rows with one extra column, three estimates (the third is not stored) -/
example (a b c : Est 1) : ∃ rows', ltvSetStates [[0, 0, 7], [0, 0, 8]] [a, b, c] = .ok rows' ∧ ltvGetStates 1 rows' = .ok [a, b] ∧
    ∀ row', rows'[1]? = some row' → row'[2]? = some 8 := by
  obtain ⟨rows', hr⟩ := (C44_set_states_succeeds_iff [[0, 0, 7], [0, 0, 8]] [a, b, c]).2 ⟨by simp, by simp⟩
  obtain ⟨h1, -, h2⟩ := C44_set_get _ rows' _ hr
  exact ⟨rows', hr, h1, fun row' hrow => (h2 1 _ row' rfl hrow).2 2 (by norm_num)⟩

/-- C49: two rows with one extra column, one nonlinear and one linear state -/
example (l : List (RbP 1 1)) (hl : l.length = 2) : ∃ rows', rbSetStates [[0, 0, 0, 7], [0, 0, 0, 8]] l = .ok rows' ∧ rbGetStates 1 1 rows' = .ok l ∧
    ∀ row', rows'[1]? = some row' → row'[3]? = some 8 := by
  obtain ⟨h, h'⟩ := C49_set_states [[0, 0, 0, 7], [0, 0, 0, 8]] l
  obtain ⟨rows', hr⟩ := h.2 ⟨by simpa using hl, by simp⟩
  obtain ⟨h1, -, h2⟩ := h' rows' hr
  exact ⟨rows', hr, h1, fun row' hrow => (h2 1 _ row' rfl hrow).2 3 (by norm_num)⟩

/-- C51: the noise covariance `exp θ`, the second moment constant -/
example (θ : ℝ) : ∃ c, choFactor (Real.exp θ • (1 : Matrix (Fin 2) (Fin 2) ℝ)) = .ok c ∧
    HasDerivAt (fun t => Real.log (Real.exp t • (1 : Matrix (Fin 2) (Fin 2) ℝ)).det + ((Real.exp t • (1 : Matrix (Fin 2) (Fin 2) ℝ))⁻¹ * !![2, 1; 1, 3]).trace)
      (logprodDerivative c (Real.exp θ • 1) !![2, 1; 1, 3] 0) θ :=
  C51_logprod_derivative (fun t => Real.exp t • 1) (fun _ => !![2, 1; 1, 3]) (Real.exp θ • 1) 0 θ
    (fun i j => (Real.hasDerivAt_exp θ).mul_const _) (fun i j => hasDerivAt_const _ _) (PosDef.one.smul (Real.exp_pos θ))

end PyPE

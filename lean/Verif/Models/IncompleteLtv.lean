import Verif.Models.Incomplete
import Verif.Models.LtvGrad
import Verif.Models.Nlg
import Verif.Models.Ml

/-!
# C102: incomplete linear and nonlinear Gaussian models
-/

namespace PyPE
open Matrix

variable {n m p lxi lz ly : ℕ} {U T Y : Type}

theorem mapM_first {α β : Type} {f : α → PyM β} {e : PyErr} {l : List α} (hl : l ≠ []) (h : ∀ x ∈ l, f x = .error e) : l.mapM f = .error e := by
  obtain ⟨a, l, rfl⟩ := List.exists_cons_of_ne_nil hl
  rw [List.mapM_cons, h a (by simp)]
  rfl

/-- C102: the likelihood terms of a linear model: a singular initial covariance, or a measurement without `C` or `R`, or with a singular `R`, raises as soon as there is a
particle. -/
theorem C102_ltv_terms (M : Ltv n m U T Y) (kf : KF n m) {rows : List (List ℝ)} {l : List (Est n)} (hl : ltvGetStates n rows = .ok l) (hne : l ≠ []) (y : Y) (t : T)
    {kf' : KF n m} (hk : kf' = kf.setDynamics none (M.measDyn y t).2.1 none (M.measDyn y t).2.2.2 none (M.measDyn y t).2.2.1) :
    (M.P0.det = 0 → M.evalLogpX0 rows = .error .linAlgError) ∧
    (kf'.C = none ∨ kf'.R = none → M.evalLogpY kf rows y t = .error .attributeError) ∧
    (∀ C R, kf'.C = some C → kf'.R = some R → R.det = 0 → M.evalLogpY kf rows y t = .error .linAlgError) := by
  unfold Ltv.evalLogpX0 Ltv.evalLogpY
  simp only [hl, ok_bind, ← hk]
  refine ⟨fun h => mapM_first hne fun s _ => if_pos h, fun h => ?_, fun C R hC hR h => ?_⟩
  · rw [mapM_first hne (e := .attributeError) fun s _ => ?_]
    · rfl
    · rcases h with h | h
      · rw [h]; rfl
      · rw [h]; cases kf'.C <;> rfl
  · rw [mapM_first hne (e := .linAlgError) fun s _ => ?_]
    · rfl
    · rw [hC, hR]
      show halfLogForm R _ = _
      exact if_pos h

/-- C102: gradients of the initial term with respect to `z0` alone (`P0_grad` is `None`): a `TypeError`, when there are particles and parameters. -/
theorem C102_ltv_initial_gradient (M : Ltv n m U T Y) (g : Fin (p + 1) → Fin n → ℝ) {rows : List (List ℝ)} {l : List (Est n)} (hl : ltvGetStates n rows = .ok l) (hne : l ≠ [])
    {c : Matrix (Fin n) (Fin n) ℝ} (hc : choFactor M.P0 = .ok c) : M.evalLogpX0ValGrad (some g) none rows = .error .typeError := by
  unfold Ltv.evalLogpX0ValGrad ltvX0Loop
  simp only [hl, ok_bind, hc]
  rw [if_pos ⟨hne, by omega⟩]
  rfl

/-- C102: a nonlinear Gaussian model without `f` cannot be propagated or evaluated, one without `Q` not sampled. -/
theorem C102_nlg_missing (H : NlgHooks n m U T) (o : NlgObj n m) (parts next : List (Fin n → ℝ)) (u : U) (t : T) (v : List (Fin n → ℝ)) :
    (H.calcF parts u t = none → o.f = none → nlgUpdate H o parts u t v = .error .typeError ∧ nlgLogpXnext H o parts next u t = .error .typeError) ∧
    (H.calcQ parts u t = none → o.qfac = none → nlgNoise H o parts u t v = .error .attributeError ∧ nlgLogpXnextMax H o parts u t = .error .attributeError) := by
  refine ⟨fun h1 h2 => ?_, fun h1 h2 => ?_⟩
  · have hf : nlgF H o parts u t = .error .typeError := by unfold nlgF; rw [h1, h2]
    unfold nlgUpdate nlgLogpXnext
    rw [hf]
    exact ⟨rfl, rfl⟩
  · unfold nlgNoise nlgLogpXnextMax
    rw [h1, h2]
    exact ⟨rfl, rfl⟩

/-- C102: a mixed model without `C` whose measurement callback returns an empty list `h`: an `IndexError`. -/
theorem C102_mixed_empty_h (H : MlHooks lxi lz ly U T Y) (o : MlObj lxi lz ly) (parts : List (RbP lxi lz)) (y : Y) (t : T) (hC : o.kf.C = none)
    (h1 : (H.meas (xisOf parts) y t).2.1 = none) (h2 : (H.meas (xisOf parts) y t).2.2.1 = some []) : mlMeasure H o parts y t = .error .indexError := by
  have hd : mlMeasDyn H o (xisOf parts) y t = .error .indexError := by
    unfold mlMeasDyn mlDefaultC
    simp only [h1, h2, hC]
    rfl
  unfold mlMeasure
  rw [hd]
  rfl

/-- A linear model whose initial covariance is the zero matrix. -/
example (M : Ltv 1 1 ℕ ℕ ℕ) (h : M.P0 = 0) : M.evalLogpX0 [[1, 0]] = .error .linAlgError := by
  obtain ⟨l, hl⟩ : ∃ l, ltvGetStates 1 [[1, 0]] = .ok l := ⟨_, rfl⟩
  have hne : l ≠ [] := by rintro rfl; cases hl
  exact (C102_ltv_terms M ⟨none, none, none, none, none, none⟩ hl hne 0 0 rfl).1 (by rw [h]; simp)

end PyPE

import Verif.Kalman.Claims

/-!
# C39: only the upper triangle of the innovation covariance is read

`scipy.linalg.cho_factor` is called without `lower=True`, so that a covariance that is not symmetric is used as if its upper triangle were mirrored.
-/

namespace PyPE
open Real Matrix

variable {n m : ℕ}

theorem choFactor_upper {S S' : Matrix (Fin n) (Fin n) ℝ} (h : ∀ i j, i ≤ j → S i j = S' i j) :
    (choFactor S).map triu = (choFactor S').map triu := by
  have hs : symUpper S = symUpper S' := by
    ext i j
    simp only [symUpper, of_apply]
    split
    · exact h _ _ ‹_›
    · exact h _ _ (le_of_not_ge ‹_›)
  unfold choFactor
  by_cases hc : ∃ U, IsCho U (symUpper S)
  · have hc' : ∃ U, IsCho U (symUpper S') := hs ▸ hc
    rw [dif_pos hc, dif_pos hc']
    have e : hc.choose = hc'.choose := by congr 1; funext U; rw [hs]
    simp only [Except.map]
    congr 1
    ext i j
    simp only [triu, of_apply, e]
    split <;> rfl
  · rw [dif_neg hc, dif_neg (hs ▸ hc)]

/-- C39: `measure_full` reads of the measurement covariance `R` only the entries on and above the diagonal: two matrices that agree there give the same result, or the
same exception. -/
theorem C39_upper_triangle (y : Fin m → ℝ) (z : Fin n → ℝ) (P : Matrix (Fin n) (Fin n) ℝ) (C : Option (Matrix (Fin m) (Fin n) ℝ)) (hk : Option (Fin m → ℝ))
    {R R' : Matrix (Fin m) (Fin m) ℝ} (h : ∀ i j, i ≤ j → R i j = R' i j) : measureFull y z P C hk R = measureFull y z P C hk R' := by
  have key : ∀ {S S' : Matrix (Fin m) (Fin m) ℝ} (_ : ∀ i j, i ≤ j → S i j = S' i j) {γ : Type} (g : Matrix (Fin m) (Fin m) ℝ → γ),
      (∀ c c', triu c = triu c' → g c = g c') → (choFactor S >>= fun c => (pure (g c) : PyM γ)) = (choFactor S' >>= fun c => pure (g c)) := by
    intro S S' hS γ g hg
    have e := choFactor_upper hS
    cases h1 : choFactor S <;> cases h2 : choFactor S' <;> rw [h1, h2] at e <;> simp only [Except.map, Except.ok.injEq, Except.error.injEq, reduceCtorEq] at e
    · subst e; rfl
    · exact congrArg Except.ok (hg _ _ e)
  have hd : ∀ c c' : Matrix (Fin m) (Fin m) ℝ, triu c = triu c' → choLogDet c = choLogDet c' := by
    intro c c' e
    have : ∀ i, c i i = c' i i := fun i => by simpa [triu] using congrFun (congrFun e i) i
    simp only [choLogDet, this]
  unfold measureFull
  cases C with
  | none =>
    refine key h (fun c => (z, P, _)) fun c c' e => ?_
    simp only [choSolve, e, hd c c' e]
  | some C =>
    refine key (fun i j hij => ?_) (fun c => (z + (P * Cᵀ) *ᵥ choSolve c _, P - P * Cᵀ * choSolveM c (C * P), _)) fun c c' e => ?_
    · simp only [Matrix.add_apply, h i j hij]
    · simp only [choSolve, choSolveM, e, hd c c' e]

/-- A covariance with a wrong entry below the diagonal, against the symmetric one. -/
example (y z : Fin 2 → ℝ) : measureFull y z 1 (some 1) none !![2, 1; 7, 2] = measureFull y z 1 (some 1) none !![2, 1; 1, 2] :=
  C39_upper_triangle _ _ _ _ _ (by
    intro i j hij
    fin_cases i <;> fin_cases j <;> simp at hij ⊢)

end PyPE

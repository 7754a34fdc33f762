import Verif.Models.MlCompute
import Verif.Models.LtvEm

/-!
# C51: the helpers of the EM gradients
-/

namespace PyPE
open Matrix MeasureTheory

variable {N p lxi lz : ℕ}

theorem logprodDerivative_eq {k : ℕ} {S : Matrix (Fin k) (Fin k) ℝ} (hS : S.PosDef) (c : Matrix (Fin k) (Fin k) ℝ)
    (hc : choFactor S = .ok c) (dA B dB : Matrix (Fin k) (Fin k) ℝ) :
    logprodDerivative c dA B dB = (S⁻¹ * (dA + dB - dA * (S⁻¹ * B))).trace := by
  have h := (triu_choFactor hc).eq
  rw [symUpper_of_isSymm (PosSemidef.isSymm' hS.posSemidef)] at h
  simp only [logprodDerivative, choSolveM, h]

/-- **C51** `compute_logprod_derivative` is the derivative of `log det A + tr(A⁻¹ B)` for every pair of differentiable matrix functions
`A`, `B` of a parameter, `A` symmetric positive definite; its first argument is the result of `cho_factor(A)`. -/
theorem C51_logprod_derivative {k : ℕ} (A B : ℝ → Matrix (Fin k) (Fin k) ℝ) (A' B' : Matrix (Fin k) (Fin k) ℝ) (θ : ℝ)
    (hA : Spec.MatDerivAt A A' θ) (hB : Spec.MatDerivAt B B' θ) (hpos : (A θ).PosDef) :
    ∃ c, choFactor (A θ) = .ok c ∧
      HasDerivAt (fun t => Real.log (A t).det + ((A t)⁻¹ * B t).trace) (logprodDerivative c A' (B θ) B') θ := by
  obtain ⟨c, hc⟩ := (choFactor_ok_iff _).mpr (by rw [symUpper_of_isSymm (PosSemidef.isSymm' hpos.posSemidef)]; exact hpos)
  refine ⟨c, hc, ?_⟩
  rw [logprodDerivative_eq hpos c hc]
  exact matDeriv_logdet_trace hA hB hpos.det_pos.ne'

/-- The selector of the `z` part of the state. -/
def selZ (lxi lz : ℕ) : Matrix (Fin lz) (Fin (lxi + lz)) ℝ := .of fun a l => if l = Fin.natAdd lxi a then 1 else 0

theorem mul_selZ (T : Matrix (Fin (lxi + lz)) (Fin lz) ℝ) (k l : Fin (lxi + lz)) :
    (T * selZ lxi lz) k l = Fin.addCases (motive := fun _ => ℝ) (fun _ => 0) (fun b => T k b) l := by
  refine Fin.addCases (fun i => ?_) (fun b => ?_) l
  · simp only [Matrix.mul_apply, selZ, of_apply, Fin.addCases_left]
    refine Finset.sum_eq_zero fun a _ => ?_
    rw [if_neg, mul_zero]
    intro h; have := congrArg Fin.val h; simp at this; omega
  · simp only [Matrix.mul_apply, selZ, of_apply, Fin.addCases_right, Fin.natAdd_inj]
    simp

theorem subBlocks_eq (out : Matrix (Fin (lxi + lz)) (Fin (lxi + lz)) ℝ) (T : Matrix (Fin (lxi + lz)) (Fin lz) ℝ) :
    subBlocks out T = out - T * selZ lxi lz - (T * selZ lxi lz)ᵀ := by
  ext k l
  simp only [subBlocks, of_apply, Matrix.sub_apply, transpose_apply, mul_selZ]
  have e : ∀ (g : Fin lz → ℝ) (i : Fin (lxi + lz)), (Fin.addCases (motive := fun _ => ℝ) (fun _ => (0 : ℝ)) (fun b => -g b) i) =
      -Fin.addCases (motive := fun _ => ℝ) (fun _ => (0 : ℝ)) g i := fun g i => by
    refine Fin.addCases (fun a => ?_) (fun b => ?_) i <;> simp
  rw [e, e]; ring

theorem computeL2_eq (perr : Fin N → Fin (lxi + lz) → ℝ) (Pn : Fin N → Matrix (Fin lz) (Fin lz) ℝ)
    (A : Fin N → Matrix (Fin (lxi + lz)) (Fin lz) ℝ) (Pl M : Fin N → Matrix (Fin lz) (Fin lz) ℝ) (i : Fin N) :
    computeL2 perr Pn A Pl M i = vecMulVec (perr i) (perr i) + A i * Pl i * (A i)ᵀ - A i * M i * selZ lxi lz -
      (A i * M i * selZ lxi lz)ᵀ + (selZ lxi lz)ᵀ * Pn i * selZ lxi lz := by
  have hP : ∀ k l, ((selZ lxi lz)ᵀ * Pn i * selZ lxi lz) k l = Fin.addCases (motive := fun _ => ℝ) (fun _ => 0)
      (fun a => Fin.addCases (motive := fun _ => ℝ) (fun _ => 0) (fun b => Pn i a b) l) k := by
    intro k l
    rw [mul_selZ]
    refine Fin.addCases (fun l => ?_) (fun b => ?_) l
    · simp only [Fin.addCases_left]
      refine Fin.addCases (fun a => ?_) (fun a => ?_) k <;> simp
    · simp only [Fin.addCases_right]
      have := mul_selZ (lxi := lxi) (lz := lz) (.of fun _ a => Pn i a b) (Fin.natAdd lxi b) k
      rw [show ((selZ lxi lz)ᵀ * Pn i) k b = ((Matrix.of fun (_ : Fin (lxi + lz)) a => Pn i a b) * selZ lxi lz) (Fin.natAdd lxi b) k from ?_,
        this]
      · rfl
      · simp only [Matrix.mul_apply, transpose_apply, of_apply]
        exact Finset.sum_congr rfl fun a _ => mul_comm _ _
  ext k l
  simp only [computeL2, of_apply, subBlocks_eq, Matrix.add_apply, Matrix.sub_apply, hP]

/-- The next state as a function of the next linear state, the next nonlinear state being known. -/
def Spec.nextState (xi : Fin lxi → ℝ) (z : Fin lz → ℝ) : Fin (lxi + lz) → ℝ := Fin.append xi z

/-- **C51** `compute_pred_err` and `compute_l2` give the second moment matrix of the prediction error: with `(z, z')` jointly normal, means
`zl`, `zn`, covariances `Pl`, `Pn`, cross covariance `M`, and the next nonlinear state `xi'` known, the result is
`E[e eᵀ]` for `e = (xi', z') - f - A z`, entry by entry. -/
theorem C51_l2_is_second_moment (xi : Fin N → Fin lxi → ℝ) (zn zl : Fin N → Fin lz → ℝ) (f : Fin N → Fin (lxi + lz) → ℝ)
    (A : Fin N → Matrix (Fin (lxi + lz)) (Fin lz) ℝ) (Pn Pl M : Fin N → Matrix (Fin lz) (Fin lz) ℝ) (i : Fin N)
    (hP : (fromBlocks (Pl i) (M i) (M i)ᵀ (Pn i)).PosSemidef) (k l : Fin (lxi + lz)) :
    computeL2 (computePredErr (fun i => Spec.nextState (xi i) (zn i)) f A zl) Pn A Pl M i k l =
      ∫ w, (Spec.nextState (xi i) (fun a => w (.inr a)) - f i - A i *ᵥ fun a => w (.inl a)) k *
        (Spec.nextState (xi i) (fun a => w (.inr a)) - f i - A i *ᵥ fun a => w (.inl a)) l
        ∂(Spec.pairLaw (zl i, Pl i) (zn i, Pn i) (M i)) := by
  have hsel : ∀ z : Fin lz → ℝ, Spec.nextState (xi i) z = Fin.append (xi i) 0 + (selZ lxi lz)ᵀ *ᵥ z := by
    intro z; funext q
    refine Fin.addCases (fun a => ?_) (fun b => ?_) q
    · simp only [Spec.nextState, Fin.append_left, Pi.add_apply, mulVec, dotProduct, transpose_apply, selZ, of_apply]
      rw [Finset.sum_eq_zero, add_zero]
      intro c _
      rw [if_neg, zero_mul]
      intro h; have := congrArg Fin.val h; simp at this; omega
    · simp [Spec.nextState, Fin.append_right, mulVec, dotProduct, selZ, Fin.natAdd_inj]
  set B : Matrix (Fin (lxi + lz)) (Fin lz ⊕ Fin lz) ℝ := fromCols (-(A i)) (selZ lxi lz)ᵀ with hB
  have haff := gauss_affine_one (μ := Sum.elim (zl i) (zn i)) hP (Fin.append (xi i) 0 - f i) B
  have herr : ∀ w : Fin lz ⊕ Fin lz → ℝ, Spec.nextState (xi i) (fun a => w (.inr a)) - f i - A i *ᵥ (fun a => w (.inl a)) =
      Fin.append (xi i) 0 - f i + B *ᵥ w := by
    intro w
    rw [hsel, hB, fromCols_mulVec, neg_mulVec]
    show _ + (selZ lxi lz)ᵀ *ᵥ (w ∘ Sum.inr) - f i - A i *ᵥ (w ∘ Sum.inl) = _
    abel
  simp only [herr]
  have hcov : B * fromBlocks (Pl i) (M i) (M i)ᵀ (Pn i) * Bᵀ = A i * Pl i * (A i)ᵀ - A i * M i * selZ lxi lz -
      (A i * M i * selZ lxi lz)ᵀ + (selZ lxi lz)ᵀ * Pn i * selZ lxi lz := by
    rw [hB, fromCols_mul_fromBlocks, transpose_fromCols, fromCols_mul_fromRows]
    simp only [transpose_neg, transpose_transpose, Matrix.neg_mul, Matrix.mul_neg, transpose_mul, Matrix.add_mul, Matrix.mul_assoc]
    abel
  have hmean : Fin.append (xi i) 0 - f i + B *ᵥ Sum.elim (zl i) (zn i) =
      computePredErr (fun i => Spec.nextState (xi i) (zn i)) f A zl i := by
    rw [← herr]; rfl
  have hpsd := posSemidef_conj hP B
  rw [hmean, hcov] at haff
  rw [hcov] at hpsd
  have h2 := gauss_second_moment (computePredErr (fun i => Spec.nextState (xi i) (zn i)) f A zl i) hpsd k l
  rw [← haff, integral_map (Continuous.measurable (by fun_prop)).aemeasurable
    (Continuous.aestronglyMeasurable (by fun_prop))] at h2
  rw [Spec.pairLaw]
  refine Eq.trans ?_ h2.symm
  rw [computeL2_eq]
  simp only [Matrix.add_apply, Matrix.sub_apply, vecMulVec_apply]
  ring

/-- **C51** The gradient helpers: starting from zeros, `compute_l2_grad_f` followed by `compute_l2_grad_A` leaves in `out[i, j]` the derivative
of `compute_l2` for particle `i` along parameter `j`, when `A` and `f` depend differentiably on the parameters with derivatives
`A_grad`, `f_grad`. -/
theorem C51_l2_gradient (params : Fin p → ℝ) (xn : Fin N → Fin (lxi + lz) → ℝ) (zl : Fin N → Fin lz → ℝ)
    (Pn Pl M : Fin N → Matrix (Fin lz) (Fin lz) ℝ) (f : (Fin p → ℝ) → Fin N → Fin (lxi + lz) → ℝ)
    (A : (Fin p → ℝ) → Fin N → Matrix (Fin (lxi + lz)) (Fin lz) ℝ) (fGrad : Fin N → Fin p → Fin (lxi + lz) → ℝ)
    (AGrad : Fin N → Fin p → Matrix (Fin (lxi + lz)) (Fin lz) ℝ) (i : Fin N) (j : Fin p) (hPl : (Pl i).IsSymm)
    (hf : Spec.VecDerivAt (fun t => f (Function.update params j t) i) (fGrad i j) (params j))
    (hA : Spec.MatDerivAt (fun t => A (Function.update params j t) i) (AGrad i j) (params j)) :
    Spec.MatDerivAt
      (fun t => computeL2 (computePredErr xn (f (Function.update params j t)) (A (Function.update params j t)) zl) Pn
        (A (Function.update params j t)) Pl M i)
      (computeL2GradA (computeL2GradF (fun _ _ => 0) (computePredErr xn (f params) (A params) zl) fGrad)
        (computePredErr xn (f params) (A params) zl) zl Pl M (A params) AGrad i j) (params j) := by
  set e := computePredErr xn (f params) (A params) zl i with he
  have hupd : Function.update params j (params j) = params := Function.update_eq_self j params
  -- the error
  have herr : Spec.VecDerivAt (fun t => computePredErr xn (f (Function.update params j t)) (A (Function.update params j t)) zl i)
      (-(fGrad i j) - AGrad i j *ᵥ zl i) (params j) := by
    have h1 := vecDeriv_sub (vecDeriv_sub (vecDeriv_const (x := params j) (xn i)) hf) (vecDeriv_mulVec hA (vecDeriv_const (zl i)))
    have e0 : (0 : Fin (lxi + lz) → ℝ) - fGrad i j -
        (AGrad i j *ᵥ zl i + A (Function.update params j (params j)) i *ᵥ 0) = -(fGrad i j) - AGrad i j *ᵥ zl i := by
      rw [mulVec_zero, add_zero, zero_sub]
    rw [e0] at h1
    exact h1
  have h2 := matDeriv_vecMulVec herr herr
  have h3 := matDeriv_mul (matDeriv_mul hA (matDeriv_const (Pl i))) (matDeriv_transpose hA)
  have h4 := matDeriv_mul (matDeriv_mul hA (matDeriv_const (M i))) (matDeriv_const (selZ lxi lz))
  have h5 := matDeriv_add (matDeriv_sub (matDeriv_sub (matDeriv_add h2 h3) h4) (matDeriv_transpose h4))
    (matDeriv_const ((selZ lxi lz)ᵀ * Pn i * selZ lxi lz))
  simp only [hupd, Matrix.mul_zero, add_zero] at h5
  have hval : (fun t => computeL2 (computePredErr xn (f (Function.update params j t)) (A (Function.update params j t)) zl) Pn
        (A (Function.update params j t)) Pl M i) = fun t =>
      vecMulVec (computePredErr xn (f (Function.update params j t)) (A (Function.update params j t)) zl i)
          (computePredErr xn (f (Function.update params j t)) (A (Function.update params j t)) zl i) +
        A (Function.update params j t) i * Pl i * (A (Function.update params j t) i)ᵀ -
        A (Function.update params j t) i * M i * selZ lxi lz - (A (Function.update params j t) i * M i * selZ lxi lz)ᵀ +
        (selZ lxi lz)ᵀ * Pn i * selZ lxi lz := by
    funext t; rw [computeL2_eq]
  rw [hval]
  convert h5 using 1
  unfold computeL2GradA
  rw [subBlocks_eq]
  have e1 : ∀ (B : Matrix (Fin lz) (Fin lz) ℝ), (Matrix.of fun k l => ∑ m, AGrad i j k m * B m l) = AGrad i j * B := fun B => by
    ext k l; simp [Matrix.mul_apply]
  have e2 : (Matrix.of fun k l => ∑ m, (AGrad i j * Pl i) k m * A params i l m) = AGrad i j * Pl i * (A params i)ᵀ := by
    ext k l; simp [Matrix.mul_apply]
  simp only [e1, e2]
  congr 2
  ext k l
  have hz : ∀ k, ∑ m, AGrad i j k m * zl i m = (AGrad i j *ᵥ zl i) k := fun k => by simp [mulVec, dotProduct]
  have hT : (AGrad i j * Pl i * (A params i)ᵀ) l k = (A params i * Pl i * (AGrad i j)ᵀ) k l := by
    have : (AGrad i j * Pl i * (A params i)ᵀ)ᵀ = A params i * Pl i * (AGrad i j)ᵀ := by
      rw [transpose_mul, transpose_mul, transpose_transpose, hPl.eq, Matrix.mul_assoc]
    rw [← this, transpose_apply]
  simp only [of_apply, Matrix.add_apply, vecMulVec_apply, computeL2GradF, hz, hT, ← he, Pi.sub_apply, Pi.neg_apply,
    Matrix.zero_apply]
  ring

/-- A scalar system `z' = a z + v` with `a` the parameter. -/
example : Spec.MatDerivAt (fun t => !![Function.update ![(2 : ℝ)] 0 t 0]) !![(1 : ℝ)] 2 := fun i j => by
  fin_cases i; fin_cases j
  simpa using hasDerivAt_id' (2 : ℝ)

end PyPE

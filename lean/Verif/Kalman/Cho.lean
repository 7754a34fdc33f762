import Verif.Kalman.Model
import Verif.PyLemmas
import Mathlib.Analysis.Matrix.LDL
import Mathlib.LinearAlgebra.Matrix.Block
import Mathlib.Analysis.Matrix.PosDef
import Mathlib.Algebra.Order.Star.Real

/-!
# The Cholesky factor: existence, uniqueness, solving, log-determinant
-/

namespace PyPE
open Matrix

variable {n m : ℕ}

theorem symUpper_of_isSymm {S : Matrix (Fin n) (Fin n) ℝ} (h : S.IsSymm) : symUpper S = S := by
  ext i j
  simp only [symUpper, of_apply]
  split_ifs
  · rfl
  · exact h.apply i j

theorem symUpper_isSymm (S : Matrix (Fin n) (Fin n) ℝ) : (symUpper S).IsSymm := by
  ext i j
  simp only [symUpper, of_apply, transpose_apply]
  rcases lt_trichotomy i j with h | h | h
  · simp [h.le, not_le.2 h]
  · subst h; rfl
  · simp [h.le, not_le.2 h]

theorem PosDef.isSymm' {S : Matrix (Fin n) (Fin n) ℝ} (h : S.PosDef) : S.IsSymm := by
  have := h.isHermitian
  rw [Matrix.IsHermitian, Matrix.conjTranspose_eq_transpose_of_trivial] at this
  exact this

theorem PosSemidef.isSymm' {ι : Type*} {S : Matrix ι ι ℝ} (h : S.PosSemidef) : S.IsSymm := by
  have := h.isHermitian
  rw [Matrix.IsHermitian, Matrix.conjTranspose_eq_transpose_of_trivial] at this
  exact this

theorem IsCho.det_eq {U S : Matrix (Fin n) (Fin n) ℝ} (h : IsCho U S) : U.det = ∏ i, U i i :=
  Matrix.det_of_upperTriangular fun i j hij => h.upper i j hij

theorem IsCho.det_pos {U S : Matrix (Fin n) (Fin n) ℝ} (h : IsCho U S) : 0 < U.det := by
  rw [h.det_eq]; exact Finset.prod_pos fun i _ => h.pos i

theorem IsCho.det_S {U S : Matrix (Fin n) (Fin n) ℝ} (h : IsCho U S) : S.det = (∏ i, U i i) ^ 2 := by
  rw [← h.eq, det_mul, det_transpose, h.det_eq, sq]

theorem IsCho.posDef {U S : Matrix (Fin n) (Fin n) ℝ} (h : IsCho U S) : S.PosDef := by
  rw [← h.eq, ← conjTranspose_eq_transpose_of_trivial]
  refine Matrix.PosDef.conjTranspose_mul_self U ?_
  exact Matrix.mulVec_injective_of_isUnit ((Matrix.isUnit_iff_isUnit_det U).2 h.det_pos.ne'.isUnit)

/-- Two upper triangular matrices with positive diagonals and the same `Uᵀ U` are equal. -/
theorem IsCho.unique {U V S : Matrix (Fin n) (Fin n) ℝ} (hU : IsCho U S) (hV : IsCho V S) : U = V := by
  have huU : IsUnit U.det := hU.det_pos.ne'.isUnit
  have huV : IsUnit V.det := hV.det_pos.ne'.isUnit
  -- W = V U⁻¹ is orthogonal and upper triangular
  have btU : U.BlockTriangular id := fun i j hij => hU.upper i j hij
  have btV : V.BlockTriangular id := fun i j hij => hV.upper i j hij
  haveI := Matrix.invertibleOfIsUnitDet U huU
  have btUi : (U⁻¹).BlockTriangular id := blockTriangular_inv_of_blockTriangular btU
  have btW : (V * U⁻¹).BlockTriangular id := btV.mul btUi
  have orth : (V * U⁻¹)ᵀ * (V * U⁻¹) = 1 := by
    rw [transpose_mul, Matrix.mul_assoc, ← Matrix.mul_assoc Vᵀ, hV.eq, ← hU.eq]
    rw [Matrix.mul_assoc, Matrix.mul_nonsing_inv _ huU, Matrix.mul_one, ← transpose_mul,
      Matrix.mul_nonsing_inv _ huU, transpose_one]
  set W := V * U⁻¹ with hW
  have hWU : W * U = V := by rw [hW, Matrix.mul_assoc, Matrix.nonsing_inv_mul _ huU, Matrix.mul_one]
  have wU : ∀ i, W i i * U i i = V i i := by
    intro i
    rw [← hWU, Matrix.mul_apply, Finset.sum_eq_single i]
    · intro j _ hj
      rcases lt_or_gt_of_ne hj with h | h
      · rw [btW (show id j < id i from h), zero_mul]
      · rw [btU (show id i < id j from h), mul_zero]
    · simp
  have wpos : ∀ i, 0 < W i i := fun i => by
    have := wU i
    have h1 := hU.pos i
    have h2 := hV.pos i
    by_contra hc
    push Not at hc
    nlinarith
  -- W = (Wᵀ)⁻¹ is also lower triangular
  have orth' : W * Wᵀ = 1 := mul_eq_one_comm.1 orth
  haveI : Invertible W := ⟨Wᵀ, orth, orth'⟩
  have hWinv : W⁻¹ = Wᵀ := Matrix.inv_eq_left_inv orth
  have btWt : (Wᵀ).BlockTriangular id := by
    rw [← hWinv]; exact blockTriangular_inv_of_blockTriangular btW
  have off : ∀ i j, i ≠ j → W i j = 0 := by
    intro i j hij
    rcases lt_or_gt_of_ne hij with h | h
    · exact btWt (i := j) (j := i) h
    · exact btW h
  have wone : ∀ i, W i i = 1 := by
    intro i
    have := congrFun (congrFun orth i) i
    rw [Matrix.mul_apply, Finset.sum_eq_single i (fun j _ hj => by rw [off j i hj, mul_zero]) (by simp),
      transpose_apply, one_apply_eq] at this
    have := wpos i
    nlinarith
  have : W = 1 := by
    ext i j
    by_cases h : i = j
    · subst h; rw [wone, one_apply_eq]
    · rw [off i j h, one_apply_ne h]
  rw [← hWU, this, Matrix.one_mul]

/-- Every positive definite matrix has a Cholesky factor. -/
theorem exists_isCho {S : Matrix (Fin n) (Fin n) ℝ} (hS : S.PosDef) : ∃ U, IsCho U S := by
  classical
  set L := LDL.lower hS with hL
  have hLinv : IsUnit (LDL.lowerInv hS).det := Matrix.isUnit_det_of_invertible _
  have hLd : IsUnit L.det := by rw [hL, LDL.lower]; exact Matrix.isUnit_nonsing_inv_det _ hLinv
  have btInv : (LDL.lowerInv hS).BlockTriangular OrderDual.toDual := fun i j hij => LDL.lowerInv_triangular hS hij
  have btL : L.BlockTriangular OrderDual.toDual := blockTriangular_inv_of_blockTriangular btInv
  have hLii : ∀ i, L i i ≠ 0 := by
    have hdet : L.det = ∏ i, L i i := Matrix.det_of_lowerTriangular L btL
    intro i hi
    have h0 : ∏ i, L i i = 0 := Finset.prod_eq_zero (Finset.mem_univ i) hi
    rw [hdet, h0] at hLd
    exact not_isUnit_zero hLd
  have hD : (LDL.diag hS).PosDef := by
    rw [LDL.diag_eq_lowerInv_conj]
    have := hS.mul_mul_conjTranspose_same (B := LDL.lowerInv hS)
      (Matrix.vecMul_injective_of_isUnit ((Matrix.isUnit_iff_isUnit_det _).2 hLinv))
    exact this
  have hd : ∀ i, 0 < LDL.diagEntries hS i := by
    have := Matrix.posDef_diagonal_iff.1 hD
    exact this
  set d := LDL.diagEntries hS
  let D : Matrix (Fin n) (Fin n) ℝ := diagonal fun i => SignType.sign (L i i) * Real.sqrt (d i)
  have hsgn : ∀ i, ((SignType.sign (L i i) : ℤ) : ℝ) * ((SignType.sign (L i i) : ℤ) : ℝ) = 1 := by
    intro i
    rcases lt_or_gt_of_ne (hLii i) with h | h <;> simp [h]
  refine ⟨D * Lᵀ, ?_, ?_, ?_⟩
  · intro i j hij
    simp only [D, diagonal_mul, transpose_apply]
    rw [btL (show OrderDual.toDual i < OrderDual.toDual j from hij), mul_zero]
  · intro i
    simp only [D, diagonal_mul, transpose_apply]
    have := Real.sqrt_pos.2 (hd i)
    rcases lt_or_gt_of_ne (hLii i) with h | h
    · simp only [h, sign_neg, SignType.coe_neg_one]; nlinarith
    · simp only [h, sign_pos, SignType.coe_one, one_mul]; exact mul_pos this h
  · have h1 := LDL.lower_conj_diag hS
    rw [conjTranspose_eq_transpose_of_trivial] at h1
    rw [transpose_mul, transpose_transpose, Matrix.mul_assoc, ← Matrix.mul_assoc Dᵀ]
    have : Dᵀ * D = LDL.diag hS := by
      simp only [D, diagonal_transpose, diagonal_mul_diagonal, LDL.diag]
      congr 1
      funext i
      have h2 : Real.sqrt (d i) * Real.sqrt (d i) = d i := Real.mul_self_sqrt (hd i).le
      rcases lt_or_gt_of_ne (hLii i) with h | h <;> simp [h, h2, d]
    rw [this, ← Matrix.mul_assoc]
    exact h1

theorem triu_choFactor {S c : Matrix (Fin n) (Fin n) ℝ} (h : choFactor S = .ok c) : IsCho (triu c) (symUpper S) := by
  unfold choFactor at h
  split at h
  · rename_i hex
    cases h
    have hc := hex.choose_spec
    have : triu (.of fun i j => if i ≤ j then hex.choose i j else S i j) = hex.choose := by
      ext i j
      simp only [triu, of_apply]
      split_ifs with hij
      · rfl
      · exact (hc.upper i j (not_le.1 hij)).symm
    rw [this]; exact hc
  · cases h

/-- `cho_factor` succeeds exactly for the matrices whose upper triangle belongs to a positive definite matrix. -/
theorem choFactor_ok_iff (S : Matrix (Fin n) (Fin n) ℝ) : (∃ c, choFactor S = .ok c) ↔ (symUpper S).PosDef := by
  constructor
  · rintro ⟨c, h⟩
    exact (triu_choFactor h).posDef
  · intro h
    have := exists_isCho h
    unfold choFactor
    rw [dif_pos this]
    exact ⟨_, rfl⟩

theorem choFactor_error {S : Matrix (Fin n) (Fin n) ℝ} (h : ¬ (symUpper S).PosDef) : choFactor S = .error .linAlgError := by
  unfold choFactor
  rw [dif_neg]
  rintro ⟨U, hU⟩
  exact h hU.posDef

theorem choSolve_eq {S c : Matrix (Fin n) (Fin n) ℝ} (h : choFactor S = .ok c) (b : Fin n → ℝ) :
    choSolve c b = (symUpper S)⁻¹ *ᵥ b := by
  rw [choSolve, (triu_choFactor h).eq]

theorem choSolveM_eq {S c : Matrix (Fin n) (Fin n) ℝ} (h : choFactor S = .ok c) (B : Matrix (Fin n) (Fin m) ℝ) :
    choSolveM c B = (symUpper S)⁻¹ * B := by
  rw [choSolveM, (triu_choFactor h).eq]

theorem choLogDet_eq {S c : Matrix (Fin n) (Fin n) ℝ} (h : choFactor S = .ok c) :
    choLogDet c = Real.log (symUpper S).det := by
  have hc := triu_choFactor h
  rw [hc.det_S, Real.log_pow, Real.log_prod (fun i _ => (hc.pos i).ne'), choLogDet]
  simp [triu, mul_comm]

end PyPE

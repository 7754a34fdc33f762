import Verif.Py
import Verif.PyLemmas
import Verif.Smooth.Lemmas
import Mathlib.LinearAlgebra.Matrix.Defs
import Mathlib.Logic.Equiv.Fin.Basic
import Mathlib.Data.Real.Basic

/-!
# Rows of the particle array: storing means and covariances in a flat vector

A particle is one row of a two-dimensional numpy array, modelled as a list of numbers.  Simplification: numpy's broadcasting
of length-one arrays into a slice of another length is not modelled, a slice that does not fit is a `ValueError`.
-/

namespace PyPE

/-- `row[off:off+n].reshape(...)`: the `n` numbers from `off`; `ValueError` from `reshape` when the row is too short. -/
def readSlice (n off : ℕ) (row : List ℝ) : PyM (Fin n → ℝ) :=
  if h : off + n ≤ row.length then .ok fun i => row[off + i]'(by omega) else .error .valueError

/-- `row[off:off+n] = v`: `ValueError` when the slice of the row is shorter than `v`. -/
def writeSlice {n : ℕ} (off : ℕ) (v : Fin n → ℝ) (row : List ℝ) : PyM (List ℝ) :=
  if off + n ≤ row.length then .ok (row.take off ++ List.ofFn v ++ row.drop (off + n)) else .error .valueError

/-- `P.ravel()`: rows one after the other. -/
def ravel {n : ℕ} (P : Matrix (Fin n) (Fin n) ℝ) : Fin (n * n) → ℝ := fun k =>
  P (finProdFinEquiv.symm k).1 (finProdFinEquiv.symm k).2

/-- `v.reshape((n, n))`. -/
def unravel {n : ℕ} (v : Fin (n * n) → ℝ) : Matrix (Fin n) (Fin n) ℝ := .of fun i j => v (finProdFinEquiv (i, j))

/-- `ravel` is row-major: entry `(i, j)` is stored at position `n i + j`. -/
theorem ravel_rowMajor {n : ℕ} (P : Matrix (Fin n) (Fin n) ℝ) (i j : Fin n) (h : n * i + j < n * n) :
    ravel P ⟨n * i + j, h⟩ = P i j := by
  have : (⟨n * i + j, h⟩ : Fin (n * n)) = finProdFinEquiv (i, j) := by
    ext; simp [finProdFinEquiv, add_comm]
  rw [this]; simp [ravel]

theorem unravel_ravel {n : ℕ} (P : Matrix (Fin n) (Fin n) ℝ) : unravel (ravel P) = P := by
  ext i j; simp [unravel, ravel]

theorem ravel_unravel {n : ℕ} (v : Fin (n * n) → ℝ) : ravel (unravel v) = v := by
  funext k; simp only [unravel, ravel, Matrix.of_apply, Prod.mk.eta, Equiv.apply_symm_apply]

theorem writeSlice_ok {n off : ℕ} {v : Fin n → ℝ} {row : List ℝ} (h : off + n ≤ row.length) :
    writeSlice off v row = .ok (row.take off ++ List.ofFn v ++ row.drop (off + n)) := by
  rw [writeSlice, if_pos h]

theorem writeSlice_spec {n off : ℕ} {v : Fin n → ℝ} {row row' : List ℝ} (h : writeSlice off v row = .ok row') :
    off + n ≤ row.length ∧ row'.length = row.length ∧
      ∀ k, row'[k]? = if h : off ≤ k ∧ k < off + n then some (v ⟨k - off, by omega⟩) else row[k]? := by
  unfold writeSlice at h
  split at h
  · rename_i hl
    cases h
    refine ⟨hl, by simp; omega, fun k => ?_⟩
    rw [List.append_assoc, List.getElem?_append]
    simp only [List.length_take, min_eq_left (show off ≤ row.length by omega)]
    split
    · rename_i hk
      rw [dif_neg (by omega), List.getElem?_take_of_lt hk]
    · rename_i hk
      rw [List.getElem?_append]
      simp only [List.length_ofFn]
      split
      · rename_i hk2
        rw [dif_pos (by omega), List.getElem?_ofFn, dif_pos (by omega)]
      · rename_i hk2
        rw [dif_neg (by omega), List.getElem?_drop]
        congr 1; omega
  · cases h

theorem readSlice_spec {n off : ℕ} {row : List ℝ} {v : Fin n → ℝ} (h : readSlice n off row = .ok v) :
    off + n ≤ row.length ∧ ∀ i : Fin n, row[off + i]? = some (v i) := by
  unfold readSlice at h
  split at h
  · rename_i hl
    cases h
    exact ⟨hl, fun i => by rw [List.getElem?_eq_getElem]⟩
  · cases h

theorem readSlice_of {n off : ℕ} {row : List ℝ} {v : Fin n → ℝ} (hl : off + n ≤ row.length)
    (h : ∀ i : Fin n, row[off + i]? = some (v i)) : readSlice n off row = .ok v := by
  unfold readSlice
  rw [dif_pos hl]
  congr 1
  funext i
  have := h i
  rw [List.getElem?_eq_getElem (by omega)] at this
  simpa using this

/-- Reading back what was written. -/
theorem readSlice_writeSlice {n off : ℕ} {v : Fin n → ℝ} {row row' : List ℝ} (h : writeSlice off v row = .ok row') :
    readSlice n off row' = .ok v := by
  obtain ⟨h1, h2, h3⟩ := writeSlice_spec h
  refine readSlice_of (by omega) fun i => ?_
  rw [h3, dif_pos (by omega)]
  simp

/-- Writing one slice does not change a disjoint one. -/
theorem readSlice_writeSlice_disjoint {n m off off' : ℕ} {v : Fin n → ℝ} {row row' : List ℝ}
    (h : writeSlice off v row = .ok row') (hd : off' + m ≤ off ∨ off + n ≤ off') :
    readSlice m off' row' = readSlice m off' row := by
  obtain ⟨h1, h2, h3⟩ := writeSlice_spec h
  by_cases hl : off' + m ≤ row.length
  · obtain ⟨w, hw⟩ : ∃ w, readSlice m off' row = .ok w := by unfold readSlice; rw [dif_pos hl]; exact ⟨_, rfl⟩
    rw [hw]
    refine readSlice_of (by omega) fun i => ?_
    rw [h3, dif_neg (by omega)]
    exact (readSlice_spec hw).2 i
  · have e1 : readSlice m off' row = .error .valueError := by unfold readSlice; rw [dif_neg hl]
    have e2 : readSlice m off' row' = .error .valueError := by unfold readSlice; rw [dif_neg (by omega)]
    rw [e1, e2]

theorem readSlice_exists {n off : ℕ} {row : List ℝ} (hl : off + n ≤ row.length) : ∃ v, readSlice n off row = .ok v := by
  unfold readSlice; rw [dif_pos hl]; exact ⟨_, rfl⟩

end PyPE

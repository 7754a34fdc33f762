import Verif.Kalman.Claims
import Verif.Models.MatDeriv

/-!
# Model of `pyparticleest/utils/mlnlg_compute.py`

Arrays of fixed shape are functions on `Fin`; the state is `(xi, z)` with `dim = lxi + lz`.
-/

namespace PyPE
open Matrix

variable {N p lxi lz : ℕ}

/-- `compute_logprod_derivative(Alup, dA, B, dB)` (mlnlg_compute.py:9-15). -/
noncomputable def logprodDerivative {k : ℕ} (c dA B dB : Matrix (Fin k) (Fin k) ℝ) : ℝ :=
  let tmp := choSolveM c B
  let tmp2 := dA + dB - dA * tmp
  (choSolveM c tmp2).trace

/-- `compute_l2_grad_f(N, lenp, dim, out, perr, f_grad, tmp)` (mlnlg_compute.py:27-38): the new content of `out`. -/
def computeL2GradF {d : ℕ} (out : Fin N → Fin p → Matrix (Fin d) (Fin d) ℝ) (perr : Fin N → Fin d → ℝ)
    (fGrad : Fin N → Fin p → Fin d → ℝ) : Fin N → Fin p → Matrix (Fin d) (Fin d) ℝ := fun i j =>
  let tmp : Matrix (Fin d) (Fin d) ℝ := .of fun k l => fGrad i j k * perr i l
  .of fun k l => out i j k l + (-tmp k l - tmp l k)

/-- The last two loops of `compute_l2_grad_A` (mlnlg_compute.py:93-96): `out[:, lxi:] += -T`, `out[lxi:, :] += -T'`. -/
def subBlocks (out : Matrix (Fin (lxi + lz)) (Fin (lxi + lz)) ℝ) (T : Matrix (Fin (lxi + lz)) (Fin lz) ℝ) :
    Matrix (Fin (lxi + lz)) (Fin (lxi + lz)) ℝ :=
  .of fun k l => out k l + Fin.addCases (fun _ => 0) (fun b => -T k b) l + Fin.addCases (fun _ => 0) (fun a => -T l a) k

/-- `compute_l2_grad_A(...)` (mlnlg_compute.py:41-102): the new content of `out`. -/
def computeL2GradA (out : Fin N → Fin p → Matrix (Fin (lxi + lz)) (Fin (lxi + lz)) ℝ) (perr : Fin N → Fin (lxi + lz) → ℝ)
    (zl : Fin N → Fin lz → ℝ) (Pl M : Fin N → Matrix (Fin lz) (Fin lz) ℝ) (A : Fin N → Matrix (Fin (lxi + lz)) (Fin lz) ℝ)
    (AGrad : Fin N → Fin p → Matrix (Fin (lxi + lz)) (Fin lz) ℝ) :
    Fin N → Fin p → Matrix (Fin (lxi + lz)) (Fin (lxi + lz)) ℝ := fun i j =>
  let tmp2 : Fin (lxi + lz) → ℝ := fun k => ∑ m, AGrad i j k m * zl i m
  let tmp1 : Matrix (Fin (lxi + lz)) (Fin (lxi + lz)) ℝ := .of fun k l => tmp2 k * perr i l
  let o1 : Matrix (Fin (lxi + lz)) (Fin (lxi + lz)) ℝ := .of fun k l => out i j k l + (-tmp1 k l - tmp1 l k)
  let tmp2 : Matrix (Fin (lxi + lz)) (Fin lz) ℝ := .of fun k l => ∑ m, AGrad i j k m * Pl i m l
  let tmp1 : Matrix (Fin (lxi + lz)) (Fin (lxi + lz)) ℝ := .of fun k l => ∑ m, tmp2 k m * A i l m
  let o2 : Matrix (Fin (lxi + lz)) (Fin (lxi + lz)) ℝ := .of fun k l => o1 k l + (tmp1 k l + tmp1 l k)
  let tmp2 : Matrix (Fin (lxi + lz)) (Fin lz) ℝ := .of fun k l => ∑ m, AGrad i j k m * M i m l
  subBlocks o2 tmp2

/-- `compute_pred_err(N, dim, xn, f, A, zl, out)` (mlnlg_compute.py:104-106). -/
def computePredErr (xn f : Fin N → Fin (lxi + lz) → ℝ) (A : Fin N → Matrix (Fin (lxi + lz)) (Fin lz) ℝ) (zl : Fin N → Fin lz → ℝ) :
    Fin N → Fin (lxi + lz) → ℝ := fun i => xn i - f i - A i *ᵥ zl i

/-- `compute_l2(N, lxi, dim, perr, Pn, A, Pl, M, out)` (mlnlg_compute.py:108-126). -/
def computeL2 (perr : Fin N → Fin (lxi + lz) → ℝ) (Pn : Fin N → Matrix (Fin lz) (Fin lz) ℝ)
    (A : Fin N → Matrix (Fin (lxi + lz)) (Fin lz) ℝ) (Pl M : Fin N → Matrix (Fin lz) (Fin lz) ℝ) :
    Fin N → Matrix (Fin (lxi + lz)) (Fin (lxi + lz)) ℝ := fun i =>
  let out := vecMulVec (perr i) (perr i) + A i * Pl i * (A i)ᵀ
  let out := subBlocks out (A i * M i)
  .of fun k l => out k l + Fin.addCases (fun _ => 0) (fun a => Fin.addCases (fun _ => 0) (fun b => Pn i a b) l) k

end PyPE

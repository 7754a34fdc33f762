import Verif.Kalman.Claims
import Verif.Smooth.Rsas

/-!
# C31: the stopping rule of `bsi_rsas` is a scalar Kalman filter

The estimate that decides when rejection sampling is abandoned follows the number of acceptances: the acceptance rate `p` is
measured through `accepted = tried · p + noise(sw²)` and then shrinks by the accepted fraction with process noise `sv²`.
-/

open Matrix
namespace PyPE

/-- The 1×1 matrix with the given entry. -/
def Spec.mat1 (a : ℝ) : Matrix (Fin 1) (Fin 1) ℝ := .of fun _ _ => a

theorem stop_rule_kalman (v : PyVersion) (o : RsasOpts) (hsw : o.sw ≠ 0) (tried acc : ℕ) (pk Pk : ℝ) (hP : 0 ≤ Pk) :
    ∃ z' P' ll, measureFull (fun _ => (acc : ℝ)) (fun _ => pk) (Spec.mat1 Pk) (some (Spec.mat1 tried)) none
        (Spec.mat1 (o.sw ^ 2)) = .ok (z', P', ll) ∧
      predictFull z' P' (Spec.mat1 (1 - intDiv v acc tried)) 0 (Spec.mat1 (o.sv ^ 2)) =
        (fun _ => (rsasUpdate v o tried acc pk Pk).1, Spec.mat1 (rsasUpdate v o tried acc pk Pk).2) := by
  have hs : (Spec.mat1 Pk).IsSymm := by ext i j; rfl
  have hr : (Spec.mat1 (o.sw ^ 2)).IsSymm := by ext i j; rfl
  have hS : Spec.mat1 tried * Spec.mat1 Pk * (Spec.mat1 tried)ᵀ + Spec.mat1 (o.sw ^ 2) =
      Spec.mat1 ((tried : ℝ) * tried * Pk + o.sw * o.sw) := by
    ext i j; simp [Spec.mat1, Matrix.mul_apply]; ring
  have hpos : 0 < (tried : ℝ) * tried * Pk + o.sw * o.sw := by
    have : 0 < o.sw * o.sw := mul_self_pos.mpr hsw
    positivity
  have hpd : (Spec.mat1 tried * Spec.mat1 Pk * (Spec.mat1 tried)ᵀ + Spec.mat1 (o.sw ^ 2)).PosDef := by
    rw [hS, posDef_one_iff]; exact hpos
  refine ⟨_, _, _, measureFull_eq hs hr hpd, ?_⟩
  rw [hS, PyPE.inv_one]
  refine Prod.ext ?_ ?_
  · funext i
    simp [predictFull, rsasUpdate, Spec.mat1, mulVec, dotProduct, Matrix.mul_apply, Spec.offset]
    left
    field_simp
    simp
  · ext i j
    simp [predictFull, rsasUpdate, Spec.mat1, Matrix.mul_apply]
    field_simp

/-- **C31** In Python 3, one update of the stopping rule after `tried` proposals of which `acc` were accepted is one measurement update
(`measure_full` with measurement `acc`, `C = tried`, `R = sw²`) followed by one prediction (`predict_full` with
`A = 1 - acc / tried`, `Q = sv²`) of the package's own Kalman filter. -/
theorem C31_stop_rule_is_kalman (o : RsasOpts) (hsw : o.sw ≠ 0) (tried acc : ℕ) (pk Pk : ℝ) (hP : 0 ≤ Pk) :
    ∃ z' P' ll, measureFull (fun _ => (acc : ℝ)) (fun _ => pk) (Spec.mat1 Pk) (some (Spec.mat1 tried)) none
        (Spec.mat1 (o.sw ^ 2)) = .ok (z', P', ll) ∧
      predictFull z' P' (Spec.mat1 (1 - acc / tried)) 0 (Spec.mat1 (o.sv ^ 2)) =
        (fun _ => (rsasUpdate .py3 o tried acc pk Pk).1, Spec.mat1 (rsasUpdate .py3 o tried acc pk Pk).2) :=
  stop_rule_kalman .py3 o hsw tried acc pk Pk hP

/-- **C31** (defect) In Python 2 `ak / mk` is an integer division: as long as something was rejected it is zero, so the prediction of the stopping rule does
not shrink the acceptance rate by the accepted fraction, it leaves it as it is (`A = 1`). -/
theorem C31_stop_rule_python2 (o : RsasOpts) (hsw : o.sw ≠ 0) (tried acc : ℕ) (hacc : acc < tried) (pk Pk : ℝ) (hP : 0 ≤ Pk) :
    (∃ z' P' ll, measureFull (fun _ => (acc : ℝ)) (fun _ => pk) (Spec.mat1 Pk) (some (Spec.mat1 tried)) none
        (Spec.mat1 (o.sw ^ 2)) = .ok (z', P', ll) ∧
      predictFull z' P' 1 0 (Spec.mat1 (o.sv ^ 2)) =
        (fun _ => (rsasUpdate .py2 o tried acc pk Pk).1, Spec.mat1 (rsasUpdate .py2 o tried acc pk Pk).2)) ∧
    (rsasUpdate .py3 o tried acc pk Pk).1 = (1 - acc / tried) * (rsasUpdate .py2 o tried acc pk Pk).1 := by
  constructor
  · obtain ⟨z', P', ll, h1, h2⟩ := stop_rule_kalman .py2 o hsw tried acc pk Pk hP
    refine ⟨z', P', ll, h1, ?_⟩
    rw [intDiv_py2 hacc, sub_zero] at h2
    have e : (1 : Matrix (Fin 1) (Fin 1) ℝ) = Spec.mat1 1 := by ext i j; fin_cases i; fin_cases j; rfl
    rw [e]; exact h2
  · simp only [rsasUpdate, intDiv_py2 hacc, sub_zero, one_mul]
    rfl

/-- With the default options and one of two proposals accepted, the two interpreters disagree: the tracked rate is 3/10 in Python 3 and 3/5 in Python 2. -/
example : (rsasUpdate .py3 ⟨1, 1, 1, 1, 1⟩ (2 : ℕ) (1 : ℕ) 1 1).1 = 3 / 10 ∧ (rsasUpdate .py2 ⟨1, 1, 1, 1, 1⟩ (2 : ℕ) (1 : ℕ) 1 1).1 = 3 / 5 := by
  have h := intDiv_py2 (m := 2) (a := 1) (by norm_num)
  constructor
  · norm_num [rsasUpdate, intDiv]
  · simp only [rsasUpdate, h]; norm_num

example : ∃ o : RsasOpts, o.sw ≠ 0 ∧ o.ratio = 1 := ⟨⟨1, 1, 1, 1, 1⟩, by norm_num, rfl⟩

end PyPE

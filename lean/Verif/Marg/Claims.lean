import Verif.Marg.Gauss
import Verif.Marg.Model
import Verif.Models.MlEmClaims

/-!
# The marginalised smoother carries the likelihood of the future as a function of the linear state
-/

namespace PyPE
open Matrix MeasureTheory ProbabilityTheory

variable {lxi lz ly : ℕ} {U T Y : Type}

/-- `exp(-z'Ωz/2 + Λ'z)`. -/
noncomputable def Spec.expQuad (Ω : MatR lz lz) (Λ : VecR lz) (z : VecR lz) : ℝ := Real.exp (-(1 / 2) * (z ⬝ᵥ Ω *ᵥ z) + Λ ⬝ᵥ z)

/-- `numpy.linalg.svd` is right about every covariance matrix. -/
def Spec.SvdOk (svd : MatR lz lz → MatR lz lz × VecR lz) : Prop := ∀ A, A.PosSemidef → Spec.IsSvd A (svd A).1 (svd A).2

theorem factorPsd_sq {svd : MatR lz lz → MatR lz lz × VecR lz} (hs : Spec.SvdOk svd) {A : MatR lz lz} (hA : A.PosSemidef) :
    factorPsd svd A * (factorPsd svd A)ᵀ = A := svd_factor (hs A hA) hA

theorem expQuad_mul (Ω₁ Ω₂ : MatR lz lz) (Λ₁ Λ₂ z : VecR lz) :
    Spec.expQuad Ω₁ Λ₁ z * Spec.expQuad Ω₂ Λ₂ z = Spec.expQuad (Ω₁ + Ω₂) (Λ₁ + Λ₂) z := by
  unfold Spec.expQuad
  rw [← Real.exp_add, add_mulVec, dotProduct_add, add_dotProduct]
  congr 1; ring

/-- A normal density whose mean is affine in `z`. -/
theorem logNormal_affine {n : ℕ} {S : MatR n n} (hS : S.PosDef) (d : VecR n) (B : MatR n lz) (z : VecR lz) :
    Real.exp (Spec.logNormal S (d - B *ᵥ z)) = Real.exp (Spec.logNormal S d) * Spec.expQuad (Bᵀ * (S⁻¹ * B)) (Bᵀ *ᵥ (S⁻¹ *ᵥ d)) z := by
  have hi : (S⁻¹)ᵀ = S⁻¹ := PosDef.isSymm' hS.inv
  unfold Spec.expQuad Spec.logNormal
  rw [← Real.exp_add]
  congr 1
  have e1 : z ⬝ᵥ (Bᵀ * (S⁻¹ * B)) *ᵥ z = (B *ᵥ z) ⬝ᵥ S⁻¹ *ᵥ (B *ᵥ z) := by
    rw [← mulVec_mulVec, ← mulVec_mulVec, dotProduct_mulVec, vecMul_transpose]
  have e2 : (Bᵀ *ᵥ (S⁻¹ *ᵥ d)) ⬝ᵥ z = (B *ᵥ z) ⬝ᵥ S⁻¹ *ᵥ d := by
    rw [mulVec_transpose, ← dotProduct_mulVec, dotProduct_comm]
  have e3 : d ⬝ᵥ S⁻¹ *ᵥ (B *ᵥ z) = (B *ᵥ z) ⬝ᵥ S⁻¹ *ᵥ d := by rw [← mulVec_dot_symm hi, dotProduct_comm]
  rw [e1, e2]
  simp only [mulVec_sub, dotProduct_sub, sub_dotProduct, e3]
  ring

/-- Prediction: the integral over the next linear state. -/
theorem mg_core {OH F : MatR lz lz} (hO : OH.PosSemidef) (LH fz : VecR lz) (Az : MatR lz lz) (z : VecR lz) :
    ∫ z', Spec.expQuad OH LH z' ∂(Spec.gauss (fz + Az *ᵥ z) (F * Fᵀ)) =
      Real.exp (-(1 / 2) * (Real.log (Fᵀ * OH * F + 1).det + (fz ⬝ᵥ OH *ᵥ fz - 2 * (LH ⬝ᵥ fz) -
        (Fᵀ *ᵥ (LH - OH *ᵥ fz)) ⬝ᵥ (Fᵀ * OH * F + 1)⁻¹ *ᵥ (Fᵀ *ᵥ (LH - OH *ᵥ fz))))) *
      Spec.expQuad (Azᵀ * (OH - OH * (F * ((Fᵀ * OH * F + 1)⁻¹ * Fᵀ)) * OH) * Az)
        (Azᵀ *ᵥ ((1 - OH * (F * ((Fᵀ * OH * F + 1)⁻¹ * Fᵀ))) *ᵥ (LH - OH *ᵥ fz))) z := by
  have hs : OHᵀ = OH := PosSemidef.isSymm' hO
  have hM := mt_posDef hO F
  have hi : ((Fᵀ * OH * F + 1)⁻¹)ᵀ = (Fᵀ * OH * F + 1)⁻¹ := PosDef.isSymm' hM.inv
  unfold Spec.expQuad
  rw [gauss_exp_quad hO, ← Real.exp_add]
  congr 1
  generalize (Fᵀ * OH * F + 1).det = D
  generalize (Fᵀ * OH * F + 1)⁻¹ = N at hi
  have e1 : z ⬝ᵥ (Azᵀ * (OH - OH * (F * (N * Fᵀ)) * OH) * Az) *ᵥ z =
      (Az *ᵥ z) ⬝ᵥ OH *ᵥ (Az *ᵥ z) - (Fᵀ *ᵥ (OH *ᵥ (Az *ᵥ z))) ⬝ᵥ N *ᵥ (Fᵀ *ᵥ (OH *ᵥ (Az *ᵥ z))) := by
    rw [← mulVec_mulVec, ← mulVec_mulVec, dotProduct_mulVec, vecMul_transpose, sub_mulVec, dotProduct_sub]
    congr 1
    simp only [← mulVec_mulVec]
    rw [← mulVec_dot_symm hs, dotProduct_mulVec, ← mulVec_transpose]
  have e2 : (Azᵀ *ᵥ ((1 - OH * (F * (N * Fᵀ))) *ᵥ (LH - OH *ᵥ fz))) ⬝ᵥ z =
      (LH - OH *ᵥ fz) ⬝ᵥ (Az *ᵥ z) - (Fᵀ *ᵥ (OH *ᵥ (Az *ᵥ z))) ⬝ᵥ N *ᵥ (Fᵀ *ᵥ (LH - OH *ᵥ fz)) := by
    rw [mulVec_transpose, ← dotProduct_mulVec, sub_mulVec, one_mulVec, sub_dotProduct]
    congr 1
    simp only [← mulVec_mulVec]
    rw [mulVec_dot_symm hs, dotProduct_comm, dotProduct_mulVec, ← mulVec_transpose]
  have e3 : Fᵀ *ᵥ (LH - OH *ᵥ (fz + Az *ᵥ z)) = Fᵀ *ᵥ (LH - OH *ᵥ fz) - Fᵀ *ᵥ (OH *ᵥ (Az *ᵥ z)) := by
    rw [← mulVec_sub, mulVec_add]; congr 1; abel
  rw [e1, e2, e3]
  generalize Fᵀ *ᵥ (OH *ᵥ (Az *ᵥ z)) = b
  generalize Fᵀ *ᵥ (LH - OH *ᵥ fz) = a
  generalize Az *ᵥ z = w
  have e4 : a ⬝ᵥ N *ᵥ b = b ⬝ᵥ N *ᵥ a := by rw [← mulVec_dot_symm hi, dotProduct_comm]
  have e5 : fz ⬝ᵥ OH *ᵥ w = w ⬝ᵥ OH *ᵥ fz := by rw [← mulVec_dot_symm hs, dotProduct_comm]
  simp only [mulVec_add, mulVec_sub, dotProduct_add, add_dotProduct, dotProduct_sub, sub_dotProduct, e4, e5, mulVec_dot_symm hs]
  ring

/-- `OH - OH F (F'OH F + I)⁻¹ F' OH` is positive semidefinite. -/
theorem mg_psd {OH : MatR lz lz} (hO : OH.PosSemidef) (F : MatR lz lz) :
    (OH - OH * (F * ((Fᵀ * OH * F + 1)⁻¹ * Fᵀ)) * OH).PosSemidef := by
  have hM := mt_posDef hO F
  have hu : IsUnit (Fᵀ * OH * F + 1).det := hM.det_pos.ne'.isUnit
  have h := posterior_posSemidef (P := OH) (C := Fᵀ) (R := 1) (K := OH * F * (Fᵀ * OH * F + 1)⁻¹) hO PosSemidef.one (by
    rw [transpose_transpose, Matrix.mul_assoc, nonsing_inv_mul _ hu, Matrix.mul_one])
  convert h using 2
  simp only [Matrix.mul_assoc]

/-! ## The specification -/

/-- A time step of a trajectory: nonlinear state, input, time stamp and measurement (if any). -/
structure Spec.MgStep (lxi : ℕ) (U T Y : Type) where
  xi : VecR lxi
  u : U
  t : T
  y : Option Y

/-- `p(y | xi, z)`; without a measurement there is nothing to explain. -/
noncomputable def Spec.RbModel.likY (M : Spec.RbModel lxi lz ly U T (Option Y)) (s : Spec.MgStep lxi U T Y) (z : VecR lz) : ℝ :=
  match s.y with
  | none => 1
  | some y => Real.exp (Spec.logNormal (M.R s.xi (some y) s.t) (M.y (some y) s.t - (M.h s.xi (some y) s.t + M.C s.xi (some y) s.t *ᵥ z)))

/-- `p(xi' | xi, z)`. -/
noncomputable def Spec.RbModel.transXi (M : Spec.RbModel lxi lz ly U T Y) (xi : VecR lxi) (u : U) (t : T) (xi' : VecR lxi) (z : VecR lz) : ℝ :=
  Real.exp (Spec.logNormal (M.Qxi xi u t) (xi' - (M.fxi xi u t + M.Axi xi u t *ᵥ z)))

/-- The law of the next linear state. -/
noncomputable def Spec.RbModel.transZ (M : Spec.RbModel lxi lz ly U T Y) (xi : VecR lxi) (u : U) (t : T) (z : VecR lz) : Measure (VecR lz) :=
  Spec.gauss (M.fz xi u t + M.Az xi u t *ᵥ z) (M.Qz xi u t)

/-- The likelihood of the measurements from the first step on and of the nonlinear states after it, given the nonlinear and linear state
of the first step (all later linear states integrated out; independent process noises). -/
noncomputable def Spec.RbModel.futLik (M : Spec.RbModel lxi lz ly U T (Option Y)) : List (Spec.MgStep lxi U T Y) → VecR lz → ℝ
  | [], _ => 1
  | [s], z => M.likY s z
  | s :: s' :: rest, z => M.likY s z * (M.transXi s.xi s.u s.t s'.xi z * ∫ z', M.futLik (s' :: rest) z' ∂(M.transZ s.xi s.u s.t z))

/-- `Omega`, `Lambda` describe the function `f` of the linear state up to a positive factor. -/
structure Spec.MgRepr (f : VecR lz → ℝ) (Ω : MatR lz lz) (Λ : VecR lz) : Prop where
  psd : Ω.PosSemidef
  prop : ∃ c > 0, ∀ z, f z = c * Spec.expQuad Ω Λ z

/-- The dynamics of the class are those of `M` (the part of C72's `RbDescribes` that is not about measurements). -/
structure Spec.RbDynamics (H : MlHooks lxi lz ly U T Y) (o : MlObj lxi lz ly) (M : Spec.RbModel lxi lz ly U T Y) : Prop where
  Axi : ∀ xs u t, Spec.Gives (H.nonlin xs u t).1 o.Axi xs (M.Axi · u t)
  fxi : ∀ xs u t, Spec.Gives (H.nonlin xs u t).2.1 (some o.fxi) xs (M.fxi · u t)
  Qxi : ∀ xs u t, Spec.Gives (H.nonlin xs u t).2.2 o.Qxi xs (M.Qxi · u t)
  Az : ∀ xs u t, Spec.Gives (H.lin xs u t).1 o.kf.A xs (M.Az · u t)
  fz : ∀ xs u t, Spec.Gives (H.lin xs u t).2.1 o.kf.fk xs (M.fz · u t)
  Qz : ∀ xs u t, Spec.Gives (H.lin xs u t).2.2 o.kf.Q xs (M.Qz · u t)
  Qxiz : ∀ xs u t, Spec.GivesOrZero (H.cross xs u t) o.Qxiz xs (M.Qxiz · u t)

theorem Spec.RbDescribes.dynamics {H : MlHooks lxi lz ly U T Y} {o : MlObj lxi lz ly} {M : Spec.RbModel lxi lz ly U T Y} (h : Spec.RbDescribes H o M) :
    Spec.RbDynamics H o M := ⟨h.Axi, h.fxi, h.Qxi, h.Az, h.fz, h.Qz, h.Qxiz⟩

theorem Spec.RbDynamics.nonlin {H : MlHooks lxi lz ly U T Y} {o : MlObj lxi lz ly} {M : Spec.RbModel lxi lz ly U T Y} (hD : Spec.RbDynamics H o M)
    (xs : List (VecR lxi)) (u : U) (t : T) :
    (mlNonlin H o xs u t).A.1 = xs.map (fun x => some (M.Axi x u t)) ∧
    (mlNonlin H o xs u t).f.1 = xs.map (fun x => some (M.fxi x u t)) ∧
    (mlNonlin H o xs u t).Q.1 = xs.map (fun x => some (M.Qxi x u t)) :=
  ⟨perPart_gives (hD.Axi xs u t), perPart_gives (hD.fxi xs u t), perPart_gives (hD.Qxi xs u t)⟩

theorem Spec.RbDynamics.lin {H : MlHooks lxi lz ly U T Y} {o : MlObj lxi lz ly} {M : Spec.RbModel lxi lz ly U T Y} (hD : Spec.RbDynamics H o M)
    (xs : List (VecR lxi)) (u : U) (t : T) :
    (mlLin H o xs u t).A.1 = xs.map (fun x => some (M.Az x u t)) ∧
    (mlLin H o xs u t).f.1 = xs.map (fun x => some (M.fz x u t)) ∧
    (mlLin H o xs u t).Q.1 = xs.map (fun x => some (M.Qz x u t)) :=
  ⟨perPart_gives (hD.Az xs u t), perPart_gives (hD.fz xs u t), perPart_gives (hD.Qz xs u t)⟩

/-- The class implements `M`, in the form needed by the marginalised smoother: `C` and `h` are given, or `h` is and `C` is zero, or there is no measurement and nothing is
given; the process noises are independent, measurements are not preprocessed. -/
structure Spec.MgDescribes (raw : Y → VecR ly) (H : MlHooks lxi lz ly U T (Option Y)) (o : MlObj lxi lz ly)
    (M : Spec.RbModel lxi lz ly U T (Option Y)) : Prop extends Spec.RbDynamics H o M where
  R : ∀ xs y t, Spec.Gives (H.meas xs y t).2.2.2 o.kf.R xs (M.R · y t)
  given : ∀ xs y t, xs ≠ [] → (Spec.Gives (H.meas xs y t).2.1 o.kf.C xs (M.C · y t) ∧ Spec.Gives (H.meas xs y t).2.2.1 o.kf.hk xs (M.h · y t)) ∨
    ((H.meas xs y t).2.1 = none ∧ o.kf.C = none ∧ (∀ x ∈ xs, M.C x y t = 0) ∧
      ((H.meas xs y t).2.2.1 = some (xs.map (M.h · y t)) ∨ (y = none ∧ (H.meas xs y t).2.2.1 = none)))
  Qxiz0 : ∀ x u t, M.Qxiz x u t = 0
  raw : ∀ y t, M.y (some y) t = raw y
  /-- Without a measurement the measurement matrix has to be zero. -/
  none0 : ∀ x t, M.C x none t = 0

/-! ## One step -/

/-- The amount by which `logp_xnext_full` is too small: `m'(I + Qz Ω)⁻¹Qz m` with `m = Λ - Ω fz`. -/
noncomputable def Spec.mgExcess (Qz : MatR lz lz) (fz : VecR lz) (Ω : MatR lz lz) (Λ : VecR lz) : ℝ :=
  (Λ - Ω *ᵥ fz) ⬝ᵥ ((1 + Qz * Ω)⁻¹ * Qz) *ᵥ (Λ - Ω *ᵥ fz)

theorem push_through {OH F : MatR lz lz} (hO : OH.PosSemidef) : F * ((Fᵀ * OH * F + 1)⁻¹ * Fᵀ) = (1 + F * Fᵀ * OH)⁻¹ * (F * Fᵀ) := by
  have hu : IsUnit (Fᵀ * OH * F + 1).det := (mt_posDef hO F).det_pos.ne'.isUnit
  have hd : (1 + F * Fᵀ * OH).det = (Fᵀ * OH * F + 1).det := by
    rw [Matrix.mul_assoc F, det_one_add_mul_comm, add_comm]
  have hu' : IsUnit (1 + F * Fᵀ * OH).det := hd ▸ hu
  have h1 : (1 + F * Fᵀ * OH) * F = F * (Fᵀ * OH * F + 1) := by
    rw [Matrix.add_mul, Matrix.mul_add, Matrix.one_mul, Matrix.mul_one, add_comm]; simp only [Matrix.mul_assoc]
  have h2 : F * (Fᵀ * OH * F + 1)⁻¹ = (1 + F * Fᵀ * OH)⁻¹ * F := by
    calc F * (Fᵀ * OH * F + 1)⁻¹ = (1 + F * Fᵀ * OH)⁻¹ * ((1 + F * Fᵀ * OH) * F) * (Fᵀ * OH * F + 1)⁻¹ := by
          rw [← Matrix.mul_assoc, nonsing_inv_mul _ hu', Matrix.one_mul]
      _ = (1 + F * Fᵀ * OH)⁻¹ * F := by rw [h1, ← Matrix.mul_assoc, Matrix.mul_assoc _ _ (Fᵀ * OH * F + 1)⁻¹, mul_nonsing_inv _ hu, Matrix.mul_one]
  rw [← Matrix.mul_assoc, h2, Matrix.mul_assoc]

theorem excess_eq {OH F : MatR lz lz} (hO : OH.PosSemidef) (LH fz : VecR lz) :
    (Fᵀ *ᵥ (LH - OH *ᵥ fz)) ⬝ᵥ (Fᵀ * OH * F + 1)⁻¹ *ᵥ (Fᵀ *ᵥ (LH - OH *ᵥ fz)) = Spec.mgExcess (F * Fᵀ) fz OH LH := by
  unfold Spec.mgExcess
  rw [← push_through hO, mulVec_transpose, ← dotProduct_mulVec, ← mulVec_transpose, mulVec_mulVec, mulVec_mulVec, Matrix.mul_assoc]

/-- `calc_prop1` for one particle. -/
theorem mgProp1One_ok {svd : MatR lz lz → MatR lz lz × VecR lz} (hs : Spec.SvdOk svd) (x : MgN 1 lz) (hO : x.2.1.PosSemidef)
    (Az : MatR lz lz) (fz : VecR lz) {Qz : MatR lz lz} (hQz : Qz.PosSemidef) (Axi : MatR 1 lz) (fxi : VecR 1) {Qxi : MatR 1 1}
    (hQxi : Qxi.PosDef) :
    ∃ lZ Ω Λ, mgProp1One svd x Az fz Qz Axi fxi Qxi = .ok (lZ, Ω, Λ) ∧ Ω.PosSemidef ∧
      ∀ z, Real.exp (Spec.logNormal Qxi (x.1 - (fxi + Axi *ᵥ z))) * ∫ z', Spec.expQuad x.2.1 x.2.2 z' ∂(Spec.gauss (fz + Az *ᵥ z) Qz) =
        Real.exp (lZ + Spec.mgExcess Qz fz x.2.1 x.2.2 - 1 / 2 * Real.log (2 * Real.pi)) * Spec.expQuad Ω Λ z := by
  obtain ⟨xi, OH, LH⟩ := x
  simp only at hO ⊢
  have hF := factorPsd_sq hs hQz
  have hM : ((factorPsd svd Qz)ᵀ * OH * factorPsd svd Qz + 1).PosDef := mt_posDef hO _
  have hMd : ((factorPsd svd Qz)ᵀ * OH * factorPsd svd Qz + 1).det ≠ 0 := hM.det_pos.ne'
  have hQd : Qxi.det ≠ 0 := hQxi.det_pos.ne'
  refine ⟨_, _, _, by simp only [mgProp1One, npSolveV, npSolveM, if_neg hMd, if_neg hQd, if_true, ok_bind]; rfl, ?_, fun z => ?_⟩
  · refine PosSemidef.add ?_ ?_
    · have := posSemidef_conj (mg_psd hO (factorPsd svd Qz)) Azᵀ
      rwa [transpose_transpose] at this
    · have := posSemidef_conj hQxi.inv.posSemidef Axiᵀ
      rw [transpose_transpose, Matrix.mul_assoc] at this
      exact this
  · have h1 := mg_core (F := factorPsd svd Qz) hO LH fz Az z
    rw [hF] at h1
    rw [h1, ← sub_sub, logNormal_affine hQxi, ← expQuad_mul, excess_eq hO, hF]
    have hcomm : ∀ a b c d : ℝ, a * b * (c * d) = (a * c) * (d * b) := by intros; ring
    rw [hcomm, ← Real.exp_add]
    congr 1
    unfold Spec.logNormal
    rw [abs_of_pos hM.det_pos, abs_of_pos hQxi.det_pos]
    congr 1
    simp only [Nat.cast_one]
    ring

theorem getIdx_xs {β : Type} {parts : List (RbP lxi lz)} {l : List β} {g : VecR lxi → β} (h : l = (xisOf parts).map g) {i : ℕ} {p : RbP lxi lz}
    (hp : parts[i]? = some p) : getIdx l i = .ok (g p.1) := by
  subst h
  rw [getIdx_ok]
  simp [xisOf, hp]

/-- `calc_prop1` for the whole array. -/
theorem mgProp1_ok {svd : MatR lz lz → MatR lz lz × VecR lz} (hs : Spec.SvdOk svd) {H : MlHooks 1 lz ly U T Y} {o : MlObj 1 lz ly}
    {M : Spec.RbModel 1 lz ly U T Y} (hD : Spec.RbDynamics H o M) (hG : M.Good) (parts : List (RbP 1 lz)) (next : List (MgN 1 lz))
    (hlen : next.length = parts.length) (hO : ∀ x ∈ next, x.2.1.PosSemidef) (u : U) (t : T) :
    ∃ q, mgProp1 svd H o parts next u t = .ok q ∧ q.length = parts.length ∧ ∀ (i : ℕ) p x, parts[i]? = some p → next[i]? = some x →
      ∃ lZ Ω Λ, q[i]? = some (lZ, Ω, Λ) ∧ Ω.PosSemidef ∧ ∀ z, M.transXi p.1 u t x.1 z * ∫ z', Spec.expQuad x.2.1 x.2.2 z' ∂(M.transZ p.1 u t z) =
        Real.exp (lZ + Spec.mgExcess (M.Qz p.1 u t) (M.fz p.1 u t) x.2.1 x.2.2 - 1 / 2 * Real.log (2 * Real.pi)) * Spec.expQuad Ω Λ z := by
  have key : ∀ (i : ℕ) p, parts[i]? = some p → ∃ x, next[i]? = some x ∧ x.2.1.PosSemidef := by
    intro i p hp
    have hi : i < next.length := by rw [hlen]; exact lt_of_getElem?_some hp
    exact ⟨next[i], List.getElem?_eq_getElem hi, hO _ (List.getElem_mem hi)⟩
  obtain ⟨hA, hf, hQ⟩ := hD.lin (xisOf parts) u t
  obtain ⟨hA', hf', hQ'⟩ := hD.nonlin (xisOf parts) u t
  have hpt : ∀ (i : ℕ) p, parts[i]? = some p → ∃ x lZ Ω Λ, next[i]? = some x ∧ (do
      let x ← getIdx next i
      let Az ← getIdx (mlLin H o (xisOf parts) u t).A.1 i
      let fz ← getIdx (mlLin H o (xisOf parts) u t).f.1 i
      let Qz ← getIdx (mlLin H o (xisOf parts) u t).Q.1 i
      let Axi ← getIdx (mlNonlin H o (xisOf parts) u t).A.1 i
      let fxi ← getIdx (mlNonlin H o (xisOf parts) u t).f.1 i
      let Qxi ← getIdx (mlNonlin H o (xisOf parts) u t).Q.1 i
      mgProp1Opt svd x Az fz Qz Axi fxi Qxi) = .ok (lZ, Ω, Λ) ∧ Ω.PosSemidef ∧
      ∀ z, M.transXi p.1 u t x.1 z * ∫ z', Spec.expQuad x.2.1 x.2.2 z' ∂(M.transZ p.1 u t z) =
        Real.exp (lZ + Spec.mgExcess (M.Qz p.1 u t) (M.fz p.1 u t) x.2.1 x.2.2 - 1 / 2 * Real.log (2 * Real.pi)) * Spec.expQuad Ω Λ z := by
    intro i p hp
    obtain ⟨x, hx, hxO⟩ := key i p hp
    obtain ⟨lZ, Ω, Λ, h1, h2, h3⟩ := mgProp1One_ok hs x hxO (M.Az p.1 u t) (M.fz p.1 u t) (hG.Qz p.1 u t) (M.Axi p.1 u t) (M.fxi p.1 u t)
      (hG.Qxi p.1 u t)
    refine ⟨x, lZ, Ω, Λ, hx, ?_, h2, h3⟩
    rw [getIdx_ok.2 hx, ok_bind, getIdx_xs hA hp, ok_bind, getIdx_xs hf hp, ok_bind, getIdx_xs hQ hp, ok_bind, getIdx_xs hA' hp, ok_bind,
      getIdx_xs hf' hp, ok_bind, getIdx_xs hQ' hp, ok_bind]
    exact h1
  choose! X lZ Ω Λ hX h1 h2 h3 using hpt
  obtain ⟨q, hq, hql, hqi⟩ := mapM_points parts _ (fun i p => (lZ i p, Ω i p, Λ i p)) h1
  refine ⟨q, by simp only [mgProp1, if_pos hlen]; exact hq, hql, fun i p x hp hx => ?_⟩
  have : X i p = x := by have := hX i p hp; rw [hx] at this; exact (Option.some.inj this).symm
  subst this
  exact ⟨_, _, _, hqi i p hp, h2 i p hp, h3 i p hp⟩

/-! ## The measurement -/

theorem mgMeasOne_some {w : MatR lz lz × VecR lz} (hw : w.1.PosSemidef) (C : MatR ly lz) (h : VecR ly) {R : MatR ly ly} (hR : R.PosDef)
    (y : VecR ly) : ∃ Ω Λ, mgMeasOne w (some C) (some h) (some R) (some y) = .ok (Ω, Λ) ∧ Ω.PosSemidef ∧
      ∀ z, Real.exp (Spec.logNormal R (y - (h + C *ᵥ z))) * Spec.expQuad w.1 w.2 z =
        Real.exp (Spec.logNormal R (y - h)) * Spec.expQuad Ω Λ z := by
  have hd : R.det ≠ 0 := hR.det_pos.ne'
  refine ⟨_, _, by simp only [mgMeasOne, npSolveM, if_neg hd, ok_bind]; rfl, ?_, fun z => ?_⟩
  · refine hw.add ?_
    have := posSemidef_conj hR.inv.posSemidef Cᵀ
    rwa [transpose_transpose, Matrix.mul_assoc] at this
  · rw [← sub_sub, logNormal_affine hR, mul_assoc, expQuad_mul, add_comm _ w.1, add_comm _ w.2, transpose_mul, PosDef.isSymm' hR.inv,
      mulVec_mulVec]

theorem mgMeasOne_none {w : MatR lz lz × VecR lz} (h : Option (VecR ly)) {R : MatR ly ly} (hR : R.PosDef) :
    mgMeasOne w (some (0 : MatR ly lz)) h (some R) none = .ok w := by
  have hd : R.det ≠ 0 := hR.det_pos.ne'
  simp only [mgMeasOne, npSolveM, if_neg hd, ok_bind, transpose_zero, Matrix.zero_mul, add_zero]
  rfl

/-- `p(xi', rest | xi, z)` where the rest after `xi'` has likelihood `f`. -/
noncomputable def Spec.RbModel.nextLik (M : Spec.RbModel lxi lz ly U T Y) (xi : VecR lxi) (u : U) (t : T) (xi' : VecR lxi) (f : VecR lz → ℝ)
    (z : VecR lz) : ℝ :=
  M.transXi xi u t xi' z * ∫ z', f z' ∂(M.transZ xi u t z)

/-- The statistics that `sample_smooth` predicts from the next time step. -/
theorem mgPred_ok {svd : MatR lz lz → MatR lz lz × VecR lz} (hs : Spec.SvdOk svd) {H : MlHooks 1 lz ly U T Y} {o : MlObj 1 lz ly}
    {M : Spec.RbModel 1 lz ly U T Y} (hD : Spec.RbDynamics H o M) (hG : M.Good) (parts : List (RbP 1 lz)) (fut : List (MgN 1 lz))
    (find : List ℕ) (hlen : find.length = parts.length) (hfind : ∀ k ∈ find, k < fut.length) (f : ℕ → VecR lz → ℝ)
    (hf : ∀ (k : ℕ) x, fut[k]? = some x → Spec.MgRepr (f k) x.2.1 x.2.2) (u : U) (t : T) :
    ∃ w, mgPred svd H o parts (some fut) find u t = .ok w ∧ ∀ (i : ℕ) p, parts[i]? = some p → ∃ k x Ω Λ, find[i]? = some k ∧
      fut[k]? = some x ∧ w[i]? = some (Ω, Λ) ∧ Spec.MgRepr (M.nextLik p.1 u t x.1 (f k)) Ω Λ := by
  obtain ⟨next, hn⟩ := fancy_ok hfind
  obtain ⟨hnl, hni⟩ := fancy_spec.1 hn
  have hO : ∀ x ∈ next, x.2.1.PosSemidef := by
    intro x hx
    obtain ⟨j, hj⟩ := List.getElem?_of_mem hx
    have hjl : j < find.length := by rw [← hnl]; exact lt_of_getElem?_some hj
    have := (hni j find[j] (List.getElem?_eq_getElem hjl)).1
    exact (hf _ x (this.trans hj)).psd
  obtain ⟨q, hq, hql, hqi⟩ := mgProp1_ok hs hD hG parts next (hnl.trans hlen) hO u t
  refine ⟨_, by simp only [mgPred, hn, hq, ok_bind]; rfl, fun i p hp => ?_⟩
  have hi : i < find.length := by rw [hlen]; exact lt_of_getElem?_some hp
  have hk := hni i find[i] (List.getElem?_eq_getElem hi)
  have hx : next[i]? = some fut[find[i]] := by rw [← hk.1]; exact List.getElem?_eq_getElem hk.2
  obtain ⟨lZ, Ω, Λ, h1, h2, h3⟩ := hqi i p _ hp hx
  obtain ⟨hps, c, hc, hc'⟩ := hf find[i] _ (List.getElem?_eq_getElem hk.2)
  refine ⟨find[i], fut[find[i]], Ω, Λ, List.getElem?_eq_getElem hi, List.getElem?_eq_getElem hk.2, by simp [h1], h2, c * Real.exp (lZ + Spec.mgExcess (M.Qz p.1 u t) (M.fz p.1 u t) fut[find[i]].2.1 fut[find[i]].2.2 - 1 / 2 * Real.log (2 * Real.pi)),
    mul_pos hc (Real.exp_pos _), fun z => ?_⟩
  unfold Spec.RbModel.nextLik
  simp only [hc']
  rw [integral_const_mul, mul_left_comm, h3 z, mul_assoc]

/-- `p(y | xi, z)` times the likelihood of the rest. -/
theorem mgMeas_repr {raw : Y → VecR ly} {H : MlHooks lxi lz ly U T (Option Y)} {o : MlObj lxi lz ly}
    {M : Spec.RbModel lxi lz ly U T (Option Y)} (hD : Spec.MgDescribes raw H o M) (hG : M.Good) (parts : List (RbP lxi lz))
    (hne : parts ≠ []) (w : List (MatR lz lz × VecR lz)) (u : U) (y : Option Y) (t : T) (f : ℕ → VecR lz → ℝ)
    (hw : ∀ (i : ℕ) p, parts[i]? = some p → ∃ Ω Λ, w[i]? = some (Ω, Λ) ∧ Spec.MgRepr (f i) Ω Λ) :
    ∃ d r, mlMeasDyn H o (xisOf parts) y t = .ok d ∧ (List.range parts.length).mapM (fun j => do
        let p ← getIdx parts j
        let w ← getIdx w j
        let C ← getIdx d.2.A.1 j
        let h ← getIdx d.2.f.1 j
        let R ← getIdx d.2.Q.1 j
        let r ← mgMeasOne w C h R (y.map raw)
        return (p.1, r)) = .ok r ∧ r.length = parts.length ∧
      ∀ (i : ℕ) p, parts[i]? = some p → ∃ Ω Λ, r[i]? = some (p.1, Ω, Λ) ∧ Spec.MgRepr (fun z => M.likY ⟨p.1, u, t, y⟩ z * f i z) Ω Λ := by
  have hxne : xisOf parts ≠ [] := by simpa [xisOf] using hne
  have hdyn : ∃ d, mlMeasDyn H o (xisOf parts) y t = .ok d ∧ d.2.Q.1 = ((xisOf parts).map fun x => some (M.R x y t)) ∧
      ((d.2.A.1 = ((xisOf parts).map fun x => some (M.C x y t)) ∧ d.2.f.1 = ((xisOf parts).map fun x => some (M.h x y t))) ∨
        (y = none ∧ d.2.A.1 = ((xisOf parts).map fun _ => none) ∧ d.2.f.1 = ((xisOf parts).map fun _ => o.kf.hk))) := by
    have hR := perPart_gives (hD.R (xisOf parts) y t)
    rcases hD.given (xisOf parts) y t hxne with ⟨hC, hh⟩ | ⟨hc, hk, h0, hh⟩
    · replace hh := perPart_gives hh
      cases hc : (H.meas (xisOf parts) y t).2.1 with
      | some C =>
        rw [hc] at hC
        simp only [Spec.Gives] at hC
        exact ⟨(_, ⟨(C.map some, false), _, _⟩), by simp only [mlMeasDyn, hc]; rfl, hR, .inl ⟨by simp [hC], hh⟩⟩
      | none =>
        rw [hc] at hC
        simp only [Spec.Gives] at hC
        have hP := perPart_gives (hook := none) hC
        obtain ⟨p, hp⟩ := List.exists_mem_of_ne_nil _ hne
        have hk := hC p.1 (List.mem_map_of_mem hp)
        refine ⟨(_, ⟨(List.replicate (xisOf parts).length (some (M.C p.1 y t)), true), _, _⟩),
          by simp only [mlMeasDyn, hc, mlDefaultC, hk, ok_bind]; rfl, hR, .inl ⟨?_, hh⟩⟩
        simp only [perPart, hk] at hP
        exact hP
    · rcases hh with hh | ⟨rfl, hh⟩
      · have hdc : mlDefaultC o (xisOf parts).length (H.meas (xisOf parts) y t).2.2.1 = .ok (List.replicate (xisOf parts).length (some 0)) := by
          cases hm : (xisOf parts).map (M.h · y t) with
          | nil => exact absurd (List.map_eq_nil_iff.mp hm) hxne
          | cons a l => simp only [mlDefaultC, hk, hh, hm]
        refine ⟨(_, ⟨(List.replicate (xisOf parts).length (some 0), true), _, _⟩),
          by simp only [mlMeasDyn, hc, hdc, ok_bind]; rfl, hR, .inl ⟨?_, ?_⟩⟩
        · rw [← List.map_const']
          exact List.map_congr_left fun x hx => by rw [h0 x hx]
        · simp only [perPart, hh, List.map_map]
          rfl
      · refine ⟨(_, ⟨(List.replicate (xisOf parts).length none, true), _, _⟩),
          by simp only [mlMeasDyn, hc, mlDefaultC, hk, hh, ok_bind]; rfl, hR, .inr ⟨rfl, ?_, ?_⟩⟩
        · simp [List.map_const']
        · simp [perPart, hh, List.map_const']
  obtain ⟨d, hd, hQ, hAf⟩ := hdyn
  have hpt : ∀ (i : ℕ) p, parts[i]? = some p → ∃ r, (do
        let p ← getIdx parts i
        let w ← getIdx w i
        let C ← getIdx d.2.A.1 i
        let h ← getIdx d.2.f.1 i
        let R ← getIdx d.2.Q.1 i
        let r ← mgMeasOne w C h R (y.map raw)
        return (p.1, r) : PyM (MgN lxi lz)) = .ok r ∧ ∃ Ω Λ, r = (p.1, Ω, Λ) ∧
          Spec.MgRepr (fun z => M.likY ⟨p.1, u, t, y⟩ z * f i z) Ω Λ := by
    intro i p hp
    obtain ⟨Ω, Λ, hwi, hps, c, hc, hc'⟩ := hw i p hp
    rw [getIdx_ok.2 hp, ok_bind, getIdx_ok.2 hwi, ok_bind]
    rcases hAf with ⟨hA, hf⟩ | ⟨rfl, hA, hf⟩
    swap
    · rw [getIdx_xs hA hp, ok_bind, getIdx_xs hf hp, ok_bind, getIdx_xs hQ hp, ok_bind]
      refine ⟨(p.1, Ω, Λ), rfl, Ω, Λ, rfl, hps, c, hc, fun z => ?_⟩
      simp only [Spec.RbModel.likY, one_mul, hc']
    rw [getIdx_xs hA hp, ok_bind, getIdx_xs hf hp, ok_bind, getIdx_xs hQ hp, ok_bind]
    cases y with
    | none =>
      rw [hD.none0, Option.map_none, mgMeasOne_none _ (hG.R _ _ _), ok_bind]
      refine ⟨_, rfl, Ω, Λ, rfl, hps, c, hc, fun z => ?_⟩
      simp only [Spec.RbModel.likY, one_mul, hc']
    | some y =>
      obtain ⟨Ω', Λ', h1, h2, h3⟩ := mgMeasOne_some (w := (Ω, Λ)) hps (M.C p.1 (some y) t) (M.h p.1 (some y) t) (hG.R p.1 (some y) t) (raw y)
      rw [Option.map_some, h1, ok_bind]
      refine ⟨_, rfl, Ω', Λ', rfl, h2, c * Real.exp (Spec.logNormal (M.R p.1 (some y) t) (raw y - M.h p.1 (some y) t)),
        mul_pos hc (Real.exp_pos _), fun z => ?_⟩
      simp only [Spec.RbModel.likY, hc', hD.raw]
      rw [mul_left_comm, h3, mul_assoc]
  choose! g hg hg' using hpt
  obtain ⟨r, hr, hrl, hri⟩ := mapM_points parts _ g hg
  refine ⟨d, r, hd, hr, hrl, fun i p hp => ?_⟩
  obtain ⟨Ω, Λ, h1, h2⟩ := hg' i p hp
  exact ⟨Ω, Λ, by rw [hri i p hp, h1], h2⟩

/-! ## The backward pass -/

/-- `sample_smooth` at the last time step. -/
theorem mgSampleSmooth_last (svd : MatR lz lz → MatR lz lz × VecR lz) {raw : Y → VecR ly} {H : MlHooks lxi lz ly U T (Option Y)}
    {o : MlObj lxi lz ly} {M : Spec.RbModel lxi lz ly U T (Option Y)} (hD : Spec.MgDescribes raw H o M) (hG : M.Good)
    (parts : List (RbP lxi lz)) (hne : parts ≠ []) (find : List ℕ) (u : U) (y : Option Y) (t : T) :
    ∃ r, mgSampleSmooth svd raw H o parts none find u y t = .ok r ∧ r.length = parts.length ∧
      ∀ (i : ℕ) p, parts[i]? = some p → ∃ Ω Λ, r[i]? = some (p.1, Ω, Λ) ∧ Spec.MgRepr (M.likY ⟨p.1, u, t, y⟩) Ω Λ := by
  obtain ⟨d, r, h1, h2, h3, h4⟩ := mgMeas_repr hD hG parts hne (parts.map fun _ => (0, 0)) u y t (fun _ _ => 1) (by
    intro i p hp
    exact ⟨0, 0, by simp [lt_of_getElem?_some hp], PosSemidef.zero, 1, one_pos, fun z => by simp [Spec.expQuad]⟩)
  refine ⟨r, by simp only [mgSampleSmooth, mgPred, ok_bind, h1]; exact h2, h3, fun i p hp => ?_⟩
  obtain ⟨Ω, Λ, h5, h6⟩ := h4 i p hp
  simp only [mul_one] at h6
  exact ⟨Ω, Λ, h5, h6⟩

/-- **C84** One backward step of the marginalised smoother: if the stored statistics of every trajectory describe (up to a positive factor)
the likelihood of its future as a function of the linear state, then so do the new ones. -/
theorem C84_sample_smooth {svd : MatR lz lz → MatR lz lz × VecR lz} (hs : Spec.SvdOk svd) {raw : Y → VecR ly}
    {H : MlHooks 1 lz ly U T (Option Y)} {o : MlObj 1 lz ly} {M : Spec.RbModel 1 lz ly U T (Option Y)} (hD : Spec.MgDescribes raw H o M)
    (hG : M.Good) (parts : List (RbP 1 lz)) (hne : parts ≠ []) (fut : List (MgN 1 lz)) (find : List ℕ) (hlen : find.length = parts.length)
    (hfind : ∀ k ∈ find, k < fut.length) (f : ℕ → VecR lz → ℝ) (hf : ∀ (k : ℕ) x, fut[k]? = some x → Spec.MgRepr (f k) x.2.1 x.2.2)
    (u : U) (y : Option Y) (t : T) :
    ∃ r, mgSampleSmooth svd raw H o parts (some fut) find u y t = .ok r ∧ r.length = parts.length ∧
      ∀ (i : ℕ) p, parts[i]? = some p → ∃ k x Ω Λ, find[i]? = some k ∧ fut[k]? = some x ∧ r[i]? = some (p.1, Ω, Λ) ∧
        Spec.MgRepr (fun z => M.likY ⟨p.1, u, t, y⟩ z * (M.transXi p.1 u t x.1 z * ∫ z', f k z' ∂(M.transZ p.1 u t z))) Ω Λ := by
  obtain ⟨w, hw, hwi⟩ := mgPred_ok hs hD.toRbDynamics hG parts fut find hlen hfind f hf u t
  have hwi' : ∀ (i : ℕ) p, parts[i]? = some p → ∃ k x, find[i]? = some k ∧ fut[k]? = some x ∧ ∃ Ω Λ, w[i]? = some (Ω, Λ) ∧
      Spec.MgRepr (M.nextLik p.1 u t x.1 (f k)) Ω Λ := by
    intro i p hp
    obtain ⟨k, x, Ω, Λ, a, b, c, d⟩ := hwi i p hp
    exact ⟨k, x, a, b, Ω, Λ, c, d⟩
  have hg : ∀ i : ℕ, ∃ g : VecR lz → ℝ, ∀ p, parts[i]? = some p → ∃ k x, find[i]? = some k ∧ fut[k]? = some x ∧ g = M.nextLik p.1 u t x.1 (f k) ∧
      ∃ Ω Λ, w[i]? = some (Ω, Λ) ∧ Spec.MgRepr g Ω Λ := by
    intro i
    cases hp : parts[i]? with
    | none => exact ⟨0, fun p h => by simp at h⟩
    | some p =>
      obtain ⟨k, x, a, b, c⟩ := hwi' i p hp
      refine ⟨M.nextLik p.1 u t x.1 (f k), fun p' h => ?_⟩
      cases h
      exact ⟨k, x, a, b, rfl, c⟩
  choose g hg using hg
  obtain ⟨d, r, h1, h2, h3, h4⟩ := mgMeas_repr hD hG parts hne w u y t g (fun i p hp => by
    obtain ⟨_, _, _, _, _, h⟩ := hg i p hp
    exact h)
  refine ⟨r, by simp only [mgSampleSmooth, hw, ok_bind, h1]; exact h2, h3, fun i p hp => ?_⟩
  obtain ⟨k, x, a, b, c, _⟩ := hg i p hp
  obtain ⟨Ω, Λ, h5, h6⟩ := h4 i p hp
  rw [c] at h6
  exact ⟨k, x, Ω, Λ, a, b, h5, h6⟩

/-- Trajectory `i`: the nonlinear states found by following the indices of the continuations. -/
def Spec.mgTraj : List (MgTime lxi lz U T Y) → ℕ → Option (List (Spec.MgStep lxi U T Y))
  | [], _ => none
  | [τ], i => τ.parts[i]?.map fun p => [⟨p.1, τ.u, τ.t, τ.y⟩]
  | τ :: τ' :: rest, i => do
    let p ← τ.parts[i]?
    let k ← τ.find[i]?
    let tail ← Spec.mgTraj (τ' :: rest) k
    return ⟨p.1, τ.u, τ.t, τ.y⟩ :: tail

/-- Every trajectory has a continuation. -/
def Spec.MgLinked : List (MgTime lxi lz U T Y) → Prop
  | [] => True
  | [τ] => τ.parts ≠ []
  | τ :: τ' :: rest => τ.parts ≠ [] ∧ τ.find.length = τ.parts.length ∧ (∀ k ∈ τ.find, k < τ'.parts.length) ∧ Spec.MgLinked (τ' :: rest)

/-- **C84** The whole backward pass: for any number of time steps, trajectories and measurements (present or missing), the statistics stored for
trajectory `i` describe, up to a positive factor, `p(y_t, xi_{t+1}, y_{t+1}, ..., xi_T, y_T | xi_t, z_t)` as a function of `z_t`, where
`xi_t, ..., xi_T` is that trajectory. -/
theorem C84_backward_pass {svd : MatR lz lz → MatR lz lz × VecR lz} (hs : Spec.SvdOk svd) {raw : Y → VecR ly}
    {H : MlHooks 1 lz ly U T (Option Y)} {o : MlObj 1 lz ly} {M : Spec.RbModel 1 lz ly U T (Option Y)} (hD : Spec.MgDescribes raw H o M)
    (hG : M.Good) (τs : List (MgTime 1 lz U T Y)) (hne : τs ≠ []) (hL : Spec.MgLinked τs) :
    ∃ r, mgBackward svd raw H o τs = .ok r ∧ (∀ τ, τs.head? = some τ → r.length = τ.parts.length) ∧
      ∀ i, i < r.length → ∃ s rest Ω Λ, Spec.mgTraj τs i = some (s :: rest) ∧ r[i]? = some (s.xi, Ω, Λ) ∧
        Spec.MgRepr (M.futLik (s :: rest)) Ω Λ := by
  induction τs with
  | nil => exact absurd rfl hne
  | cons τ l ih =>
    cases l with
    | nil =>
      obtain ⟨r, h1, h2, h3⟩ := mgSampleSmooth_last svd hD hG τ.parts hL τ.find τ.u τ.y τ.t
      refine ⟨r, h1, fun _ h => by cases h; exact h2, fun i hi => ?_⟩
      rw [h2] at hi
      obtain ⟨Ω, Λ, h4, h5⟩ := h3 i _ (List.getElem?_eq_getElem hi)
      refine ⟨⟨τ.parts[i].1, τ.u, τ.t, τ.y⟩, [], Ω, Λ, by simp [Spec.mgTraj, hi], h4, ?_⟩
      exact h5
    | cons τ' rest =>
      obtain ⟨hp, hfl, hfi, hL'⟩ := hL
      obtain ⟨fut, h1, h2, h3⟩ := ih (by simp) hL'
      have hfl' : fut.length = τ'.parts.length := h2 τ' rfl
      have h3' : ∀ k : ℕ, ∃ f : VecR lz → ℝ, ∀ x, fut[k]? = some x → ∃ s tl Ω Λ, Spec.mgTraj (τ' :: rest) k = some (s :: tl) ∧ x = (s.xi, Ω, Λ) ∧
          f = M.futLik (s :: tl) ∧ Spec.MgRepr f Ω Λ := by
        intro k
        by_cases hk : k < fut.length
        · obtain ⟨s, tl, Ω, Λ, a, b, c⟩ := h3 k hk
          refine ⟨_, fun x hx => ⟨s, tl, Ω, Λ, a, ?_, rfl, c⟩⟩
          rw [b] at hx; exact (Option.some.inj hx).symm
        · exact ⟨0, fun x hx => absurd (lt_of_getElem?_some hx) hk⟩
      choose f hf using h3'
      obtain ⟨r, h4, h5, h6⟩ := C84_sample_smooth hs hD hG τ.parts hp fut τ.find hfl (fun k hk => by rw [hfl']; exact hfi k hk) f
        (fun k x hx => by
          obtain ⟨s, tl, Ω, Λ, _, b, _, d⟩ := hf k x hx
          rw [b]; exact d) τ.u τ.y τ.t
      refine ⟨r, by simp only [mgBackward, h1, ok_bind]; exact h4, fun _ h => by cases h; exact h5, fun i hi => ?_⟩
      rw [h5] at hi
      obtain ⟨k, x, Ω, Λ, a, b, c, d⟩ := h6 i _ (List.getElem?_eq_getElem hi)
      obtain ⟨s, tl, _, _, e1, e2, e3, _⟩ := hf k x b
      refine ⟨⟨τ.parts[i].1, τ.u, τ.t, τ.y⟩, s :: tl, Ω, Λ, ?_, c, ?_⟩
      · simp [Spec.mgTraj, hi, a, e1]
      · rw [e3, e2] at d
        exact d

end PyPE

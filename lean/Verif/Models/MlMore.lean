import Verif.Models.MlClaims
import Verif.Models.MlToy
import Verif.Models.NlgClaims

/-!
# More about mixed linear/nonlinear models

`cond_predict` (C72), `set_dynamics` (C43), initial state of nonlinear Gaussian models (C47).
-/

namespace PyPE
open Matrix MeasureTheory ProbabilityTheory

variable {lxi lz ly n : ℕ} {U T Y : Type}

/-- **C72** `cond_predict` with any number of nonlinear states: particle `i` becomes `xi_next[i]` together with the exact conditional law of the next
linear state given that the next nonlinear state is `xi_next[i]`. -/
theorem C72_cond_predict {H : MlHooks lxi lz ly U T Y} {o : MlObj lxi lz ly} {M : Spec.RbModel lxi lz ly U T Y}
    (hD : Spec.RbDescribes H o M) (hG : M.Good) (parts : List (RbP lxi lz)) (hP : ∀ p ∈ parts, p.2.2.PosSemidef) (xiN : List (VecR lxi))
    (hl : xiN.length = parts.length) (u : U) (t : T) :
    ∃ r, mlCondPredict H o parts xiN u t = .ok r ∧ r.length = parts.length ∧ ∀ (i : ℕ) p x, parts[i]? = some p → xiN[i]? = some x →
      ∃ (mean : VecR lxi → VecR lz) (cov : MatR lz lz), cov.PosSemidef ∧ r[i]? = some (x, mean x, cov) ∧
        Spec.IsCondLaw (M.step p u t) (fun x => Spec.gauss (mean x) cov) := by
  obtain ⟨r, hr, hrl, hri⟩ := mlCondPredict_good hD hG parts hP xiN hl u t
  refine ⟨r, hr, hrl, fun i p x hp hx => ?_⟩
  have hPp := hP p (List.mem_of_getElem? hp)
  have hS : (M.Axi p.1 u t * p.2.2 * (M.Axi p.1 u t)ᵀ + M.Qxi p.1 u t).PosDef :=
    Matrix.PosDef.posSemidef_add (posSemidef_conj hPp _) (hG.Qxi p.1 u t)
  set S := M.Axi p.1 u t * p.2.2 * (M.Axi p.1 u t)ᵀ + M.Qxi p.1 u t with hSdef
  set K := p.2.2 * (M.Axi p.1 u t)ᵀ * S⁻¹ with hKdef
  have hK : K * S = p.2.2 * (M.Axi p.1 u t)ᵀ := by
    rw [hKdef, Matrix.mul_assoc, nonsing_inv_mul _ hS.det_pos.ne'.isUnit, Matrix.mul_one]
  have hV := posterior_posSemidef hPp (hG.Qxi p.1 u t).posSemidef hK
  have hcov := (posSemidef_conj hV (M.condA p.1 u t)).add (hG.Qz p.1 u t)
  have hcF : Measurable (M.condF p.1 u t) := Continuous.measurable (by unfold Spec.RbModel.condF; fun_prop)
  have hmean : Measurable fun x : VecR lxi => M.condF p.1 u t x + (0 + M.condA p.1 u t *ᵥ (p.2.1 -
      K *ᵥ (M.Axi p.1 u t *ᵥ p.2.1 + M.fxi p.1 u t) + K *ᵥ x)) := hcF.add (Continuous.measurable (by fun_prop))
  have hst := step_eq M hG p hPp u t hK
  obtain ⟨h1, h2⟩ := normalGiven_cond (ν := Spec.gauss (M.Axi p.1 u t *ᵥ p.2.1 + M.fxi p.1 u t) S) hmean hcov
  rw [← hst] at h1 h2
  refine ⟨_, _, hcov, ?_, h2⟩
  obtain ⟨z1, P1, dl, e1, e2, e3⟩ := hri i p x hp hx
  rw [e3]
  rw [measureFull_eq (PosSemidef.isSymm' hPp) (PosDef.isSymm' (hG.Qxi p.1 u t)) hS, Except.ok.injEq, Prod.mk.injEq, Prod.mk.injEq] at e1
  obtain ⟨rfl, rfl, -⟩ := e1
  simp only [predictFull, Spec.offset, Option.getD_some, Option.some.injEq, Prod.mk.injEq, true_and]
  refine ⟨?_, by rw [hKdef]⟩
  rw [zero_add, ← hSdef, ← hKdef]
  congr 2
  simp only [mulVec_sub, mulVec_add]
  abel

/-- **C72** `cond_predict_single_step`: particle `i` becomes the nonlinear state of the future particle `find[i]` together with the exact conditional law
of the linear state that goes with it. -/
theorem C72_cond_predict_single_step {H : MlHooks lxi lz ly U T Y} {o : MlObj lxi lz ly} {M : Spec.RbModel lxi lz ly U T Y}
    (hD : Spec.RbDescribes H o M) (hG : M.Good) (parts : List (RbP lxi lz)) (hP : ∀ p ∈ parts, p.2.2.PosSemidef) (future : List (VecR lxi))
    (find : List ℕ) (hl : find.length = parts.length) (hf : ∀ i ∈ find, i < future.length) (u : U) (t : T) :
    ∃ r, mlCondPredictSingle H o parts future find u t = .ok r ∧ r.length = parts.length ∧
      ∀ (i : ℕ) p (k : ℕ) x, parts[i]? = some p → find[i]? = some k → future[k]? = some x →
      ∃ (mean : VecR lxi → VecR lz) (cov : MatR lz lz), cov.PosSemidef ∧ r[i]? = some (x, mean x, cov) ∧
        Spec.IsCondLaw (M.step p u t) (fun x => Spec.gauss (mean x) cov) := by
  obtain ⟨xiN, hx⟩ := fancy_ok hf
  obtain ⟨h1, h2⟩ := fancy_spec.1 hx
  obtain ⟨r, hr, hrl, hri⟩ := C72_cond_predict hD hG parts hP xiN (h1.trans hl) u t
  refine ⟨r, by rw [mlCondPredictSingle, hx, ok_bind, hr], hrl, fun i p k x hp hk hkx => hri i p x hp ?_⟩
  rw [← (h2 i k hk).1, hkx]

/-- C72: hypotheses met by two particles that follow each other's futures. -/
example : ∃ r, mlCondPredictSingle mlToyH mlToyO mlToyParts [0, 1] [1, 0] 0 0 = .ok r := by
  obtain ⟨r, h, -⟩ := C72_cond_predict_single_step mlToy_describes mlToy_good mlToyParts mlToyParts_psd [0, 1] [1, 0] rfl (by simp) 0 0
  exact ⟨r, h⟩

/-! ## Constant matrices -/

/-- The arguments of one `set_dynamics` call of a mixed linear/nonlinear model (`none` = not given). -/
structure Spec.MlDynArgs (lxi lz ly : ℕ) where
  Az : Option (MatR lz lz) := none
  fz : Option (VecR lz) := none
  Qz : Option (MatR lz lz) := none
  R : Option (MatR ly ly) := none
  Axi : Option (MatR lxi lz) := none
  fxi : Option (VecR lxi) := none
  Qxi : Option (MatR lxi lxi) := none
  Qxiz : Option (MatR lxi lz) := none
  C : Option (MatR ly lz) := none
  h : Option (VecR ly) := none

/-- Construct with the arguments `a`, then call `set_dynamics` with each of `calls`. -/
def Spec.mlHistory (a : Spec.MlDynArgs lxi lz ly) (calls : List (Spec.MlDynArgs lxi lz ly)) : MlObj lxi lz ly :=
  calls.foldl (fun o b => o.setDynamics b.Az b.fz b.Qz b.R b.Axi b.fxi b.Qxi b.Qxiz b.C b.h)
    (MlObj.init a.Az a.C a.Qz a.R a.fz a.Axi a.Qxi a.Qxiz a.fxi a.h)

theorem mlSetDynamics_fields (o : MlObj lxi lz ly) (Az fz Qz R Axi fxi Qxi Qxiz C h) :
    (o.setDynamics Az fz Qz R Axi fxi Qxi Qxiz C h).Axi = Axi.or o.Axi ∧ (o.setDynamics Az fz Qz R Axi fxi Qxi Qxiz C h).Qxi = Qxi.or o.Qxi ∧
    (o.setDynamics Az fz Qz R Axi fxi Qxi Qxiz C h).Qxiz = Qxiz.or o.Qxiz ∧
    (o.setDynamics Az fz Qz R Axi fxi Qxi Qxiz C h).fxi = fxi.getD o.fxi ∧
    (o.setDynamics Az fz Qz R Axi fxi Qxi Qxiz C h).kf = o.kf.setDynamics Az C Qz R fz h := by
  cases Axi <;> cases fxi <;> cases Qxi <;> cases Qxiz <;> simp [MlObj.setDynamics]

/-- **C43** A mixed linear/nonlinear model: after construction and any sequence of `set_dynamics` calls every constant matrix used is the one
given most recently (`fxi`, `fz` default to zero, the others to `None`). -/
theorem C43_mixed_model_history (a : Spec.MlDynArgs lxi lz ly) (calls : List (Spec.MlDynArgs lxi lz ly)) :
    (Spec.mlHistory a calls).Axi = Spec.lastGiven Spec.MlDynArgs.Axi (a :: calls) ∧
    (Spec.mlHistory a calls).fxi = (Spec.lastGiven Spec.MlDynArgs.fxi (a :: calls)).getD 0 ∧
    (Spec.mlHistory a calls).Qxi = Spec.lastGiven Spec.MlDynArgs.Qxi (a :: calls) ∧
    (Spec.mlHistory a calls).Qxiz = Spec.lastGiven Spec.MlDynArgs.Qxiz (a :: calls) ∧
    (Spec.mlHistory a calls).kf.A = Spec.lastGiven Spec.MlDynArgs.Az (a :: calls) ∧
    (Spec.mlHistory a calls).kf.fk = some ((Spec.lastGiven Spec.MlDynArgs.fz (a :: calls)).getD 0) ∧
    (Spec.mlHistory a calls).kf.Q = Spec.lastGiven Spec.MlDynArgs.Qz (a :: calls) ∧
    (Spec.mlHistory a calls).kf.C = Spec.lastGiven Spec.MlDynArgs.C (a :: calls) ∧
    (Spec.mlHistory a calls).kf.hk = Spec.lastGiven Spec.MlDynArgs.h (a :: calls) ∧
    (Spec.mlHistory a calls).kf.R = Spec.lastGiven Spec.MlDynArgs.R (a :: calls) := by
  induction calls using List.reverseRecOn with
  | nil =>
    obtain ⟨Az, fz, Qz, R, Axi, fxi, Qxi, Qxiz, C, h⟩ := a
    have hk := C43_set_dynamics_history (n := lz) (m := ly) { A := Az, C := C, Q := Qz, R := R, fk := fz, hk := h } []
    simp only [Spec.kfHistory, List.foldl_nil] at hk
    obtain ⟨k1, k2, k3, k4, k5, k6⟩ := hk
    simp only [Spec.mlHistory, List.foldl_nil, MlObj.init, k1, k2, k3, k4, k5, k6, Spec.lastGiven]
    refine ⟨?_, ?_, ?_, ?_, ?_, ?_, ?_, ?_, ?_, ?_⟩
    · cases Axi <;> simp
    · cases fxi <;> simp
    · cases Qxi <;> simp
    · cases Qxiz <;> simp
    · cases Az <;> simp
    · cases fz <;> simp
    · cases Qz <;> simp
    · cases C <;> simp
    · cases h <;> simp
    · cases R <;> simp
  | append_singleton l b ih =>
    have hh : Spec.mlHistory a (l ++ [b]) =
        (Spec.mlHistory a l).setDynamics b.Az b.fz b.Qz b.R b.Axi b.fxi b.Qxi b.Qxiz b.C b.h := by
      simp [Spec.mlHistory, List.foldl_append]
    obtain ⟨h1, h2, h3, h4, h5, h6, h7, h8, h9, h10⟩ := ih
    obtain ⟨f1, f2, f3, f4, f5⟩ := mlSetDynamics_fields (Spec.mlHistory a l) b.Az b.fz b.Qz b.R b.Axi b.fxi b.Qxi b.Qxiz b.C b.h
    obtain ⟨g1, g2, g3, g4, g5, g6⟩ := setDynamics_fields (Spec.mlHistory a l).kf b.Az b.C b.Qz b.R b.fz b.h
    rw [hh, f1, f2, f3, f4, f5, g1, g2, g3, g4, g5, g6, h1, h2, h3, h4, h5, h6, h7, h8, h9, h10, ← List.cons_append]
    simp only [lastGiven_append, true_and, and_true]
    refine ⟨?_, ?_⟩
    · cases b.fxi <;> simp
    · cases b.fz <;> simp

/-- Two calls, the second one overriding `fxi` only. -/
example : (Spec.mlHistory (lxi := 1) (lz := 1) (ly := 1) { Axi := some 1, fxi := some 1 } [{ Qxi := some 1 }, { fxi := some 2 }]).fxi = 2 ∧
    (Spec.mlHistory (lxi := 1) (lz := 1) (ly := 1) { Axi := some 1, fxi := some 1 } [{ Qxi := some 1 }, { fxi := some 2 }]).Qxi = some 1 := by
  obtain ⟨-, h2, h3, -⟩ := C43_mixed_model_history (lxi := 1) (lz := 1) (ly := 1) { Axi := some 1, fxi := some 1 }
    [{ Qxi := some 1 }, { fxi := some 2 }]
  rw [h2, h3]
  simp [Spec.lastGiven]

/-- **C47** The constructor of `NonlinearGaussianInitialGaussian` keeps the mean and covariance it is given, zero for one of them that is
missing; it raises `ValueError` exactly when neither of them nor the number of states is given. -/
theorem C47_initial_defaults (x0 : Option (Fin n → ℝ)) (P0 : Option (Matrix (Fin n) (Fin n) ℝ)) (lxi : Bool) :
    (x0 = none ∧ P0 = none ∧ lxi = false → nlgX0Init x0 P0 lxi = .error .valueError) ∧
    (¬ (x0 = none ∧ P0 = none ∧ lxi = false) →
      ∃ o, nlgX0Init x0 P0 lxi = .ok o ∧ o.x0 = x0.getD 0 ∧ o.P0 = P0.getD 0) := by
  cases x0 <;> cases P0 <;> cases lxi <;> simp [nlgX0Init]

end PyPE

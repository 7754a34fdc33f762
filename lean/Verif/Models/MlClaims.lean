import Verif.Models.MlSpec
import Verif.Models.NlgClaims

/-!
# C50, C72, C74, C75: the Rao-Blackwellised particle filter and its densities (rbpf.py, mlnlg.py)
-/

open MeasureTheory ProbabilityTheory Matrix
namespace PyPE

variable {lxi lz ly : ℕ} {U T Y : Type}

/-! ## Specification -/

/-- Joint law of process noises `(vz, vxi)` with covariances `Qz`, `Qxi` and cross covariance `Qxiz = E vxi vzᵀ`. -/
noncomputable def Spec.jointNoise (Qxi : MatR lxi lxi) (Qxiz : MatR lxi lz) (Qz : MatR lz lz) : Measure (VecR lz × VecR lxi) :=
  (Spec.gauss 0 (fromBlocks Qz Qxizᵀ Qxiz Qxi)).map (MeasurableEquiv.sumPiEquivProdPi fun _ : Fin lz ⊕ Fin lxi => ℝ)

/-- One step of the model from a particle with nonlinear state `p.1` and linear state distributed as `N(p.2.1, p.2.2)`: the joint law of the next linear and
nonlinear state. The linear noise is `Qxizᵀ Qxi⁻¹ vxi + w` with independent `vxi ~ N(0, Qxi)` and `w ~ N(0, Qz)`; without cross covariance, plain
independent noises. -/
noncomputable def Spec.RbModel.step (M : Spec.RbModel lxi lz ly U T Y) (p : RbP lxi lz) (u : U) (t : T) : Measure (VecR lz × VecR lxi) :=
  ((Spec.gauss p.2.1 p.2.2).prod ((Spec.gauss 0 (M.Qxi p.1 u t)).prod (Spec.gauss 0 (M.Qz p.1 u t)))).map fun q =>
    (M.Az p.1 u t *ᵥ q.1 + M.fz p.1 u t + ((M.Qxiz p.1 u t)ᵀ * (M.Qxi p.1 u t)⁻¹) *ᵥ q.2.1 + q.2.2,
      M.Axi p.1 u t *ᵥ q.1 + M.fxi p.1 u t + q.2.1)

/-! ## C50 -/

theorem jointNoise_shift {Qxi : MatR lxi lxi} (hQ : Qxi.PosDef) (X : MatR lxi lz) {Qz : MatR lz lz}
    (hS : (Qz - Xᵀ * Qxi⁻¹ * X).PosSemidef) (a : VecR lz) (b : VecR lxi) :
    (Spec.jointNoise Qxi X Qz).map (fun v => (a + v.1, b + v.2)) =
      Spec.reversed b Qxi (a - (Xᵀ * Qxi⁻¹) *ᵥ b) (Xᵀ * Qxi⁻¹) (Qz - Xᵀ * Qxi⁻¹ * X) := by
  have hd : IsUnit Qxi.det := hQ.det_pos.ne'.isUnit
  have hs : Qxiᵀ = Qxi := PosDef.isSymm' hQ
  have hinv : (Qxi⁻¹)ᵀ = Qxi⁻¹ := by rw [transpose_nonsing_inv, hs]
  have h1 := reversed_eq (ν := (0 : VecR lxi)) (c := (0 : VecR lz)) (K := Xᵀ * Qxi⁻¹) hQ.posSemidef hS
  have e1 : Xᵀ * Qxi⁻¹ * Qxi = Xᵀ := by rw [Matrix.mul_assoc, nonsing_inv_mul _ hd, Matrix.mul_one]
  have e2 : Qxi * (Xᵀ * Qxi⁻¹)ᵀ = X := by
    rw [transpose_mul, transpose_transpose, hinv, ← Matrix.mul_assoc, mul_nonsing_inv _ hd, Matrix.one_mul]
  have e3 : Xᵀ * Qxi⁻¹ * Qxi * (Xᵀ * Qxi⁻¹)ᵀ + (Qz - Xᵀ * Qxi⁻¹ * X) = Qz := by
    rw [Matrix.mul_assoc (Xᵀ * Qxi⁻¹), e2]; abel
  have e4 : (Sum.elim (0 + (Xᵀ * Qxi⁻¹) *ᵥ 0) 0 : Fin lz ⊕ Fin lxi → ℝ) = 0 := by
    funext i; cases i <;> simp
  rw [e3, e1, e2, e4] at h1
  rw [Spec.jointNoise, ← h1, Spec.reversed, Spec.reversed, Measure.map_map (by fun_prop) (Continuous.measurable (by fun_prop)),
    ← gauss_shift hQ.posSemidef b]
  have hp : ((Spec.gauss 0 Qxi).map fun w => b + w).prod (Spec.gauss 0 (Qz - Xᵀ * Qxi⁻¹ * X)) =
      ((Spec.gauss 0 Qxi).prod (Spec.gauss 0 (Qz - Xᵀ * Qxi⁻¹ * X))).map (Prod.map (fun w => b + w) id) := by
    rw [← Measure.map_prod_map _ _ (by fun_prop) measurable_id, Measure.map_id]
  rw [hp, Measure.map_map (Continuous.measurable (by fun_prop)) (by fun_prop)]
  congr 1
  funext v
  simp only [Function.comp, Prod.map, id, zero_add, mulVec_add]
  refine Prod.ext ?_ rfl
  simp only
  abel

/-- **C50** `calc_cond_dynamics` returns for every particle the matrix and the offset of the conditional law of the next linear state given the next
nonlinear state, whatever the correlation of the noises. That conditional law has the covariance `Qz - Qxizᵀ Qxi⁻¹ Qxiz`. -/
theorem C50_cond_dynamics {H : MlHooks lxi lz ly U T Y} {o : MlObj lxi lz ly} {M : Spec.RbModel lxi lz ly U T Y}
    (hD : Spec.RbDescribes H o M) (hG : M.Good) (parts : List (RbP lxi lz)) (xiN : List (VecR lxi)) (hl : xiN.length = parts.length)
    (u : U) (t : T) :
    ∃ dyn, mlCondDyn H o parts xiN u t = .ok dyn ∧ dyn.length = parts.length ∧ ∀ (i : ℕ) p x, parts[i]? = some p → xiN[i]? = some x →
      ∃ (A : MatR lz lz) (b : VecR lxi → VecR lz), dyn[i]? = some (some A, some (b x), some (M.Qz p.1 u t)) ∧
        ((M.Qz p.1 u t - (M.Qxiz p.1 u t)ᵀ * (M.Qxi p.1 u t)⁻¹ * M.Qxiz p.1 u t).PosSemidef → ∀ z : VecR lz,
          Spec.IsCondLaw
            ((Spec.jointNoise (M.Qxi p.1 u t) (M.Qxiz p.1 u t) (M.Qz p.1 u t)).map fun v =>
              (M.Az p.1 u t *ᵥ z + M.fz p.1 u t + v.1, M.Axi p.1 u t *ᵥ z + M.fxi p.1 u t + v.2))
            fun x => Spec.gauss (A *ᵥ z + b x) (M.Qz p.1 u t - (M.Qxiz p.1 u t)ᵀ * (M.Qxi p.1 u t)⁻¹ * M.Qxiz p.1 u t)) := by
  refine ⟨_, mlCondDyn_eq hD hG parts xiN hl u t, by simp [hl], fun i p x hp hx => ?_⟩
  refine ⟨M.condA p.1 u t, M.condF p.1 u t, ?_, fun hS z => ?_⟩
  · have : (parts.zip xiN)[i]? = some (p, x) := by rw [List.getElem?_zip_eq_some]; exact ⟨hp, hx⟩
    simp [this]
  · rw [jointNoise_shift (hG.Qxi p.1 u t) _ hS]
    have hc := reversed_cond (ν := M.Axi p.1 u t *ᵥ z + M.fxi p.1 u t) (S := M.Qxi p.1 u t)
      (c := M.Az p.1 u t *ᵥ z + M.fz p.1 u t - ((M.Qxiz p.1 u t)ᵀ * (M.Qxi p.1 u t)⁻¹) *ᵥ (M.Axi p.1 u t *ᵥ z + M.fxi p.1 u t))
      (K := (M.Qxiz p.1 u t)ᵀ * (M.Qxi p.1 u t)⁻¹) hS
    convert hc using 3 with x
    simp only [Spec.RbModel.condA, Spec.RbModel.condF, sub_mulVec, mulVec_add, mulVec_sub, mulVec_mulVec]
    abel

/-- **C50** (Defect) The covariance returned by `calc_cond_dynamics` is `Qz`, which is right exactly when the noises are uncorrelated; otherwise it is too
large. -/
theorem C50_cond_covariance {Qxi : MatR lxi lxi} (hQ : Qxi.PosDef) (X : MatR lxi lz) (Qz : MatR lz lz) :
    (Qz - Xᵀ * Qxi⁻¹ * X = Qz ↔ X = 0) ∧ (Qz - (Qz - Xᵀ * Qxi⁻¹ * X)).PosSemidef := by
  have hi : (Qxi⁻¹).PosDef := hQ.inv
  have hps : (Xᵀ * Qxi⁻¹ * X).PosSemidef := by
    have := posSemidef_conj hi.posSemidef Xᵀ
    rwa [transpose_transpose] at this
  refine ⟨⟨fun h => ?_, fun h => by simp [h]⟩, by rwa [sub_sub_cancel]⟩
  have h0 : Xᵀ * Qxi⁻¹ * X = 0 := by
    have := congrArg (fun B => Qz - B) h
    simpa using this
  ext i j
  have hq : (fun k => X k j) ⬝ᵥ Qxi⁻¹ *ᵥ (fun k => X k j) = 0 := by
    have := congrFun (congrFun h0 j) j
    rw [Matrix.mul_assoc, Matrix.mul_apply] at this
    simpa [dotProduct, mulVec, Matrix.mul_apply] using this
  by_contra hne
  have hv : (fun k => X k j) ≠ 0 := fun hz => hne (congrFun hz i)
  have := hi.dotProduct_mulVec_pos hv
  simp only [star_trivial] at this
  exact this.ne' hq

/-! ## C72 -/

theorem mlMeasXiNext_good {H : MlHooks lxi lz ly U T Y} {o : MlObj lxi lz ly} {M : Spec.RbModel lxi lz ly U T Y}
    (hD : Spec.RbDescribes H o M) (hG : M.Good) (parts : List (RbP lxi lz)) (hP : ∀ p ∈ parts, p.2.2.PosSemidef) (xiN : List (VecR lxi))
    (hl : xiN.length = parts.length) (u : U) (t : T) :
    ∃ r, mlMeasXiNext H o parts xiN u t = .ok r ∧ r.length = parts.length ∧ ∀ (i : ℕ) p x, parts[i]? = some p → xiN[i]? = some x →
      ∃ z1 P1 dl, measureFull x p.2.1 p.2.2 (some (M.Axi p.1 u t)) (some (M.fxi p.1 u t)) (M.Qxi p.1 u t) = .ok (z1, P1, dl) ∧
        P1.PosSemidef ∧ r[i]? = some (p.1, z1, P1) := by
  have hone : ∀ px ∈ parts.zip xiN, ∃ z1 P1 dl, measureFull px.2 px.1.2.1 px.1.2.2 (some (M.Axi px.1.1 u t)) (some (M.fxi px.1.1 u t))
      (M.Qxi px.1.1 u t) = .ok (z1, P1, dl) ∧ P1.PosSemidef := by
    intro px hpx
    obtain ⟨z1, P1, dl, h1, h2, -⟩ := measureFull_good px.2 px.1.2.1 (M.Axi px.1.1 u t) (M.fxi px.1.1 u t)
      (hP px.1 (List.of_mem_zip hpx).1) (hG.Qxi px.1.1 u t)
    exact ⟨z1, P1, dl, h1, h2⟩
  rw [mlMeasXiNext_eq hD parts xiN hl u t]
  obtain ⟨b, hb⟩ := mapM_ok (l := parts.zip xiN) (f := fun px => do
      let r ← measureFull px.2 px.1.2.1 px.1.2.2 (some (M.Axi px.1.1 u t)) (some (M.fxi px.1.1 u t)) (M.Qxi px.1.1 u t)
      return (px.1.1, r.1, r.2.1)) fun px hpx => by
    obtain ⟨z1, P1, dl, h1, -⟩ := hone px hpx
    exact ⟨(px.1.1, z1, P1), by simp only [h1, ok_bind]; rfl⟩
  refine ⟨b, hb, ?_, fun i p x hp hx => ?_⟩
  · rw [(mapM_ok_iff.1 hb).1]; simp [hl]
  have hz : (parts.zip xiN)[i]? = some (p, x) := by rw [List.getElem?_zip_eq_some]; exact ⟨hp, hx⟩
  obtain ⟨q, hq, hq'⟩ := (mapM_ok_iff.1 hb).2 i (p, x) hz
  obtain ⟨z1, P1, dl, h1, h2⟩ := hone _ (List.mem_of_getElem? hz)
  simp only [h1, ok_bind, pure_eq_ok, Except.ok.injEq] at hq'
  subst hq'
  exact ⟨z1, P1, dl, h1, h2, hq⟩

theorem mlCondPredict_good {H : MlHooks lxi lz ly U T Y} {o : MlObj lxi lz ly} {M : Spec.RbModel lxi lz ly U T Y}
    (hD : Spec.RbDescribes H o M) (hG : M.Good) (parts : List (RbP lxi lz)) (hP : ∀ p ∈ parts, p.2.2.PosSemidef) (xiN : List (VecR lxi))
    (hl : xiN.length = parts.length) (u : U) (t : T) :
    ∃ r, mlCondPredict H o parts xiN u t = .ok r ∧ r.length = parts.length ∧ ∀ (i : ℕ) p x, parts[i]? = some p → xiN[i]? = some x →
      ∃ z1 P1 dl, measureFull x p.2.1 p.2.2 (some (M.Axi p.1 u t)) (some (M.fxi p.1 u t)) (M.Qxi p.1 u t) = .ok (z1, P1, dl) ∧
        P1.PosSemidef ∧ r[i]? = some (x, predictFull z1 P1 (M.condA p.1 u t) (M.condF p.1 u t x) (M.Qz p.1 u t)) := by
  obtain ⟨q, hq, hql, hqi⟩ := mlMeasXiNext_good hD hG parts hP xiN hl u t
  have hl' : xiN.length = q.length := hl.trans hql.symm
  unfold mlCondPredict
  rw [hq, ok_bind, mlCondDyn_eq hD hG q xiN hl' u t, ok_bind, if_pos hl']
  have hzl : q.length = (q.zip xiN).length := by simp [hl']
  rw [hzl, mapM_range_eq (q.zip xiN) _ (fun qx => .ok (qx.2, predictFull qx.1.2.1 qx.1.2.2 (M.condA qx.1.1 u t) (M.condF qx.1.1 u t qx.2)
    (M.Qz qx.1.1 u t)))]
  swap
  · intro i qx hqx
    have h' := hqx
    rw [List.getElem?_zip_eq_some] at h'
    simp only [getIdx_ok.2 h'.1, getIdx_ok.2 h'.2, ok_bind, getIdx_ok.2 (show ((q.zip xiN).map fun px =>
      (some (M.condA px.1.1 u t), some (M.condF px.1.1 u t px.2), some (M.Qz px.1.1 u t)))[i]? =
        some (some (M.condA qx.1.1 u t), some (M.condF qx.1.1 u t qx.2), some (M.Qz qx.1.1 u t)) by simp [hqx]), predOpt]
    rfl
  refine ⟨_, mapM_ok_map fun _ _ => rfl, by simp [hl', hql], fun i p x hp hx => ?_⟩
  obtain ⟨z1, P1, dl, h1, h2, h3⟩ := hqi i p x hp hx
  refine ⟨z1, P1, dl, h1, h2, ?_⟩
  have hz : (q.zip xiN)[i]? = some ((p.1, z1, P1), x) := by rw [List.getElem?_zip_eq_some]; exact ⟨h3, hx⟩
  simp [hz]

theorem mlPredXi_one {H : MlHooks 1 lz ly U T Y} {o : MlObj 1 lz ly} {M : Spec.RbModel 1 lz ly U T Y}
    (hD : Spec.RbDescribes H o M) (parts : List (RbP 1 lz)) (u : U) (t : T) :
    mlPredXi H o parts u t = .ok (parts.map fun p => M.Axi p.1 u t *ᵥ p.2.1 + M.fxi p.1 u t) := by
  obtain ⟨hA, hf, -⟩ := mlNonlin_eq hD (xisOf parts) u t
  unfold mlPredXi
  rw [mapM_range_eq parts _ (fun p => .ok (M.Axi p.1 u t *ᵥ p.2.1 + M.fxi p.1 u t))]
  · exact mapM_ok_map fun _ _ => rfl
  intro i p hp
  have hx : (xisOf parts)[i]? = some p.1 := by rw [xisOf_getElem?, hp]; rfl
  simp only [getIdx_ok.2 hp, hA, hf, ok_bind,
    getIdx_ok.2 (show ((xisOf parts).map fun x => some (M.Axi x u t))[i]? = some (some (M.Axi p.1 u t)) by simp [hx]),
    getIdx_ok.2 (show ((xisOf parts).map fun x => some (M.fxi x u t))[i]? = some (some (M.fxi p.1 u t)) by simp [hx]), if_true]

theorem mlNoiseCov_eq {H : MlHooks lxi lz ly U T Y} {o : MlObj lxi lz ly} {M : Spec.RbModel lxi lz ly U T Y}
    (hD : Spec.RbDescribes H o M) (parts : List (RbP lxi lz)) (u : U) (t : T) :
    mlNoiseCov H o parts u t = .ok (parts.map fun p => M.Qxi p.1 u t + M.Axi p.1 u t * p.2.2 * (M.Axi p.1 u t)ᵀ) := by
  obtain ⟨hA, -, hQ⟩ := mlNonlin_eq hD (xisOf parts) u t
  unfold mlNoiseCov
  rw [mapM_range_eq parts _ (fun p => .ok (M.Qxi p.1 u t + M.Axi p.1 u t * p.2.2 * (M.Axi p.1 u t)ᵀ))]
  · exact mapM_ok_map fun _ _ => rfl
  intro i p hp
  have hx : (xisOf parts)[i]? = some p.1 := by rw [xisOf_getElem?, hp]; rfl
  simp only [getIdx_ok.2 hp, hA, hQ, ok_bind,
    getIdx_ok.2 (show ((xisOf parts).map fun x => some (M.Axi x u t))[i]? = some (some (M.Axi p.1 u t)) by simp [hx]),
    getIdx_ok.2 (show ((xisOf parts).map fun x => some (M.Qxi x u t))[i]? = some (some (M.Qxi p.1 u t)) by simp [hx])]

theorem normalGiven_shift {H : Type*} [MeasurableSpace H] {n : ℕ} {ν : Measure H} [IsProbabilityMeasure ν] {mean : H → Fin n → ℝ}
    (hm : Measurable mean) {f : H → Fin n → ℝ} (hf : Measurable f) (P : Matrix (Fin n) (Fin n) ℝ) :
    (normalGiven ν mean P).map (fun p => (p.1 + f p.2, p.2)) = normalGiven ν (fun h => f h + mean h) P := by
  rw [normalGiven, normalGiven, Measure.map_map (by fun_prop) (by fun_prop)]
  congr 1
  funext p
  simp only [Function.comp]
  refine Prod.ext ?_ rfl
  simp only
  abel

/-- The law of one step, conditioned on the next nonlinear state. -/
theorem step_eq (M : Spec.RbModel lxi lz ly U T Y) (hG : M.Good) (p : RbP lxi lz) (hP : p.2.2.PosSemidef) (u : U) (t : T)
    {K : Matrix (Fin lz) (Fin lxi) ℝ}
    (hK : K * (M.Axi p.1 u t * p.2.2 * (M.Axi p.1 u t)ᵀ + M.Qxi p.1 u t) = p.2.2 * (M.Axi p.1 u t)ᵀ) :
    M.step p u t = normalGiven
      (Spec.gauss (M.Axi p.1 u t *ᵥ p.2.1 + M.fxi p.1 u t) (M.Axi p.1 u t * p.2.2 * (M.Axi p.1 u t)ᵀ + M.Qxi p.1 u t))
      (fun x => M.condF p.1 u t x + (0 + M.condA p.1 u t *ᵥ (p.2.1 - K *ᵥ (M.Axi p.1 u t *ᵥ p.2.1 + M.fxi p.1 u t) + K *ᵥ x)))
      (M.condA p.1 u t * (p.2.2 - K * (M.Axi p.1 u t * p.2.2)) * (M.condA p.1 u t)ᵀ + M.Qz p.1 u t) := by
  have hV := posterior_posSemidef hP (hG.Qxi p.1 u t).posSemidef hK
  have hobs := observed_eq_reversed (z := p.2.1) (h := M.fxi p.1 u t) hP (hG.Qxi p.1 u t).posSemidef hK
  have hcF : Measurable (M.condF p.1 u t) := Continuous.measurable (by unfold Spec.RbModel.condF; fun_prop)
  have hcF' : Continuous (M.condF p.1 u t) := by unfold Spec.RbModel.condF; fun_prop
  have hmean : Measurable fun x : VecR lxi => p.2.1 - K *ᵥ (M.Axi p.1 u t *ᵥ p.2.1 + M.fxi p.1 u t) + K *ᵥ x :=
    Continuous.measurable (by fun_prop)
  have hmean' : Measurable fun x : VecR lxi => (0 : VecR lz) + M.condA p.1 u t *ᵥ (p.2.1 -
      K *ᵥ (M.Axi p.1 u t *ᵥ p.2.1 + M.fxi p.1 u t) + K *ᵥ x) := Continuous.measurable (by fun_prop)
  have hmv := normalGiven_move (ν := Spec.gauss (M.Axi p.1 u t *ᵥ p.2.1 + M.fxi p.1 u t)
    (M.Axi p.1 u t * p.2.2 * (M.Axi p.1 u t)ᵀ + M.Qxi p.1 u t)) hmean hV (M.condA p.1 u t) 0 (hG.Qz p.1 u t)
  have hrev : ∀ (ν : VecR lxi) (S : MatR lxi lxi) (c : VecR lz) (V : MatR lz lz), Spec.reversed ν S c K V =
    normalGiven (Spec.gauss ν S) (fun x => c + K *ᵥ x) V := fun _ _ _ _ => rfl
  rw [hrev] at hobs
  rw [← normalGiven_shift hmean' hcF, ← hmv, ← hobs, Spec.observed]
  have hobsm : Measurable fun q : VecR lz × VecR lxi => (q.1, M.Axi p.1 u t *ᵥ q.1 + M.fxi p.1 u t + q.2) :=
    Continuous.measurable (by fun_prop)
  have hp : (((Spec.gauss p.2.1 p.2.2).prod (Spec.gauss 0 (M.Qxi p.1 u t))).map fun q =>
      (q.1, M.Axi p.1 u t *ᵥ q.1 + M.fxi p.1 u t + q.2)).prod (Spec.gauss 0 (M.Qz p.1 u t)) =
      (((Spec.gauss p.2.1 p.2.2).prod (Spec.gauss 0 (M.Qxi p.1 u t))).prod (Spec.gauss 0 (M.Qz p.1 u t))).map
        (Prod.map (fun q => (q.1, M.Axi p.1 u t *ᵥ q.1 + M.fxi p.1 u t + q.2)) id) := by
    rw [← Measure.map_prod_map _ _ hobsm measurable_id, Measure.map_id]
  have hassoc : ((Spec.gauss p.2.1 p.2.2).prod (Spec.gauss 0 (M.Qxi p.1 u t))).prod (Spec.gauss 0 (M.Qz p.1 u t)) =
      ((Spec.gauss p.2.1 p.2.2).prod ((Spec.gauss 0 (M.Qxi p.1 u t)).prod (Spec.gauss 0 (M.Qz p.1 u t)))).map
        MeasurableEquiv.prodAssoc.symm := by
    rw [← Measure.prodAssoc_prod, Measure.map_map (by fun_prop) (by fun_prop)]
    simp
  rw [hp, hassoc, Measure.map_map (by fun_prop) (by fun_prop), Measure.map_map (Continuous.measurable (by fun_prop)) (by fun_prop),
    Measure.map_map (by fun_prop) (by fun_prop), Spec.RbModel.step]
  congr 1
  funext q
  simp only [Function.comp, MeasurableEquiv.prodAssoc, Spec.RbModel.condA, Spec.RbModel.condF, Prod.map, id]
  refine Prod.ext ?_ rfl
  simp only [MeasurableEquiv.symm, Equiv.prodAssoc, sub_mulVec, mulVec_add, mulVec_sub, mulVec_mulVec]
  simp
  abel

/-- **C72** `update` of the Rao-Blackwellised filter (one nonlinear state): every particle's next nonlinear state is drawn from its exact law given the particle,
and the statistics left in the particle are the exact conditional law of the next linear state given that nonlinear state. -/
theorem C72_update_exact {H : MlHooks 1 lz ly U T Y} {o : MlObj 1 lz ly} {M : Spec.RbModel 1 lz ly U T Y}
    (hD : Spec.RbDescribes H o M) (hG : M.Good) (parts : List (RbP 1 lz)) (hP : ∀ p ∈ parts, p.2.2.PosSemidef) (u : U) (t : T) :
    ∃ Ss, mlNoiseCov H o parts u t = .ok Ss ∧ Ss.length = parts.length ∧ ∀ (i : ℕ) p, parts[i]? = some p →
      ∃ (S : MatR 1 1) (mean : VecR 1 → VecR lz) (cov : MatR lz lz), Ss[i]? = some S ∧ cov.PosSemidef ∧
        (∀ noise : List (VecR 1), noise.length = parts.length → ∃ r n, mlUpdate H o parts u t noise = .ok r ∧ r.length = parts.length ∧
          noise[i]? = some n ∧ r[i]? = some (M.Axi p.1 u t *ᵥ p.2.1 + M.fxi p.1 u t + n, mean (M.Axi p.1 u t *ᵥ p.2.1 + M.fxi p.1 u t + n), cov)) ∧
        (Spec.gauss 0 S).map (fun n => M.Axi p.1 u t *ᵥ p.2.1 + M.fxi p.1 u t + n) = (M.step p u t).map Prod.snd ∧
        Spec.IsCondLaw (M.step p u t) (fun x => Spec.gauss (mean x) cov) ∧ Measurable mean := by
  refine ⟨_, mlNoiseCov_eq hD parts u t, by simp, fun i p hp => ?_⟩
  have hPp := hP p (List.mem_of_getElem? hp)
  have hS : (M.Axi p.1 u t * p.2.2 * (M.Axi p.1 u t)ᵀ + M.Qxi p.1 u t).PosDef :=
    Matrix.PosDef.posSemidef_add (posSemidef_conj hPp _) (hG.Qxi p.1 u t)
  set S := M.Axi p.1 u t * p.2.2 * (M.Axi p.1 u t)ᵀ + M.Qxi p.1 u t with hSdef
  set K := p.2.2 * (M.Axi p.1 u t)ᵀ * S⁻¹ with hKdef
  have hK : K * S = p.2.2 * (M.Axi p.1 u t)ᵀ := by
    rw [hKdef, Matrix.mul_assoc, nonsing_inv_mul _ hS.det_pos.ne'.isUnit, Matrix.mul_one]
  have hV := posterior_posSemidef hPp (hG.Qxi p.1 u t).posSemidef hK
  have hcov := (posSemidef_conj hV (M.condA p.1 u t)).add (hG.Qz p.1 u t)
  have hcF : Measurable (M.condF p.1 u t) := Continuous.measurable (by unfold Spec.RbModel.condF; fun_prop)
  have hmean : Measurable fun x : VecR 1 => M.condF p.1 u t x + (0 + M.condA p.1 u t *ᵥ (p.2.1 -
      K *ᵥ (M.Axi p.1 u t *ᵥ p.2.1 + M.fxi p.1 u t) + K *ᵥ x)) := hcF.add (Continuous.measurable (by fun_prop))
  have hst := step_eq M hG p hPp u t hK
  obtain ⟨h1, h2⟩ := normalGiven_cond (ν := Spec.gauss (M.Axi p.1 u t *ᵥ p.2.1 + M.fxi p.1 u t) S) hmean hcov
  rw [← hst] at h1 h2
  refine ⟨S, _, _, ?_, hcov, ?_, ?_, h2, hmean⟩
  · rw [List.getElem?_map, hp, hSdef, add_comm]; rfl
  · intro noise hn
    have hcalc : mlCalcXiNext H o parts noise u t = .ok (List.zipWith (· + ·) (parts.map fun p => M.Axi p.1 u t *ᵥ p.2.1 + M.fxi p.1 u t) noise) := by
      rw [mlCalcXiNext, mlPredXi_one hD, ok_bind, if_pos (by simp [hn])]
    obtain ⟨n, hni⟩ : ∃ n, noise[i]? = some n := ⟨_, List.getElem?_eq_getElem (by rw [hn]; exact lt_of_getElem?_some hp)⟩
    obtain ⟨r, hr, hrl, hri⟩ := mlCondPredict_good hD hG parts hP
      (List.zipWith (· + ·) (parts.map fun p => M.Axi p.1 u t *ᵥ p.2.1 + M.fxi p.1 u t) noise) (by simp [hn]) u t
    refine ⟨r, n, by rw [mlUpdate, hcalc, ok_bind, hr], hrl, hni, ?_⟩
    obtain ⟨z1, P1, dl, e1, e2, e3⟩ := hri i p (M.Axi p.1 u t *ᵥ p.2.1 + M.fxi p.1 u t + n) hp (by
      simp [List.getElem?_zipWith, hp, hni])
    rw [e3]
    rw [measureFull_eq (PosSemidef.isSymm' hPp) (PosDef.isSymm' (hG.Qxi p.1 u t)) hS, Except.ok.injEq, Prod.mk.injEq, Prod.mk.injEq] at e1
    obtain ⟨rfl, rfl, -⟩ := e1
    simp only [predictFull, Spec.offset, Option.getD_some, Option.some.injEq, Prod.mk.injEq, true_and]
    refine ⟨?_, by rw [hKdef]⟩
    rw [zero_add, ← hSdef, ← hKdef]
    congr 2
    simp only [mulVec_sub, mulVec_add]
    abel
  · rw [h1, gauss_shift hS.posSemidef]

/-- **C72** (Defect) With more than one nonlinear state `update` always raises `ValueError`. -/
theorem C72_update_raises {H : MlHooks lxi lz ly U T Y} {o : MlObj lxi lz ly} {M : Spec.RbModel lxi lz ly U T Y}
    (hD : Spec.RbDescribes H o M) (parts : List (RbP lxi lz)) (hne : parts ≠ []) (hlxi : lxi ≠ 1) (u : U) (t : T)
    (noise : List (VecR lxi)) : mlUpdate H o parts u t noise = .error .valueError := by
  obtain ⟨hA, hf, -⟩ := mlNonlin_eq hD (xisOf parts) u t
  have : mlPredXi H o parts u t = .error .valueError := by
    unfold mlPredXi
    rw [mapM_range_eq parts _ (fun p => .error .valueError)]
    · cases parts with
      | nil => exact absurd rfl hne
      | cons a l => rfl
    intro i p hp
    have hx : (xisOf parts)[i]? = some p.1 := by rw [xisOf_getElem?, hp]; rfl
    simp only [getIdx_ok.2 hp, hA, hf, ok_bind,
      getIdx_ok.2 (show ((xisOf parts).map fun x => some (M.Axi x u t))[i]? = some (some (M.Axi p.1 u t)) by simp [hx]),
      getIdx_ok.2 (show ((xisOf parts).map fun x => some (M.fxi x u t))[i]? = some (some (M.fxi p.1 u t)) by simp [hx]), hlxi, if_false]
  rw [mlUpdate, mlCalcXiNext, this]
  rfl

/-- **C72** `measure` is Bayes' rule for every particle, whichever of its code paths is taken: the nonlinear state is kept, the prior of the linear state times
the likelihood of the measurement is `exp(ll)` times the normal law left in the particle, `ll` the value returned for that particle. -/
theorem C72_measure_exact {H : MlHooks lxi lz ly U T Y} {o : MlObj lxi lz ly} {M : Spec.RbModel lxi lz ly U T Y} (hD : Spec.RbDescribes H o M)
    (hG : M.Good) (parts : List (RbP lxi lz)) (hne : parts ≠ []) (hP : ∀ p ∈ parts, p.2.2.PosSemidef) (y : Y) (t : T) :
    ∃ r ll, mlMeasure H o parts y t = .ok (r, ll) ∧ r.length = parts.length ∧ ll.length = parts.length ∧
      ∀ (i : ℕ) p, parts[i]? = some p → ∃ z P dl, r[i]? = some (p.1, z, P) ∧ ll[i]? = some dl ∧ P.PosSemidef ∧
        (Spec.gauss p.2.1 p.2.2).withDensity (Spec.likelihood (M.C p.1 y t) (M.h p.1 y t) (M.R p.1 y t) (M.y y t)) =
          ENNReal.ofReal (Real.exp dl) • Spec.gauss z P := by
  obtain ⟨r, ll, h1, h2, h3, h4⟩ := mlMeasure_good hD hG parts hne hP y t
  refine ⟨r, ll, h1, h2, h3, fun i p hp => ?_⟩
  obtain ⟨z, P, dl, e1, e2, e3⟩ := h4 i p hp
  obtain ⟨z', P', dl', f1, f2, f3⟩ := measureFull_good (M.y y t) p.2.1 (M.C p.1 y t) (M.h p.1 y t) (hP p (List.mem_of_getElem? hp)) (hG.R p.1 y t)
  cases e1.symm.trans f1
  exact ⟨z, P, dl, e2, e3, f2, f3⟩

/-- **C72** The first stage weights of the auxiliary particle filter are the log-likelihoods `measure` returns after an `update` without noise. -/
theorem C72_first_stage (H : MlHooks lxi lz ly U T Y) (o : MlObj lxi lz ly) (parts : List (RbP lxi lz)) (u : U) (y : Y) (t tn : T) :
    mlFirstStage H o parts u y t tn = (do
      let p ← mlUpdate H o parts u t (List.replicate parts.length 0)
      let r ← mlMeasure H o p y tn
      return r.2) := by
  unfold mlFirstStage mlUpdate mlCalcXiNext
  cases h : mlPredXi H o parts u t with
  | error e => rfl
  | ok xp =>
    have hl : xp.length = parts.length := by
      have := (mapM_ok_iff.1 (show _ = Except.ok xp from h)).1
      simpa using this
    have hz : List.zipWith (· + ·) xp (List.replicate parts.length (0 : VecR lxi)) = xp := by
      rw [← hl]
      clear h hl
      induction xp with
      | nil => rfl
      | cons a l ih => rw [List.length_cons, List.replicate_succ, List.zipWith_cons_cons, ih, add_zero]
    simp only [ok_bind, List.length_replicate, hl, if_true, hz]

end PyPE

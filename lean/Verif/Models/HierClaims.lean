import Verif.Models.Hier
import Verif.Models.MlSmooth

/-!
# C52, C76, C77: hierarchical models (hierarchial.py): filter, densities, backward sampling
-/

open MeasureTheory ProbabilityTheory Matrix
namespace PyPE

variable {lxi lz ly : ℕ} {U T Y Noise : Type}

/-! ## Specification -/

/-- The linear part of a hierarchical model on paper: `z' = Az z + fz + vz`, `y = C z + h + e`, all matrices functions of the nonlinear state `xi`. -/
structure Spec.HiModel (lxi lz ly : ℕ) (U T Y : Type) where
  Az : VecR lxi → U → T → MatR lz lz
  fz : VecR lxi → U → T → VecR lz
  Qz : VecR lxi → U → T → MatR lz lz
  C : VecR lxi → Y → T → MatR ly lz
  h : VecR lxi → Y → T → VecR ly
  R : VecR lxi → Y → T → MatR ly ly
  /-- The measurement after the preprocessing in `get_lin_meas_dynamics`. -/
  y : Y → T → VecR ly

/-- Valid covariances. -/
structure Spec.HiModel.Good (M : Spec.HiModel lxi lz ly U T Y) : Prop where
  Qz : ∀ x u t, (M.Qz x u t).PosSemidef
  R : ∀ x y t, (M.R x y t).PosDef

/-- The class `H` with the Kalman object `kf` implements the model `M`: every overridable method returns the list of matrices, or `None` and the constant
given to the constructor is the right one. -/
structure Spec.HiDescribes (H : HiHooks lxi lz ly U T Y Noise) (kf : KF lz ly) (M : Spec.HiModel lxi lz ly U T Y) : Prop where
  Az : ∀ xs u t, Spec.Gives (H.lin xs u t).1 kf.A xs (M.Az · u t)
  fz : ∀ xs u t, Spec.Gives (H.lin xs u t).2.1 kf.fk xs (M.fz · u t)
  Qz : ∀ xs u t, Spec.Gives (H.lin xs u t).2.2 kf.Q xs (M.Qz · u t)
  C : ∀ xs y t, Spec.Gives (H.meas xs y t).2.1 kf.C xs (M.C · y t)
  h : ∀ xs y t, Spec.Gives (H.meas xs y t).2.2.1 kf.hk xs (M.h · y t)
  R : ∀ xs y t, Spec.Gives (H.meas xs y t).2.2.2 kf.R xs (M.R · y t)
  y : ∀ xs y t, (H.meas xs y t).1 = M.y y t

/-- Law of the next linear state given a particle. -/
noncomputable def Spec.HiModel.nextZ (M : Spec.HiModel lxi lz ly U T Y) (p : RbP lxi lz) (u : U) (t : T) : Measure (VecR lz) :=
  ((Spec.gauss p.2.1 p.2.2).prod (Spec.gauss 0 (M.Qz p.1 u t))).map fun q => M.Az p.1 u t *ᵥ q.1 + M.fz p.1 u t + q.2

/-- `nx` are the next states the particles are compared with when `next` is passed: one for all, or one each. -/
def Spec.NextAll {α : Type} (N : ℕ) (next nx : List α) : Prop := nx.length = N ∧ (next = nx ∨ ∃ x, next = [x] ∧ nx = List.replicate N x)

/-! ## Helpers -/

theorem mapM_rel {α β : Type} (l : List α) (F : ℕ → PyM β) (Rel : ℕ → α → β → Prop)
    (h : ∀ (i : ℕ) x, l[i]? = some x → ∃ b, F i = .ok b ∧ Rel i x b) :
    ∃ r, (List.range l.length).mapM F = .ok r ∧ r.length = l.length ∧ ∀ (i : ℕ) x, l[i]? = some x → ∃ b, r[i]? = some b ∧ Rel i x b := by
  have hex : ∀ k ∈ List.range l.length, ∃ y, F k = .ok y := by
    intro k hk
    rw [List.mem_range] at hk
    obtain ⟨b, hb, -⟩ := h k l[k] (List.getElem?_eq_getElem hk)
    exact ⟨b, hb⟩
  obtain ⟨r, hr⟩ := mapM_ok hex
  have hr' := mapM_ok_iff.1 hr
  refine ⟨r, hr, by simpa using hr'.1, fun i x hx => ?_⟩
  obtain ⟨y, hy, hy'⟩ := hr'.2 i i (by simp [lt_of_getElem?_some hx])
  obtain ⟨b, hb, hb'⟩ := h i x hx
  rw [hb] at hy'
  exact ⟨b, by rw [hy, ← Except.ok.inj hy'], hb'⟩

theorem repeatNext_all {α : Type} {N : ℕ} (hN : N ≠ 0) {next nx : List α} (h : Spec.NextAll N next nx) : repeatNext N next = nx := by
  obtain ⟨hl, rfl | ⟨x, rfl, rfl⟩⟩ := h
  · unfold repeatNext
    split
    · rename_i x
      simp only [List.length_singleton] at hl
      rw [if_neg (by omega)]
    · rfl
  · simp only [repeatNext]
    split
    · rfl
    · have : N = 1 := by omega
      subst this; rfl

theorem hiRepeat_gives {α X : Type} {hook : Option (List α)} {own : Option α} {xs : List X} (hne : xs ≠ []) {val : X → α}
    (h : Spec.Gives hook own xs val) : hiRepeat xs.length hook own = .ok (xs.map val) := by
  cases hook with
  | some l => simp only [Spec.Gives] at h; simp [hiRepeat, h]
  | none =>
    simp only [Spec.Gives] at h
    obtain ⟨x0, hx0⟩ := List.exists_mem_of_ne_nil xs hne
    have h0 := h x0 hx0
    subst h0
    simp only [hiRepeat, Except.ok.injEq]
    symm
    rw [List.eq_replicate_iff]
    refine ⟨by simp, fun b hb => ?_⟩
    obtain ⟨x, hx, rfl⟩ := List.mem_map.1 hb
    exact (Option.some.inj (h x hx)).symm

theorem hiDyn_eq {H : HiHooks lxi lz ly U T Y Noise} {kf : KF lz ly} {M : Spec.HiModel lxi lz ly U T Y} (hD : Spec.HiDescribes H kf M)
    (xs : List (VecR lxi)) (u : U) (t : T) (i : ℕ) (x : VecR lxi) (hx : xs[i]? = some x) :
    hiDyn (hiLin H kf xs u t) i = .ok (some (M.Az x u t), some (M.fz x u t), some (M.Qz x u t)) := by
  have h1 : (hiLin H kf xs u t).A.1 = _ := perPart_gives (hD.Az xs u t)
  have h2 : (hiLin H kf xs u t).f.1 = _ := perPart_gives (hD.fz xs u t)
  have h3 : (hiLin H kf xs u t).Q.1 = _ := perPart_gives (hD.Qz xs u t)
  simp only [hiDyn, h1, h2, h3, getIdx_ok.2 (show (xs.map fun x => some (M.Az x u t))[i]? = some (some (M.Az x u t)) by simp [hx]),
    getIdx_ok.2 (show (xs.map fun x => some (M.fz x u t))[i]? = some (some (M.fz x u t)) by simp [hx]),
    getIdx_ok.2 (show (xs.map fun x => some (M.Qz x u t))[i]? = some (some (M.Qz x u t)) by simp [hx]), ok_bind]
  rfl

theorem nextZ_eq {M : Spec.HiModel lxi lz ly U T Y} (hG : M.Good) (p : RbP lxi lz) (hP : p.2.2.PosSemidef) (u : U) (t : T) :
    M.nextZ p u t = Spec.gauss (M.fz p.1 u t + M.Az p.1 u t *ᵥ p.2.1) (M.Az p.1 u t * p.2.2 * (M.Az p.1 u t)ᵀ + M.Qz p.1 u t) := by
  have := gauss_affine (μ := p.2.1) (ν := (0 : VecR lz)) hP (hG.Qz p.1 u t) (M.fz p.1 u t) (M.Az p.1 u t) (1 : MatR lz lz)
  rw [Matrix.one_mul, transpose_one, Matrix.mul_one, mulVec_zero, add_zero] at this
  rw [← this]
  unfold Spec.HiModel.nextZ
  congr 1
  funext q
  rw [one_mulVec, add_comm (M.fz p.1 u t)]

/-! ## C76 -/

theorem hiMeasure_good {H : HiHooks lxi lz ly U T Y Noise} {kf : KF lz ly} {M : Spec.HiModel lxi lz ly U T Y} (hD : Spec.HiDescribes H kf M)
    (hG : M.Good) (parts : List (RbP lxi lz)) (hne : parts ≠ []) (hP : ∀ p ∈ parts, p.2.2.PosSemidef) (y : Y) (t : T)
    (hl : (H.measNonlin parts y t).length = parts.length) :
    ∃ r ll, hiMeasure H kf parts y t = .ok (r, ll) ∧ r.length = parts.length ∧ ll.length = parts.length ∧
      ∀ (i : ℕ) p a, parts[i]? = some p → (H.measNonlin parts y t)[i]? = some a → ∃ z P dl, r[i]? = some (p.1, z, P) ∧ ll[i]? = some (a + dl) ∧
        measureFull (M.y y t) p.2.1 p.2.2 (some (M.C p.1 y t)) (some (M.h p.1 y t)) (M.R p.1 y t) = .ok (z, P, dl) := by
  have hxne : xisOf parts ≠ [] := by simpa [xisOf] using hne
  have hxl : (xisOf parts).length = parts.length := by simp [xisOf]
  have hx : ∀ (i : ℕ) (p : RbP lxi lz), parts[i]? = some p → (xisOf parts)[i]? = some p.1 := fun i p hp => by rw [xisOf_getElem?, hp]; rfl
  have hC := hiRepeat_gives hxne (hD.C (xisOf parts) y t)
  have hh := hiRepeat_gives hxne (hD.h (xisOf parts) y t)
  have hR := hiRepeat_gives hxne (hD.R (xisOf parts) y t)
  rw [hxl] at hC hh hR
  obtain ⟨res, h1, h2, h3⟩ := mapM_rel parts (fun i => (do
      let p ← getIdx parts i
      let C ← getIdx ((xisOf parts).map (M.C · y t)) i
      let h ← getIdx ((xisOf parts).map (M.h · y t)) i
      let R ← getIdx ((xisOf parts).map (M.R · y t)) i
      let r ← measureFull (M.y y t) p.2.1 p.2.2 (some C) (some h) R
      return ((p.1, r.1, r.2.1), r.2.2) : PyM (RbP lxi lz × ℝ)))
    (fun _ p b => b.1.1 = p.1 ∧
      measureFull (M.y y t) p.2.1 p.2.2 (some (M.C p.1 y t)) (some (M.h p.1 y t)) (M.R p.1 y t) = .ok (b.1.2.1, b.1.2.2, b.2)) (by
    intro i p hp
    obtain ⟨z, P, dl, e1, e2, e3⟩ := measureFull_good (M.y y t) p.2.1 (M.C p.1 y t) (M.h p.1 y t) (hP p (List.mem_of_getElem? hp)) (hG.R p.1 y t)
    refine ⟨((p.1, z, P), dl), ?_, rfl, e1⟩
    simp only [getIdx_ok.2 hp, ok_bind,
      getIdx_ok.2 (show ((xisOf parts).map (M.C · y t))[i]? = some (M.C p.1 y t) by simp [hx i p hp]),
      getIdx_ok.2 (show ((xisOf parts).map (M.h · y t))[i]? = some (M.h p.1 y t) by simp [hx i p hp]),
      getIdx_ok.2 (show ((xisOf parts).map (M.R · y t))[i]? = some (M.R p.1 y t) by simp [hx i p hp]), e1]
    rfl)
  refine ⟨res.map (fun r => r.1), List.zipWith (· + ·) (H.measNonlin parts y t) (res.map fun r => r.2), ?_, by simp [h2], by simp [h2, hl], ?_⟩
  · unfold hiMeasure
    simp only [hC, hh, hR, ok_bind, hD.y, hl, if_true]
    rw [h1]
    rfl
  · intro i p a hp ha
    obtain ⟨b, hb, hb1, hb2⟩ := h3 i p hp
    refine ⟨b.1.2.1, b.1.2.2, b.2, ?_, ?_, hb2⟩
    · rw [List.getElem?_map, hb, ← hb1]; rfl
    · simp [List.getElem?_zipWith, ha, hb]

/-- **C76** `measure`: every particle keeps its nonlinear state, the law of the linear state is updated with Bayes' rule, and the returned value is the
nonlinear log-likelihood plus the log-likelihood of the linear measurement. -/
theorem C76_measure_exact {H : HiHooks lxi lz ly U T Y Noise} {kf : KF lz ly} {M : Spec.HiModel lxi lz ly U T Y} (hD : Spec.HiDescribes H kf M)
    (hG : M.Good) (parts : List (RbP lxi lz)) (hne : parts ≠ []) (hP : ∀ p ∈ parts, p.2.2.PosSemidef) (y : Y) (t : T)
    (hl : (H.measNonlin parts y t).length = parts.length) :
    ∃ r ll, hiMeasure H kf parts y t = .ok (r, ll) ∧ r.length = parts.length ∧ ll.length = parts.length ∧
      ∀ (i : ℕ) p a, parts[i]? = some p → (H.measNonlin parts y t)[i]? = some a → ∃ z P dl, r[i]? = some (p.1, z, P) ∧ ll[i]? = some (a + dl) ∧
        P.PosSemidef ∧ (Spec.gauss p.2.1 p.2.2).withDensity (Spec.likelihood (M.C p.1 y t) (M.h p.1 y t) (M.R p.1 y t) (M.y y t)) =
          ENNReal.ofReal (Real.exp dl) • Spec.gauss z P := by
  obtain ⟨r, ll, h1, h2, h3, h4⟩ := hiMeasure_good hD hG parts hne hP y t hl
  refine ⟨r, ll, h1, h2, h3, fun i p a hp ha => ?_⟩
  obtain ⟨z, P, dl, e1, e2, e3⟩ := h4 i p a hp ha
  obtain ⟨z', P', dl', f1, f2, f3⟩ := measureFull_good (M.y y t) p.2.1 (M.C p.1 y t) (M.h p.1 y t) (hP p (List.mem_of_getElem? hp)) (hG.R p.1 y t)
  cases e3.symm.trans f1
  exact ⟨z, P, dl, e1, e2, f2, f3⟩

/-- **C76** (Defect) When neither the overridden method nor the constructor gives `hz`, `measure` raises `TypeError` instead of using zero. -/
theorem C76_measure_raises (H : HiHooks lxi lz ly U T Y Noise) (kf : KF lz ly) (parts : List (RbP lxi lz)) (y : Y) (t : T)
    (h1 : (H.meas (xisOf parts) y t).2.2.1 = none) (h2 : kf.hk = none) : hiMeasure H kf parts y t = .error .typeError := by
  unfold hiMeasure hiRepeat
  simp only [h1, h2]
  cases (H.meas (xisOf parts) y t).2.1 <;> cases kf.C <;> rfl

/-- **C76** `update`: the nonlinear states are those of `calc_xi_next`, and the law of the linear state of every particle is its exact law one step later. -/
theorem C76_update_exact {H : HiHooks lxi lz ly U T Y Noise} {kf : KF lz ly} {M : Spec.HiModel lxi lz ly U T Y} (hD : Spec.HiDescribes H kf M)
    (hG : M.Good) (parts : List (RbP lxi lz)) (hP : ∀ p ∈ parts, p.2.2.PosSemidef) (u : U) (t : T) (noise : List Noise)
    (hl : (H.xiNext parts u t noise).length = parts.length) :
    ∃ r, hiUpdate H kf parts u t noise = .ok r ∧ r.length = parts.length ∧
      ∀ (i : ℕ) p x, parts[i]? = some p → (H.xiNext parts u t noise)[i]? = some x → ∃ z P, r[i]? = some (x, z, P) ∧
        P.PosSemidef ∧ M.nextZ p u t = Spec.gauss z P := by
  have hx : ∀ (i : ℕ) (p : RbP lxi lz), parts[i]? = some p → (xisOf parts)[i]? = some p.1 := fun i p hp => by rw [xisOf_getElem?, hp]; rfl
  obtain ⟨res, h1, h2, h3⟩ := mapM_rel parts (fun i => (do
      let p ← getIdx parts i
      let d ← hiDyn (hiLin H kf (xisOf parts) u t) i
      let x ← getIdx (H.xiNext parts u t noise) i
      let r ← predOpt p.2.1 p.2.2 d
      return (x, r.1, r.2) : PyM (RbP lxi lz)))
    (fun i p b => (H.xiNext parts u t noise)[i]? = some b.1 ∧ b.2.2.PosSemidef ∧ M.nextZ p u t = Spec.gauss b.2.1 b.2.2) (by
    intro i p hp
    have hpP := hP p (List.mem_of_getElem? hp)
    obtain ⟨x, hx'⟩ : ∃ x, (H.xiNext parts u t noise)[i]? = some x := ⟨_, List.getElem?_eq_getElem (by rw [hl]; exact lt_of_getElem?_some hp)⟩
    refine ⟨(x, predictFull p.2.1 p.2.2 (M.Az p.1 u t) (M.fz p.1 u t) (M.Qz p.1 u t)), ?_, hx', ?_, ?_⟩
    · simp only [getIdx_ok.2 hp, ok_bind, hiDyn_eq hD _ u t i p.1 (hx i p hp), getIdx_ok.2 hx', predOpt]
      rfl
    · exact (posSemidef_conj hpP _).add (hG.Qz p.1 u t)
    · exact nextZ_eq hG p hpP u t)
  refine ⟨res, ?_, h2, fun i p x hp hx' => ?_⟩
  · unfold hiUpdate hiCondPredict
    rw [if_pos hl]
    exact h1
  · obtain ⟨b, hb, hb1, hb2, hb3⟩ := h3 i p hp
    rw [hx', Option.some.injEq] at hb1
    exact ⟨b.2.1, b.2.2, by rw [hb, hb1], hb2, hb3⟩

/-! ## C77 -/

/-- **C77** `logp_xnext` is the log density of the next nonlinear state (the user's `logp_xnext_xi`) plus the exact log density of the next linear state
given the particle. -/
theorem C77_logp_xnext {H : HiHooks lxi lz ly U T Y Noise} {kf : KF lz ly} {M : Spec.HiModel lxi lz ly U T Y} (hD : Spec.HiDescribes H kf M)
    (hG : M.Good) (hQ : ∀ x u t, (M.Qz x u t).PosDef) (parts : List (RbP lxi lz)) (hne : parts ≠ []) (hP : ∀ p ∈ parts, p.2.2.PosSemidef)
    (u : U) (t : T) (next nx : List (VecR lxi × VecR lz)) (hn : Spec.NextAll parts.length next nx)
    (hl : (H.logpXi parts (nx.map Prod.fst) u t).length = parts.length) :
    ∃ r, hiLogpXnext H kf parts next u t = .ok r ∧ r.length = parts.length ∧ ∀ (i : ℕ) p, parts[i]? = some p →
      ∃ logp : VecR lz → ℝ, M.nextZ p u t = volume.withDensity (fun x => ENNReal.ofReal (Real.exp (logp x))) ∧
        (∀ z, logp z = Spec.logNormal (M.Az p.1 u t * p.2.2 * (M.Az p.1 u t)ᵀ + M.Qz p.1 u t) (z - (M.fz p.1 u t + M.Az p.1 u t *ᵥ p.2.1))) ∧
        ∀ x a, nx[i]? = some x → (H.logpXi parts (nx.map Prod.fst) u t)[i]? = some a → r[i]? = some (a + logp x.2) := by
  have hx : ∀ (i : ℕ) (p : RbP lxi lz), parts[i]? = some p → (xisOf parts)[i]? = some p.1 := fun i p hp => by rw [xisOf_getElem?, hp]; rfl
  have hN : parts.length ≠ 0 := fun h => hne (List.length_eq_zero_iff.1 h)
  have hS : ∀ p ∈ parts, (M.Az p.1 u t * p.2.2 * (M.Az p.1 u t)ᵀ + M.Qz p.1 u t).PosDef := fun p hp =>
    Matrix.PosDef.posSemidef_add (posSemidef_conj (hP p hp) _) (hQ p.1 u t)
  obtain ⟨lpz, h1, h2, h3⟩ := mapM_rel parts (fun i => (do
      let p ← getIdx parts i
      let d ← hiDyn (hiLin H kf (xisOf parts) u t) i
      let x ← getIdx nx i
      hiLogpZ p x.2 d : PyM ℝ))
    (fun i p b => ∃ x, nx[i]? = some x ∧ b = Spec.logNormal (M.Az p.1 u t * p.2.2 * (M.Az p.1 u t)ᵀ + M.Qz p.1 u t)
      (x.2 - (M.fz p.1 u t + M.Az p.1 u t *ᵥ p.2.1))) (by
    intro i p hp
    obtain ⟨x, hx'⟩ : ∃ x, nx[i]? = some x := ⟨_, List.getElem?_eq_getElem (by rw [hn.1]; exact lt_of_getElem?_some hp)⟩
    obtain ⟨c, -, h2, -⟩ := C42_helpers_agree _ (hS p (List.mem_of_getElem? hp))
    refine ⟨_, ?_, x, hx', rfl⟩
    simp only [getIdx_ok.2 hp, ok_bind, hiDyn_eq hD _ u t i p.1 (hx i p hp), getIdx_ok.2 hx', hiLogpZ, predOpt, predictFull, h2])
  refine ⟨List.zipWith (· + ·) (H.logpXi parts (nx.map Prod.fst) u t) lpz, ?_, by simp [h2, hl], fun i p hp => ?_⟩
  · unfold hiLogpXnext
    simp only [repeatNext_all hN hn]
    rw [h1, ok_bind]
    exact if_pos hl
  · refine ⟨_, ?_, fun _ => rfl, fun x a hx' ha => ?_⟩
    · rw [nextZ_eq hG p (hP p (List.mem_of_getElem? hp)), gauss_density (hS p (List.mem_of_getElem? hp))]
    · obtain ⟨b, hb, x', hx'', rfl⟩ := h3 i p hp
      rw [hx', Option.some.injEq] at hx''
      subst hx''
      simp [List.getElem?_zipWith, ha, hb]

/-- Covariance of the next linear state given a particle. -/
def Spec.HiModel.predCov (M : Spec.HiModel lxi lz ly U T Y) (p : RbP lxi lz) (u : U) (t : T) : MatR lz lz :=
  M.Az p.1 u t * p.2.2 * (M.Az p.1 u t)ᵀ + M.Qz p.1 u t

theorem hiMax_eq {H : HiHooks lxi lz ly U T Y Noise} {kf : KF lz ly} {M : Spec.HiModel lxi lz ly U T Y} (hD : Spec.HiDescribes H kf M)
    (hQ : ∀ x u t, (M.Qz x u t).PosDef) (parts : List (RbP lxi lz)) (hP : ∀ p ∈ parts, p.2.2.PosSemidef)
    (u : U) (t : T) (hl : (H.logpXiMax parts u t).length = parts.length) :
    ∃ lpz, lpz.length = parts.length ∧ hiLogpXnextMax H kf parts u t = npMax (List.zipWith (· + ·) (H.logpXiMax parts u t) lpz) ∧
      ∀ (i : ℕ) (p : RbP lxi lz), parts[i]? = some p →
        lpz[i]? = some (-(1 / 2) * (lz : ℝ) * Real.log (2 * Real.pi) + Real.log (M.predCov p u t).det) := by
  have hx : ∀ (i : ℕ) (p : RbP lxi lz), parts[i]? = some p → (xisOf parts)[i]? = some p.1 := fun i p hp => by rw [xisOf_getElem?, hp]; rfl
  have hS : ∀ p ∈ parts, (M.predCov p u t).PosDef := fun p hp =>
    Matrix.PosDef.posSemidef_add (posSemidef_conj (hP p hp) _) (hQ p.1 u t)
  have e1 : (hiLin H kf (xisOf parts) u t).A.1 = _ := perPart_gives (hD.Az (xisOf parts) u t)
  have e3 : (hiLin H kf (xisOf parts) u t).Q.1 = _ := perPart_gives (hD.Qz (xisOf parts) u t)
  obtain ⟨lpz, h1, h2, h3⟩ := mapM_points parts (fun i => (do
      let p ← getIdx parts i
      let A ← getIdx (hiLin H kf (xisOf parts) u t).A.1 i
      let Q ← getIdx (hiLin H kf (xisOf parts) u t).Q.1 i
      let Pn ← hiPredCov p A Q
      return -(1 / 2) * (lz : ℝ) * Real.log (2 * Real.pi) + Real.log |Pn.det| : PyM ℝ))
    (fun _ p => -(1 / 2) * (lz : ℝ) * Real.log (2 * Real.pi) + Real.log (M.predCov p u t).det) (by
    intro i p hp
    simp only [getIdx_ok.2 hp, ok_bind, e1, e3,
      getIdx_ok.2 (show ((xisOf parts).map fun x => some (M.Az x u t))[i]? = some (some (M.Az p.1 u t)) by simp [hx i p hp]),
      getIdx_ok.2 (show ((xisOf parts).map fun x => some (M.Qz x u t))[i]? = some (some (M.Qz p.1 u t)) by simp [hx i p hp]), hiPredCov,
      pure_eq_ok]
    rw [← Spec.HiModel.predCov, abs_of_pos (hS p (List.mem_of_getElem? hp)).det_pos])
  refine ⟨lpz, h2, ?_, h3⟩
  unfold hiLogpXnextMax
  dsimp only
  rw [h1, ok_bind]
  exact if_pos hl

/-- **C77** `logp_xnext_max` succeeds, and bounds all values of `logp_xnext` for these particles when every predicted covariance has determinant at least one
(and the user's `logp_xnext_xi_max` bounds the user's `logp_xnext_xi`). -/
theorem C77_logp_xnext_max {H : HiHooks lxi lz ly U T Y Noise} {kf : KF lz ly} {M : Spec.HiModel lxi lz ly U T Y} (hD : Spec.HiDescribes H kf M)
    (hG : M.Good) (hQ : ∀ x u t, (M.Qz x u t).PosDef) (parts : List (RbP lxi lz)) (hne : parts ≠ []) (hP : ∀ p ∈ parts, p.2.2.PosSemidef)
    (u : U) (t : T) (hl : (H.logpXiMax parts u t).length = parts.length) :
    ∃ m, hiLogpXnextMax H kf parts u t = .ok m ∧
      ((∀ p ∈ parts, 1 ≤ (M.predCov p u t).det) → ∀ next nx r, Spec.NextAll parts.length next nx →
        (H.logpXi parts (nx.map Prod.fst) u t).length = parts.length →
        (∀ (i : ℕ) a b, (H.logpXi parts (nx.map Prod.fst) u t)[i]? = some a → (H.logpXiMax parts u t)[i]? = some b → a ≤ b) →
        hiLogpXnext H kf parts next u t = .ok r → ∀ v ∈ r, v ≤ m) := by
  obtain ⟨lpz, e1, e2, e3⟩ := hiMax_eq hD hQ parts hP u t hl
  have hN : parts.length ≠ 0 := fun h => hne (List.length_eq_zero_iff.1 h)
  obtain ⟨m, hm⟩ := npMax_ok (l := List.zipWith (· + ·) (H.logpXiMax parts u t) lpz) (by
    rw [ne_eq, ← List.length_eq_zero_iff, List.length_zipWith, hl, e1]; simpa using hN)
  refine ⟨m, e2.trans hm, fun hdet next nx r hn hlx hb hr v hv => ?_⟩
  obtain ⟨r', h1, h2, h3⟩ := C77_logp_xnext hD hG hQ parts hne hP u t next nx hn hlx
  rw [h1, Except.ok.injEq] at hr
  subst hr
  obtain ⟨i, hi⟩ := List.mem_iff_getElem?.1 hv
  have hi' : i < parts.length := by rw [← h2]; exact lt_of_getElem?_some hi
  obtain ⟨p, hp⟩ : ∃ p, parts[i]? = some p := ⟨_, List.getElem?_eq_getElem hi'⟩
  obtain ⟨x, hx⟩ : ∃ x, nx[i]? = some x := ⟨_, List.getElem?_eq_getElem (by rw [hn.1]; exact hi')⟩
  obtain ⟨a, ha⟩ : ∃ x, (H.logpXi parts (nx.map Prod.fst) u t)[i]? = some x := ⟨_, List.getElem?_eq_getElem (by rw [hlx]; exact hi')⟩
  obtain ⟨b, hb'⟩ : ∃ x, (H.logpXiMax parts u t)[i]? = some x := ⟨_, List.getElem?_eq_getElem (by rw [hl]; exact hi')⟩
  obtain ⟨logp, -, h4, h5⟩ := h3 i p hp
  have hv' := h5 x a hx ha
  rw [hi, Option.some.injEq] at hv'
  have hS : (M.predCov p u t).PosDef := Matrix.PosDef.posSemidef_add (posSemidef_conj (hP p (List.mem_of_getElem? hp)) _) (hQ p.1 u t)
  have hle := logNormal_le hS (x.2 - (M.fz p.1 u t + M.Az p.1 u t *ᵥ p.2.1))
  have hmem : b + (-(1 / 2) * (lz : ℝ) * Real.log (2 * Real.pi) + Real.log (M.predCov p u t).det) ∈
      List.zipWith (· + ·) (H.logpXiMax parts u t) lpz :=
    List.mem_of_getElem? (i := i) (by simp [List.getElem?_zipWith, hb', e3 i p hp])
  have hmax := (npMax_spec hm).2 _ hmem
  have hlog := Real.log_nonneg (hdet p (List.mem_of_getElem? hp))
  have hab := hb i a b ha hb'
  rw [hv', h4]
  have hz : Spec.logNormal (M.predCov p u t) 0 = -(lz / 2) * Real.log (2 * Real.pi) - 1 / 2 * Real.log (M.predCov p u t).det := by
    simp [Spec.logNormal]
  rw [← Spec.HiModel.predCov]
  rw [hz] at hle
  linarith

/-- **C77** (Defect) For one particle the value of `logp_xnext_max` is an upper bound for `logp_xnext` exactly when the determinant of the predicted covariance
is at least one (when the user's `logp_xnext_xi_max` is attained): the code adds `log det` instead of subtracting half of it. -/
theorem C77_max_bound_iff {H : HiHooks lxi lz ly U T Y Noise} {kf : KF lz ly} {M : Spec.HiModel lxi lz ly U T Y} (hD : Spec.HiDescribes H kf M)
    (hG : M.Good) (hQ : ∀ x u t, (M.Qz x u t).PosDef) (p : RbP lxi lz) (hP : p.2.2.PosSemidef)
    (u : U) (t : T) (x : VecR lxi) (a : ℝ) (ha : H.logpXi [p] [x] u t = [a]) (hb : H.logpXiMax [p] u t = [a]) :
    ∃ m, hiLogpXnextMax H kf [p] u t = .ok m ∧
      ((∀ z r, hiLogpXnext H kf [p] [(x, z)] u t = .ok r → ∀ v ∈ r, v ≤ m) ↔ 1 ≤ (M.predCov p u t).det) := by
  have hP' : ∀ q ∈ [p], q.2.2.PosSemidef := by simpa using hP
  obtain ⟨lpz, e1, e2, e3⟩ := hiMax_eq hD hQ [p] hP' u t (by simp [hb])
  have hS : (M.predCov p u t).PosDef := Matrix.PosDef.posSemidef_add (posSemidef_conj hP _) (hQ p.1 u t)
  obtain ⟨c, rfl⟩ := List.length_eq_one_iff.1 e1
  have hc := e3 0 p rfl
  simp only [List.getElem?_cons_zero, Option.some.injEq] at hc
  refine ⟨a + c, by rw [e2, hb]; rfl, ?_⟩
  have hlog : ∀ z, ∃ r, hiLogpXnext H kf [p] [(x, z)] u t = .ok r ∧
      r = [a + Spec.logNormal (M.predCov p u t) (z - (M.fz p.1 u t + M.Az p.1 u t *ᵥ p.2.1))] := by
    intro z
    obtain ⟨r, h1, h2, h3⟩ := C77_logp_xnext hD hG hQ [p] (by simp) hP' u t [(x, z)] [(x, z)] ⟨rfl, .inl rfl⟩ (by simp [ha])
    refine ⟨r, h1, ?_⟩
    obtain ⟨logp, -, h4, h5⟩ := h3 0 p rfl
    have := h5 (x, z) a rfl (by simp [ha])
    obtain ⟨b, rfl⟩ := List.length_eq_one_iff.1 h2
    simp only [List.getElem?_cons_zero, Option.some.injEq] at this
    rw [this, h4]
    rfl
  have hz : ∀ e, Spec.logNormal (M.predCov p u t) e ≤ -(lz / 2) * Real.log (2 * Real.pi) - 1 / 2 * Real.log (M.predCov p u t).det := by
    intro e
    have := logNormal_le hS e
    simpa [Spec.logNormal] using this
  constructor
  · intro h
    obtain ⟨r, h1, h2⟩ := hlog (M.fz p.1 u t + M.Az p.1 u t *ᵥ p.2.1)
    have := h _ r h1 _ (by rw [h2]; exact List.mem_singleton_self _)
    rw [hc, sub_self] at this
    simp only [Spec.logNormal, zero_dotProduct] at this
    have h0 : 0 ≤ Real.log (M.predCov p u t).det := by linarith
    by_contra hlt
    exact absurd (Real.log_neg hS.det_pos (not_le.1 hlt)) (not_lt.2 h0)
  · intro hdet z r hr v hv
    obtain ⟨r', h1, h2⟩ := hlog z
    rw [h1, Except.ok.injEq] at hr
    subst hr
    rw [h2, List.mem_singleton] at hv
    rw [hv, hc]
    have := hz (z - (M.fz p.1 u t + M.Az p.1 u t *ᵥ p.2.1))
    have := Real.log_nonneg hdet
    linarith

/-! ## C52 -/

/-- What the loop of `sample_smooth` conditions on: one "measurement" of the next linear state per trajectory in `js`. -/
def Spec.HiModel.nextOps (M : Spec.HiModel lxi lz ly U T Y) (parts : List (RbP lxi lz)) (nx : ℕ → VecR lz) (u : U) (t : T) (js : List ℕ) :
    List (Spec.DataOp lz) :=
  js.map fun j => .meas lz (M.Az ((xisOf parts)[j]?.getD 0) u t) (M.fz ((xisOf parts)[j]?.getD 0) u t) (M.Qz ((xisOf parts)[j]?.getD 0) u t) (nx j)

theorem hiSampleLoop_eq {H : HiHooks lxi lz ly U T Y Noise} {kf : KF lz ly} {M : Spec.HiModel lxi lz ly U T Y} (hD : Spec.HiDescribes H kf M)
    (hQ : ∀ x u t, (M.Qz x u t).PosDef) (fut : List (VecR lxi × VecR lz)) (find : List ℕ) (u : U) (t : T) (parts : List (RbP lxi lz))
    (hf : find.length = parts.length) (hfi : ∀ k ∈ find, k < fut.length) (nx : ℕ → VecR lz)
    (hnx : ∀ (j k : ℕ) x, find[j]? = some k → fut[k]? = some x → nx j = x.2) (x0 : VecR lxi) (z0 : VecR lz) (P0 : MatR lz lz)
    (hP0 : P0.PosSemidef) (pre js : List ℕ)
    (hjs : ∀ j ∈ js, j < parts.length) (part : List (RbP lxi lz)) (hx : xisOf part = xisOf parts) (z : VecR lz) (P : MatR lz lz) (ll : ℝ)
    (h0 : part[0]? = some (x0, z, P)) (hP : P.PosSemidef)
    (hk : kfData z0 P0 (M.nextOps parts nx u t pre) = .ok (z, P, ll)) :
    ∃ r, hiSampleLoop H kf (some fut) find u t part js = .ok r ∧ r.length = js.length ∧
      ∀ i < js.length, ∃ z' P' ll', r[i]? = some (x0, z', P') ∧ P'.PosSemidef ∧
        kfData z0 P0 (M.nextOps parts nx u t (pre ++ js.take (i + 1))) = .ok (z', P', ll') := by
  induction js generalizing part z P ll pre with
  | nil => exact ⟨[], rfl, rfl, fun i hi => by simp at hi⟩
  | cons j js ih =>
    have hj := hjs j (by simp)
    have hlen : part.length = parts.length := by
      have := congrArg List.length hx; simpa [xisOf] using this
    obtain ⟨pj, hpj⟩ : ∃ p, part[j]? = some p := ⟨_, List.getElem?_eq_getElem (by rw [hlen]; exact hj)⟩
    obtain ⟨k, hkj⟩ : ∃ p, find[j]? = some p := ⟨_, List.getElem?_eq_getElem (by rw [hf]; exact hj)⟩
    obtain ⟨x, hxk⟩ : ∃ p, fut[k]? = some p := ⟨_, List.getElem?_eq_getElem (hfi k (List.mem_of_getElem? hkj))⟩
    have hxj : (xisOf parts)[j]? = some pj.1 := by rw [← hx, xisOf_getElem?, hpj]; rfl
    obtain ⟨z1, P1, dl, e1, e2, -⟩ := measureFull_good x.2 z (M.Az pj.1 u t) (M.fz pj.1 u t) hP (hQ pj.1 u t)
    have hstep : hiSampleStep H kf (some fut) find u t part j = .ok (part.set 0 (x0, z1, P1), (x0, z1, P1)) := by
      simp only [hiSampleStep, getIdx_ok.2 hpj, getIdx_ok.2 h0, getIdx_ok.2 hkj, getIdx_ok.2 hxk, ok_bind, hiDyn_eq hD [pj.1] u t 0 pj.1 rfl,
        measFullOpt, e1, pure_eq_ok]
    have hk' : kfData z0 P0 (M.nextOps parts nx u t (pre ++ [j])) = .ok (z1, P1, ll + (dl + 0)) := by
      have hsplit : M.nextOps parts nx u t (pre ++ [j]) = M.nextOps parts nx u t pre ++ M.nextOps parts nx u t [j] := by
        simp [Spec.HiModel.nextOps]
      rw [hsplit]
      refine kfData_append _ _ _ _ hk ?_
      simp only [Spec.HiModel.nextOps, List.map_cons, List.map_nil, hxj, Option.getD_some, hnx j k x hkj hxk, kfData, e1, ok_bind, pure_eq_ok]
    have hset : xisOf (part.set 0 (x0, z1, P1)) = xisOf parts := by
      rw [← hx]
      unfold xisOf
      rw [List.map_set]
      refine List.ext_getElem? fun i => ?_
      rw [List.getElem?_set]
      split
      · rename_i hi
        subst hi
        rw [if_pos (by simpa using lt_of_getElem?_some h0), List.getElem?_map, h0]
        rfl
      · rfl
    obtain ⟨r, hr, hrl, hri⟩ := ih (pre ++ [j]) (fun i hi => hjs i (by simp [hi])) (part.set 0 (x0, z1, P1)) hset z1 P1 _ (by
      rw [List.getElem?_set_self (lt_of_getElem?_some h0)]) e2 hk'
    refine ⟨(x0, z1, P1) :: r, by simp only [hiSampleLoop, hstep, hr, ok_bind, pure_eq_ok], by simp [hrl], fun i hi => ?_⟩
    cases i with
    | zero => exact ⟨z1, P1, _, rfl, e2, by simpa using hk'⟩
    | succ i =>
      obtain ⟨z', P', ll', f1, f2, f3⟩ := hri i (by simpa using hi)
      exact ⟨z', P', ll', by simpa using f1, f2, by simpa using f3⟩

/-- **C52** `sample_smooth` with one trajectory draws the linear state from its exact law given the particle and the next linear state; at the last step from
the particle's own law. -/
theorem C52_single_exact {H : HiHooks lxi lz ly U T Y Noise} {kf : KF lz ly} {M : Spec.HiModel lxi lz ly U T Y} (hD : Spec.HiDescribes H kf M)
    (hQ : ∀ x u t, (M.Qz x u t).PosDef) (p : RbP lxi lz) (hP : p.2.2.PosSemidef) (fut : List (VecR lxi × VecR lz)) (k : ℕ)
    (x : VecR lxi × VecR lz) (hk : fut[k]? = some x) (u : U) (t : T) :
    hiSampleSmooth H kf [p] none [k] u t = .ok [p] ∧
    ∃ z P ll, hiSampleSmooth H kf [p] (some fut) [k] u t = .ok [(p.1, z, P)] ∧ P.PosSemidef ∧
      (Spec.gauss p.2.1 p.2.2).withDensity (Spec.likelihood (M.Az p.1 u t) (M.fz p.1 u t) (M.Qz p.1 u t) x.2) =
        ENNReal.ofReal (Real.exp ll) • Spec.gauss z P := by
  refine ⟨rfl, ?_⟩
  obtain ⟨z, P, ll, e1, e2, e3⟩ := measureFull_good x.2 p.2.1 (M.Az p.1 u t) (M.fz p.1 u t) hP (hQ p.1 u t)
  refine ⟨z, P, ll, ?_, e2, e3⟩
  have h1 : getIdx fut k = .ok x := getIdx_ok.2 hk
  simp only [hiSampleSmooth, List.length_singleton, List.range_one, hiSampleLoop, hiSampleStep, hiDyn_eq hD [p.1] u t 0 p.1 rfl, h1,
    getIdx_ok.2 (show [p][0]? = some p from rfl), getIdx_ok.2 (show [k][0]? = some k from rfl), ok_bind, measFullOpt, e1, pure_eq_ok]

/-- **C52** (Defect) With several trajectories every row of the result carries the nonlinear state of the first particle, and the linear state of
trajectory `j` is drawn from the law of the first particle conditioned on the next linear states of all trajectories up to and including `j`. -/
theorem C52_sample_smooth {H : HiHooks lxi lz ly U T Y Noise} {kf : KF lz ly} {M : Spec.HiModel lxi lz ly U T Y} (hD : Spec.HiDescribes H kf M)
    (hQ : ∀ x u t, (M.Qz x u t).PosDef) (fut : List (VecR lxi × VecR lz)) (find : List ℕ) (u : U) (t : T) (p : RbP lxi lz)
    (rest : List (RbP lxi lz)) (hP : p.2.2.PosSemidef)
    (hf : find.length = rest.length + 1) (hfi : ∀ k ∈ find, k < fut.length) (nx : ℕ → VecR lz)
    (hnx : ∀ (j k : ℕ) x, find[j]? = some k → fut[k]? = some x → nx j = x.2) :
    (hiSampleSmooth H kf (p :: rest) none find u t = .ok (List.replicate (rest.length + 1) p)) ∧
    ∃ r, hiSampleSmooth H kf (p :: rest) (some fut) find u t = .ok r ∧ r.length = rest.length + 1 ∧
      ∀ j ≤ rest.length, ∃ z P ll, r[j]? = some (p.1, z, P) ∧ P.PosSemidef ∧
        Spec.filtered (Spec.gauss p.2.1 p.2.2) (M.nextOps (p :: rest) nx u t (List.range (j + 1))) =
          ENNReal.ofReal (Real.exp ll) • Spec.gauss z P := by
  constructor
  · have key : ∀ js : List ℕ, (∀ j ∈ js, j < rest.length + 1) →
        hiSampleLoop H kf none find u t (p :: rest) js = .ok (List.replicate js.length p) := by
      intro js
      induction js with
      | nil => intro _; rfl
      | cons j js ih =>
        intro hjs
        obtain ⟨q, hq⟩ : ∃ q, (p :: rest)[j]? = some q := ⟨_, List.getElem?_eq_getElem (by simpa using hjs j (by simp))⟩
        simp only [hiSampleLoop, hiSampleStep, getIdx_ok.2 hq, getIdx_ok.2 (show (p :: rest)[0]? = some p from rfl), ok_bind, pure_eq_ok,
          ih fun i hi => hjs i (by simp [hi])]
        rfl
    have := key (List.range (p :: rest).length) (by simp)
    simpa [hiSampleSmooth] using this
  · obtain ⟨r, hr, hrl, hri⟩ := hiSampleLoop_eq hD hQ fut find u t (p :: rest) (by simpa using hf) hfi nx hnx p.1 p.2.1 p.2.2 hP []
      (List.range (p :: rest).length) (by simp) (p :: rest) rfl p.2.1 p.2.2 0 rfl hP rfl
    refine ⟨r, hr, by simpa using hrl, fun j hj => ?_⟩
    obtain ⟨z, P, ll, f1, f2, f3⟩ := hri j (by simp; omega)
    obtain ⟨z', P', ll', g1, g2, g3⟩ := C71_filter_exact p.2.1 p.2.2 hP (M.nextOps (p :: rest) nx u t (List.range (j + 1))) (by
      intro op hop
      obtain ⟨i, -, rfl⟩ := List.mem_map.1 hop
      exact hQ _ _ _)
    have htake : [] ++ (List.range (p :: rest).length).take (j + 1) = List.range (j + 1) := by
      rw [List.nil_append, List.take_range, List.length_cons, min_eq_left (by omega)]
    rw [htake] at f3
    rw [f3, Except.ok.injEq, Prod.mk.injEq, Prod.mk.injEq] at g1
    obtain ⟨rfl, rfl, rfl⟩ := g1
    exact ⟨z, P, ll, f1, f2, g3⟩

end PyPE

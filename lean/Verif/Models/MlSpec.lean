import Verif.Models.Ml
import Verif.Kalman.Bayes
import Verif.Smooth.Lemmas

/-!
# Rao-Blackwellised models: what the user writes down, and the matrices the code uses

`Spec.RbModel` is the mixed linear/nonlinear Gaussian model on paper. `Spec.RbDescribes` says that a class and its object implement it: every
overridable method returns `None` (then the constant given to the constructor is the right one) or the list of matrices of the particles.
-/

open MeasureTheory ProbabilityTheory Matrix
namespace PyPE

variable {lxi lz ly : ℕ} {U T Y : Type}

/-! ## Specification -/

/-- The model on paper: `xi' = Axi z + fxi + vxi`, `z' = Az z + fz + vz`, `y = C z + h + e`, all matrices functions of the nonlinear state
`xi`; `Qxi`, `Qz`, `R` the covariances handed to the code, `Qxiz` the cross covariance of `vxi` and `vz`. -/
structure Spec.RbModel (lxi lz ly : ℕ) (U T Y : Type) where
  Axi : VecR lxi → U → T → MatR lxi lz
  fxi : VecR lxi → U → T → VecR lxi
  Qxi : VecR lxi → U → T → MatR lxi lxi
  Az : VecR lxi → U → T → MatR lz lz
  fz : VecR lxi → U → T → VecR lz
  Qz : VecR lxi → U → T → MatR lz lz
  Qxiz : VecR lxi → U → T → MatR lxi lz
  C : VecR lxi → Y → T → MatR ly lz
  h : VecR lxi → Y → T → VecR ly
  R : VecR lxi → Y → T → MatR ly ly
  /-- The measurement after the preprocessing in `get_meas_dynamics`. -/
  y : Y → T → VecR ly

/-- Valid covariances. -/
structure Spec.RbModel.Good (M : Spec.RbModel lxi lz ly U T Y) : Prop where
  Qxi : ∀ x u t, (M.Qxi x u t).PosDef
  Qz : ∀ x u t, (M.Qz x u t).PosSemidef
  R : ∀ x y t, (M.R x y t).PosDef

/-- An overridable method gives the values `val`: it returns their list, or `None` and the constant of the object is that value. -/
def Spec.Gives {α X : Type} (hook : Option (List α)) (own : Option α) (xs : List X) (val : X → α) : Prop :=
  match hook with
  | some l => l = xs.map val
  | none => ∀ x ∈ xs, own = some (val x)

/-- The same for terms that may be missing altogether, which means zero. -/
def Spec.GivesOrZero {α X : Type} [Zero α] (hook : Option (List α)) (own : Option α) (xs : List X) (val : X → α) : Prop :=
  match hook, own with
  | some l, _ => l = xs.map val
  | none, some c => ∀ x ∈ xs, c = val x
  | none, none => ∀ x ∈ xs, val x = 0

/-- The class `H` with the object `o` implements the model `M`. -/
structure Spec.RbDescribes (H : MlHooks lxi lz ly U T Y) (o : MlObj lxi lz ly) (M : Spec.RbModel lxi lz ly U T Y) : Prop where
  Axi : ∀ xs u t, Spec.Gives (H.nonlin xs u t).1 o.Axi xs (M.Axi · u t)
  fxi : ∀ xs u t, Spec.Gives (H.nonlin xs u t).2.1 (some o.fxi) xs (M.fxi · u t)
  Qxi : ∀ xs u t, Spec.Gives (H.nonlin xs u t).2.2 o.Qxi xs (M.Qxi · u t)
  Az : ∀ xs u t, Spec.Gives (H.lin xs u t).1 o.kf.A xs (M.Az · u t)
  fz : ∀ xs u t, Spec.Gives (H.lin xs u t).2.1 o.kf.fk xs (M.fz · u t)
  Qz : ∀ xs u t, Spec.Gives (H.lin xs u t).2.2 o.kf.Q xs (M.Qz · u t)
  Qxiz : ∀ xs u t, Spec.GivesOrZero (H.cross xs u t) o.Qxiz xs (M.Qxiz · u t)
  C : ∀ xs y t, Spec.GivesOrZero (H.meas xs y t).2.1 o.kf.C xs (M.C · y t)
  h : ∀ xs y t, Spec.GivesOrZero (H.meas xs y t).2.2.1 o.kf.hk xs (M.h · y t)
  R : ∀ xs y t, Spec.Gives (H.meas xs y t).2.2.2 o.kf.R xs (M.R · y t)
  y : ∀ xs y t, (H.meas xs y t).1 = M.y y t
  /-- A measurement must depend on something: with neither `C` nor `h` the code raises `TypeError`. -/
  someTerm : ∀ xs y t, xs ≠ [] → (H.meas xs y t).2.1 = none → o.kf.C = none → (H.meas xs y t).2.2.1 = none → o.kf.hk ≠ none

/-! ## Matrices per particle -/

theorem perPart_gives {α X : Type} {hook : Option (List α)} {own : Option α} {xs : List X} {val : X → α}
    (h : Spec.Gives hook own xs val) : (perPart xs.length hook own).1 = xs.map fun x => some (val x) := by
  cases hook with
  | some l => simp only [Spec.Gives] at h; simp [perPart, h]
  | none =>
    simp only [Spec.Gives] at h
    simp only [perPart]
    symm
    rw [List.eq_replicate_iff]
    refine ⟨by simp, fun b hb => ?_⟩
    obtain ⟨x, hx, rfl⟩ := List.mem_map.1 hb
    exact (h x hx).symm

theorem perPart_identical {α : Type} {N : ℕ} {hook : Option (List α)} {own : Option α} (h : (perPart N hook own).2 = true) :
    hook = none ∧ (perPart N hook own).1 = List.replicate N own := by
  cases hook with
  | some l => simp [perPart] at h
  | none => exact ⟨rfl, rfl⟩

theorem mlNonlin_eq {H : MlHooks lxi lz ly U T Y} {o : MlObj lxi lz ly} {M : Spec.RbModel lxi lz ly U T Y} (hD : Spec.RbDescribes H o M)
    (xs : List (VecR lxi)) (u : U) (t : T) :
    (mlNonlin H o xs u t).A.1 = xs.map (fun x => some (M.Axi x u t)) ∧
    (mlNonlin H o xs u t).f.1 = xs.map (fun x => some (M.fxi x u t)) ∧
    (mlNonlin H o xs u t).Q.1 = xs.map (fun x => some (M.Qxi x u t)) :=
  ⟨perPart_gives (hD.Axi xs u t), perPart_gives (hD.fxi xs u t), perPart_gives (hD.Qxi xs u t)⟩

theorem mlLin_eq {H : MlHooks lxi lz ly U T Y} {o : MlObj lxi lz ly} {M : Spec.RbModel lxi lz ly U T Y} (hD : Spec.RbDescribes H o M)
    (xs : List (VecR lxi)) (u : U) (t : T) :
    (mlLin H o xs u t).A.1 = xs.map (fun x => some (M.Az x u t)) ∧
    (mlLin H o xs u t).f.1 = xs.map (fun x => some (M.fz x u t)) ∧
    (mlLin H o xs u t).Q.1 = xs.map (fun x => some (M.Qz x u t)) :=
  ⟨perPart_gives (hD.Az xs u t), perPart_gives (hD.fz xs u t), perPart_gives (hD.Qz xs u t)⟩

theorem mapM_range_eq {α β : Type} (l : List α) (F : ℕ → PyM β) (G : α → PyM β)
    (h : ∀ i x, l[i]? = some x → F i = G x) : (List.range l.length).mapM F = l.mapM G := by
  induction l using List.reverseRecOn with
  | nil => rfl
  | append_singleton l a ih =>
    rw [List.length_append, List.length_singleton, List.range_succ, List.mapM_append, List.mapM_append,
      ih fun i x hx => h i x (by rw [List.getElem?_append_left (lt_of_getElem?_some hx)]; exact hx)]
    congr 1
    funext b
    simp only [List.mapM_cons, List.mapM_nil]
    rw [h l.length a (by simp)]

/-- The conditional dynamics of the linear state used by the code: matrix, offset and covariance given the next nonlinear state. -/
noncomputable def Spec.RbModel.condA (M : Spec.RbModel lxi lz ly U T Y) (x : VecR lxi) (u : U) (t : T) : MatR lz lz :=
  M.Az x u t - (M.Qxiz x u t)ᵀ * (M.Qxi x u t)⁻¹ * M.Axi x u t

/-- Offset of the conditional dynamics. -/
noncomputable def Spec.RbModel.condF (M : Spec.RbModel lxi lz ly U T Y) (x : VecR lxi) (u : U) (t : T) (x' : VecR lxi) : VecR lz :=
  M.fz x u t + ((M.Qxiz x u t)ᵀ * (M.Qxi x u t)⁻¹) *ᵥ (x' - M.fxi x u t)

theorem xisOf_getElem? (parts : List (RbP lxi lz)) (i : ℕ) : (xisOf parts)[i]? = parts[i]?.map fun p => p.1 := by simp [xisOf]

theorem mlMeasXiNext_eq {H : MlHooks lxi lz ly U T Y} {o : MlObj lxi lz ly} {M : Spec.RbModel lxi lz ly U T Y} (hD : Spec.RbDescribes H o M)
    (parts : List (RbP lxi lz)) (xiN : List (VecR lxi)) (hl : xiN.length = parts.length) (u : U) (t : T) :
    mlMeasXiNext H o parts xiN u t = (parts.zip xiN).mapM fun px => do
      let r ← measureFull px.2 px.1.2.1 px.1.2.2 (some (M.Axi px.1.1 u t)) (some (M.fxi px.1.1 u t)) (M.Qxi px.1.1 u t)
      return (px.1.1, r.1, r.2.1) := by
  obtain ⟨hA, hf, hQ⟩ := mlNonlin_eq hD (xisOf parts) u t
  unfold mlMeasXiNext
  have hlen : parts.length = (parts.zip xiN).length := by simp [hl]
  rw [hlen]
  refine mapM_range_eq _ _ _ fun i px hpx => ?_
  rw [List.getElem?_zip_eq_some] at hpx
  have hx : (xisOf parts)[i]? = some px.1.1 := by rw [xisOf_getElem?, hpx.1]; rfl
  simp only [getIdx_ok.2 hpx.1, getIdx_ok.2 hpx.2, hA, hf, hQ, ok_bind,
    getIdx_ok.2 (show ((xisOf parts).map fun x => some (M.Axi x u t))[i]? = some (some (M.Axi px.1.1 u t)) by simp [hx]),
    getIdx_ok.2 (show ((xisOf parts).map fun x => some (M.fxi x u t))[i]? = some (some (M.fxi px.1.1 u t)) by simp [hx]),
    getIdx_ok.2 (show ((xisOf parts).map fun x => some (M.Qxi x u t))[i]? = some (some (M.Qxi px.1.1 u t)) by simp [hx]), measFullOpt]

theorem mlCross_eq {H : MlHooks lxi lz ly U T Y} {o : MlObj lxi lz ly} {M : Spec.RbModel lxi lz ly U T Y} (hD : Spec.RbDescribes H o M)
    (xs : List (VecR lxi)) (u : U) (t : T) :
    (mlCross H o xs u t = none ∧ ∀ x ∈ xs, M.Qxiz x u t = 0) ∨ mlCross H o xs u t = some (xs.map fun x => M.Qxiz x u t) := by
  have h := hD.Qxiz xs u t
  unfold mlCross
  cases hc : H.cross xs u t with
  | some l => right; rw [hc] at h; simp only [Spec.GivesOrZero] at h; simp [h]
  | none =>
    rw [hc] at h
    cases ho : o.Qxiz with
    | some X =>
      right
      rw [ho] at h
      simp only [Spec.GivesOrZero] at h
      simp only [Option.some.injEq]
      symm
      rw [List.eq_replicate_iff]
      refine ⟨by simp, fun b hb => ?_⟩
      obtain ⟨x, hx, rfl⟩ := List.mem_map.1 hb
      exact (h x hx).symm
    | none => left; rw [ho] at h; exact ⟨rfl, h⟩

theorem mlCondDyn_eq {H : MlHooks lxi lz ly U T Y} {o : MlObj lxi lz ly} {M : Spec.RbModel lxi lz ly U T Y} (hD : Spec.RbDescribes H o M)
    (hG : M.Good) (parts : List (RbP lxi lz)) (xiN : List (VecR lxi)) (hl : xiN.length = parts.length) (u : U) (t : T) :
    mlCondDyn H o parts xiN u t = .ok ((parts.zip xiN).map fun px =>
      (some (M.condA px.1.1 u t), some (M.condF px.1.1 u t px.2), some (M.Qz px.1.1 u t))) := by
  obtain ⟨hA, hf, hQ⟩ := mlNonlin_eq hD (xisOf parts) u t
  obtain ⟨gA, gf, gQ⟩ := mlLin_eq hD (xisOf parts) u t
  have hlen : parts.length = (parts.zip xiN).length := by simp [hl]
  unfold mlCondDyn
  rcases mlCross_eq hD (xisOf parts) u t with ⟨hc, h0⟩ | hc
  · simp only [hc]
    rw [hlen, mapM_range_eq (parts.zip xiN) _ (fun px => .ok (some (M.condA px.1.1 u t), some (M.condF px.1.1 u t px.2),
      some (M.Qz px.1.1 u t)))]
    · exact mapM_ok_map fun _ _ => rfl
    intro i px hpx
    rw [List.getElem?_zip_eq_some] at hpx
    have hx : (xisOf parts)[i]? = some px.1.1 := by rw [xisOf_getElem?, hpx.1]; rfl
    have hz := h0 _ (List.mem_of_getElem? hx)
    simp only [gA, gf, gQ, ok_bind,
      getIdx_ok.2 (show ((xisOf parts).map fun x => some (M.Az x u t))[i]? = some (some (M.Az px.1.1 u t)) by simp [hx]),
      getIdx_ok.2 (show ((xisOf parts).map fun x => some (M.fz x u t))[i]? = some (some (M.fz px.1.1 u t)) by simp [hx]),
      getIdx_ok.2 (show ((xisOf parts).map fun x => some (M.Qz x u t))[i]? = some (some (M.Qz px.1.1 u t)) by simp [hx]),
      Spec.RbModel.condA, Spec.RbModel.condF, hz]
    simp [pure_eq_ok]
  · simp only [hc]
    rw [hlen, mapM_range_eq (parts.zip xiN) _ (fun px => .ok (some (M.condA px.1.1 u t), some (M.condF px.1.1 u t px.2),
      some (M.Qz px.1.1 u t)))]
    · exact mapM_ok_map fun _ _ => rfl
    intro i px hpx
    rw [List.getElem?_zip_eq_some] at hpx
    have hx : (xisOf parts)[i]? = some px.1.1 := by rw [xisOf_getElem?, hpx.1]; rfl
    simp only [gA, gf, gQ, hA, hf, hQ, ok_bind, getIdx_ok.2 hpx.2,
      getIdx_ok.2 (show ((xisOf parts).map fun x => M.Qxiz x u t)[i]? = some (M.Qxiz px.1.1 u t) by simp [hx]),
      getIdx_ok.2 (show ((xisOf parts).map fun x => some (M.Qxi x u t))[i]? = some (some (M.Qxi px.1.1 u t)) by simp [hx]),
      getIdx_ok.2 (show ((xisOf parts).map fun x => some (M.Axi x u t))[i]? = some (some (M.Axi px.1.1 u t)) by simp [hx]),
      getIdx_ok.2 (show ((xisOf parts).map fun x => some (M.fxi x u t))[i]? = some (some (M.fxi px.1.1 u t)) by simp [hx]),
      getIdx_ok.2 (show ((xisOf parts).map fun x => some (M.Az x u t))[i]? = some (some (M.Az px.1.1 u t)) by simp [hx]),
      getIdx_ok.2 (show ((xisOf parts).map fun x => some (M.fz x u t))[i]? = some (some (M.fz px.1.1 u t)) by simp [hx]),
      getIdx_ok.2 (show ((xisOf parts).map fun x => some (M.Qz x u t))[i]? = some (some (M.Qz px.1.1 u t)) by simp [hx]),
      mlCondOne, (hG.Qxi px.1.1 u t).det_pos.ne', if_false]
    rfl

/-! ## Measurement updates -/

/-- A missing `C` or `h` is a zero one. -/
theorem measureFull_getD (y : VecR ly) (z : VecR lz) (P : MatR lz lz) (C : Option (MatR ly lz)) (h : Option (VecR ly)) (R : MatR ly ly) :
    measureFull y z P C h R = measureFull y z P (some (C.getD 0)) (some (h.getD 0)) R := by
  cases C <;> cases h <;> simp [measureFull, measErr]

theorem mlMeasOne_eq (y : VecR ly) (z : VecR lz) (P : MatR lz lz) (C : Option (MatR ly lz)) (h : Option (VecR ly)) (R : MatR ly ly)
    (hP : P.PosSemidef) (hR : R.PosDef) : mlMeasOne ly y z P C h (some R) = measureFull y z P C h R := by
  rcases ly with _ | _ | ly
  · rfl
  · have hp : 0 < (match C with | some C => C * P * Cᵀ + R | none => R) 0 0 := by
      cases C with
      | none => exact posDef_one_iff.1 hR
      | some C => exact posDef_one_iff.1 (Matrix.PosDef.posSemidef_add (posSemidef_conj hP C) hR)
    obtain ⟨z', P', ll, h1, h2⟩ := C40_scalar_eq_full y z P C h R (PosSemidef.isSymm' hP) hp
    simp only [mlMeasOne, h1, h2, ok_bind]
    rfl
  · rfl

theorem mlMeasVec_eq (y : VecR ly) (hs : List (VecR ly)) {R : MatR ly ly} (hR : R.PosDef) :
    mlMeasVec ly y hs R = .ok (hs.map fun h => Spec.logNormal R (y - h)) := by
  obtain ⟨c, hc, -, -, h3, -⟩ := C42_helpers_agree R hR
  rcases ly with _ | _ | ly
  · simp [mlMeasVec, hc, ok_bind, h3, pure_eq_ok, Function.comp_def]
  · simp only [mlMeasVec, lognormpdfScalar, if_neg (not_le.2 (posDef_one_iff.1 hR)), List.map_map, logNormal_one]
    rfl
  · simp [mlMeasVec, hc, ok_bind, h3, pure_eq_ok, Function.comp_def]

theorem givesOrZero_entries {α X : Type} [Zero α] {hook : Option (List α)} {own : Option α} {xs : List X} {val : X → α}
    (h : Spec.GivesOrZero hook own xs val) {i : ℕ} {x : X} (hx : xs[i]? = some x) :
    ∃ c, (perPart xs.length hook own).1[i]? = some c ∧ c.getD 0 = val x := by
  have hm := List.mem_of_getElem? hx
  have hi := lt_of_getElem?_some hx
  cases hook with
  | some l => simp only [Spec.GivesOrZero] at h; exact ⟨some (val x), by simp [perPart, h, hx], rfl⟩
  | none =>
    cases own with
    | some c => simp only [Spec.GivesOrZero] at h; exact ⟨some c, by simp [perPart, hi], h x hm⟩
    | none => simp only [Spec.GivesOrZero] at h; exact ⟨none, by simp [perPart, hi], (h x hm).symm⟩

/-- What one measurement update of one particle has to do. -/
noncomputable def measOneP (M : Spec.RbModel lxi lz ly U T Y) (y : Y) (t : T) (p : RbP lxi lz) : PyM (VecR lz × MatR lz lz × ℝ) :=
  measureFull (M.y y t) p.2.1 p.2.2 (some (M.C p.1 y t)) (some (M.h p.1 y t)) (M.R p.1 y t)

theorem allSome_map {α : Type} (l : List α) : allSome (l.map some) = .ok l := by
  unfold allSome
  rw [mapM_ok_iff]
  refine ⟨by simp, fun k x hx => ?_⟩
  rw [List.getElem?_map, Option.map_eq_some_iff] at hx
  obtain ⟨a, ha, rfl⟩ := hx
  exact ⟨a, ha, rfl⟩

/-- What `mlMeasure` has to do for every particle. -/
def MeasOk (M : Spec.RbModel lxi lz ly U T Y) (parts : List (RbP lxi lz)) (y : Y) (t : T) (r : List (RbP lxi lz)) (ll : List ℝ) : Prop :=
  r.length = parts.length ∧ ll.length = parts.length ∧ ∀ (j : ℕ) (p : RbP lxi lz), parts[j]? = some p →
    ∃ z P dl, measOneP M y t p = .ok (z, P, dl) ∧ r[j]? = some (p.1, z, P) ∧ ll[j]? = some dl

theorem mlMeasLoop_eq {M : Spec.RbModel lxi lz ly U T Y} (hG : M.Good) (parts : List (RbP lxi lz)) (hne : parts ≠ [])
    (hP : ∀ p ∈ parts, p.2.2.PosSemidef) (y : Y) (t : T) (d : Dyns ly lz)
    (hC : ∀ (i : ℕ) (p : RbP lxi lz), parts[i]? = some p → ∃ c, d.A.1[i]? = some c ∧ c.getD 0 = M.C p.1 y t)
    (hh : ∀ (i : ℕ) (p : RbP lxi lz), parts[i]? = some p → ∃ c, d.f.1[i]? = some c ∧ c.getD 0 = M.h p.1 y t)
    (hR : ∀ (i : ℕ) (p : RbP lxi lz), parts[i]? = some p → d.Q.1[i]? = some (some (M.R p.1 y t))) :
    ∃ r ll, mlMeasLoop parts (M.y y t) d = .ok (r, ll) ∧ MeasOk M parts y t r ll := by
  obtain ⟨p0, hp0⟩ : ∃ p0, parts[0]? = some p0 := by
    cases parts with
    | nil => exact absurd rfl hne
    | cons a l => exact ⟨a, rfl⟩
  simp only [mlMeasLoop, getIdx_ok.2 (hR 0 p0 hp0), ok_bind]
  rw [mapM_range_eq parts _ (fun p => do
    let r ← measOneP M y t p
    return ((p.1, r.1, r.2.1), r.2.2))]
  swap
  · intro i p hp
    obtain ⟨c, hc, hc'⟩ := hC i p hp
    obtain ⟨h, hh1, hh2⟩ := hh i p hp
    simp only [getIdx_ok.2 hp, getIdx_ok.2 hc, getIdx_ok.2 hh1, getIdx_ok.2 (hR i p hp), ok_bind,
      mlMeasOne_eq _ _ _ _ _ _ (hP p (List.mem_of_getElem? hp)) (hG.R p.1 y t), measOneP]
    rw [measureFull_getD, hc', hh2]
  have hone : ∀ p ∈ parts, ∃ r, measOneP M y t p = .ok r := by
    intro p hp
    obtain ⟨z, P, dl, h1, -⟩ := measureFull_good (M.y y t) p.2.1 (M.C p.1 y t) (M.h p.1 y t) (hP p hp) (hG.R p.1 y t)
    exact ⟨_, h1⟩
  obtain ⟨b, hb⟩ := mapM_ok (l := parts) (f := fun p => do
    let r ← measOneP M y t p
    return ((p.1, r.1, r.2.1), r.2.2)) fun p hp => by
      obtain ⟨r, hr⟩ := hone p hp
      exact ⟨_, by simp only [hr, ok_bind]; rfl⟩
  refine ⟨_, _, by rw [hb]; rfl, ?_⟩
  rw [mapM_ok_iff] at hb
  refine ⟨by simp [hb.1], by simp [hb.1], fun j p hp => ?_⟩
  obtain ⟨q, hq, hq'⟩ := hb.2 j p hp
  obtain ⟨r, hr⟩ := hone p (List.mem_of_getElem? hp)
  simp only [hr, ok_bind, pure_eq_ok, Except.ok.injEq] at hq'
  subst hq'
  exact ⟨r.1, r.2.1, r.2.2, hr, by simp [hq], by simp [hq]⟩

theorem mlMeasure_good {H : MlHooks lxi lz ly U T Y} {o : MlObj lxi lz ly} {M : Spec.RbModel lxi lz ly U T Y} (hD : Spec.RbDescribes H o M)
    (hG : M.Good) (parts : List (RbP lxi lz)) (hne : parts ≠ []) (hP : ∀ p ∈ parts, p.2.2.PosSemidef) (y : Y) (t : T) :
    ∃ r ll, mlMeasure H o parts y t = .ok (r, ll) ∧ MeasOk M parts y t r ll := by
  set xs := xisOf parts with hxs
  have hx : ∀ (i : ℕ) (p : RbP lxi lz), parts[i]? = some p → xs[i]? = some p.1 := fun i p hp => by rw [hxs, xisOf_getElem?, hp]; rfl
  have hC := hD.C xs y t
  have hh := hD.h xs y t
  have hR := hD.R xs y t
  have hy := hD.y xs y t
  have hT := hD.someTerm xs y t (by rw [hxs]; simpa [xisOf] using hne)
  have hR' := perPart_gives hR
  have eR : ∀ (i : ℕ) (p : RbP lxi lz), parts[i]? = some p → (perPart xs.length (H.meas xs y t).2.2.2 o.kf.R).1[i]? = some (some (M.R p.1 y t)) := by
    intro i p hp; rw [hR']; simp [hx i p hp]
  have eh : ∀ (i : ℕ) (p : RbP lxi lz), parts[i]? = some p → ∃ c, (perPart xs.length (H.meas xs y t).2.2.1 o.kf.hk).1[i]? = some c ∧ c.getD 0 = M.h p.1 y t :=
    fun i p hp => givesOrZero_entries hh (hx i p hp)
  obtain ⟨p0, hp0⟩ : ∃ p0, parts[0]? = some p0 := by
    cases parts with
    | nil => exact absurd rfl hne
    | cons a l => exact ⟨a, rfl⟩
  have h0 := hx 0 p0 hp0
  have hpos : 0 < xs.length := lt_of_getElem?_some h0
  -- whatever the branch, the particles are updated by a loop or in one go
  have hfin : ∀ (cs : List (Option (MatR ly lz))) (b : Bool),
      (∀ (i : ℕ) (p : RbP lxi lz), parts[i]? = some p → ∃ c, cs[i]? = some c ∧ c.getD 0 = M.C p.1 y t) →
      (b = true → cs[0]? = some none → (∀ p ∈ parts, M.C p.1 y t = 0) ∧
        ∃ h0, (perPart xs.length (H.meas xs y t).2.2.1 o.kf.hk).1 = List.replicate parts.length (some h0)) →
      ∃ r ll, mlMeasDispatch parts (M.y y t) ⟨(cs, b), perPart xs.length (H.meas xs y t).2.2.1 o.kf.hk,
        perPart xs.length (H.meas xs y t).2.2.2 o.kf.R⟩ = .ok (r, ll) ∧ MeasOk M parts y t r ll := by
    intro cs b hcs hnone
    set d : Dyns ly lz := ⟨(cs, b), perPart xs.length (H.meas xs y t).2.2.1 o.kf.hk, perPart xs.length (H.meas xs y t).2.2.2 o.kf.R⟩
      with hd
    obtain ⟨c0, hc0, -⟩ := hcs 0 p0 hp0
    have hno : mlNoC d = .ok (d.Q.2 && b && c0.isNone) := by
      unfold mlNoC
      by_cases hq : d.Q.2 = true
      · cases b
        · simp [hd]
        · simp only [hd] at hq
          simp only [hd, hq, and_self, if_true, getIdx_ok.2 hc0, ok_bind]
          rfl
      · simp [hq]
    rw [mlMeasDispatch, hno, ok_bind]
    cases hb : (d.Q.2 && b && c0.isNone) with
    | false => exact mlMeasLoop_eq hG parts hne hP y t d hcs eh eR
    | true =>
      simp only [Bool.and_eq_true, Option.isNone_iff_eq_none] at hb
      obtain ⟨⟨hq, hb⟩, hc⟩ := hb
      subst hc
      obtain ⟨hCz, h0', hrep⟩ := hnone hb hc0
      obtain ⟨hRn, hRr⟩ := perPart_identical hq
      have hf : d.f.1 = (List.replicate parts.length h0').map some := by rw [List.map_replicate]; exact hrep
      have hR0 := eR 0 p0 hp0
      simp only [mlMeasNoC, hf, allSome_map, ok_bind, getIdx_ok.2 (show d.Q.1[0]? = _ from hR0),
        mlMeasVec_eq _ _ (hG.R p0.1 y t), pure_eq_ok]
      refine ⟨_, _, rfl, rfl, by simp, fun j p hp => ?_⟩
      have hj := lt_of_getElem?_some hp
      have hRj : M.R p.1 y t = M.R p0.1 y t := by
        have h1 := eR j p hp
        have h2 := eR 0 p0 hp0
        have hlx : xs.length = parts.length := by simp [hxs, xisOf]
        rw [hRr, List.getElem?_replicate, if_pos (by rw [hlx]; exact hj)] at h1
        rw [hRr, List.getElem?_replicate, if_pos hpos] at h2
        exact Option.some.inj (Option.some.inj (h1.symm.trans h2))
      have hhj : M.h p.1 y t = h0' := by
        obtain ⟨c, hc, hc'⟩ := eh j p hp
        rw [hrep, List.getElem?_replicate, if_pos hj, Option.some.injEq] at hc
        subst hc
        exact hc'.symm
      refine ⟨p.2.1, p.2.2, Spec.logNormal (M.R p.1 y t) (M.y y t - M.h p.1 y t), ?_, hp, ?_⟩
      · have h1 := measureFull_getD (M.y y t) p.2.1 p.2.2 none (some (M.h p.1 y t)) (M.R p.1 y t)
        have h2 := C39_measure_without_C (M.y y t) p.2.1 p.2.2 (some (M.h p.1 y t)) (M.R p.1 y t) (hG.R p.1 y t)
        rw [measOneP, hCz p (List.mem_of_getElem? hp)]
        exact h1.symm.trans h2
      · simp [hj, hRj, hhj]
  unfold mlMeasure
  rw [← hxs]
  have hxl : xs.length = parts.length := by simp [hxs, xisOf]
  cases hcm : (H.meas xs y t).2.1 with
  | some l =>
    have hdyn : mlMeasDyn H o xs y t = .ok (M.y y t, ⟨(l.map some, false), perPart xs.length (H.meas xs y t).2.2.1 o.kf.hk,
        perPart xs.length (H.meas xs y t).2.2.2 o.kf.R⟩) := by simp only [mlMeasDyn, hcm, hy]
    rw [hdyn, ok_bind]
    refine hfin _ _ (fun i p hp => ?_) (fun h => by simp at h)
    rw [hcm] at hC
    simp only [Spec.GivesOrZero] at hC
    exact ⟨some (M.C p.1 y t), by simp [hC, hx i p hp], rfl⟩
  | none =>
    rw [hcm] at hC
    cases hoc : o.kf.C with
    | some C =>
      have hdyn : mlMeasDyn H o xs y t = .ok (M.y y t, ⟨(List.replicate xs.length (some C), true),
          perPart xs.length (H.meas xs y t).2.2.1 o.kf.hk, perPart xs.length (H.meas xs y t).2.2.2 o.kf.R⟩) := by
        simp only [mlMeasDyn, hcm, hy, mlDefaultC, hoc, ok_bind]; rfl
      rw [hdyn, ok_bind]
      rw [hoc] at hC
      simp only [Spec.GivesOrZero] at hC
      refine hfin _ _ (fun i p hp => ⟨some C, ?_, hC _ (List.mem_of_getElem? (hx i p hp))⟩) fun _ hz => ?_
      · rw [List.getElem?_replicate, if_pos (lt_of_getElem?_some (hx i p hp))]
      · rw [List.getElem?_replicate, if_pos hpos] at hz; simp at hz
    | none =>
      rw [hoc] at hC
      simp only [Spec.GivesOrZero] at hC
      cases hhm : (H.meas xs y t).2.2.1 with
      | some l =>
        rw [hhm] at hh
        simp only [Spec.GivesOrZero] at hh
        obtain ⟨a, l', rfl⟩ : ∃ a l', l = a :: l' := by
          cases l with
          | nil => rw [eq_comm, List.map_eq_nil_iff] at hh; rw [hh] at hpos; simp at hpos
          | cons a l' => exact ⟨a, l', rfl⟩
        have hdyn : mlMeasDyn H o xs y t = .ok (M.y y t, ⟨(List.replicate xs.length (some 0), true),
            perPart xs.length (H.meas xs y t).2.2.1 o.kf.hk, perPart xs.length (H.meas xs y t).2.2.2 o.kf.R⟩) := by
          simp only [mlMeasDyn, hcm, hy, mlDefaultC, hoc, hhm, ok_bind]; rfl
        rw [hdyn, ok_bind]
        refine hfin _ _ (fun i p hp => ⟨some 0, ?_, (hC _ (List.mem_of_getElem? (hx i p hp))).symm⟩) fun _ hz => ?_
        · rw [List.getElem?_replicate, if_pos (lt_of_getElem?_some (hx i p hp))]
        · rw [List.getElem?_replicate, if_pos hpos] at hz; simp at hz
      | none =>
        have hdyn : mlMeasDyn H o xs y t = .ok (M.y y t, ⟨(List.replicate xs.length none, true),
            perPart xs.length (H.meas xs y t).2.2.1 o.kf.hk, perPart xs.length (H.meas xs y t).2.2.2 o.kf.R⟩) := by
          simp only [mlMeasDyn, hcm, hy, mlDefaultC, hoc, hhm, ok_bind]; rfl
        rw [hdyn, ok_bind]
        refine hfin _ _ (fun i p hp => ⟨none, ?_, (hC _ (List.mem_of_getElem? (hx i p hp))).symm⟩) fun _ _ => ⟨fun p hp => ?_, ?_⟩
        · rw [List.getElem?_replicate, if_pos (lt_of_getElem?_some (hx i p hp))]
        · obtain ⟨i, hi⟩ := List.mem_iff_getElem?.1 hp
          exact hC _ (List.mem_of_getElem? (hx i p hi))
        · obtain ⟨h0', hh0⟩ := Option.ne_none_iff_exists'.1 (hT hcm hoc hhm)
          exact ⟨h0', by rw [hhm, hh0, perPart, hxl]⟩

end PyPE

import Verif.Models.HierClaims

/-!
# C78: smoothing of hierarchical models (`post_smoothing` in rbpf.py for the class of hierarchial.py)

Proved by reduction to C73: a hierarchical model is a mixed linear/nonlinear model whose next nonlinear state says nothing about the linear state.
-/

open MeasureTheory ProbabilityTheory Matrix
open scoped ENNReal
namespace PyPE

variable {lxi lz ly : ℕ} {U T Y Noise : Type}

/-! ## Specification -/

/-- What the measurement at one time says about the linear state. -/
def Spec.HiModel.measOps (M : Spec.HiModel lxi lz ly U T Y) (s : Spec.TrajStep lxi U T Y) : List (Spec.DataOp lz) :=
  match s.y with
  | none => []
  | some y => [.meas ly (M.C s.xi y s.t) (M.h s.xi y s.t) (M.R s.xi y s.t) (M.y y s.t)]

/-- How the linear state moves. -/
def Spec.HiModel.moveOp (M : Spec.HiModel lxi lz ly U T Y) (s : Spec.TrajStep lxi U T Y) : Spec.DataOp lz :=
  .move (M.Az s.xi s.u s.t) (M.fz s.xi s.u s.t) (M.Qz s.xi s.u s.t)

/-- Everything that happens to the linear state of the trajectory up to and including the measurement at time `i`. -/
def Spec.HiModel.past (M : Spec.HiModel lxi lz ly U T Y) : List (Spec.TrajStep lxi U T Y) → ℕ → List (Spec.DataOp lz)
  | s :: _, 0 => M.measOps s
  | s :: s' :: l, i + 1 => M.measOps s ++ M.moveOp s :: M.past (s' :: l) i
  | _, _ => []

/-- Everything that happens to it after the measurement at the first time of the list. -/
def Spec.HiModel.future (M : Spec.HiModel lxi lz ly U T Y) : List (Spec.TrajStep lxi U T Y) → List (Spec.DataOp lz)
  | s :: s' :: l => M.moveOp s :: (M.measOps s' ++ M.future (s' :: l))
  | _ => []

/-! ## Reduction -/

/-- The model as a mixed model. -/
def Spec.HiModel.toRb (M : Spec.HiModel lxi lz ly U T Y) : Spec.RbModel lxi lz ly U T Y where
  Axi _ _ _ := 0
  fxi _ _ _ := 0
  Qxi _ _ _ := 1
  Az := M.Az
  fz := M.fz
  Qz := M.Qz
  Qxiz _ _ _ := 0
  C := M.C
  h := M.h
  R := M.R
  y := M.y

/-- The class as a mixed model class. -/
def HiHooks.toMl (H : HiHooks lxi lz ly U T Y Noise) : MlHooks lxi lz ly U T Y where
  nonlin xs _ _ := (some (xs.map fun _ => 0), some (xs.map fun _ => 0), some (xs.map fun _ => 1))
  lin := H.lin
  meas := H.meas
  cross _ _ _ := none

/-- The object as a mixed model object. -/
def hiObj (kf : KF lz ly) : MlObj lxi lz ly := ⟨none, 0, none, none, kf⟩

theorem gives_orZero {α X : Type} [Zero α] {hook : Option (List α)} {own : Option α} {xs : List X} {val : X → α} (h : Spec.Gives hook own xs val) :
    Spec.GivesOrZero hook own xs val := by
  cases hook with
  | some l => cases own <;> exact h
  | none =>
    cases own with
    | some c => exact fun x hx => Option.some.inj (h x hx)
    | none => exact fun x hx => absurd (h x hx) (by simp)

theorem hi_describes {H : HiHooks lxi lz ly U T Y Noise} {kf : KF lz ly} {M : Spec.HiModel lxi lz ly U T Y} (hD : Spec.HiDescribes H kf M) :
    Spec.RbDescribes H.toMl (hiObj kf) M.toRb where
  Axi _ _ _ := rfl
  fxi _ _ _ := rfl
  Qxi _ _ _ := rfl
  Az := hD.Az
  fz := hD.fz
  Qz := hD.Qz
  Qxiz _ _ _ := fun _ _ => rfl
  C xs y t := gives_orZero (hD.C xs y t)
  h xs y t := gives_orZero (hD.h xs y t)
  R := hD.R
  y := hD.y
  someTerm xs y t hne h1 h2 _ := by
    have := hD.C xs y t
    change (H.meas xs y t).2.1 = none at h1
    change kf.C = none at h2
    obtain ⟨x, hx⟩ := List.exists_mem_of_ne_nil xs hne
    rw [h1, h2] at this
    exact absurd (this x hx) (by simp)

theorem hi_good {M : Spec.HiModel lxi lz ly U T Y} (hG : M.Good) : M.toRb.Good := ⟨fun _ _ _ => PosDef.one, hG.Qz, hG.R⟩

theorem measureFull_blind {m n : ℕ} (x : Fin m → ℝ) (z : Fin n → ℝ) {P : Matrix (Fin n) (Fin n) ℝ} (hP : P.PosSemidef) {z' P' dl}
    (h : measureFull x z P (some (0 : Matrix (Fin m) (Fin n) ℝ)) (some 0) 1 = .ok (z', P', dl)) : z' = z ∧ P' = P := by
  have hS : ((0 : Matrix (Fin m) (Fin n) ℝ) * P * (0 : Matrix (Fin m) (Fin n) ℝ)ᵀ + 1).PosDef := by
    simpa using (PosDef.one : (1 : Matrix (Fin m) (Fin m) ℝ).PosDef)
  rw [measureFull_eq (PosSemidef.isSymm' hP) (PosDef.isSymm' PosDef.one) hS, Except.ok.injEq, Prod.mk.injEq, Prod.mk.injEq] at h
  obtain ⟨rfl, rfl, -⟩ := h
  simp

theorem hi_measXiNext {H : HiHooks lxi lz ly U T Y Noise} {kf : KF lz ly} {M : Spec.HiModel lxi lz ly U T Y} (hD : Spec.HiDescribes H kf M)
    (hG : M.Good) (parts : List (RbP lxi lz)) (hP : ∀ p ∈ parts, p.2.2.PosSemidef) (xiN : List (VecR lxi))
    (hl : xiN.length = parts.length) (u : U) (t : T) : mlMeasXiNext H.toMl (hiObj kf) parts xiN u t = .ok parts := by
  obtain ⟨r, h1, h2, h3⟩ := mlMeasXiNext_good (hi_describes hD) (hi_good hG) parts hP xiN hl u t
  rw [h1]
  congr 1
  refine List.ext_getElem? fun i => ?_
  rcases lt_or_ge i parts.length with hi | hi
  · obtain ⟨z1, P1, dl, e1, -, e3⟩ := h3 i parts[i] xiN[i] (List.getElem?_eq_getElem hi) (List.getElem?_eq_getElem (by rw [hl]; exact hi))
    obtain ⟨rfl, rfl⟩ := measureFull_blind _ _ (hP _ (List.getElem_mem hi)) e1
    rw [e3, List.getElem?_eq_getElem hi]
  · rw [List.getElem?_eq_none hi, List.getElem?_eq_none (by rw [h2]; exact hi)]

theorem hi_condDyn {H : HiHooks lxi lz ly U T Y Noise} {kf : KF lz ly} {M : Spec.HiModel lxi lz ly U T Y} (hD : Spec.HiDescribes H kf M)
    (hG : M.Good) (parts : List (RbP lxi lz)) (xiN : List (VecR lxi)) (hl : xiN.length = parts.length) (u : U) (t : T) :
    ∃ dyn, mlCondDyn H.toMl (hiObj kf) parts xiN u t = .ok dyn ∧ ∀ i < parts.length, getIdx dyn i = hiDyn (hiLin H kf (xisOf parts) u t) i := by
  refine ⟨_, mlCondDyn_eq (hi_describes hD) (hi_good hG) parts xiN hl u t, fun i hi => ?_⟩
  have hx : (xisOf parts)[i]? = some parts[i].1 := by rw [xisOf_getElem?, List.getElem?_eq_getElem hi]; rfl
  rw [hiDyn_eq hD _ u t i _ hx]
  refine getIdx_ok.2 ?_
  have hz : (parts.zip xiN)[i]? = some (parts[i], xiN[i]) := by
    rw [List.getElem?_zip_eq_some]
    exact ⟨List.getElem?_eq_getElem hi, List.getElem?_eq_getElem (by rw [hl]; exact hi)⟩
  rw [List.getElem?_map, hz]
  simp [Spec.RbModel.condA, Spec.RbModel.condF, Spec.HiModel.toRb]

theorem mapM_range_congr {β : Type} {n : ℕ} {F G : ℕ → PyM β} (h : ∀ i < n, F i = G i) : (List.range n).mapM F = (List.range n).mapM G := by
  have := mapM_range_eq (List.range n) F G (fun i x hx => by
    have hi := lt_of_getElem?_some hx
    rw [List.length_range] at hi
    rw [List.getElem?_range hi, Option.some.injEq] at hx
    subst hx
    exact h i hi)
  rw [List.length_range] at this
  exact this

theorem hi_condPredict {H : HiHooks lxi lz ly U T Y Noise} {kf : KF lz ly} {M : Spec.HiModel lxi lz ly U T Y} (hD : Spec.HiDescribes H kf M)
    (hG : M.Good) (parts : List (RbP lxi lz)) (hP : ∀ p ∈ parts, p.2.2.PosSemidef) (xiN : List (VecR lxi))
    (hl : xiN.length = parts.length) (u : U) (t : T) :
    hiCondPredict H kf parts xiN u t = mlCondPredict H.toMl (hiObj kf) parts xiN u t := by
  obtain ⟨dyn, h1, h2⟩ := hi_condDyn hD hG parts xiN hl u t
  unfold hiCondPredict mlCondPredict
  rw [hi_measXiNext hD hG parts hP xiN hl u t, ok_bind, h1, ok_bind, if_pos hl, if_pos hl]
  exact mapM_range_congr fun i hi => by rw [h2 i hi]

theorem hi_backStep {H : HiHooks lxi lz ly U T Y Noise} {kf : KF lz ly} {M : Spec.HiModel lxi lz ly U T Y} (hD : Spec.HiDescribes H kf M)
    (hG : M.Good) (fp : List (RbP lxi lz)) (hP : ∀ p ∈ fp, p.2.2.PosSemidef) (next : List (RbS lxi lz))
    (hl : next.length = fp.length) (u : U) (t : T) :
    hiBackStep H kf fp next u t = mlBackStep H.toMl (hiObj kf) fp next u t := by
  obtain ⟨dyn, h1, h2⟩ := hi_condDyn hD hG fp (next.map fun p => p.1.1) (by simpa using hl) u t
  unfold hiBackStep mlBackStep
  dsimp only
  rw [hi_measXiNext hD hG fp hP (next.map fun p => p.1.1) (by simpa using hl) u t, ok_bind, h1, ok_bind]
  exact mapM_range_congr fun i hi => by rw [h2 i hi]

theorem hi_maybeMeasure {H : HiHooks lxi lz ly U T Y Noise} {kf : KF lz ly} {M : Spec.HiModel lxi lz ly U T Y} (hD : Spec.HiDescribes H kf M)
    (hG : M.Good) (hlen : ∀ parts y t, (H.measNonlin parts y t).length = parts.length)
    (parts : List (RbP lxi lz)) (hne : parts ≠ []) (hP : ∀ p ∈ parts, p.2.2.PosSemidef) (y : Option Y) (t : T) :
    ∃ r, hiMaybeMeasure H kf parts y t = .ok r ∧ mlMaybeMeasure H.toMl (hiObj kf) parts y t = .ok r ∧ r.length = parts.length ∧
      ∀ p ∈ r, p.2.2.PosSemidef := by
  cases y with
  | none => exact ⟨parts, rfl, rfl, rfl, hP⟩
  | some y =>
    obtain ⟨r, ll, h1, h2, -, h4⟩ := hiMeasure_good hD hG parts hne hP y t (hlen _ _ _)
    obtain ⟨r', ll', g1, g2, -, g4⟩ := mlMeasure_good (hi_describes hD) (hi_good hG) parts hne hP y t
    have hpt : ∀ i, (hi : i < parts.length) → ∃ z P, r[i]? = some (parts[i].1, z, P) ∧ r'[i]? = some (parts[i].1, z, P) ∧ P.PosSemidef := by
      intro i hi
      obtain ⟨z, P, dl, e1, -, e3⟩ := h4 i parts[i] _ (List.getElem?_eq_getElem hi) (List.getElem?_eq_getElem (by rw [hlen]; exact hi))
      obtain ⟨z', P', dl', f1, f2, -⟩ := g4 i parts[i] (List.getElem?_eq_getElem hi)
      obtain ⟨z2, P2, dl2, k1, k2, -⟩ := measureFull_good (M.y y t) parts[i].2.1 (M.C parts[i].1 y t) (M.h parts[i].1 y t)
        (hP _ (List.getElem_mem hi)) (hG.R parts[i].1 y t)
      cases e3.symm.trans f1
      cases e3.symm.trans k1
      exact ⟨z, P, e1, f2, k2⟩
    have hrr : r = r' := by
      refine List.ext_getElem? fun i => ?_
      rcases lt_or_ge i parts.length with hi | hi
      · obtain ⟨z, P, e1, e2, -⟩ := hpt i hi
        rw [e1, e2]
      · rw [List.getElem?_eq_none (by rw [h2]; exact hi), List.getElem?_eq_none (by rw [g2]; exact hi)]
    subst hrr
    refine ⟨r, by simp only [hiMaybeMeasure, h1, ok_bind, pure_eq_ok], by simp only [mlMaybeMeasure, g1, ok_bind, pure_eq_ok], h2, ?_⟩
    intro p hp
    obtain ⟨i, hi⟩ := List.mem_iff_getElem?.1 hp
    obtain ⟨z, P, e1, -, e3⟩ := hpt i (by rw [← h2]; exact lt_of_getElem?_some hi)
    rw [hi, Option.some.injEq] at e1
    rw [e1]; exact e3

theorem hi_forward {H : HiHooks lxi lz ly U T Y Noise} {kf : KF lz ly} {M : Spec.HiModel lxi lz ly U T Y} (hD : Spec.HiDescribes H kf M)
    (hG : M.Good) (hlen : ∀ parts y t, (H.measNonlin parts y t).length = parts.length)
    (parts : List (RbP lxi lz)) (hne : parts ≠ []) (hP : ∀ p ∈ parts, p.2.2.PosSemidef) (s : StStep lxi U T Y) (rest : List (StStep lxi U T Y))
    (hl : ∀ s' ∈ rest, s'.xi.length = parts.length) :
    hiForward H kf parts s rest = mlForward H.toMl (hiObj kf) parts s rest := by
  induction rest generalizing parts s with
  | nil =>
    obtain ⟨r, h1, h2, -⟩ := hi_maybeMeasure hD hG hlen parts hne hP s.y s.t
    simp only [hiForward, mlForward, h1, h2]
  | cons s' rest ih =>
    obtain ⟨r, h1, h2, h3, h4⟩ := hi_maybeMeasure hD hG hlen parts hne hP s.y s.t
    have hl' : s'.xi.length = r.length := by rw [h3]; exact hl s' (by simp)
    simp only [hiForward, mlForward, h1, h2, ok_bind, hi_condPredict hD hG r h4 s'.xi hl' s.u s.t]
    obtain ⟨r', k1, k2, k3⟩ := mlCondPredict_good (hi_describes hD) (hi_good hG) r h4 s'.xi hl' s.u s.t
    rw [k1, ok_bind, ok_bind, ih r' (by
      rw [ne_eq, ← List.length_eq_zero_iff, k2, h3, List.length_eq_zero_iff]; exact hne) ?_ s' fun s'' hs'' => by
        rw [k2, h3]; exact hl s'' (by simp [hs''])]
    intro p hp
    obtain ⟨i, hi⟩ := List.mem_iff_getElem?.1 hp
    have hi' : i < r.length := by rw [← k2]; exact lt_of_getElem?_some hi
    obtain ⟨z1, P1, dl, -, e2, e3⟩ := k3 i r[i] s'.xi[i] (List.getElem?_eq_getElem hi') (List.getElem?_eq_getElem (by rw [hl']; exact hi'))
    rw [hi, Option.some.injEq] at e3
    rw [e3]
    exact (posSemidef_conj e2 _).add (hG.Qz _ _ _)

theorem hi_backward {H : HiHooks lxi lz ly U T Y Noise} {kf : KF lz ly} {M : Spec.HiModel lxi lz ly U T Y} (hD : Spec.HiDescribes H kf M)
    (hG : M.Good) (N : ℕ) (L : List (List (RbP lxi lz) × StStep lxi U T Y)) (hL : ∀ q ∈ L, q.1.length = N ∧ ∀ p ∈ q.1, p.2.2.PosSemidef) :
    hiBackward H kf L = mlBackward H.toMl (hiObj kf) L ∧
      ∀ l l0, hiBackward H kf L = .ok l → l[0]? = some l0 → l0.length = N := by
  induction L with
  | nil => exact ⟨rfl, by intro l l0 h; cases h⟩
  | cons q L ih =>
    obtain ⟨fp, s⟩ := q
    have hfp := hL (fp, s) (by simp)
    cases L with
    | nil =>
      refine ⟨rfl, fun l l0 h h0 => ?_⟩
      simp only [hiBackward, Except.ok.injEq] at h
      subst h
      simp only [List.getElem?_cons_zero, Option.some.injEq] at h0
      subst h0
      simpa using hfp.1
    | cons q' L =>
      obtain ⟨i1, i2⟩ := ih fun q hq => hL q (by simp [hq])
      have key : hiBackward H kf ((fp, s) :: q' :: L) = mlBackward H.toMl (hiObj kf) ((fp, s) :: q' :: L) := by
        rw [hiBackward, mlBackward, ← i1]
        cases hb : hiBackward H kf (q' :: L) with
        | error e => rfl
        | ok l =>
          simp only [ok_bind]
          cases h0 : getIdx l 0 with
          | error e => rfl
          | ok nxt =>
            simp only [ok_bind]
            rw [hi_backStep hD hG fp hfp.2 nxt (by rw [i2 l nxt hb (getIdx_ok.1 h0), hfp.1])]
      refine ⟨key, fun l l0 h h0 => ?_⟩
      rw [hiBackward] at h
      obtain ⟨l', -, h⟩ := bind_eq_ok.1 h
      obtain ⟨nxt, -, h⟩ := bind_eq_ok.1 h
      obtain ⟨r, hr, h⟩ := bind_eq_ok.1 h
      rw [pure_eq_ok, Except.ok.injEq] at h
      subst h
      simp only [List.getElem?_cons_zero, Option.some.injEq] at h0
      subst h0
      have := (mapM_ok_iff.1 hr).1
      rw [this, List.length_range, hfp.1]

theorem hi_post {H : HiHooks lxi lz ly U T Y Noise} {kf : KF lz ly} {M : Spec.HiModel lxi lz ly U T Y} (hD : Spec.HiDescribes H kf M)
    (hG : M.Good) (hlen : ∀ parts y t, (H.measNonlin parts y t).length = parts.length) (init : List (VecR lxi) → List (VecR lz × MatR lz lz))
    (s : StStep lxi U T Y) (rest : List (StStep lxi U T Y)) (hne : s.xi ≠ []) (hl : ∀ s' ∈ rest, s'.xi.length = s.xi.length)
    (hi : (init s.xi).length = s.xi.length) (hP0 : ∀ q ∈ init s.xi, q.2.PosSemidef) :
    hiPostSmoothing H kf init s rest = mlPostSmoothing H.toMl (hiObj kf) init s rest := by
  set parts := List.zipWith (fun x zp => ((x, zp.1, zp.2) : RbP lxi lz)) s.xi (init s.xi) with hparts
  have hpl : parts.length = s.xi.length := by rw [hparts]; simp [hi]
  have hpj : ∀ (j : ℕ) p, parts[j]? = some p ↔ ∃ x z0 P0, s.xi[j]? = some x ∧ (init s.xi)[j]? = some (z0, P0) ∧ p = (x, z0, P0) := by
    intro j p
    rw [hparts, List.getElem?_zipWith_eq_some]
    constructor
    · rintro ⟨x, zp, h1, h2, h3⟩; exact ⟨x, zp.1, zp.2, h1, h2, h3.symm⟩
    · rintro ⟨x, z0, P0, h1, h2, h3⟩; exact ⟨x, (z0, P0), h1, h2, h3.symm⟩
  have hpP : ∀ p ∈ parts, p.2.2.PosSemidef := by
    intro p hp
    obtain ⟨j, hj⟩ := List.mem_iff_getElem?.1 hp
    obtain ⟨x, z0, P0, h1, h2, rfl⟩ := (hpj j p).1 hj
    exact hP0 _ (List.mem_of_getElem? h2)
  have hpx : xisOf parts = s.xi := by
    apply List.ext_getElem?
    intro j
    rw [xisOf_getElem?]
    cases hj : parts[j]? with
    | none => rw [List.getElem?_eq_none (by rw [← hpl]; exact List.getElem?_eq_none_iff.1 hj)]; rfl
    | some p => obtain ⟨x, z0, P0, h1, h2, rfl⟩ := (hpj j p).1 hj; rw [h1]; rfl
  have hpne : parts ≠ [] := by rw [ne_eq, ← List.length_eq_zero_iff, hpl, List.length_eq_zero_iff]; exact hne
  have hl' : ∀ s' ∈ rest, s'.xi.length = parts.length := fun s' hs' => by rw [hpl]; exact hl s' hs'
  obtain ⟨ft, f1, f2, f3⟩ := mlForward_good (hi_describes hD) (hi_good hG) parts hpne hpP s rest hpx hl'
  have hF := hi_forward hD hG hlen parts hpne hpP s rest hl'
  simp only [hiPostSmoothing, mlPostSmoothing, mlPreMhips, hi, if_true, ← hparts, hF, f1, ok_bind]
  refine (hi_backward hD hG s.xi.length _ ?_).1
  intro q hq
  obtain ⟨k, hk⟩ := List.mem_iff_getElem?.1 hq
  obtain ⟨h1, h2⟩ := List.getElem?_zip_eq_some.1 hk
  obtain ⟨e1, e2, -⟩ := f3 k q.1 h1
  exact ⟨by rw [e1, hpl], e2⟩

/-! ## Measurements that say nothing -/

/-- `l'` is `l` with some uninformative measurements inserted; `c` is the sum of their log densities. -/
inductive Blind {n : ℕ} : List (Spec.DataOp n) → List (Spec.DataOp n) → ℝ → Prop
  | nil : Blind [] [] 0
  | cons (op : Spec.DataOp n) {l l' c} : Blind l l' c → Blind (op :: l) (op :: l') c
  | ins {k : ℕ} (x : Fin k → ℝ) {l l' c} : Blind l l' c → Blind l (.meas k 0 0 1 x :: l') (Spec.logNormal 1 x + c)

theorem Blind.refl {n : ℕ} (l : List (Spec.DataOp n)) : Blind l l 0 := by
  induction l with
  | nil => exact .nil
  | cons op l ih => exact .cons op ih

theorem Blind.append {n : ℕ} {l l' m m' : List (Spec.DataOp n)} {c d : ℝ} (h : Blind l l' c) (h' : Blind m m' d) :
    Blind (l ++ m) (l' ++ m') (c + d) := by
  induction h with
  | nil => simpa using h'
  | cons op _ ih => exact .cons op ih
  | ins x _ ih => rw [add_assoc]; exact .ins x ih

theorem Blind.follow {n : ℕ} {S : Type} [MeasurableSpace S] {l l' : List (Spec.DataOp n)} {c : ℝ} (h : Blind l l' c)
    (μ : Measure (S × (Fin n → ℝ))) [SFinite μ] : Spec.follow l' μ = ENNReal.ofReal (Real.exp c) • Spec.follow l μ := by
  induction h generalizing μ with
  | nil => simp
  | cons op _ ih =>
    cases op with
    | move A f Q => rw [Spec.follow, Spec.follow, ih]
    | meas m C h R y => rw [Spec.follow, Spec.follow, ih]
  | ins x _ ih =>
    rw [Spec.follow]
    have : (fun p : S × (Fin n → ℝ) => Spec.likelihood (0 : Matrix (Fin _) (Fin n) ℝ) 0 1 x p.2) =
        fun _ => ENNReal.ofReal (Real.exp (Spec.logNormal 1 x)) := by
      funext p
      simp [Spec.likelihood]
    rw [this, withDensity_const, follow_smul, ih, smul_smul, Real.exp_add, ENNReal.ofReal_mul (Real.exp_pos _).le]

theorem Blind.filtered {n : ℕ} {l l' : List (Spec.DataOp n)} {c : ℝ} (h : Blind l l' c) (μ : Measure (Fin n → ℝ)) [SFinite μ] :
    Spec.filtered μ l' = ENNReal.ofReal (Real.exp c) • Spec.filtered μ l := by
  rw [Spec.filtered, Spec.filtered, h.follow, Measure.map_smul]

theorem sfinite_filtered {n : ℕ} (l : List (Spec.DataOp n)) (μ : Measure (Fin n → ℝ)) [SFinite μ] : SFinite (Spec.filtered μ l) := by
  unfold Spec.filtered
  have := sfinite_follow l (μ.map fun x => ((), x))
  infer_instance

theorem Blind.smoothed {n : ℕ} {l l' m m' : List (Spec.DataOp n)} {c d : ℝ} (h : Blind l l' c) (h' : Blind m m' d) (μ : Measure (Fin n → ℝ))
    [SFinite μ] : Spec.smoothed μ l' m' = ENNReal.ofReal (Real.exp (c + d)) • Spec.smoothed μ l m := by
  have := sfinite_filtered l μ
  have : SFinite (Spec.remember (Spec.filtered μ l)) := by unfold Spec.remember; infer_instance
  rw [Spec.smoothed, Spec.smoothed, h.filtered, Spec.remember, Measure.map_smul, follow_smul, ← Spec.remember, h'.follow, smul_smul, Measure.map_smul,
    Real.exp_add, ENNReal.ofReal_mul (Real.exp_pos _).le]

theorem Blind.smoothedPair {n : ℕ} {l l' m m' : List (Spec.DataOp n)} {c d : ℝ} (h : Blind l l' c) (h' : Blind m m' d) (op : Spec.DataOp n)
    (μ : Measure (Fin n → ℝ)) [SFinite μ] : Spec.smoothedPair μ l' op m' = ENNReal.ofReal (Real.exp (c + d)) • Spec.smoothedPair μ l op m := by
  have := sfinite_filtered l μ
  have : SFinite (Spec.remember (Spec.filtered μ l)) := by unfold Spec.remember; infer_instance
  have := sfinite_follow [op] (Spec.remember (Spec.filtered μ l))
  rw [Spec.smoothedPair, Spec.smoothedPair, h.filtered, Spec.remember, Measure.map_smul, ← Spec.remember, follow_smul, Measure.map_smul, follow_smul,
    h'.follow, smul_smul, Measure.map_smul, Real.exp_add, ENNReal.ofReal_mul (Real.exp_pos _).le]

theorem scaled_back {α : Type} [MeasurableSpace α] {μ ν : Measure α} {c ll : ℝ}
    (h : ENNReal.ofReal (Real.exp c) • μ = ENNReal.ofReal (Real.exp ll) • ν) : μ = ENNReal.ofReal (Real.exp (ll - c)) • ν := by
  have h1 : ENNReal.ofReal (Real.exp (-c)) * ENNReal.ofReal (Real.exp c) = 1 := by
    rw [← ENNReal.ofReal_mul (Real.exp_pos _).le, ← Real.exp_add]; simp
  have h2 := congrArg (fun m => ENNReal.ofReal (Real.exp (-c)) • m) h
  simp only [smul_smul, h1, one_smul] at h2
  rw [h2, ← ENNReal.ofReal_mul (Real.exp_pos _).le, ← Real.exp_add]
  congr 3; ring

/-- Log density of the uninformative measurements after the first time. -/
noncomputable def blindSum : List (Spec.TrajStep lxi U T Y) → ℝ
  | _ :: s' :: l => Spec.logNormal 1 s'.xi + blindSum (s' :: l)
  | _ => 0

/-- Log density of the uninformative measurements up to time `i`. -/
noncomputable def blindPast : List (Spec.TrajStep lxi U T Y) → ℕ → ℝ
  | _ :: s' :: l, i + 1 => Spec.logNormal 1 s'.xi + blindPast (s' :: l) i
  | _, _ => 0

theorem blind_split (traj : List (Spec.TrajStep lxi U T Y)) (i : ℕ) (hi : i < traj.length) :
    blindPast traj i + blindSum (traj.drop i) = blindSum traj := by
  induction traj generalizing i with
  | nil => simp at hi
  | cons s l ih =>
    cases i with
    | zero => cases l <;> simp [blindPast]
    | succ i =>
      cases l with
      | nil => simp at hi
      | cons s' l =>
        have := ih i (by simpa using hi)
        rw [blindPast, blindSum, List.drop_succ_cons, add_assoc, this]

theorem hi_measOps (M : Spec.HiModel lxi lz ly U T Y) (s : Spec.TrajStep lxi U T Y) : M.toRb.measOps s = M.measOps s := rfl

theorem hi_moveOps (M : Spec.HiModel lxi lz ly U T Y) (s : Spec.TrajStep lxi U T Y) (x : VecR lxi) :
    M.toRb.moveOps s x = [.meas lxi 0 0 1 x, M.moveOp s] := by
  simp [Spec.RbModel.moveOps, Spec.RbModel.condA, Spec.RbModel.condF, Spec.HiModel.toRb, Spec.HiModel.moveOp]

theorem hi_past (M : Spec.HiModel lxi lz ly U T Y) (traj : List (Spec.TrajStep lxi U T Y)) (i : ℕ) :
    Blind (M.past traj i) (M.toRb.past traj i) (blindPast traj i) := by
  induction traj generalizing i with
  | nil => cases i <;> exact .nil
  | cons s l ih =>
    cases i with
    | zero =>
      have : blindPast (s :: l) 0 = 0 := by cases l <;> rfl
      rw [this]
      exact Blind.refl _
    | succ i =>
      cases l with
      | nil => exact .nil
      | cons s' l =>
        rw [Spec.HiModel.past, Spec.RbModel.past, blindPast, hi_moveOps, hi_measOps, List.append_assoc, ← zero_add (_ + _)]
        exact (Blind.refl _).append (.ins s'.xi (.cons _ (ih i)))

theorem hi_future (M : Spec.HiModel lxi lz ly U T Y) (traj : List (Spec.TrajStep lxi U T Y)) :
    Blind (M.future traj) (M.toRb.future traj) (blindSum traj) := by
  induction traj with
  | nil => exact .nil
  | cons s l ih =>
    cases l with
    | nil => exact .nil
    | cons s' l =>
      rw [Spec.HiModel.future, Spec.RbModel.future, blindSum, hi_moveOps, hi_measOps, List.append_assoc]
      refine .ins s'.xi (.cons _ ?_)
      have := (Blind.refl (M.measOps s')).append ih
      rwa [zero_add] at this

/-! ## C78 -/

/-- **C78** `post_smoothing` of a hierarchical model: either a predicted covariance is singular and `LinAlgError` is raised, or for every trajectory `j` and
every time `i` the stored statistics are exact: the law of the linear state at time `i`, weighted with the densities of all measurements, given the
trajectory of the nonlinear state, is `exp(ll) N(zs, Ps)` with the same `ll` at all times; the nonlinear state is kept; `Mz` is the cross covariance of the
linear states at time `i` and `i + 1` given all data, zero at the last time. -/
theorem C78_smoothing_exact {H : HiHooks lxi lz ly U T Y Noise} {kf : KF lz ly} {M : Spec.HiModel lxi lz ly U T Y} (hD : Spec.HiDescribes H kf M)
    (hG : M.Good) (hlen : ∀ parts y t, (H.measNonlin parts y t).length = parts.length) (init : List (VecR lxi) → List (VecR lz × MatR lz lz))
    (s : StStep lxi U T Y) (rest : List (StStep lxi U T Y)) (hne : s.xi ≠ []) (hl : ∀ s' ∈ rest, s'.xi.length = s.xi.length)
    (hi : (init s.xi).length = s.xi.length) (hP0 : ∀ q ∈ init s.xi, q.2.PosSemidef) :
    hiPostSmoothing H kf init s rest = .error .linAlgError ∨ ∃ l, hiPostSmoothing H kf init s rest = .ok l ∧ l.length = rest.length + 1 ∧
      ∀ (j : ℕ) traj z0 P0, Spec.IsTraj (s :: rest) j traj → (init s.xi)[j]? = some (z0, P0) →
        ∃ ll, ∀ (i : ℕ) a, traj[i]? = some a → ∃ li zs Ps Mz, l[i]? = some li ∧ li.length = s.xi.length ∧
          li[j]? = some ((a.xi, zs, Ps), Mz) ∧
          Spec.smoothed (Spec.gauss z0 P0) (M.past traj i) (M.future (traj.drop i)) = ENNReal.ofReal (Real.exp ll) • Spec.gauss zs Ps ∧
          (i + 1 = traj.length → Mz = 0) ∧
          ∀ a', traj[i + 1]? = some a' → ∃ li' zn Pn Mn, l[i + 1]? = some li' ∧ li'[j]? = some ((a'.xi, zn, Pn), Mn) ∧
            Spec.smoothedPair (Spec.gauss z0 P0) (M.past traj i) (M.moveOp a) (M.measOps a' ++ M.future (traj.drop (i + 1))) =
              ENNReal.ofReal (Real.exp ll) •
                (Spec.gauss (Sum.elim zs zn) (fromBlocks Ps Mz Mzᵀ Pn)).map (MeasurableEquiv.sumPiEquivProdPi fun _ : Fin lz ⊕ Fin lz => ℝ) := by
  rw [hi_post hD hG hlen init s rest hne hl hi hP0]
  rcases C73_smoothing_exact (hi_describes hD) (hi_good hG) init s rest hne hl hi hP0 with h | ⟨l, h1, h2, h3⟩
  · exact .inl h
  refine .inr ⟨l, h1, h2, fun j traj z0 P0 ht h0 => ?_⟩
  obtain ⟨ll, hll⟩ := h3 j traj z0 P0 ht h0
  refine ⟨ll - blindSum traj, fun i a ha => ?_⟩
  obtain ⟨li, zs, Ps, Mz, e1, e2, e3, e4, e5, e6⟩ := hll i a ha
  have hit := lt_of_getElem?_some ha
  refine ⟨li, zs, Ps, Mz, e1, e2, e3, ?_, e5, fun a' ha' => ?_⟩
  · rw [Blind.smoothed (hi_past M traj i) (hi_future M (traj.drop i)), blind_split traj i hit] at e4
    exact scaled_back e4
  · obtain ⟨li', zn, Pn, Mn, f1, f2, f3⟩ := e6 a' ha'
    refine ⟨li', zn, Pn, Mn, f1, f2, ?_⟩
    have hpast : Blind (M.past traj i) (M.toRb.past traj i ++ [.meas lxi (M.toRb.Axi a.xi a.u a.t) (M.toRb.fxi a.xi a.u a.t) (M.toRb.Qxi a.xi a.u a.t) a'.xi])
        (blindPast traj i + (Spec.logNormal 1 a'.xi + 0)) := by
      have := (hi_past M traj i).append (Blind.ins a'.xi .nil)
      rwa [List.append_nil] at this
    have hfut := (Blind.refl (M.measOps a')).append (hi_future M (traj.drop (i + 1)))
    have hop : (.move (M.toRb.condA a.xi a.u a.t) (M.toRb.condF a.xi a.u a.t a'.xi) (M.toRb.Qz a.xi a.u a.t) : Spec.DataOp lz) = M.moveOp a := by
      simp [Spec.RbModel.condA, Spec.RbModel.condF, Spec.HiModel.toRb, Spec.HiModel.moveOp]
    rw [hop, hi_measOps, Blind.smoothedPair hpast hfut] at f3
    have hd : traj.drop i = a :: a' :: traj.drop (i + 2) := by
      have h1 := List.drop_eq_getElem_cons hit
      have h2 := List.drop_eq_getElem_cons (lt_of_getElem?_some ha')
      rw [h1, h2]
      rw [List.getElem?_eq_getElem hit, Option.some.injEq] at ha
      rw [List.getElem?_eq_getElem (lt_of_getElem?_some ha'), Option.some.injEq] at ha'
      rw [ha, ha']
    have hd' : traj.drop (i + 1) = a' :: traj.drop (i + 2) := by
      have h2 := List.drop_eq_getElem_cons (lt_of_getElem?_some ha')
      rw [h2]
      rw [List.getElem?_eq_getElem (lt_of_getElem?_some ha'), Option.some.injEq] at ha'
      rw [ha']
    have hc : blindPast traj i + (Spec.logNormal 1 a'.xi + 0) + (0 + blindSum (traj.drop (i + 1))) = blindSum traj := by
      rw [← blind_split traj i hit, hd, hd', blindSum]
      ring
    rw [hc] at f3
    exact scaled_back f3

/-- **C78** `get_rb_initial` must return one estimate per trajectory: otherwise smoothing raises `ValueError`. -/
theorem C78_wrong_initial_count (H : HiHooks lxi lz ly U T Y Noise) (kf : KF lz ly) (init : List (VecR lxi) → List (VecR lz × MatR lz lz))
    (s : StStep lxi U T Y) (rest : List (StStep lxi U T Y)) (h : (init s.xi).length ≠ s.xi.length) :
    hiPostSmoothing H kf init s rest = .error .valueError := by
  unfold hiPostSmoothing
  rw [if_neg h]

/-- **C78** With invertible linear process noise `post_smoothing` never fails. -/
theorem C78_smoothing_succeeds {H : HiHooks lxi lz ly U T Y Noise} {kf : KF lz ly} {M : Spec.HiModel lxi lz ly U T Y} (hD : Spec.HiDescribes H kf M)
    (hG : M.Good) (hQ : ∀ x u t, (M.Qz x u t).PosDef) (hlen : ∀ parts y t, (H.measNonlin parts y t).length = parts.length)
    (init : List (VecR lxi) → List (VecR lz × MatR lz lz))
    (s : StStep lxi U T Y) (rest : List (StStep lxi U T Y)) (hne : s.xi ≠ []) (hl : ∀ s' ∈ rest, s'.xi.length = s.xi.length)
    (hi : (init s.xi).length = s.xi.length) (hP0 : ∀ q ∈ init s.xi, q.2.PosSemidef) : ∃ l, hiPostSmoothing H kf init s rest = .ok l := by
  rw [hi_post hD hG hlen init s rest hne hl hi hP0]
  exact C73_smoothing_succeeds (hi_describes hD) (hi_good hG) hQ init s rest hne hl hi hP0

/-! ## Non-vacuity -/

/-- A hierarchical model: random walk for `xi`, `z' = z/2 + xi + vz`, `y = z + e`. -/
noncomputable def hiToyH : HiHooks 1 1 1 ℝ ℕ ℝ ℝ where
  lin xs _ _ := (none, some (xs.map fun x => x), none)
  meas _ y _ := (fun _ => y, none, none, none)
  measNonlin parts y _ := parts.map fun p => -(y - p.1 0) ^ 2
  xiNext parts _ _ noise := List.zipWith (fun p n => fun _ => p.1 0 + n) parts noise
  logpXi parts next _ _ := List.zipWith (fun p x => Spec.logNormal (1 : MatR 1 1) (x - p.1)) parts next
  logpXiMax parts _ _ := parts.map fun _ => Spec.logNormal (1 : MatR 1 1) 0

/-- Its Kalman object. -/
noncomputable def hiToyK : KF 1 1 := KF.new (some !![1 / 2]) (some !![1]) (some !![1 / 10]) (some !![1]) none (some 0)

/-- The model on paper. -/
noncomputable def hiToyM : Spec.HiModel 1 1 1 ℝ ℕ ℝ where
  Az _ _ _ := !![1 / 2]
  fz x _ _ := x
  Qz _ _ _ := !![1 / 10]
  C _ _ _ := !![1]
  h _ _ _ := 0
  R _ _ _ := !![1]
  y y _ := fun _ => y

theorem hiToy_describes : Spec.HiDescribes hiToyH hiToyK hiToyM := by
  constructor <;> intros <;> simp_all [Spec.Gives, hiToyH, hiToyK, hiToyM, KF.new, KF.setDynamics]

theorem hiToy_Qz (x : VecR 1) (u : ℝ) (t : ℕ) : (hiToyM.Qz x u t).PosDef := posDef_one_iff.2 (by simp [hiToyM])

theorem hiToy_good : hiToyM.Good := ⟨fun _ _ _ => (hiToy_Qz _ _ _).posSemidef, fun _ _ _ => posDef_one_iff.2 (by simp [hiToyM])⟩

/-- C76, C77, C78: hypotheses met. -/
example : (∃ r, hiMeasure hiToyH hiToyK [(0, 1, !![1]), (1, 0, !![1])] 2 0 = .ok r) ∧
    (∃ r, hiUpdate hiToyH hiToyK [(0, 1, !![1]), (1, 0, !![1])] 0 0 [1, 2] = .ok r) ∧
    (∃ r, hiLogpXnext hiToyH hiToyK [(0, 1, !![1]), (1, 0, !![1])] [(0, 1)] 0 0 = .ok r) ∧
    (∃ l, hiPostSmoothing hiToyH hiToyK (fun xs => xs.map fun _ => (0, 1)) ⟨[0, 1], 0, some 1, 0⟩ [⟨[2, 3], 0, none, 1⟩] = .ok l) := by
  have hP : ∀ p ∈ ([(0, 1, !![1]), (1, 0, !![1])] : List (RbP 1 1)), p.2.2.PosSemidef := by
    simp only [List.mem_cons, List.not_mem_nil, or_false]
    rintro p (rfl | rfl) <;> exact (posDef_one_iff.2 (by simp)).posSemidef
  refine ⟨?_, ?_, ?_, ?_⟩
  · obtain ⟨r, ll, h, -⟩ := C76_measure_exact hiToy_describes hiToy_good _ (by simp) hP 2 0 (by simp [hiToyH])
    exact ⟨_, h⟩
  · obtain ⟨r, h, -⟩ := C76_update_exact hiToy_describes hiToy_good _ hP 0 0 [1, 2] (by simp [hiToyH])
    exact ⟨_, h⟩
  · obtain ⟨r, h, -⟩ := C77_logp_xnext hiToy_describes hiToy_good hiToy_Qz _ (by simp) hP 0 0 [(0, 1)] [(0, 1), (0, 1)]
      ⟨by simp, .inr ⟨_, rfl, rfl⟩⟩ (by simp [hiToyH])
    exact ⟨_, h⟩
  · refine C78_smoothing_succeeds hiToy_describes hiToy_good hiToy_Qz (by simp [hiToyH]) _ _ _ (by simp) (by simp) (by simp) ?_
    simp only [List.mem_map, List.mem_cons, List.not_mem_nil, or_false]
    rintro q ⟨x, -, rfl⟩
    exact PosSemidef.one

/-- C77: the defect occurs, the bound is wrong for this model. -/
example : ∃ m, hiLogpXnextMax hiToyH hiToyK [(0, 1, !![1])] 0 0 = .ok m ∧
    ¬ ∀ z r, hiLogpXnext hiToyH hiToyK [(0, 1, !![1])] [(0, z)] 0 0 = .ok r → ∀ v ∈ r, v ≤ m := by
  obtain ⟨m, h1, h2⟩ := C77_max_bound_iff hiToy_describes hiToy_good hiToy_Qz (0, 1, !![1]) (posDef_one_iff.2 (by simp)).posSemidef 0 0 0 _
    (by simp [hiToyH]; rfl) (by simp [hiToyH])
  refine ⟨m, h1, fun h => ?_⟩
  have := h2.1 h
  rw [det_unique] at this
  simp [Spec.HiModel.predCov, hiToyM, Matrix.mul_apply, vecMul, dotProduct] at this
  norm_num at this

/-- C52: two trajectories with different nonlinear states; the second row carries the state of the first. -/
example : ∃ r z P, hiSampleSmooth hiToyH hiToyK [(0, 1, !![1]), (1, 0, !![1])] (some [(0, 1), (1, 2)]) [0, 1] 0 0 = .ok r ∧ r[1]? = some (0, z, P) := by
  obtain ⟨-, r, h1, -, h2⟩ := C52_sample_smooth hiToy_describes hiToy_Qz [(0, 1), (1, 2)] [0, 1] 0 0 (0, 1, !![1]) [(1, 0, !![1])]
    (posDef_one_iff.2 (by simp)).posSemidef rfl (by simp) (fun j => if j = 0 then 1 else 2) (by
      intro j k x hj hk
      rcases j with _ | _ | j
      · simp at hj; subst hj; simp at hk; subst hk; rfl
      · simp at hj; subst hj; simp at hk; subst hk; rfl
      · simp at hj)
  obtain ⟨z, P, ll, h3, -⟩ := h2 1 (by simp)
  exact ⟨r, z, P, h1, h3⟩

end PyPE

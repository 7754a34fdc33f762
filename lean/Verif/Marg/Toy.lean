import Verif.Marg.Weights
import Verif.Smooth.Model

/-!
# A concrete model for the marginalised smoother, and where it goes wrong
-/

namespace PyPE
open Matrix MeasureTheory ProbabilityTheory

variable {lxi lz ly : ℕ} {U T Y : Type}

/-- Singular value decomposition of 1×1 covariances. -/
noncomputable def mgToySvd (A : MatR 1 1) : MatR 1 1 × VecR 1 := (1, fun _ => A 0 0)

theorem mgToySvd_ok : Spec.SvdOk mgToySvd := by
  intro A hA
  refine ⟨by simp [mgToySvd], fun _ => hA.diag_nonneg, 1, by simp, ?_⟩
  ext i j
  simp [mgToySvd, Subsingleton.elim i 0, Subsingleton.elim j 0]

/-- `xi' = xi + z + v`, `z' = b + z/2 + w` with `b = xi` or `b = 1` everywhere, `y = z + e`. -/
noncomputable def mgToyH (common : Bool) : MlHooks 1 1 1 ℝ ℕ (Option ℝ) where
  nonlin xs _ _ := (none, some xs, none)
  lin xs _ _ := (none, some (xs.map fun x => if common then 1 else x), none)
  meas xs y _ := (fun _ => y.getD 0, some (xs.map fun _ => if y.isSome then 1 else 0), none, none)
  cross _ _ _ := none

/-- The object. -/
noncomputable def mgToyO : MlObj 1 1 1 :=
  MlObj.init (some !![1 / 2]) none (some 1) (some 1) (some 0) (some 1) (some 1) none none (some 0)

/-- The model on paper. -/
noncomputable def mgToyM (common : Bool) : Spec.RbModel 1 1 1 ℝ ℕ (Option ℝ) where
  Axi _ _ _ := 1
  fxi x _ _ := x
  Qxi _ _ _ := 1
  Az _ _ _ := !![1 / 2]
  fz x _ _ := if common then 1 else x
  Qz _ _ _ := 1
  Qxiz _ _ _ := 0
  C _ y _ := if y.isSome then 1 else 0
  h _ _ _ := 0
  R _ _ _ := 1
  y y _ := fun _ => y.getD 0

theorem mgToy_describes (common : Bool) : Spec.MgDescribes (fun y _ => y) (mgToyH common) mgToyO (mgToyM common) := by
  constructor
  · constructor <;> intros <;> simp_all [Spec.Gives, Spec.GivesOrZero, mgToyH, mgToyO, mgToyM, MlObj.init, KF.new, KF.setDynamics]
  all_goals intros; simp_all [Spec.Gives, Spec.GivesOrZero, mgToyH, mgToyO, mgToyM, MlObj.init, KF.new, KF.setDynamics]

theorem mgToy_good (common : Bool) : (mgToyM common).Good := ⟨fun _ _ _ => PosDef.one, fun _ _ _ => PosSemidef.one, fun _ _ _ => PosDef.one⟩

/-- Three time steps, two trajectories which share their end; no measurement in the middle. -/
noncomputable def mgToyTimes : List (MgTime 1 1 ℝ ℕ ℝ) :=
  [⟨[(1, 0, 1), (2, 1, 0)], [1, 0], 0, some 3, 0⟩, ⟨[(3, 0, 1), (4, 1, 0)], [0, 0], 0, none, 1⟩, ⟨[(5, 0, 1)], [0], 0, some 1, 2⟩]

example : ∃ r, mgBackward mgToySvd (fun y _ => y) (mgToyH false) mgToyO mgToyTimes = .ok r ∧ r.length = 2 ∧
    ∃ s rest Ω Λ, Spec.mgTraj mgToyTimes 0 = some (s :: rest) ∧ r[0]? = some (s.xi, Ω, Λ) ∧
      Spec.MgRepr ((mgToyM false).futLik (s :: rest)) Ω Λ := by
  obtain ⟨r, h1, h2, h3⟩ := C84_backward_pass mgToySvd_ok (mgToy_describes false) (mgToy_good false) mgToyTimes (by simp [mgToyTimes])
    (by simp [mgToyTimes, Spec.MgLinked])
  have h2' : r.length = 2 := h2 _ rfl
  exact ⟨r, h1, h2', h3 0 (by omega)⟩

/-- The particles at the time before. -/
noncomputable def mgToyParts : List (RbP 1 1) := [(0, 0, 1), (1, 2, 0)]

theorem mgToyParts_psd : ∀ p ∈ mgToyParts, p.2.2.PosSemidef := by
  intro p hp
  simp only [mgToyParts, List.mem_cons, List.not_mem_nil, or_false] at hp
  rcases hp with rfl | rfl
  · exact PosSemidef.one
  · exact PosSemidef.zero

example : ∃ fut r, mgBackward mgToySvd (fun y _ => y) (mgToyH true) mgToyO mgToyTimes = .ok fut ∧
    mgLogpFull mgToySvd (mgToyH true) mgToyO mgToyParts fut [1, 1] 0 0 = .ok r ∧ r.length = 2 := by
  obtain ⟨fut, s, rest, r, h1, h2, h3, h4, _⟩ := C85_end_to_end mgToySvd_ok (mgToy_describes true) (mgToy_good true) _ _
    (show Spec.MgLinked mgToyTimes by simp [mgToyTimes, Spec.MgLinked]) mgToyParts mgToyParts_psd 0 0 1 1 (by intro p _; simp [mgToyM]) 1 (by simp)
  exact ⟨fut, r, h1, h3, h4⟩

/-- **C85** (defect) When the mean of the next linear state depends on the particle, the backward weights are wrong: in this model two
particles whose futures have likelihoods `L₀`, `L₁` do not get log-weights differing by `log L₀ - log L₁`. -/
theorem C85_sign_defect : ∃ r, mgLogpFull mgToySvd (mgToyH false) mgToyO [(0, 0, 0), (1, 0, 0)] [(0, 1, 0)] [0, 0] 0 0 = .ok r ∧
    ∃ v₀ v₁, r = [v₀, v₁] ∧ v₀ - v₁ ≠
      Real.log ((mgToyM false).partLik (0, 0, 0) 0 0 0 (Spec.expQuad 1 0)) - Real.log ((mgToyM false).partLik (1, 0, 0) 0 0 0 (Spec.expQuad 1 0)) := by
  obtain ⟨r, h1, h2, h3⟩ := mgLogpFull_ok (c := fun _ => 1) (f := fun _ => Spec.expQuad 1 0) mgToySvd_ok (mgToy_describes false).toRbDynamics
    (mgToy_good false) [(0, 0, 0), (1, 0, 0)] (by intro p hp; simp at hp; rcases hp with rfl | rfl <;> exact PosSemidef.zero)
    [(0, 1, 0)] [0, 0] rfl (by simp) (fun _ => one_pos)
    (by intro k hk x hx; simp at hk; subst hk; simp at hx; subst hx; exact ⟨PosSemidef.one, fun z => by simp⟩) 0 0
  obtain ⟨k0, x0, v0, a1, a2, a3, -, a5⟩ := h3 0 _ rfl
  obtain ⟨k1, x1, v1, b1, b2, b3, -, b5⟩ := h3 1 _ rfl
  simp at a1 b1
  subst a1 b1
  simp at a2 b2
  subst a2 b2
  refine ⟨r, h1, v0, v1, ?_, ?_⟩
  · match r, h2 with
    | [c, d], _ => simp at a3 b3; rw [a3, b3]
  · rw [a5, b5]
    simp only
    intro h
    have e0 : Spec.mgExcess ((mgToyM false).Qz 0 0 0) ((mgToyM false).fz 0 0 0) (1 : MatR 1 1) 0 = 0 := by simp [Spec.mgExcess, mgToyM]
    have e1 : Spec.mgExcess ((mgToyM false).Qz 1 0 0) ((mgToyM false).fz 1 0 0) (1 : MatR 1 1) 0 = 1 / 2 := by
      simp [Spec.mgExcess, mgToyM, Matrix.inv_def]
      norm_num
    rw [e0, e1] at h
    linarith

/-! ## Restrictions -/

/-- **C86** (defect) A missing measurement is treated as an observation equal to its prediction `h`: if `get_meas_dynamics` gives the same
matrices whether or not there is a measurement, `sample_smooth` without a measurement returns what it returns for `y = h`. -/
theorem C86_missing_measurement (svd : MatR lz lz → MatR lz lz × VecR lz) (raw : Y → VecR ly) (H : MlHooks lxi lz ly U T (Option Y))
    (o : MlObj lxi lz ly) (parts : List (RbP lxi lz)) (fut : Option (List (MgN lxi lz))) (find : List ℕ) (u : U) (y : Y) (t : T)
    (C : List (MatR ly lz)) (hl : C.length = parts.length) (hC : ∀ y, (H.meas (xisOf parts) y t).2.1 = some C)
    (hh : ∀ y', (H.meas (xisOf parts) y' t).2.2.1 = some (parts.map fun _ => raw y))
    (hR : ∀ y y', (H.meas (xisOf parts) y t).2.2.2 = (H.meas (xisOf parts) y' t).2.2.2) :
    mgSampleSmooth svd raw H o parts fut find u none t = mgSampleSmooth svd raw H o parts fut find u (some y) t := by
  unfold mgSampleSmooth
  congr 1; funext w
  simp only [mlMeasDyn, hC, ok_bind, hh, hR none (some y), perPart]
  have hb : ∀ w (C : MatR ly lz) R, mgMeasOne w (some C) (some (raw y)) R (Option.map raw none) = mgMeasOne w (some C) (some (raw y)) R (Option.map raw (some y)) := by
    intro w C R
    cases R with
    | none => rfl
    | some R =>
      simp only [mgMeasOne, Option.map_none, Option.map_some, sub_self, mulVec_zero, add_zero]
  congr 1
  funext j
  refine bind_congr fun p => bind_congr fun w => ?_
  cases hc : getIdx (C.map some) j with
  | error e => rfl
  | ok c =>
    rw [ok_bind, ok_bind]
    rw [getIdx_ok, List.getElem?_map] at hc
    obtain ⟨c', -, rfl⟩ := Option.map_eq_some_iff.1 hc
    cases hh : getIdx ((parts.map fun _ => raw y).map some) j with
    | error e => rfl
    | ok h =>
      rw [ok_bind, ok_bind]
      rw [getIdx_ok, List.getElem?_map, List.getElem?_map] at hh
      obtain ⟨h', hh', rfl⟩ := Option.map_eq_some_iff.1 hh
      obtain ⟨_, -, rfl⟩ := Option.map_eq_some_iff.1 hh'
      simp only [hb]

example : mgMeasOne (0, 0) (some (1 : MatR 1 1)) (some 0) (some 1) none = .ok (1, 0) := by
  simp [mgMeasOne, npSolveM]

/-- **C86** (defect) A model without measurement matrix (`C = None` everywhere) cannot be used with measurements: `UnboundLocalError`. -/
theorem C86_no_measurement_matrix (svd : MatR lz lz → MatR lz lz × VecR lz) (raw : Y → VecR ly) (H : MlHooks lxi lz ly U T (Option Y))
    (o : MlObj lxi lz ly) (p : RbP lxi lz) (parts : List (RbP lxi lz)) (find : List ℕ) (u : U) (y : Y) (t : T)
    (hC : o.kf.C = none) (hC' : (H.meas (xisOf (p :: parts)) (some y) t).2.1 = none)
    (hh : (H.meas (xisOf (p :: parts)) (some y) t).2.2.1 = none) (hR : (H.meas (xisOf (p :: parts)) (some y) t).2.2.2 = none) :
    mgSampleSmooth svd raw H o (p :: parts) none find u (some y) t = .error .unboundLocalError := by
  simp only [mgSampleSmooth, mgPred, mlMeasDyn, hC', hh, hR, mlDefaultC, hC, ok_bind, perPart]
  simp only [List.length_cons, List.range_succ_eq_map, List.mapM_cons, xisOf, List.map_cons, List.replicate_succ]
  rfl

/-- **C86** (defect) The class works for a single nonlinear state only: with any other number of nonlinear states, evaluating the backward
weights, or a backward step, raises `ValueError` for every valid model. -/
theorem C86_one_nonlinear_state {svd : MatR lz lz → MatR lz lz × VecR lz} (hl : lxi ≠ 1)
    {H : MlHooks lxi lz ly U T Y} {o : MlObj lxi lz ly} {M : Spec.RbModel lxi lz ly U T Y} (hD : Spec.RbDescribes H o M) (hG : M.Good)
    (parts : List (RbP lxi lz)) (hne : parts ≠ []) (fut : List (MgN lxi lz)) (hO : ∀ x ∈ fut, x.2.1.PosSemidef) (find : List ℕ)
    (hlen : find.length = parts.length) (hfind : ∀ k ∈ find, k < fut.length) (u : U) (t : T) :
    mgLogpFull svd H o parts fut find u t = .error .valueError ∧ mgPred svd H o parts (some fut) find u t = .error .valueError := by
  obtain ⟨next, hn⟩ := fancy_ok hfind
  obtain ⟨hnl, hni⟩ := fancy_spec.1 hn
  have h1 : mgProp1 svd H o parts next u t = .error .valueError := by
    rw [mgProp1, if_pos (hnl.trans hlen)]
    obtain ⟨hA, hf, hQ⟩ := mlLin_eq hD (xisOf parts) u t
    obtain ⟨hA', hf', hQ'⟩ := mlNonlin_eq hD (xisOf parts) u t
    obtain ⟨p, ps, rfl⟩ := List.exists_cons_of_ne_nil hne
    obtain ⟨k, ks, rfl⟩ := List.exists_cons_of_ne_nil (l := find) (by intro h; simp [h] at hlen)
    obtain ⟨hx, hk⟩ := hni 0 k rfl
    have hx' : next[0]? = some fut[k] := by rw [← hx]; exact List.getElem?_eq_getElem hk
    have hp : (p :: ps)[0]? = some p := rfl
    simp only [List.length_cons, List.range_succ_eq_map, List.mapM_cons]
    rw [getIdx_ok.2 hx', ok_bind, getIdx_xs hA hp, ok_bind, getIdx_xs hf hp, ok_bind, getIdx_xs hQ hp, ok_bind, getIdx_xs hA' hp, ok_bind,
      getIdx_xs hf' hp, ok_bind, getIdx_xs hQ' hp, ok_bind]
    have hM := (mt_posDef (hO _ (List.getElem_mem hk)) (factorPsd svd (M.Qz p.1 u t))).det_pos.ne'
    have hQd := (hG.Qxi p.1 u t).det_pos.ne'
    simp only [mgProp1Opt, mgProp1One, npSolveV, npSolveM, if_neg hM, if_neg hQd, if_neg hl, ok_bind]
    rfl
  exact ⟨by simp only [mgLogpFull, hn, ok_bind, h1]; rfl, by simp only [mgPred, hn, ok_bind, h1]; rfl⟩

/-- A valid model with two nonlinear states. -/
noncomputable def mgToyH2 : MlHooks 2 1 1 ℝ ℕ ℝ where
  nonlin xs _ _ := (none, some xs, none)
  lin _ _ _ := (none, none, none)
  meas _ y _ := (fun _ => y, none, none, none)
  cross _ _ _ := none

example : mgLogpFull mgToySvd mgToyH2 (MlObj.init (some 1) (some 1) (some 1) (some 1) (some 0) (some 0) (some 1) none none (some 0))
    [(0, 0, 1)] [(0, 1, 0)] [0] 0 0 = .error .valueError :=
  (C86_one_nonlinear_state (M := ⟨fun _ _ _ => 0, fun x _ _ => x, fun _ _ _ => 1, fun _ _ _ => 1, fun _ _ _ => 0, fun _ _ _ => 1, fun _ _ _ => 0,
      fun _ _ _ => 1, fun _ _ _ => 0, fun _ _ _ => 1, fun y _ _ => y⟩) (by norm_num)
    (by constructor <;> intros <;> simp_all [Spec.Gives, Spec.GivesOrZero, mgToyH2, MlObj.init, KF.new, KF.setDynamics])
    ⟨fun _ _ _ => PosDef.one, fun _ _ _ => PosSemidef.one, fun _ _ _ => PosDef.one⟩ _ (by simp) _
    (by intro x hx; simp at hx; subst hx; exact PosSemidef.one) _ rfl (by simp) 0 0).1

example : mgSampleSmooth (U := ℝ) (T := ℕ) mgToySvd (fun (y : ℝ) (_ : Fin 1) => y) ⟨fun _ _ _ => (none, none, none), fun _ _ _ => (none, none, none),
    fun _ y _ => (fun _ => y.getD 0, none, none, none), fun _ _ _ => none⟩
    (MlObj.init (some 1) none (some 1) (some 1) (some 0) (some 0) (some 1) none none (some 0)) [((0 : VecR 1), 0, 1)] none [] 0 (some 3) 0 =
      .error .unboundLocalError :=
  C86_no_measurement_matrix _ _ _ _ _ _ _ _ _ _ rfl rfl rfl rfl

/-- **C86** Rejection sampling is refused with `NotImplementedError`, for every run of at least two steps and whatever options the user gives
(even a bound `maxpdf` of his own), because the default bound is computed first. -/
theorem C86_no_rejection_sampling {P U Y V Ω : Type} (S : SmoothCallbacks P U Y V Ω) (hS : ∀ a b c d e, S.logpXnextMaxFull a b c d e = mgLogpMax)
    (pt : List (Step P)) (hpt : 2 ≤ pt.length) (M : ℕ) (D : SData U Y) (method : String) (hm : method = "rs" ∨ method = "rsas")
    (user : Option SOpts) (d : AllDraws Ω) (fuel : ℕ) :
    performSmoothing S pt M D method user d fuel = .error .notImplementedError := by
  obtain ⟨n, hn⟩ : ∃ n, pt.length - 1 = n + 1 := ⟨pt.length - 2, by omega⟩
  have hmax : maxCoeffs S pt D = .error .notImplementedError := by
    rw [maxCoeffs, hn, List.range_succ_eq_map, List.mapM_cons]
    rw [getIdx_of_lt (show 0 < pt.length by omega), ok_bind, hS]
    rfl
  unfold performSmoothing
  have hd : defaultOptions S pt D method = .error .notImplementedError := by
    rcases hm with rfl | rfl
    · simp only [defaultOptions, if_true, hmax]; rfl
    · simp only [defaultOptions, if_true, hmax]; rfl
  rw [hd]
  rfl

end PyPE

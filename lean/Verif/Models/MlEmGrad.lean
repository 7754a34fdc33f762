import Verif.Models.MlEmClaims
import Verif.Models.MlToy

/-!
# Claim C83: gradients of the EM objective of a Rao-Blackwellised model
-/

namespace PyPE
open Matrix MeasureTheory ProbabilityTheory

variable {lxi lz ly p : ℕ} {U T Y : Type}

/-- A gradient hook returns `g x j` for every particle `x` and parameter `j`; `None` means that nothing depends on the parameters. -/
def Spec.GivesGrad {X E : Type} [Zero E] (d : Option (List (Fin p → E))) (xs : List X) (g : X → Fin p → E) : Prop :=
  match d with
  | none => ∀ x ∈ xs, ∀ j, g x j = 0
  | some l => l = xs.map g

theorem optIdx_gives {X E : Type} [Zero E] {d : Option (List (Fin p → E))} {xs : List X} {g : X → Fin p → E} (h : Spec.GivesGrad d xs g)
    {i : ℕ} {x : X} (hx : xs[i]? = some x) :
    ∃ v, optIdx d i = .ok v ∧ v.getD (fun _ => 0) = g x ∧ (v = none ∨ v = some (g x)) := by
  cases d with
  | none => exact ⟨none, rfl, funext fun j => (h x (List.mem_of_getElem? hx) j).symm, .inl rfl⟩
  | some l =>
    simp only [Spec.GivesGrad] at h
    refine ⟨some (g x), ?_, rfl, .inr rfl⟩
    simp only [optIdx, getIdx_ok.2 (show l[i]? = some (g x) by simp [h, hx]), ok_bind]
    rfl

theorem computeL2GradF_zero {N d : ℕ} (g : Fin N → Fin p → Matrix (Fin d) (Fin d) ℝ) (perr : Fin N → Fin d → ℝ) :
    computeL2GradF g perr (fun _ _ => 0) = g := by
  funext i j; ext k l; simp [computeL2GradF]

theorem computeL2GradA_zero {N : ℕ} (g : Fin N → Fin p → MatR (lxi + lz) (lxi + lz)) (perr : Fin N → Fin (lxi + lz) → ℝ)
    (zl : Fin N → Fin lz → ℝ) (Pl M : Fin N → MatR lz lz) (A : Fin N → MatR (lxi + lz) lz) :
    computeL2GradA g perr zl Pl M A (fun _ _ => 0) = g := by
  funext i j; ext k l
  refine Fin.addCases (fun a => ?_) (fun a => ?_) k <;> refine Fin.addCases (fun b => ?_) (fun b => ?_) l <;>
    simp [computeL2GradA, subBlocks]

/-- Missing gradients act as zero gradients. -/
theorem mlL2Grad_eq (s : RbS lxi lz) (n : RbP lxi lz) (A : MatR (lxi + lz) lz) (f : VecR (lxi + lz)) {df : Option (Fin p → VecR (lxi + lz))}
    {dA : Option (Fin p → MatR (lxi + lz) lz)} {gf : Fin p → VecR (lxi + lz)} {gA : Fin p → MatR (lxi + lz) lz}
    (hf : df.getD (fun _ => 0) = gf) (hA : dA.getD (fun _ => 0) = gA) :
    mlL2Grad s n A f df dA = computeL2GradA (N := 1)
      (computeL2GradF (fun _ _ => 0) (computePredErr (fun _ => vstackV n.1 n.2.1) (fun _ => f) (fun _ => A) (fun _ => s.1.2.1)) fun _ => gf)
      (computePredErr (fun _ => vstackV n.1 n.2.1) (fun _ => f) (fun _ => A) (fun _ => s.1.2.1)) (fun _ => s.1.2.1) (fun _ => s.1.2.2)
      (fun _ => s.2) (fun _ => A) (fun _ => gA) 0 := by
  subst hf hA
  cases df <;> cases dA <;> simp [mlL2Grad, computeL2GradF_zero, computeL2GradA_zero]

theorem choHalf_deriv {k : ℕ} (S L : ℝ → MatR k k) (S' L' : MatR k k) (θ : ℝ) (hS : Spec.MatDerivAt S S' θ) (hL : Spec.MatDerivAt L L' θ)
    (hpos : (S θ).PosDef) : ∃ c, choFactor (S θ) = .ok c ∧ choHalf c (L θ) = -(1 / 2) * (Real.log (S θ).det + ((S θ)⁻¹ * L θ).trace) ∧
      HasDerivAt (fun t => -(1 / 2) * (Real.log (S t).det + ((S t)⁻¹ * L t).trace)) (-(1 / 2) * logprodDerivative c S' (L θ) L') θ := by
  obtain ⟨c, hc, hd⟩ := C51_logprod_derivative S L S' L' θ hS hL hpos
  obtain ⟨c', hc', hv⟩ := choHalf_eq hpos
  obtain rfl : c = c' := Except.ok.inj (hc.symm.trans hc')
  exact ⟨c, hc, hv _, hd.const_mul _⟩

theorem expLogNext_eq (M : Spec.RbModel lxi lz ly U T Y) (u : U) (t : T) (s : RbS lxi lz) (n : RbP lxi lz)
    (hP : (fromBlocks s.1.2.2 s.2 s.2ᵀ n.2.2).PosSemidef) :
    M.expLogNext u t s n + ((lxi + lz : ℕ) : ℝ) / 2 * Real.log (2 * Real.pi) = -(1 / 2) * (Real.log (M.stQ s.1.1 u t).det +
      ((M.stQ s.1.1 u t)⁻¹ * mlL2 s n (M.stA s.1.1 u t) (M.stF s.1.1 u t)).trace) := by
  obtain ⟨μ, V, hV, h1, h2⟩ := mlL2_eq s n (M.stA s.1.1 u t) (M.stF s.1.1 u t) hP
  have h := (integral_logNormal (M.stQ s.1.1 u t) μ hV).2
  rw [h2, integral_map (Continuous.measurable _).aemeasurable] at h
  · unfold Spec.RbModel.expLogNext
    rw [h, h1]; ring
  · refine (Continuous.aestronglyMeasurable ?_)
    unfold Spec.logNormal; fun_prop
  · simp only [Spec.nextState]
    refine Continuous.sub (continuous_pi fun q => ?_) (by fun_prop)
    refine Fin.addCases (fun a => ?_) (fun a => ?_) q
    · simp only [Fin.append_left]; fun_prop
    · simp only [Fin.append_right]; fun_prop

theorem zipWith_map_fst {α β γ δ : Type} (f : α → β → γ) (g : γ → δ) (l : List α) (m : List β) :
    (List.zipWith f l m).map g = List.zipWith (fun a b => g (f a b)) l m := by rw [List.map_zipWith]

theorem hasDerivAt_zip_sum {α β : Type} (l : List α) (m : List β) (F : α → β → ℝ → ℝ) (F' : α → β → ℝ) (x : ℝ)
    (h : ∀ (i : ℕ) a b, l[i]? = some a → m[i]? = some b → HasDerivAt (F a b) (F' a b) x) :
    HasDerivAt (fun t => (List.zipWith (fun a b => F a b t) l m).sum) (List.zipWith F' l m).sum x := by
  have := hasDerivAt_list_sum (l.zip m) (fun q => F q.1 q.2) (fun q => F' q.1 q.2) x fun q hq => by
    obtain ⟨i, hi⟩ := List.getElem?_of_mem hq
    rw [List.getElem?_zip_eq_some] at hi
    exact h i _ _ hi.1 hi.2
  simpa [List.zip, List.map_zipWith] using this

/-- **C83** `eval_logp_xnext_val_grad` returns the value of `eval_logp_xnext` (C82) and its exact gradient with respect to the parameters, when
`get_pred_dynamics_grad` returns the derivatives of `A`, `f` and `Q` (`None` for those that do not depend on the parameters). -/
theorem C83_xnext_gradient {H : MlHooks lxi lz ly U T Y} {o : MlObj lxi lz ly} (M : (Fin p → ℝ) → Spec.RbModel lxi lz ly U T Y)
    (params : Fin p → ℝ) (hD : Spec.RbDescribes H o (M params)) (parts : List (RbS lxi lz)) (hne : parts ≠ []) (next : List (RbP lxi lz))
    (hlen : next.length = parts.length) (u : U) (t : T) (hQ : ∀ x, ((M params).stQ x u t).PosDef)
    (hP : ∀ (i : ℕ) s n, parts[i]? = some s → next[i]? = some n → (fromBlocks s.1.2.2 s.2 s.2ᵀ n.2.2).PosSemidef)
    {dA : Option (List (Fin p → MatR (lxi + lz) lz))} {df : Option (List (Fin p → VecR (lxi + lz)))}
    {dQ : Option (List (Fin p → MatR (lxi + lz) (lxi + lz)))} {gA : VecR lxi → Fin p → MatR (lxi + lz) lz}
    {gf : VecR lxi → Fin p → VecR (lxi + lz)} {gQ : VecR lxi → Fin p → MatR (lxi + lz) (lxi + lz)}
    (hdA : Spec.GivesGrad dA (parts.map fun s => s.1.1) gA) (hdf : Spec.GivesGrad df (parts.map fun s => s.1.1) gf)
    (hdQ : Spec.GivesGrad dQ (parts.map fun s => s.1.1) gQ)
    (hA : ∀ x j, Spec.MatDerivAt (fun θ => (M (Function.update params j θ)).stA x u t) (gA x j) (params j))
    (hf : ∀ x j, Spec.VecDerivAt (fun θ => (M (Function.update params j θ)).stF x u t) (gf x j) (params j))
    (hQ' : ∀ x j, Spec.MatDerivAt (fun θ => (M (Function.update params j θ)).stQ x u t) (gQ x j) (params j)) :
    ∃ v g, mlEvalXnextValGrad H o dA df dQ parts next u t = .ok (v, g) ∧ mlEvalXnext H o parts next u t = .ok v ∧
      ∀ j, HasDerivAt (fun θ => (List.zipWith (fun s n => (M (Function.update params j θ)).expLogNext u t s n +
        ((lxi + lz : ℕ) : ℝ) / 2 * Real.log (2 * Real.pi)) parts next).sum) (g j) (params j) := by
  classical
  have hupd : ∀ j, Function.update params j (params j) = params := fun j => Function.update_eq_self j params
  set k : ℝ := ((lxi + lz : ℕ) : ℝ) / 2 * Real.log (2 * Real.pi) with hk
  have hval := C82_logp_xnext hD parts hne next hlen u t hQ hP
  -- the gradient of one particle
  obtain ⟨cf, hcf⟩ : ∃ cf : VecR lxi → MatR (lxi + lz) (lxi + lz), ∀ x, choFactor ((M params).stQ x u t) = .ok (cf x) :=
    ⟨fun x => (choHalf_eq (hQ x)).choose, fun x => (choHalf_eq (hQ x)).choose_spec.1⟩
  set G : RbS lxi lz → RbP lxi lz → Fin p → ℝ := fun s n j => -(1 / 2) * logprodDerivative (cf s.1.1) (gQ s.1.1 j)
    (mlL2 s n ((M params).stA s.1.1 u t) ((M params).stF s.1.1 u t))
    (mlL2Grad s n ((M params).stA s.1.1 u t) ((M params).stF s.1.1 u t) (some (gf s.1.1)) (some (gA s.1.1)) j) with hG
  have hone : ∀ (i : ℕ) s n, parts[i]? = some s → next[i]? = some n → ∀ j,
      HasDerivAt (fun θ => (M (Function.update params j θ)).expLogNext u t s n + k) (G s n j) (params j) := by
    intro i s n hs hn j
    have hpsd := hP i s n hs hn
    have hsym : (s.1.2.2).IsSymm := by
      have h := PosSemidef.isSymm' hpsd
      have := congrArg toBlocks₁₁ h.eq
      rwa [fromBlocks_transpose, toBlocks_fromBlocks₁₁, toBlocks_fromBlocks₁₁] at this
    have hL := C51_l2_gradient (N := 1) params (fun _ => vstackV n.1 n.2.1) (fun _ => s.1.2.1) (fun _ => n.2.2) (fun _ => s.1.2.2)
      (fun _ => s.2) (fun θ _ => (M θ).stF s.1.1 u t) (fun θ _ => (M θ).stA s.1.1 u t) (fun _ => gf s.1.1) (fun _ => gA s.1.1) 0 j hsym
      (hf _ j) (hA _ j)
    have hp : ((fun θ => (M (Function.update params j θ)).stQ s.1.1 u t) (params j)).PosDef := by
      simp only [hupd]; exact hQ _
    obtain ⟨c, h1, h2, h3⟩ := choHalf_deriv (fun θ => (M (Function.update params j θ)).stQ s.1.1 u t) _ _ _ _ (hQ' s.1.1 j) hL hp
    simp only [hupd] at h1 h2 h3
    obtain rfl : cf s.1.1 = c := Except.ok.inj ((hcf _).symm.trans h1)
    have e : (fun θ => (M (Function.update params j θ)).expLogNext u t s n + k) = _ :=
      funext fun θ => expLogNext_eq (M (Function.update params j θ)) u t s n hpsd
    rw [e, hG]
    beta_reduce
    rw [mlL2Grad_eq (gf := gf s.1.1) (gA := gA s.1.1) s n _ _ rfl rfl]
    exact h3
  have hvone : ∀ (i : ℕ) s n, parts[i]? = some s → next[i]? = some n →
      choHalf (cf s.1.1) (mlL2 s n ((M params).stA s.1.1 u t) ((M params).stF s.1.1 u t)) = (M params).expLogNext u t s n + k := by
    intro i s n hs hn
    obtain ⟨c, h1, h2⟩ := choHalf_eq (hQ s.1.1)
    obtain rfl : cf s.1.1 = c := Except.ok.inj ((hcf _).symm.trans h1)
    rw [h2, expLogNext_eq (M params) u t s n (hP i s n hs hn)]
  obtain ⟨b, hb, hflag⟩ := mlCalcAfQ_flag hD (parts.map fun s => s.1.1) (by simpa using hne) u t
  have hcomp : ((List.range parts.length).mapM fun i => do
      let q ← getIdx parts i
      let n ← getIdx next i
      let A ← getIdx ((parts.map fun s => s.1.1).map ((M params).stA · u t)) i
      let f ← getIdx ((parts.map fun s => s.1.1).map ((M params).stF · u t)) i
      let c ← choOf b ((parts.map fun s => s.1.1).map ((M params).stQ · u t)) i
      let dAi ← optIdx dA i
      let dfi ← optIdx df i
      let dQi ← optIdx dQ i
      return (choHalf c (mlL2 q n A f), fun j => -(1 / 2) * logprodDerivative c (dQi.getD (fun _ => 0) j) (mlL2 q n A f)
        (mlL2Grad q n A f dfi dAi j)) : PyM (List (ℝ × (Fin p → ℝ)))) =
      .ok (List.zipWith (fun s n => ((M params).expLogNext u t s n + k, G s n)) parts next) := by
    refine mapM_zip_points parts next hlen _ _ fun i s n hs hn => ?_
    have hx : (parts.map fun s => s.1.1)[i]? = some s.1.1 := by simp [hs]
    obtain ⟨vA, a1, a2, -⟩ := optIdx_gives hdA hx
    obtain ⟨vf, f1, f2, -⟩ := optIdx_gives hdf hx
    obtain ⟨vQ, q1, q2, -⟩ := optIdx_gives hdQ hx
    simp only [getIdx_ok.2 hs, getIdx_ok.2 hn, ok_bind, choOf_eq hflag hx, hcf, a1, f1, q1, q2,
      getIdx_ok.2 (show ((parts.map fun s => s.1.1).map ((M params).stA · u t))[i]? = some ((M params).stA s.1.1 u t) by simp [hs]),
      getIdx_ok.2 (show ((parts.map fun s => s.1.1).map ((M params).stF · u t))[i]? = some ((M params).stF s.1.1 u t) by simp [hs]),
      pure_eq_ok, Except.ok.injEq, Prod.mk.injEq]
    refine ⟨hvone i s n hs hn, funext fun j => ?_⟩
    rw [hG]
    beta_reduce
    rw [mlL2Grad_eq s n _ _ f2 a2, mlL2Grad_eq (gf := gf s.1.1) (gA := gA s.1.1) s n _ _ rfl rfl]
  have hder : ∀ j, HasDerivAt (fun θ => (List.zipWith (fun s n => (M (Function.update params j θ)).expLogNext u t s n + k) parts next).sum)
      (List.zipWith (fun s n => G s n j) parts next).sum (params j) := fun j =>
    hasDerivAt_zip_sum parts next (fun s n θ => (M (Function.update params j θ)).expLogNext u t s n + k) (fun s n => G s n j) _
      fun i s n hs hn => hone i s n hs hn j
  have hmain : (do
      let s ← mlCalcAfQ H o (parts.map fun s => s.1.1) u t
      let l ← (List.range parts.length).mapM fun i => do
        let q ← getIdx parts i
        let n ← getIdx next i
        let A ← getIdx s.1 i
        let f ← getIdx s.2.1 i
        let c ← choOf s.2.2.2 s.2.2.1 i
        let dAi ← optIdx dA i
        let dfi ← optIdx df i
        let dQi ← optIdx dQ i
        return (choHalf c (mlL2 q n A f), fun j => -(1 / 2) * logprodDerivative c (dQi.getD (fun _ => 0) j) (mlL2 q n A f)
          (mlL2Grad q n A f dfi dAi j))
      return ((l.map fun r => r.1).sum, fun j => (l.map fun r => r.2 j).sum) : PyM (ℝ × (Fin p → ℝ))) =
      .ok ((List.zipWith (fun s n => (M params).expLogNext u t s n + k) parts next).sum,
        fun j => (List.zipWith (fun s n => G s n j) parts next).sum) := by
    rw [hb, ok_bind]
    beta_reduce
    rw [hcomp, ok_bind, pure_eq_ok]
    simp only [List.map_zipWith]
  by_cases hnn : dA = none ∧ df = none ∧ dQ = none
  · obtain ⟨rfl, rfl, rfl⟩ := hnn
    refine ⟨_, fun _ => 0, ?_, hval, fun j => ?_⟩
    · simp only [mlEvalXnextValGrad, hval, ok_bind, pure_eq_ok]
    · convert hder j using 1
      symm
      refine List.sum_eq_zero fun x hx => ?_
      rw [List.mem_iff_getElem?] at hx
      obtain ⟨i, hi⟩ := hx
      rw [List.getElem?_zipWith] at hi
      obtain ⟨s, n, hs, hn, rfl⟩ : ∃ s n, parts[i]? = some s ∧ next[i]? = some n ∧ G s n j = x := by
        cases h1 : parts[i]? <;> cases h2 : next[i]? <;> simp_all
      have hm : s.1.1 ∈ parts.map fun s => s.1.1 := List.mem_map.2 ⟨s, List.mem_of_getElem? hs, rfl⟩
      have z1 : gA s.1.1 = fun _ => 0 := funext fun j => hdA _ hm j
      have z2 : gf s.1.1 = fun _ => 0 := funext fun j => hdf _ hm j
      have z3 : gQ s.1.1 = fun _ => 0 := funext fun j => hdQ _ hm j
      rw [hG]
      beta_reduce
      rw [mlL2Grad_eq (gf := gf s.1.1) (gA := gA s.1.1) s n _ _ rfl rfl, z1, z2, z3, computeL2GradF_zero, computeL2GradA_zero]
      simp [logprodDerivative, choSolveM]
  · refine ⟨_, _, ?_, hval, hder⟩
    rw [← hmain]
    cases dA <;> cases df <;> cases dQ <;> first | rfl | exact absurd ⟨rfl, rfl, rfl⟩ hnn

/-! ## Measurements -/

theorem expLogY_eq (M : Spec.RbModel lxi lz ly U T Y) (y : Y) (t : T) (s : RbS lxi lz) (hP : s.1.2.2.PosSemidef) :
    M.expLogY y t s + ly / 2 * Real.log (2 * Real.pi) = -(1 / 2) * (Real.log (M.R s.1.1 y t).det + ((M.R s.1.1 y t)⁻¹ *
      (vecMulVec (M.y y t - (M.C s.1.1 y t *ᵥ s.1.2.1 + M.h s.1.1 y t)) (M.y y t - (M.C s.1.1 y t *ᵥ s.1.2.1 + M.h s.1.1 y t)) +
        M.C s.1.1 y t * s.1.2.2 * (M.C s.1.1 y t)ᵀ)).trace) := by
  set C := M.C s.1.1 y t
  have hg := gauss_affine_one (μ := s.1.2.1) hP (M.y y t - M.h s.1.1 y t) (-C)
  have e : ∀ z, M.y y t - (C *ᵥ z + M.h s.1.1 y t) = M.y y t - M.h s.1.1 y t + -C *ᵥ z := fun z => by rw [neg_mulVec]; abel
  have h := (integral_logNormal (M.R s.1.1 y t) (M.y y t - M.h s.1.1 y t + -C *ᵥ s.1.2.1) (posSemidef_conj hP (-C))).2
  rw [← hg, integral_map (Continuous.measurable (by fun_prop)).aemeasurable] at h
  · have h' : M.expLogY y t s = ∫ z, Spec.logNormal (M.R s.1.1 y t) (M.y y t - M.h s.1.1 y t + -C *ᵥ z) ∂(Spec.gauss s.1.2.1 s.1.2.2) := by
      unfold Spec.RbModel.expLogY
      simp only [show M.C s.1.1 y t = C from rfl, e]
    rw [h', h, e, show C * s.1.2.2 * Cᵀ = -C * s.1.2.2 * (-C)ᵀ by simp]
    ring
  · refine (Continuous.aestronglyMeasurable ?_)
    unfold Spec.logNormal; fun_prop

/-- `M` with the measurement matrix of `M'`. -/
def Spec.RbModel.withC (M M' : Spec.RbModel lxi lz ly U T Y) : Spec.RbModel lxi lz ly U T Y := { M with C := M'.C }

theorem mlL3Grad_eq (y : VecR ly) (q : RbP lxi lz) (C : MatR ly lz) (h : Option (VecR ly)) (dC : Option (Fin p → MatR ly lz))
    {dh : Option (Fin p → VecR ly)} {gh : Fin p → VecR ly} (hh : dh.getD (fun _ => 0) = gh) (j : Fin p) :
    mlL3Grad y q C h dC dh j = -vecMulVec (gh j) (measurementDiff y q.2.1 (some C) h) -
      (vecMulVec (gh j) (measurementDiff y q.2.1 (some C) h))ᵀ := by
  subst hh
  cases dC <;> cases dh <;> simp [mlL3Grad]

/-- **C83** When at least one gradient is given and `R` is a constant of the object, `eval_logp_y_val_grad` returns the value of
`eval_logp_y` and the exact gradient of that value as a function of `h` and `R`, with `C` kept at its present value — whatever
`get_meas_dynamics_grad` returns for `C`. The gradient is hence the true one exactly when `C` does not depend on the parameters. -/
theorem C83_y_gradient (asY : VecR ly → Y) {H : MlHooks lxi lz ly U T Y} {o : MlObj lxi lz ly}
    (M : (Fin p → ℝ) → Spec.RbModel lxi lz ly U T Y) (params : Fin p → ℝ) (hD : Spec.RbDescribes H o (M params)) (hG : (M params).Good)
    (parts : List (RbS lxi lz)) (hne : parts ≠ []) (y : Y) (t : T)
    (hC : ∀ xs, (H.meas xs y t).2.1 ≠ none ∨ o.kf.C ≠ none ∨ (H.meas xs y t).2.2.1 ≠ none)
    (hRid : ∀ xs, (H.meas xs y t).2.2.2 = none) (hP : ∀ s ∈ parts, s.1.2.2.PosSemidef)
    {dC : Option (List (Fin p → MatR ly lz))} {dh : Option (List (Fin p → VecR ly))} {dR : Option (List (Fin p → MatR ly ly))}
    (hsome : dC ≠ none ∨ dh ≠ none ∨ dR ≠ none) {gh : VecR lxi → Fin p → VecR ly} {gR : VecR lxi → Fin p → MatR ly ly}
    (hdh : Spec.GivesGrad dh (parts.map fun s => s.1.1) gh) (hdR : Spec.GivesGrad dR (parts.map fun s => s.1.1) gR)
    (hy : ∀ j θ, (M (Function.update params j θ)).y y t = (M params).y y t)
    (hh : ∀ x j, Spec.VecDerivAt (fun θ => (M (Function.update params j θ)).h x y t) (gh x j) (params j))
    (hR : ∀ x j, Spec.MatDerivAt (fun θ => (M (Function.update params j θ)).R x y t) (gR x j) (params j)) :
    ∃ v g, mlEvalYValGrad asY H o dC dh dR parts y t = .ok (v, g) ∧ mlEvalY H o parts y t = .ok v ∧
      ∀ j, HasDerivAt (fun θ => (parts.map fun s => ((M (Function.update params j θ)).withC (M params)).expLogY y t s +
        ly / 2 * Real.log (2 * Real.pi)).sum) (g j) (params j) := by
  classical
  have hupd : ∀ j, Function.update params j (params j) = params := fun j => Function.update_eq_self j params
  set k : ℝ := ly / 2 * Real.log (2 * Real.pi) with hk
  have hval := C82_logp_y hD hG parts hne y t hC hP
  obtain ⟨cf, hcf⟩ : ∃ cf : VecR lxi → MatR ly ly, ∀ x, choFactor ((M params).R x y t) = .ok (cf x) :=
    ⟨fun x => (choHalf_eq (hG.R x y t)).choose, fun x => (choHalf_eq (hG.R x y t)).choose_spec.1⟩
  set D : RbS lxi lz → VecR ly := fun s => (M params).y y t - ((M params).C s.1.1 y t *ᵥ s.1.2.1 + (M params).h s.1.1 y t) with hDd
  set L : RbS lxi lz → MatR ly ly := fun s => vecMulVec (D s) (D s) + (M params).C s.1.1 y t * s.1.2.2 * ((M params).C s.1.1 y t)ᵀ with hL
  set G : RbS lxi lz → Fin p → ℝ := fun s j => -(1 / 2) * logprodDerivative (cf s.1.1) (gR s.1.1 j) (L s)
    (-vecMulVec (gh s.1.1 j) (D s) - (vecMulVec (gh s.1.1 j) (D s))ᵀ) with hGd
  have hone : ∀ s ∈ parts, ∀ j, HasDerivAt (fun θ => ((M (Function.update params j θ)).withC (M params)).expLogY y t s + k) (G s j)
      (params j) := by
    intro s hs j
    set C := (M params).C s.1.1 y t with hCd
    have hdd : Spec.VecDerivAt (fun θ => (M params).y y t - (C *ᵥ s.1.2.1 + (M (Function.update params j θ)).h s.1.1 y t)) (-gh s.1.1 j)
        (params j) := by
      have := vecDeriv_sub (vecDeriv_const (x := params j) ((M params).y y t))
        (vecDeriv_add (vecDeriv_const (x := params j) (C *ᵥ s.1.2.1)) (hh s.1.1 j))
      simpa using this
    have hLd := matDeriv_add (matDeriv_vecMulVec hdd hdd) (matDeriv_const (x := params j) (C * s.1.2.2 * Cᵀ))
    have hp : ((fun θ => (M (Function.update params j θ)).R s.1.1 y t) (params j)).PosDef := by
      simp only [hupd]; exact hG.R _ _ _
    obtain ⟨c, h1, h2, h3⟩ := choHalf_deriv (fun θ => (M (Function.update params j θ)).R s.1.1 y t) _ _ _ _ (hR s.1.1 j) hLd hp
    simp only [hupd] at h1 h3
    obtain rfl : cf s.1.1 = c := Except.ok.inj ((hcf _).symm.trans h1)
    have e : (fun θ => ((M (Function.update params j θ)).withC (M params)).expLogY y t s + k) = _ :=
      funext fun θ => expLogY_eq ((M (Function.update params j θ)).withC (M params)) y t s (hP s hs)
    rw [e]
    simp only [Spec.RbModel.withC, hy, ← hCd]
    refine h3.congr_deriv ?_
    rw [hGd, hL, hDd]
    congr 2
    simp only [← hCd, transpose_vecMulVec, neg_vecMulVec, vecMulVec_neg, add_zero]
    abel
  have hder : ∀ j, HasDerivAt (fun θ => (parts.map fun s => ((M (Function.update params j θ)).withC (M params)).expLogY y t s + k).sum)
      (parts.map fun s => G s j).sum (params j) := fun j =>
    hasDerivAt_list_sum parts (fun s θ => ((M (Function.update params j θ)).withC (M params)).expLogY y t s + k) (fun s => G s j) _
      fun s hs => hone s hs j
  obtain ⟨d, hd, eC, eh, eR, hflag, hiff⟩ := mlMeasDyn_entries hD (parts.map fun s => s.1.1) (by simpa using hne) y t (hC _)
  have hid : d.Q.2 = true := hiff.2 (hRid _)
  have hcomp : ((List.range parts.length).mapM fun i => do
      let q ← getIdx parts i
      let C ← getIdx d.A.1 i
      let h ← getIdx d.f.1 i
      let l3 ← mlL3 ((M params).y y t) q.1 C h
      let C ← mlNeedC C
      let dhi ← optIdx dh i
      let dRi ← optIdx dR i
      let c ← mlGradCho d.Q.2 d.Q.1
      return (choHalf c l3, fun j => -(1 / 2) * logprodDerivative c (dRi.getD (fun _ => 0) j) l3
        (mlL3Grad ((M params).y y t) q.1 C h (dC.map fun _ => fun _ => 0) dhi j)) : PyM (List (ℝ × (Fin p → ℝ)))) =
      .ok (parts.map fun s => ((M params).expLogY y t s + k, G s)) := by
    rw [mapM_range_eq parts _ (fun s => .ok ((M params).expLogY y t s + k, G s))]
    · exact mapM_ok_map (g := fun s => ((M params).expLogY y t s + k, G s)) fun _ _ => rfl
    intro i s hs
    have hx : (parts.map fun s => s.1.1)[i]? = some s.1.1 := by simp [hs]
    obtain ⟨h, h1, h2⟩ := eh i _ hx
    obtain ⟨c, l3, hc, hl, hv⟩ := mlL3_moment (M := M params) (y := y) (t := t) s (hG.R _ _ _) (hP s (List.mem_of_getElem? hs)) h h2
    obtain rfl : cf s.1.1 = c := Except.ok.inj ((hcf _).symm.trans hc)
    obtain ⟨vh, f1, f2, -⟩ := optIdx_gives hdh hx
    obtain ⟨vR, q1, q2, -⟩ := optIdx_gives hdR hx
    have hch : mlGradCho d.Q.2 d.Q.1 = .ok (cf s.1.1) := by
      rw [mlGradCho, hid, if_pos rfl, eR]
      have hpos : 0 < (parts.map fun s => s.1.1).length := by have := lt_of_getElem?_some hx; omega
      rw [choOfOpt_eq (xs := parts.map fun s => s.1.1) (val := fun x => (M params).R x y t) (b := true) (fun _ => hflag hid)
        (List.getElem?_eq_getElem hpos), hflag hid _ (List.getElem_mem hpos) _ (List.mem_of_getElem? hx), hcf]
    have hl' : l3 = L s := by
      rw [mlL3, measurementDiff_getD, h2] at hl
      exact (Except.ok.inj hl).symm
    simp only [getIdx_ok.2 hs, getIdx_ok.2 h1, ok_bind, eC, hl, mlNeedC, f1, q1, q2, hch, hv,
      getIdx_ok.2 (show ((parts.map fun s => s.1.1).map fun x => some ((M params).C x y t))[i]? = some (some ((M params).C s.1.1 y t)) by simp [hs]),
      pure_eq_ok, Except.ok.injEq, Prod.mk.injEq]
    refine ⟨by rw [hk], funext fun j => ?_⟩
    rw [mlL3Grad_eq _ _ _ _ _ f2, measurementDiff_getD, h2, hl']
  refine ⟨_, fun j => (parts.map fun s => G s j).sum, ?_, hval, hder⟩
  unfold mlEvalYValGrad
  rw [hd, ok_bind]
  have hfin : (do
      let l ← (List.range parts.length).mapM fun i => do
        let q ← getIdx parts i
        let C ← getIdx d.A.1 i
        let h ← getIdx d.f.1 i
        let l3 ← mlL3 ((M params).y y t) q.1 C h
        let C ← mlNeedC C
        let dhi ← optIdx dh i
        let dRi ← optIdx dR i
        let c ← mlGradCho d.Q.2 d.Q.1
        return (choHalf c l3, fun j => -(1 / 2) * logprodDerivative c (dRi.getD (fun _ => 0) j) l3
          (mlL3Grad ((M params).y y t) q.1 C h (dC.map fun _ => fun _ => 0) dhi j))
      return ((l.map fun r => r.1).sum, fun j => (l.map fun r => r.2 j).sum) : PyM (ℝ × (Fin p → ℝ))) =
      .ok ((parts.map fun s => (M params).expLogY y t s + k).sum, fun j => (parts.map fun s => G s j).sum) := by
    rw [hcomp, ok_bind, pure_eq_ok]
    simp only [List.map_map, Function.comp_def]
  rw [← hfin]
  cases dC <;> cases dh <;> cases dR <;> first | rfl | simp at hsome

/-- **C83** (defect) with gradients and covariances `R` computed per particle, `eval_logp_y_val_grad` raises `UnboundLocalError`. -/
theorem C83_y_gradient_per_particle_R (asY : VecR ly → Y) {H : MlHooks lxi lz ly U T Y} {o : MlObj lxi lz ly}
    {M : Spec.RbModel lxi lz ly U T Y} (hD : Spec.RbDescribes H o M) (parts : List (RbS lxi lz)) (hne : parts ≠ []) (y : Y) (t : T)
    (hC : ∀ xs, (H.meas xs y t).2.1 ≠ none ∨ o.kf.C ≠ none ∨ (H.meas xs y t).2.2.1 ≠ none)
    (hRper : ∀ xs, (H.meas xs y t).2.2.2 ≠ none)
    {dC : Option (List (Fin p → MatR ly lz))} {dh : Option (List (Fin p → VecR ly))} {dR : Option (List (Fin p → MatR ly ly))}
    (hsome : dC ≠ none ∨ dh ≠ none ∨ dR ≠ none) {gh : VecR lxi → Fin p → VecR ly} {gR : VecR lxi → Fin p → MatR ly ly}
    (hdh : Spec.GivesGrad dh (parts.map fun s => s.1.1) gh) (hdR : Spec.GivesGrad dR (parts.map fun s => s.1.1) gR) :
    mlEvalYValGrad asY H o dC dh dR parts y t = .error .unboundLocalError := by
  obtain ⟨d, hd, eC, eh, eR, hflag, hiff⟩ := mlMeasDyn_entries hD (parts.map fun s => s.1.1) (by simpa using hne) y t (hC _)
  have hid : d.Q.2 = false := by
    cases h : d.Q.2 with
    | false => rfl
    | true => exact absurd (hiff.1 h) (hRper _)
  have herr : ((List.range parts.length).mapM fun i => do
      let q ← getIdx parts i
      let C ← getIdx d.A.1 i
      let h ← getIdx d.f.1 i
      let l3 ← mlL3 (M.y y t) q.1 C h
      let C ← mlNeedC C
      let dhi ← optIdx dh i
      let dRi ← optIdx dR i
      let c ← mlGradCho d.Q.2 d.Q.1
      return (choHalf c l3, fun j => -(1 / 2) * logprodDerivative c (dRi.getD (fun _ => 0) j) l3
        (mlL3Grad (M.y y t) q.1 C h (dC.map fun _ => fun _ => 0) dhi j)) : PyM (List (ℝ × (Fin p → ℝ)))) =
      .error .unboundLocalError := by
    have hev : ∀ i ∈ List.range parts.length, (do
      let q ← getIdx parts i
      let C ← getIdx d.A.1 i
      let h ← getIdx d.f.1 i
      let l3 ← mlL3 (M.y y t) q.1 C h
      let C ← mlNeedC C
      let dhi ← optIdx dh i
      let dRi ← optIdx dR i
      let c ← mlGradCho d.Q.2 d.Q.1
      return (choHalf c l3, fun j => -(1 / 2) * logprodDerivative c (dRi.getD (fun _ => 0) j) l3
        (mlL3Grad (M.y y t) q.1 C h (dC.map fun _ => fun _ => 0) dhi j)) : PyM (ℝ × (Fin p → ℝ))) = .error .unboundLocalError := by
      intro i hi
      have hi' : i < parts.length := List.mem_range.1 hi
      have hs : parts[i]? = some parts[i] := List.getElem?_eq_getElem hi'
      have hx : (parts.map fun s => s.1.1)[i]? = some parts[i].1.1 := by simp [hs]
      obtain ⟨h, h1, h2⟩ := eh i _ hx
      obtain ⟨vh, f1, f2, -⟩ := optIdx_gives hdh hx
      obtain ⟨vR, q1, q2, -⟩ := optIdx_gives hdR hx
      simp only [getIdx_ok.2 hs, getIdx_ok.2 h1, ok_bind, eC, mlL3, mlNeedC, f1, q1, mlGradCho, hid,
        getIdx_ok.2 (show ((parts.map fun s => s.1.1).map fun x => some (M.C x y t))[i]? = some (some (M.C parts[i].1.1 y t)) by simp [hs])]
      rfl
    refine mapM_error_of (fun i hi => .inl (hev i hi)) fun h => ?_
    obtain ⟨v, hv⟩ := h 0 (by simpa using List.length_pos_iff.2 hne)
    rw [hev 0 (by simpa using List.length_pos_iff.2 hne)] at hv
    cases hv
  unfold mlEvalYValGrad
  rw [hd, ok_bind]
  cases dC <;> cases dh <;> cases dR <;> first | (simp at hsome; done) | (simp only [] at herr ⊢; rw [herr]; rfl)

/-- **C83** When `get_meas_dynamics_grad` returns no gradient at all, `eval_logp_y_val_grad` returns a zero gradient and the value of `eval_logp_y`
at the *already processed* measurement, which `get_meas_dynamics` is asked to process a second time (harmless when processing twice is the
same as once). -/
theorem C83_y_no_gradient (asY : VecR ly → Y) {H : MlHooks lxi lz ly U T Y} {o : MlObj lxi lz ly}
    {M : Spec.RbModel lxi lz ly U T Y} (hD : Spec.RbDescribes H o M) (hG : M.Good) (parts : List (RbS lxi lz)) (hne : parts ≠ []) (y : Y) (t : T)
    (hC : ∀ y xs, (H.meas xs y t).2.1 ≠ none ∨ o.kf.C ≠ none ∨ (H.meas xs y t).2.2.1 ≠ none) (hP : ∀ s ∈ parts, s.1.2.2.PosSemidef) :
    mlEvalYValGrad (p := p) asY H o none none none parts y t =
      .ok ((parts.map fun s => M.expLogY (asY (M.y y t)) t s + ly / 2 * Real.log (2 * Real.pi)).sum, fun _ => 0) := by
  obtain ⟨d, hd, -⟩ := mlMeasDyn_entries hD (parts.map fun s => s.1.1) (by simpa using hne) y t (hC _ _)
  unfold mlEvalYValGrad
  rw [hd, ok_bind]
  simp only [C82_logp_y hD hG parts hne (asY (M.y y t)) t (hC _) hP, ok_bind]
  rfl

/-! ## Initial state -/

/-- The expected log-density of the linear part of the initial state, `z ~ N(z0, P0)`, over the smoothed law of the particle. -/
noncomputable def Spec.expLogZ0 (zp : VecR lz × MatR lz lz) (s : RbS lxi lz) : ℝ :=
  ∫ z, Spec.logNormal zp.2 (z - zp.1) ∂(Spec.gauss s.1.2.1 s.1.2.2)

theorem expLogZ0_eq (zp : VecR lz × MatR lz lz) (s : RbS lxi lz) (hP : s.1.2.2.PosSemidef) :
    Spec.expLogZ0 zp s + lz / 2 * Real.log (2 * Real.pi) = -(1 / 2) * (Real.log zp.2.det +
      (zp.2⁻¹ * (vecMulVec (s.1.2.1 - zp.1) (s.1.2.1 - zp.1) + s.1.2.2)).trace) := by
  have hg : Spec.gauss (s.1.2.1 - zp.1) s.1.2.2 = (Spec.gauss s.1.2.1 s.1.2.2).map fun z => z - zp.1 := by
    have := gauss_affine_one (μ := s.1.2.1) hP (-zp.1) (1 : MatR lz lz)
    simp only [one_mulVec, Matrix.one_mul, transpose_one, Matrix.mul_one] at this
    rw [sub_eq_neg_add, ← this]
    congr 1; funext x; abel
  have h := (integral_logNormal zp.2 (s.1.2.1 - zp.1) hP).2
  rw [hg, integral_map (Measurable.aemeasurable (by fun_prop))] at h
  · unfold Spec.expLogZ0; rw [h]; ring
  · refine (Continuous.aestronglyMeasurable ?_)
    unfold Spec.logNormal; fun_prop

/-- **C83** `eval_logp_x0_val_grad` for a model with `p(z0 | xi0) = N(Z θ xi0)` and `log p(xi0) = ell θ xi0`, whose hooks return these and their
gradients: the gradient returned is exactly that of the average over the `N` particles of `log p(xi0)` plus the expected `log p(z0 | xi0)` (C82);
the value is the array of the `(log p(xi0[i]) + total of the expected log p(z0 | xi0)) / N`. -/
theorem C83_x0_gradient (Z : (Fin p → ℝ) → VecR lxi → VecR lz × MatR lz lz) (ell : (Fin p → ℝ) → VecR lxi → ℝ) (params : Fin p → ℝ)
    {init : List (VecR lxi) → List (VecR lz × MatR lz lz)} {initGrad : List (VecR lxi) → List ((Fin p → VecR lz) × (Fin p → MatR lz lz))}
    {lpxi0 : List (VecR lxi) → List ℝ} {lpxi0Grad : List (VecR lxi) → Fin p → ℝ} {gz : VecR lxi → Fin p → VecR lz}
    {gP : VecR lxi → Fin p → MatR lz lz} (parts : List (RbS lxi lz))
    (hi : ∀ xs, init xs = xs.map (Z params)) (hig : ∀ xs, initGrad xs = xs.map fun x => (gz x, gP x)) (hl : ∀ xs, lpxi0 xs = xs.map (ell params))
    (hz : ∀ x j, Spec.VecDerivAt (fun θ => (Z (Function.update params j θ) x).1) (gz x j) (params j))
    (hPd : ∀ x j, Spec.MatDerivAt (fun θ => (Z (Function.update params j θ) x).2) (gP x j) (params j))
    (hlg : ∀ xs j, HasDerivAt (fun θ => (xs.map (ell (Function.update params j θ))).sum) (lpxi0Grad xs j) (params j))
    (hpos : ∀ x, (Z params x).2.PosDef) (hP : ∀ s ∈ parts, s.1.2.2.PosSemidef) :
    ∃ g, mlEvalX0ValGrad init initGrad lpxi0 lpxi0Grad parts = .ok (parts.map fun s => (ell params s.1.1 +
        (parts.map fun s => Spec.expLogZ0 (Z params s.1.1) s + lz / 2 * Real.log (2 * Real.pi)).sum) / parts.length, g) ∧
      ∀ j, HasDerivAt (fun θ => (parts.map fun s => ell (Function.update params j θ) s.1.1 +
        (Spec.expLogZ0 (Z (Function.update params j θ) s.1.1) s + lz / 2 * Real.log (2 * Real.pi))).sum / parts.length) (g j) (params j) := by
  classical
  have hupd : ∀ j, Function.update params j (params j) = params := fun j => Function.update_eq_self j params
  set k : ℝ := lz / 2 * Real.log (2 * Real.pi) with hk
  obtain ⟨cf, hcf⟩ : ∃ cf : VecR lxi → MatR lz lz, ∀ x, choFactor (Z params x).2 = .ok (cf x) :=
    ⟨fun x => (choHalf_eq (hpos x)).choose, fun x => (choHalf_eq (hpos x)).choose_spec.1⟩
  set D : RbS lxi lz → VecR lz := fun s => s.1.2.1 - (Z params s.1.1).1 with hD
  set G : RbS lxi lz → Fin p → ℝ := fun s j => -(1 / 2) * logprodDerivative (cf s.1.1) (gP s.1.1 j) (vecMulVec (D s) (D s) + s.1.2.2)
    (-vecMulVec (D s) (gz s.1.1 j) - (vecMulVec (D s) (gz s.1.1 j))ᵀ) with hG
  have hone : ∀ s ∈ parts, ∀ j, HasDerivAt (fun θ => Spec.expLogZ0 (Z (Function.update params j θ) s.1.1) s + k) (G s j) (params j) := by
    intro s hs j
    have hdd : Spec.VecDerivAt (fun θ => s.1.2.1 - (Z (Function.update params j θ) s.1.1).1) (-gz s.1.1 j) (params j) := by
      have := vecDeriv_sub (vecDeriv_const (x := params j) s.1.2.1) (hz s.1.1 j)
      simpa using this
    have hLd := matDeriv_add (matDeriv_vecMulVec hdd hdd) (matDeriv_const (x := params j) s.1.2.2)
    have hp : ((fun θ => (Z (Function.update params j θ) s.1.1).2) (params j)).PosDef := by
      simp only [hupd]; exact hpos _
    obtain ⟨c, h1, h2, h3⟩ := choHalf_deriv (fun θ => (Z (Function.update params j θ) s.1.1).2) _ _ _ _ (hPd s.1.1 j) hLd hp
    simp only [hupd] at h1 h3
    obtain rfl : cf s.1.1 = c := Except.ok.inj ((hcf _).symm.trans h1)
    have e : (fun θ => Spec.expLogZ0 (Z (Function.update params j θ) s.1.1) s + k) = _ :=
      funext fun θ => expLogZ0_eq (Z (Function.update params j θ) s.1.1) s (hP s hs)
    rw [e]
    refine h3.congr_deriv ?_
    rw [hG, hD]
    congr 2
    simp only [transpose_vecMulVec, neg_vecMulVec, vecMulVec_neg, add_zero]
    abel
  have hv : ∀ s ∈ parts, choHalf (cf s.1.1) (vecMulVec (D s) (D s) + s.1.2.2) = Spec.expLogZ0 (Z params s.1.1) s + k := by
    intro s hs
    obtain ⟨c, h1, h2⟩ := choHalf_eq (hpos s.1.1)
    obtain rfl : cf s.1.1 = c := Except.ok.inj ((hcf _).symm.trans h1)
    rw [h2, expLogZ0_eq _ s (hP s hs)]
  have hcomp : ((List.range parts.length).mapM fun i => do
      let s ← getIdx parts i
      let zp ← getIdx (init (parts.map fun s => s.1.1)) i
      let dzp ← getIdx (initGrad (parts.map fun s => s.1.1)) i
      mlX0GradOne s.1 zp dzp.1 dzp.2 : PyM (List (ℝ × (Fin p → ℝ)))) =
      .ok (parts.map fun s => (Spec.expLogZ0 (Z params s.1.1) s + k, G s)) := by
    rw [mapM_range_eq parts _ (fun s => .ok (Spec.expLogZ0 (Z params s.1.1) s + k, G s))]
    · exact mapM_ok_map (g := fun s => (Spec.expLogZ0 (Z params s.1.1) s + k, G s)) fun _ _ => rfl
    intro i s hs
    simp only [getIdx_ok.2 hs, ok_bind, hi, hig, mlX0GradOne,
      getIdx_ok.2 (show ((parts.map fun s => s.1.1).map (Z params))[i]? = some (Z params s.1.1) by simp [hs]),
      getIdx_ok.2 (show ((parts.map fun s => s.1.1).map fun x => (gz x, gP x))[i]? = some (gz s.1.1, gP s.1.1) by simp [hs]), hcf,
      pure_eq_ok, Except.ok.injEq, Prod.mk.injEq]
    exact ⟨hv s (List.mem_of_getElem? hs), rfl⟩
  refine ⟨fun j => (lpxi0Grad (parts.map fun s => s.1.1) j + (parts.map fun s => G s j).sum) / parts.length, ?_, fun j => ?_⟩
  · unfold mlEvalX0ValGrad
    simp only [hcomp, ok_bind, pure_eq_ok, hl, List.map_map, Function.comp_def]
  · have h1 := hlg (parts.map fun s => s.1.1) j
    have h2 := hasDerivAt_list_sum parts (fun s θ => Spec.expLogZ0 (Z (Function.update params j θ) s.1.1) s + k) (fun s => G s j) (params j)
      fun s hs => hone s hs j
    have h3 := (h1.add h2).div_const (parts.length : ℝ)
    refine h3.congr_of_eventuallyEq (Filter.Eventually.of_forall fun θ => ?_)
    simp only [Pi.add_apply, List.map_map, Function.comp_def, List.sum_map_add]

/-- The arithmetic mean. -/
noncomputable def Spec.mean (l : List ℝ) : ℝ := l.sum / l.length

theorem mean_div (lx : List ℝ) (E : ℝ) (hne : lx ≠ []) :
    Spec.mean (lx.map fun x => (x + E) / lx.length) = Spec.mean lx / lx.length + E / lx.length := by
  have hpos : (0 : ℝ) < lx.length := by exact_mod_cast List.length_pos_iff.2 hne
  have h : (lx.map fun x => (x + E) / lx.length).sum = (lx.sum + lx.length * E) / lx.length := by
    have : ∀ (n : ℝ) (l : List ℝ), (l.map fun x => (x + E) / n).sum = (l.sum + l.length * E) / n := by
      intro n l
      induction l with
      | nil => simp
      | cons a l ih => simp only [List.map_cons, List.sum_cons, ih, List.length_cons]; push_cast; ring
    exact this _ _
  simp only [Spec.mean, h, List.length_map]
  field_simp

/-- **C83** (defect) For the same model, the mean of the value returned by `eval_logp_x0_val_grad` counts `log p(xi0)` with weight `1/N` only,
while the mean of `eval_logp_x0`, of which C83_x0_gradient gives the gradient, counts it fully: they differ unless there is one particle or the
mean of `log p(xi0)` vanishes (as for the default `eval_logp_xi0`). -/
theorem C83_x0_value_mean (Z : VecR lxi → VecR lz × MatR lz lz) (ell : VecR lxi → ℝ)
    {init : List (VecR lxi) → List (VecR lz × MatR lz lz)} {initGrad : List (VecR lxi) → List ((Fin p → VecR lz) × (Fin p → MatR lz lz))}
    {lpxi0 : List (VecR lxi) → List ℝ} {lpxi0Grad : List (VecR lxi) → Fin p → ℝ} {gz : VecR lxi → Fin p → VecR lz}
    {gP : VecR lxi → Fin p → MatR lz lz} (parts : List (RbS lxi lz)) (hne : parts ≠ [])
    (hi : ∀ xs, init xs = xs.map Z) (hig : ∀ xs, initGrad xs = xs.map fun x => (gz x, gP x)) (hl : ∀ xs, lpxi0 xs = xs.map ell)
    (hpos : ∀ x, (Z x).2.PosDef) (hP : ∀ s ∈ parts, s.1.2.2.PosSemidef) :
    ∃ v g r, mlEvalX0ValGrad init initGrad lpxi0 lpxi0Grad parts = .ok (v, g) ∧ mlEvalX0 init lpxi0 parts = .ok r ∧
      Spec.mean r = Spec.mean (parts.map fun s => ell s.1.1) +
        Spec.mean (parts.map fun s => Spec.expLogZ0 (Z s.1.1) s + lz / 2 * Real.log (2 * Real.pi)) ∧
      Spec.mean v = Spec.mean (parts.map fun s => ell s.1.1) / parts.length +
        Spec.mean (parts.map fun s => Spec.expLogZ0 (Z s.1.1) s + lz / 2 * Real.log (2 * Real.pi)) := by
  set k : ℝ := lz / 2 * Real.log (2 * Real.pi) with hk
  have hv : ∀ s ∈ parts, ∃ c, choFactor (Z s.1.1).2 = .ok c ∧
      choHalf c (vecMulVec (s.1.2.1 - (Z s.1.1).1) (s.1.2.1 - (Z s.1.1).1) + s.1.2.2) = Spec.expLogZ0 (Z s.1.1) s + k := by
    intro s hs
    obtain ⟨c, h1, h2⟩ := choHalf_eq (hpos s.1.1)
    exact ⟨c, h1, by rw [h2, expLogZ0_eq _ s (hP s hs)]⟩
  have hz : ∀ (i : ℕ) s, parts[i]? = some s → getIdx ((parts.map fun s => s.1.1).map Z) i = .ok (Z s.1.1) := fun i s hs =>
    getIdx_ok.2 (by simp [hs])
  have hgz : ∀ (i : ℕ) s, parts[i]? = some s → getIdx ((parts.map fun s => s.1.1).map fun x => (gz x, gP x)) i = .ok (gz s.1.1, gP s.1.1) :=
    fun i s hs => getIdx_ok.2 (by simp [hs])
  obtain ⟨l, hl1, hl2⟩ : ∃ l : List (ℝ × (Fin p → ℝ)), ((List.range parts.length).mapM fun i => do
      let s ← getIdx parts i
      let zp ← getIdx (init (parts.map fun s => s.1.1)) i
      let dzp ← getIdx (initGrad (parts.map fun s => s.1.1)) i
      mlX0GradOne s.1 zp dzp.1 dzp.2 : PyM (List (ℝ × (Fin p → ℝ)))) = .ok l ∧
      l.map (fun r => r.1) = parts.map fun s => Spec.expLogZ0 (Z s.1.1) s + k := by
    classical
    obtain ⟨r, hr, h1, h2⟩ := mapM_points parts (fun i => do
      let s ← getIdx parts i
      let zp ← getIdx (init (parts.map fun s => s.1.1)) i
      let dzp ← getIdx (initGrad (parts.map fun s => s.1.1)) i
      mlX0GradOne s.1 zp dzp.1 dzp.2 : ℕ → PyM (ℝ × (Fin p → ℝ)))
      (fun i s => (Spec.expLogZ0 (Z s.1.1) s + k, fun j => -(1 / 2) * logprodDerivative
        (if h : ∃ c, choFactor (Z s.1.1).2 = .ok c then h.choose else 0) (gP s.1.1 j)
        (vecMulVec (s.1.2.1 - (Z s.1.1).1) (s.1.2.1 - (Z s.1.1).1) + s.1.2.2)
        (-vecMulVec (s.1.2.1 - (Z s.1.1).1) (gz s.1.1 j) - (vecMulVec (s.1.2.1 - (Z s.1.1).1) (gz s.1.1 j))ᵀ))) fun i s hs => by
      obtain ⟨c, h1, h2⟩ := hv s (List.mem_of_getElem? hs)
      have hex : ∃ c, choFactor (Z s.1.1).2 = .ok c := ⟨c, h1⟩
      have hce : hex.choose = c := Except.ok.inj (hex.choose_spec.symm.trans h1)
      rw [dif_pos hex, hce]
      simp only [getIdx_ok.2 hs, ok_bind, hi, hig, hz i s hs, hgz i s hs, mlX0GradOne, h1, h2, pure_eq_ok]
    refine ⟨r, hr, List.ext_getElem? fun i => ?_⟩
    rw [List.getElem?_map, List.getElem?_map]
    cases hs : parts[i]? with
    | none =>
      have : r[i]? = none := by rw [List.getElem?_eq_none_iff] at hs ⊢; omega
      rw [this]; rfl
    | some s => rw [h2 i s hs]; rfl
  have hlp : ((List.range parts.length).mapM fun i => do
      let s ← getIdx parts i
      let zp ← getIdx (init (parts.map fun s => s.1.1)) i
      mlX0One s.1 zp : PyM (List ℝ)) = .ok (parts.map fun s => Spec.expLogZ0 (Z s.1.1) s + k) := by
    rw [mapM_range_eq parts _ (fun s => .ok (Spec.expLogZ0 (Z s.1.1) s + k))]
    · exact mapM_ok_map (g := fun s => Spec.expLogZ0 (Z s.1.1) s + k) fun _ _ => rfl
    intro i s hs
    obtain ⟨c, h1, h2⟩ := hv s (List.mem_of_getElem? hs)
    simp only [getIdx_ok.2 hs, ok_bind, hi, hz i s hs, mlX0One, h1, h2, pure_eq_ok]
  refine ⟨_, _, _, by unfold mlEvalX0ValGrad; simp only [hl1, ok_bind, pure_eq_ok]; rfl,
    by unfold mlEvalX0; simp only [hlp, ok_bind, hl, List.length_map, if_true]; rfl, ?_, ?_⟩
  · have e : List.zipWith (· + ·) ((parts.map fun s => s.1.1).map ell) (parts.map fun s => Spec.expLogZ0 (Z s.1.1) s + k) =
        parts.map fun s => ell s.1.1 + (Spec.expLogZ0 (Z s.1.1) s + k) := by
      rw [List.map_map, List.zipWith_map, List.zipWith_self]; rfl
    rw [e]
    simp only [Spec.mean, List.length_map, List.sum_map_add]
    ring
  · have := mean_div (parts.map fun s => ell s.1.1) (l.map fun r => r.1).sum (by simpa using hne)
    simp only [List.length_map] at this
    rw [hl]
    simp only [List.map_map, Function.comp_def] at this ⊢
    rw [this, hl2]
    simp only [Spec.mean, List.length_map]

/-! ## A parametric model -/

/-- `mlToyH` with `fz = θ` and `C = θ`. -/
noncomputable def mlEmToyH (θ : Fin 1 → ℝ) : MlHooks 1 1 1 ℝ ℕ ℝ where
  nonlin xs _ _ := (some (xs.map fun x => !![x 0]), some (xs.map fun x => x), none)
  lin xs _ _ := (none, some (xs.map fun _ _ => θ 0), some (xs.map fun x => !![x 0 ^ 2 + 1]))
  meas xs y _ := (fun _ => y, some (xs.map fun _ => !![θ 0]), some (xs.map fun x => x), none)
  cross _ _ _ := none

/-- The same model on paper. -/
noncomputable def mlEmToyM (θ : Fin 1 → ℝ) : Spec.RbModel 1 1 1 ℝ ℕ ℝ :=
  { mlToyM with fz := fun _ _ _ _ => θ 0, C := fun _ _ _ => !![θ 0] }

theorem mlEmToy_describes (θ : Fin 1 → ℝ) : Spec.RbDescribes (mlEmToyH θ) mlToyO (mlEmToyM θ) := by
  constructor <;> intros <;>
    simp_all [Spec.Gives, Spec.GivesOrZero, mlEmToyH, mlToyO, mlEmToyM, mlToyM, MlObj.init, KF.new, KF.setDynamics]

theorem mlEmToy_good (θ : Fin 1 → ℝ) : (mlEmToyM θ).Good := ⟨mlToy_good.Qxi, mlToy_good.Qz, mlToy_good.R⟩

/-- Two smoothed particles. -/
noncomputable def mlEmToyParts : List (RbS 1 1) := [((0, 1, 0), 0), ((1, 2, 1), 0)]

theorem mlEmToyParts_psd : ∀ s ∈ mlEmToyParts, s.1.2.2.PosSemidef := by
  simp only [mlEmToyParts, List.mem_cons, List.not_mem_nil, or_false]
  rintro p (rfl | rfl)
  · exact PosSemidef.zero
  · exact PosSemidef.one

/-- C82, C83_xnext_gradient: hypotheses met. -/
example : ∃ v g, mlEvalXnextValGrad (p := 1) (mlEmToyH 1) mlToyO none (some [fun _ => vstackV 0 1, fun _ => vstackV 0 1]) none mlEmToyParts
    [(3, 1, 1), (4, 0, 1)] 0 0 = .ok (v, g) ∧ ∃ v', mlEvalY (mlEmToyH 1) mlToyO mlEmToyParts 0 0 = .ok v' := by
  obtain ⟨v, g, h, -⟩ := C83_xnext_gradient (p := 1) mlEmToyM 1 (mlEmToy_describes 1) mlEmToyParts (by simp [mlEmToyParts])
    [(3, 1, 1), (4, 0, 1)] rfl 0 0 (fun x => mlToy_stQ x 0 0)
    (by
      have h0 : (fromBlocks (0 : MatR 1 1) 0 (0 : MatR 1 1)ᵀ 1).PosSemidef := by
        rw [transpose_zero, show fromBlocks (0 : MatR 1 1) 0 0 1 = diagonal (Sum.elim (fun _ => 0) fun _ => 1) by
          ext (i | i) (j | j) <;> simp [diagonal, fromBlocks, one_apply]]
        exact PosSemidef.diagonal (by rintro (i | i) <;> simp)
      have h1 : (fromBlocks (1 : MatR 1 1) 0 (0 : MatR 1 1)ᵀ 1).PosSemidef := by
        rw [transpose_zero, fromBlocks_one]; exact PosSemidef.one
      rintro (_ | _ | i) s n hs hn
      · simp only [mlEmToyParts, List.getElem?_cons_zero, Option.some.injEq] at hs hn
        subst hs hn; exact h0
      · simp only [mlEmToyParts, List.getElem?_cons_succ, List.getElem?_cons_zero, Option.some.injEq, zero_add] at hs hn
        subst hs hn; exact h1
      · simp [mlEmToyParts] at hs)
    (dA := none) (df := some [fun _ => vstackV 0 1, fun _ => vstackV 0 1]) (dQ := none) (gA := fun _ _ => 0) (gf := fun _ _ => vstackV 0 1)
    (gQ := fun _ _ => 0) (by simp [Spec.GivesGrad]) (by simp [Spec.GivesGrad, mlEmToyParts]) (by simp [Spec.GivesGrad])
    (fun x j => (matDeriv_const (mlToyM.stA x 0 0) :))
    (fun x j i => by
      fin_cases j
      refine Fin.addCases (fun a => ?_) (fun a => ?_) i
      · simp only [Spec.RbModel.stF, vstackV_eq_append, Fin.append_left]
        exact hasDerivAt_const (1 : ℝ) (x a)
      · simp only [Spec.RbModel.stF, vstackV_eq_append, Fin.append_right, mlEmToyM]
        simpa using hasDerivAt_id' (1 : ℝ))
    (fun x j => (matDeriv_const (mlToyM.stQ x 0 0) :))
  refine ⟨v, g, h, _, C82_logp_y (mlEmToy_describes 1) (mlEmToy_good 1) mlEmToyParts (by simp [mlEmToyParts]) 0 0
    (fun xs => .inl (by simp [mlEmToyH])) mlEmToyParts_psd⟩

/-- **C83** (defect) `get_meas_dynamics_grad` returns the correct derivative of `C`, but the gradient returned is 0 where the true one is `-1`:
one particle `z = 1` known exactly, `y = θ z + e`, measurement 0, at `θ = 1`. -/
theorem C83_y_gradient_ignores_C :
    (∃ v, mlEvalYValGrad (p := 1) (fun y => y 0) (mlEmToyH 1) mlToyO (some [fun _ => !![1]]) none none [((0, 1, 0), 0)] 0 0 =
      .ok (v, 0)) ∧
    Spec.MatDerivAt (fun θ => (mlEmToyM (Function.update 1 0 θ)).C 0 0 0) !![1] 1 ∧
    HasDerivAt (fun θ => ([(((0, 1, 0), 0) : RbS 1 1)].map fun s => (mlEmToyM (Function.update 1 0 θ)).expLogY 0 0 s +
      ((1 : ℕ) : ℝ) / 2 * Real.log (2 * Real.pi)).sum) (-1) 1 := by
  have hpsd : ∀ s ∈ [(((0, 1, 0), 0) : RbS 1 1)], s.1.2.2.PosSemidef := by
    intro s hs; rw [List.mem_singleton.1 hs]; exact PosSemidef.zero
  refine ⟨?_, fun i j => ?_, ?_⟩
  · obtain ⟨v, g, h1, -, h3⟩ := C83_y_gradient (p := 1) (fun y => y 0) mlEmToyM 1 (mlEmToy_describes 1) (mlEmToy_good 1) [((0, 1, 0), 0)]
      (by simp) 0 0 (fun xs => .inl (by simp [mlEmToyH])) (fun xs => rfl) hpsd (dC := some [fun _ => !![1]]) (dh := none) (dR := none)
      (.inl (by simp)) (gh := fun _ _ => 0) (gR := fun _ _ => 0) (by simp [Spec.GivesGrad]) (by simp [Spec.GivesGrad])
      (fun j θ => rfl) (fun x j => vecDeriv_const _) (fun x j => matDeriv_const _)
    refine ⟨v, ?_⟩
    rw [h1]
    congr 2
    funext j
    have h4 : HasDerivAt (fun _ : ℝ => ([(((0, 1, 0), 0) : RbS 1 1)].map fun s => (mlEmToyM 1).expLogY 0 0 s +
      ((1 : ℕ) : ℝ) / 2 * Real.log (2 * Real.pi)).sum) (g j) ((1 : Fin 1 → ℝ) j) := h3 j
    exact h4.unique (hasDerivAt_const _ _)
  · fin_cases i; fin_cases j
    simpa [mlEmToyM] using hasDerivAt_id' (1 : ℝ)
  · have e : ∀ θ : ℝ, ([(((0, 1, 0), 0) : RbS 1 1)].map fun s => (mlEmToyM (Function.update 1 0 θ)).expLogY 0 0 s +
        ((1 : ℕ) : ℝ) / 2 * Real.log (2 * Real.pi)).sum = -(1 / 2) * θ ^ 2 := by
      intro θ
      simp only [List.map_cons, List.map_nil, List.sum_cons, List.sum_nil, add_zero]
      rw [expLogY_eq _ _ _ _ PosSemidef.zero]
      simp [mlEmToyM, mlToyM, trace, Matrix.mul_apply, vecMulVec_apply, mulVec, dotProduct, Matrix.inv_def]
      ring
    simp only [e]
    exact (((hasDerivAt_id' (1 : ℝ)).pow 2).const_mul (-(1 / 2 : ℝ))).congr_deriv (by norm_num)

/-- C83_x0_gradient: hypotheses met by `z0 ~ N(θ, 1)`, `log p(xi0) = -θ xi0²`. -/
example : ∃ v g, mlEvalX0ValGrad (p := 1) (lxi := 1) (lz := 1) (fun xs => xs.map fun _ => (fun _ => 1, 1)) (fun xs => xs.map fun _ => (fun _ _ => 1, fun _ => 0))
    (fun xs => xs.map fun x => -(x 0 ^ 2)) (fun xs _ => (xs.map fun x => -(x 0 ^ 2)).sum) mlEmToyParts = .ok (v, g) := by
  obtain ⟨g, h, -⟩ := C83_x0_gradient (p := 1) (lxi := 1) (lz := 1) (fun θ _ => (fun _ => θ 0, 1)) (fun θ x => -(θ 0 * x 0 ^ 2)) 1
    (init := fun xs => xs.map fun _ => (fun _ => 1, 1)) (initGrad := fun xs => xs.map fun _ => (fun _ _ => 1, fun _ => 0))
    (lpxi0 := fun xs => xs.map fun x => -(x 0 ^ 2)) (lpxi0Grad := fun xs _ => (xs.map fun x => -(x 0 ^ 2)).sum)
    (gz := fun _ _ _ => 1) (gP := fun _ _ => 0) mlEmToyParts (fun xs => rfl) (fun xs => rfl) (fun xs => by simp)
    (fun x j i => by fin_cases j; simpa using hasDerivAt_id' (1 : ℝ)) (fun x j => matDeriv_const _)
    (fun xs j => by
      fin_cases j
      refine hasDerivAt_list_sum xs (fun x θ => -((Function.update (1 : Fin 1 → ℝ) 0 θ) 0 * x 0 ^ 2)) (fun x => -(x 0 ^ 2)) 1 fun x _ => ?_
      simp only [Function.update_self]
      exact ((hasDerivAt_id' (1 : ℝ)).mul_const (x 0 ^ 2)).neg.congr_deriv (by simp))
    (fun x => PosDef.one) mlEmToyParts_psd
  exact ⟨_, g, h⟩

end PyPE

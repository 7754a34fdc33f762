import Verif.Models.MlEm
import Verif.Models.MlToy

/-!
# C82: the EM objective of the Rao-Blackwellised model is the expected complete-data log-density
-/

namespace PyPE
open Matrix MeasureTheory ProbabilityTheory

variable {lxi lz ly p : ℕ} {U T Y : Type}

theorem vstackV_eq_append {a b : ℕ} (f : VecR a) (g : VecR b) : vstackV f g = Fin.append f g := by
  funext i
  refine Fin.addCases (fun i => ?_) (fun i => ?_) i <;> simp [vstackV]

theorem choHalf_eq {k : ℕ} {S : MatR k k} (hS : S.PosDef) : ∃ c, choFactor S = .ok c ∧
    ∀ l, choHalf c l = -(1 / 2) * (Real.log S.det + (S⁻¹ * l).trace) := by
  obtain ⟨c, h1, h2, h3⟩ := choForm hS
  exact ⟨c, h1, fun l => by rw [choHalf, h2, h3]⟩

theorem choHalf_moment {k : ℕ} {S : MatR k k} (hS : S.PosDef) : ∃ c, choFactor S = .ok c ∧
    ∀ (μ : VecR k) (V : MatR k k), V.PosSemidef → choHalf c (vecMulVec μ μ + V) =
      ∫ e, Spec.logNormal S e ∂(Spec.gauss μ V) + k / 2 * Real.log (2 * Real.pi) := by
  obtain ⟨c, h1, h2⟩ := choHalf_eq hS
  refine ⟨c, h1, fun μ V hV => ?_⟩
  rw [h2, (integral_logNormal S μ hV).2]; ring

/-- **C82** `eval_logp_x0` returns for every particle `log p(xi)` (as given by `eval_logp_xi0`) plus, up to the constant `lz/2 log 2π`, the
expected log-density of the initial linear state: the expectation of `log N(z; z0, P0)` over the smoothed law `N(z, P)` of the particle, where
`(z0, P0)` is what `get_rb_initial` returns for it. -/
theorem C82_logp_x0 (init : List (VecR lxi) → List (VecR lz × MatR lz lz)) (lpxi0 : List (VecR lxi) → List ℝ) (parts : List (RbS lxi lz))
    (hi : (init (parts.map fun s => s.1.1)).length = parts.length) (hl : (lpxi0 (parts.map fun s => s.1.1)).length = parts.length)
    (hP0 : ∀ zp ∈ init (parts.map fun s => s.1.1), zp.2.PosDef) (hP : ∀ s ∈ parts, s.1.2.2.PosSemidef) :
    ∃ r, mlEvalX0 init lpxi0 parts = .ok r ∧ r.length = parts.length ∧ ∀ (i : ℕ) s zp l, parts[i]? = some s →
      (init (parts.map fun s => s.1.1))[i]? = some zp → (lpxi0 (parts.map fun s => s.1.1))[i]? = some l →
      r[i]? = some (l + (∫ z, Spec.logNormal zp.2 (z - zp.1) ∂(Spec.gauss s.1.2.1 s.1.2.2) + lz / 2 * Real.log (2 * Real.pi))) := by
  set xil := parts.map fun s => s.1.1 with hx
  have hone : ∀ (i : ℕ) s, parts[i]? = some s → ∃ zp v, (init xil)[i]? = some zp ∧
      v = ∫ z, Spec.logNormal zp.2 (z - zp.1) ∂(Spec.gauss s.1.2.1 s.1.2.2) + lz / 2 * Real.log (2 * Real.pi) ∧ mlX0One s.1 zp = .ok v := by
    intro i s hs
    have hil : i < (init xil).length := by have := lt_of_getElem?_some hs; omega
    refine ⟨(init xil)[i], _, List.getElem?_eq_getElem hil, rfl, ?_⟩
    obtain ⟨c, hc, hv⟩ := choHalf_moment (hP0 _ (List.getElem_mem hil))
    have hps := hP s (List.mem_of_getElem? hs)
    unfold mlX0One
    rw [hc, ok_bind, hv _ _ hps, pure_eq_ok]
    have hg : Spec.gauss (s.1.2.1 - (init xil)[i].1) s.1.2.2 = (Spec.gauss s.1.2.1 s.1.2.2).map fun z => z - (init xil)[i].1 := by
      have := gauss_affine_one (μ := s.1.2.1) hps (-(init xil)[i].1) (1 : MatR lz lz)
      simp only [one_mulVec, Matrix.one_mul, transpose_one, Matrix.mul_one] at this
      rw [sub_eq_neg_add, ← this]
      congr 1; funext x; abel
    rw [hg, integral_map (Measurable.aemeasurable (by fun_prop))]
    refine (Continuous.aestronglyMeasurable ?_)
    unfold Spec.logNormal; fun_prop
  obtain ⟨lpz, hlpz, hlen, hval⟩ : ∃ lpz, ((List.range parts.length).mapM fun i => do
      let s ← getIdx parts i
      let zp ← getIdx (init xil) i
      mlX0One s.1 zp : PyM (List ℝ)) = .ok lpz ∧ lpz.length = parts.length ∧ ∀ (i : ℕ) s zp, parts[i]? = some s →
        (init xil)[i]? = some zp →
        lpz[i]? = some (∫ z, Spec.logNormal zp.2 (z - zp.1) ∂(Spec.gauss s.1.2.1 s.1.2.2) + lz / 2 * Real.log (2 * Real.pi)) := by
    obtain ⟨r, hr, h1, h2⟩ := mapM_points parts (fun i => do
      let s ← getIdx parts i
      let zp ← getIdx (init xil) i
      mlX0One s.1 zp : ℕ → PyM ℝ) (fun i s => ∫ z, Spec.logNormal ((init xil).getD i (0, 0)).2 (z - ((init xil).getD i (0, 0)).1)
        ∂(Spec.gauss s.1.2.1 s.1.2.2) + lz / 2 * Real.log (2 * Real.pi)) fun i s hs => by
      obtain ⟨zp, v, h1, h2, h3⟩ := hone i s hs
      simp only [getIdx_ok.2 hs, getIdx_ok.2 h1, ok_bind, h3, h2, List.getD_eq_getElem?_getD, h1, Option.getD_some]
    refine ⟨r, hr, h1, fun i s zp hs hz => ?_⟩
    rw [h2 i s hs]
    simp only [List.getD_eq_getElem?_getD, hz, Option.getD_some]
  refine ⟨List.zipWith (· + ·) (lpxi0 xil) lpz, ?_, by simp [hl, hlen], fun i s zp l h1 h2 h3 => ?_⟩
  · unfold mlEvalX0
    simp only [← hx, hlpz, ok_bind, if_pos hl]
  · rw [List.getElem?_zipWith, h3, hval i s zp h1 h2]

theorem mlCalcAfQ_flag {H : MlHooks lxi lz ly U T Y} {o : MlObj lxi lz ly} {M : Spec.RbModel lxi lz ly U T Y} (hD : Spec.RbDescribes H o M)
    (xs : List (VecR lxi)) (hne : xs ≠ []) (u : U) (t : T) :
    ∃ b, mlCalcAfQ H o xs u t = .ok (xs.map (M.stA · u t), xs.map (M.stF · u t), xs.map (M.stQ · u t), b) ∧
      (b = true → ∀ x ∈ xs, ∀ x' ∈ xs, M.stQ x u t = M.stQ x' u t) := by
  obtain ⟨b, hb⟩ := mlCalcAfQ_eq hD xs hne u t
  refine ⟨b, hb, fun h x hx x' hx' => ?_⟩
  have hbq : b = ((mlNonlin H o xs u t).Q.2 && (mlLin H o xs u t).Q.2 && (mlCrossStack H o xs u t).2) := by
    unfold mlCalcAfQ at hb
    simp only [bind_eq_ok] at hb
    obtain ⟨_, -, _, -, _, -, h⟩ := hb
    simp only [pure_eq_ok, Except.ok.injEq, Prod.mk.injEq] at h
    exact h.2.2.2.symm
  rw [hbq] at h
  simp only [Bool.and_eq_true] at h
  have e1 := (mlNonlin_eq hD xs u t).2.2
  have e2 := (mlLin_eq hD xs u t).2.2
  obtain ⟨-, e4⟩ := mlCrossStack_eq hD xs u t
  obtain ⟨-, r1⟩ := perPart_identical h.1.1
  obtain ⟨-, r2⟩ := perPart_identical h.1.2
  obtain ⟨X, hX⟩ := e4 h.2
  have r1' := e1.symm.trans r1
  have r2' := e2.symm.trans r2
  have a1 : ∀ x ∈ xs, some (M.Qxi x u t) = o.Qxi := fun x hx => List.eq_of_mem_replicate (r1' ▸ List.mem_map.2 ⟨x, hx, rfl⟩)
  have a2 : ∀ x ∈ xs, some (M.Qz x u t) = o.kf.Q := fun x hx => List.eq_of_mem_replicate (r2' ▸ List.mem_map.2 ⟨x, hx, rfl⟩)
  unfold Spec.RbModel.stQ
  rw [Option.some.inj ((a1 x hx).trans (a1 x' hx').symm), Option.some.inj ((a2 x hx).trans (a2 x' hx').symm), hX x hx, hX x' hx']

theorem choOf_eq {k : ℕ} {X : Type} {xs : List X} {val : X → MatR k k} {b : Bool}
    (hb : b = true → ∀ x ∈ xs, ∀ x' ∈ xs, val x = val x') {i : ℕ} {x : X} (hx : xs[i]? = some x) :
    choOf b (xs.map val) i = choFactor (val x) := by
  have hpos : 0 < xs.length := by have := lt_of_getElem?_some hx; omega
  unfold choOf
  cases b with
  | false => rw [if_neg (by simp), getIdx_ok.2 (show (xs.map val)[i]? = some (val x) by simp [hx]), ok_bind]
  | true =>
    rw [if_pos rfl, getIdx_ok.2 (show (xs.map val)[0]? = some (val xs[0]) by simp [hpos]), ok_bind,
      hb rfl _ (List.getElem_mem hpos) _ (List.mem_of_getElem? hx)]

theorem mlL2_eq (s : RbS lxi lz) (n : RbP lxi lz) (A : MatR (lxi + lz) lz) (f : VecR (lxi + lz))
    (hP : (fromBlocks s.1.2.2 s.2 s.2ᵀ n.2.2).PosSemidef) :
    ∃ (μ : VecR (lxi + lz)) (V : MatR (lxi + lz) (lxi + lz)), V.PosSemidef ∧ mlL2 s n A f = vecMulVec μ μ + V ∧
      Spec.gauss μ V = (Spec.pairLaw s.1.2 n.2 s.2).map fun w =>
        Spec.nextState n.1 (fun a => w (.inr a)) - (A *ᵥ (fun a => w (.inl a)) + f) := by
  have hsel : ∀ z : Fin lz → ℝ, Spec.nextState n.1 z = Fin.append n.1 0 + (selZ lxi lz)ᵀ *ᵥ z := by
    intro z; funext q
    refine Fin.addCases (fun a => ?_) (fun b => ?_) q
    · simp only [Spec.nextState, Fin.append_left, Pi.add_apply, mulVec, dotProduct, transpose_apply, selZ, of_apply]
      rw [Finset.sum_eq_zero, add_zero]
      intro c _
      rw [if_neg, zero_mul]
      intro h; have := congrArg Fin.val h; simp at this; omega
    · simp [Spec.nextState, Fin.append_right, mulVec, dotProduct, selZ, Fin.natAdd_inj]
  set B : Matrix (Fin (lxi + lz)) (Fin lz ⊕ Fin lz) ℝ := fromCols (-A) (selZ lxi lz)ᵀ with hB
  have haff := gauss_affine_one (μ := Sum.elim s.1.2.1 n.2.1) hP (Fin.append n.1 0 - f) B
  have herr : ∀ w : Fin lz ⊕ Fin lz → ℝ, Spec.nextState n.1 (fun a => w (.inr a)) - (A *ᵥ (fun a => w (.inl a)) + f) =
      Fin.append n.1 0 - f + B *ᵥ w := by
    intro w
    rw [hsel, hB, fromCols_mulVec, neg_mulVec]
    show _ + (selZ lxi lz)ᵀ *ᵥ (w ∘ Sum.inr) - (A *ᵥ (w ∘ Sum.inl) + f) = _
    abel
  have hcov : B * fromBlocks s.1.2.2 s.2 s.2ᵀ n.2.2 * Bᵀ = A * s.1.2.2 * Aᵀ - A * s.2 * selZ lxi lz -
      (A * s.2 * selZ lxi lz)ᵀ + (selZ lxi lz)ᵀ * n.2.2 * selZ lxi lz := by
    rw [hB, fromCols_mul_fromBlocks, transpose_fromCols, fromCols_mul_fromRows]
    simp only [transpose_neg, transpose_transpose, Matrix.neg_mul, Matrix.mul_neg, transpose_mul, Matrix.add_mul, Matrix.mul_assoc]
    abel
  refine ⟨Fin.append n.1 0 - f + B *ᵥ Sum.elim s.1.2.1 n.2.1, B * fromBlocks s.1.2.2 s.2 s.2ᵀ n.2.2 * Bᵀ, posSemidef_conj hP B, ?_, ?_⟩
  · rw [hcov, ← herr, mlL2, computeL2_eq]
    have : computePredErr (N := 1) (fun _ => vstackV n.1 n.2.1) (fun _ => f) (fun _ => A) (fun _ => s.1.2.1) 0 =
        Spec.nextState n.1 n.2.1 - (A *ᵥ s.1.2.1 + f) := by
      simp only [computePredErr, vstackV_eq_append, Spec.nextState]; abel
    rw [this]
    show _ = vecMulVec (Spec.nextState n.1 n.2.1 - (A *ᵥ s.1.2.1 + f)) (Spec.nextState n.1 n.2.1 - (A *ᵥ s.1.2.1 + f)) + _
    abel
  · rw [← haff]
    unfold Spec.pairLaw
    congr 1; funext w; rw [herr]

/-- The expected log-density of the next state `(xi', z')` of one trajectory: `xi'` is known, the pair `(z, z')` has the smoothed joint law. -/
noncomputable def Spec.RbModel.expLogNext (M : Spec.RbModel lxi lz ly U T Y) (u : U) (t : T) (s : RbS lxi lz) (n : RbP lxi lz) : ℝ :=
  ∫ w, Spec.logNormal (M.stQ s.1.1 u t)
    (Spec.nextState n.1 (fun a => w (.inr a)) - (M.stA s.1.1 u t *ᵥ (fun a => w (.inl a)) + M.stF s.1.1 u t))
    ∂(Spec.pairLaw s.1.2 n.2 s.2)

theorem mapM_zip_points {α β γ : Type} (l : List α) (m : List β) (hlen : m.length = l.length) (F : ℕ → PyM γ) (g : α → β → γ)
    (h : ∀ (i : ℕ) x y, l[i]? = some x → m[i]? = some y → F i = .ok (g x y)) :
    (List.range l.length).mapM F = .ok (List.zipWith g l m) := by
  have hz : l.length = (l.zip m).length := by simp [hlen]
  rw [hz, mapM_range_eq (l.zip m) F (fun q => .ok (g q.1 q.2))]
  · have := mapM_ok_map (l := l.zip m) (f := fun q => (.ok (g q.1 q.2) : PyM γ)) (g := fun q => g q.1 q.2) fun _ _ => rfl
    rw [this, List.zip, List.map_zipWith]
  · intro i q hq
    rw [List.getElem?_zip_eq_some] at hq
    exact h i q.1 q.2 hq.1 hq.2

/-- **C82** `eval_logp_xnext` returns the sum over the particles of the expected log-density of the next state given the present one, each up to
the constant `(lxi + lz)/2 log 2π`. -/
theorem C82_logp_xnext {H : MlHooks lxi lz ly U T Y} {o : MlObj lxi lz ly} {M : Spec.RbModel lxi lz ly U T Y} (hD : Spec.RbDescribes H o M)
    (parts : List (RbS lxi lz)) (hne : parts ≠ []) (next : List (RbP lxi lz)) (hlen : next.length = parts.length) (u : U) (t : T)
    (hQ : ∀ x, (M.stQ x u t).PosDef)
    (hP : ∀ (i : ℕ) s n, parts[i]? = some s → next[i]? = some n → (fromBlocks s.1.2.2 s.2 s.2ᵀ n.2.2).PosSemidef) :
    mlEvalXnext H o parts next u t = .ok (List.zipWith (fun s n => M.expLogNext u t s n +
      ((lxi + lz : ℕ) : ℝ) / 2 * Real.log (2 * Real.pi)) parts next).sum := by
  obtain ⟨b, hb, hflag⟩ := mlCalcAfQ_flag hD (parts.map fun s => s.1.1) (by simpa using hne) u t
  unfold mlEvalXnext
  rw [hb, ok_bind]
  beta_reduce
  rw [mapM_zip_points parts next hlen _ (fun s n => M.expLogNext u t s n + ((lxi + lz : ℕ) : ℝ) / 2 * Real.log (2 * Real.pi))]
  · rfl
  intro i s n hs hn
  have hx : (parts.map fun s => s.1.1)[i]? = some s.1.1 := by simp [hs]
  obtain ⟨c, hc, hv⟩ := choHalf_moment (hQ s.1.1)
  obtain ⟨μ, V, hV, h1, h2⟩ := mlL2_eq s n (M.stA s.1.1 u t) (M.stF s.1.1 u t) (hP i s n hs hn)
  simp only [getIdx_ok.2 hs, getIdx_ok.2 hn, ok_bind, choOf_eq hflag hx, hc,
    getIdx_ok.2 (show ((parts.map fun s => s.1.1).map (M.stA · u t))[i]? = some (M.stA s.1.1 u t) by simp [hs]),
    getIdx_ok.2 (show ((parts.map fun s => s.1.1).map (M.stF · u t))[i]? = some (M.stF s.1.1 u t) by simp [hs]), pure_eq_ok]
  rw [h1, hv μ V hV, h2, integral_map (Continuous.measurable _).aemeasurable]
  · rfl
  · refine (Continuous.aestronglyMeasurable ?_)
    unfold Spec.logNormal; fun_prop
  · simp only [vstackV_eq_append, Spec.nextState]
    refine Continuous.sub (continuous_pi fun q => ?_) (by fun_prop)
    refine Fin.addCases (fun a => ?_) (fun a => ?_) q
    · simp only [Fin.append_left]; fun_prop
    · simp only [Fin.append_right]; fun_prop

/-! ## Measurements -/

theorem mlMeasDyn_entries {H : MlHooks lxi lz ly U T Y} {o : MlObj lxi lz ly} {M : Spec.RbModel lxi lz ly U T Y} (hD : Spec.RbDescribes H o M)
    (xs : List (VecR lxi)) (hne : xs ≠ []) (y : Y) (t : T)
    (hC : (H.meas xs y t).2.1 ≠ none ∨ o.kf.C ≠ none ∨ (H.meas xs y t).2.2.1 ≠ none) :
    ∃ d, mlMeasDyn H o xs y t = .ok (M.y y t, d) ∧ d.A.1 = (xs.map fun x => some (M.C x y t)) ∧
      (∀ (i : ℕ) x, xs[i]? = some x → ∃ h, d.f.1[i]? = some h ∧ h.getD 0 = M.h x y t) ∧
      d.Q.1 = (xs.map fun x => some (M.R x y t)) ∧ (d.Q.2 = true → ∀ x ∈ xs, ∀ x' ∈ xs, M.R x y t = M.R x' y t) ∧
      (d.Q.2 = true ↔ (H.meas xs y t).2.2.2 = none) := by
  have hCg := hD.C xs y t
  have hh := hD.h xs y t
  have hR := hD.R xs y t
  have hR' := perPart_gives hR
  have hflag : (perPart xs.length (H.meas xs y t).2.2.2 o.kf.R).2 = true → ∀ x ∈ xs, ∀ x' ∈ xs, M.R x y t = M.R x' y t := by
    intro h x hx x' hx'
    obtain ⟨hn, -⟩ := perPart_identical h
    rw [hn] at hR
    simp only [Spec.Gives] at hR
    exact Option.some.inj ((hR x hx).symm.trans (hR x' hx'))
  have hiff : (perPart xs.length (H.meas xs y t).2.2.2 o.kf.R).2 = true ↔ (H.meas xs y t).2.2.2 = none := by
    cases (H.meas xs y t).2.2.2 <;> simp [perPart]
  have eh : ∀ (i : ℕ) x, xs[i]? = some x →
      ∃ h, (perPart xs.length (H.meas xs y t).2.2.1 o.kf.hk).1[i]? = some h ∧ h.getD 0 = M.h x y t := fun i x hx => givesOrZero_entries hh hx
  have hrep : ∀ c : MatR ly lz, (∀ x ∈ xs, M.C x y t = c) → List.replicate xs.length (some c) = xs.map fun x => some (M.C x y t) := by
    intro c hc
    symm
    rw [List.eq_replicate_iff]
    refine ⟨by simp, fun b hb => ?_⟩
    obtain ⟨x, hx, rfl⟩ := List.mem_map.1 hb
    rw [hc x hx]
  cases hc : (H.meas xs y t).2.1 with
  | some l =>
    rw [hc] at hCg
    simp only [Spec.GivesOrZero] at hCg
    refine ⟨⟨(l.map some, false), perPart xs.length (H.meas xs y t).2.2.1 o.kf.hk, perPart xs.length (H.meas xs y t).2.2.2 o.kf.R⟩,
      by simp only [mlMeasDyn, hc, hD.y], by simp [hCg], eh, hR', hflag, hiff⟩
  | none =>
    rw [hc] at hCg
    cases ho : o.kf.C with
    | some c =>
      rw [ho] at hCg
      simp only [Spec.GivesOrZero] at hCg
      refine ⟨⟨(List.replicate xs.length (some c), true), perPart xs.length (H.meas xs y t).2.2.1 o.kf.hk, perPart xs.length (H.meas xs y t).2.2.2 o.kf.R⟩,
        by simp only [mlMeasDyn, hc, mlDefaultC, ho, ok_bind, hD.y]; rfl, hrep c fun x hx => (hCg x hx).symm, eh, hR', hflag, hiff⟩
    | none =>
      rw [ho] at hCg
      simp only [Spec.GivesOrZero] at hCg
      cases hz : (H.meas xs y t).2.2.1 with
      | none => simp [hc, ho, hz] at hC
      | some l =>
        rw [hz] at hh eh
        simp only [Spec.GivesOrZero] at hh
        cases l with
        | nil => simp at hh; exact absurd hh hne
        | cons a l =>
          refine ⟨⟨(List.replicate xs.length (some 0), true), perPart xs.length (some (a :: l)) o.kf.hk, perPart xs.length (H.meas xs y t).2.2.2 o.kf.R⟩,
            by simp only [mlMeasDyn, hc, hz, mlDefaultC, ho, ok_bind, hD.y]; rfl, hrep 0 hCg, eh, hR', hflag, hiff⟩

theorem choOfOpt_eq {k : ℕ} {X : Type} {xs : List X} {val : X → MatR k k} {b : Bool}
    (hb : b = true → ∀ x ∈ xs, ∀ x' ∈ xs, val x = val x') {i : ℕ} {x : X} (hx : xs[i]? = some x) :
    choOfOpt b (xs.map fun x => some (val x)) i = choFactor (val x) := by
  have hpos : 0 < xs.length := by have := lt_of_getElem?_some hx; omega
  unfold choOfOpt
  cases b with
  | false => rw [if_neg (by simp), getIdx_ok.2 (show (xs.map fun x => some (val x))[i]? = some (some (val x)) by simp [hx]), ok_bind]
  | true =>
    rw [if_pos rfl, getIdx_ok.2 (show (xs.map fun x => some (val x))[0]? = some (some (val xs[0])) by simp [hpos]), ok_bind,
      hb rfl _ (List.getElem_mem hpos) _ (List.mem_of_getElem? hx)]

theorem measurementDiff_getD (y : VecR ly) (z : VecR lz) (C : MatR ly lz) (h : Option (VecR ly)) :
    measurementDiff y z (some C) h = y - (C *ᵥ z + h.getD 0) := by
  cases h <;> simp [measurementDiff] <;> abel

/-- The expected log-density of the measurement of one trajectory, over the smoothed law of its linear state. -/
noncomputable def Spec.RbModel.expLogY (M : Spec.RbModel lxi lz ly U T Y) (y : Y) (t : T) (s : RbS lxi lz) : ℝ :=
  ∫ z, Spec.logNormal (M.R s.1.1 y t) (M.y y t - (M.C s.1.1 y t *ᵥ z + M.h s.1.1 y t)) ∂(Spec.gauss s.1.2.1 s.1.2.2)

theorem mlL3_moment {M : Spec.RbModel lxi lz ly U T Y} {y : Y} {t : T} (s : RbS lxi lz) (hR : (M.R s.1.1 y t).PosDef)
    (hP : s.1.2.2.PosSemidef) (h : Option (VecR ly)) (hh : h.getD 0 = M.h s.1.1 y t) :
    ∃ c l3, choFactor (M.R s.1.1 y t) = .ok c ∧ mlL3 (M.y y t) s.1 (some (M.C s.1.1 y t)) h = .ok l3 ∧
      choHalf c l3 = M.expLogY y t s + ly / 2 * Real.log (2 * Real.pi) := by
  obtain ⟨c, hc, hv⟩ := choHalf_moment hR
  refine ⟨c, _, hc, rfl, ?_⟩
  set C := M.C s.1.1 y t
  rw [measurementDiff_getD, hh, show C * s.1.2.2 * Cᵀ = -C * s.1.2.2 * (-C)ᵀ by simp, hv _ _ (posSemidef_conj hP _)]
  have hg := gauss_affine_one (μ := s.1.2.1) hP (M.y y t - M.h s.1.1 y t) (-C)
  have e : M.y y t - (C *ᵥ s.1.2.1 + M.h s.1.1 y t) = M.y y t - M.h s.1.1 y t + -C *ᵥ s.1.2.1 := by rw [neg_mulVec]; abel
  rw [e, ← hg, integral_map (Continuous.measurable (by fun_prop)).aemeasurable]
  · unfold Spec.RbModel.expLogY
    congr 2; funext z; congr 1; rw [neg_mulVec]; abel
  · refine (Continuous.aestronglyMeasurable ?_)
    unfold Spec.logNormal; fun_prop

/-- **C82** `eval_logp_y` returns the sum over the particles of the expected log-density of the measurement, each up to the constant
`ly/2 log 2π`, provided the model has a measurement matrix or computes `h` per particle. -/
theorem C82_logp_y {H : MlHooks lxi lz ly U T Y} {o : MlObj lxi lz ly} {M : Spec.RbModel lxi lz ly U T Y} (hD : Spec.RbDescribes H o M)
    (hG : M.Good) (parts : List (RbS lxi lz)) (hne : parts ≠ []) (y : Y) (t : T)
    (hC : ∀ xs, (H.meas xs y t).2.1 ≠ none ∨ o.kf.C ≠ none ∨ (H.meas xs y t).2.2.1 ≠ none) (hP : ∀ s ∈ parts, s.1.2.2.PosSemidef) :
    mlEvalY H o parts y t = .ok (parts.map fun s => M.expLogY y t s + ly / 2 * Real.log (2 * Real.pi)).sum := by
  obtain ⟨d, hd, eC, eh, eR, hflag, -⟩ := mlMeasDyn_entries hD (parts.map fun s => s.1.1) (by simpa using hne) y t (hC _)
  unfold mlEvalY
  rw [hd, ok_bind]
  beta_reduce
  rw [mapM_range_eq parts _ (fun s => .ok (M.expLogY y t s + ly / 2 * Real.log (2 * Real.pi)))]
  · rw [mapM_ok_map (g := fun s => M.expLogY y t s + ly / 2 * Real.log (2 * Real.pi)) (fun _ _ => rfl)]; rfl
  intro i s hs
  have hx : (parts.map fun s => s.1.1)[i]? = some s.1.1 := by simp [hs]
  obtain ⟨h, h1, h2⟩ := eh i _ hx
  obtain ⟨c, l3, hc, hl, hv⟩ := mlL3_moment (M := M) (y := y) (t := t) s (hG.R _ _ _) (hP s (List.mem_of_getElem? hs)) h h2
  simp only [getIdx_ok.2 hs, getIdx_ok.2 h1, ok_bind, eC, eR, choOfOpt_eq hflag hx, hc, hl, hv, pure_eq_ok,
    getIdx_ok.2 (show ((parts.map fun s => s.1.1).map fun x => some (M.C x y t))[i]? = some (some (M.C s.1.1 y t)) by simp [hs])]

/-- **C82** (defect) a model whose measurements depend on the nonlinear state only through a constant `h` of the object, without any `C`, can be
filtered (C72) but `eval_logp_y` raises `AttributeError`. -/
theorem C82_logp_y_without_C {H : MlHooks lxi lz ly U T Y} {o : MlObj lxi lz ly} (parts : List (RbS lxi lz)) (hne : parts ≠ []) (y : Y) (t : T)
    (h1 : ∀ xs, (H.meas xs y t).2.1 = none) (h2 : o.kf.C = none) (h3 : ∀ xs, (H.meas xs y t).2.2.1 = none) :
    mlEvalY H o parts y t = .error .attributeError := by
  obtain ⟨s, l, rfl⟩ := List.exists_cons_of_ne_nil hne
  have hm : mlMeasDyn H o ((s :: l).map fun s => s.1.1) y t = .ok ((H.meas ((s :: l).map fun s => s.1.1) y t).1,
      ⟨(List.replicate (l.length + 1) none, true), (List.replicate (l.length + 1) o.kf.hk, true),
        perPart (l.length + 1) (H.meas ((s :: l).map fun s => s.1.1) y t).2.2.2 o.kf.R⟩) := by
    simp only [mlMeasDyn, h1, h3, mlDefaultC, h2, perPart, List.length_map, List.length_cons]; rfl
  unfold mlEvalY
  rw [hm, ok_bind]
  rw [mapM_error_of (e := .attributeError)]
  · rfl
  · intro i hi
    refine .inl ?_
    have hi' : i < l.length + 1 := by simpa using hi
    simp only [getIdx_ok.2 (show (s :: l)[i]? = some (s :: l)[i] by simp [hi']), ok_bind,
      getIdx_ok.2 (show (List.replicate (l.length + 1) (none : Option (MatR ly lz)))[i]? = some none by simp [hi']),
      getIdx_ok.2 (show (List.replicate (l.length + 1) o.kf.hk)[i]? = some o.kf.hk by simp [hi']), mlL3]
    rfl
  · intro h
    obtain ⟨v, hv⟩ := h 0 (by simp)
    simp [getIdx, List.replicate_succ, ok_bind, mlL3] at hv

end PyPE

import Verif.Examples.Ls2Script
import Verif.Models.MlEmObj
import Verif.Models.NlgScalar
import Verif.Param.Gradient

/-!
# C127: the maximisation step of test/manual/paramest/test_ls2.py
-/

namespace PyPE
open Real Spec MeasureTheory ProbabilityTheory Matrix

variable {U X Y Tm : Type}

theorem gradXLoop_on {p T : ℕ} {evalX : List X → List X → U → Tm → PyM (ℝ × (Fin p → ℝ))} {x : Fin (T + 1) → List X} {u : Fin T → U} {us : List U}
    {tm : Fin (T + 1) → Tm} {val : Fin T → ℝ} {gr : Fin T → Fin p → ℝ}
    (hev : ∀ t : Fin T, evalX (x t.castSucc) (x t.succ) (u t) (tm t.castSucc) = .ok (val t, gr t)) :
    ∀ (l : List (Fin T)) (a : ℝ) (g : Fin p → ℝ),
      gradXLoop evalX (List.ofFn x) (List.ofFn u ++ us) (List.ofFn tm) (l.map Fin.val) a g = .ok (a + (l.map val).sum, g + (l.map gr).sum) := by
  intro l
  induction l with
  | nil => intro a g; simp [gradXLoop]
  | cons i l ih =>
    intro a g
    have h1 := getIdx_ofFn x i.castSucc
    have h2 := getIdx_ofFn x i.succ
    have h3 : getIdx (List.ofFn u ++ us) i = .ok (u i) := by
      have hlt : (i : ℕ) < (List.ofFn u).length := by simp
      rw [getIdx, List.getElem?_append_left hlt]
      exact getIdx_ofFn u i
    have h4 := getIdx_ofFn tm i.castSucc
    rw [Fin.val_castSucc] at h1 h4
    rw [Fin.val_succ] at h2
    rw [List.map_cons, gradXLoop, h1, ok_bind, h2, ok_bind, h3, ok_bind, h4, ok_bind, hev, ok_bind, ih]
    simp [add_assoc]

theorem gradYLoop_on {p T : ℕ} {evalY : List X → Y → Tm → PyM (ℝ × (Fin p → ℝ))} {x : Fin T → List X} {y : Fin T → Option Y} {tm : Fin T → Tm}
    {val : Fin T → Y → ℝ} {gr : Fin T → Y → Fin p → ℝ} (hev : ∀ t yy, evalY (x t) yy (tm t) = .ok (val t yy, gr t yy)) :
    ∀ (l : List (Fin T)) (a : ℝ) (g : Fin p → ℝ),
      gradYLoop evalY (List.ofFn x) (List.ofFn y) (List.ofFn tm) (l.map Fin.val) a g =
        .ok (a + (l.map fun t => (y t).elim 0 (val t)).sum, g + (l.map fun t => (y t).elim 0 (gr t)).sum) := by
  intro l
  induction l with
  | nil => intro a g; simp [gradYLoop]
  | cons i l ih =>
    intro a g
    rw [List.map_cons, gradYLoop, getIdx_ofFn, ok_bind]
    cases hy : y i with
    | none =>
      dsimp only
      rw [ih]
      simp [hy]
    | some yy =>
      dsimp only
      rw [getIdx_ofFn, ok_bind, getIdx_ofFn, ok_bind, hev, ok_bind, ih]
      simp [hy, add_assoc]

theorem gradXFull_on {p T M : ℕ} {evalX : List X → List X → U → Tm → PyM (ℝ × (Fin p → ℝ))} {x : Fin (T + 1) → Fin M → X} {u : Fin T → U} {us : List U}
    {tm : Fin (T + 1) → Tm} {val : Fin T → ℝ} {gr : Fin T → Fin p → ℝ}
    (hev : ∀ t : Fin T, evalX (List.ofFn (x t.castSucc)) (List.ofFn (x t.succ)) (u t) (tm t.castSucc) = .ok (val t, gr t)) :
    gradXFull .py2 evalX (List.ofFn fun t => List.ofFn (x t)) (List.ofFn u ++ us) (List.ofFn tm) = .ok ((∑ t, val t) / M, fun k => (∑ t, gr t) k / M) := by
  have hr : List.range T = (List.finRange T).map Fin.val := by simp
  rw [gradXFull, estShape_ofFn (Nat.succ_pos T), ok_bind, xrange, ok_bind, List.length_ofFn, Nat.add_sub_cancel, hr,
    gradXLoop_on (x := fun t => List.ofFn (x t)) hev, ok_bind]
  rw [← List.ofFn_eq_map, ← List.ofFn_eq_map, List.sum_ofFn, List.sum_ofFn, zero_add, zero_add]
  rfl

theorem gradYFull_on {p T M : ℕ} (hT : 0 < T) {evalY : List X → Y → Tm → PyM (ℝ × (Fin p → ℝ))} {x : Fin T → Fin M → X} {y : Fin T → Option Y}
    {tm : Fin T → Tm} {val : Fin T → Y → ℝ} {gr : Fin T → Y → Fin p → ℝ} (hev : ∀ t yy, evalY (List.ofFn (x t)) yy (tm t) = .ok (val t yy, gr t yy)) :
    gradYFull .py2 evalY (List.ofFn fun t => List.ofFn (x t)) (List.ofFn y) (List.ofFn tm) =
      .ok ((∑ t, (y t).elim 0 (val t)) / M, fun k => (∑ t, (y t).elim 0 (gr t)) k / M) := by
  have hr : List.range T = (List.finRange T).map Fin.val := by simp
  rw [gradYFull, estShape_ofFn hT, ok_bind, xrange, ok_bind, List.length_ofFn, hr, gradYLoop_on (x := fun t => List.ofFn (x t)) hev, ok_bind]
  rw [← List.ofFn_eq_map, ← List.ofFn_eq_map, List.sum_ofFn, List.sum_ofFn, zero_add, zero_add]
  rfl

/-- `eval_logp_xnext_val_grad` of `ParticleLS2` with `self.params = p` (mlnlg.py:862-917), `sest[t + 1]` being the second argument. -/
noncomputable def ls2EvalX (o : MlObj 1 3 2) (p : Fin 5 → ℝ) (row next : List (RbS 1 3)) (u : Slot U) (t : ℕ) : PyM (ℝ × (Fin 5 → ℝ)) :=
  mlEvalXnextValGrad (ls2Hooks p) o (ls2PredGrad p (row.map fun s => s.1.1)).1 (ls2PredGrad p (row.map fun s => s.1.1)).2.1
    (ls2PredGrad p (row.map fun s => s.1.1)).2.2 row (next.map Prod.fst) u t

/-- `fval_grad(params)` of `ParamEstBaseNumericGrad.maximize` (interfaces.py:271-287) for `ParticleLS2` (test_ls2.py:107-122): `set_params`, the three terms with the
overridden `eval_logp_x0_val_grad` and `get_pred_dynamics_grad` and the inherited `get_meas_dynamics_grad`, which returns `(None, None, None)`. `sest` are the smoothed
estimates, whose first row is `straj.traj[0].pa.part`. -/
noncomputable def ls2Fval (o : MlObj 1 3 2) (o0 : MlX0 1 3) (sest : List (List (RbS 1 3))) (yt : List (Option (Fin 2 → ℝ))) (ut : List (Slot U)) (tt : List ℕ)
    (p : Fin 5 → ℝ) : PyM (ℝ × (Fin 5 → ℝ)) := do
  let o := ls2SetParams o p
  let ly ← gradYFull .py2 (fun row y t => mlEvalYValGrad id (ls2Hooks (U := U) p) o none none none row y t) sest yt tt
  let lx ← gradXFull .py2 (ls2EvalX o p) sest ut tt
  let first ← getIdx sest 0
  let tmp1 ← o0.logpXi0 (first.map fun s => s.1.1)
  let tmp2 ← o0.logpXi0Grad (xiInitialGrad 1 5) (first.map fun s => s.1.1)
  return fvalGrad ly lx tmp1 tmp2

/-- **C127** The function handed to the optimiser by the maximisation step of the script, for every set of smoothed trajectories and every earlier parameter value: it
succeeds for all parameters, its value is minus the average over the trajectories of `log p(xi_0)` plus the expected log-densities of all transitions and of all
measurements present (each up to its constant), and its second result is the gradient of that value. -/
theorem C127_maximisation {n N : ℕ} (hN : 0 < N) (p0 : Fin 5 → ℝ) (x : Fin (n + 1) → Fin N → RbS 1 3) (y : Fin (n + 1) → Option (Fin 2 → ℝ)) (u : Fin n → Slot U)
    (us : List (Slot U)) (tm : Fin (n + 1) → ℕ) (hP : ∀ t j, (x t j).1.2.2.PosSemidef)
    (hPP : ∀ (t : Fin n) j, (fromBlocks (x t.castSucc j).1.2.2 (x t.castSucc j).2 (x t.castSucc j).2ᵀ (x t.succ j).1.2.2).PosSemidef) :
    ∃ (o0 : MlX0 1 3) (V : (Fin 5 → ℝ) → ℝ) (G : (Fin 5 → ℝ) → Fin 5 → ℝ), ls2X0 = .ok o0 ∧
      (∀ p, ls2Fval (ls2Obj p0) o0 (List.ofFn fun t => List.ofFn (x t)) (List.ofFn y) (List.ofFn u ++ us) (List.ofFn tm) p = .ok (V p, G p)) ∧
      (∀ p, V p = -((∑ j, (Real.log (gaussianPDFReal 0 1 ((x 0 j).1.1 0)) +
          (∑ t : Fin n, ((ls2Model U p).expLogNext (u t) (tm t.castSucc) (x t.castSucc j) (x t.succ j).1 + 2 * Real.log (2 * Real.pi))) +
          ∑ t, (y t).elim 0 fun yy => (ls2Model U p).expLogY yy (tm t) (x t j) + Real.log (2 * Real.pi))) / N)) ∧
      ∀ p, IsGradAt V (G p) p := by
  have hne : ∀ t, List.ofFn (x t) ≠ [] := fun t h => by
    have := congrArg List.length h; simp at this; omega
  have hx : ∀ p (t : Fin n), ∃ g : Fin 5 → ℝ, ls2EvalX (ls2Obj p) p (List.ofFn (x t.castSucc)) (List.ofFn (x t.succ)) (u t) (tm t.castSucc) =
        .ok (∑ j, ((ls2Model U p).expLogNext (u t) (tm t.castSucc) (x t.castSucc j) (x t.succ j).1 + 2 * Real.log (2 * Real.pi)), g) ∧
      IsGradAt (fun p => ∑ j, ((ls2Model U p).expLogNext (u t) (tm t.castSucc) (x t.castSucc j) (x t.succ j).1 + 2 * Real.log (2 * Real.pi))) g p := by
    intro p t
    obtain ⟨v, g, h1, h2, h3⟩ := C127_gradient (U := U) p (List.ofFn (x t.castSucc)) (hne _) ((List.ofFn (x t.succ)).map Prod.fst) (by simp) (u t) (tm t.castSucc) (by
      intro i s m hs hm
      simp only [List.map_ofFn, List.getElem?_ofFn] at hs hm
      split at hs
      · rename_i hlt
        rw [dif_pos hlt] at hm
        simp only [Option.some.injEq, Function.comp_apply] at hs hm
        subst hs hm
        exact hPP t ⟨i, hlt⟩
      · cases hs)
    have e : (4 / 2 : ℝ) = 2 := by norm_num
    simp only [List.map_ofFn, zipWith_ofFn, List.sum_ofFn, e, Function.comp_def] at h2 h3
    subst h2
    exact ⟨g, h1, h3⟩
  choose gx hx1 hx2 using hx
  have hy : ∀ p (t : Fin (n + 1)) yy, mlEvalYValGrad id (ls2Hooks (U := U) p) (ls2Obj p) none none none (List.ofFn (x t)) yy (tm t) =
      .ok (∑ j, ((ls2Model U p).expLogY yy (tm t) (x t j) + Real.log (2 * Real.pi)), (0 : Fin 5 → ℝ)) := by
    intro p t yy
    rw [C83_y_no_gradient id (ls2_describes p) (ls2_good p) _ (hne t) yy (tm t) (fun y xs => .inr (.inr (by simp [ls2Hooks]))) (by
      intro s hs; obtain ⟨j, rfl⟩ := List.mem_ofFn.1 hs; exact hP t j)]
    simp [List.map_ofFn, List.sum_ofFn, ls2Model]
    rfl
  have h0 : ∀ xs, (⟨0, 1, 0, 0⟩ : MlX0 1 3).logpXi0 xs = .ok (xs.map fun x => Real.log (gaussianPDFReal 0 1 (x 0))) := by
    intro xs
    rw [(C87_logp_xi0 (⟨0, 1, 0, 0⟩ : MlX0 1 3) PosDef.one xs).1]
    have e1 : (1 : MatR 1 1) = !![1] := by ext i j; fin_cases i; fin_cases j; rfl
    refine congrArg Except.ok (List.map_congr_left fun x _ => ?_)
    dsimp only
    rw [e1, logNormal_pdf one_pos, Real.toNNReal_one]
    rfl
  refine ⟨⟨0, 1, 0, 0⟩, fun p => -((∑ t, (y t).elim 0 fun yy => ∑ j, ((ls2Model U p).expLogY yy (tm t) (x t j) + Real.log (2 * Real.pi))) / N +
      (∑ j, Real.log (gaussianPDFReal 0 1 ((x 0 j).1.1 0))) / N +
      (∑ t : Fin n, ∑ j, ((ls2Model U p).expLogNext (u t) (tm t.castSucc) (x t.castSucc j) (x t.succ j).1 + 2 * Real.log (2 * Real.pi))) / N),
    fun p k => -((∑ t, gx p t) k / N), rfl, fun p => ?_, fun p => ?_, fun p => ?_⟩
  · have hfirst : getIdx (List.ofFn fun t => List.ofFn (x t)) 0 = .ok (List.ofFn (x 0)) := getIdx_ofFn (fun t => List.ofFn (x t)) 0
    have hyf := gradYFull_on (y := y) (Nat.succ_pos n) (hy p)
    have hxf := gradXFull_on (us := us) (hx1 p)
    simp only [ls2Fval, C127_set_params]
    rw [hyf, ok_bind, hxf, ok_bind, hfirst, ok_bind, h0, ok_bind, C87_default_gradient _ PosDef.one, ok_bind]
    refine congrArg Except.ok (Prod.ext ?_ (funext fun k => ?_))
    · simp [fvalGrad, npMean, List.map_ofFn, List.sum_ofFn]
    · have hz : ∀ t : Fin (n + 1), (y t).elim (0 : Fin 5 → ℝ) (fun _ => 0) = 0 := fun t => by cases y t <;> rfl
      simp [fvalGrad, npMean, hz]
  · dsimp only
    rw [neg_inj, ← add_div, ← add_div]
    congr 1
    rw [Finset.sum_add_distrib, Finset.sum_add_distrib, Finset.sum_comm, Finset.sum_comm (s := Finset.univ (α := Fin N)) (t := Finset.univ (α := Fin (n + 1)))]
    have : ∀ t, ((y t).elim 0 fun yy => ∑ j, ((ls2Model U p).expLogY yy (tm t) (x t j) + Real.log (2 * Real.pi))) =
        ∑ j, (y t).elim 0 fun yy => (ls2Model U p).expLogY yy (tm t) (x t j) + Real.log (2 * Real.pi) := by
      intro t
      cases y t with
      | none => simp
      | some yy => rfl
    simp only [this]
    ring
  · intro k
    have h1 := (IsGradAt.div (IsGradAt.sum fun t => hx2 p t) N) k
    have hY : ∀ q : Fin 5 → ℝ, (ls2Model U q).expLogY = (ls2Model U p).expLogY := fun _ => rfl
    simp only [hY]
    exact (h1.const_add _).fun_neg

/-- Two trajectories of two times with uncorrelated linear states, the first measurement missing. -/
example (yy : Fin 2 → ℝ) (p : Fin 5 → ℝ) : ∃ o0 v g, ls2X0 = .ok o0 ∧ ls2Fval (U := ℝ) (ls2Obj 0) o0
    [[((1, 0, 1), 0), ((2, 1, 1), 0)], [((0, 1, 1), 0), ((1, 0, 1), 0)]] [none, some yy] [.none, .none] [0, 1] p = .ok (v, g) := by
  have h1 : (fromBlocks (1 : MatR 3 3) 0 (0 : MatR 3 3)ᵀ 1).PosSemidef := by
    rw [transpose_zero, fromBlocks_one]; exact PosSemidef.one
  obtain ⟨o0, V, G, h, h2, -⟩ := C127_maximisation (U := ℝ) (n := 1) (N := 2) (by norm_num) 0
    ![![((1, 0, 1), 0), ((2, 1, 1), 0)], ![((0, 1, 1), 0), ((1, 0, 1), 0)]] ![none, some yy] ![.none] [.none] ![0, 1]
    (by intro t j; fin_cases t <;> fin_cases j <;> exact PosSemidef.one) (by intro t j; fin_cases t; fin_cases j <;> exact h1)
  exact ⟨o0, _, _, h, h2 p⟩

end PyPE

import Verif.Witness.Param

/-!
# C53 for SAEM and PSAEM: the parameter vectors that are set, reported and returned
-/

namespace PyPE
open Spec
variable {W Θ X : Type}

/-- The values the M-steps returned, in order. -/
def Spec.mStepResults {C : Type} (tr : List (SaCall Θ X C)) : List Θ :=
  tr.filterMap fun c => match c with
    | .maximizeWeighted _ _ θ => some θ
    | _ => none

/-- The parameter vectors given to `set_params`, in order. -/
def Spec.paramsSet {C : Type} (tr : List (SaCall Θ X C)) : List Θ :=
  tr.filterMap fun c => match c with
    | .setParams θ => some θ
    | _ => none

/-- The parameter vectors and iteration numbers given to the callback. -/
def Spec.callbacks {C : Type} (tr : List (SaCall Θ X C)) : List (Θ × ℕ) :=
  tr.filterMap fun c => match c with
    | .callback θ i => some (θ, i)
    | _ => none

theorem mStepResults_append {C : Type} (a b : List (SaCall Θ X C)) : mStepResults (a ++ b) = mStepResults a ++ mStepResults b := List.filterMap_append ..
theorem paramsSet_append {C : Type} (a b : List (SaCall Θ X C)) : paramsSet (a ++ b) = paramsSet a ++ paramsSet b := List.filterMap_append ..
theorem callbacks_append {C : Type} (a b : List (SaCall Θ X C)) : callbacks (a ++ b) = callbacks a ++ callbacks b := List.filterMap_append ..

theorem saCall_ok {C α β : Type} {x : PyM α} {c : α → List C} {k : α → Traced C β} {tr : List C} {b : β} (h : Traced.call x c k = (tr, .ok b)) :
    ∃ a tr', x = .ok a ∧ k a = (tr', .ok b) ∧ tr = c a ++ tr' := by
  cases x with
  | error e => simp [Traced.call] at h
  | ok a =>
    simp only [Traced.call, Prod.mk.injEq] at h
    exact ⟨a, (k a).1, rfl, by rw [← h.2], h.1.symm⟩

theorem saIter_calls {H : SaHooks W Θ X} {alpha : ℕ → ℝ} {np nt : Sched} {i : ℕ} {acc : Option (List ℝ × List X)} {θ θ' : Θ} {w w' : W} {acc' : List ℝ × List X}
    {tr : List (SaCall Θ X Unit)} (h : saIter H alpha np nt i acc θ w = (tr, .ok (acc', θ', w'))) :
    mStepResults tr = [θ'] ∧ paramsSet tr = [θ] ∧ callbacks tr = if H.callback.isSome then [(θ', i)] else [] := by
  unfold saIter at h
  obtain ⟨w1, t1, -, g1, e1⟩ := saCall_ok h
  obtain ⟨_, t2, -, g2, e2⟩ := saCall_ok g1
  obtain ⟨_, t3, -, g3, e3⟩ := saCall_ok g2
  obtain ⟨_, t4, -, g4, e4⟩ := saCall_ok g3
  obtain ⟨_, t5, -, g5, e5⟩ := saCall_ok g4
  obtain ⟨_, t6, -, g6, e6⟩ := saCall_ok g5
  obtain ⟨_, t7, -, g7, e7⟩ := saCall_ok g6
  dsimp only at g7
  obtain ⟨_, t8, -, g8, e8⟩ := saCall_ok g7
  obtain ⟨_, t9, -, g9, e9⟩ := saCall_ok g8
  obtain ⟨⟨θ1, w2⟩, t10, -, g10, e10⟩ := saCall_ok g9
  obtain ⟨_, t11, -, g11, e11⟩ := saCall_ok g10
  simp only [Prod.mk.injEq, Except.ok.injEq] at g11
  obtain ⟨f1, -, f2, -⟩ := g11
  rw [e1, e2, e3, e4, e5, e6, e7, e8, e9, e10, e11, ← f1]
  rw [← f2]
  cases hb : H.callbackSim <;> cases hc : H.callback <;> simp [mStepResults, paramsSet, callbacks, optRecord]

theorem saLoop_calls {H : SaHooks W Θ X} {alpha : ℕ → ℝ} {np nt : Sched} (is : List ℕ) {acc : Option (List ℝ × List X)} {θ θ' : Θ} {w w' : W}
    {tr : List (SaCall Θ X Unit)} (h : saLoop H alpha np nt is acc θ w = (tr, .ok (θ', w'))) :
    (mStepResults tr).length = is.length ∧ (θ :: mStepResults tr).getLast? = some θ' ∧ paramsSet tr = (θ :: mStepResults tr).take is.length ∧
      callbacks tr = if H.callback.isSome then (mStepResults tr).zip is else [] := by
  induction is generalizing acc θ w tr with
  | nil =>
    simp only [saLoop, Prod.mk.injEq, Except.ok.injEq] at h
    obtain ⟨rfl, rfl, -⟩ := h
    simp [mStepResults, paramsSet, callbacks]
  | cons i is ih =>
    rw [saLoop] at h
    rcases hi : saIter H alpha np nt i acc θ w with ⟨t1, e | ⟨acc1, θ1, w1⟩⟩
    · rw [hi] at h; simp at h
    rw [hi] at h
    simp only [Prod.mk.injEq] at h
    obtain ⟨rfl, h⟩ := h
    obtain ⟨h1, h2, h3⟩ := saIter_calls hi
    obtain ⟨k1, k2, k3, k4⟩ := ih (acc := some acc1) (θ := θ1) (w := w1) (tr := (saLoop H alpha np nt is (some acc1) θ1 w1).1) (Prod.ext rfl h)
    rw [mStepResults_append, paramsSet_append, callbacks_append, h1, h2, h3, k3, k4]
    refine ⟨by simp [k1], ?_, by simp, ?_⟩
    · rw [List.singleton_append, List.getLast?_cons_cons]; exact k2
    · split_ifs <;> simp

/-- C53 for `ParamEstimationSAEM.maximize`: when it returns, it made `max_iter` M-steps, returned the parameter vector of the last one (`param0` if there was none) and no
objective value; the parameter vectors set before the simulations are `param0` and then the results of the M-steps in order, all but the last; and the callback, if any, is
given each result with its iteration number. -/
theorem C53_saem_returns {v : PyVersion} {H : SaHooks W Θ X} {alpha : ℕ → ℝ} {param0 : Θ} {np nt : Sched} {max_iter : ℕ} {w w' : W} {θ : Θ} {q : Option ℝ}
    {tr : List (SaCall Θ X Unit)} (h : saMaximize v H alpha param0 np nt max_iter w = (tr, .ok ((θ, q), w'))) :
    q = none ∧ (mStepResults tr).length = max_iter ∧ (param0 :: mStepResults tr).getLast? = some θ ∧
      paramsSet tr = (param0 :: mStepResults tr).take max_iter ∧
      callbacks tr = if H.callback.isSome then (mStepResults tr).zip (List.range max_iter) else [] := by
  unfold saMaximize at h
  obtain ⟨is, t1, h1, h, rfl⟩ := saCall_ok h
  have his : is = List.range max_iter := by cases v <;> simp [xrange] at h1; exact h1.symm
  subst his
  rcases hl : saLoop H alpha np nt (List.range max_iter) none param0 w with ⟨t, e | ⟨θ1, w1⟩⟩
  · rw [hl] at h; simp at h
  rw [hl] at h
  simp only [Prod.mk.injEq, Except.ok.injEq] at h
  obtain ⟨rfl, ⟨rfl, rfl⟩, rfl⟩ := h
  obtain ⟨k1, k2, k3, k4⟩ := saLoop_calls _ hl
  rw [List.length_range] at k1 k3
  exact ⟨rfl, k1, k2, k3, k4⟩

/-- A run of two iterations: the trajectories are 1 and then 2; the M-step returns their sum. -/
example : ∃ tr θ w', saMaximize .py2 saColsToy (fun _ => 1/2) 7 (.scalar 10) (.scalar 1) 2 0 = (tr, .ok ((θ, none), w')) ∧
    mStepResults tr = [1, 3] ∧ θ = 3 ∧ paramsSet tr = [7, 1] := by
  have h : ∃ tr θ w', saMaximize .py2 saColsToy (fun _ => 1/2) 7 (.scalar 10) (.scalar 1) 2 0 = (tr, .ok ((θ, none), w')) ∧ mStepResults tr = [1, 3] := by
    simp [saMaximize, xrange, Traced.call, saLoop, saIter, saColsToy, Sched.pick, optCall, saAppend, mixWeights, uniformW, maskSelect, TrajArr.select, TrajArr.concat,
      List.range_succ, mStepResults, optRecord]
    norm_num
  obtain ⟨tr, θ, w', h1, h2⟩ := h
  obtain ⟨-, -, k1, k2, -⟩ := C53_saem_returns h1
  rw [h2] at k1 k2
  exact ⟨tr, θ, w', h1, h2, by simpa using k1.symm, by simpa using k2⟩

/-! ## PSAEM -/

section
variable {C : Type} {H : PsHooks W Θ X C} {o : PsOpts} {garbage : ℕ → ℕ → X}

theorem psIter_calls {i : ℕ} {s s' : PsState W Θ X C} {tr : List (SaCall Θ X C)} (h : psIter H o garbage i s = (tr, .ok s')) :
    mStepResults tr = [s'.θ] ∧ paramsSet tr = [s.θ] ∧ callbacks tr = [] := by
  unfold psIter at h
  obtain ⟨_, t1, -, g1, e1⟩ := saCall_ok h
  obtain ⟨_, t2, -, g2, e2⟩ := saCall_ok g1
  obtain ⟨_, t3, -, g3, e3⟩ := saCall_ok g2
  dsimp only at g3
  obtain ⟨_, t4, -, g4, e4⟩ := saCall_ok g3
  obtain ⟨_, t5, -, g5, e5⟩ := saCall_ok g4
  obtain ⟨_, t6, -, g6, e6⟩ := saCall_ok g5
  obtain ⟨_, t7, -, g7, e7⟩ := saCall_ok g6
  obtain ⟨⟨θ1, w2⟩, t8, -, g8, e8⟩ := saCall_ok g7
  simp only [Prod.mk.injEq, Except.ok.injEq] at g8
  obtain ⟨f1, f2⟩ := g8
  rw [e1, e2, e3, e4, e5, e6, e7, e8, ← f1, ← f2]
  cases hb : H.callbackSim <;> simp [mStepResults, paramsSet, callbacks, optRecord]

theorem psLoop_calls {cb : Θ → ℕ → W → PyM (Bool × W)} (fuel : ℕ) {i : ℕ} {s s' : PsState W Θ X C} {tr : List (SaCall Θ X C)}
    (h : psLoop H o garbage cb fuel i s = (tr, some (.ok s'))) :
    ∃ R : List Θ, mStepResults tr = R ++ [s'.θ] ∧ paramsSet tr = s.θ :: R ∧ callbacks tr = (R ++ [s'.θ]).zipIdx (i + 1) := by
  induction fuel generalizing i s tr with
  | zero => simp [psLoop] at h
  | succ fuel ih =>
    rw [psLoop] at h
    rcases hi : psIter H o garbage (i + 1) s with ⟨t1, e | s1⟩
    · rw [hi] at h; simp at h
    rw [hi] at h
    dsimp only at h
    obtain ⟨h1, h2, h3⟩ := psIter_calls hi
    rcases hc : cb s1.θ (i + 1) s1.w with e | ⟨_ | _, w⟩
    · rw [hc] at h; simp at h
    · rw [hc] at h
      simp only [Prod.mk.injEq] at h
      obtain ⟨g1, g2⟩ := h
      obtain ⟨R, k1, k2, k3⟩ := ih (i := i + 1) (s := { s1 with w := w }) (tr := (psLoop H o garbage cb fuel (i + 1) { s1 with w := w }).1) (Prod.ext rfl g2)
      refine ⟨s1.θ :: R, ?_, ?_, ?_⟩
      · rw [← g1, mStepResults_append, mStepResults_append, h1, k1]; rfl
      · rw [← g1, paramsSet_append, paramsSet_append, h2, k2]; rfl
      · rw [← g1, callbacks_append, callbacks_append, h3, k3]; rfl
    · rw [hc] at h
      simp only [Prod.mk.injEq, Option.some.injEq, Except.ok.injEq] at h
      obtain ⟨g1, g2⟩ := h
      refine ⟨[], ?_, ?_, ?_⟩
      · rw [← g1, ← g2, mStepResults_append, h1]; rfl
      · rw [← g1, paramsSet_append, h2]; rfl
      · rw [← g1, ← g2, callbacks_append, h3]; rfl

/-- C53 for `ParamEstimationPSAEM.maximize`: when it returns, it returns the parameter vector of its last M-step; the parameter vectors set before the simulations are `param0`
and then the results of all M-steps but the last, in order, so the returned one was never set; and the callback was given every result, with the iteration numbers 1, 2, …. -/
theorem C53_psaem_returns {callback : Option (Θ → ℕ → W → PyM (Bool × W))} {max_iter fuel : ℕ} {param0 : Θ} {opts : FilterOpts C} {w : W} {s' : PsState W Θ X C}
    {tr : List (SaCall Θ X C)} (h : psMaximize H o garbage callback max_iter param0 opts w fuel = (tr, some (.ok s'))) :
    (mStepResults tr).getLast? = some s'.θ ∧ paramsSet tr = param0 :: (mStepResults tr).dropLast ∧ callbacks tr = (mStepResults tr).zipIdx 1 := by
  obtain ⟨R, h1, h2, h3⟩ := psLoop_calls fuel h
  exact ⟨by rw [h1]; simp, by rw [h1, h2]; simp, by rw [h1, h3]⟩

end

/-- The run of `psToy` with 200 iterations. -/
example : ∃ tr s', psMaximize psToy (psToyOpts false) (fun i j => i + j) none 200 0 (.dict none) 0 200 = (tr, some (.ok s')) ∧
    (mStepResults tr).getLast? = some s'.θ ∧ paramsSet tr = 0 :: (mStepResults tr).dropLast ∧ callbacks tr = (mStepResults tr).zipIdx 1 := by
  obtain ⟨tr, s', h, -⟩ := psToy_run false
  exact ⟨tr, s', h, C53_psaem_returns h⟩

end PyPE

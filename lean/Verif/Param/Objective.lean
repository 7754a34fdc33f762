import Verif.Param.Model
import Verif.PyLemmas
import Verif.Sim.Model
import Mathlib.Analysis.Calculus.Deriv.Add
import Mathlib.Analysis.Calculus.Deriv.Mul
import Mathlib.Algebra.BigOperators.Fin
import Mathlib.Tactic

/-!
# The default trajectory objective and its numeric optimisation (paramest/interfaces.py)
-/

namespace PyPE

variable {X Y U Tm : Type}

/-- `sest.shape[1]` of the array `straj.get_smoothed_estimates()` (interfaces.py:61-62): that method reads
`self.traj[0]` (`IndexError` when there is no step). -/
def estShape (sest : List (List X)) : PyM ℕ :=
  match sest with
  | [] => .error .indexError
  | r :: _ => .ok r.length

/-- Loop of `eval_logp_y_fulltraj` (interfaces.py:76-79) over the remaining indices. -/
noncomputable def logpYLoop (evalY : List X → Y → Tm → PyM (List ℝ)) (sest : List (List X))
    (yt : List (Option Y)) (tt : List Tm) : List ℕ → ℝ → PyM ℝ
  | [], acc => .ok acc
  | i :: is, acc => do
    let y ← getIdx yt i
    match y with
    | none => logpYLoop evalY sest yt tt is acc
    | some y =>
      let row ← getIdx sest i
      let t ← getIdx tt i
      let val ← evalY row y t
      logpYLoop evalY sest yt tt is (acc + val.sum)

/-- `ParamEstInterface.eval_logp_y_fulltraj` (interfaces.py:70-81). `T` is `straj.traj.shape[0]`, the number
of rows of `sest`. A float returned by `eval_logp_y` is a list of one number (`numpy.sum` accepts both). -/
noncomputable def logpYFull (v : PyVersion) (evalY : List X → Y → Tm → PyM (List ℝ)) (sest : List (List X))
    (yt : List (Option Y)) (tt : List Tm) : PyM ℝ := do
  let M ← estShape sest
  let is ← xrange v sest.length
  let s ← logpYLoop evalY sest yt tt is 0
  return s / M

/-- Loop of `eval_logp_xnext_fulltraj` (interfaces.py:64-68). -/
noncomputable def logpXnextLoop (evalX : List X → List X → U → Tm → PyM (List ℝ)) (sest : List (List X))
    (ut : List U) (tt : List Tm) : List ℕ → ℝ → PyM ℝ
  | [], acc => .ok acc
  | i :: is, acc => do
    let row ← getIdx sest i
    let next ← getIdx sest (i + 1)
    let u ← getIdx ut i
    let t ← getIdx tt i
    let val ← evalX row next u t
    logpXnextLoop evalX sest ut tt is (acc + val.sum)

/-- `ParamEstInterface.eval_logp_xnext_fulltraj` (interfaces.py:59-68). -/
noncomputable def logpXnextFull (v : PyVersion) (evalX : List X → List X → U → Tm → PyM (List ℝ))
    (sest : List (List X)) (ut : List U) (tt : List Tm) : PyM ℝ := do
  let M ← estShape sest
  let is ← xrange v (sest.length - 1)
  let s ← logpXnextLoop evalX sest ut tt is 0
  return s / M

/-- The objective `fval` of `ParamEstBaseNumeric.maximize` (interfaces.py:240-255), to be minimised:
`-1.0 * (log_py + numpy.mean(eval_logp_x0) + log_pxnext)`. -/
noncomputable def fvalNumeric (v : PyVersion) (evalY : List X → Y → Tm → PyM (List ℝ))
    (evalX : List X → List X → U → Tm → PyM (List ℝ)) (evalX0 : List X → Tm → PyM (List ℝ))
    (sest : List (List X)) (yt : List (Option Y)) (ut : List U) (tt : List Tm) : PyM ℝ := do
  let log_py ← logpYFull v evalY sest yt tt
  let log_pxnext ← logpXnextFull v evalX sest ut tt
  let row ← getIdx sest 0
  let t0 ← getIdx tt 0
  let tmp ← evalX0 row t0
  return (-1) * (log_py + npMean tmp + log_pxnext)

/-- Loop of `eval_logp_y_val_grad_fulltraj` (interfaces.py:145-151); it reads `straj.y`, `straj.t`, not its
arguments. Gradients have one entry per parameter. -/
noncomputable def gradYLoop {p : ℕ} (evalY : List X → Y → Tm → PyM (ℝ × (Fin p → ℝ))) (sest : List (List X))
    (yt : List (Option Y)) (tt : List Tm) : List ℕ → ℝ → (Fin p → ℝ) → PyM (ℝ × (Fin p → ℝ))
  | [], a, g => .ok (a, g)
  | i :: is, a, g => do
    let y ← getIdx yt i
    match y with
    | none => gradYLoop evalY sest yt tt is a g
    | some y =>
      let row ← getIdx sest i
      let t ← getIdx tt i
      let vg ← evalY row y t
      gradYLoop evalY sest yt tt is (a + vg.1) (g + vg.2)

/-- `ParamEstInterface_GradientSearch.eval_logp_y_val_grad_fulltraj` (interfaces.py:139-152). -/
noncomputable def gradYFull {p : ℕ} (v : PyVersion) (evalY : List X → Y → Tm → PyM (ℝ × (Fin p → ℝ)))
    (sest : List (List X)) (yt : List (Option Y)) (tt : List Tm) : PyM (ℝ × (Fin p → ℝ)) := do
  let M ← estShape sest
  let is ← xrange v sest.length
  let r ← gradYLoop evalY sest yt tt is 0 0
  return (r.1 / M, fun k => r.2 k / M)

/-- Loop of `eval_logp_xnext_val_grad_fulltraj` (interfaces.py:160-166). -/
noncomputable def gradXLoop {p : ℕ} (evalX : List X → List X → U → Tm → PyM (ℝ × (Fin p → ℝ)))
    (sest : List (List X)) (ut : List U) (tt : List Tm) :
    List ℕ → ℝ → (Fin p → ℝ) → PyM (ℝ × (Fin p → ℝ))
  | [], a, g => .ok (a, g)
  | i :: is, a, g => do
    let row ← getIdx sest i
    let next ← getIdx sest (i + 1)
    let u ← getIdx ut i
    let t ← getIdx tt i
    let vg ← evalX row next u t
    gradXLoop evalX sest ut tt is (a + vg.1) (g + vg.2)

/-- `ParamEstInterface_GradientSearch.eval_logp_xnext_val_grad_fulltraj` (interfaces.py:154-168). -/
noncomputable def gradXFull {p : ℕ} (v : PyVersion) (evalX : List X → List X → U → Tm → PyM (ℝ × (Fin p → ℝ)))
    (sest : List (List X)) (ut : List U) (tt : List Tm) : PyM (ℝ × (Fin p → ℝ)) := do
  let M ← estShape sest
  let is ← xrange v (sest.length - 1)
  let r ← gradXLoop evalX sest ut tt is 0 0
  return (r.1 / M, fun k => r.2 k / M)

/-- `fval_grad` of `ParamEstBaseNumericGrad.maximize` (interfaces.py:273-287), combining the three terms:
`numpy.mean(tmp1)` and `numpy.mean(tmp2)` are scalars, so the mean of the gradient of the initial term over
the parameters is added to every component. -/
noncomputable def fvalGrad {p : ℕ} (y xnext : ℝ × (Fin p → ℝ)) (tmp1 : List ℝ) (tmp2 : Fin p → ℝ) :
    ℝ × (Fin p → ℝ) :=
  ((-1) * (y.1 + npMean tmp1 + xnext.1),
    fun k => (-1) * (y.2 k + xnext.2 k + npMean (List.ofFn tmp2)))

namespace Spec

/-- The measurement term of trajectory `j`: the sum over the time steps that have a measurement. -/
noncomputable def trajY {T M : ℕ} (g : X → Y → Tm → ℝ) (x : Fin T → Fin M → X) (y : Fin T → Option Y)
    (tm : Fin T → Tm) (j : Fin M) : ℝ :=
  ∑ t, match y t with
    | none => 0
    | some yy => g (x t j) yy (tm t)

/-- The transition term of trajectory `j`. -/
noncomputable def trajX {T M : ℕ} (g : X → X → U → Tm → ℝ) (x : Fin (T + 1) → Fin M → X) (u : Fin T → U)
    (tm : Fin (T + 1) → Tm) (j : Fin M) : ℝ :=
  ∑ t : Fin T, g (x t.castSucc j) (x t.succ j) (u t) (tm t.castSucc)

/-- The average over the trajectories. -/
noncomputable def avg {M : ℕ} (f : Fin M → ℝ) : ℝ := (∑ j, f j) / M

end Spec

open Spec

theorem estShape_ofFn {T M : ℕ} (hT : 0 < T) (x : Fin T → Fin M → X) :
    estShape (List.ofFn fun t => List.ofFn (x t)) = .ok M := by
  obtain ⟨n, rfl⟩ : ∃ n, T = n + 1 := ⟨T - 1, by omega⟩
  simp [estShape, List.ofFn_succ]

theorem getIdx_ofFn {α : Type} {n : ℕ} (f : Fin n → α) (i : Fin n) : getIdx (List.ofFn f) i = .ok (f i) := by
  rw [getIdx_of_lt (by simp)]
  simp

/-- A loop over `range n` that adds a term per index computes the sum. -/
theorem sum_range'_fin {n : ℕ} (f : Fin n → ℝ) : ∑ i, f i = ((List.finRange n).map f).sum := by
  rw [← List.ofFn_eq_map, List.sum_ofFn]

theorem logpYLoop_eq {T M : ℕ} (g : X → Y → Tm → ℝ) {evalY : List X → Y → Tm → PyM (List ℝ)}
    (hev : ∀ (xs : List X) y t, evalY xs y t = .ok (xs.map fun x => g x y t))
    (x : Fin T → Fin M → X) (y : Fin T → Option Y) (tm : Fin T → Tm) :
    ∀ (l : List (Fin T)) (acc : ℝ),
      logpYLoop evalY (List.ofFn fun t => List.ofFn (x t)) (List.ofFn y) (List.ofFn tm) (l.map Fin.val) acc =
        .ok (acc + (l.map fun t => ∑ j, match y t with
          | none => 0
          | some yy => g (x t j) yy (tm t)).sum) := by
  intro l
  induction l with
  | nil => intro acc; simp [logpYLoop]
  | cons i l ih =>
    intro acc
    rw [List.map_cons, logpYLoop, getIdx_ofFn, ok_bind]
    cases hy : y i with
    | none =>
      dsimp only
      rw [ih]
      simp [hy]
    | some yy =>
      dsimp only
      rw [getIdx_ofFn, ok_bind, getIdx_ofFn, ok_bind, hev, ok_bind, ih]
      simp only [List.map_cons, List.sum_cons, hy]
      rw [← add_assoc, List.map_ofFn, List.sum_ofFn]
      rfl

/-- **C57**: if `eval_logp_y` returns the log-densities `g` of the particles, the measurement term of the
objective is the average over the trajectories of the sum over exactly the time steps that have a
measurement. -/
theorem C57_measurement_term {T M : ℕ} (hT : 0 < T) (g : X → Y → Tm → ℝ)
    {evalY : List X → Y → Tm → PyM (List ℝ)}
    (hev : ∀ (xs : List X) y t, evalY xs y t = .ok (xs.map fun x => g x y t))
    (x : Fin T → Fin M → X) (y : Fin T → Option Y) (tm : Fin T → Tm) :
    logpYFull .py2 evalY (List.ofFn fun t => List.ofFn (x t)) (List.ofFn y) (List.ofFn tm) =
      .ok (avg (trajY g x y tm)) := by
  have hr : List.range T = (List.finRange T).map Fin.val := by simp
  rw [logpYFull, estShape_ofFn hT, ok_bind, xrange, ok_bind, List.length_ofFn, hr, logpYLoop_eq g hev, ok_bind]
  rw [← List.ofFn_eq_map, List.sum_ofFn, Finset.sum_comm, zero_add]
  rfl

theorem logpXnextLoop_eq {T M : ℕ} (g : X → X → U → Tm → ℝ)
    {evalX : List X → List X → U → Tm → PyM (List ℝ)}
    (hev : ∀ (xs ys : List X) u t, evalX xs ys u t = .ok (List.zipWith (fun a b => g a b u t) xs ys))
    (x : Fin (T + 1) → Fin M → X) (u : Fin T → U) (us : List U) (tm : Fin (T + 1) → Tm) :
    ∀ (l : List (Fin T)) (acc : ℝ),
      logpXnextLoop evalX (List.ofFn fun t => List.ofFn (x t)) (List.ofFn u ++ us) (List.ofFn tm)
          (l.map Fin.val) acc =
        .ok (acc + (l.map fun t => ∑ j, g (x t.castSucc j) (x t.succ j) (u t) (tm t.castSucc)).sum) := by
  intro l
  induction l with
  | nil => intro acc; simp [logpXnextLoop]
  | cons i l ih =>
    intro acc
    have h1 := getIdx_ofFn (fun t => List.ofFn (x t)) i.castSucc
    have h2 := getIdx_ofFn (fun t => List.ofFn (x t)) i.succ
    have h3 : getIdx (List.ofFn u ++ us) i = .ok (u i) := by
      have hlt : (i : ℕ) < (List.ofFn u).length := by simp
      rw [getIdx, List.getElem?_append_left hlt]
      exact getIdx_ofFn u i
    have h4 := getIdx_ofFn tm i.castSucc
    rw [Fin.val_castSucc] at h1 h4
    rw [Fin.val_succ] at h2
    rw [List.map_cons, logpXnextLoop, h1, ok_bind, h2, ok_bind, h3, ok_bind, h4, ok_bind, hev, ok_bind, ih]
    have hz : (List.zipWith (fun a b => g a b (u i) (tm i.castSucc)) (List.ofFn (x i.castSucc)) (List.ofFn (x i.succ))).sum =
        ∑ j, g (x i.castSucc j) (x i.succ j) (u i) (tm i.castSucc) := by
      rw [← List.sum_ofFn]
      congr 1
      apply List.ext_getElem <;> simp
    rw [hz]
    simp only [List.map_cons, List.sum_cons]
    rw [← add_assoc]

/-- **C57**: the transition term of the objective is the average over the trajectories of the sum of the
log-densities of the `T` transitions, with the input and time stamp of the earlier step (further inputs
are not used). -/
theorem C57_transition_term {T M : ℕ} (g : X → X → U → Tm → ℝ)
    {evalX : List X → List X → U → Tm → PyM (List ℝ)}
    (hev : ∀ (xs ys : List X) u t, evalX xs ys u t = .ok (List.zipWith (fun a b => g a b u t) xs ys))
    (x : Fin (T + 1) → Fin M → X) (u : Fin T → U) (us : List U) (tm : Fin (T + 1) → Tm) :
    logpXnextFull .py2 evalX (List.ofFn fun t => List.ofFn (x t)) (List.ofFn u ++ us) (List.ofFn tm) =
      .ok (avg (trajX g x u tm)) := by
  have hr : List.range T = (List.finRange T).map Fin.val := by simp
  rw [logpXnextFull, estShape_ofFn (Nat.succ_pos T), ok_bind, xrange, ok_bind, List.length_ofFn,
    Nat.add_sub_cancel, hr, logpXnextLoop_eq g hev, ok_bind]
  rw [← List.ofFn_eq_map, List.sum_ofFn, Finset.sum_comm, zero_add]
  rfl

/-- **C81**: the function `ParamEstBaseNumeric.maximize` minimises is minus the average, over the smoothed
trajectories, of the complete-data log-likelihood
`log p(x₀) + Σ log p(xₜ₊₁ | xₜ) + Σ log p(yₜ | xₜ)` (the Monte-Carlo Q function of EM), when the
model's terms return one log-density per particle. -/
theorem C81_em_objective {T M : ℕ} (gy : X → Y → Tm → ℝ) (gx : X → X → U → Tm → ℝ) (g0 : X → Tm → ℝ)
    {evalY : List X → Y → Tm → PyM (List ℝ)} {evalX : List X → List X → U → Tm → PyM (List ℝ)}
    {evalX0 : List X → Tm → PyM (List ℝ)}
    (hy : ∀ (xs : List X) y t, evalY xs y t = .ok (xs.map fun x => gy x y t))
    (hx : ∀ (xs ys : List X) u t, evalX xs ys u t = .ok (List.zipWith (fun a b => gx a b u t) xs ys))
    (h0 : ∀ (xs : List X) t, evalX0 xs t = .ok (xs.map fun x => g0 x t))
    (x : Fin (T + 1) → Fin M → X) (y : Fin (T + 1) → Option Y) (u : Fin T → U) (us : List U)
    (tm : Fin (T + 1) → Tm) :
    fvalNumeric .py2 evalY evalX evalX0 (List.ofFn fun t => List.ofFn (x t)) (List.ofFn y)
        (List.ofFn u ++ us) (List.ofFn tm) =
      .ok (-avg fun j => g0 (x 0 j) (tm 0) + trajX gx x u tm j + trajY gy x y tm j) := by
  have e1 := getIdx_ofFn (fun t => List.ofFn (x t)) 0
  have e2 := getIdx_ofFn tm 0
  rw [Fin.val_zero] at e1 e2
  rw [fvalNumeric, C57_measurement_term (Nat.succ_pos T) gy hy, ok_bind, C57_transition_term gx hx, ok_bind,
    e1, ok_bind, e2, ok_bind, h0, ok_bind]
  have hm : npMean ((List.ofFn (x 0)).map fun a => g0 a (tm 0)) = avg fun j => g0 (x 0 j) (tm 0) := by
    rw [npMean, List.map_ofFn, List.sum_ofFn, List.length_ofFn]
    rfl
  rw [hm]
  simp only [pure, Except.pure, avg, Finset.sum_add_distrib]
  congr 1
  ring

/-- **C81**: if instead `eval_logp_x0` returns the sum over the particles (the other form its interface
allows, and what the linear time-varying models return), the initial term counts `M` times as much as the
others: the objective is not the Monte-Carlo Q function unless `M = 1` or that sum is 0. -/
theorem C81_summed_initial_term {T M : ℕ} (hM : 0 < M) (gy : X → Y → Tm → ℝ) (gx : X → X → U → Tm → ℝ)
    (g0 : X → Tm → ℝ)
    {evalY : List X → Y → Tm → PyM (List ℝ)} {evalX : List X → List X → U → Tm → PyM (List ℝ)}
    {evalX0 : List X → Tm → PyM (List ℝ)}
    (hy : ∀ (xs : List X) y t, evalY xs y t = .ok (xs.map fun x => gy x y t))
    (hx : ∀ (xs ys : List X) u t, evalX xs ys u t = .ok (List.zipWith (fun a b => gx a b u t) xs ys))
    (h0 : ∀ (xs : List X) t, evalX0 xs t = .ok [(xs.map fun x => g0 x t).sum])
    (x : Fin (T + 1) → Fin M → X) (y : Fin (T + 1) → Option Y) (u : Fin T → U) (us : List U)
    (tm : Fin (T + 1) → Tm) :
    fvalNumeric .py2 evalY evalX evalX0 (List.ofFn fun t => List.ofFn (x t)) (List.ofFn y)
        (List.ofFn u ++ us) (List.ofFn tm) =
      .ok (-(M * avg (fun j => g0 (x 0 j) (tm 0)) + avg (trajX gx x u tm) + avg (trajY gy x y tm))) := by
  have e1 := getIdx_ofFn (fun t => List.ofFn (x t)) 0
  have e2 := getIdx_ofFn tm 0
  rw [Fin.val_zero] at e1 e2
  rw [fvalNumeric, C57_measurement_term (Nat.succ_pos T) gy hy, ok_bind, C57_transition_term gx hx, ok_bind,
    e1, ok_bind, e2, ok_bind, h0, ok_bind]
  have hm : npMean [((List.ofFn (x 0)).map fun a => g0 a (tm 0)).sum] = M * avg fun j => g0 (x 0 j) (tm 0) := by
    have : (M : ℝ) ≠ 0 := by positivity
    rw [npMean, List.map_ofFn, List.sum_ofFn]
    simp [avg]
    field_simp
  rw [hm]
  simp only [pure, Except.pure]
  congr 1
  ring

/-- **C57**: under Python 3 both terms raise `NameError` (for a non-empty trajectory). -/
theorem C57_python3 {T M : ℕ} (hT : 0 < T) (evalY : List X → Y → Tm → PyM (List ℝ))
    (evalX : List X → List X → U → Tm → PyM (List ℝ)) (x : Fin T → Fin M → X) (yt : List (Option Y))
    (ut : List U) (tt : List Tm) :
    logpYFull .py3 evalY (List.ofFn fun t => List.ofFn (x t)) yt tt = .error .nameError ∧
      logpXnextFull .py3 evalX (List.ofFn fun t => List.ofFn (x t)) ut tt = .error .nameError := by
  simp only [logpYFull, logpXnextFull, estShape_ofFn hT, ok_bind, xrange]
  exact ⟨rfl, rfl⟩

end PyPE

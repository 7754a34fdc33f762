import Verif.Param.Objective
import Mathlib.Analysis.Calculus.Deriv.Pow
import Mathlib.Analysis.Calculus.FDeriv.Pi

/-!
# Gradient-based EM objective (C57 gradients, C58)
-/

namespace PyPE

variable {X Y U Tm : Type}

namespace Spec

/-- `G` is the gradient of `V` at `θ`: every component is the partial derivative. -/
def IsGradAt {p : ℕ} (V : (Fin p → ℝ) → ℝ) (G : Fin p → ℝ) (θ : Fin p → ℝ) : Prop :=
  ∀ k, HasDerivAt (fun s => V (Function.update θ k s)) (G k) (θ k)

end Spec

open Spec

theorem IsGradAt.add {p : ℕ} {V V' : (Fin p → ℝ) → ℝ} {G G' θ : Fin p → ℝ} (h : IsGradAt V G θ)
    (h' : IsGradAt V' G' θ) : IsGradAt (fun θ => V θ + V' θ) (G + G') θ := fun k => (h k).add (h' k)

theorem IsGradAt.zero {p : ℕ} {θ : Fin p → ℝ} : IsGradAt (fun _ => 0) (0 : Fin p → ℝ) θ :=
  fun _ => hasDerivAt_const _ _

theorem IsGradAt.div {p : ℕ} {V : (Fin p → ℝ) → ℝ} {G θ : Fin p → ℝ} (h : IsGradAt V G θ) (c : ℝ) :
    IsGradAt (fun θ => V θ / c) (fun k => G k / c) θ := fun k => (h k).div_const c

theorem IsGradAt.sum {p n : ℕ} {V : Fin n → (Fin p → ℝ) → ℝ} {G : Fin n → Fin p → ℝ} {θ : Fin p → ℝ}
    (h : ∀ i, IsGradAt (V i) (G i) θ) : IsGradAt (fun θ => ∑ i, V i θ) (∑ i, G i) θ := by
  intro k
  rw [Finset.sum_apply]
  exact HasDerivAt.fun_sum fun i _ => h i k

theorem gradYLoop_eq {p T : ℕ} {evalY : List X → Y → Tm → PyM (ℝ × (Fin p → ℝ))}
    (val : List X → Y → Tm → ℝ) (gr : List X → Y → Tm → Fin p → ℝ)
    (hev : ∀ xs y t, evalY xs y t = .ok (val xs y t, gr xs y t))
    (x : Fin T → List X) (y : Fin T → Option Y) (tm : Fin T → Tm) :
    ∀ (l : List (Fin T)) (a : ℝ) (g : Fin p → ℝ),
      gradYLoop evalY (List.ofFn x) (List.ofFn y) (List.ofFn tm) (l.map Fin.val) a g =
        .ok (a + (l.map fun t => (y t).elim 0 fun yy => val (x t) yy (tm t)).sum,
          g + (l.map fun t => (y t).elim 0 fun yy => gr (x t) yy (tm t)).sum) := by
  intro l
  induction l with
  | nil => intro a g; simp [gradYLoop]
  | cons i l ih =>
    intro a g
    rw [List.map_cons, gradYLoop, getIdx_ofFn, ok_bind]
    cases hy : y i with
    | none =>
      dsimp only
      rw [ih]
      simp [hy]
    | some yy =>
      dsimp only
      rw [getIdx_ofFn, ok_bind, getIdx_ofFn, ok_bind, hev, ok_bind, ih]
      simp [hy, add_assoc]

theorem gradXLoop_eq {p T : ℕ} {evalX : List X → List X → U → Tm → PyM (ℝ × (Fin p → ℝ))}
    (val : List X → List X → U → Tm → ℝ) (gr : List X → List X → U → Tm → Fin p → ℝ)
    (hev : ∀ xs ys u t, evalX xs ys u t = .ok (val xs ys u t, gr xs ys u t))
    (x : Fin (T + 1) → List X) (u : Fin T → U) (us : List U) (tm : Fin (T + 1) → Tm) :
    ∀ (l : List (Fin T)) (a : ℝ) (g : Fin p → ℝ),
      gradXLoop evalX (List.ofFn x) (List.ofFn u ++ us) (List.ofFn tm) (l.map Fin.val) a g =
        .ok (a + (l.map fun t => val (x t.castSucc) (x t.succ) (u t) (tm t.castSucc)).sum,
          g + (l.map fun t => gr (x t.castSucc) (x t.succ) (u t) (tm t.castSucc)).sum) := by
  intro l
  induction l with
  | nil => intro a g; simp [gradXLoop]
  | cons i l ih =>
    intro a g
    have h1 := getIdx_ofFn x i.castSucc
    have h2 := getIdx_ofFn x i.succ
    have h3 : getIdx (List.ofFn u ++ us) i = .ok (u i) := by
      have hlt : (i : ℕ) < (List.ofFn u).length := by simp
      rw [getIdx, List.getElem?_append_left hlt]
      exact getIdx_ofFn u i
    have h4 := getIdx_ofFn tm i.castSucc
    rw [Fin.val_castSucc] at h1 h4
    rw [Fin.val_succ] at h2
    rw [List.map_cons, gradXLoop, h1, ok_bind, h2, ok_bind, h3, ok_bind, h4, ok_bind, hev, ok_bind, ih]
    simp [add_assoc]

/-- **C57**: the value-and-gradient form of the measurement term: if every term's gradient is the gradient
of its value, the returned gradient is the gradient of the returned value, and that value is the sum over
the steps that have a measurement, divided by the number of trajectories. -/
theorem C57_gradient_measurement {p T M : ℕ} (hT : 0 < T)
    {evalY : (Fin p → ℝ) → List X → Y → Tm → PyM (ℝ × (Fin p → ℝ))}
    (val : (Fin p → ℝ) → List X → Y → Tm → ℝ) (gr : (Fin p → ℝ) → List X → Y → Tm → Fin p → ℝ)
    (hev : ∀ θ xs y t, evalY θ xs y t = .ok (val θ xs y t, gr θ xs y t))
    (hgr : ∀ θ xs y t, IsGradAt (fun θ => val θ xs y t) (gr θ xs y t) θ)
    (x : Fin T → Fin M → X) (y : Fin T → Option Y) (tm : Fin T → Tm) :
    ∃ (V : (Fin p → ℝ) → ℝ) (G : (Fin p → ℝ) → Fin p → ℝ),
      (∀ θ, gradYFull .py2 (evalY θ) (List.ofFn fun t => List.ofFn (x t)) (List.ofFn y) (List.ofFn tm) =
        .ok (V θ, G θ)) ∧
      (∀ θ, V θ = (∑ t, (y t).elim 0 fun yy => val θ (List.ofFn (x t)) yy (tm t)) / M) ∧
      ∀ θ, IsGradAt V (G θ) θ := by
  have hr : List.range T = (List.finRange T).map Fin.val := by simp
  refine ⟨fun θ => (∑ t, (y t).elim 0 fun yy => val θ (List.ofFn (x t)) yy (tm t)) / M,
    fun θ k => (∑ t, (y t).elim 0 fun yy => gr θ (List.ofFn (x t)) yy (tm t)) k / M, fun θ => ?_, fun θ => rfl,
    fun θ => ?_⟩
  · rw [gradYFull, estShape_ofFn hT, ok_bind, xrange, ok_bind, List.length_ofFn, hr,
      gradYLoop_eq (val θ) (gr θ) (hev θ) (fun t => List.ofFn (x t)), ok_bind]
    rw [← List.ofFn_eq_map, ← List.ofFn_eq_map, List.sum_ofFn, List.sum_ofFn, zero_add, zero_add]
    rfl
  · refine IsGradAt.div (IsGradAt.sum fun t => ?_) M
    cases y t with
    | none => exact IsGradAt.zero
    | some yy => exact hgr θ _ _ _

/-- **C57**: the same for the transition term. -/
theorem C57_gradient_transition {p T M : ℕ}
    {evalX : (Fin p → ℝ) → List X → List X → U → Tm → PyM (ℝ × (Fin p → ℝ))}
    (val : (Fin p → ℝ) → List X → List X → U → Tm → ℝ)
    (gr : (Fin p → ℝ) → List X → List X → U → Tm → Fin p → ℝ)
    (hev : ∀ θ xs ys u t, evalX θ xs ys u t = .ok (val θ xs ys u t, gr θ xs ys u t))
    (hgr : ∀ θ xs ys u t, IsGradAt (fun θ => val θ xs ys u t) (gr θ xs ys u t) θ)
    (x : Fin (T + 1) → Fin M → X) (u : Fin T → U) (us : List U) (tm : Fin (T + 1) → Tm) :
    ∃ (V : (Fin p → ℝ) → ℝ) (G : (Fin p → ℝ) → Fin p → ℝ),
      (∀ θ, gradXFull .py2 (evalX θ) (List.ofFn fun t => List.ofFn (x t)) (List.ofFn u ++ us) (List.ofFn tm) =
        .ok (V θ, G θ)) ∧
      (∀ θ, V θ = (∑ t : Fin T, val θ (List.ofFn (x t.castSucc)) (List.ofFn (x t.succ)) (u t) (tm t.castSucc)) / M) ∧
      ∀ θ, IsGradAt V (G θ) θ := by
  have hr : List.range T = (List.finRange T).map Fin.val := by simp
  refine ⟨fun θ => (∑ t : Fin T, val θ (List.ofFn (x t.castSucc)) (List.ofFn (x t.succ)) (u t) (tm t.castSucc)) / M,
    fun θ k => (∑ t : Fin T, gr θ (List.ofFn (x t.castSucc)) (List.ofFn (x t.succ)) (u t) (tm t.castSucc)) k / M,
    fun θ => ?_, fun θ => rfl, fun θ => ?_⟩
  · rw [gradXFull, estShape_ofFn (Nat.succ_pos T), ok_bind, xrange, ok_bind, List.length_ofFn, Nat.add_sub_cancel, hr,
      gradXLoop_eq (val θ) (gr θ) (hev θ) (fun t => List.ofFn (x t)), ok_bind]
    rw [← List.ofFn_eq_map, ← List.ofFn_eq_map, List.sum_ofFn, List.sum_ofFn, zero_add, zero_add]
    rfl
  · exact IsGradAt.div (IsGradAt.sum fun t => hgr θ _ _ _ _) M

/-- **C58**: the exact gradient `ParamEstBaseNumericGrad` hands to the optimiser: the mean over the
parameters of the initial-state gradient is added to every component. -/
theorem C58_gradient_exact {p : ℕ} (y xnext : ℝ × (Fin p → ℝ)) (tmp1 : List ℝ) (tmp2 : Fin p → ℝ) (k : Fin p) :
    (fvalGrad y xnext tmp1 tmp2).1 = -(y.1 + tmp1.sum / tmp1.length + xnext.1) ∧
      (fvalGrad y xnext tmp1 tmp2).2 k = -(y.2 k + xnext.2 k + (∑ l, tmp2 l) / p) := by
  simp only [fvalGrad, npMean, List.length_ofFn, List.sum_ofFn]
  exact ⟨by ring, by ring⟩

/-- **C58**: for models whose three terms return correct gradients, component `k` of the gradient handed
to the optimiser is the derivative of the value handed to it if and only if the `k`-th component of the
initial-state gradient equals the mean over all components. In particular it is right for a single
parameter, and for models whose initial distribution does not depend on the parameters. -/
theorem C58_gradient_correct_iff {p : ℕ} {vy vx v0 : (Fin p → ℝ) → ℝ} {gy gx g0 : (Fin p → ℝ) → Fin p → ℝ}
    (hy : ∀ θ, IsGradAt vy (gy θ) θ) (hx : ∀ θ, IsGradAt vx (gx θ) θ) (h0 : ∀ θ, IsGradAt v0 (g0 θ) θ)
    (θ : Fin p → ℝ) (k : Fin p) :
    HasDerivAt
        (fun s => (fvalGrad (vy (Function.update θ k s), gy (Function.update θ k s))
          (vx (Function.update θ k s), gx (Function.update θ k s)) [v0 (Function.update θ k s)]
          (g0 (Function.update θ k s))).1)
        ((fvalGrad (vy θ, gy θ) (vx θ, gx θ) [v0 θ] (g0 θ)).2 k) (θ k) ↔
      g0 θ k = (∑ l, g0 θ l) / p := by
  have hfun : (fun s => (fvalGrad (vy (Function.update θ k s), gy (Function.update θ k s))
      (vx (Function.update θ k s), gx (Function.update θ k s)) [v0 (Function.update θ k s)]
      (g0 (Function.update θ k s))).1) =
      fun s => -(vy (Function.update θ k s) + v0 (Function.update θ k s) + vx (Function.update θ k s)) := by
    funext s
    rw [(C58_gradient_exact _ _ _ _ k).1]
    simp
  have hd : HasDerivAt
      (fun s => -(vy (Function.update θ k s) + v0 (Function.update θ k s) + vx (Function.update θ k s)))
      (-(gy θ k + g0 θ k + gx θ k)) (θ k) := (((hy θ k).add (h0 θ k)).add (hx θ k)).neg
  rw [hfun, (C58_gradient_exact _ _ _ _ k).2]
  constructor
  · intro h
    have := h.unique hd
    linarith
  · intro h
    rw [← h]
    convert hd using 1
    ring

/-- **C58**: a single parameter: always right. -/
theorem C58_single_parameter {g0 : Fin 1 → ℝ} (k : Fin 1) : g0 k = (∑ l, g0 l) / (1 : ℕ) := by
  fin_cases k
  simp

/-- **C58**, non-vacuity and counterexample: two parameters, initial term `θ₀²`, no other terms: at
`θ = (1, 0)` both components handed to the optimiser are wrong (`-1` instead of `-2` and `0`). -/
theorem C58_counterexample :
    let v0 : (Fin 2 → ℝ) → ℝ := fun θ => θ 0 ^ 2
    let g0 : (Fin 2 → ℝ) → Fin 2 → ℝ := fun θ => ![2 * θ 0, 0]
    (∀ θ, IsGradAt v0 (g0 θ) θ) ∧
      (fvalGrad (0, 0) (0, 0) [v0 ![1, 0]] (g0 ![1, 0])).2 = ![-1, -1] ∧
      (fun k => -(g0 ![1, 0] k)) = ![-2, 0] := by
  refine ⟨?_, ?_, ?_⟩
  · intro θ k
    fin_cases k
    · have : (fun s => (Function.update θ 0 s : Fin 2 → ℝ) 0 ^ 2) = fun s => s ^ 2 := by
        funext s
        simp
      simp only [Fin.zero_eta, Fin.isValue]
      rw [this]
      simpa using hasDerivAt_pow 2 (θ 0)
    · have : (fun s => (Function.update θ 1 s : Fin 2 → ℝ) 0 ^ 2) = fun _ => θ 0 ^ 2 := by
        funext s
        simp
      simp only [Fin.mk_one, Fin.isValue]
      rw [this]
      exact hasDerivAt_const _ _
  · funext k
    rw [(C58_gradient_exact _ _ _ _ k).2]
    fin_cases k <;> norm_num
  · funext k
    fin_cases k <;> norm_num

/-- Non-vacuity of C57 / C81: three time steps, two trajectories, the second measurement missing. -/
example : fvalNumeric (X := ℝ) (Y := ℝ) (U := Unit) (Tm := Unit) .py2
    (fun xs y _ => .ok (xs.map fun x => -(x - y) ^ 2)) (fun xs ys _ _ => .ok (List.zipWith (fun a b => -(b - a) ^ 2) xs ys))
    (fun xs _ => .ok (xs.map fun x => -x ^ 2)) [[0, 1], [1, 2], [2, 2]] [some 0, none, some 3] [(), ()] [(), (), ()] =
    .ok (-((-(0:ℝ) ^ 2 + (-1 - 1) + (0 - 1) + (-1 ^ 2) + (-1 - 0) + (-1 - 1)) / 2)) := by
  have := C81_em_objective (T := 2) (M := 2) (X := ℝ) (Y := ℝ) (U := Unit) (Tm := Unit) (fun x y _ => -(x - y) ^ 2)
    (fun a b _ _ => -(b - a) ^ 2) (fun x _ => -x ^ 2) (fun _ _ _ => rfl) (fun _ _ _ _ => rfl) (fun _ _ => rfl)
    ![![0, 1], ![1, 2], ![2, 2]] ![some 0, none, some 3] ![(), ()] [] ![(), (), ()]
  refine Eq.trans ?_ (this.trans ?_)
  · simp [List.ofFn_succ]
  · simp [avg, trajX, trajY, Fin.sum_univ_succ]
    norm_num

end PyPE

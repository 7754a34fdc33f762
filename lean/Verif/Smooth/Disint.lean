import Verif.Smooth.Paths

/-!
# Integrating out one component of the state path

The state is a pair `(x, z)`. `linE` integrates the `z` components of the path with the `x` components given, `nonE` then integrates the `x` components.
-/

namespace PyPE
open Real Spec MeasureTheory ProbabilityTheory
open scoped ENNReal

variable {X Z U Y : Type} [MeasurableSpace X] [MeasurableSpace Z]

/-- Integrate `Φ(z_0, z_1, …)` over the components `z` after step `k`, weighted with the transition densities `d` and the likelihoods of the data; the `x` components
are given. -/
noncomputable def linE (μ : Measure Z) (d : ℕ → Slot U → X × Z → X × Z → ℝ≥0∞) (ℓ : ℕ → Slot Y → X × Z → ℝ) (Φ : (ℕ → Z) → ℝ≥0∞) (x : ℕ → X) :
    ℕ → List (Slot U × Slot Y) → (ℕ → Z) → ℝ≥0∞
  | _, [], z => Φ z
  | k, q :: qs, z => ∫⁻ z', d k q.1 (x k, z k) (x (k+1), z') * ENNReal.ofReal (exp (ℓ (k+1) q.2 (x (k+1), z'))) *
      linE μ d ℓ Φ x (k+1) qs (Function.update z (k+1) z') ∂μ

/-- Integrate `W(x_0, x_1, …)` over the `n` components after step `k`. -/
noncomputable def nonE (μ : Measure X) (W : (ℕ → X) → ℝ≥0∞) : ℕ → ℕ → (ℕ → X) → ℝ≥0∞
  | _, 0, x => W x
  | k, n+1, x => ∫⁻ x', nonE μ W (k+1) n (Function.update x (k+1) x') ∂μ

section
variable {μ : Measure Z} {d : ℕ → Slot U → X × Z → X × Z → ℝ≥0∞} {ℓ : ℕ → Slot Y → X × Z → ℝ}

/-- `linE` reads only the present state and what `Φ` reads. -/
theorem linE_congr {Φ Φ' : (ℕ → Z) → ℝ≥0∞} {x : ℕ → X} {k : ℕ} {qs : List (Slot U × Slot Y)} {z z' : ℕ → Z} (hz : z k = z' k)
    (h : ∀ w w', (∀ i ≤ k, w i = z i) → (∀ i ≤ k, w' i = z' i) → (∀ i, k < i → i ≤ k + qs.length → w i = w' i) → Φ w = Φ' w') :
    linE μ d ℓ Φ x k qs z = linE μ d ℓ Φ' x k qs z' := by
  induction qs generalizing k z z' with
  | nil => exact h z z' (fun _ _ => rfl) (fun _ _ => rfl) (fun i h1 h2 => by simp at h2; omega)
  | cons q qs ih =>
    simp only [linE]
    refine lintegral_congr fun a => ?_
    rw [hz, ih (z := Function.update z (k+1) a) (z' := Function.update z' (k+1) a) (by simp) fun w w' h1 h2 h3 => h w w' ?_ ?_ ?_]
    · intro i hi
      rw [h1 i (by omega), Function.update_of_ne (by omega)]
    · intro i hi
      rw [h2 i (by omega), Function.update_of_ne (by omega)]
    · intro i hi hi'
      rcases Nat.lt_or_ge (k+1) i with h4 | h4
      · exact h3 i h4 (by simp at hi'; omega)
      · obtain rfl : i = k + 1 := by omega
        rw [h1 _ le_rfl, h2 _ le_rfl]; simp

theorem linE_path {Φ : (ℕ → Z) → ℝ≥0∞} {x x' : ℕ → X} {k : ℕ} {qs : List (Slot U × Slot Y)} (hx : ∀ i ≤ k + qs.length, x i = x' i) (z : ℕ → Z) :
    linE μ d ℓ Φ x k qs z = linE μ d ℓ Φ x' k qs z := by
  induction qs generalizing k z with
  | nil => rfl
  | cons q qs ih =>
    simp only [linE, List.length_cons] at hx ⊢
    refine lintegral_congr fun a => ?_
    rw [hx k (by omega), hx (k+1) (by omega), ih fun i hi => hx i (by omega)]

theorem linE_mul (hd : ∀ k u, Measurable fun p : (X × Z) × (X × Z) => d k u p.1 p.2) (hℓ : ∀ k y, Measurable (ℓ k y)) (c : ℝ≥0∞)
    (x : ℕ → X) (k : ℕ) (qs : List (Slot U × Slot Y)) (z : ℕ → Z) (hm : ∀ k qs, Measurable (linE μ d ℓ (fun _ => 1) x k qs)) :
    linE μ d ℓ (fun _ => c) x k qs z = c * linE μ d ℓ (fun _ => 1) x k qs z := by
  induction qs generalizing k z with
  | nil => simp [linE]
  | cons q qs ih =>
    simp only [linE]
    have h1 : Measurable fun z' : Z => d k q.1 (x k, z k) (x (k+1), z') * ENNReal.ofReal (exp (ℓ (k+1) q.2 (x (k+1), z'))) *
        linE μ d ℓ (fun _ => 1) x (k+1) qs (Function.update z (k+1) z') := by
      refine Measurable.mul (Measurable.mul ?_ ?_) ?_
      · exact (hd k q.1).comp (f := fun z' : Z => ((x k, z k), (x (k+1), z'))) (by fun_prop)
      · exact (measurable_exp.comp ((hℓ (k+1) q.2).comp (f := fun z' : Z => (x (k+1), z')) (by fun_prop))).ennreal_ofReal
      · exact (hm _ _).comp ((measurable_updateAt (k+1)).comp measurable_prodMk_left)
    rw [← lintegral_const_mul _ h1]
    refine lintegral_congr fun a => ?_
    rw [ih]
    ring

theorem linE_measurable [SFinite μ] (hd : ∀ k u, Measurable fun p : (X × Z) × (X × Z) => d k u p.1 p.2) (hℓ : ∀ k y, Measurable (ℓ k y)) {A : Type} [MeasurableSpace A]
    {Φ : A → (ℕ → Z) → ℝ≥0∞} (hΦ : Measurable (Function.uncurry Φ)) {x : A → ℕ → X} (hx : Measurable x) (k : ℕ) (qs : List (Slot U × Slot Y)) :
    Measurable fun p : A × (ℕ → Z) => linE μ d ℓ (Φ p.1) (x p.1) k qs p.2 := by
  induction qs generalizing k with
  | nil => exact hΦ
  | cons q qs ih =>
    simp only [linE]
    have hx' : ∀ k, Measurable fun a => x a k := fun k => (measurable_pi_apply k).comp hx
    refine Measurable.lintegral_prod_right' (ν := μ) (f := fun p : (A × (ℕ → Z)) × Z => d k q.1 (x p.1.1 k, p.1.2 k) (x p.1.1 (k+1), p.2) *
      ENNReal.ofReal (exp (ℓ (k+1) q.2 (x p.1.1 (k+1), p.2))) * linE μ d ℓ (Φ p.1.1) (x p.1.1) (k+1) qs (Function.update p.1.2 (k+1) p.2)) ?_
    have m1 : Measurable fun p : (A × (ℕ → Z)) × Z => x p.1.1 k := (hx' k).comp (measurable_fst.comp measurable_fst)
    have m2 : Measurable fun p : (A × (ℕ → Z)) × Z => x p.1.1 (k+1) := (hx' (k+1)).comp (measurable_fst.comp measurable_fst)
    have m3 : Measurable fun p : (A × (ℕ → Z)) × Z => p.1.2 k := (measurable_pi_apply k).comp (measurable_snd.comp measurable_fst)
    refine Measurable.mul (Measurable.mul ?_ ?_) ?_
    · exact (hd k q.1).comp ((m1.prodMk m3).prodMk (m2.prodMk measurable_snd))
    · exact (measurable_exp.comp ((hℓ (k+1) q.2).comp (m2.prodMk measurable_snd))).ennreal_ofReal
    · exact (ih (k+1)).comp ((measurable_fst.comp measurable_fst).prodMk
        ((measurable_updateAt (k+1)).comp ((measurable_snd.comp measurable_fst).prodMk measurable_snd)))

end

section
variable {μ : Measure X}

theorem nonE_congr {W W' : (ℕ → X) → ℝ≥0∞} {k n : ℕ} {x : ℕ → X} (h : ∀ w, (∀ i ≤ k, w i = x i) → W w = W' w) :
    nonE μ W k n x = nonE μ W' k n x := by
  induction n generalizing k x with
  | zero => exact h x fun _ _ => rfl
  | succ n ih =>
    simp only [nonE]
    refine lintegral_congr fun a => ih fun w hw => h w fun i hi => ?_
    rw [hw i (by omega), Function.update_of_ne (by omega)]

theorem nonE_measurable [SFinite μ] {A : Type} [MeasurableSpace A] {W : A → (ℕ → X) → ℝ≥0∞} (hW : Measurable (Function.uncurry W)) (k n : ℕ) :
    Measurable fun p : A × (ℕ → X) => nonE μ (W p.1) k n p.2 := by
  induction n generalizing k with
  | zero => exact hW
  | succ n ih =>
    simp only [nonE]
    refine Measurable.lintegral_prod_right' (ν := μ) (f := fun p : (A × (ℕ → X)) × X => nonE μ (W p.1.1) (k+1) n (Function.update p.1.2 (k+1) p.2)) ?_
    exact (ih (k+1)).comp ((measurable_fst.comp measurable_fst).prodMk
        ((measurable_updateAt (k+1)).comp ((measurable_snd.comp measurable_fst).prodMk measurable_snd)))

/-- Fubini. -/
theorem nonE_lintegral [SFinite μ] {A : Type} [MeasurableSpace A] (ν : Measure A) [SFinite ν] {W : A → (ℕ → X) → ℝ≥0∞} (hW : Measurable (Function.uncurry W))
    (k n : ℕ) (x : ℕ → X) : ∫⁻ a, nonE μ (W a) k n x ∂ν = nonE μ (fun w => ∫⁻ a, W a w ∂ν) k n x := by
  induction n generalizing k x with
  | zero => rfl
  | succ n ih =>
    simp only [nonE]
    rw [lintegral_lintegral_swap]
    · exact lintegral_congr fun a => ih _ _
    · refine Measurable.aemeasurable ?_
      exact (nonE_measurable hW (k+1) n).comp (measurable_fst.prodMk ((measurable_updateAt (k+1)).comp ((measurable_const (a := x)).prodMk measurable_snd)))

theorem nonE_mul [SFinite μ] {W : (ℕ → X) → ℝ≥0∞} (hW : Measurable W) (c : ℝ≥0∞) (k n : ℕ) (x : ℕ → X) :
    c * nonE μ W k n x = nonE μ (fun w => c * W w) k n x := by
  induction n generalizing k x with
  | zero => rfl
  | succ n ih =>
    simp only [nonE]
    have hm : Measurable fun a => nonE μ W (k+1) n (Function.update x (k+1) a) :=
      (nonE_measurable (A := Unit) (W := fun _ => W) (hW.comp measurable_snd) (k+1) n).comp
        ((measurable_const (a := ())).prodMk ((measurable_updateAt (k+1)).comp ((measurable_const (a := x)).prodMk measurable_id)))
    rw [← lintegral_const_mul _ hm]
    exact lintegral_congr fun a => ih _ _

end

theorem update_pair (x : ℕ → X) (z : ℕ → Z) (n : ℕ) (a : X) (b : Z) :
    Function.update (fun i => (x i, z i)) n (a, b) = fun i => (Function.update x n a i, Function.update z n b i) := by
  funext i
  by_cases h : i = n
  · subst h; simp
  · simp [h]

/-- The expectation over a path, component by component. -/
theorem pathG_split {M : ℕ → Slot U → Kernel (X × Z) (X × Z)} {μX : Measure X} {μZ : Measure Z} [SFinite μX] [SFinite μZ]
    {d : ℕ → Slot U → X × Z → X × Z → ℝ≥0∞} (hd : ∀ k u, Measurable fun p : (X × Z) × (X × Z) => d k u p.1 p.2)
    (hM : ∀ k u s, M k u s = (μX.prod μZ).withDensity (d k u s)) {ℓ : ℕ → Slot Y → X × Z → ℝ} (hℓ : ∀ k y, Measurable (ℓ k y)) {φ : List (X × Z) → ℝ≥0∞}
    (hφ : ∀ n, Measurable fun x : Fin n → X × Z => φ (List.ofFn x)) (k : ℕ) (qs : List (Slot U × Slot Y)) (x : ℕ → X) (z : ℕ → Z) :
    pathG M ℓ φ k qs (fun i => (x i, z i)) =
      nonE μX (fun x => linE μZ d ℓ (fun z => φ ((List.range (k + qs.length + 1)).map fun i => (x i, z i))) x k qs z) k qs.length x := by
  induction qs generalizing k x z with
  | nil => rw [pathG_nil]; rfl
  | cons q qs ih =>
    have hΦ : Measurable (Function.uncurry fun (x : ℕ → X) (z : ℕ → Z) => φ ((List.range (k + 1 + qs.length + 1)).map fun i => (x i, z i))) := by
      have e : (Function.uncurry fun (x : ℕ → X) (z : ℕ → Z) => φ ((List.range (k + 1 + qs.length + 1)).map fun i => (x i, z i))) =
          fun p : (ℕ → X) × (ℕ → Z) => φ (List.ofFn fun i : Fin (k + 1 + qs.length + 1) => (p.1 i, p.2 i)) := by
        funext p
        simp only [Function.uncurry]
        congr 1
        apply List.ext_getElem <;> simp [-List.ofFn_succ]
      rw [e]
      exact (hφ _).comp (measurable_pi_lambda _ fun i => ((measurable_pi_apply _).comp measurable_fst).prodMk ((measurable_pi_apply _).comp measurable_snd))
    have hL := linE_measurable (μ := μZ) hd hℓ hΦ measurable_id (k+1) qs
    simp only [id_eq] at hL
    have hN := nonE_measurable (μ := μX) (A := ℕ → Z) (W := fun z x => linE μZ d ℓ (fun z => φ ((List.range (k + 1 + qs.length + 1)).map fun i => (x i, z i))) x (k+1) qs z)
      (hL.comp (measurable_snd.prodMk measurable_fst)) (k+1) qs.length
    rw [pathG_cons, hM]
    set B : (ℕ → X) → (ℕ → Z) → ℝ≥0∞ := fun x z => linE μZ d ℓ (fun z => φ ((List.range (k + 1 + qs.length + 1)).map fun i => (x i, z i))) x (k+1) qs z with hB
    have hBm : Measurable (Function.uncurry B) := hL
    have hpt : ∀ s' : X × Z, pathG M ℓ φ (k+1) qs (Function.update (fun i => (x i, z i)) (k+1) s') =
        nonE μX (fun w => B w (Function.update z (k+1) s'.2)) (k+1) qs.length (Function.update x (k+1) s'.1) := fun s' => by
      rw [show s' = (s'.1, s'.2) from rfl, update_pair, ih]
    simp only [hpt]
    have hl : ∀ y, Measurable fun s' : X × Z => ENNReal.ofReal (exp (ℓ (k+1) y s')) := fun y => (measurable_exp.comp (hℓ (k+1) y)).ennreal_ofReal
    have hNm : Measurable fun s' : X × Z => nonE μX (fun w => B w (Function.update z (k+1) s'.2)) (k+1) qs.length (Function.update x (k+1) s'.1) :=
      hN.comp (((measurable_updateAt (k+1)).comp (measurable_const.prodMk measurable_snd)).prodMk ((measurable_updateAt (k+1)).comp (measurable_const.prodMk measurable_fst)))
    have hd' : Measurable (d k q.1 (x k, z k)) := (hd k q.1).comp measurable_prodMk_left
    have hg : Measurable fun s' : X × Z => ENNReal.ofReal (exp (ℓ (k+1) q.2 s')) *
        nonE μX (fun w => B w (Function.update z (k+1) s'.2)) (k+1) qs.length (Function.update x (k+1) s'.1) := (hl q.2).mul hNm
    rw [lintegral_withDensity_eq_lintegral_mul _ hd' hg, lintegral_prod _ (hd'.mul hg).aemeasurable]
    simp only [List.length_cons, nonE]
    refine lintegral_congr fun a => ?_
    have hz : Measurable fun b : Z => Function.update z (k+1) b := (measurable_updateAt (k+1)).comp measurable_prodMk_left
    have hBb : ∀ b, Measurable fun w => B w (Function.update z (k+1) b) := fun b => hBm.comp (measurable_id.prodMk measurable_const)
    have hW : Measurable (Function.uncurry fun (b : Z) (w : ℕ → X) =>
        d k q.1 (x k, z k) (a, b) * ENNReal.ofReal (exp (ℓ (k+1) q.2 (a, b))) * B w (Function.update z (k+1) b)) := by
      refine Measurable.mul (Measurable.mul ?_ ?_) ?_
      · exact hd'.comp (measurable_const.prodMk measurable_fst)
      · exact (hl q.2).comp (measurable_const.prodMk measurable_fst)
      · exact hBm.comp (measurable_snd.prodMk (hz.comp measurable_fst))
    have h1 : ∀ b, (d k q.1 (x k, z k) * fun s' : X × Z => ENNReal.ofReal (exp (ℓ (k+1) q.2 s')) *
        nonE μX (fun w => B w (Function.update z (k+1) s'.2)) (k+1) qs.length (Function.update x (k+1) s'.1)) (a, b) =
        nonE μX (fun w => d k q.1 (x k, z k) (a, b) * ENNReal.ofReal (exp (ℓ (k+1) q.2 (a, b))) * B w (Function.update z (k+1) b))
          (k+1) qs.length (Function.update x (k+1) a) := fun b => by
      rw [← nonE_mul (hBb b)]
      simp only [Pi.mul_apply, mul_assoc]
    simp only [h1]
    rw [nonE_lintegral μZ hW]
    refine nonE_congr fun w hw => ?_
    have e0 : w k = x k := by rw [hw k (by omega), Function.update_of_ne (by omega)]
    have e1 : w (k+1) = a := by rw [hw (k+1) le_rfl, Function.update_self]
    simp only [linE, e0, e1, hB, show k + (qs.length + 1) + 1 = k + 1 + qs.length + 1 by omega]

end PyPE

import Verif.Smooth.BpKernel
import Verif.Smooth.MhChain

/-!
# C122: the backward proposer and the filter step

The iterations at a time come after the states of all later times are known. Integrating the later states out, and using that the iterations leave the law of
predecessor and state invariant, one filter step followed by the iterations at its time has the expectation of the filter step alone.
-/

namespace PyPE
open Real Spec MeasureTheory ProbabilityTheory
open scoped ENNReal

variable {P U Y V Ω : Type}

instance pickLaw_sfinite [MeasurableSpace P] (N : ℕ) (W : ℕ → ℝ≥0∞) (μ : ℕ → Measure P) [∀ a, SFinite (μ a)] : SFinite (pickLaw N W μ) := by
  unfold pickLaw
  rw [← Measure.sum_fintype]
  infer_instance

/-- The states at later times do not depend on an earlier one. -/
theorem refE_update [MeasurableSpace P] (M : ℕ → Slot U → Kernel P P) (ℓ : ℕ → Slot Y → P → ℝ) (ψ : (ℕ → P) → ℝ≥0∞) {j k : ℕ} (hj : j < k)
    (qs : List (Slot U × Slot Y)) (s : ℕ → P) (v : P) :
    refE M ℓ k qs ψ (Function.update s j v) = refE M ℓ k qs (fun s => ψ (Function.update s j v)) s := by
  induction qs generalizing k s with
  | nil => rfl
  | cons q qs ih =>
    simp only [refE]
    rw [Function.update_of_ne (by omega)]
    refine lintegral_congr fun x' => ?_
    rw [Function.update_comm (by omega), ih (by omega)]

theorem refE_const_mul [MeasurableSpace P] {M : ℕ → Slot U → Kernel P P} {ℓ : ℕ → Slot Y → P → ℝ} {c : ℝ≥0∞} (hc : c ≠ ⊤) (ψ : (ℕ → P) → ℝ≥0∞) (k : ℕ)
    (qs : List (Slot U × Slot Y)) (s : ℕ → P) : refE M ℓ k qs (fun s => c * ψ s) s = c * refE M ℓ k qs ψ s := by
  induction qs generalizing k s with
  | nil => rfl
  | cons q qs ih =>
    simp only [refE, ih]
    rw [← lintegral_const_mul' _ _ hc]
    refine lintegral_congr fun x' => ?_
    ring

/-- The density of the next state given the state at time `k`; `1` if there is no later time. -/
noncomputable def nextDensity (lx : ℕ → Slot U → P → P → ℝ) (k : ℕ) (qs : List (Slot U × Slot Y)) (s : ℕ → P) (x : P) : ℝ≥0∞ :=
  match qs with
  | [] => 1
  | q :: _ => ENNReal.ofReal (exp (lx k q.1 x (s (k+1))))

/-- Two functions of an index, a state at time `k` and a path that have the same integral given the next state have the same integral when all later states are
integrated out. -/
theorem future_congr [MeasurableSpace P] {Z : Type} [MeasurableSpace Z] {ρ : Measure Z} [SFinite ρ] {pos : Z → P} (hpos : Measurable pos)
    {vol : Measure P} [SigmaFinite vol] {M : ℕ → Slot U → Kernel P P} {lx : ℕ → Slot U → P → P → ℝ} (hlx : ∀ k u, Measurable fun z : P × P => lx k u z.1 z.2)
    (hM : ∀ k u, IsMarkovKernel (M k u)) (hMd : ∀ k u x, M k u x = vol.withDensity fun x' => ENNReal.ofReal (exp (lx k u x x')))
    {ℓ : ℕ → Slot Y → P → ℝ} (hℓ : ∀ k y, Measurable (ℓ k y)) {Ψ Ψ' : Z × (ℕ → P) → ℝ≥0∞} (hΨ : Measurable Ψ) (hΨ' : Measurable Ψ') (k : ℕ)
    (qs : List (Slot U × Slot Y))
    (h : ∀ s, ∫⁻ z, nextDensity lx k qs s (pos z) * Ψ (z, Function.update s k (pos z)) ∂ρ =
      ∫⁻ z, nextDensity lx k qs s (pos z) * Ψ' (z, Function.update s k (pos z)) ∂ρ) (s : ℕ → P) :
    ∫⁻ z, refE M ℓ k qs (fun s => Ψ (z, s)) (Function.update s k (pos z)) ∂ρ =
      ∫⁻ z, refE M ℓ k qs (fun s => Ψ' (z, s)) (Function.update s k (pos z)) ∂ρ := by
  cases qs with
  | nil => simpa only [nextDensity, one_mul, refE] using h s
  | cons q qs =>
    -- the integral with the later states outside
    have main : ∀ Θ : Z × (ℕ → P) → ℝ≥0∞, Measurable Θ →
        ∫⁻ z, refE M ℓ k (q :: qs) (fun s => Θ (z, s)) (Function.update s k (pos z)) ∂ρ =
        ∫⁻ x', ENNReal.ofReal (exp (ℓ (k+1) q.2 x')) * refE M ℓ (k+1) qs
          (fun s => ∫⁻ z, nextDensity lx k (q :: qs) s (pos z) * Θ (z, Function.update s k (pos z)) ∂ρ) (Function.update s (k+1) x') ∂vol := by
      intro Θ hΘ
      have mB : Measurable fun z : Z × (ℕ → P) => Θ (z.1, Function.update z.2 k (pos z.1)) :=
        hΘ.comp (measurable_fst.prodMk ((measurable_updateAt k).comp (measurable_snd.prodMk (hpos.comp measurable_fst))))
      have mN : Measurable fun z : Z × (ℕ → P) => nextDensity lx k (q :: qs) z.2 (pos z.1) := by
        simp only [nextDensity]
        exact ((hlx k q.1).comp (f := fun z : Z × (ℕ → P) => (pos z.1, z.2 (k+1))) ((hpos.comp measurable_fst).prodMk (by fun_prop))).exp.ennreal_ofReal
      have mR := refE_measurable hM hℓ mB (k+1) qs
      have mR2 : Measurable fun z : Z × P => refE M ℓ (k+1) qs (fun s => Θ (z.1, Function.update s k (pos z.1))) (Function.update s (k+1) z.2) :=
        mR.comp (f := fun z : Z × P => (z.1, Function.update s (k+1) z.2)) (measurable_fst.prodMk ((measurable_updateAt (k+1)).comp (measurable_const.prodMk measurable_snd)))
      have mE : Measurable fun x' => ENNReal.ofReal (exp (ℓ (k+1) q.2 x')) := (hℓ (k+1) q.2).exp.ennreal_ofReal
      have mL : Measurable fun z : Z × P => ENNReal.ofReal (exp (lx k q.1 (pos z.1) z.2)) :=
        ((hlx k q.1).comp (f := fun z : Z × P => (pos z.1, z.2)) ((hpos.comp measurable_fst).prodMk measurable_snd)).exp.ennreal_ofReal
      have e1 : ∀ z, refE M ℓ k (q :: qs) (fun s => Θ (z, s)) (Function.update s k (pos z)) =
          ∫⁻ x', ENNReal.ofReal (exp (ℓ (k+1) q.2 x')) * (ENNReal.ofReal (exp (lx k q.1 (pos z) x')) *
            refE M ℓ (k+1) qs (fun s => Θ (z, Function.update s k (pos z))) (Function.update s (k+1) x')) ∂vol := by
        intro z
        simp only [refE, Function.update_self]
        have e2 : ∀ x', refE M ℓ (k+1) qs (fun s => Θ (z, s)) (Function.update (Function.update s k (pos z)) (k+1) x') =
            refE M ℓ (k+1) qs (fun s => Θ (z, Function.update s k (pos z))) (Function.update s (k+1) x') := by
          intro x'
          rw [Function.update_comm (by omega), refE_update M ℓ _ (by omega)]
        simp only [e2]
        have mz : Measurable fun x' => refE M ℓ (k+1) qs (fun s => Θ (z, Function.update s k (pos z))) (Function.update s (k+1) x') :=
          mR2.comp measurable_prodMk_left
        have ml : Measurable fun x' => ENNReal.ofReal (exp (lx k q.1 (pos z) x')) := mL.comp (f := fun x' => (z, x')) measurable_prodMk_left
        rw [hMd]
        refine (lintegral_withDensity_eq_lintegral_mul vol ml (mE.mul mz)).trans (lintegral_congr fun x' => ?_)
        simp only [Pi.mul_apply]
        ring
      simp only [e1]
      rw [lintegral_lintegral_swap]
      · refine lintegral_congr fun x' => ?_
        rw [lintegral_const_mul' _ _ ENNReal.ofReal_ne_top]
        congr 1
        rw [refE_lintegral hM hℓ (G := fun z : Z × (ℕ → P) => nextDensity lx k (q :: qs) z.2 (pos z.1) * Θ (z.1, Function.update z.2 k (pos z.1))) (mN.mul mB) ρ]
        refine lintegral_congr fun z => ?_
        rw [← refE_const_mul ENNReal.ofReal_ne_top]
        refine refE_congr M ℓ qs fun s' hs' => ?_
        simp only [nextDensity]
        rw [hs' (k+1) le_rfl, Function.update_self]
      · exact ((mE.comp measurable_snd).mul (mL.mul mR2)).aemeasurable
    rw [main Ψ hΨ, main Ψ' hΨ']
    refine lintegral_congr fun x' => ?_
    congr 2
    funext s
    exact h s

/-! ### The whole backward proposer -/

/-- The normalised weights of stored step `n`. -/
noncomputable def normAt (N : ℕ) (tr : List (Step P)) (n i : ℕ) : ℝ≥0∞ := ENNReal.ofReal (exp (wAt tr n i) / ∑ j : Fin N, exp (wAt tr n j))

/-- `R` iterations at each of the times `n, …, 0`, from particle `z.1` of the stored step `n` (which is the state of the path `z.2` at time `n`); the states of later
times are those of `z.2`. -/
noncomputable def bpOp [MeasurableSpace P] (vol : Measure P) (l0 : P → ℝ) (lp : ℕ → P → P → ℝ) (g : ℕ → P → ℝ) (lq : ℕ → Option P → Option P → P → ℝ)
    (K N R : ℕ) (x0 : P) (tr : List (Step P)) (ψ : (ℕ → P) → ℝ≥0∞) : ℕ → ℕ × (ℕ → P) → ℝ≥0∞
  | 0, z => (siteE vol l0 lp g lq K 0)^[R] ψ z.2
  | n + 1, z => (bpSite vol l0 lp g lq K (n+1) N (normAt N tr n) (partAt x0 tr n))^[R]
      (fun z => bpOp vol l0 lp g lq K N R x0 tr ψ n (z.1, Function.update z.2 n (partAt x0 tr n z.1))) (ancOf tr (n+1) z.1, z.2)

section
variable [MeasurableSpace P] {vol : Measure P} [SigmaFinite vol] {l0 : P → ℝ} {lp : ℕ → P → P → ℝ} {g : ℕ → P → ℝ} {lq : ℕ → Option P → Option P → P → ℝ}

theorem siteE_iterate_measurable (h : PathLaw vol l0 lp g lq) (K k R : ℕ) {ψ : (ℕ → P) → ℝ≥0∞} (hψ : Measurable ψ) :
    Measurable ((siteE vol l0 lp g lq K k)^[R] ψ) := by
  induction R generalizing ψ with
  | zero => exact hψ
  | succ R ih => exact ih (siteE_measurable h K k hψ)

theorem bpOp_measurable (h : PathLaw vol l0 lp g lq) (K N R : ℕ) (x0 : P) (tr : List (Step P)) {ψ : (ℕ → P) → ℝ≥0∞} (hψ : Measurable ψ) (n : ℕ) :
    Measurable (bpOp vol l0 lp g lq K N R x0 tr ψ n) := by
  induction n with
  | zero => exact (siteE_iterate_measurable h K 0 R hψ).comp measurable_snd
  | succ n ih =>
    have m0 : Measurable fun z : ℕ × (ℕ → P) => partAt x0 tr n z.1 := (measurable_from_nat (f := partAt x0 tr n)).comp measurable_fst
    have m1 : Measurable fun z : ℕ × (ℕ → P) => bpOp vol l0 lp g lq K N R x0 tr ψ n (z.1, Function.update z.2 n (partAt x0 tr n z.1)) :=
      ih.comp (measurable_fst.prodMk ((measurable_updateAt n).comp (measurable_snd.prodMk m0)))
    exact (bpSite_iterate_measurable h K (n+1) N R (normAt N tr n) (partAt x0 tr n) m1).comp
      (f := fun z : ℕ × (ℕ → P) => (ancOf tr (n+1) z.1, z.2)) (((measurable_from_nat (f := ancOf tr (n+1))).comp measurable_fst).prodMk measurable_snd)

omit [SigmaFinite vol] in
theorem normAt_append {N : ℕ} {tr l : List (Step P)} {n : ℕ} (hn : n < tr.length) : normAt N (tr ++ l) n = normAt N tr n := by
  funext i
  simp only [normAt, wAt_append hn]

omit [SigmaFinite vol] in
theorem bpOp_append (K N R : ℕ) (x0 : P) {tr l : List (Step P)} (ψ : (ℕ → P) → ℝ≥0∞) {n : ℕ} (hn : n < tr.length) :
    bpOp vol l0 lp g lq K N R x0 (tr ++ l) ψ n = bpOp vol l0 lp g lq K N R x0 tr ψ n := by
  induction n with
  | zero => rfl
  | succ n ih =>
    funext z
    simp only [bpOp]
    rw [ih (by omega), normAt_append (by omega), ancAt_append hn, show partAt x0 (tr ++ l) n = partAt x0 tr n from funext fun i => partAt_append x0 (by omega) i]

/-- One update of the state at time `k`, the other states being fixed. -/
theorem siteE_fixed (h : PathLaw vol l0 lp g lq) (K k : ℕ) {ψ : (ℕ → P) → ℝ≥0∞} (hψ : Measurable ψ) (s : ℕ → P) :
    ∫⁻ x, ENNReal.ofReal (exp (localLog l0 lp g k (before s k) (after K s k) x)) * siteE vol l0 lp g lq K k ψ (Function.update s k x) ∂vol =
      ∫⁻ x, ENNReal.ofReal (exp (localLog l0 lp g k (before s k) (after K s k) x)) * ψ (Function.update s k x) ∂vol := by
  obtain ⟨B, hB⟩ : ∃ B, B = before s k := ⟨_, rfl⟩
  obtain ⟨A, hA⟩ : ∃ A, A = after K s k := ⟨_, rfl⟩
  have mlq : Measurable fun y => lq k B A y := by rw [hB, hA]; exact (lq_measurable h K k).comp (f := fun y => (s, y)) (by fun_prop)
  have mll : Measurable fun y => localLog l0 lp g k B A y := by rw [hB, hA]; exact (localLog_measurable h K k).comp (f := fun y => (s, y)) (by fun_prop)
  have mup : Measurable fun y => Function.update s k y := (measurable_updateAt k).comp measurable_prodMk_left
  obtain ⟨Q, hQ⟩ : ∃ Q, Q = vol.withDensity fun y => ENNReal.ofReal (exp (lq k B A y)) := ⟨_, rfl⟩
  obtain ⟨τ, hτ⟩ : ∃ τ : P → ℝ, τ = fun z => exp (localLog l0 lp g k B A z - lq k B A z) := ⟨_, rfl⟩
  have mτ : Measurable τ := by rw [hτ]; exact (mll.sub mlq).exp
  have hQ1 : IsProbabilityMeasure Q := by
    refine ⟨?_⟩
    rw [hQ, withDensity_apply _ MeasurableSet.univ, Measure.restrict_univ, h.one]
  have mF : Measurable fun z : P => ψ (Function.update s k z) := hψ.comp mup
  have mF2 : Measurable fun z : P => siteE vol l0 lp g lq K k ψ (Function.update s k z) := (siteE_measurable h K k hψ).comp mup
  have hw : ∀ f : P → ℝ≥0∞, Measurable f → ∫⁻ z, ENNReal.ofReal (τ z) * f z ∂Q =
      ∫⁻ x, ENNReal.ofReal (exp (localLog l0 lp g k B A x)) * f x ∂vol := by
    intro f hf
    have m0 : Measurable fun z => ENNReal.ofReal (τ z) * f z := mτ.ennreal_ofReal.mul hf
    rw [hQ]
    refine (lintegral_withDensity_eq_lintegral_mul vol mlq.exp.ennreal_ofReal m0).trans (lintegral_congr fun x => ?_)
    rw [Pi.mul_apply, ← mul_assoc, ← ENNReal.ofReal_mul (exp_pos _).le, hτ, ← exp_add]
    congr 3
    ring
  have key := mh_swap (Q := Q) mτ (by intro z; rw [hτ]; exact exp_pos _) mF
  rw [hw _ mF] at key
  rw [← hB, ← hA, ← key, ← hw _ mF2]
  refine lintegral_congr fun z => ?_
  congr 1
  have hafter : after K (Function.update s k z) k = A := by rw [hA]; exact after_update K s k z
  have hbefore : before (Function.update s k z) k = B := by rw [hB]; exact before_update s k z
  unfold siteE
  rw [hafter, hbefore, hQ]
  refine lintegral_congr fun y => ?_
  have e : τ y / τ z = exp (mhLog l0 lp g lq k B A z y) := by
    rw [hτ, ← exp_sub]
    congr 1
    simp only [mhLog]
    ring
  simp only [Function.update_self, Function.update_idem, e]

theorem siteE_iterate_fixed (h : PathLaw vol l0 lp g lq) (K k R : ℕ) {ψ : (ℕ → P) → ℝ≥0∞} (hψ : Measurable ψ) (s : ℕ → P) :
    ∫⁻ x, ENNReal.ofReal (exp (localLog l0 lp g k (before s k) (after K s k) x)) * (siteE vol l0 lp g lq K k)^[R] ψ (Function.update s k x) ∂vol =
      ∫⁻ x, ENNReal.ofReal (exp (localLog l0 lp g k (before s k) (after K s k) x)) * ψ (Function.update s k x) ∂vol := by
  induction R with
  | zero => rfl
  | succ R ih =>
    rw [← ih]
    simp only [Function.iterate_succ_apply']
    exact siteE_fixed h K k (siteE_iterate_measurable h K k R hψ) s

end

/-! ### One filter step -/

section
variable [MeasurableSpace P] {vol : Measure P} [SigmaFinite vol] {l0 : P → ℝ} {lx : ℕ → Slot U → P → P → ℝ} {ℓ : ℕ → Slot Y → P → ℝ}
  {lq : ℕ → Option P → Option P → P → ℝ} {first : Option (Slot Y)} {qs0 : List (Slot U × Slot Y)}

omit [MeasurableSpace P] [SigmaFinite vol] in
theorem drop_cons_eq {α : Type} {l l' : List α} {k : ℕ} {a : α} (h : l.drop k = a :: l') : l[k]? = some a ∧ l.drop (k+1) = l' ∧ k < l.length := by
  have hl : l[k]? = some a := by
    rw [← List.head?_drop, h]; rfl
  refine ⟨hl, ?_, lt_of_getElem?_some hl⟩
  rw [← List.tail_drop, h]; rfl

/-- The density of what the state at a time enters. -/
theorem next_split {k : ℕ} {qs : List (Slot U × Slot Y)} (h : qs0.drop k = qs) (hk : k ≤ qs0.length) (b : Option P) (s : ℕ → P) (x : P) :
    ENNReal.ofReal (exp (localLog l0 (fun k => lx k (inputAt qs0 k)) (likAt ℓ first qs0) k b (after qs0.length s k) x)) =
      ENNReal.ofReal (exp (priorLog l0 (fun k => lx k (inputAt qs0 k)) k b none x + likAt ℓ first qs0 k x)) * nextDensity lx k qs s x := by
  cases qs with
  | nil =>
    have hk2 : ¬ k < qs0.length := by
      intro hlt
      have := congrArg List.length h
      simp at this
      omega
    simp only [nextDensity, mul_one, localLog_eq, after, if_neg hk2, nextLog, add_zero]
  | cons q qs =>
    obtain ⟨h1, -, h3⟩ := drop_cons_eq h
    have hi : inputAt qs0 k = q.1 := by unfold inputAt; rw [List.getD_eq_getElem?_getD, h1]; rfl
    simp only [nextDensity, localLog_eq, after, if_pos h3, nextLog, hi]
    rw [exp_add, ENNReal.ofReal_mul (exp_pos _).le]
    congr 2

/-- The value of particle `i` of the last step of a run with `k+1` stored steps, before the steps `qs`: the states of the later times are drawn from the model, then
the backward proposer runs from that particle. -/
noncomputable def bpW (vol : Measure P) (l0 : P → ℝ) (lx : ℕ → Slot U → P → P → ℝ) (ℓ : ℕ → Slot Y → P → ℝ) (lq : ℕ → Option P → Option P → P → ℝ)
    (first : Option (Slot Y)) (qs0 : List (Slot U × Slot Y)) (M : ℕ → Slot U → Kernel P P) (N R : ℕ) (x0 : P) (ψ : (ℕ → P) → ℝ≥0∞)
    (k : ℕ) (qs : List (Slot U × Slot Y)) (tr : List (Step P)) (_us : List (Slot U)) (i : Fin N) : ℝ≥0∞ :=
  refE M ℓ k qs (fun s => bpOp vol l0 (fun k => lx k (inputAt qs0 k)) (likAt ℓ first qs0) lq qs0.length N R x0 tr ψ k (i, s))
    (Function.update (fun _ => x0) k (partAt x0 tr k i))

theorem normAt_sum {N : ℕ} (hN : 0 < N) (tr : List (Step P)) (n : ℕ) : ∑ a : Fin N, normAt N tr n a = 1 := by
  haveI : Nonempty (Fin N) := ⟨⟨0, hN⟩⟩
  have hpos : 0 < ∑ j : Fin N, exp (wAt tr n j) := Finset.sum_pos (fun _ _ => exp_pos _) Finset.univ_nonempty
  simp only [normAt]
  rw [← ENNReal.ofReal_sum_of_nonneg fun _ _ => div_nonneg (exp_pos _).le hpos.le, ← Finset.sum_div, div_self hpos.ne', ENNReal.ofReal_one]

theorem bp_histStep [MeasurableSpace Ω] {F : FilterOps P U Y V Ω} {ν : Measure Ω} {N : ℕ} (hN : 0 < N) {res : ℝ}
    {κ : ℕ → Slot U → Slot Y → Kernel P P} {inc : ℕ → Slot U → Slot Y → P → P → ℝ}
    {good : Slot Y → Prop} (hS : ∀ k u y, good y → StepLaw F ν N res k u y (κ k u y) (inc k u y)) {M : ℕ → Slot U → Kernel P P}
    (hM : ∀ k u, IsMarkovKernel (M k u)) (hℓ : ∀ k y, Measurable (ℓ k y))
    (hQ : ∀ k u y (h : P → ℝ≥0∞), Measurable h → ∀ x, ∫⁻ x', ENNReal.ofReal (exp (inc k u y x x')) * h x' ∂(κ k u y x) =
      ∫⁻ x', ENNReal.ofReal (exp (ℓ (k+1) y x')) * h x' ∂(M k u x))
    (hlx : ∀ k u, Measurable fun z : P × P => lx k u z.1 z.2) (hMd : ∀ k u x, M k u x = vol.withDensity fun x' => ENNReal.ofReal (exp (lx k u x x')))
    (hlaw : PathLaw vol l0 (fun k => lx k (inputAt qs0 k)) (likAt ℓ first qs0) lq) (hseen : ∀ q ∈ qs0, ∀ k, seen ℓ k q.2 = ℓ k q.2)
    (R : ℕ) (x0 : P) {ψ : (ℕ → P) → ℝ≥0∞} (hψ : Measurable ψ) :
    HistStepOn F ν N res good (fun _ => True) (fun k qs => qs0.drop k = qs) (bpW vol l0 lx ℓ lq first qs0 M N R x0 ψ) := by
  intro k q qs tr us last x w hC hgy hgs _ hk husl hlast hx hw
  obtain ⟨h1, h2, h3⟩ := drop_cons_eq hC
  have hlk := getLast_index hk hlast
  have hi : inputAt qs0 k = q.1 := by unfold inputAt; rw [List.getD_eq_getElem?_getD, h1]; rfl
  have hg : likAt ℓ first qs0 (k+1) = ℓ (k+1) q.2 := by
    rw [← hseen q (List.mem_of_getElem? h1) (k+1)]
    show seen ℓ (k+1) (qs0.getD k (.none, .none)).2 = _
    rw [List.getD_eq_getElem?_getD, h1]; rfl
  obtain ⟨Φ, hΦ⟩ : ∃ Φ : ℕ × (ℕ → P) → ℝ≥0∞, Φ = fun z => bpOp vol l0 (fun k => lx k (inputAt qs0 k)) (likAt ℓ first qs0) lq qs0.length N R x0 tr ψ k
    (z.1, Function.update z.2 k (partAt x0 tr k z.1)) := ⟨_, rfl⟩
  have mp : Measurable fun z : ℕ × (ℕ → P) => partAt x0 tr k z.1 := (measurable_from_nat (f := partAt x0 tr k)).comp measurable_fst
  have mΦ : Measurable Φ := by
    rw [hΦ]
    exact (bpOp_measurable hlaw qs0.length N R x0 tr hψ k).comp (measurable_fst.prodMk ((measurable_updateAt k).comp (measurable_snd.prodMk mp)))
  obtain ⟨Θ, hΘ⟩ : ∃ Θ, Θ = (bpSite vol l0 (fun k => lx k (inputAt qs0 k)) (likAt ℓ first qs0) lq qs0.length (k+1) N (normAt N tr k) (partAt x0 tr k))^[R] Φ := ⟨_, rfl⟩
  have mΘ : Measurable Θ := by rw [hΘ]; exact bpSite_iterate_measurable hlaw _ _ _ _ _ _ mΦ
  have mh : ∀ (Ξ : ℕ × (ℕ → P) → ℝ≥0∞), Measurable Ξ → Measurable fun z : ℕ × P =>
      refE M ℓ (k+1) qs (fun s => Ξ (z.1, s)) (Function.update (fun _ => x0) (k+1) z.2) := by
    intro Ξ hΞ
    exact (refE_measurable (Z := ℕ) hM hℓ hΞ (k+1) qs).comp (f := fun z : ℕ × P => (z.1, Function.update (fun _ => x0) (k+1) z.2))
      (measurable_fst.prodMk ((measurable_updateAt (k+1)).comp (measurable_const.prodMk measurable_snd)))
  have hwn : ∀ i : Fin N, ENNReal.ofReal (exp (w i) / ∑ j, exp (w j)) = normAt N tr k i := by
    intro i
    simp only [normAt, wAt_eq hlk hw]
  refine ⟨fun i x' => refE M ℓ (k+1) qs (fun s => Θ (i, s)) (Function.update (fun _ => x0) (k+1) x'), _,
    (hS k q.1 q.2 hgy).op (fun i => (mh Θ mΘ).comp measurable_prodMk_left), ?_, ?_⟩
  · intro pa anc x' f hx' _ hanc i
    have hi' : (tr ++ [(⟨pa, anc⟩ : Step P)])[k+1]? = some ⟨pa, anc⟩ := by rw [List.getElem?_append_right (by omega), hk]; simp
    simp only [bpW, bpOp]
    rw [partAt_eq x0 hi' hx' i, ancAt_eq hi' hanc i, bpOp_append _ _ _ _ _ (by omega), normAt_append (by omega),
      show partAt x0 (tr ++ [⟨pa, anc⟩]) k = partAt x0 tr k from funext fun i => partAt_append x0 (by omega) i, hΘ, hΦ]
  · -- the joint law of predecessor and state
    obtain ⟨ρ, hρ⟩ : ∃ ρ, ρ = pickLaw N (normAt N tr k) fun a => vol.withDensity fun x' =>
      ENNReal.ofReal (exp (lx k q.1 (partAt x0 tr k a) x' + ℓ (k+1) q.2 x')) := ⟨_, rfl⟩
    haveI : SFinite ρ := by rw [hρ]; infer_instance
    have md : ∀ a, Measurable fun x' => ENNReal.ofReal (exp (lx k q.1 (partAt x0 tr k a) x' + ℓ (k+1) q.2 x')) := fun a =>
      (((hlx k q.1).comp (f := fun x' => (partAt x0 tr k a, x')) (by fun_prop)).add (hℓ (k+1) q.2)).exp.ennreal_ofReal
    have hstep : ∀ f : ℕ × P → ℝ≥0∞, Measurable f → ∫⁻ z, f z ∂ρ =
        ∑ i : Fin N, normAt N tr k i * ∫⁻ x', ENNReal.ofReal (exp (ℓ (k+1) q.2 x')) * f (i, x') ∂(M k q.1 (x i)) := by
      intro f hf
      rw [hρ, lintegral_pickLaw _ _ _ hf]
      refine Finset.sum_congr rfl fun i _ => ?_
      congr 1
      have mi : Measurable fun x' => f ((i : ℕ), x') := hf.comp measurable_prodMk_left
      have ml : Measurable fun x' => ENNReal.ofReal (exp (lx k q.1 (x i) x')) := ((hlx k q.1).comp (f := fun x' => (x i, x')) (by fun_prop)).exp.ennreal_ofReal
      rw [hMd, lintegral_withDensity_eq_lintegral_mul vol (md i) mi]
      refine ((lintegral_withDensity_eq_lintegral_mul vol ml ((hℓ (k+1) q.2).exp.ennreal_ofReal.mul mi)).trans (lintegral_congr fun x' => ?_)).symm
      simp only [Pi.mul_apply, partAt_eq x0 hlk hx i]
      rw [exp_add, ENNReal.ofReal_mul (exp_pos _).le, mul_assoc]
    have hdens : ∀ (f : ℕ × P → ℝ≥0∞) (s : ℕ → P), Measurable f → ∫⁻ z, nextDensity lx (k+1) qs s z.2 * f z ∂ρ =
        ∑ a : Fin N, normAt N tr k a * ∫⁻ x', ENNReal.ofReal (exp (localLog l0 (fun k => lx k (inputAt qs0 k)) (likAt ℓ first qs0) (k+1) (some (partAt x0 tr k a))
          (after qs0.length s (k+1)) x')) * f (a, x') ∂vol := by
      intro f s hf
      have mn : Measurable fun x' => nextDensity lx (k+1) qs s x' := by
        cases qs with
        | nil => exact measurable_const
        | cons q' qs => exact ((hlx (k+1) q'.1).comp (f := fun x' => (x', s (k+1+1))) (by fun_prop)).exp.ennreal_ofReal
      have mnf : Measurable fun z : ℕ × P => nextDensity lx (k+1) qs s z.2 * f z := (mn.comp measurable_snd).mul hf
      rw [hρ, lintegral_pickLaw _ _ _ mnf]
      refine Finset.sum_congr rfl fun a _ => ?_
      congr 1
      have mi : Measurable fun x' => nextDensity lx (k+1) qs s x' * f ((a : ℕ), x') := mn.mul (hf.comp measurable_prodMk_left)
      refine (lintegral_withDensity_eq_lintegral_mul vol (md a) mi).trans (lintegral_congr fun x' => ?_)
      rw [next_split h2 (by omega), Pi.mul_apply, mul_assoc]
      congr 3
      rw [hg]
      simp only [priorLog, Nat.add_sub_cancel, hi]
    have key := future_congr (ρ := ρ) (pos := Prod.snd) measurable_snd hlx hM hMd hℓ (Ψ := fun z : (ℕ × P) × (ℕ → P) => Θ (z.1.1, z.2))
      (Ψ' := fun z : (ℕ × P) × (ℕ → P) => Φ (z.1.1, z.2)) (mΘ.comp ((measurable_fst.comp measurable_fst).prodMk measurable_snd))
      (mΦ.comp ((measurable_fst.comp measurable_fst).prodMk measurable_snd)) (k+1) qs (fun s => by
        have mu : ∀ Ξ : ℕ × (ℕ → P) → ℝ≥0∞, Measurable Ξ → Measurable fun z : ℕ × P => Ξ (z.1, Function.update s (k+1) z.2) := fun Ξ hΞ =>
          hΞ.comp (measurable_fst.prodMk ((measurable_updateAt (k+1)).comp (measurable_const.prodMk measurable_snd)))
        rw [hdens _ s (mu Θ mΘ), hdens _ s (mu Φ mΦ), hΘ]
        exact bpSite_iterate_invariant hlaw qs0.length (k+1) N R (normAt_sum hN tr k) (partAt x0 tr k) mΦ s) (fun _ => x0)
    simp only [hwn]
    have e1 : ∑ i : Fin N, normAt N tr k i * ∫⁻ x', ENNReal.ofReal (exp (inc k q.1 q.2 (x i) x')) *
        refE M ℓ (k+1) qs (fun s => Θ (i, s)) (Function.update (fun _ => x0) (k+1) x') ∂(κ k q.1 q.2 (x i)) =
        ∫⁻ z, refE M ℓ (k+1) qs (fun s => Θ (z.1, s)) (Function.update (fun _ => x0) (k+1) z.2) ∂ρ := by
      rw [hstep _ (mh Θ mΘ)]
      refine Finset.sum_congr rfl fun i _ => ?_
      have mi : Measurable fun x' => refE M ℓ (k+1) qs (fun s => Θ ((i : ℕ), s)) (Function.update (fun _ => x0) (k+1) x') :=
        (mh Θ mΘ).comp measurable_prodMk_left
      rw [hQ _ _ _ _ mi]
    refine e1.trans (key.trans ?_)
    beta_reduce
    rw [hstep _ (mh Φ mΦ)]
    refine Finset.sum_congr rfl fun i _ => ?_
    congr 1
    simp only [bpW, refE, Function.update_self, partAt_eq x0 hlk hx i]
    refine lintegral_congr fun x' => ?_
    congr 1
    have e2 : ∀ G : (ℕ → P) → ℝ≥0∞, refE M ℓ (k+1) qs G (Function.update (Function.update (fun _ => x0) k (x i)) (k+1) x') =
        refE M ℓ (k+1) qs (fun s => G (Function.update s k (x i))) (Function.update (fun _ => x0) (k+1) x') := fun G => by
      rw [Function.update_comm (show k ≠ k+1 by omega), refE_update M ℓ _ (by omega)]
    rw [e2, hΦ]
    simp only [partAt_eq x0 hlk hx i]

end

end PyPE

import Verif.Filter.RbFilter
import Verif.Smooth.PathOps

/-!
# C100: backward simulation when every particle carries a law of the state

The backward pass picks a particle with probability proportional to its weight times the density of the next state given that particle, then draws a
state from the law of the particle given the next state.
-/

namespace PyPE
open Real Spec MeasureTheory ProbabilityTheory
open scoped ENNReal

variable {P U Y V Ω S : Type}

/-- The probability with which particle `i` of step `n` is picked when the path is at `s'` afterwards. -/
noncomputable def rprob (lp : P → S → ℝ) (N : ℕ) (p0 : P) (tr : List (Step P)) (n : ℕ) (s' : S) (i : ℕ) : ℝ :=
  exp (wAt tr n i) * exp (lp (partAt p0 tr n i) s') / ∑ l : Fin N, exp (wAt tr n l) * exp (lp (partAt p0 tr n l) s')

/-- The backward pass through the steps `n-1, …, 0`. -/
noncomputable def rop [MeasurableSpace S] (lp : ℕ → Slot U → P → S → ℝ) (B : ℕ → Slot U → P → Kernel S S) (N : ℕ) (p0 : P) (tr : List (Step P))
    (us : List (Slot U)) : ℕ → ((ℕ → S) → ℝ≥0∞) → (ℕ → S) → ℝ≥0∞
  | 0, Γ, s => Γ s
  | n + 1, Γ, s => ∑ i : Fin N, ENNReal.ofReal (rprob (lp n (us.getD n .none)) N p0 tr n (s (n+1)) i) *
      ∫⁻ a, rop lp B N p0 tr us n Γ (Function.update s n a) ∂B n (us.getD n .none) (partAt p0 tr n i) (s (n+1))

variable [MeasurableSpace S] {lp : ℕ → Slot U → P → S → ℝ} {B : ℕ → Slot U → P → Kernel S S} {N : ℕ} {p0 : P}

theorem rop_append {tr l : List (Step P)} {us us' : List (Slot U)} {n : ℕ}
    (hn : n ≤ tr.length) (hu : n ≤ us.length) (Γ : (ℕ → S) → ℝ≥0∞) (s : ℕ → S) :
    rop lp B N p0 (tr ++ l) (us ++ us') n Γ s = rop lp B N p0 tr us n Γ s := by
  induction n generalizing s with
  | zero => rfl
  | succ n ih =>
    simp only [rop]
    have e : (us ++ us').getD n .none = us.getD n .none := by
      rw [List.getD_eq_getElem?_getD, List.getD_eq_getElem?_getD, List.getElem?_append_left (by omega)]
    refine Finset.sum_congr rfl fun i _ => ?_
    simp only [fun s => ih (by omega) (by omega) s, e, rprob, partAt_append p0 (show n < tr.length by omega), wAt_append (show n < tr.length by omega)]

theorem rprob_measurable {lp : P → S → ℝ} (hlp : ∀ p, Measurable (lp p)) (N : ℕ) (p0 : P) (tr : List (Step P)) (n i : ℕ) :
    Measurable fun s' => rprob lp N p0 tr n s' i := by
  unfold rprob
  refine Measurable.div ?_ (Finset.measurable_sum _ fun l _ => ?_)
  · exact (measurable_exp.comp (hlp _)).const_mul _
  · exact (measurable_exp.comp (hlp _)).const_mul _

theorem rop_measurable (hlp : ∀ k u p, Measurable (lp k u p)) (hB : ∀ k u p, IsSFiniteKernel (B k u p)) (tr : List (Step P)) (us : List (Slot U)) (n : ℕ)
    {Γ : (ℕ → S) → ℝ≥0∞} (hΓ : Measurable Γ) : Measurable (rop lp B N p0 tr us n Γ) := by
  induction n with
  | zero => exact hΓ
  | succ n ih =>
    show Measurable fun s => rop lp B N p0 tr us (n+1) Γ s
    simp only [rop]
    refine Finset.measurable_sum _ fun i _ => Measurable.mul ?_ ?_
    · exact ((rprob_measurable (hlp n _) N p0 tr n i).comp (measurable_pi_apply (n+1))).ennreal_ofReal
    · haveI := hB n (us.getD n .none) (partAt p0 tr n i)
      have := Measurable.lintegral_kernel_prod_right' (κ := (B n (us.getD n .none) (partAt p0 tr n i)).comap (fun s : ℕ → S => s (n+1)) (measurable_pi_apply _))
        (f := fun z => rop lp B N p0 tr us n Γ (Function.update z.1 n z.2)) (ih.comp (measurable_updateAt n))
      simpa only [Kernel.comap_apply] using this

theorem rop_lintegral (hlp : ∀ k u p, Measurable (lp k u p)) (hB : ∀ k u p, IsSFiniteKernel (B k u p)) (tr : List (Step P)) (us : List (Slot U))
    {n k : ℕ} (hn : n ≤ k) {Γ : (ℕ → S) → ℝ≥0∞} (hΓ : Measurable Γ) {g : S → ℝ≥0∞}
    (hg : Measurable g) (κ : Kernel S S) [IsSFiniteKernel κ] (s : ℕ → S) :
    rop lp B N p0 tr us n (fun s => ∫⁻ x', g x' * Γ (Function.update s (k+1) x') ∂(κ (s k))) s =
      ∫⁻ x', g x' * rop lp B N p0 tr us n Γ (Function.update s (k+1) x') ∂(κ (s k)) := by
  induction n generalizing s with
  | zero => rfl
  | succ n ih =>
    simp only [rop]
    have hrm := rop_measurable (N := N) (p0 := p0) hlp hB tr us n hΓ
    have hI : ∀ i : Fin N, Measurable fun x' => ∫⁻ a, rop lp B N p0 tr us n Γ (Function.update (Function.update s n a) (k+1) x')
        ∂B n (us.getD n .none) (partAt p0 tr n i) (s (n+1)) := by
      intro i
      haveI := hB n (us.getD n .none) (partAt p0 tr n i)
      exact Measurable.lintegral_prod_right' (f := fun z : S × S => rop lp B N p0 tr us n Γ (Function.update (Function.update s n z.2) (k+1) z.1))
        (hrm.comp ((measurable_updateAt (k+1)).comp ((((measurable_updateAt n).comp measurable_prodMk_left).comp measurable_snd).prodMk measurable_fst)))
    have e : ∀ x', g x' * ∑ i : Fin N, ENNReal.ofReal (rprob (lp n (us.getD n .none)) N p0 tr n (Function.update s (k+1) x' (n+1)) i) *
        ∫⁻ a, rop lp B N p0 tr us n Γ (Function.update (Function.update s (k+1) x') n a)
          ∂B n (us.getD n .none) (partAt p0 tr n i) (Function.update s (k+1) x' (n+1)) =
        ∑ i : Fin N, ENNReal.ofReal (rprob (lp n (us.getD n .none)) N p0 tr n (s (n+1)) i) *
          (g x' * ∫⁻ a, rop lp B N p0 tr us n Γ (Function.update (Function.update s n a) (k+1) x')
            ∂B n (us.getD n .none) (partAt p0 tr n i) (s (n+1))) := by
      intro x'
      rw [Finset.mul_sum]
      refine Finset.sum_congr rfl fun i _ => ?_
      rw [Function.update_of_ne (by omega)]
      simp only [fun a => Function.update_comm (show n ≠ k + 1 by omega) a x' s]
      ring
    have hgI : ∀ i : Fin N, Measurable fun x' => g x' * ∫⁻ a, rop lp B N p0 tr us n Γ (Function.update (Function.update s n a) (k+1) x')
        ∂B n (us.getD n .none) (partAt p0 tr n i) (s (n+1)) := fun i => hg.mul (hI i)
    simp only [e]
    rw [lintegral_finset_sum _ fun i _ => (hgI i).const_mul _]
    refine Finset.sum_congr rfl fun i _ => ?_
    rw [lintegral_const_mul _ (hgI i)]
    congr 1
    haveI := hB n (us.getD n .none) (partAt p0 tr n i)
    simp only [fun a => ih (by omega) (Function.update s n a), fun a : S => Function.update_of_ne (show k ≠ n by omega) a s]
    have hj : Measurable fun z : S × S => g z.2 * rop lp B N p0 tr us n Γ (Function.update (Function.update s n z.1) (k+1) z.2) :=
      (hg.comp measurable_snd).mul
        (hrm.comp ((measurable_updateAt (k+1)).comp ((((measurable_updateAt n).comp measurable_prodMk_left).comp measurable_fst).prodMk measurable_snd)))
    rw [lintegral_lintegral_swap hj.aemeasurable]
    refine lintegral_congr fun x' => ?_
    rw [lintegral_const_mul]
    exact hrm.comp ((measurable_updateAt (k+1)).comp ((((measurable_updateAt n).comp measurable_prodMk_left)).prodMk measurable_const))

/-- The backward pass started from a state drawn from the law of particle `i` of the last step. -/
noncomputable def ropE (law : P → Measure S) (lp : ℕ → Slot U → P → S → ℝ) (B : ℕ → Slot U → P → Kernel S S) (N : ℕ) (p0 : P) (s0 : S)
    (tr : List (Step P)) (us : List (Slot U)) (Γ : (ℕ → S) → ℝ≥0∞) (i : Fin N) : ℝ≥0∞ :=
  ∫⁻ s, rop lp B N p0 tr us (tr.length - 1) Γ (Function.update (fun _ => s0) (tr.length - 1) s) ∂law (partAt p0 tr (tr.length - 1) i)

/-- The Rao-Blackwellised filter followed by the backward pass. -/
theorem rop_histStep [MeasurableSpace Ω] {K : MarkovRb P U Y V Ω} {ν : Measure Ω} (hN : 0 < N) {ok : P → Prop} {law : P → Measure S}
    (hlaw : ∀ p, ok p → IsProbabilityMeasure (law p))
    {μ0 : Measure S} {M : ℕ → Slot U → Kernel S S} (hM : ∀ k u, IsMarkovKernel (M k u)) {ℓ : ℕ → Slot Y → S → ℝ} {good : Slot Y → Prop}
    (hK : Spec.RbSamples K good ν N ok law μ0 M ℓ) (res : ℝ) {φ : List S → ℝ≥0∞} (hφ : ∀ n, Measurable fun x : Fin n → S => φ (List.ofFn x))
    (hlp : ∀ k u p, Measurable (lp k u p)) (hB : ∀ k u p, IsMarkovKernel (B k u p)) {vol : Measure S}
    (hback : ∀ k u p, ok p → ∀ g : S × S → ℝ≥0∞, Measurable g → ∫⁻ s, ∫⁻ s', g (s, s') ∂M k u s ∂law p =
      ∫⁻ s', ENNReal.ofReal (exp (lp k u p s')) * ∫⁻ s, g (s, s') ∂B k u p s' ∂vol) (s0 : S) :
    HistStep (rbfOps K res) ν N res good ok (fun k qs tr us => ropE law lp B N p0 s0 tr us (pathG M ℓ φ k qs)) := by
  intro k q qs tr us last x w hgy hgs hok hk hus hlast hx hw
  haveI : Nonempty (Fin N) := ⟨⟨0, hN⟩⟩
  have hs : 0 < ∑ j, exp (w j) := Finset.sum_pos (fun _ _ => exp_pos _) Finset.univ_nonempty
  have hlk := getLast_index hk hlast
  have hox : ∀ i, ok (x i) := fun i => hok last (List.mem_of_getLast? hlast) _ (by rw [hx]; exact List.mem_ofFn.mpr ⟨i, rfl⟩)
  have hBs : ∀ k u p, IsSFiniteKernel (B k u p) := fun k u p => by haveI := hB k u p; infer_instance
  obtain ⟨u, y⟩ := q
  set Γ := pathG M ℓ φ (k+1) qs with hΓd
  have hΓ : Measurable Γ := pathG_measurable hM hK.meas hφ (k+1) qs
  set g : S → ℝ≥0∞ := fun s' => ENNReal.ofReal (exp (ℓ (k+1) y s')) with hgd
  have hg : Measurable g := (measurable_exp.comp (hK.meas (k+1) y)).ennreal_ofReal
  set R : S → ℝ≥0∞ := fun s' => rop lp B N p0 tr (us ++ [u]) (k+1) Γ (Function.update (fun _ => s0) (k+1) s') with hRd
  have hR : Measurable R := (rop_measurable hlp hBs tr _ (k+1) hΓ).comp ((measurable_updateAt (k+1)).comp measurable_prodMk_left)
  refine ⟨fun _ p => ∫⁻ s, R s ∂law p, _, rbf_opStep hN hK res hR k u y hgy, ?_, ?_⟩
  · intro pa anc x' f hx' _ _ i
    have hl : (tr ++ [(⟨pa, anc⟩ : Step P)]).length - 1 = k + 1 := by simp [hk]
    beta_reduce
    unfold ropE
    rw [hl, partAt_eq p0 (st := ⟨pa, anc⟩) (by rw [List.getElem?_append_right (by omega), hk]; simp) hx' i]
    refine lintegral_congr fun s => ?_
    have := rop_append (lp := lp) (B := B) (N := N) (p0 := p0) (tr := tr) (l := [⟨pa, anc⟩]) (us := us ++ [u]) (us' := []) (n := k+1) (by omega)
      (by simp [hus]) Γ (Function.update (fun _ => s0) (k+1) s)
    rwa [List.append_nil] at this
  · set T : S × S → ℝ≥0∞ := fun z => rop lp B N p0 tr us k Γ (Function.update (Function.update (fun _ => s0) k z.1) (k+1) z.2) with hT
    have hTm : Measurable T := (rop_measurable hlp hBs tr us k hΓ).comp ((measurable_updateAt (k+1)).comp
      ((((measurable_updateAt k).comp measurable_prodMk_left).comp measurable_fst).prodMk measurable_snd))
    have hem : ∀ j, Measurable fun x' => ENNReal.ofReal (exp (lp k u (x j) x')) := fun j => (measurable_exp.comp (hlp k u (x j))).ennreal_ofReal
    set D : S → ℝ := fun x' => ∑ l, exp (w l) * exp (lp k u (x l) x') with hDd
    have hDpos : ∀ x', 0 < D x' := fun x' => Finset.sum_pos (fun _ _ => mul_pos (exp_pos _) (exp_pos _)) Finset.univ_nonempty
    set b : Fin N → S → ℝ := fun j x' => exp (w j) * exp (lp k u (x j) x') / D x' with hb
    set J : Fin N → S → ℝ≥0∞ := fun j x' => ∫⁻ s, T (s, x') ∂B k u (x j) x' with hJ
    have hJm : ∀ j, Measurable (J j) := by
      intro j
      haveI := hBs k u (x j)
      exact Measurable.lintegral_kernel_prod_right' (κ := B k u (x j)) (f := fun z => T (z.2, z.1)) (hTm.comp measurable_swap)
    have hRe : ∀ x', R x' = ∑ j, ENNReal.ofReal (b j x') * J j x' := by
      intro x'
      rw [hRd]
      simp only [rop, Function.update_self]
      have hu1 : (us ++ [u]).getD k .none = u := by
        rw [List.getD_eq_getElem?_getD, List.getElem?_append_right (by omega), hus]; simp
      refine Finset.sum_congr rfl fun j _ => ?_
      rw [hu1, partAt_eq p0 hlk hx j]
      congr 1
      · congr 1
        rw [hb]
        simp only [rprob]
        rw [partAt_eq p0 hlk hx j, wAt_eq hlk hw j]
        congr 1
        exact Finset.sum_congr rfl fun l _ => by rw [partAt_eq p0 hlk hx l, wAt_eq hlk hw l]
      · refine lintegral_congr fun a => ?_
        rw [Function.update_comm (by omega)]
        have := rop_append (lp := lp) (B := B) (N := N) (p0 := p0) (tr := tr) (l := []) (us := us) (us' := [u]) (n := k) (by omega) (by omega) Γ
          (Function.update (Function.update (fun _ => s0) k a) (k+1) x')
        rwa [List.append_nil] at this
    have hI : ∀ i, ∫⁻ s, ∫⁻ s', ENNReal.ofReal (exp (ℓ (k+1) y s')) * R s' ∂M k u s ∂law (x i) =
        ∫⁻ x', ENNReal.ofReal (exp (lp k u (x i) x')) * (g x' * R x') ∂vol := by
      intro i
      have := hback k u (x i) (hox i) (fun z => g z.2 * R z.2) ((hg.mul hR).comp measurable_snd)
      rw [this]
      refine lintegral_congr fun x' => ?_
      haveI := hB k u (x i)
      simp only [lintegral_const, measure_univ, mul_one]
    have hW : ∀ i, ropE law lp B N p0 s0 tr us (pathG M ℓ φ k ((u, y) :: qs)) i =
        ∫⁻ x', ENNReal.ofReal (exp (lp k u (x i) x')) * (g x' * J i x') ∂vol := by
      intro i
      unfold ropE
      rw [hk, Nat.add_sub_cancel, partAt_eq p0 hlk hx i,
        show pathG M ℓ φ k ((u, y) :: qs) = fun s => ∫⁻ x', g x' * Γ (Function.update s (k+1) x') ∂(M k u (s k)) from
          funext fun s => pathG_cons M ℓ φ k (u, y) qs s]
      haveI := hM k u
      have e : ∀ s, rop lp B N p0 tr us k (fun s => ∫⁻ x', g x' * Γ (Function.update s (k+1) x') ∂(M k u (s k))) (Function.update (fun _ => s0) k s) =
          ∫⁻ x', g x' * T (s, x') ∂M k u s := by
        intro s
        rw [rop_lintegral hlp hBs tr us le_rfl hΓ hg (M k u), Function.update_self]
      simp only [e]
      rw [hback k u (x i) (hox i) (fun z => g z.2 * T z) ((hg.comp measurable_snd).mul hTm)]
      refine lintegral_congr fun x' => ?_
      congr 1
      show ∫⁻ s, g x' * T (s, x') ∂(B k u (x i)) x' = _
      rw [lintegral_const_mul]
      exact hTm.comp measurable_prodMk_right
    simp only [hI, hW]
    have hm1 : ∀ i, Measurable fun x' => ENNReal.ofReal (exp (lp k u (x i) x')) * (g x' * R x') := fun i => (hem i).mul (hg.mul hR)
    have hm2 : ∀ i, Measurable fun x' => ENNReal.ofReal (exp (lp k u (x i) x')) * (g x' * J i x') := fun i => (hem i).mul (hg.mul (hJm i))
    simp only [← lintegral_const_mul _ (hm1 _), ← lintegral_const_mul _ (hm2 _)]
    rw [← lintegral_finset_sum _ fun i _ => (hm1 i).const_mul _, ← lintegral_finset_sum _ fun i _ => (hm2 i).const_mul _]
    refine lintegral_congr fun x' => ?_
    have hA : ∑ i, ENNReal.ofReal (exp (w i) / ∑ j, exp (w j)) * ENNReal.ofReal (exp (lp k u (x i) x')) =
        ENNReal.ofReal (D x' / ∑ j, exp (w j)) := by
      rw [hDd, Finset.sum_div, ENNReal.ofReal_sum_of_nonneg fun i _ => by positivity]
      refine Finset.sum_congr rfl fun i _ => ?_
      rw [← ENNReal.ofReal_mul (by positivity)]
      congr 1; ring
    rw [hRe]
    simp only [← mul_assoc]
    rw [← Finset.sum_mul, ← Finset.sum_mul, hA, Finset.mul_sum]
    refine Finset.sum_congr rfl fun j _ => ?_
    rw [mul_comm (ENNReal.ofReal (D x' / _)), mul_assoc, ← mul_assoc (ENNReal.ofReal (D x' / _)), ← ENNReal.ofReal_mul (div_nonneg (hDpos x').le hs.le),
      ← ENNReal.ofReal_mul (by positivity), show (D x' / ∑ j, exp (w j)) * b j x' = exp (w j) / (∑ j, exp (w j)) * exp (lp k u (x j) x') by
        rw [hb]
        have h1 := (hDpos x').ne'
        have h2 := hs.ne'
        simp only
        field_simp]
    ring

end PyPE

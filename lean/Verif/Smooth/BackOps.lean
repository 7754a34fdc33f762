import Verif.Smooth.PickLaw

/-!
# Backward operators

The operator of a backward pass which picks index `i` of step `n` with probability `T tr n u x' a i` when the path continues in `x'` and the
filter ancestor of the particle chosen there is `a`. If `T` leaves the smoothing weights invariant, the pass integrates the states out
correctly.
-/

namespace PyPE
open Real Spec MeasureTheory ProbabilityTheory
open scoped ENNReal

variable {P U Y V Ω : Type}

/-- A backward kernel which leaves the smoothing weights `w_a p(x' | x_a)` invariant. -/
structure BackKernel [MeasurableSpace P] (lx : ℕ → Slot U → P → P → ℝ) (N : ℕ) (x0 : P)
    (T : List (Step P) → ℕ → Slot U → P → ℕ → ℕ → ℝ) : Prop where
  meas : ∀ tr n u a i, Measurable fun x' => T tr n u x' a i
  nonneg : ∀ tr n u x' a i, (∀ st ∈ tr, GoodStep N st) → n < tr.length → 0 ≤ T tr n u x' a i
  append : ∀ tr l n u x' a i, n < tr.length → T (tr ++ l) n u x' a i = T tr n u x' a i
  stat : ∀ tr n u x' (i : Fin N), (∀ st ∈ tr, GoodStep N st) → n < tr.length →
    ∑ a : Fin N, exp (wAt tr n a) * exp (lx n u (partAt x0 tr n a) x') * T tr n u x' a i = exp (wAt tr n i) * exp (lx n u (partAt x0 tr n i) x')

/-- The backward pass through the steps `n-1, …, 0`. -/
noncomputable def gop (T : List (Step P) → ℕ → Slot U → P → ℕ → ℕ → ℝ) (N : ℕ) (x0 : P) (tr : List (Step P)) (us : List (Slot U)) :
    ℕ → ℕ → ((ℕ → P) → ℝ≥0∞) → (ℕ → P) → ℝ≥0∞
  | 0, _, Γ, s => Γ s
  | n + 1, a, Γ, s => ∑ i : Fin N, ENNReal.ofReal (T tr n (us.getD n .none) (s (n+1)) a i) *
      gop T N x0 tr us n (ancOf tr n i) Γ (Function.update s n (partAt x0 tr n i))

section
variable [MeasurableSpace P] {lx : ℕ → Slot U → P → P → ℝ} {N : ℕ} {x0 : P} {T : List (Step P) → ℕ → Slot U → P → ℕ → ℕ → ℝ}

theorem gop_append (hT : BackKernel lx N x0 T) {tr l : List (Step P)} {us us' : List (Slot U)} {n : ℕ}
    (hn : n ≤ tr.length) (hu : n ≤ us.length) (a : ℕ) (Γ : (ℕ → P) → ℝ≥0∞) (s : ℕ → P) :
    gop T N x0 (tr ++ l) (us ++ us') n a Γ s = gop T N x0 tr us n a Γ s := by
  induction n generalizing a s with
  | zero => rfl
  | succ n ih =>
    simp only [gop]
    refine Finset.sum_congr rfl fun i _ => ?_
    rw [ih (by omega) (by omega), partAt_append x0 (by omega), ancAt_append (by omega), hT.append _ _ _ _ _ _ _ (by omega)]
    rw [List.getD_eq_getElem?_getD, List.getD_eq_getElem?_getD, List.getElem?_append_left (by omega)]

theorem gop_measurable (hT : BackKernel lx N x0 T) (tr : List (Step P)) (us : List (Slot U)) (n a : ℕ) {Γ : (ℕ → P) → ℝ≥0∞} (hΓ : Measurable Γ) :
    Measurable (gop T N x0 tr us n a Γ) := by
  induction n generalizing a with
  | zero => exact hΓ
  | succ n ih =>
    show Measurable fun s => gop T N x0 tr us (n+1) a Γ s
    simp only [gop]
    refine Finset.measurable_sum _ fun i _ => Measurable.mul ?_ ?_
    · exact ((hT.meas tr n _ a i).comp (measurable_pi_apply (n+1))).ennreal_ofReal
    · exact (ih _).comp ((measurable_updateAt n).comp measurable_prodMk_right)

theorem gop_lintegral (hT : BackKernel lx N x0 T) (tr : List (Step P)) (us : List (Slot U)) {n k : ℕ} (hn : n ≤ k) (a : ℕ)
    {Γ : (ℕ → P) → ℝ≥0∞} (hΓ : Measurable Γ) {g : P → ℝ≥0∞} (hg : Measurable g) (κ : Kernel P P) (s : ℕ → P) :
    gop T N x0 tr us n a (fun s => ∫⁻ x', g x' * Γ (Function.update s (k+1) x') ∂(κ (s k))) s =
      ∫⁻ x', g x' * gop T N x0 tr us n a Γ (Function.update s (k+1) x') ∂(κ (s k)) := by
  induction n generalizing a s with
  | zero => rfl
  | succ n ih =>
    simp only [gop]
    have hm : ∀ i : Fin N, Measurable fun x' => g x' * gop T N x0 tr us n (ancOf tr n i) Γ
        (Function.update (Function.update s n (partAt x0 tr n i)) (k+1) x') := fun i =>
      hg.mul ((gop_measurable hT tr us n _ hΓ).comp ((measurable_updateAt (k+1)).comp measurable_prodMk_left))
    have e : ∀ x', g x' * ∑ i : Fin N, ENNReal.ofReal (T tr n (us.getD n .none) (Function.update s (k+1) x' (n+1)) a i) *
        gop T N x0 tr us n (ancOf tr n i) Γ (Function.update (Function.update s (k+1) x') n (partAt x0 tr n i)) =
        ∑ i : Fin N, ENNReal.ofReal (T tr n (us.getD n .none) (s (n+1)) a i) *
          (g x' * gop T N x0 tr us n (ancOf tr n i) Γ (Function.update (Function.update s n (partAt x0 tr n i)) (k+1) x')) := by
      intro x'
      rw [Finset.mul_sum]
      refine Finset.sum_congr rfl fun i _ => ?_
      rw [Function.update_of_ne (by omega), Function.update_comm (by omega)]
      ring
    simp only [e]
    rw [lintegral_finset_sum _ fun i _ => (hm i).const_mul _]
    refine Finset.sum_congr rfl fun i _ => ?_
    rw [lintegral_const_mul _ (hm i), ih (by omega), Function.update_of_ne (by omega)]

/-- The backward pass started from particle `i` of the last step. -/
noncomputable def gopE (T : List (Step P) → ℕ → Slot U → P → ℕ → ℕ → ℝ) (N : ℕ) (x0 : P) (tr : List (Step P)) (us : List (Slot U))
    (Γ : (ℕ → P) → ℝ≥0∞) (i : Fin N) : ℝ≥0∞ :=
  gop T N x0 tr us (tr.length - 1) (ancOf tr (tr.length - 1) i) Γ (Function.update (fun _ => x0) (tr.length - 1) (partAt x0 tr (tr.length - 1) i))

theorem gop_pathOp (hlx : ∀ k u x, Measurable (lx k u x)) (hN : 0 < N) (hT : BackKernel lx N x0 T)
    {M : ℕ → Slot U → Kernel P P} {vol : Measure P}
    (hM : ∀ k u x, M k u x = vol.withDensity fun x' => ENNReal.ofReal (exp (lx k u x x'))) :
    PathOp N M (gopE T N x0) (fun _ => x0) where
  init := by
    intro st x hx Γ i
    show Γ _ = _
    congr 2
    exact partAt_eq x0 rfl hx i
  step := by
    intro k u g tr us last x w Γ hg hΓ hk hus hgs hlast hx hw
    haveI : Nonempty (Fin N) := ⟨⟨0, hN⟩⟩
    have hs : 0 < ∑ j, exp (w j) := Finset.sum_pos (fun _ _ => exp_pos _) Finset.univ_nonempty
    have hlk := getLast_index hk hlast
    refine ⟨fun a x' => gop T N x0 tr (us ++ [u]) (k+1) a Γ (Function.update (fun _ => x0) (k+1) x'), fun a => ?_, ?_, ?_⟩
    · exact (gop_measurable hT tr _ (k+1) a hΓ).comp ((measurable_updateAt (k+1)).comp measurable_prodMk_left)
    · intro pa anc x' f hx' hanc i
      have hl : (tr ++ [(⟨pa, anc⟩ : Step P)]).length - 1 = k + 1 := by simp [hk]
      have hi : (tr ++ [(⟨pa, anc⟩ : Step P)])[k+1]? = some ⟨pa, anc⟩ := by rw [List.getElem?_append_right (by omega), hk]; simp
      unfold gopE
      rw [hl, partAt_eq x0 hi hx' i, ancAt_eq hi hanc i]
      have := gop_append hT (tr := tr) (l := [⟨pa, anc⟩]) (us := us ++ [u]) (us' := []) (n := k+1) (by omega) (by simp [hus]) (f i) Γ
        (Function.update (fun _ => x0) (k+1) (x' i))
      rwa [List.append_nil] at this
    · -- integrate the new state out
      set Q : Fin N → P → ℝ≥0∞ := fun j x' => gop T N x0 tr us k (ancOf tr k j) Γ (Function.update (Function.update (fun _ => x0) k (x j)) (k+1) x') with hQ
      have hQm : ∀ j, Measurable (Q j) := fun j =>
        (gop_measurable hT tr us k _ hΓ).comp ((measurable_updateAt (k+1)).comp measurable_prodMk_left)
      have hem : ∀ j, Measurable fun x' => ENNReal.ofReal (exp (lx k u (x j) x')) := fun j => (measurable_exp.comp (hlx k u (x j))).ennreal_ofReal
      have htm : ∀ a j : Fin N, Measurable fun x' => ENNReal.ofReal (T tr k u x' a j) := fun a j => (hT.meas tr k u a j).ennreal_ofReal
      have hgop : ∀ (a : Fin N) x', gop T N x0 tr (us ++ [u]) (k+1) a Γ (Function.update (fun _ => x0) (k+1) x') =
          ∑ j : Fin N, ENNReal.ofReal (T tr k u x' a j) * Q j x' := by
        intro a x'
        simp only [gop]
        refine Finset.sum_congr rfl fun j _ => ?_
        rw [partAt_eq x0 hlk hx j, Function.update_comm (by omega), Function.update_self]
        congr 1
        · rw [List.getD_eq_getElem?_getD, List.getElem?_append_right (by omega), hus]
          simp only [Nat.sub_self, List.getElem?_cons_zero, Option.getD_some]
        · have := gop_append hT (tr := tr) (l := []) (us := us) (us' := [u]) (n := k) (by omega) (by omega) (ancOf tr k j) Γ
            (Function.update (Function.update (fun _ => x0) k (x j)) (k+1) x')
          rwa [List.append_nil] at this
      have hI : ∀ i : Fin N, ∫⁻ x', g x' * gop T N x0 tr (us ++ [u]) (k+1) i Γ (Function.update (fun _ => x0) (k+1) x') ∂(M k u (x i)) =
          ∫⁻ x', ENNReal.ofReal (exp (lx k u (x i) x')) * (g x' * ∑ j : Fin N, ENNReal.ofReal (T tr k u x' i j) * Q j x') ∂vol := by
        intro i
        simp only [hgop]
        have hm : Measurable fun x' => g x' * ∑ j : Fin N, ENNReal.ofReal (T tr k u x' i j) * Q j x' :=
          hg.mul (Finset.measurable_sum _ fun j _ => (htm i j).mul (hQm j))
        rw [hM, lintegral_withDensity_eq_lintegral_mul _ (hem i) hm]
        rfl
      have hJ : ∀ i, gopE T N x0 tr us (fun s => ∫⁻ x', g x' * Γ (Function.update s (k+1) x') ∂(M k u (s k))) i =
          ∫⁻ x', ENNReal.ofReal (exp (lx k u (x i) x')) * (g x' * Q i x') ∂vol := by
        intro i
        unfold gopE
        rw [hk, Nat.add_sub_cancel, gop_lintegral hT tr us le_rfl _ hΓ hg, Function.update_self, partAt_eq x0 hlk hx i, hM]
        have hm : Measurable fun x' => g x' * Q i x' := hg.mul (hQm i)
        have := lintegral_withDensity_eq_lintegral_mul vol (hem i) hm
        exact this
      simp only [hI, hJ]
      have hm1 : ∀ i : Fin N, Measurable fun x' => ENNReal.ofReal (exp (lx k u (x i) x')) *
          (g x' * ∑ j : Fin N, ENNReal.ofReal (T tr k u x' i j) * Q j x') := fun i =>
        (hem i).mul (hg.mul (Finset.measurable_sum _ fun j _ => (htm i j).mul (hQm j)))
      have hm2 : ∀ i, Measurable fun x' => ENNReal.ofReal (exp (lx k u (x i) x')) * (g x' * Q i x') := fun i =>
        (hem i).mul (hg.mul (hQm i))
      simp only [← lintegral_const_mul _ (hm1 _), ← lintegral_const_mul _ (hm2 _)]
      rw [← lintegral_finset_sum _ fun i _ => (hm1 i).const_mul _, ← lintegral_finset_sum _ fun i _ => (hm2 i).const_mul _]
      refine lintegral_congr fun x' => ?_
      have hstat : ∀ j : Fin N, ∑ a : Fin N, ENNReal.ofReal (exp (w a) / ∑ j, exp (w j)) * (ENNReal.ofReal (exp (lx k u (x a) x')) *
          ENNReal.ofReal (T tr k u x' a j)) = ENNReal.ofReal (exp (w j) / ∑ j, exp (w j)) * ENNReal.ofReal (exp (lx k u (x j) x')) := by
        intro j
        have h1 := hT.stat tr k u x' j hgs (by omega)
        simp only [partAt_eq x0 hlk hx, wAt_eq hlk hw] at h1
        rw [← ENNReal.ofReal_mul (by positivity), show exp (w j) / (∑ j, exp (w j)) * exp (lx k u (x j) x') =
          (exp (w j) * exp (lx k u (x j) x')) / (∑ j, exp (w j)) by ring, ← h1, Finset.sum_div,
          ENNReal.ofReal_sum_of_nonneg fun a _ => ?_]
        · refine Finset.sum_congr rfl fun a _ => ?_
          rw [← ENNReal.ofReal_mul (exp_pos _).le, ← ENNReal.ofReal_mul (by positivity)]
          congr 1; ring
        · exact div_nonneg (mul_nonneg (by positivity) (hT.nonneg _ _ _ _ _ _ hgs (by omega))) hs.le
      have e : ∀ a : Fin N, ENNReal.ofReal (exp (w a) / ∑ j, exp (w j)) * (ENNReal.ofReal (exp (lx k u (x a) x')) *
          (g x' * ∑ j : Fin N, ENNReal.ofReal (T tr k u x' a j) * Q j x')) =
          ∑ j : Fin N, (ENNReal.ofReal (exp (w a) / ∑ j, exp (w j)) * (ENNReal.ofReal (exp (lx k u (x a) x')) *
            ENNReal.ofReal (T tr k u x' a j))) * (g x' * Q j x') := by
        intro a
        rw [Finset.mul_sum, Finset.mul_sum, Finset.mul_sum]
        exact Finset.sum_congr rfl fun j _ => by ring
      simp only [e]
      rw [Finset.sum_comm]
      refine Finset.sum_congr rfl fun j _ => ?_
      rw [← Finset.sum_mul, hstat]
      ring

end

/-! ### The two kernels -/

/-- Drawing from the smoothing weights: `bsi_full`, `bsi_rs`, `bsi_rsas`. -/
noncomputable def drawKernel (lx : ℕ → Slot U → P → P → ℝ) (N : ℕ) (x0 : P) (tr : List (Step P)) (n : ℕ) (u : Slot U) (x' : P) (_a i : ℕ) : ℝ :=
  bprob (lx n u) N x0 tr n x' i

/-- The log-weights of stored step `n`. -/
def wsAt (tr : List (Step P)) (n : ℕ) : List ℝ := (tr[n]?.map fun s => s.pa.w).getD []

/-- `R` rounds of the Metropolis-Hastings chain of `bsi_mcmc`, started in the ancestor. -/
noncomputable def mcmcKernel (lx : ℕ → Slot U → P → P → ℝ) (R : ℕ) (x0 : P) (tr : List (Step P)) (n : ℕ) (u : Slot U) (x' : P) (a i : ℕ) : ℝ :=
  chainT (wsAt tr n) (fun i _ => lx n u (partAt x0 tr n i) x') 0 i R a

theorem drawKernel_back [MeasurableSpace P] {lx : ℕ → Slot U → P → P → ℝ} (hlx : ∀ k u x, Measurable (lx k u x)) {N : ℕ} (hN : 0 < N) (x0 : P) :
    BackKernel lx N x0 (drawKernel lx N x0) where
  meas tr n u a i := bprob_measurable (hlx n u) N x0 tr n i
  nonneg tr n u x' a i _ _ := div_nonneg (by positivity) (Finset.sum_nonneg fun _ _ => by positivity)
  append tr l n u x' a i hn := by
    simp only [drawKernel, bprob, partAt_append x0 hn, wAt_append hn]
  stat tr n u x' i hgs hn := by
    haveI : Nonempty (Fin N) := ⟨⟨0, hN⟩⟩
    have hs : 0 < ∑ l : Fin N, exp (wAt tr n l) * exp (lx n u (partAt x0 tr n l) x') :=
      Finset.sum_pos (fun _ _ => by positivity) Finset.univ_nonempty
    simp only [drawKernel, bprob]
    rw [← Finset.sum_mul, mul_div_cancel₀ _ hs.ne']

theorem chainT_congr (w : List ℝ) {L L' : ℕ → ℕ → ℝ} {j j' : ℕ} (h : ∀ i, L i j = L' i j') (i R a : ℕ) : chainT w L j i R a = chainT w L' j' i R a := by
  induction R generalizing a with
  | zero => rfl
  | succ R ih => simp only [chainT, metropolis, h, ih]

theorem chainT_measurable [MeasurableSpace P] (w : List ℝ) {l : ℕ → P → ℝ} (hl : ∀ i, Measurable (l i)) (i R a : ℕ) :
    Measurable fun x' => chainT w (fun i _ => l i x') 0 i R a := by
  induction R generalizing a with
  | zero => exact measurable_const
  | succ R ih =>
    simp only [chainT, metropolis]
    refine Finset.measurable_sum _ fun k _ => Measurable.const_mul ?_ _
    have hm : Measurable fun x' => min 1 (exp (l k x' - l a x')) := measurable_const.min (measurable_exp.comp ((hl k).sub (hl a)))
    exact (hm.mul (ih k)).add ((measurable_const.sub hm).mul (ih a))

/-- The smoothing weights are invariant under the chain. -/
theorem chain_stat {w : List ℝ} (hw : w ≠ []) (L : ℕ → ℕ → ℝ) (j R : ℕ) {i : ℕ} (hi : i < w.length) :
    ∑ a ∈ Finset.range w.length, (backWeights w L j).getD a 0 * chainT w L j i R a = (backWeights w L j).getD i 0 := by
  -- a run to which the invariance theorem applies
  obtain ⟨N, hN⟩ : ∃ N, N = w.length := ⟨_, rfl⟩
  have hpos : 0 < N := by rw [hN]; exact List.length_pos_of_ne_nil hw
  have hB := (backWeights_weights hw L j).2
  have hnw := normWeights_weights hw
  have hlen : (normWeights w).length = N := by rw [normWeights_length, hN]
  have hp : ∀ l, l < N → prob (normWeights w) l = exp (w.getD l 0) / (w.map exp).sum := by
    intro l hl
    rw [prob, normWeights_sum hw, div_one]
    have hl' : l < w.length := by omega
    simp [normWeights, List.getD_eq_getElem?_getD, hl']
  have hb : ∀ l, l < N → (backWeights w L j).getD l 0 = exp (w.getD l 0) * exp (L l j) := by
    intro l hl
    have hl' : l < w.length := by omega
    rw [backWeights_getD _ _ _ hl']
    simp [List.getD_eq_getElem?_getD, hl']
  have hsumP : ∑ l ∈ Finset.range N, prob (normWeights w) l = 1 := by
    have e1 : ∀ l ∈ Finset.range N, prob (normWeights w) l = (normWeights w).getD l 0 := by
      intro l _
      rw [prob, normWeights_sum hw, div_one]
    rw [Finset.sum_congr rfl e1, ← hlen, sum_range_getD, normWeights_sum hw]
  have hflow : ∀ x y, x < N → y < N → (backWeights w L j).getD x 0 * (prob (normWeights w) y * metropolis L j x y) =
      (backWeights w L j).getD y 0 * (prob (normWeights w) x * metropolis L j y x) := by
    intro x y hx hy
    have hm : exp (L x j) * metropolis L j x y = exp (L y j) * metropolis L j y x := by
      unfold metropolis
      rw [mul_min_of_nonneg _ _ (exp_pos _).le, mul_min_of_nonneg _ _ (exp_pos _).le, ← exp_add, ← exp_add, mul_one,
        mul_one, add_sub_cancel, add_sub_cancel, min_comm]
    rw [hb x hx, hb y hy, hp x hx, hp y hy]
    linear_combination (exp (w.getD x 0) * exp (w.getD y 0) / (w.map exp).sum) * hm
  rw [← hN] at hi ⊢
  induction R with
  | zero =>
    simp only [chainT, mul_ite, mul_one, mul_zero]
    rw [Finset.sum_ite_eq', if_pos (Finset.mem_range.mpr hi)]
  | succ R ih =>
    refine Eq.trans ?_ ih
    simp only [chainT, hlen]
    set T := chainT w L j i R with hT
    set p := prob (normWeights w) with hp'
    set t : ℕ → ℝ := fun a => (backWeights w L j).getD a 0 with ht
    have e2 : ∀ i0 ∈ Finset.range N, t i0 * ∑ l ∈ Finset.range N, p l *
        (metropolis L j i0 l * T l + (1 - metropolis L j i0 l) * T i0) =
        t i0 * T i0 + ((∑ l ∈ Finset.range N, t i0 * (p l * metropolis L j i0 l) * T l) -
          ∑ l ∈ Finset.range N, t i0 * (p l * metropolis L j i0 l) * T i0) := by
      intro i0 _
      have : t i0 * T i0 = ∑ l ∈ Finset.range N, p l * (t i0 * T i0) := by
        rw [← Finset.sum_mul, hsumP, one_mul]
      rw [this, ← Finset.sum_sub_distrib, ← Finset.sum_add_distrib, Finset.mul_sum]
      apply Finset.sum_congr rfl
      intro l _
      ring
    show ∑ a ∈ Finset.range N, t a * _ = ∑ a ∈ Finset.range N, t a * _
    rw [Finset.sum_congr rfl e2, Finset.sum_add_distrib, Finset.sum_sub_distrib]
    have e3 : ∑ i0 ∈ Finset.range N, ∑ l ∈ Finset.range N, t i0 * (p l * metropolis L j i0 l) * T l =
        ∑ i0 ∈ Finset.range N, ∑ l ∈ Finset.range N, t i0 * (p l * metropolis L j i0 l) * T i0 := by
      rw [Finset.sum_comm]
      apply Finset.sum_congr rfl
      intro x hx
      apply Finset.sum_congr rfl
      intro y hy
      rw [hflow y x (Finset.mem_range.mp hy) (Finset.mem_range.mp hx)]
    rw [e3]
    ring

theorem wsAt_eq {N : ℕ} {tr : List (Step P)} {n : ℕ} (hgs : ∀ st ∈ tr, GoodStep N st) (hn : n < tr.length) :
    (wsAt tr n).length = N ∧ (∀ l : ℕ, (wsAt tr n).getD l 0 = wAt tr n l) := by
  have hs := hgs tr[n] (List.getElem_mem _)
  have e : wsAt tr n = tr[n].pa.w := by simp [wsAt, hn]
  exact ⟨by rw [e]; exact hs.pa.w_len, fun l => rfl⟩

theorem mcmcKernel_back [MeasurableSpace P] {lx : ℕ → Slot U → P → P → ℝ} (hlx : ∀ k u x, Measurable (lx k u x)) {N : ℕ} (hN : 0 < N) (x0 : P) (R : ℕ) :
    BackKernel lx N x0 (mcmcKernel lx R x0) where
  meas tr n u a i := chainT_measurable _ (fun i => hlx n u (partAt x0 tr n i)) i R a
  nonneg tr n u x' a i hgs hn := by
    obtain ⟨h1, -⟩ := wsAt_eq hgs hn
    have hne : wsAt tr n ≠ [] := by intro h; rw [h] at h1; simp at h1; omega
    exact chainT_nonneg (normWeights_weights hne) _ _ _ _ _
  append tr l n u x' a i hn := by
    simp only [mcmcKernel, partAt_append x0 hn, wsAt, List.getElem?_append_left hn]
  stat tr n u x' i hgs hn := by
    obtain ⟨h1, h2⟩ := wsAt_eq hgs hn
    have hne : wsAt tr n ≠ [] := by intro h; rw [h] at h1; simp at h1; omega
    set L : ℕ → ℕ → ℝ := fun i _ => lx n u (partAt x0 tr n i) x' with hL
    have hb : ∀ l : Fin N, (backWeights (wsAt tr n) L 0).getD l 0 = exp (wAt tr n l) * exp (lx n u (partAt x0 tr n l) x') := by
      intro l
      have hl' : (l : ℕ) < (wsAt tr n).length := by rw [h1]; exact l.2
      rw [backWeights_getD _ _ _ hl', ← h2, List.getD_eq_getElem?_getD, List.getElem?_eq_getElem hl', Option.getD_some]
    have := chain_stat hne L 0 R (i := i) (by rw [h1]; exact i.2)
    rw [h1, Finset.sum_range] at this
    simp only [hb] at this
    exact this

end PyPE

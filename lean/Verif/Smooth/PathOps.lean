import Verif.Smooth.Paths

/-!
# C92, C93: the two smoothing operators

Backward simulation (`B`) and following the stored ancestors (`C`), as functionals of the stored run.
-/

namespace PyPE
open Real Spec MeasureTheory ProbabilityTheory
open scoped ENNReal

variable {P U Y V Ω : Type}

/-- Particle `i` of stored step `n`. -/
def partAt (x0 : P) (tr : List (Step P)) (n i : ℕ) : P := ((tr[n]?.map fun s => s.pa.part).getD []).getD i x0

/-- Log-weight `i` of stored step `n`. -/
def wAt (tr : List (Step P)) (n i : ℕ) : ℝ := ((tr[n]?.map fun s => s.pa.w).getD []).getD i 0

/-- Ancestor `i` of stored step `n`. -/
def ancOf (tr : List (Step P)) (n i : ℕ) : ℕ := ((tr[n]?.map fun s => s.ancestors).getD []).getD i 0

theorem partAt_append (x0 : P) {tr l : List (Step P)} {n : ℕ} (h : n < tr.length) (i : ℕ) : partAt x0 (tr ++ l) n i = partAt x0 tr n i := by
  simp only [partAt, List.getElem?_append_left h]

theorem wAt_append {tr l : List (Step P)} {n : ℕ} (h : n < tr.length) (i : ℕ) : wAt (tr ++ l) n i = wAt tr n i := by
  simp only [wAt, List.getElem?_append_left h]

theorem ancAt_append {tr l : List (Step P)} {n : ℕ} (h : n < tr.length) (i : ℕ) : ancOf (tr ++ l) n i = ancOf tr n i := by
  simp only [ancOf, List.getElem?_append_left h]

theorem partAt_eq (x0 : P) {tr : List (Step P)} {n N : ℕ} {st : Step P} (h : tr[n]? = some st) {x : Fin N → P}
    (hx : st.pa.part = List.ofFn x) (i : Fin N) : partAt x0 tr n i = x i := by
  simp [partAt, h, hx, List.getD_eq_getElem?_getD]

theorem wAt_eq {tr : List (Step P)} {n N : ℕ} {st : Step P} (h : tr[n]? = some st) {w : Fin N → ℝ}
    (hw : st.pa.w = List.ofFn w) (i : Fin N) : wAt tr n i = w i := by
  simp [wAt, h, hw, List.getD_eq_getElem?_getD]

theorem ancAt_eq {tr : List (Step P)} {n N : ℕ} {st : Step P} (h : tr[n]? = some st) {f : Fin N → ℕ}
    (hf : st.ancestors = List.ofFn f) (i : Fin N) : ancOf tr n i = f i := by
  simp [ancOf, h, hf, List.getD_eq_getElem?_getD]

/-- The probability with which backward simulation picks particle `i` of step `n` when the path is at `x'` afterwards. -/
noncomputable def bprob (lx : P → P → ℝ) (N : ℕ) (x0 : P) (tr : List (Step P)) (n : ℕ) (x' : P) (i : ℕ) : ℝ :=
  exp (wAt tr n i) * exp (lx (partAt x0 tr n i) x') / ∑ l : Fin N, exp (wAt tr n l) * exp (lx (partAt x0 tr n l) x')

/-- Backward simulation through the steps `n-1, …, 0`. -/
noncomputable def bop (lx : ℕ → Slot U → P → P → ℝ) (N : ℕ) (x0 : P) (tr : List (Step P)) (us : List (Slot U)) :
    ℕ → ((ℕ → P) → ℝ≥0∞) → (ℕ → P) → ℝ≥0∞
  | 0, Γ, s => Γ s
  | n + 1, Γ, s => ∑ i : Fin N, ENNReal.ofReal (bprob (lx n (us.getD n .none)) N x0 tr n (s (n+1)) i) *
      bop lx N x0 tr us n Γ (Function.update s n (partAt x0 tr n i))

theorem bop_append (lx : ℕ → Slot U → P → P → ℝ) (N : ℕ) (x0 : P) {tr l : List (Step P)} {us us' : List (Slot U)} {n : ℕ}
    (hn : n ≤ tr.length) (hu : n ≤ us.length) (Γ : (ℕ → P) → ℝ≥0∞) (s : ℕ → P) :
    bop lx N x0 (tr ++ l) (us ++ us') n Γ s = bop lx N x0 tr us n Γ s := by
  induction n generalizing s with
  | zero => rfl
  | succ n ih =>
    simp only [bop]
    refine Finset.sum_congr rfl fun i _ => ?_
    rw [ih (by omega) (by omega), partAt_append x0 (by omega)]
    congr 2
    simp only [bprob, partAt_append x0 (show n < tr.length by omega), wAt_append (show n < tr.length by omega)]
    rw [List.getD_eq_getElem?_getD, List.getD_eq_getElem?_getD, List.getElem?_append_left (by omega)]

theorem bprob_measurable [MeasurableSpace P] {lx : P → P → ℝ} (hlx : ∀ x, Measurable (lx x)) (N : ℕ) (x0 : P) (tr : List (Step P)) (n i : ℕ) :
    Measurable fun x' => bprob lx N x0 tr n x' i := by
  unfold bprob
  refine Measurable.div ?_ (Finset.measurable_sum _ fun l _ => ?_)
  · exact (measurable_exp.comp (hlx _)).const_mul _
  · exact (measurable_exp.comp (hlx _)).const_mul _

theorem bop_measurable [MeasurableSpace P] {lx : ℕ → Slot U → P → P → ℝ} (hlx : ∀ k u x, Measurable (lx k u x)) (N : ℕ) (x0 : P)
    (tr : List (Step P)) (us : List (Slot U)) (n : ℕ) {Γ : (ℕ → P) → ℝ≥0∞} (hΓ : Measurable Γ) :
    Measurable (bop lx N x0 tr us n Γ) := by
  induction n with
  | zero => exact hΓ
  | succ n ih =>
    show Measurable fun s => bop lx N x0 tr us (n+1) Γ s
    simp only [bop]
    refine Finset.measurable_sum _ fun i _ => Measurable.mul ?_ ?_
    · exact ((bprob_measurable (hlx n _) N x0 tr n i).comp (measurable_pi_apply (n+1))).ennreal_ofReal
    · exact ih.comp ((measurable_updateAt n).comp measurable_prodMk_right)

theorem bop_lintegral [MeasurableSpace P] {lx : ℕ → Slot U → P → P → ℝ} (hlx : ∀ k u x, Measurable (lx k u x)) (N : ℕ) (x0 : P)
    (tr : List (Step P)) (us : List (Slot U)) {n k : ℕ} (hn : n ≤ k) {Γ : (ℕ → P) → ℝ≥0∞} (hΓ : Measurable Γ) {g : P → ℝ≥0∞}
    (hg : Measurable g) (κ : Kernel P P) (s : ℕ → P) :
    bop lx N x0 tr us n (fun s => ∫⁻ x', g x' * Γ (Function.update s (k+1) x') ∂(κ (s k))) s =
      ∫⁻ x', g x' * bop lx N x0 tr us n Γ (Function.update s (k+1) x') ∂(κ (s k)) := by
  induction n generalizing s with
  | zero => rfl
  | succ n ih =>
    simp only [bop]
    have hm : ∀ i : Fin N, Measurable fun x' => g x' * bop lx N x0 tr us n Γ
        (Function.update (Function.update s n (partAt x0 tr n i)) (k+1) x') := fun i =>
      hg.mul ((bop_measurable hlx N x0 tr us n hΓ).comp ((measurable_updateAt (k+1)).comp measurable_prodMk_left))
    have e : ∀ x', g x' * ∑ i : Fin N, ENNReal.ofReal (bprob (lx n (us.getD n .none)) N x0 tr n (Function.update s (k+1) x' (n+1)) i) *
        bop lx N x0 tr us n Γ (Function.update (Function.update s (k+1) x') n (partAt x0 tr n i)) =
        ∑ i : Fin N, ENNReal.ofReal (bprob (lx n (us.getD n .none)) N x0 tr n (s (n+1)) i) *
          (g x' * bop lx N x0 tr us n Γ (Function.update (Function.update s n (partAt x0 tr n i)) (k+1) x')) := by
      intro x'
      rw [Finset.mul_sum]
      refine Finset.sum_congr rfl fun i _ => ?_
      rw [Function.update_of_ne (by omega), Function.update_comm (by omega)]
      ring
    simp only [e]
    rw [lintegral_finset_sum _ fun i _ => (hm i).const_mul _]
    refine Finset.sum_congr rfl fun i _ => ?_
    rw [lintegral_const_mul _ (hm i), ih (by omega), Function.update_of_ne (by omega)]

theorem getLast_index {tr : List (Step P)} {last : Step P} {k : ℕ} (hk : tr.length = k + 1) (hl : tr.getLast? = some last) :
    tr[k]? = some last := by
  rw [List.getLast?_eq_getElem?, hk] at hl; exact hl

/-- Backward simulation started from particle `i` of the last step. -/
noncomputable def bopE (lx : ℕ → Slot U → P → P → ℝ) (N : ℕ) (x0 : P) (tr : List (Step P)) (us : List (Slot U)) (Γ : (ℕ → P) → ℝ≥0∞)
    (i : Fin N) : ℝ≥0∞ :=
  bop lx N x0 tr us (tr.length - 1) Γ (Function.update (fun _ => x0) (tr.length - 1) (partAt x0 tr (tr.length - 1) i))

theorem bop_pathOp [MeasurableSpace P] {lx : ℕ → Slot U → P → P → ℝ} (hlx : ∀ k u x, Measurable (lx k u x)) {N : ℕ} (hN : 0 < N) (x0 : P)
    {M : ℕ → Slot U → Kernel P P} {vol : Measure P}
    (hM : ∀ k u x, M k u x = vol.withDensity fun x' => ENNReal.ofReal (exp (lx k u x x'))) :
    PathOp N M (bopE lx N x0) (fun _ => x0) where
  init := by
    intro st x hx Γ i
    show Γ _ = _
    congr 2
    exact partAt_eq x0 rfl hx i
  step := by
    intro k u g tr us last x w Γ hg hΓ hk hus _ hlast hx hw
    haveI : Nonempty (Fin N) := ⟨⟨0, hN⟩⟩
    have hs : 0 < ∑ j, exp (w j) := Finset.sum_pos (fun _ _ => exp_pos _) Finset.univ_nonempty
    have hlk := getLast_index hk hlast
    refine ⟨fun _ x' => bop lx N x0 tr (us ++ [u]) (k+1) Γ (Function.update (fun _ => x0) (k+1) x'), fun _ => ?_, ?_, ?_⟩
    · exact (bop_measurable hlx N x0 tr _ (k+1) hΓ).comp ((measurable_updateAt (k+1)).comp measurable_prodMk_left)
    · intro pa anc x' f hx' _ i
      have hl : (tr ++ [(⟨pa, anc⟩ : Step P)]).length - 1 = k + 1 := by simp [hk]
      unfold bopE
      rw [hl, partAt_eq x0 (st := ⟨pa, anc⟩) (by rw [List.getElem?_append_right (by omega), hk]; simp) hx' i]
      have := bop_append lx N x0 (tr := tr) (l := [⟨pa, anc⟩]) (us := us ++ [u]) (us' := []) (n := k+1) (by omega) (by simp [hus]) Γ
        (Function.update (fun _ => x0) (k+1) (x' i))
      rwa [List.append_nil] at this
    · -- integrate the new state out
      set T : Fin N → P → ℝ≥0∞ := fun j x' => bop lx N x0 tr us k Γ (Function.update (Function.update (fun _ => x0) k (x j)) (k+1) x') with hT
      have hTm : ∀ j, Measurable (T j) := fun j =>
        (bop_measurable hlx N x0 tr us k hΓ).comp ((measurable_updateAt (k+1)).comp measurable_prodMk_left)
      have hem : ∀ j, Measurable fun x' => ENNReal.ofReal (exp (lx k u (x j) x')) := fun j => (measurable_exp.comp (hlx k u (x j))).ennreal_ofReal
      set S : P → ℝ := fun x' => ∑ l, exp (w l) * exp (lx k u (x l) x') with hSd
      have hSpos : ∀ x', 0 < S x' := fun x' => Finset.sum_pos (fun _ _ => mul_pos (exp_pos _) (exp_pos _)) Finset.univ_nonempty
      set b : Fin N → P → ℝ := fun j x' => exp (w j) * exp (lx k u (x j) x') / S x' with hb
      have hbm : ∀ j, Measurable fun x' => ENNReal.ofReal (b j x') := fun j => by
        refine Measurable.ennreal_ofReal (Measurable.div ((measurable_exp.comp (hlx k u (x j))).const_mul _) ?_)
        exact Finset.measurable_sum _ fun l _ => (measurable_exp.comp (hlx k u (x l))).const_mul _
      have hbop : ∀ x', bop lx N x0 tr (us ++ [u]) (k+1) Γ (Function.update (fun _ => x0) (k+1) x') =
          ∑ j, ENNReal.ofReal (b j x') * T j x' := by
        intro x'
        simp only [bop]
        refine Finset.sum_congr rfl fun j _ => ?_
        rw [partAt_eq x0 hlk hx j, Function.update_comm (by omega), Function.update_self]
        congr 1
        · congr 1
          rw [hb]
          simp only [bprob]
          rw [partAt_eq x0 hlk hx j, wAt_eq hlk hw j, List.getD_eq_getElem?_getD, List.getElem?_append_right (by omega), hus]
          simp only [Nat.sub_self, List.getElem?_cons_zero, Option.getD_some, hSd]
          congr 1
          exact Finset.sum_congr rfl fun l _ => by rw [partAt_eq x0 hlk hx l, wAt_eq hlk hw l]
        · have := bop_append lx N x0 (tr := tr) (l := []) (us := us) (us' := [u]) (n := k) (by omega) (by omega) Γ
            (Function.update (Function.update (fun _ => x0) k (x j)) (k+1) x')
          rwa [List.append_nil] at this
      have hI : ∀ i, ∫⁻ x', g x' * bop lx N x0 tr (us ++ [u]) (k+1) Γ (Function.update (fun _ => x0) (k+1) x') ∂(M k u (x i)) =
          ∫⁻ x', ENNReal.ofReal (exp (lx k u (x i) x')) * (g x' * ∑ j, ENNReal.ofReal (b j x') * T j x') ∂vol := by
        intro i
        simp only [hbop]
        have hm : Measurable fun x' => g x' * ∑ j, ENNReal.ofReal (b j x') * T j x' :=
          hg.mul (Finset.measurable_sum _ fun j _ => (hbm j).mul (hTm j))
        rw [hM, lintegral_withDensity_eq_lintegral_mul _ (hem i) hm]
        rfl
      have hJ : ∀ i, bopE lx N x0 tr us (fun s => ∫⁻ x', g x' * Γ (Function.update s (k+1) x') ∂(M k u (s k))) i =
          ∫⁻ x', ENNReal.ofReal (exp (lx k u (x i) x')) * (g x' * T i x') ∂vol := by
        intro i
        unfold bopE
        rw [hk, Nat.add_sub_cancel, bop_lintegral hlx N x0 tr us le_rfl hΓ hg, Function.update_self, partAt_eq x0 hlk hx i, hM]
        have hm : Measurable fun x' => g x' * T i x' := hg.mul (hTm i)
        have := lintegral_withDensity_eq_lintegral_mul vol (hem i) hm
        exact this
      simp only [hI, hJ]
      have hm1 : ∀ i, Measurable fun x' => ENNReal.ofReal (exp (lx k u (x i) x')) * (g x' * ∑ j, ENNReal.ofReal (b j x') * T j x') := fun i =>
        (hem i).mul (hg.mul (Finset.measurable_sum _ fun j _ => (hbm j).mul (hTm j)))
      have hm2 : ∀ i, Measurable fun x' => ENNReal.ofReal (exp (lx k u (x i) x')) * (g x' * T i x') := fun i =>
        (hem i).mul (hg.mul (hTm i))
      simp only [← lintegral_const_mul _ (hm1 _), ← lintegral_const_mul _ (hm2 _)]
      rw [← lintegral_finset_sum _ fun i _ => (hm1 i).const_mul _, ← lintegral_finset_sum _ fun i _ => (hm2 i).const_mul _]
      refine lintegral_congr fun x' => ?_
      have hA : ∑ i, ENNReal.ofReal (exp (w i) / ∑ j, exp (w j)) * ENNReal.ofReal (exp (lx k u (x i) x')) =
          ENNReal.ofReal (S x' / ∑ j, exp (w j)) := by
        rw [hSd, Finset.sum_div, ENNReal.ofReal_sum_of_nonneg fun i _ => by positivity]
        refine Finset.sum_congr rfl fun i _ => ?_
        rw [← ENNReal.ofReal_mul (by positivity)]
        congr 1; ring
      simp only [← mul_assoc]
      rw [← Finset.sum_mul, ← Finset.sum_mul, hA, Finset.mul_sum]
      refine Finset.sum_congr rfl fun j _ => ?_
      rw [mul_comm (ENNReal.ofReal (S x' / _)), mul_assoc, ← mul_assoc (ENNReal.ofReal (S x' / _)), ← ENNReal.ofReal_mul (div_nonneg (hSpos x').le hs.le),
        ← ENNReal.ofReal_mul (by positivity), show (S x' / ∑ j, exp (w j)) * b j x' = exp (w j) / (∑ j, exp (w j)) * exp (lx k u (x j) x') by
          rw [hb]
          have h1 := (hSpos x').ne'
          have h2 := hs.ne'
          simp only
          field_simp]
      ring

/-! ### Following the ancestors -/

/-- The path of the ancestors of particle `i` of step `n`. -/
def cop (x0 : P) (tr : List (Step P)) : ℕ → ℕ → ((ℕ → P) → ℝ≥0∞) → (ℕ → P) → ℝ≥0∞
  | 0, i, Γ, s => Γ (Function.update s 0 (partAt x0 tr 0 i))
  | n + 1, i, Γ, s => cop x0 tr n (ancOf tr (n+1) i) Γ (Function.update s (n+1) (partAt x0 tr (n+1) i))

theorem cop_append (x0 : P) {tr l : List (Step P)} {n : ℕ} (hn : n < tr.length) (i : ℕ) (Γ : (ℕ → P) → ℝ≥0∞) (s : ℕ → P) :
    cop x0 (tr ++ l) n i Γ s = cop x0 tr n i Γ s := by
  induction n generalizing i s with
  | zero => simp only [cop, partAt_append x0 hn]
  | succ n ih => simp only [cop, partAt_append x0 hn, ancAt_append hn, ih (show n < tr.length by omega)]

theorem cop_measurable [MeasurableSpace P] (x0 : P) (tr : List (Step P)) (n i : ℕ) {Γ : (ℕ → P) → ℝ≥0∞} (hΓ : Measurable Γ) :
    Measurable (cop x0 tr n i Γ) := by
  induction n generalizing i with
  | zero => exact hΓ.comp ((measurable_updateAt 0).comp measurable_prodMk_right)
  | succ n ih => exact (ih _).comp ((measurable_updateAt (n+1)).comp measurable_prodMk_right)

theorem cop_lintegral [MeasurableSpace P] (x0 : P) (tr : List (Step P)) {n k : ℕ} (hn : n < k) (i : ℕ) (Γ : (ℕ → P) → ℝ≥0∞) (g : P → ℝ≥0∞)
    (κ : Kernel P P) (s : ℕ → P) :
    cop x0 tr n i (fun s => ∫⁻ x', g x' * Γ (Function.update s (k+1) x') ∂(κ (s k))) s =
      ∫⁻ x', g x' * cop x0 tr n i Γ (Function.update s (k+1) x') ∂(κ (s k)) := by
  induction n generalizing i s with
  | zero =>
    simp only [cop]
    rw [Function.update_of_ne (by omega)]
    refine lintegral_congr fun x' => ?_
    rw [Function.update_comm (by omega)]
  | succ n ih =>
    simp only [cop]
    rw [ih (by omega), Function.update_of_ne (by omega)]
    refine lintegral_congr fun x' => ?_
    rw [Function.update_comm (by omega)]

/-- The ancestors of particle `i` of the last step. -/
def copE (N : ℕ) (x0 : P) (tr : List (Step P)) (_us : List (Slot U)) (Γ : (ℕ → P) → ℝ≥0∞) (i : Fin N) : ℝ≥0∞ :=
  cop x0 tr (tr.length - 1) i Γ fun _ => x0

theorem cop_pathOp [MeasurableSpace P] {N : ℕ} (x0 : P) (M : ℕ → Slot U → Kernel P P) :
    PathOp N M (copE (U := U) N x0) (fun _ => x0) where
  init := by
    intro st x hx Γ i
    show Γ _ = _
    congr 2
    exact partAt_eq x0 rfl hx i
  step := by
    intro k u g tr us last x w Γ hg hΓ hk hus _ hlast hx hw
    have hlk := getLast_index hk hlast
    refine ⟨fun i x' => cop x0 tr k i Γ (Function.update (fun _ => x0) (k+1) x'), fun i => ?_, ?_, ?_⟩
    · exact (cop_measurable x0 tr k i hΓ).comp ((measurable_updateAt (k+1)).comp measurable_prodMk_left)
    · intro pa anc x' f hx' hanc i
      have hl : (tr ++ [(⟨pa, anc⟩ : Step P)]).length - 1 = k + 1 := by simp [hk]
      have hi : (tr ++ [(⟨pa, anc⟩ : Step P)])[k+1]? = some ⟨pa, anc⟩ := by rw [List.getElem?_append_right (by omega), hk]; simp
      unfold copE
      rw [hl]
      simp only [cop]
      rw [partAt_eq x0 hi hx' i, ancAt_eq hi hanc i, cop_append x0 (by omega)]
    · refine Finset.sum_congr rfl fun i _ => ?_
      congr 1
      unfold copE
      rw [hk, Nat.add_sub_cancel]
      rcases k with _ | k
      · simp only [cop]
        rw [Function.update_self, partAt_eq x0 hlk hx i]
        refine lintegral_congr fun x' => ?_
        rw [Function.update_comm (by omega)]
      · simp only [cop]
        rw [cop_lintegral x0 tr (by omega), Function.update_self, partAt_eq x0 hlk hx i]
        refine lintegral_congr fun x' => ?_
        rw [Function.update_comm (by omega)]

end PyPE

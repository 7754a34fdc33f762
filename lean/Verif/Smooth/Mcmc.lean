import Verif.Smooth.Exact

/-!
# C32: backward simulation by Metropolis-Hastings (`bsi_mcmc`)
-/

namespace PyPE
open Real Spec MeasureTheory
open scoped Classical

variable {P U Y V Ω : Type}
variable {S : SmoothCallbacks P U Y V Ω} {pa : PA P} {ptraj : List (SStep P)} {pind : List ℕ}
  {fut : List (SStep P)} {D : SData U Y} {cur N F : ℕ} {L : ℕ → ℕ → ℝ}

/-- The Metropolis acceptance probability of moving trajectory `j` from particle `i0` to `i`. -/
noncomputable def Spec.metropolis (L : ℕ → ℕ → ℝ) (j i0 i : ℕ) : ℝ := min 1 (exp (L i j - L i0 j))

/-- One iteration: every entry takes its proposal iff its uniform is below the Metropolis probability. -/
theorem mcmcRound_spec (h : BackStep S pa ptraj pind fut D cur N F L) {find ind : List ℕ} (hF : ∀ j ∈ find, j < F) (hl : ind.length = find.length)
    (hlt : ∀ i ∈ ind, i < N) {a : Attempt} (hr : Unit01 a.r) :
    ∃ q ind', sample (normWeights pa.w) find.length a.r = .ok q ∧ q.length = find.length ∧ (∀ i ∈ q, i < N) ∧
      mcmcRound S pa ptraj pind fut find D cur (normWeights pa.w) a (ind, List.zipWith L ind find) =
        .ok (ind', List.zipWith L ind' find) ∧
      ind'.length = find.length ∧ (∀ i ∈ ind', i < N) ∧
      ∀ k i0 i j : ℕ, ind[k]? = some i0 → (a.sh.app q)[k]? = some i → find[k]? = some j →
        ind'[k]? = some (if a.u k < metropolis L j i0 i then i else i0) := by
  have hne := h.wf.w_ne h.pos
  obtain ⟨q, hq, hql, hqr⟩ := C01_sample_length_range (normWeights_weights hne) find.length hr
  rw [normWeights_length, h.wf.w_len] at hqr
  set prop := a.sh.app q with hprop
  have hpl : prop.length = find.length := by rw [hprop, Shuffle.app_length, hql]
  have hpr : ∀ i ∈ prop, i < N := fun i hi => hqr i (Shuffle.app_mem _ _ hi)
  obtain ⟨part, hpart⟩ := fancy_ok (a := pa.part) (ind := prop) (by rw [h.wf.part_len]; exact hpr)
  obtain ⟨pi, hpi'⟩ := fancy_ok (a := pind) (ind := prop) (by rw [h.anc]; exact hpr)
  have hcall := h.dens prop find part pi hpl hF hpart hpi'
  set diff := List.zipWith (· - ·) (List.zipWith L prop find) (List.zipWith L ind find) with hdiff
  have hdl : diff.length = find.length := by simp [hdiff, hpl, hl]
  set acc := ((diff.map fun x => if 0 < x then 0 else x).zipIdx.map fun dk => decide (a.u dk.2 < exp dk.1)) with hacc
  have hal : acc.length = find.length := by simp [hacc, hdl]
  set ind' := List.zipWith (fun (b : Bool) (xy : ℕ × ℕ) => if b then xy.1 else xy.2) acc (prop.zip ind) with hind'
  have hil : ind'.length = find.length := by simp [hind', hal, hpl, hl]
  have hmin : ∀ x : ℝ, exp (if 0 < x then 0 else x) = min 1 (exp x) := by
    intro x
    by_cases hx : 0 < x
    · rw [if_pos hx, exp_zero, min_eq_left (by rw [one_le_exp_iff]; exact hx.le)]
    · rw [if_neg hx, min_eq_right (by rw [exp_le_one_iff]; exact not_lt.mp hx)]
  have haccget : ∀ k i0 i j : ℕ, ind[k]? = some i0 → prop[k]? = some i → find[k]? = some j →
      acc[k]? = some (decide (a.u k < metropolis L j i0 i)) := by
    intro k i0 i j h0 h1 h2
    simp only [hacc, hdiff, List.getElem?_map, List.getElem?_zipIdx, List.getElem?_zipWith, h0, h1, h2,
      Option.map_some, Nat.zero_add, hmin, metropolis]
    congr
  have hget : ∀ k i0 i j : ℕ, ind[k]? = some i0 → prop[k]? = some i → find[k]? = some j →
      ind'[k]? = some (if a.u k < metropolis L j i0 i then i else i0) := by
    intro k i0 i j h0 h1 h2
    have hz : (prop.zip ind)[k]? = some (i, i0) := List.getElem?_zip_eq_some.mpr ⟨h1, h0⟩
    simp only [hind', List.getElem?_zipWith, haccget k i0 i j h0 h1 h2, hz]
    congr 1
    by_cases hc : a.u k < metropolis L j i0 i <;> simp [hc]
  have hex : ∀ k, k < find.length → ∃ i0 i j : ℕ, ind[k]? = some i0 ∧ prop[k]? = some i ∧ find[k]? = some j := by
    intro k hk
    exact ⟨ind[k], prop[k], find[k], by simp [hl, hk], by simp [hpl, hk], by simp [hk]⟩
  have hcur : List.zipWith (fun (b : Bool) (xy : ℝ × ℝ) => if b then xy.1 else xy.2) acc
      ((List.zipWith L prop find).zip (List.zipWith L ind find)) = List.zipWith L ind' find := by
    apply List.ext_getElem?
    intro k
    by_cases hk : k < find.length
    · obtain ⟨i0, i, j, h0, h1, h2⟩ := hex k hk
      have hz : ((List.zipWith L prop find).zip (List.zipWith L ind find))[k]? = some (L i j, L i0 j) := by
        apply List.getElem?_zip_eq_some.mpr
        constructor <;> simp [List.getElem?_zipWith, h0, h1, h2]
      rw [List.getElem?_zipWith, List.getElem?_zipWith, hget k i0 i j h0 h1 h2, h2, haccget k i0 i j h0 h1 h2, hz]
      by_cases hc : a.u k < metropolis L j i0 i <;> simp [hc]
    · rw [List.getElem?_eq_none (by simp [hal, hpl, hl]; omega), List.getElem?_eq_none (by simp [hil]; omega)]
  refine ⟨q, ind', hq, hql, hqr, ?_, hil, ?_, hget⟩
  · simp only [mcmcRound, hq, ok_bind, ← hprop, hpart, hpi', hcall]
    rw [npSub_ok (by simp [hpl, hl])]
    simp only [ok_bind, ← hdiff]
    rw [if_pos ⟨hdl, hl⟩]
    simp only [← hacc, ← hind', hcur]
    rfl
  · intro x hx
    obtain ⟨k, hk⟩ := List.mem_iff_getElem?.mp hx
    have hkl : k < find.length := by rw [← hil]; exact (List.getElem?_eq_some_iff.mp hk).1
    obtain ⟨i0, i, j, h0, h1, h2⟩ := hex k hkl
    rw [hget k i0 i j h0 h1 h2] at hk
    simp only [Option.some.injEq] at hk
    rw [← hk]
    split
    · exact hpr i (List.mem_of_getElem? h1)
    · exact hlt i0 (List.mem_of_getElem? h0)

/-- The chain on index arrays. -/
noncomputable def mcmcChain (S : SmoothCallbacks P U Y V Ω) (pa : PA P) (ptraj : List (SStep P)) (pind : List ℕ)
    (fut : List (SStep P)) (find : List ℕ) (D : SData U Y) (cur : ℕ) (as : List Attempt) (s : List ℕ × List ℝ) :
    PyM (List ℕ × List ℝ) :=
  as.foldlM (fun s a => mcmcRound S pa ptraj pind fut find D cur (normWeights pa.w) a s) s

theorem mcmcChain_ok (h : BackStep S pa ptraj pind fut D cur N F L) {find : List ℕ} (hF : ∀ j ∈ find, j < F) (as : List Attempt)
    (has : ∀ a ∈ as, Unit01 a.r) {ind : List ℕ} (hl : ind.length = find.length) (hlt : ∀ i ∈ ind, i < N) :
    ∃ ind', mcmcChain S pa ptraj pind fut find D cur as (ind, List.zipWith L ind find) =
      .ok (ind', List.zipWith L ind' find) ∧ ind'.length = find.length ∧ ∀ i ∈ ind', i < N := by
  induction as generalizing ind with
  | nil => exact ⟨ind, rfl, hl, hlt⟩
  | cons a as ih =>
    obtain ⟨q, ind1, -, -, -, h1, h2, h3, -⟩ := mcmcRound_spec h hF hl hlt (has a (by simp))
    obtain ⟨ind2, h4, h5, h6⟩ := ih (fun b hb => has b (by simp [hb])) h2 h3
    refine ⟨ind2, ?_, h5, h6⟩
    simp only [mcmcChain, List.foldlM_cons, h1, ok_bind] at h4 ⊢
    exact h4

theorem bsiMcmc_eq (h : BackStep S pa ptraj pind fut D cur N F L) {find anc : List ℕ} (hF : ∀ j ∈ find, j < F) (hl : anc.length = find.length)
    (hlt : ∀ i ∈ anc, i < N) (R : ℕ) (d : BsiDraws Ω) :
    bsiMcmc S pa ptraj pind fut find D cur R anc d = (do
      let s ← mcmcChain S pa ptraj pind fut find D cur ((List.range R).map d.attempts) (anc, List.zipWith L anc find)
      return s.1) := by
  obtain ⟨part, hpart⟩ := fancy_ok (a := pa.part) (ind := anc) (by rw [h.wf.part_len]; exact hlt)
  obtain ⟨pi, hpi'⟩ := fancy_ok (a := pind) (ind := anc) (by rw [h.anc]; exact hlt)
  have hcall := h.dens anc find part pi hl hF hpart hpi'
  simp only [bsiMcmc, maxNormalised_eq (h.wf.w_ne h.pos), ok_bind, hpart, hpi', hcall, mcmcChain]

/-- C32: for valid starting ancestors `bsi_mcmc` succeeds for every number of iterations and returns one valid index
per trajectory; with `R = 0` it returns the filter's ancestors. -/
theorem C32_mcmc_valid (h : BackStep S pa ptraj pind fut D cur N F L) {find anc : List ℕ} (hF : ∀ j ∈ find, j < F)
    (hl : anc.length = find.length) (hlt : ∀ i ∈ anc, i < N) (R : ℕ) {d : BsiDraws Ω} (hd : GoodDraws d) :
    ∃ ind, bsiMcmc S pa ptraj pind fut find D cur R anc d = .ok ind ∧ ind.length = find.length ∧ (∀ i ∈ ind, i < N) ∧
      (R = 0 → ind = anc) := by
  obtain ⟨ind, h1, h2, h3⟩ := mcmcChain_ok h hF ((List.range R).map d.attempts) (by
    intro a ha
    obtain ⟨k, -, rfl⟩ := List.mem_map.mp ha
    exact hd.r k) hl hlt
  refine ⟨ind, by rw [bsiMcmc_eq h hF hl hlt, h1]; rfl, h2, h3, ?_⟩
  rintro rfl
  simp only [List.range_zero, List.map_nil, mcmcChain, List.foldlM_nil, pure_eq_ok, Except.ok.injEq, Prod.mk.injEq] at h1
  exact h1.1.symm

/-- C32: entry `k` moves to its proposed particle iff the drawn uniform is below `min(1, p(future|new)/p(future|old))`,
and stays otherwise. -/
theorem C32_mcmc_step (h : BackStep S pa ptraj pind fut D cur N F L) {find anc : List ℕ} (hF : ∀ j ∈ find, j < F)
    (hl : anc.length = find.length) (hlt : ∀ i ∈ anc, i < N) {d : BsiDraws Ω} (hd : GoodDraws d)
    {k i0 j : ℕ} (hk : anc[k]? = some i0) (hj : find[k]? = some j) :
    ∃ q i ind, sample (normWeights pa.w) find.length (d.attempts 0).r = .ok q ∧
      ((d.attempts 0).sh.app q)[k]? = some i ∧
      bsiMcmc S pa ptraj pind fut find D cur 1 anc d = .ok ind ∧
      ind[k]? = some (if (d.attempts 0).u k < min 1 (exp (L i j) / exp (L i0 j)) then i else i0) := by
  obtain ⟨q, ind, h1, h2, h3, h4, h5, h6, h7⟩ := mcmcRound_spec h hF hl hlt (hd.r 0)
  have hkl : k < q.length := by rw [h2]; exact (List.getElem?_eq_some_iff.mp hj).1
  have hget := Shuffle.app_get (d.attempts 0).sh q k hkl
  refine ⟨q, _, ind, h1, hget, ?_, ?_⟩
  · rw [bsiMcmc_eq h hF hl hlt]
    simp only [List.range_one, List.map_cons, List.map_nil, mcmcChain, List.foldlM_cons, List.foldlM_nil, h4, ok_bind]
    rfl
  · rw [h7 k i0 _ j hk hget hj, metropolis, exp_sub]

/-- `1` if the call succeeded and entry `k` is `i`. -/
noncomputable def Spec.indexIs (r : PyM (List ℕ)) (k i : ℕ) : ℝ := if ∃ ind, r = .ok ind ∧ ind[k]? = some i then 1 else 0

/-- Probability that after `R` iterations of `bsi_mcmc`, started in `anc`, entry `k` is particle `i`. -/
noncomputable def Spec.mcmcProb (S : SmoothCallbacks P U Y V Ω) (pa : PA P) (ptraj : List (SStep P)) (pind : List ℕ)
    (fut : List (SStep P)) (find : List ℕ) (D : SData U Y) (cur : ℕ) (R : ℕ) (anc : List ℕ) (a0 : Attempt) (ω : Ω)
    (k i : ℕ) : ℝ :=
  attemptsE R fun as => indexIs (bsiMcmc S pa ptraj pind fut find D cur R anc (mkDraws as a0 (fun _ => 0) ω)) k i

/-- Transition probabilities of entry `k` over `R` iterations, as a function of its current particle only. -/
noncomputable def chainT (w : List ℝ) (L : ℕ → ℕ → ℝ) (j i : ℕ) : ℕ → ℕ → ℝ
  | 0, i0 => if i0 = i then 1 else 0
  | R + 1, i0 => ∑ l ∈ Finset.range (normWeights w).length, prob (normWeights w) l *
      (metropolis L j i0 l * chainT w L j i R l + (1 - metropolis L j i0 l) * chainT w L j i R i0)

theorem metropolis_mem (L : ℕ → ℕ → ℝ) (j i0 i : ℕ) : 0 ≤ metropolis L j i0 i ∧ metropolis L j i0 i ≤ 1 :=
  ⟨le_min zero_le_one (exp_pos _).le, min_le_left _ _⟩

theorem chain_value (h : BackStep S pa ptraj pind fut D cur N F L) {find : List ℕ} (hF : ∀ j ∈ find, j < F) {k j : ℕ} (hj : find[k]? = some j)
    (i : ℕ) (R : ℕ) {ind : List ℕ} (hl : ind.length = find.length) (hlt : ∀ i ∈ ind, i < N) {i0 : ℕ}
    (hk : ind[k]? = some i0) :
    attemptsE R (fun as => indexIs (do
      let s ← mcmcChain S pa ptraj pind fut find D cur as (ind, List.zipWith L ind find)
      return s.1) k i) = chainT pa.w L j i R i0 := by
  induction R generalizing ind i0 with
  | zero =>
    simp only [attemptsE, mcmcChain, List.foldlM_nil, pure_eq_ok, ok_bind, chainT, indexIs]
    congr 1
    rw [eq_iff_iff]
    constructor
    · rintro ⟨x, e, h'⟩; cases e; rw [hk] at h'; simpa using h'
    · rintro rfl; exact ⟨ind, rfl, hk⟩
  | succ R ih =>
    have hkl : k < find.length := (List.getElem?_eq_some_iff.mp hj).1
    have hw := normWeights_weights (h.wf.w_ne h.pos)
    simp only [attemptsE]
    rw [attemptE_marginal hw hkl (g := fun l x => if x < metropolis L j i0 l then chainT pa.w L j i R l
      else chainT pa.w L j i R i0)]
    · simp only [chainT]
      apply Finset.sum_congr rfl
      intro l _
      rw [integral_unif_lt (metropolis_mem L j i0 l).1 (metropolis_mem L j i0 l).2]
    · intro l
      exact Measurable.ite measurableSet_Iio measurable_const measurable_const
    · intro a q l h0 h1 hq hget
      obtain ⟨q', ind', h2, -, -, h4, h5, h6, h7⟩ := mcmcRound_spec h hF hl hlt (a := a) ⟨h0.le, h1⟩
      rw [hq] at h2
      cases h2
      have hnew := h7 k i0 l j hk hget hj
      have e : ∀ as, mcmcChain S pa ptraj pind fut find D cur (a :: as) (ind, List.zipWith L ind find) =
          mcmcChain S pa ptraj pind fut find D cur as (ind', List.zipWith L ind' find) := by
        intro as
        simp only [mcmcChain, List.foldlM_cons, h4, ok_bind]
      simp only [e]
      rw [ih h5 h6 hnew]
      split <;> rfl

theorem mcmcProb_eq (h : BackStep S pa ptraj pind fut D cur N F L) {find anc : List ℕ} (hF : ∀ j ∈ find, j < F) (hl : anc.length = find.length)
    (hlt : ∀ i ∈ anc, i < N) {k i0 j : ℕ} (hk : anc[k]? = some i0) (hj : find[k]? = some j) (R : ℕ) (a0 : Attempt)
    (ω : Ω) (i : ℕ) :
    mcmcProb S pa ptraj pind fut find D cur R anc a0 ω k i = chainT pa.w L j i R i0 := by
  rw [← chain_value h hF hj i R hl hlt hk]
  unfold mcmcProb
  apply attemptsE_congr
  intro as hlen _
  rw [bsiMcmc_eq h hF hl hlt]
  have e : (List.range R).map (mkDraws as a0 (fun _ => 0) ω).attempts = as := by
    apply List.ext_getElem?
    intro k
    by_cases hk : k < R
    · simp [mkDraws, hk, hlen, List.getD_eq_getElem?_getD]
    · rw [List.getElem?_eq_none (by simpa using hk), List.getElem?_eq_none (by omega)]
  rw [e]

theorem prob_back (h : BackStep S pa ptraj pind fut D cur N F L) (j : ℕ) {i : ℕ} (hi : i < N) :
    prob (backWeights pa.w L j) i * (backWeights pa.w L j).sum =
      prob (normWeights pa.w) i * exp (L i j) * (pa.w.map exp).sum := by
  have hne := h.wf.w_ne h.pos
  have hl' : i < pa.w.length := by rw [h.wf.w_len]; exact hi
  have hB := (backWeights_weights hne L j).2
  have hW := sum_exp_pos hne
  rw [prob, div_mul_cancel₀ _ hB.ne', prob, normWeights_sum hne, div_one, backWeights_getD _ _ _ hl']
  simp only [normWeights, List.getD_eq_getElem?_getD, List.getElem?_map, List.getElem?_eq_getElem hl', Option.map_some,
    Option.getD_some]
  field_simp

/-- Symmetry of the probability flow. -/
theorem flow_symm (h : BackStep S pa ptraj pind fut D cur N F L) (j : ℕ) {i l : ℕ} (hi : i < N) (hl : l < N) :
    prob (backWeights pa.w L j) i * (prob (normWeights pa.w) l * metropolis L j i l) =
    prob (backWeights pa.w L j) l * (prob (normWeights pa.w) i * metropolis L j l i) := by
  have hB := (backWeights_weights (h.wf.w_ne h.pos) L j).2
  have e1 := prob_back h j hi
  have e2 := prob_back h j hl
  have hm : exp (L i j) * metropolis L j i l = exp (L l j) * metropolis L j l i := by
    unfold metropolis
    rw [mul_min_of_nonneg _ _ (exp_pos _).le, mul_min_of_nonneg _ _ (exp_pos _).le, ← exp_add, ← exp_add, mul_one,
      mul_one, add_sub_cancel, add_sub_cancel, min_comm]
  apply mul_right_cancel₀ hB.ne'
  calc _ = (prob (backWeights pa.w L j) i * (backWeights pa.w L j).sum) *
        (prob (normWeights pa.w) l * metropolis L j i l) := by ring
    _ = prob (normWeights pa.w) i * prob (normWeights pa.w) l * (pa.w.map exp).sum *
        (exp (L i j) * metropolis L j i l) := by rw [e1]; ring
    _ = (prob (backWeights pa.w L j) l * (backWeights pa.w L j).sum) *
        (prob (normWeights pa.w) i * metropolis L j l i) := by rw [hm, e2]; ring
    _ = _ := by ring

theorem prob_norm_sum (h : BackStep S pa ptraj pind fut D cur N F L) :
    ∑ l ∈ Finset.range N, prob (normWeights pa.w) l = 1 := by
  have hne := h.wf.w_ne h.pos
  have hlen : (normWeights pa.w).length = N := by rw [normWeights_length, h.wf.w_len]
  have e1 : ∀ l ∈ Finset.range N, prob (normWeights pa.w) l = (normWeights pa.w).getD l 0 := by
    intro l _
    rw [prob, normWeights_sum hne, div_one]
  rw [Finset.sum_congr rfl e1, ← hlen, sum_range_getD, normWeights_sum hne]

theorem set_props {find anc : List ℕ} (hl : anc.length = find.length) (hlt : ∀ i ∈ anc, i < N) {k i0 : ℕ} (hi0 : i0 < N)
    (hk : k < find.length) : (anc.set k i0).length = find.length ∧ (∀ i ∈ anc.set k i0, i < N) ∧
      (anc.set k i0)[k]? = some i0 := by
  refine ⟨by simp [hl], fun i hi => ?_, by simp [hl, hk]⟩
  rcases List.mem_or_eq_of_mem_set hi with h | rfl
  · exact hlt i h
  · exact hi0

/-- C32 (detailed balance): the flow from particle `i` to particle `l` under the smoothing weights
`w_i p(future_j | x_i)` equals the flow back, for one iteration of `bsi_mcmc` and any state of the other entries. -/
theorem C32_mcmc_detailed_balance (h : BackStep S pa ptraj pind fut D cur N F L) {find anc : List ℕ} (hF : ∀ j ∈ find, j < F)
    (hl : anc.length = find.length) (hlt : ∀ i ∈ anc, i < N) {k j : ℕ} (hj : find[k]? = some j) (a0 : Attempt) (ω : Ω)
    {i l : ℕ} (hi : i < N) (hl' : l < N) :
    prob (backWeights pa.w L j) i * mcmcProb S pa ptraj pind fut find D cur 1 (anc.set k i) a0 ω k l =
    prob (backWeights pa.w L j) l * mcmcProb S pa ptraj pind fut find D cur 1 (anc.set k l) a0 ω k i := by
  have hkl : k < find.length := (List.getElem?_eq_some_iff.mp hj).1
  obtain ⟨a1, a2, a3⟩ := set_props hl hlt hi hkl
  obtain ⟨b1, b2, b3⟩ := set_props hl hlt hl' hkl
  rw [mcmcProb_eq h hF a1 a2 a3 hj, mcmcProb_eq h hF b1 b2 b3 hj]
  by_cases hil : i = l
  · subst hil; rfl
  have hlen : (normWeights pa.w).length = N := by rw [normWeights_length, h.wf.w_len]
  have e : ∀ x y : ℕ, x ≠ y → y < N → chainT pa.w L j y 1 x = prob (normWeights pa.w) y * metropolis L j x y := by
    intro x y hxy hy
    simp only [chainT, if_neg hxy, mul_zero, add_zero, hlen]
    rw [Finset.sum_eq_single y]
    · simp
    · intro z _ hz; simp [hz]
    · intro hn; exact absurd (Finset.mem_range.mpr hy) hn
  rw [e i l hil hl', e l i (Ne.symm hil) hi]
  exact flow_symm h j hi hl'

/-- C32 (invariance): if an entry starts distributed by the smoothing weights `w_i p(future_j | x_i)`, it still is after
any number of iterations of `bsi_mcmc`. -/
theorem C32_mcmc_invariant (h : BackStep S pa ptraj pind fut D cur N F L) {find anc : List ℕ} (hF : ∀ j ∈ find, j < F)
    (hl : anc.length = find.length) (hlt : ∀ i ∈ anc, i < N) {k j : ℕ} (hj : find[k]? = some j) (R : ℕ) (a0 : Attempt)
    (ω : Ω) {i : ℕ} (hi : i < N) :
    ∑ i0 ∈ Finset.range N, prob (backWeights pa.w L j) i0 *
      mcmcProb S pa ptraj pind fut find D cur R (anc.set k i0) a0 ω k i = prob (backWeights pa.w L j) i := by
  have hkl : k < find.length := (List.getElem?_eq_some_iff.mp hj).1
  have hlen : (normWeights pa.w).length = N := by rw [normWeights_length, h.wf.w_len]
  have e1 : ∀ i0 ∈ Finset.range N, prob (backWeights pa.w L j) i0 *
      mcmcProb S pa ptraj pind fut find D cur R (anc.set k i0) a0 ω k i =
      prob (backWeights pa.w L j) i0 * chainT pa.w L j i R i0 := by
    intro i0 hi0
    obtain ⟨a1, a2, a3⟩ := set_props hl hlt (Finset.mem_range.mp hi0) hkl
    rw [mcmcProb_eq h hF a1 a2 a3 hj]
  rw [Finset.sum_congr rfl e1]
  clear e1
  induction R with
  | zero =>
    simp only [chainT, mul_ite, mul_one, mul_zero]
    rw [Finset.sum_ite_eq' , if_pos (Finset.mem_range.mpr hi)]
  | succ R ih =>
    refine Eq.trans ?_ ih
    simp only [chainT, hlen]
    set T := chainT pa.w L j i R with hT
    set p := prob (normWeights pa.w) with hp
    set t := prob (backWeights pa.w L j) with ht
    have e2 : ∀ i0 ∈ Finset.range N, t i0 * ∑ l ∈ Finset.range N, p l *
        (metropolis L j i0 l * T l + (1 - metropolis L j i0 l) * T i0) =
        t i0 * T i0 + ((∑ l ∈ Finset.range N, t i0 * (p l * metropolis L j i0 l) * T l) -
          ∑ l ∈ Finset.range N, t i0 * (p l * metropolis L j i0 l) * T i0) := by
      intro i0 _
      have : t i0 * T i0 = ∑ l ∈ Finset.range N, p l * (t i0 * T i0) := by
        rw [← Finset.sum_mul, hp, prob_norm_sum h, one_mul]
      rw [this, ← Finset.sum_sub_distrib, ← Finset.sum_add_distrib, Finset.mul_sum]
      apply Finset.sum_congr rfl
      intro l _
      ring
    rw [Finset.sum_congr rfl e2, Finset.sum_add_distrib, Finset.sum_sub_distrib]
    have e3 : ∑ i0 ∈ Finset.range N, ∑ l ∈ Finset.range N, t i0 * (p l * metropolis L j i0 l) * T l =
        ∑ i0 ∈ Finset.range N, ∑ l ∈ Finset.range N, t i0 * (p l * metropolis L j i0 l) * T i0 := by
      rw [Finset.sum_comm]
      apply Finset.sum_congr rfl
      intro x hx
      apply Finset.sum_congr rfl
      intro y hy
      rw [flow_symm h j (Finset.mem_range.mp hy) (Finset.mem_range.mp hx)]
    rw [e3]
    ring

end PyPE

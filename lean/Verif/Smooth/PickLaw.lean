import Verif.Smooth.Rounds

/-!
# The law of the indices picked in one backward step

`bsi_rs`, `bsi_rsas` and `bsi_mcmc`: the expectation of a sum over trajectories of arbitrary non-negative functions of the picked index.
-/

namespace PyPE
open Real Spec MeasureTheory ProbabilityTheory
open scoped ENNReal Classical

variable {P U Y V Ω : Type}
variable {S : SmoothCallbacks P U Y V Ω} {pa : PA P} {ptraj : List (SStep P)} {pind : List ℕ}
  {fut : List (SStep P)} {D : SData U Y} {cur N F : ℕ} {L : ℕ → ℕ → ℝ}

/-- Entry `m` of a partially filled index array. -/
def entryAt (res : List (Option ℕ)) (m : ℕ) : ℕ := (res.getD m none).getD 0

theorem entryAt_some {res : List (Option ℕ)} {m i : ℕ} (h : res[m]? = some (some i)) : entryAt res m = i := by
  simp [entryAt, List.getD_eq_getElem?_getD, h]

theorem entryAt_congr {res res' : List (Option ℕ)} {m : ℕ} (h : res'[m]? = res[m]?) : entryAt res' m = entryAt res m := by
  simp [entryAt, List.getD_eq_getElem?_getD, h]

/-- The value of trajectory `m` when its index is drawn from the smoothing weights. -/
noncomputable def drawnValue (w : List ℝ) (L : ℕ → ℕ → ℝ) (N : ℕ) (c : ℕ → ℕ → ℝ≥0∞) (m : ℕ) : ℝ≥0∞ :=
  ∑ i ∈ Finset.range N, ENNReal.ofReal (prob (backWeights w L m) i) * c m i

/-- Mixing coefficients. -/
theorem mix_sum (N : ℕ) {p a t : ℕ → ℝ} (hp : ∀ l < N, 0 ≤ p l) (ha : ∀ l < N, 0 ≤ a l ∧ a l ≤ 1) (ht : ∀ l < N, 0 ≤ t l)
    (h : ∀ i < N, ∑ l ∈ Finset.range N, p l * (a l * (if l = i then 1 else 0) + (1 - a l) * t i) = t i) (c : ℕ → ℝ≥0∞) :
    ∑ l ∈ Finset.range N, ENNReal.ofReal (p l) * (ENNReal.ofReal (a l) * c l + ENNReal.ofReal (1 - a l) *
      ∑ i ∈ Finset.range N, ENNReal.ofReal (t i) * c i) = ∑ i ∈ Finset.range N, ENNReal.ofReal (t i) * c i := by
  have e1 : ∀ l ∈ Finset.range N, ENNReal.ofReal (p l) * (ENNReal.ofReal (a l) * c l + ENNReal.ofReal (1 - a l) *
      ∑ i ∈ Finset.range N, ENNReal.ofReal (t i) * c i) =
      ∑ i ∈ Finset.range N, ENNReal.ofReal (p l * (a l * (if l = i then 1 else 0) + (1 - a l) * t i)) * c i := by
    intro l hl
    have hl' := Finset.mem_range.mp hl
    have a0 := (ha l hl').1
    have a1 : 0 ≤ 1 - a l := by linarith [(ha l hl').2]
    have e2 : ∀ i ∈ Finset.range N, ENNReal.ofReal (p l * (a l * (if l = i then 1 else 0) + (1 - a l) * t i)) * c i =
        (if l = i then ENNReal.ofReal (p l) * (ENNReal.ofReal (a l) * c l) else 0) +
          ENNReal.ofReal (p l) * (ENNReal.ofReal (1 - a l) * (ENNReal.ofReal (t i) * c i)) := by
      intro i hi
      have ti := ht i (Finset.mem_range.mp hi)
      by_cases hli : l = i
      · subst hli
        rw [if_pos rfl, if_pos rfl, mul_one, ENNReal.ofReal_mul (hp l hl'), ENNReal.ofReal_add a0 (mul_nonneg a1 ti), ENNReal.ofReal_mul a1]
        ring
      · rw [if_neg hli, if_neg hli, mul_zero, zero_add, zero_add, ENNReal.ofReal_mul (hp l hl'), ENNReal.ofReal_mul a1]
        ring
    rw [Finset.sum_congr rfl e2, Finset.sum_add_distrib, Finset.sum_ite_eq, if_pos hl, mul_add, Finset.mul_sum, Finset.mul_sum]
  rw [Finset.sum_congr rfl e1, Finset.sum_comm]
  refine Finset.sum_congr rfl fun i hi => ?_
  rw [← Finset.sum_mul, ← ENNReal.ofReal_sum_of_nonneg, h i (Finset.mem_range.mp hi)]
  intro l hl
  have hl' := Finset.mem_range.mp hl
  have a0 := (ha l hl').1
  have a1 : 0 ≤ 1 - a l := by linarith [(ha l hl').2]
  have ti := ht i (Finset.mem_range.mp hi)
  refine mul_nonneg (hp l hl') (add_nonneg (mul_nonneg a0 ?_) (mul_nonneg a1 ti))
  split <;> norm_num

theorem norm_mass (h : BackStep S pa ptraj pind fut D cur N F L) (c : ℝ≥0∞) :
    ∑ i ∈ Finset.range (normWeights pa.w).length, ENNReal.ofReal (prob (normWeights pa.w) i) * c = c := by
  have hw := normWeights_weights (h.wf.w_ne h.pos)
  rw [normWeights_length, h.wf.w_len, ← Finset.sum_mul, ← ENNReal.ofReal_sum_of_nonneg fun i _ => prob_nonneg hw i, prob_norm_sum h,
    ENNReal.ofReal_one, one_mul]

/-- One round of rejection sampling does not change the expected value of the whole. -/
theorem round_value (h : BackStep S pa ptraj pind fut D cur N F L) {maxpdf : ℝ} {M : ℕ} (hmax : ∀ l < N, ∀ j < M, L l j ≤ maxpdf)
    (c : ℕ → ℕ → ℝ≥0∞) {res : List (Option ℕ)} {todo : List ℕ} (hne : todo ≠ []) (hnd : todo.Nodup) (hlt : ∀ x ∈ todo, x < res.length)
    (hres : res.length = M) (htF : ∀ x ∈ todo, x < F) {W : Attempt → ℝ≥0∞}
    (hW : ∀ (a : Attempt) res' todo', 0 < a.r → a.r < 1 →
      rsRound S pa ptraj pind fut D cur (normWeights pa.w) maxpdf a todo res = .ok (res', todo') → res'.length = M → todo'.Sublist todo →
      (∀ m, m < M → m ∉ todo → res'[m]? = res[m]?) → (∀ m ∈ todo, m ∉ todo' → ∃ i < N, res'[m]? = some (some i)) →
      W a = ∑ m ∈ Finset.range M, if m ∈ todo' then drawnValue pa.w L N c m else c m (entryAt res' m)) :
    roundE W = ∑ m ∈ Finset.range M, if m ∈ todo then drawnValue pa.w L N c m else c m (entryAt res m) := by
  have hw := normWeights_weights (h.wf.w_ne h.pos)
  have hlen : (normWeights pa.w).length = N := by rw [normWeights_length, h.wf.w_len]
  have htl : 0 < todo.length := List.length_pos_of_ne_nil hne
  rw [roundE_sum hw (n := todo.length) (M := M) (pos := fun m => if m ∈ todo then todo.idxOf m else 0)
    (g := fun m i x => if m ∈ todo then (if x < exp (L i m - maxpdf) then c m i else drawnValue pa.w L N c m) else c m (entryAt res m))]
  · refine Finset.sum_congr rfl fun m hm => ?_
    by_cases hmt : m ∈ todo
    · simp only [if_pos hmt]
      have e : ∀ i ∈ Finset.range (normWeights pa.w).length, ENNReal.ofReal (prob (normWeights pa.w) i) *
          ∫⁻ x, (if x < exp (L i m - maxpdf) then c m i else drawnValue pa.w L N c m) ∂unif =
          ENNReal.ofReal (prob (normWeights pa.w) i) * (ENNReal.ofReal (exp (L i m - maxpdf)) * c m i +
            ENNReal.ofReal (1 - exp (L i m - maxpdf)) * drawnValue pa.w L N c m) := by
        intro i hi
        rw [hlen] at hi
        rw [lintegral_unif_lt (exp_pos _).le]
        rw [exp_le_one_iff]
        linarith [hmax i (Finset.mem_range.mp hi) m (Finset.mem_range.mp hm)]
      rw [Finset.sum_congr rfl e, hlen]
      unfold drawnValue
      refine mix_sum N (fun l _ => prob_nonneg hw l) (fun l hl => ⟨(exp_pos _).le, ?_⟩)
        (fun l _ => prob_nonneg (backWeights_weights (h.wf.w_ne h.pos) L m) l) (fun i hi => ?_) (c m)
      · rw [exp_le_one_iff]
        linarith [hmax l hl m (Finset.mem_range.mp hm)]
      · have := rejection_arith h maxpdf m i hi
        rw [hlen] at this
        exact this
    · simp only [if_neg hmt, lintegral_const, measure_univ, mul_one]
      exact norm_mass h _
  · intro m _
    show (if m ∈ todo then todo.idxOf m else 0) < todo.length
    split
    · next hm => exact List.idxOf_lt_length_of_mem hm
    · exact htl
  · intro m i
    by_cases hmt : m ∈ todo
    · simp only [if_pos hmt]
      exact Measurable.ite measurableSet_Iio measurable_const measurable_const
    · simp only [if_neg hmt]
      exact measurable_const
  · intro a q h0 h1 hq hql
    obtain ⟨q', res', todo', hq', -, hqr, hok, hrl, hsub, hk, hout⟩ :=
      rsRound_spec h.wf h.anc h.pos h.dens maxpdf a ⟨h0.le, h1⟩ hnd hlt htF
    rw [hq] at hq'
    obtain rfl := Except.ok.inj hq'
    have hprop : ∀ m ∈ todo, ∃ i < N, (a.sh.app q)[todo.idxOf m]? = some i ∧ todo[todo.idxOf m]? = some m := by
      intro m hm
      have hi := List.idxOf_lt_length_of_mem hm
      have hl : todo.idxOf m < (a.sh.app q).length := by rw [Shuffle.app_length, hql]; exact hi
      exact ⟨(a.sh.app q)[todo.idxOf m], hqr _ (Shuffle.app_mem _ _ (List.getElem_mem _)), List.getElem?_eq_getElem hl,
        by rw [List.getElem?_eq_getElem hi, List.getElem_idxOf]⟩
    rw [hW a res' todo' h0 h1 hok (hrl.trans hres) hsub (fun m _ hm => hout m hm) ?_]
    · refine Finset.sum_congr rfl fun m hm => ?_
      by_cases hmt : m ∈ todo
      · obtain ⟨i, hi, p1, p2⟩ := hprop m hmt
        obtain ⟨ha, hb⟩ := hk _ m i p2 p1
        simp only [if_pos hmt]
        rw [List.getD_eq_getElem?_getD, p1, Option.getD_some]
        by_cases hac : accepts L maxpdf a (todo.idxOf m) i m
        · rw [if_neg (ha hac).2, if_pos (show a.u (todo.idxOf m) < exp (L i m - maxpdf) from hac), entryAt_some (ha hac).1]
        · rw [if_pos (hb hac).2, if_neg (show ¬ a.u (todo.idxOf m) < exp (L i m - maxpdf) from hac)]
      · simp only [if_neg hmt]
        rw [if_neg fun hm' => hmt (hsub.subset hm'), entryAt_congr (hout m hmt)]
    · intro m hm hm'
      obtain ⟨i, hi, p1, p2⟩ := hprop m hm
      obtain ⟨ha, hb⟩ := hk _ m i p2 p1
      by_cases hac : accepts L maxpdf a (todo.idxOf m) i m
      · exact ⟨i, hi, (ha hac).1⟩
      · exact absurd (hb hac).2 hm'

/-- The fall-back `bsi_full` for the undecided entries. -/
theorem fallback_value (h : BackStep S pa ptraj pind fut D cur N F L) {M : ℕ} (c : ℕ → ℕ → ℝ≥0∞) {res : List (Option ℕ)} {todo : List ℕ}
    (hnd : todo.Nodup) (hlt : ∀ x ∈ todo, x < res.length) (hres : res.length = M) (htF : ∀ x ∈ todo, x < F)
    (hdec : ∀ m, m < M → m ∉ todo → ∃ i < N, res[m]? = some (some i)) {W : (ℕ → ℝ) → ℝ≥0∞}
    (hW : ∀ (full : ℕ → ℝ) (r : List (Option ℕ)), (∀ k, 0 < full k ∧ full k < 1) → rsFallback S pa ptraj pind fut D cur full todo res = .ok r → r.length = M →
      (∀ m, m < M → ∃ i < N, r[m]? = some (some i)) → W full = ∑ m ∈ Finset.range M, c m (entryAt r m)) :
    ∫⁻ full, W full ∂unifSeq = ∑ m ∈ Finset.range M, if m ∈ todo then drawnValue pa.w L N c m else c m (entryAt res m) := by
  have hbl : ∀ m, (backWeights pa.w L m).length = N := fun m => by rw [backWeights_length, h.wf.w_len]
  have hB := fun m => backWeights_weights (h.wf.w_ne h.pos) L m
  set T : ℕ → (ℕ → ℝ) → ℝ≥0∞ := fun m v => if m ∈ todo then ∑ j ∈ Finset.range (backWeights pa.w L m).length,
    ENNReal.ofReal (drawCount (backWeights pa.w L m) 1 j (v (todo.idxOf m))) * c m j else c m (entryAt res m) with hT
  rw [lintegral_congr_ae (g := fun v => ∑ m ∈ Finset.range M, T m v) ?_, lintegral_finset_sum']
  · refine Finset.sum_congr rfl fun m _ => ?_
    by_cases hmt : m ∈ todo
    · simp only [hT, if_pos hmt]
      rw [(lintegral_pick (hB m) (c m) (todo.idxOf m)).2, hbl]
      rfl
    · simp only [hT, if_neg hmt, lintegral_const, measure_univ, mul_one]
  · intro m _
    by_cases hmt : m ∈ todo
    · simp only [hT, if_pos hmt]
      exact (lintegral_pick (hB m) (c m) (todo.idxOf m)).1
    · simp only [hT, if_neg hmt]
      exact aemeasurable_const
  · filter_upwards [unifSeq_ae_pos] with full hf
    obtain ⟨r, h1, h2, h3, h4⟩ := rsFallback_spec h (fun k => ⟨(hf k).1.le, (hf k).2⟩) hnd hlt htF
    have hidx : ∀ m ∈ todo, todo[todo.idxOf m]? = some m := fun m hm => by
      rw [List.getElem?_eq_getElem (List.idxOf_lt_length_of_mem hm), List.getElem_idxOf]
    rw [hW full r hf h1 (h2.trans hres) ?_]
    · refine Finset.sum_congr rfl fun m _ => ?_
      by_cases hmt : m ∈ todo
      · obtain ⟨i, q1, q2, q3⟩ := h4 _ m (hidx m hmt)
        simp only [hT, if_pos hmt]
        rw [drawCount_single q3 (by rw [hbl]; exact q2), entryAt_some q1]
      · simp only [hT, if_neg hmt, entryAt_congr (h3 m hmt)]
    · intro m hm
      by_cases hmt : m ∈ todo
      · obtain ⟨i, q1, q2, q3⟩ := h4 _ m (hidx m hmt)
        exact ⟨i, q2, q1⟩
      · rw [h3 m hmt]
        exact hdec m hm hmt

/-- The attempts of `bsi_rs` followed by the fall-back. -/
theorem rsTail_value (h : BackStep S pa ptraj pind fut D cur N F L) {maxpdf : ℝ} {M : ℕ} (hmax : ∀ l < N, ∀ j < M, L l j ≤ maxpdf)
    (c : ℕ → ℕ → ℝ≥0∞) (n : ℕ) {res : List (Option ℕ)} {todo : List ℕ} (hne : todo ≠ []) (hnd : todo.Nodup) (hlt : ∀ x ∈ todo, x < res.length)
    (hres : res.length = M) (htF : ∀ x ∈ todo, x < F) (hdec : ∀ m, m < M → m ∉ todo → ∃ i < N, res[m]? = some (some i))
    {W : List Attempt → (ℕ → ℝ) → ℝ≥0∞}
    (hW : ∀ (as : List Attempt) (full : ℕ → ℝ) (r : List (Option ℕ)), as.length = n → (∀ a ∈ as, 0 < a.r ∧ a.r < 1) → (∀ k, 0 < full k ∧ full k < 1) →
      rsTail S pa ptraj pind fut D cur maxpdf as full todo res = .ok r → r.length = M →
      (∀ m, m < M → ∃ i < N, r[m]? = some (some i)) → W as full = ∑ m ∈ Finset.range M, c m (entryAt r m)) :
    roundsE n (fun as => ∫⁻ full, W as full ∂unifSeq) =
      ∑ m ∈ Finset.range M, if m ∈ todo then drawnValue pa.w L N c m else c m (entryAt res m) := by
  induction n generalizing res todo W with
  | zero =>
    exact fallback_value h c hnd hlt hres htF hdec fun full r hf hr hl hv => hW [] full r rfl (by simp) hf hr hl hv
  | succ n ih =>
    simp only [roundsE]
    refine round_value h hmax c hne hnd hlt hres htF ?_
    intro a res' todo' h0 h1 hok hl' hsub hout hacc
    have hdec' : ∀ m, m < M → m ∉ todo' → ∃ i < N, res'[m]? = some (some i) := by
      intro m hm hm'
      by_cases hmt : m ∈ todo
      · exact hacc m hmt hm'
      · rw [hout m hm hmt]; exact hdec m hm hmt
    by_cases hz : todo'.length = 0
    · have he : todo' = [] := List.length_eq_zero_iff.mp hz
      subst he
      have e : ∀ as full, as.length = n → (∀ a ∈ as, 0 < a.r ∧ a.r < 1) → (∀ k, 0 < full k ∧ full k < 1) →
          W (a :: as) full = ∑ m ∈ Finset.range M, c m (entryAt res' m) := by
        intro as full hl hg hf
        refine hW (a :: as) full res' (by simp [hl]) (by simpa using ⟨⟨h0, h1⟩, hg⟩) hf ?_ hl' fun m hm => hdec' m hm (by simp)
        simp only [rsTail, rsLoop, hok, ok_bind, if_pos hz]
        rfl
      rw [roundsE_congr n (g := fun _ => ∑ m ∈ Finset.range M, c m (entryAt res' m)), roundsE_const]
      · simp
      · intro as hl hg
        rw [lintegral_congr_ae (g := fun _ => ∑ m ∈ Finset.range M, c m (entryAt res' m))]
        · simp
        · filter_upwards [unifSeq_ae_pos] with full hf using e as full hl hg hf
    · refine ih (fun h' => hz (by simp [h'])) (hnd.sublist hsub) (fun x hx => by rw [hl', ← hres]; exact hlt x (hsub.subset hx)) hl'
        (fun x hx => htF x (hsub.subset hx)) hdec' ?_
      intro as full r hl hg hf hr hrl hv
      refine hW (a :: as) full r (by simp [hl]) (by simpa using ⟨⟨h0, h1⟩, hg⟩) hf ?_ hrl hv
      rw [← hr]
      simp only [rsTail, rsLoop, hok, ok_bind, if_neg hz]

/-- The rounds of `bsi_rsas` followed by the fall-back, when they always finish. -/
theorem rsasTail_value (h : BackStep S pa ptraj pind fut D cur N F L) {maxpdf : ℝ} {M : ℕ} (hmax : ∀ l < N, ∀ j < M, L l j ≤ maxpdf)
    (o : RsasOpts) (a0 : Attempt) (ha0 : Unit01 a0.r)
    (c : ℕ → ℕ → ℝ≥0∞) (n : ℕ) {res : List (Option ℕ)} {todo : List ℕ} (pk Pk : ℝ) (hne : todo ≠ []) (hnd : todo.Nodup)
    (hlt : ∀ x ∈ todo, x < res.length) (hres : res.length = M) (htF : ∀ x ∈ todo, x < F)
    (hdec : ∀ m, m < M → m ∉ todo → ∃ i < N, res[m]? = some (some i))
    (hstop : ∀ at_ : ℕ → Attempt, (∀ k, Unit01 (at_ k).r) →
      rsasLoop S pa ptraj pind fut D cur (normWeights pa.w) maxpdf o at_ n 0 todo res pk Pk ≠ .ok none)
    {W : List Attempt → (ℕ → ℝ) → ℝ≥0∞}
    (hW : ∀ (as : List Attempt) (full : ℕ → ℝ) (r : List (Option ℕ)), as.length = n → (∀ a ∈ as, 0 < a.r ∧ a.r < 1) → (∀ k, 0 < full k ∧ full k < 1) →
      rsasTail S pa ptraj pind fut D cur maxpdf o (fun k => as.getD k a0) full n todo res pk Pk = .ok r → r.length = M →
      (∀ m, m < M → ∃ i < N, r[m]? = some (some i)) → W as full = ∑ m ∈ Finset.range M, c m (entryAt r m)) :
    roundsE n (fun as => ∫⁻ full, W as full ∂unifSeq) =
      ∑ m ∈ Finset.range M, if m ∈ todo then drawnValue pa.w L N c m else c m (entryAt res m) := by
  induction n generalizing res todo pk Pk W with
  | zero => exact absurd rfl (hstop (fun _ => a0) fun _ => ha0)
  | succ n ih =>
    simp only [roundsE]
    refine round_value h hmax c hne hnd hlt hres htF ?_
    intro a res' todo' h0 h1 hok hl' hsub hout hacc
    have hdec' : ∀ m, m < M → m ∉ todo' → ∃ i < N, res'[m]? = some (some i) := by
      intro m hm hm'
      by_cases hmt : m ∈ todo
      · exact hacc m hmt hm'
      · rw [hout m hm hmt]; exact hdec m hm hmt
    have hlt' : ∀ x ∈ todo', x < res'.length := fun x hx => by rw [hl', ← hres]; exact hlt x (hsub.subset hx)
    have htF' : ∀ x ∈ todo', x < F := fun x hx => htF x (hsub.subset hx)
    set p := rsasUpdate S.py o todo.length ((todo.length : ℝ) - todo'.length) pk Pk with hp
    by_cases hz : todo'.length = 0 ∨ p.1 < o.ratio / pa.num
    · -- the fall-back comes next
      have key : ∀ as, as.length = n → (∀ a ∈ as, 0 < a.r ∧ a.r < 1) → ∫⁻ full, W (a :: as) full ∂unifSeq =
          ∑ m ∈ Finset.range M, if m ∈ todo' then drawnValue pa.w L N c m else c m (entryAt res' m) := by
        intro as hl hg
        refine fallback_value h c (hnd.sublist hsub) hlt' hl' htF' hdec' fun full r hf hr hrl hv => ?_
        refine hW (a :: as) full r (by simp [hl]) (by simpa using ⟨⟨h0, h1⟩, hg⟩) hf ?_ hrl hv
        simp only [rsasTail, rsasLoop, List.getD_cons_zero, hok, ok_bind]
        by_cases hz1 : todo'.length = 0
        · rw [if_pos hz1]
          have : todo' = [] := List.length_eq_zero_iff.mp hz1
          subst this
          exact hr
        · rw [if_neg hz1, if_pos (hz.resolve_left hz1)]
          exact hr
      rw [roundsE_congr n key, roundsE_const]
    · rw [not_or] at hz
      have hshift : ∀ at_ : ℕ → Attempt, at_ 0 = a → rsasLoop S pa ptraj pind fut D cur (normWeights pa.w) maxpdf o at_ (n+1) 0 todo res pk Pk =
          rsasLoop S pa ptraj pind fut D cur (normWeights pa.w) maxpdf o (fun k => at_ (k+1)) n 0 todo' res' p.1 p.2 := by
        intro at_ hat
        rw [rsasLoop]
        simp only [hat, hok, ok_bind, if_neg hz.1, ← hp, if_neg hz.2]
        exact rsasLoop_shift ..
      refine ih p.1 p.2 (fun h' => hz.1 (by simp [h'])) (hnd.sublist hsub) hlt' hl' htF' hdec' ?_ ?_
      · intro at_ hat
        have := hstop (fun k => match k with | 0 => a | k+1 => at_ k) (by
          intro k
          cases k with
          | zero => exact ⟨h0.le, h1⟩
          | succ k => exact hat k)
        rwa [hshift _ rfl] at this
      · intro as full r hl hg hf hr hrl hv
        refine hW (a :: as) full r (by simp [hl]) (by simpa using ⟨⟨h0, h1⟩, hg⟩) hf ?_ hrl hv
        rw [← hr]
        simp only [rsasTail]
        rw [hshift _ rfl]
        simp only [List.getD_cons_succ]

/-- The value of a trajectory whose index is at `i0` and still moves for `R` rounds of the Metropolis-Hastings chain. -/
noncomputable def chainValue (w : List ℝ) (L : ℕ → ℕ → ℝ) (N : ℕ) (c : ℕ → ℕ → ℝ≥0∞) (R m i0 : ℕ) : ℝ≥0∞ :=
  ∑ i ∈ Finset.range N, ENNReal.ofReal (chainT w L m i R i0) * c m i

theorem chainT_nonneg {w : List ℝ} (hw : Weights (normWeights w)) (L : ℕ → ℕ → ℝ) (j i R i0 : ℕ) : 0 ≤ chainT w L j i R i0 := by
  induction R generalizing i0 with
  | zero => simp only [chainT]; split <;> norm_num
  | succ R ih =>
    simp only [chainT]
    refine Finset.sum_nonneg fun l _ => mul_nonneg (prob_nonneg hw l) ?_
    have := metropolis_mem L j i0 l
    exact add_nonneg (mul_nonneg this.1 (ih l)) (mul_nonneg (by linarith [this.2]) (ih i0))

theorem chainValue_zero (w : List ℝ) (L : ℕ → ℕ → ℝ) {N : ℕ} (c : ℕ → ℕ → ℝ≥0∞) (m : ℕ) {i0 : ℕ} (hi : i0 < N) :
    chainValue w L N c 0 m i0 = c m i0 := by
  unfold chainValue
  rw [Finset.sum_eq_single i0]
  · simp [chainT]
  · intro i _ hne; simp [chainT, Ne.symm hne]
  · intro h; exact absurd (Finset.mem_range.mpr hi) h

theorem chainValue_succ {w : List ℝ} (hw : Weights (normWeights w)) (L : ℕ → ℕ → ℝ) (N : ℕ) (c : ℕ → ℕ → ℝ≥0∞) (R m i0 : ℕ) :
    chainValue w L N c (R+1) m i0 = ∑ l ∈ Finset.range (normWeights w).length, ENNReal.ofReal (prob (normWeights w) l) *
      (ENNReal.ofReal (metropolis L m i0 l) * chainValue w L N c R m l + ENNReal.ofReal (1 - metropolis L m i0 l) * chainValue w L N c R m i0) := by
  unfold chainValue
  have e : ∀ i ∈ Finset.range N, ENNReal.ofReal (chainT w L m i (R+1) i0) * c m i = ∑ l ∈ Finset.range (normWeights w).length,
      ENNReal.ofReal (prob (normWeights w) l) * (ENNReal.ofReal (metropolis L m i0 l) * (ENNReal.ofReal (chainT w L m i R l) * c m i) +
        ENNReal.ofReal (1 - metropolis L m i0 l) * (ENNReal.ofReal (chainT w L m i R i0) * c m i)) := by
    intro i _
    simp only [chainT]
    rw [ENNReal.ofReal_sum_of_nonneg, Finset.sum_mul]
    · refine Finset.sum_congr rfl fun l _ => ?_
      have hm := metropolis_mem L m i0 l
      rw [ENNReal.ofReal_mul (prob_nonneg hw l), ENNReal.ofReal_add (mul_nonneg hm.1 (chainT_nonneg hw _ _ _ _ _))
        (mul_nonneg (by linarith [hm.2]) (chainT_nonneg hw _ _ _ _ _)), ENNReal.ofReal_mul hm.1, ENNReal.ofReal_mul (by linarith [hm.2])]
      ring
    · intro l _
      have hm := metropolis_mem L m i0 l
      exact mul_nonneg (prob_nonneg hw l) (add_nonneg (mul_nonneg hm.1 (chainT_nonneg hw _ _ _ _ _))
        (mul_nonneg (by linarith [hm.2]) (chainT_nonneg hw _ _ _ _ _)))
  rw [Finset.sum_congr rfl e, Finset.sum_comm]
  refine Finset.sum_congr rfl fun l _ => ?_
  rw [← Finset.mul_sum, Finset.sum_add_distrib, ← Finset.mul_sum, ← Finset.mul_sum]

/-- The rounds of `bsi_mcmc`. -/
theorem mcmc_value (h : BackStep S pa ptraj pind fut D cur N F L) {M : ℕ} (hM : 0 < M) (hF : M ≤ F) (c : ℕ → ℕ → ℝ≥0∞) (R : ℕ) {ind : List ℕ}
    (hl : ind.length = M) (hlt : ∀ i ∈ ind, i < N) {W : List Attempt → ℝ≥0∞}
    (hW : ∀ (as : List Attempt) (ind' : List ℕ), as.length = R → (∀ a ∈ as, 0 < a.r ∧ a.r < 1) →
      mcmcChain S pa ptraj pind fut (List.range M) D cur as (ind, List.zipWith L ind (List.range M)) =
        .ok (ind', List.zipWith L ind' (List.range M)) → ind'.length = M → (∀ i ∈ ind', i < N) →
      W as = ∑ m ∈ Finset.range M, c m (ind'.getD m 0)) :
    roundsE R W = ∑ m ∈ Finset.range M, chainValue pa.w L N c R m (ind.getD m 0) := by
  have hw := normWeights_weights (h.wf.w_ne h.pos)
  have hlen : (normWeights pa.w).length = N := by rw [normWeights_length, h.wf.w_len]
  have hgl : ∀ (l : List ℕ), l.length = M → (∀ i ∈ l, i < N) → ∀ m, m < M → l[m]? = some (l.getD m 0) ∧ l.getD m 0 < N := by
    intro l hl hlt m hm
    have : m < l.length := by omega
    rw [List.getD_eq_getElem?_getD, List.getElem?_eq_getElem this, Option.getD_some]
    exact ⟨rfl, hlt _ (List.getElem_mem _)⟩
  induction R generalizing ind W with
  | zero =>
    simp only [roundsE]
    rw [hW [] ind rfl (by simp) rfl hl hlt]
    exact Finset.sum_congr rfl fun m hm => (chainValue_zero _ _ _ _ (hgl ind hl hlt m (Finset.mem_range.mp hm)).2).symm
  | succ R ih =>
    simp only [roundsE]
    rw [roundE_sum hw (n := M) (M := M) (pos := id) (g := fun m i x => if x < metropolis L m (ind.getD m 0) i then
      chainValue pa.w L N c R m i else chainValue pa.w L N c R m (ind.getD m 0))]
    · refine Finset.sum_congr rfl fun m _ => ?_
      rw [chainValue_succ hw]
      refine Finset.sum_congr rfl fun i _ => ?_
      rw [lintegral_unif_lt (metropolis_mem _ _ _ _).1 (metropolis_mem _ _ _ _).2]
    · intro m hm; exact hm
    · intro m i
      exact Measurable.ite measurableSet_Iio measurable_const measurable_const
    · intro a q h0 h1 hq hql
      have hl' : ind.length = (List.range M).length := by simpa using hl
      obtain ⟨q', ind1, e1, -, hqr, e4, e5, e6, e7⟩ := mcmcRound_spec h (find := List.range M)
        (fun j hj => (List.mem_range.mp hj).trans_le hF) hl' hlt (a := a) ⟨h0.le, h1⟩
      rw [List.length_range] at e1 e5
      rw [hq] at e1
      obtain rfl := Except.ok.inj e1
      rw [ih e5 e6 ?_]
      · refine Finset.sum_congr rfl fun m hm => ?_
        have hm' := Finset.mem_range.mp hm
        have hml : m < (a.sh.app q).length := by rw [Shuffle.app_length, hql]; exact hm'
        have h8 := e7 m (ind.getD m 0) (a.sh.app q)[m] m (hgl ind hl hlt m hm').1 (List.getElem?_eq_getElem hml) (List.getElem?_range hm')
        have h9 : ind1.getD m 0 = if a.u m < metropolis L m (ind.getD m 0) (a.sh.app q)[m] then (a.sh.app q)[m] else ind.getD m 0 := by
          rw [List.getD_eq_getElem?_getD, h8, Option.getD_some]
        have h10 : (a.sh.app q).getD (id m) 0 = (a.sh.app q)[m] := by
          rw [List.getD_eq_getElem?_getD, id, List.getElem?_eq_getElem hml, Option.getD_some]
        rw [h9, h10, id]
        split <;> rfl
      · intro as ind' hal hg hch hl2 hlt2
        refine hW (a :: as) ind' (by simp [hal]) (by simpa using ⟨⟨h0, h1⟩, hg⟩) ?_ hl2 hlt2
        rw [← hch]
        simp only [mcmcChain, List.foldlM_cons, e4, ok_bind]

end PyPE

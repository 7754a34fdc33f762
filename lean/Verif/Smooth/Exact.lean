import Verif.Smooth.Chance

/-!
# C30, C31: backward simulation by rejection is exact
-/

namespace PyPE
open Real Spec MeasureTheory
open scoped Classical

variable {P U Y V Ω : Type}

/-- `1` if the call succeeded and entry `j` of the returned array is `i`, else `0`. -/
noncomputable def Spec.entryIs (r : PyM (List (Option ℕ))) (j i : ℕ) : ℝ :=
  if ∃ res, r = .ok res ∧ res[j]? = some (some i) then 1 else 0

/-- The draws of one backward step from a list of attempts (padded arbitrarily: only the first ones are used). -/
def Spec.mkDraws (as : List Attempt) (a0 : Attempt) (full : ℕ → ℝ) (ω : Ω) : BsiDraws Ω :=
  ⟨fun k => as.getD k a0, full, ω⟩

variable {S : SmoothCallbacks P U Y V Ω} {pa : PA P} {ptraj : List (SStep P)} {pind : List ℕ}
  {fut : List (SStep P)} {D : SData U Y} {cur N F : ℕ} {L : ℕ → ℕ → ℝ}

theorem entryIs_ok {res : List (Option ℕ)} {j i i' : ℕ} (h : res[j]? = some (some i')) :
    entryIs (.ok res) j i = if i' = i then 1 else 0 := by
  unfold entryIs
  congr 1
  rw [eq_iff_iff]
  constructor
  · rintro ⟨r, e, h'⟩; cases e; rw [h] at h'; simpa using h'
  · rintro rfl; exact ⟨res, rfl, h⟩

theorem rsFallback_nil (S : SmoothCallbacks P U Y V Ω) (pa : PA P) (ptraj : List (SStep P)) (pind : List ℕ)
    (fut : List (SStep P)) (D : SData U Y) (cur : ℕ) (full : ℕ → ℝ) (res : List (Option ℕ)) :
    rsFallback S pa ptraj pind fut D cur full [] res = .ok res := rfl

/-- Distribution of one entry after the fall-back. -/
theorem fallback_entry (h : BackStep S pa ptraj pind fut D cur N F L) {res : List (Option ℕ)} {todo : List ℕ}
    (hnd : todo.Nodup) (hlt : ∀ x ∈ todo, x < res.length) (htF : ∀ x ∈ todo, x < F)
    {j : ℕ} (i : ℕ) :
    (∀ i', j ∉ todo → res[j]? = some (some i') →
      ∫ full, entryIs (rsFallback S pa ptraj pind fut D cur full todo res) j i ∂unifSeq = if i' = i then 1 else 0) ∧
    (j ∈ todo → ∫ full, entryIs (rsFallback S pa ptraj pind fut D cur full todo res) j i ∂unifSeq =
      prob (backWeights pa.w L j) i) := by
  have hw := backWeights_weights (h.wf.w_ne h.pos) L j
  constructor
  · intro i' hj hr
    have : (fun full => entryIs (rsFallback S pa ptraj pind fut D cur full todo res) j i) =ᵐ[unifSeq]
        fun _ => (if i' = i then 1 else 0 : ℝ) := by
      filter_upwards [unifSeq_ae] with full hf
      obtain ⟨res', h1, h2, h3, h4⟩ := rsFallback_spec h hf hnd hlt htF
      rw [h1]
      exact entryIs_ok (by rw [h3 j hj]; exact hr)
    rw [integral_congr_ae this]
    simp
  · intro hj
    obtain ⟨k, hk⟩ := List.mem_iff_getElem?.mp hj
    have e1 : (fun full => entryIs (rsFallback S pa ptraj pind fut D cur full todo res) j i) =ᵐ[unifSeq]
        fun full => (fun r => if 0 < r ∧ r < 1 then drawCount (backWeights pa.w L j) 1 i r else 0) (full k) := by
      have hio : ∀ᵐ full ∂unifSeq, 0 < full k ∧ full k < 1 :=
        (measurePreserving_eval_infinitePi (fun _ : ℕ => unif) k).quasiMeasurePreserving.ae
          (p := fun r => 0 < r ∧ r < 1) unif_ae
      filter_upwards [unifSeq_ae, hio] with full hf hfk
      obtain ⟨res', h1, h2, h3, h4⟩ := rsFallback_spec h hf hnd hlt htF
      obtain ⟨i', h5, -, h6⟩ := h4 k j hk
      rw [h1, entryIs_ok h5]
      simp only [hfk, and_self, if_true, drawCount, h6, List.count_singleton]
      by_cases he : i' = i <;> simp [he]
    have hmeas : Measurable fun r => if 0 < r ∧ r < 1 then drawCount (backWeights pa.w L j) 1 i r else 0 := by
      by_cases hi : i < (backWeights pa.w L j).length
      · have e : (fun r => if 0 < r ∧ r < 1 then drawCount (backWeights pa.w L j) 1 i r else 0) =
            (Set.Ioo 0 1).indicator (fun r => ∑ k ∈ Finset.range 1, (Set.Ioc (((1:ℕ):ℝ) * cum (backWeights pa.w L j) i)
              (((1:ℕ):ℝ) * cum (backWeights pa.w L j) (i+1))).indicator (fun _ => (1:ℝ)) (r + k)) := by
          funext r
          by_cases hr : 0 < r ∧ r < 1
          · rw [if_pos hr, Set.indicator_of_mem (show r ∈ Set.Ioo (0:ℝ) 1 from hr), drawCount_eq hw 1 i hi hr.1 hr.2.le]
          · rw [if_neg hr, Set.indicator_of_notMem (show r ∉ Set.Ioo (0:ℝ) 1 from hr)]
        rw [e]
        apply Measurable.indicator _ measurableSet_Ioo
        apply Finset.measurable_sum
        intro k _
        exact (measurable_const.indicator measurableSet_Ioc).comp (measurable_id.add_const _)
      · have e : (fun r => if 0 < r ∧ r < 1 then drawCount (backWeights pa.w L j) 1 i r else 0) = fun _ => 0 := by
          funext r
          by_cases hr : 0 < r ∧ r < 1
          · rw [if_pos hr]
            obtain ⟨idx, h1, -, h2⟩ := C01_sample_length_range hw 1 (r := r) ⟨hr.1.le, hr.2⟩
            have : idx.count i = 0 := List.count_eq_zero.mpr fun hm => hi (h2 i hm)
            simp [drawCount, h1, this]
          · rw [if_neg hr]
        rw [e]; exact measurable_const
    rw [integral_congr_ae e1, integral_unifSeq_eval k hmeas]
    have e2 : (fun r => if 0 < r ∧ r < 1 then drawCount (backWeights pa.w L j) 1 i r else 0) =ᵐ[unif]
        drawCount (backWeights pa.w L j) 1 i := by
      filter_upwards [unif_ae] with r hr
      rw [if_pos hr]
    rw [integral_congr_ae e2]
    have := C03_sample_unbiased hw 1 i
    rw [intervalIntegral.integral_of_le zero_le_one, Nat.cast_one, one_mul] at this
    exact this

theorem sum_range_getD (l : List ℝ) : ∑ k ∈ Finset.range l.length, l.getD k 0 = l.sum := by
  induction l with
  | nil => simp
  | cons a l ih =>
    rw [List.length_cons, Finset.sum_range_succ', List.sum_cons, ← ih, add_comm]
    simp

/-- The arithmetic of rejection sampling: proposing from `w`, accepting with probability `exp (L - maxpdf)` and drawing
from the target on rejection gives the target. -/
theorem rejection_arith (h : BackStep S pa ptraj pind fut D cur N F L) (maxpdf : ℝ) (j i : ℕ) (hi : i < N) :
    ∑ l ∈ Finset.range (normWeights pa.w).length, prob (normWeights pa.w) l *
      (exp (L l j - maxpdf) * (if l = i then 1 else 0) + (1 - exp (L l j - maxpdf)) * prob (backWeights pa.w L j) i) =
    prob (backWeights pa.w L j) i := by
  have hne := h.wf.w_ne h.pos
  have hwl := h.wf.w_len
  have hlen : (normWeights pa.w).length = N := by rw [normWeights_length, hwl]
  rw [hlen]
  set W := (pa.w.map exp).sum with hW
  have hWpos : 0 < W := sum_exp_pos hne
  set B := (backWeights pa.w L j).sum with hB
  have hBpos : 0 < B := (backWeights_weights hne L j).2
  have hp : ∀ l < N, prob (normWeights pa.w) l = exp (pa.w.getD l 0) / W := by
    intro l hl
    rw [prob, normWeights_sum hne, div_one]
    have hl' : l < pa.w.length := by omega
    simp [normWeights, List.getD_eq_getElem?_getD, hl', hW]
  have hb : ∀ l < N, (backWeights pa.w L j).getD l 0 = exp (pa.w.getD l 0) * exp (L l j) := by
    intro l hl
    have hl' : l < pa.w.length := by omega
    rw [backWeights_getD _ _ _ hl']
    simp [List.getD_eq_getElem?_getD, hl']
  have hsum : ∑ l ∈ Finset.range N, exp (pa.w.getD l 0) * exp (L l j) = B := by
    rw [hB]
    have hbl : (backWeights pa.w L j).length = N := by rw [backWeights_length, hwl]
    rw [← Finset.sum_congr rfl (fun l hl => hb l (Finset.mem_range.mp hl))]
    rw [← hbl, sum_range_getD]
  have hsumP : ∑ l ∈ Finset.range N, prob (normWeights pa.w) l = 1 := by
    have e1 : ∀ l ∈ Finset.range N, prob (normWeights pa.w) l = (normWeights pa.w).getD l 0 := by
      intro l _
      rw [prob, normWeights_sum hne, div_one]
    rw [Finset.sum_congr rfl e1]
    rw [← hlen, sum_range_getD, normWeights_sum hne]
  set tgt := prob (backWeights pa.w L j) i with htgt
  have htgt' : tgt = exp (pa.w.getD i 0) * exp (L i j) / B := by rw [htgt, prob, hb i hi]
  have e3 : ∀ l ∈ Finset.range N, prob (normWeights pa.w) l *
      (exp (L l j - maxpdf) * (if l = i then 1 else 0) + (1 - exp (L l j - maxpdf)) * tgt) =
      (if l = i then exp (pa.w.getD l 0) * exp (L l j) / (W * exp maxpdf) else 0) + prob (normWeights pa.w) l * tgt -
        (exp (pa.w.getD l 0) * exp (L l j)) * (tgt / (W * exp maxpdf)) := by
    intro l hl
    rw [hp l (Finset.mem_range.mp hl), exp_sub]
    have := exp_pos maxpdf
    by_cases hli : l = i
    · rw [if_pos hli, if_pos hli]; field_simp; ring
    · rw [if_neg hli, if_neg hli]; field_simp; ring
  rw [Finset.sum_congr rfl e3, Finset.sum_sub_distrib, Finset.sum_add_distrib, Finset.sum_ite_eq',
    if_pos (Finset.mem_range.mpr hi), ← Finset.sum_mul, ← Finset.sum_mul, hsumP, hsum, htgt']
  have := exp_pos maxpdf
  field_simp
  ring

/-- One round, seen from an undecided entry: if the value of the rest of the algorithm is `[i' = i]` once the entry is
decided to be `i'` and the target probability otherwise, its expectation is the target probability. -/
theorem round_exact (h : BackStep S pa ptraj pind fut D cur N F L) {maxpdf : ℝ} {todo : List ℕ} {j i : ℕ} (hi : i < N)
    (hmax : ∀ l < N, L l j ≤ maxpdf) (hj : j ∈ todo) {G : Attempt → ℝ}
    (hG : ∀ (a : Attempt) (q : List ℕ) (k i' : ℕ), 0 < a.r → a.r < 1 → i' < N →
      sample (normWeights pa.w) todo.length a.r = .ok q → todo[k]? = some j → (a.sh.app q)[k]? = some i' →
      G a = if accepts L maxpdf a k i' j then (if i' = i then 1 else 0) else prob (backWeights pa.w L j) i) :
    attemptE G = prob (backWeights pa.w L j) i := by
  obtain ⟨k, hk⟩ := List.mem_iff_getElem?.mp hj
  have hkl := (List.getElem?_eq_some_iff.mp hk).1
  have hw := normWeights_weights (h.wf.w_ne h.pos)
  have hlen : (normWeights pa.w).length = N := by rw [normWeights_length, h.wf.w_len]
  rw [attemptE_marginal hw hkl (G := G) (g := fun i' x => if x < exp (L i' j - maxpdf) then
    (if i' = i then 1 else 0) else prob (backWeights pa.w L j) i)]
  · refine Eq.trans ?_ (rejection_arith h maxpdf j i hi)
    apply Finset.sum_congr rfl
    intro l hl
    rw [hlen] at hl
    have := hmax l (Finset.mem_range.mp hl)
    rw [integral_unif_lt (exp_pos _).le (by rw [exp_le_one_iff]; linarith)]
  · intro i'
    exact Measurable.ite measurableSet_Iio measurable_const measurable_const
  · intro a q i' h0 h1 hq hget
    obtain ⟨q', hq', -, hqr⟩ := C01_sample_length_range hw todo.length (r := a.r) ⟨h0.le, h1⟩
    rw [hq] at hq'
    cases hq'
    have hi' : i' < N := by
      have := hqr i' (Shuffle.app_mem _ _ (List.mem_of_getElem? hget))
      rwa [hlen] at this
    exact hG a q k i' h0 h1 hi' hq hk hget

theorem attemptsE_congr (n : ℕ) {f g : List Attempt → ℝ}
    (h : ∀ as, as.length = n → (∀ a ∈ as, 0 < a.r ∧ a.r < 1) → f as = g as) : attemptsE n f = attemptsE n g := by
  induction n generalizing f g with
  | zero => exact h [] rfl (by simp)
  | succ n ih =>
    simp only [attemptsE]
    apply attemptE_congr
    intro a h0 h1
    apply ih
    intro as hl hg
    exact h (a :: as) (by simp [hl]) (by
      intro b hb
      rcases List.mem_cons.mp hb with rfl | hb
      · exact ⟨h0, h1⟩
      · exact hg b hb)

/-- The attempt loop followed by the fall-back. -/
noncomputable def rsTail (S : SmoothCallbacks P U Y V Ω) (pa : PA P) (ptraj : List (SStep P)) (pind : List ℕ)
    (fut : List (SStep P)) (D : SData U Y) (cur : ℕ) (maxpdf : ℝ) (as : List Attempt) (full : ℕ → ℝ)
    (todo : List ℕ) (res : List (Option ℕ)) : PyM (List (Option ℕ)) := do
  let (res, todo) ← rsLoop S pa ptraj pind fut D cur (normWeights pa.w) maxpdf as todo res
  rsFallback S pa ptraj pind fut D cur full todo res

theorem rsTail_exact (h : BackStep S pa ptraj pind fut D cur N F L) (maxpdf : ℝ) {j i : ℕ} (hi : i < N)
    (hmax : ∀ l < N, L l j ≤ maxpdf) (n : ℕ) {res : List (Option ℕ)} {todo : List ℕ}
    (hnd : todo.Nodup) (hlt : ∀ x ∈ todo, x < res.length) (htF : ∀ x ∈ todo, x < F) :
    (∀ i', j ∉ todo → res[j]? = some (some i') →
      attemptsE n (fun as => ∫ full, entryIs (rsTail S pa ptraj pind fut D cur maxpdf as full todo res) j i ∂unifSeq) =
        if i' = i then 1 else 0) ∧
    (j ∈ todo →
      attemptsE n (fun as => ∫ full, entryIs (rsTail S pa ptraj pind fut D cur maxpdf as full todo res) j i ∂unifSeq) =
      prob (backWeights pa.w L j) i) := by
  induction n generalizing res todo with
  | zero => exact fallback_entry h hnd hlt htF i
  | succ n ih =>
    -- the value after one good round
    have key : ∀ a : Attempt, 0 < a.r → a.r < 1 → ∀ (res' : List (Option ℕ)) (todo' : List ℕ),
        rsRound S pa ptraj pind fut D cur (normWeights pa.w) maxpdf a todo res = .ok (res', todo') →
        res'.length = res.length → todo'.Sublist todo →
        (∀ i', j ∉ todo' → res'[j]? = some (some i') →
          attemptsE n (fun as => ∫ full, entryIs (rsTail S pa ptraj pind fut D cur maxpdf (a :: as) full todo res) j i
            ∂unifSeq) = if i' = i then 1 else 0) ∧
        (j ∈ todo' → attemptsE n (fun as => ∫ full, entryIs (rsTail S pa ptraj pind fut D cur maxpdf (a :: as) full
            todo res) j i ∂unifSeq) = prob (backWeights pa.w L j) i) := by
      intro a h0 h1 res' todo' hok hl hsub
      by_cases hz : todo'.length = 0
      · have he : todo' = [] := List.length_eq_zero_iff.mp hz
        have e : ∀ (as : List Attempt) (full : ℕ → ℝ),
            rsTail S pa ptraj pind fut D cur maxpdf (a :: as) full todo res = .ok res' := by
          intro as full
          simp only [rsTail, rsLoop, hok, ok_bind, if_pos hz]
          rfl
        simp only [e, integral_const, probReal_univ, one_smul, attemptsE_const]
        exact ⟨fun i' _ hr => entryIs_ok hr, fun hj => by simp [he] at hj⟩
      · have e : ∀ (as : List Attempt) (full : ℕ → ℝ),
            rsTail S pa ptraj pind fut D cur maxpdf (a :: as) full todo res =
            rsTail S pa ptraj pind fut D cur maxpdf as full todo' res' := by
          intro as full
          simp only [rsTail, rsLoop, hok, ok_bind, if_neg hz]
        simp only [e]
        exact ih (hnd.sublist hsub) (fun x hx => by rw [hl]; exact hlt x (hsub.subset hx))
          (fun x hx => htF x (hsub.subset hx))
    constructor
    · intro i' hj hr
      simp only [attemptsE]
      rw [attemptE_congr (g := fun _ => if i' = i then 1 else 0), attemptE_const]
      intro a h0 h1
      obtain ⟨q, res', todo', hq, hql, hqr, hok, hrl, hsub, hk, hout⟩ :=
        rsRound_spec h.wf h.anc h.pos h.dens maxpdf a ⟨h0.le, h1⟩ hnd hlt htF
      exact (key a h0 h1 res' todo' hok hrl hsub).1 i' (fun hm => hj (hsub.subset hm)) (by rw [hout j hj]; exact hr)
    · intro hj
      simp only [attemptsE]
      apply round_exact h hi hmax hj
      intro a q k i' h0 h1 hi' hq hk0 hget
      obtain ⟨q', res', todo', hq', hql, hqr, hok, hrl, hsub, hk, hout⟩ :=
        rsRound_spec h.wf h.anc h.pos h.dens maxpdf a ⟨h0.le, h1⟩ hnd hlt htF
      rw [hq] at hq'
      cases hq'
      obtain ⟨ha, hb⟩ := hk k j i' hk0 hget
      by_cases hac : accepts L maxpdf a k i' j
      · rw [if_pos hac]
        exact (key a h0 h1 res' todo' hok hrl hsub).1 i' (ha hac).2 (ha hac).1
      · rw [if_neg hac]
        exact (key a h0 h1 res' todo' hok hrl hsub).2 (hb hac).2

/-- C30 (exactness): if `maxpdf` bounds the log densities, then for every attempt limit `R` entry `j` returned by
`bsi_rs` is particle `i` with probability exactly `w_i p(future_j|x_i) / Σ_l w_l p(future_j|x_l)`, the distribution
of `bsi_full` (C29) — although all trajectories share one systematic sample per attempt. -/
theorem C30_rs_exact (h : BackStep S pa ptraj pind fut D cur N F L) (maxpdf : ℝ) (R : ℕ) {find : List ℕ}
    (hf : find.length ≤ F) {j i : ℕ} (hj : j < find.length) (hi : i < N) (hmax : ∀ l < N, L l j ≤ maxpdf) (a0 : Attempt) (ω : Ω) :
    attemptsE R (fun as => ∫ full, entryIs
      (bsiRs S pa ptraj pind fut find D cur maxpdf R (mkDraws as a0 full ω)) j i ∂unifSeq) =
    prob (backWeights pa.w L j) i := by
  have := (rsTail_exact h maxpdf hi hmax R (res := List.replicate find.length none) (todo := List.range find.length)
    List.nodup_range (by simp) (fun x hx => (List.mem_range.mp hx).trans_le hf)).2 (List.mem_range.mpr hj)
  rw [← this]
  apply attemptsE_congr
  intro as hl _
  congr 1
  funext full
  congr 1
  have e : (List.range R).map (mkDraws as a0 full ω).attempts = as := by
    apply List.ext_getElem?
    intro k
    by_cases hk : k < R
    · simp [mkDraws, hk, hl, List.getD_eq_getElem?_getD]
    · rw [List.getElem?_eq_none (by simpa using hk), List.getElem?_eq_none (by omega)]
  simp only [bsiRs, maxNormalised_eq (h.wf.w_ne h.pos), ok_bind, e, rsTail]
  congr 1
  funext x
  split
  · next hc =>
    have : x.2 = [] := List.length_eq_zero_iff.mp hc.1
    rw [this, rsFallback_nil]; rfl
  · rfl

/-! ### Adaptive stopping -/

theorem rsasLoop_shift (S : SmoothCallbacks P U Y V Ω) (pa : PA P) (ptraj : List (SStep P)) (pind : List ℕ)
    (fut : List (SStep P)) (D : SData U Y) (cur : ℕ) (w : List ℝ) (maxpdf : ℝ) (o : RsasOpts) (at_ : ℕ → Attempt)
    (n k : ℕ) (todo : List ℕ) (res : List (Option ℕ)) (pk Pk : ℝ) :
    rsasLoop S pa ptraj pind fut D cur w maxpdf o at_ n (k + 1) todo res pk Pk =
    rsasLoop S pa ptraj pind fut D cur w maxpdf o (fun i => at_ (i + 1)) n k todo res pk Pk := by
  induction n generalizing k todo res pk Pk with
  | zero => rfl
  | succ n ih =>
    simp only [rsasLoop]
    congr 1
    funext x
    split
    · rfl
    · split
      · rfl
      · exact ih _ _ _ _ _

/-- `1` if the call finished within its rounds and entry `j` is `i`. -/
noncomputable def Spec.entryIs? (r : PyM (Option (List (Option ℕ)))) (j i : ℕ) : ℝ :=
  if ∃ res, r = .ok (some res) ∧ res[j]? = some (some i) then 1 else 0

/-- The loop followed by the fall-back. -/
noncomputable def rsasTail (S : SmoothCallbacks P U Y V Ω) (pa : PA P) (ptraj : List (SStep P)) (pind : List ℕ)
    (fut : List (SStep P)) (D : SData U Y) (cur : ℕ) (maxpdf : ℝ) (o : RsasOpts) (at_ : ℕ → Attempt) (full : ℕ → ℝ)
    (n : ℕ) (todo : List ℕ) (res : List (Option ℕ)) (pk Pk : ℝ) : PyM (List (Option ℕ)) := do
  match ← rsasLoop S pa ptraj pind fut D cur (normWeights pa.w) maxpdf o at_ n 0 todo res pk Pk with
  | none => .error .unboundLocalError
  | some (res, todo) => rsFallback S pa ptraj pind fut D cur full todo res

theorem rsasTail_exact (h : BackStep S pa ptraj pind fut D cur N F L) (maxpdf : ℝ) (o : RsasOpts) (a0 : Attempt)
    (ha0 : Unit01 a0.r) {j i : ℕ} (hi : i < N)
    (hmax : ∀ l < N, L l j ≤ maxpdf) (n : ℕ) {res : List (Option ℕ)} {todo : List ℕ} (pk Pk : ℝ)
    (hnd : todo.Nodup) (hlt : ∀ x ∈ todo, x < res.length) (htF : ∀ x ∈ todo, x < F)
    (hstop : ∀ at_ : ℕ → Attempt, (∀ k, Unit01 (at_ k).r) →
      rsasLoop S pa ptraj pind fut D cur (normWeights pa.w) maxpdf o at_ n 0 todo res pk Pk ≠ .ok none) :
    (∀ i', j ∉ todo → res[j]? = some (some i') →
      attemptsE n (fun as => ∫ full, entryIs (rsasTail S pa ptraj pind fut D cur maxpdf o (fun k => as.getD k a0) full n
        todo res pk Pk) j i ∂unifSeq) = if i' = i then 1 else 0) ∧
    (j ∈ todo →
      attemptsE n (fun as => ∫ full, entryIs (rsasTail S pa ptraj pind fut D cur maxpdf o (fun k => as.getD k a0) full n
        todo res pk Pk) j i ∂unifSeq) = prob (backWeights pa.w L j) i) := by
  induction n generalizing res todo pk Pk with
  | zero => exact absurd rfl (hstop (fun _ => a0) fun _ => ha0)
  | succ n ih =>
    have key : ∀ a : Attempt, 0 < a.r → a.r < 1 → ∀ (res' : List (Option ℕ)) (todo' : List ℕ),
        rsRound S pa ptraj pind fut D cur (normWeights pa.w) maxpdf a todo res = .ok (res', todo') →
        res'.length = res.length → todo'.Sublist todo →
        (∀ i', j ∉ todo' → res'[j]? = some (some i') →
          attemptsE n (fun as => ∫ full, entryIs (rsasTail S pa ptraj pind fut D cur maxpdf o
            (fun k => (a :: as).getD k a0) full (n + 1) todo res pk Pk) j i ∂unifSeq) = if i' = i then 1 else 0) ∧
        (j ∈ todo' → attemptsE n (fun as => ∫ full, entryIs (rsasTail S pa ptraj pind fut D cur maxpdf o
            (fun k => (a :: as).getD k a0) full (n + 1) todo res pk Pk) j i ∂unifSeq) =
            prob (backWeights pa.w L j) i) := by
      intro a h0 h1 res' todo' hok hl hsub
      have hnd' := hnd.sublist hsub
      have hlt' : ∀ x ∈ todo', x < res'.length := fun x hx => by rw [hl]; exact hlt x (hsub.subset hx)
      have htF' : ∀ x ∈ todo', x < F := fun x hx => htF x (hsub.subset hx)
      by_cases hz : todo'.length = 0
      · have he : todo' = [] := List.length_eq_zero_iff.mp hz
        have e : ∀ (as : List Attempt) (full : ℕ → ℝ),
            rsasTail S pa ptraj pind fut D cur maxpdf o (fun k => (a :: as).getD k a0) full (n + 1) todo res pk Pk =
              .ok res' := by
          intro as full
          simp only [rsasTail, rsasLoop, List.getD_cons_zero, hok, ok_bind, if_pos hz]
          rfl
        simp only [e, integral_const, probReal_univ, one_smul, attemptsE_const]
        exact ⟨fun i' _ hr => entryIs_ok hr, fun hj => by simp [he] at hj⟩
      · set s := rsasUpdate S.py o todo.length ((todo.length : ℝ) - todo'.length) pk Pk with hs
        by_cases hc : s.1 < o.ratio / pa.num
        · have e : ∀ (as : List Attempt) (full : ℕ → ℝ),
              rsasTail S pa ptraj pind fut D cur maxpdf o (fun k => (a :: as).getD k a0) full (n + 1) todo res pk Pk =
                rsFallback S pa ptraj pind fut D cur full todo' res' := by
            intro as full
            simp only [rsasTail, rsasLoop, List.getD_cons_zero, hok, ok_bind, if_neg hz, ← hs, if_pos hc]
            rfl
          simp only [e, attemptsE_const]
          exact fallback_entry h hnd' hlt' htF' i
        · have e : ∀ (as : List Attempt) (full : ℕ → ℝ),
              rsasTail S pa ptraj pind fut D cur maxpdf o (fun k => (a :: as).getD k a0) full (n + 1) todo res pk Pk =
                rsasTail S pa ptraj pind fut D cur maxpdf o (fun k => as.getD k a0) full n todo' res' s.1 s.2 := by
            intro as full
            simp only [rsasTail, rsasLoop, List.getD_cons_zero, hok, ok_bind, if_neg hz, ← hs, if_neg hc,
              rsasLoop_shift, List.getD_cons_succ]
          simp only [e]
          apply ih s.1 s.2 hnd' hlt' htF'
          intro at_ hat hnone
          refine hstop (fun k => match k with | 0 => a | k + 1 => at_ k) (fun k => ?_) ?_
          · cases k with
            | zero => exact ⟨h0.le, h1⟩
            | succ k => exact hat k
          · simp only [rsasLoop, hok, ok_bind, if_neg hz, ← hs, if_neg hc, rsasLoop_shift]
            exact hnone
    constructor
    · intro i' hj hr
      simp only [attemptsE]
      rw [attemptE_congr (g := fun _ => if i' = i then 1 else 0), attemptE_const]
      intro a h0 h1
      obtain ⟨q, res', todo', hq, hql, hqr, hok, hrl, hsub, hk, hout⟩ :=
        rsRound_spec h.wf h.anc h.pos h.dens maxpdf a ⟨h0.le, h1⟩ hnd hlt htF
      exact (key a h0 h1 res' todo' hok hrl hsub).1 i' (fun hm => hj (hsub.subset hm)) (by rw [hout j hj]; exact hr)
    · intro hj
      simp only [attemptsE]
      apply round_exact h hi hmax hj
      intro a q k i' h0 h1 hi' hq hk0 hget
      obtain ⟨q', res', todo', hq', hql, hqr, hok, hrl, hsub, hk, hout⟩ :=
        rsRound_spec h.wf h.anc h.pos h.dens maxpdf a ⟨h0.le, h1⟩ hnd hlt htF
      rw [hq] at hq'
      cases hq'
      obtain ⟨ha, hb⟩ := hk k j i' hk0 hget
      by_cases hac : accepts L maxpdf a k i' j
      · rw [if_pos hac]
        exact (key a h0 h1 res' todo' hok hrl hsub).1 i' (ha hac).2 (ha hac).1
      · rw [if_neg hac]
        exact (key a h0 h1 res' todo' hok hrl hsub).2 (hb hac).2

/-- C31 (exactness): the adaptive stopping rule does not bias the result either.  With usable options and a valid bound
there is a number of rounds `B` after which `bsi_rsas` has always finished, and entry `j` is then particle `i` with
probability exactly `w_i p(future_j|x_i) / Σ_l w_l p(future_j|x_l)`. -/
theorem C31_rsas_exact {o : RsasOpts} (ho : GoodOpts o) (h : BackStep S pa ptraj pind fut D cur N F L) (maxpdf : ℝ)
    {find : List ℕ} (hf : find.length = F) {j i : ℕ} (hj : j < find.length) (hi : i < N) (hmax : ∀ l < N, L l j ≤ maxpdf) (a0 : Attempt)
    (ha0 : Unit01 a0.r) (ω : Ω) :
    ∃ B, ∀ n, B ≤ n → attemptsE n (fun as => ∫ full, entryIs?
      (bsiRsas S pa ptraj pind fut find D cur maxpdf o (mkDraws as a0 full ω) n) j i ∂unifSeq) =
    prob (backWeights pa.w L j) i := by
  have hv : okVar o o.P1 := by
    rcases ho.uncertain with h | h
    · exact Or.inl h
    · exact Or.inr ⟨ho.P1, h⟩
  obtain ⟨B, hB⟩ := stops_exists (Ω := Ω) ho.sw ho.ratio h.pos find.length find.length (o.x1, o.P1) hv
  refine ⟨B, fun n hn => ?_⟩
  have hstop : ∀ at_ : ℕ → Attempt, (∀ k, Unit01 (at_ k).r) →
      rsasLoop S pa ptraj pind fut D cur (normWeights pa.w) maxpdf o at_ n 0 (List.range find.length)
        (List.replicate find.length none) o.x1 o.P1 ≠ .ok none := by
    intro at_ hat hnone
    have hd : GoodDraws (⟨at_, fun _ => 0, ω⟩ : BsiDraws Ω) := ⟨hat, fun _ => ⟨le_refl _, zero_lt_one⟩⟩
    obtain ⟨x, hx, -⟩ := hB.mono hn P U Y V S pa ptraj pind fut D cur L (hf ▸ h) maxpdf ⟨at_, fun _ => 0, ω⟩ hd 0
      (List.replicate find.length none) (List.range find.length) (by simp) (RsInv.init L maxpdf _ N _)
    simp only at hx
    rw [hx] at hnone
    cases hnone
  have := (rsasTail_exact h maxpdf o a0 ha0 hi hmax n (res := List.replicate find.length none)
    (todo := List.range find.length) o.x1 o.P1 List.nodup_range (by simp)
    (fun x hx => (List.mem_range.mp hx).trans_le hf.le) hstop).2 (List.mem_range.mpr hj)
  rw [← this]
  apply attemptsE_congr
  intro as hl _
  congr 1
  funext full
  simp only [bsiRsas, maxNormalised_eq (h.wf.w_ne h.pos), ok_bind, rsasTail, mkDraws]
  unfold entryIs entryIs?
  congr 1
  rcases hr : rsasLoop S pa ptraj pind fut D cur (normWeights pa.w) maxpdf o (fun k => as.getD k a0) n 0
    (List.range find.length) (List.replicate find.length none) o.x1 o.P1 with e | x
  · simp [Except.bind, bind]
  · rcases x with _ | ⟨res, todo⟩
    · simp
    · simp only [ok_bind]
      by_cases hz : todo.length = 0
      · have : todo = [] := List.length_eq_zero_iff.mp hz
        simp [this, rsFallback_nil]
      · simp only [hz, if_false]
        rcases rsFallback S pa ptraj pind fut D cur full todo res with e | y <;> simp

end PyPE

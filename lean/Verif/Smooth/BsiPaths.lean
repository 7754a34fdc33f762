import Verif.Smooth.BackOps

/-!
# C98: what `perform_smoothing` with 'rs', 'rsas' and 'mcmc' computes is a backward operator

Also the default `logp_xnext_max_full` of `FFBSiRS` (interfaces.py:456-482).
-/

namespace PyPE
open Real Spec MeasureTheory ProbabilityTheory
open scoped ENNReal Classical

variable {P U Y V Ω : Type}

/-- `FFBSiRS.logp_xnext_max_full` (interfaces.py:481-482), which calls the model's `logp_xnext_max`, on top of the defaults of `FFBSi`. -/
def ffbsiRS (logpXnext : List P → List P → Slot U → ℕ → PyM (List ℝ)) (logpXnextMax : List P → Slot U → ℕ → PyM ℝ)
    (rest : SmoothCallbacks P U Y V Ω) : SmoothCallbacks P U Y V Ω :=
  { ffbsi logpXnext rest with
    logpXnextMaxFull := fun part _ _ D cur => do
      let u ← getIdx D.u cur
      let t ← getIdx D.t cur
      logpXnextMax part u t }

/-! ### Specification -/

/-- `logp_xnext_max` returns an upper bound of the log-densities from the given particles to any next state. -/
def Spec.MaxDensity (logpXnextMax : List P → Slot U → ℕ → PyM ℝ) (lx : ℕ → Slot U → P → P → ℝ) : Prop :=
  ∀ (part : List P) (u : Slot U) (k : ℕ), part ≠ [] → ∃ b, logpXnextMax part u k = .ok b ∧ ∀ x ∈ part, ∀ x', lx k u x x' ≤ b

/-- The draws of a round that is never used. -/
def Spec.noAttempt : Attempt := ⟨0, fun _ => Equiv.refl _, fun _ => 0⟩

/-- Expectation over the independent draws of the backward steps `n-1, …, 0`: `R` proposal rounds and a sequence of uniforms each. -/
noncomputable def Spec.backDrawsE (R : ℕ) : ℕ → ((ℕ → List Attempt × (ℕ → ℝ)) → ℝ≥0∞) → ℝ≥0∞
  | 0, f => f fun _ => ([], fun _ => 0)
  | n + 1, f => roundsE R fun as => ∫⁻ v, backDrawsE R n (fun a => f (Function.update a n (as, v))) ∂unifSeq

/-- The draws `d`, but with `r0` for the choice of the end particles and `a t` for the choices of backward step `t`. -/
def Spec.withRounds (d : AllDraws Ω) (r0 : ℝ) (a : ℕ → List Attempt × (ℕ → ℝ)) : AllDraws Ω :=
  { d with bsi := ⟨r0, d.bsi.ω0, fun t => mkDraws (a t).1 noAttempt (a t).2 (d.bsi.step t).ω⟩ }

/-- Expectation of `f` of the result of `perform_smoothing`, over the numbers it draws (`R` proposal rounds per backward step). -/
noncomputable def Spec.smoothRoundsE (R : ℕ) (S : SmoothCallbacks P U Y V Ω) (M : ℕ) (method : String) (user : Option SOpts) (d : AllDraws Ω)
    (fuel : ℕ) (f : PyM (Option (List (SStep P))) → ℝ≥0∞) (s : PT P U Y) : ℝ≥0∞ :=
  ∫⁻ r0, backDrawsE R (s.traj.length - 1) (fun a =>
    f (performSmoothing S s.traj M ⟨s.uvec, s.yvec, s.tvec⟩ method user (withRounds d r0 a) fuel)) ∂unif

/-! ### The law of one pick -/

/-- The sampler `m` picks index `i` for trajectory `j` with probability `T`. -/
def PickLaw (S : SmoothCallbacks P U Y V Ω) (m : BsiMethod) (R fuel N M : ℕ) (pt : List (Step P)) (D : SData U Y) (us : List (Slot U))
    (T : List (Step P) → ℕ → Slot U → P → ℕ → ℕ → ℝ) : Prop :=
  ∀ (n : ℕ) (st : Step P) (fut : List (SStep P)) (σ : ℕ → ℕ → P) (anc : List ℕ) (ω : Ω) (c : ℕ → ℕ → ℝ≥0∞)
    (W : List Attempt → (ℕ → ℝ) → ℝ≥0∞), n + 1 < pt.length → pt[n]? = some st → fut ≠ [] → FutRep fut M (n+1) σ → anc.length = M → (∀ i ∈ anc, i < N) →
    (∀ as full ind, bsiPick S m st ((pt.take n).map Step.toS) fut (List.range M) D n anc (mkDraws as noAttempt full ω) fuel = .ok (some ind) →
      ind.length = M → (∀ i ∈ ind, i < N) → W as full = ∑ j ∈ Finset.range M, c j (ind.getD j 0)) →
    roundsE R (fun as => ∫⁻ full, W as full ∂unifSeq) =
      ∑ j ∈ Finset.range M, ∑ i : Fin N, ENNReal.ofReal (T pt n (us.getD n .none) (σ j (n+1)) (anc.getD j 0) i) * c j i

section
variable {logpXnext : List P → List P → Slot U → ℕ → PyM (List ℝ)} {lx : ℕ → Slot U → P → P → ℝ} {rest : SmoothCallbacks P U Y V Ω}
  {N M : ℕ} {pt : List (Step P)} {D : SData U Y} {us : List (Slot U)}

/-- The backward step the samplers see. -/
theorem ffbsi_backStep (hlx : Spec.LogDensity logpXnext lx) (rest : SmoothCallbacks P U Y V Ω) (hN : 0 < N) (x0 : P)
    (hgs : ∀ st ∈ pt, GoodStep N st) {n : ℕ} {st : Step P} (hst : pt[n]? = some st) {fut : List (SStep P)} {σ : ℕ → ℕ → P}
    (hfut : FutRep fut M (n+1) σ) (hne : fut ≠ []) (hu : D.u[n]? = some (us.getD n .none)) (ht : D.t[n]? = some n) :
    BackStep (ffbsi logpXnext rest) st.pa ((pt.take n).map Step.toS) st.ancestors fut D n N M
      fun i j => lx n (us.getD n .none) (partAt x0 pt n i) (σ j (n+1)) :=
  ⟨hN, (hgs st (List.mem_of_getElem? hst)).pa, (hgs st (List.mem_of_getElem? hst)).anc_len, ffbsi_density hlx rest x0 hst hfut hne hu ht _ _⟩

theorem drawnValue_kernel (hgs : ∀ st ∈ pt, GoodStep N st) (x0 : P) {n : ℕ} {st : Step P} (hst : pt[n]? = some st) (σ : ℕ → ℕ → P) (a : ℕ)
    (u : Slot U) (c : ℕ → ℕ → ℝ≥0∞) (j : ℕ) :
    drawnValue st.pa.w (fun i j => lx n u (partAt x0 pt n i) (σ j (n+1))) N c j =
      ∑ i : Fin N, ENNReal.ofReal (drawKernel lx N x0 pt n u (σ j (n+1)) a i) * c j i := by
  have hs := hgs st (List.mem_of_getElem? hst)
  have hwo : st.pa.w = List.ofFn fun i : Fin N => wAt pt n i := by
    apply List.ext_getElem
    · simp [hs.pa.w_len]
    · intro i h1 h2
      simp only [List.getElem_ofFn, wAt, hst, Option.map_some, Option.getD_some, List.getD_eq_getElem?_getD, List.getElem?_eq_getElem h1]
  unfold drawnValue
  rw [Finset.sum_range]
  refine Finset.sum_congr rfl fun i _ => ?_
  congr 2
  rw [hwo, prob_backWeights]
  rfl

theorem finished_entries {r : List (Option ℕ)} (hl : r.length = M) (h : ∀ j, j < M → ∃ i < N, r[j]? = some (some i)) :
    ∃ ind, finished r = .ok ind ∧ ind.length = M ∧ (∀ i ∈ ind, i < N) ∧ ∀ j, j < M → ind.getD j 0 = entryAt r j := by
  have e : r = ((List.range M).map fun j => entryAt r j).map some := by
    apply List.ext_getElem?
    intro j
    by_cases hj : j < M
    · obtain ⟨i, -, hi⟩ := h j hj
      simp [hi, hj, entryAt_some hi]
    · rw [List.getElem?_eq_none (by omega), List.getElem?_eq_none (by simpa using hj)]
  refine ⟨(List.range M).map fun j => entryAt r j, ?_, by simp, ?_, ?_⟩
  · have := finished_some ((List.range M).map fun j => entryAt r j)
    rwa [← e] at this
  · intro i hi
    obtain ⟨j, hj, rfl⟩ := List.mem_map.mp hi
    obtain ⟨i, hi, hr⟩ := h j (List.mem_range.mp hj)
    rw [entryAt_some hr]; exact hi
  · intro j hj
    simp [List.getD_eq_getElem?_getD, hj]

theorem attempts_mkDraws {as : List Attempt} {a0 : Attempt} {full : ℕ → ℝ} {ω : Ω} {R : ℕ} (hl : as.length = R) :
    (List.range R).map (mkDraws as a0 full ω).attempts = as := by
  apply List.ext_getElem?
  intro k
  by_cases hk : k < R
  · simp [mkDraws, hk, hl, List.getD_eq_getElem?_getD]
  · rw [List.getElem?_eq_none (by simpa using hk), List.getElem?_eq_none (by omega)]

theorem bound_partAt (x0 : P) (hgs : ∀ st ∈ pt, GoodStep N st) {n : ℕ} {st : Step P} (hst : pt[n]? = some st) {b : ℝ} {u : Slot U}
    (hb : ∀ x ∈ st.pa.part, ∀ x', lx n u x x' ≤ b) {l : ℕ} (hl : l < N) (x' : P) : lx n u (partAt x0 pt n l) x' ≤ b := by
  have hs := hgs st (List.mem_of_getElem? hst)
  refine hb _ ?_ x'
  have hl' : l < st.pa.part.length := by rw [hs.pa.part_len]; exact hl
  have : partAt x0 pt n l = st.pa.part[l] := by simp [partAt, hst, List.getD_eq_getElem?_getD, hl']
  rw [this]
  exact List.getElem_mem _

/-- `bsi_rs` draws from the smoothing weights. -/
theorem rs_pickLaw (hlx : Spec.LogDensity logpXnext lx) (rest : SmoothCallbacks P U Y V Ω) (hN : 0 < N) (hM : 0 < M) (x0 : P)
    (hgs : ∀ st ∈ pt, GoodStep N st)
    (hu : ∀ n, n + 1 < pt.length → D.u[n]? = some (us.getD n .none)) (ht : ∀ n, n + 1 < pt.length → D.t[n]? = some n) {mp : List ℝ}
    (hmp : ∀ n st, n + 1 < pt.length → pt[n]? = some st → ∃ b, mp[n]? = some b ∧ ∀ x ∈ st.pa.part, ∀ x', lx n (us.getD n .none) x x' ≤ b)
    (R fuel : ℕ) : PickLaw (ffbsi logpXnext rest) (.rs R mp) R fuel N M pt D us (drawKernel lx N x0) := by
  intro n st fut σ anc ω c W hn hst hne hfut _ _ hW
  obtain ⟨b, hb1, hb2⟩ := hmp n st hn hst
  have h := ffbsi_backStep hlx rest hN x0 hgs hst hfut hne (hu n hn) (ht n hn)
  have hv := rsTail_value h (maxpdf := b) (M := M) (fun l hl j _ => bound_partAt x0 hgs hst hb2 hl _) c R (res := List.replicate M none)
    (todo := List.range M) (W := W) (by simp; omega) List.nodup_range (by simp) (by simp) (fun x hx => List.mem_range.mp hx)
    (fun m hm hm' => absurd (List.mem_range.mpr hm) hm') ?_
  · rw [hv]
    refine Finset.sum_congr rfl fun j hj => ?_
    rw [if_pos (List.mem_range.mpr (Finset.mem_range.mp hj))]
    exact drawnValue_kernel hgs x0 hst σ _ _ c j
  · intro as full r hl hg hf hr hrl hrv
    obtain ⟨ind, f1, f2, f3, f4⟩ := finished_entries hrl hrv
    rw [hW as full ind ?_ f2 f3]
    · exact Finset.sum_congr rfl fun j hj => by rw [f4 j (Finset.mem_range.mp hj)]
    · have e : bsiRs (ffbsi logpXnext rest) st.pa ((pt.take n).map Step.toS) st.ancestors fut (List.range M) D n b R (mkDraws as noAttempt full ω) = .ok r := by
        rw [← hr]
        simp only [bsiRs, maxNormalised_eq (h.wf.w_ne h.pos), ok_bind, attempts_mkDraws hl, rsTail, List.length_range]
        congr 1
        funext x
        split
        · next hc =>
          have : x.2 = [] := List.length_eq_zero_iff.mp hc.1
          rw [this, rsFallback_nil]; rfl
        · rfl
      simp only [bsiPick, getIdx_ok.mpr hb1, ok_bind, e, f1, pure_eq_ok]

/-- `bsi_mcmc` moves the index of each trajectory by `R` steps of its chain. -/
theorem mcmc_pickLaw (hlx : Spec.LogDensity logpXnext lx) (rest : SmoothCallbacks P U Y V Ω) (hN : 0 < N) (hM : 0 < M) (x0 : P)
    (hgs : ∀ st ∈ pt, GoodStep N st)
    (hu : ∀ n, n + 1 < pt.length → D.u[n]? = some (us.getD n .none)) (ht : ∀ n, n + 1 < pt.length → D.t[n]? = some n)
    (R fuel : ℕ) : PickLaw (ffbsi logpXnext rest) (.mcmc R) R fuel N M pt D us (mcmcKernel lx R x0) := by
  intro n st fut σ anc ω c W hn hst hne hfut hal halt hW
  have h := ffbsi_backStep hlx rest hN x0 hgs hst hfut hne (hu n hn) (ht n hn)
  have hF : ∀ j ∈ List.range M, j < M := fun j hj => List.mem_range.mp hj
  rw [mcmc_value h hM le_rfl c R hal halt ?_]
  · refine Finset.sum_congr rfl fun j _ => ?_
    unfold chainValue
    rw [Finset.sum_range]
    refine Finset.sum_congr rfl fun i _ => ?_
    congr 2
    unfold mcmcKernel
    rw [show wsAt pt n = st.pa.w by simp [wsAt, hst]]
    exact chainT_congr (L := fun i j => lx n (us.getD n .none) (partAt x0 pt n i) (σ j (n + 1)))
      (L' := fun i _ => lx n (us.getD n .none) (partAt x0 pt n i) (σ j (n + 1))) (j := j) (j' := 0) _ (fun _ => rfl) _ _ _
  · intro as ind' hl hg hch hl2 hlt2
    have e : ∀ full, bsiPick (ffbsi logpXnext rest) (.mcmc R) st ((pt.take n).map Step.toS) fut (List.range M) D n anc
        (mkDraws as noAttempt full ω) fuel = .ok (some ind') := by
      intro full
      simp only [bsiPick]
      rw [bsiMcmc_eq h hF (by simpa using hal) halt, attempts_mkDraws hl, hch]
      rfl
    simp only [fun full => hW as full ind' (e full) hl2 hlt2, lintegral_const, measure_univ, mul_one]

/-- `bsi_rsas` draws from the smoothing weights, once its number of rounds is large enough. -/
theorem rsas_pickLaw (hlx : Spec.LogDensity logpXnext lx) (rest : SmoothCallbacks P U Y V Ω) (hN : 0 < N) (hM : 0 < M) (x0 : P)
    (hgs : ∀ st ∈ pt, GoodStep N st)
    (hu : ∀ n, n + 1 < pt.length → D.u[n]? = some (us.getD n .none)) (ht : ∀ n, n + 1 < pt.length → D.t[n]? = some n) {mp : List ℝ}
    (hmp : ∀ n st, n + 1 < pt.length → pt[n]? = some st → ∃ b, mp[n]? = some b ∧ ∀ x ∈ st.pa.part, ∀ x', lx n (us.getD n .none) x x' ≤ b)
    {o : RsasOpts} {B fuel : ℕ} (hB : Stops o N M Ω M (o.x1, o.P1) B) (hfuel : B ≤ fuel) :
    PickLaw (ffbsi logpXnext rest) (.rsas o mp) fuel fuel N M pt D us (drawKernel lx N x0) := by
  intro n st fut σ anc ω c W hn hst hne hfut _ _ hW
  obtain ⟨b, hb1, hb2⟩ := hmp n st hn hst
  have h := ffbsi_backStep hlx rest hN x0 hgs hst hfut hne (hu n hn) (ht n hn)
  have hstop : ∀ at_ : ℕ → Attempt, (∀ k, Unit01 (at_ k).r) →
      rsasLoop (ffbsi logpXnext rest) st.pa ((pt.take n).map Step.toS) st.ancestors fut D n (normWeights st.pa.w) b o at_ fuel 0 (List.range M)
        (List.replicate M none) o.x1 o.P1 ≠ .ok none := by
    intro at_ hat hnone
    have hd : GoodDraws (⟨at_, fun _ => 0, ω⟩ : BsiDraws Ω) := ⟨hat, fun _ => ⟨le_refl _, zero_lt_one⟩⟩
    obtain ⟨x, hx, -⟩ := hB.mono hfuel P U Y V _ _ _ _ _ _ _ _ h b ⟨at_, fun _ => 0, ω⟩ hd 0
      (List.replicate M none) (List.range M) (by simp) (RsInv.init _ b _ N _)
    simp only at hx
    rw [hx] at hnone
    cases hnone
  have hv := rsasTail_value h (maxpdf := b) (M := M) (fun l hl j _ => bound_partAt x0 hgs hst hb2 hl _) o noAttempt
    ⟨le_refl _, zero_lt_one⟩ c fuel (res := List.replicate M none)
    (todo := List.range M) (W := W) o.x1 o.P1 (by simp; omega) List.nodup_range (by simp) (by simp) (fun x hx => List.mem_range.mp hx)
    (fun m hm hm' => absurd (List.mem_range.mpr hm) hm') hstop ?_
  · rw [hv]
    refine Finset.sum_congr rfl fun j hj => ?_
    rw [if_pos (List.mem_range.mpr (Finset.mem_range.mp hj))]
    exact drawnValue_kernel hgs x0 hst σ _ _ c j
  · intro as full r hl hg hf hr hrl hrv
    obtain ⟨ind, f1, f2, f3, f4⟩ := finished_entries hrl hrv
    rw [hW as full ind ?_ f2 f3]
    · exact Finset.sum_congr rfl fun j hj => by rw [f4 j (Finset.mem_range.mp hj)]
    · have e : bsiRsas (ffbsi logpXnext rest) st.pa ((pt.take n).map Step.toS) st.ancestors fut (List.range M) D n b o (mkDraws as noAttempt full ω)
          fuel = .ok (some r) := by
        simp only [rsasTail] at hr
        simp only [bsiRsas, maxNormalised_eq (h.wf.w_ne h.pos), ok_bind, mkDraws, List.length_range]
        rcases hx : rsasLoop (ffbsi logpXnext rest) st.pa ((pt.take n).map Step.toS) st.ancestors fut D n (normWeights st.pa.w) b o
          (fun k => as.getD k noAttempt) fuel 0 (List.range M) (List.replicate M none) o.x1 o.P1 with e | x
        · rw [hx] at hr; cases hr
        · rw [hx] at hr
          rcases x with _ | ⟨res, todo⟩
          · cases hr
          · simp only [ok_bind] at hr ⊢
            by_cases hz : todo.length = 0
            · have : todo = [] := List.length_eq_zero_iff.mp hz
              subst this
              rw [rsFallback_nil] at hr
              simp [Except.ok.inj hr]
            · simp only [hz, if_false, hr, ok_bind, pure_eq_ok]
      simp only [bsiPick, getIdx_ok.mpr hb1, ok_bind, e, f1, pure_eq_ok]

end

/-! ### The backward loop -/

theorem futRep_cons {fut : List (SStep P)} {M n : ℕ} {σ : ℕ → ℕ → P} (hfut : FutRep fut M (n+1) σ) {x0 : P} {pt : List (Step P)} {st : Step P}
    (hst : pt[n]? = some st) {N : ℕ} (hs : GoodStep N st) {ind : List ℕ} (hl : ind.length = M) (hlt : ∀ i ∈ ind, i < N) {pa : PA P} {part : List P}
    (hpart : fancy st.pa.part ind = .ok part) (hpa : pa.part = part) (o : Option (List ℕ)) :
    FutRep (⟨pa, o⟩ :: fut) M n fun m => Function.update (σ m) n (partAt x0 pt n (ind.getD m 0)) := by
  intro j s' hj
  rcases j with _ | j
  · obtain rfl := Option.some.inj hj
    simp only [hpa]
    apply List.ext_getElem?
    intro m
    by_cases hm : m < M
    · have := ((fancy_spec.mp hpart).2 m ind[m] (List.getElem?_eq_getElem (by omega))).1
      rw [← this, List.getElem?_map, List.getElem?_range hm, Option.map_some, add_zero, Function.update_self]
      have hlt' : ind[m] < st.pa.part.length := by rw [hs.pa.part_len]; exact hlt _ (List.getElem_mem _)
      rw [List.getElem?_eq_getElem hlt']
      simp [partAt, hst, List.getD_eq_getElem?_getD, show m < ind.length by omega, hlt']
    · rw [List.getElem?_eq_none (by rw [(fancy_spec.mp hpart).1]; omega), List.getElem?_eq_none (by simpa using hm)]
  · rw [hfut j s' hj]
    refine List.map_congr_left fun m _ => ?_
    have : n + 1 + j = n + (j + 1) := by omega
    rw [this]
    exact (Function.update_of_ne (by omega) _ _).symm

theorem fancy_ancOf {pt : List (Step P)} {n : ℕ} {st : Step P} (hst : pt[n]? = some st) {ind anc : List ℕ} (h : fancy st.ancestors ind = .ok anc)
    {m : ℕ} (hm : m < ind.length) : anc.getD m 0 = ancOf pt n (ind.getD m 0) := by
  have h1 := ((fancy_spec.mp h).2 m ind[m] (List.getElem?_eq_getElem hm)).1
  have h2 : anc.length = ind.length := (fancy_spec.mp h).1
  rw [List.getD_eq_getElem?_getD, ← h1]
  simp [ancOf, hst, List.getD_eq_getElem?_getD, hm]

/-- The backward loop computes the operator of its sampler. -/
theorem bsiLoop_gop (logpXnext : List P → List P → Slot U → ℕ → PyM (List ℝ)) (rest : SmoothCallbacks P U Y V Ω) (φ : List P → ℝ≥0∞)
    {N M : ℕ} (hM : 0 < M) (x0 : P) {pt : List (Step P)} {K : ℕ} (hK : pt.length = K + 1) (hgs : ∀ st ∈ pt, GoodStep N st)
    {D : SData U Y} {us : List (Slot U)} {m : BsiMethod} {R fuel : ℕ} {T : List (Step P) → ℕ → Slot U → P → ℕ → ℕ → ℝ}
    (hT : PickLaw (ffbsi logpXnext rest) m R fuel N M pt D us T) (ω : ℕ → Ω) (n : ℕ) (hn : n ≤ K)
    (anc : List ℕ) (hal : anc.length = M) (halt : ∀ i ∈ anc, i < N) (fut : List (SStep P)) (hfl : n + fut.length = K + 1) (σ : ℕ → ℕ → P)
    (hfut : FutRep fut M n σ)
    (g : (ℕ → List Attempt × (ℕ → ℝ)) → ℕ → BsiDraws Ω) (hg : ∀ a t, t < n → g a t = mkDraws (a t).1 noAttempt (a t).2 (ω t)) :
    backDrawsE R n (fun a => pathMean φ M (bsiLoop (ffbsi logpXnext rest) m pt M D (g a) fuel n anc fut)) =
      ENNReal.ofReal (1 / M) * ∑ j ∈ Finset.range M, gop T N x0 pt us n (anc.getD j 0) (fun s => φ ((List.range (K+1)).map s)) (σ j) := by
  induction n generalizing anc fut σ g with
  | zero =>
    simp only [backDrawsE, bsiLoop, pathMean, gop]
    congr 1
    refine Finset.sum_congr rfl fun m hm => ?_
    congr 1
    unfold pathOf
    rw [filterMap_range fut _ (σ m)]
    · rw [show fut.length = K + 1 by omega]
    · intro t st hst
      rw [hfut t st hst, List.getElem?_map, List.getElem?_range (Finset.mem_range.mp hm), zero_add]; rfl
  | succ n ih =>
    have hn' : n < pt.length := by omega
    have hst : pt[n]? = some pt[n] := List.getElem?_eq_getElem hn'
    have hs := hgs pt[n] (List.getElem_mem _)
    have hne : fut ≠ [] := by intro h; rw [h] at hfl; simp at hfl; omega
    simp only [backDrawsE]
    rw [hT n pt[n] fut σ anc (ω n) (fun j i => ENNReal.ofReal (1 / M) * gop T N x0 pt us n (ancOf pt n i)
      (fun s => φ ((List.range (K+1)).map s)) (Function.update (σ j) n (partAt x0 pt n i))) _ (by omega) hst hne hfut hal halt ?_]
    · simp only [gop]
      rw [Finset.mul_sum]
      refine Finset.sum_congr rfl fun j _ => ?_
      rw [Finset.mul_sum]
      exact Finset.sum_congr rfl fun i _ => by ring
    · intro as v ind hpick hil hilt
      obtain ⟨anc', part, tmp, pa, e1, e2, e3, e4, e5, e6, e7, e9, e8⟩ := smoothStep_ok (S := ffbsi logpXnext rest) (D := D)
        (fun part _ _ _ _ _ _ => ⟨part, rfl, rfl⟩) hM hs hil hilt
        (some ((pt.take n).map Step.toS)) (some fut) (some (List.range M)) n (ω n)
      have htmp : tmp = part := (Except.ok.inj e3).symm
      have hloop : ∀ a, bsiLoop (ffbsi logpXnext rest) m pt M D (g (Function.update a n (as, v))) fuel (n+1) anc fut =
          bsiLoop (ffbsi logpXnext rest) m pt M D (g (Function.update a n (as, v))) fuel n anc' (⟨pa, some (List.range M)⟩ :: fut) := by
        intro a
        have hd : g (Function.update a n (as, v)) n = mkDraws as noAttempt v (ω n) := by rw [hg _ n (by omega), Function.update_self]
        rw [bsiLoop]
        simp only [getIdx_ok.mpr hst, ok_bind, hd, hpick, e1, e2, show (mkDraws as noAttempt v (ω n)).ω = ω n from rfl, e3, e4]
      simp only [hloop]
      rw [ih (by omega) anc' e5 e6 (⟨pa, some (List.range M)⟩ :: fut) (by simp only [List.length_cons]; omega)
        (fun m => Function.update (σ m) n (partAt x0 pt n (ind.getD m 0)))
        (futRep_cons hfut hst hs hil hilt e2 (e7.trans htmp) _) (fun a => g (Function.update a n (as, v))) ?_]
      · rw [Finset.mul_sum]
        refine Finset.sum_congr rfl fun j hj => ?_
        rw [fancy_ancOf hst e1 (by rw [hil]; exact Finset.mem_range.mp hj)]
      · intro a t htn
        rw [hg _ t (by omega), Function.update_of_ne (by omega)]

/-- A smoothing run that amounts to `perform_bsi` with sampler `m` computes the operator of `m`. -/
theorem smoothRoundsE_gop (logpXnext : List P → List P → Slot U → ℕ → PyM (List ℝ)) (rest : SmoothCallbacks P U Y V Ω) {M : ℕ} (hM : 0 < M)
    {method : String} (user : Option SOpts) (d : AllDraws Ω) (φ : List P → ℝ≥0∞) {N : ℕ} (hN : 0 < N) (x0 : P) {s : PT P U Y} {K : ℕ}
    (hK : s.traj.length = K + 1) (hgs : ∀ st ∈ s.traj, GoodStep N st) {last : Step P} (hlast : s.traj.getLast? = some last) {w : Fin N → ℝ}
    (hw : last.pa.w = List.ofFn w) {us : List (Slot U)} {m : BsiMethod} {R fuel : ℕ} {T : List (Step P) → ℕ → Slot U → P → ℕ → ℕ → ℝ}
    (hT : PickLaw (ffbsi logpXnext rest) m R fuel N M s.traj ⟨s.uvec, s.yvec, s.tvec⟩ us T)
    (hm : ∀ d, performSmoothing (ffbsi logpXnext rest) s.traj M ⟨s.uvec, s.yvec, s.tvec⟩ method user d fuel =
      performBsi (ffbsi logpXnext rest) (.ok m) s.traj M ⟨s.uvec, s.yvec, s.tvec⟩ d.bsi fuel) :
    smoothRoundsE R (ffbsi logpXnext rest) M method user d fuel (pathMean φ M) s =
      ∑ i, ENNReal.ofReal (exp (w i) / ∑ j, exp (w j)) * gopE T N x0 s.traj us (fun s => φ ((List.range (K+1)).map s)) i := by
  have hlk := getLast_index hK hlast
  have hs := hgs last (List.mem_of_getElem? hlk)
  unfold smoothRoundsE
  refine lintegral_ends hN hM w (fun i => gop T N x0 s.traj us K (ancOf s.traj K i) (fun s => φ ((List.range (K+1)).map s))
    (Function.update (fun _ => x0) K (partAt x0 s.traj K i))) _ ?_ |>.trans ?_
  · intro r ind h0 h1 hind hindl
    obtain ⟨ind', f1, f2, f3, f4⟩ := drawEnd_ok hs hN M (r := r) ⟨h0.le, h1⟩
    rw [hw, hind] at f2
    obtain rfl := Except.ok.inj f2
    obtain ⟨anc, part, tmp, pa, e1, e2, e3, e4, e5, e6, e7, e9, e8⟩ := smoothStep_ok (S := ffbsi logpXnext rest) (D := ⟨s.uvec, s.yvec, s.tvec⟩)
      (fun part _ _ _ _ _ _ => ⟨part, rfl, rfl⟩) hM hs hindl f4 (some ((s.traj.take K).map Step.toS)) none none K d.bsi.ω0
    have htmp : tmp = part := (Except.ok.inj e3).symm
    have hp : ∀ a, performSmoothing (ffbsi logpXnext rest) s.traj M ⟨s.uvec, s.yvec, s.tvec⟩ method user (withRounds d r a) fuel =
        bsiLoop (ffbsi logpXnext rest) m s.traj M ⟨s.uvec, s.yvec, s.tvec⟩ (withRounds d r a).bsi.step fuel K anc [⟨pa, some (List.range M)⟩] := by
      intro a
      rw [hm]
      simp only [performBsi, getLast_ok.mpr hlast, ok_bind,
        show drawEnd last M (withRounds d r a).bsi.r0 = .ok ind from f1, e1, e2, hK, Nat.add_sub_cancel,
        show (withRounds d r a).bsi.ω0 = d.bsi.ω0 from rfl, e3, e4]
    simp only [hp]
    rw [hK, Nat.add_sub_cancel]
    rw [bsiLoop_gop logpXnext rest φ hM x0 hK hgs hT (fun t => (d.bsi.step t).ω) K le_rfl anc e5 e6 [⟨pa, some (List.range M)⟩] rfl
      (fun m => Function.update (fun _ => x0) K (partAt x0 s.traj K (ind.getD m 0))) ?_ (fun a => (withRounds d r a).bsi.step) (fun _ _ _ => rfl)]
    · congr 1
      refine Finset.sum_congr rfl fun j hj => ?_
      rw [fancy_ancOf hlk e1 (by rw [hindl]; exact Finset.mem_range.mp hj)]
    · exact futRep_cons (fut := []) (σ := fun _ _ => x0) (fun j s hj => by simp at hj) hlk hs hindl f4 e2 (e7.trans htmp) _
  · refine Finset.sum_congr rfl fun i _ => ?_
    unfold gopE
    rw [hK, Nat.add_sub_cancel]

end PyPE

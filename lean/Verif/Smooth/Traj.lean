import Verif.Smooth.Rsas
import Verif.Smooth.Mcmc
import Verif.Filter.Cond

/-!
# C28, C33: whole smoothing runs (`perform_ancestors`, `perform_bsi`)
-/

namespace PyPE
open Real Spec

variable {P U Y V Ω : Type}

/-- The stored run handed to a smoother: at least one step, all well formed with `N > 0` particles (that is what the
filter produces, see C21 and C11). -/
structure Spec.GoodRun (N : ℕ) (pt : List (Step P)) : Prop where
  pos : 0 < N
  ne : pt ≠ []
  steps : ∀ st ∈ pt, GoodStep N st

/-- A model whose `sample_smooth` accepts every call and returns one particle per particle (the contract stated in
interfaces.py:393-424). -/
def Spec.SamplesAll (S : SmoothCallbacks P U Y V Ω) (D : SData U Y) : Prop :=
  ∀ part ptraj anc fut find cur ω, ∃ out, S.sampleSmooth part ptraj anc fut find D cur ω = .ok out ∧
    out.length = part.length

/-- A model whose `sample_smooth` is the default: it returns the particles it is given. -/
def Spec.PlainSmooth (S : SmoothCallbacks P U Y V Ω) (D : SData U Y) : Prop :=
  ∀ part ptraj anc fut find cur ω, S.sampleSmooth part ptraj anc fut find D cur ω = .ok part

/-- A model that has a transition density for every step of the run, given `M` future trajectories. -/
def Spec.HasDensity (S : SmoothCallbacks P U Y V Ω) (pt : List (Step P)) (D : SData U Y) (M : ℕ) : Prop :=
  ∀ cur st fut, pt[cur]? = some st → cur + fut.length + 1 = pt.length → (∀ s ∈ fut, s.pa.part.length = M) →
    ∃ L, BackwardDensity S st.pa ((pt.take cur).map Step.toS) st.ancestors fut D cur M L

/-- What the sampler needs: a bound for every time but the last, and for 'rsas' a usable stopping rule. -/
def Spec.UsableMethod (T : ℕ) : BsiMethod → Prop
  | .full => True
  | .mcmc _ => True
  | .rs _ mp => T ≤ mp.length + 1
  | .rsas o mp => GoodOpts o ∧ T ≤ mp.length + 1

/-- All draws are values `numpy.random.rand` can return. -/
structure Spec.GoodSmoothDraws (d : SmoothDraws Ω) : Prop where
  r0 : Unit01 d.r0
  step : ∀ t, GoodDraws (d.step t)

/-- `s` is the smoothed step for the filter step `st`: `M` equally weighted trajectories, in order, each made by
`sample_smooth` from a particle of `st`. -/
structure Spec.SmoothedStep (S : SmoothCallbacks P U Y V Ω) (D : SData U Y) (M : ℕ) (st : Step P) (s : SStep P) :
    Prop where
  wf : s.pa.WF M
  w : s.pa.w = List.replicate M (-Real.log M)
  anc : s.ancestors = some (List.range M)
  made : ∃ part ptraj anc fut find cur ω, (∀ x ∈ part, x ∈ st.pa.part) ∧
    S.sampleSmooth part ptraj anc fut find D cur ω = .ok s.pa.part

variable {S : SmoothCallbacks P U Y V Ω} {pt : List (Step P)} {D : SData U Y} {N M : ℕ}

theorem finished_ok {r : List (Option ℕ)} {M N : ℕ} (hl : r.length = M)
    (h : ∀ j < M, ∃ i, r[j]? = some (some i) ∧ i < N) :
    ∃ ind, finished r = .ok ind ∧ ind.length = M ∧ ∀ i ∈ ind, i < N := by
  have hok : ∃ ind, finished r = .ok ind := by
    apply mapM_ok
    intro x hx
    obtain ⟨j, hj, rfl⟩ := List.getElem_of_mem hx
    obtain ⟨i, h1, -⟩ := h j (by omega)
    rw [List.getElem?_eq_getElem hj, Option.some.injEq] at h1
    exact ⟨i, by rw [h1]⟩
  obtain ⟨ind, hind⟩ := hok
  obtain ⟨h1, h2⟩ := mapM_ok_iff.mp hind
  refine ⟨ind, hind, h1.trans hl, ?_⟩
  intro i hi
  obtain ⟨j, hj⟩ := List.mem_iff_getElem?.mp hi
  have hjM : j < M := by
    have := (List.getElem?_eq_some_iff.mp hj).1
    omega
  obtain ⟨i', h3, h4⟩ := h j hjM
  obtain ⟨y, h5, h6⟩ := h2 j _ h3
  rw [hj] at h5
  cases h5
  cases h6
  exact h4

/-- Every sampler returns `M` valid indices, after a number of rounds that does not depend on the model. -/
theorem bsiPick_ok {T : ℕ} {m : BsiMethod} (hm : UsableMethod T m) (hN : 0 < N) (M : ℕ) :
    ∃ B, ∀ (S : SmoothCallbacks P U Y V Ω) (st : Step P) (ptraj fut : List (SStep P)) (D : SData U Y) (cur : ℕ)
      (L : ℕ → ℕ → ℝ) (anc : List ℕ) (d : BsiDraws Ω), GoodStep N st →
      BackwardDensity S st.pa ptraj st.ancestors fut D cur M L → cur + 1 < T → GoodDraws d →
      anc.length = M → (∀ i ∈ anc, i < N) →
      ∃ ind, (∀ fuel, B ≤ fuel →
        bsiPick S m st ptraj fut (List.range M) D cur anc d fuel = .ok (some ind)) ∧
        ind.length = M ∧ ∀ i ∈ ind, i < N := by
  have back : ∀ (S : SmoothCallbacks P U Y V Ω) (st : Step P) (ptraj fut : List (SStep P)) (D : SData U Y) (cur : ℕ)
      (L : ℕ → ℕ → ℝ), GoodStep N st → BackwardDensity S st.pa ptraj st.ancestors fut D cur M L →
      BackStep S st.pa ptraj st.ancestors fut D cur N M L :=
    fun S st ptraj fut D cur L hs hL => ⟨hN, hs.pa, hs.anc_len, hL⟩
  cases m with
  | full =>
    refine ⟨0, fun S st ptraj fut D cur L anc d hs hL hc hd ha hlt => ?_⟩
    obtain ⟨res, h1, h2, h3, -⟩ := C29_bsi_full (back S st ptraj fut D cur L hs hL) (find := List.range M)
      (fun j hj => List.mem_range.mp hj) hd.full
    exact ⟨res, fun _ _ => by simp only [bsiPick, h1, ok_bind]; rfl, by simpa using h2, h3⟩
  | mcmc R =>
    refine ⟨0, fun S st ptraj fut D cur L anc d hs hL hc hd ha hlt => ?_⟩
    obtain ⟨res, h1, h2, h3, -⟩ := C32_mcmc_valid (back S st ptraj fut D cur L hs hL) (find := List.range M)
      (fun j hj => List.mem_range.mp hj) (anc := anc) (by simpa using ha) hlt R hd
    exact ⟨res, fun _ _ => by simp only [bsiPick, h1, ok_bind]; rfl, by simpa using h2, h3⟩
  | rs k mp =>
    refine ⟨0, fun S st ptraj fut D cur L anc d hs hL hc hd ha hlt => ?_⟩
    have hcur : cur < mp.length := by simp only [UsableMethod] at hm; omega
    obtain ⟨res, h1, h2, h3⟩ := C30_rs_every_entry (back S st ptraj fut D cur L hs hL) (find := List.range M)
      (by simp) mp[cur] k hd
    obtain ⟨ind, h4, h5, h6⟩ := finished_ok (M := M) (N := N) (by simpa using h2) fun j hj => by
      obtain ⟨i, e1, e2, -⟩ := h3 j (by simpa using hj)
      exact ⟨i, e1, e2⟩
    exact ⟨ind, fun _ _ => by simp only [bsiPick, getIdx_of_lt hcur, h1, h4, ok_bind]; rfl, h5, h6⟩
  | rsas o mp =>
    obtain ⟨B, hB⟩ := C31_rsas_terminates (Ω := Ω) hm.1 hN M
    refine ⟨B, fun S st ptraj fut D cur L anc d hs hL hc hd ha hlt => ?_⟩
    have hcur : cur < mp.length := by have := hm.2; omega
    obtain ⟨res, h1, h2, h3⟩ := hB P U Y V S st.pa ptraj st.ancestors fut D cur L (back S st ptraj fut D cur L hs hL)
      mp[cur] d hd (List.range M) (by simp)
    obtain ⟨ind, h4, h5, h6⟩ := finished_ok (M := M) (N := N) h2 fun j hj => by
      obtain ⟨i, e1, e2, -⟩ := h3 j hj
      exact ⟨i, e1, e2⟩
    exact ⟨ind, fun fuel hf => by simp only [bsiPick, getIdx_of_lt hcur, h1 fuel hf, h4, ok_bind]; rfl, h5, h6⟩

theorem drawEnd_ok {last : Step P} (hs : GoodStep N last) (hN : 0 < N) (M : ℕ) {r : ℝ} (hr : Unit01 r) :
    ∃ ind, drawEnd last M r = .ok ind ∧ sample (last.pa.w.map exp) M r = .ok ind ∧ ind.length = M ∧
      ∀ i ∈ ind, i < N := by
  have hne := hs.pa.w_ne hN
  obtain ⟨ind, h1, h2, h3⟩ := C01_sample_length_range (normWeights_weights hne) M hr
  refine ⟨ind, by simp only [drawEnd, maxNormalised_eq hne, ok_bind, h1], ?_, h2, ?_⟩
  · rw [← sample_normWeights _ hne]; exact h1
  · rw [normWeights_length, hs.pa.w_len] at h3; exact h3

/-- One smoothed step is made from valid indices. -/
theorem smoothStep_ok (hsm : SamplesAll S D) (hM : 0 < M) {st : Step P} (hs : GoodStep N st) {ind : List ℕ}
    (hl : ind.length = M) (hlt : ∀ i ∈ ind, i < N) (ptraj : Option (List (SStep P))) (fut : Option (List (SStep P)))
    (find : Option (List ℕ)) (cur : ℕ) (ω : Ω) :
    ∃ anc part tmp pa, fancy st.ancestors ind = .ok anc ∧ fancy st.pa.part ind = .ok part ∧
      S.sampleSmooth part ptraj anc fut find D cur ω = .ok tmp ∧ PA.new tmp none = .ok pa ∧
      anc.length = M ∧ (∀ i ∈ anc, i < N) ∧ pa.part = tmp ∧ part.length = M ∧
      SmoothedStep S D M st ⟨pa, some (List.range M)⟩ := by
  obtain ⟨anc, ha⟩ := fancy_ok (a := st.ancestors) (ind := ind) (by rw [hs.anc_len]; exact hlt)
  obtain ⟨part, hp⟩ := fancy_ok (a := st.pa.part) (ind := ind) (by rw [hs.pa.part_len]; exact hlt)
  obtain ⟨tmp, ht, htl⟩ := hsm part ptraj anc fut find cur ω
  have hpl : part.length = M := (fancy_spec.mp hp).1.trans hl
  obtain ⟨pa, h1, h2, h3, h4, -⟩ := PA.new_none_wf (htl.trans hpl) hM
  refine ⟨anc, part, tmp, pa, ha, hp, ht, h1, (fancy_spec.mp ha).1.trans hl, ?_, h3, hpl, ⟨h2, h4, rfl, ?_⟩⟩
  · exact fun i hi => hs.anc_lt i (fancy_mem ha i hi)
  · exact ⟨part, ptraj, anc, fut, find, cur, ω, fancy_mem hp, by rw [ht, h3]⟩

/-- `traj` is the list of smoothed steps for the filter steps from time `n` on. -/
def SmoothedFrom (S : SmoothCallbacks P U Y V Ω) (D : SData U Y) (M : ℕ) (pt : List (Step P)) (n : ℕ)
    (traj : List (SStep P)) : Prop :=
  n + traj.length = pt.length ∧
  ∀ k, k < traj.length → ∃ st s, pt[n + k]? = some st ∧ traj[k]? = some s ∧ SmoothedStep S D M st s

theorem SmoothedFrom.cons {n : ℕ} {traj : List (SStep P)} (h : SmoothedFrom S D M pt (n + 1) traj) {st : Step P}
    {s : SStep P} (h1 : pt[n]? = some st) (h2 : SmoothedStep S D M st s) : SmoothedFrom S D M pt n (s :: traj) := by
  refine ⟨by simp only [List.length_cons]; have := h.1; omega, ?_⟩
  intro k hk
  cases k with
  | zero => exact ⟨st, s, h1, rfl, h2⟩
  | succ k =>
    obtain ⟨st', s', e1, e2, e3⟩ := h.2 k (by simpa using hk)
    exact ⟨st', s', by rw [← e1]; congr 1; omega, by simpa using e2, e3⟩

theorem bsiLoop_ok (hpt : GoodRun N pt) (hsm : SamplesAll S D) (hden : HasDensity S pt D M) (hM : 0 < M)
    {m : BsiMethod} {draws : ℕ → BsiDraws Ω} (hd : ∀ t, GoodDraws (draws t)) {B : ℕ}
    (hB : ∀ (S : SmoothCallbacks P U Y V Ω) (st : Step P) (ptraj fut : List (SStep P)) (D : SData U Y) (cur : ℕ)
      (L : ℕ → ℕ → ℝ) (anc : List ℕ) (d : BsiDraws Ω), GoodStep N st →
      BackwardDensity S st.pa ptraj st.ancestors fut D cur M L → cur + 1 < pt.length → GoodDraws d →
      anc.length = M → (∀ i ∈ anc, i < N) →
      ∃ ind, (∀ fuel, B ≤ fuel →
        bsiPick S m st ptraj fut (List.range M) D cur anc d fuel = .ok (some ind)) ∧
        ind.length = M ∧ ∀ i ∈ ind, i < N)
    (n : ℕ) (hn : n < pt.length) {anc : List ℕ} (ha : anc.length = M) (hlt : ∀ i ∈ anc, i < N)
    {fut : List (SStep P)} (hf : SmoothedFrom S D M pt n fut) :
    ∃ traj, (∀ fuel, B ≤ fuel → bsiLoop S m pt M D draws fuel n anc fut = .ok (some traj)) ∧
      SmoothedFrom S D M pt 0 traj := by
  induction n generalizing anc fut with
  | zero => exact ⟨fut, fun _ _ => rfl, hf⟩
  | succ n ih =>
    have hn' : n < pt.length := by omega
    have hs := hpt.steps pt[n] (List.getElem_mem _)
    have hfl : ∀ s ∈ fut, s.pa.part.length = M := by
      intro s hs
      obtain ⟨k, hk, rfl⟩ := List.getElem_of_mem hs
      obtain ⟨st, s, -, e2, e3⟩ := hf.2 k hk
      rw [List.getElem?_eq_getElem hk, Option.some.injEq] at e2
      rw [e2]; exact e3.wf.part_len
    obtain ⟨L, hL⟩ := hden n pt[n] fut (List.getElem?_eq_getElem hn') (by have := hf.1; omega) hfl
    obtain ⟨ind, h1, h2, h3⟩ := hB S pt[n] ((pt.take n).map Step.toS) fut D n L anc (draws n) hs hL hn
      (hd n) ha hlt
    obtain ⟨anc', part, tmp, pa, e1, e2, e3, e4, e5, e6, e7, -, e8⟩ := smoothStep_ok hsm hM hs h2 h3
      (some ((pt.take n).map Step.toS)) (some fut) (some (List.range M)) n (draws n).ω
    obtain ⟨traj, h4, h5⟩ := ih hn' e5 e6 (hf.cons (List.getElem?_eq_getElem hn') e8)
    refine ⟨traj, fun fuel hfuel => ?_, h5⟩
    simp only [bsiLoop, getIdx_of_lt hn', ok_bind, h1 fuel hfuel, e1, e2, e3, e4]
    exact h4 fuel hfuel

theorem lastStep (hpt : GoodRun N pt) : ∃ T st, pt.length = T + 1 ∧ pt[T]? = some st ∧ getLast pt = .ok st ∧
    GoodStep N st := by
  have hl : 0 < pt.length := List.length_pos_of_ne_nil hpt.ne
  refine ⟨pt.length - 1, pt[pt.length - 1], by omega, List.getElem?_eq_getElem _, ?_, hpt.steps _ (List.getElem_mem _)⟩
  rw [getLast_ok, List.getLast?_eq_getElem?, List.getElem?_eq_getElem]

theorem SmoothedFrom.last {T : ℕ} (hT : pt.length = T + 1) {st : Step P} (h : pt[T]? = some st) {s : SStep P}
    (hs : SmoothedStep S D M st s) : SmoothedFrom S D M pt T [s] :=
  ⟨by simp [hT], fun k hk => by
    simp only [List.length_singleton, Nat.lt_one_iff] at hk
    subst hk
    exact ⟨st, s, h, rfl, hs⟩⟩

/-- C33: for every stored run, every model with a transition density and every draw, backward simulation ('full',
'mcmc', 'rs', 'rsas') succeeds (for 'rsas' after a bounded number of rounds) and returns one step per time, with exactly
`M` equally weighted trajectories, each state made by `sample_smooth` from a particle the filter stored for that
time. -/
theorem C33_backward_simulation (hpt : GoodRun N pt) (hsm : SamplesAll S D) (hden : HasDensity S pt D M) (hM : 0 < M)
    {m : BsiMethod} (hm : UsableMethod pt.length m) {d : SmoothDraws Ω} (hd : GoodSmoothDraws d) :
    ∃ traj B, (∀ fuel, B ≤ fuel → performBsi S (.ok m) pt M D d fuel = .ok (some traj)) ∧
      traj.length = pt.length ∧
      ∀ t, t < pt.length → ∃ st s, pt[t]? = some st ∧ traj[t]? = some s ∧ SmoothedStep S D M st s := by
  obtain ⟨T, st, hT, hst, hlast, hs⟩ := lastStep hpt
  obtain ⟨ind, h1, -, h2, h3⟩ := drawEnd_ok hs hpt.pos M hd.r0
  obtain ⟨anc, part, tmp, pa, e1, e2, e3, e4, e5, e6, e7, -, e8⟩ := smoothStep_ok hsm hM hs h2 h3
    (some ((pt.take T).map Step.toS)) none none T d.ω0
  obtain ⟨B, hB⟩ := bsiPick_ok (P := P) (U := U) (Y := Y) (V := V) (Ω := Ω) hm hpt.pos M
  obtain ⟨traj, h4, h5⟩ := bsiLoop_ok hpt hsm hden hM hd.step hB T (by omega) e5 e6 (SmoothedFrom.last hT hst e8)
  refine ⟨traj, B, fun fuel hf => ?_, by have := h5.1; omega, fun t ht => ?_⟩
  · simp only [performBsi, hlast, ok_bind, h1, e1, e2, hT, Nat.add_sub_cancel, e3, e4]
    exact h4 fuel hf
  · have := h5.2 t (by have := h5.1; omega)
    simpa using this

/-- A lineage: `idx t` is the particle at time `t` from which `idx (t+1)` was propagated, for all `t < n`. -/
def Spec.Lineage (pt : List (Step P)) (n : ℕ) (idx : ℕ → ℕ) : Prop :=
  ∀ t, t < n → ∃ st, pt[t + 1]? = some st ∧ st.ancestors[idx (t + 1)]? = some (idx t)

theorem ancLoop_ok (hpt : GoodRun N pt) (hsm : SamplesAll S D) (hM : 0 < M) (ω : ℕ → Ω)
    (n : ℕ) (hn : n ≤ pt.length) {ind : List ℕ} (ha : ind.length = M) (hlt : ∀ i ∈ ind, i < N)
    {fut : List (SStep P)} (hf : SmoothedFrom S D M pt n fut) :
    ∃ traj, ancLoop S pt M D ω n ind fut = .ok traj ∧ SmoothedFrom S D M pt 0 traj ∧
      (PlainSmooth S D → (∀ k, traj[n + k]? = fut[k]?) ∧ ∀ j i : ℕ, ind[j]? = some i → ∃ idx : ℕ → ℕ,
        (∀ t, n ≤ t + 1 → idx t = i) ∧ Lineage pt (n - 1) idx ∧
        ∀ t, t < n → ∃ st s x, pt[t]? = some st ∧ traj[t]? = some s ∧ st.pa.part[idx t]? = some x ∧
          s.pa.part[j]? = some x) := by
  induction n generalizing ind fut with
  | zero =>
    exact ⟨fut, rfl, hf, fun _ => ⟨by simp, fun j i _ => ⟨fun _ => i, fun _ _ => rfl, fun t ht => by omega,
      fun t ht => by omega⟩⟩⟩
  | succ n ih =>
    have hn' : n < pt.length := by omega
    have hs := hpt.steps pt[n] (List.getElem_mem _)
    obtain ⟨anc, part, tmp, pa, e1, e2, e3, e4, e5, e6, e7, e9, e8⟩ := smoothStep_ok hsm hM hs ha hlt
      (some ((pt.take n).map Step.toS)) (some fut) (some (List.range M)) n (ω n)
    obtain ⟨traj, h4, h5, h6⟩ := ih (by omega) e5 e6 (hf.cons (List.getElem?_eq_getElem hn') e8)
    refine ⟨traj, by simp only [ancLoop, getIdx_of_lt hn', ok_bind, e1, e2, e3, e4]; exact h4, h5, fun hpl => ?_⟩
    obtain ⟨h7, h8⟩ := h6 hpl
    have htmp : tmp = part := by rw [hpl] at e3; cases e3; rfl
    refine ⟨fun k => ?_, fun j i hj => ?_⟩
    · have := h7 (k + 1)
      rw [List.getElem?_cons_succ] at this
      rw [← this]; congr 1; omega
    obtain ⟨hjl, -⟩ := List.getElem?_eq_some_iff.mp hj
    have hjM : j < anc.length := by omega
    have ha' := (fancy_spec.mp e1).2 j i hj
    have hp' := (fancy_spec.mp e2).2 j i hj
    obtain ⟨idx, g1, g2, g3⟩ := h8 j anc[j] (List.getElem?_eq_getElem hjM)
    refine ⟨fun t => if t < n then idx t else i, fun t ht => if_neg (by omega), ?_, ?_⟩
    · intro t ht
      simp only [Nat.add_sub_cancel] at ht
      simp only [ht, if_true]
      by_cases ht1 : t + 1 < n
      · obtain ⟨st, q1, q2⟩ := g2 t (by omega)
        exact ⟨st, q1, by simpa [ht1] using q2⟩
      · have : t + 1 = n := by omega
        subst this
        refine ⟨pt[t + 1], List.getElem?_eq_getElem hn', ?_⟩
        simp only [lt_irrefl, if_false]
        rw [ha'.1, List.getElem?_eq_getElem hjM, g1 t le_rfl]
    · intro t ht
      by_cases htn : t < n
      · simp only [htn, if_true]
        exact g3 t htn
      · have : t = n := by omega
        subst this
        simp only [lt_irrefl, if_false]
        have hjp : j < part.length := by omega
        refine ⟨pt[t], ⟨pa, some (List.range M)⟩, part[j], List.getElem?_eq_getElem hn', ?_, ?_, ?_⟩
        · have := h7 0
          simpa using this
        · rw [hp'.1, List.getElem?_eq_getElem hjp]
        · simp only [e7, htmp]
          exact List.getElem?_eq_getElem hjp

/-- C33 for the ancestor method (also the initialisation of 'mhips'), which needs no density; and C28: if
`sample_smooth` returns its input, then trajectory `j` is a lineage. -/
theorem ancestors_ok (hpt : GoodRun N pt) (hsm : SamplesAll S D) (hM : 0 < M) {d : SmoothDraws Ω}
    (hr : Unit01 d.r0) :
    ∃ traj ind last, performAncestorsInt S pt M D d = .ok traj ∧ pt.getLast? = some last ∧
      sample (last.pa.w.map exp) M d.r0 = .ok ind ∧ ind.length = M ∧
      SmoothedFrom S D M pt 0 traj ∧
      (PlainSmooth S D → ∀ j i : ℕ, ind[j]? = some i → ∃ idx : ℕ → ℕ, idx (pt.length - 1) = i ∧
        Lineage pt (pt.length - 1) idx ∧
        ∀ t, t < pt.length → ∃ st s x, pt[t]? = some st ∧ traj[t]? = some s ∧ st.pa.part[idx t]? = some x ∧
          s.pa.part[j]? = some x) := by
  obtain ⟨T, last, hT, hst, hlast, hs⟩ := lastStep hpt
  obtain ⟨ind, h1, h1', h2, h3⟩ := drawEnd_ok hs hpt.pos M hr
  obtain ⟨anc, part, tmp, pa, e1, e2, e3, e4, e5, e6, e7, e9, e8⟩ := smoothStep_ok hsm hM hs h2 h3
    (some ((pt.take T).map Step.toS)) none none T d.ω0
  obtain ⟨traj, h4, h5, h6⟩ := ancLoop_ok hpt hsm hM (fun t => (d.step t).ω) T (by omega) e5 e6
    (SmoothedFrom.last hT hst e8)
  refine ⟨traj, ind, last, ?_, getLast_ok.mp hlast, h1', h2, h5, fun hpl j i hj => ?_⟩
  · simp only [performAncestorsInt, calculateAncestors, hlast, ok_bind, h1, e1, e2, hT, Nat.add_sub_cancel, e3, e4, h2]
    exact h4
  · obtain ⟨h7, h8⟩ := h6 hpl
    have htmp : tmp = part := by rw [hpl] at e3; cases e3; rfl
    obtain ⟨hjl, -⟩ := List.getElem?_eq_some_iff.mp hj
    have hjM : j < anc.length := by omega
    have ha' := (fancy_spec.mp e1).2 j i hj
    have hp' := (fancy_spec.mp e2).2 j i hj
    obtain ⟨idx, g1, g2, g3⟩ := h8 j anc[j] (List.getElem?_eq_getElem hjM)
    rw [hT, Nat.add_sub_cancel]
    refine ⟨fun t => if t < T then idx t else i, if_neg (lt_irrefl _), ?_, ?_⟩
    · intro t ht
      simp only [ht, if_true]
      by_cases ht1 : t + 1 < T
      · obtain ⟨st, q1, q2⟩ := g2 t (by omega)
        exact ⟨st, q1, by simpa [ht1] using q2⟩
      · have : t + 1 = T := by omega
        subst this
        refine ⟨last, hst, ?_⟩
        simp only [lt_irrefl, if_false]
        rw [ha'.1, List.getElem?_eq_getElem hjM, g1 t le_rfl]
    · intro t ht
      by_cases htn : t < T
      · simp only [htn, if_true]
        exact g3 t htn
      · have : t = T := by omega
        subst this
        simp only [lt_irrefl, if_false]
        have hjp : j < part.length := by omega
        refine ⟨last, ⟨pa, some (List.range M)⟩, part[j], hst, ?_, ?_, ?_⟩
        · have := h7 0
          simpa using this
        · rw [hp'.1, List.getElem?_eq_getElem hjp]
        · simp only [e7, htmp]
          exact List.getElem?_eq_getElem hjp

/-- C28: with the default `sample_smooth`, method 'ancestor' draws `M` particles of the last step by systematic
resampling from the filter weights, and trajectory `j` is the lineage of the `j`-th of them: the filter particles
reached by following the stored ancestor indices back in time. -/
theorem C28_ancestor_lineage (hpt : GoodRun N pt) (hpl : PlainSmooth S D) (hM : 0 < M) {d : SmoothDraws Ω}
    (hr : Unit01 d.r0) :
    ∃ traj ind last, performAncestorsInt S pt M D d = .ok traj ∧ traj.length = pt.length ∧
      pt.getLast? = some last ∧ sample (last.pa.w.map exp) M d.r0 = .ok ind ∧ ind.length = M ∧
      ∀ j i : ℕ, ind[j]? = some i → ∃ idx : ℕ → ℕ, idx (pt.length - 1) = i ∧ Lineage pt (pt.length - 1) idx ∧
        ∀ t, t < pt.length → ∃ st s x, pt[t]? = some st ∧ traj[t]? = some s ∧ st.pa.part[idx t]? = some x ∧
          s.pa.part[j]? = some x := by
  obtain ⟨traj, ind, last, h1, h2, h3, h4, h5, h6⟩ := ancestors_ok hpt (fun part ptraj anc fut find cur ω =>
    ⟨part, hpl part ptraj anc fut find cur ω, rfl⟩) hM hr
  exact ⟨traj, ind, last, h1, by have := h5.1; omega, h2, h3, h4, h6 hpl⟩

/-- C33 for method 'ancestor'. -/
theorem C33_ancestor (hpt : GoodRun N pt) (hsm : SamplesAll S D) (hM : 0 < M) {d : SmoothDraws Ω}
    (hr : Unit01 d.r0) :
    ∃ traj, performAncestorsInt S pt M D d = .ok traj ∧ traj.length = pt.length ∧
      ∀ t, t < pt.length → ∃ st s, pt[t]? = some st ∧ traj[t]? = some s ∧ SmoothedStep S D M st s := by
  obtain ⟨traj, ind, last, h1, h2, h3, h4, h5, h6⟩ := ancestors_ok hpt hsm hM hr
  refine ⟨traj, h1, by have := h5.1; omega, fun t ht => ?_⟩
  have := h5.2 t (by have := h5.1; omega)
  simpa using this

/-- C33: with the default `sample_smooth` a smoothed step consists of `M` particles the filter stored for that time. -/
theorem C33_smoothed_are_filter_particles (hpl : PlainSmooth S D) {st : Step P} {s : SStep P}
    (h : SmoothedStep S D M st s) : s.pa.part.length = M ∧ ∀ x ∈ s.pa.part, x ∈ st.pa.part := by
  obtain ⟨part, ptraj, anc, fut, find, cur, ω, h1, h2⟩ := h.made
  rw [hpl] at h2
  cases h2
  exact ⟨h.wf.part_len, h1⟩

/-- C33 (boundary): asking for `M = 0` trajectories never works: `ValueError` (from `math.log(0)`), if the model accepts
empty arrays at all. -/
theorem C33_zero_trajectories (hpt : GoodRun N pt) (hpl : PlainSmooth S D) (opts : PyM BsiMethod) {d : SmoothDraws Ω}
    (hr : Unit01 d.r0) (fuel : ℕ) :
    performBsi S opts pt 0 D d fuel = .error .valueError ∧ performAncestorsInt S pt 0 D d = .error .valueError := by
  obtain ⟨T, last, hT, hst, hlast, hs⟩ := lastStep hpt
  obtain ⟨ind, h1, h1', h2, h3⟩ := drawEnd_ok hs hpt.pos 0 hr
  have : ind = [] := List.length_eq_zero_iff.mp h2
  subst this
  have hf : ∀ {α : Type} (a : List α), fancy a [] = .ok [] := fun a => rfl
  have hnew : PA.new ([] : List P) none = .error .valueError := by simp [PA.new]
  have hp : ∀ part ptraj anc fut find cur ω, S.sampleSmooth part ptraj anc fut find D cur ω = .ok part := hpl
  constructor
  · simp only [performBsi, hlast, ok_bind, h1, hf, hp, hnew]
    rfl
  · simp only [performAncestorsInt, calculateAncestors, hlast, ok_bind, h1, hf, hp, hnew]
    rfl

end PyPE

import Verif.Smooth.BpRun
import Verif.Smooth.MhModel

/-!
# C122: 'mhbp' with one trajectory is unbiased
-/

namespace PyPE
open Real Spec MeasureTheory ProbabilityTheory
open scoped ENNReal

variable {P U Y V Ω : Type}

/-- Expectation of `f` of the result of `perform_smoothing(1, 'mhbp')` with `R` iterations per time, over all draws: the end of the trajectory, and for every
iteration the proposed ancestor, the proposed state and the acceptance. -/
noncomputable def Spec.mhbpE [MeasurableSpace Ω] (S : SmoothCallbacks P U Y V Ω) (ν : Measure Ω) (R : ℕ) (user : Option SOpts) (d : AllDraws Ω) (fuel : ℕ)
    (f : PyM (Option (List (SStep P))) → ℝ≥0∞) (s : PT P U Y) : ℝ≥0∞ :=
  ∫⁻ r0, timesE ν R s.traj.length (fun b => f (performSmoothing S s.traj 1 ⟨s.uvec, s.yvec, s.tvec⟩ "mhbp" user
    { d with bsi := { d.bsi with r0 := r0 }, mhbp := b } fuel)) d.mhbp ∂unif

theorem mhbp_run {S : SmoothCallbacks P U Y V Ω} (hps : NoPostprocessing S) {user : Option SOpts} {R : ℕ} (hR : (choose user (·.R) (.int 30)).range = .ok R)
    (pt : List (Step P)) (M : ℕ) (D : SData U Y) (d : AllDraws Ω) (fuel : ℕ) :
    performSmoothing S pt M D "mhbp" user d fuel = (performMhbp S pt M R D d.bsi.r0 d.mhbp).bind fun t => .ok (some t) := by
  obtain ⟨o, h1, h2⟩ := (C26_mh_iterations S pt M D user d fuel).1 "mhbp" (Or.inr rfl)
  rw [hR] at h2
  have e : ¬ ("mhbp" = "full" ∨ "mhbp" = "mcmc" ∨ "mhbp" = "rs" ∨ "mhbp" = "rsas") := by decide +kernel
  have e2 : ¬ ("mhbp" = "ancestor") := by decide +kernel
  have e3 : ¬ ("mhbp" = "mhips" ∨ "mhbp" = "mhips_reduced") := by decide +kernel
  rw [h1, smoothTrajectory, if_neg e, if_neg e2, if_neg e3, if_pos rfl, h2]
  simp only [ok_bind]
  rcases performMhbp S pt M R D d.bsi.r0 d.mhbp with e | t
  · rfl
  · simp only [ok_bind, pure_eq_ok, hps t]
    rfl

theorem holds_path {K : ℕ} {s : ℕ → P} {out : List (SStep P)} (h : Holds K 0 s out) : pathOf out 0 = (List.range (K+1)).map s := by
  unfold Holds at h
  rw [Nat.sub_zero, ← List.range_eq_range'] at h
  have e : pathOf out 0 = (out.map fun st => st.pa.part).filterMap fun l => l[0]? := by
    unfold pathOf
    rw [List.filterMap_map]
    rfl
  rw [e, h, List.filterMap_map]
  have : (fun l : List P => l[0]?) ∘ (fun j => [s j]) = fun j => some (s j) := funext fun j => rfl
  rw [this, List.filterMap_eq_map']

section
variable [MeasurableSpace P] [MeasurableSpace Ω] {S : SmoothCallbacks P U Y V Ω} {K : ℕ} {l0 : P → ℝ} {lp : ℕ → P → P → ℝ} {g : ℕ → P → ℝ}
  {ν : Measure Ω} [IsProbabilityMeasure ν] {vol : Measure P} [SigmaFinite vol] {lq : ℕ → Option P → Option P → P → ℝ}

/-- The smoother after a run, as a function of the stored trajectory. -/
theorem mhbpE_eq (hps : NoPostprocessing S) (hK : 1 ≤ K) {user : Option SOpts} {R : ℕ} (hR : (choose user (·.R) (.int 30)).range = .ok R)
    (hlaw : PathLaw vol l0 lp g lq) {s : PT P U Y} (h : MhPaths S ⟨s.uvec, s.yvec, s.tvec⟩ 1 K l0 lp g)
    (hp : BackProposal S ⟨s.uvec, s.yvec, s.tvec⟩ ν K vol lq) {φ : List P → ℝ≥0∞} (hφ : Measurable fun s : ℕ → P => φ ((List.range (K+1)).map s))
    {N : ℕ} (hN : 0 < N) (hk : s.traj.length = K + 1) (hgs : ∀ st ∈ s.traj, GoodStep N st) {last : Step P} (hlast : s.traj.getLast? = some last)
    {w : Fin N → ℝ} (hw : last.pa.w = List.ofFn w) (x0 : P) (d : AllDraws Ω) (fuel : ℕ) :
    mhbpE S ν R user d fuel (pathMean φ 1) s =
      ∑ i : Fin N, ENNReal.ofReal (exp (w i) / ∑ j, exp (w j)) *
        bpOp vol l0 lp g lq K N R x0 s.traj (fun s => φ ((List.range (K+1)).map s)) K (i, Function.update (fun _ => x0) K (partAt x0 s.traj K i)) := by
  unfold mhbpE
  refine lintegral_ends hN one_pos w (fun i => bpOp vol l0 lp g lq K N R x0 s.traj (fun s => φ ((List.range (K+1)).map s)) K
    (i, Function.update (fun _ => x0) K (partAt x0 s.traj K i))) _ ?_
  intro r ind hr0 hr1 hind hindl
  obtain ⟨i, rfl⟩ := List.length_eq_one_iff.mp hindl
  have hgl := hgs last (List.mem_of_getLast? hlast)
  obtain ⟨ind', e1, e2, -, e4⟩ := drawEnd_ok hgl hN 1 (show Unit01 r from ⟨hr0.le, hr1⟩)
  rw [hw, hind] at e2
  obtain rfl := Except.ok.inj e2
  have hi : i < N := e4 i (by simp)
  simp only [mhbp_run hps hR, performMhbp, getLast_ok.mpr hlast, ok_bind, e1, hk]
  have := bp_loop (anc := none) (panc := none) (futs := []) (b := d.mhbp) hlaw h hp hK hN hk hgs x0 R hφ
    (F := fun r => pathMean φ 1 (r.bind fun t => .ok (some t))) (fun s' out ho => by
      show pathMean φ 1 (.ok (some out)) = _
      simp only [pathMean, Finset.sum_range_one, holds_path ho]
      simp) K le_rfl (fun _ => x0) hi (fun e => absurd e (by omega)) (by simp [Holds])
  refine this.trans ?_
  simp

/-- At the first time the iterations leave the law of the path invariant. -/
theorem bp_start {μ0 : Measure P} (hμ : μ0 = vol.withDensity fun x => ENNReal.ofReal (exp (l0 x))) {M : ℕ → Slot U → Kernel P P} {lx : ℕ → Slot U → P → P → ℝ}
    (hlx : ∀ k u, Measurable fun z : P × P => lx k u z.1 z.2) (hMd : ∀ k u x, M k u x = vol.withDensity fun x' => ENNReal.ofReal (exp (lx k u x x')))
    (hM : ∀ k u, IsMarkovKernel (M k u)) {ℓ : ℕ → Slot Y → P → ℝ} (hℓ : ∀ k y, Measurable (ℓ k y)) (first : Option (Slot Y)) (qs : List (Slot U × Slot Y))
    (hlaw : PathLaw vol l0 (fun k => lx k (inputAt qs k)) (likAt ℓ first qs) lq) (x0 : P) {ψ : (ℕ → P) → ℝ≥0∞} (hψ : Measurable ψ) (R : ℕ) :
    ∫⁻ x, ENNReal.ofReal (exp (likAt ℓ first qs 0 x)) * refE M ℓ 0 qs ((siteE vol l0 (fun k => lx k (inputAt qs k)) (likAt ℓ first qs) lq qs.length 0)^[R] ψ)
        (Function.update (fun _ => x0) 0 x) ∂μ0 =
      ∫⁻ x, ENNReal.ofReal (exp (likAt ℓ first qs 0 x)) * refE M ℓ 0 qs ψ (Function.update (fun _ => x0) 0 x) ∂μ0 := by
  obtain ⟨ρ, hρ⟩ : ∃ ρ, ρ = vol.withDensity fun x => ENNReal.ofReal (exp (l0 x + likAt ℓ first qs 0 x)) := ⟨_, rfl⟩
  have m0 : Measurable fun x => ENNReal.ofReal (exp (l0 x)) := hlaw.start.exp.ennreal_ofReal
  have ml : Measurable fun x => ENNReal.ofReal (exp (likAt ℓ first qs 0 x)) := (hlaw.lik 0).exp.ennreal_ofReal
  have md : Measurable fun x => ENNReal.ofReal (exp (l0 x + likAt ℓ first qs 0 x)) := (hlaw.start.add (hlaw.lik 0)).exp.ennreal_ofReal
  haveI : SFinite ρ := by rw [hρ]; infer_instance
  have hint : ∀ f : P → ℝ≥0∞, Measurable f → ∫⁻ x, ENNReal.ofReal (exp (likAt ℓ first qs 0 x)) * f x ∂μ0 = ∫⁻ x, f x ∂ρ := by
    intro f hf
    rw [hμ, hρ]
    refine (lintegral_withDensity_eq_lintegral_mul vol m0 (ml.mul hf)).trans ((lintegral_withDensity_eq_lintegral_mul vol md hf).trans (lintegral_congr fun x => ?_)).symm
    simp only [Pi.mul_apply]
    rw [exp_add, ENNReal.ofReal_mul (exp_pos _).le, mul_assoc]
  have mr : ∀ Ξ : (ℕ → P) → ℝ≥0∞, Measurable Ξ → Measurable fun x => refE M ℓ 0 qs Ξ (Function.update (fun _ => x0) 0 x) := fun Ξ hΞ =>
    (refE_measurable' hM hℓ hΞ 0 qs).comp ((measurable_updateAt 0).comp measurable_prodMk_left)
  have mΨ := siteE_iterate_measurable hlaw qs.length 0 R hψ
  rw [hint _ (mr _ mΨ), hint _ (mr _ hψ)]
  refine future_congr (ρ := ρ) (pos := id) measurable_id hlx hM hMd hℓ (Ψ := fun z : P × (ℕ → P) => (siteE vol l0 (fun k => lx k (inputAt qs k)) (likAt ℓ first qs) lq qs.length 0)^[R] ψ z.2)
    (Ψ' := fun z : P × (ℕ → P) => ψ z.2) (mΨ.comp measurable_snd) (hψ.comp measurable_snd) 0 qs (fun s => ?_) (fun _ => x0)
  have mn : Measurable fun x' => nextDensity lx 0 qs s x' := by
    cases qs with
    | nil => exact measurable_const
    | cons q' qs => exact ((hlx 0 q'.1).comp (f := fun x' => (x', s 1)) (by fun_prop)).exp.ennreal_ofReal
  have hd : ∀ Ξ : (ℕ → P) → ℝ≥0∞, Measurable Ξ → ∫⁻ x, nextDensity lx 0 qs s x * Ξ (Function.update s 0 x) ∂ρ =
      ∫⁻ x, ENNReal.ofReal (exp (localLog l0 (fun k => lx k (inputAt qs k)) (likAt ℓ first qs) 0 (before s 0) (after qs.length s 0) x)) * Ξ (Function.update s 0 x) ∂vol := by
    intro Ξ hΞ
    have mi : Measurable fun x => nextDensity lx 0 qs s x * Ξ (Function.update s 0 x) := mn.mul (hΞ.comp ((measurable_updateAt 0).comp measurable_prodMk_left))
    rw [hρ]
    refine (lintegral_withDensity_eq_lintegral_mul vol md mi).trans (lintegral_congr fun x => ?_)
    rw [next_split (qs := qs) rfl (Nat.zero_le _), Pi.mul_apply, mul_assoc]
    rfl
  simp only [id]
  rw [hd _ mΨ, hd _ hψ]
  exact siteE_iterate_fixed hlaw qs.length 0 R hψ s

end

/-- The model samples from, and evaluates, some proposal density for the state of one trajectory at each time, given the states before and after it. -/
def Spec.MhbpProposal [MeasurableSpace P] [MeasurableSpace Ω] (S : SmoothCallbacks P U Y V Ω) (ν : Measure Ω) (vol : Measure P) (first : Option (Slot Y))
    (qs : List (Slot U × Slot Y)) : Prop :=
  ∃ lq, ProposalDensity vol lq ∧ ∀ D, Recorded first qs D → BackProposal S D ν qs.length vol lq

section
variable [MeasurableSpace P] [MeasurableSpace Ω] {K : MarkovModel P U Y V Ω} {logpXnext : List P → List P → Slot U → ℕ → PyM (List ℝ)}
  {srest : SmoothCallbacks P U Y V Ω} {good : Slot Y → Prop} {ν : Measure Ω} [IsProbabilityMeasure ν] {vol μ0 : Measure P} [SigmaFinite vol]
  {M : ℕ → Slot U → Kernel P P} {ℓ : ℕ → Slot Y → P → ℝ} {l0 : P → ℝ} {lx : ℕ → Slot U → P → P → ℝ}

/-- The estimate for any filter whose steps have the right law. -/
theorem bp_estimate {N : ℕ} (hN : 0 < N) (hK : MhipsModel K logpXnext srest good ν 1 vol μ0 M ℓ l0 lx) {F : FilterOps P U Y V Ω} {res : ℝ}
    {κ : ℕ → Slot U → Slot Y → Kernel P P} {inc : ℕ → Slot U → Slot Y → P → P → ℝ} (hS : ∀ k u y, good y → StepLaw F ν N res k u y (κ k u y) (inc k u y))
    (hQ : ∀ k u y (h : P → ℝ≥0∞), Measurable h → ∀ x, ∫⁻ x', ENNReal.ofReal (exp (inc k u y x x')) * h x' ∂(κ k u y x) =
      ∫⁻ x', ENNReal.ofReal (exp (ℓ (k+1) y x')) * h x' ∂(M k u x))
    {X : Fin N → Ω → P} (hX : ∀ i, Measurable (X i) ∧ ν.map (X i) = μ0)
    (hc : ∀ ω, F.create N ω = .ok (List.ofFn fun i => X i ω)) (hpfy : F.usingPfy = false)
    (hm : ∀ (tr : List (Step P)) (anc : List ℕ) (pa : PA P) (x : Fin N → P) uv yv tv (y : Slot Y), good y → pa.part = List.ofFn x → pa.w.length = N →
      yv[0]? = some y → tv[0]? = some 0 → ∃ pa' w', F.measure tr anc pa uv yv tv 0 = .ok pa' ∧ pa'.part = List.ofFn x ∧ pa'.w = List.ofFn w' ∧
        pa'.num = pa.num ∧ ∀ i : Fin N, w' i + pa'.w_offset = pa.w.getD i 0 + pa.w_offset + ℓ 0 y (x i))
    {T : Option ℕ} {s0 : PT P U Y} (h0 : PT.init N T 0 = .ok s0)
    {first : Option (Slot Y)} (hfirst : ∀ y ∈ first, good y) {qs : List (Slot U × Slot Y)} (hqs : ∀ q ∈ qs, good q.2) (hne : qs ≠ [])
    (hme : MhbpProposal (ffbsi logpXnext (K.toSmooth srest)) ν vol first qs) {user : Option SOpts} {R : ℕ}
    (hR : (choose user (·.R) (.int 30)).range = .ok R) (d : AllDraws Ω) (fuel : ℕ) {φ : List P → ℝ≥0∞}
    (hφ : Measurable fun x : Fin (qs.length + 1) → P => φ (List.ofFn x)) :
    estimateE ν s0 F first qs (mhbpE (ffbsi logpXnext (K.toSmooth srest)) ν R user d fuel (pathMean φ 1)) = smoothingE μ0 M ℓ first qs φ := by
  obtain ⟨lq, hlq, hp⟩ := hme
  have hℓ := hK.samples.meas
  have hM := samples_markov one_pos hK.samples
  have hlaw : PathLaw vol l0 (fun k => lx k (inputAt qs k)) (likAt ℓ first qs) lq :=
    ⟨hK.start, fun k => hK.move _ _, likAt_measurable hℓ, hlq.both, hlq.first, hlq.last, hlq.alone, hlq.one⟩
  haveI : Nonempty Ω := nonempty_of_isProbabilityMeasure ν
  obtain ⟨x0, -⟩ : ∃ x0 : P, True := ⟨X ⟨0, hN⟩ (Classical.arbitrary Ω), trivial⟩
  have hφ' := range_map_path hφ
  obtain ⟨ψ, hψ⟩ : ∃ ψ : (ℕ → P) → ℝ≥0∞, ψ = fun s => φ ((List.range (qs.length + 1)).map s) := ⟨_, rfl⟩
  have mψ : Measurable ψ := by rw [hψ]; exact hφ'
  have hsn : ∀ q ∈ qs, q.2 = .none → ∀ k x, ℓ k .none x = 0 := fun q hq e => hK.none_lik (e ▸ hqs q hq)
  have hseen : ∀ q ∈ qs, ∀ k, seen ℓ k q.2 = ℓ k q.2 := by
    intro q hq k
    rcases hy : q.2 with _ | _ | y
    · exact funext fun x => (hsn q hq hy k x).symm
    · rfl
    · rfl
  obtain ⟨V1, hV1⟩ : ∃ V1 : List (Slot U × Slot Y) → P → ℝ≥0∞, V1 = fun qs' x => refE M ℓ 0 qs' ((siteE vol l0 (fun k => lx k (inputAt qs k)) (likAt ℓ first qs) lq qs.length 0)^[R] ψ)
    (Function.update (fun _ => x0) 0 x) := ⟨_, rfl⟩
  have mV : ∀ qs', Measurable (V1 qs') := by
    intro qs'
    rw [hV1]
    exact (refE_measurable' hM hℓ (siteE_iterate_measurable hlaw qs.length 0 R mψ) 0 qs').comp ((measurable_updateAt 0).comp measurable_prodMk_left)
  have hav : ∀ i {g : P → ℝ≥0∞}, Measurable g → Measurable (fun ω => g (X i ω)) ∧ ∫⁻ ω, g (X i ω) ∂ν = ∫⁻ x, g x ∂μ0 := fun i g hg =>
    ⟨hg.comp (hX i).1, by rw [← (hX i).2, lintegral_map hg (hX i).1]⟩
  obtain ⟨H', hH'⟩ : ∃ H' : PT P U Y → ℝ≥0∞, H' = fun s => ∑ i : Fin N, normAt N s.traj qs.length i *
    bpW vol l0 lx ℓ lq first qs M N R x0 ψ qs.length [] s.traj [] i := ⟨_, rfl⟩
  rw [estimateE_pinned h0 first hne _ H']
  have hrun := run_historyOn (first := fun _ => True) (C := fun k qs' => qs.drop k = qs') (H := pinned first qs (mhbpE (ffbsi logpXnext (K.toSmooth srest)) ν R user d fuel (pathMean φ 1)) H') hN
    (fun k q qs' h => (drop_cons_eq h).2.1)
    (bp_histStep hN hS hM hℓ hQ hK.move hK.move_law hlaw hseen R x0 mψ) (V1 := V1)
    (W0 := fun y qs x => ENNReal.ofReal (exp (ℓ 0 y x)) * V1 qs x) ?_
    (E0 := fun y qs => ∫⁻ x, ENNReal.ofReal (exp (ℓ 0 y x)) * V1 qs x ∂μ0) (E := fun qs => ∫⁻ x, V1 qs x ∂μ0)
    (fun y qs i _ => hav i ((measurable_exp.comp (hℓ 0 y)).ennreal_ofReal.mul (mV qs))) (fun qs i => hav i (mV qs)) (fun _ _ => trivial) hc hpfy
    ?_ h0 qs hqs rfl ?_
  · have hst := bp_start hK.start_law hK.move hK.move_law hM hℓ first qs hlaw x0 mψ R
    have hpath : ∀ x, refE M ℓ 0 qs ψ (Function.update (fun _ => x0) 0 x) = pathsE M (seen ℓ) φ 0 qs [] x := by
      intro x
      rw [← pathsE_seen M φ 0 qs hsn, hψ]
      have := pathG_refE M ℓ φ 0 qs (Function.update (fun _ => x0) 0 x)
      rw [Nat.zero_add] at this
      rw [← this]
      simp [pathG]
    simp only [hpath] at hst
    cases first with
    | some y0 =>
      refine (hrun.1 y0 (hfirst y0 rfl) trivial).trans ?_
      rw [hV1]
      exact hst
    | none =>
      refine (hrun.2 trivial hne).trans ?_
      rw [hV1]
      have e1 : ∀ x, ENNReal.ofReal (exp (likAt ℓ none qs 0 x)) = 1 := fun x => by
        show ENNReal.ofReal (exp 0) = 1
        simp
      simp only [e1, one_mul] at hst
      exact hst
  · intro st x hx _ qs' i
    simp only [bpW, bpOp, hV1]
    rw [partAt_eq x0 (show [st][0]? = some st from rfl) hx i]
  · intro tr anc pa x uv yv tv y h1 _ h2 h3 h4 h5
    obtain ⟨pa', w', e1, e2, e3, e4, e5⟩ := hm tr anc pa x uv yv tv y h1 h2 h3 h4 h5
    exact ⟨pa', x, w', e1, e2, fun _ => trivial, e3, e4, fun i => ⟨_, e5 i, fun _ => rfl⟩⟩
  · intro s us ys last x w _ _ _ _ hk hgs _ hlast hx hw
    unfold pinned
    split
    · next hrec =>
      rw [mhbpE_eq (S := ffbsi logpXnext (K.toSmooth srest)) hK.post (List.length_pos_iff.mpr hne) hR hlaw (mhPaths_of hK hrec hfirst fun q hq => Or.inr (hqs q hq)) (hp _ hrec) hφ' hN hk hgs hlast hw x0 d fuel]
      simp only [bpW, refE, hψ]
    · have hlk := getLast_index hk hlast
      simp only [hH', normAt, wAt_eq hlk hw]
      rfl

/-- C122: run the bootstrap filter, then call `perform_smoothing(1, 'mhbp')`. Over all random draws, the likelihood estimate times any non-negative function `φ` of the
returned trajectory has expectation `E[Π_t p(y_t | x_t) φ(x_0, …, x_T)]`: for any number of particles and of iterations, any proposal density, any resampling threshold,
and histories that start with `measure(y0)` or with `forward`. -/
theorem C122_mhbp_unbiased {N : ℕ} (hN : 0 < N) (hKN : Samples K good ν N μ0 M ℓ) (hK : MhipsModel K logpXnext srest good ν 1 vol μ0 M ℓ l0 lx)
    {rest : Callbacks P U Y V Ω} {res : ℝ} {name : String} {o : FilterOptions P} (hn : parseFilter name = .ok .pf)
    {F : FilterOps P U Y V Ω} (hF : mkFilter (K.toCallbacks rest) N res name o = .ok F) {T : Option ℕ} {s0 : PT P U Y} (h0 : PT.init N T 0 = .ok s0)
    {first : Option (Slot Y)} (hfirst : ∀ y ∈ first, good y) {qs : List (Slot U × Slot Y)} (hqs : ∀ q ∈ qs, good q.2) (hne : qs ≠ [])
    (hme : MhbpProposal (ffbsi logpXnext (K.toSmooth srest)) ν vol first qs) {user : Option SOpts} {R : ℕ}
    (hR : (choose user (·.R) (.int 30)).range = .ok R) (d : AllDraws Ω) (fuel : ℕ) {φ : List P → ℝ≥0∞}
    (hφ : Measurable fun x : Fin (qs.length + 1) → P => φ (List.ofFn x)) :
    estimateE ν s0 F first qs (mhbpE (ffbsi logpXnext (K.toSmooth srest)) ν R user d fuel (pathMean φ 1)) = smoothingE μ0 M ℓ first qs φ := by
  rw [mkFilter_pf _ N res hn o] at hF
  obtain rfl := (Except.ok.inj hF).symm
  obtain ⟨X, hX, hc⟩ := hKN.create
  exact bp_estimate hN hK (fun k u y hy => pf_stepLaw hN hKN rest res k u y hy) (fun _ _ _ _ _ _ => rfl) hX hc rfl
    (fun tr anc pa x uv yv tv y => pf_measure_law hN hKN rest res tr anc pa x uv yv tv y) h0 hfirst hqs hne hme hR d fuel hφ

/-- C122 for the SIR filter with any proposal density. -/
theorem C122_mhbp_sir {C : Callbacks P U Y V Ω} {N : ℕ} (hN : 0 < N) {q : ℕ → Slot U → Slot Y → Kernel P P}
    {lq' : ℕ → Slot U → Slot Y → P → P → ℝ} (hC : Spec.SirSamples C good ν N vol μ0 M ℓ q lq' lx) (hK : MhipsModel K logpXnext srest good ν 1 vol μ0 M ℓ l0 lx)
    {res : ℝ} {name : String} {o : FilterOptions P} (hn : parseFilter name = .ok .sir)
    {F : FilterOps P U Y V Ω} (hF : mkFilter C N res name o = .ok F) {T : Option ℕ} {s0 : PT P U Y} (h0 : PT.init N T 0 = .ok s0)
    {first : Option (Slot Y)} (hfirst : ∀ y ∈ first, good y) {qs : List (Slot U × Slot Y)} (hqs : ∀ q ∈ qs, good q.2) (hne : qs ≠ [])
    (hme : MhbpProposal (ffbsi logpXnext (K.toSmooth srest)) ν vol first qs) {user : Option SOpts} {R : ℕ}
    (hR : (choose user (·.R) (.int 30)).range = .ok R) (d : AllDraws Ω) (fuel : ℕ) {φ : List P → ℝ≥0∞}
    (hφ : Measurable fun x : Fin (qs.length + 1) → P => φ (List.ofFn x)) :
    estimateE ν s0 F first qs (mhbpE (ffbsi logpXnext (K.toSmooth srest)) ν R user d fuel (pathMean φ 1)) = smoothingE μ0 M ℓ first qs φ := by
  obtain rfl := mkFilter_sir hn hF
  obtain ⟨X, hX, hc⟩ := hC.create
  exact bp_estimate hN hK (fun k u y hy => sir_stepLaw hN hC res k u y hy) (sir_tilt hC) hX hc rfl
    (fun tr anc pa x uv yv tv y => sir_measure_law hN hC res tr anc pa x uv yv tv y) h0 hfirst hqs hne hme hR d fuel hφ

end

end PyPE

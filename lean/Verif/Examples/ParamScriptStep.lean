import Verif.Examples.ParamScriptEm

/-!
# C117: the two halves of an EM iteration of `test/manual/paramest/standard_nonlin_model.py`, and the bound used by rejection sampling
-/

namespace PyPE
open Real Spec MeasureTheory ProbabilityTheory Matrix
open scoped ENNReal

variable {U : Type}

/-! ### The minimiser -/

theorem log_add_div_lt {s q : ℝ} (hs : 0 < s) (hq : 0 < q) (hne : q ≠ s) : Real.log s + 1 < Real.log q + s / q := by
  have h := Real.log_lt_sub_one_of_pos (div_pos hs hq) (by rw [Ne, div_eq_one_iff_eq hq.ne']; exact fun h => hne h.symm)
  rw [Real.log_div hs.ne' hq.ne'] at h
  linarith

theorem log_add_div_le {s q : ℝ} (hs : 0 < s) (hq : 0 < q) : Real.log s + 1 ≤ Real.log q + s / q := by
  rcases eq_or_ne q s with rfl | h
  · rw [div_self hq.ne']
  · exact (log_add_div_lt hs hq h).le

/-- C117: the objective, as a function of the parameters, has exactly one minimiser: `exp θ0` is the mean squared residual of the transitions and `exp θ1` that
of the measurements, over all times and trajectories. -/
theorem C117_minimiser {n m : ℕ} (hn : 0 < n) (hm : 0 < m) (x : Fin (n+1) → Fin m → ℝ) {o : StdObj} (hp : 0 < o.p0) {traj : List (SStep (Fin 1 → ℝ))}
    (hx : (traj.map fun s => s.pa.part) = List.ofFn fun t => List.ofFn fun j _ => x t j) (y : Fin (n+1) → ℝ) {D : SData U (Fin 1 → ℝ)}
    (hy : D.y = List.ofFn fun t => Slot.obj fun _ => y t) (ht : D.t = List.range (n+1)) {sq sr : ℝ}
    (hsq : sq = (∑ t : Fin n, ∑ j, (x t.succ j - growth t (x t.castSucc j)) ^ 2) / (n * m)) (hsr : sr = (∑ t, ∑ j, (y t - x t j ^ 2 / 20) ^ 2) / ((n + 1) * m))
    (hq : 0 < sq) (hr : 0 < sr) :
    ∃ v : ℝ → ℝ → ℝ, (∀ a b, ∃ o', stdSet o [a, b] = .ok o' ∧ stdFval o' D traj = .ok (some (v a b))) ∧
      ∀ a b, (a, b) ≠ (Real.log sq, Real.log sr) → v (Real.log sq) (Real.log sr) < v a b := by
  have hn' : (0 : ℝ) < n := by exact_mod_cast hn
  have hm' : (0 : ℝ) < m := by exact_mod_cast hm
  refine ⟨fun a b => ((∑ j, (Real.log (2 * π) + Real.log o.p0 + x 0 j ^ 2 / o.p0)) + (n + 1) * m * (Real.log (2 * π) + (b + sr / exp b)) +
    n * m * (Real.log (2 * π) + (a + sq / exp a))) / (2 * m), fun a b => ⟨⟨o.p0, exp a, exp b, o.logxnMax⟩, rfl, ?_⟩, fun a b hab => ?_⟩
  · rw [C117_closed_form x (o := ⟨o.p0, exp a, exp b, o.logxnMax⟩) hp (exp_pos a) (exp_pos b) hx y hy ht]
    refine congrArg Except.ok (congrArg some ?_)
    simp only [Real.log_exp, Finset.sum_add_distrib, ← Finset.sum_div, Finset.sum_const, Finset.card_univ, Fintype.card_fin, nsmul_eq_mul]
    have e1 : (∑ t, ∑ j, (y t - x t j ^ 2 / 20) ^ 2) = sr * ((n + 1) * m) := by rw [hsr, div_mul_cancel₀ _ (by positivity)]
    have e2 : (∑ t : Fin n, ∑ j, (x t.succ j - growth t (x t.castSucc j)) ^ 2) = sq * (n * m) := by rw [hsq, div_mul_cancel₀ _ (by positivity)]
    rw [e1, e2]
    push_cast
    ring
  · have h1 : Real.log sq + 1 ≤ a + sq / exp a := by have := log_add_div_le hq (exp_pos a); rwa [Real.log_exp] at this
    have h2 : Real.log sr + 1 ≤ b + sr / exp b := by have := log_add_div_le hr (exp_pos b); rwa [Real.log_exp] at this
    simp only [Real.exp_log hq, Real.exp_log hr, div_self hq.ne', div_self hr.ne']
    refine div_lt_div_of_pos_right ?_ (by positivity)
    have c1 : (0 : ℝ) < n * m := by positivity
    have c2 : (0 : ℝ) < (n + 1) * m := by positivity
    by_cases ha : a = Real.log sq
    · have hb : b ≠ Real.log sr := fun h => hab (by rw [ha, h])
      have h3 : Real.log sr + 1 < b + sr / exp b := by
        have := log_add_div_lt hr (exp_pos b) (fun h => hb (by rw [← h, Real.log_exp]))
        rwa [Real.log_exp] at this
      have := mul_lt_mul_of_pos_left h3 c2
      have := mul_le_mul_of_nonneg_left h1 c1.le
      nlinarith
    · have h3 : Real.log sq + 1 < a + sq / exp a := by
        have := log_add_div_lt hq (exp_pos a) (fun h => ha (by rw [← h, Real.log_exp]))
        rwa [Real.log_exp] at this
      have := mul_lt_mul_of_pos_left h3 c1
      have := mul_le_mul_of_nonneg_left h2 c2.le
      nlinarith

/-! ### Rejection sampling -/

/-- C117 (Defect): `set_params` does not update the bound `logxn_max`, so that after `set_params` the value `logp_xnext_max` returns bounds the transition
log-density only if the new `Q` is at least the one given to the constructor. -/
theorem C117_stale_bound {p0 q r : ℝ} {o o' : StdObj} (ho : stdInit p0 q r = .ok o) {a b : ℝ} (ho' : stdSet o [a, b] = .ok o') :
    MaxDensity (stdLogpXnextMax (U := U) o') (growthTrans o'.q) ↔ q ≤ exp a := by
  have hq : 0 < q := by
    by_contra h
    rw [(C117_parameters p0 q r []).1 (not_lt.1 h)] at ho
    cases ho
  rw [(C117_parameters p0 q r []).2.1 hq] at ho
  obtain rfl := Except.ok.inj ho
  obtain rfl := Except.ok.inj ho'
  have hval : ∀ (k : ℕ) (u : Slot U) (z z' : Fin 1 → ℝ), growthTrans (exp a) k u z z' = -(1/2) * (Real.log (2 * π) + a + (z' 0 - growth k (z 0)) ^ 2 / exp a) := by
    intro k u z z'
    show logNormal !![exp a] (z' - fun _ => growth k (z 0)) = _
    rw [logNormal_single _ (exp_pos a), Real.log_exp]
    rfl
  constructor
  · intro h
    obtain ⟨B, hB, hle⟩ := h [fun _ => 0] .none 0 (by simp)
    have hB' := Except.ok.inj hB
    have := hle (fun _ => 0) (by simp) (fun _ => growth 0 0)
    rw [hval, ← hB'] at this
    simp only [sub_self] at this
    have hlog : Real.log q ≤ a := by
      simp at this
      linarith
    rw [← Real.exp_log hq]
    exact exp_le_exp.2 hlog
  · intro h part u k _
    refine ⟨_, rfl, fun z _ z' => ?_⟩
    rw [hval]
    have hlog : Real.log q ≤ a := by
      rw [← Real.log_exp a]
      exact Real.log_le_log hq h
    have : 0 ≤ (z' 0 - growth k (z 0)) ^ 2 / exp a := by positivity
    show _ ≤ -(1 / 2) * (Real.log (2 * π) + Real.log q)
    linarith

/-! ### The EM step -/

theorem growth_densities {p0 q : ℝ} (hp : 0 < p0) (hq : 0 < q) :
    Densities volume (gauss 0 !![p0]) (growthKernel U q) (growthStart p0) (growthTrans q) where
  start := (continuous_logNormal _).measurable
  move k u := by
    show Measurable fun z : (Fin 1 → ℝ) × (Fin 1 → ℝ) => logNormal !![q] (z.2 - fun _ => growth k (z.1 0))
    exact (continuous_logNormal _).measurable.comp (by unfold growth; fun_prop)
  start_law := by
    rw [gauss_density (single_posDef hp)]
    simp only [sub_zero]
    rfl
  move_law k u x := by
    rw [growthKernel_apply hq.le, gauss_density (single_posDef hq)]
    rfl

/-- The per-step terms of the model, which the default trajectory terms of `ParamEstInterface` would use. -/
theorem growth_logTerms {o : StdObj} (hp : 0 < o.p0) (hq : 0 < o.q) (hr : 0 < o.r) :
    LogTerms (fun xs y _ => stdMeasure o xs y) (stdLogpXnext (U := U) o) (stdEvalX0 o) IsObj (growthStart o.p0) (growthTrans o.q) (growthLik o.r) where
  y xs y t hy _ := by
    obtain ⟨v, rfl⟩ := hy
    exact stdMeasure_ok hr xs v t
  x := C117_logp_xnext hq
  x0 xs := by
    rw [stdEvalX0, lognormpdfScalar, if_neg (not_le.2 hp), List.map_map]
    congr 1
    refine List.map_congr_left fun x _ => ?_
    show _ = logNormal !![o.p0] x
    rw [logNormal_single _ hp, l2pi]
    rfl

/-- The complete-data log-likelihood of the growth model is bounded. -/
theorem growthLog_bounded {p0 q r : ℝ} (hp : 0 < p0) (hq : 0 < q) (hr : 0 < r) (first : Option (Slot (Fin 1 → ℝ))) (qs : List (Slot U × Slot (Fin 1 → ℝ))) :
    ∃ c, ∀ xs, growthLog p0 q r first qs xs ≤ c := by
  obtain ⟨c, hc⟩ := nlg_completeLog_bounded (U := U) (F := fun t _ x _ => growth t (x 0)) (single_posDef hq) (G := fun _ x _ => x 0 ^ 2 / 20) (single_posDef hr)
    (single_posDef hp) 0 first qs
  simp only [sub_zero] at hc
  exact ⟨c, hc⟩

/-- nan as an error. -/
def nanError : PyM (Option ℝ) → PyM ℝ
  | .ok (some v) => .ok v
  | .ok none => .error .valueError
  | .error e => .error e

/-- Expectation, over all draws of the filter and the smoother, of the likelihood estimate of the filter run times `c + fval`, where `fval` is the script's
objective for a model with the attributes `o`. -/
noncomputable def Spec.stdObjective {N : ℕ} (s0 : PT (Fin 1 → ℝ) U (Fin 1 → ℝ)) (F : FilterOps (Fin 1 → ℝ) U (Fin 1 → ℝ) (List (Fin 1 → ℝ)) (Fin N → Fin 1 → ℝ))
    (first : Option (Slot (Fin 1 → ℝ))) (qs : List (Slot U × Slot (Fin 1 → ℝ)))
    (smooth : (PyM (Option (List (SStep (Fin 1 → ℝ)))) → ℝ≥0∞) → PT (Fin 1 → ℝ) U (Fin 1 → ℝ) → ℝ≥0∞) (o : StdObj) (c : ℝ) : ℝ≥0∞ :=
  estimateE (normals N 1) s0 F first qs fun s => smooth (objMean c fun traj => nanError (stdFval o ⟨s.uvec, s.yvec, s.tvec⟩ traj)) s

theorem estimateE_congr_run {P Y V Ω : Type} [MeasurableSpace Ω] {ν : Measure Ω} {F : FilterOps P U Y V Ω} {s0 : PT P U Y}
    {first : Option (Slot Y)} {qs : List (Slot U × Slot Y)} {H H' : PT P U Y → ℝ≥0∞}
    (h : ∀ (fs : Option (Slot Y × Ω)) (ds : List (Slot U × Slot Y × Ω × Draws Ω)) s bs, fs.map (·.1) = first → (ds.map fun q => (q.1, q.2.1)) = qs →
      s0.run F (history fs ds) = (s, .ok bs) → H s = H' s) :
    estimateE ν s0 F first qs H = estimateE ν s0 F first qs H' := by
  have key : ∀ (fs : Option (Slot Y × Ω)) (ds : List (Slot U × Slot Y × Ω × Draws Ω)), fs.map (·.1) = first → (ds.map fun q => (q.1, q.2.1)) = qs →
      runWeighted H (s0.run F (history fs ds)) = runWeighted H' (s0.run F (history fs ds)) := by
    intro fs ds hfs hds
    rcases hr : s0.run F (history fs ds) with ⟨s, e | bs⟩
    · rfl
    · simp only [runWeighted]
      rw [h fs ds s bs hfs hds hr]
  cases first with
  | none => exact stepsE_congr ν fun ds hds => key none ds rfl hds
  | some y0 => exact lintegral_congr fun ω => stepsE_congr ν fun ds hds => key (some (y0, ω)) ds rfl hds

/-- With a measurement at every time the script's objective is the one with the default trajectory terms. -/
theorem stdObjective_eq {o : StdObj} (hp : 0 < o.p0) (hq : 0 < o.q) (hr : 0 < o.r) {N m : ℕ} {s0 : PT (Fin 1 → ℝ) U (Fin 1 → ℝ)} (h0 : PT.init N none 0 = .ok s0)
    {F : FilterOps (Fin 1 → ℝ) U (Fin 1 → ℝ) (List (Fin 1 → ℝ)) (Fin N → Fin 1 → ℝ)} {y0 : Fin 1 → ℝ} {qs : List (Slot U × (Fin 1 → ℝ))} (hne : qs ≠ [])
    {smooth : (PyM (Option (List (SStep (Fin 1 → ℝ)))) → ℝ≥0∞) → PT (Fin 1 → ℝ) U (Fin 1 → ℝ) → ℝ≥0∞} (hs : SmoothsTo smooth m) (c : ℝ) :
    stdObjective s0 F (some (.obj y0)) (asSlots qs) smooth o c =
      objectiveBy (normals N 1) s0 F (some (.obj y0)) (asSlots qs) smooth (fun xs y _ => stdMeasure o xs y) (stdLogpXnext o) (stdEvalX0 o) c := by
  have hne' : asSlots qs ≠ [] := fun e => hne (List.map_eq_nil_iff.mp e)
  have hl : (asSlots qs).length = qs.length := by simp [asSlots]
  refine estimateE_congr_run fun fs ds s bs hfs hds hrun => hs s _ _ fun r hsh => ?_
  rcases r with e | _ | traj
  · rfl
  · rfl
  · have hrec := run_recorded h0 fs hds (fun _ => hne') hrun
    have hlen := (PT.run_rep _ (PT.init_rep h0) hrun).len
    rw [history_log _ _ _ (fun _ hd => hne' (by rw [← hds, hd]; rfl))] at hlen
    have hdl : ds.length = qs.length := by rw [← hl, ← hds, List.length_map]
    have hS : Shape traj (qs.length + 1) m := by
      have e : s.traj.length = qs.length + 1 := by rw [hlen]; simp [hdl]
      exact e ▸ hsh traj rfl
    obtain ⟨hy, ht⟩ := run_exact h0 fs hds hne' hrun
    rw [hfs] at hy hrec
    have h1 := C117_objective (o := o) hp hq hr (D := ⟨s.uvec, s.yvec, s.tvec⟩) (y0 := y0) (qs := qs) (by rw [hy]; simp [asSlots]) (by rw [ht, hl]) hS
    have h2 := C116_objective_value (growth_logTerms (U := U) hp hq hr) hrec (by rintro _ ⟨⟩; exact ⟨⟨y0, rfl⟩, by simp⟩)
      (fun q hq => .inr (asSlots_isObj qs q hq)) (traj := traj) (m := m) (by rw [hl]; exact hS)
    simp only [objMean, h1, nanError]
    rw [h2]
    rfl

/-- C117, the call of the script: bootstrap filter with a first measurement, smoother 'mcmc', any numbers of particles, trajectories and rounds, parameters `(a, b)`
for the simulation. If the script's objective is on average no larger at `(a', b')` than at `(a, b)`, the likelihood of the data at `(a', b')` is at least that at
`(a, b)`; more precisely the likelihood grows by at least what the expected objective falls. -/
theorem C117_em_gain {p0 q r : ℝ} (hp : 0 < p0) {om o o' : StdObj} (hom : stdInit p0 q r = .ok om) {a b a' b' : ℝ} (ho : stdSet om [a, b] = .ok o)
    (ho' : stdSet om [a', b'] = .ok o') {N : ℕ} (hN : 0 < N) {rest : Callbacks (Fin 1 → ℝ) U (Fin 1 → ℝ) (List (Fin 1 → ℝ)) (Fin N → Fin 1 → ℝ)} {res : ℝ}
    {name : String} {opts : FilterOptions (Fin 1 → ℝ)} (hn : parseFilter name = .ok .pf) {F : FilterOps (Fin 1 → ℝ) U (Fin 1 → ℝ) _ _}
    (hF : mkFilter ((stdModel N o).toCallbacks rest) N res name opts = .ok F) {s0 : PT (Fin 1 → ℝ) U (Fin 1 → ℝ)} (hs : PT.init N none 0 = .ok s0)
    {srest : SmoothCallbacks (Fin 1 → ℝ) U (Fin 1 → ℝ) (List (Fin 1 → ℝ)) (Fin N → Fin 1 → ℝ)} (hps : NoPostprocessing srest) {m : ℕ} (hm : 0 < m)
    {user : Option SOpts} {R : ℕ} (hR : (choose user (·.R) (.int 30)).range = .ok R) (d : AllDraws (Fin N → Fin 1 → ℝ)) (fuel : ℕ)
    (y0 : Fin 1 → ℝ) (qs : List (Slot U × (Fin 1 → ℝ))) (hne : qs ≠ []) {c : ℝ}
    (hc : ∀ xs, growthLog p0 (exp a) (exp b) (some (.obj y0)) (asSlots qs) xs ≤ c) (hc' : ∀ xs, growthLog p0 (exp a') (exp b') (some (.obj y0)) (asSlots qs) xs ≤ c) :
    let L := growthLikelihood p0 (exp a) (exp b) (some (.obj y0)) (asSlots qs)
    let L' := growthLikelihood p0 (exp a') (exp b') (some (.obj y0)) (asSlots qs)
    let obj := fun o => stdObjective s0 F (some (.obj y0)) (asSlots qs) (smoothRoundsE R (ffbsi (stdLogpXnext o) srest) m "mcmc" user d fuel)
    L + obj o o c ≤ L' + obj o o' c ∧ (obj o o c ≠ ⊤ → obj o o' c ≤ obj o o c → L ≤ L') := by
  have hp' : om.p0 = p0 := by
    by_cases hq : 0 < q
    · rw [(C117_parameters p0 q r []).2.1 hq] at hom
      obtain rfl := Except.ok.inj hom
      rfl
    · rw [(C117_parameters p0 q r []).1 (not_lt.1 hq)] at hom
      cases hom
  obtain rfl := Except.ok.inj ho
  obtain rfl := Except.ok.inj ho'
  subst hp'
  intro L L' obj
  have hst : SmoothsTo (smoothRoundsE R (ffbsi (stdLogpXnext (U := U) ⟨om.p0, exp a, exp b, om.logxnMax⟩) srest) m "mcmc" user d fuel) m :=
    smoothRoundsE_smoothsTo (S := ffbsi (stdLogpXnext (U := U) ⟨om.p0, exp a, exp b, om.logxnMax⟩) srest) (fun D _ _ _ _ _ _ _ => rfl) hps (.inr (.inl rfl)) R user d fuel
  have h := C116_em_gain_mcmc (T := none) hN (C117_samples (U := U) (o := ⟨om.p0, exp a, exp b, om.logxnMax⟩) hp.le (exp_pos a).le (exp_pos b) N) hn hF
    (C117_logp_xnext (o := ⟨om.p0, exp a, exp b, om.logxnMax⟩) (exp_pos a)) (growth_densities hp (exp_pos a)) (growth_densities hp (exp_pos a'))
    (growthLik_measurable (exp b')) hps hm hR d fuel hs (first := some (.obj y0)) (by rintro _ ⟨⟩; exact ⟨⟨y0, rfl⟩, by simp⟩) (by simp) (asSlots_isObj qs)
    (fun _ _ _ _ _ => rfl) (growth_logTerms (o := ⟨om.p0, exp a, exp b, om.logxnMax⟩) hp (exp_pos a) (exp_pos b))
    (growth_logTerms (o := ⟨om.p0, exp a', exp b', om.logxnMax⟩) hp (exp_pos a') (exp_pos b')) hc hc'
  have e1 := stdObjective_eq (o := ⟨om.p0, exp a, exp b, om.logxnMax⟩) hp (exp_pos a) (exp_pos b) hs (F := F) (y0 := y0) hne hst c
  have e2 := stdObjective_eq (o := ⟨om.p0, exp a', exp b', om.logxnMax⟩) hp (exp_pos a') (exp_pos b') hs (F := F) (y0 := y0) hne hst c
  have key : L + obj ⟨om.p0, exp a, exp b, om.logxnMax⟩ ⟨om.p0, exp a, exp b, om.logxnMax⟩ c ≤
      L' + obj ⟨om.p0, exp a, exp b, om.logxnMax⟩ ⟨om.p0, exp a', exp b', om.logxnMax⟩ c := by
    show L + stdObjective _ _ _ _ _ _ _ ≤ L' + stdObjective _ _ _ _ _ _ _
    rw [e1, e2]
    exact h
  exact ⟨key, fun hfin hle => (ENNReal.add_le_add_iff_right hfin).mp (key.trans (add_le_add le_rfl hle))⟩

/-! ### Concrete cases -/

/-- C117 with the numbers of the script: `P0 = 5`, `Q = 1`, `R = 0.1`, `θ = (log 2, log 2)`, 500 particles, 50 trajectories, 30 rounds, any data; the bound `c` exists. -/
example (rest : Callbacks (Fin 1 → ℝ) ℝ (Fin 1 → ℝ) (List (Fin 1 → ℝ)) (Fin 500 → Fin 1 → ℝ)) (a' b' : ℝ) (y0 : Fin 1 → ℝ) (qs : List (Slot ℝ × (Fin 1 → ℝ)))
    (hne : qs ≠ []) (srest : SmoothCallbacks (Fin 1 → ℝ) ℝ (Fin 1 → ℝ) (List (Fin 1 → ℝ)) (Fin 500 → Fin 1 → ℝ)) (d : AllDraws (Fin 500 → Fin 1 → ℝ)) :
    ∃ (om o o' : StdObj) (F : _) (s0 : PT (Fin 1 → ℝ) ℝ (Fin 1 → ℝ)) (c : ℝ), stdInit 5 1 0.1 = .ok om ∧ stdSet om [Real.log 2, Real.log 2] = .ok o ∧
      stdSet om [a', b'] = .ok o' ∧ mkFilter ((stdModel 500 o).toCallbacks rest) 500 0 "PF" .none = .ok F ∧ PT.init 500 none 0 = .ok s0 ∧
      growthLikelihood 5 2 2 (some (.obj y0)) (asSlots qs) + stdObjective s0 F (some (.obj y0)) (asSlots qs)
          (smoothRoundsE 30 (ffbsi (stdLogpXnext o) { srest with postSmoothing := none }) 50 "mcmc" none d 0) o c ≤
        growthLikelihood 5 (exp a') (exp b') (some (.obj y0)) (asSlots qs) + stdObjective s0 F (some (.obj y0)) (asSlots qs)
          (smoothRoundsE 30 (ffbsi (stdLogpXnext o) { srest with postSmoothing := none }) 50 "mcmc" none d 0) o' c := by
  have hn : parseFilter "PF" = .ok .pf := by
    have : "PF".toLower = "pf" := by decide +kernel
    simp [parseFilter, this]
  have h5 : (0 : ℝ) < 5 := by norm_num
  have h2 : exp (Real.log 2) = 2 := Real.exp_log (by norm_num)
  obtain ⟨c, hc⟩ := growthLog_bounded (U := ℝ) h5 (exp_pos (Real.log 2)) (exp_pos (Real.log 2)) (some (.obj y0)) (asSlots qs)
  obtain ⟨c', hc'⟩ := growthLog_bounded (U := ℝ) h5 (exp_pos a') (exp_pos b') (some (.obj y0)) (asSlots qs)
  refine ⟨_, _, _, _, _, max c c', (C117_parameters 5 1 0.1 []).2.1 one_pos, rfl, rfl, mkFilter_pf _ _ _ hn FilterOptions.none, rfl, ?_⟩
  have h := (C117_em_gain (U := ℝ) (rest := rest) (res := 0) (srest := { srest with postSmoothing := none }) h5 ((C117_parameters 5 1 0.1 []).2.1 one_pos) (a := Real.log 2) (b := Real.log 2) (a' := a') (b' := b') rfl rfl (N := 500) (by norm_num) hn
    (mkFilter_pf _ _ _ hn FilterOptions.none) rfl (fun _ => rfl) (m := 50) (by norm_num) (user := none) (R := 30) rfl d 0 y0 qs hne
    (fun xs => (hc xs).trans (le_max_left _ _)) (fun xs => (hc' xs).trans (le_max_right _ _))).1
  rw [h2] at h
  simpa only [h2] using h

/-- The bound fails in the script's own situation as soon as `exp θ0 < 1`. -/
example : ∃ om o', stdInit 5 1 0.1 = .ok om ∧ stdSet om [-1, 0] = .ok o' ∧ ¬ MaxDensity (stdLogpXnextMax (U := ℝ) o') (growthTrans o'.q) := by
  refine ⟨_, _, (C117_parameters 5 1 0.1 []).2.1 one_pos, rfl, fun h => ?_⟩
  have := (C117_stale_bound (U := ℝ) (a := -1) (b := 0) ((C117_parameters 5 1 0.1 []).2.1 one_pos) rfl).mp h
  have h2 := Real.exp_lt_one_iff.mpr (show (-1 : ℝ) < 0 by norm_num)
  linarith

/-- Two times and one trajectory from 0 to 1, measurements 1 and 1: the transition residual is `1 - 8`, so that the objective has its only minimum at
`exp θ0 = 49`, `exp θ1 = (1 + (19/20)²)/2`. -/
example (o : StdObj) (hp : 0 < o.p0) (pa : PA (Fin 1 → ℝ)) (u : List (Slot ℝ)) :
    ∃ v : ℝ → ℝ → ℝ, (∀ a b, ∃ o', stdSet o [a, b] = .ok o' ∧
        stdFval o' ⟨u, [.obj fun _ => 1, .obj fun _ => 1], [0, 1]⟩ [⟨{ pa with part := [fun _ => 0] }, none⟩, ⟨{ pa with part := [fun _ => 1] }, none⟩] = .ok (some (v a b))) ∧
      ∀ a b, (a, b) ≠ (Real.log 49, Real.log ((1 + (19/20)^2) / 2)) → v (Real.log 49) (Real.log ((1 + (19/20)^2) / 2)) < v a b := by
  refine C117_minimiser (n := 1) (m := 1) one_pos one_pos (fun t _ => (t : ℕ)) hp (by simp [List.ofFn_succ]) (fun _ => 1) (by simp [List.ofFn_succ]) rfl ?_ ?_ (by norm_num)
    (by norm_num)
  · simp [growth]
    norm_num
  · simp [Fin.sum_univ_succ]
    norm_num

/-- The same with the second measurement missing: the objective is nan at all parameters. -/
example (o : StdObj) (hp : 0 < o.p0) (a b : ℝ) (pa : PA (Fin 1 → ℝ)) (u : List (Slot ℝ)) : ∃ o', stdSet o [a, b] = .ok o' ∧
    stdFval o' ⟨u, [.obj fun _ => 1, .none], [0, 1]⟩ [⟨{ pa with part := [fun _ => 0] }, none⟩, ⟨{ pa with part := [fun _ => 1] }, none⟩] = .ok none :=
  ⟨⟨o.p0, exp a, exp b, o.logxnMax⟩, rfl, C117_missing_measurement (o := ⟨o.p0, exp a, exp b, o.logxnMax⟩) (n := 1) (m := 1) hp (exp_pos a) (exp_pos b) one_pos rfl (by simp) rfl ⟨rfl, by simp⟩⟩

end PyPE

import Verif.Smooth.MhChain
import Verif.Smooth.GibbsRun

/-!
# C97: `perform_smoothing(m, 'mhips')` after a run of the filter
-/

namespace PyPE
open Real Spec MeasureTheory ProbabilityTheory
open scoped ENNReal

variable {P U Y V Ω : Type}

/-! ### The data of a run -/

/-- The data a run over the history `first`, `qs` leaves: the measurement `first` of time 0 (`None` if the run starts with `forward`), and the
input and the measurement of every `forward`. -/
structure Spec.Recorded (first : Option (Slot Y)) (qs : List (Slot U × Slot Y)) (D : SData U Y) : Prop where
  ts : ∀ k ≤ qs.length, D.t[k]? = some k
  us : ∀ (k : ℕ) q, qs[k]? = some q → D.u[k]? = some q.1
  y0 : D.y[0]? = some (first.getD .none)
  ys : ∀ (k : ℕ) q, qs[k]? = some q → D.y[k+1]? = some q.2

theorem foldl_forward (pfy : Bool) (ds : List (Slot U × Slot Y × Ω × Draws Ω)) (l : Spec.Log U Y) (hl : l.ys ≠ []) :
    (ds.map fun q => Op.forward q.1 q.2.1 q.2.2.1 q.2.2.2).foldl (Spec.Log.step pfy) l =
      ⟨l.us ++ ds.map fun q => some q.1, l.ys ++ ds.map fun q => q.2.1⟩ := by
  induction ds generalizing l with
  | nil => simp
  | cons q ds ih =>
    rw [List.map_cons, List.foldl_cons, ih _ (by simp [Spec.Log.step, Spec.Log.forward, hl])]
    simp [Spec.Log.step, Spec.Log.forward, hl]

theorem history_log (pfy : Bool) (first : Option (Slot Y × Ω)) (ds : List (Slot U × Slot Y × Ω × Draws Ω)) (hne : first = none → ds ≠ []) :
    (history first ds).foldl (Spec.Log.step pfy) ⟨[], []⟩ =
      ⟨ds.map fun q => some q.1, (first.map (·.1)).getD .none :: ds.map fun q => q.2.1⟩ := by
  cases first with
  | some f =>
    obtain ⟨y0, ω⟩ := f
    simp only [history, List.cons_append, List.nil_append, List.foldl_cons]
    rw [foldl_forward _ _ _ (by simp [Spec.Log.step, Spec.Log.measure])]
    simp [Spec.Log.step, Spec.Log.measure]
  | none =>
    cases ds with
    | nil => exact absurd rfl (hne rfl)
    | cons q ds =>
      simp only [history, List.nil_append, List.map_cons, List.foldl_cons]
      rw [foldl_forward _ _ _ (by simp [Spec.Log.step, Spec.Log.forward])]
      simp [Spec.Log.step, Spec.Log.forward]

/-- What a run leaves in the buffers. -/
theorem run_recorded {F : FilterOps P U Y V Ω} {N : ℕ} {T : Option ℕ} {s0 s : PT P U Y} (h0 : PT.init N T 0 = .ok s0) (first : Option (Slot Y × Ω))
    {qs : List (Slot U × Slot Y)} {ds : List (Slot U × Slot Y × Ω × Draws Ω)} (hds : (ds.map fun q => (q.1, q.2.1)) = qs) (hne : first = none → qs ≠ [])
    {bs : List (Option Bool)} (h : s0.run F (history first ds) = (s, .ok bs)) : Recorded (first.map (·.1)) qs ⟨s.uvec, s.yvec, s.tvec⟩ := by
  have hr := PT.run_rep _ (PT.init_rep h0) h
  rw [history_log _ _ _ (fun e hd => hne e (by rw [← hds, hd]; rfl))] at hr
  have hl : ds.length = qs.length := by rw [← hds, List.length_map]
  refine ⟨fun k hk => hr.ts k (by simp; omega), fun k q hq => hr.us k q.1 ?_, ?_, fun k q hq => ?_⟩
  · rw [← hds] at hq
    simp only [List.getElem?_map, Option.map_eq_some_iff] at hq ⊢
    obtain ⟨a, h1, rfl⟩ := hq
    exact ⟨a, h1, rfl⟩
  · show s.yvec[0]? = _
    rw [hr.ys 0 (by simp)]; rfl
  · show s.yvec[k+1]? = _
    have hk := lt_of_getElem?_some hq
    rw [hr.ys (k+1) (by simp; omega)]
    rw [← hds] at hq
    simp only [List.getElem?_map, Option.map_eq_some_iff, List.getElem?_cons_succ] at hq ⊢
    obtain ⟨a, h1, rfl⟩ := hq
    exact ⟨a, h1, rfl⟩

theorem stepsE_congr [MeasurableSpace Ω] (ν : Measure Ω) {qs : List (Slot U × Slot Y)} {f f' : List (Slot U × Slot Y × Ω × Draws Ω) → ℝ≥0∞}
    (h : ∀ ds, (ds.map fun q => (q.1, q.2.1)) = qs → f ds = f' ds) : stepsE ν qs f = stepsE ν qs f' := by
  induction qs generalizing f f' with
  | nil => exact h [] rfl
  | cons q qs ih =>
    refine lintegral_congr fun ω0 => lintegral_congr fun r => lintegral_congr fun r2 => lintegral_congr fun ω => ih fun ds hds => h _ ?_
    rw [List.map_cons, hds]

/-! ### The smoother -/

/-- The number of passes of MHIPS: the user's `R`, or the default. -/
def Spec.passes (method : String) (user : Option SOpts) : PyM ℕ := (choose user (·.R) (.int (if method = "mhips" then 30 else 10))).range

/-- Expectation of `f` of the result of `perform_smoothing(M, 'mhips')` or `perform_smoothing(M, 'mhips_reduced')` with `R` passes, over all
draws. -/
noncomputable def Spec.mhipsE [MeasurableSpace Ω] (S : SmoothCallbacks P U Y V Ω) (ν : Measure Ω) (M : ℕ) (method : String) (R : ℕ)
    (user : Option SOpts) (d : AllDraws Ω) (fuel : ℕ) (f : PyM (Option (List (SStep P))) → ℝ≥0∞) (s : PT P U Y) : ℝ≥0∞ :=
  ∫⁻ r0, passesE ν s.traj.length R 0 (fun b => f (performSmoothing S s.traj M ⟨s.uvec, s.yvec, s.tvec⟩ method user
    { d with bsi := { d.bsi with r0 := r0 }, pass := fun i => ⟨b i, (d.pass i).ω⟩ } fuel)) (fun i => (d.pass i).mc) ∂unif

theorem mhips_run {S : SmoothCallbacks P U Y V Ω} (hps : NoPostprocessing S) {method : String} (hm : method = "mhips" ∨ method = "mhips_reduced")
    {user : Option SOpts} {R : ℕ} (hR : passes method user = .ok R) (pt : List (Step P)) (M : ℕ) (D : SData U Y) (d : AllDraws Ω) (fuel : ℕ) :
    performSmoothing S pt M D method user d fuel = (performAncestorsInt S pt M D d.bsi).bind fun t =>
      (mhipsPasses S M D (decide (method = "mhips_reduced")) ((List.range R).map d.pass) t).bind fun t => .ok (some t) := by
  obtain ⟨o, h1, h2⟩ : ∃ o, performSmoothing S pt M D method user d fuel = smoothTrajectory S pt M D method (some o) d fuel ∧
      mhIterations (some o) = .ok R := by
    have e : ¬ ("mhips_reduced" = "mhips") := by decide +kernel
    rcases hm with rfl | rfl
    · obtain ⟨o, h1, h2⟩ := (C26_mh_iterations S pt M D user d fuel).1 "mhips" (Or.inl rfl)
      exact ⟨o, h1, by rw [h2, ← hR]; rfl⟩
    · obtain ⟨o, h1, h2⟩ := (C26_mh_iterations S pt M D user d fuel).2
      exact ⟨o, h1, by rw [h2, ← hR, passes, if_neg e]⟩
  have a1 : ¬ (method = "full" ∨ method = "mcmc" ∨ method = "rs" ∨ method = "rsas") := by
    rcases hm with rfl | rfl <;> decide +kernel
  have a2 : ¬ (method = "ancestor") := by rcases hm with rfl | rfl <;> decide +kernel
  rw [h1, smoothTrajectory, if_neg a1, if_neg a2, if_pos hm]
  rcases performAncestorsInt S pt M D d.bsi with e | t
  · rfl
  · simp only [ok_bind, h2]
    show _ = Except.bind (mhipsPasses S M D (decide (method = "mhips_reduced")) ((List.range R).map d.pass) t) _
    rcases mhipsPasses S M D (decide (method = "mhips_reduced")) ((List.range R).map d.pass) t with e | t
    · rfl
    · simp only [ok_bind, pure_eq_ok, hps t]
      rfl

section
variable [MeasurableSpace P] [MeasurableSpace Ω] {S : SmoothCallbacks P U Y V Ω} {ν : Measure Ω} {vol : Measure P} {l0 : P → ℝ} {lp : ℕ → P → P → ℝ}
  [SigmaFinite vol] [IsProbabilityMeasure ν] {g : ℕ → P → ℝ} {lq : ℕ → Option P → Option P → P → ℝ} {m K : ℕ}

/-- `R` passes, applied to a function of a trajectory of `K + 1` states. -/
noncomputable def passesOn (vol : Measure P) (l0 : P → ℝ) (lp : ℕ → P → P → ℝ) (g : ℕ → P → ℝ) (lq : ℕ → Option P → Option P → P → ℝ) (K R : ℕ) (x0 : P)
    (φ : List P → ℝ≥0∞) (xs : List P) : ℝ≥0∞ :=
  (passOp vol l0 lp g lq K (K+1))^[R] (fun s => φ ((List.range (K+1)).map s)) (fun t => xs.getD t x0)

theorem iterate_passOp_measurable (hlaw : PathLaw vol l0 lp g lq) (R : ℕ) {ψ : (ℕ → P) → ℝ≥0∞} (hψ : Measurable ψ) :
    Measurable ((passOp vol l0 lp g lq K (K+1))^[R] ψ) := by
  induction R with
  | zero => exact hψ
  | succ R ih => rw [Function.iterate_succ_apply']; exact passOp_measurable hlaw K (K+1) ih

theorem passesOn_measurable (hlaw : PathLaw vol l0 lp g lq) (R : ℕ) (x0 : P) {φ : List P → ℝ≥0∞}
    (hφ : Measurable fun s : ℕ → P => φ ((List.range (K+1)).map s)) (n : ℕ) :
    Measurable fun x : Fin n → P => passesOn vol l0 lp g lq K R x0 φ (List.ofFn x) := by
  refine (iterate_passOp_measurable hlaw R hφ).comp (measurable_pi_lambda _ fun t => ?_)
  by_cases ht : t < n
  · have : (fun x : Fin n → P => (List.ofFn x).getD t x0) = fun x => x ⟨t, ht⟩ := by
      funext x; simp [List.getD_eq_getElem?_getD, ht]
    rw [this]; exact measurable_pi_apply _
  · have : (fun x : Fin n → P => (List.ofFn x).getD t x0) = fun _ => x0 := by
      funext x; simp [List.getD_eq_getElem?_getD, ht]
    rw [this]; exact measurable_const

theorem pathMean_rows {c : ℕ} {φ : List P → ℝ≥0∞} {out : List (SStep P)} {Z : ℕ → Fin m → P} (ho : out.length = c) (hZ : RowsAt m out 0 Z) :
    pathMean φ m (.ok (some out)) = ENNReal.ofReal (1 / m) * ∑ j : Fin m, φ ((List.range c).map fun t => Z t j) := by
  simp only [pathMean]
  congr 1
  rw [Finset.sum_range]
  refine Finset.sum_congr rfl fun j _ => ?_
  congr 1
  unfold pathOf
  rw [filterMap_range out _ (fun t => Z t j), ho]
  intro t a ha
  obtain ⟨st, h1, h2, -⟩ := hZ t (lt_of_getElem?_some ha)
  rw [ha] at h1
  obtain rfl := Option.some.inj h1
  rw [h2]; simp

/-- MHIPS after a run: the ancestral trajectories, then the passes. -/
theorem mhipsE_eq (hpl : ∀ D, PlainSmooth S D) (hps : NoPostprocessing S) (hpre : ∀ t, applyHook S.preMhips t = .ok t) (hm : 0 < m) (hK : 1 ≤ K)
    {method : String} (hme : method = "mhips" ∨ method = "mhips_reduced") {user : Option SOpts} {R : ℕ} (hR : passes method user = .ok R)
    (hlaw : PathLaw vol l0 lp g lq) {s : PT P U Y}
    (hst : MhStep S ⟨s.uvec, s.yvec, s.tvec⟩ (decide (method = "mhips_reduced")) ν m K vol l0 lp g lq)
    {φ : List P → ℝ≥0∞} (hφ : Measurable fun s : ℕ → P => φ ((List.range (K+1)).map s)) {N : ℕ} (hN : 0 < N) (hk : s.traj.length = K + 1)
    (hgs : ∀ st ∈ s.traj, GoodStep N st) (x0 : P) (d : AllDraws Ω) (fuel fuel' : ℕ) (user' : Option SOpts) :
    mhipsE S ν m method R user d fuel (pathMean φ m) s =
      smoothE S m "ancestor" user' d fuel' (pathMean (passesOn vol l0 lp g lq K R x0 φ) m) s := by
  have hrun : GoodRun N s.traj := ⟨hN, by intro h; rw [h] at hk; simp at hk, hgs⟩
  unfold mhipsE smoothE
  refine lintegral_congr_ae ?_
  filter_upwards [unif_ae] with r hr
  obtain ⟨D, hD⟩ : ∃ D : SData U Y, D = ⟨s.uvec, s.yvec, s.tvec⟩ := ⟨_, rfl⟩
  rw [← hD] at hst ⊢
  obtain ⟨traj, e1, e2, e3⟩ := C33_ancestor (d := { d.bsi with r0 := r }) hrun (fun part ptraj anc fut find cur ω =>
    ⟨part, hpl D part ptraj anc fut find cur ω, rfl⟩) hm (show Unit01 r from ⟨hr.1.le, hr.2⟩)
  have hZ : RowsAt m traj 0 (fun t (j : Fin m) => (traj[t]?.bind fun st => st.pa.part[(j : ℕ)]?).getD x0) := by
    intro i hi
    obtain ⟨st, sm, g1, g2, g3⟩ := e3 i (by omega)
    refine ⟨sm, g2, ?_, g3.anc⟩
    apply List.ext_getElem
    · rw [g3.wf.part_len, List.length_ofFn]
    · intro j h1 h2
      simp [g2, h1]
  have hr' : ∀ a, pathMean (passesOn vol l0 lp g lq K R x0 φ) m (performSmoothing S s.traj m D "ancestor" user' (withDraws d r a) fuel') =
      ENNReal.ofReal (1 / m) * ∑ j : Fin m, (passOp vol l0 lp g lq K (K+1))^[R] (fun s => φ ((List.range (K+1)).map s))
        (fun t => (traj[t]?.bind fun st => st.pa.part[(j : ℕ)]?).getD x0) := by
    intro a
    have hp : performSmoothing S s.traj m D "ancestor" user' (withDraws d r a) fuel' = .ok (some traj) := by
      have a1 : ¬ ("ancestor" = "rs") := by decide +kernel
      have a2 : ¬ ("ancestor" = "rsas") := by decide +kernel
      have a4 : ¬ ("ancestor" = "full") := by decide +kernel
      have a5 : ¬ ("ancestor" = "mcmc") := by decide +kernel
      have a6 : ¬ ("ancestor" = "mhips") := by decide +kernel
      have a7 : ¬ ("ancestor" = "mhbp") := by decide +kernel
      have e1' : performAncestorsInt S s.traj m D (withDraws d r a).bsi = .ok traj := e1
      simp only [performSmoothing, defaultOptions, a1, a2, a4, a5, a6, a7, or_self, if_false, pure_eq_ok, ok_bind, smoothTrajectory, if_true, e1',
        hps _]
    rw [hp, pathMean_rows (e2.trans hk) hZ]
    congr 1
    refine Finset.sum_congr rfl fun j _ => ?_
    unfold passesOn
    refine congrArg _ (funext fun t => ?_)
    by_cases ht : t < K + 1
    · simp [List.getD_eq_getElem?_getD, ht]
    · simp [List.getD_eq_getElem?_getD, ht, show ¬ t < traj.length by omega]
  simp only [hr', backE_const]
  rw [← passes_E hm hK hlaw (hpl D) hst hpre hφ (c := ENNReal.ofReal (1 / m)) ENNReal.ofReal_ne_top
    (F := fun t => pathMean φ m (t.bind fun t => .ok (some t))) (fun out Z ho hZ' => pathMean_rows ho hZ') (fun i => (d.pass i).ω) R 0 (e2.trans hk) hZ
    (fun i => (d.pass i).mc), hk]
  refine passesE_congr _ _ _ fun b _ => ?_
  rw [mhips_run hps hme hR]
  have e1' : performAncestorsInt S s.traj m D
    ({ d with bsi := { d.bsi with r0 := r }, pass := fun i => ⟨b i, (d.pass i).ω⟩ } : AllDraws Ω).bsi = .ok traj := e1
  rw [e1']
  simp only [Nat.zero_add]
  rfl

end

/-- The passes leave the smoothing law invariant. -/
theorem passesOn_invariant [MeasurableSpace P] {vol μ0 : Measure P} [SigmaFinite vol] {l0 : P → ℝ}
    (h0 : μ0 = vol.withDensity fun x => ENNReal.ofReal (exp (l0 x))) {M : ℕ → Slot U → Kernel P P} {lx : ℕ → Slot U → P → P → ℝ}
    (hlm : ∀ k u, Measurable fun z : P × P => lx k u z.1 z.2) (hden : ∀ k u x, M k u x = vol.withDensity fun x' => ENNReal.ofReal (exp (lx k u x x')))
    (hM : ∀ k u, IsMarkovKernel (M k u)) {ℓ : ℕ → Slot Y → P → ℝ} (hℓ : ∀ k y, Measurable (ℓ k y)) (first : Option (Slot Y)) (qs : List (Slot U × Slot Y))
    {lq : ℕ → Option P → Option P → P → ℝ} (hlaw : PathLaw vol l0 (fun k => lx k (inputAt qs k)) (likAt ℓ first qs) lq)
    (x0 : P) {φ : List P → ℝ≥0∞} (hφ : Measurable fun s : ℕ → P => φ ((List.range (qs.length + 1)).map s)) (R : ℕ) :
    smoothingE μ0 M ℓ first qs (passesOn vol l0 (fun k => lx k (inputAt qs k)) (likAt ℓ first qs) lq qs.length R x0 φ) = smoothingE μ0 M ℓ first qs φ := by
  have hcut : ∀ s : ℕ → P, passesOn vol l0 (fun k => lx k (inputAt qs k)) (likAt ℓ first qs) lq qs.length R x0 φ ((List.range (qs.length + 1)).map s) =
      (passOp vol l0 (fun k => lx k (inputAt qs k)) (likAt ℓ first qs) lq qs.length (qs.length+1))^[R] (fun s => φ ((List.range (qs.length+1)).map s))
        (fun t => if t < qs.length + 1 then s t else x0) := by
    intro s
    unfold passesOn
    refine congrArg _ (funext fun t => ?_)
    by_cases ht : t < qs.length + 1
    · simp [List.getD_eq_getElem?_getD, ht]
    · simp [List.getD_eq_getElem?_getD, ht]
  have hmeas : Measurable fun s : ℕ → P => passesOn vol l0 (fun k => lx k (inputAt qs k)) (likAt ℓ first qs) lq qs.length R x0 φ
      ((List.range (qs.length + 1)).map s) := by
    simp only [hcut]
    refine (iterate_passOp_measurable hlaw R hφ).comp (measurable_pi_lambda _ fun t => ?_)
    by_cases ht : t < qs.length + 1
    · simp only [ht, if_true]; exact measurable_pi_apply _
    · simp only [ht, if_false]; exact measurable_const
  rw [smoothing_eq hlaw.start h0 hlm hden hM hℓ first qs x0 hmeas, smoothing_eq hlaw.start h0 hlm hden hM hℓ first qs x0 hφ]
  have hfill : ∀ r : Fin (qs.length + 1) → P, (fun t => if t < qs.length + 1 then fill (fun _ => x0) 0 r t else x0) = fill (fun _ => x0) 0 r := by
    intro r
    funext t
    by_cases ht : t < qs.length + 1
    · rw [if_pos ht]
    · rw [if_neg ht, fill_eq, dif_neg (by omega)]
  simp only [hcut, hfill]
  clear hmeas hcut
  induction R with
  | zero => rfl
  | succ R ih =>
    rw [← ih]
    simp only [Function.iterate_succ_apply']
    exact passOp_invariant hlaw le_rfl x0 (iterate_passOp_measurable hlaw R hφ)

end PyPE

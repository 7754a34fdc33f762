import Verif.Consistency.Steps

/-!
# C106: a whole run without resampling is a sample of independent weighted particles
-/

namespace PyPE
open Real Spec MeasureTheory ProbabilityTheory
open scoped ENNReal

variable {P U Y V Ω : Type}

/-- The law of one weighted particle at the end of a run: it starts from `μ0` with weight `c0` and makes the steps `qs`. -/
noncomputable def Spec.weightedLaw [MeasurableSpace P] (κ : ℕ → Slot U → Slot Y → Kernel P P) (inc : ℕ → Slot U → Slot Y → P → P → ℝ) (μ0 : Measure P)
    (c0 : P → ℝ) (qs : List (Slot U × Slot Y)) : Measure (P × ℝ) :=
  (μ0.map fun x => (x, c0 x)).bind (weightedSteps κ inc 0 qs)

/-- A function of the `N` particles of the last step of a run and their importance weights - `N` times the likelihood estimate times the normalised
weight, so that the average of the importance weights is the likelihood estimate. A run that raises contributes `0`. -/
noncomputable def Spec.onWeighted (N : ℕ) (G : (Fin N → P × ℝ) → ℝ≥0∞) : PT P U Y × PyM (List (Option Bool)) → ℝ≥0∞
  | (s, .ok bs) => match s.traj.getLast? with
    | none => 0
    | some st => if h : st.pa.part.length = N then
        G fun i => (st.pa.part[i]'(by rw [h]; exact i.2), N * (likEstimate s.traj (bs.filterMap id) * (normWeights st.pa.w).getD i 0))
      else 0
  | (_, .error _) => 0

theorem onWeighted_ofFn {N : ℕ} (G : (Fin N → P × ℝ) → ℝ≥0∞) {s : PT P U Y} {bs : List (Option Bool)} {st : Step P} (hl : s.traj.getLast? = some st)
    {x : Fin N → P} {w : Fin N → ℝ} (hx : st.pa.part = List.ofFn x) (hw : st.pa.w = List.ofFn w) :
    onWeighted N G (s, .ok bs) = G fun i => (x i, N * (likEstimate s.traj (bs.filterMap id) * (exp (w i) / ∑ j, exp (w j)))) := by
  have hlen : st.pa.part.length = N := by rw [hx]; simp
  simp only [onWeighted, hl, dif_pos hlen]
  congr 1
  funext i
  congr 1
  · simp [hx]
  · congr 2
    unfold normWeights
    rw [hw]
    simp [List.getD_eq_getElem?_getD, List.sum_ofFn]

theorem likEstimate_of_single {F : FilterOps P U Y V Ω} {s : PT P U Y} {lg : Spec.Log U Y} (hrep : s.Rep lg) {st : Step P} (hs : s.traj = [st])
    {ds : List (Slot U × Slot Y × Ω × Draws Ω)} {s' : PT P U Y} {bs : List (Option Bool)} (hr : s.run F (fwd ds) = (s', .ok bs)) :
    likEstimate s'.traj (bs.filterMap id) = mass st.pa * likProd (s'.traj.drop 0) (bs.filterMap id) := by
  obtain ⟨l, hl⟩ := fwd_prefix ds hrep (by rw [hs]; simp) hr
  rw [hs] at hl
  simp only [likEstimate, hl, List.drop_zero, List.cons_append, List.nil_append]

theorem stepsE_head [MeasurableSpace Ω] {F : FilterOps P U Y V Ω} {ν : Measure Ω} [IsProbabilityMeasure ν]
    {s : PT P U Y} (hs : s.traj ≠ []) (hi : s.Inv) (H : PT P U Y × PyM (List (Option Bool)) → ℝ≥0∞) (q : Slot U × Slot Y)
    (qs : List (Slot U × Slot Y)) (ω0 : Ω) :
    ∫⁻ r, ∫⁻ r2, ∫⁻ ω, stepsE ν qs (fun ds => H (s.run F (fwd ((q.1, q.2, ω0, ⟨r, r2, ω⟩) :: ds)))) ∂ν ∂unif ∂unif =
      stepsE ν (q :: qs) (fun ds => H (s.run F (fwd ds))) := by
  simp only [stepsE]
  have he : ∀ ω0, s.ensureInit F ω0 = (s, .ok ()) := by
    intro ω0
    unfold PT.ensureInit
    rw [if_neg (fun h => hs (List.length_eq_zero_iff.mp h))]
  have hf : ∀ ω0 ω1 d, s.forward F q.1 q.2 ω0 d = s.forward F q.1 q.2 ω1 d := by
    intro ω0 ω1 d
    rw [PT.forward_eq hi, PT.forward_eq hi, he, he]
  have hr : ∀ ω1 d ds, s.run F (fwd ((q.1, q.2, ω1, d) :: ds)) = s.run F (fwd ((q.1, q.2, ω0, d) :: ds)) := by
    intro ω1 d ds
    simp only [fwd, List.map_cons, PT.run, PT.step, hf ω1 ω0]
  simp only [fun ω1 d ds => hr ω1 d ds]
  rw [lintegral_const, measure_univ, mul_one]

/-- The run starts from independent particles: pushes the start through the steps. -/
theorem indep_start [MeasurableSpace P] [MeasurableSpace Ω] {ν : Measure Ω} {N : ℕ} {μ0 : Measure P} [IsProbabilityMeasure μ0]
    {X : Ω → Fin N → P} (hX : Measurable X) (hXl : ν.map X = Measure.pi fun _ => μ0) {c0 : P → ℝ} (hc0 : Measurable c0)
    {κ : ℕ → Slot U → Slot Y → Kernel P P} [∀ k u y, IsMarkovKernel (κ k u y)] {inc : ℕ → Slot U → Slot Y → P → P → ℝ}
    (hinc : ∀ k u y, Measurable (Function.uncurry (inc k u y))) {G : (Fin N → P × ℝ) → ℝ≥0∞} (hG : Measurable G) (qs : List (Slot U × Slot Y)) :
    ∫⁻ ω, ∫⁻ z, G z ∂(Measure.pi fun i => weightedSteps κ inc 0 qs (X ω i, c0 (X ω i))) ∂ν =
      ∫⁻ z, G z ∂(Measure.pi fun _ : Fin N => weightedLaw κ inc μ0 c0 qs) := by
  haveI := weightedSteps_markov (κ := κ) hinc qs 0
  have hfm : Measurable fun x => (x, c0 x) := measurable_id.prodMk hc0
  haveI : IsProbabilityMeasure (μ0.map fun x => (x, c0 x)) := Measure.isProbabilityMeasure_map hfm.aemeasurable
  have hzm : Measurable fun (x : Fin N → P) (i : Fin N) => (x i, c0 (x i)) :=
    measurable_pi_lambda _ fun i => hfm.comp (measurable_pi_apply i)
  have hK : Measurable fun z : Fin N → P × ℝ => ∫⁻ z', G z' ∂(Measure.pi fun i => weightedSteps κ inc 0 qs (z i)) :=
    (Measure.measurable_lintegral hG).comp (measurable_pi_kernel (N := N) (weightedSteps κ inc 0 qs))
  unfold weightedLaw
  rw [← pi_bind (weightedSteps κ inc 0 qs) (fun _ => μ0.map fun x => (x, c0 x)) hG,
    ← Measure.pi_map_pi (μ := fun _ : Fin N => μ0) (f := fun _ x => (x, c0 x)) (fun _ => hfm.aemeasurable), lintegral_map hK hzm, ← hXl,
    lintegral_map (f := fun x : Fin N → P => ∫⁻ z', G z' ∂(Measure.pi fun i => weightedSteps κ inc 0 qs (x i, c0 (x i)))) (hK.comp hzm) hX]

/-- Every function of the outcome that depends, on success, only on the weighted particles of the last step is distributed as for `N` independent
weighted particles. -/
theorem indep_run [MeasurableSpace P] [MeasurableSpace Ω] {F : FilterOps P U Y V Ω} {ν : Measure Ω} [IsProbabilityMeasure ν]
    {N : ℕ} (hN : 0 < N) {good : Slot Y → Prop} {κ : ℕ → Slot U → Slot Y → Kernel P P} [∀ k u y, IsMarkovKernel (κ k u y)]
    {inc : ℕ → Slot U → Slot Y → P → P → ℝ} (hinc : ∀ k u y, Measurable (Function.uncurry (inc k u y)))
    (hS : ∀ k u y, good y → JointStep F ν N k u y (κ k u y) (inc k u y)) {ℓ : ℕ → Slot Y → P → ℝ} (hℓ : ∀ k y, Measurable (ℓ k y))
    {μ0 : Measure P} [IsProbabilityMeasure μ0] {X : Ω → Fin N → P} (hX : Measurable X) (hXl : ν.map X = Measure.pi fun _ => μ0)
    (hc : ∀ ω, F.create N ω = .ok (List.ofFn (X ω))) (hpfy : F.usingPfy = false)
    (hm : ∀ (tr : List (Step P)) (anc : List ℕ) (pa : PA P) (x : Fin N → P) uv yv tv (y : Slot Y), good y → pa.part = List.ofFn x → pa.w.length = N →
      yv[0]? = some y → tv[0]? = some 0 → ∃ pa' w', F.measure tr anc pa uv yv tv 0 = .ok pa' ∧ pa'.part = List.ofFn x ∧ pa'.w = List.ofFn w' ∧
        pa'.num = pa.num ∧ ∀ i : Fin N, w' i + pa'.w_offset = pa.w.getD i 0 + pa.w_offset + ℓ 0 y (x i))
    {T : Option ℕ} {s0 : PT P U Y} (h0 : PT.init N T 0 = .ok s0) (qs : List (Slot U × Slot Y)) (hqs : ∀ q ∈ qs, good q.2)
    {G : (Fin N → P × ℝ) → ℝ≥0∞} (hG : Measurable G) (H : PT P U Y × PyM (List (Option Bool)) → ℝ≥0∞)
    (hH : ∀ s' bs st (x' : Fin N → P) (w' : Fin N → ℝ), s'.traj.getLast? = some st → st.pa.part = List.ofFn x' → st.pa.w = List.ofFn w' →
      H (s', .ok bs) = G fun i => (x' i, N * (likEstimate s'.traj (bs.filterMap id) * (exp (w' i) / ∑ j, exp (w' j))))) :
    (∀ y0, good y0 → ∫⁻ ω, stepsE ν qs (fun ds => H (s0.run F (history (some (y0, ω)) ds))) ∂ν =
      ∫⁻ z, G z ∂(Measure.pi fun _ : Fin N => weightedLaw κ inc μ0 (fun x => exp (ℓ 0 y0 x)) qs)) ∧
    (qs ≠ [] → stepsE ν qs (fun ds => H (s0.run F (history none ds))) =
      ∫⁻ z, G z ∂(Measure.pi fun _ : Fin N => weightedLaw κ inc μ0 (fun _ => 1) qs)) := by
  have hrep0 := PT.init_rep h0
  obtain ⟨hsN, htr⟩ := init_N h0
  have hNr : (0:ℝ) < N := by exact_mod_cast hN
  haveI : Nonempty (Fin N) := ⟨⟨0, hN⟩⟩
  have hrepl : List.replicate N (-Real.log N) = List.ofFn (fun _ : Fin N => -Real.log N) := by
    rw [List.ofFn_const]
  have hu : exp (-Real.log N) = 1 / N := by rw [exp_neg, exp_log hNr, one_div]
  constructor
  · intro y0 hy0g
    rw [← indep_start (c0 := fun x => exp (ℓ 0 y0 x)) hX hXl (measurable_exp.comp (hℓ 0 y0)) hinc hG qs]
    apply lintegral_congr
    intro ω
    obtain ⟨hg, g1, g2, g3, g4⟩ := PT.growMeasure_inv hrep0.inv
    have he := ensureInit_create (s := s0.growMeasure) hN (g2.trans hsN) (by rw [← htr]; assumption) (hc ω)
    set sI : PT P U Y := { s0.growMeasure with ind1 := 1, traj := [⟨⟨List.ofFn (X ω), List.replicate N (-Real.log N), N, 0⟩,
      List.range N⟩] } with hsI
    have hrepI : sI.Rep ⟨[], [.none]⟩ := (hrep0.growMeasure.ensureInit he).1 rfl
    have hy0 : 0 < sI.yvec.length := lt_of_getElem?_some (hrepI.ys 0 (by simp))
    have ht0 : 0 < sI.tvec.length := lt_of_getElem?_some (hrepI.ts 0 (by simp))
    obtain ⟨pa', w', f1, f2, f3, -, f4⟩ := hm sI.traj (List.range N) ⟨List.ofFn (X ω), List.replicate N (-Real.log N), N, 0⟩
      (X ω) (sI.beforeMeasure y0).uvec (sI.beforeMeasure y0).yvec (sI.beforeMeasure y0).tvec y0 hy0g rfl (by simp)
      (by simp only [PT.beforeMeasure, hsI]; exact List.getElem?_set_self hy0)
      (by simp only [PT.beforeMeasure, hsI]; exact List.getElem?_set_self ht0)
    have hmeas : s0.measure F y0 ω = ({ sI.beforeMeasure y0 with traj := [⟨pa', List.range N⟩] }, .ok ()) := by
      rw [PT.measure_eq hpfy hrep0.inv, he]
      have hgl : getLast sI.traj = .ok ⟨⟨List.ofFn (X ω), List.replicate N (-Real.log N), N, 0⟩, List.range N⟩ := rfl
      simp only [hgl]
      have hind : sI.ind1 - 1 = 0 := rfl
      rw [hind, f1]
      rfl
    have hrep1 := PT.measure_rep hrep0 hmeas
    set s1 : PT P U Y := { sI.beforeMeasure y0 with traj := [⟨pa', List.range N⟩] } with hs1
    set addNone : PT P U Y × PyM (List (Option Bool)) → PT P U Y × PyM (List (Option Bool)) := fun o => match o with
      | (s, .error e) => (s, .error e)
      | (s, .ok bs) => (s, .ok (none :: bs)) with hadd
    have hrun : ∀ ds, s0.run F (history (some (y0, ω)) ds) = addNone (s1.run F (fwd ds)) := by
      intro ds
      have : history (some (y0, ω)) ds = .measure y0 ω :: fwd ds := rfl
      rw [this]
      simp only [PT.run, PT.step, hmeas]
      rcases s1.run F (fwd ds) with ⟨s2, _ | bs⟩ <;> rfl
    simp only [hrun]
    rw [indep_steps hN hinc hS hG qs hqs hrep1 (last := ⟨pa', List.range N⟩) rfl f2 f3 (k := 0) rfl (N * mass pa') (fun o => H (addNone o))]
    · congr 2
      funext i
      congr 2
      have h4 := f4 i
      rw [hrepl] at h4
      simp only [List.getD_eq_getElem?_getD, List.getElem?_ofFn, i.2, dif_pos, Option.getD_some, add_zero] at h4
      have hs0 : 0 < ∑ j, exp (w' j) := Finset.sum_pos (fun _ _ => exp_pos _) Finset.univ_nonempty
      have h5 : exp (w' i) * exp pa'.w_offset = exp (ℓ 0 y0 (X ω i)) / N := by
        rw [← exp_add, h4, exp_add, hu]; ring
      rw [mass_ofFn f3]
      simp only [exp_add, ← Finset.sum_mul]
      have : (N:ℝ) * ((∑ j, exp (w' j)) * exp pa'.w_offset) * (exp (w' i) / ∑ j, exp (w' j)) = N * (exp (w' i) * exp pa'.w_offset) := by
        field_simp
      rw [this, h5]
      field_simp
    · intro ds s' bs st x' w'' hr hl hx' hw'
      show H (s', .ok (none :: bs)) = _
      rw [hH s' (none :: bs) st x' w'' hl hx' hw', List.filterMap_cons_none (f := id) (a := (none : Option Bool)) rfl,
        likEstimate_of_single hrep1 (st := ⟨pa', List.range N⟩) rfl hr]
      simp only [mul_assoc]
  · intro hne
    obtain ⟨q, qs, rfl⟩ := List.exists_cons_of_ne_nil hne
    rw [← indep_start hX hXl measurable_const hinc hG (q :: qs)]
    show ∫⁻ ω0, _ ∂ν = _
    apply lintegral_congr
    intro ω
    have he := ensureInit_create (s := s0) hN hsN htr (hc ω)
    set s1 : PT P U Y := { s0 with ind1 := 1, traj := [⟨⟨List.ofFn (X ω), List.replicate N (-Real.log N), N, 0⟩,
      List.range N⟩] } with hs1
    have hrep1 : s1.Rep ⟨[], [.none]⟩ := (hrep0.ensureInit he).1 rfl
    have hrun : ∀ d ds, s0.run F (history none ((q.1, q.2, ω, d) :: ds)) = s1.run F (fwd ((q.1, q.2, ω, d) :: ds)) := by
      intro d ds
      simp only [history, fwd, List.nil_append, List.map_cons, PT.run, PT.step,
          forward_ensureInit he (by rw [hs1]; simp) q.1 q.2 d]
    have hmass : mass (⟨List.ofFn (X ω), List.replicate N (-Real.log N), N, 0⟩ : PA P) = 1 := by
      unfold mass
      simp only [add_zero, List.map_replicate, List.sum_replicate, nsmul_eq_mul, hu]
      exact mul_one_div_cancel hNr.ne'
    simp only [hrun]
    rw [stepsE_head (s := s1) (by rw [hs1]; simp) hrep1.inv H q qs ω,
      indep_steps hN hinc hS hG (q :: qs) hqs hrep1 (last := ⟨⟨List.ofFn (X ω), List.replicate N (-Real.log N), N, 0⟩, List.range N⟩)
        rfl rfl hrepl (k := 0) rfl N H]
    · congr 2
      funext i
      congr 2
      rw [Finset.sum_const, Finset.card_univ, Fintype.card_fin, nsmul_eq_mul, hu]
      field_simp
    · intro ds s' bs st x' w'' hr hl hx' hw'
      rw [hH s' bs st x' w'' hl hx' hw', likEstimate_of_single hrep1 (st := ⟨⟨List.ofFn (X ω), List.replicate N (-Real.log N), N, 0⟩, List.range N⟩) rfl hr, hmass]
      simp only [mul_assoc, one_mul]

end PyPE

import Verif.Consistency.Law

/-!
# C106: the particles of a filter that does not resample are independent weighted samples
-/

namespace PyPE
open Real Spec MeasureTheory ProbabilityTheory
open scoped ENNReal

variable {P U Y V Ω : Type}

theorem weightedStep_apply [MeasurableSpace P] {κ : Kernel P P} [IsMarkovKernel κ] {inc : P → P → ℝ} (hinc : Measurable (Function.uncurry inc)) (z : P × ℝ) :
    weightedStep κ inc z = (κ z.1).map fun x' => (x', z.2 * exp (inc z.1 x')) := by
  have hm : Measurable fun x' => (x', z.2 * exp (inc z.1 x')) :=
    measurable_id.prodMk ((measurable_exp.comp (hinc.comp (measurable_const.prodMk measurable_id))).const_mul _)
  ext s hs
  have h := weightedStep_lintegral (κ := κ) hinc z (f := s.indicator 1) (measurable_one.indicator hs)
  rw [lintegral_indicator_one hs] at h
  rw [h, Measure.map_apply hm hs, ← lintegral_indicator_one (hm hs)]
  rfl

/-- Without resampling, a weighted particle carries the exact value: the mean of weight times `φ` is the exact value of `φ`. -/
theorem weightedSteps_value [MeasurableSpace P] {κ : ℕ → Slot U → Slot Y → Kernel P P} [∀ k u y, IsMarkovKernel (κ k u y)]
    {inc : ℕ → Slot U → Slot Y → P → P → ℝ} (hinc : ∀ k u y, Measurable (Function.uncurry (inc k u y)))
    {M : ℕ → Slot U → Kernel P P} {ℓ : ℕ → Slot Y → P → ℝ} (hℓ : ∀ k y, Measurable (ℓ k y))
    (hQ : ∀ k u y (h : P → ℝ≥0∞), Measurable h → ∀ x, ∫⁻ x', ENNReal.ofReal (exp (inc k u y x x')) * h x' ∂(κ k u y x) =
      ∫⁻ x', ENNReal.ofReal (exp (ℓ (k+1) y x')) * h x' ∂(M k u x))
    {φ : P → ℝ≥0∞} (hφ : Measurable φ) (qs : List (Slot U × Slot Y)) (k : ℕ) (z : P × ℝ) :
    ∫⁻ z', ENNReal.ofReal z'.2 * φ z'.1 ∂(weightedSteps κ inc k qs z) = ENNReal.ofReal z.2 * pathE M ℓ φ k qs z.1 := by
  have hmφ : Measurable fun z' : P × ℝ => ENNReal.ofReal z'.2 * φ z'.1 := measurable_snd.ennreal_ofReal.mul (hφ.comp measurable_fst)
  induction qs generalizing k z with
  | nil =>
    simp only [weightedSteps, pathE, Kernel.id_apply]
    rw [lintegral_dirac' _ hmφ]
  | cons q qs ih =>
    have hp := pathE_measurable M hℓ hφ qs (k+1)
    simp only [weightedSteps]
    rw [Kernel.lintegral_comp _ _ _ hmφ]
    simp only [ih]
    rw [weightedStep_lintegral (hinc k q.1 q.2) z (f := fun z => ENNReal.ofReal z.2 * pathE M ℓ φ (k+1) qs z.1)
      (measurable_snd.ennreal_ofReal.mul (hp.comp measurable_fst))]
    simp only [pathE]
    rw [← hQ k q.1 q.2 _ hp]
    simp only [ENNReal.ofReal_mul' (exp_pos _).le, mul_assoc]
    exact lintegral_const_mul' _ _ ENNReal.ofReal_ne_top

/-- A step without resampling: the particles move independently by `κ` and their log-weights change by `inc`. -/
def JointStep [MeasurableSpace P] [MeasurableSpace Ω] (F : FilterOps P U Y V Ω) (ν : Measure Ω) (N : ℕ) (k : ℕ) (u : Slot U) (y : Slot Y)
    (κ : Kernel P P) (inc : P → P → ℝ) : Prop :=
  ∀ x : Fin N → P, ∃ X : Ω → Fin N → P, Measurable X ∧ ν.map X = (Measure.pi fun i => κ (x i)) ∧
    ∀ (tr : List (Step P)) (last : Step P) (yv : List (Slot Y)) (uv : List (Slot U)) (tv : List ℕ) (d : Draws Ω) (w : Fin N → ℝ),
      tr.getLast? = some last → uv[k]? = some u → yv[k+1]? = some y → tv[k]? = some k → tv[k+1]? = some (k+1) →
      last.pa.part = List.ofFn x → last.pa.w = List.ofFn w →
      ∃ pa w', F.forward tr yv uv tv k d = .ok (pa, false, List.range N) ∧ pa.part = List.ofFn (X d.ω) ∧ pa.w = List.ofFn w' ∧
        ∀ i : Fin N, w' i + pa.w_offset = w i + inc (x i) (X d.ω i)

/-- The flag of the first step put in front of the flags of the others. -/
def addFlag {S E : Type} (b : Bool) : S × Except E (List (Option Bool)) → S × Except E (List (Option Bool))
  | (s, .error e) => (s, .error e)
  | (s, .ok bs) => (s, .ok (some b :: bs))

theorem indep_steps [MeasurableSpace P] [MeasurableSpace Ω] {F : FilterOps P U Y V Ω} {ν : Measure Ω} [IsProbabilityMeasure ν]
    {N : ℕ} (hN : 0 < N) {good : Slot Y → Prop} {κ : ℕ → Slot U → Slot Y → Kernel P P} [∀ k u y, IsMarkovKernel (κ k u y)]
    {inc : ℕ → Slot U → Slot Y → P → P → ℝ} (hinc : ∀ k u y, Measurable (Function.uncurry (inc k u y)))
    (hS : ∀ k u y, good y → JointStep F ν N k u y (κ k u y) (inc k u y))
    {G : (Fin N → P × ℝ) → ℝ≥0∞} (hG : Measurable G)
    (qs : List (Slot U × Slot Y)) (hqs : ∀ q ∈ qs, good q.2) {s : PT P U Y} {lg : Spec.Log U Y} (hrep : s.Rep lg)
    {last : Step P} (hlast : s.traj.getLast? = some last) {x : Fin N → P} {w : Fin N → ℝ} (hx : last.pa.part = List.ofFn x)
    (hw : last.pa.w = List.ofFn w) {k : ℕ} (hk : s.traj.length = k + 1) (c : ℝ) (H : PT P U Y × PyM (List (Option Bool)) → ℝ≥0∞)
    (hH : ∀ ds s' bs st (x' : Fin N → P) (w' : Fin N → ℝ), s.run F (fwd ds) = (s', .ok bs) → s'.traj.getLast? = some st →
      st.pa.part = List.ofFn x' → st.pa.w = List.ofFn w' →
      H (s', .ok bs) = G fun i => (x' i, c * likProd (s'.traj.drop k) (bs.filterMap id) * (exp (w' i) / ∑ j, exp (w' j)))) :
    stepsE ν qs (fun ds => H (s.run F (fwd ds))) =
      ∫⁻ z, G z ∂(Measure.pi fun i => weightedSteps κ inc k qs (x i, c * (exp (w i) / ∑ j, exp (w j)))) := by
  haveI : Nonempty (Fin N) := ⟨⟨0, hN⟩⟩
  induction qs generalizing s lg last x w k c H with
  | nil =>
    have h1 : likProd (s.traj.drop k) [] = 1 := by
      unfold likProd; split
      · simp_all
      · rfl
    have := hH [] s [] last x w rfl hlast hx hw
    simp only [stepsE, fwd, List.map_nil, PT.run]
    rw [this]
    simp only [weightedSteps, Kernel.id_apply, List.filterMap_nil, h1, mul_one]
    rw [← Measure.infinitePi_eq_pi, Measure.infinitePi_dirac, lintegral_dirac' _ hG]
  | cons q qs ih =>
    have hne : s.traj ≠ [] := by intro h; rw [h] at hlast; simp at hlast
    have hys : lg.ys ≠ [] := by
      intro h; have := hrep.len; rw [h, hk] at this; simp at this
    have hind : s.ind1 = k + 1 := by rw [hrep.ind, ← hrep.len, hk]
    obtain ⟨b1, b2, b3, b4⟩ := hrep.forward_bufs hys q.1 q.2
    simp only [hind, Nat.add_sub_cancel] at b1 b2 b3 b4
    obtain ⟨X, hXm, hXl, hXs⟩ := hS k q.1 q.2 (hqs q (by simp)) x
    set p : Fin N → ℝ := fun i => exp (w i) / ∑ j, exp (w j) with hp
    set R : (Fin N → P) → ℝ≥0∞ := fun x' => ∫⁻ z, G z ∂(Measure.pi fun i =>
      weightedSteps κ inc (k+1) qs (x' i, c * p i * exp (inc k q.1 q.2 (x i) (x' i)))) with hR
    haveI := weightedSteps_markov (κ := κ) hinc qs (k+1)
    have hzm : Measurable fun (x' : Fin N → P) (i : Fin N) => (x' i, c * p i * exp (inc k q.1 q.2 (x i) (x' i))) :=
      measurable_pi_lambda _ fun i => (measurable_pi_apply i).prodMk ((measurable_exp.comp ((hinc k q.1 q.2).comp
        (measurable_const.prodMk (measurable_pi_apply i)))).const_mul _)
    have hRm : Measurable R := ((Measure.measurable_lintegral hG).comp (measurable_pi_kernel (N := N) (weightedSteps κ inc (k+1) qs))).comp hzm
    have main : ∀ ω0 r r2 ω, stepsE ν qs (fun ds => H (s.run F (fwd ((q.1, q.2, ω0, ⟨r, r2, ω⟩) :: ds)))) = R (X ω) := by
      intro ω0 r r2 ω
      obtain ⟨pa, w', e1, e2, e3, e4⟩ := hXs s.traj last (s.beforeForward q.1 q.2).yvec (s.beforeForward q.1 q.2).uvec (s.beforeForward q.1 q.2).tvec
        ⟨r, r2, ω⟩ w hlast b1 b2 b4 b3 hx hw
      have hf : s.forward F q.1 q.2 ω0 ⟨r, r2, ω⟩ = ({ s.beforeForward q.1 q.2 with traj := s.traj ++ [⟨pa, List.range N⟩] }, .ok false) := by
        rw [PT.forward_eq hrep.inv]
        have he : s.ensureInit F ω0 = (s, .ok ()) := by
          unfold PT.ensureInit
          rw [if_neg (by rw [hk]; omega)]
        rw [he]
        simp only [hind, Nat.add_sub_cancel, e1]
      set s1 : PT P U Y := { s.beforeForward q.1 q.2 with traj := s.traj ++ [⟨pa, List.range N⟩] } with hs1
      have hrep1 := PT.forward_rep hrep hf
      have hk1 : s1.traj.length = (k + 1) + 1 := by rw [hs1]; simp [hk]
      have hlast1 : s1.traj.getLast? = some ⟨pa, List.range N⟩ := by rw [hs1]; simp
      have hrun : ∀ ds, s.run F (fwd ((q.1, q.2, ω0, ⟨r, r2, ω⟩) :: ds)) = addFlag false (s1.run F (fwd ds)) := by
        intro ds
        have hcons : fwd ((q.1, q.2, ω0, (⟨r, r2, ω⟩ : Draws Ω)) :: ds) = .forward q.1 q.2 ω0 ⟨r, r2, ω⟩ :: fwd ds := rfl
        rw [hcons, run_forward_cons hf]
        rcases s1.run F (fwd ds) with ⟨_, _ | _⟩ <;> rfl
      have hinc' : ∀ i, likIncr last.pa pa false * (exp (w' i) / ∑ j, exp (w' j)) = p i * exp (inc k q.1 q.2 (x i) (X ω i)) := by
        intro i
        have hs0 : 0 < ∑ j, exp (w' j) := Finset.sum_pos (fun _ _ => exp_pos _) Finset.univ_nonempty
        have hs2 : 0 < ∑ j, exp (w j) := Finset.sum_pos (fun _ _ => exp_pos _) Finset.univ_nonempty
        have h4 := e4 i
        have h5 : exp (w i) * exp (inc k q.1 q.2 (x i) (X ω i)) = exp (w' i) * exp pa.w_offset := by rw [← exp_add, ← exp_add, h4]
        rw [likIncr, mass_ofFn e3, hw, List.map_ofFn, List.sum_ofFn]
        simp only [exp_add, ← Finset.sum_mul, Bool.false_eq_true, if_false, Function.comp_apply, hp]
        field_simp
        rw [mul_comm (exp pa.w_offset), ← h5]
      simp only [hrun]
      rw [ih (fun q hq => hqs q (by simp [hq])) hrep1 hlast1 (x := X ω) (w := w') e2 e3 hk1 (c * likIncr last.pa pa false) (fun o => H (addFlag false o)) ?_]
      · simp only [hR, mul_assoc c, hinc']
      · intro ds s' bs st x'' w'' hr hl hx'' hw''
        have h1 := hH ((q.1, q.2, ω0, ⟨r, r2, ω⟩) :: ds) s' (some false :: bs) st x'' w'' (by rw [hrun, hr]; rfl) hl hx'' hw''
        show H (s', .ok (some false :: bs)) = _
        rw [h1]
        obtain ⟨l, hl'⟩ := fwd_prefix ds hrep1 (by rw [hs1]; simp) hr
        have hd : s'.traj.drop k = last :: ⟨pa, List.range N⟩ :: l := by
          rw [hl', hs1]
          obtain ⟨pre, hpre⟩ : ∃ pre, s.traj = pre ++ [last] := ⟨s.traj.dropLast, by
            rw [List.getLast?_eq_some_getLast hne, Option.some.injEq] at hlast
            rw [← hlast, List.dropLast_append_getLast]⟩
          have hpl : pre.length = k := by rw [hpre] at hk; simpa using hk
          simp only [hpre, List.append_assoc]
          rw [List.drop_append_of_le_length (by omega), ← hpl, List.drop_length]
          rfl
        have hd1 : s'.traj.drop (k+1) = ⟨pa, List.range N⟩ :: l := by
          rw [← List.drop_drop, hd]; rfl
        rw [hd1, hd, List.filterMap_cons_some (f := id) (b := false) rfl, likProd]
        simp only [mul_assoc]
    simp only [stepsE, main]
    have hXR : ∫⁻ ω, R (X ω) ∂ν = ∫⁻ z, G z ∂(Measure.pi fun i => weightedSteps κ inc k (q :: qs) (x i, c * p i)) := by
      rw [← lintegral_map hRm hXm, hXl]
      have e1 : ∀ i, weightedSteps κ inc k (q :: qs) (x i, c * p i) =
          ((κ k q.1 q.2 (x i)).map fun x' => (x', c * p i * exp (inc k q.1 q.2 (x i) x'))).bind (weightedSteps κ inc (k+1) qs) := by
        intro i
        simp only [weightedSteps]
        rw [Kernel.comp_apply, weightedStep_apply (hinc k q.1 q.2)]
      have hfm : ∀ i, Measurable fun x' => (x', c * p i * exp (inc k q.1 q.2 (x i) x')) := fun i =>
        measurable_id.prodMk ((measurable_exp.comp ((hinc k q.1 q.2).comp (measurable_const.prodMk measurable_id))).const_mul _)
      haveI : ∀ i, IsProbabilityMeasure ((κ k q.1 q.2 (x i)).map fun x' => (x', c * p i * exp (inc k q.1 q.2 (x i) x'))) := fun i =>
        Measure.isProbabilityMeasure_map (hfm i).aemeasurable
      simp only [e1]
      rw [← pi_bind (weightedSteps κ inc (k+1) qs) _ hG, ← Measure.pi_map_pi (fun i => (hfm i).aemeasurable), lintegral_map ?_ hzm]
      exact (Measure.measurable_lintegral hG).comp (measurable_pi_kernel (N := N) (weightedSteps κ inc (k+1) qs))
    rw [hXR]
    simp only [lintegral_const, measure_univ, mul_one, hp]

end PyPE

import Verif.Filter.PfyUnbiased
import Verif.Smooth.Ffbsi

/-!
# C113: smoothing after the filter that proposes from the measurement

Trajectories drawn by `perform_smoothing` from a run of the filter 'pfy': the estimate of C104 times the average of any non-negative `φ` over the
trajectories has expectation `E[Π_t p(y_t | x_t) φ(x_0, …, x_T)]` up to the constants of the proposals.
-/

namespace PyPE
open Real Spec MeasureTheory ProbabilityTheory
open scoped ENNReal

variable {P U Y V Ω : Type}

/-- The expectation over a sequence of steps, on a trajectory without preallocation, for a smoothing operator. -/
theorem pfy_steps_history [MeasurableSpace P] [MeasurableSpace Ω] {C : Callbacks P U Y V Ω} {ν : Measure Ω} [IsProbabilityMeasure ν] {N : ℕ} (hN : 0 < N)
    {vol μ0 : Measure P} {M : ℕ → Slot U → Kernel P P} {ℓ : ℕ → Slot Y → P → ℝ} {η : ℕ → Slot Y → Measure P} {Z : ℕ → Slot Y → ℝ} {lx : ℕ → Slot U → P → P → ℝ}
    {good : Slot Y → Prop} (hC : Spec.PfySamples C good ν N vol μ0 M ℓ η Z lx) (res : ℝ) (hM : ∀ k u, IsMarkovKernel (M k u))
    {φ : List P → ℝ≥0∞} (hφ : ∀ n, Measurable fun x : Fin n → P => φ (List.ofFn x))
    {E : List (Step P) → List (Slot U) → ((ℕ → P) → ℝ≥0∞) → Fin N → ℝ≥0∞} {s_ : ℕ → P} (hE : PathOp N M E s_) {H : PT P U Y → ℝ≥0∞} {L : ℕ}
    {us' : List (Slot U)} {ys' : List (Slot Y)}
    (hH : ∀ (s : PT P U Y) last (x : Fin N → P) (w : Fin N → ℝ), s.Rep ⟨us'.map some, ys'⟩ → s.traj.length = L + 1 →
      (∀ st ∈ s.traj, GoodStep N st) → s.traj.getLast? = some last → last.pa.part = List.ofFn x →
      last.pa.w = List.ofFn w → H s = ∑ i, ENNReal.ofReal (exp (w i) / ∑ j, exp (w j)) * E s.traj us' (pathG M ℓ φ L []) i)
    (qs : List (Slot U × Slot Y)) (hqs : ∀ q ∈ qs, good q.2) {s : PT P U Y} {us : List (Slot U)} {ys : List (Slot Y)} (hrep : s.Rep ⟨us.map some, ys⟩)
    (hgs : ∀ st ∈ s.traj, GoodStep N st) (hT : s.T ≤ s.ind1)
    {last : Step P} (hlast : s.traj.getLast? = some last) {x : Fin N → P} {w : Fin N → ℝ} (hx : last.pa.part = List.ofFn x)
    (hw : last.pa.w = List.ofFn w) {k : ℕ} (hk : s.traj.length = k + 1) (hL : L = k + qs.length)
    (hus' : us' = us ++ qs.map Prod.fst) (hys' : ys' = ys ++ qs.map Prod.snd) :
    ENNReal.ofReal (zProd Z k qs) * stepsE ν qs (fun ds => tailW H k (s.run (pfyOps C N res) (fwd ds))) =
      ∑ i, ENNReal.ofReal (exp (w i) / ∑ j, exp (w j)) * E s.traj us (pathG M ℓ φ k qs) i := by
  obtain ⟨F, hF⟩ : ∃ F, F = pfyOps C N res := ⟨_, rfl⟩
  rw [← hF]
  induction qs generalizing s us ys last x w k with
  | nil =>
    simp only [stepsE, fwd, List.map_nil, PT.run, tailW, zProd, ENNReal.ofReal_one, one_mul]
    simp only [List.filterMap_nil, likProd_flags_nil]
    obtain rfl : L = k := hL
    rw [List.map_nil, List.append_nil] at hus' hys'
    subst hus' hys'
    rw [ENNReal.ofReal_one, one_mul, hH s last x w hrep hk hgs hlast hx hw]
  | cons q qs ih =>
    have hne : s.traj ≠ [] := by intro h; rw [h] at hlast; simp at hlast
    have hys : ys ≠ [] := by
      intro h; have := hrep.len; rw [hk, h] at this; simp at this
    have hysl : ys.length = k + 1 := by rw [← hk]; exact hrep.len.symm
    have husl : us.length = k := by
      have := hrep.us_len; simp only [List.length_map] at this; omega
    have hind : s.ind1 = k + 1 := by rw [hrep.ind]; exact hysl
    have ha : last.ancestors.length = N := (hgs last (List.mem_of_getLast? hlast)).anc_len
    obtain ⟨h, hh1, hh2, hh3⟩ := hE.step k q.1 (fun x' => ENNReal.ofReal (exp (ℓ (k+1) q.2 x'))) s.traj us last x w
      (pathG M ℓ φ (k+1) qs) (measurable_exp.comp (hC.meas (k+1) q.2)).ennreal_ofReal (pathG_measurable hM hC.meas hφ (k+1) qs) hk husl hgs hlast hx hw
    obtain ⟨b1, b2, b3, b4⟩ := hrep.forward_bufs hys q.1 q.2
    simp only [hind, Nat.add_sub_cancel] at b1 b2 b3 b4
    have hylast : getLast (s.beforeForward q.1 q.2).yvec = .ok q.2 := by
      rw [getLast_ok, List.getLast?_eq_getElem?]
      simp only [PT.beforeForward, PT.growForward, if_pos hT, List.length_set, npResize_length, Nat.add_sub_cancel]
      rw [List.getElem?_set_self (by simp)]
    have htlast : getLast (s.beforeForward q.1 q.2).tvec = .ok (k+1) := by
      rw [getLast_ok, List.getLast?_eq_getElem?, ← hind]
      simp only [PT.beforeForward, PT.growForward, if_pos hT, List.length_set, npResize_length, Nat.add_sub_cancel]
      rw [List.getElem?_set_self (by simp)]
    have hgq := hqs q (by simp)
    have hqs' : ∀ q ∈ qs, good q.2 := fun q hq => hqs q (by simp [hq])
    have hZq := zProd_pos (fun k y hy => (hC.density_y k y hy).1) hqs' (k+1)
    have hz0 : ENNReal.ofReal (zProd Z (k+1) qs) ≠ 0 := by simpa using hZq
    have main : ∀ ω0, ENNReal.ofReal (zProd Z k (q :: qs)) *
        ∫⁻ r, ∫⁻ r2, ∫⁻ ω, stepsE ν qs (fun ds => tailW H k (s.run F (fwd ((q.1, q.2, ω0, ⟨r, r2, ω⟩) :: ds))))
        ∂ν ∂unif ∂unif = ∑ i, ENNReal.ofReal (exp (w i) / ∑ j, exp (w j)) * E s.traj us (pathG M ℓ φ k (q :: qs)) i := by
      intro ω0
      have hstep := opStep_anc hN ((pfy_stepLaw hN hC res k q.1 q.2 hgq).op (h := h) hh1)
        hlast b1 b2 b4 b3 hx (fun _ => trivial) hw
        (fun d => ENNReal.ofReal (zProd Z (k+1) qs) * stepsE ν qs (fun ds => tailW H k (s.run F (fwd ((q.1, q.2, ω0, d) :: ds))))) ?_
      · simp only [lintegral_const_mul' _ _ ENNReal.ofReal_ne_top] at hstep
        rw [zProd, ENNReal.ofReal_mul (hC.density_y _ _ hgq).1.le, mul_assoc, hstep, Finset.mul_sum,
          show pathG M ℓ φ k (q :: qs) = fun s => ∫⁻ x', ENNReal.ofReal (exp (ℓ (k+1) q.2 x')) *
            pathG M ℓ φ (k+1) qs (Function.update s (k+1) x') ∂(M k q.1 (s k)) from funext fun s => pathG_cons M ℓ φ k q qs s, ← hh3]
        refine Finset.sum_congr rfl fun i _ => ?_
        rw [mul_left_comm, Kernel.const_apply, pfy_tilt hC hgq (hh1 i)]
      · intro d pa b anc x' w' f h0 h1 hfw hx' hw' hn' hanc _
        have hfw' : F.forward s.traj (s.beforeForward q.1 q.2).yvec (s.beforeForward q.1 q.2).uvec (s.beforeForward q.1 q.2).tvec k d = .ok (pa, b, anc) := by
          rw [hF, ← hfw]
          exact pfy_forward_eq hN hC hgq h0 h1 hlast hk b1 b2 hylast b4 b3 htlast hx (by rw [hw]; simp) ha
        have hf : s.forward F q.1 q.2 ω0 d = ({ s.beforeForward q.1 q.2 with traj := s.traj ++ [⟨pa, anc⟩] }, .ok b) := by
          rw [PT.forward_eq hrep.inv]
          have he : s.ensureInit F ω0 = (s, .ok ()) := by
            unfold PT.ensureInit
            rw [if_neg (by rw [hk]; omega)]
          rw [he]
          simp only [hind, Nat.add_sub_cancel, hfw']
        set s1 : PT P U Y := { s.beforeForward q.1 q.2 with traj := s.traj ++ [⟨pa, anc⟩] } with hs1
        have hrep1 := PT.forward_rep hrep hf
        rw [show Spec.Log.forward ⟨us.map some, ys⟩ q.1 q.2 = ⟨(us ++ [q.1]).map some, ys ++ [q.2]⟩ by
          unfold Spec.Log.forward; rw [if_neg hys]; simp] at hrep1
        have hgs1 : ∀ st ∈ s1.traj, GoodStep N st := by
          intro st hst
          rw [hs1] at hst
          rcases List.mem_append.mp hst with h | h
          · exact hgs st h
          · rw [List.mem_singleton.mp h]
            exact goodStep_ofFn hx' hw' hn' hanc
        have hk1 : s1.traj.length = (k + 1) + 1 := by rw [hs1]; simp [hk]
        have hlast1 : s1.traj.getLast? = some ⟨pa, anc⟩ := by rw [hs1]; simp
        have hT1 : s1.T ≤ s1.ind1 := by
          rw [hs1]
          simp only [PT.beforeForward, PT.growForward, if_pos hT, le_refl]
        have hIH := ih hqs' hrep1 hgs1 hT1 hlast1 (x := x') (w := w') hx' hw' hk1
          (by rw [hL]; simp only [List.length_cons]; omega) (by simp [hus']) (by simp [hys'])
        rw [show ∑ i, ENNReal.ofReal (exp (w' i) / ∑ j, exp (w' j)) * h (f i) (x' i) =
          ∑ i, ENNReal.ofReal (exp (w' i) / ∑ j, exp (w' j)) * E s1.traj (us ++ [q.1]) (pathG M ℓ φ (k+1) qs) i from
          Finset.sum_congr rfl fun i _ => by rw [hs1]; simp only; rw [hh2 pa anc x' f hx' hanc i], ← hIH, mul_left_comm]
        congr 1
        rw [← stepsE_const_mul ν _ ENNReal.ofReal_ne_top]
        congr 1
        funext ds
        have hcons : fwd ((q.1, q.2, ω0, d) :: ds) = .forward q.1 q.2 ω0 d :: fwd ds := rfl
        rw [hcons, run_forward_cons hf]
        rcases hr : s1.run F (fwd ds) with ⟨s2, r2⟩
        cases r2 with
        | error e => simp [tailW]
        | ok bs =>
          obtain ⟨l, hl⟩ := fwd_prefix ds hrep1 (by rw [hs1]; simp) hr
          simp only [tailW, List.filterMap_cons_some (f := id) (b := b) rfl]
          rw [← mul_assoc, ← ENNReal.ofReal_mul (likIncr_nonneg _ _ _)]
          congr 2
          have hd : s2.traj.drop k = last :: ⟨pa, anc⟩ :: l := by
            rw [hl, hs1]
            obtain ⟨pre, hpre⟩ : ∃ pre, s.traj = pre ++ [last] := ⟨s.traj.dropLast, by
              rw [List.getLast?_eq_some_getLast hne, Option.some.injEq] at hlast
              rw [← hlast, List.dropLast_append_getLast]⟩
            have hpl : pre.length = k := by rw [hpre] at hk; simpa using hk
            simp only [hpre, List.append_assoc]
            rw [List.drop_append_of_le_length (by omega), ← hpl, List.drop_length]
            rfl
          have hd1 : s2.traj.drop (k+1) = ⟨pa, anc⟩ :: l := by
            rw [show k + 1 = k + 1 from rfl, ← List.drop_drop, hd]; rfl
          rw [hd, hd1, likProd]
    simp only [stepsE]
    rw [← lintegral_const_mul' _ _ ENNReal.ofReal_ne_top, lintegral_congr main, lintegral_const, measure_univ, mul_one]

/-- The steps from a state with one time step of equally weighted particles. -/
theorem pfy_paths_from_start [MeasurableSpace P] [MeasurableSpace Ω] {C : Callbacks P U Y V Ω} {ν : Measure Ω} [IsProbabilityMeasure ν] {N : ℕ} (hN : 0 < N)
    {vol μ0 : Measure P} {M : ℕ → Slot U → Kernel P P} {ℓ : ℕ → Slot Y → P → ℝ} {η : ℕ → Slot Y → Measure P} {Z : ℕ → Slot Y → ℝ} {lx : ℕ → Slot U → P → P → ℝ}
    {good : Slot Y → Prop} (hC : Spec.PfySamples C good ν N vol μ0 M ℓ η Z lx) (res : ℝ) (hM : ∀ k u, IsMarkovKernel (M k u))
    {φ : List P → ℝ≥0∞} (hφ : ∀ n, Measurable fun x : Fin n → P => φ (List.ofFn x))
    {E : List (Step P) → List (Slot U) → ((ℕ → P) → ℝ≥0∞) → Fin N → ℝ≥0∞} {s_ : ℕ → P} (hE : PathOp N M E s_) {H : PT P U Y → ℝ≥0∞}
    (qs : List (Slot U × Slot Y))
    (hH : ∀ (s : PT P U Y) us ys last (x : Fin N → P) (w : Fin N → ℝ), s.Rep ⟨us.map some, ys⟩ → s.traj.length = qs.length + 1 →
      (∀ st ∈ s.traj, GoodStep N st) → s.traj.getLast? = some last → last.pa.part = List.ofFn x → last.pa.w = List.ofFn w →
      H s = ∑ i, ENNReal.ofReal (exp (w i) / ∑ j, exp (w j)) * E s.traj us (pathG M ℓ φ qs.length []) i)
    (hqs : ∀ q ∈ qs, good q.2) {s : PT P U Y} {y0 : Slot Y} (hrep : s.Rep ⟨([] : List (Slot U)).map some, [y0]⟩) (hT : s.T ≤ s.ind1)
    {pa : PA P} (hs : s.traj = [⟨pa, List.range N⟩]) {x : Fin N → P} (hx : pa.part = List.ofFn x) (hw : pa.w = List.replicate N (-Real.log N))
    (ho : pa.w_offset = 0) (hn : pa.num = N) :
    ENNReal.ofReal (zProd Z 0 qs) * stepsE ν qs (fun ds => runWeighted H (s.run (pfyOps C N res) (fwd ds))) =
      ∑ i, ENNReal.ofReal (1 / N) * pathsE M ℓ φ 0 qs [] (x i) := by
  have hNr : (0:ℝ) < N := by exact_mod_cast hN
  have hrepl : pa.w = List.ofFn (fun _ : Fin N => -Real.log N) := by
    rw [List.ofFn_const, hw]
  have hu : exp (-Real.log N) = 1 / N := by rw [exp_neg, exp_log hNr, one_div]
  have hmass : mass pa = 1 := by
    rw [mass, hw, ho, List.map_replicate, List.sum_replicate, add_zero, nsmul_eq_mul, hu]
    field_simp
  simp only [runWeighted_of_single H hrep hs, hmass, ENNReal.ofReal_one, one_mul]
  have hrange : List.range N = List.ofFn (fun i : Fin N => ((id i : Fin N) : ℕ)) := by apply List.ext_getElem <;> simp
  have hgs : ∀ st ∈ s.traj, GoodStep N st := by
    intro st hst
    rw [hs] at hst
    rw [List.mem_singleton.mp hst]
    exact goodStep_ofFn hx hrepl hn hrange
  rw [pfy_steps_history hN hC res hM hφ hE (us' := qs.map Prod.fst) (ys' := y0 :: qs.map Prod.snd) (fun s last x w h1 => hH s _ _ last x w h1) qs hqs hrep hgs hT
    (last := ⟨pa, List.range N⟩) (by rw [hs]; rfl) hx hrepl (k := 0) (by rw [hs]; rfl) (by omega) rfl rfl]
  refine Finset.sum_congr rfl fun i _ => ?_
  rw [hs, hE.init ⟨pa, List.range N⟩ x hx, show pathG M ℓ φ 0 qs (Function.update s_ 0 (x i)) = pathsE M ℓ φ 0 qs [] (x i) by simp [pathG]]
  congr 2
  rw [Finset.sum_const, Finset.card_univ, Fintype.card_fin, nsmul_eq_mul, hu]
  field_simp

/-- Both kinds of histories, for every smoothing operator. -/
theorem pfy_run_paths [MeasurableSpace P] [MeasurableSpace Ω] {C : Callbacks P U Y V Ω} {ν : Measure Ω} [IsProbabilityMeasure ν] {N : ℕ} (hN : 0 < N)
    {vol μ0 : Measure P} {M : ℕ → Slot U → Kernel P P} {ℓ : ℕ → Slot Y → P → ℝ} {η : ℕ → Slot Y → Measure P} {Z : ℕ → Slot Y → ℝ} {lx : ℕ → Slot U → P → P → ℝ}
    {good : Slot Y → Prop} (hC : Spec.PfySamples C good ν N vol μ0 M ℓ η Z lx)
    {res : ℝ} {name : String} {o : FilterOptions P} (hn : parseFilter name = .ok .pfy)
    {F : FilterOps P U Y V Ω} (hF : mkFilter C N res name o = .ok F)
    (hM : ∀ k u, IsMarkovKernel (M k u))
    {φ : List P → ℝ≥0∞} (hφ : ∀ n, Measurable fun x : Fin n → P => φ (List.ofFn x))
    {E : List (Step P) → List (Slot U) → ((ℕ → P) → ℝ≥0∞) → Fin N → ℝ≥0∞} {s_ : ℕ → P} (hE : PathOp N M E s_) {H : PT P U Y → ℝ≥0∞} {s0 : PT P U Y} (h0 : PT.init N none 0 = .ok s0) (qs : List (Slot U × Slot Y))
    (hH : ∀ (s : PT P U Y) us ys last (x : Fin N → P) (w : Fin N → ℝ), s.Rep ⟨us.map some, ys⟩ → s.traj.length = qs.length + 1 →
      (∀ st ∈ s.traj, GoodStep N st) → s.traj.getLast? = some last → last.pa.part = List.ofFn x → last.pa.w = List.ofFn w →
      H s = ∑ i, ENNReal.ofReal (exp (w i) / ∑ j, exp (w j)) * E s.traj us (pathG M ℓ φ qs.length []) i)
    (hqs : ∀ q ∈ qs, good q.2) :
    (∀ y0, good y0 → ENNReal.ofReal (Z 0 y0 * zProd Z 0 qs) *
        ∫⁻ ω, stepsE ν qs (fun ds => runWeighted H (s0.run F (history (some (y0, ω)) ds))) ∂ν =
      ∫⁻ x, ENNReal.ofReal (exp (ℓ 0 y0 x)) * pathsE M ℓ φ 0 qs [] x ∂vol) ∧
    (qs ≠ [] → ENNReal.ofReal (zProd Z 0 qs) * stepsE ν qs (fun ds => runWeighted H (s0.run F (history none ds))) = ∫⁻ x, pathsE M ℓ φ 0 qs [] x ∂μ0) := by
  have hFe := mkFilter_pfy hn hF
  have hG0 : ∀ qs x, pathG M ℓ φ 0 qs (Function.update s_ 0 x) = pathsE M ℓ φ 0 qs [] x := by
    intro qs x; simp [pathG]
  have hpm : ∀ qs, Measurable (pathsE M ℓ φ 0 qs []) := by
    intro qs
    have : pathsE M ℓ φ 0 qs [] = fun x => pathG M ℓ φ 0 qs (Function.update s_ 0 x) := funext fun x => (hG0 qs x).symm
    rw [this]
    exact (pathG_measurable hM hC.meas hφ 0 qs).comp ((measurable_updateAt 0).comp measurable_prodMk_left)
  have hrep0 := PT.init_rep h0
  obtain ⟨hsN, htr⟩ := init_N h0
  have hs0 : s0.T = 0 ∧ s0.ind1 = 0 := by cases h0; exact ⟨rfl, rfl⟩
  constructor
  · intro y0 hy0g
    obtain ⟨X, hX, hprop⟩ := hC.propose y0 0 hy0g
    have hm1 : Measurable fun x => ENNReal.ofReal (exp (ℓ 0 y0 x)) := (measurable_exp.comp (hC.meas 0 y0)).ennreal_ofReal
    have hrhs : ∫⁻ x, ENNReal.ofReal (exp (ℓ 0 y0 x)) * pathsE M ℓ φ 0 qs [] x ∂vol = ENNReal.ofReal (Z 0 y0) * ∫⁻ x, pathsE M ℓ φ 0 qs [] x ∂(η 0 y0) := by
      rw [← smul_eq_mul (a := ENNReal.ofReal (Z 0 y0)), ← lintegral_smul_measure, ← (hC.density_y 0 y0 hy0g).2, lintegral_withDensity_eq_lintegral_mul _ hm1 (hpm qs)]
      rfl
    rw [hrhs, ENNReal.ofReal_mul (hC.density_y 0 y0 hy0g).1.le, mul_assoc, ← lintegral_const_mul' _ _ ENNReal.ofReal_ne_top, ← init_average hN hX (hpm qs)]
    congr 1
    apply lintegral_congr
    intro ω
    obtain ⟨pa, p1, p2, p3, p4, p5⟩ := PA.new_none_wf (part := List.ofFn fun i => X i ω) (N := N) (by simp) hN
    obtain ⟨hg, g1, g2, g3, g4⟩ := PT.growMeasure_inv hrep0.inv
    have hgT : s0.growMeasure.T = 1 := by simp [PT.growMeasure, hs0.1, hs0.2]
    have hy : (s0.beforeMeasurePfy y0).yvec[s0.ind1]? = some y0 := by
      simp only [PT.beforeMeasurePfy]; exact List.getElem?_set_self (by rw [hg.ylen, hs0.2]; omega)
    have ht : (s0.beforeMeasurePfy y0).tvec[s0.ind1]? = some s0.ind1 := by
      simp only [PT.beforeMeasurePfy]; exact List.getElem?_set_self (by rw [hg.tlen, hs0.2]; omega)
    have hmeas : s0.measure F y0 ω = ({ s0.beforeMeasurePfy y0 with traj := [⟨pa, List.range N⟩] }, .ok ()) := by
      rw [PT.measure_pfy_eq (by rw [hFe]; rfl) hrep0.inv, hFe]
      have : (pfyOps C N res).measureNew (s0.beforeMeasurePfy y0).yvec (s0.beforeMeasurePfy y0).tvec s0.ind1 ω = .ok pa := by
        show ffpropyMeasure C N _ _ _ _ = _
        unfold ffpropyMeasure
        simp only [getIdx_ok.mpr hy, getIdx_ok.mpr ht, ok_bind]
        rw [hs0.2]
        simp only [hprop, ok_bind, p1]
      simp only [this, htr, hsN, List.nil_append]
    have hrep1 := PT.measure_rep hrep0 hmeas
    have hrun : ∀ ds, runWeighted H (s0.run F (history (some (y0, ω)) ds)) =
        runWeighted H (({ s0.beforeMeasurePfy y0 with traj := [⟨pa, List.range N⟩] } : PT P U Y).run F (fwd ds)) := by
      intro ds
      have : history (some (y0, ω)) ds = .measure y0 ω :: fwd ds := rfl
      rw [this]
      simp only [PT.run, PT.step, hmeas]
      rcases ({ s0.beforeMeasurePfy y0 with traj := [⟨pa, List.range N⟩] } : PT P U Y).run F (fwd ds) with ⟨s2, _ | bs⟩
      · rfl
      · simp only [runWeighted, List.filterMap_cons_none (f := id) (a := (none : Option Bool)) rfl]
    simp only [hrun]
    rw [hFe, pfy_paths_from_start hN hC res hM hφ hE qs hH hqs hrep1 (by simp [PT.beforeMeasurePfy, hgT, hs0.2]) rfl p3 p4 p5 p2.num_eq]
  · intro hne
    obtain ⟨q, qs, rfl⟩ := List.exists_cons_of_ne_nil hne
    obtain ⟨X, hX, hc⟩ := hC.create
    have hc' : ∀ ω, F.create N ω = .ok (List.ofFn fun i => X i ω) := by rw [hFe]; exact hc
    rw [← init_average hN hX (hpm (q :: qs))]
    show _ * ∫⁻ ω0, _ ∂ν = _
    rw [← lintegral_const_mul' _ _ ENNReal.ofReal_ne_top]
    apply lintegral_congr
    intro ω
    have he := ensureInit_create (s := s0) hN hsN htr (hc' ω)
    set s1 : PT P U Y := { s0 with ind1 := 1, traj := [⟨⟨List.ofFn fun i => X i ω, List.replicate N (-Real.log N), N, 0⟩,
      List.range N⟩] } with hs1
    have hrep1 : s1.Rep ⟨[], [.none]⟩ := (hrep0.ensureInit he).1 rfl
    have hrun : ∀ d ds, runWeighted H (s0.run F (history none ((q.1, q.2, ω, d) :: ds))) = runWeighted H (s1.run F (fwd ((q.1, q.2, ω, d) :: ds))) := by
      intro d ds
      have h1 : s0.run F (history none ((q.1, q.2, ω, d) :: ds)) = s1.run F (fwd ((q.1, q.2, ω, d) :: ds)) := by
        simp only [history, fwd, List.nil_append, List.map_cons, PT.run, PT.step,
          forward_ensureInit he (by rw [hs1]; simp) q.1 q.2 d]
      rw [h1]
    simp only [hrun]
    rw [apf_steps_head (s := s1) (k := 0) rfl hrep1.inv (g := runWeighted H) q qs ω, hFe,
      pfy_paths_from_start hN hC res hM hφ hE (q :: qs) hH hqs hrep1 (by rw [hs1]; simp [hs0.1]) rfl rfl rfl rfl rfl]

/-- **C113.** The filter `pfy` (hypotheses of C104, trajectory without preallocation) followed by `perform_smoothing(m, 'ancestor')`. Without an initial measurement, `∏ Z`
times the likelihood estimate times the average of any non-negative function `φ` over the returned trajectories has expectation `E[Π_t p(y_t | x_t) φ(x_0, …, x_T)]`.
With an initial measurement the initial law of the model is replaced by the volume, as in C104. -/
theorem C113_ancestor [MeasurableSpace P] [MeasurableSpace Ω] {C : Callbacks P U Y V Ω} {ν : Measure Ω} [IsProbabilityMeasure ν] {N : ℕ} (hN : 0 < N)
    {vol μ0 : Measure P} {M : ℕ → Slot U → Kernel P P} (hM : ∀ k u, IsMarkovKernel (M k u)) {ℓ : ℕ → Slot Y → P → ℝ} {η : ℕ → Slot Y → Measure P} {Z : ℕ → Slot Y → ℝ}
    {lx : ℕ → Slot U → P → P → ℝ} {good : Slot Y → Prop} (hC : Spec.PfySamples C good ν N vol μ0 M ℓ η Z lx)
    {res : ℝ} {name : String} {o : FilterOptions P} (hn : parseFilter name = .ok .pfy) {F : FilterOps P U Y V Ω} (hF : mkFilter C N res name o = .ok F)
    {S : SmoothCallbacks P U Y V Ω} (hS : ∀ D, PlainSmooth S D) (hps : NoPostprocessing S) {m : ℕ} (hm : 0 < m) (user : Option SOpts) (d : AllDraws Ω) (fuel : ℕ)
    {φ : List P → ℝ≥0∞} (hφ : ∀ n, Measurable fun x : Fin n → P => φ (List.ofFn x)) {s0 : PT P U Y} (h0 : PT.init N none 0 = .ok s0)
    (qs : List (Slot U × Slot Y)) (hqs : ∀ q ∈ qs, good q.2) :
    (∀ y0, good y0 → ENNReal.ofReal (Z 0 y0 * zProd Z 0 qs) *
        ∫⁻ ω, stepsE ν qs (fun ds => runWeighted (smoothE S m "ancestor" user d fuel (pathMean φ m)) (s0.run F (history (some (y0, ω)) ds))) ∂ν =
      ∫⁻ x, ENNReal.ofReal (exp (ℓ 0 y0 x)) * pathsE M ℓ φ 0 qs [] x ∂vol) ∧
    (qs ≠ [] → ENNReal.ofReal (zProd Z 0 qs) *
        stepsE ν qs (fun ds => runWeighted (smoothE S m "ancestor" user d fuel (pathMean φ m)) (s0.run F (history none ds))) =
      ∫⁻ x, pathsE M ℓ φ 0 qs [] x ∂μ0) := by
  obtain ⟨X, hX, hc⟩ := hC.create
  haveI : Nonempty Ω := nonempty_of_isProbabilityMeasure ν
  set x0 : P := X ⟨0, hN⟩ (Classical.arbitrary Ω)
  refine pfy_run_paths hN hC hn hF hM hφ (cop_pathOp x0 M) h0 qs ?_ hqs
  intro s us ys last x w hrep hk hgs hlast hx hw
  rw [smoothE_ancestor hS hps hm user d fuel φ hN x0 hk hgs hlast hw us]
  simp only [show pathG M ℓ φ qs.length [] = fun s => φ ((List.range (qs.length + 1)).map s) from funext fun s => pathG_nil M ℓ φ _ s]

/-- C113: the same for backward simulation, `perform_smoothing(m, 'full')`, if the model's `logp_xnext` evaluates the same transition log-density. -/
theorem C113_backward_simulation [MeasurableSpace P] [MeasurableSpace Ω] {C : Callbacks P U Y V Ω} {ν : Measure Ω} [IsProbabilityMeasure ν] {N : ℕ} (hN : 0 < N)
    {vol μ0 : Measure P} {M : ℕ → Slot U → Kernel P P} (hM : ∀ k u, IsMarkovKernel (M k u)) {ℓ : ℕ → Slot Y → P → ℝ} {η : ℕ → Slot Y → Measure P} {Z : ℕ → Slot Y → ℝ}
    {lx : ℕ → Slot U → P → P → ℝ} {good : Slot Y → Prop} (hC : Spec.PfySamples C good ν N vol μ0 M ℓ η Z lx)
    {res : ℝ} {name : String} {o : FilterOptions P} (hn : parseFilter name = .ok .pfy) {F : FilterOps P U Y V Ω} (hF : mkFilter C N res name o = .ok F)
    {logpXnext : List P → List P → Slot U → ℕ → PyM (List ℝ)} (hlx : Spec.LogDensity logpXnext lx)
    {srest : SmoothCallbacks P U Y V Ω} (hps : NoPostprocessing srest) {m : ℕ} (hm : 0 < m) (user : Option SOpts) (d : AllDraws Ω) (fuel : ℕ)
    {φ : List P → ℝ≥0∞} (hφ : ∀ n, Measurable fun x : Fin n → P => φ (List.ofFn x)) {s0 : PT P U Y} (h0 : PT.init N none 0 = .ok s0)
    (qs : List (Slot U × Slot Y)) (hqs : ∀ q ∈ qs, good q.2) :
    (∀ y0, good y0 → ENNReal.ofReal (Z 0 y0 * zProd Z 0 qs) *
        ∫⁻ ω, stepsE ν qs (fun ds => runWeighted (smoothE (ffbsi logpXnext srest) m "full" user d fuel (pathMean φ m)) (s0.run F (history (some (y0, ω)) ds))) ∂ν =
      ∫⁻ x, ENNReal.ofReal (exp (ℓ 0 y0 x)) * pathsE M ℓ φ 0 qs [] x ∂vol) ∧
    (qs ≠ [] → ENNReal.ofReal (zProd Z 0 qs) *
        stepsE ν qs (fun ds => runWeighted (smoothE (ffbsi logpXnext srest) m "full" user d fuel (pathMean φ m)) (s0.run F (history none ds))) =
      ∫⁻ x, pathsE M ℓ φ 0 qs [] x ∂μ0) := by
  obtain ⟨X, hX, hc⟩ := hC.create
  haveI : Nonempty Ω := nonempty_of_isProbabilityMeasure ν
  set x0 : P := X ⟨0, hN⟩ (Classical.arbitrary Ω)
  refine pfy_run_paths hN hC hn hF hM hφ (bop_pathOp hC.meas_x hN x0 hC.density_x) h0 qs ?_ hqs
  intro s us ys last x w hrep hk hgs hlast hx hw
  rw [smoothE_full hlx srest hps hm user d fuel φ hN x0 hk hgs hlast hw hrep]
  simp only [show pathG M ℓ φ qs.length [] = fun s => φ ((List.range (qs.length + 1)).map s) from funext fun s => pathG_nil M ℓ φ _ s]

/-- C113 for the scalar random walk of C104: three particles, threshold 2/3, two measurements, five trajectories; `φ` is the squared first state. -/
example {F : FilterOps ℝ ℝ ℝ ℝ (Fin 3 → ℝ)} {o : FilterOptions ℝ} (hF : mkFilter (walkCallbacks 3) 3 (2/3) "pfy" o = .ok F) {s0 : PT ℝ ℝ ℝ} (h0 : PT.init 3 none 0 = .ok s0)
    (v1 v2 : ℝ) (srest : SmoothCallbacks ℝ ℝ ℝ ℝ (Fin 3 → ℝ)) (d : AllDraws (Fin 3 → ℝ)) :
    ENNReal.ofReal (√(2 * Real.pi) * (√(2 * Real.pi) * 1)) *
      stepsE (walkNoise 3) [(.zero, .obj v1), (.zero, .obj v2)] (fun ds => runWeighted
        (smoothE (ffbsi (fun a b _ _ => .ok (List.zipWith (fun x x' => Real.log (gaussianPDFReal x 1 x')) a b)) { srest with postSmoothing := none }) 5 "full" none d 0
          (pathMean (fun l => ENNReal.ofReal (l.getD 0 0 ^ 2)) 5)) (s0.run F (history none ds))) =
      ∫⁻ x, pathsE (fun _ _ => walkKernel) (fun _ => walkLik) (fun l => ENNReal.ofReal (l.getD 0 0 ^ 2)) 0 [((.zero : Slot ℝ), .obj v1), (.zero, .obj v2)] [] x
        ∂(gaussianReal 0 1) := by
  haveI : IsMarkovKernel walkKernel := ⟨fun x => by rw [walkKernel_apply]; infer_instance⟩
  refine (C113_backward_simulation (by norm_num) (fun _ _ => this) (walk_samples 3) (by decide +kernel) hF (fun a b u k _ => rfl)
    (srest := { srest with postSmoothing := none }) (fun _ => rfl) (m := 5) (by norm_num) none d 0 (φ := fun l => ENNReal.ofReal (l.getD 0 0 ^ 2)) ?_ h0
    [(.zero, .obj v1), (.zero, .obj v2)] (by simp)).2 (by simp)
  intro n
  cases n with
  | zero => simp only [List.ofFn_zero]; exact measurable_const
  | succ n =>
    simp only [List.ofFn_succ, List.getD_cons_zero]
    fun_prop

end PyPE

import Verif.Filter.ApfUnbiased
import Verif.Filter.Runs
import Mathlib.Probability.Distributions.Gaussian.Real

/-!
# C104: the filter that proposes from the measurement is unbiased

`FFPropY.forward` (filter.py:429-480) draws the new particles from the measurement alone and weights them with the transition density; `FFPropY.measure` (482-505)
replaces all particles by draws from the measurement.  When `propose_from_y` samples from the likelihood, normalised to a density in the state, the estimate read off the
weights and offsets is unbiased up to the normalising constants.
-/

namespace PyPE
open Real Spec MeasureTheory ProbabilityTheory
open scoped ENNReal

variable {P U Y V Ω : Type}

/-! ### Specification -/

/-- The callbacks of the `pfy` filter: `propose_from_y` samples from `η k y`, the likelihood `exp ℓ` normalised to a probability law on the states (`Z` is the constant), and
`logp_xnext_singlestep` evaluates the transition log-density `lx` (both with respect to `vol`). -/
structure Spec.PfySamples [MeasurableSpace P] [MeasurableSpace Ω] (C : Callbacks P U Y V Ω) (good : Slot Y → Prop) (ν : Measure Ω) (N : ℕ) (vol μ0 : Measure P)
    (M : ℕ → Slot U → Kernel P P) (ℓ : ℕ → Slot Y → P → ℝ) (η : ℕ → Slot Y → Measure P) (Z : ℕ → Slot Y → ℝ) (lx : ℕ → Slot U → P → P → ℝ) : Prop where
  create : ∃ X : Fin N → Ω → P, (∀ i, Measurable (X i) ∧ ν.map (X i) = μ0) ∧
    ∀ ω, C.createInitial N ω = .ok (List.ofFn fun i => X i ω)
  propose : ∀ (y : Slot Y) (k : ℕ), good y → ∃ X : Fin N → Ω → P, (∀ i, Measurable (X i) ∧ ν.map (X i) = η k y) ∧
    ∀ ω, C.proposeFromY N y k ω = .ok (List.ofFn fun i => X i ω)
  logpX : ∀ (x x' : Fin N → P) (past : List (Step P)) (pind : List ℕ) (uv : List (Slot U)) (yv : List (Slot Y)) (tv : List ℕ) (k : ℕ) (u : Slot U),
    uv[k]? = some u → tv[k]? = some k →
    C.logpXnextSingle (List.ofFn x) past pind (List.ofFn x') (List.range N) uv yv tv k = .ok (List.ofFn fun i => lx k u (x i) (x' i))
  density_y : ∀ k y, good y → 0 < Z k y ∧ vol.withDensity (fun x => ENNReal.ofReal (exp (ℓ k y x))) = ENNReal.ofReal (Z k y) • η k y
  density_x : ∀ k u x, M k u x = vol.withDensity fun x' => ENNReal.ofReal (exp (lx k u x x'))
  meas : ∀ k y, Measurable (ℓ k y)
  meas_x : ∀ k u x, Measurable (lx k u x)

/-- The product of the normalising constants of the measurements, from time `k + 1` on. -/
noncomputable def Spec.zProd (Z : ℕ → Slot Y → ℝ) : ℕ → List (Slot U × Slot Y) → ℝ
  | _, [] => 1
  | k, q :: qs => Z (k + 1) q.2 * zProd Z (k + 1) qs

/-! ### One step -/

/-- The `pfy` filter, as `mkFilter` builds it. -/
noncomputable def pfyOps (M : Callbacks P U Y V Ω) (N : ℕ) (res : ℝ) : FilterOps P U Y V Ω :=
  ⟨M.createInitial, ffpropyForward M res N, fun _ _ _ _ _ _ _ => .error .assertionError, ffpropyMeasure M N, true⟩

theorem mkFilter_pfy {M : Callbacks P U Y V Ω} {N : ℕ} {res : ℝ} {name : String} {o : FilterOptions P} (h : parseFilter name = .ok .pfy)
    {F : FilterOps P U Y V Ω} (hF : mkFilter M N res name o = .ok F) : F = pfyOps M N res := by
  unfold mkFilter at hF
  rw [h, ok_bind] at hF
  cases hF; rfl

/-- A step that takes the measurement and the particles of the right time; on a trajectory without preallocation `FFPropY.forward` is this step. -/
noncomputable def pfyStep (M : Callbacks P U Y V Ω) (res : ℝ) (N : ℕ) (traj : List (Step P))
    (yvec : List (Slot Y)) (uvec : List (Slot U)) (tvec : List ℕ) (cur : ℕ) (d : Draws Ω) : PyM (PA P × Bool × List ℕ) := do
  let last ← getLast traj
  let (pa, resampled, anc) ← maybeResample res ⟨last.pa.part, last.pa.w, last.pa.part.length, 0⟩ d.r
  let y ← getIdx yvec (cur + 1)
  let t ← getIdx tvec (cur + 1)
  let partn ← M.proposeFromY N y t d.ω
  let part ← fancy last.pa.part anc
  let wn ← M.logpXnextSingle part [] [] partn (List.range N) uvec yvec tvec cur
  let pa ← weightUpdate { pa with part := partn } wn
  return (pa, resampled, anc)

/-- The filter made of that step. -/
noncomputable def pfyIdeal (M : Callbacks P U Y V Ω) (N : ℕ) (res : ℝ) : FilterOps P U Y V Ω :=
  ⟨M.createInitial, pfyStep M res N, fun _ _ _ _ _ _ _ => .error .assertionError, ffpropyMeasure M N, true⟩

theorem pfy_stepLaw [MeasurableSpace P] [MeasurableSpace Ω] {C : Callbacks P U Y V Ω} {ν : Measure Ω} {N : ℕ} (hN : 0 < N)
    {vol μ0 : Measure P} {M : ℕ → Slot U → Kernel P P} {ℓ : ℕ → Slot Y → P → ℝ} {η : ℕ → Slot Y → Measure P} {Z : ℕ → Slot Y → ℝ} {lx : ℕ → Slot U → P → P → ℝ}
    {good : Slot Y → Prop} (hC : Spec.PfySamples C good ν N vol μ0 M ℓ η Z lx) (res : ℝ) (k : ℕ) (u : Slot U) (y : Slot Y) (hgy : good y) :
    StepLaw (pfyIdeal C N res) ν N res k u y (Kernel.const P (η (k+1) y)) (lx k u) := by
  refine ⟨fun x => hC.meas_x _ _ _, fun x => ?_⟩
  obtain ⟨X, hX, hprop⟩ := hC.propose y (k+1) hgy
  refine ⟨X, fun i => ⟨(hX i).1, by rw [Kernel.const_apply]; exact (hX i).2⟩, ?_⟩
  intro tr last yv uv tv d pa1 b anc hlast hu hy ht ht1 hres hfan hp1 hw1 ho1
  obtain ⟨pa', w', f1, f2, f3, fn, f4⟩ := weightUpdate_offset (pa := { pa1 with part := List.ofFn fun i => X i d.ω }) hN hw1
    (fun i => lx k u (x i) (X i d.ω))
  refine ⟨pa', w', ?_, f2, f3, fn, fun i => by
    have := f4 i; rw [ho1, add_zero] at this; exact this⟩
  show pfyStep C res N tr yv uv tv k d = _
  unfold pfyStep
  simp only [getLast_ok.mpr hlast, ok_bind, hres, getIdx_ok.mpr hy, getIdx_ok.mpr ht1, hprop, hfan, hC.logpX _ _ _ _ _ _ _ _ _ hu ht, f1, pure_eq_ok]

/-- With buffers of the right length `FFPropY.forward` is that step. -/
theorem pfy_forward_eq [MeasurableSpace P] [MeasurableSpace Ω] {C : Callbacks P U Y V Ω} {ν : Measure Ω} {N : ℕ} (hN : 0 < N)
    {vol μ0 : Measure P} {M : ℕ → Slot U → Kernel P P} {ℓ : ℕ → Slot Y → P → ℝ} {η : ℕ → Slot Y → Measure P} {Z : ℕ → Slot Y → ℝ} {lx : ℕ → Slot U → P → P → ℝ}
    {good : Slot Y → Prop} (hC : Spec.PfySamples C good ν N vol μ0 M ℓ η Z lx) {res : ℝ} {k : ℕ} {u : Slot U} {y : Slot Y} (hgy : good y)
    {tr : List (Step P)} {last : Step P} {yv : List (Slot Y)} {uv : List (Slot U)} {tv : List ℕ} {d : Draws Ω} (h0 : 0 < d.r) (h1 : d.r < 1)
    (hlast : tr.getLast? = some last) (hlen : tr.length = k + 1) (hu : uv[k]? = some u) (hy : yv[k+1]? = some y) (hyl : getLast yv = .ok y)
    (ht : tv[k]? = some k) (ht1 : tv[k+1]? = some (k+1)) (htl : getLast tv = .ok (k+1))
    {x : Fin N → P} (hx : last.pa.part = List.ofFn x) (hw : last.pa.w.length = N) (ha : last.ancestors.length = N) :
    ffpropyForward C res N tr yv uv tv k d = pfyStep C res N tr yv uv tv k d := by
  have hpl : last.pa.part.length = N := by rw [hx]; simp
  have hwf : (⟨last.pa.part, last.pa.w, last.pa.part.length, 0⟩ : PA P).WF N := ⟨hpl, hw, hpl⟩
  obtain ⟨pa1, b, anc, e1, e2, e3, e4, -, -, -, -⟩ := maybeResample_spec res hwf hN (r := d.r) ⟨h0.le, h1⟩
  obtain ⟨X, hX, hprop⟩ := hC.propose y (k+1) hgy
  have hidx : tr[k]? = some last := by
    rw [List.getLast?_eq_getElem?, hlen] at hlast
    exact hlast
  obtain ⟨pind, hpind⟩ := fancy_ok (a := last.ancestors) (ind := anc) (by rw [ha]; exact e4)
  have hfan : ∃ z : Fin N → P, fancy last.pa.part anc = .ok (List.ofFn z) := by
    obtain ⟨f, hf1, hf2⟩ := fancy_ofFn x e4
    rw [hx, hf2]
    clear hf1 hf2 e1 hpind
    subst e3
    exact ⟨_, rfl⟩
  obtain ⟨z, hz⟩ := hfan
  unfold ffpropyForward pfyStep
  simp only [getLast_ok.mpr hlast, ok_bind, PA.new, e1, hyl, htl, getIdx_ok.mpr hy, getIdx_ok.mpr ht1, getIdx_ok.mpr hidx, e2.part_len, hprop, hz, hpind,
    hC.logpX _ _ _ _ _ _ _ _ _ hu ht]

/-! ### A run -/

theorem zProd_pos {Z : ℕ → Slot Y → ℝ} {good : Slot Y → Prop} (hZ : ∀ k y, good y → 0 < Z k y) {qs : List (Slot U × Slot Y)} (hqs : ∀ q ∈ qs, good q.2) (k : ℕ) :
    0 < zProd Z k qs := by
  induction qs generalizing k with
  | nil => exact one_pos
  | cons q qs ih => exact mul_pos (hZ _ _ (hqs q (by simp))) (ih (fun q hq => hqs q (by simp [hq])) _)

/-- What averaging over a proposal and weighting with the transition density does. -/
theorem pfy_tilt [MeasurableSpace P] [MeasurableSpace Ω] {C : Callbacks P U Y V Ω} {ν : Measure Ω} {N : ℕ}
    {vol μ0 : Measure P} {M : ℕ → Slot U → Kernel P P} {ℓ : ℕ → Slot Y → P → ℝ} {η : ℕ → Slot Y → Measure P} {Z : ℕ → Slot Y → ℝ} {lx : ℕ → Slot U → P → P → ℝ}
    {good : Slot Y → Prop} (hC : Spec.PfySamples C good ν N vol μ0 M ℓ η Z lx) {k : ℕ} {u : Slot U} {y : Slot Y} (hgy : good y) {h : P → ℝ≥0∞} (hh : Measurable h) (x : P) :
    ENNReal.ofReal (Z (k+1) y) * ∫⁻ x', ENNReal.ofReal (exp (lx k u x x')) * h x' ∂(η (k+1) y) =
      ∫⁻ x', ENNReal.ofReal (exp (ℓ (k+1) y x')) * h x' ∂(M k u x) := by
  have hm1 : Measurable fun x' => ENNReal.ofReal (exp (ℓ (k+1) y x')) := (measurable_exp.comp (hC.meas (k+1) y)).ennreal_ofReal
  have hm2 : Measurable fun x' => ENNReal.ofReal (exp (lx k u x x')) := (measurable_exp.comp (hC.meas_x k u x)).ennreal_ofReal
  have hm3 : Measurable fun x' => ENNReal.ofReal (exp (ℓ (k+1) y x')) * h x' := hm1.mul hh
  have hm4 : Measurable fun x' => ENNReal.ofReal (exp (lx k u x x')) * h x' := hm2.mul hh
  rw [← smul_eq_mul, ← lintegral_smul_measure, ← (hC.density_y (k+1) y hgy).2, hC.density_x, lintegral_withDensity_eq_lintegral_mul _ hm1 hm4,
    lintegral_withDensity_eq_lintegral_mul _ hm2 hm3]
  apply lintegral_congr
  intro x'
  simp only [Pi.mul_apply]
  ring

/-- The expectation of the estimate over a sequence of steps, on a trajectory without preallocation. -/
theorem pfy_steps_value [MeasurableSpace P] [MeasurableSpace Ω] {C : Callbacks P U Y V Ω} {ν : Measure Ω} [IsProbabilityMeasure ν] {N : ℕ} (hN : 0 < N)
    {vol μ0 : Measure P} {M : ℕ → Slot U → Kernel P P} {ℓ : ℕ → Slot Y → P → ℝ} {η : ℕ → Slot Y → Measure P} {Z : ℕ → Slot Y → ℝ} {lx : ℕ → Slot U → P → P → ℝ}
    {good : Slot Y → Prop} (hC : Spec.PfySamples C good ν N vol μ0 M ℓ η Z lx) (res : ℝ) {φ : P → ℝ≥0∞} (hφ : Measurable φ)
    (qs : List (Slot U × Slot Y)) (hqs : ∀ q ∈ qs, good q.2) {s : PT P U Y} {lg : Spec.Log U Y} (hrep : s.Rep lg) (hT : s.T ≤ s.ind1)
    {last : Step P} (hlast : s.traj.getLast? = some last) {x : Fin N → P} {w : Fin N → ℝ} (hx : last.pa.part = List.ofFn x)
    (hw : last.pa.w = List.ofFn w) (ha : last.ancestors.length = N) {k : ℕ} (hk : s.traj.length = k + 1) :
    ENNReal.ofReal (zProd Z k qs) * stepsE ν qs (fun ds => tailEst φ k (s.run (pfyOps C N res) (fwd ds))) = wmean (pathE M ℓ φ k qs) last.pa := by
  obtain ⟨F, hF⟩ : ∃ F, F = pfyOps C N res := ⟨_, rfl⟩
  rw [← hF]
  induction qs generalizing s lg last x w k with
  | nil =>
    simp only [stepsE, fwd, List.map_nil, PT.run, tailEst, hlast, zProd, ENNReal.ofReal_one, one_mul]
    simp only [List.filterMap_nil]
    have : likProd (s.traj.drop k) [] = 1 := by
      unfold likProd; split
      · simp_all
      · rfl
    rw [this, ENNReal.ofReal_one, one_mul]
    rfl
  | cons q qs ih =>
    have hne : s.traj ≠ [] := by intro h; rw [h] at hlast; simp at hlast
    have hys : lg.ys ≠ [] := by
      intro h; have := hrep.len; rw [h, hk] at this; simp at this
    have hind : s.ind1 = k + 1 := by rw [hrep.ind, ← hrep.len, hk]
    obtain ⟨b1, b2, b3, b4⟩ := hrep.forward_bufs hys q.1 q.2
    simp only [hind, Nat.add_sub_cancel] at b1 b2 b3 b4
    have hylast : getLast (s.beforeForward q.1 q.2).yvec = .ok q.2 := by
      rw [getLast_ok, List.getLast?_eq_getElem?]
      simp only [PT.beforeForward, PT.growForward, if_pos hT, List.length_set, npResize_length, Nat.add_sub_cancel]
      rw [List.getElem?_set_self (by simp)]
    have htlast : getLast (s.beforeForward q.1 q.2).tvec = .ok (k+1) := by
      rw [getLast_ok, List.getLast?_eq_getElem?, ← hind]
      simp only [PT.beforeForward, PT.growForward, if_pos hT, List.length_set, npResize_length, Nat.add_sub_cancel]
      rw [List.getElem?_set_self (by simp)]
    have hgq := hqs q (by simp)
    have hqs' : ∀ q ∈ qs, good q.2 := fun q hq => hqs q (by simp [hq])
    have hZq := zProd_pos (fun k y hy => (hC.density_y k y hy).1) hqs' (k+1)
    have hz0 : ENNReal.ofReal (zProd Z (k+1) qs) ≠ 0 := by simpa using hZq
    have main : ∀ ω0, ENNReal.ofReal (zProd Z k (q :: qs)) *
        ∫⁻ r, ∫⁻ r2, ∫⁻ ω, stepsE ν qs (fun ds => tailEst φ k (s.run F (fwd ((q.1, q.2, ω0, ⟨r, r2, ω⟩) :: ds))))
        ∂ν ∂unif ∂unif = wmean (pathE M ℓ φ k (q :: qs)) last.pa := by
      intro ω0
      have hpm := pathE_measurable M hC.meas hφ qs (k+1)
      have hstep := opStep_anc hN ((pfy_stepLaw hN hC res k q.1 q.2 hgq).op (h := fun _ : Fin N => pathE M ℓ φ (k+1) qs) fun _ => hpm)
        hlast b1 b2 b4 b3 hx (fun _ => trivial) hw
        (fun d => ENNReal.ofReal (zProd Z (k+1) qs) * stepsE ν qs (fun ds => tailEst φ k (s.run F (fwd ((q.1, q.2, ω0, d) :: ds))))) ?_
      · simp only [lintegral_const_mul' _ _ ENNReal.ofReal_ne_top] at hstep
        rw [zProd, ENNReal.ofReal_mul (hC.density_y _ _ hgq).1.le, mul_assoc, hstep, wmean_ofFn _ hx hw, Finset.mul_sum]
        refine Finset.sum_congr rfl fun i _ => ?_
        rw [mul_left_comm, Kernel.const_apply, pfy_tilt hC hgq hpm]
        rfl
      · intro d pa b anc x' w' f h0 h1 hfw hx' hw' _ hanc _
        rw [← wmean_ofFn _ hx' hw']
        have hfw' : F.forward s.traj (s.beforeForward q.1 q.2).yvec (s.beforeForward q.1 q.2).uvec (s.beforeForward q.1 q.2).tvec k d = .ok (pa, b, anc) := by
          rw [hF, ← hfw]
          exact pfy_forward_eq hN hC hgq h0 h1 hlast hk b1 b2 hylast b4 b3 htlast hx (by rw [hw]; simp) ha
        have hf : s.forward F q.1 q.2 ω0 d = ({ s.beforeForward q.1 q.2 with traj := s.traj ++ [⟨pa, anc⟩] }, .ok b) := by
          rw [PT.forward_eq hrep.inv]
          have he : s.ensureInit F ω0 = (s, .ok ()) := by
            unfold PT.ensureInit
            rw [if_neg (by rw [hk]; omega)]
          rw [he]
          simp only [hind, Nat.add_sub_cancel, hfw']
        set s1 : PT P U Y := { s.beforeForward q.1 q.2 with traj := s.traj ++ [⟨pa, anc⟩] } with hs1
        have hrep1 := PT.forward_rep hrep hf
        have hk1 : s1.traj.length = (k + 1) + 1 := by rw [hs1]; simp [hk]
        have hlast1 : s1.traj.getLast? = some ⟨pa, anc⟩ := by rw [hs1]; simp
        have hT1 : s1.T ≤ s1.ind1 := by
          rw [hs1]
          simp only [PT.beforeForward, PT.growForward, if_pos hT, le_refl]
        rw [← ih hqs' hrep1 hT1 hlast1 (x := x') (w := w') hx' hw' (by rw [hanc]; simp) hk1, mul_left_comm]
        congr 1
        rw [← stepsE_const_mul ν _ ENNReal.ofReal_ne_top]
        congr 1
        funext ds
        have hcons : fwd ((q.1, q.2, ω0, d) :: ds) = .forward q.1 q.2 ω0 d :: fwd ds := rfl
        rw [hcons, run_forward_cons hf]
        rcases hr : s1.run F (fwd ds) with ⟨s2, r2⟩
        cases r2 with
        | error e => simp [tailEst]
        | ok bs =>
          obtain ⟨l, hl⟩ := fwd_prefix ds hrep1 (by rw [hs1]; simp) hr
          simp only [tailEst, List.filterMap_cons_some (f := id) (b := b) rfl]
          rw [← mul_assoc, ← ENNReal.ofReal_mul (likIncr_nonneg _ _ _)]
          congr 2
          have hd : s2.traj.drop k = last :: ⟨pa, anc⟩ :: l := by
            rw [hl, hs1]
            obtain ⟨pre, hpre⟩ : ∃ pre, s.traj = pre ++ [last] := ⟨s.traj.dropLast, by
              rw [List.getLast?_eq_some_getLast hne, Option.some.injEq] at hlast
              rw [← hlast, List.dropLast_append_getLast]⟩
            have hpl : pre.length = k := by rw [hpre] at hk; simpa using hk
            simp only [hpre, List.append_assoc]
            rw [List.drop_append_of_le_length (by omega), ← hpl, List.drop_length]
            rfl
          have hd1 : s2.traj.drop (k+1) = ⟨pa, anc⟩ :: l := by
            rw [show k + 1 = k + 1 from rfl, ← List.drop_drop, hd]; rfl
          rw [hd, hd1, likProd]
    simp only [stepsE]
    rw [← lintegral_const_mul' _ _ ENNReal.ofReal_ne_top, lintegral_congr main, lintegral_const, measure_univ, mul_one]

/-- The steps from a state with one time step of equally weighted particles. -/
theorem pfy_from_start [MeasurableSpace P] [MeasurableSpace Ω] {C : Callbacks P U Y V Ω} {ν : Measure Ω} [IsProbabilityMeasure ν] {N : ℕ} (hN : 0 < N)
    {vol μ0 : Measure P} {M : ℕ → Slot U → Kernel P P} {ℓ : ℕ → Slot Y → P → ℝ} {η : ℕ → Slot Y → Measure P} {Z : ℕ → Slot Y → ℝ} {lx : ℕ → Slot U → P → P → ℝ}
    {good : Slot Y → Prop} (hC : Spec.PfySamples C good ν N vol μ0 M ℓ η Z lx) (res : ℝ) {φ : P → ℝ≥0∞} (hφ : Measurable φ)
    (qs : List (Slot U × Slot Y)) (hqs : ∀ q ∈ qs, good q.2) {s : PT P U Y} {lg : Spec.Log U Y} (hrep : s.Rep lg) (hT : s.T ≤ s.ind1)
    {pa : PA P} (hs : s.traj = [⟨pa, List.range N⟩]) {x : Fin N → P} (hx : pa.part = List.ofFn x) (hw : pa.w = List.replicate N (-Real.log N))
    (ho : pa.w_offset = 0) :
    ENNReal.ofReal (zProd Z 0 qs) * stepsE ν qs (fun ds => runEstimate φ (s.run (pfyOps C N res) (fwd ds))) =
      ∑ i, ENNReal.ofReal (1 / N) * pathE M ℓ φ 0 qs (x i) := by
  have hNr : (0:ℝ) < N := by exact_mod_cast hN
  have hrepl : pa.w = List.ofFn (fun _ : Fin N => -Real.log N) := by
    rw [List.ofFn_const, hw]
  have hu : exp (-Real.log N) = 1 / N := by rw [exp_neg, exp_log hNr, one_div]
  have hmass : mass pa = 1 := by
    rw [mass, hw, ho, List.map_replicate, List.sum_replicate, add_zero, nsmul_eq_mul, hu]
    field_simp
  simp only [runEstimate_of_single φ hrep hs, hmass, ENNReal.ofReal_one, one_mul]
  rw [pfy_steps_value hN hC res hφ qs hqs hrep hT (last := ⟨pa, List.range N⟩) (by rw [hs]; rfl) hx hrepl (by simp) (k := 0) (by rw [hs]; rfl),
    wmean_ofFn _ hx hrepl]
  refine Finset.sum_congr rfl fun i _ => ?_
  congr 2
  rw [Finset.sum_const, Finset.card_univ, Fintype.card_fin, nsmul_eq_mul, hu]
  field_simp

/-- **C104.** The filter `pfy`, for a model whose `propose_from_y` samples from the likelihood normalised to a law of the state (with constant `Z`) and whose
`logp_xnext_singlestep` is the transition log-density, on a trajectory without preallocation.  Without an initial measurement, `∏ Z` times the likelihood estimate read off
the weights, times the weighted mean of `φ`, is unbiased for the integral of `φ` over the model's paths weighted with the likelihoods of the measurements.  With an initial
measurement the same holds with the *initial law of the model replaced by the volume*: `measure` draws the particles from the measurement and never evaluates the initial law. -/
theorem C104_pfy_unbiased [MeasurableSpace P] [MeasurableSpace Ω] {C : Callbacks P U Y V Ω} {ν : Measure Ω} [IsProbabilityMeasure ν] {N : ℕ} (hN : 0 < N)
    {vol μ0 : Measure P} {M : ℕ → Slot U → Kernel P P} {ℓ : ℕ → Slot Y → P → ℝ} {η : ℕ → Slot Y → Measure P} {Z : ℕ → Slot Y → ℝ} {lx : ℕ → Slot U → P → P → ℝ}
    {good : Slot Y → Prop} (hC : Spec.PfySamples C good ν N vol μ0 M ℓ η Z lx)
    {res : ℝ} {name : String} {o : FilterOptions P} (hn : parseFilter name = .ok .pfy)
    {F : FilterOps P U Y V Ω} (hF : mkFilter C N res name o = .ok F)
    {φ : P → ℝ≥0∞} (hφ : Measurable φ) {s0 : PT P U Y} (h0 : PT.init N none 0 = .ok s0) (qs : List (Slot U × Slot Y)) (hqs : ∀ q ∈ qs, good q.2) :
    (∀ y0, good y0 → ENNReal.ofReal (Z 0 y0 * zProd Z 0 qs) *
        ∫⁻ ω, stepsE ν qs (fun ds => runEstimate φ (s0.run F (history (some (y0, ω)) ds))) ∂ν =
      ∫⁻ x, ENNReal.ofReal (exp (ℓ 0 y0 x)) * pathE M ℓ φ 0 qs x ∂vol) ∧
    (qs ≠ [] → ENNReal.ofReal (zProd Z 0 qs) * stepsE ν qs (fun ds => runEstimate φ (s0.run F (history none ds))) = ∫⁻ x, pathE M ℓ φ 0 qs x ∂μ0) := by
  have hFe := mkFilter_pfy hn hF
  have hpm := fun (k : ℕ) (qs : List (Slot U × Slot Y)) => pathE_measurable M hC.meas hφ qs k
  have hrep0 := PT.init_rep h0
  obtain ⟨hsN, htr⟩ := init_N h0
  have hs0 : s0.T = 0 ∧ s0.ind1 = 0 := by cases h0; exact ⟨rfl, rfl⟩
  constructor
  · intro y0 hy0g
    obtain ⟨X, hX, hprop⟩ := hC.propose y0 0 hy0g
    have hm1 : Measurable fun x => ENNReal.ofReal (exp (ℓ 0 y0 x)) := (measurable_exp.comp (hC.meas 0 y0)).ennreal_ofReal
    have hrhs : ∫⁻ x, ENNReal.ofReal (exp (ℓ 0 y0 x)) * pathE M ℓ φ 0 qs x ∂vol = ENNReal.ofReal (Z 0 y0) * ∫⁻ x, pathE M ℓ φ 0 qs x ∂(η 0 y0) := by
      rw [← smul_eq_mul (a := ENNReal.ofReal (Z 0 y0)), ← lintegral_smul_measure, ← (hC.density_y 0 y0 hy0g).2, lintegral_withDensity_eq_lintegral_mul _ hm1 (hpm 0 qs)]
      rfl
    rw [hrhs, ENNReal.ofReal_mul (hC.density_y 0 y0 hy0g).1.le, mul_assoc, ← lintegral_const_mul' _ _ ENNReal.ofReal_ne_top, ← init_average hN hX (hpm 0 qs)]
    congr 1
    apply lintegral_congr
    intro ω
    obtain ⟨pa, p1, p2, p3, p4, p5⟩ := PA.new_none_wf (part := List.ofFn fun i => X i ω) (N := N) (by simp) hN
    obtain ⟨hg, g1, g2, g3, g4⟩ := PT.growMeasure_inv hrep0.inv
    have hgT : s0.growMeasure.T = 1 := by simp [PT.growMeasure, hs0.1, hs0.2]
    have hy : (s0.beforeMeasurePfy y0).yvec[s0.ind1]? = some y0 := by
      simp only [PT.beforeMeasurePfy]; exact List.getElem?_set_self (by rw [hg.ylen, hs0.2]; omega)
    have ht : (s0.beforeMeasurePfy y0).tvec[s0.ind1]? = some s0.ind1 := by
      simp only [PT.beforeMeasurePfy]; exact List.getElem?_set_self (by rw [hg.tlen, hs0.2]; omega)
    have hmeas : s0.measure F y0 ω = ({ s0.beforeMeasurePfy y0 with traj := [⟨pa, List.range N⟩] }, .ok ()) := by
      rw [PT.measure_pfy_eq (by rw [hFe]; rfl) hrep0.inv, hFe]
      have : (pfyOps C N res).measureNew (s0.beforeMeasurePfy y0).yvec (s0.beforeMeasurePfy y0).tvec s0.ind1 ω = .ok pa := by
        show ffpropyMeasure C N _ _ _ _ = _
        unfold ffpropyMeasure
        simp only [getIdx_ok.mpr hy, getIdx_ok.mpr ht, ok_bind]
        rw [hs0.2]
        simp only [hprop, ok_bind, p1]
      simp only [this, htr, hsN, List.nil_append]
    have hrep1 := PT.measure_rep hrep0 hmeas
    have hrun : ∀ ds, runEstimate φ (s0.run F (history (some (y0, ω)) ds)) =
        runEstimate φ (({ s0.beforeMeasurePfy y0 with traj := [⟨pa, List.range N⟩] } : PT P U Y).run F (fwd ds)) := by
      intro ds
      have : history (some (y0, ω)) ds = .measure y0 ω :: fwd ds := rfl
      rw [this]
      simp only [PT.run, PT.step, hmeas]
      rcases ({ s0.beforeMeasurePfy y0 with traj := [⟨pa, List.range N⟩] } : PT P U Y).run F (fwd ds) with ⟨s2, _ | bs⟩
      · rfl
      · simp only [runEstimate, List.filterMap_cons_none (f := id) (a := (none : Option Bool)) rfl]
    simp only [hrun]
    rw [hFe, pfy_from_start hN hC res hφ qs hqs hrep1 (by simp [PT.beforeMeasurePfy, hgT, hs0.2]) rfl p3 p4 p5]
  · intro hne
    obtain ⟨q, qs, rfl⟩ := List.exists_cons_of_ne_nil hne
    obtain ⟨X, hX, hc⟩ := hC.create
    have hc' : ∀ ω, F.create N ω = .ok (List.ofFn fun i => X i ω) := by rw [hFe]; exact hc
    rw [← init_average hN hX (hpm 0 (q :: qs))]
    show _ * ∫⁻ ω0, _ ∂ν = _
    rw [← lintegral_const_mul' _ _ ENNReal.ofReal_ne_top]
    apply lintegral_congr
    intro ω
    have he := ensureInit_create (s := s0) hN hsN htr (hc' ω)
    set s1 : PT P U Y := { s0 with ind1 := 1, traj := [⟨⟨List.ofFn fun i => X i ω, List.replicate N (-Real.log N), N, 0⟩,
      List.range N⟩] } with hs1
    have hrep1 : s1.Rep ⟨[], [.none]⟩ := (hrep0.ensureInit he).1 rfl
    have hrun : ∀ d ds, runEstimate φ (s0.run F (history none ((q.1, q.2, ω, d) :: ds))) = runEstimate φ (s1.run F (fwd ((q.1, q.2, ω, d) :: ds))) := by
      intro d ds
      have h1 : s0.run F (history none ((q.1, q.2, ω, d) :: ds)) = s1.run F (fwd ((q.1, q.2, ω, d) :: ds)) := by
        simp only [history, fwd, List.nil_append, List.map_cons, PT.run, PT.step,
          forward_ensureInit he (by rw [hs1]; simp) q.1 q.2 d]
      rw [h1]
    simp only [hrun]
    rw [apf_steps_head (s := s1) (k := 0) rfl hrep1.inv (g := runEstimate φ) q qs ω, hFe,
      pfy_from_start hN hC res hφ (q :: qs) hqs hrep1 (by rw [hs1]; simp [hs0.1]) rfl rfl rfl rfl]

/-! ### A model that meets the hypotheses -/

/-- Scalar random walk observed with unit noise: `propose_from_y` draws `y + v`, `logp_xnext_singlestep` is the Gaussian log-density. -/
noncomputable def walkCallbacks (N : ℕ) : Callbacks ℝ ℝ ℝ ℝ (Fin N → ℝ) where
  createInitial := fun _ ω => .ok (List.ofFn fun i => ω i)
  sampleNoise := fun _ _ _ _ _ => .error .notImplementedError
  update := fun _ _ _ _ _ _ _ => .error .notImplementedError
  measure := fun _ _ _ _ _ _ => .error .notImplementedError
  evalFirstStage := fun _ _ _ _ => .error .notImplementedError
  logpXnextSingle := fun p _ _ q _ _ _ _ _ => .ok (List.zipWith (fun x x' => Real.log (gaussianPDFReal x 1 x')) p q)
  proposeFromY := fun _ y _ ω => match y with
    | .obj v => .ok (List.ofFn fun i => v + ω i)
    | _ => .error .typeError
  qsample := fun _ _ _ _ _ => .error .notImplementedError
  logpQ := fun _ _ _ _ _ => .error .notImplementedError
  logpXnext := fun _ _ _ _ => .error .notImplementedError
  sirMeasure := fun _ _ _ => .error .notImplementedError

/-- The noise of `walkCallbacks`: one standard normal per particle. -/
noncomputable def walkNoise (N : ℕ) : Measure (Fin N → ℝ) := Measure.pi fun _ => gaussianReal 0 1

/-- The transition law of the random walk. -/
noncomputable def walkKernel : Kernel ℝ ℝ := (Kernel.id ×ₖ Kernel.const ℝ (gaussianReal 0 1)).map fun p => p.1 + p.2

/-- The log-likelihood of the walk, without its normalising constant. -/
noncomputable def walkLik (y : Slot ℝ) (x : ℝ) : ℝ := match y with
  | .obj v => -(x - v) ^ 2 / 2
  | _ => 0

/-- The law that `propose_from_y` of the walk samples from. -/
noncomputable def walkFrom (y : Slot ℝ) : Measure ℝ := match y with
  | .obj v => gaussianReal v 1
  | _ => 0

theorem walkKernel_apply (x : ℝ) : walkKernel x = gaussianReal x 1 := by
  unfold walkKernel
  have hm : Measurable fun p : ℝ × ℝ => p.1 + p.2 := by fun_prop
  rw [Kernel.map_apply _ hm, Kernel.prod_apply, Kernel.id_apply, Kernel.const_apply, Measure.dirac_prod, Measure.map_map hm (by fun_prop)]
  have : (fun p : ℝ × ℝ => p.1 + p.2) ∘ Prod.mk x = fun z => x + z := rfl
  rw [this, gaussianReal_map_const_add]
  simp

theorem walk_pdf (m x : ℝ) : gaussianPDF m 1 x = ENNReal.ofReal (exp (Real.log (gaussianPDFReal m 1 x))) := by
  rw [gaussianPDF, exp_log (gaussianPDFReal_pos _ _ _ one_ne_zero)]

instance (N : ℕ) : IsProbabilityMeasure (walkNoise N) := by unfold walkNoise; infer_instance

theorem walk_eval {N : ℕ} (i : Fin N) : (walkNoise N).map (fun ω => ω i) = gaussianReal 0 1 :=
  (measurePreserving_eval (fun _ : Fin N => gaussianReal 0 1) i).map_eq

/-- The walk meets the hypotheses of `C104_pfy_unbiased`, with the constant `√(2π)`. -/
theorem walk_samples (N : ℕ) : Spec.PfySamples (walkCallbacks N) (fun y => ∃ v, y = .obj v) (walkNoise N) N volume (gaussianReal 0 1)
    (fun _ _ => walkKernel) (fun _ => walkLik) (fun _ => walkFrom) (fun _ _ => √(2 * Real.pi)) (fun _ _ x x' => Real.log (gaussianPDFReal x 1 x')) where
  create := ⟨fun i ω => ω i, fun i => ⟨measurable_pi_apply i, walk_eval i⟩, fun ω => rfl⟩
  propose := by
    rintro y k ⟨v, rfl⟩
    refine ⟨fun i ω => v + ω i, fun i => ⟨by fun_prop, ?_⟩, fun ω => rfl⟩
    show Measure.map (fun ω : Fin N → ℝ => v + ω i) _ = _
    have : (fun ω : Fin N → ℝ => v + ω i) = (fun z => v + z) ∘ fun ω => ω i := rfl
    have h1 : Measurable fun ω : Fin N → ℝ => ω i := measurable_pi_apply i
    rw [this, ← Measure.map_map (by fun_prop) h1, walk_eval, gaussianReal_map_const_add]
    simp [walkFrom]
  logpX := by
    intro x x' past pind uv yv tv k u _ _
    simp only [walkCallbacks, zipWith_ofFn']
  density_y := by
    rintro k y ⟨v, rfl⟩
    refine ⟨Real.sqrt_pos.mpr (by positivity), ?_⟩
    rw [walkFrom, gaussianReal_of_var_ne_zero _ one_ne_zero, ← withDensity_smul _ (measurable_gaussianPDF _ _)]
    congr 1
    funext x
    rw [Pi.smul_apply, gaussianPDF, smul_eq_mul, ← ENNReal.ofReal_mul (Real.sqrt_nonneg _), gaussianPDFReal, walkLik]
    have : √(2 * Real.pi) ≠ 0 := (Real.sqrt_pos.mpr (by positivity)).ne'
    simp only [NNReal.coe_one, mul_one]
    rw [← mul_assoc, mul_inv_cancel₀ this, one_mul]
  density_x := by
    intro k u x
    rw [walkKernel_apply, gaussianReal_of_var_ne_zero _ one_ne_zero]
    congr 1
    funext x'
    exact walk_pdf x x'
  meas := by
    intro k y
    rcases y with _ | _ | v
    · exact measurable_const
    · exact measurable_const
    · show Measurable fun x : ℝ => -(x - v) ^ 2 / 2
      fun_prop
  meas_x := fun k u x => (measurable_gaussianPDFReal x 1).log

/-- `C104_pfy_unbiased` for the walk: three particles, one initial and two further measurements. -/
example {F : FilterOps ℝ ℝ ℝ ℝ (Fin 3 → ℝ)} {o : FilterOptions ℝ} (hF : mkFilter (walkCallbacks 3) 3 (2/3) "pfy" o = .ok F) {s0 : PT ℝ ℝ ℝ} (h0 : PT.init 3 none 0 = .ok s0)
    (v0 v1 v2 : ℝ) : ENNReal.ofReal (√(2 * Real.pi) * (√(2 * Real.pi) * (√(2 * Real.pi) * 1))) *
      ∫⁻ ω, stepsE (walkNoise 3) [(.zero, .obj v1), (.zero, .obj v2)] (fun ds => runEstimate (fun x => ENNReal.ofReal x) (s0.run F (history (some (.obj v0, ω)) ds))) ∂(walkNoise 3) =
      ∫⁻ x, ENNReal.ofReal (exp (-(x - v0) ^ 2 / 2)) *
        pathE (fun _ _ => walkKernel) (fun _ => walkLik) (fun x => ENNReal.ofReal x) 0 [((.zero : Slot ℝ), .obj v1), (.zero, .obj v2)] x :=
  (C104_pfy_unbiased (by norm_num) (walk_samples 3) (by decide +kernel) hF ENNReal.measurable_ofReal h0 [(.zero, .obj v1), (.zero, .obj v2)]
    (by simp)).1 (.obj v0) ⟨v0, rfl⟩

/-- The flat initial law, on the walk: after `measure(v)` alone, `Z` times the expected likelihood estimate is `√(2π)`, while the likelihood of the measurement under the
model's initial law is at most 1. -/
theorem C104_initial_law_ignored {F : FilterOps ℝ ℝ ℝ ℝ (Fin 3 → ℝ)} {o : FilterOptions ℝ} (hF : mkFilter (walkCallbacks 3) 3 (2/3) "pfy" o = .ok F)
    {s0 : PT ℝ ℝ ℝ} (h0 : PT.init 3 none 0 = .ok s0) (v : ℝ) :
    ENNReal.ofReal (√(2 * Real.pi)) * ∫⁻ ω, runEstimate (fun _ => 1) (s0.run F [.measure (.obj v) ω]) ∂(walkNoise 3) = ENNReal.ofReal (√(2 * Real.pi)) ∧
    ∫⁻ x, ENNReal.ofReal (exp (walkLik (.obj v) x)) ∂(gaussianReal 0 1) ≤ 1 ∧ 1 < √(2 * Real.pi) := by
  refine ⟨?_, ?_, ?_⟩
  · have h := (C104_pfy_unbiased (by norm_num) (walk_samples 3) (by decide +kernel) hF (φ := fun _ => 1) measurable_const h0 [] (by simp)).1 (.obj v) ⟨v, rfl⟩
    simp only [zProd, mul_one, stepsE, history, List.map_nil, List.append_nil, pathE] at h
    have h2 : ∫⁻ x, ENNReal.ofReal (exp (walkLik (.obj v) x)) = ENNReal.ofReal (√(2 * Real.pi)) := by
      have := congrArg (fun μ => μ Set.univ) (((walk_samples 3).density_y 0 (.obj v) ⟨v, rfl⟩).2)
      simp only [withDensity_apply _ MeasurableSet.univ, Measure.restrict_univ, Measure.smul_apply, walkFrom, measure_univ, smul_eq_mul, mul_one] at this
      exact this
    exact h.trans h2
  · calc ∫⁻ x, ENNReal.ofReal (exp (walkLik (.obj v) x)) ∂(gaussianReal 0 1) ≤ ∫⁻ _, 1 ∂(gaussianReal 0 1) := by
          refine lintegral_mono fun x => ?_
          rw [← ENNReal.ofReal_one]
          refine ENNReal.ofReal_le_ofReal (exp_le_one_iff.mpr ?_)
          simp only [walkLik]
          have := sq_nonneg (x - v)
          linarith
      _ = 1 := by simp
  · rw [Real.lt_sqrt (by norm_num)]
    have := Real.one_le_pi_div_two
    linarith

end PyPE

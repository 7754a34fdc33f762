import Verif.Filter.ApfUnbiased
import Verif.Models.NlgApf
import Verif.Smooth.Ffbsi

/-!
# C112: smoothing after the auxiliary particle filter

Trajectories drawn by `perform_smoothing` from a run of the auxiliary filter: the auxiliary filter's likelihood estimate (C103) times the average of any
non-negative `φ` over the trajectories has expectation `E[Π_t p(y_t | x_t) φ(x_0, …, x_T)]`, although the first-stage weights are not kept in the stored run.
-/

namespace PyPE
open Real Spec MeasureTheory ProbabilityTheory
open scoped ENNReal

variable {P U Y V Ω : Type}

/-! ### Specification -/

/-- Likelihood estimate of the auxiliary filter times a quantity computed from the finished run; a run that raises contributes `0`. -/
noncomputable def Spec.apfWeighted (a : ℕ → Slot U → Slot Y → P → ℝ) (ℓ : ℕ → Slot Y → P → ℝ) (H : PT P U Y → ℝ≥0∞) (y0 : Option (Slot Y))
    (qs : List (Slot U × Slot Y)) : PT P U Y × PyM (List (Option Bool)) → ℝ≥0∞
  | (s, .ok bs) => ENNReal.ofReal (apfFirst ℓ y0 s.traj * apfProd a ℓ 0 qs s.traj (bs.filterMap id)) * H s
  | (_, .error _) => 0

/-! ### One step -/

/-- The average of a step of the auxiliary filter over all its random draws, for a value that depends on the ancestor and on the new particle. -/
theorem apf_step_anc [MeasurableSpace P] [MeasurableSpace Ω] {K : MarkovModel P U Y V Ω} {ν : Measure Ω} [IsProbabilityMeasure ν] {N : ℕ} (hN : 0 < N)
    {μ0 : Measure P} {M : ℕ → Slot U → Kernel P P} {ℓ : ℕ → Slot Y → P → ℝ} {good : Slot Y → Prop} (hK : Spec.Samples K good ν N μ0 M ℓ)
    {rest : Callbacks P U Y V Ω} {a : ℕ → Slot U → Slot Y → P → ℝ} (ha : Spec.FirstStage rest good a) (res : ℝ)
    {k : ℕ} {u : Slot U} {y : Slot Y} (hgy : good y) (hny : y ≠ .none)
    {tr : List (Step P)} {last : Step P} {yv : List (Slot Y)} {uv : List (Slot U)} {tv : List ℕ}
    (hlast : tr.getLast? = some last) (hu : uv[k]? = some u) (hy : yv[k+1]? = some y) (ht : tv[k]? = some k) (ht1 : tv[k+1]? = some (k+1))
    {x : Fin N → P} {w : Fin N → ℝ} (hx : last.pa.part = List.ofFn x) (hw : last.pa.w = List.ofFn w)
    {h : Fin N → P → ℝ≥0∞} (hh : ∀ i, Measurable (h i)) (G : Draws Ω → ℝ≥0∞)
    (hG : ∀ d pa b anc (x' : Fin N → P) (w' : Fin N → ℝ) (f : Fin N → Fin N), 0 < d.r → d.r < 1 →
      apfForward (K.toCallbacks rest) res tr yv uv tv k d = .ok (pa, b, anc) → pa.part = List.ofFn x' → pa.w = List.ofFn w' → pa.num = N →
      anc = List.ofFn (fun i => (f i : ℕ)) →
      G d = ENNReal.ofReal (apfFactor (a k u y) (ℓ (k+1) y) last ⟨pa, anc⟩ b) * ∑ i, ENNReal.ofReal (exp (w' i) / ∑ j, exp (w' j)) * h (f i) (x' i)) :
    ∫⁻ r, ∫⁻ r2, ∫⁻ ω, G ⟨r, r2, ω⟩ ∂ν ∂unif ∂unif =
      ∑ i, ENNReal.ofReal (exp (w i) / ∑ j, exp (w j)) * ∫⁻ x', ENNReal.ofReal (exp (ℓ (k+1) y x')) * h i x' ∂(M k u (x i)) := by
  haveI : Nonempty (Fin N) := ⟨⟨0, hN⟩⟩
  have hNr : (0:ℝ) < N := by exact_mod_cast hN
  obtain ⟨A, hA⟩ : ∃ A : Fin N → ℝ, A = fun i => a k u y (x i) := ⟨_, rfl⟩
  have hAi : ∀ i, a k u y (x i) = A i := fun i => by rw [hA]
  have hs : 0 < ∑ j, exp (w j) := Finset.sum_pos (fun _ _ => exp_pos _) Finset.univ_nonempty
  have hsa : 0 < ∑ j, exp (w j + A j) := Finset.sum_pos (fun _ _ => exp_pos _) Finset.univ_nonempty
  have hgm : ∀ i, Measurable fun x' => ENNReal.ofReal (exp (ℓ (k+1) y x')) * h i x' :=
    fun i => ((measurable_exp.comp (hK.meas (k+1) y)).ennreal_ofReal).mul (hh i)
  obtain ⟨Q, hQ⟩ : ∃ Q : Fin N → ℝ≥0∞, Q = fun i => ∫⁻ x', ENNReal.ofReal (exp (ℓ (k+1) y x')) * h i x' ∂(M k u (x i)) := ⟨_, rfl⟩
  refine Eq.trans (b := ∑ i, ENNReal.ofReal (exp (w i) / ∑ j, exp (w j)) * Q i) ?_ (by rw [hQ])
  -- the average over the model noise
  have hω : ∀ (f : Fin N → Fin N) (X : Fin N → Ω → P) (c : Fin N → ℝ), (∀ i, 0 ≤ c i) → (∀ i, Measurable (X i) ∧ ν.map (X i) = M k u (x (f i))) →
      ∫⁻ ω, ∑ i, ENNReal.ofReal (c i) * (ENNReal.ofReal (exp (ℓ (k+1) y (X i ω))) * h (f i) (X i ω)) ∂ν = ∑ i, ENNReal.ofReal (c i) * Q (f i) := by
    intro f X c _ hX
    have hcm : ∀ i, Measurable fun ω => ENNReal.ofReal (exp (ℓ (k+1) y (X i ω))) * h (f i) (X i ω) := fun i => (hgm (f i)).comp (hX i).1
    rw [lintegral_finset_sum _ (fun i _ => (hcm i).const_mul _)]
    refine Finset.sum_congr rfl fun i _ => ?_
    rw [lintegral_const_mul _ (hcm i), hQ]
    congr 1
    show _ = ∫⁻ x', ENNReal.ofReal (exp (ℓ (k+1) y x')) * h (f i) x' ∂(M k u (x (f i)))
    rw [← (hX i).2, lintegral_map (hgm (f i)) (hX i).1]
  rcases apf_step_ok hN hK ha res hgy hny hlast hu hy ht ht1 hx hw with ⟨m, hstep⟩ | ⟨X, hX, hstep⟩
  · -- resampled
    obtain ⟨vl, hvl⟩ : ∃ vl : List ℝ, vl = (List.ofFn fun i => w i + A i).map fun t => exp (t - m) := ⟨_, rfl⟩
    have hW : Weights vl := by
      rw [hvl]
      exact weights_exp_sub (by intro h; have := congrArg List.length h; simp at this; omega) m
    obtain ⟨S, hS⟩ : ∃ S : ℝ, S = (∑ j, exp (w j + A j)) / ∑ j, exp (w j) := ⟨_, rfl⟩
    have hSp : 0 < S := by rw [hS]; exact div_pos hsa hs
    have hc0 : ∀ t, 0 ≤ S / N * exp (-t) := fun t => mul_nonneg (div_nonneg hSp.le hNr.le) (exp_pos _).le
    have hc1 : ∀ t T, 0 ≤ T → 0 ≤ S / N * exp t * T := fun t T hT => mul_nonneg (mul_nonneg (div_nonneg hSp.le hNr.le) (exp_pos _).le) hT
    have key : ∀ r, ∀ an : List ℕ, 0 < r → r < 1 → sample vl N r = .ok an →
        ∫⁻ r2, ∫⁻ ω, G ⟨r, r2, ω⟩ ∂ν ∂unif =
          (an.map fun j => if hj : j < N then ENNReal.ofReal (S / N * exp (-A ⟨j, hj⟩)) * Q ⟨j, hj⟩ else 0).sum := by
      intro r an h0 h1 han
      obtain ⟨f, X, hsamp, hX, hfw⟩ := hstep r h0 h1
      simp only [hAi] at hsamp
      rw [← hvl, han] at hsamp
      obtain rfl := Except.ok.inj hsamp
      have hGe : ∀ r2 ω, G ⟨r, r2, ω⟩ = ∑ i, ENNReal.ofReal (S / N * exp (-A (f i))) *
          (ENNReal.ofReal (exp (ℓ (k+1) y (X i ω))) * h (f i) (X i ω)) := by
        intro r2 ω
        obtain ⟨pa, c, e1, e2, e3, e4⟩ := hfw r2 ω
        rw [hG ⟨r, r2, ω⟩ pa true _ _ _ f h0 h1 e1 e2 e3 e4 rfl, Finset.mul_sum]
        have hf : apfFactor (a k u y) (ℓ (k+1) y) last ⟨pa, List.ofFn fun i => (f i : ℕ)⟩ true =
            S / N * exp c * ∑ j, exp (ℓ (k+1) y (X j ω) - a k u y (x (f j)) - c) := by
          simp only [apfFactor, if_true, e2, hx, filterMap_parents, normWeights, hw, List.map_ofFn, zipWith_ofFn', List.sum_ofFn,
            List.length_ofFn, Function.comp_apply, hAi]
          rw [hS, Finset.mul_sum, Finset.sum_div, Finset.mul_sum]
          refine Finset.sum_congr rfl fun j _ => ?_
          rw [← apf_alg4, Finset.sum_div]
          congr 1
          refine Finset.sum_congr rfl fun i _ => ?_
          rw [exp_add, div_mul_eq_mul_div]
        rw [hf]
        refine Finset.sum_congr rfl fun i _ => ?_
        have hT : 0 < ∑ j, exp (ℓ (k+1) y (X j ω) - a k u y (x (f j)) - c) := Finset.sum_pos (fun _ _ => exp_pos _) Finset.univ_nonempty
        rw [← mul_assoc, ← mul_assoc, ← ENNReal.ofReal_mul (hc1 c _ hT.le), ← ENNReal.ofReal_mul (hc0 _)]
        congr 2
        rw [hAi]
        exact apf_alg1 hT.ne' _ _ _
      rw [lintegral_congr fun r2 => (lintegral_congr fun ω => hGe r2 ω).trans (hω f X _ (fun i => hc0 _) hX), lintegral_const,
        measure_univ, mul_one, List.map_ofFn, List.sum_ofFn]
      refine Finset.sum_congr rfl fun i _ => ?_
      simp
    rw [lintegral_sample hW N _ _ key]
    have hl : vl.length = N := by rw [hvl]; simp
    rw [hl, Finset.sum_range]
    refine Finset.sum_congr rfl fun j _ => ?_
    rw [dif_pos j.2, ← mul_assoc]
    have hp : prob vl j = exp (w j + A j) / ∑ i, exp (w i + A i) := by
      rw [hvl]; exact prob_exp_sub (fun i => w i + A i) m j
    rw [hp, ← ENNReal.ofReal_mul (mul_nonneg hNr.le (div_nonneg (exp_pos _).le hsa.le))]
    congr 2
    rw [hS]
    exact apf_alg2 hNr.ne' hsa.ne' _ _
  · -- not resampled
    have hrange : List.range N = List.ofFn (fun i : Fin N => ((id i : Fin N) : ℕ)) := by apply List.ext_getElem <;> simp
    have hGe : ∀ r r2 ω, 0 < r → r < 1 → G ⟨r, r2, ω⟩ = ∑ i, ENNReal.ofReal (exp (w i) / ∑ j, exp (w j)) *
          (ENNReal.ofReal (exp (ℓ (k+1) y (X i ω))) * h i (X i ω)) := by
      intro r r2 ω h0 h1
      obtain ⟨pa, c, e1, e2, e3, e4⟩ := hstep r r2 ω
      rw [hG ⟨r, r2, ω⟩ pa false _ _ _ id h0 h1 e1 e2 e3 e4 hrange, Finset.mul_sum]
      have hf : apfFactor (a k u y) (ℓ (k+1) y) last ⟨pa, List.range N⟩ false =
          exp c / (∑ j, exp (w j)) * ∑ j, exp (w j + ℓ (k+1) y (X j ω) - c) := by
        simp only [apfFactor, e2, normWeights, hw, List.map_ofFn, zipWith_ofFn', List.sum_ofFn, Function.comp_apply, Bool.false_eq_true, if_false]
        rw [Finset.mul_sum]
        refine Finset.sum_congr rfl fun j _ => ?_
        rw [exp_sub, exp_add]
        field_simp
      rw [hf]
      refine Finset.sum_congr rfl fun i _ => ?_
      have hT : 0 < ∑ j, exp (w j + ℓ (k+1) y (X j ω) - c) := Finset.sum_pos (fun _ _ => exp_pos _) Finset.univ_nonempty
      rw [← mul_assoc, ← mul_assoc, ← ENNReal.ofReal_mul (mul_nonneg (div_nonneg (exp_pos _).le hs.le) hT.le),
        ← ENNReal.ofReal_mul (div_nonneg (exp_pos _).le hs.le)]
      congr 2
      exact apf_alg3 hT.ne' _ _ _
    rw [lintegral_congr_ae (g := fun _ => ∑ i, ENNReal.ofReal (exp (w i) / ∑ j, exp (w j)) * Q i)]
    · rw [lintegral_const, measure_univ, mul_one]
    · filter_upwards [unif_ae] with r hr
      rw [lintegral_congr fun r2 => (lintegral_congr fun ω => hGe r r2 ω hr.1 hr.2).trans (hω id X _ (fun i => div_nonneg (exp_pos _).le hs.le) hX), lintegral_const,
        measure_univ, mul_one]
      rfl

/-! ### A run -/

/-- What the steps from index `k` on contribute. -/
noncomputable def apfTailW (a : ℕ → Slot U → Slot Y → P → ℝ) (ℓ : ℕ → Slot Y → P → ℝ) (H : PT P U Y → ℝ≥0∞) (k : ℕ) (qs : List (Slot U × Slot Y)) :
    PT P U Y × PyM (List (Option Bool)) → ℝ≥0∞
  | (s, .ok bs) => ENNReal.ofReal (apfProd a ℓ k qs (s.traj.drop k) (bs.filterMap id)) * H s
  | (_, .error _) => 0

/-- The expectation over a sequence of steps. -/
theorem apf_steps_history [MeasurableSpace P] [MeasurableSpace Ω] {K : MarkovModel P U Y V Ω} {ν : Measure Ω} [IsProbabilityMeasure ν] {N : ℕ} (hN : 0 < N)
    {μ0 : Measure P} {M : ℕ → Slot U → Kernel P P} {ℓ : ℕ → Slot Y → P → ℝ} {good : Slot Y → Prop} (hK : Spec.Samples K good ν N μ0 M ℓ)
    (hnone : ∀ y, good y → y ≠ .none)
    {rest : Callbacks P U Y V Ω} {a : ℕ → Slot U → Slot Y → P → ℝ} (ha : Spec.FirstStage rest good a) (res : ℝ)
    {φ : List P → ℝ≥0∞} (hφ : ∀ n, Measurable fun x : Fin n → P => φ (List.ofFn x))
    {E : List (Step P) → List (Slot U) → ((ℕ → P) → ℝ≥0∞) → Fin N → ℝ≥0∞} {s_ : ℕ → P} (hE : PathOp N M E s_) {H : PT P U Y → ℝ≥0∞} {L : ℕ}
    {us' : List (Slot U)} {ys' : List (Slot Y)}
    (hH : ∀ (s : PT P U Y) last (x : Fin N → P) (w : Fin N → ℝ), s.Rep ⟨us'.map some, ys'⟩ → s.traj.length = L + 1 →
      (∀ st ∈ s.traj, GoodStep N st) → s.traj.getLast? = some last → last.pa.part = List.ofFn x →
      last.pa.w = List.ofFn w → H s = ∑ i, ENNReal.ofReal (exp (w i) / ∑ j, exp (w j)) * E s.traj us' (pathG M ℓ φ L []) i)
    (qs : List (Slot U × Slot Y)) (hqs : ∀ q ∈ qs, good q.2) {s : PT P U Y} {us : List (Slot U)} {ys : List (Slot Y)}
    (hrep : s.Rep ⟨us.map some, ys⟩) (hgs : ∀ st ∈ s.traj, GoodStep N st)
    {last : Step P} (hlast : s.traj.getLast? = some last) {x : Fin N → P} {w : Fin N → ℝ} (hx : last.pa.part = List.ofFn x)
    (hw : last.pa.w = List.ofFn w) {k : ℕ} (hk : s.traj.length = k + 1) (hL : L = k + qs.length)
    (hus' : us' = us ++ qs.map Prod.fst) (hys' : ys' = ys ++ qs.map Prod.snd) :
    stepsE ν qs (fun ds => apfTailW a ℓ H k qs (s.run (apfOps (K.toCallbacks rest) res) (fwd ds))) =
      ∑ i, ENNReal.ofReal (exp (w i) / ∑ j, exp (w j)) * E s.traj us (pathG M ℓ φ k qs) i := by
  obtain ⟨F, hF⟩ : ∃ F, F = apfOps (K.toCallbacks rest) res := ⟨_, rfl⟩
  rw [← hF]
  induction qs generalizing s us ys last x w k with
  | nil =>
    simp only [stepsE, fwd, List.map_nil, PT.run, apfTailW]
    obtain rfl : L = k := hL
    rw [List.map_nil, List.append_nil] at hus' hys'
    subst hus' hys'
    rw [show apfProd a ℓ L [] (s.traj.drop L) (([] : List (Option Bool)).filterMap id) = 1 by simp [apfProd],
      ENNReal.ofReal_one, one_mul, hH s last x w hrep hk hgs hlast hx hw]
  | cons q qs ih =>
    have hne : s.traj ≠ [] := by intro h; rw [h] at hlast; simp at hlast
    have hys : ys ≠ [] := by
      intro h; have := hrep.len; rw [hk, h] at this; simp at this
    have hysl : ys.length = k + 1 := by rw [← hk]; exact hrep.len.symm
    have husl : us.length = k := by
      have := hrep.us_len; simp only [List.length_map] at this; omega
    have hind : s.ind1 = k + 1 := by rw [hrep.ind]; exact hysl
    obtain ⟨b1, b2, b3, b4⟩ := hrep.forward_bufs hys q.1 q.2
    simp only [hind, Nat.add_sub_cancel] at b1 b2 b3 b4
    have hgq := hqs q (by simp)
    have hM : ∀ k u, IsMarkovKernel (M k u) := samples_markov hN hK
    obtain ⟨h, hh1, hh2, hh3⟩ := hE.step k q.1 (fun x' => ENNReal.ofReal (exp (ℓ (k+1) q.2 x'))) s.traj us last x w
      (pathG M ℓ φ (k+1) qs) (measurable_exp.comp (hK.meas (k+1) q.2)).ennreal_ofReal (pathG_measurable hM hK.meas hφ (k+1) qs) hk husl hgs hlast hx hw
    have main : ∀ ω0, ∫⁻ r, ∫⁻ r2, ∫⁻ ω, stepsE ν qs (fun ds => apfTailW a ℓ H k (q :: qs) (s.run F (fwd ((q.1, q.2, ω0, ⟨r, r2, ω⟩) :: ds))))
        ∂ν ∂unif ∂unif = ∑ i, ENNReal.ofReal (exp (w i) / ∑ j, exp (w j)) * E s.traj us (pathG M ℓ φ k (q :: qs)) i := by
      intro ω0
      rw [apf_step_anc hN hK ha res hgq (hnone _ hgq) hlast b1 b2 b4 b3 hx hw hh1
        (fun d => stepsE ν qs (fun ds => apfTailW a ℓ H k (q :: qs) (s.run F (fwd ((q.1, q.2, ω0, d) :: ds))))) ?_]
      · beta_reduce
        rw [show pathG M ℓ φ k (q :: qs) = fun s => ∫⁻ x', ENNReal.ofReal (exp (ℓ (k+1) q.2 x')) *
          pathG M ℓ φ (k+1) qs (Function.update s (k+1) x') ∂(M k q.1 (s k)) from funext fun s => pathG_cons M ℓ φ k q qs s]
        exact hh3
      · intro d pa b anc x' w' f h0 h1 hfw hx' hw' hn' hanc
        have hf : s.forward F q.1 q.2 ω0 d = ({ s.beforeForward q.1 q.2 with traj := s.traj ++ [⟨pa, anc⟩] }, .ok b) := by
          rw [PT.forward_eq hrep.inv]
          have he : s.ensureInit F ω0 = (s, .ok ()) := by
            unfold PT.ensureInit
            rw [if_neg (by rw [hk]; omega)]
          rw [he]
          have hfw' : F.forward s.traj (s.beforeForward q.1 q.2).yvec (s.beforeForward q.1 q.2).uvec (s.beforeForward q.1 q.2).tvec k d = .ok (pa, b, anc) := by
            rw [hF]; exact hfw
          simp only [hind, Nat.add_sub_cancel, hfw']
        set s1 : PT P U Y := { s.beforeForward q.1 q.2 with traj := s.traj ++ [⟨pa, anc⟩] } with hs1
        have hrep1 := PT.forward_rep hrep hf
        rw [show Spec.Log.forward ⟨us.map some, ys⟩ q.1 q.2 = ⟨(us ++ [q.1]).map some, ys ++ [q.2]⟩ by
          unfold Spec.Log.forward; rw [if_neg hys]; simp] at hrep1
        have hk1 : s1.traj.length = (k + 1) + 1 := by rw [hs1]; simp [hk]
        have hlast1 : s1.traj.getLast? = some ⟨pa, anc⟩ := by rw [hs1]; simp
        have hgs1 : ∀ st ∈ s1.traj, GoodStep N st := by
          intro st hst
          rw [hs1] at hst
          rcases List.mem_append.mp hst with h | h
          · exact hgs st h
          · rw [List.mem_singleton.mp h]
            exact goodStep_ofFn hx' hw' hn' hanc
        have hIH := ih (fun q hq => hqs q (by simp [hq])) hrep1 hgs1 hlast1 (x := x') (w := w') hx' hw' hk1
          (by rw [hL]; simp only [List.length_cons]; omega) (by simp [hus']) (by simp [hys'])
        rw [show ∑ i, ENNReal.ofReal (exp (w' i) / ∑ j, exp (w' j)) * h (f i) (x' i) =
          ∑ i, ENNReal.ofReal (exp (w' i) / ∑ j, exp (w' j)) * E s1.traj (us ++ [q.1]) (pathG M ℓ φ (k+1) qs) i from
          Finset.sum_congr rfl fun i _ => by rw [hs1]; simp only; rw [hh2 pa anc x' f hx' hanc i], ← hIH,
          ← stepsE_const_mul ν _ ENNReal.ofReal_ne_top]
        congr 1
        funext ds
        have hcons : fwd ((q.1, q.2, ω0, d) :: ds) = .forward q.1 q.2 ω0 d :: fwd ds := rfl
        rw [hcons, run_forward_cons hf]
        rcases hr : s1.run F (fwd ds) with ⟨s2, r2⟩
        cases r2 with
        | error e => simp [apfTailW]
        | ok bs =>
          obtain ⟨l, hl⟩ := fwd_prefix ds hrep1 (by rw [hs1]; simp) hr
          simp only [apfTailW, List.filterMap_cons_some (f := id) (b := b) rfl]
          rw [← mul_assoc, ← ENNReal.ofReal_mul (apfFactor_nonneg _ _ _ _ _)]
          congr 2
          have hd : s2.traj.drop k = last :: ⟨pa, anc⟩ :: l := by
            rw [hl, hs1]
            obtain ⟨pre, hpre⟩ : ∃ pre, s.traj = pre ++ [last] := ⟨s.traj.dropLast, by
              rw [List.getLast?_eq_some_getLast hne, Option.some.injEq] at hlast
              rw [← hlast, List.dropLast_append_getLast]⟩
            have hpl : pre.length = k := by rw [hpre] at hk; simpa using hk
            simp only [hpre, List.append_assoc]
            rw [List.drop_append_of_le_length (by omega), ← hpl, List.drop_length]
            rfl
          have hd1 : s2.traj.drop (k+1) = ⟨pa, anc⟩ :: l := by
            rw [show k + 1 = k + 1 from rfl, ← List.drop_drop, hd]; rfl
          rw [hd, hd1, apfProd]
    simp only [stepsE]
    rw [lintegral_congr main, lintegral_const, measure_univ, mul_one]

theorem apfWeighted_of_single (a : ℕ → Slot U → Slot Y → P → ℝ) (ℓ : ℕ → Slot Y → P → ℝ) (H : PT P U Y → ℝ≥0∞) (y0 : Option (Slot Y)) (qs : List (Slot U × Slot Y))
    {F : FilterOps P U Y V Ω} {s : PT P U Y} {lg : Spec.Log U Y} (hrep : s.Rep lg)
    {st : Step P} (hs : s.traj = [st]) (ds : List (Slot U × Slot Y × Ω × Draws Ω)) :
    apfWeighted a ℓ H y0 qs (s.run F (fwd ds)) = ENNReal.ofReal (apfFirst ℓ y0 [st]) * apfTailW a ℓ H 0 qs (s.run F (fwd ds)) := by
  rcases hr : s.run F (fwd ds) with ⟨s2, r2⟩
  cases r2 with
  | error e => simp [apfWeighted, apfTailW]
  | ok bs =>
    obtain ⟨l, hl⟩ := fwd_prefix ds hrep (by rw [hs]; simp) hr
    rw [hs] at hl
    have e : apfFirst ℓ y0 ([st] ++ l) = apfFirst ℓ y0 [st] := by
      cases y0 <;> rfl
    simp only [apfWeighted, apfTailW, hl, List.drop_zero]
    rw [e, ENNReal.ofReal_mul, mul_assoc]
    unfold apfFirst
    split
    · exact div_nonneg (List.sum_nonneg fun x hx => by obtain ⟨z, -, rfl⟩ := List.mem_map.mp hx; exact (exp_pos _).le) (Nat.cast_nonneg _)
    · exact zero_le_one

/-- Both kinds of histories, for every smoothing operator. -/
theorem apf_run_paths [MeasurableSpace P] [MeasurableSpace Ω] {K : MarkovModel P U Y V Ω} {ν : Measure Ω} [IsProbabilityMeasure ν]
    {N : ℕ} (hN : 0 < N) {μ0 : Measure P} {M : ℕ → Slot U → Kernel P P} {ℓ : ℕ → Slot Y → P → ℝ} {good : Slot Y → Prop} (hK : Spec.Samples K good ν N μ0 M ℓ)
    (hnone : ∀ y, good y → y ≠ .none)
    {rest : Callbacks P U Y V Ω} {a : ℕ → Slot U → Slot Y → P → ℝ} (ha : Spec.FirstStage rest good a)
    {res : ℝ} {name : String} {o : FilterOptions P} (hn : parseFilter name = .ok .apf)
    {F : FilterOps P U Y V Ω} (hF : mkFilter (K.toCallbacks rest) N res name o = .ok F)
    {φ : List P → ℝ≥0∞} (hφ : ∀ n, Measurable fun x : Fin n → P => φ (List.ofFn x))
    {E : List (Step P) → List (Slot U) → ((ℕ → P) → ℝ≥0∞) → Fin N → ℝ≥0∞} {s_ : ℕ → P} (hE : PathOp N M E s_) {H : PT P U Y → ℝ≥0∞}
    {T : Option ℕ} {s0 : PT P U Y} (h0 : PT.init N T 0 = .ok s0) (qs : List (Slot U × Slot Y)) (hqs : ∀ q ∈ qs, good q.2)
    (hH : ∀ (s : PT P U Y) us ys last (x : Fin N → P) (w : Fin N → ℝ), s.Rep ⟨us.map some, ys⟩ → s.traj.length = qs.length + 1 →
      (∀ st ∈ s.traj, GoodStep N st) → s.traj.getLast? = some last → last.pa.part = List.ofFn x → last.pa.w = List.ofFn w →
      H s = ∑ i, ENNReal.ofReal (exp (w i) / ∑ j, exp (w j)) * E s.traj us (pathG M ℓ φ qs.length []) i) :
    (∀ y0, good y0 → ∫⁻ ω, stepsE ν qs (fun ds => apfWeighted a ℓ H (some y0) qs (s0.run F (history (some (y0, ω)) ds))) ∂ν =
      ∫⁻ x, ENNReal.ofReal (exp (ℓ 0 y0 x)) * pathsE M ℓ φ 0 qs [] x ∂μ0) ∧
    (qs ≠ [] → stepsE ν qs (fun ds => apfWeighted a ℓ H none qs (s0.run F (history none ds))) = ∫⁻ x, pathsE M ℓ φ 0 qs [] x ∂μ0) := by
  have hFe := mkFilter_apf hn hF
  have hM : ∀ k u, IsMarkovKernel (M k u) := samples_markov hN hK
  have hG0 : ∀ qs x, pathG M ℓ φ 0 qs (Function.update s_ 0 x) = pathsE M ℓ φ 0 qs [] x := by
    intro qs x; simp [pathG]
  have hpm : ∀ qs, Measurable (pathsE M ℓ φ 0 qs []) := by
    intro qs
    have : pathsE M ℓ φ 0 qs [] = fun x => pathG M ℓ φ 0 qs (Function.update s_ 0 x) := funext fun x => (hG0 qs x).symm
    rw [this]
    exact (pathG_measurable hM hK.meas hφ 0 qs).comp ((measurable_updateAt 0).comp measurable_prodMk_left)
  have hrange : List.range N = List.ofFn (fun i : Fin N => ((id i : Fin N) : ℕ)) := by apply List.ext_getElem <;> simp
  obtain ⟨X, hX, hc⟩ := hK.create
  have hc' : ∀ ω, F.create N ω = .ok (List.ofFn fun i => X i ω) := by rw [hFe]; exact hc
  have hrep0 := PT.init_rep h0
  obtain ⟨hsN, htr⟩ := init_N h0
  have hNr : (0:ℝ) < N := by exact_mod_cast hN
  haveI : Nonempty (Fin N) := ⟨⟨0, hN⟩⟩
  have hrepl : List.replicate N (-Real.log N) = List.ofFn (fun _ : Fin N => -Real.log N) := by
    rw [List.ofFn_const]
  have hu : exp (-Real.log N) = 1 / N := by rw [exp_neg, exp_log hNr, one_div]
  constructor
  · intro y0 hy0g
    have hlm : Measurable fun x => ENNReal.ofReal (exp (ℓ 0 y0 x)) * pathsE M ℓ φ 0 qs [] x :=
      (measurable_exp.comp (hK.meas 0 y0)).ennreal_ofReal.mul (hpm qs)
    rw [← init_average hN hX hlm]
    apply lintegral_congr
    intro ω
    obtain ⟨hg, g1, g2, g3, g4⟩ := PT.growMeasure_inv hrep0.inv
    have he := ensureInit_create (s := s0.growMeasure) hN (g2.trans hsN) (by rw [← htr]; assumption) (hc' ω)
    set sI : PT P U Y := { s0.growMeasure with ind1 := 1, traj := [⟨⟨List.ofFn fun i => X i ω, List.replicate N (-Real.log N), N, 0⟩,
      List.range N⟩] } with hsI
    have hrepI : sI.Rep ⟨[], [.none]⟩ := (hrep0.growMeasure.ensureInit he).1 rfl
    have hy0 : 0 < sI.yvec.length := lt_of_getElem?_some (hrepI.ys 0 (by simp))
    have ht0 : 0 < sI.tvec.length := lt_of_getElem?_some (hrepI.ts 0 (by simp))
    have hyI : (sI.beforeMeasure y0).yvec[0]? = some y0 := by
      simp only [PT.beforeMeasure, hsI]; exact List.getElem?_set_self hy0
    have htI : (sI.beforeMeasure y0).tvec[0]? = some 0 := by
      simp only [PT.beforeMeasure, hsI]; exact List.getElem?_set_self ht0
    obtain ⟨pa', w', f1, f2, f3, fn, f4⟩ := weightUpdate_offset (pa := (⟨List.ofFn fun i => X i ω, List.replicate N (-Real.log N), N, 0⟩ : PA P)) hN
      (by simp) (fun i => ℓ 0 y0 (X i ω))
    have hmeas : s0.measure F y0 ω = ({ sI.beforeMeasure y0 with traj := [⟨pa', List.range N⟩] }, .ok ()) := by
      rw [PT.measure_eq (by rw [hFe]; rfl) hrep0.inv, he]
      have hgl : getLast sI.traj = .ok ⟨⟨List.ofFn fun i => X i ω, List.replicate N (-Real.log N), N, 0⟩, List.range N⟩ := rfl
      simp only [hgl]
      have hind : sI.ind1 - 1 = 0 := rfl
      have hm : F.measure sI.traj (List.range N) ⟨List.ofFn fun i => X i ω, List.replicate N (-Real.log N), N, 0⟩ (sI.beforeMeasure y0).uvec
          (sI.beforeMeasure y0).yvec (sI.beforeMeasure y0).tvec 0 = .ok pa' := by
        rw [hFe]
        show pfMeasure (K.toCallbacks rest) _ _ _ _ _ _ 0 = _
        unfold pfMeasure
        simp only [MarkovModel.toCallbacks, getLast_take_succ hyI, getLast_take_succ htI, ok_bind, hK.measure _ _ _ hy0g, f1]
      rw [hind, hm]
      rfl
    have hrep1 := PT.measure_rep hrep0 hmeas
    set s1 : PT P U Y := { sI.beforeMeasure y0 with traj := [⟨pa', List.range N⟩] } with hs1
    have hrun : ∀ ds, apfWeighted a ℓ H (some y0) qs (s0.run F (history (some (y0, ω)) ds)) =
        ENNReal.ofReal (apfFirst ℓ (some y0) [⟨pa', List.range N⟩]) * apfTailW a ℓ H 0 qs (s1.run F (fwd ds)) := by
      intro ds
      rw [← apfWeighted_of_single a ℓ H (some y0) qs hrep1 (st := ⟨pa', List.range N⟩) rfl ds]
      have : history (some (y0, ω)) ds = .measure y0 ω :: fwd ds := rfl
      rw [this]
      simp only [PT.run, PT.step, hmeas]
      rcases s1.run F (fwd ds) with ⟨s2, _ | bs⟩
      · rfl
      · simp only [apfWeighted, List.filterMap_cons_none (f := id) (a := (none : Option Bool)) rfl]
    simp only [hrun]
    have hrep1' : s1.Rep ⟨([] : List (Slot U)).map some, [y0]⟩ := by
      have hp : F.usingPfy = false := by rw [hFe]; rfl
      simpa [Spec.Log.measure, hp] using hrep1
    have hgs1 : ∀ st ∈ s1.traj, GoodStep N st := by
      intro st hst
      rw [List.mem_singleton.mp hst]
      exact goodStep_ofFn f2 f3 fn hrange
    rw [stepsE_const_mul ν _ ENNReal.ofReal_ne_top, hFe,
      apf_steps_history hN hK hnone ha res hφ hE (us' := qs.map Prod.fst) (ys' := y0 :: qs.map Prod.snd) (fun s last x w h1 => hH s _ _ last x w h1)
        qs hqs hrep1' hgs1 (last := ⟨pa', List.range N⟩) rfl f2 f3 (k := 0) rfl (by omega) rfl rfl, Finset.mul_sum]
    refine Finset.sum_congr rfl fun i _ => ?_
    rw [show E s1.traj [] (pathG M ℓ φ 0 qs) i = pathsE M ℓ φ 0 qs [] (X i ω) by
      rw [← hG0]; exact hE.init ⟨pa', List.range N⟩ _ f2 _ i]
    have hwi : ∀ i : Fin N, w' i = -Real.log N + ℓ 0 y0 (X i ω) - pa'.w_offset := by
      intro i
      have := f4 i
      simp only [hrepl, List.getD_eq_getElem?_getD, List.getElem?_ofFn, i.2, dif_pos, Option.getD_some, add_zero] at this
      linarith
    have hfst : apfFirst ℓ (some y0) [⟨pa', List.range N⟩] = (∑ j, exp (ℓ 0 y0 (X j ω))) / N := by
      simp only [apfFirst, f2, List.map_ofFn, List.sum_ofFn, List.length_ofFn]; rfl
    have hTp : 0 < ∑ j, exp (ℓ 0 y0 (X j ω)) := Finset.sum_pos (fun _ _ => exp_pos _) Finset.univ_nonempty
    rw [← mul_assoc, ← mul_assoc, hfst, ← ENNReal.ofReal_mul (div_nonneg hTp.le hNr.le), ← ENNReal.ofReal_mul (one_div_nonneg.mpr hNr.le)]
    congr 2
    have hexp : ∀ j : Fin N, exp (w' j) = exp (ℓ 0 y0 (X j ω)) * (1 / N / exp pa'.w_offset) := by
      intro j
      rw [hwi j, exp_sub, exp_add, hu]; ring
    simp only [hexp, ← Finset.sum_mul]
    have hD : (1 / (N:ℝ) / exp pa'.w_offset) ≠ 0 := div_ne_zero (one_div_ne_zero hNr.ne') (exp_pos _).ne'
    rw [mul_div_mul_right _ _ hD, div_mul_div_comm, mul_comm, mul_div_mul_right _ _ hTp.ne', one_div, inv_mul_eq_div]
  · intro hne
    obtain ⟨q, qs, rfl⟩ := List.exists_cons_of_ne_nil hne
    rw [← init_average hN hX (hpm (q :: qs))]
    show ∫⁻ ω0, _ ∂ν = _
    apply lintegral_congr
    intro ω
    have he := ensureInit_create (s := s0) hN hsN htr (hc' ω)
    set s1 : PT P U Y := { s0 with ind1 := 1, traj := [⟨⟨List.ofFn fun i => X i ω, List.replicate N (-Real.log N), N, 0⟩,
      List.range N⟩] } with hs1
    have hrep1 : s1.Rep ⟨([] : List (Slot U)).map some, [.none]⟩ := (hrep0.ensureInit he).1 rfl
    have hgs1 : ∀ st ∈ s1.traj, GoodStep N st := by
      intro st hst
      rw [List.mem_singleton.mp hst]
      exact goodStep_ofFn rfl hrepl rfl hrange
    have hrun : ∀ d ds, apfWeighted a ℓ H none (q :: qs) (s0.run F (history none ((q.1, q.2, ω, d) :: ds))) =
        apfTailW a ℓ H 0 (q :: qs) (s1.run F (fwd ((q.1, q.2, ω, d) :: ds))) := by
      intro d ds
      have h1 : s0.run F (history none ((q.1, q.2, ω, d) :: ds)) = s1.run F (fwd ((q.1, q.2, ω, d) :: ds)) := by
        simp only [history, fwd, List.nil_append, List.map_cons, PT.run, PT.step,
          forward_ensureInit he (by rw [hs1]; simp) q.1 q.2 d]
      rw [h1, apfWeighted_of_single a ℓ H none (q :: qs) hrep1
        (st := ⟨⟨List.ofFn fun i => X i ω, List.replicate N (-Real.log N), N, 0⟩, List.range N⟩) rfl]
      simp only [apfFirst, ENNReal.ofReal_one, one_mul]
    simp only [hrun]
    rw [apf_steps_head (s := s1) (k := 0) rfl hrep1.inv (g := apfTailW a ℓ H 0 (q :: qs)) q qs ω, hFe,
      apf_steps_history hN hK hnone ha res hφ hE (us' := (q :: qs).map Prod.fst) (ys' := .none :: (q :: qs).map Prod.snd)
        (fun s last x w h1 => hH s _ _ last x w h1) (q :: qs) hqs hrep1 hgs1
        (last := ⟨⟨List.ofFn fun i => X i ω, List.replicate N (-Real.log N), N, 0⟩, List.range N⟩) rfl rfl hrepl (k := 0) rfl (by omega) rfl rfl]
    refine Finset.sum_congr rfl fun i _ => ?_
    rw [show E s1.traj [] (pathG M ℓ φ 0 (q :: qs)) i = pathsE M ℓ φ 0 (q :: qs) [] (X i ω) by
      rw [← hG0]; exact hE.init _ (fun i => X i ω) rfl _ i]
    congr 2
    rw [Finset.sum_const, Finset.card_univ, Fintype.card_fin, nsmul_eq_mul, hu]
    field_simp

/-- C112: run the auxiliary particle filter with any first-stage weights on a Markov model, all measurements present, then call
`perform_smoothing(m, 'ancestor')`. Over all random draws, the auxiliary filter's likelihood estimate times the average of any non-negative function `φ` over the
returned trajectories has expectation `E[Π_t p(y_t | x_t) φ(x_0, …, x_T)]`: for any number of particles, of trajectories, any resampling
threshold, and histories that start with `measure(y0)` or with `forward`. -/
theorem C112_ancestor [MeasurableSpace P] [MeasurableSpace Ω] {K : MarkovModel P U Y V Ω} {ν : Measure Ω} [IsProbabilityMeasure ν]
    {N : ℕ} (hN : 0 < N) {μ0 : Measure P} {M : ℕ → Slot U → Kernel P P} {ℓ : ℕ → Slot Y → P → ℝ} {good : Slot Y → Prop} (hK : Spec.Samples K good ν N μ0 M ℓ)
    (hnone : ∀ y, good y → y ≠ .none) {rest : Callbacks P U Y V Ω} {a : ℕ → Slot U → Slot Y → P → ℝ} (ha : Spec.FirstStage rest good a)
    {res : ℝ} {name : String} {o : FilterOptions P} (hn : parseFilter name = .ok .apf)
    {F : FilterOps P U Y V Ω} (hF : mkFilter (K.toCallbacks rest) N res name o = .ok F) {S : SmoothCallbacks P U Y V Ω}
    (hS : ∀ D, PlainSmooth S D) (hps : NoPostprocessing S) {m : ℕ} (hm : 0 < m) (user : Option SOpts) (d : AllDraws Ω) (fuel : ℕ)
    {φ : List P → ℝ≥0∞} (hφ : ∀ n, Measurable fun x : Fin n → P => φ (List.ofFn x)) {T : Option ℕ} {s0 : PT P U Y}
    (h0 : PT.init N T 0 = .ok s0) (qs : List (Slot U × Slot Y)) (hqs : ∀ q ∈ qs, good q.2) :
    (∀ y0, good y0 → ∫⁻ ω, stepsE ν qs (fun ds => apfWeighted a ℓ (smoothE S m "ancestor" user d fuel (pathMean φ m)) (some y0) qs
        (s0.run F (history (some (y0, ω)) ds))) ∂ν = ∫⁻ x, ENNReal.ofReal (exp (ℓ 0 y0 x)) * pathsE M ℓ φ 0 qs [] x ∂μ0) ∧
    (qs ≠ [] → stepsE ν qs (fun ds => apfWeighted a ℓ (smoothE S m "ancestor" user d fuel (pathMean φ m)) none qs (s0.run F (history none ds))) =
      ∫⁻ x, pathsE M ℓ φ 0 qs [] x ∂μ0) := by
  obtain ⟨X, hX, hc⟩ := hK.create
  haveI : Nonempty Ω := nonempty_of_isProbabilityMeasure ν
  set x0 : P := X ⟨0, hN⟩ (Classical.arbitrary Ω)
  refine apf_run_paths hN hK hnone ha hn hF hφ (cop_pathOp x0 M) h0 qs hqs ?_
  intro s us ys last x w hrep hk hgs hlast hx hw
  rw [smoothE_ancestor hS hps hm user d fuel φ hN x0 hk hgs hlast hw us]
  simp only [pathG_nil, show pathG M ℓ φ qs.length [] = fun s => φ ((List.range (qs.length + 1)).map s) from funext fun s => pathG_nil M ℓ φ _ s]

/-- C112: the same for backward simulation, `perform_smoothing(m, 'full')`, if the kernels have the densities `exp lx` (with respect to any
measure) which the model's `logp_xnext` evaluates. -/
theorem C112_backward_simulation [MeasurableSpace P] [MeasurableSpace Ω] {K : MarkovModel P U Y V Ω} {ν : Measure Ω} [IsProbabilityMeasure ν]
    {N : ℕ} (hN : 0 < N) {μ0 : Measure P} {M : ℕ → Slot U → Kernel P P} {ℓ : ℕ → Slot Y → P → ℝ} {good : Slot Y → Prop} (hK : Spec.Samples K good ν N μ0 M ℓ)
    (hnone : ∀ y, good y → y ≠ .none) {rest : Callbacks P U Y V Ω} {a : ℕ → Slot U → Slot Y → P → ℝ} (ha : Spec.FirstStage rest good a)
    {res : ℝ} {name : String} {o : FilterOptions P} (hn : parseFilter name = .ok .apf)
    {F : FilterOps P U Y V Ω} (hF : mkFilter (K.toCallbacks rest) N res name o = .ok F)
    {logpXnext : List P → List P → Slot U → ℕ → PyM (List ℝ)} {lx : ℕ → Slot U → P → P → ℝ} (hlx : Spec.LogDensity logpXnext lx) {vol : Measure P}
    (hlm : ∀ k u x, Measurable (lx k u x)) (hden : ∀ k u x, M k u x = vol.withDensity fun x' => ENNReal.ofReal (exp (lx k u x x')))
    {srest : SmoothCallbacks P U Y V Ω} (hps : NoPostprocessing srest) {m : ℕ} (hm : 0 < m) (user : Option SOpts) (d : AllDraws Ω) (fuel : ℕ)
    {φ : List P → ℝ≥0∞} (hφ : ∀ n, Measurable fun x : Fin n → P => φ (List.ofFn x)) {T : Option ℕ} {s0 : PT P U Y}
    (h0 : PT.init N T 0 = .ok s0) (qs : List (Slot U × Slot Y)) (hqs : ∀ q ∈ qs, good q.2) :
    (∀ y0, good y0 → ∫⁻ ω, stepsE ν qs (fun ds => apfWeighted a ℓ (smoothE (ffbsi logpXnext srest) m "full" user d fuel (pathMean φ m)) (some y0) qs
        (s0.run F (history (some (y0, ω)) ds))) ∂ν = ∫⁻ x, ENNReal.ofReal (exp (ℓ 0 y0 x)) * pathsE M ℓ φ 0 qs [] x ∂μ0) ∧
    (qs ≠ [] → stepsE ν qs (fun ds => apfWeighted a ℓ (smoothE (ffbsi logpXnext srest) m "full" user d fuel (pathMean φ m)) none qs (s0.run F (history none ds))) =
      ∫⁻ x, pathsE M ℓ φ 0 qs [] x ∂μ0) := by
  obtain ⟨X, hX, hc⟩ := hK.create
  haveI : Nonempty Ω := nonempty_of_isProbabilityMeasure ν
  set x0 : P := X ⟨0, hN⟩ (Classical.arbitrary Ω)
  refine apf_run_paths hN hK hnone ha hn hF hφ (bop_pathOp hlm hN x0 hden) h0 qs hqs ?_
  intro s us ys last x w hrep hk hgs hlast hx hw
  rw [smoothE_full hlx srest hps hm user d fuel φ hN x0 hk hgs hlast hw hrep]
  simp only [show pathG M ℓ φ qs.length [] = fun s => φ ((List.range (qs.length + 1)).map s) from funext fun s => pathG_nil M ℓ φ _ s]

end PyPE

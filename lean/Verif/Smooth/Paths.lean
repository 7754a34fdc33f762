import Verif.Filter.Likelihood
import Verif.Smooth.Traj
import Verif.Smooth.Dispatch
import Mathlib.Probability.Kernel.Composition.MeasureComp

/-!
# C92, C93: smoothed trajectories estimate expectations over paths without bias

A filter run followed by `perform_smoothing`: the likelihood estimate of C89 times the average of any non-negative `φ` over the returned
trajectories has expectation `E[Π_t p(y_t | x_t) φ(x_0, …, x_T)]`, for any number of particles, any resampling threshold and any number
of trajectories.
-/

namespace PyPE
open Real Spec MeasureTheory ProbabilityTheory
open scoped ENNReal

variable {P U Y V Ω : Type}

/-! ### Specification -/

/-- The exact value: `E[Π_t g_t(x_t) φ(x_0, …, x_T) | x_0, …, x_k]` for a Markov chain with kernels `M` and likelihoods `exp ℓ`; `past` is
`x_0, …, x_{k-1}`. -/
noncomputable def Spec.pathsE [MeasurableSpace P] (M : ℕ → Slot U → Kernel P P) (ℓ : ℕ → Slot Y → P → ℝ) (φ : List P → ℝ≥0∞) :
    ℕ → List (Slot U × Slot Y) → List P → P → ℝ≥0∞
  | _, [], past, x => φ (past ++ [x])
  | k, q :: qs, past, x =>
    ∫⁻ x', ENNReal.ofReal (exp (ℓ (k+1) q.2 x')) * pathsE M ℓ φ (k+1) qs (past ++ [x]) x' ∂(M k q.1 x)

/-- Trajectory `m` of a smoothed run: its particle at every time. -/
def Spec.pathOf (traj : List (SStep P)) (m : ℕ) : List P := traj.filterMap fun s => s.pa.part[m]?

/-- The average of `φ` over the `M` trajectories a smoother returned; a smoother that raises contributes `0`. -/
noncomputable def Spec.pathMean (φ : List P → ℝ≥0∞) (M : ℕ) : PyM (Option (List (SStep P))) → ℝ≥0∞
  | .ok (some traj) => ENNReal.ofReal (1 / M) * ∑ m ∈ Finset.range M, φ (pathOf traj m)
  | _ => 0

/-- Expectation over independent sequences of uniforms for the backward steps `n-1, …, 0`. -/
noncomputable def Spec.backE : ℕ → ((ℕ → ℕ → ℝ) → ℝ≥0∞) → ℝ≥0∞
  | 0, f => f fun _ _ => 0
  | n + 1, f => ∫⁻ v, backE n (fun a => f (Function.update a n v)) ∂unifSeq

/-- The draws `d`, but with `r0` for the choice of the end particles and `a t` for the choices of backward step `t`. -/
def Spec.withDraws (d : AllDraws Ω) (r0 : ℝ) (a : ℕ → ℕ → ℝ) : AllDraws Ω :=
  { d with bsi := ⟨r0, d.bsi.ω0, fun t => { d.bsi.step t with full := a t }⟩ }

/-- Expectation of `f` of the result of `perform_smoothing`, over the uniforms it draws. -/
noncomputable def Spec.smoothE (S : SmoothCallbacks P U Y V Ω) (M : ℕ) (method : String) (user : Option SOpts) (d : AllDraws Ω) (fuel : ℕ)
    (f : PyM (Option (List (SStep P))) → ℝ≥0∞) (s : PT P U Y) : ℝ≥0∞ :=
  ∫⁻ r0, backE (s.traj.length - 1) (fun a =>
    f (performSmoothing S s.traj M ⟨s.uvec, s.yvec, s.tvec⟩ method user (withDraws d r0 a) fuel)) ∂unif

/-- Likelihood estimate times a quantity computed from the finished run; a run that raises contributes `0`. -/
noncomputable def Spec.runWeighted (H : PT P U Y → ℝ≥0∞) : PT P U Y × PyM (List (Option Bool)) → ℝ≥0∞
  | (s, .ok bs) => ENNReal.ofReal (likEstimate s.traj (bs.filterMap id)) * H s
  | (_, .error _) => 0

/-! ### The exact value as a function of a whole path -/

/-- The exact value as a function of an infinite path of which only the first entries matter. -/
noncomputable def pathG [MeasurableSpace P] (M : ℕ → Slot U → Kernel P P) (ℓ : ℕ → Slot Y → P → ℝ) (φ : List P → ℝ≥0∞) (k : ℕ)
    (qs : List (Slot U × Slot Y)) (s : ℕ → P) : ℝ≥0∞ := pathsE M ℓ φ k qs ((List.range k).map s) (s k)

theorem pathG_nil [MeasurableSpace P] (M : ℕ → Slot U → Kernel P P) (ℓ : ℕ → Slot Y → P → ℝ) (φ : List P → ℝ≥0∞) (k : ℕ) (s : ℕ → P) :
    pathG M ℓ φ k [] s = φ ((List.range (k+1)).map s) := by
  simp [pathG, pathsE, List.range_succ]

theorem pathG_cons [MeasurableSpace P] (M : ℕ → Slot U → Kernel P P) (ℓ : ℕ → Slot Y → P → ℝ) (φ : List P → ℝ≥0∞) (k : ℕ)
    (q : Slot U × Slot Y) (qs : List (Slot U × Slot Y)) (s : ℕ → P) : pathG M ℓ φ k (q :: qs) s =
      ∫⁻ x', ENNReal.ofReal (exp (ℓ (k+1) q.2 x')) * pathG M ℓ φ (k+1) qs (Function.update s (k+1) x') ∂(M k q.1 (s k)) := by
  simp only [pathG, pathsE]
  refine lintegral_congr fun x' => ?_
  rw [Function.update_self]
  congr 2
  rw [List.range_succ, List.map_append]
  congr 1
  · refine List.map_congr_left fun i hi => ?_
    rw [Function.update_of_ne]
    have := List.mem_range.mp hi
    omega
  · simp

theorem measurable_updateAt [MeasurableSpace P] (n : ℕ) :
    Measurable fun z : (ℕ → P) × P => Function.update z.1 n z.2 := measurable_update'

theorem pathG_measurable [MeasurableSpace P] {M : ℕ → Slot U → Kernel P P} (hM : ∀ k u, IsMarkovKernel (M k u)) {ℓ : ℕ → Slot Y → P → ℝ}
    (hℓ : ∀ k y, Measurable (ℓ k y)) {φ : List P → ℝ≥0∞} (hφ : ∀ n, Measurable fun x : Fin n → P => φ (List.ofFn x)) (k : ℕ)
    (qs : List (Slot U × Slot Y)) : Measurable (pathG M ℓ φ k qs) := by
  induction qs generalizing k with
  | nil =>
    have : pathG M ℓ φ k [] = fun s => φ (List.ofFn fun i : Fin (k+1) => s i) := by
      funext s
      rw [pathG_nil]
      congr 1
      apply List.ext_getElem
      · rw [List.length_map, List.length_range, List.length_ofFn]
      · intro i h1 h2
        rw [List.getElem_map, List.getElem_range, List.getElem_ofFn]
    rw [this]
    exact (hφ (k+1)).comp (measurable_pi_lambda _ fun i => measurable_pi_apply _)
  | cons q qs ih =>
    have : pathG M ℓ φ k (q :: qs) = fun s => ∫⁻ x', ENNReal.ofReal (exp (ℓ (k+1) q.2 x')) *
        pathG M ℓ φ (k+1) qs (Function.update s (k+1) x') ∂((M k q.1).comap (fun s : ℕ → P => s k) (measurable_pi_apply k) s) := by
      funext s
      rw [pathG_cons, Kernel.comap_apply]
    rw [this]
    haveI := hM k q.1
    refine Measurable.lintegral_kernel_prod_right' (κ := (M k q.1).comap (fun s : ℕ → P => s k) (measurable_pi_apply k))
      (f := fun z => ENNReal.ofReal (exp (ℓ (k+1) q.2 z.2)) * pathG M ℓ φ (k+1) qs (Function.update z.1 (k+1) z.2)) ?_
    exact ((measurable_exp.comp ((hℓ (k+1) q.2).comp measurable_snd)).ennreal_ofReal).mul
      ((ih (k+1)).comp (measurable_updateAt (k+1)))

/-! ### Smoothing operators -/

/-- A functional `E tr us Γ i` of a stored run: the expectation of `Γ` of the path the smoother builds backwards from particle `i` of the last
step. `step` says that one more filter step, averaged over its randomness, integrates the new state out. -/
structure PathOp [MeasurableSpace P] (N : ℕ) (M : ℕ → Slot U → Kernel P P)
    (E : List (Step P) → List (Slot U) → ((ℕ → P) → ℝ≥0∞) → Fin N → ℝ≥0∞) (s0 : ℕ → P) : Prop where
  init : ∀ (st : Step P) (x : Fin N → P), st.pa.part = List.ofFn x → ∀ Γ i, E [st] [] Γ i = Γ (Function.update s0 0 (x i))
  step : ∀ (k : ℕ) (u : Slot U) (g : P → ℝ≥0∞) (tr : List (Step P)) (us : List (Slot U)) (last : Step P) (x : Fin N → P)
    (w : Fin N → ℝ) (Γ : (ℕ → P) → ℝ≥0∞), Measurable g → Measurable Γ → tr.length = k + 1 → us.length = k → (∀ st ∈ tr, GoodStep N st) →
    tr.getLast? = some last → last.pa.part = List.ofFn x → last.pa.w = List.ofFn w →
    ∃ h : Fin N → P → ℝ≥0∞, (∀ i, Measurable (h i)) ∧
      (∀ (pa : PA P) (anc : List ℕ) (x' : Fin N → P) (f : Fin N → Fin N), pa.part = List.ofFn x' → anc = List.ofFn (fun i => (f i : ℕ)) →
        ∀ i, E (tr ++ [⟨pa, anc⟩]) (us ++ [u]) Γ i = h (f i) (x' i)) ∧
      ∑ i, ENNReal.ofReal (exp (w i) / ∑ j, exp (w j)) * ∫⁻ x', g x' * h i x' ∂(M k u (x i)) =
      ∑ i, ENNReal.ofReal (exp (w i) / ∑ j, exp (w j)) *
        E tr us (fun s => ∫⁻ x', g x' * Γ (Function.update s (k+1) x') ∂(M k u (s k))) i

/-- What the steps from index `k` on contribute. -/
noncomputable def tailW (H : PT P U Y → ℝ≥0∞) (k : ℕ) : PT P U Y × PyM (List (Option Bool)) → ℝ≥0∞
  | (s, .ok bs) => ENNReal.ofReal (likProd (s.traj.drop k) (bs.filterMap id)) * H s
  | (_, .error _) => 0

theorem goodStep_ofFn {N : ℕ} {pa : PA P} {anc : List ℕ} {x : Fin N → P} {w : Fin N → ℝ} {f : Fin N → Fin N} (hx : pa.part = List.ofFn x)
    (hw : pa.w = List.ofFn w) (hn : pa.num = N) (ha : anc = List.ofFn fun i => (f i : ℕ)) : GoodStep N ⟨pa, anc⟩ := by
  refine ⟨⟨by rw [hx]; simp, by rw [hw]; simp, hn⟩, by simp only [ha]; simp, ?_⟩
  intro a h
  simp only [ha, List.mem_ofFn] at h
  obtain ⟨i, rfl⟩ := h
  exact (f i).2

theorem likProd_flags_nil (l : List (Step P)) : likProd l [] = 1 := by
  unfold likProd; split
  · simp_all
  · rfl

/-- One step of a filter, for a value `W k qs tr us i` of particle `i` of the last step of a history `tr` with `k+1` steps before the steps `qs`. -/
def HistStep [MeasurableSpace Ω] (F : FilterOps P U Y V Ω) (ν : Measure Ω) (N : ℕ) (res : ℝ) (good : Slot Y → Prop) (ok : P → Prop)
    (W : ℕ → List (Slot U × Slot Y) → List (Step P) → List (Slot U) → Fin N → ℝ≥0∞) : Prop :=
  ∀ k q qs tr us (last : Step P) (x : Fin N → P) (w : Fin N → ℝ), good q.2 → (∀ st ∈ tr, GoodStep N st) → (∀ st ∈ tr, ∀ p ∈ st.pa.part, ok p) →
    tr.length = k + 1 → us.length = k → tr.getLast? = some last → last.pa.part = List.ofFn x → last.pa.w = List.ofFn w →
    ∃ h Q0 : Fin N → P → ℝ≥0∞, OpStep F ν N res k q.1 q.2 ok h Q0 ∧
      (∀ (pa : PA P) (anc : List ℕ) (x' : Fin N → P) (f : Fin N → Fin N), pa.part = List.ofFn x' → (∀ i, ok (x' i)) →
        anc = List.ofFn (fun i => (f i : ℕ)) → ∀ i, W (k+1) qs (tr ++ [⟨pa, anc⟩]) (us ++ [q.1]) i = h (f i) (x' i)) ∧
      ∑ i, ENNReal.ofReal (exp (w i) / ∑ j, exp (w j)) * Q0 i (x i) =
        ∑ i, ENNReal.ofReal (exp (w i) / ∑ j, exp (w j)) * W k (q :: qs) tr us i

/-- `HistStep` for the times `k` and remaining steps `qs` with `C k qs` only. One step of a filter, for a value `W k qs tr us i` of particle `i` of the last step of a history `tr` with `k+1` steps before the steps `qs`. -/
def HistStepOn [MeasurableSpace Ω] (F : FilterOps P U Y V Ω) (ν : Measure Ω) (N : ℕ) (res : ℝ) (good : Slot Y → Prop) (ok : P → Prop)
    (C : ℕ → List (Slot U × Slot Y) → Prop) (W : ℕ → List (Slot U × Slot Y) → List (Step P) → List (Slot U) → Fin N → ℝ≥0∞) : Prop :=
  ∀ k q qs tr us (last : Step P) (x : Fin N → P) (w : Fin N → ℝ), C k (q :: qs) → good q.2 → (∀ st ∈ tr, GoodStep N st) → (∀ st ∈ tr, ∀ p ∈ st.pa.part, ok p) →
    tr.length = k + 1 → us.length = k → tr.getLast? = some last → last.pa.part = List.ofFn x → last.pa.w = List.ofFn w →
    ∃ h Q0 : Fin N → P → ℝ≥0∞, OpStep F ν N res k q.1 q.2 ok h Q0 ∧
      (∀ (pa : PA P) (anc : List ℕ) (x' : Fin N → P) (f : Fin N → Fin N), pa.part = List.ofFn x' → (∀ i, ok (x' i)) →
        anc = List.ofFn (fun i => (f i : ℕ)) → ∀ i, W (k+1) qs (tr ++ [⟨pa, anc⟩]) (us ++ [q.1]) i = h (f i) (x' i)) ∧
      ∑ i, ENNReal.ofReal (exp (w i) / ∑ j, exp (w j)) * Q0 i (x i) =
        ∑ i, ENNReal.ofReal (exp (w i) / ∑ j, exp (w j)) * W k (q :: qs) tr us i

/-- The expectation over a sequence of steps. -/
theorem steps_historyOn [MeasurableSpace Ω] {F : FilterOps P U Y V Ω} {ν : Measure Ω} [IsProbabilityMeasure ν]
    {N : ℕ} (hN : 0 < N) {res : ℝ} {good : Slot Y → Prop} {ok : P → Prop}
    {W : ℕ → List (Slot U × Slot Y) → List (Step P) → List (Slot U) → Fin N → ℝ≥0∞} {C : ℕ → List (Slot U × Slot Y) → Prop}
    (hC : ∀ k q qs, C k (q :: qs) → C (k+1) qs) (hW : HistStepOn F ν N res good ok C W) {H : PT P U Y → ℝ≥0∞} {K : ℕ}
    {us' : List (Slot U)} {ys' : List (Slot Y)} {T0 : ℕ}
    (hH : ∀ (s : PT P U Y) last (x : Fin N → P) (w : Fin N → ℝ), s.Rep ⟨us'.map some, ys'⟩ → s.T ≤ max T0 (K + 1) → s.traj.length = K + 1 →
      (∀ st ∈ s.traj, GoodStep N st) → (∀ st ∈ s.traj, ∀ p ∈ st.pa.part, ok p) → s.traj.getLast? = some last → last.pa.part = List.ofFn x →
      last.pa.w = List.ofFn w → H s = ∑ i, ENNReal.ofReal (exp (w i) / ∑ j, exp (w j)) * W K [] s.traj us' i)
    (qs : List (Slot U × Slot Y)) (hqs : ∀ q ∈ qs, good q.2) {s : PT P U Y} {us : List (Slot U)} {ys : List (Slot Y)}
    (hrep : s.Rep ⟨us.map some, ys⟩) (hgs : ∀ st ∈ s.traj, GoodStep N st) (hok : ∀ st ∈ s.traj, ∀ p ∈ st.pa.part, ok p)
    {last : Step P} (hlast : s.traj.getLast? = some last) {x : Fin N → P} {w : Fin N → ℝ} (hx : last.pa.part = List.ofFn x)
    (hw : last.pa.w = List.ofFn w) {k : ℕ} (hk : s.traj.length = k + 1) (hK : K = k + qs.length)
    (hus' : us' = us ++ qs.map Prod.fst) (hys' : ys' = ys ++ qs.map Prod.snd) (hT : s.T ≤ max T0 (k + 1)) (hCk : C k qs) :
    stepsE ν qs (fun ds => tailW H k (s.run F (fwd ds))) =
      ∑ i, ENNReal.ofReal (exp (w i) / ∑ j, exp (w j)) * W k qs s.traj us i := by
  induction qs generalizing s us ys last x w k with
  | nil =>
    simp only [stepsE, fwd, List.map_nil, PT.run, tailW]
    simp only [List.filterMap_nil, likProd_flags_nil]
    obtain rfl : K = k := hK
    rw [List.map_nil, List.append_nil] at hus' hys'
    subst hus' hys'
    rw [ENNReal.ofReal_one, one_mul, hH s last x w hrep hT hk hgs hok hlast hx hw]
  | cons q qs ih =>
    have hne : s.traj ≠ [] := by intro h; rw [h] at hlast; simp at hlast
    have hys : ys ≠ [] := by
      intro h; have := hrep.len; rw [hk, h] at this; simp at this
    have hysl : ys.length = k + 1 := by rw [← hk]; exact hrep.len.symm
    have husl : us.length = k := by
      have := hrep.us_len; simp only [List.length_map] at this; omega
    have hind : s.ind1 = k + 1 := by rw [hrep.ind]; exact hysl
    obtain ⟨b1, b2, b3, b4⟩ := hrep.forward_bufs hys q.1 q.2
    simp only [hind, Nat.add_sub_cancel] at b1 b2 b3 b4
    obtain ⟨h, Q0, hh1, hh2, hh3⟩ := hW k q qs s.traj us last x w hCk (hqs q (by simp)) hgs hok hk husl hlast hx hw
    have hox : ∀ i, ok (x i) := fun i => hok last (List.mem_of_getLast? hlast) _ (by rw [hx]; exact List.mem_ofFn.mpr ⟨i, rfl⟩)
    have main : ∀ ω0, ∫⁻ r, ∫⁻ r2, ∫⁻ ω, stepsE ν qs (fun ds => tailW H k (s.run F (fwd ((q.1, q.2, ω0, ⟨r, r2, ω⟩) :: ds))))
        ∂ν ∂unif ∂unif = ∑ i, ENNReal.ofReal (exp (w i) / ∑ j, exp (w j)) * W k (q :: qs) s.traj us i := by
      intro ω0
      rw [opStep_anc hN hh1 hlast b1 b2 b4 b3 hx hox hw
        (fun d => stepsE ν qs (fun ds => tailW H k (s.run F (fwd ((q.1, q.2, ω0, d) :: ds))))) ?_]
      · exact hh3
      · intro d pa b anc x' w' f h0 h1 hfw hx' hw' hn' hanc hox'
        have hf : s.forward F q.1 q.2 ω0 d = ({ s.beforeForward q.1 q.2 with traj := s.traj ++ [⟨pa, anc⟩] }, .ok b) := by
          rw [PT.forward_eq hrep.inv]
          have he : s.ensureInit F ω0 = (s, .ok ()) := by
            unfold PT.ensureInit
            rw [if_neg (by rw [hk]; omega)]
          rw [he]
          simp only [hind, Nat.add_sub_cancel, hfw]
        set s1 : PT P U Y := { s.beforeForward q.1 q.2 with traj := s.traj ++ [⟨pa, anc⟩] } with hs1
        have hrep1 := PT.forward_rep hrep hf
        rw [show Spec.Log.forward ⟨us.map some, ys⟩ q.1 q.2 = ⟨(us ++ [q.1]).map some, ys ++ [q.2]⟩ by
          unfold Spec.Log.forward; rw [if_neg hys]; simp] at hrep1
        have hk1 : s1.traj.length = (k + 1) + 1 := by rw [hs1]; simp [hk]
        have hT1 : s1.T ≤ max T0 (k + 1 + 1) := by
          simp only [hs1, PT.beforeForward, PT.growForward, hind]
          split
          · exact le_max_right _ _
          · exact hT.trans (max_le_max le_rfl (by omega))
        have hlast1 : s1.traj.getLast? = some ⟨pa, anc⟩ := by rw [hs1]; simp
        have hgs1 : ∀ st ∈ s1.traj, GoodStep N st := by
          intro st hst
          rw [hs1] at hst
          rcases List.mem_append.mp hst with h | h
          · exact hgs st h
          · rw [List.mem_singleton.mp h]
            exact goodStep_ofFn hx' hw' hn' hanc
        have hok1 : ∀ st ∈ s1.traj, ∀ p ∈ st.pa.part, ok p := by
          intro st hst p hp
          rw [hs1] at hst
          rcases List.mem_append.mp hst with h | h
          · exact hok st h p hp
          · rw [List.mem_singleton.mp h] at hp
            simp only [hx'] at hp
            obtain ⟨i, rfl⟩ := List.mem_ofFn.mp hp
            exact hox' i
        have hIH := ih (fun q hq => hqs q (by simp [hq])) hrep1 hgs1 hok1 hlast1 (x := x') (w := w') hx' hw' hk1
          (by rw [hK]; simp only [List.length_cons]; omega) (by simp [hus']) (by simp [hys']) hT1 (hC _ _ _ hCk)
        rw [show ∑ i, ENNReal.ofReal (exp (w' i) / ∑ j, exp (w' j)) * h (f i) (x' i) =
          ∑ i, ENNReal.ofReal (exp (w' i) / ∑ j, exp (w' j)) * W (k+1) qs s1.traj (us ++ [q.1]) i from
          Finset.sum_congr rfl fun i _ => by rw [hs1]; simp only; rw [hh2 pa anc x' f hx' hox' hanc i], ← hIH,
          ← stepsE_const_mul ν _ ENNReal.ofReal_ne_top]
        congr 1
        funext ds
        have hcons : fwd ((q.1, q.2, ω0, d) :: ds) = .forward q.1 q.2 ω0 d :: fwd ds := rfl
        rw [hcons, run_forward_cons hf]
        rcases hr : s1.run F (fwd ds) with ⟨s2, r2⟩
        cases r2 with
        | error e => simp [tailW]
        | ok bs =>
          obtain ⟨l, hl⟩ := fwd_prefix ds hrep1 (by rw [hs1]; simp) hr
          simp only [tailW, List.filterMap_cons_some (f := id) (b := b) rfl]
          rw [← mul_assoc, ← ENNReal.ofReal_mul (likIncr_nonneg _ _ _)]
          congr 2
          have hd : s2.traj.drop k = last :: ⟨pa, anc⟩ :: l := by
            rw [hl, hs1]
            obtain ⟨pre, hpre⟩ : ∃ pre, s.traj = pre ++ [last] := ⟨s.traj.dropLast, by
              rw [List.getLast?_eq_some_getLast hne, Option.some.injEq] at hlast
              rw [← hlast, List.dropLast_append_getLast]⟩
            have hpl : pre.length = k := by rw [hpre] at hk; simpa using hk
            simp only [hpre, List.append_assoc]
            rw [List.drop_append_of_le_length (by omega), ← hpl, List.drop_length]
            rfl
          have hd1 : s2.traj.drop (k+1) = ⟨pa, anc⟩ :: l := by
            rw [show k + 1 = k + 1 from rfl, ← List.drop_drop, hd]; rfl
          rw [hd, hd1, likProd]
    simp only [stepsE]
    rw [lintegral_congr main, lintegral_const, measure_univ, mul_one]

/-- A filter whose steps are importance resampling, and a smoothing operator. -/
theorem path_histStep [MeasurableSpace P] [MeasurableSpace Ω] {F : FilterOps P U Y V Ω} {ν : Measure Ω} {N : ℕ} {res : ℝ}
    {κ : ℕ → Slot U → Slot Y → Kernel P P} {inc : ℕ → Slot U → Slot Y → P → P → ℝ}
    {good : Slot Y → Prop} (hS : ∀ k u y, good y → StepLaw F ν N res k u y (κ k u y) (inc k u y)) {M : ℕ → Slot U → Kernel P P}
    (hM : ∀ k u, IsMarkovKernel (M k u)) {ℓ : ℕ → Slot Y → P → ℝ} (hℓ : ∀ k y, Measurable (ℓ k y))
    (hQ : ∀ k u y (h : P → ℝ≥0∞), Measurable h → ∀ x, ∫⁻ x', ENNReal.ofReal (exp (inc k u y x x')) * h x' ∂(κ k u y x) =
      ∫⁻ x', ENNReal.ofReal (exp (ℓ (k+1) y x')) * h x' ∂(M k u x))
    {φ : List P → ℝ≥0∞} (hφ : ∀ n, Measurable fun x : Fin n → P => φ (List.ofFn x))
    {E : List (Step P) → List (Slot U) → ((ℕ → P) → ℝ≥0∞) → Fin N → ℝ≥0∞} {s_ : ℕ → P} (hE : PathOp N M E s_) :
    HistStep F ν N res good (fun _ => True) (fun k qs tr us => E tr us (pathG M ℓ φ k qs)) := by
  intro k q qs tr us last x w hgy hgs _ hk husl hlast hx hw
  obtain ⟨h, hh1, hh2, hh3⟩ := hE.step k q.1 (fun x' => ENNReal.ofReal (exp (ℓ (k+1) q.2 x'))) tr us last x w
    (pathG M ℓ φ (k+1) qs) (measurable_exp.comp (hℓ (k+1) q.2)).ennreal_ofReal (pathG_measurable hM hℓ hφ (k+1) qs) hk husl hgs hlast hx hw
  refine ⟨h, _, (hS k q.1 q.2 hgy).op hh1, fun pa anc x' f hx' _ hanc i => hh2 pa anc x' f hx' hanc i, ?_⟩
  beta_reduce
  rw [show pathG M ℓ φ k (q :: qs) = fun s => ∫⁻ x', ENNReal.ofReal (exp (ℓ (k+1) q.2 x')) *
    pathG M ℓ φ (k+1) qs (Function.update s (k+1) x') ∂(M k q.1 (s k)) from funext fun s => pathG_cons M ℓ φ k q qs s, ← hh3]
  refine Finset.sum_congr rfl fun i _ => ?_
  rw [hQ _ _ _ _ (hh1 i)]

theorem tailW_head [MeasurableSpace Ω] {F : FilterOps P U Y V Ω} {ν : Measure Ω} [IsProbabilityMeasure ν]
    {s : PT P U Y} {k : ℕ} (hk : s.traj.length = k + 1) (hi : s.Inv) {H : PT P U Y → ℝ≥0∞} (q : Slot U × Slot Y)
    (qs : List (Slot U × Slot Y)) (ω0 : Ω) :
    ∫⁻ r, ∫⁻ r2, ∫⁻ ω, stepsE ν qs (fun ds => tailW H k (s.run F (fwd ((q.1, q.2, ω0, ⟨r, r2, ω⟩) :: ds)))) ∂ν ∂unif ∂unif =
      stepsE ν (q :: qs) (fun ds => tailW H k (s.run F (fwd ds))) := by
  simp only [stepsE]
  have he : ∀ ω0, s.ensureInit F ω0 = (s, .ok ()) := by
    intro ω0
    unfold PT.ensureInit
    rw [if_neg (by rw [hk]; omega)]
  have hf : ∀ ω0 ω1 d, s.forward F q.1 q.2 ω0 d = s.forward F q.1 q.2 ω1 d := by
    intro ω0 ω1 d
    rw [PT.forward_eq hi, PT.forward_eq hi, he, he]
  have hr : ∀ ω1 d ds, s.run F (fwd ((q.1, q.2, ω1, d) :: ds)) = s.run F (fwd ((q.1, q.2, ω0, d) :: ds)) := by
    intro ω1 d ds
    simp only [fwd, List.map_cons, PT.run, PT.step, hf ω1 ω0]
  simp only [fun ω1 d ds => hr ω1 d ds]
  rw [lintegral_const, measure_univ, mul_one]

theorem runWeighted_of_single (H : PT P U Y → ℝ≥0∞) {F : FilterOps P U Y V Ω} {s : PT P U Y} {lg : Spec.Log U Y} (hrep : s.Rep lg)
    {st : Step P} (hs : s.traj = [st]) (ds : List (Slot U × Slot Y × Ω × Draws Ω)) :
    runWeighted H (s.run F (fwd ds)) = ENNReal.ofReal (mass st.pa) * tailW H 0 (s.run F (fwd ds)) := by
  rcases hr : s.run F (fwd ds) with ⟨s2, r2⟩
  cases r2 with
  | error e => simp [runWeighted, tailW]
  | ok bs =>
    obtain ⟨l, hl⟩ := fwd_prefix ds hrep (by rw [hs]; simp) hr
    rw [hs] at hl
    simp only [runWeighted, tailW, likEstimate, hl, List.drop_zero, List.cons_append, List.nil_append]
    rw [ENNReal.ofReal_mul, mul_assoc]
    unfold mass
    exact List.sum_nonneg fun x hx => by obtain ⟨z, -, rfl⟩ := List.mem_map.mp hx; exact (exp_pos _).le

/-- Both kinds of histories. -/
theorem init_T {N : ℕ} {T : Option ℕ} {s0 : PT P U Y} (h0 : PT.init N T 0 = .ok s0) : s0.T = T.getD 0 := by
  unfold PT.init at h0
  simp only [ne_eq, not_true_eq_false, if_false] at h0
  split at h0
  · cases h0
  · cases h0; rfl
  · cases h0; rfl

theorem run_historyOn [MeasurableSpace Ω] {F : FilterOps P U Y V Ω} {ν : Measure Ω} [IsProbabilityMeasure ν]
    {N : ℕ} (hN : 0 < N) {res : ℝ} {good : Slot Y → Prop} {ok : P → Prop}
    {W : ℕ → List (Slot U × Slot Y) → List (Step P) → List (Slot U) → Fin N → ℝ≥0∞} {C : ℕ → List (Slot U × Slot Y) → Prop}
    (hC : ∀ k q qs, C k (q :: qs) → C (k+1) qs) (hW : HistStepOn F ν N res good ok C W) {H : PT P U Y → ℝ≥0∞}
    {V1 : List (Slot U × Slot Y) → P → ℝ≥0∞} {W0 : Slot Y → List (Slot U × Slot Y) → P → ℝ≥0∞}
    (hV : ∀ (st : Step P) (x : Fin N → P), st.pa.part = List.ofFn x → (∀ i, ok (x i)) → ∀ qs i, W 0 qs [st] [] i = V1 qs (x i))
    {E0 : Slot Y → List (Slot U × Slot Y) → ℝ≥0∞} {E : List (Slot U × Slot Y) → ℝ≥0∞}
    {X : Fin N → Ω → P} (hX0 : ∀ y qs i, good y → Measurable (fun ω => W0 y qs (X i ω)) ∧ ∫⁻ ω, W0 y qs (X i ω) ∂ν = E0 y qs)
    (hX : ∀ qs i, Measurable (fun ω => V1 qs (X i ω)) ∧ ∫⁻ ω, V1 qs (X i ω) ∂ν = E qs) (hXo : ∀ i ω, ok (X i ω))
    (hc : ∀ ω, F.create N ω = .ok (List.ofFn fun i => X i ω)) (hpfy : F.usingPfy = false)
    (hm : ∀ (tr : List (Step P)) (anc : List ℕ) (pa : PA P) (x : Fin N → P) uv yv tv (y : Slot Y), good y → (∀ i, ok (x i)) →
      pa.part = List.ofFn x → pa.w.length = N → yv[0]? = some y → tv[0]? = some 0 →
      ∃ pa' x' w', F.measure tr anc pa uv yv tv 0 = .ok pa' ∧ pa'.part = List.ofFn x' ∧ (∀ i, ok (x' i)) ∧ pa'.w = List.ofFn w' ∧
        pa'.num = pa.num ∧ ∀ i : Fin N, ∃ c, w' i + pa'.w_offset = pa.w.getD i 0 + pa.w_offset + c ∧
          ∀ qs, ENNReal.ofReal (exp c) * V1 qs (x' i) = W0 y qs (x i))
    {first : Slot Y → Prop} {T : Option ℕ} {s0 : PT P U Y} (h0 : PT.init N T 0 = .ok s0) (qs : List (Slot U × Slot Y)) (hqs : ∀ q ∈ qs, good q.2) (hC0 : C 0 qs)
    (hH : ∀ (s : PT P U Y) us ys last (x : Fin N → P) (w : Fin N → ℝ), s.Rep ⟨us.map some, ys⟩ → s.T ≤ max (T.getD 0) (qs.length + 1) → us = qs.map Prod.fst →
      (∃ y0, first y0 ∧ ys = y0 :: qs.map Prod.snd) → s.traj.length = qs.length + 1 →
      (∀ st ∈ s.traj, GoodStep N st) → (∀ st ∈ s.traj, ∀ p ∈ st.pa.part, ok p) → s.traj.getLast? = some last → last.pa.part = List.ofFn x →
      last.pa.w = List.ofFn w → H s = ∑ i, ENNReal.ofReal (exp (w i) / ∑ j, exp (w j)) * W qs.length [] s.traj us i) :
    (∀ y0, good y0 → first y0 → ∫⁻ ω, stepsE ν qs (fun ds => runWeighted H (s0.run F (history (some (y0, ω)) ds))) ∂ν = E0 y0 qs) ∧
    (first .none → qs ≠ [] → stepsE ν qs (fun ds => runWeighted H (s0.run F (history none ds))) = E qs) := by
  have hrep0 := PT.init_rep h0
  obtain ⟨hsN, htr⟩ := init_N h0
  have hNr : (0:ℝ) < N := by exact_mod_cast hN
  have hrepl : List.replicate N (-Real.log N) = List.ofFn (fun _ : Fin N => -Real.log N) := by
    rw [List.ofFn_const]
  have hrange : List.range N = List.ofFn (fun i : Fin N => ((id i : Fin N) : ℕ)) := by apply List.ext_getElem <;> simp
  have hu : exp (-Real.log N) = 1 / N := by rw [exp_neg, exp_log hNr, one_div]
  constructor
  · intro y0 hy0g hfy
    rw [← value_average hN (fun i => hX0 y0 qs i hy0g)]
    apply lintegral_congr
    intro ω
    obtain ⟨hg, g1, g2, g3, g4⟩ := PT.growMeasure_inv hrep0.inv
    have he := ensureInit_create (s := s0.growMeasure) hN (g2.trans hsN) (by rw [← htr]; assumption) (hc ω)
    set sI : PT P U Y := { s0.growMeasure with ind1 := 1, traj := [⟨⟨List.ofFn fun i => X i ω, List.replicate N (-Real.log N), N, 0⟩,
      List.range N⟩] } with hsI
    have hrepI : sI.Rep ⟨[], [.none]⟩ := (hrep0.growMeasure.ensureInit he).1 rfl
    have hy0 : 0 < sI.yvec.length := lt_of_getElem?_some (hrepI.ys 0 (by simp))
    have ht0 : 0 < sI.tvec.length := lt_of_getElem?_some (hrepI.ts 0 (by simp))
    obtain ⟨pa', x', w', f1, f2, f2', f3, fn, f4⟩ := hm sI.traj (List.range N) ⟨List.ofFn fun i => X i ω, List.replicate N (-Real.log N), N, 0⟩
      (fun i => X i ω) (sI.beforeMeasure y0).uvec (sI.beforeMeasure y0).yvec (sI.beforeMeasure y0).tvec y0 hy0g (fun i => hXo i ω) rfl (by simp)
      (by simp only [PT.beforeMeasure, hsI]; exact List.getElem?_set_self hy0)
      (by simp only [PT.beforeMeasure, hsI]; exact List.getElem?_set_self ht0)
    have hmeas : s0.measure F y0 ω = ({ sI.beforeMeasure y0 with traj := [⟨pa', List.range N⟩] }, .ok ()) := by
      rw [PT.measure_eq hpfy hrep0.inv, he]
      have hgl : getLast sI.traj = .ok ⟨⟨List.ofFn fun i => X i ω, List.replicate N (-Real.log N), N, 0⟩, List.range N⟩ := rfl
      simp only [hgl]
      have hind : sI.ind1 - 1 = 0 := rfl
      rw [hind, f1]
      rfl
    have hrep1 := PT.measure_rep hrep0 hmeas
    set s1 : PT P U Y := { sI.beforeMeasure y0 with traj := [⟨pa', List.range N⟩] } with hs1
    have hrep1' : s1.Rep ⟨([] : List (Slot U)).map some, [y0]⟩ := by simpa [Spec.Log.measure, hpfy] using hrep1
    have hT1 : s1.T ≤ max (T.getD 0) (0 + 1) := by
      have hi := hrep0.ind
      simp only [hs1, PT.beforeMeasure, hsI, PT.growMeasure]
      split
      · simp only [hi]; exact le_max_right _ _
      · exact (init_T h0).le.trans (le_max_left _ _)
    have hrun : ∀ ds, runWeighted H (s0.run F (history (some (y0, ω)) ds)) = ENNReal.ofReal (mass pa') * tailW H 0 (s1.run F (fwd ds)) := by
      intro ds
      rw [← runWeighted_of_single H hrep1 (st := ⟨pa', List.range N⟩) rfl ds]
      have : history (some (y0, ω)) ds = .measure y0 ω :: fwd ds := rfl
      rw [this]
      simp only [PT.run, PT.step, hmeas]
      rcases s1.run F (fwd ds) with ⟨s2, _ | bs⟩
      · rfl
      · simp only [runWeighted, List.filterMap_cons_none (f := id) (a := (none : Option Bool)) rfl]
    simp only [hrun]
    have hgs1 : ∀ st ∈ s1.traj, GoodStep N st := by
      intro st hst
      rw [List.mem_singleton.mp hst]
      exact goodStep_ofFn f2 f3 fn hrange
    have hok1 : ∀ st ∈ s1.traj, ∀ p ∈ st.pa.part, ok p := by
      intro st hst p hp
      rw [List.mem_singleton.mp hst] at hp
      simp only [f2] at hp
      obtain ⟨i, rfl⟩ := List.mem_ofFn.mp hp
      exact f2' i
    rw [stepsE_const_mul ν _ ENNReal.ofReal_ne_top, steps_historyOn hN hC hW
        (us' := qs.map Prod.fst) (ys' := y0 :: qs.map Prod.snd) (T0 := T.getD 0) (fun s last x w h1 hT => hH s _ _ last x w h1 hT rfl ⟨y0, hfy, rfl⟩) qs hqs hrep1' hgs1 hok1 (last := ⟨pa', List.range N⟩) rfl
      f2 f3 (k := 0) rfl (by omega) rfl rfl hT1 hC0]
    simp only [show ∀ i, W 0 qs s1.traj [] i = V1 qs (x' i) from hV ⟨pa', List.range N⟩ x' f2 f2' qs]
    have := mass_sum hN (fun i => V1 qs (x' i)) f3 1 one_pos
    rw [div_one] at this
    rw [this]
    refine Finset.sum_congr rfl fun i _ => ?_
    obtain ⟨c, g1, g2⟩ := f4 i
    rw [g1, div_one, hrepl]
    simp only [List.getD_eq_getElem?_getD, List.getElem?_ofFn, i.2, dif_pos, Option.getD_some, add_zero]
    rw [exp_add, hu, ENNReal.ofReal_mul (by positivity), mul_assoc, g2 qs]
  · intro hfn hne
    obtain ⟨q, qs, rfl⟩ := List.exists_cons_of_ne_nil hne
    rw [← value_average hN (hX (q :: qs))]
    show ∫⁻ ω0, _ ∂ν = _
    apply lintegral_congr
    intro ω
    have he := ensureInit_create (s := s0) hN hsN htr (hc ω)
    set s1 : PT P U Y := { s0 with ind1 := 1, traj := [⟨⟨List.ofFn fun i => X i ω, List.replicate N (-Real.log N), N, 0⟩,
      List.range N⟩] } with hs1
    have hrep1 : s1.Rep ⟨([] : List (Slot U)).map some, [.none]⟩ := (hrep0.ensureInit he).1 rfl
    have hrun : ∀ d ds, runWeighted H (s0.run F (history none ((q.1, q.2, ω, d) :: ds))) =
        tailW H 0 (s1.run F (fwd ((q.1, q.2, ω, d) :: ds))) := by
      intro d ds
      have h1 : s0.run F (history none ((q.1, q.2, ω, d) :: ds)) = s1.run F (fwd ((q.1, q.2, ω, d) :: ds)) := by
        simp only [history, fwd, List.nil_append, List.map_cons, PT.run, PT.step,
          forward_ensureInit he (by rw [hs1]; simp) q.1 q.2 d]
      rw [h1, runWeighted_of_single H hrep1 (st := ⟨⟨List.ofFn fun i => X i ω, List.replicate N (-Real.log N), N, 0⟩, List.range N⟩) rfl]
      have hmass : mass (⟨List.ofFn fun i => X i ω, List.replicate N (-Real.log N), N, 0⟩ : PA P) = 1 := by
        unfold mass
        simp only [add_zero, List.map_replicate, List.sum_replicate, nsmul_eq_mul, hu]
        exact mul_one_div_cancel hNr.ne'
      rw [hmass, ENNReal.ofReal_one, one_mul]
    simp only [hrun]
    have hgs1 : ∀ st ∈ s1.traj, GoodStep N st := by
      intro st hst
      rw [List.mem_singleton.mp hst]
      exact goodStep_ofFn rfl hrepl rfl hrange
    have hok1 : ∀ st ∈ s1.traj, ∀ p ∈ st.pa.part, ok p := by
      intro st hst p hp
      rw [List.mem_singleton.mp hst] at hp
      obtain ⟨i, rfl⟩ := List.mem_ofFn.mp hp
      exact hXo i ω
    rw [tailW_head (s := s1) (k := 0) rfl hrep1.inv q qs ω,
      steps_historyOn hN hC hW (us' := (q :: qs).map Prod.fst) (ys' := .none :: (q :: qs).map Prod.snd)
        (T0 := T.getD 0) (fun s last x w h1 hT => hH s _ _ last x w h1 hT rfl ⟨.none, hfn, rfl⟩) (q :: qs) hqs hrep1 hgs1 hok1
        (last := ⟨⟨List.ofFn fun i => X i ω, List.replicate N (-Real.log N), N, 0⟩, List.range N⟩) rfl rfl hrepl (k := 0) rfl (by omega) rfl rfl (by rw [hs1]; exact (init_T h0).le.trans (le_max_left _ _)) hC0]
    refine Finset.sum_congr rfl fun i _ => ?_
    rw [show W 0 (q :: qs) s1.traj [] i = V1 (q :: qs) (X i ω) from hV _ (fun i => X i ω) rfl (fun i => hXo i ω) _ i]
    congr 2
    rw [Finset.sum_const, Finset.card_univ, Fintype.card_fin, nsmul_eq_mul, hu]
    field_simp

theorem run_history [MeasurableSpace Ω] {F : FilterOps P U Y V Ω} {ν : Measure Ω} [IsProbabilityMeasure ν]
    {N : ℕ} (hN : 0 < N) {res : ℝ} {good : Slot Y → Prop} {ok : P → Prop}
    {W : ℕ → List (Slot U × Slot Y) → List (Step P) → List (Slot U) → Fin N → ℝ≥0∞} (hW : HistStep F ν N res good ok W) {H : PT P U Y → ℝ≥0∞}
    {V1 : List (Slot U × Slot Y) → P → ℝ≥0∞} {W0 : Slot Y → List (Slot U × Slot Y) → P → ℝ≥0∞}
    (hV : ∀ (st : Step P) (x : Fin N → P), st.pa.part = List.ofFn x → (∀ i, ok (x i)) → ∀ qs i, W 0 qs [st] [] i = V1 qs (x i))
    {E0 : Slot Y → List (Slot U × Slot Y) → ℝ≥0∞} {E : List (Slot U × Slot Y) → ℝ≥0∞}
    {X : Fin N → Ω → P} (hX0 : ∀ y qs i, good y → Measurable (fun ω => W0 y qs (X i ω)) ∧ ∫⁻ ω, W0 y qs (X i ω) ∂ν = E0 y qs)
    (hX : ∀ qs i, Measurable (fun ω => V1 qs (X i ω)) ∧ ∫⁻ ω, V1 qs (X i ω) ∂ν = E qs) (hXo : ∀ i ω, ok (X i ω))
    (hc : ∀ ω, F.create N ω = .ok (List.ofFn fun i => X i ω)) (hpfy : F.usingPfy = false)
    (hm : ∀ (tr : List (Step P)) (anc : List ℕ) (pa : PA P) (x : Fin N → P) uv yv tv (y : Slot Y), good y → (∀ i, ok (x i)) →
      pa.part = List.ofFn x → pa.w.length = N → yv[0]? = some y → tv[0]? = some 0 →
      ∃ pa' x' w', F.measure tr anc pa uv yv tv 0 = .ok pa' ∧ pa'.part = List.ofFn x' ∧ (∀ i, ok (x' i)) ∧ pa'.w = List.ofFn w' ∧
        pa'.num = pa.num ∧ ∀ i : Fin N, ∃ c, w' i + pa'.w_offset = pa.w.getD i 0 + pa.w_offset + c ∧
          ∀ qs, ENNReal.ofReal (exp c) * V1 qs (x' i) = W0 y qs (x i))
    {first : Slot Y → Prop} {T : Option ℕ} {s0 : PT P U Y} (h0 : PT.init N T 0 = .ok s0) (qs : List (Slot U × Slot Y)) (hqs : ∀ q ∈ qs, good q.2)
    (hH : ∀ (s : PT P U Y) us ys last (x : Fin N → P) (w : Fin N → ℝ), s.Rep ⟨us.map some, ys⟩ → s.T ≤ max (T.getD 0) (qs.length + 1) → us = qs.map Prod.fst →
      (∃ y0, first y0 ∧ ys = y0 :: qs.map Prod.snd) → s.traj.length = qs.length + 1 →
      (∀ st ∈ s.traj, GoodStep N st) → (∀ st ∈ s.traj, ∀ p ∈ st.pa.part, ok p) → s.traj.getLast? = some last → last.pa.part = List.ofFn x →
      last.pa.w = List.ofFn w → H s = ∑ i, ENNReal.ofReal (exp (w i) / ∑ j, exp (w j)) * W qs.length [] s.traj us i) :
    (∀ y0, good y0 → first y0 → ∫⁻ ω, stepsE ν qs (fun ds => runWeighted H (s0.run F (history (some (y0, ω)) ds))) ∂ν = E0 y0 qs) ∧
    (first .none → qs ≠ [] → stepsE ν qs (fun ds => runWeighted H (s0.run F (history none ds))) = E qs) :=
  run_historyOn hN (C := fun _ _ => True) (fun _ _ _ _ => trivial) (fun k q qs tr us last x w _ => hW k q qs tr us last x w) hV hX0 hX hXo hc hpfy hm h0 qs hqs trivial hH

/-- Both kinds of histories, for every filter whose steps are importance resampling and every smoothing operator. -/
theorem run_paths [MeasurableSpace P] [MeasurableSpace Ω] {F : FilterOps P U Y V Ω} {ν : Measure Ω} [IsProbabilityMeasure ν]
    {N : ℕ} (hN : 0 < N) {res : ℝ} {κ : ℕ → Slot U → Slot Y → Kernel P P} {inc : ℕ → Slot U → Slot Y → P → P → ℝ}
    {good : Slot Y → Prop} (hS : ∀ k u y, good y → StepLaw F ν N res k u y (κ k u y) (inc k u y)) {M : ℕ → Slot U → Kernel P P}
    (hM : ∀ k u, IsMarkovKernel (M k u)) {ℓ : ℕ → Slot Y → P → ℝ} (hℓ : ∀ k y, Measurable (ℓ k y))
    (hQ : ∀ k u y (h : P → ℝ≥0∞), Measurable h → ∀ x, ∫⁻ x', ENNReal.ofReal (exp (inc k u y x x')) * h x' ∂(κ k u y x) =
      ∫⁻ x', ENNReal.ofReal (exp (ℓ (k+1) y x')) * h x' ∂(M k u x))
    {φ : List P → ℝ≥0∞} (hφ : ∀ n, Measurable fun x : Fin n → P => φ (List.ofFn x))
    {E : List (Step P) → List (Slot U) → ((ℕ → P) → ℝ≥0∞) → Fin N → ℝ≥0∞} {s_ : ℕ → P} (hE : PathOp N M E s_) {H : PT P U Y → ℝ≥0∞}
    {μ0 : Measure P} {X : Fin N → Ω → P} (hX : ∀ i, Measurable (X i) ∧ ν.map (X i) = μ0)
    (hc : ∀ ω, F.create N ω = .ok (List.ofFn fun i => X i ω)) (hpfy : F.usingPfy = false)
    (hm : ∀ (tr : List (Step P)) (anc : List ℕ) (pa : PA P) (x : Fin N → P) uv yv tv (y : Slot Y), good y → pa.part = List.ofFn x → pa.w.length = N →
      yv[0]? = some y → tv[0]? = some 0 → ∃ pa' w', F.measure tr anc pa uv yv tv 0 = .ok pa' ∧ pa'.part = List.ofFn x ∧ pa'.w = List.ofFn w' ∧
        pa'.num = pa.num ∧ ∀ i : Fin N, w' i + pa'.w_offset = pa.w.getD i 0 + pa.w_offset + ℓ 0 y (x i))
    {T : Option ℕ} {s0 : PT P U Y} (h0 : PT.init N T 0 = .ok s0) (qs : List (Slot U × Slot Y)) (hqs : ∀ q ∈ qs, good q.2)
    (hH : ∀ (s : PT P U Y) us ys last (x : Fin N → P) (w : Fin N → ℝ), s.Rep ⟨us.map some, ys⟩ → s.traj.length = qs.length + 1 →
      (∀ st ∈ s.traj, GoodStep N st) → s.traj.getLast? = some last → last.pa.part = List.ofFn x → last.pa.w = List.ofFn w →
      H s = ∑ i, ENNReal.ofReal (exp (w i) / ∑ j, exp (w j)) * E s.traj us (pathG M ℓ φ qs.length []) i) :
    (∀ y0, good y0 → ∫⁻ ω, stepsE ν qs (fun ds => runWeighted H (s0.run F (history (some (y0, ω)) ds))) ∂ν =
      ∫⁻ x, ENNReal.ofReal (exp (ℓ 0 y0 x)) * pathsE M ℓ φ 0 qs [] x ∂μ0) ∧
    (qs ≠ [] → stepsE ν qs (fun ds => runWeighted H (s0.run F (history none ds))) = ∫⁻ x, pathsE M ℓ φ 0 qs [] x ∂μ0) := by
  have hG0 : ∀ qs x, pathG M ℓ φ 0 qs (Function.update s_ 0 x) = pathsE M ℓ φ 0 qs [] x := by
    intro qs x; simp [pathG]
  have hGm : ∀ qs, Measurable (pathsE M ℓ φ 0 qs []) := by
    intro qs
    have : pathsE M ℓ φ 0 qs [] = fun x => pathG M ℓ φ 0 qs (Function.update s_ 0 x) := funext fun x => (hG0 qs x).symm
    rw [this]
    exact (pathG_measurable hM hℓ hφ 0 qs).comp ((measurable_updateAt 0).comp measurable_prodMk_left)
  have hav : ∀ i {g : P → ℝ≥0∞}, Measurable g → Measurable (fun ω => g (X i ω)) ∧ ∫⁻ ω, g (X i ω) ∂ν = ∫⁻ x, g x ∂μ0 := fun i g hg =>
    ⟨hg.comp (hX i).1, by rw [← (hX i).2, lintegral_map hg (hX i).1]⟩
  have hrun := run_history (first := fun _ => True) hN (path_histStep hS hM hℓ hQ hφ hE) (ok := fun _ => True) (V1 := fun qs => pathsE M ℓ φ 0 qs [])
    (W0 := fun y qs x => ENNReal.ofReal (exp (ℓ 0 y x)) * pathsE M ℓ φ 0 qs [] x) ?_
    (E0 := fun y qs => ∫⁻ x, ENNReal.ofReal (exp (ℓ 0 y x)) * pathsE M ℓ φ 0 qs [] x ∂μ0) (E := fun qs => ∫⁻ x, pathsE M ℓ φ 0 qs [] x ∂μ0)
    (fun y qs i _ => hav i ((measurable_exp.comp (hℓ 0 y)).ennreal_ofReal.mul (hGm qs))) (fun qs i => hav i (hGm qs)) (fun _ _ => trivial) hc hpfy
    ?_ h0 qs hqs fun s us ys last x w h1 _ _ _ h2 h3 _ h4 h5 h6 => hH s us ys last x w h1 h2 h3 h4 h5 h6
  exact ⟨fun y0 h => hrun.1 y0 h trivial, hrun.2 trivial⟩
  · intro st x hx _ qs i
    beta_reduce
    rw [hE.init st x hx, hG0]
  · intro tr anc pa x uv yv tv y h1 _ h2 h3 h4 h5
    obtain ⟨pa', w', e1, e2, e3, e4, e5⟩ := hm tr anc pa x uv yv tv y h1 h2 h3 h4 h5
    exact ⟨pa', x, w', e1, e2, fun _ => trivial, e3, e4, fun i => ⟨_, e5 i, fun _ => rfl⟩⟩

end PyPE

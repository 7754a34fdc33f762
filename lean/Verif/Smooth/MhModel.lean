import Verif.Smooth.MhRun

/-!
# C97: MHIPS for Markov models
-/

namespace PyPE
open Real Spec MeasureTheory ProbabilityTheory
open scoped ENNReal

variable {P U Y V Ω : Type}

/-- The callbacks of a subclass of `ParticleFiltering` as the smoothers see them: `sample_process_noise_full`, `update_full`, `measure_full`
(interfaces.py:242-250), and the defaults of `cond_predict_single_step` (interfaces.py:190-216) and `cond_sampled_initial` (interfaces.py:218-231).
`measure` does not change the particles. The other callbacks are those of `rest`. -/
def MarkovModel.toSmooth (K : MarkovModel P U Y V Ω) (rest : SmoothCallbacks P U Y V Ω) : SmoothCallbacks P U Y V Ω :=
  { rest with
    condPredict := fun _ _ _ future _ _ _ => .ok future
    condInitial := fun part _ => .ok part
    createInitial := K.createInitial
    sampleNoise := fun ptraj ancestors ut tt ω => do
      let st ← getLast ptraj
      let part ← fancy st.pa.part ancestors
      let u ← getLast ut
      let t ← getLast tt
      K.sampleProcessNoise part u t ω
    update := fun particles _ D _ noise => do
      let u ← getLast D.u
      let t ← getLast D.t
      K.update particles u t noise
    measure := fun particles _ D _ => do
      let y ← getLast D.y
      let t ← getLast D.t
      let l ← K.measure particles y t
      return (particles, l) }

/-- A model for `m` trajectories: it samples from the chain with initial law `μ0` and kernels `M`, which have the densities `exp l0` and `exp lx` with
respect to `vol`, and evaluates these densities in `eval_logp_x0` and `logp_xnext`. If `measure` accepts `None`, it returns `0` for it. -/
structure Spec.MhipsModel [MeasurableSpace P] [MeasurableSpace Ω] (K : MarkovModel P U Y V Ω) (logpXnext : List P → List P → Slot U → ℕ → PyM (List ℝ))
    (srest : SmoothCallbacks P U Y V Ω) (good : Slot Y → Prop) (ν : Measure Ω) (m : ℕ) (vol μ0 : Measure P) (M : ℕ → Slot U → Kernel P P)
    (ℓ : ℕ → Slot Y → P → ℝ) (l0 : P → ℝ) (lx : ℕ → Slot U → P → P → ℝ) : Prop where
  samples : Samples K good ν m μ0 M ℓ
  start : Measurable l0
  start_law : μ0 = vol.withDensity fun x => ENNReal.ofReal (exp (l0 x))
  start_eval : ∀ (x : Fin m → P) t, srest.evalLogpX0 (List.ofFn x) t = .ok (List.ofFn fun j => l0 (x j))
  move : ∀ k u, Measurable fun z : P × P => lx k u z.1 z.2
  move_law : ∀ k u x, M k u x = vol.withDensity fun x' => ENNReal.ofReal (exp (lx k u x x'))
  move_eval : LogDensity logpXnext lx
  none_lik : good .none → ∀ k x, ℓ k .none x = 0
  post : NoPostprocessing srest
  pre : ∀ t, applyHook srest.preMhips t = .ok t

section
variable [MeasurableSpace P] [MeasurableSpace Ω] {K : MarkovModel P U Y V Ω} {logpXnext : List P → List P → Slot U → ℕ → PyM (List ℝ)}
  {srest : SmoothCallbacks P U Y V Ω} {good : Slot Y → Prop} {ν : Measure Ω} {m : ℕ} {vol μ0 : Measure P} {M : ℕ → Slot U → Kernel P P}
  {ℓ : ℕ → Slot Y → P → ℝ} {l0 : P → ℝ} {lx : ℕ → Slot U → P → P → ℝ} {first : Option (Slot Y)} {qs : List (Slot U × Slot Y)} {D : SData U Y}

theorem getD_recorded {k : ℕ} (hk : k < qs.length) : qs[k]? = some (qs.getD k (.none, .none)) := by
  rw [List.getD_eq_getElem?_getD, List.getElem?_eq_getElem hk]; rfl

theorem zipWith_ofFn_eq {α β γ : Type} {n : ℕ} (f : α → β → γ) (a : Fin n → α) (b : Fin n → β) :
    List.zipWith f (List.ofFn a) (List.ofFn b) = List.ofFn fun j => f (a j) (b j) := by
  apply List.ext_getElem <;> simp

/-- The callbacks evaluate the densities of the model on the recorded data. -/
theorem mhPaths_of (h : MhipsModel K logpXnext srest good ν m vol μ0 M ℓ l0 lx) (hD : Recorded first qs D) (hfirst : ∀ y ∈ first, good y)
    (hqs : ∀ q ∈ qs, q.2 = .none ∨ good q.2) :
    MhPaths (ffbsi logpXnext (K.toSmooth srest)) D m qs.length l0 (fun k => lx k (inputAt qs k)) (likAt ℓ first qs) := by
  have hu : ∀ k < qs.length, D.u[k]? = some (inputAt qs k) := fun k hk => hD.us k _ (getD_recorded hk)
  have hyv : ∀ k < qs.length, D.y[k+1]? = some (qs.getD k (.none, .none)).2 := fun k hk => hD.ys k _ (getD_recorded hk)
  have hmeas : ∀ k ≤ qs.length, ∀ y, D.y[k]? = some y → good y → ∀ x : Fin m → P, ∀ pt pind,
      (ffbsi logpXnext (K.toSmooth srest)).measure (List.ofFn x) pt (D.take (k+1)) pind = .ok (List.ofFn x, List.ofFn fun j => ℓ k y (x j)) := by
    intro k hk y hy hg x pt pind
    show ((do
      let y ← getLast (D.take (k+1)).y
      let t ← getLast (D.take (k+1)).t
      let l ← K.measure (List.ofFn x) y t
      return (List.ofFn x, l)) : PyM (List P × List ℝ)) = _
    simp only [SData.take, getLast_take_succ hy, getLast_take_succ (hD.ts k hk), ok_bind, h.samples.measure x y k hg, pure_eq_ok]
  constructor
  · exact lt_of_getElem?_some (hD.ts _ le_rfl)
  · cases hq : qs.length with
    | zero => exact lt_of_getElem?_some hD.y0
    | succ n => exact lt_of_getElem?_some (hyv n (by omega))
  · exact fun _ _ _ _ _ _ _ => rfl
  · exact fun _ _ _ _ _ _ => rfl
  · exact fun _ _ => rfl
  · exact fun x t _ => h.start_eval x t
  · intro k hk old x pt pind
    show ((do
      let next ← fancy (List.ofFn x) (List.range m)
      let u ← getIdx D.u k
      let t ← getIdx D.t k
      logpXnext (List.ofFn old) next u t) : PyM (List ℝ)) = _
    simp only [fancy_range_ofFn, getIdx_ok.mpr (hu k hk), getIdx_ok.mpr (hD.ts k hk.le), ok_bind]
    rw [h.move_eval _ _ _ _ (by simp), zipWith_ofFn_eq]
  · intro k hk x a pt pind f hf
    obtain ⟨st, h1, h2⟩ := hf
    show ((do
      let s ← getIdx f 0
      let next ← fancy s.pa.part (List.range m)
      let u ← getIdx D.u k
      let t ← getIdx D.t k
      logpXnext (List.ofFn x) next u t) : PyM (List ℝ)) = _
    simp only [getIdx_ok.mpr h1, h2, fancy_range_ofFn, getIdx_ok.mpr (hu k hk), getIdx_ok.mpr (hD.ts k hk.le), ok_bind]
    rw [h.move_eval _ _ _ _ (by simp), zipWith_ofFn_eq]
  · intro k hk hne x pt pind
    cases k with
    | zero =>
      have := hD.y0
      cases first with
      | none => exact absurd this hne
      | some y => exact hmeas 0 hk y this (hfirst y rfl) x pt pind
    | succ k =>
      have hy := hyv k (by omega)
      have hin : qs.getD k (.none, .none) ∈ qs := List.mem_of_getElem? (getD_recorded (by omega))
      have hny : (qs.getD k (.none, .none)).2 ≠ .none := fun e => hne (by rw [hy, e])
      rw [hmeas (k+1) hk _ hy ((hqs _ hin).resolve_left hny) x pt pind]
      simp only [likAt]
      rcases hy2 : (qs.getD k (.none, .none)).2 with _ | _ | y
      · exact absurd hy2 hny
      · simp only [seen]
      · simp only [seen]
  · intro k hk hn x
    cases k with
    | zero =>
      have := hD.y0
      rw [hn] at this
      cases first with
      | none => rfl
      | some y =>
        have hy : y = .none := (Option.some.inj this).symm
        subst hy
        exact h.none_lik (hfirst _ rfl) 0 x
    | succ k =>
      have hy := hyv k (by omega)
      rw [hn] at hy
      simp only [likAt]
      rw [← Option.some.inj hy]
      rfl

/-- The reduced step proposes from the model. -/
theorem reduced_of (h : MhipsModel K logpXnext srest good ν m vol μ0 M ℓ l0 lx) (hD : Recorded first qs D)
    (hne : qs ≠ []) : ReducedProposal (ffbsi logpXnext (K.toSmooth srest)) D ν m qs.length vol l0 (fun k => lx k (inputAt qs k)) := by
  intro k b a pt fut ⟨hk, hb, ha, hb0, ha0⟩
  cases b with
  | none =>
    cases pt with
    | some pt => exact hb.elim
    | none =>
      have hk0 : k = 0 := hb0.mp rfl
      subst hk0
      cases a with
      | none => exact absurd (ha0.mp rfl) (by have := List.length_pos_iff.mpr hne; omega)
      | some a =>
        cases fut with
        | none => exact ha.elim
        | some f =>
          obtain ⟨st, h1, h2⟩ := ha
          obtain ⟨X, hX, hc⟩ := h.samples.create
          refine ⟨X, fun j => ⟨(hX j).1, by rw [(hX j).2, h.start_law]; rfl⟩, fun ω => ?_⟩
          show ((do
            let f0 ← getIdx f 0
            K.createInitial f0.pa.part.length ω) : PyM (List P)) = _
          simp only [getIdx_ok.mpr h1, ok_bind, h2, List.length_ofFn, hc]
  | some x =>
    cases pt with
    | none => exact hb.elim
    | some pt =>
      obtain ⟨st, h1, h2, h3⟩ := hb
      have hk0 : k ≠ 0 := fun e => by have := hb0.mpr e; cases this
      obtain ⟨n, rfl⟩ : ∃ n, k = n + 1 := ⟨k - 1, by omega⟩
      have hu : D.u[n]? = some (inputAt qs n) := hD.us n _ (getD_recorded (by omega))
      obtain ⟨X, hX, hv⟩ := h.samples.move x (inputAt qs n) n
      refine ⟨X, fun j => ⟨(hX j).1, by rw [(hX j).2, h.move_law]; rfl⟩, fun ω => ?_⟩
      obtain ⟨v, v1, v2⟩ := hv ω
      show ((do
        let noise ← (do
          let st ← getLast pt
          let part ← fancy st.pa.part (List.range m)
          let u ← getLast (D.u.take (n+1))
          let t ← getLast (D.t.take (n+1))
          K.sampleProcessNoise part u t ω)
        let prev ← getLast pt
        let x ← fancy prev.pa.part (List.range m)
        (do
          let u ← getLast (D.take (n+1)).u
          let t ← getLast (D.take (n+1)).t
          K.update x u t noise)) : PyM (List P)) = _
      simp only [SData.take, getLast_ok.mpr h1, h2, fancy_range_ofFn, getLast_take_succ hu, getLast_take_succ (hD.ts n (by omega)), ok_bind, v1, v2]

/-- `lq k b a` is a probability density for the state at time `k`, given the states before and after it (if there are any). -/
structure Spec.ProposalDensity (vol : Measure P) (lq : ℕ → Option P → Option P → P → ℝ) : Prop where
  both : ∀ k, Measurable fun z : (P × P) × P => lq k (some z.1.1) (some z.1.2) z.2
  first : ∀ k, Measurable fun z : P × P => lq k none (some z.1) z.2
  last : ∀ k, Measurable fun z : P × P => lq k (some z.1) none z.2
  alone : ∀ k, Measurable fun z : P => lq k none none z
  one : ∀ k b a, ∫⁻ z, ENNReal.ofReal (exp (lq k b a z)) ∂vol = 1

/-- The two forms of MHIPS: 'mhips' needs a model that samples from, and evaluates, some proposal density; 'mhips_reduced' proposes from the model
and needs a measurement at the last time (C36). -/
def Spec.MhipsMethod (S : SmoothCallbacks P U Y V Ω) (ν : Measure Ω) (m : ℕ) (vol : Measure P) (first : Option (Slot Y)) (qs : List (Slot U × Slot Y))
    (method : String) : Prop :=
  (method = "mhips" ∧ ∃ lq, ProposalDensity vol lq ∧ ∀ D, Recorded first qs D → FullProposal S D ν m qs.length vol lq) ∨
  (method = "mhips_reduced" ∧ ∀ q, qs.getLast? = some q → q.2 ≠ .none)

theorem likAt_measurable (hℓ : ∀ k y, Measurable (ℓ k y)) (k : ℕ) : Measurable (likAt ℓ first qs k) := by
  cases k with
  | zero => cases first <;> [exact measurable_const; exact hℓ _ _]
  | succ k => exact seen_measurable hℓ _ _

theorem mhips_step [IsProbabilityMeasure ν] (hm : 0 < m) (h : MhipsModel K logpXnext srest good ν m vol μ0 M ℓ l0 lx) (hfirst : ∀ y ∈ first, good y)
    (hqs : ∀ q ∈ qs, q.2 = .none ∨ good q.2) (hne : qs ≠ []) {method : String}
    (hme : MhipsMethod (ffbsi logpXnext (K.toSmooth srest)) ν m vol first qs method) :
    ∃ lq, PathLaw vol l0 (fun k => lx k (inputAt qs k)) (likAt ℓ first qs) lq ∧ ∀ D, Recorded first qs D →
      MhStep (ffbsi logpXnext (K.toSmooth srest)) D (decide (method = "mhips_reduced")) ν m qs.length vol l0 (fun k => lx k (inputAt qs k))
        (likAt ℓ first qs) lq := by
  have hM := samples_markov hm h.samples
  rcases hme with ⟨rfl, lq, hlq, hp⟩ | ⟨rfl, hl⟩
  · refine ⟨lq, ⟨h.start, fun k => h.move _ _, likAt_measurable h.samples.meas, hlq.both, hlq.first, hlq.last, hlq.alone, hlq.one⟩, fun D hD => ?_⟩
    have e : decide ("mhips" = "mhips_reduced") = false := by decide +kernel
    rw [e]
    exact mhStep_full (mhPaths_of h hD hfirst hqs) (hp D hD)
  · refine ⟨priorLog l0 fun k => lx k (inputAt qs k), ⟨h.start, fun k => h.move _ _, likAt_measurable h.samples.meas, fun k => ?_, fun k => ?_,
      fun k => ?_, fun k => h.start, fun k b a => ?_⟩, fun D hD => ?_⟩
    · exact (h.move (k-1) (inputAt qs (k-1))).comp (f := fun z : (P × P) × P => (z.1.1, z.2)) (by fun_prop)
    · exact h.start.comp measurable_snd
    · exact h.move (k-1) (inputAt qs (k-1))
    · cases b with
      | none =>
        obtain ⟨X, hX, -⟩ := h.samples.create
        have h1 : μ0 Set.univ = 1 := by
          rw [← (hX ⟨0, hm⟩).2, Measure.map_apply (hX ⟨0, hm⟩).1 MeasurableSet.univ, Set.preimage_univ, measure_univ]
        rw [h.start_law, withDensity_apply _ MeasurableSet.univ, Measure.restrict_univ] at h1
        exact h1
      | some x =>
        have h1 : M (k-1) (inputAt qs (k-1)) x Set.univ = 1 := (hM _ _).isProbabilityMeasure x |>.measure_univ
        rw [h.move_law, withDensity_apply _ MeasurableSet.univ, Measure.restrict_univ] at h1
        exact h1
    · have e : decide ("mhips_reduced" = "mhips_reduced") = true := by decide +kernel
      rw [e]
      refine mhStep_reduced (mhPaths_of h hD hfirst hqs) (reduced_of h hD hne) fun hy => ?_
      have hpos := List.length_pos_iff.mpr hne
      have hlast : qs[qs.length - 1]? = some (qs.getD (qs.length - 1) (.none, .none)) := getD_recorded (by omega)
      have hy2 := hD.ys _ _ hlast
      rw [show qs.length - 1 + 1 = qs.length by omega, hy] at hy2
      exact hl _ (by rw [List.getLast?_eq_getElem?]; exact hlast) (Option.some.inj hy2).symm

end

/-! ### Runs and the recorded data -/

/-- Expectation, over all draws of the filter, of the likelihood estimate times `H` of the finished run over the history (`measure(first)` if there
is a first measurement, then `forward(u, y)` for every `(u, y)` in `qs`). -/
noncomputable def Spec.estimateE [MeasurableSpace Ω] (ν : Measure Ω) (s0 : PT P U Y) (F : FilterOps P U Y V Ω) (first : Option (Slot Y))
    (qs : List (Slot U × Slot Y)) (H : PT P U Y → ℝ≥0∞) : ℝ≥0∞ :=
  match first with
  | some y0 => ∫⁻ ω, stepsE ν qs (fun ds => runWeighted H (s0.run F (history (some (y0, ω)) ds))) ∂ν
  | none => stepsE ν qs (fun ds => runWeighted H (s0.run F (history none ds)))

open scoped Classical in
/-- `H` on runs with the recorded data, `H'` on the others. -/
noncomputable def pinned (first : Option (Slot Y)) (qs : List (Slot U × Slot Y)) (H H' : PT P U Y → ℝ≥0∞) (s : PT P U Y) : ℝ≥0∞ :=
  if Recorded first qs ⟨s.uvec, s.yvec, s.tvec⟩ then H s else H' s

theorem runWeighted_pinned {F : FilterOps P U Y V Ω} {N : ℕ} {T : Option ℕ} {s0 : PT P U Y} (h0 : PT.init N T 0 = .ok s0) (first : Option (Slot Y × Ω))
    {qs : List (Slot U × Slot Y)} {ds : List (Slot U × Slot Y × Ω × Draws Ω)} (hds : (ds.map fun q => (q.1, q.2.1)) = qs) (hne : first = none → qs ≠ [])
    (H H' : PT P U Y → ℝ≥0∞) :
    runWeighted H (s0.run F (history first ds)) = runWeighted (pinned (first.map (·.1)) qs H H') (s0.run F (history first ds)) ∧
      runValue H (s0.run F (history first ds)) = runValue (pinned (first.map (·.1)) qs H H') (s0.run F (history first ds)) := by
  rcases hr : s0.run F (history first ds) with ⟨s, e | bs⟩
  · exact ⟨rfl, rfl⟩
  · have := run_recorded h0 first hds hne hr
    simp only [runWeighted, runValue, pinned, if_pos this, and_self]

theorem estimateE_pinned [MeasurableSpace Ω] {ν : Measure Ω} {F : FilterOps P U Y V Ω} {N : ℕ} {T : Option ℕ} {s0 : PT P U Y} (h0 : PT.init N T 0 = .ok s0)
    (first : Option (Slot Y)) {qs : List (Slot U × Slot Y)} (hne : qs ≠ []) (H H' : PT P U Y → ℝ≥0∞) :
    estimateE ν s0 F first qs H = estimateE ν s0 F first qs (pinned first qs H H') := by
  cases first with
  | none => exact stepsE_congr ν fun ds hds => (runWeighted_pinned h0 none hds (fun _ => hne) H H').1
  | some y0 => exact lintegral_congr fun ω => stepsE_congr ν fun ds hds => (runWeighted_pinned h0 (some (y0, ω)) hds (fun _ => hne) H H').1

theorem sweep_pinned [MeasurableSpace Ω] {ν : Measure Ω} {F : List P → FilterOps P U Y V Ω} {N : ℕ} {T : Option ℕ} {s0 : PT P U Y}
    (h0 : PT.init N T 0 = .ok s0) (first : Option (Slot Y)) {qs : List (Slot U × Slot Y)} (hne : qs ≠ []) (H H' : PT P U Y → ℝ≥0∞) :
    sweep ν s0 F first qs H = sweep ν s0 F first qs (pinned first qs H H') := by
  funext ref
  cases first with
  | none => exact stepsE_congr ν fun ds hds => (runWeighted_pinned h0 none hds (fun _ => hne) H H').2
  | some y0 => exact lintegral_congr fun ω => stepsE_congr ν fun ds hds => (runWeighted_pinned h0 (some (y0, ω)) hds (fun _ => hne) H H').2

theorem pathsE_seen [MeasurableSpace P] (M : ℕ → Slot U → Kernel P P) {ℓ : ℕ → Slot Y → P → ℝ} (φ : List P → ℝ≥0∞) (k : ℕ) (qs : List (Slot U × Slot Y))
    (h : ∀ q ∈ qs, q.2 = .none → ∀ k x, ℓ k .none x = 0) (past : List P) (x : P) : pathsE M ℓ φ k qs past x = pathsE M (seen ℓ) φ k qs past x := by
  induction qs generalizing k past x with
  | nil => rfl
  | cons q qs ih =>
    obtain ⟨u, y⟩ := q
    have e : ∀ x', ℓ (k+1) y x' = seen ℓ (k+1) y x' := by
      intro x'
      rcases hy : y with _ | _ | y
      · exact h (u, y) (by simp) hy (k+1) x'
      · rfl
      · rfl
    simp only [pathsE, e, ih (k+1) fun q hq => h q (List.mem_cons_of_mem _ hq)]

/-! ### The theorems -/

theorem range_map_path [MeasurableSpace P] {n : ℕ} {φ : List P → ℝ≥0∞} (hφ : Measurable fun x : Fin n → P => φ (List.ofFn x)) :
    Measurable fun s : ℕ → P => φ ((List.range n).map s) := by
  have e : (fun s : ℕ → P => φ ((List.range n).map s)) = fun s => (fun x : Fin n → P => φ (List.ofFn x)) fun i => s i := by
    funext s
    congr 1
    apply List.ext_getElem <;> simp
  rw [e]
  exact hφ.comp (measurable_pi_lambda _ fun i => measurable_pi_apply _)

section
variable [MeasurableSpace P] [MeasurableSpace Ω] {K : MarkovModel P U Y V Ω} {logpXnext : List P → List P → Slot U → ℕ → PyM (List ℝ)}
  {srest : SmoothCallbacks P U Y V Ω} {good : Slot Y → Prop} {ν : Measure Ω} [IsProbabilityMeasure ν] {m : ℕ} {vol μ0 : Measure P} [SigmaFinite vol]
  {M : ℕ → Slot U → Kernel P P} {ℓ : ℕ → Slot Y → P → ℝ} {l0 : P → ℝ} {lx : ℕ → Slot U → P → P → ℝ}

/-- MHIPS after a run with the recorded data, as a function of the ancestral trajectories. -/
theorem pinned_eq {N : ℕ} (hN : 0 < N) (hm : 0 < m) (hK : MhipsModel K logpXnext srest good ν m vol μ0 M ℓ l0 lx) {first : Option (Slot Y)}
    {qs : List (Slot U × Slot Y)} (hne : qs ≠ []) {lq : ℕ → Option P → Option P → P → ℝ}
    (hlaw : PathLaw vol l0 (fun k => lx k (inputAt qs k)) (likAt ℓ first qs) lq) {method : String}
    (hstep : ∀ D, Recorded first qs D → MhStep (ffbsi logpXnext (K.toSmooth srest)) D (decide (method = "mhips_reduced")) ν m qs.length vol l0
      (fun k => lx k (inputAt qs k)) (likAt ℓ first qs) lq)
    (hme : method = "mhips" ∨ method = "mhips_reduced") {user : Option SOpts} {R : ℕ} (hR : passes method user = .ok R) (d : AllDraws Ω) (fuel : ℕ)
    {φ : List P → ℝ≥0∞} (hφ : Measurable fun s : ℕ → P => φ ((List.range (qs.length + 1)).map s)) (x0 : P) (s : PT P U Y)
    (hk : s.traj.length = qs.length + 1) (hgs : ∀ st ∈ s.traj, GoodStep N st) :
    pinned first qs (mhipsE (ffbsi logpXnext (K.toSmooth srest)) ν m method R user d fuel (pathMean φ m))
      (smoothE (ffbsi logpXnext (K.toSmooth srest)) m "ancestor" user d fuel (pathMean (passesOn vol l0 (fun k => lx k (inputAt qs k)) (likAt ℓ first qs) lq qs.length R x0 φ) m)) s =
      smoothE (ffbsi logpXnext (K.toSmooth srest)) m "ancestor" user d fuel (pathMean (passesOn vol l0 (fun k => lx k (inputAt qs k)) (likAt ℓ first qs) lq qs.length R x0 φ) m) s := by
  unfold pinned
  split
  · next hrec =>
    exact mhipsE_eq (S := ffbsi logpXnext (K.toSmooth srest)) (fun D _ _ _ _ _ _ _ => rfl) hK.post hK.pre hm (List.length_pos_iff.mpr hne) hme hR hlaw (hstep _ hrec) hφ hN hk hgs x0 d fuel fuel user
  · rfl

/-- C97: MHIPS draws the trajectories of 'ancestor', then applies to each of them the same transition `Q` (on functions of a trajectory), which leaves the
smoothing law invariant and does not depend on the run. -/
theorem C97_mhips_kernel (hm : 0 < m) (hK : MhipsModel K logpXnext srest good ν m vol μ0 M ℓ l0 lx)
    {first : Option (Slot Y)} (hfirst : ∀ y ∈ first, good y) {qs : List (Slot U × Slot Y)} (hqs : ∀ q ∈ qs, q.2 = .none ∨ good q.2) (hne : qs ≠ [])
    {method : String} (hme : MhipsMethod (ffbsi logpXnext (K.toSmooth srest)) ν m vol first qs method) {user : Option SOpts} {R : ℕ}
    (hR : passes method user = .ok R) :
    ∃ Q : (List P → ℝ≥0∞) → List P → ℝ≥0∞, ∀ φ : List P → ℝ≥0∞, (Measurable fun x : Fin (qs.length + 1) → P => φ (List.ofFn x)) →
      (Measurable fun x : Fin (qs.length + 1) → P => Q φ (List.ofFn x)) ∧ smoothingE μ0 M ℓ first qs (Q φ) = smoothingE μ0 M ℓ first qs φ ∧
      ∀ (N : ℕ) (s : PT P U Y) d fuel, 0 < N → s.traj.length = qs.length + 1 → (∀ st ∈ s.traj, GoodStep N st) →
        Recorded first qs ⟨s.uvec, s.yvec, s.tvec⟩ →
        mhipsE (ffbsi logpXnext (K.toSmooth srest)) ν m method R user d fuel (pathMean φ m) s =
          smoothE (ffbsi logpXnext (K.toSmooth srest)) m "ancestor" user d fuel (pathMean (Q φ) m) s := by
  obtain ⟨lq, hlaw, hstep⟩ := mhips_step hm hK hfirst hqs hne hme
  obtain ⟨X, -, -⟩ := hK.samples.create
  obtain ⟨ω⟩ := nonempty_of_isProbabilityMeasure ν
  refine ⟨passesOn vol l0 (fun k => lx k (inputAt qs k)) (likAt ℓ first qs) lq qs.length R (X ⟨0, hm⟩ ω), fun φ hφ => ⟨?_, ?_, ?_⟩⟩
  · exact passesOn_measurable hlaw R _ (range_map_path hφ) _
  · exact passesOn_invariant hK.start_law hK.move hK.move_law (samples_markov hm hK.samples) hK.samples.meas first qs hlaw _ (range_map_path hφ) R
  · intro N s d fuel hN hk hgs hrec
    exact mhipsE_eq (S := ffbsi logpXnext (K.toSmooth srest)) (fun D _ _ _ _ _ _ _ => rfl) hK.post hK.pre hm (List.length_pos_iff.mpr hne) (hme.imp (·.1) (·.1)) hR hlaw (hstep _ hrec)
      (range_map_path hφ) hN hk hgs _ d fuel fuel user

/-- C97: run the bootstrap filter, then call `perform_smoothing(m, 'mhips')` or `perform_smoothing(m, 'mhips_reduced')`. Over all random draws, the
likelihood estimate times the average of any non-negative function `φ` over the returned trajectories has expectation
`E[Π_t p(y_t | x_t) φ(x_0, …, x_T)]`: for any number of particles, of trajectories and of passes, any proposal density, any resampling threshold, and
histories that start with `measure(y0)` or with `forward`. -/
theorem C97_mhips_unbiased {N : ℕ} (hN : 0 < N) (hm : 0 < m) (hKN : Samples K good ν N μ0 M ℓ) (hK : MhipsModel K logpXnext srest good ν m vol μ0 M ℓ l0 lx)
    {rest : Callbacks P U Y V Ω} {res : ℝ} {name : String} {o : FilterOptions P} (hn : parseFilter name = .ok .pf)
    {F : FilterOps P U Y V Ω} (hF : mkFilter (K.toCallbacks rest) N res name o = .ok F) {T : Option ℕ} {s0 : PT P U Y} (h0 : PT.init N T 0 = .ok s0)
    {first : Option (Slot Y)} (hfirst : ∀ y ∈ first, good y) {qs : List (Slot U × Slot Y)} (hqs : ∀ q ∈ qs, good q.2) (hne : qs ≠ [])
    {method : String} (hme : MhipsMethod (ffbsi logpXnext (K.toSmooth srest)) ν m vol first qs method) {user : Option SOpts} {R : ℕ}
    (hR : passes method user = .ok R) (d : AllDraws Ω) (fuel : ℕ) {φ : List P → ℝ≥0∞}
    (hφ : Measurable fun x : Fin (qs.length + 1) → P => φ (List.ofFn x)) :
    estimateE ν s0 F first qs (mhipsE (ffbsi logpXnext (K.toSmooth srest)) ν m method R user d fuel (pathMean φ m)) =
      smoothingE μ0 M ℓ first qs φ := by
  have hqs' : ∀ q ∈ qs, q.2 = .none ∨ good q.2 := fun q hq => Or.inr (hqs q hq)
  obtain ⟨lq, hlaw, hstep⟩ := mhips_step hm hK hfirst hqs' hne hme
  rw [mkFilter_pf _ N res hn o] at hF
  obtain rfl := (Except.ok.inj hF).symm
  obtain ⟨X, hX, hc⟩ := hKN.create
  haveI : Nonempty Ω := nonempty_of_isProbabilityMeasure ν
  obtain ⟨x0, -⟩ : ∃ x0 : P, True := ⟨X ⟨0, hN⟩ (Classical.arbitrary Ω), trivial⟩
  have hφ' := range_map_path hφ
  have hpl : ∀ D, PlainSmooth (ffbsi logpXnext (K.toSmooth srest)) D := fun D _ _ _ _ _ _ _ => rfl
  have hps : NoPostprocessing (ffbsi logpXnext (K.toSmooth srest)) := hK.post
  have hm' : method = "mhips" ∨ method = "mhips_reduced" := hme.imp (·.1) (·.1)
  rw [estimateE_pinned h0 first hne _ (smoothE (ffbsi logpXnext (K.toSmooth srest)) m "ancestor" user d fuel
    (pathMean (passesOn vol l0 (fun k => lx k (inputAt qs k)) (likAt ℓ first qs) lq qs.length R x0 φ) m)),
    ← passesOn_invariant hK.start_law hK.move hK.move_law (samples_markov hN hKN) hKN.meas first qs hlaw x0 hφ' R]
  have hrun := run_paths hN (fun k u y hy => pf_stepLaw hN hKN rest res k u y hy) (samples_markov hN hKN) hKN.meas (fun _ _ _ _ _ _ => rfl)
    (φ := passesOn vol l0 (fun k => lx k (inputAt qs k)) (likAt ℓ first qs) lq qs.length R x0 φ) (passesOn_measurable hlaw R x0 hφ')
    (cop_pathOp x0 M) hX hc rfl (fun tr anc pa x uv yv tv y => pf_measure_law hN hKN rest res tr anc pa x uv yv tv y) h0 qs hqs
    (H := pinned first qs (mhipsE (ffbsi logpXnext (K.toSmooth srest)) ν m method R user d fuel (pathMean φ m)) (smoothE (ffbsi logpXnext (K.toSmooth srest)) m "ancestor" user d fuel
    (pathMean (passesOn vol l0 (fun k => lx k (inputAt qs k)) (likAt ℓ first qs) lq qs.length R x0 φ) m))) (by
      intro s us ys last x w hrep hk hgs hlast hx hw
      have e := pinned_eq hN hm hK hne hlaw hstep hm' hR d fuel hφ' x0 s hk hgs
      rw [e, smoothE_ancestor hpl hps hm user d fuel _ hN x0 hk hgs hlast hw us]
      simp only [show pathG M ℓ (passesOn vol l0 (fun k => lx k (inputAt qs k)) (likAt ℓ first qs) lq qs.length R x0 φ) qs.length [] =
        fun s => passesOn vol l0 (fun k => lx k (inputAt qs k)) (likAt ℓ first qs) lq qs.length R x0 φ ((List.range (qs.length + 1)).map s) from
          funext fun s => pathG_nil M ℓ _ _ s])
  have hsn : ∀ q ∈ qs, q.2 = .none → ∀ k x, ℓ k .none x = 0 := fun q hq e => hK.none_lik (e ▸ hqs q hq)
  cases first with
  | some y0 =>
    refine (hrun.1 y0 (hfirst y0 rfl)).trans ?_
    simp only [smoothingE, pathsE_seen M _ 0 qs hsn]
  | none =>
    refine (hrun.2 hne).trans ?_
    simp only [smoothingE, pathsE_seen M _ 0 qs hsn]

/-- C97 for the SIR filter with any proposal density: run the filter, then call `perform_smoothing(m, 'mhips')` or `perform_smoothing(m, 'mhips_reduced')`. Over all random draws, the
likelihood estimate times the average of any non-negative function `φ` over the returned trajectories has expectation
`E[Π_t p(y_t | x_t) φ(x_0, …, x_T)]`: for any number of particles, of trajectories and of passes, any proposal density, any resampling threshold, and
histories that start with `measure(y0)` or with `forward`. -/
theorem C97_mhips_sir {C : Callbacks P U Y V Ω} {N : ℕ} (hN : 0 < N) (hm : 0 < m) {q : ℕ → Slot U → Slot Y → Kernel P P}
    {lq' : ℕ → Slot U → Slot Y → P → P → ℝ} (hC : Spec.SirSamples C good ν N vol μ0 M ℓ q lq' lx) (hK : MhipsModel K logpXnext srest good ν m vol μ0 M ℓ l0 lx)
    {res : ℝ} {name : String} {o : FilterOptions P} (hn : parseFilter name = .ok .sir)
    {F : FilterOps P U Y V Ω} (hF : mkFilter C N res name o = .ok F) {T : Option ℕ} {s0 : PT P U Y} (h0 : PT.init N T 0 = .ok s0)
    {first : Option (Slot Y)} (hfirst : ∀ y ∈ first, good y) {qs : List (Slot U × Slot Y)} (hqs : ∀ q ∈ qs, good q.2) (hne : qs ≠ [])
    {method : String} (hme : MhipsMethod (ffbsi logpXnext (K.toSmooth srest)) ν m vol first qs method) {user : Option SOpts} {R : ℕ}
    (hR : passes method user = .ok R) (d : AllDraws Ω) (fuel : ℕ) {φ : List P → ℝ≥0∞}
    (hφ : Measurable fun x : Fin (qs.length + 1) → P => φ (List.ofFn x)) :
    estimateE ν s0 F first qs (mhipsE (ffbsi logpXnext (K.toSmooth srest)) ν m method R user d fuel (pathMean φ m)) =
      smoothingE μ0 M ℓ first qs φ := by
  have hqs' : ∀ q ∈ qs, q.2 = .none ∨ good q.2 := fun q hq => Or.inr (hqs q hq)
  obtain ⟨lq, hlaw, hstep⟩ := mhips_step hm hK hfirst hqs' hne hme
  obtain rfl := mkFilter_sir hn hF
  obtain ⟨X, hX, hc⟩ := hC.create
  haveI : Nonempty Ω := nonempty_of_isProbabilityMeasure ν
  obtain ⟨x0, -⟩ : ∃ x0 : P, True := ⟨X ⟨0, hN⟩ (Classical.arbitrary Ω), trivial⟩
  have hφ' := range_map_path hφ
  have hpl : ∀ D, PlainSmooth (ffbsi logpXnext (K.toSmooth srest)) D := fun D _ _ _ _ _ _ _ => rfl
  have hps : NoPostprocessing (ffbsi logpXnext (K.toSmooth srest)) := hK.post
  have hm' : method = "mhips" ∨ method = "mhips_reduced" := hme.imp (·.1) (·.1)
  rw [estimateE_pinned h0 first hne _ (smoothE (ffbsi logpXnext (K.toSmooth srest)) m "ancestor" user d fuel
    (pathMean (passesOn vol l0 (fun k => lx k (inputAt qs k)) (likAt ℓ first qs) lq qs.length R x0 φ) m)),
    ← passesOn_invariant hK.start_law hK.move hK.move_law (samples_markov hm hK.samples) hC.meas first qs hlaw x0 hφ' R]
  have hrun := run_paths hN (fun k u y hy => sir_stepLaw hN hC res k u y hy) (samples_markov hm hK.samples) hC.meas (sir_tilt hC)
    (φ := passesOn vol l0 (fun k => lx k (inputAt qs k)) (likAt ℓ first qs) lq qs.length R x0 φ) (passesOn_measurable hlaw R x0 hφ')
    (cop_pathOp x0 M) hX hc rfl (fun tr anc pa x uv yv tv y => sir_measure_law hN hC res tr anc pa x uv yv tv y) h0 qs hqs
    (H := pinned first qs (mhipsE (ffbsi logpXnext (K.toSmooth srest)) ν m method R user d fuel (pathMean φ m)) (smoothE (ffbsi logpXnext (K.toSmooth srest)) m "ancestor" user d fuel
    (pathMean (passesOn vol l0 (fun k => lx k (inputAt qs k)) (likAt ℓ first qs) lq qs.length R x0 φ) m))) (by
      intro s us ys last x w hrep hk hgs hlast hx hw
      have e := pinned_eq hN hm hK hne hlaw hstep hm' hR d fuel hφ' x0 s hk hgs
      rw [e, smoothE_ancestor hpl hps hm user d fuel _ hN x0 hk hgs hlast hw us]
      simp only [show pathG M ℓ (passesOn vol l0 (fun k => lx k (inputAt qs k)) (likAt ℓ first qs) lq qs.length R x0 φ) qs.length [] =
        fun s => passesOn vol l0 (fun k => lx k (inputAt qs k)) (likAt ℓ first qs) lq qs.length R x0 φ ((List.range (qs.length + 1)).map s) from
          funext fun s => pathG_nil M ℓ _ _ s])
  have hsn : ∀ q ∈ qs, q.2 = .none → ∀ k x, ℓ k .none x = 0 := fun q hq e => hK.none_lik (e ▸ hqs q hq)
  cases first with
  | some y0 =>
    refine (hrun.1 y0 (hfirst y0 rfl)).trans ?_
    simp only [smoothingE, pathsE_seen M _ 0 qs hsn]
  | none =>
    refine (hrun.2 hne).trans ?_
    simp only [smoothingE, pathsE_seen M _ 0 qs hsn]

/-- C97: particle Gibbs with the conditional particle filter `CPF`, two particles, and MHIPS. Let the reference trajectory have the smoothing law. Run the filter on it, call
`perform_smoothing(m, 'mhips')` (or 'mhips_reduced'), take one of the returned trajectories as the next reference trajectory, and so on. After any number
of iterations the trajectory has the smoothing law. -/
theorem C97_gibbs_cpf (hm : 0 < m) (hK2 : Samples K good ν 2 μ0 M ℓ) (hK : MhipsModel K logpXnext srest good ν m vol μ0 M ℓ l0 lx)
    {rest : Callbacks P U Y V Ω} {ct : List P → List (Step P)} (hct : ∀ xs k x, xs[k]? = some x → RefState (ct xs) k x) {res : ℝ}
    {name : String} (hn : parseFilter name = .ok .cpf) {F : List P → FilterOps P U Y V Ω}
    (hF : ∀ xs, mkFilter (K.toCallbacks rest) 2 res name (.dict (some (ct xs))) = .ok (F xs)) {T : Option ℕ} {s0 : PT P U Y} (h0 : PT.init 2 T 0 = .ok s0)
    {first : Option (Slot Y)} (hfirst : ∀ y ∈ first, good y) {qs : List (Slot U × Slot Y)} (hqs : ∀ q ∈ qs, q.2 = .none ∨ good q.2) (hne : qs ≠ [])
    {method : String} (hme : MhipsMethod (ffbsi logpXnext (K.toSmooth srest)) ν m vol first qs method) {user : Option SOpts} {R : ℕ}
    (hR : passes method user = .ok R) (d : AllDraws Ω) (fuel : ℕ) {φ : List P → ℝ≥0∞}
    (hφ : Measurable fun x : Fin (qs.length + 1) → P => φ (List.ofFn x)) (iterations : ℕ) :
    smoothingE μ0 M ℓ first qs ((fun φ => sweep ν s0 F first qs
      (mhipsE (ffbsi logpXnext (K.toSmooth srest)) ν m method R user d fuel (pathMean φ m)))^[iterations] φ) = smoothingE μ0 M ℓ first qs φ := by
  have hF' := fun xs => mkFilter_cond hn (hF xs)
  obtain ⟨lq, hlaw, hstep⟩ := mhips_step hm hK hfirst hqs hne hme
  have hM := samples_markov (by norm_num) hK2
  obtain ⟨x0⟩ := samples_nonempty hK2
  refine iterate_invariant (fun φ hφ => ?_) iterations hφ
  have hφ' := range_map_path hφ
  beta_reduce
  rw [sweep_pinned h0 first hne _ (smoothE (ffbsi logpXnext (K.toSmooth srest)) m "ancestor" user d fuel (pathMean (passesOn vol l0 (fun k => lx k (inputAt qs k)) (likAt ℓ first qs) lq qs.length R x0 φ) m))]
  have h := cond_total_of (F := F) hK2 rest (B := cpfAnc) (fun k u l b _ => cpfAnc_measurable k u l b) (fun k u l hl => cpf_ancOk hl k u)
    (Bv := fun _ _ _ _ _ b => if b = 1 then 1 else 0) (fun _ _ _ _ _ _ _ _ _ => rfl) hct (fun xs => by rw [hF' xs]) (fun xs => by rw [hF' xs])
    (fun xs => by rw [hF' xs]) (fun xs k x' u y hx hy => cpf_condLaw hK2 rest hx u hy (by rw [hF' xs])) (fun D _ _ _ _ _ _ _ => rfl) (S := (ffbsi logpXnext (K.toSmooth srest))) hK.post hm user d fuel h0 qs hqs first hfirst
    (fun _ => hne) x0 (φ := passesOn vol l0 (fun k => lx k (inputAt qs k)) (likAt ℓ first qs) lq qs.length R x0 φ) (passesOn_measurable hlaw R x0 hφ' _)
    (pinned_eq (by norm_num) hm hK hne hlaw hstep (hme.imp (·.1) (·.1)) hR d fuel hφ' x0)
  refine ⟨h.1, h.2.1.trans ?_⟩
  exact passesOn_invariant hK.start_law hK.move hK.move_law hM hK2.meas first qs hlaw x0 hφ' R

/-- C97: particle Gibbs with `CPFAS`, two particles, and MHIPS. Let the reference trajectory have the smoothing law. Run the filter on it, call
`perform_smoothing(m, 'mhips')` (or 'mhips_reduced'), take one of the returned trajectories as the next reference trajectory, and so on. After any number
of iterations the trajectory has the smoothing law. -/
theorem C97_gibbs_cpfas (hm : 0 < m) (hK2 : Samples K good ν 2 μ0 M ℓ) (hK : MhipsModel K logpXnext srest good ν m vol μ0 M ℓ l0 lx)
    {rest : Callbacks P U Y V Ω} {ct : List P → List (Step P)} (hct : ∀ xs k x, xs[k]? = some x → RefState (ct xs) k x) {res : ℝ}
    {name : String} (hn : parseFilter name = .ok .cpfas) {F : List P → FilterOps P U Y V Ω}
    (hF : ∀ xs, mkFilter (K.toCallbacks (ffbsiFilter logpXnext rest)) 2 res name (.dict (some (ct xs))) = .ok (F xs)) {T : Option ℕ} {s0 : PT P U Y} (h0 : PT.init 2 T 0 = .ok s0)
    {first : Option (Slot Y)} (hfirst : ∀ y ∈ first, good y) {qs : List (Slot U × Slot Y)} (hqs : ∀ q ∈ qs, q.2 = .none ∨ good q.2) (hne : qs ≠ [])
    {method : String} (hme : MhipsMethod (ffbsi logpXnext (K.toSmooth srest)) ν m vol first qs method) {user : Option SOpts} {R : ℕ}
    (hR : passes method user = .ok R) (d : AllDraws Ω) (fuel : ℕ) {φ : List P → ℝ≥0∞}
    (hφ : Measurable fun x : Fin (qs.length + 1) → P => φ (List.ofFn x)) (iterations : ℕ) :
    smoothingE μ0 M ℓ first qs ((fun φ => sweep ν s0 F first qs
      (mhipsE (ffbsi logpXnext (K.toSmooth srest)) ν m method R user d fuel (pathMean φ m)))^[iterations] φ) = smoothingE μ0 M ℓ first qs φ := by
  have hF' := fun xs => mkFilter_cond hn (hF xs)
  obtain ⟨lq, hlaw, hstep⟩ := mhips_step hm hK hfirst hqs hne hme
  have hM := samples_markov (by norm_num) hK2
  obtain ⟨x0⟩ := samples_nonempty hK2
  refine iterate_invariant (fun φ hφ => ?_) iterations hφ
  have hφ' := range_map_path hφ
  beta_reduce
  rw [sweep_pinned h0 first hne _ (smoothE (ffbsi logpXnext (K.toSmooth srest)) m "ancestor" user d fuel (pathMean (passesOn vol l0 (fun k => lx k (inputAt qs k)) (likAt ℓ first qs) lq qs.length R x0 φ) m))]
  have h := cond_total_of (F := F) hK2 (ffbsiFilter logpXnext rest) (B := cpfasAnc lx) (fun k u l b hl => cpfasAnc_measurable hK.move k u hl b)
    (fun k u l hl => cpfas_ancOk hK.move (hK.move_law k u) hl)
    (Bv := fun k u x' x w b => ENNReal.ofReal (exp (w b) * exp (lx k u (x b) x') / ∑ j, exp (w j) * exp (lx k u (x j) x')))
    (cpfas_bv lx) hct (fun xs => by rw [hF' xs]) (fun xs => by rw [hF' xs])
    (fun xs => by rw [hF' xs]) (fun xs k x' u y hx hy => cpfas_condLaw hK2 rest hK.move_eval hx u hy (by rw [hF' xs])) (fun D _ _ _ _ _ _ _ => rfl) (S := (ffbsi logpXnext (K.toSmooth srest))) hK.post hm user d fuel h0 qs hqs first hfirst
    (fun _ => hne) x0 (φ := passesOn vol l0 (fun k => lx k (inputAt qs k)) (likAt ℓ first qs) lq qs.length R x0 φ) (passesOn_measurable hlaw R x0 hφ' _)
    (pinned_eq (by norm_num) hm hK hne hlaw hstep (hme.imp (·.1) (·.1)) hR d fuel hφ' x0)
  refine ⟨h.1, h.2.1.trans ?_⟩
  exact passesOn_invariant hK.start_law hK.move hK.move_law hM hK2.meas first qs hlaw x0 hφ' R

end

end PyPE

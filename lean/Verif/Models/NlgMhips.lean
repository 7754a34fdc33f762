import Verif.Smooth.MhModel
import Verif.Models.NlgGibbs
import Mathlib.Probability.ProductMeasure

/-!
# C97 for `NonlinearGaussian` models (nlg.py)
-/

namespace PyPE
open Real Spec MeasureTheory ProbabilityTheory Matrix
open scoped ENNReal

variable {n m : ℕ} {U V : Type}

/-! ### A stream of normal draws -/

/-- A stream of columns `numpy.random.normal(size=(lxi, ·))`: a call that draws `k` columns takes the first `k`. -/
noncomputable def Spec.stream (n : ℕ) : Measure (ℕ → Fin n → ℝ) := Measure.infinitePi fun _ => Spec.gauss (0 : Fin n → ℝ) 1

instance (n : ℕ) : IsProbabilityMeasure (Spec.stream n) := by unfold Spec.stream; infer_instance

/-- The first `N` columns of a stream. -/
def streamHead (N : ℕ) (ω : ℕ → Fin n → ℝ) (i : Fin N) : Fin n → ℝ := ω i

theorem streamHead_measurable (N : ℕ) : Measurable (streamHead N (n := n)) := by
  unfold streamHead; fun_prop

theorem streamHead_law (N n : ℕ) : (stream n).map (streamHead N) = normals N n := by
  unfold normals
  refine (Measure.pi_eq fun s hs => ?_).symm
  rw [Measure.map_apply (streamHead_measurable N) (MeasurableSet.univ_pi hs)]
  have e : streamHead N ⁻¹' Set.univ.pi s = Set.pi (Finset.range N) fun k => if h : k < N then s ⟨k, h⟩ else (Set.univ : Set (Fin n → ℝ)) := by
    ext ω
    simp only [Set.mem_preimage, Set.mem_pi, Set.mem_univ, forall_const, Finset.coe_range, Set.mem_Iio, streamHead]
    refine ⟨fun h k hk => by rw [dif_pos hk]; exact h ⟨k, hk⟩, fun h i => ?_⟩
    have := h i i.2
    rwa [dif_pos i.2] at this
  rw [e, stream, Measure.infinitePi_pi _ (fun i hi => by rw [dif_pos (Finset.mem_range.mp hi)]; exact hs _), Finset.prod_range]
  exact Finset.prod_congr rfl fun i _ => by rw [dif_pos i.2]

theorem range_map_stream (N : ℕ) (ω : ℕ → Fin n → ℝ) : (List.range N).map ω = List.ofFn (streamHead N ω) := by
  apply List.ext_getElem <;> simp [streamHead]

/-! ### The model -/

/-- A `NonlinearGaussianInitialGaussian` object seen through the Markov interface (nlg.py:130-212, 404-418), as `nlgMarkov`, but for any number of
particles per call: the draws are a stream of columns of `numpy.random.normal`, of which a call takes one for every particle. -/
noncomputable def nlgStream (H : NlgHooks n m (Slot U) ℕ) (o : NlgObj n m) (o0 : NlgX0 n) :
    MarkovModel (Fin n → ℝ) U (Fin m → ℝ) (List (Fin n → ℝ)) (ℕ → Fin n → ℝ) where
  createInitial k ω := o0.create k ((List.range k).map ω)
  sampleProcessNoise part u t ω := nlgNoise H o part u t ((List.range part.length).map ω)
  update part u t v := nlgUpdate H o part u t v
  measure part y t := match y with
    | .obj y => nlgMeasure H o part y t
    | _ => .error .typeError

/-- `ptraj[-1].pa.part`, `ut[cur_ind-1]`, `tt[cur_ind-1]` as `propose_smooth` and `logp_proposal` use them (nlg.py:323-326, 353): only if there is a
past. -/
def nlgPast {Y : Type} (pt : Option (List (SStep (Fin n → ℝ)))) (D : SData U Y) (cur : ℕ) : PyM (Option (List (Fin n → ℝ)) × Slot U × ℕ) :=
  match pt with
  | none => .ok (none, .none, 0)
  | some pt => do
    let st ← getLast pt
    let u ← getIdx D.u (cur - 1)
    let t ← getIdx D.t (cur - 1)
    return (some st.pa.part, u, t)

/-- The callbacks of `NonlinearGaussianInitialGaussian` that only the smoothers use: `propose_smooth` (nlg.py:302-329), `logp_proposal` (331-356),
`eval_logp_x0` (420-445), `post_smoothing` (370-374) and `pre_mhips_pass` (376-379), which return `st.traj` unchanged. The model uses real numbers as
log-densities: `-inf` (only if `Px0 = 0`) is read as 0. The other callbacks are those of `rest`. -/
noncomputable def nlgSmooth (H : NlgHooks n m (Slot U) ℕ) (o : NlgObj n m) (o0 : NlgX0 n)
    (rest : SmoothCallbacks (Fin n → ℝ) U (Fin m → ℝ) (List (Fin n → ℝ)) (ℕ → Fin n → ℝ)) :
    SmoothCallbacks (Fin n → ℝ) U (Fin m → ℝ) (List (Fin n → ℝ)) (ℕ → Fin n → ℝ) :=
  { rest with
    proposeSmooth := fun pt anc _ find D cur ω => do
      let (prev, u, t) ← nlgPast pt D cur
      nlgProposeSmooth H o o0 prev (anc.getD []) u t ((List.range find.length).map ω)
    logpProposal := fun prop pt anc _ _ D cur => do
      let (prev, u, t) ← nlgPast pt D cur
      let l ← nlgLogpProposal H o o0 prop prev (anc.getD []) u t
      return l.map (WithBot.unbotD 0)
    evalLogpX0 := fun parts _ => do
      let l ← o0.evalLogpX0 parts
      return l.map (WithBot.unbotD 0)
    postSmoothing := some fun traj => .ok traj
    preMhips := some fun traj => .ok traj }

/-- The log-density of the first state. -/
noncomputable def Spec.nlgFirst (o0 : NlgX0 n) (x : Fin n → ℝ) : ℝ := Spec.logNormal o0.P0 (x - o0.x0)

section
variable {H : NlgHooks n m (Slot U) ℕ} {o : NlgObj n m} {F : ℕ → Slot U → (Fin n → ℝ) → Fin n → ℝ}
  {Q : ℕ → Slot U → (Fin n → ℝ) → Matrix (Fin n) (Fin n) ℝ} {G : ℕ → (Fin n → ℝ) → Fin m → ℝ} {R : ℕ → (Fin n → ℝ) → Matrix (Fin m) (Fin m) ℝ}

theorem nlg_create_diag {o0 : NlgX0 n} (hP : o0.P0.PosDef) (h0 : o0.P0 ≠ 0) (hdiag : ∀ i j, i ≠ j → o0.P0 i j = 0) (N : ℕ) :
    ∃ X : Fin N → (Fin N → Fin n → ℝ) → Fin n → ℝ, (∀ i, Measurable (X i) ∧ (normals N n).map (X i) = Spec.gauss o0.x0 o0.P0) ∧
      ∀ w, o0.create N (List.ofFn w) = .ok (List.ofFn fun i => X i w) := by
  obtain ⟨c, hc, step, hm, hstep, hlaw⟩ := nlg_create_law o0 hP h0 N
  obtain ⟨S', -, ⟨step', hstep', hlaw'⟩, -, hd⟩ := C47_initial_law o0 hP h0 N
  have hss : step' = step := by
    funext w
    have := (hstep' w).symm.trans (hstep w)
    exact List.ofFn_injective (Except.ok.inj this)
  subst hss
  rw [hd.mpr hdiag] at hlaw'
  exact ⟨fun i w => step' w i, fun i => ⟨measurable_pi_iff.mp hm i, map_eval_pi (fun _ => Spec.gauss o0.x0 o0.P0) hm hlaw' i⟩, hstep'⟩

theorem nlgStream_samples (hD : Spec.NlgDescribes H o F Q G R) {o0 : NlgX0 n} (hP : o0.P0.PosDef) (h0 : o0.P0 ≠ 0)
    (hdiag : ∀ i j, i ≠ j → o0.P0 i j = 0) {M : ℕ → Slot U → Kernel (Fin n → ℝ) (Fin n → ℝ)} (hM : ∀ t u x, M t u x = Spec.gauss (F t u x) (Q t u x))
    (hmeas : ∀ t y, Measurable (nlgLoglik G R t y)) (N : ℕ) :
    Spec.Samples (nlgStream H o o0) IsObj (stream n) N (Spec.gauss o0.x0 o0.P0) M (nlgLoglik G R) := by
  have h := nlg_samples hD o0 (nlg_create_diag hP h0 hdiag N) hM hmeas
  constructor
  · obtain ⟨X, hX, hc⟩ := h.create
    refine ⟨fun i ω => X i (streamHead N ω), fun i => ⟨(hX i).1.comp (streamHead_measurable N), ?_⟩, fun ω => ?_⟩
    · rw [← (hX i).2, ← streamHead_law, Measure.map_map (hX i).1 (streamHead_measurable N)]; rfl
    · show o0.create N ((List.range N).map ω) = _
      rw [range_map_stream]
      exact hc _
  · intro x u k
    obtain ⟨X, hX, hc⟩ := h.move x u k
    refine ⟨fun i ω => X i (streamHead N ω), fun i => ⟨(hX i).1.comp (streamHead_measurable N), ?_⟩, fun ω => ?_⟩
    · rw [← (hX i).2, ← streamHead_law, Measure.map_map (hX i).1 (streamHead_measurable N)]; rfl
    · obtain ⟨v, h1, h2⟩ := hc (streamHead N ω)
      refine ⟨v, ?_, h2⟩
      show nlgNoise H o (List.ofFn x) u k ((List.range (List.ofFn x).length).map ω) = _
      rw [List.length_ofFn, range_map_stream]
      exact h1
  · exact h.measure
  · exact h.meas

theorem nlgFirst_measurable (o0 : NlgX0 n) : Measurable (nlgFirst o0) :=
  ((continuous_logNormal o0.P0).measurable).comp (by fun_prop)

theorem nlgMhips_model (hD : Spec.NlgDescribes H o F Q G R)
    (hone : Spec.TransExact H Q) {o0 : NlgX0 n} (hP : o0.P0.PosDef) (h0 : o0.P0 ≠ 0)
    (hdiag : ∀ i j, i ≠ j → o0.P0 i j = 0) {M : ℕ → Slot U → Kernel (Fin n → ℝ) (Fin n → ℝ)} (hM : ∀ t u x, M t u x = Spec.gauss (F t u x) (Q t u x))
    (hmeas : ∀ t y, Measurable (nlgLoglik G R t y)) (hlm : ∀ t u, Measurable fun z : (Fin n → ℝ) × (Fin n → ℝ) => nlgTrans F Q t u z.1 z.2)
    (rest : SmoothCallbacks (Fin n → ℝ) U (Fin m → ℝ) (List (Fin n → ℝ)) (ℕ → Fin n → ℝ)) (k : ℕ) :
    MhipsModel (nlgStream H o o0) (nlgLogpXnext H o) (nlgSmooth H o o0 rest) IsObj (stream n) k volume (Spec.gauss o0.x0 o0.P0) M (nlgLoglik G R)
      (nlgFirst o0) (nlgTrans F Q) where
  samples := nlgStream_samples hD hP h0 hdiag hM hmeas k
  start := nlgFirst_measurable o0
  start_law := by rw [gauss_density hP]; rfl
  start_eval x t := by
    show ((do
      let l ← o0.evalLogpX0 (List.ofFn x)
      return l.map (WithBot.unbotD 0)) : PyM (List ℝ)) = _
    rw [(C47_eval_logp_x0 o0 _).1 hP h0, ok_bind, pure_eq_ok, List.map_ofFn, List.map_ofFn]
    rfl
  move := hlm
  move_law t u x := by
    rw [hM, gauss_density (nlg_posDef hD t u x)]
    rfl
  move_eval := nlg_logDensity hD hone
  none_lik h := by obtain ⟨v, hv⟩ := h; cases hv
  post := fun _ => rfl
  pre := fun _ => rfl

/-- `propose_smooth` draws from the model and `logp_proposal` evaluates the density. -/
theorem nlg_fullProposal (hD : Spec.NlgDescribes H o F Q G R)
    (hone : Spec.TransExact H Q) {o0 : NlgX0 n} (hP : o0.P0.PosDef) (h0 : o0.P0 ≠ 0)
    (hdiag : ∀ i j, i ≠ j → o0.P0 i j = 0)
    (rest : SmoothCallbacks (Fin n → ℝ) U (Fin m → ℝ) (List (Fin n → ℝ)) (ℕ → Fin n → ℝ)) (k : ℕ) {first : Option (Slot (Fin m → ℝ))}
    {qs : List (Slot U × Slot (Fin m → ℝ))} {D : SData U (Fin m → ℝ)} (hR : Recorded first qs D) :
    FullProposal (ffbsi (nlgLogpXnext H o) ((nlgStream H o o0).toSmooth (nlgSmooth H o o0 rest))) D (stream n) k qs.length volume
      (priorLog (nlgFirst o0) fun k => nlgTrans F Q k (inputAt qs k)) := by
  intro t b a pt fut ⟨ht, hb, ha, hb0, ha0⟩
  cases b with
  | none =>
    cases pt with
    | some pt => exact hb.elim
    | none =>
      obtain ⟨X, hX, hc⟩ := nlg_create_diag hP h0 hdiag k
      refine ⟨⟨fun i ω => X i (streamHead k ω), fun i => ⟨(hX i).1.comp (streamHead_measurable k), ?_⟩, fun ω => ?_⟩, fun x => ?_⟩
      · show (stream n).map (X i ∘ streamHead k) = _
        rw [← Measure.map_map (hX i).1 (streamHead_measurable k), streamHead_law, (hX i).2, gauss_density hP]; rfl
      · show o0.create ((List.range (List.range k).length).map ω).length ((List.range (List.range k).length).map ω) = _
        rw [List.length_range, range_map_stream, List.length_ofFn]
        exact hc _
      · show ((do
          let l ← o0.evalLogpX0 (List.ofFn x)
          return l.map (WithBot.unbotD 0)) : PyM (List ℝ)) = _
        rw [(C47_eval_logp_x0 o0 _).1 hP h0, ok_bind, pure_eq_ok, List.map_ofFn, List.map_ofFn]
        rfl
  | some x =>
    cases pt with
    | none => exact hb.elim
    | some pt =>
      obtain ⟨st, h1, h2, h3⟩ := hb
      have hk0 : t ≠ 0 := fun e => by have := hb0.mpr e; cases this
      obtain ⟨r, rfl⟩ : ∃ r, t = r + 1 := ⟨t - 1, by omega⟩
      have hu : D.u[r]? = some (inputAt qs r) := hR.us r _ (getD_recorded (by omega))
      have hpast : nlgPast (some pt) D (r+1) = .ok (some (List.ofFn x), inputAt qs r, r) := by
        simp only [nlgPast, getLast_ok.mpr h1, ok_bind, Nat.add_sub_cancel, getIdx_ok.mpr hu, getIdx_ok.mpr (hR.ts r (by omega)), pure_eq_ok, h2]
      obtain ⟨X, hX, hXe, hXl⟩ := nlg_move hD (N := k) (List.ofFn x) (by simp) (inputAt qs r) r
      refine ⟨⟨fun i ω => X (streamHead k ω) i, fun i => ⟨(measurable_pi_iff.mp hX i).comp (streamHead_measurable k), ?_⟩, fun ω => ?_⟩, fun z => ?_⟩
      · show (stream n).map ((fun w => X w i) ∘ streamHead k) = _
        rw [← Measure.map_map (measurable_pi_iff.mp hX i) (streamHead_measurable k), streamHead_law, map_eval_pi _ hX hXl i, gauss_density (nlg_posDef hD _ _ _)]
        simp [priorLog, nlgTrans]
      · show ((do
          let (prev, u, t) ← nlgPast (some pt) D (r+1)
          nlgProposeSmooth H o o0 prev (List.range k) u t ((List.range (List.range k).length).map ω)) : PyM _) = _
        rw [hpast, ok_bind, List.length_range, range_map_stream]
        simp only [nlgProposeSmooth, fancy_range_ofFn, ok_bind]
        exact hXe _
      · show ((do
          let (prev, u, t) ← nlgPast (some pt) D (r+1)
          let l ← nlgLogpProposal H o o0 (List.ofFn z) prev (List.range k) u t
          return l.map (WithBot.unbotD 0)) : PyM (List ℝ)) = _
        rw [hpast, ok_bind]
        simp only [nlgLogpProposal, fancy_range_ofFn, ok_bind]
        rw [nlg_logDensity hD hone _ _ _ _ (by simp), zipWith_ofFn_eq, ok_bind, pure_eq_ok, ok_bind, pure_eq_ok, List.map_ofFn, List.map_ofFn]
        rfl

theorem nlg_proposalDensity (hD : Spec.NlgDescribes H o F Q G R) {o0 : NlgX0 n} (hP : o0.P0.PosDef)
    (hlm : ∀ t u, Measurable fun z : (Fin n → ℝ) × (Fin n → ℝ) => nlgTrans F Q t u z.1 z.2) (qs : List (Slot U × Slot (Fin m → ℝ))) :
    ProposalDensity volume (priorLog (nlgFirst o0) fun k => nlgTrans F Q k (inputAt qs k)) where
  both k := (hlm (k-1) (inputAt qs (k-1))).comp (f := fun z : ((Fin n → ℝ) × (Fin n → ℝ)) × (Fin n → ℝ) => (z.1.1, z.2)) (by fun_prop)
  first k := (nlgFirst_measurable o0).comp measurable_snd
  last k := hlm (k-1) (inputAt qs (k-1))
  alone k := nlgFirst_measurable o0
  one k b a := by
    have h1 : ∀ (μ : Fin n → ℝ) (S : Matrix (Fin n) (Fin n) ℝ), S.PosDef → ∫⁻ z, ENNReal.ofReal (exp (Spec.logNormal S (z - μ))) = 1 := by
      intro μ S hS
      have : Spec.gauss μ S Set.univ = 1 := measure_univ
      rwa [gauss_density hS, withDensity_apply _ MeasurableSet.univ, Measure.restrict_univ] at this
    cases b with
    | none => exact h1 _ _ hP
    | some x => exact h1 _ _ (nlg_posDef hD _ _ _)

/-- Both forms of MHIPS apply to `NonlinearGaussian` models. -/
theorem nlg_mhipsMethod (hD : Spec.NlgDescribes H o F Q G R)
    (hone : Spec.TransExact H Q) {o0 : NlgX0 n} (hP : o0.P0.PosDef) (h0 : o0.P0 ≠ 0)
    (hdiag : ∀ i j, i ≠ j → o0.P0 i j = 0)
    (hlm : ∀ t u, Measurable fun z : (Fin n → ℝ) × (Fin n → ℝ) => nlgTrans F Q t u z.1 z.2)
    (rest : SmoothCallbacks (Fin n → ℝ) U (Fin m → ℝ) (List (Fin n → ℝ)) (ℕ → Fin n → ℝ)) (k : ℕ) (first : Option (Slot (Fin m → ℝ)))
    (qs : List (Slot U × Slot (Fin m → ℝ))) {method : String}
    (hme : method = "mhips" ∨ method = "mhips_reduced" ∧ ∀ q, qs.getLast? = some q → q.2 ≠ .none) :
    MhipsMethod (ffbsi (nlgLogpXnext H o) ((nlgStream H o o0).toSmooth (nlgSmooth H o o0 rest))) (stream n) k volume first qs method := by
  rcases hme with rfl | h
  · exact Or.inl ⟨rfl, _, nlg_proposalDensity hD hP hlm qs, fun D hR => nlg_fullProposal hD hone hP h0 hdiag rest k hR⟩
  · exact Or.inr h

/-- C97 for `NonlinearGaussianInitialGaussian` with diagonal `Px0`, with its own `propose_smooth`, `logp_proposal`, `logp_xnext` and
`eval_logp_x0`: filter with any number of particles and any resampling threshold, then `perform_smoothing(k, 'mhips')` or
`perform_smoothing(k, 'mhips_reduced')` with any number of passes. The likelihood estimate times the average of `φ` over the trajectories is an
unbiased estimate of `E[Π_t p(y_t | x_t) φ(x_0, …, x_T)]` under `x_0 ~ N(x0, Px0)`, `x_{t+1} ~ N(F(x_t), Q(x_t))`, `y_t ~ N(G(x_t), R(x_t))`. -/
theorem C97_nonlinear_gaussian (hD : Spec.NlgDescribes H o F Q G R)
    (hone : Spec.TransExact H Q) {o0 : NlgX0 n} (hP : o0.P0.PosDef) (h0 : o0.P0 ≠ 0)
    (hdiag : ∀ i j, i ≠ j → o0.P0 i j = 0) {M : ℕ → Slot U → Kernel (Fin n → ℝ) (Fin n → ℝ)} (hM : ∀ t u x, M t u x = Spec.gauss (F t u x) (Q t u x))
    (hmeas : ∀ t y, Measurable (nlgLoglik G R t y)) (hlm : ∀ t u, Measurable fun z : (Fin n → ℝ) × (Fin n → ℝ) => nlgTrans F Q t u z.1 z.2)
    {rest : Callbacks (Fin n → ℝ) U (Fin m → ℝ) (List (Fin n → ℝ)) (ℕ → Fin n → ℝ)} {N : ℕ} (hN : 0 < N) {res : ℝ} {name : String}
    {op : FilterOptions (Fin n → ℝ)} (hn : parseFilter name = .ok .pf) {Fl : FilterOps (Fin n → ℝ) U (Fin m → ℝ) _ _}
    (hF : mkFilter ((nlgStream H o o0).toCallbacks rest) N res name op = .ok Fl) {T : Option ℕ} {s0 : PT (Fin n → ℝ) U (Fin m → ℝ)}
    (hs : PT.init N T 0 = .ok s0) (srest : SmoothCallbacks (Fin n → ℝ) U (Fin m → ℝ) (List (Fin n → ℝ)) (ℕ → Fin n → ℝ)) {k : ℕ} (hk : 0 < k)
    (first : Option (Fin m → ℝ)) (qs : List (Slot U × (Fin m → ℝ))) (hne : qs ≠ []) {method : String}
    (hme : method = "mhips" ∨ method = "mhips_reduced") {user : Option SOpts} {Rp : ℕ} (hR : passes method user = .ok Rp)
    (d : AllDraws (ℕ → Fin n → ℝ)) (fuel : ℕ) {φ : List (Fin n → ℝ) → ℝ≥0∞}
    (hφ : Measurable fun x : Fin (qs.length + 1) → Fin n → ℝ => φ (List.ofFn x)) :
    estimateE (stream n) s0 Fl (first.map .obj) (qs.map fun q => (q.1, .obj q.2))
        (mhipsE (ffbsi (nlgLogpXnext H o) ((nlgStream H o o0).toSmooth (nlgSmooth H o o0 srest))) (stream n) k method Rp user d fuel (pathMean φ k)) =
      smoothingE (Spec.gauss o0.x0 o0.P0) M (nlgLoglik G R) (first.map .obj) (qs.map fun q => (q.1, .obj q.2)) φ := by
  refine C97_mhips_unbiased hN hk (nlgStream_samples hD hP h0 hdiag hM hmeas N) (nlgMhips_model hD hone hP h0 hdiag hM hmeas hlm srest k) hn hF hs ?_ ?_
    (by simpa using hne) (nlg_mhipsMethod hD hone hP h0 hdiag hlm srest k _ _ (hme.imp_right fun h => ⟨h, ?_⟩)) hR d fuel ?_
  · intro y hy
    obtain ⟨v, -, rfl⟩ := Option.mem_map.mp hy
    exact ⟨_, rfl⟩
  · intro q hq
    obtain ⟨v, -, rfl⟩ := List.mem_map.mp hq
    exact ⟨_, rfl⟩
  · intro q hq e
    obtain ⟨v, -, rfl⟩ := List.mem_map.mp (List.mem_of_getLast? hq)
    cases e
  · rw [List.length_map]; exact hφ

/-- C97 for `NonlinearGaussianInitialGaussian` with diagonal `Px0`: particle Gibbs with `CPF` or `CPFAS`, two particles, and trajectories drawn with
`perform_smoothing(k, 'mhips')` or `perform_smoothing(k, 'mhips_reduced')` leaves the smoothing law unchanged. -/
theorem C97_nonlinear_gaussian_gibbs (hD : Spec.NlgDescribes H o F Q G R)
    (hone : Spec.TransExact H Q) {o0 : NlgX0 n} (hP : o0.P0.PosDef) (h0 : o0.P0 ≠ 0)
    (hdiag : ∀ i j, i ≠ j → o0.P0 i j = 0) {M : ℕ → Slot U → Kernel (Fin n → ℝ) (Fin n → ℝ)} (hM : ∀ t u x, M t u x = Spec.gauss (F t u x) (Q t u x))
    (hmeas : ∀ t y, Measurable (nlgLoglik G R t y)) (hlm : ∀ t u, Measurable fun z : (Fin n → ℝ) × (Fin n → ℝ) => nlgTrans F Q t u z.1 z.2)
    {rest : Callbacks (Fin n → ℝ) U (Fin m → ℝ) (List (Fin n → ℝ)) (ℕ → Fin n → ℝ)} {res : ℝ} {name : String} {kind : FilterKind}
    (hkind : kind = .cpf ∨ kind = .cpfas) (hn : parseFilter name = .ok kind) {Fl : List (Fin n → ℝ) → FilterOps (Fin n → ℝ) U (Fin m → ℝ) _ _}
    (hF : ∀ xs, mkFilter ((nlgStream H o o0).toCallbacks (ffbsiFilter (nlgLogpXnext H o) rest)) 2 res name (.dict (some (reference xs))) = .ok (Fl xs))
    {T : Option ℕ} {s0 : PT (Fin n → ℝ) U (Fin m → ℝ)} (hs : PT.init 2 T 0 = .ok s0)
    (srest : SmoothCallbacks (Fin n → ℝ) U (Fin m → ℝ) (List (Fin n → ℝ)) (ℕ → Fin n → ℝ)) {k : ℕ} (hk : 0 < k)
    (first : Option (Fin m → ℝ)) (qs : List (Slot U × Slot (Fin m → ℝ))) (hqs : ∀ q ∈ qs, q.2 ≠ .zero) (hne : qs ≠ []) {method : String}
    (hme : method = "mhips" ∨ method = "mhips_reduced" ∧ ∀ q, qs.getLast? = some q → q.2 ≠ .none) {user : Option SOpts} {Rp : ℕ}
    (hR : passes method user = .ok Rp) (d : AllDraws (ℕ → Fin n → ℝ)) (fuel : ℕ) {φ : List (Fin n → ℝ) → ℝ≥0∞}
    (hφ : Measurable fun x : Fin (qs.length + 1) → Fin n → ℝ => φ (List.ofFn x)) (iterations : ℕ) :
    smoothingE (Spec.gauss o0.x0 o0.P0) M (nlgLoglik G R) (first.map .obj) qs ((fun φ => sweep (stream n) s0 Fl (first.map .obj) qs
        (mhipsE (ffbsi (nlgLogpXnext H o) ((nlgStream H o o0).toSmooth (nlgSmooth H o o0 srest))) (stream n) k method Rp user d fuel
          (pathMean φ k)))^[iterations] φ) =
      smoothingE (Spec.gauss o0.x0 o0.P0) M (nlgLoglik G R) (first.map .obj) qs φ := by
  have hgood : ∀ q ∈ qs, q.2 = .none ∨ IsObj q.2 := by
    intro q hq
    have := hqs q hq
    rcases h : q.2 with _ | _ | y
    · exact Or.inl rfl
    · exact absurd h this
    · exact Or.inr ⟨_, rfl⟩
  have hfirst : ∀ y ∈ first.map Slot.obj, IsObj y := by
    intro y hy
    obtain ⟨v, -, rfl⟩ := Option.mem_map.mp hy
    exact ⟨_, rfl⟩
  have h2 := nlgStream_samples hD hP h0 hdiag hM hmeas 2
  have hmod := nlgMhips_model hD hone hP h0 hdiag hM hmeas hlm srest k
  have hmeth := nlg_mhipsMethod hD hone hP h0 hdiag hlm srest k (first.map .obj) qs hme
  rcases hkind with rfl | rfl
  · exact C97_gibbs_cpf hk h2 hmod reference_state hn hF hs hfirst hgood hne hmeth hR d fuel hφ iterations
  · exact C97_gibbs_cpfas hk h2 hmod reference_state hn hF hs hfirst hgood hne hmeth hR d fuel hφ iterations

end

/-- C97 on the model of `nlgLikToy`: `x⁺ ~ N(x/2, I)`, `y ~ N(x, I)`, 5 particles, resampling threshold 2/3, a measurement at time 0, then the history
`q :: qs`; 3 trajectories, 'mhips' with 4 passes; the average squared norm of the first state. -/
example (rest : Callbacks (Fin 2 → ℝ) ℝ (Fin 2 → ℝ) (List (Fin 2 → ℝ)) (ℕ → Fin 2 → ℝ)) (q : Slot ℝ × (Fin 2 → ℝ)) (qs : List (Slot ℝ × (Fin 2 → ℝ)))
    (y0 : Fin 2 → ℝ) (srest : SmoothCallbacks (Fin 2 → ℝ) ℝ (Fin 2 → ℝ) (List (Fin 2 → ℝ)) (ℕ → Fin 2 → ℝ)) (d : AllDraws (ℕ → Fin 2 → ℝ)) :
    ∃ (o : NlgObj 2 2) (Fl : _) (s0 : PT (Fin 2 → ℝ) ℝ (Fin 2 → ℝ)), nlgInit none none (some 1) (some 1) = .ok o ∧
      mkFilter ((nlgStream nlgLikToy o ⟨0, 1⟩).toCallbacks rest) 5 (2/3) "pf" (.dict none) = .ok Fl ∧ PT.init 5 none 0 = .ok s0 ∧
      estimateE (stream 2) s0 Fl (some (.obj y0)) ((q :: qs).map fun q => (q.1, .obj q.2))
        (mhipsE (ffbsi (nlgLogpXnext nlgLikToy o) ((nlgStream nlgLikToy o ⟨0, 1⟩).toSmooth (nlgSmooth nlgLikToy o ⟨0, 1⟩ srest))) (stream 2) 3 "mhips" 4
          (some { R := some (.int 4) }) d 0 (pathMean (fun l => ENNReal.ofReal ((l.getD 0 0) ⬝ᵥ (l.getD 0 0))) 3)) =
      smoothingE (Spec.gauss 0 1) (fun _ _ => gaussKernel (fun x => (1/2 : ℝ) • x) (by fun_prop) 1) (nlgLoglik (fun _ x => x) (fun _ _ => 1)) (some (.obj y0))
        ((q :: qs).map fun q => (q.1, .obj q.2)) fun l => ENNReal.ofReal ((l.getD 0 0) ⬝ᵥ (l.getD 0 0)) := by
  obtain ⟨o, ho, -, -, h1, h2⟩ := C46_last_covariances (n := 2) (m := 2) none none (some 1) (some 1)
    (by rintro _ ⟨⟩; exact PosDef.one) (by rintro _ ⟨⟩; exact PosDef.one) [] (by simp)
  have hD : Spec.NlgDescribes nlgLikToy o (fun _ _ x => (1/2 : ℝ) • x) (fun _ _ _ => 1) (fun _ x => x) (fun _ _ => 1) :=
    ⟨fun _ _ _ => Or.inl rfl, fun _ _ _ => Or.inr ⟨rfl, 1, PosDef.one, h1 _ rfl, fun _ => rfl⟩, fun _ _ => Or.inl rfl,
      fun _ _ => Or.inr ⟨by norm_num, rfl, 1, PosDef.one, h2 _ rfl, fun _ => rfl⟩⟩
  refine ⟨o, _, _, ho, mkFilter_pf _ 5 (2/3) parse_pf _, rfl, ?_⟩
  refine C97_nonlinear_gaussian hD (Or.inl (by norm_num)) (o0 := ⟨0, 1⟩) PosDef.one (by
      intro h; have := congrFun (congrFun h 0) 0; simp at this) (fun i j hij => by simp [hij])
    (M := fun _ _ => gaussKernel (fun x => (1/2 : ℝ) • x) (by fun_prop) 1)
    (fun t u x => gaussKernel_apply _ PosDef.one.posSemidef x) (by
      intro t y
      cases y with
      | obj y => exact ((continuous_logNormal 1).measurable).comp (by fun_prop)
      | none => exact measurable_const
      | zero => exact measurable_const) (by
      intro t u
      exact ((continuous_logNormal 1).measurable).comp (by fun_prop)) (by norm_num) parse_pf (mkFilter_pf _ 5 (2/3) parse_pf (.dict none)) (T := none) rfl
    srest (k := 3) (by norm_num) (some y0) (q :: qs) (by simp) (Or.inl rfl) (Rp := 4) ?_ d 0 ?_
  · rfl
  · simp only [List.ofFn_succ, List.getD_cons_zero, dotProduct]
    fun_prop

end PyPE

import Verif.Models.NlgMhips
import Verif.Smooth.BpUnbiased

/-!
# C122 for `NonlinearGaussian` models (nlg.py)
-/

namespace PyPE
open Real Spec MeasureTheory ProbabilityTheory Matrix
open scoped ENNReal

variable {n m : ℕ} {U V : Type}

section
variable {H : NlgHooks n m (Slot U) ℕ} {o : NlgObj n m} {F : ℕ → Slot U → (Fin n → ℝ) → Fin n → ℝ}
  {Q : ℕ → Slot U → (Fin n → ℝ) → Matrix (Fin n) (Fin n) ℝ} {G : ℕ → (Fin n → ℝ) → Fin m → ℝ} {R : ℕ → (Fin n → ℝ) → Matrix (Fin m) (Fin m) ℝ}

/-- For one trajectory, whichever particle is its predecessor, `propose_smooth` draws from the model and `logp_proposal` evaluates the density. -/
theorem nlg_backProposal (hD : Spec.NlgDescribes H o F Q G R)
    (hone : Spec.TransExact H Q) {o0 : NlgX0 n} (hP : o0.P0.PosDef) (h0 : o0.P0 ≠ 0)
    (hdiag : ∀ i j, i ≠ j → o0.P0 i j = 0)
    (rest : SmoothCallbacks (Fin n → ℝ) U (Fin m → ℝ) (List (Fin n → ℝ)) (ℕ → Fin n → ℝ)) {first : Option (Slot (Fin m → ℝ))}
    {qs : List (Slot U × Slot (Fin m → ℝ))} {D : SData U (Fin m → ℝ)} (hR : Recorded first qs D) :
    BackProposal (ffbsi (nlgLogpXnext H o) ((nlgStream H o o0).toSmooth (nlgSmooth H o o0 rest))) D (stream n) qs.length volume
      (priorLog (nlgFirst o0) fun k => nlgTrans F Q k (inputAt qs k)) := by
  intro t b a pt pind fut ht hb ha hb0 ha0
  cases b with
  | none =>
    cases pt with
    | some pt => exact hb.elim
    | none =>
      obtain ⟨X, hX, hc⟩ := nlg_create_diag hP h0 hdiag 1
      refine ⟨⟨fun ω => X 0 (streamHead 1 ω), (hX 0).1.comp (streamHead_measurable 1), ?_, fun ω => ?_⟩, fun x => ?_⟩
      · show (stream n).map (X 0 ∘ streamHead 1) = _
        rw [← Measure.map_map (hX 0).1 (streamHead_measurable 1), streamHead_law, (hX 0).2, gauss_density hP]; rfl
      · show o0.create ((List.range 1).map ω).length ((List.range 1).map ω) = _
        rw [range_map_stream, List.length_ofFn]
        exact hc _
      · show ((do
          let l ← o0.evalLogpX0 [x]
          return l.map (WithBot.unbotD 0)) : PyM (List ℝ)) = _
        rw [(C47_eval_logp_x0 o0 _).1 hP h0, ok_bind, pure_eq_ok]
        rfl
  | some x =>
    cases pt with
    | none => exact hb.elim
    | some pt =>
      obtain ⟨st, i, anc, h1, h2, rfl, h4, h5⟩ := hb
      have hk0 : t ≠ 0 := fun e => by have := hb0.mpr e; cases this
      obtain ⟨r, rfl⟩ : ∃ r, t = r + 1 := ⟨t - 1, by omega⟩
      have hu : D.u[r]? = some (inputAt qs r) := hR.us r _ (getD_recorded (by omega))
      have hpast : nlgPast (some pt) D (r+1) = .ok (some st.pa.part, inputAt qs r, r) := by
        simp only [nlgPast, getLast_ok.mpr h1, ok_bind, Nat.add_sub_cancel, getIdx_ok.mpr hu, getIdx_ok.mpr (hR.ts r (by omega)), pure_eq_ok]
      obtain ⟨X, hX, hXe, hXl⟩ := nlg_move hD (N := 1) [x] (by simp) (inputAt qs r) r
      refine ⟨⟨fun ω => X (streamHead 1 ω) 0, (measurable_pi_iff.mp hX 0).comp (streamHead_measurable 1), ?_, fun ω => ?_⟩, fun z => ?_⟩
      · show (stream n).map ((fun w => X w 0) ∘ streamHead 1) = _
        rw [← Measure.map_map (measurable_pi_iff.mp hX 0) (streamHead_measurable 1), streamHead_law, map_eval_pi _ hX hXl 0, gauss_density (nlg_posDef hD _ _ _)]
        simp [priorLog, nlgTrans]
      · show ((do
          let (prev, u, t) ← nlgPast (some pt) D (r+1)
          nlgProposeSmooth H o o0 prev [i] u t ((List.range 1).map ω)) : PyM _) = _
        rw [hpast, ok_bind, range_map_stream]
        simp only [nlgProposeSmooth, fancy_single h2, ok_bind]
        exact hXe _
      · show ((do
          let (prev, u, t) ← nlgPast (some pt) D (r+1)
          let l ← nlgLogpProposal H o o0 [z] prev [i] u t
          return l.map (WithBot.unbotD 0)) : PyM (List ℝ)) = _
        rw [hpast, ok_bind]
        simp only [nlgLogpProposal, fancy_single h2, ok_bind]
        rw [nlg_logDensity hD hone _ _ _ _ (by simp)]
        rfl

/-- C122 for `NonlinearGaussianInitialGaussian` with diagonal `Px0`, with its own `propose_smooth`, `logp_proposal`, `logp_xnext` and `eval_logp_x0`: filter with any
number of particles and any resampling threshold, then `perform_smoothing(1, 'mhbp')` with any number of iterations. The likelihood estimate times `φ` of the trajectory is
an unbiased estimate of `E[Π_t p(y_t | x_t) φ(x_0, …, x_T)]` under `x_0 ~ N(x0, Px0)`, `x_{t+1} ~ N(F(x_t), Q(x_t))`, `y_t ~ N(G(x_t), R(x_t))`. -/
theorem C122_nonlinear_gaussian (hD : Spec.NlgDescribes H o F Q G R)
    (hone : Spec.TransExact H Q) {o0 : NlgX0 n} (hP : o0.P0.PosDef) (h0 : o0.P0 ≠ 0)
    (hdiag : ∀ i j, i ≠ j → o0.P0 i j = 0) {M : ℕ → Slot U → Kernel (Fin n → ℝ) (Fin n → ℝ)} (hM : ∀ t u x, M t u x = Spec.gauss (F t u x) (Q t u x))
    (hmeas : ∀ t y, Measurable (nlgLoglik G R t y)) (hlm : ∀ t u, Measurable fun z : (Fin n → ℝ) × (Fin n → ℝ) => nlgTrans F Q t u z.1 z.2)
    {rest : Callbacks (Fin n → ℝ) U (Fin m → ℝ) (List (Fin n → ℝ)) (ℕ → Fin n → ℝ)} {N : ℕ} (hN : 0 < N) {res : ℝ} {name : String}
    {op : FilterOptions (Fin n → ℝ)} (hn : parseFilter name = .ok .pf) {Fl : FilterOps (Fin n → ℝ) U (Fin m → ℝ) _ _}
    (hF : mkFilter ((nlgStream H o o0).toCallbacks rest) N res name op = .ok Fl) {T : Option ℕ} {s0 : PT (Fin n → ℝ) U (Fin m → ℝ)}
    (hs : PT.init N T 0 = .ok s0) (srest : SmoothCallbacks (Fin n → ℝ) U (Fin m → ℝ) (List (Fin n → ℝ)) (ℕ → Fin n → ℝ))
    (first : Option (Fin m → ℝ)) (qs : List (Slot U × (Fin m → ℝ))) (hne : qs ≠ []) {user : Option SOpts} {Rp : ℕ} (hR : (choose user (·.R) (.int 30)).range = .ok Rp)
    (d : AllDraws (ℕ → Fin n → ℝ)) (fuel : ℕ) {φ : List (Fin n → ℝ) → ℝ≥0∞}
    (hφ : Measurable fun x : Fin (qs.length + 1) → Fin n → ℝ => φ (List.ofFn x)) :
    estimateE (stream n) s0 Fl (first.map .obj) (qs.map fun q => (q.1, .obj q.2))
        (mhbpE (ffbsi (nlgLogpXnext H o) ((nlgStream H o o0).toSmooth (nlgSmooth H o o0 srest))) (stream n) Rp user d fuel (pathMean φ 1)) =
      smoothingE (Spec.gauss o0.x0 o0.P0) M (nlgLoglik G R) (first.map .obj) (qs.map fun q => (q.1, .obj q.2)) φ := by
  refine C122_mhbp_unbiased hN (nlgStream_samples hD hP h0 hdiag hM hmeas N) (nlgMhips_model hD hone hP h0 hdiag hM hmeas hlm srest 1) hn hF hs ?_ ?_
    (by simpa using hne) ⟨_, nlg_proposalDensity hD hP hlm _, fun D hR => nlg_backProposal hD hone hP h0 hdiag srest hR⟩ hR d fuel ?_
  · intro y hy
    obtain ⟨v, -, rfl⟩ := Option.mem_map.mp hy
    exact ⟨_, rfl⟩
  · intro q hq
    obtain ⟨v, -, rfl⟩ := List.mem_map.mp hq
    exact ⟨_, rfl⟩
  · rw [List.length_map]; exact hφ

end

/-- C122 on the model of `nlgLikToy`: `x⁺ ~ N(x/2, I)`, `y ~ N(x, I)`, 5 particles, resampling threshold 2/3, a measurement at time 0, then the history
`q :: qs`; one trajectory, 'mhbp' with 4 iterations; the squared norm of the first state. -/
example (rest : Callbacks (Fin 2 → ℝ) ℝ (Fin 2 → ℝ) (List (Fin 2 → ℝ)) (ℕ → Fin 2 → ℝ)) (q : Slot ℝ × (Fin 2 → ℝ)) (qs : List (Slot ℝ × (Fin 2 → ℝ)))
    (y0 : Fin 2 → ℝ) (srest : SmoothCallbacks (Fin 2 → ℝ) ℝ (Fin 2 → ℝ) (List (Fin 2 → ℝ)) (ℕ → Fin 2 → ℝ)) (d : AllDraws (ℕ → Fin 2 → ℝ)) :
    ∃ (o : NlgObj 2 2) (Fl : _) (s0 : PT (Fin 2 → ℝ) ℝ (Fin 2 → ℝ)), nlgInit none none (some 1) (some 1) = .ok o ∧
      mkFilter ((nlgStream nlgLikToy o ⟨0, 1⟩).toCallbacks rest) 5 (2/3) "pf" (.dict none) = .ok Fl ∧ PT.init 5 none 0 = .ok s0 ∧
      estimateE (stream 2) s0 Fl (some (.obj y0)) ((q :: qs).map fun q => (q.1, .obj q.2))
        (mhbpE (ffbsi (nlgLogpXnext nlgLikToy o) ((nlgStream nlgLikToy o ⟨0, 1⟩).toSmooth (nlgSmooth nlgLikToy o ⟨0, 1⟩ srest))) (stream 2) 4
          (some { R := some (.int 4) }) d 0 (pathMean (fun l => ENNReal.ofReal ((l.getD 0 0) ⬝ᵥ (l.getD 0 0))) 1)) =
      smoothingE (Spec.gauss 0 1) (fun _ _ => gaussKernel (fun x => (1/2 : ℝ) • x) (by fun_prop) 1) (nlgLoglik (fun _ x => x) (fun _ _ => 1)) (some (.obj y0))
        ((q :: qs).map fun q => (q.1, .obj q.2)) fun l => ENNReal.ofReal ((l.getD 0 0) ⬝ᵥ (l.getD 0 0)) := by
  obtain ⟨o, ho, -, -, h1, h2⟩ := C46_last_covariances (n := 2) (m := 2) none none (some 1) (some 1)
    (by rintro _ ⟨⟩; exact PosDef.one) (by rintro _ ⟨⟩; exact PosDef.one) [] (by simp)
  have hD : Spec.NlgDescribes nlgLikToy o (fun _ _ x => (1/2 : ℝ) • x) (fun _ _ _ => 1) (fun _ x => x) (fun _ _ => 1) :=
    ⟨fun _ _ _ => Or.inl rfl, fun _ _ _ => Or.inr ⟨rfl, 1, PosDef.one, h1 _ rfl, fun _ => rfl⟩, fun _ _ => Or.inl rfl,
      fun _ _ => Or.inr ⟨by norm_num, rfl, 1, PosDef.one, h2 _ rfl, fun _ => rfl⟩⟩
  refine ⟨o, _, _, ho, mkFilter_pf _ 5 (2/3) parse_pf _, rfl, ?_⟩
  refine C122_nonlinear_gaussian hD (Or.inl (by norm_num)) (o0 := ⟨0, 1⟩) PosDef.one (by
      intro h; have := congrFun (congrFun h 0) 0; simp at this) (fun i j hij => by simp [hij])
    (M := fun _ _ => gaussKernel (fun x => (1/2 : ℝ) • x) (by fun_prop) 1)
    (fun t u x => gaussKernel_apply _ PosDef.one.posSemidef x) (by
      intro t y
      cases y with
      | obj y => exact ((continuous_logNormal 1).measurable).comp (by fun_prop)
      | none => exact measurable_const
      | zero => exact measurable_const) (by
      intro t u
      exact ((continuous_logNormal 1).measurable).comp (by fun_prop)) (by norm_num) parse_pf (mkFilter_pf _ 5 (2/3) parse_pf (.dict none)) (T := none) rfl
    srest (some y0) (q :: qs) (by simp) (Rp := 4) ?_ d 0 ?_
  · rfl
  · simp only [List.ofFn_succ, List.getD_cons_zero, dotProduct]
    fun_prop

end PyPE

import Verif.Filter.ApfUnbiased
import Verif.Models.NlgLik
import Verif.Smooth.GibbsThree

/-!
# C103 for `NonlinearGaussian` models, and what the offsets of the auxiliary filter record
-/

namespace PyPE
open Real Spec MeasureTheory ProbabilityTheory Matrix
open scoped ENNReal

variable {n m : ℕ} {U V : Type}

/-- `NonlinearGaussian.eval_1st_stage_weights` (nlg.py:214-234) as the callback of the auxiliary filter. `None` raises in `measure` (nlg.py:203). -/
noncomputable def nlgApfRest {N : ℕ} (H : NlgHooks n m (Slot U) ℕ) (o : NlgObj n m)
    (rest : Callbacks (Fin n → ℝ) U (Fin m → ℝ) (List (Fin n → ℝ)) (Fin N → Fin n → ℝ)) :
    Callbacks (Fin n → ℝ) U (Fin m → ℝ) (List (Fin n → ℝ)) (Fin N → Fin n → ℝ) :=
  { rest with
    evalFirstStage := fun parts u y t => match y with
      | .obj y => nlgFirstStage H o parts u y t (t + 1)
      | _ => .error .typeError }

/-- The first-stage log-weight: the log-likelihood at the noise-free prediction. -/
noncomputable def Spec.nlgPredicted (F : ℕ → Slot U → (Fin n → ℝ) → Fin n → ℝ) (G : ℕ → (Fin n → ℝ) → Fin m → ℝ)
    (R : ℕ → (Fin n → ℝ) → Matrix (Fin m) (Fin m) ℝ) (t : ℕ) (u : Slot U) (y : Slot (Fin m → ℝ)) (x : Fin n → ℝ) : ℝ :=
  nlgLoglik G R (t + 1) y (F t u x)

theorem nlg_firstStage {H : NlgHooks n m (Slot U) ℕ} {o : NlgObj n m} {F : ℕ → Slot U → (Fin n → ℝ) → Fin n → ℝ}
    {Q : ℕ → Slot U → (Fin n → ℝ) → Matrix (Fin n) (Fin n) ℝ} {G : ℕ → (Fin n → ℝ) → Fin m → ℝ}
    {R : ℕ → (Fin n → ℝ) → Matrix (Fin m) (Fin m) ℝ} (hD : Spec.NlgDescribes H o F Q G R) {N : ℕ}
    (rest : Callbacks (Fin n → ℝ) U (Fin m → ℝ) (List (Fin n → ℝ)) (Fin N → Fin n → ℝ)) :
    Spec.FirstStage (nlgApfRest H o rest) IsObj (nlgPredicted F G R) := by
  rintro parts u y k ⟨v, rfl⟩
  exact C70_first_stage H o parts u v k (k + 1) (F k u) (G (k + 1)) (R (k + 1)) (hD.drift _ _ _) (hD.out _ _) (hD.outCov _ _)

/-- C103 for `NonlinearGaussianInitialGaussian`: the auxiliary filter with the model's own first-stage weights (the likelihood at the noise-free prediction), any
number of particles and any resampling threshold gives an unbiased estimate of the likelihood of the data. -/
theorem C103_nonlinear_gaussian {H : NlgHooks n m (Slot U) ℕ} {o : NlgObj n m} {F : ℕ → Slot U → (Fin n → ℝ) → Fin n → ℝ}
    {Q : ℕ → Slot U → (Fin n → ℝ) → Matrix (Fin n) (Fin n) ℝ} {G : ℕ → (Fin n → ℝ) → Fin m → ℝ}
    {R : ℕ → (Fin n → ℝ) → Matrix (Fin m) (Fin m) ℝ} (hD : Spec.NlgDescribes H o F Q G R) {o0 : NlgX0 n} (hP : o0.P0.PosDef)
    (h0 : o0.P0 ≠ 0) {N : ℕ} (hN : 0 < N)
    {M : ℕ → Slot U → Kernel (Fin n → ℝ) (Fin n → ℝ)} (hM : ∀ t u x, M t u x = Spec.gauss (F t u x) (Q t u x))
    (hmeas : ∀ t y, Measurable (nlgLoglik G R t y))
    {rest : Callbacks (Fin n → ℝ) U (Fin m → ℝ) (List (Fin n → ℝ)) (Fin N → Fin n → ℝ)} {res : ℝ} {name : String}
    {opts : FilterOptions (Fin n → ℝ)} (hn : parseFilter name = .ok .apf) {Fl : FilterOps (Fin n → ℝ) U (Fin m → ℝ) _ _}
    (hF : mkFilter ((nlgMarkov N H o o0).toCallbacks (nlgApfRest H o rest)) N res name opts = .ok Fl) {T : Option ℕ} {s0 : PT (Fin n → ℝ) U (Fin m → ℝ)}
    (hs : PT.init N T 0 = .ok s0) (y0 : Fin m → ℝ) (qs : List (Slot U × (Fin m → ℝ))) :
    ∃ S : Matrix (Fin n) (Fin n) ℝ, (Spec.gauss o0.x0 S = Spec.gauss o0.x0 o0.P0 ↔ ∀ i j, i ≠ j → o0.P0 i j = 0) ∧
      ∫⁻ ω, stepsE (normals N n) (qs.map fun q => (q.1, .obj q.2)) (fun ds =>
          apfEstimate (nlgPredicted F G R) (nlgLoglik G R) 1 (some (.obj y0)) (qs.map fun q => (q.1, .obj q.2))
            (s0.run Fl (history (some (.obj y0, ω)) ds))) ∂(normals N n) =
        ∫⁻ x, ENNReal.ofReal (exp (Spec.logNormal (R 0 x) (y0 - G 0 x))) *
          pathE M (nlgLoglik G R) 1 0 (qs.map fun q => (q.1, .obj q.2)) x ∂(Spec.gauss o0.x0 S) := by
  obtain ⟨c, hc, step, hm, hstep, hlaw⟩ := nlg_create_law o0 hP h0 N
  obtain ⟨S', -, ⟨step', hstep', hlaw'⟩, -, hdiag⟩ := C47_initial_law o0 hP h0 N
  haveI : Nonempty (Fin N) := ⟨⟨0, hN⟩⟩
  have hss : step' = step := by
    funext w
    have := (hstep' w).symm.trans (hstep w)
    exact List.ofFn_injective (Except.ok.inj this)
  subst hss
  refine ⟨S', hdiag, ?_⟩
  have hsmp := nlg_samples hD o0 (N := N) (μ0 := Spec.gauss o0.x0 S')
    ⟨fun i w => step' w i, fun i => ⟨measurable_pi_iff.mp hm i, map_eval_pi (fun _ => Spec.gauss o0.x0 S') hm hlaw' i⟩, hstep'⟩ hM hmeas
  exact (C103_apf_unbiased hN hsmp (by rintro y ⟨v, rfl⟩; exact fun h => by cases h) (nlg_firstStage hD rest) hn hF (φ := 1) measurable_const hs
    (qs.map fun q => (q.1, .obj q.2)) (by
      intro q hq
      obtain ⟨q', -, rfl⟩ := List.mem_map.mp hq
      exact ⟨_, rfl⟩)).1 (.obj y0) ⟨_, rfl⟩

/-- C103 on the model `x⁺ = x/2 + v`, `y = x + e`: 5 particles, resampling threshold 2/3, a measurement at time 0 and any number of steps. -/
example (rest : Callbacks (Fin 2 → ℝ) ℝ (Fin 2 → ℝ) (List (Fin 2 → ℝ)) (Fin 5 → Fin 2 → ℝ)) (qs : List (Slot ℝ × (Fin 2 → ℝ))) (y0 : Fin 2 → ℝ) :
    ∃ (o : NlgObj 2 2) (Fl : _) (s0 : PT (Fin 2 → ℝ) ℝ (Fin 2 → ℝ)), nlgInit none none (some 1) (some 1) = .ok o ∧
      mkFilter ((nlgMarkov 5 nlgLikToy o ⟨0, 1⟩).toCallbacks (nlgApfRest nlgLikToy o rest)) 5 (2/3) "APF" .none = .ok Fl ∧ PT.init 5 none 0 = .ok s0 ∧
      ∫⁻ ω, stepsE (normals 5 2) (qs.map fun q => (q.1, .obj q.2)) (fun ds =>
          apfEstimate (nlgPredicted (fun _ _ x => (1/2 : ℝ) • x) (fun _ x => x) (fun _ _ => 1)) (nlgLoglik (fun _ x => x) (fun _ _ => 1)) 1 (some (.obj y0))
            (qs.map fun q => (q.1, .obj q.2)) (s0.run Fl (history (some (.obj y0, ω)) ds)))
          ∂(normals 5 2) =
        ∫⁻ x, ENNReal.ofReal (exp (Spec.logNormal 1 (y0 - x))) *
          pathE (fun _ _ => gaussKernel (fun x => (1/2 : ℝ) • x) (by fun_prop) 1) (nlgLoglik (fun _ x => x) (fun _ _ => 1)) 1 0
            (qs.map fun q => (q.1, .obj q.2)) x ∂(Spec.gauss 0 1) := by
  obtain ⟨o, ho, -, -, h1, h2⟩ := C46_last_covariances (n := 2) (m := 2) none none (some 1) (some 1)
    (by rintro _ ⟨⟩; exact PosDef.one) (by rintro _ ⟨⟩; exact PosDef.one) [] (by simp)
  have hD : Spec.NlgDescribes nlgLikToy o (fun _ _ x => (1/2 : ℝ) • x) (fun _ _ _ => 1) (fun _ x => x) (fun _ _ => 1) :=
    ⟨fun _ _ _ => Or.inl rfl, fun _ _ _ => Or.inr ⟨rfl, 1, PosDef.one, h1 _ rfl, fun _ => rfl⟩, fun _ _ => Or.inl rfl,
      fun _ _ => Or.inr ⟨by norm_num, rfl, 1, PosDef.one, h2 _ rfl, fun _ => rfl⟩⟩
  have hn : parseFilter "APF" = .ok .apf := by
    have : "APF".toLower = "apf" := by decide +kernel
    have e : ¬ ("apf" = "pf") := by decide +kernel
    simp [parseFilter, this, e]
  have hmk : ∀ C : Callbacks (Fin 2 → ℝ) ℝ (Fin 2 → ℝ) (List (Fin 2 → ℝ)) (Fin 5 → Fin 2 → ℝ), mkFilter C 5 (2/3) "APF" .none = .ok (apfOps C (2/3)) := by
    intro C
    unfold mkFilter
    rw [hn, ok_bind]; rfl
  refine ⟨o, _, _, ho, hmk _, rfl, ?_⟩
  obtain ⟨S, hS, h⟩ := C103_nonlinear_gaussian hD (o0 := ⟨0, 1⟩) PosDef.one (by
      intro h; have := congrFun (congrFun h 0) 0; simp at this) (N := 5) (by norm_num)
    (M := fun _ _ => gaussKernel (fun x => (1/2 : ℝ) • x) (by fun_prop) 1)
    (fun t u x => gaussKernel_apply _ PosDef.one.posSemidef x) (by
      intro t y
      cases y with
      | obj y => exact ((continuous_logNormal 1).measurable).comp (by fun_prop)
      | none => exact measurable_const
      | zero => exact measurable_const) (rest := rest) (res := 2/3) hn (hmk _) (T := none) rfl y0 qs
  rw [hS.mpr (fun i j hij => by simp [hij])] at h
  exact h

/-! ### The offsets of the auxiliary filter -/

/-- A Markov model whose state never moves and is never informative: the state is a fair coin, all likelihoods are 1. Two particles, one of each side. -/
noncomputable def stillCoin : MarkovModel Bool Unit Unit Unit Bool where
  createInitial _ ω := .ok (List.ofFn fun i : Fin 2 => if i = 0 then ω else !ω)
  sampleProcessNoise _ _ _ _ := .ok ()
  update part _ _ _ := .ok part
  measure part _ _ := .ok (part.map fun _ => 0)

/-- First-stage weights 2 and 1 for the two sides. -/
noncomputable def coinStage (_ : ℕ) (_ : Slot Unit) (_ : Slot Unit) (b : Bool) : ℝ := if b then Real.log 2 else 0

/-- The remaining callbacks of that model: only the first-stage weights are there. -/
noncomputable def coinRest : Callbacks Bool Unit Unit Unit Bool where
  createInitial _ _ := .error .attributeError
  sampleNoise _ _ _ _ _ := .error .attributeError
  update _ _ _ _ _ _ _ := .error .attributeError
  measure _ _ _ _ _ _ := .error .attributeError
  evalFirstStage part u y t := .ok (part.map (coinStage t u y))
  logpXnextSingle _ _ _ _ _ _ _ _ _ := .error .attributeError
  proposeFromY _ _ _ _ := .error .attributeError
  qsample _ _ _ _ _ := .error .attributeError
  logpQ _ _ _ _ _ := .error .attributeError
  logpXnext _ _ _ _ := .error .attributeError
  sirMeasure _ _ _ := .error .attributeError

theorem stillCoin_samples : Spec.Samples stillCoin (fun y => y ≠ .none) fairCoin 2 fairCoin (fun _ (_ : Slot Unit) => Kernel.id) (fun _ (_ : Slot Unit) _ => 0) where
  create := by
    refine ⟨fun i ω => if i = 0 then ω else !ω, fun i => ⟨measurable_of_finite _, ?_⟩, fun ω => rfl⟩
    refine Measure.ext fun t ht => ?_
    rw [← lintegral_indicator_one ht, ← lintegral_indicator_one ht, lintegral_map (measurable_of_finite _) (measurable_of_finite _), lintegral_fairCoin,
      lintegral_fairCoin]
    fin_cases i
    · simp
    · simp [add_comm]
  move x u k := ⟨fun i _ => x i, fun i => ⟨measurable_const, by
    rw [Measure.map_const, Kernel.id_apply, show fairCoin Set.univ = 1 by
      rw [← MeasureTheory.lintegral_one, lintegral_fairCoin, one_add_one_eq_two, show (2 : ℝ≥0∞) = ENNReal.ofReal 2 by norm_num, ← ENNReal.ofReal_mul (by norm_num)]; norm_num,
      one_smul]⟩, fun _ => ⟨(), rfl, rfl⟩⟩
  measure x y k _ := by
    show Except.ok ((List.ofFn x).map fun _ => (0:ℝ)) = _
    rw [List.map_ofFn]; rfl
  meas _ _ := measurable_const

theorem coin_firstStage : Spec.FirstStage coinRest (fun y => y ≠ .none) coinStage := fun _ _ _ _ _ => rfl

/-- One step of the auxiliary filter on that model, without resampling: the stored log-weights are `0, 0` and the stored offset is `0`. -/
theorem coin_apf (ω : Bool) (d : Draws Bool) (yv uv : List (Slot Unit)) (tv : List ℕ) {u y : Slot Unit} (hy : yv[1]? = some y) (hne : y ≠ .none) (hu : uv[0]? = some u)
    (ht : tv[0]? = some 0) (ht1 : tv[1]? = some 1) :
    apfForward (stillCoin.toCallbacks coinRest) 0 [⟨⟨[ω, !ω], [-Real.log 2, -Real.log 2], 2, 0⟩, [0, 1]⟩] yv uv tv 0 d =
      .ok (⟨[ω, !ω], [0, 0], 2, 0⟩, false, [0, 1]) := by
  have hl : 0 < Real.log 2 := Real.log_pos (by norm_num)
  have hfirst : apfFirstV (stillCoin.toCallbacks coinRest) uv tv 0 ⟨[ω, !ω], [-Real.log 2, -Real.log 2], 2, 0⟩ y =
      .ok (⟨[ω, !ω], if ω then [0, -Real.log 2] else [-Real.log 2, 0], 2, 0⟩, some [coinStage 0 u y ω, coinStage 0 u y (!ω)]) := by
    have main : (do
      let u ← getIdx uv 0
      let t ← getIdx tv 0
      let l1w ← (stillCoin.toCallbacks coinRest).evalFirstStage [ω, !ω] u y t
      let w ← npAdd [-Real.log 2, -Real.log 2] l1w
      let m ← npMax w
      pure ((⟨[ω, !ω], w.map (· - m), 2, 0⟩ : PA Bool), some l1w)) =
        .ok (⟨[ω, !ω], if ω then [0, -Real.log 2] else [-Real.log 2, 0], 2, 0⟩, some [coinStage 0 u y ω, coinStage 0 u y (!ω)]) := by
      simp only [getIdx_ok.mpr hu, getIdx_ok.mpr ht, ok_bind, MarkovModel.toCallbacks, coinRest, List.map_cons, List.map_nil]
      cases ω <;> simp [npAdd, npMax, coinStage, hl.le, pure_eq_ok]
    cases y with
    | none => exact absurd rfl hne
    | zero => exact main
    | obj y => exact main
  obtain ⟨st, hst⟩ : ∃ st : Step Bool, st = ⟨⟨[ω, !ω], [-Real.log 2, -Real.log 2], 2, 0⟩, [0, 1]⟩ := ⟨_, rfl⟩
  have hgl : getLast [st] = .ok st := rfl
  have hp : st.pa.part = [ω, !ω] := by rw [hst]
  have hw : st.pa.w = [-Real.log 2, -Real.log 2] := by rw [hst]
  have hr2 : List.range 2 = [0, 1] := rfl
  have hlen : [ω, !ω].length = 2 := rfl
  rw [← hst, apfForward_eq]
  simp only [hgl, ok_bind, PA.new, getIdx_ok.mpr hy, zero_add, hp, hw, hlen, hfirst, apfResampleV, ne_eq, not_true_eq_false, if_false, pure_eq_ok, hr2]
  unfold pfUpdate
  simp only [MarkovModel.toCallbacks, hgl, ok_bind, hp,
    getLast_take_succ hu, getLast_take_succ ht, show fancy [ω, !ω] [0, 1] = .ok [ω, !ω] from rfl, stillCoin, pure_eq_ok]
  unfold pfMeasure
  simp only [getLast_take_succ hy, getLast_take_succ ht1, ok_bind, apfSecondV, weightUpdate, List.map_cons, List.map_nil]
  cases ω <;> simp [npAdd, npSub, npMax, coinStage, hl.le, pure_eq_ok]

instance fairCoin_prob : IsProbabilityMeasure fairCoin := ⟨by
  rw [← MeasureTheory.lintegral_one, lintegral_fairCoin, one_add_one_eq_two, show (2 : ℝ≥0∞) = ENNReal.ofReal 2 by norm_num, ← ENNReal.ofReal_mul (by norm_num)]
  norm_num⟩

/-- C103: the estimate that C89 reads off the stored offsets is wrong for the auxiliary filter, because two of its three shifts of the log-weights are not recorded in
`w_offset`. A Markov model with uninformative measurements: the likelihood of the data is 1, the estimate read off the offsets is 2 with probability one. -/
theorem C103_offsets_not_recorded : ∃ (a : ℕ → Slot Unit → Slot Unit → Bool → ℝ) (F : FilterOps Bool Unit Unit Unit Bool) (s0 : PT Bool Unit Unit)
    (M : ℕ → Slot Unit → Kernel Bool Bool) (ℓ : ℕ → Slot Unit → Bool → ℝ),
    Spec.Samples stillCoin (fun y => y ≠ .none) fairCoin 2 fairCoin M ℓ ∧ Spec.FirstStage coinRest (fun y => y ≠ .none) a ∧
    mkFilter (stillCoin.toCallbacks coinRest) 2 0 "apf" .none = .ok F ∧ PT.init 2 none 0 = .ok s0 ∧
    (∀ u y ω0 d, y ≠ .none → runEstimate 1 (s0.run F (history none [(u, y, ω0, d)])) = 2) ∧
    (∀ u y, y ≠ .none → stepsE fairCoin [(u, y)] (fun ds => runEstimate 1 (s0.run F (history none ds))) = 2) ∧
    ∀ u y, ∫⁻ x, pathE M ℓ 1 0 [(u, y)] x ∂fairCoin = 1 := by
  have hn : parseFilter "apf" = .ok .apf := by
    have : "apf".toLower = "apf" := by decide +kernel
    have e : ¬ ("apf" = "pf") := by decide +kernel
    simp [parseFilter, this, e]
  have hmk : mkFilter (stillCoin.toCallbacks coinRest) 2 0 "apf" .none = .ok (apfOps (stillCoin.toCallbacks coinRest) 0) := by
    unfold mkFilter
    rw [hn, ok_bind]; rfl
  have hrun : ∀ (s0 : PT Bool Unit Unit), PT.init 2 none 0 = .ok s0 → ∀ u y ω0 d, y ≠ .none →
      runEstimate 1 (s0.run (apfOps (stillCoin.toCallbacks coinRest) 0) (history none [(u, y, ω0, d)])) = 2 := by
    intro s0 h0 u y ω0 d hy
    obtain ⟨F, hF⟩ : ∃ F, F = apfOps (stillCoin.toCallbacks coinRest) 0 := ⟨_, rfl⟩
    rw [← hF]
    have hrep0 := PT.init_rep h0
    obtain ⟨hsN, htr⟩ := init_N h0
    have he := ensureInit_create (F := F) (s := s0) (N := 2) (by norm_num) hsN htr (x := fun i => if i = 0 then ω0 else !ω0) (ω := ω0) (by rw [hF]; rfl)
    set s1 : PT Bool Unit Unit := { s0 with ind1 := 1, traj := [⟨⟨List.ofFn fun i : Fin 2 => if i = 0 then ω0 else !ω0, List.replicate 2 (-Real.log (2:ℕ)), 2, 0⟩,
      List.range 2⟩] } with hs1
    have hrep1 : s1.Rep ⟨[], [.none]⟩ := (hrep0.ensureInit he).1 rfl
    obtain ⟨b1, b2, b3, b4⟩ := hrep1.forward_bufs (by simp) u y
    have hind : s1.ind1 = 1 := rfl
    simp only [hind, Nat.sub_self] at b1 b2 b3 b4
    have hfw : F.forward s1.traj (s1.beforeForward u y).yvec (s1.beforeForward u y).uvec (s1.beforeForward u y).tvec 0 d =
        .ok (⟨[ω0, !ω0], [0, 0], 2, 0⟩, false, [0, 1]) := by
      have := coin_apf ω0 d (s1.beforeForward u y).yvec (s1.beforeForward u y).uvec (s1.beforeForward u y).tvec b2 hy b1 b4 b3
      rw [hF, ← this]
      simp only [hs1, List.replicate]
      norm_num
      rfl
    have hf : s0.forward F u y ω0 d = ({ s1.beforeForward u y with traj := s1.traj ++ [⟨⟨[ω0, !ω0], [0, 0], 2, 0⟩, [0, 1]⟩] }, .ok false) := by
      rw [forward_ensureInit he (by rw [hs1]; simp), PT.forward_eq hrep1.inv]
      have he1 : s1.ensureInit F ω0 = (s1, .ok ()) := by
        unfold PT.ensureInit
        rw [if_neg (by rw [hs1]; simp)]
      rw [he1]
      simp only [hind, Nat.sub_self, hfw]
    have hh : history none [(u, y, ω0, d)] = [Op.forward u y ω0 d] := rfl
    rw [hh, run_forward_cons hf]
    have he2 : exp (-Real.log 2) + exp (-Real.log 2) = 1 := by rw [exp_neg, exp_log (by norm_num)]; norm_num
    simp only [PT.run, runEstimate, List.filterMap_cons, List.filterMap_nil, id, hs1, List.cons_append, List.nil_append, likEstimate, likProd, likIncr, mass,
      List.replicate, List.map_cons, List.map_nil, List.sum_cons, List.sum_nil, add_zero, exp_zero, Bool.false_eq_true, if_false, Nat.cast_ofNat, he2,
      List.getLast?_cons_cons, List.getLast?_singleton, wmean, normWeights, List.zipWith_cons_cons, List.zipWith_nil_left, Pi.one_apply, mul_one]
    norm_num
    rw [← ENNReal.ofReal_add (by norm_num) (by norm_num)]
    norm_num
  refine ⟨coinStage, _, _, _, _, stillCoin_samples, coin_firstStage, hmk, rfl, hrun _ rfl, fun u y hy => ?_, fun u y => ?_⟩
  · simp only [stepsE, fun ω0 d => hrun _ rfl u y ω0 d hy]
    simp only [lintegral_const, measure_univ, mul_one]
  · simp only [pathE, exp_zero, ENNReal.ofReal_one, one_mul, Pi.one_apply, Kernel.id_apply, lintegral_dirac, MeasureTheory.lintegral_one, measure_univ]

end PyPE

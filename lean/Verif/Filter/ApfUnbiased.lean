import Verif.Filter.Likelihood
import Verif.Heap.RefineFilters

/-!
# C103: the auxiliary particle filter is unbiased

`AuxiliaryParticleFilter.forward` (filter.py:657-707) resamples with the weights multiplied by the first-stage weights and divides the
new weights by the first-stage weight of the ancestor.  The likelihood estimate that belongs to this scheme — read off the stored particles, weights and
ancestors with the model's own first-stage and measurement log-weights — has the exact likelihood as its expectation, whatever the first-stage weights are.
-/

namespace PyPE
open Real Spec MeasureTheory ProbabilityTheory
open scoped ENNReal

variable {P U Y V Ω : Type}

/-! ### Specification -/

/-- The factor one step of the auxiliary filter contributes to the likelihood estimate, with first-stage log-weights `a` (of the particles before the step)
and log-likelihood `ℓ` (of the particles after it). Without resampling it is the weighted mean of the likelihood. With resampling it is the weighted mean of the
first-stage weights times the plain mean of likelihood over first-stage weight of the ancestor. -/
noncomputable def Spec.apfFactor (a ℓ : P → ℝ) (prev next : Step P) (resampled : Bool) : ℝ :=
  if resampled then
    (List.zipWith (fun p x => p * exp (a x)) (normWeights prev.pa.w) prev.pa.part).sum *
      ((List.zipWith (fun x' x => exp (ℓ x') / exp (a x)) next.pa.part (next.ancestors.filterMap (prev.pa.part[·]?))).sum / next.pa.part.length)
  else (List.zipWith (fun p x' => p * exp (ℓ x')) (normWeights prev.pa.w) next.pa.part).sum

/-- The product of the factors of successive steps, starting at time `k`; `a k u y` are the first-stage log-weights at time `k` for the input `u` and the
measurement `y` of time `k+1`, `ℓ (k+1) y` is the log-likelihood of `y` at time `k+1`. -/
noncomputable def Spec.apfProd (a : ℕ → Slot U → Slot Y → P → ℝ) (ℓ : ℕ → Slot Y → P → ℝ) :
    ℕ → List (Slot U × Slot Y) → List (Step P) → List Bool → ℝ
  | k, q :: qs, st :: st' :: l, b :: bs => apfFactor (a k q.1 q.2) (ℓ (k+1) q.2) st st' b * apfProd a ℓ (k+1) qs (st' :: l) bs
  | _, _, _, _ => 1

/-- The first factor: the mean likelihood of the measurement at time `0`, if there is one. -/
noncomputable def Spec.apfFirst (ℓ : ℕ → Slot Y → P → ℝ) (y0 : Option (Slot Y)) (traj : List (Step P)) : ℝ :=
  match y0, traj with
  | some y, st :: _ => (st.pa.part.map fun x => exp (ℓ 0 y x)).sum / st.pa.part.length
  | _, _ => 1

/-- Likelihood estimate of the auxiliary filter times the filtered mean of `φ` at the last step, for the outcome of a run on the measurements `y0` and the inputs and
measurements `qs`; a run that raises contributes `0`. -/
noncomputable def Spec.apfEstimate (a : ℕ → Slot U → Slot Y → P → ℝ) (ℓ : ℕ → Slot Y → P → ℝ) (φ : P → ℝ≥0∞) (y0 : Option (Slot Y))
    (qs : List (Slot U × Slot Y)) : PT P U Y × PyM (List (Option Bool)) → ℝ≥0∞
  | (s, .ok bs) => ENNReal.ofReal (apfFirst ℓ y0 s.traj * apfProd a ℓ 0 qs s.traj (bs.filterMap id)) *
      (match s.traj.getLast? with
        | none => 0
        | some st => wmean φ st.pa)
  | (_, .error _) => 0

/-- The model evaluates the first-stage log-weights `a`, particle by particle. -/
def Spec.FirstStage (rest : Callbacks P U Y V Ω) (good : Slot Y → Prop) (a : ℕ → Slot U → Slot Y → P → ℝ) : Prop :=
  ∀ (parts : List P) (u : Slot U) (y : Slot Y) (k : ℕ), good y → rest.evalFirstStage parts u y k = .ok (parts.map (a k u y))

/-! ### One step -/

/-- The auxiliary filter, as `mkFilter` builds it. -/
noncomputable def apfOps (M : Callbacks P U Y V Ω) (res : ℝ) : FilterOps P U Y V Ω :=
  ⟨M.createInitial, apfForward M res, pfMeasure M, fun _ _ _ _ => .error .typeError, false⟩

theorem mkFilter_apf {M : Callbacks P U Y V Ω} {N : ℕ} {res : ℝ} {name : String} {o : FilterOptions P} (h : parseFilter name = .ok .apf)
    {F : FilterOps P U Y V Ω} (hF : mkFilter M N res name o = .ok F) : F = apfOps M res := by
  unfold mkFilter at hF
  rw [h, ok_bind] at hF
  cases hF; rfl

/-- After the resampling decision: move, weight by the likelihood, divide by the first-stage weights. -/
theorem apf_second {K : MarkovModel P U Y V Ω} {N : ℕ} (hN : 0 < N) {rest : Callbacks P U Y V Ω}
    {tr : List (Step P)} {last : Step P} {yv : List (Slot Y)} {uv : List (Slot U)} {tv : List ℕ} {k : ℕ} {u : Slot U} {y : Slot Y}
    (hlast : tr.getLast? = some last) (hu : uv[k]? = some u) (hy : yv[k+1]? = some y) (ht : tv[k]? = some k) (ht1 : tv[k+1]? = some (k+1))
    {pa2 : PA P} {z x' : Fin N → P} {w2 l1 lik : Fin N → ℝ} {anc : List ℕ} (hfan : fancy last.pa.part anc = .ok (List.ofFn z))
    (hz : pa2.part = List.ofFn z) (hw : pa2.w = List.ofFn w2) {ω : Ω} {v : V} (hv : K.sampleProcessNoise (List.ofFn z) u k ω = .ok v)
    (hup : K.update (List.ofFn z) u k v = .ok (List.ofFn x')) (hm : K.measure (List.ofFn x') y (k+1) = .ok (List.ofFn lik)) :
    ∃ pa c, (do
      let pa ← pfUpdate (K.toCallbacks rest) tr anc uv yv tv k pa2 ω
      let pa ← pfMeasure (K.toCallbacks rest) tr anc pa uv yv tv (k + 1)
      apfSecondV pa (some (List.ofFn l1))) = .ok pa ∧ pa.part = List.ofFn x' ∧ pa.w = List.ofFn (fun i => w2 i + lik i - l1 i - c) ∧
        pa.num = pa2.num := by
  obtain ⟨pa', w', f1, f2, f3, fn, f4⟩ := weightUpdate_offset (pa := { pa2 with part := List.ofFn x' }) hN (by rw [hw]; simp) lik
  obtain ⟨m, hmx⟩ := npMax_ok (l := List.ofFn fun i => w' i - l1 i) (by
    intro h; have := congrArg List.length h; simp at this; omega)
  refine ⟨{ pa' with w := (List.ofFn fun i => w' i - l1 i).map (· - m) }, pa'.w_offset - pa2.w_offset + m, ?_, f2, ?_, fn⟩
  · unfold pfUpdate
    simp only [MarkovModel.toCallbacks, getLast_ok.mpr hlast, ok_bind, hfan, getLast_take_succ hu, getLast_take_succ ht, hv, hz, hup,
      pure_eq_ok]
    unfold pfMeasure
    simp only [getLast_take_succ hy, getLast_take_succ ht1, ok_bind, hm, f1]
    simp only [apfSecondV]
    rw [npSub_ok (by rw [f3]; simp), f3, zipWith_ofFn', ok_bind, hmx]
    rfl
  · simp only [List.map_ofFn]
    congr 1
    funext i
    have := f4 i
    simp only [hw, List.getD_eq_getElem?_getD, List.getElem?_ofFn, i.2, dif_pos, Option.getD_some, Fin.eta] at this
    simp only [Function.comp_apply]
    linarith

/-- What one step of the auxiliary filter does. -/
theorem apf_step_ok [MeasurableSpace P] [MeasurableSpace Ω] {K : MarkovModel P U Y V Ω} {ν : Measure Ω} {N : ℕ} (hN : 0 < N) {μ0 : Measure P}
    {M : ℕ → Slot U → Kernel P P} {ℓ : ℕ → Slot Y → P → ℝ} {good : Slot Y → Prop} (hK : Spec.Samples K good ν N μ0 M ℓ)
    {rest : Callbacks P U Y V Ω} {a : ℕ → Slot U → Slot Y → P → ℝ} (ha : Spec.FirstStage rest good a) (res : ℝ)
    {k : ℕ} {u : Slot U} {y : Slot Y} (hgy : good y) (hny : y ≠ .none)
    {tr : List (Step P)} {last : Step P} {yv : List (Slot Y)} {uv : List (Slot U)} {tv : List ℕ}
    (hlast : tr.getLast? = some last) (hu : uv[k]? = some u) (hy : yv[k+1]? = some y) (ht : tv[k]? = some k) (ht1 : tv[k+1]? = some (k+1))
    {x : Fin N → P} {w : Fin N → ℝ} (hx : last.pa.part = List.ofFn x) (hw : last.pa.w = List.ofFn w) :
    (∃ m, ∀ r, 0 < r → r < 1 → ∃ (f : Fin N → Fin N) (X : Fin N → Ω → P),
      sample ((List.ofFn fun i => w i + a k u y (x i)).map fun t => exp (t - m)) N r = .ok (List.ofFn fun i => (f i : ℕ)) ∧
      (∀ i, Measurable (X i) ∧ ν.map (X i) = M k u (x (f i))) ∧
      ∀ r2 ω, ∃ pa c, apfForward (K.toCallbacks rest) res tr yv uv tv k ⟨r, r2, ω⟩ = .ok (pa, true, List.ofFn fun i => (f i : ℕ)) ∧
        pa.part = List.ofFn (fun i => X i ω) ∧ pa.w = List.ofFn (fun i => ℓ (k+1) y (X i ω) - a k u y (x (f i)) - c) ∧ pa.num = N) ∨
    (∃ X : Fin N → Ω → P, (∀ i, Measurable (X i) ∧ ν.map (X i) = M k u (x i)) ∧
      ∀ r r2 ω, ∃ pa c, apfForward (K.toCallbacks rest) res tr yv uv tv k ⟨r, r2, ω⟩ = .ok (pa, false, List.range N) ∧
        pa.part = List.ofFn (fun i => X i ω) ∧ pa.w = List.ofFn (fun i => w i + ℓ (k+1) y (X i ω) - c) ∧ pa.num = N) := by
  have hNr : (0:ℝ) < N := by exact_mod_cast hN
  have hvne : ∀ g : Fin N → ℝ, List.ofFn g ≠ [] := by
    intro g h; have := congrArg List.length h; simp at this; omega
  obtain ⟨m1, hm1⟩ := npMax_ok (hvne fun i => w i + a k u y (x i))
  obtain ⟨pa1, hpa1⟩ : ∃ pa1 : PA P, pa1 = ⟨List.ofFn x, List.ofFn (fun i => w i + a k u y (x i) - m1), N, 0⟩ := ⟨_, rfl⟩
  have hfirst : apfFirstV (K.toCallbacks rest) uv tv k ⟨last.pa.part, last.pa.w, last.pa.part.length, 0⟩ y =
      .ok (pa1, some (List.ofFn fun i => a k u y (x i))) := by
    have main : ∀ y' : Slot Y, y' = y → (do
      let u ← getIdx uv k
      let t ← getIdx tv k
      let l1w ← (K.toCallbacks rest).evalFirstStage last.pa.part u y' t
      let w ← npAdd last.pa.w l1w
      let m ← npMax w
      pure ((⟨last.pa.part, w.map (· - m), last.pa.part.length, 0⟩ : PA P), some l1w)) =
        .ok (pa1, some (List.ofFn fun i => a k u y (x i))) := by
      rintro y' rfl
      simp only [getIdx_ok.mpr hu, getIdx_ok.mpr ht, ok_bind, MarkovModel.toCallbacks]
      rw [ha _ _ _ _ hgy, ok_bind, hx, List.map_ofFn, hw, npAdd_ok (by simp), ok_bind, zipWith_ofFn']
      simp only [Function.comp_apply, hm1, ok_bind, pure_eq_ok, List.map_ofFn, List.length_ofFn]
      rw [hpa1]
      rfl
    cases y with
    | none => exact absurd rfl hny
    | zero => exact main _ rfl
    | obj y => exact main _ rfl
  have hfwd : ∀ d : Draws Ω, ∀ pa2 b anc (z x' : Fin N → P) (w2 l1 lik : Fin N → ℝ) v,
      apfResampleV res d.r pa1 (some (List.ofFn fun i => a k u y (x i))) = .ok (pa2, b, anc, some (List.ofFn l1)) →
      fancy last.pa.part anc = .ok (List.ofFn z) → pa2.part = List.ofFn z → pa2.w = List.ofFn w2 →
      K.sampleProcessNoise (List.ofFn z) u k d.ω = .ok v → K.update (List.ofFn z) u k v = .ok (List.ofFn x') →
      K.measure (List.ofFn x') y (k+1) = .ok (List.ofFn lik) →
      ∃ pa c, apfForward (K.toCallbacks rest) res tr yv uv tv k d = .ok (pa, b, anc) ∧ pa.part = List.ofFn x' ∧
        pa.w = List.ofFn (fun i => w2 i + lik i - l1 i - c) ∧ pa.num = pa2.num := by
    intro d pa2 b anc z x' w2 l1 lik v hr hfan hz hw2 hv hup hm
    obtain ⟨pa, c, e1, e2, e3, e4⟩ := apf_second (rest := rest) (l1 := l1) hN hlast hu hy ht ht1 hfan hz hw2 hv hup hm
    refine ⟨pa, c, ?_, e2, e3, e4⟩
    rw [apfForward_eq, getLast_ok.mpr hlast]
    simp only [ok_bind, PA.new, getIdx_ok.mpr hy, hfirst, hr]
    obtain ⟨pa3, g1, g2⟩ := bind_eq_ok.mp e1
    obtain ⟨pa4, g3, g4⟩ := bind_eq_ok.mp g2
    simp only [g1, ok_bind, g3, g4, pure_eq_ok]
  have hwf : pa1.WF N := by
    rw [hpa1]; exact ⟨by simp, by simp, rfl⟩
  have hnum : pa1.num = N := hwf.num_eq
  have hw1 : pa1.w = List.ofFn (fun i => w i + a k u y (x i) - m1) := by rw [hpa1]
  have hp1 : pa1.part = List.ofFn x := by rw [hpa1]
  by_cases hres : res ≠ 0 ∧ ess pa1.w < res * N
  · left
    obtain ⟨m2, hm2⟩ := npMax_ok (hwf.w_ne hN)
    refine ⟨m1 + m2, fun r h0 h1 => ?_⟩
    obtain ⟨pa2, anc, hs, h2, h3, h4, h5, h6, h7, h8, -, -⟩ :=
      C07_resample pa1 (hwf.w_ne hN) (by rw [hwf.part_len, hwf.w_len]) N hN (r := r) ⟨h0.le, h1⟩
    rw [hwf.part_len] at h3
    obtain ⟨m', g1, g2, g3, g4, g5⟩ := resample_spec hs
    have hmm : m' = m2 := by rw [hm2] at g1; exact (Except.ok.inj g1).symm
    subst hmm
    obtain ⟨f, hf1, hf2⟩ : ∃ f : Fin N → Fin N, anc = List.ofFn (fun i => (f i : ℕ)) ∧
        ∀ {α : Type} (x : Fin N → α), fancy (List.ofFn x) anc = .ok (List.ofFn fun i => x (f i)) := by
      have hf := fun {α : Type} (x : Fin N → α) => fancy_ofFn x h3
      clear hs g2 g3
      subst h2
      obtain ⟨f, e1, e2⟩ := hf x
      refine ⟨f, e1, fun {α} x' => ?_⟩
      obtain ⟨f', e1', e2'⟩ := hf x'
      rw [e2']
      have : ∀ i, f' i = f i := by
        intro i
        have hh : (List.ofFn fun i => (f' i : ℕ)) = List.ofFn fun i => (f i : ℕ) := e1'.symm.trans e1
        have := congrFun (List.ofFn_injective hh) i
        exact Fin.ext this
      simp only [this]
    obtain ⟨X, hX, hmove⟩ := hK.move (fun i => x (f i)) u k
    refine ⟨f, X, ?_, hX, fun r2 ω => ?_⟩
    · rw [← hf1, ← g2, hw1]
      congr 1
      simp only [List.map_ofFn]
      congr 1
      funext i
      simp only [Function.comp_apply]
      congr 1; ring
    · obtain ⟨v, hv1, hv2⟩ := hmove ω
      have hr : apfResampleV res r pa1 (some (List.ofFn fun i => a k u y (x i))) = .ok (pa2, true, anc, some (List.ofFn fun i => a k u y (x (f i)))) := by
        unfold apfResampleV
        rw [if_pos hres.1, calcNeff_eq (hwf.w_ne hN), ok_bind, hnum, if_pos hres.2, hs]
        simp only [ok_bind]
        rw [hf2 fun i => a k u y (x i), ok_bind]; rfl
      rw [hp1, hf2 x] at g3
      obtain ⟨pa, c, e1, e2, e3, e4⟩ := hfwd ⟨r, r2, ω⟩ pa2 true anc (fun i => x (f i)) (fun i => X i ω) (fun _ => Real.log (1 / (N:ℝ)))
        (fun i => a k u y (x (f i))) (fun i => ℓ (k+1) y (X i ω)) v hr (by rw [hx]; exact hf2 x) (Except.ok.inj g3).symm (by rw [g4, List.ofFn_const])
        hv1 hv2 (hK.measure _ _ _ hgy)
      refine ⟨pa, c - Real.log (1 / (N:ℝ)), by rw [e1, hf1], e2, ?_, e4.trans h5⟩
      rw [e3]
      congr 1
      funext i
      ring
  · right
    obtain ⟨X, hX, hmove⟩ := hK.move x u k
    refine ⟨X, hX, fun r r2 ω => ?_⟩
    obtain ⟨v, hv1, hv2⟩ := hmove ω
    have hr : apfResampleV res r pa1 (some (List.ofFn fun i => a k u y (x i))) = .ok (pa1, false, List.range N, some (List.ofFn fun i => a k u y (x i))) := by
      unfold apfResampleV
      by_cases h0 : res ≠ 0
      · rw [if_pos h0, calcNeff_eq (hwf.w_ne hN), ok_bind, hnum, if_neg (fun h => hres ⟨h0, h⟩)]; rfl
      · rw [if_neg h0, hnum]; rfl
    obtain ⟨pa, c, e1, e2, e3, e4⟩ := hfwd ⟨r, r2, ω⟩ pa1 false (List.range N) x (fun i => X i ω) (fun i => w i + a k u y (x i) - m1)
      (fun i => a k u y (x i)) (fun i => ℓ (k+1) y (X i ω)) v hr (by rw [hx]; simpa using fancy_range (List.ofFn x)) hp1 hw1 hv1 hv2 (hK.measure _ _ _ hgy)
    refine ⟨pa, c + m1, e1, e2, ?_, e4.trans hnum⟩
    rw [e3]
    congr 1
    funext i
    ring

theorem filterMap_parents {N : ℕ} (x : Fin N → P) (f : Fin N → Fin N) :
    (List.ofFn fun i => (f i : ℕ)).filterMap ((List.ofFn x)[·]?) = List.ofFn fun i => x (f i) := by
  have h : ∀ l : List (Fin N), (l.map Fin.val).filterMap ((List.ofFn x)[·]?) = l.map x := by
    intro l
    induction l with
    | nil => rfl
    | cons j l ih =>
      rw [List.map_cons, List.filterMap_cons_some (b := x j) (by simp), ih, List.map_cons]
  have := h (List.ofFn f)
  simpa only [List.map_ofFn, Function.comp_def] using this

theorem apf_alg1 {S n T : ℝ} (hT : T ≠ 0) (c L A : ℝ) : S / n * exp c * T * (exp (L - A - c) / T) = S / n * exp (-A) * exp L := by
  rw [exp_sub, exp_sub, exp_neg]
  field_simp

theorem apf_alg2 {n s1 s2 : ℝ} (hn : n ≠ 0) (h2 : s2 ≠ 0) (w A : ℝ) : n * (exp (w + A) / s2) * (s2 / s1 / n * exp (-A)) = exp w / s1 := by
  rw [exp_add, exp_neg]
  field_simp

theorem apf_alg3 {S T : ℝ} (hT : T ≠ 0) (c w L : ℝ) : exp c / S * T * (exp (w + L - c) / T) = exp w / S * exp L := by
  rw [exp_sub, exp_add]
  field_simp

theorem apf_alg4 {s1 : ℝ} (s2 n c L A : ℝ) : s2 / s1 * (exp L / exp A / n) = s2 / s1 / n * exp c * exp (L - A - c) := by
  rw [exp_sub, exp_sub]
  field_simp

/-- The average of a step of the auxiliary filter over all its random draws. -/
theorem apf_step_value [MeasurableSpace P] [MeasurableSpace Ω] {K : MarkovModel P U Y V Ω} {ν : Measure Ω} [IsProbabilityMeasure ν] {N : ℕ} (hN : 0 < N)
    {μ0 : Measure P} {M : ℕ → Slot U → Kernel P P} {ℓ : ℕ → Slot Y → P → ℝ} {good : Slot Y → Prop} (hK : Spec.Samples K good ν N μ0 M ℓ)
    {rest : Callbacks P U Y V Ω} {a : ℕ → Slot U → Slot Y → P → ℝ} (ha : Spec.FirstStage rest good a) (res : ℝ)
    {k : ℕ} {u : Slot U} {y : Slot Y} (hgy : good y) (hny : y ≠ .none)
    {tr : List (Step P)} {last : Step P} {yv : List (Slot Y)} {uv : List (Slot U)} {tv : List ℕ}
    (hlast : tr.getLast? = some last) (hu : uv[k]? = some u) (hy : yv[k+1]? = some y) (ht : tv[k]? = some k) (ht1 : tv[k+1]? = some (k+1))
    {x : Fin N → P} {w : Fin N → ℝ} (hx : last.pa.part = List.ofFn x) (hw : last.pa.w = List.ofFn w)
    {h : P → ℝ≥0∞} (hh : Measurable h) (G : Draws Ω → ℝ≥0∞)
    (hG : ∀ d pa b anc (x' : Fin N → P) (w' : Fin N → ℝ), 0 < d.r → d.r < 1 →
      apfForward (K.toCallbacks rest) res tr yv uv tv k d = .ok (pa, b, anc) → pa.part = List.ofFn x' → pa.w = List.ofFn w' → pa.num = N →
      G d = ENNReal.ofReal (apfFactor (a k u y) (ℓ (k+1) y) last ⟨pa, anc⟩ b) * wmean h pa) :
    ∫⁻ r, ∫⁻ r2, ∫⁻ ω, G ⟨r, r2, ω⟩ ∂ν ∂unif ∂unif =
      wmean (fun x => ∫⁻ x', ENNReal.ofReal (exp (ℓ (k+1) y x')) * h x' ∂(M k u x)) last.pa := by
  haveI : Nonempty (Fin N) := ⟨⟨0, hN⟩⟩
  have hNr : (0:ℝ) < N := by exact_mod_cast hN
  obtain ⟨A, hA⟩ : ∃ A : Fin N → ℝ, A = fun i => a k u y (x i) := ⟨_, rfl⟩
  have hAi : ∀ i, a k u y (x i) = A i := fun i => by rw [hA]
  have hs : 0 < ∑ j, exp (w j) := Finset.sum_pos (fun _ _ => exp_pos _) Finset.univ_nonempty
  have hsa : 0 < ∑ j, exp (w j + A j) := Finset.sum_pos (fun _ _ => exp_pos _) Finset.univ_nonempty
  have hgm : Measurable fun x' => ENNReal.ofReal (exp (ℓ (k+1) y x')) * h x' :=
    ((measurable_exp.comp (hK.meas (k+1) y)).ennreal_ofReal).mul hh
  obtain ⟨Q, hQ⟩ : ∃ Q : P → ℝ≥0∞, Q = fun x => ∫⁻ x', ENNReal.ofReal (exp (ℓ (k+1) y x')) * h x' ∂(M k u x) := ⟨_, rfl⟩
  rw [← hQ, wmean_ofFn Q hx hw]
  -- the average over the model noise
  have hω : ∀ (z : Fin N → P) (X : Fin N → Ω → P) (c : Fin N → ℝ), (∀ i, 0 ≤ c i) → (∀ i, Measurable (X i) ∧ ν.map (X i) = M k u (z i)) →
      ∫⁻ ω, ∑ i, ENNReal.ofReal (c i) * (ENNReal.ofReal (exp (ℓ (k+1) y (X i ω))) * h (X i ω)) ∂ν = ∑ i, ENNReal.ofReal (c i) * Q (z i) := by
    intro z X c _ hX
    have hcm : ∀ i, Measurable fun ω => ENNReal.ofReal (exp (ℓ (k+1) y (X i ω))) * h (X i ω) := fun i => hgm.comp (hX i).1
    rw [lintegral_finset_sum _ (fun i _ => (hcm i).const_mul _)]
    refine Finset.sum_congr rfl fun i _ => ?_
    rw [lintegral_const_mul _ (hcm i), hQ]
    congr 1
    show _ = ∫⁻ x', ENNReal.ofReal (exp (ℓ (k+1) y x')) * h x' ∂(M k u (z i))
    rw [← (hX i).2, lintegral_map hgm (hX i).1]
  rcases apf_step_ok hN hK ha res hgy hny hlast hu hy ht ht1 hx hw with ⟨m, hstep⟩ | ⟨X, hX, hstep⟩
  · -- resampled
    obtain ⟨vl, hvl⟩ : ∃ vl : List ℝ, vl = (List.ofFn fun i => w i + A i).map fun t => exp (t - m) := ⟨_, rfl⟩
    have hW : Weights vl := by
      rw [hvl]
      exact weights_exp_sub (by intro h; have := congrArg List.length h; simp at this; omega) m
    obtain ⟨S, hS⟩ : ∃ S : ℝ, S = (∑ j, exp (w j + A j)) / ∑ j, exp (w j) := ⟨_, rfl⟩
    have hSp : 0 < S := by rw [hS]; exact div_pos hsa hs
    have hc0 : ∀ t, 0 ≤ S / N * exp (-t) := fun t => mul_nonneg (div_nonneg hSp.le hNr.le) (exp_pos _).le
    have hc1 : ∀ t T, 0 ≤ T → 0 ≤ S / N * exp t * T := fun t T hT => mul_nonneg (mul_nonneg (div_nonneg hSp.le hNr.le) (exp_pos _).le) hT
    have key : ∀ r, ∀ an : List ℕ, 0 < r → r < 1 → sample vl N r = .ok an →
        ∫⁻ r2, ∫⁻ ω, G ⟨r, r2, ω⟩ ∂ν ∂unif =
          (an.map fun j => if hj : j < N then ENNReal.ofReal (S / N * exp (-A ⟨j, hj⟩)) * Q (x ⟨j, hj⟩) else 0).sum := by
      intro r an h0 h1 han
      obtain ⟨f, X, hsamp, hX, hfw⟩ := hstep r h0 h1
      simp only [hAi] at hsamp
      rw [← hvl, han] at hsamp
      obtain rfl := Except.ok.inj hsamp
      have hGe : ∀ r2 ω, G ⟨r, r2, ω⟩ = ∑ i, ENNReal.ofReal (S / N * exp (-A (f i))) *
          (ENNReal.ofReal (exp (ℓ (k+1) y (X i ω))) * h (X i ω)) := by
        intro r2 ω
        obtain ⟨pa, c, e1, e2, e3, e4⟩ := hfw r2 ω
        rw [hG ⟨r, r2, ω⟩ pa true _ _ _ h0 h1 e1 e2 e3 e4, wmean_ofFn h e2 e3, Finset.mul_sum]
        have hf : apfFactor (a k u y) (ℓ (k+1) y) last ⟨pa, List.ofFn fun i => (f i : ℕ)⟩ true =
            S / N * exp c * ∑ j, exp (ℓ (k+1) y (X j ω) - a k u y (x (f j)) - c) := by
          simp only [apfFactor, if_true, e2, hx, filterMap_parents, normWeights, hw, List.map_ofFn, zipWith_ofFn', List.sum_ofFn,
            List.length_ofFn, Function.comp_apply, hAi]
          rw [hS, Finset.mul_sum, Finset.sum_div, Finset.mul_sum]
          refine Finset.sum_congr rfl fun j _ => ?_
          rw [← apf_alg4, Finset.sum_div]
          congr 1
          refine Finset.sum_congr rfl fun i _ => ?_
          rw [exp_add, div_mul_eq_mul_div]
        rw [hf]
        refine Finset.sum_congr rfl fun i _ => ?_
        have hT : 0 < ∑ j, exp (ℓ (k+1) y (X j ω) - a k u y (x (f j)) - c) := Finset.sum_pos (fun _ _ => exp_pos _) Finset.univ_nonempty
        rw [← mul_assoc, ← mul_assoc, ← ENNReal.ofReal_mul (hc1 c _ hT.le), ← ENNReal.ofReal_mul (hc0 _)]
        congr 2
        rw [hAi]
        exact apf_alg1 hT.ne' _ _ _
      rw [lintegral_congr fun r2 => (lintegral_congr fun ω => hGe r2 ω).trans (hω (fun i => x (f i)) X _ (fun i => hc0 _) hX), lintegral_const,
        measure_univ, mul_one, List.map_ofFn, List.sum_ofFn]
      refine Finset.sum_congr rfl fun i _ => ?_
      simp
    rw [lintegral_sample hW N _ _ key]
    have hl : vl.length = N := by rw [hvl]; simp
    rw [hl, Finset.sum_range]
    refine Finset.sum_congr rfl fun j _ => ?_
    rw [dif_pos j.2, ← mul_assoc]
    have hp : prob vl j = exp (w j + A j) / ∑ i, exp (w i + A i) := by
      rw [hvl]; exact prob_exp_sub (fun i => w i + A i) m j
    rw [hp, ← ENNReal.ofReal_mul (mul_nonneg hNr.le (div_nonneg (exp_pos _).le hsa.le))]
    congr 2
    rw [hS]
    exact apf_alg2 hNr.ne' hsa.ne' _ _
  · -- not resampled
    have hGe : ∀ r r2 ω, 0 < r → r < 1 → G ⟨r, r2, ω⟩ = ∑ i, ENNReal.ofReal (exp (w i) / ∑ j, exp (w j)) *
          (ENNReal.ofReal (exp (ℓ (k+1) y (X i ω))) * h (X i ω)) := by
      intro r r2 ω h0 h1
      obtain ⟨pa, c, e1, e2, e3, e4⟩ := hstep r r2 ω
      rw [hG ⟨r, r2, ω⟩ pa false _ _ _ h0 h1 e1 e2 e3 e4, wmean_ofFn h e2 e3, Finset.mul_sum]
      have hf : apfFactor (a k u y) (ℓ (k+1) y) last ⟨pa, List.range N⟩ false =
          exp c / (∑ j, exp (w j)) * ∑ j, exp (w j + ℓ (k+1) y (X j ω) - c) := by
        simp only [apfFactor, e2, normWeights, hw, List.map_ofFn, zipWith_ofFn', List.sum_ofFn, Function.comp_apply, Bool.false_eq_true, if_false]
        rw [Finset.mul_sum]
        refine Finset.sum_congr rfl fun j _ => ?_
        rw [exp_sub, exp_add]
        field_simp
      rw [hf]
      refine Finset.sum_congr rfl fun i _ => ?_
      have hT : 0 < ∑ j, exp (w j + ℓ (k+1) y (X j ω) - c) := Finset.sum_pos (fun _ _ => exp_pos _) Finset.univ_nonempty
      rw [← mul_assoc, ← mul_assoc, ← ENNReal.ofReal_mul (mul_nonneg (div_nonneg (exp_pos _).le hs.le) hT.le),
        ← ENNReal.ofReal_mul (div_nonneg (exp_pos _).le hs.le)]
      congr 2
      exact apf_alg3 hT.ne' _ _ _
    rw [lintegral_congr_ae (g := fun _ => ∑ i, ENNReal.ofReal (exp (w i) / ∑ j, exp (w j)) * Q (x i))]
    · rw [lintegral_const, measure_univ, mul_one]
    · filter_upwards [unif_ae] with r hr
      rw [lintegral_congr fun r2 => (lintegral_congr fun ω => hGe r r2 ω hr.1 hr.2).trans (hω x X _ (fun i => div_nonneg (exp_pos _).le hs.le) hX), lintegral_const,
        measure_univ, mul_one]

/-! ### A run -/

/-- The estimate over the steps from index `k` on. -/
noncomputable def apfTail (a : ℕ → Slot U → Slot Y → P → ℝ) (ℓ : ℕ → Slot Y → P → ℝ) (φ : P → ℝ≥0∞) (k : ℕ) (qs : List (Slot U × Slot Y)) :
    PT P U Y × PyM (List (Option Bool)) → ℝ≥0∞
  | (s, .ok bs) => ENNReal.ofReal (apfProd a ℓ k qs (s.traj.drop k) (bs.filterMap id)) *
      (match s.traj.getLast? with
        | none => 0
        | some st => wmean φ st.pa)
  | (_, .error _) => 0

theorem normWeights_nonneg {l : List ℝ} {p : ℝ} (hp : p ∈ normWeights l) : 0 ≤ p := by
  unfold normWeights at hp
  obtain ⟨t, -, rfl⟩ := List.mem_map.mp hp
  exact div_nonneg (exp_pos _).le (List.sum_nonneg fun x hx => by obtain ⟨z, -, rfl⟩ := List.mem_map.mp hx; exact (exp_pos _).le)

theorem zipWith_sum_nonneg {α β : Type} {f : α → β → ℝ} {l : List α} {l' : List β} (h : ∀ a ∈ l, ∀ b, 0 ≤ f a b) : 0 ≤ (List.zipWith f l l').sum := by
  induction l generalizing l' with
  | nil => simp
  | cons a l ih =>
    cases l' with
    | nil => simp
    | cons b l' =>
      simp only [List.zipWith_cons_cons, List.sum_cons]
      exact add_nonneg (h a (by simp) b) (ih fun a ha b => h a (by simp [ha]) b)

theorem apfFactor_nonneg (a ℓ : P → ℝ) (prev next : Step P) (b : Bool) : 0 ≤ apfFactor a ℓ prev next b := by
  unfold apfFactor
  split
  · refine mul_nonneg (zipWith_sum_nonneg fun p hp x => mul_nonneg (normWeights_nonneg hp) (exp_pos _).le) (div_nonneg ?_ (Nat.cast_nonneg _))
    exact zipWith_sum_nonneg fun x' _ x => div_nonneg (exp_pos _).le (exp_pos _).le
  · exact zipWith_sum_nonneg fun p hp x => mul_nonneg (normWeights_nonneg hp) (exp_pos _).le

/-- The expectation of the estimate over a sequence of steps. -/
theorem apf_steps_value [MeasurableSpace P] [MeasurableSpace Ω] {K : MarkovModel P U Y V Ω} {ν : Measure Ω} [IsProbabilityMeasure ν] {N : ℕ} (hN : 0 < N)
    {μ0 : Measure P} {M : ℕ → Slot U → Kernel P P} {ℓ : ℕ → Slot Y → P → ℝ} {good : Slot Y → Prop} (hK : Spec.Samples K good ν N μ0 M ℓ)
    (hnone : ∀ y, good y → y ≠ .none)
    {rest : Callbacks P U Y V Ω} {a : ℕ → Slot U → Slot Y → P → ℝ} (ha : Spec.FirstStage rest good a) (res : ℝ)
    {φ : P → ℝ≥0∞} (hφ : Measurable φ)
    (qs : List (Slot U × Slot Y)) (hqs : ∀ q ∈ qs, good q.2) {s : PT P U Y} {lg : Spec.Log U Y} (hrep : s.Rep lg)
    {last : Step P} (hlast : s.traj.getLast? = some last) {x : Fin N → P} {w : Fin N → ℝ} (hx : last.pa.part = List.ofFn x)
    (hw : last.pa.w = List.ofFn w) {k : ℕ} (hk : s.traj.length = k + 1) :
    stepsE ν qs (fun ds => apfTail a ℓ φ k qs (s.run (apfOps (K.toCallbacks rest) res) (fwd ds))) = wmean (pathE M ℓ φ k qs) last.pa := by
  obtain ⟨F, hF⟩ : ∃ F, F = apfOps (K.toCallbacks rest) res := ⟨_, rfl⟩
  rw [← hF]
  induction qs generalizing s lg last x w k with
  | nil =>
    simp only [stepsE, fwd, List.map_nil, PT.run, apfTail, hlast, apfProd, ENNReal.ofReal_one, one_mul]
    rfl
  | cons q qs ih =>
    have hne : s.traj ≠ [] := by intro h; rw [h] at hlast; simp at hlast
    have hys : lg.ys ≠ [] := by
      intro h; have := hrep.len; rw [h, hk] at this; simp at this
    have hind : s.ind1 = k + 1 := by rw [hrep.ind, ← hrep.len, hk]
    obtain ⟨b1, b2, b3, b4⟩ := hrep.forward_bufs hys q.1 q.2
    simp only [hind, Nat.add_sub_cancel] at b1 b2 b3 b4
    have hgq := hqs q (by simp)
    have main : ∀ ω0, ∫⁻ r, ∫⁻ r2, ∫⁻ ω, stepsE ν qs (fun ds => apfTail a ℓ φ k (q :: qs) (s.run F (fwd ((q.1, q.2, ω0, ⟨r, r2, ω⟩) :: ds))))
        ∂ν ∂unif ∂unif = wmean (pathE M ℓ φ k (q :: qs)) last.pa := by
      intro ω0
      rw [apf_step_value hN hK ha res hgq (hnone _ hgq) hlast b1 b2 b4 b3 hx hw (pathE_measurable M hK.meas hφ qs (k+1))
        (fun d => stepsE ν qs (fun ds => apfTail a ℓ φ k (q :: qs) (s.run F (fwd ((q.1, q.2, ω0, d) :: ds))))) ?_]
      · rfl
      · intro d pa b anc x' w' h0 h1 hfw hx' hw' _
        have hf : s.forward F q.1 q.2 ω0 d = ({ s.beforeForward q.1 q.2 with traj := s.traj ++ [⟨pa, anc⟩] }, .ok b) := by
          rw [PT.forward_eq hrep.inv]
          have he : s.ensureInit F ω0 = (s, .ok ()) := by
            unfold PT.ensureInit
            rw [if_neg (by rw [hk]; omega)]
          rw [he]
          have hfw' : F.forward s.traj (s.beforeForward q.1 q.2).yvec (s.beforeForward q.1 q.2).uvec (s.beforeForward q.1 q.2).tvec k d = .ok (pa, b, anc) := by
            rw [hF]; exact hfw
          simp only [hind, Nat.add_sub_cancel, hfw']
        set s1 : PT P U Y := { s.beforeForward q.1 q.2 with traj := s.traj ++ [⟨pa, anc⟩] } with hs1
        have hrep1 := PT.forward_rep hrep hf
        have hk1 : s1.traj.length = (k + 1) + 1 := by rw [hs1]; simp [hk]
        have hlast1 : s1.traj.getLast? = some ⟨pa, anc⟩ := by rw [hs1]; simp
        rw [← ih (fun q hq => hqs q (by simp [hq])) hrep1 hlast1 (x := x') (w := w') hx' hw' hk1, ← stepsE_const_mul ν _ ENNReal.ofReal_ne_top]
        congr 1
        funext ds
        have hcons : fwd ((q.1, q.2, ω0, d) :: ds) = .forward q.1 q.2 ω0 d :: fwd ds := rfl
        rw [hcons, run_forward_cons hf]
        rcases hr : s1.run F (fwd ds) with ⟨s2, r2⟩
        cases r2 with
        | error e => simp [apfTail]
        | ok bs =>
          obtain ⟨l, hl⟩ := fwd_prefix ds hrep1 (by rw [hs1]; simp) hr
          simp only [apfTail, List.filterMap_cons_some (f := id) (b := b) rfl]
          rw [← mul_assoc, ← ENNReal.ofReal_mul (apfFactor_nonneg _ _ _ _ _)]
          congr 2
          have hd : s2.traj.drop k = last :: ⟨pa, anc⟩ :: l := by
            rw [hl, hs1]
            obtain ⟨pre, hpre⟩ : ∃ pre, s.traj = pre ++ [last] := ⟨s.traj.dropLast, by
              rw [List.getLast?_eq_some_getLast hne, Option.some.injEq] at hlast
              rw [← hlast, List.dropLast_append_getLast]⟩
            have hpl : pre.length = k := by rw [hpre] at hk; simpa using hk
            simp only [hpre, List.append_assoc]
            rw [List.drop_append_of_le_length (by omega), ← hpl, List.drop_length]
            rfl
          have hd1 : s2.traj.drop (k+1) = ⟨pa, anc⟩ :: l := by
            rw [show k + 1 = k + 1 from rfl, ← List.drop_drop, hd]; rfl
          rw [hd, hd1, apfProd]
    simp only [stepsE]
    rw [lintegral_congr main, lintegral_const, measure_univ, mul_one]

theorem apf_steps_head [MeasurableSpace Ω] {F : FilterOps P U Y V Ω} {ν : Measure Ω} [IsProbabilityMeasure ν]
    {s : PT P U Y} {k : ℕ} (hk : s.traj.length = k + 1) (hi : s.Inv) {g : PT P U Y × PyM (List (Option Bool)) → ℝ≥0∞} (q : Slot U × Slot Y)
    (qs : List (Slot U × Slot Y)) (ω0 : Ω) :
    ∫⁻ r, ∫⁻ r2, ∫⁻ ω, stepsE ν qs (fun ds => g (s.run F (fwd ((q.1, q.2, ω0, ⟨r, r2, ω⟩) :: ds)))) ∂ν ∂unif ∂unif =
      stepsE ν (q :: qs) (fun ds => g (s.run F (fwd ds))) := by
  simp only [stepsE]
  have he : ∀ ω0, s.ensureInit F ω0 = (s, .ok ()) := by
    intro ω0
    unfold PT.ensureInit
    rw [if_neg (by rw [hk]; omega)]
  have hf : ∀ ω0 ω1 d, s.forward F q.1 q.2 ω0 d = s.forward F q.1 q.2 ω1 d := by
    intro ω0 ω1 d
    rw [PT.forward_eq hi, PT.forward_eq hi, he, he]
  have hr : ∀ ω1 d ds, s.run F (fwd ((q.1, q.2, ω1, d) :: ds)) = s.run F (fwd ((q.1, q.2, ω0, d) :: ds)) := by
    intro ω1 d ds
    simp only [fwd, List.map_cons, PT.run, PT.step, hf ω1 ω0]
  simp only [fun ω1 d ds => hr ω1 d ds]
  rw [lintegral_const, measure_univ, mul_one]

theorem apfEstimate_of_single (a : ℕ → Slot U → Slot Y → P → ℝ) (ℓ : ℕ → Slot Y → P → ℝ) (φ : P → ℝ≥0∞) (y0 : Option (Slot Y)) (qs : List (Slot U × Slot Y))
    {F : FilterOps P U Y V Ω} {s : PT P U Y} {lg : Spec.Log U Y} (hrep : s.Rep lg)
    {st : Step P} (hs : s.traj = [st]) (ds : List (Slot U × Slot Y × Ω × Draws Ω)) :
    apfEstimate a ℓ φ y0 qs (s.run F (fwd ds)) = ENNReal.ofReal (apfFirst ℓ y0 [st]) * apfTail a ℓ φ 0 qs (s.run F (fwd ds)) := by
  rcases hr : s.run F (fwd ds) with ⟨s2, r2⟩
  cases r2 with
  | error e => simp [apfEstimate, apfTail]
  | ok bs =>
    obtain ⟨l, hl⟩ := fwd_prefix ds hrep (by rw [hs]; simp) hr
    rw [hs] at hl
    have e : apfFirst ℓ y0 ([st] ++ l) = apfFirst ℓ y0 [st] := by
      cases y0 <;> rfl
    simp only [apfEstimate, apfTail, hl, List.drop_zero]
    rw [e, ENNReal.ofReal_mul, mul_assoc]
    unfold apfFirst
    split
    · exact div_nonneg (List.sum_nonneg fun x hx => by obtain ⟨z, -, rfl⟩ := List.mem_map.mp hx; exact (exp_pos _).le) (Nat.cast_nonneg _)
    · exact zero_le_one

/-- C103: run the auxiliary particle filter with any number `N > 0` of particles, any resampling threshold and any first-stage weights on a Markov model that samples
from a chain with initial law `μ0` and kernels `M` and evaluates log-likelihoods `ℓ`, all measurements present. Over the random draws of the run, the auxiliary filter's
likelihood estimate times the filtered mean of any non-negative `φ` at the last step has expectation `E[Π_t p(y_t | x_t) φ(x_T)]` — in a history that starts with
`measure(y0)` and in one that starts with `forward`. -/
theorem C103_apf_unbiased [MeasurableSpace P] [MeasurableSpace Ω] {K : MarkovModel P U Y V Ω} {ν : Measure Ω} [IsProbabilityMeasure ν]
    {N : ℕ} (hN : 0 < N) {μ0 : Measure P} {M : ℕ → Slot U → Kernel P P} {ℓ : ℕ → Slot Y → P → ℝ} {good : Slot Y → Prop} (hK : Spec.Samples K good ν N μ0 M ℓ)
    (hnone : ∀ y, good y → y ≠ .none)
    {rest : Callbacks P U Y V Ω} {a : ℕ → Slot U → Slot Y → P → ℝ} (ha : Spec.FirstStage rest good a)
    {res : ℝ} {name : String} {o : FilterOptions P} (hn : parseFilter name = .ok .apf)
    {F : FilterOps P U Y V Ω} (hF : mkFilter (K.toCallbacks rest) N res name o = .ok F)
    {φ : P → ℝ≥0∞} (hφ : Measurable φ) {T : Option ℕ} {s0 : PT P U Y}
    (h0 : PT.init N T 0 = .ok s0) (qs : List (Slot U × Slot Y)) (hqs : ∀ q ∈ qs, good q.2) :
    (∀ y0, good y0 → ∫⁻ ω, stepsE ν qs (fun ds => apfEstimate a ℓ φ (some y0) qs (s0.run F (history (some (y0, ω)) ds))) ∂ν =
      ∫⁻ x, ENNReal.ofReal (exp (ℓ 0 y0 x)) * pathE M ℓ φ 0 qs x ∂μ0) ∧
    (qs ≠ [] → stepsE ν qs (fun ds => apfEstimate a ℓ φ none qs (s0.run F (history none ds))) = ∫⁻ x, pathE M ℓ φ 0 qs x ∂μ0) := by
  have hFe := mkFilter_apf hn hF
  have hpm := fun (k : ℕ) (qs : List (Slot U × Slot Y)) => pathE_measurable M hK.meas hφ qs k
  obtain ⟨X, hX, hc⟩ := hK.create
  have hc' : ∀ ω, F.create N ω = .ok (List.ofFn fun i => X i ω) := by rw [hFe]; exact hc
  have hrep0 := PT.init_rep h0
  obtain ⟨hsN, htr⟩ := init_N h0
  have hNr : (0:ℝ) < N := by exact_mod_cast hN
  haveI : Nonempty (Fin N) := ⟨⟨0, hN⟩⟩
  have hrepl : List.replicate N (-Real.log N) = List.ofFn (fun _ : Fin N => -Real.log N) := by
    rw [List.ofFn_const]
  have hu : exp (-Real.log N) = 1 / N := by rw [exp_neg, exp_log hNr, one_div]
  constructor
  · intro y0 hy0g
    have hlm : Measurable fun x => ENNReal.ofReal (exp (ℓ 0 y0 x)) * pathE M ℓ φ 0 qs x :=
      (measurable_exp.comp (hK.meas 0 y0)).ennreal_ofReal.mul (hpm 0 qs)
    rw [← init_average hN hX hlm]
    apply lintegral_congr
    intro ω
    obtain ⟨hg, g1, g2, g3, g4⟩ := PT.growMeasure_inv hrep0.inv
    have he := ensureInit_create (s := s0.growMeasure) hN (g2.trans hsN) (by rw [← htr]; assumption) (hc' ω)
    set sI : PT P U Y := { s0.growMeasure with ind1 := 1, traj := [⟨⟨List.ofFn fun i => X i ω, List.replicate N (-Real.log N), N, 0⟩,
      List.range N⟩] } with hsI
    have hrepI : sI.Rep ⟨[], [.none]⟩ := (hrep0.growMeasure.ensureInit he).1 rfl
    have hy0 : 0 < sI.yvec.length := lt_of_getElem?_some (hrepI.ys 0 (by simp))
    have ht0 : 0 < sI.tvec.length := lt_of_getElem?_some (hrepI.ts 0 (by simp))
    have hyI : (sI.beforeMeasure y0).yvec[0]? = some y0 := by
      simp only [PT.beforeMeasure, hsI]; exact List.getElem?_set_self hy0
    have htI : (sI.beforeMeasure y0).tvec[0]? = some 0 := by
      simp only [PT.beforeMeasure, hsI]; exact List.getElem?_set_self ht0
    obtain ⟨pa', w', f1, f2, f3, fn, f4⟩ := weightUpdate_offset (pa := (⟨List.ofFn fun i => X i ω, List.replicate N (-Real.log N), N, 0⟩ : PA P)) hN
      (by simp) (fun i => ℓ 0 y0 (X i ω))
    have hmeas : s0.measure F y0 ω = ({ sI.beforeMeasure y0 with traj := [⟨pa', List.range N⟩] }, .ok ()) := by
      rw [PT.measure_eq (by rw [hFe]; rfl) hrep0.inv, he]
      have hgl : getLast sI.traj = .ok ⟨⟨List.ofFn fun i => X i ω, List.replicate N (-Real.log N), N, 0⟩, List.range N⟩ := rfl
      simp only [hgl]
      have hind : sI.ind1 - 1 = 0 := rfl
      have hm : F.measure sI.traj (List.range N) ⟨List.ofFn fun i => X i ω, List.replicate N (-Real.log N), N, 0⟩ (sI.beforeMeasure y0).uvec
          (sI.beforeMeasure y0).yvec (sI.beforeMeasure y0).tvec 0 = .ok pa' := by
        rw [hFe]
        show pfMeasure (K.toCallbacks rest) _ _ _ _ _ _ 0 = _
        unfold pfMeasure
        simp only [MarkovModel.toCallbacks, getLast_take_succ hyI, getLast_take_succ htI, ok_bind, hK.measure _ _ _ hy0g, f1]
      rw [hind, hm]
      rfl
    have hrep1 := PT.measure_rep hrep0 hmeas
    set s1 : PT P U Y := { sI.beforeMeasure y0 with traj := [⟨pa', List.range N⟩] } with hs1
    have hrun : ∀ ds, apfEstimate a ℓ φ (some y0) qs (s0.run F (history (some (y0, ω)) ds)) =
        ENNReal.ofReal (apfFirst ℓ (some y0) [⟨pa', List.range N⟩]) * apfTail a ℓ φ 0 qs (s1.run F (fwd ds)) := by
      intro ds
      rw [← apfEstimate_of_single a ℓ φ (some y0) qs hrep1 (st := ⟨pa', List.range N⟩) rfl ds]
      have : history (some (y0, ω)) ds = .measure y0 ω :: fwd ds := rfl
      rw [this]
      simp only [PT.run, PT.step, hmeas]
      rcases s1.run F (fwd ds) with ⟨s2, _ | bs⟩
      · rfl
      · simp only [apfEstimate, List.filterMap_cons_none (f := id) (a := (none : Option Bool)) rfl]
    simp only [hrun]
    rw [stepsE_const_mul ν _ ENNReal.ofReal_ne_top, hFe,
      apf_steps_value hN hK hnone ha res hφ qs hqs hrep1 (last := ⟨pa', List.range N⟩) rfl f2 f3 (k := 0) rfl, wmean_ofFn _ f2 f3, Finset.mul_sum]
    refine Finset.sum_congr rfl fun i _ => ?_
    have hwi : ∀ i : Fin N, w' i = -Real.log N + ℓ 0 y0 (X i ω) - pa'.w_offset := by
      intro i
      have := f4 i
      simp only [hrepl, List.getD_eq_getElem?_getD, List.getElem?_ofFn, i.2, dif_pos, Option.getD_some, add_zero] at this
      linarith
    have hfst : apfFirst ℓ (some y0) [⟨pa', List.range N⟩] = (∑ j, exp (ℓ 0 y0 (X j ω))) / N := by
      simp only [apfFirst, f2, List.map_ofFn, List.sum_ofFn, List.length_ofFn]; rfl
    have hTp : 0 < ∑ j, exp (ℓ 0 y0 (X j ω)) := Finset.sum_pos (fun _ _ => exp_pos _) Finset.univ_nonempty
    rw [← mul_assoc, ← mul_assoc, hfst, ← ENNReal.ofReal_mul (div_nonneg hTp.le hNr.le), ← ENNReal.ofReal_mul (one_div_nonneg.mpr hNr.le)]
    congr 2
    have hexp : ∀ j : Fin N, exp (w' j) = exp (ℓ 0 y0 (X j ω)) * (1 / N / exp pa'.w_offset) := by
      intro j
      rw [hwi j, exp_sub, exp_add, hu]; ring
    simp only [hexp, ← Finset.sum_mul]
    have hD : (1 / (N:ℝ) / exp pa'.w_offset) ≠ 0 := div_ne_zero (one_div_ne_zero hNr.ne') (exp_pos _).ne'
    rw [mul_div_mul_right _ _ hD, div_mul_div_comm, mul_comm, mul_div_mul_right _ _ hTp.ne', one_div, inv_mul_eq_div]
  · intro hne
    obtain ⟨q, qs, rfl⟩ := List.exists_cons_of_ne_nil hne
    rw [← init_average hN hX (hpm 0 (q :: qs))]
    show ∫⁻ ω0, _ ∂ν = _
    apply lintegral_congr
    intro ω
    have he := ensureInit_create (s := s0) hN hsN htr (hc' ω)
    set s1 : PT P U Y := { s0 with ind1 := 1, traj := [⟨⟨List.ofFn fun i => X i ω, List.replicate N (-Real.log N), N, 0⟩,
      List.range N⟩] } with hs1
    have hrep1 : s1.Rep ⟨[], [.none]⟩ := (hrep0.ensureInit he).1 rfl
    have hrun : ∀ d ds, apfEstimate a ℓ φ none (q :: qs) (s0.run F (history none ((q.1, q.2, ω, d) :: ds))) =
        apfTail a ℓ φ 0 (q :: qs) (s1.run F (fwd ((q.1, q.2, ω, d) :: ds))) := by
      intro d ds
      have h1 : s0.run F (history none ((q.1, q.2, ω, d) :: ds)) = s1.run F (fwd ((q.1, q.2, ω, d) :: ds)) := by
        simp only [history, fwd, List.nil_append, List.map_cons, PT.run, PT.step,
          forward_ensureInit he (by rw [hs1]; simp) q.1 q.2 d]
      rw [h1, apfEstimate_of_single a ℓ φ none (q :: qs) hrep1
        (st := ⟨⟨List.ofFn fun i => X i ω, List.replicate N (-Real.log N), N, 0⟩, List.range N⟩) rfl]
      simp only [apfFirst, ENNReal.ofReal_one, one_mul]
    simp only [hrun]
    rw [apf_steps_head (s := s1) (k := 0) rfl hrep1.inv (g := apfTail a ℓ φ 0 (q :: qs)) q qs ω, hFe,
      apf_steps_value hN hK hnone ha res hφ (q :: qs) hqs hrep1
        (last := ⟨⟨List.ofFn fun i => X i ω, List.replicate N (-Real.log N), N, 0⟩, List.range N⟩) rfl rfl hrepl (k := 0) rfl]
    rw [wmean_ofFn _ rfl hrepl]
    refine Finset.sum_congr rfl fun i _ => ?_
    congr 2
    rw [Finset.sum_const, Finset.card_univ, Fintype.card_fin, nsmul_eq_mul, hu]
    field_simp

end PyPE

import Verif.Smooth.Gibbs
import Verif.Smooth.Ffbsi
import Verif.Filter.Runs

/-!
# C96: one iteration of particle Gibbs with the filters `CPF` and `CPFAS` (filter.py:507-648), two particles

The conditional filter is run on a reference trajectory and one trajectory is drawn by following the stored ancestors. If the reference
trajectory has the smoothing law, so has the new one.
-/

namespace PyPE
open Real Spec MeasureTheory ProbabilityTheory
open scoped ENNReal

variable {P U Y V Ω : Type}

/-- The log-likelihood a conditional filter uses: a measurement that is `None` is ignored. -/
def Spec.seen (ℓ : ℕ → Slot Y → P → ℝ) (k : ℕ) (y : Slot Y) : P → ℝ :=
  match y with
  | .none => fun _ => 0
  | y => ℓ k y

/-- `FFBSi.logp_xnext_singlestep` (interfaces.py:380-411), which calls the model's `logp_xnext`, as a callback of the filters. The other
callbacks are inherited from `rest`. -/
def ffbsiFilter (logpXnext : List P → List P → Slot U → ℕ → PyM (List ℝ)) (rest : Callbacks P U Y V Ω) : Callbacks P U Y V Ω :=
  { rest with
    logpXnextSingle := fun part _ _ future find ut _ tt cur => do
      let next ← fancy future find
      let u ← getIdx ut cur
      let t ← getIdx tt cur
      logpXnext part next u t }

theorem seen_measurable [MeasurableSpace P] {ℓ : ℕ → Slot Y → P → ℝ} (hℓ : ∀ k y, Measurable (ℓ k y)) (k : ℕ) (y : Slot Y) :
    Measurable (seen ℓ k y) := by
  unfold seen
  split
  · exact measurable_const
  · exact hℓ k _

/-- A quantity computed from the finished run; a run that raises contributes `0`. -/
def Spec.runValue (H : PT P U Y → ℝ≥0∞) : PT P U Y × PyM (List (Option Bool)) → ℝ≥0∞
  | (s, .ok _) => H s
  | (_, .error _) => 0

/-! ### One step -/

theorem prob_normWeights {N : ℕ} (w : Fin N → ℝ) (j : Fin N) : prob (normWeights (List.ofFn w)) j = exp (w j) / ∑ i, exp (w i) := by
  have hs : 0 < ∑ j, exp (w j) := Finset.sum_pos (fun _ _ => exp_pos _) ⟨j, Finset.mem_univ j⟩
  unfold prob normWeights
  simp only [List.map_ofFn, List.sum_ofFn, List.getD_eq_getElem?_getD, List.getElem?_ofFn, j.2, dif_pos, Option.getD_some, Function.comp_apply, Fin.eta]
  rw [← Finset.sum_div, div_self hs.ne', div_one]

/-- Averages over one draw by weight. -/
theorem lintegral_one {w : Fin 2 → ℝ} (g : Fin 2 → ℝ≥0∞) (G : ℝ → ℝ≥0∞)
    (hG : ∀ r (a : Fin 2), 0 < r → r < 1 → sample (normWeights (List.ofFn w)) 1 r = .ok [(a : ℕ)] → G r = g a) :
    ∫⁻ r, G r ∂unif = ∑ a, ENNReal.ofReal (exp (w a) / ∑ j, exp (w j)) * g a := by
  have hW : Weights (normWeights (List.ofFn w)) := by
    rw [← expNormalised_eq]
    exact expNormalised_weights (by simp)
  have hl : (normWeights (List.ofFn w)).length = 2 := by rw [normWeights_length]; simp
  rw [lintegral_sample hW 1 (fun j => if hj : j < 2 then g ⟨j, hj⟩ else 0) G ?_, hl, Finset.sum_range]
  · refine Finset.sum_congr rfl fun a _ => ?_
    rw [dif_pos a.2, Nat.cast_one, one_mul, prob_normWeights]
  · intro r a h0 h1 ha
    obtain ⟨q, hq, hql, hqr⟩ := C01_sample_length_range hW 1 (r := r) ⟨h0.le, h1⟩
    rw [ha] at hq
    obtain rfl := Except.ok.inj hq
    obtain ⟨i, rfl⟩ := List.length_eq_one_iff.mp hql
    have hi : i < 2 := by rw [hl] at hqr; exact hqr i (by simp)
    rw [hG r ⟨i, hi⟩ h0 h1 ha, List.map_cons, List.map_nil, List.sum_singleton, dif_pos hi]

/-- The law of one step of a conditional filter with two particles; `x'` is the reference state at the new time, `Bv` the law of its ancestor. -/
def CondLaw [MeasurableSpace P] [MeasurableSpace Ω] (F : FilterOps P U Y V Ω) (ν : Measure Ω) (k : ℕ) (u : Slot U) (y : Slot Y) (κ : Kernel P P)
    (x' : P) (l : P → ℝ) (Bv : (Fin 2 → P) → (Fin 2 → ℝ) → Fin 2 → ℝ≥0∞) : Prop :=
  ∀ (tr : List (Step P)) (last : Step P) (yv : List (Slot Y)) (uv : List (Slot U)) (tv : List ℕ) (x : Fin 2 → P) (w : Fin 2 → ℝ)
    (h : Fin 2 → Fin 2 → P → ℝ≥0∞) (G : Draws Ω → ℝ≥0∞), tr.length = k + 1 → tr.getLast? = some last → GoodStep 2 last → uv[k]? = some u →
    yv[k+1]? = some y → tv[k]? = some k → tv[k+1]? = some (k+1) → last.pa.part = List.ofFn x → last.pa.w = List.ofFn w → (∀ a b, Measurable (h a b)) →
    (∀ d pa (f : Fin 2 → Fin 2) z (w' : Fin 2 → ℝ), F.forward tr yv uv tv k d = .ok (pa, true, List.ofFn fun i => (f i : ℕ)) →
      pa.part = List.ofFn ![z, x'] → pa.w = List.ofFn w' → pa.num = 2 → (∃ c, ∀ i, w' i = l (![z, x'] i) + c) → G d = h (f 0) (f 1) z) →
    ∫⁻ r, ∫⁻ r2, ∫⁻ ω, G ⟨r, r2, ω⟩ ∂ν ∂unif ∂unif =
      ∑ a, ENNReal.ofReal (exp (w a) / ∑ j, exp (w j)) * ∑ b, Bv x w b * ∫⁻ z, h a b z ∂(κ (x a))

theorem ofFn_two {α : Type} (f : Fin 2 → α) : List.ofFn f = [f 0, f 1] := by simp [List.ofFn_succ]

/-- Copying, prediction, insertion of the reference state and measurement. -/
theorem cond_tail [MeasurableSpace P] [MeasurableSpace Ω] {K : MarkovModel P U Y V Ω} {good : Slot Y → Prop} {ν : Measure Ω} {μ0 : Measure P}
    {M : ℕ → Slot U → Kernel P P} {ℓ : ℕ → Slot Y → P → ℝ} (hK : Spec.Samples K good ν 2 μ0 M ℓ) (rest : Callbacks P U Y V Ω)
    (x : Fin 2 → P) (u : Slot U) (k : ℕ) :
    ∃ X : Ω → P, Measurable X ∧ ν.map X = M k u (x 0) ∧ ∀ (tr : List (Step P)) (last : Step P) (yv : List (Slot Y)) (uv : List (Slot U)) (tv : List ℕ)
      (y : Slot Y) (x' : P) (anc : List ℕ) (ω : Ω), tr.getLast? = some last → uv[k]? = some u → yv[k+1]? = some y → tv[k]? = some k →
      tv[k+1]? = some (k+1) → (y = .none ∨ good y) → fancy last.pa.part anc = .ok (List.ofFn x) →
      ∃ pa0 pa1 part2 pa w' c, PA.new (List.ofFn x) none = .ok pa0 ∧ pfUpdate (K.toCallbacks rest) tr anc uv yv tv k pa0 ω = .ok pa1 ∧
        setLast pa1.part x' = .ok part2 ∧ condMeasure (K.toCallbacks rest) tr anc { pa1 with part := part2 } uv yv tv (k+1) = .ok pa ∧
        pa.part = List.ofFn ![X ω, x'] ∧ pa.w = List.ofFn w' ∧ pa.num = 2 ∧ ∀ i, w' i = seen ℓ (k+1) y (![X ω, x'] i) + c := by
  obtain ⟨X, hX, hmove⟩ := hK.move x u k
  refine ⟨X 0, (hX 0).1, (hX 0).2, ?_⟩
  intro tr last yv uv tv y x' anc ω hlast hu hy ht ht1 hgy hfan
  obtain ⟨v, hv1, hv2⟩ := hmove ω
  set pa1 : PA P := ⟨List.ofFn fun i => X i ω, List.replicate 2 (-Real.log (2:ℕ)), 2, 0⟩ with hpa1
  have hset : setLast pa1.part x' = .ok (List.ofFn ![X 0 ω, x']) := by simp [hpa1, setLast, ofFn_two]
  have hnew : PA.new (List.ofFn x) none = .ok ⟨List.ofFn x, List.replicate 2 (-Real.log (2:ℕ)), 2, 0⟩ := by
    simp only [PA.new, List.length_ofFn]
    rw [if_neg (by norm_num)]
  have hup : pfUpdate (K.toCallbacks rest) tr anc uv yv tv k ⟨List.ofFn x, List.replicate 2 (-Real.log (2:ℕ)), 2, 0⟩ ω = .ok pa1 := by
    unfold pfUpdate
    simp only [MarkovModel.toCallbacks, getLast_ok.mpr hlast, ok_bind, hfan, getLast_take_succ hu, getLast_take_succ ht, hv1, hv2, pure_eq_ok, hpa1]
  have hw1 : ({ pa1 with part := List.ofFn ![X 0 ω, x'] } : PA P).w.length = 2 := by simp [hpa1]
  have hmeas : good y → ∃ pa w' c, pfMeasure (K.toCallbacks rest) tr anc { pa1 with part := List.ofFn ![X 0 ω, x'] } uv yv tv (k+1) = .ok pa ∧
      pa.part = List.ofFn ![X 0 ω, x'] ∧ pa.w = List.ofFn w' ∧ pa.num = 2 ∧ ∀ i, w' i = ℓ (k+1) y (![X 0 ω, x'] i) + c := by
    intro hg
    obtain ⟨pa', w', f1, f2, f3, fn, f4⟩ := weightUpdate_offset (pa := { pa1 with part := List.ofFn ![X 0 ω, x'] }) (by norm_num : 0 < 2) hw1
      (fun i => ℓ (k+1) y (![X 0 ω, x'] i))
    refine ⟨pa', w', -Real.log (2:ℕ) - pa'.w_offset, ?_, f2, f3, fn, fun i => ?_⟩
    · unfold pfMeasure
      simp only [MarkovModel.toCallbacks, getLast_take_succ hy, getLast_take_succ ht1, ok_bind, hK.measure _ _ _ hg, f1]
    · have := f4 i
      rw [show (List.replicate 2 (-Real.log (2:ℕ))).getD (i:ℕ) 0 = -Real.log (2:ℕ) by
        rw [List.getD_eq_getElem?_getD, List.getElem?_replicate_of_lt i.2, Option.getD_some]] at this
      simp only [hpa1] at this
      linarith
  cases y with
  | none =>
    refine ⟨_, pa1, _, { pa1 with part := List.ofFn ![X 0 ω, x'] }, fun _ => -Real.log (2:ℕ), -Real.log (2:ℕ), hnew, hup, hset, ?_, rfl, ?_, rfl, fun i => ?_⟩
    · unfold condMeasure
      rw [getIdx_ok.mpr hy]; rfl
    · simp [hpa1, List.ofFn_const]
    · simp [seen]
  | zero =>
    obtain ⟨pa, w', c, h1, h2, h3, h4, h5⟩ := hmeas (by rcases hgy with h | h; cases h; exact h)
    refine ⟨_, pa1, _, pa, w', c, hnew, hup, hset, ?_, h2, h3, h4, h5⟩
    unfold condMeasure
    rw [getIdx_ok.mpr hy]; exact h1
  | obj y =>
    obtain ⟨pa, w', c, h1, h2, h3, h4, h5⟩ := hmeas (by rcases hgy with h | h; cases h; exact h)
    refine ⟨_, pa1, _, pa, w', c, hnew, hup, hset, ?_, h2, h3, h4, h5⟩
    unfold condMeasure
    rw [getIdx_ok.mpr hy]; exact h1

theorem fancy_two {α : Type} (x : Fin 2 → α) (f : Fin 2 → Fin 2) :
    fancy (List.ofFn x) (List.ofFn fun i => (f i : ℕ)) = .ok (List.ofFn fun i => x (f i)) := by
  rw [fancy_spec]
  refine ⟨by simp, fun i a hi => ?_⟩
  obtain ⟨h1, h2⟩ := List.getElem?_eq_some_iff.mp hi
  subst h2
  simp only [List.length_ofFn] at h1
  simp only [List.getElem_ofFn, List.getElem?_ofFn, h1, dif_pos, (f ⟨i, h1⟩).2, List.length_ofFn, and_self]

theorem cpf_condLaw [MeasurableSpace P] [MeasurableSpace Ω] {K : MarkovModel P U Y V Ω} {good : Slot Y → Prop} {ν : Measure Ω} [IsProbabilityMeasure ν]
    {μ0 : Measure P} {M : ℕ → Slot U → Kernel P P} {ℓ : ℕ → Slot Y → P → ℝ} (hK : Spec.Samples K good ν 2 μ0 M ℓ) (rest : Callbacks P U Y V Ω)
    {ctraj : List (Step P)} {k : ℕ} {x' : P} (hx' : RefState ctraj (k+1) x') (u : Slot U) {y : Slot Y} (hgy : y = .none ∨ good y)
    {F : FilterOps P U Y V Ω} (hF : F.forward = cpfForward (K.toCallbacks rest) ctraj) :
    CondLaw F ν k u y (M k u) x' (seen ℓ (k+1) y) (fun _ _ b => if b = 1 then 1 else 0) := by
  intro tr last yv uv tv x w h G hk hlast hgs hu hy ht ht1 hx hw hh hG
  obtain ⟨c1, hc1, hcx⟩ := hx'
  have key : ∀ r r2 (a : Fin 2), 0 < r → r < 1 → sample (normWeights (List.ofFn w)) 1 r = .ok [(a : ℕ)] →
      ∫⁻ ω, G ⟨r, r2, ω⟩ ∂ν = ∫⁻ z, h a 1 z ∂(M k u (x a)) := by
    intro r r2 a h0 h1 ha
    obtain ⟨X, hX1, hX2, hX3⟩ := cond_tail hK rest (fun i => x (![a, 1] i)) u k
    have hX2' : ν.map X = M k u (x a) := hX2
    rw [← hX2', lintegral_map (hh a 1) hX1]
    refine lintegral_congr fun ω => ?_
    obtain ⟨pa0, pa1, part2, pa, w', c, e1, e2, e3, e4, e5, e6, e7, e8⟩ := hX3 tr last yv uv tv y x' (List.ofFn fun i => ((![a, 1] i : Fin 2) : ℕ)) ω hlast hu hy ht ht1
      hgy (by rw [hx]; exact fancy_two x ![a, 1])
    refine hG ⟨r, r2, ω⟩ pa ![a, 1] (X ω) w' ?_ e5 e6 e7 ⟨c, e8⟩
    rw [hF]
    have hanc : [(a : ℕ)] ++ [2 - 1] = List.ofFn fun i => ((![a, 1] i : Fin 2) : ℕ) := by simp [ofFn_two]
    unfold cpfForward
    simp only [getIdx_ok.mpr (getLast_of_idx hk hlast), ok_bind, getLast_ok.mpr hlast, hgs.pa.part_len, hw, expNormalised_eq,
      show (2 - 1 : ℕ) = 1 from rfl, ha]
    rw [show [(a : ℕ)] ++ [1] = _ from hanc, hx, fancy_two x ![a, 1]]
    simp only [ok_bind, e1, e2, getIdx_ok.mpr hc1, getIdx_ok.mpr hcx, e3, e4, pure_eq_ok]
  rw [lintegral_one (w := w) (fun a => ∫⁻ z, h a 1 z ∂(M k u (x a))) _ ?_]
  · refine Finset.sum_congr rfl fun a _ => ?_
    rw [Fin.sum_univ_two]
    simp
  · intro r a h0 h1 ha
    rw [lintegral_congr (fun r2 => key r r2 a h0 h1 ha), lintegral_const]
    simp

theorem condAncestor_of_sample {v w : Fin 2 → ℝ} {r : ℝ} {b : ℕ} (h : sample (normWeights (List.ofFn fun i => v i + w i)) 1 r = .ok [b]) :
    condAncestor (List.ofFn v) (List.ofFn w) r = .ok b := by
  unfold condAncestor
  rw [npAdd_ok (by simp), zipWith_ofFn']
  simp only [ok_bind]
  obtain ⟨m, hm⟩ := npMax_ok (l := List.ofFn fun i => v i + w i) (by simp)
  rw [hm]
  simp only [ok_bind]
  have e : ((((List.ofFn fun i => v i + w i).map (· - m)).map exp).map (· / (((List.ofFn fun i => v i + w i).map (· - m)).map exp).sum)) =
      normWeights (List.ofFn fun i => v i + w i) := by
    rw [← normWeights_shift _ (-m), ← expNormalised_eq]
    simp only [sub_eq_add_neg]
    rfl
  rw [e, h]
  rfl

theorem cpfas_condLaw [MeasurableSpace P] [MeasurableSpace Ω] {K : MarkovModel P U Y V Ω} {good : Slot Y → Prop} {ν : Measure Ω} [IsProbabilityMeasure ν]
    {μ0 : Measure P} {M : ℕ → Slot U → Kernel P P} {ℓ : ℕ → Slot Y → P → ℝ} (hK : Spec.Samples K good ν 2 μ0 M ℓ) (rest : Callbacks P U Y V Ω)
    {logpXnext : List P → List P → Slot U → ℕ → PyM (List ℝ)} {lx : ℕ → Slot U → P → P → ℝ} (hlx : Spec.LogDensity logpXnext lx)
    {ctraj : List (Step P)} {k : ℕ} {x' : P} (hx' : RefState ctraj (k+1) x') (u : Slot U) {y : Slot Y} (hgy : y = .none ∨ good y)
    {F : FilterOps P U Y V Ω} (hF : F.forward = cpfasForward (K.toCallbacks (ffbsiFilter logpXnext rest)) ctraj) :
    CondLaw F ν k u y (M k u) x' (seen ℓ (k+1) y) (fun x w b => ENNReal.ofReal (exp (w b) * exp (lx k u (x b) x') /
      ∑ j, exp (w j) * exp (lx k u (x j) x'))) := by
  intro tr last yv uv tv x w h G hk hlast hgs hu hy ht ht1 hx hw hh hG
  obtain ⟨c1, hc1, hcx⟩ := hx'
  have hlog : (K.toCallbacks (ffbsiFilter logpXnext rest)).logpXnextSingle (List.ofFn x) (tr.take k) last.ancestors c1.pa.part (List.replicate 2 0) uv yv tv k =
      .ok (List.ofFn fun i => lx k u (x i) x') := by
    have hf : fancy c1.pa.part (List.replicate 2 0) = .ok [x', x'] := by
      rw [fancy_spec]
      refine ⟨by simp, fun i a hi => ?_⟩
      obtain ⟨h1, h2⟩ := List.getElem?_eq_some_iff.mp hi
      simp only [List.length_replicate] at h1
      simp only [List.getElem_replicate] at h2
      subst h2
      refine ⟨?_, lt_of_getElem?_some hcx⟩
      rw [hcx]
      interval_cases i <;> rfl
    show (do
      let next ← fancy c1.pa.part (List.replicate 2 0)
      let u ← getIdx uv k
      let t ← getIdx tv k
      logpXnext (List.ofFn x) next u t) = _
    simp only [hf, ok_bind, getIdx_ok.mpr hu, getIdx_ok.mpr ht]
    rw [hlx _ _ _ _ (by simp)]
    simp [ofFn_two]
  have key : ∀ r r2 (a b : Fin 2), 0 < r → r < 1 → sample (normWeights (List.ofFn w)) 1 r = .ok [(a : ℕ)] →
      sample (normWeights (List.ofFn fun i => lx k u (x i) x' + w i)) 1 r2 = .ok [(b : ℕ)] →
      ∫⁻ ω, G ⟨r, r2, ω⟩ ∂ν = ∫⁻ z, h a b z ∂(M k u (x a)) := by
    intro r r2 a b h0 h1 ha hb
    obtain ⟨X, hX1, hX2, hX3⟩ := cond_tail hK (ffbsiFilter logpXnext rest) (fun i => x (![a, b] i)) u k
    have hX2' : ν.map X = M k u (x a) := hX2
    rw [← hX2', lintegral_map (hh a b) hX1]
    refine lintegral_congr fun ω => ?_
    obtain ⟨pa0, pa1, part2, pa, w', c, e1, e2, e3, e4, e5, e6, e7, e8⟩ := hX3 tr last yv uv tv y x' (List.ofFn fun i => ((![a, b] i : Fin 2) : ℕ)) ω hlast hu hy ht ht1
      hgy (by rw [hx]; exact fancy_two x ![a, b])
    refine hG ⟨r, r2, ω⟩ pa ![a, b] (X ω) w' ?_ e5 e6 e7 ⟨c, e8⟩
    rw [hF]
    have hanc : [(a : ℕ)] ++ [(b : ℕ)] = List.ofFn fun i => ((![a, b] i : Fin 2) : ℕ) := by simp [ofFn_two]
    have f1 : fancy (List.ofFn x) (List.range 2) = .ok (List.ofFn x) := by
      have := fancy_range (List.ofFn x); rwa [List.length_ofFn] at this
    have f2 : fancy last.ancestors (List.range 2) = .ok last.ancestors := by
      have := fancy_range last.ancestors; rwa [hgs.anc_len] at this
    have f3 : fancy (List.ofFn w) (List.range 2) = .ok (List.ofFn w) := by
      have := fancy_range (List.ofFn w); rwa [List.length_ofFn] at this
    unfold cpfasForward
    simp only [getIdx_ok.mpr (getLast_of_idx hk hlast), ok_bind, getLast_ok.mpr hlast, hgs.pa.part_len, hw, expNormalised_eq,
      show (2 - 1 : ℕ) = 1 from rfl, ha]
    rw [hx, f1, f2, f3]
    simp only [ok_bind, getIdx_ok.mpr hc1, hlog, condAncestor_of_sample hb]
    rw [hanc, fancy_two x ![a, b]]
    simp only [ok_bind, e1, e2, getIdx_ok.mpr hcx, e3, e4, pure_eq_ok]
  rw [lintegral_one (w := w) (fun a => ∑ b, ENNReal.ofReal (exp (w b) * exp (lx k u (x b) x') / ∑ j, exp (w j) * exp (lx k u (x j) x')) *
    ∫⁻ z, h a b z ∂(M k u (x a))) _ ?_]
  · intro r a h0 h1 ha
    rw [lintegral_one (w := fun i => lx k u (x i) x' + w i) (fun b => ∫⁻ z, h a b z ∂(M k u (x a))) _ fun r2 b _ _ hb => key r r2 a b h0 h1 ha hb]
    refine Finset.sum_congr rfl fun b _ => ?_
    simp only [exp_add, mul_comm (exp (lx k u _ x'))]

/-! ### A run with a fixed reference trajectory -/

theorem cop_update (x0 : P) (tr : List (Step P)) {n k : ℕ} (hn : n < k) (i : ℕ) (Γ : (ℕ → P) → ℝ≥0∞) (x : P) (s : ℕ → P) :
    cop x0 tr n i Γ (Function.update s k x) = cop x0 tr n i (fun s => Γ (Function.update s k x)) s := by
  induction n generalizing i s with
  | zero => simp only [cop]; rw [Function.update_comm (by omega)]
  | succ n ih => simp only [cop]; rw [Function.update_comm (by omega), ih (by omega)]

theorem norm_shift {l : P → ℝ} {x : Fin 2 → P} {w : Fin 2 → ℝ} {c : ℝ} (h : ∀ i, w i = l (x i) + c) (i : Fin 2) :
    exp (w i) / ∑ j, exp (w j) = exp (l (x i)) / ∑ j, exp (l (x j)) := by
  simp only [h, exp_add, ← Finset.sum_mul]
  exact mul_div_mul_right _ _ (exp_pos c).ne'

theorem steps_gibbs [MeasurableSpace P] [MeasurableSpace Ω] {F : FilterOps P U Y V Ω} {ν : Measure Ω} [IsProbabilityMeasure ν]
    {M : ℕ → Slot U → Kernel P P} (hM : ∀ k u, IsMarkovKernel (M k u)) {ℓ : ℕ → Slot Y → P → ℝ} (hℓ : ∀ k y, Measurable (ℓ k y))
    {B : ℕ → Slot U → (P → ℝ) → (Fin 2 → ℕ → P) → P → Fin 2 → ℝ≥0∞}
    (hB : ∀ k u l b, Measurable l → Measurable fun z : (Fin 2 → ℕ → P) × P => B k u l z.1 z.2 b)
    {Bv : ℕ → Slot U → P → (Fin 2 → P) → (Fin 2 → ℝ) → Fin 2 → ℝ≥0∞}
    (hBv : ∀ k u l (p : Fin 2 → ℕ → P) x' (w : Fin 2 → ℝ) c b, (∀ i, w i = l (p i k) + c) → Bv k u x' (fun i => p i k) w b = B k u l p x' b)
    {good : Slot Y → Prop} {K : ℕ} {σ : ℕ → P}
    (hS : ∀ k u y, good y → k < K → CondLaw F ν k u y (M k u) (σ (k+1)) (ℓ (k+1) y) (Bv k u (σ (k+1))))
    {φ : List P → ℝ≥0∞} (hφ : ∀ n, Measurable fun x : Fin n → P => φ (List.ofFn x)) {x0 : P} {H : PT P U Y → ℝ≥0∞}
    (hH : ∀ (s : PT P U Y) us ys last (x : Fin 2 → P) (w : Fin 2 → ℝ), s.Rep ⟨us.map some, ys⟩ → s.traj.length = K + 1 →
      (∀ st ∈ s.traj, GoodStep 2 st) → s.traj.getLast? = some last → last.pa.part = List.ofFn x → last.pa.w = List.ofFn w →
      H s = ∑ i, ENNReal.ofReal (exp (w i) / ∑ j, exp (w j)) * copE 2 x0 s.traj us (fun s => φ ((List.range (K+1)).map s)) i)
    (qs : List (Slot U × Slot Y)) (hqs : ∀ q ∈ qs, good q.2) {s : PT P U Y} {us : List (Slot U)} {ys : List (Slot Y)}
    (hrep : s.Rep ⟨us.map some, ys⟩) (hgs : ∀ st ∈ s.traj, GoodStep 2 st)
    {last : Step P} (hlast : s.traj.getLast? = some last) {x : Fin 2 → P} {w : Fin 2 → ℝ} (hx : last.pa.part = List.ofFn x)
    (hw : last.pa.w = List.ofFn w) {k : ℕ} (hk : s.traj.length = k + 1) (hK : K = k + qs.length) {l : P → ℝ} (hl : Measurable l)
    {c : ℝ} (hwl : ∀ i, w i = l (x i) + c) {p : Fin 2 → ℕ → P} (hp : ∀ i Γ, copE 2 x0 s.traj us Γ i = Γ (p i)) (hpx : ∀ i, p i k = x i) :
    stepsE ν qs (fun ds => runValue H (s.run F (fwd ds))) = gibbsE M ℓ B φ k l qs p σ := by
  induction qs generalizing s us ys last x w k l c p with
  | nil =>
    simp only [stepsE, fwd, List.map_nil, PT.run, runValue]
    obtain rfl : K = k := hK
    rw [hH s us ys last x w hrep hk hgs hlast hx hw]
    simp only [gibbsE, wts, hpx, hp]
    exact Finset.sum_congr rfl fun i _ => by rw [norm_shift hwl]
  | cons q qs ih =>
    have hne : s.traj ≠ [] := by intro h; rw [h] at hlast; simp at hlast
    have hys : ys ≠ [] := by
      intro h; have := hrep.len; rw [hk, h] at this; simp at this
    have hysl : ys.length = k + 1 := by rw [← hk]; exact hrep.len.symm
    have hind : s.ind1 = k + 1 := by rw [hrep.ind]; exact hysl
    obtain ⟨b1, b2, b3, b4⟩ := hrep.forward_bufs hys q.1 q.2
    simp only [hind, Nat.add_sub_cancel] at b1 b2 b3 b4
    have hm := gibbsE_measurable hM hℓ hB hφ (k+1) (hℓ (k+1) q.2) qs
    have main : ∀ ω0, ∫⁻ r, ∫⁻ r2, ∫⁻ ω, stepsE ν qs (fun ds => runValue H (s.run F (fwd ((q.1, q.2, ω0, ⟨r, r2, ω⟩) :: ds))))
        ∂ν ∂unif ∂unif = gibbsE M ℓ B φ k l (q :: qs) p σ := by
      intro ω0
      rw [hS k q.1 q.2 (hqs q (by simp)) (by rw [hK]; simp) s.traj last _ _ _ x w
        (fun a b z => gibbsE M ℓ B φ (k+1) (ℓ (k+1) q.2) qs (ext2 p k a b z (σ (k+1))) σ)
        (fun d => stepsE ν qs (fun ds => runValue H (s.run F (fwd ((q.1, q.2, ω0, d) :: ds))))) hk hlast
        (hgs last (List.mem_of_getLast? hlast)) b1 b2 b4 b3 hx hw ?_ ?_]
      · simp only [gibbsE]
        refine Finset.sum_congr rfl fun a _ => ?_
        rw [wts, ← norm_shift (x := fun i => p i k) (c := c) (w := w) (fun i => by rw [hwl, hpx])]
        congr 1
        refine Finset.sum_congr rfl fun b _ => ?_
        rw [← hBv k q.1 l p (σ (k+1)) w c b (fun i => by rw [hwl, hpx]), hpx]
        rw [show (fun i => p i k) = x from funext hpx]
      · intro a b
        exact hm.comp (f := fun z => (ext2 p k a b z (σ (k+1)), σ)) ((measurable_ext2 measurable_const measurable_id measurable_const k a b).prodMk measurable_const)
      · rintro d pa f z w' hfw hx' hw' hn' ⟨c', hc'⟩
        have hf : s.forward F q.1 q.2 ω0 d = ({ s.beforeForward q.1 q.2 with traj := s.traj ++ [⟨pa, List.ofFn fun i => (f i : ℕ)⟩] }, .ok true) := by
          rw [PT.forward_eq hrep.inv]
          have he : s.ensureInit F ω0 = (s, .ok ()) := by
            unfold PT.ensureInit
            rw [if_neg (by rw [hk]; omega)]
          rw [he]
          simp only [hind, Nat.add_sub_cancel, hfw]
        set s1 : PT P U Y := { s.beforeForward q.1 q.2 with traj := s.traj ++ [⟨pa, List.ofFn fun i => (f i : ℕ)⟩] } with hs1
        have hrep1 := PT.forward_rep hrep hf
        rw [show Spec.Log.forward ⟨us.map some, ys⟩ q.1 q.2 = ⟨(us ++ [q.1]).map some, ys ++ [q.2]⟩ by
          unfold Spec.Log.forward; rw [if_neg hys]; simp] at hrep1
        have hk1 : s1.traj.length = (k + 1) + 1 := by rw [hs1]; simp [hk]
        have hlast1 : s1.traj.getLast? = some ⟨pa, List.ofFn fun i => (f i : ℕ)⟩ := by rw [hs1]; simp
        have hgs1 : ∀ st ∈ s1.traj, GoodStep 2 st := by
          intro st hst
          rw [hs1] at hst
          rcases List.mem_append.mp hst with h | h
          · exact hgs st h
          · rw [List.mem_singleton.mp h]
            exact goodStep_ofFn hx' hw' hn' rfl
        have hp1 : ∀ i Γ, copE 2 x0 s1.traj (us ++ [q.1]) Γ i = Γ (ext2 p k (f 0) (f 1) z (σ (k+1)) i) := by
          intro i Γ
          have hl1 : s1.traj.length - 1 = k + 1 := by omega
          have hi : (s.traj ++ [(⟨pa, List.ofFn fun i => (f i : ℕ)⟩ : Step P)])[k+1]? = some ⟨pa, List.ofFn fun i => (f i : ℕ)⟩ := by
            rw [List.getElem?_append_right (by omega), hk]; simp
          unfold copE
          rw [hl1]
          simp only [cop, hs1]
          rw [partAt_eq x0 hi hx' i, ancAt_eq hi rfl i, cop_append x0 (by omega), cop_update x0 _ (by omega)]
          have := hp (f i) (fun s => Γ (Function.update s (k+1) (![z, σ (k+1)] i)))
          unfold copE at this
          rw [hk, Nat.add_sub_cancel] at this
          rw [this]
          congr 1
          fin_cases i <;> simp [ext2]
        have hpx1 : ∀ i, ext2 p k (f 0) (f 1) z (σ (k+1)) i (k+1) = ![z, σ (k+1)] i := by
          intro i
          fin_cases i <;> simp [ext2]
        have hIH := ih (fun q hq => hqs q (by simp [hq])) hrep1 hgs1 hlast1 (x := ![z, σ (k+1)]) (w := w') hx' hw' hk1
          (by rw [hK]; simp only [List.length_cons]; omega) (hℓ (k+1) q.2) hc' hp1 hpx1
        rw [← hIH]
        congr 1
        funext ds
        have hcons : fwd ((q.1, q.2, ω0, d) :: ds) = .forward q.1 q.2 ω0 d :: fwd ds := rfl
        rw [hcons, run_forward_cons hf]
        rcases s1.run F (fwd ds) with ⟨s2, _ | bs⟩ <;> rfl
    simp only [stepsE]
    rw [lintegral_congr main, lintegral_const, measure_univ, mul_one]

/-- The two lineages at time 0. -/
def pair0 (x0 : P) (x x' : P) : Fin 2 → ℕ → P := fun i => Function.update (fun _ => x0) 0 (![x, x'] i)

theorem pair0_measurable [MeasurableSpace P] {Z : Type} [MeasurableSpace Z] (x0 : P) {x x' : Z → P} (hx : Measurable x) (hx' : Measurable x') :
    Measurable fun z => pair0 x0 (x z) (x' z) := by
  refine measurable_pi_lambda _ fun i => ?_
  unfold pair0
  refine (measurable_updateAt (P := P) 0).comp (measurable_const.prodMk ?_)
  fin_cases i
  · exact hx
  · exact hx'

/-- Both kinds of histories, for a fixed reference trajectory. -/
theorem run_pair [MeasurableSpace P] [MeasurableSpace Ω] {F : FilterOps P U Y V Ω} {ν : Measure Ω} [IsProbabilityMeasure ν] {xr : P}
    (qs : List (Slot U × Slot Y)) {H : PT P U Y → ℝ≥0∞} {G : (P → ℝ) → P → ℝ≥0∞} (hgm : ∀ l, Measurable l → Measurable (G l))
    (hst : ∀ (l : P → ℝ) (s : PT P U Y) ys (st : Step P) (x : P) (w : Fin 2 → ℝ) (c : ℝ), Measurable l → s.Rep ⟨([] : List (Slot U)).map some, ys⟩ →
      s.traj = [st] → GoodStep 2 st → st.pa.part = List.ofFn ![x, xr] → st.pa.w = List.ofFn w → (∀ i, w i = l (![x, xr] i) + c) →
      stepsE ν qs (fun ds => runValue H (s.run F (fwd ds))) = G l x)
    {μ0 : Measure P} {X : Ω → P} (hX : Measurable X) (hXμ : ν.map X = μ0)
    (hc : ∀ ω, F.create 2 ω = .ok (List.ofFn ![X ω, xr])) (hpfy : F.usingPfy = false)
    {T : Option ℕ} {s0 : PT P U Y} (h0 : PT.init 2 T 0 = .ok s0) :
    (∀ (y0 : Slot Y) (l : P → ℝ), Measurable l →
      (∀ (tr : List (Step P)) (anc : List ℕ) (pa : PA P) (x : Fin 2 → P) uv yv tv, pa.part = List.ofFn x → pa.w.length = 2 →
        yv[0]? = some y0 → tv[0]? = some 0 → ∃ pa' w', F.measure tr anc pa uv yv tv 0 = .ok pa' ∧ pa'.part = List.ofFn x ∧ pa'.w = List.ofFn w' ∧
        pa'.num = pa.num ∧ ∀ i : Fin 2, w' i + pa'.w_offset = pa.w.getD i 0 + pa.w_offset + l (x i)) →
      ∫⁻ ω, stepsE ν qs (fun ds => runValue H (s0.run F (history (some (y0, ω)) ds))) ∂ν = ∫⁻ x, G l x ∂μ0) ∧
    (qs ≠ [] → stepsE ν qs (fun ds => runValue H (s0.run F (history none ds))) = ∫⁻ x, G (fun _ => 0) x ∂μ0) := by
  have hrep0 := PT.init_rep h0
  obtain ⟨hsN, htr⟩ := init_N h0
  have hrepl : List.replicate 2 (-Real.log (2:ℕ)) = List.ofFn (fun _ : Fin 2 => -Real.log (2:ℕ)) := by
    rw [List.ofFn_const]
  have hrange : List.range 2 = List.ofFn (fun i : Fin 2 => ((id i : Fin 2) : ℕ)) := by rw [ofFn_two]; rfl
  constructor
  · intro y0 l hl hm
    rw [← hXμ, lintegral_map (hgm l hl) hX]
    apply lintegral_congr
    intro ω
    obtain ⟨hg, g1, g2, g3, g4⟩ := PT.growMeasure_inv hrep0.inv
    have he := ensureInit_create (s := s0.growMeasure) (by norm_num : 0 < 2) (g2.trans hsN) (by rw [← htr]; assumption) (hc ω)
    set sI : PT P U Y := { s0.growMeasure with ind1 := 1, traj := [⟨⟨List.ofFn ![X ω, xr], List.replicate 2 (-Real.log (2:ℕ)), 2, 0⟩,
      List.range 2⟩] } with hsI
    have hrepI : sI.Rep ⟨[], [.none]⟩ := (hrep0.growMeasure.ensureInit he).1 rfl
    have hy0 : 0 < sI.yvec.length := lt_of_getElem?_some (hrepI.ys 0 (by simp))
    have ht0 : 0 < sI.tvec.length := lt_of_getElem?_some (hrepI.ts 0 (by simp))
    obtain ⟨pa', w', f1, f2, f3, fn, f4⟩ := hm sI.traj (List.range 2) ⟨List.ofFn ![X ω, xr], List.replicate 2 (-Real.log (2:ℕ)), 2, 0⟩
      ![X ω, xr] (sI.beforeMeasure y0).uvec (sI.beforeMeasure y0).yvec (sI.beforeMeasure y0).tvec rfl (by simp)
      (by simp only [PT.beforeMeasure, hsI]; exact List.getElem?_set_self hy0)
      (by simp only [PT.beforeMeasure, hsI]; exact List.getElem?_set_self ht0)
    have hmeas : s0.measure F y0 ω = ({ sI.beforeMeasure y0 with traj := [⟨pa', List.range 2⟩] }, .ok ()) := by
      rw [PT.measure_eq hpfy hrep0.inv, he]
      have hgl : getLast sI.traj = .ok ⟨⟨List.ofFn ![X ω, xr], List.replicate 2 (-Real.log (2:ℕ)), 2, 0⟩, List.range 2⟩ := rfl
      simp only [hgl]
      have hind : sI.ind1 - 1 = 0 := rfl
      rw [hind, f1]
      rfl
    have hrep1 := PT.measure_rep hrep0 hmeas
    set s1 : PT P U Y := { sI.beforeMeasure y0 with traj := [⟨pa', List.range 2⟩] } with hs1
    have hrep1' : s1.Rep ⟨([] : List (Slot U)).map some, [y0]⟩ := by simpa [Spec.Log.measure, hpfy] using hrep1
    have hrun : ∀ ds, runValue H (s0.run F (history (some (y0, ω)) ds)) = runValue H (s1.run F (fwd ds)) := by
      intro ds
      have : history (some (y0, ω)) ds = .measure y0 ω :: fwd ds := rfl
      rw [this]
      simp only [PT.run, PT.step, hmeas]
      rcases s1.run F (fwd ds) with ⟨s2, _ | bs⟩ <;> rfl
    simp only [hrun]
    have hgs1 : ∀ st ∈ s1.traj, GoodStep 2 st := by
      intro st hst
      rw [List.mem_singleton.mp hst]
      exact goodStep_ofFn f2 f3 fn hrange
    refine hst l s1 _ ⟨pa', List.range 2⟩ (X ω) w' (-Real.log (2:ℕ) - pa'.w_offset) hl hrep1' rfl (hgs1 _ (List.mem_singleton_self _)) f2 f3 (fun i => ?_)
    have := f4 i
    rw [show (List.replicate 2 (-Real.log (2:ℕ))).getD (i:ℕ) 0 = -Real.log (2:ℕ) by
      rw [List.getD_eq_getElem?_getD, List.getElem?_replicate_of_lt i.2, Option.getD_some]] at this
    linarith
  · intro hne
    obtain ⟨q, qs, rfl⟩ := List.exists_cons_of_ne_nil hne
    rw [← hXμ, lintegral_map (hgm _ measurable_const) hX]
    show ∫⁻ ω0, _ ∂ν = _
    apply lintegral_congr
    intro ω
    have he := ensureInit_create (s := s0) (by norm_num : 0 < 2) hsN htr (hc ω)
    set s1 : PT P U Y := { s0 with ind1 := 1, traj := [⟨⟨List.ofFn ![X ω, xr], List.replicate 2 (-Real.log (2:ℕ)), 2, 0⟩,
      List.range 2⟩] } with hs1
    have hrep1 : s1.Rep ⟨([] : List (Slot U)).map some, [.none]⟩ := (hrep0.ensureInit he).1 rfl
    have hrun : ∀ d ds, runValue H (s0.run F (history none ((q.1, q.2, ω, d) :: ds))) =
        runValue H (s1.run F (fwd ((q.1, q.2, ω, d) :: ds))) := by
      intro d ds
      simp only [history, fwd, List.nil_append, List.map_cons, PT.run, PT.step,
          forward_ensureInit he (by rw [hs1]; simp) q.1 q.2 d]
    simp only [hrun]
    have hgs1 : ∀ st ∈ s1.traj, GoodStep 2 st := by
      intro st hst
      rw [List.mem_singleton.mp hst]
      exact goodStep_ofFn rfl hrepl rfl hrange
    have hst' := hst (fun _ => 0) s1 _ ⟨⟨List.ofFn ![X ω, xr], List.replicate 2 (-Real.log (2:ℕ)), 2, 0⟩, List.range 2⟩ (X ω) _ (-Real.log (2:ℕ))
      measurable_const hrep1 rfl (hgs1 _ (List.mem_singleton_self _)) rfl hrepl (fun i => by simp)
    rw [← hst']
    simp only [stepsE]
    have he1 : ∀ ω0, s1.ensureInit F ω0 = (s1, .ok ()) := by
      intro ω0
      unfold PT.ensureInit
      rw [if_neg (by simp [hs1])]
    have hf : ∀ ω0 ω1 d, s1.forward F q.1 q.2 ω0 d = s1.forward F q.1 q.2 ω1 d := by
      intro ω0 ω1 d
      rw [PT.forward_eq hrep1.inv, PT.forward_eq hrep1.inv, he1, he1]
    have hr : ∀ ω1 d ds, s1.run F (fwd ((q.1, q.2, ω1, d) :: ds)) = s1.run F (fwd ((q.1, q.2, ω, d) :: ds)) := by
      intro ω1 d ds
      simp only [fwd, List.map_cons, PT.run, PT.step, hf ω1 ω]
    simp only [fun ω1 d ds => hr ω1 d ds]
    rw [lintegral_const, measure_univ, mul_one]

/-- A run with the lineages of the two particles. -/
theorem run_gibbs [MeasurableSpace P] [MeasurableSpace Ω] {F : FilterOps P U Y V Ω} {ν : Measure Ω} [IsProbabilityMeasure ν]
    {M : ℕ → Slot U → Kernel P P} (hM : ∀ k u, IsMarkovKernel (M k u)) {ℓ : ℕ → Slot Y → P → ℝ} (hℓ : ∀ k y, Measurable (ℓ k y))
    {B : ℕ → Slot U → (P → ℝ) → (Fin 2 → ℕ → P) → P → Fin 2 → ℝ≥0∞}
    (hB : ∀ k u l b, Measurable l → Measurable fun z : (Fin 2 → ℕ → P) × P => B k u l z.1 z.2 b)
    {Bv : ℕ → Slot U → P → (Fin 2 → P) → (Fin 2 → ℝ) → Fin 2 → ℝ≥0∞}
    (hBv : ∀ k u l (p : Fin 2 → ℕ → P) x' (w : Fin 2 → ℝ) c b, (∀ i, w i = l (p i k) + c) → Bv k u x' (fun i => p i k) w b = B k u l p x' b)
    {good : Slot Y → Prop} {σ : ℕ → P} (qs : List (Slot U × Slot Y)) (hqs : ∀ q ∈ qs, good q.2)
    (hS : ∀ k u y, good y → k < qs.length → CondLaw F ν k u y (M k u) (σ (k+1)) (ℓ (k+1) y) (Bv k u (σ (k+1))))
    {φ : List P → ℝ≥0∞} (hφ : ∀ n, Measurable fun x : Fin n → P => φ (List.ofFn x)) {x0 : P} {H : PT P U Y → ℝ≥0∞}
    (hH : ∀ (s : PT P U Y) us ys last (x : Fin 2 → P) (w : Fin 2 → ℝ), s.Rep ⟨us.map some, ys⟩ → s.traj.length = qs.length + 1 →
      (∀ st ∈ s.traj, GoodStep 2 st) → s.traj.getLast? = some last → last.pa.part = List.ofFn x → last.pa.w = List.ofFn w →
      H s = ∑ i, ENNReal.ofReal (exp (w i) / ∑ j, exp (w j)) * copE 2 x0 s.traj us (fun s => φ ((List.range (qs.length+1)).map s)) i)
    {μ0 : Measure P} {X : Ω → P} (hX : Measurable X) (hXμ : ν.map X = μ0)
    (hc : ∀ ω, F.create 2 ω = .ok (List.ofFn ![X ω, σ 0])) (hpfy : F.usingPfy = false)
    {T : Option ℕ} {s0 : PT P U Y} (h0 : PT.init 2 T 0 = .ok s0) :
    (∀ (y0 : Slot Y) (l : P → ℝ), Measurable l →
      (∀ (tr : List (Step P)) (anc : List ℕ) (pa : PA P) (x : Fin 2 → P) uv yv tv, pa.part = List.ofFn x → pa.w.length = 2 →
        yv[0]? = some y0 → tv[0]? = some 0 → ∃ pa' w', F.measure tr anc pa uv yv tv 0 = .ok pa' ∧ pa'.part = List.ofFn x ∧ pa'.w = List.ofFn w' ∧
        pa'.num = pa.num ∧ ∀ i : Fin 2, w' i + pa'.w_offset = pa.w.getD i 0 + pa.w_offset + l (x i)) →
      ∫⁻ ω, stepsE ν qs (fun ds => runValue H (s0.run F (history (some (y0, ω)) ds))) ∂ν = ∫⁻ x, gibbsE M ℓ B φ 0 l qs (pair0 x0 x (σ 0)) σ ∂μ0) ∧
    (qs ≠ [] → stepsE ν qs (fun ds => runValue H (s0.run F (history none ds))) = ∫⁻ x, gibbsE M ℓ B φ 0 (fun _ => 0) qs (pair0 x0 x (σ 0)) σ ∂μ0) := by
  have hp0 : ∀ (st : Step P) (x : P), st.pa.part = List.ofFn ![x, σ 0] → ∀ i Γ, copE (U := U) 2 x0 [st] [] Γ i = Γ (pair0 x0 x (σ 0) i) := by
    intro st x hst i Γ
    exact (cop_pathOp (U := U) (N := 2) x0 M).init st _ hst Γ i
  have hpx0 : ∀ x, ∀ i, pair0 x0 x (σ 0) i 0 = ![x, σ 0] i := fun x i => Function.update_self _ _ _
  refine run_pair qs (G := fun l x => gibbsE M ℓ B φ 0 l qs (pair0 x0 x (σ 0)) σ) (fun l hl => ?_) ?_ hX hXμ hc hpfy h0
  · exact (gibbsE_measurable hM hℓ hB hφ 0 hl qs).comp (f := fun x => (pair0 x0 x (σ 0), σ))
      ((pair0_measurable x0 measurable_id measurable_const).prodMk measurable_const)
  · intro l s ys st x w c hl hrep htr hgs hx hw hwl
    refine steps_gibbs hM hℓ hB hBv hS hφ hH qs hqs hrep (by rw [htr]; simpa using hgs) (last := st) (by rw [htr]; rfl) hx hw (k := 0) (by rw [htr]; rfl)
      (by omega) hl hwl (fun i Γ => by rw [htr]; exact hp0 st x hx i Γ) (hpx0 x)

/-- Averaged over a reference trajectory with the smoothing law. -/
theorem gibbs_total [MeasurableSpace P] {M : ℕ → Slot U → Kernel P P} (hM : ∀ k u, IsMarkovKernel (M k u)) {ℓ : ℕ → Slot Y → P → ℝ}
    (hℓ : ∀ k y, Measurable (ℓ k y)) {B : ℕ → Slot U → (P → ℝ) → (Fin 2 → ℕ → P) → P → Fin 2 → ℝ≥0∞}
    (hB : ∀ k u l b, Measurable l → Measurable fun z : (Fin 2 → ℕ → P) × P => B k u l z.1 z.2 b)
    (hA : ∀ k u l, Measurable l → AncOk (M k u) (B k u l) l k) {φ : List P → ℝ≥0∞}
    (hφ : ∀ n, Measurable fun x : Fin n → P => φ (List.ofFn x)) {l : P → ℝ} (hl : Measurable l) (qs : List (Slot U × Slot Y)) (x0 : P)
    (μ0 : Measure P) [IsProbabilityMeasure μ0] {Ψ : List P → ℝ≥0∞}
    (hΨ : ∀ s : ℕ → P, Ψ ((List.range (qs.length + 1)).map s) = ∫⁻ x, gibbsE M ℓ B φ 0 l qs (pair0 x0 x (s 0)) s ∂μ0) :
    ∫⁻ x', ENNReal.ofReal (exp (l x')) * pathsE M ℓ Ψ 0 qs [] x' ∂μ0 = ∫⁻ x', ENNReal.ofReal (exp (l x')) * pathsE M ℓ φ 0 qs [] x' ∂μ0 := by
  have hG0 : ∀ (φ : List P → ℝ≥0∞) x, pathsE M ℓ φ 0 qs [] x = pathG M ℓ φ 0 qs (Function.update (fun _ => x0) 0 x) := by
    intro φ x; simp [pathG]
  have hgE := gibbsE_measurable hM hℓ hB hφ 0 hl qs
  have hR : Measurable fun z : P × P => gibbsR M ℓ B φ 0 l qs (pair0 x0 z.1 z.2) :=
    (gibbsR_measurable hM hℓ hB hφ 0 hl qs).comp (pair0_measurable x0 measurable_fst measurable_snd)
  have e1 : ∀ x', pathsE M ℓ Ψ 0 qs [] x' = ∫⁻ x, gibbsR M ℓ B φ 0 l qs (pair0 x0 x x') ∂μ0 := by
    intro x'
    rw [hG0, pathG_refE]
    rw [refE_congr M ℓ (G' := fun s => ∫⁻ x, gibbsE M ℓ B φ 0 l qs (pair0 x0 x x') s ∂μ0) qs ?_]
    · rw [refE_lintegral (G := fun z : P × (ℕ → P) => gibbsE M ℓ B φ 0 l qs (pair0 x0 z.1 x') z.2) hM hℓ ?_ μ0]
      · refine lintegral_congr fun x => ?_
        exact refE_gibbs (p := pair0 x0 x x') (s := Function.update (fun _ => x0) 0 x') hM hℓ hB hφ hl qs rfl
      · exact hgE.comp (f := fun z : P × (ℕ → P) => (pair0 x0 z.1 x', z.2)) ((pair0_measurable x0 measurable_fst measurable_const).prodMk measurable_snd)
    · intro s hs
      have hs0 : s 0 = x' := by rw [hs 0 le_rfl, Function.update_self]
      rw [zero_add, hΨ s, hs0]
  set Δ : ((Fin 2 → ℕ → P) → ℝ≥0∞) → ℝ≥0∞ := fun F => ∫⁻ x', ∫⁻ x, F (pair0 x0 x x') ∂μ0 ∂μ0 with hΔd
  have hpm : ∀ {F : (Fin 2 → ℕ → P) → ℝ≥0∞}, Measurable F → Measurable fun z : P × P => F (pair0 x0 z.2 z.1) := fun hF =>
    hF.comp (pair0_measurable x0 measurable_snd measurable_fst)
  have hΔ : SymF Δ := by
    refine ⟨fun F G hF hG => ?_, fun F hF => ?_⟩
    · simp only [hΔd]
      have h1 : ∀ x', Measurable fun x => F (pair0 x0 x x') := fun x' => hF.comp (pair0_measurable x0 measurable_id measurable_const)
      simp only [lintegral_add_left (h1 _)]
      exact lintegral_add_left (hpm hF).lintegral_prod_right' _
    · simp only [hΔd]
      have : ∀ x x', swap2 (pair0 x0 x x') = pair0 x0 x' x := by
        intro x x'
        funext i
        fin_cases i <;> simp [swap2, pair0]
      simp only [this]
      rw [lintegral_lintegral_swap]
      exact (hF.comp (pair0_measurable x0 measurable_fst measurable_snd)).aemeasurable
  have hinv := gibbs_invariant hM hℓ hB hA hφ (k := 0) hl qs hΔ
  simp only [hΔd] at hinv
  have hglik : ∀ x x', glik l 0 (pair0 x0 x x') 1 = ENNReal.ofReal (exp (l x')) := by
    intro x x'; simp [glik, pair0]
  simp only [hglik] at hinv
  refine Eq.trans ?_ (hinv.trans ?_)
  · refine lintegral_congr fun x' => ?_
    rw [e1]
    exact (lintegral_const_mul _ (hR.comp (measurable_prodMk_right (y := x')))).symm
  · refine lintegral_congr fun x' => ?_
    rw [hG0]
    have : ∀ x, pair0 x0 x x' 1 = Function.update (fun _ => x0) 0 x' := fun x => rfl
    simp only [this]
    rw [lintegral_const, measure_univ, mul_one]

theorem pathsE_congr [MeasurableSpace P] (M : ℕ → Slot U → Kernel P P) (ℓ : ℕ → Slot Y → P → ℝ) {φ φ' : List P → ℝ≥0∞} {n : ℕ}
    (h : ∀ xs, xs.length = n → φ xs = φ' xs) (k : ℕ) (qs : List (Slot U × Slot Y)) (past : List P) (hn : past.length + qs.length + 1 = n) (x : P) :
    pathsE M ℓ φ k qs past x = pathsE M ℓ φ' k qs past x := by
  induction qs generalizing k past x with
  | nil => exact h _ (by simpa using hn)
  | cons q qs ih =>
    simp only [pathsE]
    refine lintegral_congr fun x' => ?_
    rw [ih (k+1) (past ++ [x]) (by simp only [List.length_append, List.length_singleton]; simp only [List.length_cons] at hn; omega)]

/-- Integrals with respect to the (unnormalised) smoothing law: `E[Π_t p(y_t | x_t) φ(x_0, …, x_T)]` over the chain with initial law `μ0` and
kernels `M`. `first` is the measurement at time 0, if there is one; `None` measurements are ignored. -/
noncomputable def Spec.smoothingE [MeasurableSpace P] (μ0 : Measure P) (M : ℕ → Slot U → Kernel P P) (ℓ : ℕ → Slot Y → P → ℝ) (first : Option (Slot Y))
    (qs : List (Slot U × Slot Y)) (φ : List P → ℝ≥0∞) : ℝ≥0∞ :=
  match first with
  | some y0 => ∫⁻ x, ENNReal.ofReal (exp (ℓ 0 y0 x)) * pathsE M (seen ℓ) φ 0 qs [] x ∂μ0
  | none => ∫⁻ x, pathsE M (seen ℓ) φ 0 qs [] x ∂μ0

/-- One iteration of particle Gibbs: run the filter `F ref`, built on the reference trajectory `ref`, over the history (`measure(first)` if
there is a first measurement, then `forward(u, y)` for every `(u, y)` in `qs`), and apply `H` to the finished run. The expectation is over all
draws. -/
noncomputable def Spec.sweep [MeasurableSpace Ω] (ν : Measure Ω) (s0 : PT P U Y) (F : List P → FilterOps P U Y V Ω) (first : Option (Slot Y))
    (qs : List (Slot U × Slot Y)) (H : PT P U Y → ℝ≥0∞) (ref : List P) : ℝ≥0∞ :=
  match first with
  | some y0 => ∫⁻ ω, stepsE ν qs (fun ds => runValue H (s0.run (F ref) (history (some (y0, ω)) ds))) ∂ν
  | none => stepsE ν qs (fun ds => runValue H (s0.run (F ref) (history none ds)))

theorem range_map_measurable [MeasurableSpace P] {n : ℕ} {φ : List P → ℝ≥0∞} (hφ : Measurable fun x : Fin n → P => φ (List.ofFn x)) (m : ℕ) :
    Measurable fun x : Fin m → P => if (List.ofFn x).length = n then φ (List.ofFn x) else 0 := by
  by_cases h : m = n
  · subst h; simpa using hφ
  · simp [h]

/-- The log-likelihood of the measurement at time 0. -/
def firstLik (ℓ : ℕ → Slot Y → P → ℝ) : Option (Slot Y) → P → ℝ
  | some y0 => ℓ 0 y0
  | none => fun _ => 0

/-- A function of trajectories of length `n`. -/
noncomputable def cutTo (n : ℕ) (φ : List P → ℝ≥0∞) (xs : List P) : ℝ≥0∞ := if xs.length = n then φ xs else 0

/-- One iteration, if the run has the value `gibbsE`. -/
theorem sweep_total [MeasurableSpace P] [MeasurableSpace Ω] {K : MarkovModel P U Y V Ω} {good : Slot Y → Prop} {ν : Measure Ω} [IsProbabilityMeasure ν]
    {μ0 : Measure P} [IsProbabilityMeasure μ0] {M : ℕ → Slot U → Kernel P P} (hM : ∀ k u, IsMarkovKernel (M k u)) {ℓ : ℕ → Slot Y → P → ℝ}
    (hK : Spec.Samples K good ν 2 μ0 M ℓ) (rest : Callbacks P U Y V Ω) {B : ℕ → Slot U → (P → ℝ) → (Fin 2 → ℕ → P) → P → Fin 2 → ℝ≥0∞}
    (hB : ∀ k u l b, Measurable l → Measurable fun z : (Fin 2 → ℕ → P) × P => B k u l z.1 z.2 b)
    (hA : ∀ k u l, Measurable l → AncOk (M k u) (B k u l) l k) {F : List P → FilterOps P U Y V Ω}
    (hFm : ∀ xs, (F xs).measure = pfMeasure (K.toCallbacks rest)) {s0 : PT P U Y} (qs : List (Slot U × Slot Y)) (first : Option (Slot Y))
    (hfirst : ∀ y ∈ first, good y) (hne : first = none → qs ≠ []) (x0 : P) {H : PT P U Y → ℝ≥0∞} {φ φ' : List P → ℝ≥0∞}
    (hφm : ∀ n, Measurable fun x : Fin n → P => φ' (List.ofFn x)) (hφe : ∀ xs, xs.length = qs.length + 1 → φ' xs = φ xs)
    (hrun : ∀ σ : ℕ → P, (∀ (y0 : Slot Y) (l : P → ℝ), Measurable l →
      (∀ (tr : List (Step P)) (anc : List ℕ) (pa : PA P) (x : Fin 2 → P) uv yv tv, pa.part = List.ofFn x → pa.w.length = 2 →
        yv[0]? = some y0 → tv[0]? = some 0 → ∃ pa' w', (F ((List.range (qs.length + 1)).map σ)).measure tr anc pa uv yv tv 0 = .ok pa' ∧
        pa'.part = List.ofFn x ∧ pa'.w = List.ofFn w' ∧
        pa'.num = pa.num ∧ ∀ i : Fin 2, w' i + pa'.w_offset = pa.w.getD i 0 + pa.w_offset + l (x i)) →
      ∫⁻ ω, stepsE ν qs (fun ds => runValue H (s0.run (F ((List.range (qs.length + 1)).map σ)) (history (some (y0, ω)) ds))) ∂ν =
        ∫⁻ x, gibbsE M (seen ℓ) B φ' 0 l qs (pair0 x0 x (σ 0)) σ ∂μ0) ∧
      (qs ≠ [] → stepsE ν qs (fun ds => runValue H (s0.run (F ((List.range (qs.length + 1)).map σ)) (history none ds))) =
        ∫⁻ x, gibbsE M (seen ℓ) B φ' 0 (fun _ => 0) qs (pair0 x0 x (σ 0)) σ ∂μ0)) :
    (Measurable fun x : Fin (qs.length + 1) → P => sweep ν s0 F first qs H (List.ofFn x)) ∧
    smoothingE μ0 M ℓ first qs (sweep ν s0 F first qs H) = smoothingE μ0 M ℓ first qs φ ∧
    ∀ s : ℕ → P, sweep ν s0 F first qs H ((List.range (qs.length + 1)).map s) =
      ∫⁻ x, gibbsE M (seen ℓ) B φ' 0 (firstLik ℓ first) qs (pair0 x0 x (s 0)) s ∂μ0 := by
  -- the value of a sweep
  obtain ⟨l, hfl, hl, hval, hsm⟩ : ∃ l : P → ℝ, l = firstLik ℓ first ∧ Measurable l ∧
      (∀ s : ℕ → P, sweep ν s0 F first qs H ((List.range (qs.length + 1)).map s) =
        ∫⁻ x, gibbsE M (seen ℓ) B φ' 0 l qs (pair0 x0 x (s 0)) s ∂μ0) ∧
      ∀ ψ, smoothingE μ0 M ℓ first qs ψ = ∫⁻ x, ENNReal.ofReal (exp (l x)) * pathsE M (seen ℓ) ψ 0 qs [] x ∂μ0 := by
    cases first with
    | some y0 =>
      refine ⟨ℓ 0 y0, rfl, hK.meas 0 y0, fun s => ?_, fun ψ => rfl⟩
      refine (hrun s).1 y0 (ℓ 0 y0) (hK.meas 0 y0) ?_
      intro tr anc pa x uv yv tv hx hw hy ht
      rw [hFm]
      exact pf_measure_law (by norm_num) hK rest 0 tr anc pa x uv yv tv y0 (hfirst y0 rfl) hx hw hy ht
    | none =>
      exact ⟨fun _ => 0, rfl, measurable_const, fun s => (hrun s).2 (hne rfl), fun ψ => by simp [smoothingE]⟩
  refine ⟨?_, ?_, fun s => by rw [hval s, hfl]⟩
  · have hlist : ∀ x : Fin (qs.length + 1) → P, List.ofFn x = (List.range (qs.length + 1)).map fun k => if h : k < qs.length + 1 then x ⟨k, h⟩ else x0 := by
      intro x
      refine List.ext_getElem (by simp) fun i h1 h2 => ?_
      rw [List.getElem_ofFn, List.getElem_map, List.getElem_range, dif_pos (by simpa using h1)]
    simp only [hlist, hval]
    have hs : Measurable fun x : Fin (qs.length + 1) → P => fun k => if h : k < qs.length + 1 then x ⟨k, h⟩ else x0 := by
      refine measurable_pi_lambda _ fun k => ?_
      by_cases h : k < qs.length + 1
      · simp only [h, dif_pos]; exact measurable_pi_apply _
      · simp only [h, dif_neg, not_false_eq_true]; exact measurable_const
    have hg : Measurable fun z : (Fin (qs.length + 1) → P) × P => gibbsE M (seen ℓ) B φ' 0 l qs
        (pair0 x0 z.2 ((fun k => if h : k < qs.length + 1 then z.1 ⟨k, h⟩ else x0) 0)) (fun k => if h : k < qs.length + 1 then z.1 ⟨k, h⟩ else x0) :=
      (gibbsE_measurable hM (seen_measurable hK.meas) hB hφm 0 hl qs).comp
        (f := fun z : (Fin (qs.length + 1) → P) × P => (pair0 x0 z.2 ((fun k => if h : k < qs.length + 1 then z.1 ⟨k, h⟩ else x0) 0),
          fun k => if h : k < qs.length + 1 then z.1 ⟨k, h⟩ else x0))
        ((pair0_measurable x0 measurable_snd ((measurable_pi_apply 0).comp (hs.comp measurable_fst))).prodMk (hs.comp measurable_fst))
    exact hg.lintegral_prod_right'
  · rw [hsm, hsm, gibbs_total hM (seen_measurable hK.meas) hB hA hφm hl qs x0 μ0 hval]
    refine lintegral_congr fun x => ?_
    rw [pathsE_congr M (seen ℓ) hφe 0 qs [] (by simp)]

/-- One iteration for a filter whose steps have the law `Bv`, if `H` agrees with `perform_smoothing(m, 'ancestor')` on finished runs. -/
theorem cond_total_of [MeasurableSpace P] [MeasurableSpace Ω] {K : MarkovModel P U Y V Ω} {good : Slot Y → Prop} {ν : Measure Ω} [IsProbabilityMeasure ν]
    {μ0 : Measure P} {M : ℕ → Slot U → Kernel P P} {ℓ : ℕ → Slot Y → P → ℝ} (hK : Spec.Samples K good ν 2 μ0 M ℓ) (rest : Callbacks P U Y V Ω)
    {B : ℕ → Slot U → (P → ℝ) → (Fin 2 → ℕ → P) → P → Fin 2 → ℝ≥0∞}
    (hB : ∀ k u l b, Measurable l → Measurable fun z : (Fin 2 → ℕ → P) × P => B k u l z.1 z.2 b)
    (hA : ∀ k u l, Measurable l → AncOk (M k u) (B k u l) l k)
    {Bv : ℕ → Slot U → P → (Fin 2 → P) → (Fin 2 → ℝ) → Fin 2 → ℝ≥0∞}
    (hBv : ∀ k u l (p : Fin 2 → ℕ → P) x' (w : Fin 2 → ℝ) c b, (∀ i, w i = l (p i k) + c) → Bv k u x' (fun i => p i k) w b = B k u l p x' b)
    {ct : List P → List (Step P)} (hct : ∀ xs k x, xs[k]? = some x → RefState (ct xs) k x) {F : List P → FilterOps P U Y V Ω}
    (hFc : ∀ xs, (F xs).create = cpfInitial (K.toCallbacks rest) (ct xs)) (hFm : ∀ xs, (F xs).measure = pfMeasure (K.toCallbacks rest))
    (hFp : ∀ xs, (F xs).usingPfy = false)
    (hFf : ∀ xs k x' u y, RefState (ct xs) (k+1) x' → (y = .none ∨ good y) → CondLaw (F xs) ν k u y (M k u) x' (seen ℓ (k+1) y) (Bv k u x'))
    {S : SmoothCallbacks P U Y V Ω} (hS : ∀ D, PlainSmooth S D) (hps : NoPostprocessing S) {m : ℕ} (hm : 0 < m) (user : Option SOpts)
    (d : AllDraws Ω) (fuel : ℕ) {T : Option ℕ} {s0 : PT P U Y}
    (h0 : PT.init 2 T 0 = .ok s0) (qs : List (Slot U × Slot Y)) (hqs : ∀ q ∈ qs, q.2 = .none ∨ good q.2) (first : Option (Slot Y))
    (hfirst : ∀ y ∈ first, good y) (hne : first = none → qs ≠ []) (x0 : P) {φ : List P → ℝ≥0∞}
    (hφ : Measurable fun x : Fin (qs.length + 1) → P => φ (List.ofFn x)) {H : PT P U Y → ℝ≥0∞}
    (hHs : ∀ s : PT P U Y, s.traj.length = qs.length + 1 → (∀ st ∈ s.traj, GoodStep 2 st) → H s = smoothE S m "ancestor" user d fuel (pathMean φ m) s) :
    (Measurable fun x : Fin (qs.length + 1) → P => sweep ν s0 F first qs H (List.ofFn x)) ∧
    smoothingE μ0 M ℓ first qs (sweep ν s0 F first qs H) = smoothingE μ0 M ℓ first qs φ ∧
    ∀ s : ℕ → P, sweep ν s0 F first qs H ((List.range (qs.length + 1)).map s) =
      ∫⁻ x, gibbsE M (seen ℓ) B (cutTo (qs.length + 1) φ) 0 (firstLik ℓ first) qs (pair0 x0 x (s 0)) s ∂μ0 := by
  obtain ⟨X, hX, hc⟩ := hK.create
  have hM := samples_markov (by norm_num) hK
  haveI : IsProbabilityMeasure μ0 := by rw [← (hX 0).2]; exact Measure.isProbabilityMeasure_map (hX 0).1.aemeasurable
  have hφm : ∀ n, Measurable fun x : Fin n → P => cutTo (qs.length + 1) φ (List.ofFn x) := fun n => range_map_measurable hφ n
  have hφe : ∀ xs, xs.length = qs.length + 1 → cutTo (qs.length + 1) φ xs = φ xs := fun xs h => if_pos h
  have hidx : ∀ (s : ℕ → P) k, k ≤ qs.length → ((List.range (qs.length + 1)).map s)[k]? = some (s k) := by
    intro s k hk
    rw [List.getElem?_map, List.getElem?_range (by omega)]; rfl
  have hrun := fun σ : ℕ → P => run_gibbs (F := F ((List.range (qs.length + 1)).map σ)) (ν := ν) (σ := σ) hM (seen_measurable hK.meas) hB hBv
    (good := fun y => y = .none ∨ good y) qs hqs
    (fun k u y hy hk => hFf _ k _ u y (hct _ _ _ (hidx σ (k+1) (by omega))) hy) hφm (x0 := x0)
    (H := H)
    (fun s us ys last x w hrep hk hgs hlast hx hw => by
      rw [hHs s hk hgs, smoothE_ancestor hS hps hm user d fuel φ (by norm_num) x0 hk hgs hlast hw us]
      simp only [hφe _ (show ((List.range (qs.length + 1)).map _).length = _ by simp)])
    (hX 0).1 (hX 0).2 (by
      intro ω
      obtain ⟨c, h1, h2⟩ := hct _ _ _ (hidx σ 0 (by omega))
      rw [hFc]
      unfold cpfInitial
      have : (K.toCallbacks rest).createInitial 2 ω = .ok (List.ofFn fun i => X i ω) := hc ω
      simp only [this, ok_bind, getIdx_ok.mpr h1, getIdx_ok.mpr h2]
      simp [setLast, ofFn_two]) (hFp _) h0
  exact sweep_total hM hK rest hB hA hFm qs first hfirst hne x0 hφm hφe hrun

/-- One iteration for a filter whose steps have the law `Bv`. -/
theorem cond_total [MeasurableSpace P] [MeasurableSpace Ω] {K : MarkovModel P U Y V Ω} {good : Slot Y → Prop} {ν : Measure Ω} [IsProbabilityMeasure ν]
    {μ0 : Measure P} {M : ℕ → Slot U → Kernel P P} {ℓ : ℕ → Slot Y → P → ℝ} (hK : Spec.Samples K good ν 2 μ0 M ℓ) (rest : Callbacks P U Y V Ω)
    {B : ℕ → Slot U → (P → ℝ) → (Fin 2 → ℕ → P) → P → Fin 2 → ℝ≥0∞}
    (hB : ∀ k u l b, Measurable l → Measurable fun z : (Fin 2 → ℕ → P) × P => B k u l z.1 z.2 b)
    (hA : ∀ k u l, Measurable l → AncOk (M k u) (B k u l) l k)
    {Bv : ℕ → Slot U → P → (Fin 2 → P) → (Fin 2 → ℝ) → Fin 2 → ℝ≥0∞}
    (hBv : ∀ k u l (p : Fin 2 → ℕ → P) x' (w : Fin 2 → ℝ) c b, (∀ i, w i = l (p i k) + c) → Bv k u x' (fun i => p i k) w b = B k u l p x' b)
    {ct : List P → List (Step P)} (hct : ∀ xs k x, xs[k]? = some x → RefState (ct xs) k x) {F : List P → FilterOps P U Y V Ω}
    (hFc : ∀ xs, (F xs).create = cpfInitial (K.toCallbacks rest) (ct xs)) (hFm : ∀ xs, (F xs).measure = pfMeasure (K.toCallbacks rest))
    (hFp : ∀ xs, (F xs).usingPfy = false)
    (hFf : ∀ xs k x' u y, RefState (ct xs) (k+1) x' → (y = .none ∨ good y) → CondLaw (F xs) ν k u y (M k u) x' (seen ℓ (k+1) y) (Bv k u x'))
    {S : SmoothCallbacks P U Y V Ω} (hS : ∀ D, PlainSmooth S D) (hps : NoPostprocessing S) {m : ℕ} (hm : 0 < m) (user : Option SOpts)
    (d : AllDraws Ω) (fuel : ℕ) {T : Option ℕ} {s0 : PT P U Y}
    (h0 : PT.init 2 T 0 = .ok s0) (qs : List (Slot U × Slot Y)) (hqs : ∀ q ∈ qs, q.2 = .none ∨ good q.2) (first : Option (Slot Y))
    (hfirst : ∀ y ∈ first, good y) (hne : first = none → qs ≠ []) (x0 : P) {φ : List P → ℝ≥0∞}
    (hφ : Measurable fun x : Fin (qs.length + 1) → P => φ (List.ofFn x)) :
    (Measurable fun x : Fin (qs.length + 1) → P => sweep ν s0 F first qs (smoothE S m "ancestor" user d fuel (pathMean φ m)) (List.ofFn x)) ∧
    smoothingE μ0 M ℓ first qs (sweep ν s0 F first qs (smoothE S m "ancestor" user d fuel (pathMean φ m))) = smoothingE μ0 M ℓ first qs φ ∧
    ∀ s : ℕ → P, sweep ν s0 F first qs (smoothE S m "ancestor" user d fuel (pathMean φ m)) ((List.range (qs.length + 1)).map s) =
      ∫⁻ x, gibbsE M (seen ℓ) B (cutTo (qs.length + 1) φ) 0 (firstLik ℓ first) qs (pair0 x0 x (s 0)) s ∂μ0 :=
  cond_total_of hK rest hB hA hBv hct hFc hFm hFp hFf hS hps hm user d fuel h0 qs hqs first hfirst hne x0 hφ fun _ _ _ => rfl

theorem samples_nonempty [MeasurableSpace P] [MeasurableSpace Ω] {K : MarkovModel P U Y V Ω} {good : Slot Y → Prop} {ν : Measure Ω}
    [IsProbabilityMeasure ν] {μ0 : Measure P} {M : ℕ → Slot U → Kernel P P} {ℓ : ℕ → Slot Y → P → ℝ} (hK : Spec.Samples K good ν 2 μ0 M ℓ) : Nonempty P := by
  obtain ⟨X, -, -⟩ := hK.create
  obtain ⟨ω⟩ := nonempty_of_isProbabilityMeasure ν
  exact ⟨X 0 ω⟩

theorem iterate_invariant {n : ℕ} {L : (List P → ℝ≥0∞) → ℝ≥0∞} {Q : (List P → ℝ≥0∞) → List P → ℝ≥0∞} [MeasurableSpace P]
    (h : ∀ φ : List P → ℝ≥0∞, (Measurable fun x : Fin n → P => φ (List.ofFn x)) → (Measurable fun x : Fin n → P => Q φ (List.ofFn x)) ∧ L (Q φ) = L φ)
    (k : ℕ) {φ : List P → ℝ≥0∞} (hφ : Measurable fun x : Fin n → P => φ (List.ofFn x)) : L (Q^[k] φ) = L φ := by
  induction k generalizing φ with
  | zero => rfl
  | succ k ih => rw [Function.iterate_succ_apply, ih (h φ hφ).1, (h φ hφ).2]

theorem cpfas_bv (lx : ℕ → Slot U → P → P → ℝ) (k : ℕ) (u : Slot U) (l : P → ℝ) (p : Fin 2 → ℕ → P) (x' : P) (w : Fin 2 → ℝ) (c : ℝ) (b : Fin 2)
    (h : ∀ i, w i = l (p i k) + c) :
    ENNReal.ofReal (exp (w b) * exp (lx k u (p b k) x') / ∑ j, exp (w j) * exp (lx k u (p j k) x')) = cpfasAnc lx k u l p x' b := by
  unfold cpfasAnc
  congr 1
  simp only [h, exp_add]
  have e : ∀ j, exp (l (p j k)) * exp c * exp (lx k u (p j k) x') = exp c * (exp (l (p j k)) * exp (lx k u (p j k) x')) := fun j => by ring
  simp only [e, ← Finset.mul_sum]
  exact mul_div_mul_left _ _ (exp_pos c).ne'

/-- C96: particle Gibbs with the conditional particle filter `CPF` and two particles. Let the reference trajectory have the smoothing law
(the law of the states of the chain given the measurements: density proportional to `Π_t p(y_t | x_t)` with respect to the law of the chain).
Run the filter on it, draw trajectories with `perform_smoothing(m, 'ancestor')`, take one of them as the next reference trajectory, and so on.
After any number of iterations the trajectory has the smoothing law: averages of any non-negative function `φ` of it agree, for every model,
history, number `m` of trajectories and resampling threshold. -/
theorem C96_cpf_invariant [MeasurableSpace P] [MeasurableSpace Ω] {K : MarkovModel P U Y V Ω} {good : Slot Y → Prop} {ν : Measure Ω}
    [IsProbabilityMeasure ν] {μ0 : Measure P} {M : ℕ → Slot U → Kernel P P} {ℓ : ℕ → Slot Y → P → ℝ} (hK : Spec.Samples K good ν 2 μ0 M ℓ)
    {rest : Callbacks P U Y V Ω} {ct : List P → List (Step P)} (hct : ∀ xs k x, xs[k]? = some x → RefState (ct xs) k x) {res : ℝ}
    {name : String} (hn : parseFilter name = .ok .cpf) {F : List P → FilterOps P U Y V Ω}
    (hF : ∀ xs, mkFilter (K.toCallbacks rest) 2 res name (.dict (some (ct xs))) = .ok (F xs))
    {S : SmoothCallbacks P U Y V Ω} (hS : ∀ D, PlainSmooth S D) (hps : NoPostprocessing S) {m : ℕ} (hm : 0 < m) (user : Option SOpts)
    (d : AllDraws Ω) (fuel : ℕ) {T : Option ℕ} {s0 : PT P U Y} (h0 : PT.init 2 T 0 = .ok s0) (qs : List (Slot U × Slot Y))
    (hqs : ∀ q ∈ qs, q.2 = .none ∨ good q.2) (first : Option (Slot Y)) (hfirst : ∀ y ∈ first, good y) (hne : first = none → qs ≠ [])
    {φ : List P → ℝ≥0∞} (hφ : Measurable fun x : Fin (qs.length + 1) → P => φ (List.ofFn x)) (iterations : ℕ) :
    smoothingE μ0 M ℓ first qs ((fun φ => sweep ν s0 F first qs (smoothE S m "ancestor" user d fuel (pathMean φ m)))^[iterations] φ) =
      smoothingE μ0 M ℓ first qs φ := by
  have hF' := fun xs => mkFilter_cond hn (hF xs)
  have hM := samples_markov (by norm_num) hK
  obtain ⟨x0⟩ := samples_nonempty hK
  refine iterate_invariant (fun φ hφ => ?_) iterations hφ
  refine (fun h => ⟨h.1, h.2.1⟩) (cond_total hK rest (B := cpfAnc) (fun k u l b _ => cpfAnc_measurable k u l b) (fun k u l hl => cpf_ancOk hl k u)
    (Bv := fun _ _ _ _ _ b => if b = 1 then 1 else 0) (fun _ _ _ _ _ _ _ _ _ => rfl) hct (fun xs => by rw [hF' xs]) (fun xs => by rw [hF' xs])
    (fun xs => by rw [hF' xs]) (fun xs k x' u y hx hy => cpf_condLaw hK rest hx u hy (by rw [hF' xs])) hS hps hm user d fuel h0 qs hqs first hfirst
    hne x0 hφ)

/-- C96: the same for `CPFAS`, whose ancestor sampling uses the transition density `exp (lx k u x ·)` the model returns from `logp_xnext`. -/
theorem C96_cpfas_invariant [MeasurableSpace P] [MeasurableSpace Ω] {K : MarkovModel P U Y V Ω} {good : Slot Y → Prop} {ν : Measure Ω}
    [IsProbabilityMeasure ν] {μ0 : Measure P} {M : ℕ → Slot U → Kernel P P} {ℓ : ℕ → Slot Y → P → ℝ} (hK : Spec.Samples K good ν 2 μ0 M ℓ)
    {logpXnext : List P → List P → Slot U → ℕ → PyM (List ℝ)} {lx : ℕ → Slot U → P → P → ℝ} (hlx : Spec.LogDensity logpXnext lx)
    (hlm : ∀ k u, Measurable fun z : P × P => lx k u z.1 z.2) {vol : Measure P}
    (hden : ∀ k u x, M k u x = vol.withDensity fun x' => ENNReal.ofReal (exp (lx k u x x')))
    {rest : Callbacks P U Y V Ω} {ct : List P → List (Step P)} (hct : ∀ xs k x, xs[k]? = some x → RefState (ct xs) k x) {res : ℝ}
    {name : String} (hn : parseFilter name = .ok .cpfas) {F : List P → FilterOps P U Y V Ω}
    (hF : ∀ xs, mkFilter (K.toCallbacks (ffbsiFilter logpXnext rest)) 2 res name (.dict (some (ct xs))) = .ok (F xs))
    {S : SmoothCallbacks P U Y V Ω} (hS : ∀ D, PlainSmooth S D) (hps : NoPostprocessing S) {m : ℕ} (hm : 0 < m) (user : Option SOpts)
    (d : AllDraws Ω) (fuel : ℕ) {T : Option ℕ} {s0 : PT P U Y} (h0 : PT.init 2 T 0 = .ok s0) (qs : List (Slot U × Slot Y))
    (hqs : ∀ q ∈ qs, q.2 = .none ∨ good q.2) (first : Option (Slot Y)) (hfirst : ∀ y ∈ first, good y) (hne : first = none → qs ≠ [])
    {φ : List P → ℝ≥0∞} (hφ : Measurable fun x : Fin (qs.length + 1) → P => φ (List.ofFn x)) (iterations : ℕ) :
    smoothingE μ0 M ℓ first qs ((fun φ => sweep ν s0 F first qs (smoothE S m "ancestor" user d fuel (pathMean φ m)))^[iterations] φ) =
      smoothingE μ0 M ℓ first qs φ := by
  have hF' := fun xs => mkFilter_cond hn (hF xs)
  have hM := samples_markov (by norm_num) hK
  obtain ⟨x0⟩ := samples_nonempty hK
  refine iterate_invariant (fun φ hφ => ?_) iterations hφ
  refine (fun h => ⟨h.1, h.2.1⟩) (cond_total hK (ffbsiFilter logpXnext rest) (B := cpfasAnc lx) (fun k u l b hl => cpfasAnc_measurable hlm k u hl b)
    (fun k u l hl => cpfas_ancOk hlm (hden k u) hl)
    (Bv := fun k u x' x w b => ENNReal.ofReal (exp (w b) * exp (lx k u (x b) x') / ∑ j, exp (w j) * exp (lx k u (x j) x')))
    (cpfas_bv lx) hct (fun xs => by rw [hF' xs]) (fun xs => by rw [hF' xs])
    (fun xs => by rw [hF' xs]) (fun xs k x' u y hx hy => cpfas_condLaw hK rest hlx hx u hy (by rw [hF' xs])) hS hps hm user d fuel h0 qs hqs first
    hfirst hne x0 hφ)

end PyPE

import Verif.Smooth.BpFuture
import Verif.Smooth.MhRun

/-!
# C122: `perform_mhbp` with one trajectory

The code of `perform_mhbp` for `M = 1`: every iteration is the Metropolis-Hastings step of `bpSite` (`siteE` at time `0`).
-/

namespace PyPE
open Real Spec MeasureTheory ProbabilityTheory
open scoped ENNReal

variable {P U Y V Ω : Type}

/-- The past handed to the callbacks for one trajectory: there is none (`b = none`), or the index `pind` points to the particle `b` of its last step. -/
def Spec.PastAt (b : Option P) (pt : Option (List (SStep P))) (pind : Option (List ℕ)) : Prop :=
  match b, pt with
  | none, none => True
  | some x, some l => ∃ st i anc, l.getLast? = some st ∧ st.pa.part[i]? = some x ∧ pind = some [i] ∧ st.ancestors = some anc ∧ i < anc.length
  | _, _ => False

/-- The future handed to the callbacks for one trajectory: there is none (`a = none`), or it starts with the state `a`. -/
def Spec.FutureAt (a : Option P) (fut : Option (List (SStep P))) : Prop :=
  match a, fut with
  | none, none => True
  | some x, some f => ∃ st, f[0]? = some st ∧ st.pa.part = [x]
  | _, _ => False

/-- `propose_smooth` draws from the density `exp (lq k b a)`, given the states `b`, `a` before and after time `k`, and `logp_proposal` evaluates its logarithm: for one
trajectory, whichever stored particle is its predecessor. -/
def Spec.BackProposal [MeasurableSpace P] [MeasurableSpace Ω] (S : SmoothCallbacks P U Y V Ω) (D : SData U Y) (ν : Measure Ω) (K : ℕ) (vol : Measure P)
    (lq : ℕ → Option P → Option P → P → ℝ) : Prop :=
  ∀ k (b a : Option P) pt pind fut, k ≤ K → PastAt b pt pind → FutureAt a fut → (b = none ↔ k = 0) → (a = none ↔ k = K) →
    (∃ X : Ω → P, Measurable X ∧ ν.map X = vol.withDensity (fun z => ENNReal.ofReal (exp (lq k b a z))) ∧
      ∀ ω, S.proposeSmooth pt pind fut [0] D k ω = .ok [X ω]) ∧
    ∀ x, S.logpProposal [x] pt pind fut [0] D k = .ok [lq k b a x]

theorem ofFn_one {α : Type} (x : α) : List.ofFn (fun _ : Fin 1 => x) = [x] := rfl

theorem fancy_single {α : Type} {l : List α} {i : ℕ} {x : α} (h : l[i]? = some x) : fancy l [i] = .ok [x] := by
  simp only [fancy, List.mapM_cons, List.mapM_nil, getIdx_ok.mpr h, ok_bind, pure_eq_ok]

section
variable {S : SmoothCallbacks P U Y V Ω} {D : SData U Y} {K : ℕ} {l0 : P → ℝ} {lp : ℕ → P → P → ℝ} {g : ℕ → P → ℝ}

theorem bp_current (h : MhPaths S D 1 K l0 lp g) {k : ℕ} (hk : k ≤ K) {b : Option P} {pt : Option (List (SStep P))} {pc : Option (List ℕ)}
    (hb : PastAt b pt pc) (hb0 : b = none ↔ k = 0) (x : P) : mcCurrent S [x] pt pc D k = .ok [x] := by
  match b, pt, hb with
  | none, none, _ =>
    have : k = 0 := hb0.mp rfl
    subst this
    obtain ⟨t, ht⟩ : ∃ t, D.t[0]? = some t := ⟨_, List.getElem?_eq_getElem (by have := h.times; omega)⟩
    simp only [mcCurrent, getIdx_ok.mpr ht, ok_bind]
    exact h.initial (fun _ => x) t
  | some y, some l, ⟨st, i, anc, h1, h2, h3, h4, h5⟩ =>
    have hk0 : k ≠ 0 := fun e => by have := hb0.mpr e; cases this
    subst h3
    simp only [mcCurrent, getLast_ok.mpr h1, ok_bind, fancy_single h2, h4, fancy_single (List.getElem?_eq_getElem h5)]
    exact h.predict (k-1) (by omega) (fun _ => y) (fun _ => x) _ _

theorem bp_prev (h : MhPaths S D 1 K l0 lp g) {k : ℕ} (hk : k ≤ K) {b : Option P} {pt : Option (List (SStep P))} {pc : Option (List ℕ)}
    (hb : PastAt b pt pc) (hb0 : b = none ↔ k = 0) (x : P) : mcPrev S [x] pt pc D k = .ok [priorLog l0 lp k b none x] := by
  match b, pt, hb with
  | none, none, _ =>
    obtain ⟨t, ht⟩ : ∃ t, D.t[0]? = some t := ⟨_, List.getElem?_eq_getElem (by have := h.times; omega)⟩
    simp only [mcPrev, getIdx_ok.mpr ht, ok_bind]
    exact h.prior (fun _ => x) t ht
  | some y, some l, ⟨st, i, anc, h1, h2, h3, h4, h5⟩ =>
    have hk0 : k ≠ 0 := fun e => by have := hb0.mpr e; cases this
    subst h3
    simp only [mcPrev, getLast_ok.mpr h1, ok_bind, fancy_single h2, h4, fancy_single (List.getElem?_eq_getElem h5)]
    exact h.trans (k-1) (by omega) (fun _ => y) (fun _ => x) _ _

theorem bp_future (h : MhPaths S D 1 K l0 lp g) {k : ℕ} (hk : k ≤ K) {a : Option P} {fut : Option (List (SStep P))} (ha : FutureAt a fut)
    (ha0 : a = none ↔ k = K) (x x' : P) (pt : Option (List (SStep P))) (pp pc : Option (List ℕ)) :
    ∃ t t', mcFuture S [x'] [x] pt pp pc fut [0] D k = .ok (t', t) ∧ (t = none ↔ t' = none) ∧ (∀ l, t = some l → l = [nextLog lp k a x]) ∧
      (∀ l, t' = some l → l = [nextLog lp k a x']) ∧ (t = none → nextLog lp k a x = 0 ∧ nextLog lp k a x' = 0) := by
  match a, fut, ha with
  | none, none, _ =>
    exact ⟨none, none, rfl, Iff.rfl, fun l h => (by cases h), fun l h => (by cases h), fun _ => ⟨rfl, rfl⟩⟩
  | some y, some f, ⟨st, h1, h2⟩ =>
    have hkK : k ≠ K := fun e => by have := ha0.mpr e; cases this
    have e : ∀ (z : P) (pi : Option (List ℕ)), S.logpXnextFull [z] pt pi f [0] D k = .ok [lp k z y] := fun z pi =>
      h.next k (by omega) (fun _ => z) (fun _ => y) pt pi f ⟨st, h1, h2⟩
    refine ⟨some [lp k x y], some [lp k x' y], ?_, by simp, fun l h => (by cases h; rfl), fun l h => (by cases h; rfl), fun h => (by cases h)⟩
    simp only [mcFuture, e, ok_bind, pure_eq_ok]

theorem bp_measure (h : MhPaths S D 1 K l0 lp g) {k : ℕ} (hk : k ≤ K) {y : Slot Y} (hy : D.y[k]? = some y) (x x' : P) (pt : Option (List (SStep P))) (pp pc : Option (List ℕ)) :
    ∃ t t', mcMeasure S [x'] [x] pt pp pc D k y = .ok ([x'], t', [x], t) ∧ (t = none ↔ t' = none) ∧ (∀ l, t = some l → l = [g k x]) ∧
      (∀ l, t' = some l → l = [g k x']) ∧ (t = none → g k x = 0 ∧ g k x' = 0) := by
  by_cases hn : y = .none
  · subst hn
    exact ⟨none, none, rfl, Iff.rfl, fun l h => (by cases h), fun l h => (by cases h), fun _ => ⟨h.noMeas k hk hy x, h.noMeas k hk hy x'⟩⟩
  · have e : ∀ (z : P) (pi : Option (List ℕ)), S.measure [z] pt (D.take (k+1)) pi = .ok ([z], [g k z]) := fun z pi =>
      h.meas k hk (by rw [hy]; exact fun e => hn (Option.some.inj e)) (fun _ => z) pt pi
    refine ⟨some [g k x], some [g k x'], ?_, by simp, fun l h => (by cases h; rfl), fun l h => (by cases h; rfl), fun h => (by cases h)⟩
    unfold mcMeasure
    split
    · exact absurd rfl hn
    · simp only [e, ok_bind, pure_eq_ok]

open scoped Classical in
/-- One `mc_step` of `perform_mhbp` for one trajectory. -/
theorem bp_mcStep [MeasurableSpace P] [MeasurableSpace Ω] {ν : Measure Ω} {vol : Measure P} {lq : ℕ → Option P → Option P → P → ℝ}
    (h : MhPaths S D 1 K l0 lp g) (hp : BackProposal S D ν K vol lq) {k : ℕ} (hk : k ≤ K) {b b' a : Option P} {pt fut : Option (List (SStep P))}
    {pp pc : Option (List ℕ)} (hb' : PastAt b' pt pp) (hb : PastAt b pt pc) (ha : FutureAt a fut) (hb0 : b = none ↔ k = 0) (hb0' : b' = none ↔ k = 0)
    (ha0 : a = none ↔ k = K) (x : P) :
    ∃ X : Ω → P, Measurable X ∧ ν.map X = vol.withDensity (fun z => ENNReal.ofReal (exp (lq k b' a z))) ∧
      ∀ d : McDraws Ω, mcStep S [x] pt pp pc fut [0] D k false d =
        .ok ([if d.u 0 < exp (bpLog l0 lp g lq k b b' a x (X d.ω)) then X d.ω else x], [decide (d.u 0 < exp (bpLog l0 lp g lq k b b' a x (X d.ω)))]) := by
  obtain ⟨⟨X, hX, hXl, hXe⟩, hlq'⟩ := hp k b' a pt pp fut hk hb' ha hb0' ha0
  obtain ⟨-, hlq⟩ := hp k b a pt pc fut hk hb ha hb0 ha0
  refine ⟨X, hX, hXl, fun d => ?_⟩
  obtain ⟨y, hy⟩ : ∃ y, D.y[k]? = some y := ⟨_, List.getElem?_eq_getElem (by have := h.ys; omega)⟩
  obtain ⟨tm, tm', m1, m2, m3, m4, m5⟩ := bp_measure h hk hy x (X d.ω) pt pp pc
  obtain ⟨tf, tf', f1, f2, f3, f4, f5⟩ := bp_future h hk ha ha0 x (X d.ω) pt pp pc
  simp only [mcStep, bp_current h hk hb hb0, ok_bind, Bool.false_eq_true, if_false, hXe, hlq', hlq, bp_prev h hk hb hb0, bp_prev h hk hb' hb0', mcAccept,
    getIdx_ok.mpr hy, m1, f1]
  have s1 : ∀ a b : ℝ, npSub [a] [b] = .ok [a - b] := fun a b => rfl
  have s2 : ∀ a b : ℝ, npAdd [a] [b] = .ok [a + b] := fun a b => rfl
  obtain ⟨ρ, hρ, hr⟩ : ∃ ρ, (do
      let t1 ← Term.sub (some [priorLog l0 lp k b' none (X d.ω)]) (some [priorLog l0 lp k b none x])
      let t2 ← Term.sub tm' tm
      let t3 ← Term.sub tf' tf
      let t4 ← Term.sub (some [lq k b a x]) (some [lq k b' a (X d.ω)])
      let s1 ← Term.add t1 t2
      let s2 ← Term.add s1 t3
      Term.add s2 t4 : PyM Term) = .ok (some [ρ]) ∧ ρ = bpLog l0 lp g lq k b b' a x (X d.ω) := by
    have hpl : ∀ (c : Option P) z, priorLog l0 lp k c none z = priorLog l0 lp k c a z := fun c z => rfl
    rcases tm with _ | lm <;> rcases tm' with _ | lm'
    · rcases tf with _ | lf <;> rcases tf' with _ | lf'
      · refine ⟨_, by simp only [Term.sub, Term.add, s1, s2, ok_bind, pure_eq_ok]; rfl, ?_⟩
        simp only [bpLog, localLog_eq, (m5 rfl).1, (m5 rfl).2, (f5 rfl).1, (f5 rfl).2, hpl]
        ring
      · simp at f2
      · simp at f2
      · obtain rfl := f3 _ rfl; obtain rfl := f4 _ rfl
        refine ⟨_, by simp only [Term.sub, Term.add, s1, s2, ok_bind, pure_eq_ok]; rfl, ?_⟩
        simp only [bpLog, localLog_eq, (m5 rfl).1, (m5 rfl).2, hpl]
        ring
    · simp at m2
    · simp at m2
    · obtain rfl := m3 _ rfl; obtain rfl := m4 _ rfl
      rcases tf with _ | lf <;> rcases tf' with _ | lf'
      · refine ⟨_, by simp only [Term.sub, Term.add, s1, s2, ok_bind, pure_eq_ok]; rfl, ?_⟩
        simp only [bpLog, localLog_eq, (f5 rfl).1, (f5 rfl).2, hpl]
        ring
      · simp at f2
      · simp at f2
      · obtain rfl := f3 _ rfl; obtain rfl := f4 _ rfl
        refine ⟨_, by simp only [Term.sub, Term.add, s1, s2, ok_bind, pure_eq_ok]; rfl, ?_⟩
        simp only [bpLog, localLog_eq, hpl]
        ring
  obtain ⟨t1, e1, hρ⟩ := bind_eq_ok.mp hρ
  obtain ⟨t2, e2, hρ⟩ := bind_eq_ok.mp hρ
  obtain ⟨t3, e3, hρ⟩ := bind_eq_ok.mp hρ
  obtain ⟨t4, e4, hρ⟩ := bind_eq_ok.mp hρ
  obtain ⟨t5, e5, hρ⟩ := bind_eq_ok.mp hρ
  obtain ⟨t6, e6, hρ⟩ := bind_eq_ok.mp hρ
  simp only [e1, e2, e3, e4, e5, e6, hρ, ok_bind, hr]
  simp [maskSet]

end

/-! ### Expectations -/

/-- Expectation over the draws of `R` iterations of `perform_mhbp` at one time, from iteration `j` on: for every iteration a uniform for the ancestor, a draw of the
model for the proposal, and uniforms for the acceptance. -/
noncomputable def Spec.itersE [MeasurableSpace Ω] (ν : Measure Ω) : ℕ → ℕ → (MhbpDraws Ω → ℝ≥0∞) → MhbpDraws Ω → ℝ≥0∞
  | 0, _, f, b => f b
  | R + 1, j, f, b => ∫⁻ r, ∫⁻ ω, ∫⁻ u,
      itersE ν R (j+1) f { b with r := Function.update b.r j r, mc := Function.update b.mc j ⟨ω, u⟩ } ∂unifSeq ∂ν ∂unif

/-- Expectation over the draws of the times `n-1, …, 0`, `R` iterations each. -/
noncomputable def Spec.timesE [MeasurableSpace Ω] (ν : Measure Ω) (R : ℕ) : ℕ → ((ℕ → MhbpDraws Ω) → ℝ≥0∞) → (ℕ → MhbpDraws Ω) → ℝ≥0∞
  | 0, f, b => f b
  | n + 1, f, b => itersE ν R 0 (fun dt => timesE ν R n f (Function.update b n dt)) (b n)

theorem itersE_congr [MeasurableSpace Ω] (ν : Measure Ω) {R j : ℕ} {f f' : MhbpDraws Ω → ℝ≥0∞} {b : MhbpDraws Ω}
    (h : ∀ b' : MhbpDraws Ω, (∀ i, i < j → b'.r i = b.r i ∧ b'.mc i = b.mc i) → f b' = f' b') : itersE ν R j f b = itersE ν R j f' b := by
  induction R generalizing j b with
  | zero => exact h b fun _ _ => ⟨rfl, rfl⟩
  | succ R ih =>
    simp only [itersE]
    refine lintegral_congr fun r => lintegral_congr fun ω => lintegral_congr fun u => ih fun b' hb' => h b' fun i hi => ?_
    obtain ⟨h1, h2⟩ := hb' i (by omega)
    simp only at h1 h2
    rw [Function.update_of_ne (by omega)] at h1 h2
    exact ⟨h1, h2⟩

theorem timesE_congr [MeasurableSpace Ω] (ν : Measure Ω) {R n : ℕ} {f f' : (ℕ → MhbpDraws Ω) → ℝ≥0∞} {b : ℕ → MhbpDraws Ω}
    (h : ∀ b', (∀ i, n ≤ i → b' i = b i) → f b' = f' b') : timesE ν R n f b = timesE ν R n f' b := by
  induction n generalizing b with
  | zero => exact h b fun _ _ => rfl
  | succ n ih =>
    simp only [timesE]
    congr 1
    funext dt
    refine ih fun b' hb' => h b' fun i hi => ?_
    rw [hb' i (by omega), Function.update_of_ne (by omega)]

open scoped Classical in
theorem accept_one (A B : ℝ≥0∞) {ρ : ℝ} (hρ : 0 ≤ ρ) :
    ∫⁻ u : ℕ → ℝ, (if u 0 < ρ then A else B) ∂unifSeq = ENNReal.ofReal (min 1 ρ) * A + ENNReal.ofReal (1 - min 1 ρ) * B := by
  have := lintegral_accept (m := 1) (fun _ => A) (fun _ => B) (fun _ => ρ) (fun _ => hρ)
  simpa only [Finset.univ_unique, Finset.sum_singleton, Fin.default_eq_zero, Fin.val_zero] using this

section
variable [MeasurableSpace P] [MeasurableSpace Ω] {S : SmoothCallbacks P U Y V Ω} {D : SData U Y} {K : ℕ} {l0 : P → ℝ} {lp : ℕ → P → P → ℝ} {g : ℕ → P → ℝ}
  {ν : Measure Ω} [IsProbabilityMeasure ν] {vol : Measure P} [SigmaFinite vol] {lq : ℕ → Option P → Option P → P → ℝ}

open scoped Classical in
/-- One iteration, integrated over the proposed state and the acceptance. -/
theorem bp_iter_E (hlaw : PathLaw vol l0 lp g lq) {k : ℕ} {b b' : Option P} (s : ℕ → P) (hb : b = none ∨ ∃ y, b = some y) {X : Ω → P} (hX : Measurable X)
    (hXl : ν.map X = vol.withDensity (fun z => ENNReal.ofReal (exp (lq k b' (after K s k) z)))) (x : P)
    (hm : Measurable fun z => bpLog l0 lp g lq k b b' (after K s k) x z) {Ψ' : (ℕ → P) → ℝ≥0∞} (hΨ : Measurable Ψ') (c : ℝ≥0∞) :
    ∫⁻ ω, ∫⁻ u : ℕ → ℝ, (if u 0 < exp (bpLog l0 lp g lq k b b' (after K s k) x (X ω)) then Ψ' (Function.update s k (X ω)) else c) ∂unifSeq ∂ν =
      ∫⁻ y, ENNReal.ofReal (min 1 (exp (bpLog l0 lp g lq k b b' (after K s k) x y))) * Ψ' (Function.update s k y) +
        ENNReal.ofReal (1 - min 1 (exp (bpLog l0 lp g lq k b b' (after K s k) x y))) * c
      ∂(vol.withDensity fun z => ENNReal.ofReal (exp (lq k b' (after K s k) z))) := by
  have mup : Measurable fun y => Ψ' (Function.update s k y) := hΨ.comp ((measurable_updateAt k).comp measurable_prodMk_left)
  have mG : Measurable fun y => ENNReal.ofReal (min 1 (exp (bpLog l0 lp g lq k b b' (after K s k) x y))) * Ψ' (Function.update s k y) +
        ENNReal.ofReal (1 - min 1 (exp (bpLog l0 lp g lq k b b' (after K s k) x y))) * c :=
    ((measurable_const.min hm.exp).ennreal_ofReal.mul mup).add ((measurable_const.sub (measurable_const.min hm.exp)).ennreal_ofReal.mul measurable_const)
  rw [← hXl, lintegral_map mG hX]
  refine lintegral_congr fun ω => ?_
  rw [accept_one _ _ (exp_pos _).le]

/-- The iterations at a time after the first. -/
theorem bp_inner (hlaw : PathLaw vol l0 lp g lq) (h : MhPaths S D 1 K l0 lp g) (hp : BackProposal S D ν K vol lq) {N : ℕ} (hN : 0 < N) {pt : List (Step P)}
    {n : ℕ} (hn : n + 1 ≤ K) {prev : Step P} (hprev : pt[n]? = some prev) (hg : GoodStep N prev) {w' : List ℝ} (hw' : maxNormalised prev.pa.w = .ok w')
    (x0 : P) (s : ℕ → P) {fut : Option (List (SStep P))} (hfut : FutureAt (after K s (n+1)) fut) {Good : Option (List ℕ) → Prop} (hgood : ∀ p, Good (some p))
    {Φ : ℕ × (ℕ → P) → ℝ≥0∞} (hΦ : Measurable Φ) {f : PyM (List P × List ℕ × Option (List ℕ)) → MhbpDraws Ω → ℝ≥0∞}
    (hf : ∀ d' x' a' p', a' < N → Good p' → f (.ok ([x'], [a'], p')) d' = Φ (a', Function.update s (n+1) x')) (R j : ℕ) {x : P} {a : ℕ} (ha : a < N)
    {panc : Option (List ℕ)} (hpa : R = 0 → Good panc) (d : MhbpDraws Ω) :
    itersE ν R j (fun d' => f (mhbpInner S (some ((pt.take (n+1)).map Step.toS)) fut 1 D (n+1) (some w') d' (List.range' j R) ([x], [a], panc)) d') d =
      (bpSite vol l0 lp g lq K (n+1) N (normAt N pt n) (partAt x0 pt n))^[R] Φ (a, Function.update s (n+1) x) := by
  classical
  induction R generalizing j x a panc d with
  | zero => exact hf d x a panc ha (hpa rfl)
  | succ R ih =>
    rw [Function.iterate_succ_apply']
    set Ψ := (bpSite vol l0 lp g lq K (n+1) N (normAt N pt n) (partAt x0 pt n))^[R] Φ with hΨ
    have mΨ : Measurable Ψ := bpSite_iterate_measurable hlaw _ _ _ _ _ _ hΦ
    have hpart : ∀ b, b < N → prev.pa.part[b]? = some (partAt x0 pt n b) := by
      intro b hb
      have hl : b < prev.pa.part.length := by rw [hg.pa.part_len]; exact hb
      rw [List.getElem?_eq_getElem hl]
      simp [partAt, hprev, List.getD_eq_getElem?_getD, hl]
    have hlastp : ((pt.take (n+1)).map Step.toS).getLast? = some prev.toS := by
      rw [List.getLast?_map, List.getLast?_take, if_neg (by omega)]
      simp [hprev]
    have hpast : ∀ b, b < N → PastAt (some (partAt x0 pt n b)) (some ((pt.take (n+1)).map Step.toS)) (some [b]) := fun b hb =>
      ⟨prev.toS, b, prev.ancestors, hlastp, hpart b hb, rfl, rfl, by rw [hg.anc_len]; exact hb⟩
    have hafter : after K s (n+1) = none ↔ n + 1 = K := by
      unfold after
      split <;> simp <;> omega
    have hab : ∀ b : P, (some b = none ↔ n + 1 = 0) := fun b => by simp
    choose X hX hXl hXe using fun (b : ℕ) (hb : b < N) => bp_mcStep h hp hn (hpast b hb) (hpast a ha) hfut (hab _) (hab _) hafter x
    have hwlen : prev.pa.w.length = N := hg.pa.w_len
    obtain ⟨w, hw⟩ : ∃ w : Fin N → ℝ, prev.pa.w = List.ofFn w := by
      subst hwlen
      exact ⟨fun i => prev.pa.w[i], by simp⟩
    have hnorm : ∀ i : Fin N, ENNReal.ofReal (exp (w i) / ∑ j, exp (w j)) = normAt N pt n i := by
      intro i
      simp only [normAt, wAt_eq hprev hw]
    -- the value for a proposed ancestor
    obtain ⟨c, hc⟩ : ∃ c : ℕ → ℝ≥0∞, c = fun b => ∫⁻ y,
        ENNReal.ofReal (min 1 (exp (bpLog l0 lp g lq (n+1) (some (partAt x0 pt n a)) (some (partAt x0 pt n b)) (after K s (n+1)) x y))) *
          Ψ (b, Function.update s (n+1) y) +
        ENNReal.ofReal (1 - min 1 (exp (bpLog l0 lp g lq (n+1) (some (partAt x0 pt n a)) (some (partAt x0 pt n b)) (after K s (n+1)) x y))) *
          Ψ (a, Function.update s (n+1) x)
      ∂(vol.withDensity fun y => ENNReal.ofReal (exp (lq (n+1) (some (partAt x0 pt n b)) (after K s (n+1)) y))) := ⟨_, rfl⟩
    have hval : ∀ b (hb : b < N) r, sample w' 1 r = .ok [b] →
        ∫⁻ ω, ∫⁻ u, itersE ν R (j+1) (fun d' => f (mhbpInner S (some ((pt.take (n+1)).map Step.toS)) fut 1 D (n+1) (some w') d' (List.range' j (R+1))
          ([x], [a], panc)) d') { d with r := Function.update d.r j r, mc := Function.update d.mc j ⟨ω, u⟩ } ∂unifSeq ∂ν = c b := by
      intro b hb r hr
      have mb : Measurable fun z => bpLog l0 lp g lq (n+1) (some (partAt x0 pt n a)) (some (partAt x0 pt n b)) (after K s (n+1)) x z := by
        have := (bpLog_measurable hlaw K (n+1) (partAt x0 pt n a) (partAt x0 pt n b)).comp (f := fun y => (Function.update s (n+1) x, y)) (by fun_prop)
        simpa only [Function.comp_def, after_update, Function.update_self] using this
      rw [hc]
      refine Eq.trans (lintegral_congr fun ω => lintegral_congr fun u => ?_) (bp_iter_E (ν := ν) (K := K) hlaw s (Or.inr ⟨_, rfl⟩) (hX b hb) (hXl b hb) x mb
        (Ψ' := fun s => Ψ (b, s)) (mΨ.comp measurable_prodMk_left) (Ψ (a, Function.update s (n+1) x)))
      have e := hXe b hb ⟨ω, u⟩
      simp only at e
      have step : ∀ d' : MhbpDraws Ω, d'.r j = r → d'.mc j = ⟨ω, u⟩ →
          mhbpInner S (some ((pt.take (n+1)).map Step.toS)) fut 1 D (n+1) (some w') d' (List.range' j (R+1)) ([x], [a], panc) =
          mhbpInner S (some ((pt.take (n+1)).map Step.toS)) fut 1 D (n+1) (some w') d' (List.range' (j+1) R)
            (if u 0 < exp (bpLog l0 lp g lq (n+1) (some (partAt x0 pt n a)) (some (partAt x0 pt n b)) (after K s (n+1)) x (X b hb ω)) then ([X b hb ω], [b], some [b])
              else ([x], [a], some [b])) := by
        intro d' h1 h2
        rw [List.range'_succ, mhbpInner]
        simp only [mhbpPropose, h1, h2, hr, ok_bind, show List.range 1 = [0] from rfl, e]
        split
        · next hlt => simp [hlt]
        · next hlt => simp [hlt]
      rw [itersE_congr (f' := fun d' => f (mhbpInner S (some ((pt.take (n+1)).map Step.toS)) fut 1 D (n+1) (some w') d' (List.range' (j+1) R)
            (if u 0 < exp (bpLog l0 lp g lq (n+1) (some (partAt x0 pt n a)) (some (partAt x0 pt n b)) (after K s (n+1)) x (X b hb ω)) then ([X b hb ω], [b], some [b])
              else ([x], [a], some [b]))) d') ν (fun d' hd' => by
        obtain ⟨h1, h2⟩ := hd' j (by omega)
        simp only [Function.update_self] at h1 h2
        beta_reduce
        rw [step d' h1 h2])]
      split
      · exact ih (j+1) hb (fun _ => hgood _) _
      · exact ih (j+1) ha (fun _ => hgood _) _
    rw [itersE, lintegral_ends hN one_pos w c _ (by
      intro r ind h0 h1 hs hl
      obtain ⟨ind', e1, e2, e3, e4⟩ := drawEnd_ok hg hN 1 (show Unit01 r from ⟨h0.le, h1⟩)
      rw [hw, hs] at e2
      obtain rfl := Except.ok.inj e2
      obtain ⟨b, rfl⟩ := List.length_eq_one_iff.mp hl
      simp only [drawEnd, hw', ok_bind] at e1
      rw [hval b (e4 b (by simp)) r e1]
      simp)]
    unfold bpSite
    refine Finset.sum_congr rfl fun b _ => ?_
    rw [hnorm, hc]
    simp only [after_update, Function.update_self, Function.update_idem]

/-- The iterations at the first time. -/
theorem bp_inner_first (hlaw : PathLaw vol l0 lp g lq) (h : MhPaths S D 1 K l0 lp g) (hp : BackProposal S D ν K vol lq) (hK : 1 ≤ K)
    (s : ℕ → P) {fut : Option (List (SStep P))} (hfut : FutureAt (after K s 0) fut)
    {ψ : (ℕ → P) → ℝ≥0∞} (hψ : Measurable ψ) {f : PyM (List P × List ℕ × Option (List ℕ)) → MhbpDraws Ω → ℝ≥0∞}
    (hf : ∀ d' x' a' p', f (.ok ([x'], a', p')) d' = ψ (Function.update s 0 x')) (R j : ℕ) {x : P} {anc : List ℕ}
    {panc : Option (List ℕ)} (hpa : R ≠ 0 → panc ≠ none) (d : MhbpDraws Ω) :
    itersE ν R j (fun d' => f (mhbpInner S none fut 1 D 0 none d' (List.range' j R) ([x], anc, panc)) d') d =
      (siteE vol l0 lp g lq K 0)^[R] ψ (Function.update s 0 x) := by
  classical
  induction R generalizing j x anc panc d with
  | zero => exact hf d x anc panc
  | succ R ih =>
    rw [Function.iterate_succ_apply']
    set Ψ := (siteE vol l0 lp g lq K 0)^[R] ψ with hΨ
    have mΨ : Measurable Ψ := siteE_iterate_measurable hlaw K 0 R hψ
    obtain ⟨p, rfl⟩ := Option.ne_none_iff_exists'.mp (hpa (by omega))
    have hafter : after K s 0 = none ↔ 0 = K := by
      unfold after
      split <;> simp <;> omega
    obtain ⟨X, hX, hXl, hXe⟩ := bp_mcStep (b := none) (b' := none) (pt := none) (pp := some p) (pc := some anc) h hp (Nat.zero_le K) trivial trivial hfut (by simp) (by simp) hafter x
    have mb : Measurable fun z => bpLog l0 lp g lq 0 none none (after K s 0) x z := by
      have := (mhLog_measurable hlaw K 0).comp (f := fun y => (Function.update s 0 x, y)) (by fun_prop)
      simp only [Function.comp_def, after_update, before_update, Function.update_self] at this
      exact this
    have hval : ∀ r, ∫⁻ ω, ∫⁻ u, itersE ν R (j+1) (fun d' => f (mhbpInner S none fut 1 D 0 none d' (List.range' j (R+1))
          ([x], anc, some p)) d') { d with r := Function.update d.r j r, mc := Function.update d.mc j ⟨ω, u⟩ } ∂unifSeq ∂ν =
        siteE vol l0 lp g lq K 0 Ψ (Function.update s 0 x) := by
      intro r
      have hsite : siteE vol l0 lp g lq K 0 Ψ (Function.update s 0 x) =
          ∫⁻ y, ENNReal.ofReal (min 1 (exp (bpLog l0 lp g lq 0 none none (after K s 0) x y))) * Ψ (Function.update s 0 y) +
            ENNReal.ofReal (1 - min 1 (exp (bpLog l0 lp g lq 0 none none (after K s 0) x y))) * Ψ (Function.update s 0 x)
          ∂(vol.withDensity fun z => ENNReal.ofReal (exp (lq 0 none (after K s 0) z))) := by
        unfold siteE
        simp only [after_update, before_update, Function.update_self, Function.update_idem]
        rfl
      rw [hsite]
      refine Eq.trans (lintegral_congr fun ω => lintegral_congr fun u => ?_) (bp_iter_E (ν := ν) (K := K) hlaw s (Or.inl rfl) hX hXl x mb mΨ (Ψ (Function.update s 0 x)))
      have e := hXe ⟨ω, u⟩
      simp only at e
      obtain ⟨anc', hanc'⟩ : ∃ anc', anc' = List.zipWith (fun (b : Bool) (p : ℕ × ℕ) => if b then p.1 else p.2)
        [decide (u 0 < exp (bpLog l0 lp g lq 0 none none (after K s 0) x (X ω)))] (p.zip anc) := ⟨_, rfl⟩
      have step : ∀ d' : MhbpDraws Ω, d'.mc j = ⟨ω, u⟩ →
          mhbpInner S none fut 1 D 0 none d' (List.range' j (R+1)) ([x], anc, some p) =
          mhbpInner S none fut 1 D 0 none d' (List.range' (j+1) R)
            ([if u 0 < exp (bpLog l0 lp g lq 0 none none (after K s 0) x (X ω)) then X ω else x], anc', some p) := by
        intro d' h2
        rw [List.range'_succ, mhbpInner]
        simp only [mhbpPropose, h2, ok_bind, show List.range 1 = [0] from rfl, e, hanc']
      rw [itersE_congr (f' := fun d' => f (mhbpInner S none fut 1 D 0 none d' (List.range' (j+1) R)
            ([if u 0 < exp (bpLog l0 lp g lq 0 none none (after K s 0) x (X ω)) then X ω else x], anc', some p)) d') ν (fun d' hd' => by
        obtain ⟨h1, h2⟩ := hd' j (by omega)
        simp only [Function.update_self] at h2
        beta_reduce
        rw [step d' h2])]
      rw [ih (j+1) (fun _ => by simp) _]
      split <;> rfl
    rw [itersE]
    simp only [hval]
    rw [lintegral_const, measure_univ, mul_one]

end

end PyPE

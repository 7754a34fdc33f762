import Verif.Filter.ApfUnbiased
import Verif.Filter.RbFilter

/-!
# C119: the auxiliary particle filter on models whose `measure` rewrites the particles

`AuxiliaryParticleFilter` (filter.py:651-707) run on a Rao-Blackwellised model (as test/manual/filtering/rbapf_test.py does with
`MixedNLGaussianSampled.eval_1st_stage_weights`, mlnlg.py:272-293). `measure` conditions the stored normal laws, so the likelihoods of a step cannot be
computed again from the stored particles; they can be read off the stored weights, offset and ancestors.
-/

namespace PyPE
open Real Spec MeasureTheory ProbabilityTheory
open scoped ENNReal

variable {P U Y V Ω : Type}

/-! ### The model -/

/-- The first-stage weights (filter.py:680-686): `first` is `eval_1st_stage_weights(particles, u, y, t)`, which does not write into the particles. Without a
measurement at `t+1` the local `l1w` stays unbound. -/
noncomputable def rbApfFirst (first : List P → Slot U → Slot Y → ℕ → PyM (List ℝ)) (uvec : List (Slot U)) (tvec : List ℕ) (cur : ℕ) (pa : PA P) :
    Slot Y → PyM (PA P × Option (List ℝ))
  | .none => pure (pa, none)
  | y => do
    let u ← getIdx uvec cur
    let t ← getIdx tvec cur
    let l1w ← first pa.part u y t
    let w ← npAdd pa.w l1w
    let m ← npMax w
    pure ({ pa with w := w.map (· - m) }, some l1w)

/-- The resampling decision (filter.py:688-693): `l1w[ancestors]` raises `UnboundLocalError` when `l1w` is unbound. -/
noncomputable def rbApfResample (res r : ℝ) (pa : PA P) (l1w : Option (List ℝ)) : PyM (PA P × Bool × List ℕ × Option (List ℝ)) :=
  if res ≠ 0 then do
    let neff ← calcNeff pa.w
    if neff < res * pa.num then do
      let (pa', anc) ← pa.resample pa.num r
      match l1w with
      | none => .error .unboundLocalError
      | some l => do
        let l' ← fancy l anc
        pure (pa', true, anc, some l')
    else pure (pa, false, List.range pa.num, l1w)
  else (pure (pa, false, List.range pa.num, l1w) : PyM (PA P × Bool × List ℕ × Option (List ℝ)))

/-- The division by the first-stage weights (filter.py:704-705). -/
noncomputable def rbApfSecond (pa : PA P) : Option (List ℝ) → PyM (PA P)
  | none => .error .unboundLocalError
  | some l => do
    let w ← npSub pa.w l
    let m ← npMax w
    return { pa with w := w.map (· - m) }

/-- `AuxiliaryParticleFilter.forward` (filter.py:657-707) for a model whose `measure` writes into the particles. -/
noncomputable def rbApfForward (K : MarkovRb P U Y V Ω) (first : List P → Slot U → Slot Y → ℕ → PyM (List ℝ)) (res : ℝ) (traj : List (Step P))
    (yvec : List (Slot Y)) (uvec : List (Slot U)) (tvec : List ℕ) (cur : ℕ) (d : Draws Ω) : PyM (PA P × Bool × List ℕ) := do
  let last ← getLast traj
  let pa ← PA.new last.pa.part (some last.pa.w)
  let y ← getIdx yvec (cur + 1)
  let q ← rbApfFirst first uvec tvec cur pa y
  let v ← rbApfResample res d.r q.1 q.2
  let pa ← rbfUpdate K traj v.2.2.1 uvec tvec cur v.1 d.ω
  let pa ← rbfMeasure K pa yvec tvec (cur + 1)
  let pa ← rbApfSecond pa v.2.2.2
  return (pa, v.2.1, v.2.2.1)

/-- The filter object for `filter='APF'` (filter.py:870-871). -/
noncomputable def rbApfOps (K : MarkovRb P U Y V Ω) (first : List P → Slot U → Slot Y → ℕ → PyM (List ℝ)) (res : ℝ) : FilterOps P U Y V Ω :=
  ⟨K.createInitial, rbApfForward K first res, fun _ _ pa _ yvec tvec cur => rbfMeasure K pa yvec tvec cur, fun _ _ _ _ => .error .typeError, false⟩

/-! ### Specification -/

/-- The largest entry of a non-empty list. -/
noncomputable def Spec.largest (l : List ℝ) : ℝ := l.max?.getD 0

/-- The first-stage log-weights of the ancestors of the particles of a step. -/
def Spec.ofAncestors (a : List ℝ) (next : Step P) : List ℝ := next.ancestors.filterMap (a[·]?)

/-- The log-likelihoods of the measurement of a step, read off the stored weights: `a` are the first-stage log-weights of the particles before the step.
The step starts from uniform weights if it resampled and from the normalised first-stage weights if not; it ends with the division by the
first-stage weights of the ancestors. -/
noncomputable def Spec.storedLik (a : List ℝ) (prev next : Step P) (resampled : Bool) : List ℝ :=
  let v := List.zipWith (· + ·) next.pa.w (ofAncestors a next)
  let start := if resampled then List.replicate next.pa.w.length (-Real.log next.pa.w.length)
    else (List.zipWith (· + ·) prev.pa.w a).map fun t => t - largest (List.zipWith (· + ·) prev.pa.w a)
  List.zipWith (fun t s => t - largest v + next.pa.w_offset - s) v start

/-- The factor one step contributes to the likelihood estimate (see `Spec.apfFactor`), with the likelihoods read off the stored weights. -/
noncomputable def Spec.storedFactor (a : List ℝ) (prev next : Step P) (resampled : Bool) : ℝ :=
  if resampled then
    (List.zipWith (fun p a => p * exp a) (normWeights prev.pa.w) a).sum *
      ((List.zipWith (fun l a => exp l / exp a) (storedLik a prev next true) (ofAncestors a next)).sum / next.pa.part.length)
  else (List.zipWith (fun p l => p * exp l) (normWeights prev.pa.w) (storedLik a prev next false)).sum

/-- The product of the factors of successive steps, starting at time `k`; `first` evaluates the first-stage log-weights of stored particles. -/
noncomputable def Spec.storedProd (first : List P → Slot U → Slot Y → ℕ → PyM (List ℝ)) : ℕ → List (Slot U × Slot Y) → List (Step P) → List Bool → ℝ
  | k, q :: qs, st :: st' :: l, b :: bs =>
    ((first st.pa.part q.1 q.2 k).toOption.elim 0 fun a => storedFactor a st st' b) * storedProd first (k+1) qs (st' :: l) bs
  | _, _, _, _ => 1

/-- Likelihood estimate of the auxiliary filter times the filtered mean of `φ` at the last step; the first factor is the total stored weight of the first step
(one before any measurement). A run that raises contributes `0`. -/
noncomputable def Spec.storedEstimate (first : List P → Slot U → Slot Y → ℕ → PyM (List ℝ)) (φ : P → ℝ≥0∞) (qs : List (Slot U × Slot Y)) :
    PT P U Y × PyM (List (Option Bool)) → ℝ≥0∞
  | (s, .ok bs) => ENNReal.ofReal ((s.traj.head?.elim 1 fun st => mass st.pa) * storedProd first 0 qs s.traj (bs.filterMap id)) *
      s.traj.getLast?.elim 0 fun st => wmean φ st.pa
  | (_, .error _) => 0

/-- The model evaluates first-stage log-weights for every list of valid particles. -/
def Spec.RbFirstStage (first : List P → Slot U → Slot Y → ℕ → PyM (List ℝ)) (good : Slot Y → Prop) (ok : P → Prop) (N : ℕ) : Prop :=
  ∀ (x : Fin N → P) (u : Slot U) (y : Slot Y) (k : ℕ), good y → (∀ i, ok (x i)) → ∃ a : Fin N → ℝ, first (List.ofFn x) u y k = .ok (List.ofFn a)

/-! ### Reading the likelihoods off the stored weights -/

theorem largest_of {l : List ℝ} {m : ℝ} (h : npMax l = .ok m) : largest l = m := by
  cases l with
  | nil => cases h
  | cons a l =>
    have : l.foldl max a = m := Except.ok.inj h
    simp only [largest, List.max?_cons', this, Option.getD_some]

theorem filterMap_of_fancy {α : Type} {a b : List α} {ind : List ℕ} (h : fancy a ind = .ok b) : ind.filterMap (a[·]?) = b := by
  induction ind generalizing b with
  | nil => cases h; rfl
  | cons i ind ih =>
    unfold fancy at h
    rw [List.mapM_cons] at h
    obtain ⟨x, hx, h⟩ := bind_eq_ok.mp h
    obtain ⟨c, hc, h⟩ := bind_eq_ok.mp h
    cases h
    rw [List.filterMap_cons_some (getIdx_ok.mp hx), ih hc]

theorem recover_lik {w2 lik l w3 w : List ℝ} {c m : ℝ} (h3 : w3 = List.zipWith (fun a b => a + b - c) w2 lik) (hlen : lik.length = w2.length)
    (hl : w3.length = l.length) (h0 : npMax w3 = .ok 0) (hw : w = (List.zipWith (· - ·) w3 l).map (· - m)) :
    List.zipWith (fun t s => t - largest (List.zipWith (· + ·) w l) + c - s) (List.zipWith (· + ·) w l) w2 = lik := by
  have hv : List.zipWith (· + ·) w l = w3.map (· - m) := by
    rw [hw]
    apply List.ext_getElem
    · simp [hl]
    · intro i h1 h2
      simp only [List.getElem_zipWith, List.getElem_map]; ring
  have hm : npMax (w3.map (· - m)) = .ok (-m) := by
    obtain ⟨g1, g2⟩ := npMax_spec h0
    apply npMax_eq_of
    · exact List.mem_map.mpr ⟨0, g1, by ring⟩
    · intro x hx; obtain ⟨z, hz, rfl⟩ := List.mem_map.mp hx; linarith [g2 z hz]
  rw [hv, largest_of hm, h3]
  apply List.ext_getElem
  · simp [hlen]
  · intro i h1 h2
    simp only [List.getElem_zipWith, List.getElem_map]; ring

/-- **C119** Whatever the model and its first-stage weights: if a step of the auxiliary filter succeeds, the list read off the stored weights, offset and ancestors
is the list of log-likelihoods `measure` returned in that step, in the order of the stored particles. -/
theorem C119_recovers {K : MarkovRb P U Y V Ω} {first : List P → Slot U → Slot Y → ℕ → PyM (List ℝ)} {res : ℝ} {tr : List (Step P)} {last : Step P}
    {yv : List (Slot Y)} {uv : List (Slot U)} {tv : List ℕ} {k : ℕ} {d : Draws Ω} {pa : PA P} {b : Bool} {anc : List ℕ}
    (hlast : tr.getLast? = some last) (hlen : last.pa.part.length = last.pa.w.length) {t1 : ℕ} (ht1 : tv[k+1]? = some t1)
    (h : rbApfForward K first res tr yv uv tv k d = .ok (pa, b, anc)) :
    ∃ u y t a parents v moved lik, uv[k]? = some u ∧ yv[k+1]? = some y ∧ y ≠ .none ∧ tv[k]? = some t ∧ first last.pa.part u y t = .ok a ∧
      fancy last.pa.part anc = .ok parents ∧ K.sampleProcessNoise parents u t d.ω = .ok v ∧ K.update parents u t v = .ok moved ∧ K.measure moved y t1 = .ok (pa.part, lik) ∧ storedLik a last ⟨pa, anc⟩ b = lik := by
  unfold rbApfForward at h
  rw [getLast_ok.mpr hlast, ok_bind] at h
  simp only [PA.new, ok_bind] at h
  obtain ⟨y, hy, h⟩ := bind_eq_ok.mp h
  obtain ⟨⟨pa1, l1⟩, hq, h⟩ := bind_eq_ok.mp h
  obtain ⟨⟨pa2, b', anc', l2⟩, hr, h⟩ := bind_eq_ok.mp h
  obtain ⟨pa3, hu, h⟩ := bind_eq_ok.mp h
  obtain ⟨pa4, hm, h⟩ := bind_eq_ok.mp h
  obtain ⟨pa5, hs, h⟩ := bind_eq_ok.mp h
  simp only [pure_eq_ok, Except.ok.injEq, Prod.mk.injEq] at h
  obtain ⟨rfl, rfl, rfl⟩ := h
  simp only at hr hu hs
  -- the second stage had bound weights
  obtain ⟨l2, rfl⟩ : ∃ l, l2 = some l := by
    cases l2 with
    | none => cases hs
    | some l => exact ⟨l, rfl⟩
  obtain ⟨w5, hw5, hs⟩ := bind_eq_ok.mp hs
  obtain ⟨m5, hm5, hs⟩ := bind_eq_ok.mp hs
  cases hs
  -- the first stage
  have hl1 : ∃ a, l1 = some a := by
    cases l1 with
    | some a => exact ⟨a, rfl⟩
    | none =>
      unfold rbApfResample at hr
      split at hr
      · obtain ⟨ne, hne, hr⟩ := bind_eq_ok.mp hr
        split at hr
        · obtain ⟨p, hp, hr⟩ := bind_eq_ok.mp hr
          cases hr
        · cases hr
      · cases hr
  obtain ⟨a, rfl⟩ := hl1
  have hfirst : ∃ u t m1, uv[k]? = some u ∧ tv[k]? = some t ∧ y ≠ .none ∧ first last.pa.part u y t = .ok a ∧ last.pa.w.length = a.length ∧
      npMax (List.zipWith (· + ·) last.pa.w a) = .ok m1 ∧
      pa1 = ⟨last.pa.part, (List.zipWith (· + ·) last.pa.w a).map (· - m1), last.pa.part.length, 0⟩ := by
    have main : ∀ y' : Slot Y, y' = y → (do
      let u ← getIdx uv k
      let t ← getIdx tv k
      let l1w ← first last.pa.part u y' t
      let w ← npAdd last.pa.w l1w
      let m ← npMax w
      pure ((⟨last.pa.part, w.map (· - m), last.pa.part.length, 0⟩ : PA P), some l1w)) = (.ok (pa1, some a) : PyM (PA P × Option (List ℝ))) →
      y ≠ .none → ∃ u t m1, uv[k]? = some u ∧ tv[k]? = some t ∧ y ≠ .none ∧ first last.pa.part u y t = .ok a ∧ last.pa.w.length = a.length ∧
        npMax (List.zipWith (· + ·) last.pa.w a) = .ok m1 ∧
        pa1 = ⟨last.pa.part, (List.zipWith (· + ·) last.pa.w a).map (· - m1), last.pa.part.length, 0⟩ := by
      rintro y' rfl hq hyn
      obtain ⟨u, hu', hq⟩ := bind_eq_ok.mp hq
      obtain ⟨t, ht, hq⟩ := bind_eq_ok.mp hq
      obtain ⟨a', ha, hq⟩ := bind_eq_ok.mp hq
      obtain ⟨w, hw, hq⟩ := bind_eq_ok.mp hq
      obtain ⟨m, hm1, hq⟩ := bind_eq_ok.mp hq
      unfold npAdd at hw
      split at hw
      · rename_i hla
        cases hw
        simp only [pure_eq_ok, Except.ok.injEq, Prod.mk.injEq, Option.some.injEq] at hq
        obtain ⟨rfl, rfl⟩ := hq
        exact ⟨u, t, m, getIdx_ok.mp hu', getIdx_ok.mp ht, hyn, ha, hla, hm1, rfl⟩
      · cases hw
    cases y with
    | none => cases hq
    | zero => exact main _ rfl hq (by simp)
    | obj y => exact main _ rfl hq (by simp)
  obtain ⟨u, t, m1, hu', ht, hyn, ha, hla, hm1, rfl⟩ := hfirst
  -- measure
  unfold rbfMeasure at hm
  obtain ⟨y', hy', hm⟩ := bind_eq_ok.mp hm
  obtain ⟨t1', ht1', hm⟩ := bind_eq_ok.mp hm
  obtain ⟨⟨part', lik⟩, hme, hm⟩ := bind_eq_ok.mp hm
  obtain ⟨e1, e2, e3, e4, e5, c, e6, e7⟩ := weightUpdate_spec hm
  have hyk := getIdx_ok.mp hy
  rw [getLast_take_succ hyk] at hy'
  obtain rfl := Except.ok.inj hy'
  rw [getLast_take_succ ht1] at ht1'
  obtain rfl := Except.ok.inj ht1'
  unfold rbfUpdate at hu
  rw [getLast_ok.mpr hlast, ok_bind] at hu
  obtain ⟨parents, hpar, hu⟩ := bind_eq_ok.mp hu
  simp only [getLast_take_succ hu', getLast_take_succ ht, ok_bind] at hu
  obtain ⟨v, hv, hu⟩ := bind_eq_ok.mp hu
  obtain ⟨moved, hmv, hu⟩ := bind_eq_ok.mp hu
  have hpa3 : pa3.w = pa2.w ∧ pa3.w_offset = pa2.w_offset ∧ pa3.part = moved := by
    cases hu
    exact ⟨rfl, rfl, rfl⟩
  have hpp : pa2.part = parents := by
    have hno : pa2 = ⟨last.pa.part, (List.zipWith (· + ·) last.pa.w a).map (· - m1), last.pa.part.length, 0⟩ →
        anc' = List.range last.pa.part.length → pa2.part = parents := by
      rintro rfl rfl
      rw [fancy_range] at hpar
      exact Except.ok.inj hpar
    unfold rbApfResample at hr
    split at hr
    · obtain ⟨ne, hne, hr⟩ := bind_eq_ok.mp hr
      split at hr
      · obtain ⟨⟨p, an⟩, hp, hr⟩ := bind_eq_ok.mp hr
        simp only at hr
        obtain ⟨l', hl', hr⟩ := bind_eq_ok.mp hr
        simp only [pure_eq_ok, Except.ok.injEq, Prod.mk.injEq, Option.some.injEq] at hr
        obtain ⟨rfl, rfl, rfl, rfl⟩ := hr
        obtain ⟨m', -, -, g3, -, -⟩ := resample_spec hp
        exact Except.ok.inj (g3.symm.trans hpar)
      · simp only [pure_eq_ok, Except.ok.injEq, Prod.mk.injEq, Option.some.injEq] at hr
        exact hno hr.1.symm hr.2.2.1.symm
    · simp only [pure_eq_ok, Except.ok.injEq, Prod.mk.injEq, Option.some.injEq] at hr
      exact hno hr.1.symm hr.2.2.1.symm
  refine ⟨u, y, t, a, parents, v, moved, lik, hu', hyk, hyn, ht, ha, hpar, hv, by rw [← hpp]; exact hmv, by rw [e1, ← hpa3.2.2]; exact hme, ?_⟩
  have h5 : w5 = List.zipWith (· - ·) pa4.w l2 ∧ pa4.w.length = l2.length := by
    unfold npSub at hw5
    split at hw5
    · rename_i hl5
      exact ⟨(Except.ok.inj hw5).symm, hl5⟩
    · cases hw5
  have hrec := recover_lik (w2 := pa2.w) (lik := lik) (l := l2) (w := w5.map (· - m5)) (m := m5) (by rw [← hpa3.1]; exact e7) (by rw [← hpa3.1]; exact e3)
    h5.2 e5 (by rw [h5.1])
  -- the resampling decision
  have hnum : ((last.pa.part.length : ℕ) : ℝ) = last.pa.w.length := by rw [hlen]
  have hfin : pa2.w_offset = 0 ∧ ofAncestors a ⟨{ pa4 with w := w5.map (· - m5) }, anc'⟩ = l2 ∧
      (if b' then List.replicate (w5.map (· - m5)).length (-Real.log ((w5.map (· - m5)).length : ℕ))
        else (List.zipWith (· + ·) last.pa.w a).map fun t => t - largest (List.zipWith (· + ·) last.pa.w a)) = pa2.w := by
    have hlw : (w5.map (· - m5)).length = pa2.w.length := by
      rw [List.length_map, h5.1, List.length_zipWith, ← h5.2, min_self, e4, hpa3.1]
    rw [hlw]
    have hno : pa2 = ⟨last.pa.part, (List.zipWith (· + ·) last.pa.w a).map (· - m1), last.pa.part.length, 0⟩ → b' = false →
        anc' = List.range last.pa.part.length → l2 = a → pa2.w_offset = 0 ∧ ofAncestors a ⟨{ pa4 with w := w5.map (· - m5) }, anc'⟩ = l2 ∧
      (if b' then List.replicate pa2.w.length (-Real.log (pa2.w.length : ℕ))
        else (List.zipWith (· + ·) last.pa.w a).map fun t => t - largest (List.zipWith (· + ·) last.pa.w a)) = pa2.w := by
      rintro rfl rfl rfl rfl
      refine ⟨rfl, ?_, by rw [largest_of hm1]; rfl⟩
      unfold ofAncestors
      rw [hlen, hla]
      exact filterMap_of_fancy (fancy_range l2)
    unfold rbApfResample at hr
    split at hr
    · obtain ⟨ne, hne, hr⟩ := bind_eq_ok.mp hr
      split at hr
      · obtain ⟨⟨p, an⟩, hp, hr⟩ := bind_eq_ok.mp hr
        simp only at hr
        obtain ⟨l', hl', hr⟩ := bind_eq_ok.mp hr
        simp only [pure_eq_ok, Except.ok.injEq, Prod.mk.injEq, Option.some.injEq] at hr
        obtain ⟨rfl, rfl, rfl, rfl⟩ := hr
        obtain ⟨m', -, -, -, g4, g5⟩ := resample_spec hp
        refine ⟨g5, filterMap_of_fancy hl', ?_⟩
        rw [if_pos rfl, g4, List.length_replicate, one_div, Real.log_inv]
      · simp only [pure_eq_ok, Except.ok.injEq, Prod.mk.injEq, Option.some.injEq] at hr
        obtain ⟨e1, e2, e3, e4⟩ := hr
        exact hno e1.symm e2.symm e3.symm e4.symm
    · simp only [pure_eq_ok, Except.ok.injEq, Prod.mk.injEq, Option.some.injEq] at hr
      obtain ⟨e1, e2, e3, e4⟩ := hr
      exact hno e1.symm e2.symm e3.symm e4.symm
  obtain ⟨f1, f2, f3⟩ := hfin
  have hoff : pa4.w_offset = c := by rw [e6, show ({ pa3 with part := part' } : PA P).w_offset = pa3.w_offset from rfl, hpa3.2.1, f1, zero_add]
  simp only [storedLik]
  rw [f2, f3, hoff]
  exact hrec

/-! ### One step -/

/-- Moving valid particles and measuring them, for a function `h` of the new particles: `Q x` is the average of likelihood times `h`. -/
def MoveMeasure [MeasurableSpace Ω] (K : MarkovRb P U Y V Ω) (ν : Measure Ω) (N : ℕ) (k : ℕ) (u : Slot U) (y : Slot Y) (ok : P → Prop)
    (h Q : P → ℝ≥0∞) : Prop :=
  ∀ x : Fin N → P, (∀ i, ok (x i)) → ∃ (X : Fin N → Ω → P) (L : Fin N → Ω → ℝ),
    (∀ i, Measurable (fun ω => ENNReal.ofReal (exp (L i ω)) * h (X i ω)) ∧ ∫⁻ ω, ENNReal.ofReal (exp (L i ω)) * h (X i ω) ∂ν = Q (x i)) ∧
    (∀ i ω, ok (X i ω)) ∧ ∀ ω, ∃ v part, K.sampleProcessNoise (List.ofFn x) u k ω = .ok v ∧ K.update (List.ofFn x) u k v = .ok part ∧
      K.measure part y (k+1) = .ok (List.ofFn (fun i => X i ω), List.ofFn fun i => L i ω)

theorem rb_moveMeasure {S : Type} [MeasurableSpace S] [MeasurableSpace Ω] {K : MarkovRb P U Y V Ω} {ν : Measure Ω} {N : ℕ}
    {ok : P → Prop} {law : P → Measure S} {μ0 : Measure S} {M : ℕ → Slot U → Kernel S S} {ℓ : ℕ → Slot Y → S → ℝ} {good : Slot Y → Prop}
    (hK : Spec.RbSamples K good ν N ok law μ0 M ℓ) {h : S → ℝ≥0∞} (hpm : Measurable h) (k : ℕ) (u : Slot U) (y : Slot Y) (hy0 : good y) :
    MoveMeasure K ν N k u y ok (fun p => ∫⁻ s, h s ∂law p)
      (fun p => ∫⁻ s, ∫⁻ s', ENNReal.ofReal (exp (ℓ (k+1) y s')) * h s' ∂M k u s ∂law p) := by
  intro x hx
  obtain ⟨X, hmove, hX⟩ := hK.move x u k hx
  have hms := fun ω => hK.measure (fun i => X i ω) y (k+1) hy0 fun i => (hX i).1 ω
  choose x' l hml hl using hms
  have hgm : Measurable fun s => ENNReal.ofReal (exp (ℓ (k+1) y s)) * h s :=
    (measurable_exp.comp (hK.meas (k+1) y)).ennreal_ofReal.mul hpm
  have hb := fun i ω => RbSamples.bayes (hK.meas (k+1) y) (hl ω i).2 hpm
  refine ⟨fun i ω => x' ω i, fun i ω => l ω i, fun i => ?_, fun i ω => (hl ω i).1, fun ω => ?_⟩
  · simp only [hb]
    exact (hX i).2 _ hgm
  · obtain ⟨v, hv1, hv2⟩ := hmove ω
    exact ⟨v, _, hv1, hv2, hml ω⟩

/-- After the resampling decision. -/
theorem rbapf_second {K : MarkovRb P U Y V Ω} {N : ℕ} (hN : 0 < N)
    {tr : List (Step P)} {last : Step P} {yv : List (Slot Y)} {uv : List (Slot U)} {tv : List ℕ} {k : ℕ} {u : Slot U} {y : Slot Y}
    (hlast : tr.getLast? = some last) (hu : uv[k]? = some u) (hy : yv[k+1]? = some y) (ht : tv[k]? = some k) (ht1 : tv[k+1]? = some (k+1))
    {pa2 : PA P} {z x' : Fin N → P} {w2 l1 lik : Fin N → ℝ} {anc : List ℕ} (hfan : fancy last.pa.part anc = .ok (List.ofFn z))
    (hz : pa2.part = List.ofFn z) (hw : pa2.w = List.ofFn w2) {ω : Ω} {v : V} (hv : K.sampleProcessNoise (List.ofFn z) u k ω = .ok v)
    {part : List P} (hup : K.update (List.ofFn z) u k v = .ok part) (hm : K.measure part y (k+1) = .ok (List.ofFn x', List.ofFn lik)) :
    ∃ pa c, (do
      let pa ← rbfUpdate K tr anc uv tv k pa2 ω
      let pa ← rbfMeasure K pa yv tv (k + 1)
      rbApfSecond pa (some (List.ofFn l1))) = .ok pa ∧ pa.part = List.ofFn x' ∧ pa.w = List.ofFn (fun i => w2 i + lik i - l1 i - c) ∧
        pa.num = pa2.num := by
  obtain ⟨pa', w', f1, f2, f3, fn, f4⟩ := weightUpdate_offset (pa := { pa2 with part := List.ofFn x' }) hN (by rw [hw]; simp) lik
  obtain ⟨m, hmx⟩ := npMax_ok (l := List.ofFn fun i => w' i - l1 i) (by
    intro h; have := congrArg List.length h; simp at this; omega)
  refine ⟨{ pa' with w := (List.ofFn fun i => w' i - l1 i).map (· - m) }, pa'.w_offset - pa2.w_offset + m, ?_, f2, ?_, fn⟩
  · unfold rbfUpdate
    simp only [getLast_ok.mpr hlast, ok_bind, hfan, getLast_take_succ hu, getLast_take_succ ht, hv, hz, hup, pure_eq_ok]
    unfold rbfMeasure
    simp only [getLast_take_succ hy, getLast_take_succ ht1, ok_bind, hm, f1]
    simp only [rbApfSecond]
    rw [npSub_ok (by rw [f3]; simp), f3, zipWith_ofFn', ok_bind, hmx]
    rfl
  · simp only [List.map_ofFn]
    congr 1
    funext i
    have := f4 i
    simp only [hw, List.getD_eq_getElem?_getD, List.getElem?_ofFn, i.2, dif_pos, Option.getD_some, Fin.eta] at this
    simp only [Function.comp_apply]
    linarith

/-- What one step of the auxiliary filter does. -/
theorem rbapf_step_ok [MeasurableSpace Ω] {K : MarkovRb P U Y V Ω} {ν : Measure Ω} {N : ℕ} (hN : 0 < N)
    {first : List P → Slot U → Slot Y → ℕ → PyM (List ℝ)} (res : ℝ)
    {k : ℕ} {u : Slot U} {y : Slot Y} (hny : y ≠ .none) {ok : P → Prop} {h Q : P → ℝ≥0∞} (hK : MoveMeasure K ν N k u y ok h Q)
    {tr : List (Step P)} {last : Step P} {yv : List (Slot Y)} {uv : List (Slot U)} {tv : List ℕ}
    (hlast : tr.getLast? = some last) (hu : uv[k]? = some u) (hy : yv[k+1]? = some y) (ht : tv[k]? = some k) (ht1 : tv[k+1]? = some (k+1))
    {x : Fin N → P} {w : Fin N → ℝ} (hx : last.pa.part = List.ofFn x) (hw : last.pa.w = List.ofFn w) (hok : ∀ i, ok (x i))
    {A : Fin N → ℝ} (ha : first (List.ofFn x) u y k = .ok (List.ofFn A)) :
    (∃ m, ∀ r, 0 < r → r < 1 → ∃ (f : Fin N → Fin N) (X : Fin N → Ω → P) (L : Fin N → Ω → ℝ),
      sample ((List.ofFn fun i => w i + A i).map fun t => exp (t - m)) N r = .ok (List.ofFn fun i => (f i : ℕ)) ∧
      (∀ i, Measurable (fun ω => ENNReal.ofReal (exp (L i ω)) * h (X i ω)) ∧ ∫⁻ ω, ENNReal.ofReal (exp (L i ω)) * h (X i ω) ∂ν = Q (x (f i))) ∧
      (∀ i ω, ok (X i ω)) ∧
      ∀ r2 ω, ∃ pa c, rbApfForward K first res tr yv uv tv k ⟨r, r2, ω⟩ = .ok (pa, true, List.ofFn fun i => (f i : ℕ)) ∧
        pa.part = List.ofFn (fun i => X i ω) ∧ pa.w = List.ofFn (fun i => L i ω - A (f i) - c) ∧ pa.num = N ∧
        storedLik (List.ofFn A) last ⟨pa, List.ofFn fun i => (f i : ℕ)⟩ true = List.ofFn fun i => L i ω) ∨
    (∃ (X : Fin N → Ω → P) (L : Fin N → Ω → ℝ),
      (∀ i, Measurable (fun ω => ENNReal.ofReal (exp (L i ω)) * h (X i ω)) ∧ ∫⁻ ω, ENNReal.ofReal (exp (L i ω)) * h (X i ω) ∂ν = Q (x i)) ∧
      (∀ i ω, ok (X i ω)) ∧
      ∀ r r2 ω, ∃ pa c, rbApfForward K first res tr yv uv tv k ⟨r, r2, ω⟩ = .ok (pa, false, List.range N) ∧
        pa.part = List.ofFn (fun i => X i ω) ∧ pa.w = List.ofFn (fun i => w i + L i ω - c) ∧ pa.num = N ∧
        storedLik (List.ofFn A) last ⟨pa, List.range N⟩ false = List.ofFn fun i => L i ω) := by
  have hNr : (0:ℝ) < N := by exact_mod_cast hN
  have hvne : ∀ g : Fin N → ℝ, List.ofFn g ≠ [] := by
    intro g h; have := congrArg List.length h; simp at this; omega
  obtain ⟨m1, hm1⟩ := npMax_ok (hvne fun i => w i + A i)
  obtain ⟨pa1, hpa1⟩ : ∃ pa1 : PA P, pa1 = ⟨List.ofFn x, List.ofFn (fun i => w i + A i - m1), N, 0⟩ := ⟨_, rfl⟩
  have hfirst : rbApfFirst first uv tv k ⟨last.pa.part, last.pa.w, last.pa.part.length, 0⟩ y =
      .ok (pa1, some (List.ofFn fun i => A i)) := by
    have main : ∀ y' : Slot Y, y' = y → (do
      let u ← getIdx uv k
      let t ← getIdx tv k
      let l1w ← first last.pa.part u y' t
      let w ← npAdd last.pa.w l1w
      let m ← npMax w
      pure ((⟨last.pa.part, w.map (· - m), last.pa.part.length, 0⟩ : PA P), some l1w)) =
        .ok (pa1, some (List.ofFn fun i => A i)) := by
      rintro y' rfl
      simp only [getIdx_ok.mpr hu, getIdx_ok.mpr ht, ok_bind]
      rw [hx, ha, ok_bind, hw, npAdd_ok (by simp), ok_bind, zipWith_ofFn']
      simp only [hm1, ok_bind, pure_eq_ok, List.map_ofFn, List.length_ofFn]
      rw [hpa1]
      rfl
    cases y with
    | none => exact absurd rfl hny
    | zero => exact main _ rfl
    | obj y => exact main _ rfl
  have hfwd : ∀ d : Draws Ω, ∀ pa2 b anc (z x' : Fin N → P) (w2 l1 lik : Fin N → ℝ) v part,
      rbApfResample res d.r pa1 (some (List.ofFn fun i => A i)) = .ok (pa2, b, anc, some (List.ofFn l1)) →
      fancy last.pa.part anc = .ok (List.ofFn z) → pa2.part = List.ofFn z → pa2.w = List.ofFn w2 →
      K.sampleProcessNoise (List.ofFn z) u k d.ω = .ok v → K.update (List.ofFn z) u k v = .ok part →
      K.measure part y (k+1) = .ok (List.ofFn x', List.ofFn lik) →
      ∃ pa c, rbApfForward K first res tr yv uv tv k d = .ok (pa, b, anc) ∧ pa.part = List.ofFn x' ∧
        pa.w = List.ofFn (fun i => w2 i + lik i - l1 i - c) ∧ pa.num = pa2.num ∧ storedLik (List.ofFn A) last ⟨pa, anc⟩ b = List.ofFn lik := by
    intro d pa2 b anc z x' w2 l1 lik v part hr hfan hz hw2 hv hup hm
    obtain ⟨pa, c, e1, e2, e3, e4⟩ := rbapf_second (l1 := l1) hN hlast hu hy ht ht1 hfan hz hw2 hv hup hm
    have hfo : rbApfForward K first res tr yv uv tv k d = .ok (pa, b, anc) := by
      unfold rbApfForward
      rw [getLast_ok.mpr hlast]
      simp only [ok_bind, PA.new, getIdx_ok.mpr hy, hfirst, hr]
      obtain ⟨pa3, g1, g2⟩ := bind_eq_ok.mp e1
      obtain ⟨pa4, g3, g4⟩ := bind_eq_ok.mp g2
      simp only [g1, ok_bind, g3, g4, pure_eq_ok]
    refine ⟨pa, c, hfo, e2, e3, e4, ?_⟩
    obtain ⟨u', y', t', a', parents, v', moved, lik', g1, g2, -, g3, g4, g5, g6, g7, g8, g9⟩ :=
      C119_recovers hlast (by rw [hx, hw]; simp) ht1 hfo
    rw [hu] at g1; cases g1
    rw [hy] at g2; cases g2
    rw [ht] at g3; cases g3
    rw [hx, ha] at g4; cases g4
    rw [hfan] at g5; cases g5
    rw [hv] at g6; cases g6
    rw [hup] at g7; cases g7
    rw [hm] at g8
    rw [g9]
    exact (congrArg Prod.snd (Except.ok.inj g8)).symm
  have hwf : pa1.WF N := by
    rw [hpa1]; exact ⟨by simp, by simp, rfl⟩
  have hnum : pa1.num = N := hwf.num_eq
  have hw1 : pa1.w = List.ofFn (fun i => w i + A i - m1) := by rw [hpa1]
  have hp1 : pa1.part = List.ofFn x := by rw [hpa1]
  by_cases hres : res ≠ 0 ∧ ess pa1.w < res * N
  · left
    obtain ⟨m2, hm2⟩ := npMax_ok (hwf.w_ne hN)
    refine ⟨m1 + m2, fun r h0 h1 => ?_⟩
    obtain ⟨pa2, anc, hs, h2, h3, h4, h5, h6, h7, h8, -, -⟩ :=
      C07_resample pa1 (hwf.w_ne hN) (by rw [hwf.part_len, hwf.w_len]) N hN (r := r) ⟨h0.le, h1⟩
    rw [hwf.part_len] at h3
    obtain ⟨m', g1, g2, g3, g4, g5⟩ := resample_spec hs
    have hmm : m' = m2 := by rw [hm2] at g1; exact (Except.ok.inj g1).symm
    subst hmm
    obtain ⟨f, hf1, hf2⟩ : ∃ f : Fin N → Fin N, anc = List.ofFn (fun i => (f i : ℕ)) ∧
        ∀ {α : Type} (x : Fin N → α), fancy (List.ofFn x) anc = .ok (List.ofFn fun i => x (f i)) := by
      have hf := fun {α : Type} (x : Fin N → α) => fancy_ofFn x h3
      clear hs g2 g3
      subst h2
      obtain ⟨f, e1, e2⟩ := hf x
      refine ⟨f, e1, fun {α} x' => ?_⟩
      obtain ⟨f', e1', e2'⟩ := hf x'
      rw [e2']
      have : ∀ i, f' i = f i := by
        intro i
        have hh : (List.ofFn fun i => (f' i : ℕ)) = List.ofFn fun i => (f i : ℕ) := e1'.symm.trans e1
        have := congrFun (List.ofFn_injective hh) i
        exact Fin.ext this
      simp only [this]
    obtain ⟨X, L, hX, hXo, hmove⟩ := hK (fun i => x (f i)) fun i => hok (f i)
    refine ⟨f, X, L, ?_, hX, hXo, fun r2 ω => ?_⟩
    · rw [← hf1, ← g2, hw1]
      congr 1
      simp only [List.map_ofFn]
      congr 1
      funext i
      simp only [Function.comp_apply]
      congr 1; ring
    · obtain ⟨v, part, hv1, hv2, hv3⟩ := hmove ω
      have hr : rbApfResample res r pa1 (some (List.ofFn fun i => A i)) = .ok (pa2, true, anc, some (List.ofFn fun i => A (f i))) := by
        unfold rbApfResample
        rw [if_pos hres.1, calcNeff_eq (hwf.w_ne hN), ok_bind, hnum, if_pos hres.2, hs]
        simp only [ok_bind]
        rw [hf2 A, ok_bind]; rfl
      rw [hp1, hf2 x] at g3
      obtain ⟨pa, c, e1, e2, e3, e4, e5⟩ := hfwd ⟨r, r2, ω⟩ pa2 true anc (fun i => x (f i)) (fun i => X i ω) (fun _ => Real.log (1 / (N:ℝ)))
        (fun i => A (f i)) (fun i => L i ω) v part hr (by rw [hx]; exact hf2 x) (Except.ok.inj g3).symm (by rw [g4, List.ofFn_const])
        hv1 hv2 hv3
      refine ⟨pa, c - Real.log (1 / (N:ℝ)), by rw [e1, hf1], e2, ?_, e4.trans h5, by rw [← hf1]; exact e5⟩
      rw [e3]
      congr 1
      funext i
      ring
  · right
    obtain ⟨X, L, hX, hXo, hmove⟩ := hK x hok
    refine ⟨X, L, hX, hXo, fun r r2 ω => ?_⟩
    obtain ⟨v, part, hv1, hv2, hv3⟩ := hmove ω
    have hr : rbApfResample res r pa1 (some (List.ofFn fun i => A i)) = .ok (pa1, false, List.range N, some (List.ofFn fun i => A i)) := by
      unfold rbApfResample
      by_cases h0 : res ≠ 0
      · rw [if_pos h0, calcNeff_eq (hwf.w_ne hN), ok_bind, hnum, if_neg (fun h => hres ⟨h0, h⟩)]; rfl
      · rw [if_neg h0, hnum]; rfl
    obtain ⟨pa, c, e1, e2, e3, e4, e5⟩ := hfwd ⟨r, r2, ω⟩ pa1 false (List.range N) x (fun i => X i ω) (fun i => w i + A i - m1)
      (fun i => A i) (fun i => L i ω) v part hr (by rw [hx]; simpa using fancy_range (List.ofFn x)) hp1 hw1 hv1 hv2 hv3
    refine ⟨pa, c + m1, e1, e2, ?_, e4.trans hnum, e5⟩
    rw [e3]
    congr 1
    funext i
    ring

/-- The average of a step of the auxiliary filter over all its random draws. -/
theorem rbapf_step_value [MeasurableSpace Ω] {K : MarkovRb P U Y V Ω} {ν : Measure Ω} [IsProbabilityMeasure ν] {N : ℕ} (hN : 0 < N)
    {first : List P → Slot U → Slot Y → ℕ → PyM (List ℝ)} (res : ℝ)
    {k : ℕ} {u : Slot U} {y : Slot Y} (hny : y ≠ .none) {ok : P → Prop} {h Q : P → ℝ≥0∞} (hK : MoveMeasure K ν N k u y ok h Q)
    {tr : List (Step P)} {last : Step P} {yv : List (Slot Y)} {uv : List (Slot U)} {tv : List ℕ}
    (hlast : tr.getLast? = some last) (hu : uv[k]? = some u) (hy : yv[k+1]? = some y) (ht : tv[k]? = some k) (ht1 : tv[k+1]? = some (k+1))
    {x : Fin N → P} {w : Fin N → ℝ} (hx : last.pa.part = List.ofFn x) (hw : last.pa.w = List.ofFn w) (hok : ∀ i, ok (x i))
    {A : Fin N → ℝ} (ha : first (List.ofFn x) u y k = .ok (List.ofFn A)) (G : Draws Ω → ℝ≥0∞)
    (hG : ∀ d pa b anc (x' : Fin N → P) (w' : Fin N → ℝ), 0 < d.r → d.r < 1 →
      rbApfForward K first res tr yv uv tv k d = .ok (pa, b, anc) → pa.part = List.ofFn x' → (∀ i, ok (x' i)) → pa.w = List.ofFn w' → pa.num = N →
      G d = ENNReal.ofReal (storedFactor (List.ofFn A) last ⟨pa, anc⟩ b) * wmean h pa) :
    ∫⁻ r, ∫⁻ r2, ∫⁻ ω, G ⟨r, r2, ω⟩ ∂ν ∂unif ∂unif = wmean Q last.pa := by
  haveI : Nonempty (Fin N) := ⟨⟨0, hN⟩⟩
  have hNr : (0:ℝ) < N := by exact_mod_cast hN
  have hs : 0 < ∑ j, exp (w j) := Finset.sum_pos (fun _ _ => exp_pos _) Finset.univ_nonempty
  have hsa : 0 < ∑ j, exp (w j + A j) := Finset.sum_pos (fun _ _ => exp_pos _) Finset.univ_nonempty
  rw [wmean_ofFn Q hx hw]
  -- the average over the model noise
  have hω : ∀ (z : Fin N → P) (X : Fin N → Ω → P) (L : Fin N → Ω → ℝ) (c : Fin N → ℝ),
      (∀ i, Measurable (fun ω => ENNReal.ofReal (exp (L i ω)) * h (X i ω)) ∧ ∫⁻ ω, ENNReal.ofReal (exp (L i ω)) * h (X i ω) ∂ν = Q (z i)) →
      ∫⁻ ω, ∑ i, ENNReal.ofReal (c i) * (ENNReal.ofReal (exp (L i ω)) * h (X i ω)) ∂ν = ∑ i, ENNReal.ofReal (c i) * Q (z i) := by
    intro z X L c hX
    rw [lintegral_finset_sum _ (fun i _ => (hX i).1.const_mul _)]
    refine Finset.sum_congr rfl fun i _ => ?_
    rw [lintegral_const_mul _ (hX i).1, (hX i).2]
  rcases rbapf_step_ok hN res hny hK hlast hu hy ht ht1 hx hw hok ha with ⟨m, hstep⟩ | ⟨X, L, hX, hXo, hstep⟩
  · -- resampled
    obtain ⟨vl, hvl⟩ : ∃ vl : List ℝ, vl = (List.ofFn fun i => w i + A i).map fun t => exp (t - m) := ⟨_, rfl⟩
    have hW : Weights vl := by
      rw [hvl]
      exact weights_exp_sub (by intro h; have := congrArg List.length h; simp at this; omega) m
    obtain ⟨S, hS⟩ : ∃ S : ℝ, S = (∑ j, exp (w j + A j)) / ∑ j, exp (w j) := ⟨_, rfl⟩
    have hSp : 0 < S := by rw [hS]; exact div_pos hsa hs
    have hc0 : ∀ t, 0 ≤ S / N * exp (-t) := fun t => mul_nonneg (div_nonneg hSp.le hNr.le) (exp_pos _).le
    have hc1 : ∀ t T, 0 ≤ T → 0 ≤ S / N * exp t * T := fun t T hT => mul_nonneg (mul_nonneg (div_nonneg hSp.le hNr.le) (exp_pos _).le) hT
    have key : ∀ r, ∀ an : List ℕ, 0 < r → r < 1 → sample vl N r = .ok an →
        ∫⁻ r2, ∫⁻ ω, G ⟨r, r2, ω⟩ ∂ν ∂unif =
          (an.map fun j => if hj : j < N then ENNReal.ofReal (S / N * exp (-A ⟨j, hj⟩)) * Q (x ⟨j, hj⟩) else 0).sum := by
      intro r an h0 h1 han
      obtain ⟨f, X, L, hsamp, hX, hXo, hfw⟩ := hstep r h0 h1
      rw [← hvl, han] at hsamp
      obtain rfl := Except.ok.inj hsamp
      have hGe : ∀ r2 ω, G ⟨r, r2, ω⟩ = ∑ i, ENNReal.ofReal (S / N * exp (-A (f i))) *
          (ENNReal.ofReal (exp (L i ω)) * h (X i ω)) := by
        intro r2 ω
        obtain ⟨pa, c, e1, e2, e3, e4, e5⟩ := hfw r2 ω
        rw [hG ⟨r, r2, ω⟩ pa true _ _ _ h0 h1 e1 e2 (fun i => hXo i ω) e3 e4, wmean_ofFn h e2 e3, Finset.mul_sum]
        have hf : storedFactor (List.ofFn A) last ⟨pa, List.ofFn fun i => (f i : ℕ)⟩ true =
            S / N * exp c * ∑ j, exp (L j ω - A (f j) - c) := by
          simp only [storedFactor, if_true, e2, e5, ofAncestors, filterMap_parents, normWeights, hw, List.map_ofFn, zipWith_ofFn', List.sum_ofFn,
            List.length_ofFn, Function.comp_apply]
          rw [hS, Finset.mul_sum, Finset.sum_div, Finset.mul_sum]
          refine Finset.sum_congr rfl fun j _ => ?_
          rw [← apf_alg4, Finset.sum_div]
          congr 1
          refine Finset.sum_congr rfl fun i _ => ?_
          rw [exp_add, div_mul_eq_mul_div]
        rw [hf]
        refine Finset.sum_congr rfl fun i _ => ?_
        have hT : 0 < ∑ j, exp (L j ω - A (f j) - c) := Finset.sum_pos (fun _ _ => exp_pos _) Finset.univ_nonempty
        rw [← mul_assoc, ← mul_assoc, ← ENNReal.ofReal_mul (hc1 c _ hT.le), ← ENNReal.ofReal_mul (hc0 _)]
        congr 2
        exact apf_alg1 hT.ne' _ _ _
      rw [lintegral_congr fun r2 => (lintegral_congr fun ω => hGe r2 ω).trans (hω (fun i => x (f i)) X L _ hX), lintegral_const,
        measure_univ, mul_one, List.map_ofFn, List.sum_ofFn]
      refine Finset.sum_congr rfl fun i _ => ?_
      simp
    rw [lintegral_sample hW N _ _ key]
    have hl : vl.length = N := by rw [hvl]; simp
    rw [hl, Finset.sum_range]
    refine Finset.sum_congr rfl fun j _ => ?_
    rw [dif_pos j.2, ← mul_assoc]
    have hp : prob vl j = exp (w j + A j) / ∑ i, exp (w i + A i) := by
      rw [hvl]; exact prob_exp_sub (fun i => w i + A i) m j
    rw [hp, ← ENNReal.ofReal_mul (mul_nonneg hNr.le (div_nonneg (exp_pos _).le hsa.le))]
    congr 2
    rw [hS]
    exact apf_alg2 hNr.ne' hsa.ne' _ _
  · -- not resampled
    have hGe : ∀ r r2 ω, 0 < r → r < 1 → G ⟨r, r2, ω⟩ = ∑ i, ENNReal.ofReal (exp (w i) / ∑ j, exp (w j)) *
          (ENNReal.ofReal (exp (L i ω)) * h (X i ω)) := by
      intro r r2 ω h0 h1
      obtain ⟨pa, c, e1, e2, e3, e4, e5⟩ := hstep r r2 ω
      rw [hG ⟨r, r2, ω⟩ pa false _ _ _ h0 h1 e1 e2 (fun i => hXo i ω) e3 e4, wmean_ofFn h e2 e3, Finset.mul_sum]
      have hf : storedFactor (List.ofFn A) last ⟨pa, List.range N⟩ false =
          exp c / (∑ j, exp (w j)) * ∑ j, exp (w j + L j ω - c) := by
        simp only [storedFactor, e5, normWeights, hw, List.map_ofFn, zipWith_ofFn', List.sum_ofFn, Function.comp_apply, Bool.false_eq_true, if_false]
        rw [Finset.mul_sum]
        refine Finset.sum_congr rfl fun j _ => ?_
        rw [exp_sub, exp_add]
        field_simp
      rw [hf]
      refine Finset.sum_congr rfl fun i _ => ?_
      have hT : 0 < ∑ j, exp (w j + L j ω - c) := Finset.sum_pos (fun _ _ => exp_pos _) Finset.univ_nonempty
      rw [← mul_assoc, ← mul_assoc, ← ENNReal.ofReal_mul (mul_nonneg (div_nonneg (exp_pos _).le hs.le) hT.le),
        ← ENNReal.ofReal_mul (div_nonneg (exp_pos _).le hs.le)]
      congr 2
      exact apf_alg3 hT.ne' _ _ _
    rw [lintegral_congr_ae (g := fun _ => ∑ i, ENNReal.ofReal (exp (w i) / ∑ j, exp (w j)) * Q (x i))]
    · rw [lintegral_const, measure_univ, mul_one]
    · filter_upwards [unif_ae] with r hr
      rw [lintegral_congr fun r2 => (lintegral_congr fun ω => hGe r r2 ω hr.1 hr.2).trans (hω x X L _ hX), lintegral_const,
        measure_univ, mul_one]

/-! ### A run -/

/-- The estimate over the steps from index `k` on. -/
noncomputable def storedTail (first : List P → Slot U → Slot Y → ℕ → PyM (List ℝ)) (φ : P → ℝ≥0∞) (k : ℕ) (qs : List (Slot U × Slot Y)) :
    PT P U Y × PyM (List (Option Bool)) → ℝ≥0∞
  | (s, .ok bs) => ENNReal.ofReal (storedProd first k qs (s.traj.drop k) (bs.filterMap id)) * s.traj.getLast?.elim 0 fun st => wmean φ st.pa
  | (_, .error _) => 0

theorem storedFactor_nonneg (a : List ℝ) (prev next : Step P) (b : Bool) : 0 ≤ storedFactor a prev next b := by
  unfold storedFactor
  split
  · refine mul_nonneg (zipWith_sum_nonneg fun p hp x => mul_nonneg (normWeights_nonneg hp) (exp_pos _).le) (div_nonneg ?_ (Nat.cast_nonneg _))
    exact zipWith_sum_nonneg fun x' _ x => div_nonneg (exp_pos _).le (exp_pos _).le
  · exact zipWith_sum_nonneg fun p hp x => mul_nonneg (normWeights_nonneg hp) (exp_pos _).le

/-- The expectation of the estimate over a sequence of steps. -/
theorem rbapf_steps_value [MeasurableSpace Ω] {K : MarkovRb P U Y V Ω} {ν : Measure Ω} [IsProbabilityMeasure ν] {N : ℕ} (hN : 0 < N)
    {good : Slot Y → Prop} (hnone : ∀ y, good y → y ≠ .none) {ok : P → Prop} {first : List P → Slot U → Slot Y → ℕ → PyM (List ℝ)}
    (ha : Spec.RbFirstStage first good ok N) (res : ℝ) {φ : P → ℝ≥0∞} {W : ℕ → List (Slot U × Slot Y) → P → ℝ≥0∞} (hW : ∀ k, W k [] = φ)
    (hS : ∀ k u y qs, good y → MoveMeasure K ν N k u y ok (W (k+1) qs) (W k ((u, y) :: qs)))
    (qs : List (Slot U × Slot Y)) (hqs : ∀ q ∈ qs, good q.2) {s : PT P U Y} {lg : Spec.Log U Y} (hrep : s.Rep lg)
    {last : Step P} (hlast : s.traj.getLast? = some last) {x : Fin N → P} {w : Fin N → ℝ} (hx : last.pa.part = List.ofFn x) (hok : ∀ i, ok (x i))
    (hw : last.pa.w = List.ofFn w) {k : ℕ} (hk : s.traj.length = k + 1) :
    stepsE ν qs (fun ds => storedTail first φ k qs (s.run (rbApfOps K first res) (fwd ds))) = wmean (W k qs) last.pa := by
  obtain ⟨F, hF⟩ : ∃ F, F = rbApfOps K first res := ⟨_, rfl⟩
  rw [← hF]
  induction qs generalizing s lg last x w k with
  | nil =>
    simp only [stepsE, fwd, List.map_nil, PT.run, storedTail, hlast, storedProd, ENNReal.ofReal_one, one_mul, hW]
    rfl
  | cons q qs ih =>
    have hne : s.traj ≠ [] := by intro h; rw [h] at hlast; simp at hlast
    have hys : lg.ys ≠ [] := by
      intro h; have := hrep.len; rw [h, hk] at this; simp at this
    have hind : s.ind1 = k + 1 := by rw [hrep.ind, ← hrep.len, hk]
    obtain ⟨b1, b2, b3, b4⟩ := hrep.forward_bufs hys q.1 q.2
    simp only [hind, Nat.add_sub_cancel] at b1 b2 b3 b4
    have hgq := hqs q (by simp)
    obtain ⟨A, hA⟩ := ha x q.1 q.2 k hgq hok
    have main : ∀ ω0, ∫⁻ r, ∫⁻ r2, ∫⁻ ω, stepsE ν qs (fun ds => storedTail first φ k (q :: qs) (s.run F (fwd ((q.1, q.2, ω0, ⟨r, r2, ω⟩) :: ds))))
        ∂ν ∂unif ∂unif = wmean (W k (q :: qs)) last.pa := by
      intro ω0
      refine rbapf_step_value hN res (hnone _ hgq) (hS k q.1 q.2 qs hgq) hlast b1 b2 b4 b3 hx hw hok hA
        (fun d => stepsE ν qs (fun ds => storedTail first φ k (q :: qs) (s.run F (fwd ((q.1, q.2, ω0, d) :: ds))))) ?_
      intro d pa b anc x' w' h0 h1 hfw hx' hok' hw' _
      have hf : s.forward F q.1 q.2 ω0 d = ({ s.beforeForward q.1 q.2 with traj := s.traj ++ [⟨pa, anc⟩] }, .ok b) := by
        rw [PT.forward_eq hrep.inv]
        have he : s.ensureInit F ω0 = (s, .ok ()) := by
          unfold PT.ensureInit
          rw [if_neg (by rw [hk]; omega)]
        rw [he]
        have hfw' : F.forward s.traj (s.beforeForward q.1 q.2).yvec (s.beforeForward q.1 q.2).uvec (s.beforeForward q.1 q.2).tvec k d = .ok (pa, b, anc) := by
          rw [hF]; exact hfw
        simp only [hind, Nat.add_sub_cancel, hfw']
      set s1 : PT P U Y := { s.beforeForward q.1 q.2 with traj := s.traj ++ [⟨pa, anc⟩] } with hs1
      have hrep1 := PT.forward_rep hrep hf
      have hk1 : s1.traj.length = (k + 1) + 1 := by rw [hs1]; simp [hk]
      have hlast1 : s1.traj.getLast? = some ⟨pa, anc⟩ := by rw [hs1]; simp
      rw [← ih (fun q hq => hqs q (by simp [hq])) hrep1 hlast1 (x := x') (w := w') hx' hok' hw' hk1, ← stepsE_const_mul ν _ ENNReal.ofReal_ne_top]
      congr 1
      funext ds
      have hcons : fwd ((q.1, q.2, ω0, d) :: ds) = .forward q.1 q.2 ω0 d :: fwd ds := rfl
      rw [hcons, run_forward_cons hf]
      rcases hr : s1.run F (fwd ds) with ⟨s2, r2⟩
      cases r2 with
      | error e => simp [storedTail]
      | ok bs =>
        obtain ⟨l, hl⟩ := fwd_prefix ds hrep1 (by rw [hs1]; simp) hr
        simp only [storedTail, List.filterMap_cons_some (f := id) (b := b) rfl]
        rw [← mul_assoc, ← ENNReal.ofReal_mul (storedFactor_nonneg _ _ _ _)]
        congr 2
        have hd : s2.traj.drop k = last :: ⟨pa, anc⟩ :: l := by
          rw [hl, hs1]
          obtain ⟨pre, hpre⟩ : ∃ pre, s.traj = pre ++ [last] := ⟨s.traj.dropLast, by
            rw [List.getLast?_eq_some_getLast hne, Option.some.injEq] at hlast
            rw [← hlast, List.dropLast_append_getLast]⟩
          have hpl : pre.length = k := by rw [hpre] at hk; simpa using hk
          simp only [hpre, List.append_assoc]
          rw [List.drop_append_of_le_length (by omega), ← hpl, List.drop_length]
          rfl
        have hd1 : s2.traj.drop (k+1) = ⟨pa, anc⟩ :: l := by
          rw [show k + 1 = k + 1 from rfl, ← List.drop_drop, hd]; rfl
        rw [hd, hd1, storedProd, hx, hA]
        rfl
    simp only [stepsE]
    rw [lintegral_congr main, lintegral_const, measure_univ, mul_one]

theorem storedEstimate_of_single (first : List P → Slot U → Slot Y → ℕ → PyM (List ℝ)) (φ : P → ℝ≥0∞) (qs : List (Slot U × Slot Y))
    {F : FilterOps P U Y V Ω} {s : PT P U Y} {lg : Spec.Log U Y} (hrep : s.Rep lg)
    {st : Step P} (hs : s.traj = [st]) (ds : List (Slot U × Slot Y × Ω × Draws Ω)) :
    storedEstimate first φ qs (s.run F (fwd ds)) = ENNReal.ofReal (mass st.pa) * storedTail first φ 0 qs (s.run F (fwd ds)) := by
  rcases hr : s.run F (fwd ds) with ⟨s2, r2⟩
  cases r2 with
  | error e => simp [storedEstimate, storedTail]
  | ok bs =>
    obtain ⟨l, hl⟩ := fwd_prefix ds hrep (by rw [hs]; simp) hr
    rw [hs] at hl
    simp only [storedEstimate, storedTail, hl, List.drop_zero]
    have e : ((([st] ++ l).head?.elim 1 fun st => mass st.pa) : ℝ) = mass st.pa := rfl
    rw [e, ENNReal.ofReal_mul, mul_assoc]
    exact List.sum_nonneg fun x hx => by obtain ⟨z, -, rfl⟩ := List.mem_map.mp hx; exact (exp_pos _).le

/-- **C119** Run the auxiliary particle filter with any number `N > 0` of particles, any resampling threshold and any first-stage weights on a model whose particles
carry laws (Rao-Blackwellisation), all measurements present. Over the random draws of the run, the likelihood estimate read off the stored weights, offsets,
ancestors and flags, times the filtered mean of the conditional expectations of any non-negative `φ` at the last step, has expectation `E[Π_t p(y_t | s_t) φ(s_T)]`
under the full model — in a history that starts with `measure(y0)` and in one that starts with `forward`. -/
theorem C119_unbiased {S : Type} [MeasurableSpace S] [MeasurableSpace Ω] {K : MarkovRb P U Y V Ω} {ν : Measure Ω} [IsProbabilityMeasure ν]
    {N : ℕ} (hN : 0 < N) {ok : P → Prop} {law : P → Measure S} {μ0 : Measure S} {M : ℕ → Slot U → Kernel S S} {ℓ : ℕ → Slot Y → S → ℝ}
    {good : Slot Y → Prop} (hK : Spec.RbSamples K good ν N ok law μ0 M ℓ) (hnone : ∀ y, good y → y ≠ .none)
    {first : List P → Slot U → Slot Y → ℕ → PyM (List ℝ)} (ha : Spec.RbFirstStage first good ok N)
    (res : ℝ) {φ : S → ℝ≥0∞} (hφ : Measurable φ) {T : Option ℕ}
    {s0 : PT P U Y} (h0 : PT.init N T 0 = .ok s0) (qs : List (Slot U × Slot Y)) (hqs : ∀ q ∈ qs, good q.2) :
    (∀ y0, good y0 → ∫⁻ ω, stepsE ν qs (fun ds => storedEstimate first (fun p => ∫⁻ s, φ s ∂law p) qs
        (s0.run (rbApfOps K first res) (history (some (y0, ω)) ds))) ∂ν =
      ∫⁻ s, ENNReal.ofReal (exp (ℓ 0 y0 s)) * pathE M ℓ φ 0 qs s ∂μ0) ∧
    (qs ≠ [] → stepsE ν qs (fun ds => storedEstimate first (fun p => ∫⁻ s, φ s ∂law p) qs (s0.run (rbApfOps K first res) (history none ds))) =
      ∫⁻ s, pathE M ℓ φ 0 qs s ∂μ0) := by
  obtain ⟨F, hF⟩ : ∃ F, F = rbApfOps K first res := ⟨_, rfl⟩
  obtain ⟨X, hc, hX⟩ := hK.create
  have hpm := fun (k : ℕ) (qs : List (Slot U × Slot Y)) => pathE_measurable M hK.meas hφ qs k
  have hlm : ∀ y qs, Measurable fun s => ENNReal.ofReal (exp (ℓ 0 y s)) * pathE M ℓ φ 0 qs s := fun y qs =>
    (measurable_exp.comp (hK.meas 0 y)).ennreal_ofReal.mul (hpm 0 qs)
  have hS : ∀ k u y qs, good y → MoveMeasure K ν N k u y ok (fun p => ∫⁻ s, pathE M ℓ φ (k+1) qs s ∂law p)
      (fun p => ∫⁻ s, pathE M ℓ φ k ((u, y) :: qs) s ∂law p) := fun k u y qs hy => rb_moveMeasure hK (hpm (k+1) qs) k u y hy
  have hval := fun {s : PT P U Y} {lg : Spec.Log U Y} (hrep : s.Rep lg) {last : Step P} (hlast : s.traj.getLast? = some last) {x : Fin N → P}
      {w : Fin N → ℝ} (hx : last.pa.part = List.ofFn x) (hok : ∀ i, ok (x i)) (hw : last.pa.w = List.ofFn w) (hk : s.traj.length = 0 + 1) =>
    rbapf_steps_value hN hnone ha res (φ := fun p => ∫⁻ s, φ s ∂law p) (W := fun k qs p => ∫⁻ s, pathE M ℓ φ k qs s ∂law p) (fun _ => rfl) hS
      qs hqs hrep hlast hx hok hw hk
  rw [← hF] at hval ⊢
  have hc' : ∀ ω, F.create N ω = .ok (List.ofFn fun i => X i ω) := by rw [hF]; exact hc
  have hrep0 := PT.init_rep h0
  obtain ⟨hsN, htr⟩ := init_N h0
  have hNr : (0:ℝ) < N := by exact_mod_cast hN
  have hrepl : List.replicate N (-Real.log N) = List.ofFn (fun _ : Fin N => -Real.log N) := by
    rw [List.ofFn_const]
  have hu : exp (-Real.log N) = 1 / N := by rw [exp_neg, exp_log hNr, one_div]
  constructor
  · intro y0 hy0g
    rw [← value_average hN (fun i => (hX i).2 _ (hlm y0 qs))]
    apply lintegral_congr
    intro ω
    obtain ⟨hg, g1, g2, g3, g4⟩ := PT.growMeasure_inv hrep0.inv
    have he := ensureInit_create (s := s0.growMeasure) hN (g2.trans hsN) (by rw [← htr]; assumption) (hc' ω)
    set sI : PT P U Y := { s0.growMeasure with ind1 := 1, traj := [⟨⟨List.ofFn fun i => X i ω, List.replicate N (-Real.log N), N, 0⟩,
      List.range N⟩] } with hsI
    have hrepI : sI.Rep ⟨[], [.none]⟩ := (hrep0.growMeasure.ensureInit he).1 rfl
    have hy0 : 0 < sI.yvec.length := lt_of_getElem?_some (hrepI.ys 0 (by simp))
    have ht0 : 0 < sI.tvec.length := lt_of_getElem?_some (hrepI.ts 0 (by simp))
    have hyI : (sI.beforeMeasure y0).yvec[0]? = some y0 := by
      simp only [PT.beforeMeasure, hsI]; exact List.getElem?_set_self hy0
    have htI : (sI.beforeMeasure y0).tvec[0]? = some 0 := by
      simp only [PT.beforeMeasure, hsI]; exact List.getElem?_set_self ht0
    obtain ⟨x', l, e1, e2⟩ := hK.measure (fun i => X i ω) y0 0 hy0g (fun i => (hX i).1 ω)
    obtain ⟨pa', w', f1, f2, f3, fn, f4⟩ := weightUpdate_offset (pa := (⟨List.ofFn x', List.replicate N (-Real.log N), N, 0⟩ : PA P)) hN
      (by simp) l
    have hmeas : s0.measure F y0 ω = ({ sI.beforeMeasure y0 with traj := [⟨pa', List.range N⟩] }, .ok ()) := by
      rw [PT.measure_eq (by rw [hF]; rfl) hrep0.inv, he]
      have hgl : getLast sI.traj = .ok ⟨⟨List.ofFn fun i => X i ω, List.replicate N (-Real.log N), N, 0⟩, List.range N⟩ := rfl
      simp only [hgl]
      have hind : sI.ind1 - 1 = 0 := rfl
      have hm : F.measure sI.traj (List.range N) ⟨List.ofFn fun i => X i ω, List.replicate N (-Real.log N), N, 0⟩ (sI.beforeMeasure y0).uvec
          (sI.beforeMeasure y0).yvec (sI.beforeMeasure y0).tvec 0 = .ok pa' := by
        rw [hF]
        show rbfMeasure K _ _ _ 0 = _
        unfold rbfMeasure
        simp only [getLast_take_succ hyI, getLast_take_succ htI, ok_bind, e1, f1]
      rw [hind, hm]
      rfl
    have hrep1 := PT.measure_rep hrep0 hmeas
    set s1 : PT P U Y := { sI.beforeMeasure y0 with traj := [⟨pa', List.range N⟩] } with hs1
    have hrun : ∀ ds, storedEstimate first (fun p => ∫⁻ s, φ s ∂law p) qs (s0.run F (history (some (y0, ω)) ds)) =
        ENNReal.ofReal (mass pa') * storedTail first (fun p => ∫⁻ s, φ s ∂law p) 0 qs (s1.run F (fwd ds)) := by
      intro ds
      rw [← storedEstimate_of_single first (fun p => ∫⁻ s, φ s ∂law p) qs hrep1 (st := ⟨pa', List.range N⟩) rfl ds]
      have : history (some (y0, ω)) ds = .measure y0 ω :: fwd ds := rfl
      rw [this]
      simp only [PT.run, PT.step, hmeas]
      rcases s1.run F (fwd ds) with ⟨s2, _ | bs⟩
      · rfl
      · simp only [storedEstimate, List.filterMap_cons_none (f := id) (a := (none : Option Bool)) rfl]
    simp only [hrun]
    rw [stepsE_const_mul ν _ ENNReal.ofReal_ne_top, hval hrep1 (last := ⟨pa', List.range N⟩) rfl f2 (fun i => (e2 i).1) f3 rfl]
    have := mass_wmean hN (fun p => ∫⁻ s, pathE M ℓ φ 0 qs s ∂law p) f2 f3 1 one_pos
    rw [div_one] at this
    rw [this]
    refine Finset.sum_congr rfl fun i _ => ?_
    rw [f4 i, div_one]
    simp only [hrepl, List.getD_eq_getElem?_getD, List.getElem?_ofFn, i.2, dif_pos, Option.getD_some, add_zero]
    rw [exp_add, hu, ENNReal.ofReal_mul (by positivity), mul_assoc, RbSamples.bayes (hK.meas 0 y0) (e2 i).2 (hpm 0 qs)]
  · intro hne
    obtain ⟨q, qs, rfl⟩ := List.exists_cons_of_ne_nil hne
    rw [← value_average hN (fun i => (hX i).2 _ (hpm 0 (q :: qs)))]
    show ∫⁻ ω0, _ ∂ν = _
    apply lintegral_congr
    intro ω
    have he := ensureInit_create (s := s0) hN hsN htr (hc' ω)
    obtain ⟨p0, hp0⟩ : ∃ p0 : PA P, p0 = ⟨List.ofFn fun i => X i ω, List.replicate N (-Real.log N), N, 0⟩ := ⟨_, rfl⟩
    rw [← hp0] at he
    set s1 : PT P U Y := { s0 with ind1 := 1, traj := [⟨p0, List.range N⟩] } with hs1
    have hrep1 : s1.Rep ⟨[], [.none]⟩ := (hrep0.ensureInit he).1 rfl
    have hmass : mass p0 = 1 := by
      rw [hp0, mass]
      simp only [hrepl, List.map_ofFn, List.sum_ofFn, Function.comp_apply, add_zero, hu, Finset.sum_const, Finset.card_univ, Fintype.card_fin, nsmul_eq_mul]
      field_simp
    have hrun : ∀ d ds, storedEstimate first (fun p => ∫⁻ s, φ s ∂law p) (q :: qs) (s0.run F (history none ((q.1, q.2, ω, d) :: ds))) =
        storedTail first (fun p => ∫⁻ s, φ s ∂law p) 0 (q :: qs) (s1.run F (fwd ((q.1, q.2, ω, d) :: ds))) := by
      intro d ds
      have h1 : s0.run F (history none ((q.1, q.2, ω, d) :: ds)) = s1.run F (fwd ((q.1, q.2, ω, d) :: ds)) := by
        simp only [history, fwd, List.nil_append, List.map_cons, PT.run, PT.step,
          forward_ensureInit he (by rw [hs1]; simp) q.1 q.2 d]
      rw [h1, storedEstimate_of_single first _ (q :: qs) hrep1 (st := ⟨p0, List.range N⟩) rfl, hmass, ENNReal.ofReal_one, one_mul]
    simp only [hrun]
    rw [apf_steps_head (s := s1) (k := 0) rfl hrep1.inv (g := storedTail first (fun p => ∫⁻ s, φ s ∂law p) 0 (q :: qs)) q qs ω,
      hval hrep1 (last := ⟨p0, List.range N⟩) rfl (by rw [hp0]) (fun i => (hX i).1 ω) (by rw [hp0]; exact hrepl) rfl]
    rw [wmean_ofFn (x := fun i => X i ω) (w := fun _ => -Real.log N) _ (by rw [hp0]) (by rw [hp0]; exact hrepl)]
    refine Finset.sum_congr rfl fun i _ => ?_
    congr 2
    rw [Finset.sum_const, Finset.card_univ, Fintype.card_fin, nsmul_eq_mul, hu]
    field_simp

/-- For a model whose `measure` does not write, this is the auxiliary filter C103 is about. -/
theorem C119_plain (K : MarkovModel P U Y V Ω) (rest : Callbacks P U Y V Ω) (N : ℕ) (res : ℝ) {name : String} (hn : parseFilter name = .ok .apf)
    (o : FilterOptions P) : mkFilter (K.toCallbacks rest) N res name o = .ok (rbApfOps K.toRb rest.evalFirstStage res) := by
  have e : mkFilter (K.toCallbacks rest) N res name o = .ok (apfOps (K.toCallbacks rest) res) := by
    unfold mkFilter
    rw [hn, ok_bind]
    rfl
  rw [e]
  congr 1
  have hm : ∀ tr anc (pa : PA P) uv yv tv cur, pfMeasure (K.toCallbacks rest) tr anc pa uv yv tv cur = rbfMeasure K.toRb pa yv tv cur := by
    intro tr anc pa uv yv tv cur
    simp only [pfMeasure, rbfMeasure, MarkovModel.toCallbacks, MarkovModel.toRb, bind_assoc, pure_bind]
  have hu : ∀ tr anc uv yv tv cur (pa : PA P) ω, pfUpdate (K.toCallbacks rest) tr anc uv yv tv cur pa ω = rbfUpdate K.toRb tr anc uv tv cur pa ω := by
    intro tr anc uv yv tv cur pa ω
    unfold pfUpdate rbfUpdate
    simp only [MarkovModel.toCallbacks, MarkovModel.toRb, bind_assoc]
    rcases getLast tr with _ | st
    · rfl
    simp only [ok_bind]
    rcases fancy st.pa.part anc with _ | ps
    · rfl
    simp only [ok_bind]
    rcases getLast (uv.take (cur+1)) with _ | u
    · rfl
    simp only [ok_bind]
    rcases getLast (tv.take (cur+1)) with _ | t
    · rfl
    rfl
  have hq : ∀ uv tv cur (pa : PA P) y, apfFirstV (K.toCallbacks rest) uv tv cur pa y = rbApfFirst rest.evalFirstStage uv tv cur pa y := by
    intro uv tv cur pa y
    cases y <;> rfl
  have hs : ∀ (pa : PA P) l, apfSecondV pa l = rbApfSecond pa l := by
    intro pa l; cases l <;> rfl
  have hf : ∀ tr yv uv tv cur d, apfForward (K.toCallbacks rest) res tr yv uv tv cur d = rbApfForward K.toRb rest.evalFirstStage res tr yv uv tv cur d := by
    intro tr yv uv tv cur d
    rw [apfForward_eq]
    simp only [rbApfForward, hm, hu, hq, hs]
    rfl
  unfold apfOps rbApfOps
  congr
  · funext tr yv uv tv cur d; exact hf tr yv uv tv cur d
  · funext tr anc pa uv yv tv cur; exact hm tr anc pa uv yv tv cur

end PyPE

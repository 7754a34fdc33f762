import Verif.Smooth.MhPath
import Verif.Smooth.Mhbp

/-!
# C97: what `mc_step` does to the trajectories of an MHIPS pass
-/

namespace PyPE
open Real Spec MeasureTheory ProbabilityTheory
open scoped ENNReal

variable {P U Y V Ω : Type}

/-- The past trajectory `pt` ends with the particles `x` (and the ancestors of trajectories); `none`: there is no past. -/
def Spec.EndsIn {m : ℕ} : Option (Fin m → P) → Option (List (SStep P)) → Prop
  | none, none => True
  | some x, some pt => ∃ st, pt.getLast? = some st ∧ st.pa.part = List.ofFn x ∧ st.ancestors = some (List.range m)
  | _, _ => False

/-- The future trajectory `fut` starts with the particles `x`; `none`: there is no future. -/
def Spec.StartsWith {m : ℕ} : Option (Fin m → P) → Option (List (SStep P)) → Prop
  | none, none => True
  | some x, some f => ∃ st, f[0]? = some st ∧ st.pa.part = List.ofFn x
  | _, _ => False

/-- The ancestors MHIPS passes: the identity if there is a past. -/
def Spec.identity (m : ℕ) (pt : Option (List (SStep P))) : Option (List ℕ) := pt.map fun _ => List.range m

/-- The densities the callbacks of a model evaluate on the data `D` of `K+1` times, for `m` trajectories: initial `l0`, transition `lp k`
from time `k` to `k+1`, measurement `g k` (`0` if the measurement of time `k` is `None`). The model has no Rao-Blackwellised part. -/
structure Spec.MhPaths (S : SmoothCallbacks P U Y V Ω) (D : SData U Y) (m K : ℕ) (l0 : P → ℝ) (lp : ℕ → P → P → ℝ) (g : ℕ → P → ℝ) : Prop where
  times : K < D.t.length
  ys : K < D.y.length
  smooth : PlainSmooth S D
  predict : ∀ k < K, ∀ (old x : Fin m → P) pt pind, S.condPredict (List.ofFn old) pt pind (List.ofFn x) (List.range m) D k = .ok (List.ofFn x)
  initial : ∀ (x : Fin m → P) t, S.condInitial (List.ofFn x) t = .ok (List.ofFn x)
  prior : ∀ (x : Fin m → P) t, D.t[0]? = some t → S.evalLogpX0 (List.ofFn x) t = .ok (List.ofFn fun j => l0 (x j))
  trans : ∀ k < K, ∀ (old x : Fin m → P) pt pind, S.logpXnextSingle (List.ofFn old) pt pind (List.ofFn x) (List.range m) D k =
    .ok (List.ofFn fun j => lp k (old j) (x j))
  next : ∀ k < K, ∀ (x a : Fin m → P) pt pind f, StartsWith (some a) (some f) → S.logpXnextFull (List.ofFn x) pt pind f (List.range m) D k =
    .ok (List.ofFn fun j => lp k (x j) (a j))
  meas : ∀ k ≤ K, D.y[k]? ≠ some .none → ∀ (x : Fin m → P) pt pind, S.measure (List.ofFn x) pt (D.take (k+1)) pind =
    .ok (List.ofFn x, List.ofFn fun j => g k (x j))
  noMeas : ∀ k ≤ K, D.y[k]? = some .none → ∀ x, g k x = 0

/-- The calls of `mc_step` made by MHIPS at time `k`: past and future are there except at the ends. -/
def Spec.CallAt {m : ℕ} (K k : ℕ) (b a : Option (Fin m → P)) (pt fut : Option (List (SStep P))) : Prop :=
  k ≤ K ∧ EndsIn b pt ∧ StartsWith a fut ∧ (b = none ↔ k = 0) ∧ (a = none ↔ k = K)

/-- `propose_smooth` draws for trajectory `j` from the density `exp (lq k b_j a_j)`, given the states `b_j`, `a_j` before and after time `k`, and
`logp_proposal` evaluates its logarithm. The draws of different trajectories may depend on each other. -/
def Spec.FullProposal [MeasurableSpace P] [MeasurableSpace Ω] (S : SmoothCallbacks P U Y V Ω) (D : SData U Y) (ν : Measure Ω) (m K : ℕ) (vol : Measure P)
    (lq : ℕ → Option P → Option P → P → ℝ) : Prop :=
  ∀ k (b a : Option (Fin m → P)) pt fut, CallAt K k b a pt fut →
    (∃ X : Fin m → Ω → P, (∀ j, Measurable (X j) ∧
        ν.map (X j) = vol.withDensity fun z => ENNReal.ofReal (exp (lq k (b.map (· j)) (a.map (· j)) z))) ∧
      ∀ ω, S.proposeSmooth pt (identity m pt) fut (List.range m) D k ω = .ok (List.ofFn fun j => X j ω)) ∧
    ∀ x : Fin m → P, S.logpProposal (List.ofFn x) pt (identity m pt) fut (List.range m) D k =
      .ok (List.ofFn fun j => lq k (b.map (· j)) (a.map (· j)) (x j))

/-- The log-density of a state given the state before it. -/
def Spec.priorLog (l0 : P → ℝ) (lp : ℕ → P → P → ℝ) (k : ℕ) (b a : Option P) (z : P) : ℝ :=
  match b with
  | none => l0 z
  | some x => lp (k-1) x z

/-- The log-density of the state after `z`; `0` if there is none. -/
def Spec.nextLog (lp : ℕ → P → P → ℝ) (k : ℕ) (a : Option P) (z : P) : ℝ :=
  match a with
  | none => 0
  | some x => lp k z x

theorem localLog_eq (l0 : P → ℝ) (lp : ℕ → P → P → ℝ) (g : ℕ → P → ℝ) (k : ℕ) (b a : Option P) (z : P) :
    localLog l0 lp g k b a z = priorLog l0 lp k b a z + g k z + nextLog lp k a z := by
  cases b <;> cases a <;> rfl

/-- The proposal of the reduced step: a draw from the dynamics of the model (or its initial law). -/
def Spec.ReducedProposal [MeasurableSpace P] [MeasurableSpace Ω] (S : SmoothCallbacks P U Y V Ω) (D : SData U Y) (ν : Measure Ω) (m K : ℕ) (vol : Measure P)
    (l0 : P → ℝ) (lp : ℕ → P → P → ℝ) : Prop :=
  ∀ k (b a : Option (Fin m → P)) pt fut, CallAt K k b a pt fut →
    ∃ X : Fin m → Ω → P, (∀ j, Measurable (X j) ∧
        ν.map (X j) = vol.withDensity fun z => ENNReal.ofReal (exp (priorLog l0 lp k (b.map (· j)) (a.map (· j)) z))) ∧
      ∀ ω, mcProposeReduced S pt (identity m pt) fut D k ω = .ok (List.ofFn fun j => X j ω)

open scoped Classical in
/-- One `mc_step` of MHIPS: a Metropolis-Hastings update of every trajectory. -/
def MhStep [MeasurableSpace P] [MeasurableSpace Ω] (S : SmoothCallbacks P U Y V Ω) (D : SData U Y) (reduced : Bool) (ν : Measure Ω) (m K : ℕ) (vol : Measure P)
    (l0 : P → ℝ) (lp : ℕ → P → P → ℝ) (g : ℕ → P → ℝ) (lq : ℕ → Option P → Option P → P → ℝ) : Prop :=
  ∀ k (b a : Option (Fin m → P)) pt fut, CallAt K k b a pt fut → ∀ x : Fin m → P,
    ∃ X : Fin m → Ω → P, (∀ j, Measurable (X j) ∧
        ν.map (X j) = vol.withDensity fun z => ENNReal.ofReal (exp (lq k (b.map (· j)) (a.map (· j)) z))) ∧
      ∀ d : McDraws Ω, ∃ acc, mcStep S (List.ofFn x) pt (identity m pt) (identity m pt) fut (List.range m) D k reduced d =
        .ok (List.ofFn fun j => if d.u j < exp (mhLog l0 lp g lq k (b.map (· j)) (a.map (· j)) (x j) (X j d.ω)) then X j d.ω else x j, acc)

variable {S : SmoothCallbacks P U Y V Ω} {D : SData U Y} {m K : ℕ} {l0 : P → ℝ} {lp : ℕ → P → P → ℝ} {g : ℕ → P → ℝ}

theorem fancy_range_ofFn {α : Type} (x : Fin m → α) : fancy (List.ofFn x) (List.range m) = .ok (List.ofFn x) := by
  obtain ⟨out, ho⟩ := fancy_ok (a := List.ofFn x) (ind := List.range m) (fun i hi => by simpa using hi)
  rw [ho]
  congr 1
  obtain ⟨h1, h2⟩ := fancy_spec.mp ho
  apply List.ext_getElem?
  intro i
  by_cases hi : i < m
  · rw [(h2 i i (by simp [hi])).1]
  · rw [List.getElem?_eq_none (by rw [h1]; simp; omega), List.getElem?_eq_none (by simp; omega)]

theorem fancy_range_range : fancy (List.range m) (List.range m) = .ok (List.range m) := by
  have : List.range m = List.ofFn fun i : Fin m => (i : ℕ) := by apply List.ext_getElem <;> simp
  conv_lhs => rw [this]
  rw [← this]
  conv_lhs => arg 1; rw [this]
  rw [fancy_range_ofFn, ← this]

theorem mcCurrent_paths (h : MhPaths S D m K l0 lp g) {k : ℕ} {b a : Option (Fin m → P)} {pt fut : Option (List (SStep P))}
    (hc : CallAt K k b a pt fut) (x : Fin m → P) : mcCurrent S (List.ofFn x) pt (identity m pt) D k = .ok (List.ofFn x) := by
  obtain ⟨hk, hb, ha, hb0, ha0⟩ := hc
  cases b with
  | none =>
    cases pt with
    | some pt => exact hb.elim
    | none =>
      simp only [mcCurrent, identity, Option.map_none, getIdx_of_lt (show k < D.t.length by have := h.times; omega), ok_bind, h.initial]
  | some old =>
    cases pt with
    | none => exact hb.elim
    | some pt =>
      obtain ⟨st, h1, h2, h3⟩ := hb
      have hk0 : k ≠ 0 := fun e => by have := hb0.mpr e; cases this
      simp only [mcCurrent, identity, Option.map_some, getLast_ok.mpr h1, ok_bind, h2, h3, fancy_range_ofFn, fancy_range_range, List.length_range]
      exact h.predict _ (by omega) _ _ _ _

theorem mcPrev_paths (h : MhPaths S D m K l0 lp g) {k : ℕ} {b a : Option (Fin m → P)} {pt fut : Option (List (SStep P))}
    (hc : CallAt K k b a pt fut) (x : Fin m → P) : mcPrev S (List.ofFn x) pt (identity m pt) D k =
      .ok (List.ofFn fun j => priorLog l0 lp k (b.map (· j)) (a.map (· j)) (x j)) := by
  obtain ⟨hk, hb, ha, hb0, ha0⟩ := hc
  cases b with
  | none =>
    cases pt with
    | some pt => exact hb.elim
    | none =>
      have ht : 0 < D.t.length := by have := h.times; omega
      simp only [mcPrev, identity, Option.map_none, getIdx_of_lt ht, ok_bind, h.prior x _ (List.getElem?_eq_getElem ht), priorLog]
  | some old =>
    cases pt with
    | none => exact hb.elim
    | some pt =>
      obtain ⟨st, h1, h2, h3⟩ := hb
      have hk0 : k ≠ 0 := fun e => by have := hb0.mpr e; cases this
      simp only [mcPrev, identity, Option.map_some, getLast_ok.mpr h1, ok_bind, h2, h3, fancy_range_ofFn, fancy_range_range, List.length_ofFn, priorLog]
      exact h.trans _ (by omega) _ _ _ _

theorem tval_ofFn (f : Fin m → ℝ) (j : Fin m) : tval (some (List.ofFn f)) j = f j := by
  simp [tval, List.getD_eq_getElem?_getD]

open scoped Classical in
/-- The acceptance part. -/
theorem mcAccept_paths (h : MhPaths S D m K l0 lp g) {k : ℕ} {b a : Option (Fin m → P)} {pt fut : Option (List (SStep P))}
    (hc : CallAt K k b a pt fut) (x z : Fin m → P) {pP pC qP qC : Term} (hpP : tlen m pP) (hpC : tlen m pC) (hqP : tlen m qP) (hqC : tlen m qC)
    (hinfo : pP ≠ none ∨ D.y[k]? ≠ some .none ∨ a ≠ none) (u : ℕ → ℝ) :
    ∃ acc, mcAccept S (List.ofFn z) (List.ofFn x) pt (identity m pt) (identity m pt) fut (List.range m) D k pP pC qP qC u =
      .ok (List.ofFn fun j : Fin m => if u j < exp (tval pP j - tval pC j + (g k (z j) - g k (x j)) +
        (nextLog lp k (a.map (· j)) (z j) - nextLog lp k (a.map (· j)) (x j)) +
        (tval qC j - tval qP j)) then z j else x j, acc) := by
  obtain ⟨hk, hb, ha, hb0, ha0⟩ := hc
  have hyl : k < D.y.length := by have := h.ys; omega
  obtain ⟨y, hy⟩ : ∃ y, D.y[k]? = some y := ⟨_, List.getElem?_eq_getElem hyl⟩
  have hlen : ∀ f : Fin m → ℝ, tlen m (some (List.ofFn f)) := by intro f l hl; cases hl; simp
  have hnone : tlen m none := by simp [tlen]
  obtain ⟨yP, yC, q1, q2, q3, q4, q5, q6⟩ : ∃ yP yC : Term, tlen m yP ∧ tlen m yC ∧ (y = .none → yP = none ∧ yC = none) ∧
      (y ≠ .none → yP = some (List.ofFn fun j => g k (z j)) ∧ yC = some (List.ofFn fun j => g k (x j))) ∧
      (∀ j : Fin m, tval yP j = g k (z j)) ∧ ∀ j : Fin m, tval yC j = g k (x j) := by
    by_cases hyn : y = .none
    · have h0 := h.noMeas k hk (by rw [hy, hyn])
      exact ⟨none, none, hnone, hnone, fun _ => ⟨rfl, rfl⟩, fun h => absurd hyn h, fun j => (h0 _).symm, fun j => (h0 _).symm⟩
    · exact ⟨some _, some _, hlen _, hlen _, fun h => absurd h hyn, fun _ => ⟨rfl, rfl⟩, fun j => tval_ofFn (fun j => g k (z j)) j,
        fun j => tval_ofFn (fun j => g k (x j)) j⟩
  obtain ⟨nP, nC, p1, p2, p3, p4, p5, p6⟩ : ∃ nP nC : Term, tlen m nP ∧ tlen m nC ∧ (a = none → nP = none ∧ nC = none) ∧
      (∀ c, a = some c → nP = some (List.ofFn fun j => lp k (z j) (c j)) ∧ nC = some (List.ofFn fun j => lp k (x j) (c j))) ∧
      (∀ j : Fin m, tval nP j = nextLog lp k (a.map (· j)) (z j)) ∧
      ∀ j : Fin m, tval nC j = nextLog lp k (a.map (· j)) (x j) := by
    cases a with
    | none => exact ⟨none, none, hnone, hnone, fun _ => ⟨rfl, rfl⟩, (fun c h => by cases h), fun _ => rfl, fun _ => rfl⟩
    | some c =>
      exact ⟨some _, some _, hlen _, hlen _, (fun h => by cases h), (fun c' h => by cases h; exact ⟨rfl, rfl⟩),
        fun j => tval_ofFn (fun j => lp k (z j) (c j)) j, fun j => tval_ofFn (fun j => lp k (x j) (c j)) j⟩
  have hfa : fut = none ↔ a = none := by
    cases a <;> cases fut <;> simp_all [StartsWith]
  obtain ⟨out, acc, e1, e2, e3, e4⟩ := mcAccept_spec (S := S) (xprop := List.ofFn z) (part := List.ofFn x) (ptraj := pt) (pp := identity m pt)
    (pc := identity m pt) (fut := fut) (find := List.range m) (D := D) (cur := k) u hpP hpC hqP hqC (xpy := List.ofFn z) (cpy := List.ofFn x)
    (by simp) (by simp) hy q1 q2 p1 p2 (fun h => ⟨rfl, rfl, q3 h⟩)
    (fun hn => ⟨_, _, h.meas k hk (by rw [hy]; simpa using hn) _ _ _, h.meas k hk (by rw [hy]; simpa using hn) _ _ _, q4 hn⟩)
    (fun hf => p3 (hfa.mp hf))
    (fun f hf => by
      cases a with
      | none => rw [hfa.mpr rfl] at hf; cases hf
      | some c =>
        have hkK : k < K := lt_of_le_of_ne hk fun e => by have := ha0.mpr e; cases this
        subst hf
        exact ⟨_, _, h.next k hkK _ c _ _ _ ha, h.next k hkK _ c _ _ _ ha, p4 c rfl⟩)
    (by
      rcases hinfo with hi | hi | hi
      · exact Or.inl hi
      · right; left
        rw [(q4 fun e => hi (by rw [hy, e])).1]; simp
      · right; right; left
        obtain ⟨c, rfl⟩ := Option.ne_none_iff_exists'.mp hi
        rw [(p4 c rfl).1]; simp)
  refine ⟨acc, ?_⟩
  rw [e1]
  congr 2
  apply List.ext_getElem?
  intro i
  by_cases hi : i < m
  · obtain ⟨h1, h2⟩ := e4 i hi
    rw [h2 _ h1]
    have t1 := q5 ⟨i, hi⟩
    have t2 := q6 ⟨i, hi⟩
    have t3 := p5 ⟨i, hi⟩
    have t4 := p6 ⟨i, hi⟩
    simp only at t1 t2 t3 t4
    rw [t1, t2, t3, t4]
    simp only [List.getElem?_ofFn, hi, dif_pos, decide_eq_true_eq]
    exact (apply_ite some _ _ _).symm
  · rw [List.getElem?_eq_none (by omega), List.getElem?_eq_none (by simp; omega)]

theorem mhStep_full [MeasurableSpace P] [MeasurableSpace Ω] {ν : Measure Ω} {vol : Measure P} {lq : ℕ → Option P → Option P → P → ℝ}
    (h : MhPaths S D m K l0 lp g) (hq : FullProposal S D ν m K vol lq) : MhStep S D false ν m K vol l0 lp g lq := by
  intro k b a pt fut hc x
  obtain ⟨⟨X, hX, hXe⟩, hlq⟩ := hq k b a pt fut hc
  refine ⟨X, hX, fun d => ?_⟩
  have hlen : ∀ f : Fin m → ℝ, tlen m (some (List.ofFn f)) := by intro f l hl; cases hl; simp
  obtain ⟨acc, e⟩ := mcAccept_paths h hc x (fun j => X j d.ω) (hlen fun j => priorLog l0 lp k (b.map (· j)) (a.map (· j)) (X j d.ω))
    (hlen fun j => priorLog l0 lp k (b.map (· j)) (a.map (· j)) (x j))
    (hlen fun j => lq k (b.map (· j)) (a.map (· j)) (X j d.ω)) (hlen fun j => lq k (b.map (· j)) (a.map (· j)) (x j))
    (Or.inl (by simp)) d.u
  refine ⟨acc, ?_⟩
  simp only [mcStep, mcCurrent_paths h hc, ok_bind, Bool.false_eq_true, if_false, hXe, hlq, mcPrev_paths h hc, e]
  congr 3
  funext j
  simp only [tval_ofFn, mhLog, localLog_eq]
  congr 3
  ring

theorem mhStep_reduced [MeasurableSpace P] [MeasurableSpace Ω] {ν : Measure Ω} {vol : Measure P}
    (h : MhPaths S D m K l0 lp g) (hq : ReducedProposal S D ν m K vol l0 lp) (hy : D.y[K]? ≠ some .none) :
    MhStep S D true ν m K vol l0 lp g (priorLog l0 lp) := by
  intro k b a pt fut hc x
  obtain ⟨X, hX, hXe⟩ := hq k b a pt fut hc
  refine ⟨X, hX, fun d => ?_⟩
  have hnone : tlen m none := by simp [tlen]
  obtain ⟨acc, e⟩ := mcAccept_paths h hc x (fun j => X j d.ω) hnone hnone hnone hnone (by
    right
    by_cases hk : k = K
    · left; rw [hk]; exact hy
    · right; exact fun e => hk (hc.2.2.2.2.mp e)) d.u
  refine ⟨acc, ?_⟩
  simp only [mcStep, mcCurrent_paths h hc, ok_bind, if_true, hXe, e]
  congr 3
  funext j
  simp only [tval, mhLog, localLog_eq]
  congr 3
  ring

/-! ### A pass -/

/-- The steps of `traj` from position `n` on hold the particles `Z n, Z (n+1), …`, one column per trajectory. -/
def RowsAt (m : ℕ) (traj : List (SStep P)) (n : ℕ) (Z : ℕ → Fin m → P) : Prop :=
  ∀ i, i < traj.length → ∃ st, traj[i]? = some st ∧ st.pa.part = List.ofFn (Z (n+i)) ∧ st.ancestors = some (List.range m)

theorem RowsAt.cons {traj : List (SStep P)} {n : ℕ} {Z : ℕ → Fin m → P} (h : RowsAt m traj (n+1) Z) {pa : PA P} {x : Fin m → P} (hpa : pa.part = List.ofFn x) :
    RowsAt m (⟨pa, some (List.range m)⟩ :: traj) n (Function.update Z n x) := by
  intro i hi
  cases i with
  | zero => exact ⟨_, rfl, by rw [Nat.add_zero, Function.update_self, hpa], rfl⟩
  | succ i =>
    obtain ⟨st, h1, h2, h3⟩ := h i (by simpa using hi)
    refine ⟨st, by simpa using h1, ?_, h3⟩
    rw [h2, Function.update_of_ne (by omega)]
    congr 2; omega

/-- Expectation over the draws of `mc_step` at the times `n-1, …, 0`, independent uniforms and model draws for every time. -/
noncomputable def Spec.passE [MeasurableSpace Ω] (ν : Measure Ω) : ℕ → ((ℕ → McDraws Ω) → ℝ≥0∞) → (ℕ → McDraws Ω) → ℝ≥0∞
  | 0, f, b => f b
  | n + 1, f, b => ∫⁻ ω, ∫⁻ u, passE ν n f (Function.update b n ⟨ω, u⟩) ∂unifSeq ∂ν

theorem passE_congr [MeasurableSpace Ω] (ν : Measure Ω) {n : ℕ} {f f' : (ℕ → McDraws Ω) → ℝ≥0∞} {b : ℕ → McDraws Ω}
    (h : ∀ b', (∀ i, n ≤ i → b' i = b i) → f b' = f' b') : passE ν n f b = passE ν n f' b := by
  induction n generalizing b with
  | zero => exact h b fun _ _ => rfl
  | succ n ih =>
    refine lintegral_congr fun ω => lintegral_congr fun u => ih fun b' hb' => h b' fun i hi => ?_
    rw [hb' i (by omega), Function.update_of_ne (by omega)]

open scoped Classical in
theorem lintegral_accept (A B : Fin m → ℝ≥0∞) (ρ : Fin m → ℝ) (hρ : ∀ j, 0 ≤ ρ j) :
    ∫⁻ u, ∑ j : Fin m, (if u j < ρ j then A j else B j) ∂unifSeq =
      ∑ j : Fin m, (ENNReal.ofReal (min 1 (ρ j)) * A j + ENNReal.ofReal (1 - min 1 (ρ j)) * B j) := by
  have hm : ∀ j : Fin m, Measurable fun u : ℕ → ℝ => if u j < ρ j then A j else B j := fun j =>
    Measurable.ite (measurableSet_lt (measurable_pi_apply _) measurable_const) measurable_const measurable_const
  rw [lintegral_finset_sum _ fun j _ => hm j]
  refine Finset.sum_congr rfl fun j _ => ?_
  have h := measurePreserving_eval_infinitePi (fun _ : ℕ => unif) j
  have mf : Measurable fun r : ℝ => if r < ρ j then A j else B j :=
    Measurable.ite (measurableSet_lt measurable_id measurable_const) measurable_const measurable_const
  have e := h.lintegral_comp mf
  refine (show _ = _ from e).trans ?_
  have hs : MeasurableSet {r : ℝ | r < ρ j} := measurableSet_lt measurable_id measurable_const
  have e2 : (fun r : ℝ => if r < ρ j then A j else B j) =
      fun r => ({r : ℝ | r < ρ j}.indicator (fun _ => A j) r) + ({r : ℝ | r < ρ j}ᶜ.indicator (fun _ => B j) r) := by
    funext r
    by_cases hr : r < ρ j
    · simp [hr]
    · simp [hr]
  rw [e2, lintegral_add_left (measurable_const.indicator hs), lintegral_indicator hs, lintegral_indicator hs.compl, lintegral_const, lintegral_const,
    Measure.restrict_apply_univ, Measure.restrict_apply_univ]
  have e3 : unif {r : ℝ | r < ρ j} = ENNReal.ofReal (min 1 (ρ j)) := by
    unfold unif
    rw [Measure.restrict_apply hs]
    by_cases h1 : ρ j ≤ 1
    · have : {r : ℝ | r < ρ j} ∩ Set.Ioc 0 1 = Set.Ioo 0 (ρ j) := by
        ext r; simp only [Set.mem_inter_iff, Set.mem_setOf_eq, Set.mem_Ioc, Set.mem_Ioo]; constructor
        · rintro ⟨a, b, c⟩; exact ⟨b, a⟩
        · rintro ⟨a, b⟩; exact ⟨b, a, by linarith⟩
      rw [this, Real.volume_Ioo, sub_zero, min_eq_right h1]
    · have : {r : ℝ | r < ρ j} ∩ Set.Ioc 0 1 = Set.Ioc 0 1 := by
        ext r; simp only [Set.mem_inter_iff, Set.mem_setOf_eq, Set.mem_Ioc]; constructor
        · rintro ⟨a, b⟩; exact b
        · rintro ⟨a, b⟩; exact ⟨by push_neg at h1; linarith, a, b⟩
      rw [this, Real.volume_Ioc, sub_zero, min_eq_left (by push_neg at h1; linarith)]
  rw [measure_compl hs (measure_ne_top _ _), measure_univ, e3, mul_comm, mul_comm (B j), ENNReal.ofReal_sub _ (le_min zero_le_one (hρ j)),
    ENNReal.ofReal_one]

section
variable [MeasurableSpace P] [MeasurableSpace Ω] {ν : Measure Ω} [IsProbabilityMeasure ν] {vol : Measure P} [SigmaFinite vol]
  {lq : ℕ → Option P → Option P → P → ℝ} {reduced : Bool}

open scoped Classical in
/-- The expectation over one `mc_step` is the operator `siteE` for every trajectory. -/
theorem step_E (hlaw : PathLaw vol l0 lp g lq) {k : ℕ} (Z : ℕ → Fin m → P) {b a : Option (Fin m → P)}
    (hb : ∀ j, b.map (· j) = before (fun t => Z t j) k) (ha : ∀ j, a.map (· j) = after K (fun t => Z t j) k) {X : Fin m → Ω → P}
    (hX : ∀ j, Measurable (X j) ∧ ν.map (X j) = vol.withDensity fun z => ENNReal.ofReal (exp (lq k (b.map (· j)) (a.map (· j)) z)))
    {ψ : (ℕ → P) → ℝ≥0∞} (hψ : Measurable ψ) (c : ℝ≥0∞) (hc : c ≠ ∞) :
    ∫⁻ ω, ∫⁻ u, c * ∑ j : Fin m, ψ (fun t => Function.update Z k (fun j => if u j < exp (mhLog l0 lp g lq k (b.map (· j)) (a.map (· j)) (Z k j) (X j ω))
        then X j ω else Z k j) t j) ∂unifSeq ∂ν = c * ∑ j : Fin m, siteE vol l0 lp g lq K k ψ (fun t => Z t j) := by
  have e1 : ∀ ω (u : ℕ → ℝ) (j : Fin m), (fun t => Function.update Z k (fun j => if u j < exp (mhLog l0 lp g lq k (b.map (· j)) (a.map (· j)) (Z k j) (X j ω))
        then X j ω else Z k j) t j) = if u j < exp (mhLog l0 lp g lq k (b.map (· j)) (a.map (· j)) (Z k j) (X j ω))
        then Function.update (fun t => Z t j) k (X j ω) else fun t => Z t j := by
    intro ω u j
    funext t
    by_cases ht : t = k
    · subst ht
      rw [Function.update_self]
      split <;> simp
    · rw [Function.update_of_ne ht]
      split
      · rw [Function.update_of_ne ht]
      · rfl
  have e2 : ∀ ω, ∫⁻ u, c * ∑ j : Fin m, ψ (fun t => Function.update Z k (fun j => if u j < exp (mhLog l0 lp g lq k (b.map (· j)) (a.map (· j)) (Z k j) (X j ω))
        then X j ω else Z k j) t j) ∂unifSeq = c * ∑ j : Fin m,
        (ENNReal.ofReal (min 1 (exp (mhLog l0 lp g lq k (b.map (· j)) (a.map (· j)) (Z k j) (X j ω)))) * ψ (Function.update (fun t => Z t j) k (X j ω)) +
        ENNReal.ofReal (1 - min 1 (exp (mhLog l0 lp g lq k (b.map (· j)) (a.map (· j)) (Z k j) (X j ω)))) * ψ (fun t => Z t j)) := by
    intro ω
    rw [lintegral_const_mul' _ _ hc, ← lintegral_accept _ _ _ (fun j => (exp_pos _).le)]
    congr 1
    refine lintegral_congr fun u => Finset.sum_congr rfl fun j _ => ?_
    rw [e1, apply_ite ψ]
  simp only [e2]
  rw [lintegral_const_mul' _ _ hc]
  congr 1
  have mG : ∀ j : Fin m, Measurable fun z => ENNReal.ofReal (min 1 (exp (mhLog l0 lp g lq k (b.map (· j)) (a.map (· j)) (Z k j) z))) *
      ψ (Function.update (fun t => Z t j) k z) +
      ENNReal.ofReal (1 - min 1 (exp (mhLog l0 lp g lq k (b.map (· j)) (a.map (· j)) (Z k j) z))) * ψ (fun t => Z t j) := by
    intro j
    rw [hb, ha]
    have mr := (mhLog_measurable hlaw K k).comp (f := fun z : P => ((fun t => Z t j), z)) (by fun_prop)
    exact ((measurable_const.min mr.exp).ennreal_ofReal.mul (hψ.comp (measurable_update _))).add
      ((measurable_const.sub (measurable_const.min mr.exp)).ennreal_ofReal.mul measurable_const)
  have mX : ∀ j : Fin m, Measurable fun ω => ENNReal.ofReal (min 1 (exp (mhLog l0 lp g lq k (b.map (· j)) (a.map (· j)) (Z k j) (X j ω)))) *
      ψ (Function.update (fun t => Z t j) k (X j ω)) +
      ENNReal.ofReal (1 - min 1 (exp (mhLog l0 lp g lq k (b.map (· j)) (a.map (· j)) (Z k j) (X j ω)))) * ψ (fun t => Z t j) :=
    fun j => (mG j).comp (hX j).1
  rw [lintegral_finset_sum _ fun j _ => mX j]
  refine Finset.sum_congr rfl fun j _ => ?_
  have := lintegral_map (μ := ν) (mG j) (hX j).1
  rw [(hX j).2] at this
  rw [← this, siteE, hb, ha]

/-- The rest of a pass, after the step at time `n+1`. -/
noncomputable def mhipsFinish (S : SmoothCallbacks P U Y V Ω) (traj : List (SStep P)) (M : ℕ) (D : SData U Y)
    (reduced : Bool) (d : PassDraws Ω) (n : ℕ) (fut : List (SStep P)) : PyM (List (SStep P)) := do
  let pind := List.range M
  let fut ← mhipsLoop S traj M D reduced d n fut
  let first ← getIdx traj 0
  let (part, _) ← mcStep S first.pa.part none none none (some fut) pind D 0 reduced (d.mc 0)
  let tmp ← S.sampleSmooth part none pind (some fut) (some pind) D 0 (d.ω 0)
  let pa ← PA.new tmp none
  return ⟨pa, some pind⟩ :: fut

theorem fut_start {fut : List (SStep P)} {n : ℕ} {Z : ℕ → Fin m → P} (hf : RowsAt m fut n Z) (hne : 0 < fut.length) :
    StartsWith (some (Z n)) (some fut) := by
  obtain ⟨st, h1, h2, -⟩ := hf 0 hne
  exact ⟨st, h1, by simpa using h2⟩

/-- The times `n, …, 0` of a pass. -/
theorem finish_E (hm : 0 < m) (hlaw : PathLaw vol l0 lp g lq) (hsm : PlainSmooth S D) (hst : MhStep S D reduced ν m K vol l0 lp g lq)
    {traj : List (SStep P)} (hlen : traj.length = K + 1) {ψ : (ℕ → P) → ℝ≥0∞} (hψ : Measurable ψ) {c : ℝ≥0∞} (hc : c ≠ ∞)
    {F : PyM (List (SStep P)) → ℝ≥0∞}
    (hF : ∀ out (Z : ℕ → Fin m → P), out.length = K + 1 → RowsAt m out 0 Z → F (.ok out) = c * ∑ j : Fin m, ψ (fun t => Z t j)) (w : ℕ → Ω)
    (n : ℕ) (hn : n < K) {Z : ℕ → Fin m → P}
    (hZ : ∀ t ≤ n, ∃ st, traj[t]? = some st ∧ st.pa.part = List.ofFn (Z t) ∧ st.ancestors = some (List.range m)) {fut : List (SStep P)}
    (hfl : fut.length = K - n) (hfut : RowsAt m fut (n+1) Z) (base : ℕ → McDraws Ω) :
    passE ν (n+1) (fun b => F (mhipsFinish S traj m D reduced ⟨b, w⟩ n fut)) base =
      c * ∑ j : Fin m, passOp vol l0 lp g lq K (n+1) ψ (fun t => Z t j) := by
  induction n generalizing Z fut base with
  | zero =>
    obtain ⟨st, h1, h2, h3⟩ := hZ 0 le_rfl
    obtain ⟨X, hX, hXe⟩ := hst 0 none (some (Z 1)) none (some fut)
      ⟨by omega, trivial, fut_start hfut (by omega), by simp, ⟨(fun h => by cases h), fun h => by omega⟩⟩ (Z 0)
    rw [← show _ = c * ∑ j : Fin m, passOp vol l0 lp g lq K (0+1) ψ (fun t => Z t j) from
      step_E (K := K) hlaw Z (b := none) (a := some (Z 1)) (fun j => rfl) (fun j => by simp [after, hn]) hX hψ c hc]
    show ∫⁻ ω, ∫⁻ u, _ ∂unifSeq ∂ν = _
    refine lintegral_congr fun ω => lintegral_congr fun u => ?_
    obtain ⟨acc, e⟩ := hXe ⟨ω, u⟩
    obtain ⟨row, hrow⟩ : ∃ row : Fin m → P, row = fun j : Fin m => if u j < exp (mhLog l0 lp g lq 0 ((none : Option (Fin m → P)).map (· j))
      ((some (Z 1)).map (· j)) (Z 0 j) (X j ω)) then X j ω else Z 0 j := ⟨_, rfl⟩
    simp only at e
    rw [← hrow] at e
    obtain ⟨pa, m1, m2, m3, -⟩ := PA.new_none_wf (part := List.ofFn row) (List.length_ofFn) hm
    have hfin : mhipsFinish S traj m D reduced ⟨Function.update base 0 ⟨ω, u⟩, w⟩ 0 fut = .ok (⟨pa, some (List.range m)⟩ :: fut) := by
      have e' : mcStep S (List.ofFn (Z 0)) none none none (some fut) (List.range m) D 0 reduced ⟨ω, u⟩ = .ok (List.ofFn row, acc) := e
      simp only [mhipsFinish, mhipsLoop, ok_bind, getIdx_ok.mpr h1, h2, Function.update_self, e', hsm _ _ _ _ _ _ _, m1]
      rfl
    show F _ = _
    rw [hfin, hF _ (Function.update Z 0 row) (by simp only [List.length_cons, hfl]; omega) (hfut.cons m3), hrow]
  | succ n ih =>
    obtain ⟨st, h1, h2, h3⟩ := hZ (n+1) le_rfl
    obtain ⟨sp, g1, g2, g3⟩ := hZ n (by omega)
    have hlt : n + 1 < traj.length := by omega
    have hpast : EndsIn (some (Z n)) (some (traj.take (n+1))) :=
      ⟨sp, by rw [List.getLast?_take, if_neg (by omega)]; simp [g1], g2, g3⟩
    obtain ⟨X, hX, hXe⟩ := hst (n+1) (some (Z n)) (some (Z (n+1+1))) (some (traj.take (n+1))) (some fut)
      ⟨by omega, hpast, fut_start hfut (by omega), ⟨(fun h => by cases h), fun h => by omega⟩, ⟨(fun h => by cases h), fun h => by omega⟩⟩ (Z (n+1))
    have hop := step_E (K := K) hlaw Z (k := n+1) (b := some (Z n)) (a := some (Z (n+1+1))) (fun j => rfl) (fun j => by simp [after, hn]) hX
      (passOp_measurable hlaw K (n+1) hψ) c hc
    rw [passOp, ← hop, passE]
    refine lintegral_congr fun ω => lintegral_congr fun u => ?_
    obtain ⟨acc, e⟩ := hXe ⟨ω, u⟩
    obtain ⟨row, hrow⟩ : ∃ row : Fin m → P, row = fun j : Fin m => if u j < exp (mhLog l0 lp g lq (n+1) ((some (Z n)).map (· j))
      ((some (Z (n+1+1))).map (· j)) (Z (n+1) j) (X j ω)) then X j ω else Z (n+1) j := ⟨_, rfl⟩
    simp only at e
    rw [← hrow] at e
    obtain ⟨pa, m1, m2, m3, -⟩ := PA.new_none_wf (part := List.ofFn row) (List.length_ofFn) hm
    rw [← hrow, ← ih (by omega) (Z := Function.update Z (n+1) row) (fut := ⟨pa, some (List.range m)⟩ :: fut) ?_ (by simp only [List.length_cons, hfl]; omega)
      (hfut.cons m3) (Function.update base (n+1) ⟨ω, u⟩)]
    · refine passE_congr ν fun b' hb' => ?_
      have hb : b' (n+1) = ⟨ω, u⟩ := by rw [hb' _ le_rfl, Function.update_self]
      have e' : mcStep S (List.ofFn (Z (n+1))) (some (traj.take (n+1))) (some (List.range m)) (some (List.range m)) (some fut) (List.range m) D (n+1) reduced
        ⟨ω, u⟩ = .ok (List.ofFn row, acc) := e
      congr 1
      simp only [mhipsFinish, mhipsLoop, getIdx_ok.mpr h1, ok_bind, h2, hb, e', hsm _ _ _ _ _ _ _, m1]
    · intro t ht
      rw [Function.update_of_ne (by omega)]
      exact hZ t (by omega)

/-- A whole pass. -/
theorem pass_E (hm : 0 < m) (hK : 1 ≤ K) (hlaw : PathLaw vol l0 lp g lq) (hsm : PlainSmooth S D) (hst : MhStep S D reduced ν m K vol l0 lp g lq)
    {traj : List (SStep P)} (hlen : traj.length = K + 1) {ψ : (ℕ → P) → ℝ≥0∞} (hψ : Measurable ψ) {c : ℝ≥0∞} (hc : c ≠ ∞)
    {F : PyM (List (SStep P)) → ℝ≥0∞}
    (hF : ∀ out (Z : ℕ → Fin m → P), out.length = K + 1 → RowsAt m out 0 Z → F (.ok out) = c * ∑ j : Fin m, ψ (fun t => Z t j)) (w : ℕ → Ω)
    {Z : ℕ → Fin m → P} (hZ : RowsAt m traj 0 Z) (base : ℕ → McDraws Ω) :
    passE ν (K+1) (fun b => F (mhipsPass S traj m D reduced ⟨b, w⟩)) base = c * ∑ j : Fin m, passOp vol l0 lp g lq K (K+1) ψ (fun t => Z t j) := by
  obtain ⟨n, rfl⟩ : ∃ n, K = n + 1 := ⟨K - 1, by omega⟩
  obtain ⟨st, h1, h2, h3⟩ := hZ (n+1) (by omega)
  obtain ⟨sp, g1, g2, g3⟩ := hZ n (by omega)
  simp only [Nat.zero_add] at h2 g2
  have hlast : getLast traj = .ok st := by
    rw [getLast_ok, List.getLast?_eq_getElem?, hlen]
    exact h1
  have hpast : EndsIn (some (Z n)) (some (traj.take (n+1))) :=
    ⟨sp, by rw [List.getLast?_take, if_neg (by omega)]; simp [g1], g2, g3⟩
  obtain ⟨X, hX, hXe⟩ := hst (n+1) (some (Z n)) none (some (traj.take (n+1))) none
    ⟨le_rfl, hpast, trivial, ⟨(fun h => by cases h), fun h => by omega⟩, by simp⟩ (Z (n+1))
  have hop := step_E (K := n+1) hlaw Z (k := n+1) (b := some (Z n)) (a := none) (fun j => rfl) (fun j => by simp [after]) hX
    (passOp_measurable hlaw (n+1) (n+1) hψ) c hc
  rw [passOp, ← hop, passE]
  refine lintegral_congr fun ω => lintegral_congr fun u => ?_
  obtain ⟨acc, e⟩ := hXe ⟨ω, u⟩
  obtain ⟨row, hrow⟩ : ∃ row : Fin m → P, row = fun j : Fin m => if u j < exp (mhLog l0 lp g lq (n+1) ((some (Z n)).map (· j))
    ((none : Option (Fin m → P)).map (· j)) (Z (n+1) j) (X j ω)) then X j ω else Z (n+1) j := ⟨_, rfl⟩
  simp only at e
  rw [← hrow] at e
  obtain ⟨pa, m1, m2, m3, -⟩ := PA.new_none_wf (part := List.ofFn row) (List.length_ofFn) hm
  rw [← hrow, ← finish_E hm hlaw hsm hst hlen hψ hc hF w n (by omega) (Z := Function.update Z (n+1) row) (fut := [⟨pa, some (List.range m)⟩]) ?_
    (by simp) (RowsAt.cons (traj := []) (fun i hi => by simp at hi) m3) (Function.update base (n+1) ⟨ω, u⟩)]
  · refine passE_congr ν fun b' hb' => ?_
    have hb : b' (n+1) = ⟨ω, u⟩ := by rw [hb' _ le_rfl, Function.update_self]
    have e' : mcStep S (List.ofFn (Z (n+1))) (some (traj.take (n+1))) (some (List.range m)) (some (List.range m)) none (List.range m) D (n+1) reduced
      ⟨ω, u⟩ = .ok (List.ofFn row, acc) := e
    congr 1
    have e1 : traj.length - 1 = n + 1 := by omega
    have e2 : traj.length - 2 = n := by omega
    simp only [mhipsPass, mhipsFinish, hlast, e1, e2, ok_bind, h2, hb, e', hsm _ _ _ _ _ _ _, m1]
  · intro t ht
    rw [Function.update_of_ne (by omega)]
    obtain ⟨s', k1, k2, k3⟩ := hZ t (by omega)
    exact ⟨s', k1, by simpa using k2, k3⟩

/-- Expectation over the draws of `R` passes over `n` times, numbered from `k`. -/
noncomputable def Spec.passesE [MeasurableSpace Ω] (ν : Measure Ω) (n : ℕ) : ℕ → ℕ → ((ℕ → ℕ → McDraws Ω) → ℝ≥0∞) → (ℕ → ℕ → McDraws Ω) → ℝ≥0∞
  | 0, _, f, b => f b
  | R + 1, k, f, b => passE ν n (fun d => passesE ν n R (k+1) f (Function.update b k d)) (b k)

theorem passesE_congr (n R k : ℕ) {f f' : (ℕ → ℕ → McDraws Ω) → ℝ≥0∞} {b : ℕ → ℕ → McDraws Ω}
    (h : ∀ b', (∀ i, i < k → b' i = b i) → f b' = f' b') : passesE ν n R k f b = passesE ν n R k f' b := by
  induction R generalizing k b with
  | zero => exact h b fun _ _ => rfl
  | succ R ih =>
    refine passE_congr ν fun d _ => ih (k+1) fun b' hb' => h b' fun i hi => ?_
    rw [hb' i (by omega), Function.update_of_ne (by omega)]

theorem passesE_base {n R : ℕ} (k : ℕ) {f : (ℕ → ℕ → McDraws Ω) → ℝ≥0∞} (hf : ∀ b1 b2 : ℕ → ℕ → McDraws Ω, (∀ i, k ≤ i → b1 i = b2 i) → f b1 = f b2)
    {b b' : ℕ → ℕ → McDraws Ω} (h : ∀ i, k ≤ i → b i = b' i) : passesE ν n R k f b = passesE ν n R k f b' := by
  induction R generalizing k f b b' with
  | zero => exact hf b b' h
  | succ R ih =>
    rw [passesE, passesE, h k le_rfl]
    refine passE_congr ν fun d _ => ?_
    have e : ∀ c : ℕ → ℕ → McDraws Ω, passesE ν n R (k+1) f (Function.update c k d) =
        passesE ν n R (k+1) (fun c' => f (Function.update c' k d)) (Function.update c k d) := by
      intro c
      refine passesE_congr _ _ _ fun c' hc' => ?_
      congr 1
      funext i
      by_cases hi : i = k
      · subst hi; rw [Function.update_self, hc' i (by omega), Function.update_self]
      · rw [Function.update_of_ne hi]
    rw [e b, e b']
    refine ih (k+1) (fun b1 b2 hb => hf _ _ fun i hi => ?_) (fun i hi => ?_)
    · by_cases hik : i = k
      · subst hik; rw [Function.update_self, Function.update_self]
      · rw [Function.update_of_ne hik, Function.update_of_ne hik]; exact hb i (by omega)
    · rw [Function.update_of_ne (by omega), Function.update_of_ne (by omega)]; exact h i (by omega)

/-- `R` passes. -/
theorem passes_E (hm : 0 < m) (hK : 1 ≤ K) (hlaw : PathLaw vol l0 lp g lq) (hsm : PlainSmooth S D) (hst : MhStep S D reduced ν m K vol l0 lp g lq)
    (hpre : ∀ t, applyHook S.preMhips t = .ok t) {ψ : (ℕ → P) → ℝ≥0∞} (hψ : Measurable ψ) {c : ℝ≥0∞} (hc : c ≠ ∞)
    {F : PyM (List (SStep P)) → ℝ≥0∞}
    (hF : ∀ out (Z : ℕ → Fin m → P), out.length = K + 1 → RowsAt m out 0 Z → F (.ok out) = c * ∑ j : Fin m, ψ (fun t => Z t j)) (w : ℕ → ℕ → Ω)
    (R k : ℕ) {traj : List (SStep P)} (hlen : traj.length = K + 1) {Z : ℕ → Fin m → P} (hZ : RowsAt m traj 0 Z) (base : ℕ → ℕ → McDraws Ω) :
    passesE ν (K+1) R k (fun b => F (mhipsPasses S m D reduced ((List.range R).map fun i => ⟨b (k+i), w (k+i)⟩) traj)) base =
      c * ∑ j : Fin m, (passOp vol l0 lp g lq K (K+1))^[R] ψ (fun t => Z t j) := by
  induction R generalizing k traj Z base with
  | zero => exact hF traj Z hlen hZ
  | succ R ih =>
    have hψR : Measurable ((passOp vol l0 lp g lq K (K+1))^[R] ψ) := by
      clear ih
      induction R with
      | zero => exact hψ
      | succ R ih => rw [Function.iterate_succ_apply']; exact passOp_measurable hlaw K (K+1) ih
    rw [Function.iterate_succ_apply', passesE]
    rw [← pass_E hm hK hlaw hsm hst hlen hψR hc (F := fun t => passesE ν (K+1) R (k+1)
      (fun b => F (t.bind fun t => mhipsPasses S m D reduced ((List.range R).map fun i => ⟨b (k+1+i), w (k+1+i)⟩) t)) base)
      (fun out Z' ho hZ' => ih (k+1) ho hZ' base) (w k) hZ (base k)]
    refine passE_congr ν fun d _ => ?_
    rw [← passesE_base (k+1) (f := fun b => F (Except.bind (mhipsPass S traj m D reduced ⟨d, w k⟩) fun t =>
        mhipsPasses S m D reduced ((List.range R).map fun i => ⟨b (k+1+i), w (k+1+i)⟩) t))
      (fun b1 b2 hb => by simp only [fun i => hb (k+1+i) (by omega)]) (b := Function.update base k d)
      (fun i hi => Function.update_of_ne (by omega) _ _)]
    refine passesE_congr _ _ _ fun b' hb' => ?_
    have hbk : b' k = d := by rw [hb' k (by omega), Function.update_self]
    congr 1
    rw [List.range_succ_eq_map, List.map_cons, List.map_map]
    simp only [mhipsPasses, hpre, ok_bind, Nat.add_zero, hbk]
    have e : (List.range R).map ((fun i => (⟨b' (k + i), w (k + i)⟩ : PassDraws Ω)) ∘ Nat.succ) =
        (List.range R).map fun i => ⟨b' (k + 1 + i), w (k + 1 + i)⟩ := by
      refine List.map_congr_left fun i _ => ?_
      show (⟨b' (k + (i + 1)), w (k + (i + 1))⟩ : PassDraws Ω) = _
      rw [show k + (i + 1) = k + 1 + i by omega]
    rw [e]
    rfl

end

end PyPE

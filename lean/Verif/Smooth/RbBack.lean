import Verif.Smooth.RbPaths
import Verif.Smooth.Ffbsi

/-!
# C100: backward simulation for Rao-Blackwellised models

`perform_smoothing(M, 'full')` on the trajectory of a Rao-Blackwellised particle filter. The stored particles are arrays `(xi, z, P)`; `sample_smooth` turns
the picked ones into arrays `(xi, z)` with a sampled linear state.
-/

namespace PyPE
open Real Spec MeasureTheory ProbabilityTheory
open scoped ENNReal

variable {P R U Y V Ω S : Type}

/-! ### The model -/

/-- The stored filter step as the smoother reads it: the same arrays, rows being read through `filt`. -/
def Step.mapP (filt : P → R) (st : Step P) : Step R := ⟨⟨st.pa.part.map filt, st.pa.w, st.pa.num, st.pa.w_offset⟩, st.ancestors⟩

/-- The rows of the next step for `sample_smooth` (mlnlg.py:565-567): `future_trajs[0].pa.part[find]`. -/
def nextRows (fut : List (SStep R)) (find : Option (List ℕ)) : PyM (List R) := do
  let s ← getIdx fut 0
  match find with
  | none => .error .typeError
  | some find => fancy s.pa.part find

/-- `FFBSi.logp_xnext_full` (interfaces.py:348-378) and a `sample_smooth` that reads the next states of the trajectories, input and time (mlnlg.py:530-589):
`last` is what it does at the last step (`future_trajs is None`), `back` what it does otherwise. -/
def rbSmooth (logpXnext : List R → List R → Slot U → ℕ → PyM (List ℝ)) (last : List R → Ω → PyM (List R))
    (back : List R → List R → Slot U → ℕ → Ω → PyM (List R)) (rest : SmoothCallbacks R U Y V Ω) : SmoothCallbacks R U Y V Ω :=
  { ffbsi logpXnext rest with
    sampleSmooth := fun part _ _ fut find D cur ω =>
      match fut with
      | none => last part ω
      | some fut => do
        let nxt ← nextRows fut find
        let u ← getIdx D.u cur
        let t ← getIdx D.t cur
        back part nxt u t ω }

/-! ### Specification -/

/-- What the backward pass of a Rao-Blackwellised model does, in terms of the laws carried by the particles: `logp_xnext` is the log density of the next state
given the particle, `sample_smooth` draws the state from its law given the particle and the next state, and from the law of the particle at the end. `samp s` is the
row that holds the sampled state `s`. -/
structure Spec.RbBackward [MeasurableSpace S] [MeasurableSpace Ω] (filt : P → R) (samp : S → R)
    (logpXnext : List R → List R → Slot U → ℕ → PyM (List ℝ)) (last : List R → Ω → PyM (List R))
    (back : List R → List R → Slot U → ℕ → Ω → PyM (List R)) (ν : Measure Ω) (m : ℕ) (ok : P → Prop) (law : P → Measure S)
    (M : ℕ → Slot U → Kernel S S) (vol : Measure S) (lp : ℕ → Slot U → P → S → ℝ) (B : ℕ → Slot U → P → Kernel S S) : Prop where
  logp : ∀ (parts : List P) (next : List S) (u : Slot U) (k : ℕ), parts ≠ [] → (∀ p ∈ parts, ok p) → next.length = parts.length →
    logpXnext (parts.map filt) (next.map samp) u k = .ok (List.zipWith (lp k u) parts next)
  draw : ∀ (x : Fin m → P) (s : Fin m → S) (u : Slot U) (k : ℕ), (∀ i, ok (x i)) → ∃ X : Fin m → Ω → S,
    (∀ ω, back (List.ofFn fun i => filt (x i)) (List.ofFn fun i => samp (s i)) u k ω = .ok (List.ofFn fun i => samp (X i ω))) ∧
    ∀ i, Measurable (X i) ∧ ν.map (X i) = B k u (x i) (s i)
  last : ∀ x : Fin m → P, (∀ i, ok (x i)) → ∃ X : Fin m → Ω → S,
    (∀ ω, last (List.ofFn fun i => filt (x i)) ω = .ok (List.ofFn fun i => samp (X i ω))) ∧ ∀ i, Measurable (X i) ∧ ν.map (X i) = law (x i)
  bayes : ∀ k u p, ok p → ∀ g : S × S → ℝ≥0∞, Measurable g → ∫⁻ s, ∫⁻ s', g (s, s') ∂M k u s ∂law p =
    ∫⁻ s', ENNReal.ofReal (exp (lp k u p s')) * ∫⁻ s, g (s, s') ∂B k u p s' ∂vol
  meas_lp : ∀ k u p, Measurable (lp k u p)
  markov : ∀ k u p, IsMarkovKernel (B k u p)

/-- Expectation over independent draws of the backward steps `n-1, …, 0`: a sequence of uniforms and the draw of `sample_smooth`. -/
noncomputable def Spec.backRbE [MeasurableSpace Ω] (ν : Measure Ω) (a0 : ℕ → (ℕ → ℝ) × Ω) : ℕ → ((ℕ → (ℕ → ℝ) × Ω) → ℝ≥0∞) → ℝ≥0∞
  | 0, f => f a0
  | n + 1, f => ∫⁻ v, ∫⁻ ω, backRbE ν a0 n (fun a => f (Function.update a n (v, ω))) ∂ν ∂unifSeq

/-- The draws `d`, but with `r0` and `ω0` for the end particles and `a t` for backward step `t`. -/
def Spec.withRb (d : AllDraws Ω) (r0 : ℝ) (ω0 : Ω) (a : ℕ → (ℕ → ℝ) × Ω) : AllDraws Ω :=
  { d with bsi := ⟨r0, ω0, fun t => { d.bsi.step t with full := (a t).1, ω := (a t).2 }⟩ }

/-- Expectation of `f` of the result of `perform_smoothing`, over everything it draws. The model may read the data of the run (`st.u`, `st.y`, `st.t`). -/
noncomputable def Spec.smoothRbE [MeasurableSpace Ω] (ν : Measure Ω) (filt : P → R) (C : SData U Y → SmoothCallbacks R U Y V Ω) (M : ℕ) (method : String)
    (user : Option SOpts) (d : AllDraws Ω) (fuel : ℕ) (f : PyM (Option (List (SStep R))) → ℝ≥0∞) (s : PT P U Y) : ℝ≥0∞ :=
  ∫⁻ r0, ∫⁻ ω0, backRbE ν (fun t => ((d.bsi.step t).full, (d.bsi.step t).ω)) (s.traj.length - 1) (fun a =>
    f (performSmoothing (C ⟨s.uvec, s.yvec, s.tvec⟩) (s.traj.map (Step.mapP filt)) M ⟨s.uvec, s.yvec, s.tvec⟩ method user (withRb d r0 ω0 a) fuel)) ∂ν ∂unif

/-- After `post_smoothing` the function `ψ` of the rows of trajectory `j` is `φ` of the states sampled for it. `post_smoothing` may raise or change rows only
in ways `ψ` does not see. `K` is the number of time steps, `m` the number of trajectories. -/
def Spec.ReadsPaths (hook : Option (List (SStep R) → PyM (List (SStep R)))) (samp : S → R) (m K : ℕ) (ψ : List R → ℝ≥0∞) (φ : List S → ℝ≥0∞) : Prop :=
  ∀ (traj : List (SStep R)) (σ : ℕ → ℕ → S), traj.length = K →
    (∀ (t : ℕ) st, traj[t]? = some st → st.pa.part = (List.range m).map fun j => samp (σ j t)) →
    ∃ out, applyHook hook traj = .ok out ∧ ∀ j < m, ψ (pathOf out j) = φ ((List.range K).map (σ j))

/-- The data a smoother sees after the calls of `qs`: inputs, measurements (the first is `y0`, `None` if the run starts with `forward`) and time stamps.
`T` is the preallocated length (`None`: grow on demand). -/
structure Spec.RunData (T : Option ℕ) (y0 : Slot Y) (qs : List (Slot U × Slot Y)) (D : SData U Y) : Prop where
  u : ∀ (t : ℕ) q, qs[t]? = some q → D.u[t]? = some q.1
  y : ∀ (t : ℕ) q, qs[t]? = some q → D.y[t + 1]? = some q.2
  y0 : D.y[0]? = some y0
  t : ∀ t, t ≤ qs.length → D.t[t]? = some t
  ylen : D.y.length ≤ max (T.getD 0) (qs.length + 1)
  tlen : D.t.length ≤ max (T.getD 0) (qs.length + 1)

/-! ### The backward loop -/

theorem Step.mapP_good {N : ℕ} {st : Step P} (h : GoodStep N st) (filt : P → R) : GoodStep N (st.mapP filt) :=
  ⟨⟨by simpa [Step.mapP] using h.pa.part_len, h.pa.w_len, h.pa.num_eq⟩, h.anc_len, h.anc_lt⟩

theorem range_map_ofFn {α : Type} (M : ℕ) (f : ℕ → α) : (List.range M).map f = List.ofFn fun i : Fin M => f i := by
  apply List.ext_getElem <;> simp

theorem partAt_mem {p0 : P} {pt : List (Step P)} {n i : ℕ} {st : Step P} (hst : pt[n]? = some st) (hi : i < st.pa.part.length) :
    st.pa.part[i]? = some (partAt p0 pt n i) := by
  simp [partAt, hst, List.getD_eq_getElem?_getD, hi]

variable [MeasurableSpace S] [MeasurableSpace Ω] {filt : P → R} {samp : S → R} {logpXnext : List R → List R → Slot U → ℕ → PyM (List ℝ)}
  {last : List R → Ω → PyM (List R)} {back : List R → List R → Slot U → ℕ → Ω → PyM (List R)} {ν : Measure Ω} {m : ℕ} {ok : P → Prop}
  {law : P → Measure S} {M : ℕ → Slot U → Kernel S S} {vol : Measure S} {lp : ℕ → Slot U → P → S → ℝ} {B : ℕ → Slot U → P → Kernel S S}

theorem rbSmooth_density (hb : Spec.RbBackward filt samp logpXnext last back ν m ok law M vol lp B) (rest : SmoothCallbacks R U Y V Ω) (p0 : P)
    {pt : List (Step P)} {n N : ℕ} (hN : 0 < N) {st : Step P} (hst : pt[n]? = some st) (hs : GoodStep N st) (hok : ∀ p ∈ st.pa.part, ok p)
    {fut : List (SStep R)} {σ : ℕ → ℕ → S} (hfut : FutRep fut m (n+1) fun j t => samp (σ j t)) (hne : fut ≠ []) {D : SData U Y} {u : Slot U}
    (hu : D.u[n]? = some u) (ht : D.t[n]? = some n) (ptraj : List (SStep R)) (pind : List ℕ) :
    FullDensity (rbSmooth logpXnext last back rest) (st.mapP filt).pa ptraj pind fut D n N m fun i j => lp n u (partAt p0 pt n i) (σ j (n+1)) := by
  intro j hj
  obtain ⟨f0, fs, rfl⟩ := List.exists_cons_of_ne_nil hne
  have hf0 := hfut 0 f0 rfl
  rw [add_zero] at hf0
  have hnext : fancy f0.pa.part (List.replicate N j) = .ok ((List.replicate N (σ j (n+1))).map samp) := by
    rw [fancy_spec]
    refine ⟨by simp, fun k i hi => ?_⟩
    have hk : k < N := by have := lt_of_getElem?_some hi; simpa using this
    rw [List.getElem?_replicate, if_pos hk] at hi
    obtain rfl := Option.some.inj hi
    rw [hf0]
    simp [hj, hk]
  simp only [rbSmooth, ffbsi, show getIdx (f0 :: fs) 0 = .ok f0 from rfl, ok_bind, hnext, getIdx_ok.mpr hu, getIdx_ok.mpr ht, Step.mapP]
  have hpl := hs.pa.part_len
  rw [hb.logp _ _ _ _ (by intro h; rw [h] at hpl; simp at hpl; omega) hok (by simp [hpl])]
  congr 1
  apply List.ext_getElem
  · simp [hpl]
  · intro i h1 h2
    simp only [List.length_zipWith, List.length_replicate] at h1
    simp only [List.getElem_zipWith, List.getElem_replicate, List.getElem_range]
    congr 1
    have := partAt_mem (p0 := p0) hst (i := i) (by omega)
    rw [List.getElem?_eq_getElem (by omega)] at this
    exact Option.some.inj this

/-- The backward loop computes the operator `rop`. -/
theorem rbLoop_paths (hb : Spec.RbBackward filt samp logpXnext last back ν m ok law M vol lp B) (rest : SmoothCallbacks R U Y V Ω)
    {N : ℕ} (hN : 0 < N) (hm : 0 < m) (p0 : P) {φ : List S → ℝ≥0∞} (hφ : ∀ n, Measurable fun x : Fin n → S => φ (List.ofFn x))
    {pt : List (Step P)} {K : ℕ} (hK : pt.length = K + 1) (hgs : ∀ st ∈ pt, GoodStep N st) (hoks : ∀ st ∈ pt, ∀ p ∈ st.pa.part, ok p)
    {D : SData U Y} {us : List (Slot U)} (hu : ∀ n, n < K → D.u[n]? = some (us.getD n .none)) (ht : ∀ n, n < K → D.t[n]? = some n) (fuel : ℕ)
    {fin : PyM (Option (List (SStep R))) → ℝ≥0∞} (hfin : ∀ (fut : List (SStep R)) (σ : ℕ → ℕ → S), fut.length = K + 1 →
      FutRep fut m 0 (fun j t => samp (σ j t)) → fin (.ok (some fut)) =
        ENNReal.ofReal (1 / m) * ∑ j ∈ Finset.range m, φ ((List.range (K+1)).map (σ j)))
    (a0 : ℕ → (ℕ → ℝ) × Ω) (n : ℕ) (hn : n ≤ K)
    (anc : List ℕ) (fut : List (SStep R)) (hfl : n + fut.length = K + 1) (σ : ℕ → ℕ → S) (hfut : FutRep fut m n fun j t => samp (σ j t))
    (g : (ℕ → (ℕ → ℝ) × Ω) → ℕ → BsiDraws Ω) (hg : ∀ a t, t < n → (g a t).full = (a t).1 ∧ (g a t).ω = (a t).2) :
    backRbE ν a0 n (fun a => fin (bsiLoop (rbSmooth logpXnext last back rest) .full (pt.map (Step.mapP filt)) m D (g a) fuel n anc fut)) =
      ENNReal.ofReal (1 / m) * ∑ j ∈ Finset.range m, rop lp B N p0 pt us n (fun s => φ ((List.range (K+1)).map s)) (σ j) := by
  have hΓ : Measurable fun s : ℕ → S => φ ((List.range (K+1)).map s) := by
    simp only [range_map_ofFn]
    exact (hφ (K+1)).comp (measurable_pi_lambda _ fun i => measurable_pi_apply _)
  have hBs : ∀ k u p, IsSFiniteKernel (B k u p) := fun k u p => by haveI := hb.markov k u p; infer_instance
  induction n generalizing anc fut σ g with
  | zero =>
    simp only [backRbE, bsiLoop, rop]
    exact hfin fut σ (by omega) hfut
  | succ n ih =>
    have hn' : n < pt.length := by omega
    have hst : pt[n]? = some pt[n] := List.getElem?_eq_getElem hn'
    have hmem : pt[n] ∈ pt := List.getElem_mem _
    have hs := hgs pt[n] hmem
    have hso := hoks pt[n] hmem
    have hsm := Step.mapP_good hs filt
    have hstm : (pt.map (Step.mapP filt))[n]? = some (pt[n].mapP filt) := by rw [List.getElem?_map, hst]; rfl
    have hne : fut ≠ [] := by intro h; rw [h] at hfl; simp at hfl; omega
    obtain ⟨f0, fs, rfl⟩ := List.exists_cons_of_ne_nil hne
    have hf0 : f0.pa.part = List.ofFn fun i : Fin m => samp (σ i (n+1)) := by
      have := hfut 0 f0 rfl
      rw [this, range_map_ofFn, add_zero]
    set L : ℕ → ℕ → ℝ := fun i j => lp n (us.getD n .none) (partAt p0 pt n i) (σ j (n+1)) with hL
    have hden := rbSmooth_density hb rest p0 hN hst hs hso hfut hne (hu n (by omega)) (ht n (by omega))
      (((pt.map (Step.mapP filt)).take n).map Step.toS) pt[n].ancestors
    have hwl := hs.pa.w_len
    have hbl : ∀ m, (backWeights pt[n].pa.w L m).length = N := fun m => by rw [backWeights_length, hwl]
    have hW := fun m => backWeights_weights (hs.pa.w_ne hN) L m
    have hrm := rop_measurable (N := N) (p0 := p0) hb.meas_lp hBs pt us n hΓ
    set c : ℕ → ℕ → ℝ≥0∞ := fun j i => ∫⁻ a, rop lp B N p0 pt us n (fun s => φ ((List.range (K+1)).map s)) (Function.update (σ j) n a)
      ∂B n (us.getD n .none) (partAt p0 pt n i) (σ j (n+1)) with hc
    have key : ∀ v : ℕ → ℝ, (∀ k, 0 < v k ∧ v k < 1) →
        ∫⁻ ω, backRbE ν a0 n (fun a => fin (bsiLoop (rbSmooth logpXnext last back rest) .full (pt.map (Step.mapP filt)) m D
          (g (Function.update a n (v, ω))) fuel (n+1) anc (f0 :: fs))) ∂ν =
        ENNReal.ofReal (1 / m) * ∑ j ∈ Finset.range m,
          ∑ i ∈ Finset.range (backWeights pt[n].pa.w L j).length, ENNReal.ofReal (drawCount (backWeights pt[n].pa.w L j) 1 i (v j)) * c j i := by
      intro v hv
      obtain ⟨ind, h1, h2, h3, h4⟩ := bsiFull_all hsm.pa hN hden (find := List.range m) (by simp) (rs := v) fun k => ⟨(hv k).1.le, (hv k).2⟩
      rw [List.length_range] at h2
      have hil : ∀ i : Fin m, ind.getD i 0 < N := fun i => by
        rw [List.getD_eq_getElem?_getD, List.getElem?_eq_getElem (by omega), Option.getD_some]
        exact h3 _ (List.getElem_mem _)
      have hpick : ∀ i : Fin m, ok (partAt p0 pt n (ind.getD i 0)) := fun i =>
        hso _ (List.mem_of_getElem? (partAt_mem hst (by rw [hs.pa.part_len]; exact hil i)))
      obtain ⟨X, hX1, hX2⟩ := hb.draw (fun i => partAt p0 pt n (ind.getD i 0)) (fun i => σ i (n+1)) (us.getD n .none) n hpick
      obtain ⟨anc', ha⟩ := fancy_ok (a := pt[n].ancestors) (ind := ind) (by rw [hs.anc_len]; exact h3)
      have hpart : fancy (pt[n].pa.part.map filt) ind = .ok (List.ofFn fun i : Fin m => filt (partAt p0 pt n (ind.getD i 0))) := by
        rw [fancy_spec]
        refine ⟨by simp [h2], fun k i hi => ?_⟩
        have hk : k < m := by rw [← h2]; exact lt_of_getElem?_some hi
        have hiN : i < N := h3 _ (List.mem_of_getElem? hi)
        rw [List.getElem?_map, partAt_mem (p0 := p0) hst (by rw [hs.pa.part_len]; exact hiN)]
        simp [hk, List.getD_eq_getElem?_getD, hi, hs.pa.part_len, hiN]
      have hnx : nextRows (f0 :: fs) (some (List.range m)) = .ok (List.ofFn fun i : Fin m => samp (σ i (n+1))) := by
        show fancy f0.pa.part (List.range m) = _
        rw [hf0]
        have := fancy_range (a := List.ofFn fun i : Fin m => samp (σ i (n+1)))
        rwa [List.length_ofFn] at this
      have hloop : ∀ a ω, bsiLoop (rbSmooth logpXnext last back rest) .full (pt.map (Step.mapP filt)) m D (g (Function.update a n (v, ω))) fuel (n+1) anc (f0 :: fs) =
          bsiLoop (rbSmooth logpXnext last back rest) .full (pt.map (Step.mapP filt)) m D (g (Function.update a n (v, ω))) fuel n anc'
            (⟨⟨List.ofFn fun i => samp (X i ω), List.replicate m (-Real.log m), m, 0⟩, some (List.range m)⟩ :: f0 :: fs) := by
        intro a ω
        have hgn := hg (Function.update a n (v, ω)) n (by omega)
        rw [Function.update_self] at hgn
        have hsmp : (rbSmooth logpXnext last back rest).sampleSmooth (List.ofFn fun i : Fin m => filt (partAt p0 pt n (ind.getD i 0)))
            (some (((pt.map (Step.mapP filt)).take n).map Step.toS)) anc' (some (f0 :: fs)) (some (List.range m)) D n ω =
            .ok (List.ofFn fun i => samp (X i ω)) := by
          simp only [rbSmooth, hnx, ok_bind, getIdx_ok.mpr (hu n (by omega)), getIdx_ok.mpr (ht n (by omega)), hX1]
        have hpa : PA.new (List.ofFn fun i => samp (X i ω)) none = .ok ⟨List.ofFn fun i => samp (X i ω), List.replicate m (-Real.log m), m, 0⟩ := by
          obtain ⟨pa, q1, q2, q3, q4, q5⟩ := PA.new_none_wf (part := List.ofFn fun i => samp (X i ω)) (N := m) (by simp) hm
          rw [q1]
          obtain ⟨w1, w2, w3, w4⟩ := pa
          have q6 := q2.num_eq
          simp only at q3 q4 q5 q6
          subst q3 q4 q5 q6
          rfl
        rw [bsiLoop]
        simp only [getIdx_ok.mpr hstm, ok_bind, bsiPick, hgn.1, hgn.2]
        have h1' : bsiFull (rbSmooth logpXnext last back rest) (pt[n].mapP filt).pa (((pt.map (Step.mapP filt)).take n).map Step.toS)
          (pt[n].mapP filt).ancestors (f0 :: fs) (List.range m) D n v = .ok ind := h1
        have ha' : fancy (pt[n].mapP filt).ancestors ind = .ok anc' := ha
        have hp' : fancy (pt[n].mapP filt).pa.part ind = .ok (List.ofFn fun i : Fin m => filt (partAt p0 pt n (ind.getD i 0))) := hpart
        simp only [h1', ok_bind, pure_eq_ok, ha', hp', hsmp, hpa]
      simp only [hloop]
      have hih : ∀ ω, _ := fun ω => ih (by omega) anc' (⟨⟨List.ofFn fun i => samp (X i ω), List.replicate m (-Real.log m), m, 0⟩, some (List.range m)⟩ :: f0 :: fs)
        (by simp only [List.length_cons] at hfl ⊢; omega)
        (fun j => if h : j < m then Function.update (σ j) n (X ⟨j, h⟩ ω) else σ j) ?_ (fun a => g (Function.update a n (v, ω))) ?_
      · simp only [hih]
        rw [lintegral_const_mul' _ _ ENNReal.ofReal_ne_top]
        congr 1
        have hmeas : ∀ i : Fin m, Measurable fun ω => rop lp B N p0 pt us n (fun s => φ ((List.range (K+1)).map s)) (Function.update (σ i) n (X i ω)) :=
          fun i => hrm.comp (((measurable_updateAt n).comp measurable_prodMk_left).comp (hX2 i).1)
        rw [Finset.sum_range]
        simp only [Fin.is_lt, dite_true, Finset.sum_range, Fin.eta]
        rw [lintegral_finset_sum _ fun i _ => hmeas i]
        refine Finset.sum_congr rfl fun i _ => ?_
        rw [← Finset.sum_range (fun l => ENNReal.ofReal (drawCount (backWeights pt[n].pa.w L i) 1 l (v i)) * c i l)]
        obtain ⟨l, q1, q2⟩ := h4 i i (List.getElem?_range i.2)
        have hq2 : sample (backWeights pt[n].pa.w L i) 1 (v i) = .ok [l] := q2
        rw [drawCount_single hq2 (by rw [hbl]; exact h3 l (List.mem_of_getElem? q1))]
        have hl : ind.getD i 0 = l := by rw [List.getD_eq_getElem?_getD, q1]; rfl
        have := (hX2 i).2
        rw [hl] at this
        simp only [hc]
        rw [← this]
        exact (lintegral_map (f := fun a => rop lp B N p0 pt us n (fun s => φ ((List.range (K+1)).map s)) (Function.update (σ i) n a))
          (hrm.comp ((measurable_updateAt n).comp measurable_prodMk_left)) (hX2 i).1).symm
      · intro j s' hj
        rcases j with _ | j
        · obtain rfl := Option.some.inj hj
          simp only [range_map_ofFn, Fin.is_lt, dite_true, add_zero, Function.update_self]
        · rw [hfut j s' hj]
          refine List.map_congr_left fun i _ => ?_
          have : n + 1 + j = n + (j + 1) := by omega
          rw [this]
          simp only
          congr 1
          split
          · exact (Function.update_of_ne (by omega) _ _).symm
          · rfl
      · intro a t htn
        have := hg (Function.update a n (v, ω)) t (by omega)
        rwa [Function.update_of_ne (by omega)] at this
    simp only [backRbE]
    rw [lintegral_congr_ae (g := fun v => ENNReal.ofReal (1 / m) * ∑ j ∈ Finset.range m,
          ∑ i ∈ Finset.range (backWeights pt[n].pa.w L j).length, ENNReal.ofReal (drawCount (backWeights pt[n].pa.w L j) 1 i (v j)) * c j i)
        (by filter_upwards [unifSeq_ae_pos] with v hv using key v hv),
      lintegral_const_mul' _ _ ENNReal.ofReal_ne_top, lintegral_finset_sum' _ fun j _ => (lintegral_pick (hW j) (c j) j).1]
    congr 1
    refine Finset.sum_congr rfl fun j _ => ?_
    rw [(lintegral_pick (hW j) (c j) j).2, hbl, Finset.sum_range]
    simp only [rop]
    refine Finset.sum_congr rfl fun i _ => ?_
    congr 2
    have hwo : pt[n].pa.w = List.ofFn fun i : Fin N => wAt pt n i := by
      apply List.ext_getElem
      · simp [hwl]
      · intro i h1 h2
        simp only [List.getElem_ofFn, wAt, hst, Option.map_some, Option.getD_some, List.getD_eq_getElem?_getD, List.getElem?_eq_getElem h1]
    rw [hwo, prob_backWeights]
    rfl

/-- `perform_smoothing(m, 'full')` computes the operator `rop`. -/
theorem smoothRbE_full (hb : Spec.RbBackward filt samp logpXnext last back ν m ok law M vol lp B) {rest : SData U Y → SmoothCallbacks R U Y V Ω}
    {N : ℕ} (hN : 0 < N) (hm : 0 < m) (user : Option SOpts) (d : AllDraws Ω) (fuel : ℕ) (p0 : P) (s0 : S)
    {φ : List S → ℝ≥0∞} (hφ : ∀ n, Measurable fun x : Fin n → S => φ (List.ofFn x)) {ψ : List R → ℝ≥0∞}
    {s : PT P U Y} {K : ℕ} (hps : Spec.ReadsPaths (rest ⟨s.uvec, s.yvec, s.tvec⟩).postSmoothing samp m (K+1) ψ φ)
    (hK : s.traj.length = K + 1) (hgs : ∀ st ∈ s.traj, GoodStep N st) (hoks : ∀ st ∈ s.traj, ∀ p ∈ st.pa.part, ok p)
    {lst : Step P} (hlast : s.traj.getLast? = some lst) {w : Fin N → ℝ}
    (hw : lst.pa.w = List.ofFn w) {us : List (Slot U)} {ys : List (Slot Y)} (hrep : s.Rep ⟨us.map some, ys⟩) :
    smoothRbE ν filt (fun D => rbSmooth logpXnext last back (rest D)) m "full" user d fuel (pathMean ψ m) s =
      ∑ i, ENNReal.ofReal (exp (w i) / ∑ j, exp (w j)) * ropE law lp B N p0 s0 s.traj us (fun s => φ ((List.range (K+1)).map s)) i := by
  have hysl : ys.length = K + 1 := by rw [← hK]; exact hrep.len.symm
  have husl : us.length = K := by
    have := hrep.us_len; simp only [List.length_map] at this; omega
  have hlk := getLast_index hK hlast
  have hmem := List.mem_of_getElem? hlk
  have hs := hgs lst hmem
  have hsm := Step.mapP_good hs filt
  have hu : ∀ n, n < K → s.uvec[n]? = some (us.getD n .none) := by
    intro n hn
    refine hrep.us n _ ?_
    simp only [List.getElem?_map, List.getElem?_eq_getElem (show n < us.length by omega), Option.map_some, List.getD_eq_getElem?_getD,
      Option.getD_some]
  have ht : ∀ n, n < K → s.tvec[n]? = some n := fun n hn => hrep.ts n (by show n < ys.length; omega)
  have hΓ : Measurable fun s : ℕ → S => φ ((List.range (K+1)).map s) := by
    simp only [range_map_ofFn]
    exact (hφ (K+1)).comp (measurable_pi_lambda _ fun i => measurable_pi_apply _)
  have hBs : ∀ k u p, IsSFiniteKernel (B k u p) := fun k u p => by haveI := hb.markov k u p; infer_instance
  have hrm : Measurable fun a => rop lp B N p0 s.traj us K (fun s => φ ((List.range (K+1)).map s)) (Function.update (fun _ => s0) K a) :=
    (rop_measurable hb.meas_lp hBs s.traj us K hΓ).comp ((measurable_updateAt K).comp measurable_prodMk_left)
  set D : SData U Y := ⟨s.uvec, s.yvec, s.tvec⟩ with hD
  set C := rbSmooth logpXnext last back (rest D) with hC
  set fin : PyM (Option (List (SStep R))) → ℝ≥0∞ := fun r =>
    pathMean ψ m (do match ← r with
      | none => return none
      | some t => do
        let t ← applyHook (rest D).postSmoothing t
        return some t) with hfin
  have hfin' : ∀ (fut : List (SStep R)) (σ : ℕ → ℕ → S), fut.length = K + 1 →
      FutRep fut m 0 (fun j t => samp (σ j t)) → fin (.ok (some fut)) =
        ENNReal.ofReal (1 / m) * ∑ j ∈ Finset.range m, φ ((List.range (K+1)).map (σ j)) := by
    intro fut σ hl hrp
    obtain ⟨out, h1, h2⟩ := hps fut σ hl (fun t st hst => by rw [hrp t st hst]; simp only [zero_add])
    simp only [hfin, ok_bind, h1, pure_eq_ok, pathMean]
    congr 1
    exact Finset.sum_congr rfl fun j hj => h2 j (Finset.mem_range.mp hj)
  unfold smoothRbE
  refine lintegral_ends hN hm w (fun i => ∫⁻ a, rop lp B N p0 s.traj us K (fun s => φ ((List.range (K+1)).map s))
    (Function.update (fun _ => s0) K a) ∂law (partAt p0 s.traj K i)) _ ?_ |>.trans ?_
  · intro r ind h0 h1 hind hindl
    obtain ⟨ind', f1, f2, f3, f4⟩ := drawEnd_ok hsm hN m (r := r) ⟨h0.le, h1⟩
    rw [show (lst.mapP filt).pa.w = List.ofFn w from hw, hind] at f2
    obtain rfl := Except.ok.inj f2
    obtain ⟨anc, ha⟩ := fancy_ok (a := lst.ancestors) (ind := ind) (by rw [hs.anc_len]; exact f4)
    have hil : ∀ i : Fin m, ind.getD i 0 < N := fun i => by
      rw [List.getD_eq_getElem?_getD, List.getElem?_eq_getElem (by omega), Option.getD_some]
      exact f4 _ (List.getElem_mem _)
    have hpick : ∀ i : Fin m, ok (partAt p0 s.traj K (ind.getD i 0)) := fun i =>
      hoks lst hmem _ (List.mem_of_getElem? (partAt_mem hlk (by rw [hs.pa.part_len]; exact hil i)))
    obtain ⟨X, hX1, hX2⟩ := hb.last (fun i => partAt p0 s.traj K (ind.getD i 0)) hpick
    have hpart : fancy (lst.pa.part.map filt) ind = .ok (List.ofFn fun i : Fin m => filt (partAt p0 s.traj K (ind.getD i 0))) := by
      rw [fancy_spec]
      refine ⟨by simp [hindl], fun k i hi => ?_⟩
      have hk : k < m := by rw [← hindl]; exact lt_of_getElem?_some hi
      have hiN : i < N := f4 _ (List.mem_of_getElem? hi)
      rw [List.getElem?_map, partAt_mem (p0 := p0) hlk (by rw [hs.pa.part_len]; exact hiN)]
      simp [hk, List.getD_eq_getElem?_getD, hi, hs.pa.part_len, hiN]
    have hpa : ∀ ω, PA.new (List.ofFn fun i => samp (X i ω)) none = .ok ⟨List.ofFn fun i => samp (X i ω), List.replicate m (-Real.log m), m, 0⟩ := by
      intro ω
      obtain ⟨pa, q1, q2, q3, q4, q5⟩ := PA.new_none_wf (part := List.ofFn fun i => samp (X i ω)) (N := m) (by simp) hm
      rw [q1]
      obtain ⟨w1, w2, w3, w4⟩ := pa
      have q6 := q2.num_eq
      simp only at q3 q4 q5 q6
      subst q3 q4 q5 q6
      rfl
    have hlm : (s.traj.map (Step.mapP filt)).getLast? = some (lst.mapP filt) := by rw [List.getLast?_map, hlast]; rfl
    have hp : ∀ ω a, pathMean ψ m (performSmoothing C (s.traj.map (Step.mapP filt)) m D "full" user (withRb d r ω a) fuel) =
        fin (bsiLoop C .full (s.traj.map (Step.mapP filt)) m D (withRb d r ω a).bsi.step fuel K anc
          [⟨⟨List.ofFn fun i => samp (X i ω), List.replicate m (-Real.log m), m, 0⟩, some (List.range m)⟩]) := by
      intro ω a
      have hsmp : ∀ pt, C.sampleSmooth (List.ofFn fun i : Fin m => filt (partAt p0 s.traj K (ind.getD i 0)))
          pt anc none none D K (withRb d r ω a).bsi.ω0 = .ok (List.ofFn fun i => samp (X i ω)) := fun pt => hX1 ω
      have hhook : C.postSmoothing = (rest D).postSmoothing := rfl
      have ha' : fancy (lst.mapP filt).ancestors ind = .ok anc := ha
      have hp' : fancy (lst.mapP filt).pa.part ind = .ok (List.ofFn fun i : Fin m => filt (partAt p0 s.traj K (ind.getD i 0))) := hpart
      rw [C26_full]
      simp only [smoothTrajectory, true_or, if_true, bsiOptions, performBsi, getLast_ok.mpr hlm, ok_bind,
        show drawEnd (lst.mapP filt) m (withRb d r ω a).bsi.r0 = .ok ind from f1, ha', hp', List.length_map, hK, Nat.add_sub_cancel, hsmp, hpa, hhook, hfin]
      rfl
    show ∫⁻ ω0, backRbE ν _ (s.traj.length - 1) (fun a => pathMean ψ m (performSmoothing C (s.traj.map (Step.mapP filt)) m D "full" user (withRb d r ω0 a) fuel)) ∂ν = _
    simp only [hp]
    rw [hK, Nat.add_sub_cancel]
    have hl : ∀ ω, _ := fun ω => rbLoop_paths hb (rest D) hN hm p0 hφ hK hgs hoks (D := D) (us := us) hu ht fuel hfin' (fun t => ((d.bsi.step t).full, (d.bsi.step t).ω)) K le_rfl anc
      [⟨⟨List.ofFn fun i => samp (X i ω), List.replicate m (-Real.log m), m, 0⟩, some (List.range m)⟩] rfl
      (fun j => if h : j < m then Function.update (fun _ => s0) K (X ⟨j, h⟩ ω) else fun _ => s0) ?_ (fun a => (withRb d r ω a).bsi.step)
      (fun _ _ _ => ⟨rfl, rfl⟩)
    · simp only [← hC] at hl
      simp only [hl]
      rw [lintegral_const_mul' _ _ ENNReal.ofReal_ne_top]
      congr 1
      simp only [Finset.sum_range, Fin.is_lt, dite_true, Fin.eta]
      have hmX : ∀ i : Fin m, Measurable fun ω => rop lp B N p0 s.traj us K (fun s => φ ((List.range (K+1)).map s)) (Function.update (fun _ => s0) K (X i ω)) :=
        fun i => hrm.comp (hX2 i).1
      rw [lintegral_finset_sum _ fun i _ => hmX i]
      refine Finset.sum_congr rfl fun i _ => ?_
      rw [← (hX2 i).2]
      exact (lintegral_map hrm (hX2 i).1).symm
    · intro j s' hj
      rcases j with _ | j
      · obtain rfl := Option.some.inj hj
        simp only [range_map_ofFn, Fin.is_lt, dite_true, add_zero, Function.update_self]
      · simp at hj
  · refine Finset.sum_congr rfl fun i _ => ?_
    unfold ropE
    rw [hK, Nat.add_sub_cancel]

/-- **C100** Run the Rao-Blackwellised bootstrap filter with `N > 0` particles and any resampling threshold, then call `perform_smoothing(m, 'full')`. Over all
random draws of filter and smoother, the likelihood estimate times the average of a non-negative function `φ` of the whole state path over the `m` returned trajectories
has expectation `E[Π_t p(y_t | s_t) φ(s_0, …, s_T)]` under the full model, for histories that start with `measure(y0)` and ones that start with `forward`. -/
theorem C100_unbiased {V' Ω' : Type} [MeasurableSpace Ω'] {Kf : MarkovRb P U Y V' Ω'} {νf : Measure Ω'} [IsProbabilityMeasure νf]
    {N : ℕ} (hN : 0 < N) (hlaw : ∀ p, ok p → IsProbabilityMeasure (law p)) {μ0 : Measure S} (hM : ∀ k u, IsMarkovKernel (M k u)) {ℓ : ℕ → Slot Y → S → ℝ}
    {good : Slot Y → Prop} (hK : Spec.RbSamples Kf good νf N ok law μ0 M ℓ) (res : ℝ)
    (hb : Spec.RbBackward filt samp logpXnext last back ν m ok law M vol lp B) {rest : SData U Y → SmoothCallbacks R U Y V Ω} (hm : 0 < m)
    (user : Option SOpts) (d : AllDraws Ω) (fuel : ℕ) {φ : List S → ℝ≥0∞} (hφ : ∀ n, Measurable fun x : Fin n → S => φ (List.ofFn x)) {ψ : List R → ℝ≥0∞}
    {T : Option ℕ} {s0 : PT P U Y} (h0 : PT.init N T 0 = .ok s0) (y0 : Slot Y) (qs : List (Slot U × Slot Y)) (hqs : ∀ q ∈ qs, good q.2)
    (hps : ∀ D, Spec.RunData T y0 qs D → Spec.ReadsPaths (rest D).postSmoothing samp m (qs.length + 1) ψ φ) :
    (good y0 → ∫⁻ ω, stepsE νf qs (fun ds =>
        runWeighted (smoothRbE ν filt (fun D => rbSmooth logpXnext last back (rest D)) m "full" user d fuel (pathMean ψ m))
          (s0.run (rbfOps Kf res) (history (some (y0, ω)) ds))) ∂νf = ∫⁻ s, ENNReal.ofReal (exp (ℓ 0 y0 s)) * pathsE M ℓ φ 0 qs [] s ∂μ0) ∧
    (y0 = .none → qs ≠ [] → stepsE νf qs (fun ds =>
        runWeighted (smoothRbE ν filt (fun D => rbSmooth logpXnext last back (rest D)) m "full" user d fuel (pathMean ψ m))
          (s0.run (rbfOps Kf res) (history none ds))) = ∫⁻ s, pathsE M ℓ φ 0 qs [] s ∂μ0) := by
  obtain ⟨X, hc, hX⟩ := hK.create
  haveI : Nonempty Ω' := nonempty_of_isProbabilityMeasure νf
  set p0 : P := X ⟨0, hN⟩ (Classical.arbitrary Ω') with hp0
  haveI := hlaw p0 ((hX _).1 _)
  haveI : Nonempty S := nonempty_of_isProbabilityMeasure (law p0)
  set s1 : S := Classical.arbitrary S
  have hpm : ∀ qs, Measurable fun s => pathsE M ℓ φ 0 qs [] s := by
    intro qs
    have := (pathG_measurable hM hK.meas hφ 0 qs).comp ((measurable_updateAt (P := S) 0).comp (measurable_prodMk_left (x := fun _ => s1)))
    have e : (fun s => pathsE M ℓ φ 0 qs [] s) = pathG M ℓ φ 0 qs ∘ (fun z : (ℕ → S) × S => Function.update z.1 0 z.2) ∘ Prod.mk (fun _ => s1) := by
      funext s
      simp [pathG]
    rw [e]
    exact this
  have hlm : ∀ y qs, Measurable fun s => ENNReal.ofReal (exp (ℓ 0 y s)) * pathsE M ℓ φ 0 qs [] s := fun y qs =>
    (measurable_exp.comp (hK.meas 0 y)).ennreal_ofReal.mul (hpm qs)
  have hrun := run_history (first := fun y => y = y0)
    (H := smoothRbE ν filt (fun D => rbSmooth logpXnext last back (rest D)) m "full" user d fuel (pathMean ψ m)) hN (rop_histStep (p0 := p0) hN hlaw hM hK res hφ hb.meas_lp hb.markov hb.bayes s1)
    (V1 := fun qs p => ∫⁻ s, pathsE M ℓ φ 0 qs [] s ∂law p)
    (W0 := fun y qs p => ∫⁻ s, ENNReal.ofReal (exp (ℓ 0 y s)) * pathsE M ℓ φ 0 qs [] s ∂law p) ?_
    (fun y qs i _ => (hX i).2 _ (hlm y qs)) (fun qs i => (hX i).2 _ (hpm qs)) (fun i ω => (hX i).1 ω) hc rfl ?_ h0 qs hqs ?_
  · exact ⟨fun h => hrun.1 y0 h rfl, fun h => hrun.2 h.symm⟩
  · intro st x hx _ qs i
    unfold ropE
    simp only [List.length_singleton, Nat.sub_self, rop]
    rw [partAt_eq p0 (tr := [st]) (st := st) rfl hx i]
    refine lintegral_congr fun s => ?_
    simp [pathG]
  · intro tr anc pa x uv yv tv y hgy hok hx hw hy ht
    obtain ⟨x', l, e1, e2⟩ := hK.measure x y 0 hgy hok
    obtain ⟨pa', w', f1, f2, f3, fn, f4⟩ := weightUpdate_offset (pa := { pa with part := List.ofFn x' }) hN hw l
    refine ⟨pa', x', w', ?_, f2, fun i => (e2 i).1, f3, fn, fun i => ⟨l i, f4 i, fun qs => RbSamples.bayes (hK.meas 0 y) (e2 i).2 (hpm qs)⟩⟩
    show rbfMeasure Kf pa yv tv 0 = _
    unfold rbfMeasure
    simp only [hx, getLast_take_succ hy, getLast_take_succ ht, ok_bind, e1, f1]
  · intro s us ys lst x w hrep hT hus hys' hk hgs hoks hlast hx hw
    obtain ⟨y1, h1, hys⟩ := hys'
    replace h1 : y1 = y0 := h1
    subst h1
    have hD : Spec.RunData T y1 qs ⟨s.uvec, s.yvec, s.tvec⟩ := by
      have hyl : ∀ (i : ℕ) (y : Slot Y), ys[i]? = some y → s.yvec[i]? = some y := fun i y hi => by
        rw [hrep.ys i (lt_of_getElem?_some hi)]; exact hi
      refine ⟨fun t q hq => hrep.us t _ (by simp [hus, hq]), fun t q hq => hyl _ _ ?_, ?_, fun t ht => hrep.ts t ?_, ?_, ?_⟩
      · simp [hys, hq]
      · exact hyl _ _ (by rw [hys]; rfl)
      · rw [hys]; simp; omega
      · have := hrep.inv.ylen; dsimp only; omega
      · have := hrep.inv.tlen; dsimp only; omega
    rw [smoothRbE_full hb hN hm user d fuel p0 s1 hφ (hps _ hD) hk hgs hoks hlast hw hrep]
    simp only [show pathG M ℓ φ qs.length [] = fun s => φ ((List.range (qs.length + 1)).map s) from funext fun s => pathG_nil M ℓ φ _ s]

end PyPE

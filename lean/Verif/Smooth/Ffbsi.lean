import Verif.Smooth.PathOps

/-!
# C92, C93: what `perform_smoothing` computes is the operator

Also the default callbacks of `FFBSi` (interfaces.py:341-425).
-/

namespace PyPE
open Real Spec MeasureTheory ProbabilityTheory
open scoped ENNReal

variable {P U Y V Ω : Type}

/-- `FFBSi.logp_xnext_full` and `logp_xnext_singlestep` (interfaces.py:348-378, 380-411), which call the model's `logp_xnext`, and the default
`sample_smooth` (157-184), which returns a copy of the particles. The other callbacks are inherited from `rest`. -/
def ffbsi (logpXnext : List P → List P → Slot U → ℕ → PyM (List ℝ)) (rest : SmoothCallbacks P U Y V Ω) : SmoothCallbacks P U Y V Ω :=
  { rest with
    sampleSmooth := fun part _ _ _ _ _ _ _ => .ok part
    logpXnextFull := fun part _ _ fut find D cur => do
      let s ← getIdx fut 0
      let next ← fancy s.pa.part find
      let u ← getIdx D.u cur
      let t ← getIdx D.t cur
      logpXnext part next u t
    logpXnextSingle := fun part _ _ future find D cur => do
      let next ← fancy future find
      let u ← getIdx D.u cur
      let t ← getIdx D.t cur
      logpXnext part next u t }

/-- `post_smoothing`, if the model has it, returns the trajectories as they are (as in nlg.py:370-374). -/
def Spec.NoPostprocessing (S : SmoothCallbacks P U Y V Ω) : Prop := ∀ traj, applyHook S.postSmoothing traj = .ok traj

/-! ### Averages over the uniforms -/

theorem backE_const (n : ℕ) (c : ℝ≥0∞) : backE n (fun _ => c) = c := by
  induction n with
  | zero => rfl
  | succ n ih => simp only [backE, ih, lintegral_const, measure_univ, mul_one]

theorem filterMap_range {α β : Type} (l : List α) (f : α → Option β) (g : ℕ → β) (h : ∀ (t : ℕ) a, l[t]? = some a → f a = some (g t)) :
    l.filterMap f = (List.range l.length).map g := by
  have e : l.map f = (List.range l.length).map (fun t => some (g t)) := by
    apply List.ext_getElem
    · simp
    · intro t h1 h2
      simp only [List.getElem_map, List.getElem_range]
      exact h t _ (List.getElem?_eq_getElem _)
  have : l.filterMap f = (l.map f).filterMap id := by rw [List.filterMap_map]; rfl
  rw [this, e, List.filterMap_map]
  show List.filterMap (fun t => some (g t)) _ = _
  rw [List.filterMap_eq_map']

theorem sum_range_pick (l : List ℕ) (f : ℕ → ℝ≥0∞) : ∑ m ∈ Finset.range l.length, f (l.getD m 0) = (l.map f).sum := by
  induction l with
  | nil => simp
  | cons a l ih =>
    rw [List.length_cons, Finset.sum_range_succ', List.map_cons, List.sum_cons, ← ih, add_comm]
    simp

/-- Averaging over the choice of the end particles. -/
theorem lintegral_ends {N : ℕ} (hN : 0 < N) {M : ℕ} (hM : 0 < M) (w : Fin N → ℝ) (c : ℕ → ℝ≥0∞) (G : ℝ → ℝ≥0∞)
    (hG : ∀ r ind, 0 < r → r < 1 → sample ((List.ofFn w).map exp) M r = .ok ind → ind.length = M →
      G r = ENNReal.ofReal (1 / M) * ∑ m ∈ Finset.range M, c (ind.getD m 0)) :
    ∫⁻ r, G r ∂unif = ∑ i, ENNReal.ofReal (exp (w i) / ∑ j, exp (w j)) * c i := by
  haveI : Nonempty (Fin N) := ⟨⟨0, hN⟩⟩
  have hs : 0 < ∑ j, exp (w j) := Finset.sum_pos (fun _ _ => exp_pos _) Finset.univ_nonempty
  have hMr : (0:ℝ) < M := by exact_mod_cast hM
  have hne : List.ofFn w ≠ [] := by
    intro h; have := congrArg List.length h; simp at this; omega
  have hW : Weights ((List.ofFn w).map fun x => exp (x - 0)) := weights_exp_sub hne 0
  have hw0 : ((List.ofFn w).map fun x => exp (x - 0)) = (List.ofFn w).map exp := List.map_congr_left fun x _ => by rw [sub_zero]
  rw [lintegral_sample hW M (fun j => ENNReal.ofReal (1 / M) * c j) G]
  · rw [List.length_map, List.length_ofFn, Finset.sum_range]
    refine Finset.sum_congr rfl fun i _ => ?_
    rw [prob_exp_sub, ← mul_assoc, ← ENNReal.ofReal_mul (by positivity)]
    congr 2
    field_simp
  · intro r a h0 h1 ha
    obtain ⟨q, hq, hql, -⟩ := C01_sample_length_range hW M (r := r) ⟨h0.le, h1⟩
    rw [hq] at ha
    obtain rfl := Except.ok.inj ha
    rw [hG r q h0 h1 (by rw [← hw0]; exact hq) hql]
    rw [← hql, sum_range_pick, List.sum_map_mul_left]

/-! ### Ancestors -/

theorem cop_lineage (x0 : P) {pt : List (Step P)} {n : ℕ} {idx : ℕ → ℕ} (h : Lineage pt n idx) (Γ : (ℕ → P) → ℝ≥0∞) (s : ℕ → P) :
    cop x0 pt n (idx n) Γ s = Γ fun t => if t ≤ n then partAt x0 pt t (idx t) else s t := by
  induction n generalizing s with
  | zero =>
    simp only [cop]
    congr 1
    funext t
    by_cases ht : t = 0
    · subst ht; simp
    · rw [Function.update_of_ne ht, if_neg (by omega)]
  | succ n ih =>
    obtain ⟨st, h1, h2⟩ := h n (by omega)
    have ha : ancOf pt (n+1) (idx (n+1)) = idx n := by simp [ancOf, h1, List.getD_eq_getElem?_getD, h2]
    simp only [cop]
    rw [ha, ih fun t ht => h t (by omega)]
    congr 1
    funext t
    by_cases ht : t ≤ n
    · rw [if_pos ht, if_pos (by omega)]
    · rw [if_neg ht]
      by_cases ht2 : t = n + 1
      · subst ht2; simp
      · rw [Function.update_of_ne ht2, if_neg (by omega)]

/-- `perform_smoothing(M, 'ancestor')` computes the operator `cop`. -/
theorem smoothE_ancestor [MeasurableSpace P] {S : SmoothCallbacks P U Y V Ω} (hpl : ∀ D, PlainSmooth S D) (hps : NoPostprocessing S) {M : ℕ} (hM : 0 < M)
    (user : Option SOpts) (d : AllDraws Ω) (fuel : ℕ) (φ : List P → ℝ≥0∞) {N : ℕ} (hN : 0 < N) (x0 : P) {s : PT P U Y} {K : ℕ}
    (hK : s.traj.length = K + 1) (hgs : ∀ st ∈ s.traj, GoodStep N st) {last : Step P} (hlast : s.traj.getLast? = some last) {w : Fin N → ℝ}
    (hw : last.pa.w = List.ofFn w) (us : List (Slot U)) :
    smoothE S M "ancestor" user d fuel (pathMean φ M) s =
      ∑ i, ENNReal.ofReal (exp (w i) / ∑ j, exp (w j)) * copE N x0 s.traj us (fun s => φ ((List.range (K+1)).map s)) i := by
  have hrun : GoodRun N s.traj := ⟨hN, by intro h; rw [h] at hK; simp at hK, hgs⟩
  unfold smoothE
  refine lintegral_ends hN hM w (fun i => cop x0 s.traj K i (fun s => φ ((List.range (K+1)).map s)) fun _ => x0) _ ?_ |>.trans ?_
  · intro r ind h0 h1 hind hindl
    have key : ∀ a, pathMean φ M (performSmoothing S s.traj M ⟨s.uvec, s.yvec, s.tvec⟩ "ancestor" user (withDraws d r a) fuel) =
        ENNReal.ofReal (1 / M) * ∑ m ∈ Finset.range M, cop x0 s.traj K (ind.getD m 0) (fun s => φ ((List.range (K+1)).map s)) fun _ => x0 := by
      intro a
      obtain ⟨traj, ind', last', e1, e2, e3, e4, e5, e6⟩ := C28_ancestor_lineage (d := (withDraws d r a).bsi) hrun (hpl ⟨s.uvec, s.yvec, s.tvec⟩) hM
        (show Unit01 r from ⟨h0.le, h1⟩)
      rw [hlast] at e3
      obtain rfl := Option.some.inj e3
      rw [hw, show (withDraws d r a).bsi.r0 = r from rfl, hind] at e4
      obtain rfl := Except.ok.inj e4
      have hp : performSmoothing S s.traj M ⟨s.uvec, s.yvec, s.tvec⟩ "ancestor" user (withDraws d r a) fuel = .ok (some traj) := by
        have a1 : ¬ ("ancestor" = "rs") := by decide +kernel
        have a2 : ¬ ("ancestor" = "rsas") := by decide +kernel
        have a4 : ¬ ("ancestor" = "full") := by decide +kernel
        have a5 : ¬ ("ancestor" = "mcmc") := by decide +kernel
        have a6 : ¬ ("ancestor" = "mhips") := by decide +kernel
        have a7 : ¬ ("ancestor" = "mhbp") := by decide +kernel
        simp only [performSmoothing, defaultOptions, a1, a2, a4, a5, a6, a7, or_self, if_false, pure_eq_ok, ok_bind, smoothTrajectory, if_true, e1,
          hps _]
      rw [hp]
      simp only [pathMean]
      congr 1
      refine Finset.sum_congr rfl fun m hm => ?_
      have hml : m < ind.length := by rw [hindl]; exact Finset.mem_range.mp hm
      obtain ⟨idx, g1, g2, g3⟩ := e6 m ind[m] (List.getElem?_eq_getElem hml)
      rw [hK, Nat.add_sub_cancel] at g1 g2
      rw [show ind.getD m 0 = idx K by rw [g1]; simp [List.getD_eq_getElem?_getD, hml], cop_lineage x0 g2]
      congr 1
      unfold pathOf
      rw [filterMap_range traj _ (fun t => partAt x0 s.traj t (idx t)), e2, hK]
      · refine List.map_congr_left fun t ht => ?_
        have := List.mem_range.mp ht
        rw [if_pos (by omega)]
      · intro t st ht
        have htl : t < s.traj.length := by rw [← e2]; exact lt_of_getElem?_some ht
        obtain ⟨st', sm, x, q1, q2, q3, q4⟩ := g3 t htl
        rw [ht] at q2
        obtain rfl := Option.some.inj q2
        rw [q4]
        simp [partAt, q1, List.getD_eq_getElem?_getD, q3]
    rw [show (fun a => pathMean φ M (performSmoothing S s.traj M ⟨s.uvec, s.yvec, s.tvec⟩ "ancestor" user (withDraws d r a) fuel)) = _ from
      funext key, backE_const]
  · refine Finset.sum_congr rfl fun i _ => ?_
    unfold copE
    rw [hK, Nat.add_sub_cancel]

/-! ### Backward simulation -/

theorem prob_backWeights {N : ℕ} (w : Fin N → ℝ) (L : ℕ → ℕ → ℝ) (j : ℕ) (i : Fin N) :
    prob (backWeights (List.ofFn w) L j) i = exp (w i) * exp (L i j) / ∑ l : Fin N, exp (w l) * exp (L l j) := by
  have e : backWeights (List.ofFn w) L j = List.ofFn fun l : Fin N => exp (w l) * exp (L l j) := by
    apply List.ext_getElem <;> simp [backWeights]
  unfold prob
  rw [e, List.sum_ofFn, List.getD_eq_getElem?_getD, List.getElem?_ofFn, dif_pos i.2, Option.getD_some]

/-- Averaging a function of the entry drawn with uniform number `m` of a sequence. -/
theorem lintegral_pick {w : List ℝ} (hw : Weights w) (c : ℕ → ℝ≥0∞) (m : ℕ) :
    AEMeasurable (fun v : ℕ → ℝ => ∑ j ∈ Finset.range w.length, ENNReal.ofReal (drawCount w 1 j (v m)) * c j) unifSeq ∧
    ∫⁻ v, ∑ j ∈ Finset.range w.length, ENNReal.ofReal (drawCount w 1 j (v m)) * c j ∂unifSeq =
      ∑ j ∈ Finset.range w.length, ENNReal.ofReal (prob w j) * c j := by
  have h := measurePreserving_eval_infinitePi (fun _ : ℕ => unif) m
  have hG : AEMeasurable (fun r => ∑ j ∈ Finset.range w.length, ENNReal.ofReal (drawCount w 1 j r) * c j) unif := by
    refine Finset.aemeasurable_fun_sum _ fun j _ => ?_
    exact ((drawCount_integrable hw 1 j).aestronglyMeasurable.aemeasurable.ennreal_ofReal).mul_const _
  have hmap : Measure.map (Function.eval m) unifSeq = unif := h.map_eq
  refine ⟨(hmap ▸ hG).comp_measurable h.measurable, ?_⟩
  have e := lintegral_map' (μ := unifSeq) (f := fun r => ∑ j ∈ Finset.range w.length, ENNReal.ofReal (drawCount w 1 j r) * c j)
    (g := Function.eval m) (by rw [hmap]; exact hG) h.measurable.aemeasurable
  rw [hmap] at e
  rw [show (∫⁻ v, ∑ j ∈ Finset.range w.length, ENNReal.ofReal (drawCount w 1 j (v m)) * c j ∂unifSeq) = _ from e.symm]
  have hd : ∀ j, AEMeasurable (fun r => ENNReal.ofReal (drawCount w 1 j r)) unif := fun j =>
    (drawCount_integrable hw 1 j).aestronglyMeasurable.aemeasurable.ennreal_ofReal
  rw [lintegral_finset_sum' _ fun j _ => (hd j).mul_const _]
  refine Finset.sum_congr rfl fun j _ => ?_
  rw [lintegral_mul_const'' _ (hd j), lintegral_drawCount hw,
    Nat.cast_one, one_mul]

theorem drawCount_single {w : List ℝ} {r : ℝ} {i : ℕ} (h : sample w 1 r = .ok [i]) (hi : i < w.length) (c : ℕ → ℝ≥0∞) :
    ∑ j ∈ Finset.range w.length, ENNReal.ofReal (drawCount w 1 j r) * c j = c i := by
  rw [Finset.sum_eq_single i]
  · simp [drawCount, h]
  · intro j _ hj
    simp [drawCount, h, Ne.symm hj]
  · intro h'; exact absurd (Finset.mem_range.mpr hi) h'

/-- The already smoothed steps `n, n+1, …` hold the paths `σ 0, …, σ (M-1)`. -/
def FutRep (fut : List (SStep P)) (M n : ℕ) (σ : ℕ → ℕ → P) : Prop :=
  ∀ (j : ℕ) s, fut[j]? = some s → s.pa.part = (List.range M).map fun m => σ m (n + j)

/-- The log-densities of the model: `logp_xnext` evaluates `lx` entry by entry. -/
def Spec.LogDensity (logpXnext : List P → List P → Slot U → ℕ → PyM (List ℝ)) (lx : ℕ → Slot U → P → P → ℝ) : Prop :=
  ∀ (a b : List P) (u : Slot U) (k : ℕ), a.length = b.length → logpXnext a b u k = .ok (List.zipWith (lx k u) a b)

theorem ffbsi_density {logpXnext : List P → List P → Slot U → ℕ → PyM (List ℝ)} {lx : ℕ → Slot U → P → P → ℝ}
    (hlx : Spec.LogDensity logpXnext lx) (rest : SmoothCallbacks P U Y V Ω) (x0 : P) {pt : List (Step P)} {n : ℕ} {st : Step P} (hst : pt[n]? = some st)
    {fut : List (SStep P)} {M : ℕ} {σ : ℕ → ℕ → P} (hfut : FutRep fut M (n+1) σ) (hne : fut ≠ []) {D : SData U Y} {u : Slot U}
    (hu : D.u[n]? = some u) (ht : D.t[n]? = some n) (ptraj : List (SStep P)) (pind : List ℕ) :
    BackwardDensity (ffbsi logpXnext rest) st.pa ptraj pind fut D n M fun i j => lx n u (partAt x0 pt n i) (σ j (n+1)) := by
  intro ind fnd part pi hl hj hpart _
  obtain ⟨f0, fs, rfl⟩ := List.exists_cons_of_ne_nil hne
  have hf0 := hfut 0 f0 rfl
  rw [add_zero] at hf0
  obtain ⟨next, hnext⟩ := fancy_ok (a := f0.pa.part) (ind := fnd) (by rw [hf0]; simpa using hj)
  obtain ⟨hpl, hp⟩ := fancy_spec.mp hpart
  obtain ⟨hnl, hn⟩ := fancy_spec.mp hnext
  simp only [ffbsi, show getIdx (f0 :: fs) 0 = .ok f0 from rfl, ok_bind, hnext, getIdx_ok.mpr hu, getIdx_ok.mpr ht]
  rw [hlx _ _ _ _ (by omega)]
  congr 1
  apply List.ext_getElem
  · simp [hpl, hnl, hl]
  · intro i h1 h2
    simp only [List.length_zipWith] at h1 h2
    simp only [List.getElem_zipWith]
    have q1 := (hp i ind[i] (List.getElem?_eq_getElem (by omega))).1
    have q2 := (hn i fnd[i] (List.getElem?_eq_getElem (by omega))).1
    have q3 : fnd[i] < M := hj _ (List.getElem_mem _)
    rw [hf0, List.getElem?_map, List.getElem?_range q3, Option.map_some, List.getElem?_eq_getElem (by omega)] at q2
    rw [← Option.some.inj q2]
    congr 1
    simp only [partAt, hst, Option.map_some, Option.getD_some, List.getD_eq_getElem?_getD, q1, List.getElem?_eq_getElem (show i < part.length by omega)]

theorem unifSeq_ae_pos : ∀ᵐ u ∂unifSeq, ∀ k, 0 < u k ∧ u k < 1 := by
  rw [ae_all_iff]
  intro k
  have h := measurePreserving_eval_infinitePi (fun _ : ℕ => unif) k
  exact h.quasiMeasurePreserving.ae unif_ae

/-- The backward loop computes the operator `bop`. -/
theorem bsiLoop_paths {logpXnext : List P → List P → Slot U → ℕ → PyM (List ℝ)} {lx : ℕ → Slot U → P → P → ℝ}
    (hlx : Spec.LogDensity logpXnext lx) (rest : SmoothCallbacks P U Y V Ω) (φ : List P → ℝ≥0∞) {N M : ℕ} (hN : 0 < N) (hM : 0 < M) (x0 : P)
    {pt : List (Step P)} {K : ℕ} (hK : pt.length = K + 1) (hgs : ∀ st ∈ pt, GoodStep N st) {D : SData U Y} {us : List (Slot U)}
    (hu : ∀ n, n < K → D.u[n]? = some (us.getD n .none)) (ht : ∀ n, n < K → D.t[n]? = some n) (fuel : ℕ) (n : ℕ) (hn : n ≤ K)
    (anc : List ℕ) (fut : List (SStep P)) (hfl : n + fut.length = K + 1) (σ : ℕ → ℕ → P) (hfut : FutRep fut M n σ)
    (g : (ℕ → ℕ → ℝ) → ℕ → BsiDraws Ω) (hg : ∀ a t, t < n → (g a t).full = a t) :
    backE n (fun a => pathMean φ M (bsiLoop (ffbsi logpXnext rest) .full pt M D (g a) fuel n anc fut)) =
      ENNReal.ofReal (1 / M) * ∑ m ∈ Finset.range M, bop lx N x0 pt us n (fun s => φ ((List.range (K+1)).map s)) (σ m) := by
  induction n generalizing anc fut σ g with
  | zero =>
    simp only [backE, bsiLoop, pathMean, bop]
    congr 1
    refine Finset.sum_congr rfl fun m hm => ?_
    congr 1
    unfold pathOf
    rw [filterMap_range fut _ (σ m)]
    · rw [show fut.length = K + 1 by omega]
    · intro t st hst
      rw [hfut t st hst, List.getElem?_map, List.getElem?_range (Finset.mem_range.mp hm), zero_add]; rfl
  | succ n ih =>
    have hn' : n < pt.length := by omega
    have hst : pt[n]? = some pt[n] := List.getElem?_eq_getElem hn'
    have hs := hgs pt[n] (List.getElem_mem _)
    have hne : fut ≠ [] := by intro h; rw [h] at hfl; simp at hfl; omega
    set L : ℕ → ℕ → ℝ := fun i j => lx n (us.getD n .none) (partAt x0 pt n i) (σ j (n+1)) with hL
    have hden := ffbsi_density hlx rest x0 hst hfut hne (hu n (by omega)) (ht n (by omega)) ((pt.take n).map Step.toS) pt[n].ancestors
    have hwl := hs.pa.w_len
    have hbl : ∀ m, (backWeights pt[n].pa.w L m).length = N := fun m => by rw [backWeights_length, hwl]
    have hW := fun m => backWeights_weights (hs.pa.w_ne hN) L m
    set c : ℕ → ℕ → ℝ≥0∞ := fun m i => bop lx N x0 pt us n (fun s => φ ((List.range (K+1)).map s)) (Function.update (σ m) n (partAt x0 pt n i)) with hc
    have key : ∀ v : ℕ → ℝ, (∀ k, 0 < v k ∧ v k < 1) →
        backE n (fun a => pathMean φ M (bsiLoop (ffbsi logpXnext rest) .full pt M D (g (Function.update a n v)) fuel (n+1) anc fut)) =
        ENNReal.ofReal (1 / M) * ∑ m ∈ Finset.range M,
          ∑ j ∈ Finset.range (backWeights pt[n].pa.w L m).length, ENNReal.ofReal (drawCount (backWeights pt[n].pa.w L m) 1 j (v m)) * c m j := by
      intro v hv
      obtain ⟨ind, h1, h2, h3, h4⟩ := bsiFull_spec hs.pa hs.anc_len hN hden (find := List.range M) (by simp) (rs := v)
        fun k => ⟨(hv k).1.le, (hv k).2⟩
      rw [List.length_range] at h2
      obtain ⟨anc', part, tmp, pa, e1, e2, e3, e4, e5, e6, e7, e9, e8⟩ := smoothStep_ok (S := ffbsi logpXnext rest) (D := D) (fun part _ _ _ _ _ _ => ⟨part, rfl, rfl⟩) hM hs h2 h3
        (some ((pt.take n).map Step.toS)) (some fut) (some (List.range M)) n (g (fun _ => v) n).ω
      have htmp : tmp = part := (Except.ok.inj e3).symm
      have hloop : ∀ a, bsiLoop (ffbsi logpXnext rest) .full pt M D (g (Function.update a n v)) fuel (n+1) anc fut =
          bsiLoop (ffbsi logpXnext rest) .full pt M D (g (Function.update a n v)) fuel n anc' (⟨pa, some (List.range M)⟩ :: fut) := by
        intro a
        have hfull : (g (Function.update a n v) n).full = v := by rw [hg _ n (by omega), Function.update_self]
        have e3' : (ffbsi logpXnext rest).sampleSmooth part (some ((pt.take n).map Step.toS)) anc' (some fut) (some (List.range M)) D n
          (g (Function.update a n v) n).ω = .ok tmp := by rw [htmp]; rfl
        rw [bsiLoop]
        simp only [getIdx_ok.mpr hst, ok_bind, bsiPick, hfull, h1, pure_eq_ok, e1, e2, e3', e4]
      simp only [hloop]
      rw [ih (by omega) anc' (⟨pa, some (List.range M)⟩ :: fut) (by simp only [List.length_cons]; omega)
        (fun m => Function.update (σ m) n (partAt x0 pt n (ind.getD m 0))) ?_ (fun a => g (Function.update a n v)) ?_]
      · congr 1
        refine Finset.sum_congr rfl fun m hm => ?_
        have hmM := Finset.mem_range.mp hm
        obtain ⟨i, q1, q2⟩ := h4 m m (List.getElem?_range hmM)
        rw [drawCount_single q2 (by rw [hbl]; exact h3 i (List.mem_of_getElem? q1))]
        simp only [hc]
        rw [List.getD_eq_getElem?_getD, q1]; rfl
      · intro j s' hj
        rcases j with _ | j
        · obtain rfl := Option.some.inj hj
          simp only [e7, htmp]
          apply List.ext_getElem?
          intro m
          by_cases hm : m < M
          · have := ((fancy_spec.mp e2).2 m ind[m] (List.getElem?_eq_getElem (by omega))).1
            rw [← this, List.getElem?_map, List.getElem?_range hm, Option.map_some, add_zero, Function.update_self]
            have hlt : ind[m] < pt[n].pa.part.length := by rw [hs.pa.part_len]; exact h3 _ (List.getElem_mem _)
            rw [List.getElem?_eq_getElem hlt]
            simp [partAt, hst, List.getD_eq_getElem?_getD, show m < ind.length by omega, hlt]
          · rw [List.getElem?_eq_none (by omega), List.getElem?_eq_none (by simpa using hm)]
        · rw [hfut j s' hj]
          refine List.map_congr_left fun m _ => ?_
          have : n + 1 + j = n + (j + 1) := by omega
          rw [this]
          exact (Function.update_of_ne (by omega) _ _).symm
      · intro a t htn
        rw [hg _ t (by omega), Function.update_of_ne (by omega)]
    simp only [backE]
    rw [lintegral_congr_ae (g := fun v => ENNReal.ofReal (1 / M) * ∑ m ∈ Finset.range M,
          ∑ j ∈ Finset.range (backWeights pt[n].pa.w L m).length, ENNReal.ofReal (drawCount (backWeights pt[n].pa.w L m) 1 j (v m)) * c m j)
        (by filter_upwards [unifSeq_ae_pos] with v hv using key v hv),
      lintegral_const_mul' _ _ ENNReal.ofReal_ne_top, lintegral_finset_sum' _ fun m _ => (lintegral_pick (hW m) (c m) m).1]
    congr 1
    refine Finset.sum_congr rfl fun m _ => ?_
    rw [(lintegral_pick (hW m) (c m) m).2, hbl, Finset.sum_range]
    simp only [bop]
    refine Finset.sum_congr rfl fun i _ => ?_
    congr 2
    have hwo : pt[n].pa.w = List.ofFn fun i : Fin N => wAt pt n i := by
      apply List.ext_getElem
      · simp [hwl]
      · intro i h1 h2
        simp only [List.getElem_ofFn, wAt, hst, Option.map_some, Option.getD_some, List.getD_eq_getElem?_getD, List.getElem?_eq_getElem h1]
    rw [hwo, prob_backWeights]
    rfl

/-- `perform_smoothing(M, 'full')` computes the operator `bop`. -/
theorem smoothE_full {logpXnext : List P → List P → Slot U → ℕ → PyM (List ℝ)} {lx : ℕ → Slot U → P → P → ℝ}
    (hlx : Spec.LogDensity logpXnext lx) (rest : SmoothCallbacks P U Y V Ω) (hps : NoPostprocessing rest) {M : ℕ} (hM : 0 < M)
    (user : Option SOpts) (d : AllDraws Ω) (fuel : ℕ) (φ : List P → ℝ≥0∞) {N : ℕ} (hN : 0 < N) (x0 : P) {s : PT P U Y} {K : ℕ}
    (hK : s.traj.length = K + 1) (hgs : ∀ st ∈ s.traj, GoodStep N st) {last : Step P} (hlast : s.traj.getLast? = some last) {w : Fin N → ℝ}
    (hw : last.pa.w = List.ofFn w) {us : List (Slot U)} {ys : List (Slot Y)} (hrep : s.Rep ⟨us.map some, ys⟩) :
    smoothE (ffbsi logpXnext rest) M "full" user d fuel (pathMean φ M) s =
      ∑ i, ENNReal.ofReal (exp (w i) / ∑ j, exp (w j)) * bopE lx N x0 s.traj us (fun s => φ ((List.range (K+1)).map s)) i := by
  have hysl : ys.length = K + 1 := by rw [← hK]; exact hrep.len.symm
  have husl : us.length = K := by
    have := hrep.us_len; simp only [List.length_map] at this; omega
  have hlk := getLast_index hK hlast
  have hs := hgs last (List.mem_of_getElem? hlk)
  have hu : ∀ n, n < K → s.uvec[n]? = some (us.getD n .none) := by
    intro n hn
    refine hrep.us n _ ?_
    simp only [List.getElem?_map, List.getElem?_eq_getElem (show n < us.length by omega), Option.map_some, List.getD_eq_getElem?_getD,
      Option.getD_some]
  have ht : ∀ n, n < K → s.tvec[n]? = some n := fun n hn => hrep.ts n (by show n < ys.length; omega)
  unfold smoothE
  refine lintegral_ends hN hM w (fun i => bop lx N x0 s.traj us K (fun s => φ ((List.range (K+1)).map s))
    (Function.update (fun _ => x0) K (partAt x0 s.traj K i))) _ ?_ |>.trans ?_
  · intro r ind h0 h1 hind hindl
    obtain ⟨ind', f1, f2, f3, f4⟩ := drawEnd_ok hs hN M (r := r) ⟨h0.le, h1⟩
    rw [hw, hind] at f2
    obtain rfl := Except.ok.inj f2
    obtain ⟨anc, part, tmp, pa, e1, e2, e3, e4, e5, e6, e7, e9, e8⟩ := smoothStep_ok (S := ffbsi logpXnext rest) (D := ⟨s.uvec, s.yvec, s.tvec⟩)
      (fun part _ _ _ _ _ _ => ⟨part, rfl, rfl⟩) hM hs hindl f4 (some ((s.traj.take K).map Step.toS)) none none K d.bsi.ω0
    have htmp : tmp = part := (Except.ok.inj e3).symm
    have hp : ∀ a, performSmoothing (ffbsi logpXnext rest) s.traj M ⟨s.uvec, s.yvec, s.tvec⟩ "full" user (withDraws d r a) fuel =
        bsiLoop (ffbsi logpXnext rest) .full s.traj M ⟨s.uvec, s.yvec, s.tvec⟩ (withDraws d r a).bsi.step fuel K anc [⟨pa, some (List.range M)⟩] := by
      intro a
      have e3' : (ffbsi logpXnext rest).sampleSmooth part (some ((s.traj.take K).map Step.toS)) anc none none ⟨s.uvec, s.yvec, s.tvec⟩ K
        (withDraws d r a).bsi.ω0 = .ok tmp := by rw [htmp]; rfl
      have hps' : ∀ t, applyHook (ffbsi logpXnext rest).postSmoothing t = .ok t := hps
      rw [C26_full]
      simp only [smoothTrajectory, true_or, if_true, bsiOptions, performBsi, getLast_ok.mpr hlast, ok_bind,
        show drawEnd last M (withDraws d r a).bsi.r0 = .ok ind from f1, e1, e2, hK, Nat.add_sub_cancel, e3', e4]
      rcases bsiLoop (ffbsi logpXnext rest) .full s.traj M ⟨s.uvec, s.yvec, s.tvec⟩ (withDraws d r a).bsi.step fuel K anc
        [⟨pa, some (List.range M)⟩] with e | o
      · rfl
      · cases o with
        | none => rfl
        | some t => simp only [ok_bind, hps', pure_eq_ok]
    simp only [hp]
    rw [hK, Nat.add_sub_cancel]
    rw [bsiLoop_paths hlx rest φ hN hM x0 hK hgs hu ht fuel K le_rfl anc [⟨pa, some (List.range M)⟩] rfl
      (fun m => Function.update (fun _ => x0) K (partAt x0 s.traj K (ind.getD m 0))) ?_ (fun a => (withDraws d r a).bsi.step) (fun _ _ _ => rfl)]
    intro j s' hj
    rcases j with _ | j
    · obtain rfl := Option.some.inj hj
      simp only [e7, htmp]
      apply List.ext_getElem?
      intro m
      by_cases hm : m < M
      · have := ((fancy_spec.mp e2).2 m ind[m] (List.getElem?_eq_getElem (by omega))).1
        rw [← this, List.getElem?_map, List.getElem?_range hm, Option.map_some, add_zero, Function.update_self]
        have hlt : ind[m] < last.pa.part.length := by rw [hs.pa.part_len]; exact f4 _ (List.getElem_mem _)
        rw [List.getElem?_eq_getElem hlt]
        simp [partAt, hlk, List.getD_eq_getElem?_getD, show m < ind.length by omega, hlt]
      · rw [List.getElem?_eq_none (by omega), List.getElem?_eq_none (by simpa using hm)]
    · simp at hj
  · refine Finset.sum_congr rfl fun i _ => ?_
    unfold bopE
    rw [hK, Nat.add_sub_cancel]

/-! ### The theorems -/

theorem samples_markov [MeasurableSpace P] [MeasurableSpace Ω] {K : MarkovModel P U Y V Ω} {good : Slot Y → Prop} {ν : Measure Ω} [IsProbabilityMeasure ν]
    {N : ℕ} (hN : 0 < N) {μ0 : Measure P} {M : ℕ → Slot U → Kernel P P} {ℓ : ℕ → Slot Y → P → ℝ} (hK : Spec.Samples K good ν N μ0 M ℓ) (k : ℕ)
    (u : Slot U) : IsMarkovKernel (M k u) := by
  refine ⟨fun x => ?_⟩
  obtain ⟨X, hX, -⟩ := hK.move (fun _ => x) u k
  have := (hX ⟨0, hN⟩).2
  rw [← this]
  exact Measure.isProbabilityMeasure_map (hX ⟨0, hN⟩).1.aemeasurable

theorem pf_measure_law [MeasurableSpace P] [MeasurableSpace Ω] {K : MarkovModel P U Y V Ω} {good : Slot Y → Prop} {ν : Measure Ω}
    {N : ℕ} (hN : 0 < N) {μ0 : Measure P} {M : ℕ → Slot U → Kernel P P} {ℓ : ℕ → Slot Y → P → ℝ} (hK : Spec.Samples K good ν N μ0 M ℓ)
    (rest : Callbacks P U Y V Ω) (res : ℝ) (tr : List (Step P)) (anc : List ℕ) (pa : PA P) (x : Fin N → P) (uv : List (Slot U)) (yv : List (Slot Y))
    (tv : List ℕ) (y : Slot Y) (hgy : good y) (hx : pa.part = List.ofFn x) (hw : pa.w.length = N) (hy : yv[0]? = some y) (ht : tv[0]? = some 0) :
    ∃ pa' w', (pfOps (K.toCallbacks rest) res).measure tr anc pa uv yv tv 0 = .ok pa' ∧ pa'.part = List.ofFn x ∧ pa'.w = List.ofFn w' ∧
        pa'.num = pa.num ∧ ∀ i : Fin N, w' i + pa'.w_offset = pa.w.getD i 0 + pa.w_offset + ℓ 0 y (x i) := by
  obtain ⟨pa', w', f1, f2, f3, fn, f4⟩ := weightUpdate_offset (pa := pa) hN hw (fun i => ℓ 0 y (x i))
  refine ⟨pa', w', ?_, by rw [f2, hx], f3, fn, f4⟩
  show pfMeasure (K.toCallbacks rest) tr anc pa uv yv tv 0 = _
  unfold pfMeasure
  simp only [MarkovModel.toCallbacks, hx, getLast_take_succ hy, getLast_take_succ ht, ok_bind, hK.measure _ _ _ hgy, f1]

/-- C92: run the bootstrap filter on a Markov model that samples from the chain with initial law `μ0` and kernels `M`, then call
`perform_smoothing(M, 'ancestor')`. Over all random draws, the likelihood estimate times the average of any non-negative function `φ` over the
returned trajectories has expectation `E[Π_t p(y_t | x_t) φ(x_0, …, x_T)]`: for any number of particles, of trajectories, any resampling
threshold, and histories that start with `measure(y0)` or with `forward`. -/
theorem C92_ancestor_unbiased [MeasurableSpace P] [MeasurableSpace Ω] {K : MarkovModel P U Y V Ω} {ν : Measure Ω} [IsProbabilityMeasure ν]
    {N : ℕ} (hN : 0 < N) {μ0 : Measure P} {M : ℕ → Slot U → Kernel P P} {ℓ : ℕ → Slot Y → P → ℝ} {good : Slot Y → Prop} (hK : Spec.Samples K good ν N μ0 M ℓ)
    {rest : Callbacks P U Y V Ω} {res : ℝ} {name : String} {o : FilterOptions P} (hn : parseFilter name = .ok .pf)
    {F : FilterOps P U Y V Ω} (hF : mkFilter (K.toCallbacks rest) N res name o = .ok F) {S : SmoothCallbacks P U Y V Ω}
    (hS : ∀ D, PlainSmooth S D) (hps : NoPostprocessing S) {m : ℕ} (hm : 0 < m) (user : Option SOpts) (d : AllDraws Ω) (fuel : ℕ)
    {φ : List P → ℝ≥0∞} (hφ : ∀ n, Measurable fun x : Fin n → P => φ (List.ofFn x)) {T : Option ℕ} {s0 : PT P U Y}
    (h0 : PT.init N T 0 = .ok s0) (qs : List (Slot U × Slot Y)) (hqs : ∀ q ∈ qs, good q.2) :
    (∀ y0, good y0 → ∫⁻ ω, stepsE ν qs (fun ds => runWeighted (smoothE S m "ancestor" user d fuel (pathMean φ m))
        (s0.run F (history (some (y0, ω)) ds))) ∂ν = ∫⁻ x, ENNReal.ofReal (exp (ℓ 0 y0 x)) * pathsE M ℓ φ 0 qs [] x ∂μ0) ∧
    (qs ≠ [] → stepsE ν qs (fun ds => runWeighted (smoothE S m "ancestor" user d fuel (pathMean φ m)) (s0.run F (history none ds))) =
      ∫⁻ x, pathsE M ℓ φ 0 qs [] x ∂μ0) := by
  rw [mkFilter_pf _ N res hn o] at hF
  obtain rfl := (Except.ok.inj hF).symm
  obtain ⟨X, hX, hc⟩ := hK.create
  haveI : Nonempty Ω := nonempty_of_isProbabilityMeasure ν
  set x0 : P := X ⟨0, hN⟩ (Classical.arbitrary Ω)
  refine run_paths hN (fun k u y hy => pf_stepLaw hN hK rest res k u y hy) (samples_markov hN hK) hK.meas (fun _ _ _ _ _ _ => rfl) hφ
    (cop_pathOp x0 M) hX hc rfl (fun tr anc pa x uv yv tv y => pf_measure_law hN hK rest res tr anc pa x uv yv tv y) h0 qs hqs ?_
  intro s us ys last x w hrep hk hgs hlast hx hw
  rw [smoothE_ancestor hS hps hm user d fuel φ hN x0 hk hgs hlast hw us]
  simp only [pathG_nil, show pathG M ℓ φ qs.length [] = fun s => φ ((List.range (qs.length + 1)).map s) from funext fun s => pathG_nil M ℓ φ _ s]

/-- C93: the same for backward simulation, `perform_smoothing(M, 'full')`, if the kernels have the densities `exp lx` (with respect to any
measure) which the model's `logp_xnext` evaluates. -/
theorem C93_backward_simulation_unbiased [MeasurableSpace P] [MeasurableSpace Ω] {K : MarkovModel P U Y V Ω} {ν : Measure Ω} [IsProbabilityMeasure ν]
    {N : ℕ} (hN : 0 < N) {μ0 : Measure P} {M : ℕ → Slot U → Kernel P P} {ℓ : ℕ → Slot Y → P → ℝ} {good : Slot Y → Prop} (hK : Spec.Samples K good ν N μ0 M ℓ)
    {rest : Callbacks P U Y V Ω} {res : ℝ} {name : String} {o : FilterOptions P} (hn : parseFilter name = .ok .pf)
    {F : FilterOps P U Y V Ω} (hF : mkFilter (K.toCallbacks rest) N res name o = .ok F)
    {logpXnext : List P → List P → Slot U → ℕ → PyM (List ℝ)} {lx : ℕ → Slot U → P → P → ℝ} (hlx : Spec.LogDensity logpXnext lx) {vol : Measure P}
    (hlm : ∀ k u x, Measurable (lx k u x)) (hden : ∀ k u x, M k u x = vol.withDensity fun x' => ENNReal.ofReal (exp (lx k u x x')))
    {srest : SmoothCallbacks P U Y V Ω} (hps : NoPostprocessing srest) {m : ℕ} (hm : 0 < m) (user : Option SOpts) (d : AllDraws Ω) (fuel : ℕ)
    {φ : List P → ℝ≥0∞} (hφ : ∀ n, Measurable fun x : Fin n → P => φ (List.ofFn x)) {T : Option ℕ} {s0 : PT P U Y}
    (h0 : PT.init N T 0 = .ok s0) (qs : List (Slot U × Slot Y)) (hqs : ∀ q ∈ qs, good q.2) :
    (∀ y0, good y0 → ∫⁻ ω, stepsE ν qs (fun ds => runWeighted (smoothE (ffbsi logpXnext srest) m "full" user d fuel (pathMean φ m))
        (s0.run F (history (some (y0, ω)) ds))) ∂ν = ∫⁻ x, ENNReal.ofReal (exp (ℓ 0 y0 x)) * pathsE M ℓ φ 0 qs [] x ∂μ0) ∧
    (qs ≠ [] → stepsE ν qs (fun ds => runWeighted (smoothE (ffbsi logpXnext srest) m "full" user d fuel (pathMean φ m)) (s0.run F (history none ds))) =
      ∫⁻ x, pathsE M ℓ φ 0 qs [] x ∂μ0) := by
  rw [mkFilter_pf _ N res hn o] at hF
  obtain rfl := (Except.ok.inj hF).symm
  obtain ⟨X, hX, hc⟩ := hK.create
  haveI : Nonempty Ω := nonempty_of_isProbabilityMeasure ν
  set x0 : P := X ⟨0, hN⟩ (Classical.arbitrary Ω)
  refine run_paths hN (fun k u y hy => pf_stepLaw hN hK rest res k u y hy) (samples_markov hN hK) hK.meas (fun _ _ _ _ _ _ => rfl) hφ
    (bop_pathOp hlm hN x0 hden) hX hc rfl (fun tr anc pa x uv yv tv y => pf_measure_law hN hK rest res tr anc pa x uv yv tv y) h0 qs hqs ?_
  intro s us ys last x w hrep hk hgs hlast hx hw
  rw [smoothE_full hlx srest hps hm user d fuel φ hN x0 hk hgs hlast hw hrep]
  simp only [show pathG M ℓ φ qs.length [] = fun s => φ ((List.range (qs.length + 1)).map s) from funext fun s => pathG_nil M ℓ φ _ s]

/-- C92 for the SIR filter with any proposal density. -/
theorem C92_sir [MeasurableSpace P] [MeasurableSpace Ω] {C : Callbacks P U Y V Ω} {ν : Measure Ω} [IsProbabilityMeasure ν]
    {N : ℕ} (hN : 0 < N) {vol μ0 : Measure P} {M : ℕ → Slot U → Kernel P P} (hM : ∀ k u, IsMarkovKernel (M k u)) {ℓ : ℕ → Slot Y → P → ℝ}
    {q : ℕ → Slot U → Slot Y → Kernel P P} {lq : ℕ → Slot U → Slot Y → P → P → ℝ} {lx : ℕ → Slot U → P → P → ℝ}
    {good : Slot Y → Prop} (hC : Spec.SirSamples C good ν N vol μ0 M ℓ q lq lx) {res : ℝ} {name : String} {o : FilterOptions P} (hn : parseFilter name = .ok .sir)
    {F : FilterOps P U Y V Ω} (hF : mkFilter C N res name o = .ok F) {S : SmoothCallbacks P U Y V Ω}
    (hS : ∀ D, PlainSmooth S D) (hps : NoPostprocessing S) {m : ℕ} (hm : 0 < m) (user : Option SOpts) (d : AllDraws Ω) (fuel : ℕ)
    {φ : List P → ℝ≥0∞} (hφ : ∀ n, Measurable fun x : Fin n → P => φ (List.ofFn x)) {T : Option ℕ} {s0 : PT P U Y}
    (h0 : PT.init N T 0 = .ok s0) (qs : List (Slot U × Slot Y)) (hqs : ∀ q ∈ qs, good q.2) :
    (∀ y0, good y0 → ∫⁻ ω, stepsE ν qs (fun ds => runWeighted (smoothE S m "ancestor" user d fuel (pathMean φ m))
        (s0.run F (history (some (y0, ω)) ds))) ∂ν = ∫⁻ x, ENNReal.ofReal (exp (ℓ 0 y0 x)) * pathsE M ℓ φ 0 qs [] x ∂μ0) ∧
    (qs ≠ [] → stepsE ν qs (fun ds => runWeighted (smoothE S m "ancestor" user d fuel (pathMean φ m)) (s0.run F (history none ds))) =
      ∫⁻ x, pathsE M ℓ φ 0 qs [] x ∂μ0) := by
  obtain rfl := mkFilter_sir hn hF
  obtain ⟨X, hX, hc⟩ := hC.create
  haveI : Nonempty Ω := nonempty_of_isProbabilityMeasure ν
  set x0 : P := X ⟨0, hN⟩ (Classical.arbitrary Ω)
  refine run_paths hN (fun k u y hy => sir_stepLaw hN hC res k u y hy) hM hC.meas (sir_tilt hC) hφ
    (cop_pathOp x0 M) hX hc rfl (fun tr anc pa x uv yv tv y => sir_measure_law hN hC res tr anc pa x uv yv tv y) h0 qs hqs ?_
  intro s us ys last x w hrep hk hgs hlast hx hw
  rw [smoothE_ancestor hS hps hm user d fuel φ hN x0 hk hgs hlast hw us]
  simp only [pathG_nil, show pathG M ℓ φ qs.length [] = fun s => φ ((List.range (qs.length + 1)).map s) from funext fun s => pathG_nil M ℓ φ _ s]

/-- C93 for the SIR filter with any proposal density. -/
theorem C93_sir [MeasurableSpace P] [MeasurableSpace Ω] {C : Callbacks P U Y V Ω} {ν : Measure Ω} [IsProbabilityMeasure ν]
    {N : ℕ} (hN : 0 < N) {vol μ0 : Measure P} {M : ℕ → Slot U → Kernel P P} (hM : ∀ k u, IsMarkovKernel (M k u)) {ℓ : ℕ → Slot Y → P → ℝ}
    {q : ℕ → Slot U → Slot Y → Kernel P P} {lq : ℕ → Slot U → Slot Y → P → P → ℝ} {lx : ℕ → Slot U → P → P → ℝ}
    {good : Slot Y → Prop} (hC : Spec.SirSamples C good ν N vol μ0 M ℓ q lq lx) {res : ℝ} {name : String} {o : FilterOptions P} (hn : parseFilter name = .ok .sir)
    {F : FilterOps P U Y V Ω} (hF : mkFilter C N res name o = .ok F)
    (hlx : Spec.LogDensity C.logpXnext lx)
    {srest : SmoothCallbacks P U Y V Ω} (hps : NoPostprocessing srest) {m : ℕ} (hm : 0 < m) (user : Option SOpts) (d : AllDraws Ω) (fuel : ℕ)
    {φ : List P → ℝ≥0∞} (hφ : ∀ n, Measurable fun x : Fin n → P => φ (List.ofFn x)) {T : Option ℕ} {s0 : PT P U Y}
    (h0 : PT.init N T 0 = .ok s0) (qs : List (Slot U × Slot Y)) (hqs : ∀ q ∈ qs, good q.2) :
    (∀ y0, good y0 → ∫⁻ ω, stepsE ν qs (fun ds => runWeighted (smoothE (ffbsi C.logpXnext srest) m "full" user d fuel (pathMean φ m))
        (s0.run F (history (some (y0, ω)) ds))) ∂ν = ∫⁻ x, ENNReal.ofReal (exp (ℓ 0 y0 x)) * pathsE M ℓ φ 0 qs [] x ∂μ0) ∧
    (qs ≠ [] → stepsE ν qs (fun ds => runWeighted (smoothE (ffbsi C.logpXnext srest) m "full" user d fuel (pathMean φ m)) (s0.run F (history none ds))) =
      ∫⁻ x, pathsE M ℓ φ 0 qs [] x ∂μ0) := by
  obtain rfl := mkFilter_sir hn hF
  obtain ⟨X, hX, hc⟩ := hC.create
  haveI : Nonempty Ω := nonempty_of_isProbabilityMeasure ν
  set x0 : P := X ⟨0, hN⟩ (Classical.arbitrary Ω)
  refine run_paths hN (fun k u y hy => sir_stepLaw hN hC res k u y hy) hM hC.meas (sir_tilt hC) hφ
    (bop_pathOp hC.meas_x hN x0 hC.density_x) hX hc rfl (fun tr anc pa x uv yv tv y => sir_measure_law hN hC res tr anc pa x uv yv tv y) h0 qs hqs ?_
  intro s us ys last x w hrep hk hgs hlast hx hw
  rw [smoothE_full hlx srest hps hm user d fuel φ hN x0 hk hgs hlast hw hrep]
  simp only [show pathG M ℓ φ qs.length [] = fun s => φ ((List.range (qs.length + 1)).map s) from funext fun s => pathG_nil M ℓ φ _ s]

/-- C92, C93: with `φ` a function of the last state the exact value is that of C89. -/
theorem C92_last_state [MeasurableSpace P] (M : ℕ → Slot U → Kernel P P) (ℓ : ℕ → Slot Y → P → ℝ) (ψ : P → ℝ≥0∞) (c : ℝ≥0∞) (k : ℕ)
    (qs : List (Slot U × Slot Y)) (past : List P) (x : P) :
    pathsE M ℓ (fun l => (l.getLast?.map ψ).getD c) k qs past x = pathE M ℓ ψ k qs x := by
  induction qs generalizing k past x with
  | nil => simp [pathsE, pathE]
  | cons q qs ih => simp only [pathsE, pathE, ih]

end PyPE

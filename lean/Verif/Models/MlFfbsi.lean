import Verif.Smooth.RbBack
import Verif.Models.MlBayes
import Verif.Models.MlSmooth
import Verif.Models.MlInit

/-!
# C100 for mixed linear/nonlinear Gaussian models (mlnlg.py): `perform_smoothing(M, 'full')` after the Rao-Blackwellised particle filter
-/

namespace PyPE
open Real Spec MeasureTheory ProbabilityTheory Matrix
open scoped ENNReal

variable {lxi lz ly : ℕ} {U Y Ω : Type}

/-! ### The model -/

/-- One row of a particle array. The columns are `xi, z, P` after filtering (rbpf.py:428-445), `xi, z` after `sample_smooth` (mlnlg.py:562-588),
`xi, z, P, Mz` after `post_smoothing` (rbpf.py:346-379). -/
inductive MlRow (lxi lz : ℕ) where
  | filt (p : RbP lxi lz)
  | samp (s : VecR lxi × VecR lz)
  | post (s : RbS lxi lz)

/-- `row[:lxi]`. -/
def MlRow.xi : MlRow lxi lz → VecR lxi
  | .filt p => p.1
  | .samp s => s.1
  | .post s => s.1.1

/-- `row[:lxi + lz]` (mlnlg.py:472). -/
def MlRow.pair : MlRow lxi lz → VecR lxi × VecR lz
  | .filt p => (p.1, p.2.1)
  | .samp s => s
  | .post s => (s.1.1, s.1.2.1)

/-- `get_states` (rbpf.py:447-469) for one row: rows without a covariance cannot be reshaped. Simplification: `lz > 0`. -/
def MlRow.states : MlRow lxi lz → PyM (RbP lxi lz)
  | .filt p => .ok p
  | .samp _ => .error .valueError
  | .post s => .ok s.1

/-- `row[:lxi]` and `row[lxi:].reshape((lz, 1))` (mlnlg.py:566-567): longer rows cannot be reshaped. Simplification: `lz > 0`. -/
def MlRow.sampled : MlRow lxi lz → PyM (VecR lxi × VecR lz)
  | .samp s => .ok s
  | _ => .error .valueError

/-- `logp_xnext` (mlnlg.py:442-479) on arrays. -/
noncomputable def mlLogpRows (H : MlHooks lxi lz ly (Slot U) ℕ Y) (o : MlObj lxi lz ly) (rows next : List (MlRow lxi lz)) (u : Slot U) (t : ℕ) :
    PyM (List ℝ) := do
  let ps ← rows.mapM MlRow.states
  mlLogpXnext H o ps (next.map MlRow.pair) u t

/-- The draws at the end of `sample_smooth` (mlnlg.py:583-588); `ω` holds the randomness of the successive calls of `numpy.random.multivariate_normal`. -/
def mlDraw {m : ℕ} (mvn : VecR lz × MatR lz lz → Ω → VecR lz) (r : List (RbP lxi lz)) (ω : Fin m → Ω) : List (MlRow lxi lz) :=
  List.zipWith (fun p w => .samp (p.1, mvn (p.2.1, p.2.2) w)) r (List.ofFn ω)

/-- `sample_smooth` at the last time step (mlnlg.py:561-563, 583-589). -/
noncomputable def mlLast {m : ℕ} (H : MlHooks lxi lz ly (Slot U) ℕ Y) (o : MlObj lxi lz ly) (mvn : VecR lz × MatR lz lz → Ω → VecR lz)
    (rows : List (MlRow lxi lz)) (ω : Fin m → Ω) : PyM (List (MlRow lxi lz)) := do
  let ps ← rows.mapM MlRow.states
  let r ← mlSampleSmooth H o ps none [] .none 0
  return mlDraw mvn r ω

/-- `sample_smooth` before (mlnlg.py:561-589); `next` are the rows `future_trajs[0].pa.part[find]`. -/
noncomputable def mlBack {m : ℕ} (H : MlHooks lxi lz ly (Slot U) ℕ Y) (o : MlObj lxi lz ly) (mvn : VecR lz × MatR lz lz → Ω → VecR lz)
    (rows next : List (MlRow lxi lz)) (u : Slot U) (t : ℕ) (ω : Fin m → Ω) : PyM (List (MlRow lxi lz)) := do
  let ps ← rows.mapM MlRow.states
  let nx ← next.mapM MlRow.sampled
  let r ← mlSampleSmooth H o ps (some nx) (List.range nx.length) u t
  return mlDraw mvn r ω

/-- The measurement in a buffer entry, `None` if there is none; `zero` is what the model makes of the number `0` that `numpy.resize` puts into grown buffers. -/
def slotY (zero : Y) : Slot Y → Option Y
  | .none => none
  | .zero => some zero
  | .obj y => some y

/-- The data `post_smoothing` uses at step `i` of `n` (rbpf.py:367, 370, 409-421): at the last step it reads `st.y[-1]` and `st.t[-1]`, the last entries of the
buffers, and no input. -/
def mlStStep (zero : Y) (D : SData U Y) (n i : ℕ) (st : SStep (MlRow lxi lz)) : PyM (StStep lxi (Slot U) ℕ Y) :=
  if i + 1 < n then do
    let y ← getIdx D.y i
    let u ← getIdx D.u i
    let t ← getIdx D.t i
    return ⟨st.pa.part.map MlRow.xi, u, slotY zero y, t⟩
  else do
    let y ← getLast D.y
    let t ← getLast D.t
    return ⟨st.pa.part.map MlRow.xi, .none, slotY zero y, t⟩

/-- The step `TrajectoryStep(ParticleApproximation(particles), ancestors)` (rbpf.py:357-358, 365-366). -/
noncomputable def mlPostStep (st : SStep (MlRow lxi lz)) (li : List (RbS lxi lz)) : PyM (SStep (MlRow lxi lz)) := do
  let pa ← PA.new (li.map MlRow.post) none
  return ⟨pa, st.ancestors⟩

/-- `RBPSBase.post_smoothing` (rbpf.py:330-381) on a smoothed trajectory. -/
noncomputable def mlPostHook (H : MlHooks lxi lz ly (Slot U) ℕ Y) (o : MlObj lxi lz ly) (init : List (VecR lxi) → List (VecR lz × MatR lz lz)) (zero : Y)
    (D : SData U Y) (traj : List (SStep (MlRow lxi lz))) : PyM (List (SStep (MlRow lxi lz))) := do
  let steps ← (List.range traj.length).mapM fun i => do
    let st ← getIdx traj i
    mlStStep zero D traj.length i st
  match steps with
  | [] => .error .indexError
  | s :: rest => do
    let l ← mlPostSmoothing H o init s rest
    (traj.zip l).mapM fun q => mlPostStep q.1 q.2

/-- The smoothing callbacks of a mixed linear/nonlinear Gaussian model other than `logp_xnext` and `sample_smooth`: only `post_smoothing` matters for
backward simulation. -/
noncomputable def mlRest (H : MlHooks lxi lz ly (Slot U) ℕ Y) (o : MlObj lxi lz ly) (init : List (VecR lxi) → List (VecR lz × MatR lz lz)) (zero : Y)
    {V Ω' : Type} (other : SmoothCallbacks (MlRow lxi lz) U Y V Ω') (D : SData U Y) : SmoothCallbacks (MlRow lxi lz) U Y V Ω' :=
  { other with postSmoothing := some (mlPostHook H o init zero D) }

/-! ### The backward pass -/

theorem mapM_states (l : List (RbP lxi lz)) : (l.map MlRow.filt).mapM MlRow.states = .ok l := by
  rw [List.mapM_map]
  exact (mapM_ok_map (l := l) (g := fun p => p) fun _ _ => rfl).trans (by simp)

theorem mapM_sampled (l : List (VecR lxi × VecR lz)) : (l.map MlRow.samp).mapM MlRow.sampled = .ok l := by
  rw [List.mapM_map]
  exact (mapM_ok_map (l := l) (g := fun p => p) fun _ _ => rfl).trans (by simp)

/-- Weighting with two likelihoods. -/
theorem filtered_two {n a b : ℕ} (μ : Measure (Fin n → ℝ)) [SFinite μ] (C : MatR a n) (h : VecR a) (R : MatR a a) (y : VecR a) (C' : MatR b n) (h' : VecR b) (R' : MatR b b) (y' : VecR b) :
    Spec.filtered μ [.meas a C h R y, .meas b C' h' R' y'] = μ.withDensity fun x => Spec.likelihood C h R y x * Spec.likelihood C' h' R' y' x := by
  have m1 := measurable_likelihood C h R y
  have m2 := measurable_likelihood C' h' R' y'
  refine Measure.ext fun A hA => ?_
  have hp : MeasurableSet (Prod.snd ⁻¹' A : Set (Unit × (Fin n → ℝ))) := measurable_snd hA
  simp only [Spec.filtered, Spec.follow]
  have k1 : Measurable fun p : Unit × (Fin n → ℝ) => Spec.likelihood C h R y p.2 := m1.comp measurable_snd
  have k2 : Measurable fun p : Unit × (Fin n → ℝ) => Spec.likelihood C' h' R' y' p.2 := m2.comp measurable_snd
  rw [Measure.map_apply measurable_snd hA, ← withDensity_mul _ k1 k2, withDensity_apply _ hp,
    setLIntegral_map hp (k1.mul k2) (by fun_prop), withDensity_apply _ hA]
  rfl

theorem map_coord [MeasurableSpace Ω] {X : Type} [MeasurableSpace X] {ρ : Measure Ω} [IsProbabilityMeasure ρ] {m : ℕ} (i : Fin m) {f : Ω → X} (hf : Measurable f) :
    (Measure.pi fun _ : Fin m => ρ).map (fun ω => f (ω i)) = ρ.map f := by
  conv_rhs => rw [← (measurePreserving_eval (fun _ : Fin m => ρ) i).map_eq]
  rw [Measure.map_map hf (measurable_pi_apply i)]
  rfl

variable {H : MlHooks lxi lz ly (Slot U) ℕ Y} {o : MlObj lxi lz ly} {M : Spec.RbModel lxi lz ly (Slot U) ℕ Y}

open Classical in
/-- The backward kernel, for particles with a valid covariance. -/
noncomputable def Spec.RbModel.backward (M : Spec.RbModel lxi lz ly (Slot U) ℕ Y) (t : ℕ) (u : Slot U) (p : RbP lxi lz) :
    Kernel (VecR lxi × VecR lz) (VecR lxi × VecR lz) :=
  if p.2.2.PosSemidef then M.backKernel t u p else Kernel.id

/-- What the posterior given the next state must be. -/
theorem backKernel_eq (hG : M.Good) (h0 : ∀ x u t, M.Qxiz x u t = 0) (t : ℕ) (u : Slot U) (p : RbP lxi lz) (s' : VecR lxi × VecR lz) {z : VecR lz} {P : MatR lz lz}
    {ll : ℝ} (h : Spec.filtered (Spec.gauss p.2.1 p.2.2)
          [.meas lxi (M.Axi p.1 u t) (M.fxi p.1 u t) (M.Qxi p.1 u t) s'.1,
            .meas lz (M.condA p.1 u t) (M.condF p.1 u t s'.1) (M.Qz p.1 u t) s'.2] = ENNReal.ofReal (Real.exp ll) • Spec.gauss z P) :
    M.backKernel t u p s' = (Spec.gauss z P).map fun z => (p.1, z) := by
  rw [filtered_two] at h
  have e1 : M.condA p.1 u t = M.Az p.1 u t := by simp [Spec.RbModel.condA, h0]
  have e2 : M.condF p.1 u t s'.1 = M.fz p.1 u t := by simp [Spec.RbModel.condF, h0]
  rw [e1, e2] at h
  rw [Spec.RbModel.backKernel, Kernel.map_apply _ (by fun_prop), bayesKernel_eq (nextDens_measurable M t u p.1) (c := ENNReal.ofReal (exp ll))
    (by simp [exp_pos]) ENNReal.ofReal_ne_top h]

/-- The callbacks draw from the backward kernel of the model, and `logp_xnext` is the density of the next state. -/
theorem ml_backward [MeasurableSpace Ω] (hD : Spec.RbDescribes H o M) (hG : M.Good) (hQz : ∀ x u t, (M.Qz x u t).PosDef) (h0 : ∀ x u t, M.Qxiz x u t = 0)
    {ρ : Measure Ω} [IsProbabilityMeasure ρ] {mvn : VecR lz × MatR lz lz → Ω → VecR lz} (hm : ∀ a, Measurable (mvn a))
    (hmvn : ∀ a, a.2.PosSemidef → ρ.map (mvn a) = Spec.gauss a.1 a.2) (m : ℕ)
    {K : ℕ → Slot U → Kernel (VecR lxi × VecR lz) (VecR lxi × VecR lz)} [∀ t u, IsMarkovKernel (K t u)] (hK : ∀ t u s, K t u s = M.joint t u s) :
    Spec.RbBackward MlRow.filt MlRow.samp (mlLogpRows H o) (mlLast (m := m) H o mvn) (mlBack H o mvn) (Measure.pi fun _ : Fin m => ρ) m
      (fun p => p.2.2.PosSemidef) rbLaw K volume M.logNext M.backward where
  logp parts next u k hne hP hl := by
    have hQ : ∀ x, (M.stQ x u k).PosDef := fun x => by
      rw [Spec.RbModel.stQ, h0]; exact stQ_posDef (hG.Qxi x u k) (hQz x u k)
    obtain ⟨r, h1, h2, h3⟩ := C74_logp_xnext hD parts hne hP u k hQ next (.inr hl)
    unfold mlLogpRows
    have e : (next.map MlRow.samp).map MlRow.pair = next := by simp [MlRow.pair, Function.comp_def]
    rw [mapM_states, ok_bind, e, h1]
    congr 1
    refine List.ext_getElem? fun i => ?_
    rcases lt_or_ge i parts.length with hi | hi
    · obtain ⟨logp, -, q2, q3⟩ := h3 i parts[i] (List.getElem?_eq_getElem hi)
      have hn : next[i]? = some next[i] := List.getElem?_eq_getElem (by omega)
      rw [q3 next[i] (.inr ⟨hl, hn⟩), q2, List.getElem?_zipWith, hn, List.getElem?_eq_getElem hi]
      rfl
    · rw [List.getElem?_eq_none (by omega), List.getElem?_eq_none (by simp; omega)]
  draw x s u k hx := by
    have hP : ∀ p ∈ List.ofFn x, p.2.2.PosSemidef := fun p hp => by obtain ⟨i, rfl⟩ := (List.mem_ofFn' _ _).1 hp; exact hx i
    obtain ⟨-, r, h1, h2, h3⟩ := C75_sample_smooth hD hG hQz (List.ofFn x) hP (List.ofFn s) (List.range m) (by simp) (by simp) u k
    choose z P ll g1 g2 g3 using fun i : Fin m => h3 i (x i) i (s i) (by simp) (by simp) (by simp)
    have hr : r = List.ofFn fun i => ((x i).1, z i, P i) := by
      refine List.ext_getElem (by simpa using h2) fun i a b => ?_
      have := g1 ⟨i, by simpa using b⟩
      rw [List.getElem?_eq_getElem a] at this
      simpa using Option.some.inj this
    refine ⟨fun i ω => ((x i).1, mvn (z i, P i) (ω i)), fun ω => ?_, fun i => ⟨?_, ?_⟩⟩
    · have e1 : (List.ofFn fun i => MlRow.filt (x i)) = (List.ofFn x).map MlRow.filt := by rw [List.map_ofFn]; rfl
      have e2 : (List.ofFn fun i => MlRow.samp (lxi := lxi) (s i)) = (List.ofFn s).map MlRow.samp := by rw [List.map_ofFn]; rfl
      unfold mlBack
      rw [e1, e2, mapM_states, ok_bind, mapM_sampled, ok_bind, List.length_ofFn, h1, ok_bind, pure_eq_ok, mlDraw, hr, zipWith_ofFn']
    · exact measurable_const.prodMk ((hm _).comp (measurable_pi_apply i))
    · rw [Spec.RbModel.backward, if_pos (hx i), backKernel_eq hG h0 k u (x i) (s i) (g3 i), ← hmvn (z i, P i) (g2 i),
        Measure.map_map (by fun_prop) (hm _)]
      exact map_coord i (measurable_const.prodMk (hm _))
  last x hx := by
    refine ⟨fun i ω => ((x i).1, mvn ((x i).2.1, (x i).2.2) (ω i)), fun ω => ?_, fun i => ⟨?_, ?_⟩⟩
    · have e1 : (List.ofFn fun i => MlRow.filt (x i)) = (List.ofFn x).map MlRow.filt := by rw [List.map_ofFn]; rfl
      unfold mlLast
      rw [e1, mapM_states, ok_bind, mlSampleSmooth, ok_bind, pure_eq_ok, mlDraw, zipWith_ofFn']
    · exact measurable_const.prodMk ((hm _).comp (measurable_pi_apply i))
    · rw [rbLaw, ← hmvn ((x i).2.1, (x i).2.2) (hx i), Measure.map_map (by fun_prop) (hm _)]
      exact map_coord i (measurable_const.prodMk (hm _))
  bayes k u p hp g hg := by
    have := backKernel_bayes M k u p hp (h0 _ _ _) (hG.Qxi _ _ _) (hQz _ _ _) (hK k u) hg
    rw [Spec.RbModel.backward, if_pos hp]
    exact this
  meas_lp k u p := logNext_measurable M k u p
  markov k u p := by
    unfold Spec.RbModel.backward
    split
    · rename_i hp
      refine ⟨fun s' => ?_⟩
      obtain ⟨-, r, h1, h2, h3⟩ := C75_sample_smooth hD hG hQz [p] (by simpa using hp) [s'] [0] rfl (by simp) u k
      obtain ⟨z, P, ll, g1, g2, g3⟩ := h3 0 p 0 s' rfl rfl rfl
      rw [backKernel_eq hG h0 k u p s' g3]
      exact Measure.isProbabilityMeasure_map (by fun_prop)
    · infer_instance

/-! ### `post_smoothing` -/

/-- What `post_smoothing` uses at step `i` of `K + 1`, with the nonlinear state `x`. -/
def mlTrajStep (zero : Y) (D : SData U Y) (K : ℕ) (x : VecR lxi) (i : ℕ) : Spec.TrajStep lxi (Slot U) ℕ Y :=
  if i < K then ⟨x, D.u.getD i .none, slotY zero (D.y.getD i .none), D.t.getD i 0⟩
  else ⟨x, .none, slotY zero (D.y.getLast?.getD .none), D.t.getLast?.getD 0⟩

theorem mlTrajStep_xi (zero : Y) (D : SData U Y) (K : ℕ) (x : VecR lxi) (i : ℕ) : (mlTrajStep zero D K x i).xi = x := by
  unfold mlTrajStep; split <;> rfl

/-- `post_smoothing` after backward simulation: it succeeds, keeps the nonlinear states and stores the exact law of every linear state given the nonlinear path and the data
it reads. -/
theorem mlPostHook_spec (hD : Spec.RbDescribes H o M) (hG : M.Good) (hQz : ∀ x u t, (M.Qz x u t).PosDef)
    {init : List (VecR lxi) → List (VecR lz × MatR lz lz)} (hi : ∀ xs, (init xs).length = xs.length) (hP0 : ∀ xs, ∀ q ∈ init xs, q.2.PosSemidef)
    (zero : Y) {y0 : Slot Y} {qs : List (Slot U × Slot Y)} {D : SData U Y} {T : Option ℕ} (hDat : Spec.RunData T y0 qs D) {m : ℕ} (hm : 0 < m)
    (traj : List (SStep (MlRow lxi lz))) (σ : ℕ → ℕ → VecR lxi × VecR lz) (hl : traj.length = qs.length + 1)
    (hr : ∀ (t : ℕ) st, traj[t]? = some st → st.pa.part = (List.range m).map fun j => MlRow.samp (σ j t)) :
    ∃ out, mlPostHook H o init zero D traj = .ok out ∧ out.length = qs.length + 1 ∧ ∀ j < m, ∀ z0 P0,
      (init ((List.range m).map fun j => (σ j 0).1))[j]? = some (z0, P0) → ∃ ll : ℝ, ∀ i, i < qs.length + 1 → ∃ st zs Ps Mz, out[i]? = some st ∧
        st.pa.part[j]? = some (.post (((σ j i).1, zs, Ps), Mz)) ∧
        Spec.smoothed (Spec.gauss z0 P0) (M.past ((List.range (qs.length + 1)).map fun i => mlTrajStep zero D qs.length (σ j i).1 i) i)
          (M.future (((List.range (qs.length + 1)).map fun i => mlTrajStep zero D qs.length (σ j i).1 i).drop i)) =
          ENNReal.ofReal (exp ll) • Spec.gauss zs Ps := by
  set K := qs.length with hKdef
  have hy0 : ∃ y, D.y[0]? = some y := ⟨_, hDat.y0⟩
  have hyne : D.y ≠ [] := by obtain ⟨y, h⟩ := hy0; intro h'; simp [h'] at h
  have htne : D.t ≠ [] := by have := hDat.t 0 (by omega); intro h'; simp [h'] at this
  have hyk : ∀ i < K, ∃ y, D.y[i]? = some y := by
    intro i hiK
    cases i with
    | zero => exact hy0
    | succ i => exact ⟨_, hDat.y i qs[i] (List.getElem?_eq_getElem (by omega))⟩
  -- the data of every step
  have hstep : ∀ (i : ℕ) st, traj[i]? = some st → (do
      let st ← getIdx traj i
      mlStStep zero D traj.length i st : PyM (StStep lxi (Slot U) ℕ Y)) =
      .ok ⟨(List.range m).map fun j => (σ j i).1, (mlTrajStep zero D K (0 : VecR lxi) i).u, (mlTrajStep zero D K (0 : VecR lxi) i).y, (mlTrajStep zero D K (0 : VecR lxi) i).t⟩ := by
    intro i st hst
    have hil := lt_of_getElem?_some hst
    have hx : st.pa.part.map MlRow.xi = (List.range m).map fun j => (σ j i).1 := by
      rw [hr i st hst, List.map_map]; rfl
    rw [getIdx_ok.mpr hst, ok_bind, mlStStep, hx]
    unfold mlTrajStep
    by_cases hiK : i < K
    · obtain ⟨y, hy⟩ := hyk i hiK
      have hu := hDat.u i qs[i] (List.getElem?_eq_getElem hiK)
      have ht := hDat.t i (by omega)
      rw [if_pos (by omega)]
      simp only [if_pos hiK, getIdx_ok.mpr hy, getIdx_ok.mpr hu, getIdx_ok.mpr ht, ok_bind, List.getD_eq_getElem?_getD, hy, hu, ht, Option.getD_some]
      rfl
    · rw [if_neg (by omega)]
      have ly := List.getLast?_eq_some_getLast hyne
      have lt := List.getLast?_eq_some_getLast htne
      simp only [if_neg hiK, getLast_ok.mpr ly, getLast_ok.mpr lt, ok_bind, ly, lt, Option.getD_some]
      rfl
  obtain ⟨steps, hs1, hs2, hs3⟩ := mapM_points traj _ _ hstep
  obtain ⟨s, rest, rfl⟩ : ∃ s rest, steps = s :: rest := by
    cases steps with
    | nil => simp at hs2; omega
    | cons s rest => exact ⟨s, rest, rfl⟩
  have hs3' : ∀ i, i < K + 1 → (s :: rest)[i]? = some ⟨(List.range m).map fun j => (σ j i).1, (mlTrajStep zero D K (0 : VecR lxi) i).u,
      (mlTrajStep zero D K (0 : VecR lxi) i).y, (mlTrajStep zero D K (0 : VecR lxi) i).t⟩ := fun i hi' =>
    hs3 i _ (List.getElem?_eq_getElem (by omega))
  have hsx : s.xi = (List.range m).map fun j => (σ j 0).1 := by
    have := hs3' 0 (by omega)
    rw [List.getElem?_cons_zero] at this
    rw [Option.some.inj this]
  have hrx : ∀ s' ∈ rest, s'.xi.length = s.xi.length := by
    intro s' hs'
    obtain ⟨i, hi'⟩ := List.mem_iff_getElem?.1 hs'
    have hlt := lt_of_getElem?_some hi'
    have := hs3' (i + 1) (by simp at hs2; omega)
    rw [List.getElem?_cons_succ, hi'] at this
    rw [Option.some.inj this, hsx]
    simp
  have hsne : s.xi ≠ [] := by rw [hsx]; simp; omega
  obtain ⟨l, hlok⟩ := C73_smoothing_succeeds hD hG hQz init s rest hsne hrx (hi _) (hP0 _)
  obtain h | ⟨l', hl1, hl2, hl3⟩ := C73_smoothing_exact hD hG init s rest hsne hrx (hi _) (hP0 _)
  · rw [hlok] at h; cases h
  obtain rfl : l = l' := Except.ok.inj (hlok.symm.trans hl1)
  have hll : l.length = K + 1 := by rw [hl2]; simp at hs2; omega
  -- every trajectory
  have htr : ∀ j < m, Spec.IsTraj (s :: rest) j ((List.range (K + 1)).map fun i => mlTrajStep zero D K (σ j i).1 i) := by
    intro j hj
    unfold Spec.IsTraj
    rw [List.forall₂_iff_get]
    refine ⟨by simp at hs2 ⊢; omega, fun i h1 h2 => ?_⟩
    have hiK : i < K + 1 := by simpa using h2
    have := hs3' i hiK
    rw [List.getElem?_eq_getElem h1] at this
    simp only [List.get_eq_getElem, Option.some.inj this, List.getElem_map, List.getElem_range, mlTrajStep_xi]
    refine ⟨by simp [hj], ?_⟩
    unfold mlTrajStep
    split <;> exact ⟨rfl, rfl, rfl⟩
  have hlen : ∀ i, i < K + 1 → ∃ li, l[i]? = some li ∧ li.length = m := by
    intro i hiK
    obtain ⟨q, hq⟩ : ∃ q, (init s.xi)[0]? = some q := by
      have : 0 < (init s.xi).length := by rw [hi, hsx]; simpa using hm
      exact ⟨_, List.getElem?_eq_getElem this⟩
    obtain ⟨ll, h⟩ := hl3 0 _ q.1 q.2 (htr 0 hm) hq
    obtain ⟨li, zs, Ps, Mz, e1, e2, -⟩ := h i (mlTrajStep zero D K (σ 0 i).1 i) (by simp [hiK])
    exact ⟨li, e1, by rw [e2, hsx]; simp⟩
  have hpost : ∀ (i : ℕ) q, (traj.zip l)[i]? = some q → mlPostStep q.1 q.2 =
      .ok ⟨⟨q.2.map MlRow.post, List.replicate m (-Real.log m), m, 0⟩, q.1.ancestors⟩ := by
    intro i q hq
    rw [List.getElem?_zip_eq_some] at hq
    obtain ⟨li, h1, h2⟩ := hlen i (by rw [← hl]; exact lt_of_getElem?_some hq.1)
    rw [h1] at hq
    obtain rfl := Option.some.inj hq.2
    unfold mlPostStep PA.new
    simp only [List.length_map, h2, if_neg (show ¬ m = 0 by omega), ok_bind]
    rfl
  have hout := mapM_ok_map (l := traj.zip l) (f := fun q => mlPostStep q.1 q.2)
    (g := fun q => ⟨⟨q.2.map MlRow.post, List.replicate m (-Real.log m), m, 0⟩, q.1.ancestors⟩) (fun q hq => by
      obtain ⟨i, hi'⟩ := List.mem_iff_getElem?.1 hq
      exact hpost i q hi')
  refine ⟨(traj.zip l).map fun q => ⟨⟨q.2.map MlRow.post, List.replicate m (-Real.log m), m, 0⟩, q.1.ancestors⟩, ?_, ?_, ?_⟩
  · unfold mlPostHook
    rw [hs1, ok_bind]
    simp only [hlok, ok_bind, hout]
  · simp [hl, hll]
  · intro j hj z0 P0 hz
    rw [← hsx] at hz
    obtain ⟨ll, h⟩ := hl3 j _ z0 P0 (htr j hj) hz
    refine ⟨ll, fun i hiK => ?_⟩
    obtain ⟨li, zs, Ps, Mz, e1, e2, e3, e4, -⟩ := h i (mlTrajStep zero D K (σ j i).1 i) (by simp [hiK])
    have hti : traj[i]? = some traj[i] := List.getElem?_eq_getElem (by omega)
    have hz : (traj.zip l)[i]? = some (traj[i], li) := List.getElem?_zip_eq_some.mpr ⟨hti, e1⟩
    refine ⟨_, zs, Ps, Mz, by rw [List.getElem?_map, hz]; rfl, ?_, e4⟩
    rw [mlTrajStep_xi] at e3
    simp [e3]

/-- `post_smoothing` keeps the nonlinear paths. -/
theorem mlPost_reads (hD : Spec.RbDescribes H o M) (hG : M.Good) (hQz : ∀ x u t, (M.Qz x u t).PosDef)
    {init : List (VecR lxi) → List (VecR lz × MatR lz lz)} (hi : ∀ xs, (init xs).length = xs.length) (hP0 : ∀ xs, ∀ q ∈ init xs, q.2.PosSemidef)
    (zero : Y) {y0 : Slot Y} {qs : List (Slot U × Slot Y)} {D : SData U Y} {T : Option ℕ} (hDat : Spec.RunData T y0 qs D) {m : ℕ} (hm : 0 < m)
    {V Ω' : Type} (other : SmoothCallbacks (MlRow lxi lz) U Y V Ω') (φ : List (VecR lxi) → ℝ≥0∞) :
    Spec.ReadsPaths (mlRest H o init zero other D).postSmoothing MlRow.samp m (qs.length + 1) (fun rows => φ (rows.map MlRow.xi))
      (fun path => φ (path.map Prod.fst)) := by
  intro traj σ hl hr
  obtain ⟨out, h1, h2, h3⟩ := mlPostHook_spec hD hG hQz hi hP0 zero hDat hm traj σ hl hr
  refine ⟨out, h1, fun j hj => ?_⟩
  obtain ⟨q, hq⟩ : ∃ q, (init ((List.range m).map fun j => (σ j 0).1))[j]? = some q := by
    have : j < (init ((List.range m).map fun j => (σ j 0).1)).length := by rw [hi]; simpa using hj
    exact ⟨_, List.getElem?_eq_getElem this⟩
  obtain ⟨ll, h⟩ := h3 j hj q.1 q.2 hq
  choose! st zs Ps Mz g1 g2 g3 using h
  have hp : pathOf out j = (List.range (qs.length + 1)).map fun i => .post (((σ j i).1, zs i, Ps i), Mz i) := by
    unfold pathOf
    rw [filterMap_range out _ (fun i => .post (((σ j i).1, zs i, Ps i), Mz i)), h2]
    intro t a ha
    have ht : t < qs.length + 1 := by rw [← h2]; exact lt_of_getElem?_some ha
    have := g1 t ht
    rw [ha] at this
    rw [Option.some.inj this]
    exact g2 t ht
  show φ ((pathOf out j).map MlRow.xi) = φ (((List.range (qs.length + 1)).map (σ j)).map Prod.fst)
  rw [hp, List.map_map, List.map_map]
  rfl

theorem joint_markov {K : ℕ → Slot U → Kernel (VecR lxi × VecR lz) (VecR lxi × VecR lz)} (hK : ∀ t u s, K t u s = M.joint t u s) (t : ℕ) (u : Slot U) :
    IsMarkovKernel (K t u) := by
  refine ⟨fun s => ?_⟩
  rw [hK, Spec.RbModel.joint]
  exact Measure.isProbabilityMeasure_map (Continuous.aemeasurable (by fun_prop))

theorem nonlinear_measurable {φ : List (VecR lxi) → ℝ≥0∞} (hφ : ∀ n, Measurable fun x : Fin n → VecR lxi => φ (List.ofFn x)) (n : ℕ) :
    Measurable fun x : Fin n → VecR lxi × VecR lz => φ ((List.ofFn x).map Prod.fst) := by
  simp only [List.map_ofFn]
  exact (hφ n).comp (measurable_pi_lambda _ fun i => measurable_fst.comp (measurable_pi_apply i))

/-- **C100** for mixed linear/nonlinear Gaussian models with one nonlinear state and uncorrelated process noises: run the bootstrap filter with any number of particles and any
resampling threshold, then `perform_smoothing(m, 'full')`. Over all random draws, the likelihood estimate times the average over the returned trajectories of a
non-negative function `φ` of the nonlinear path has expectation `E[Π_t p(y_t | xi_t, z_t) φ(xi_0, …, xi_T)]` under the joint model, for histories that start with
`measure(y0)` and ones that start with `forward`. -/
theorem C100_mixed_gaussian {Ωz V : Type} [MeasurableSpace Ω] [MeasurableSpace Ωz] {H : MlHooks 1 lz ly (Slot U) ℕ Y} {o : MlObj 1 lz ly}
    {M : Spec.RbModel 1 lz ly (Slot U) ℕ Y} (hD : Spec.RbDescribes H o M) (hG : M.Good) (hQz : ∀ x u t, (M.Qz x u t).PosDef)
    (hQ0 : ∀ x u t, M.Qxiz x u t = 0) {o0 : MlX0 1 lz} (hPx : o0.Pxi0.PosSemidef) (hPz : o0.Pz0.PosSemidef)
    {ρ : Measure Ω} [IsProbabilityMeasure ρ] {mvn : VecR 1 × MatR 1 1 → Ω → VecR 1} (hm : ∀ a, Measurable (mvn a))
    (hmvn : ∀ a, a.2.PosSemidef → ρ.map (mvn a) = Spec.gauss a.1 a.2)
    {ρz : Measure Ωz} [IsProbabilityMeasure ρz] {mvz : VecR lz × MatR lz lz → Ωz → VecR lz} (hz : ∀ a, Measurable (mvz a))
    (hmvz : ∀ a, a.2.PosSemidef → ρz.map (mvz a) = Spec.gauss a.1 a.2) {N m : ℕ} (hN : 0 < N) (hM : 0 < m)
    {K : ℕ → Slot U → Kernel (VecR 1 × VecR lz) (VecR 1 × VecR lz)} (hK : ∀ t u s, K t u s = M.joint t u s)
    (hmeas : ∀ t y, Measurable (M.loglik t y)) (res : ℝ) (zero : Y) (other : SmoothCallbacks (MlRow 1 lz) U Y V (Fin m → Ωz)) (user : Option SOpts)
    (d : AllDraws (Fin m → Ωz)) (fuel : ℕ) {φ : List (VecR 1) → ℝ≥0∞} (hφ : ∀ n, Measurable fun x : Fin n → VecR 1 => φ (List.ofFn x))
    {T : Option ℕ} {s0 : PT (RbP 1 lz) U Y} (hs : PT.init N T 0 = .ok s0) (qs : List (Slot U × Y)) :
    let est := runWeighted (smoothRbE (Measure.pi fun _ : Fin m => ρz) MlRow.filt
      (fun D => rbSmooth (mlLogpRows H o) (mlLast H o mvz) (mlBack H o mvz) (mlRest H o o0.rbInitial zero other D)) m "full" user d fuel
      (pathMean (fun rows => φ (rows.map MlRow.xi)) m))
    let paths := pathsE K M.loglik (fun path => φ (path.map Prod.fst)) 0 (qs.map fun q => (q.1, .obj q.2)) []
    (∀ y0, ∫⁻ ω, stepsE (Measure.pi fun _ : Fin N => ρ) (qs.map fun q => (q.1, .obj q.2))
        (fun ds => est (s0.run (rbfOps (mlMarkov N H o o0 mvn) res) (history (some (.obj y0, ω)) ds))) ∂(Measure.pi fun _ : Fin N => ρ) =
      ∫⁻ s, ENNReal.ofReal (exp (Spec.logNormal (M.R s.1 y0 0) (M.y y0 0 - M.C s.1 y0 0 *ᵥ s.2 - M.h s.1 y0 0))) * paths s
        ∂(Spec.gauss o0.xi0 o0.Pxi0).prod (Spec.gauss o0.z0 o0.Pz0)) ∧
    (qs ≠ [] → stepsE (Measure.pi fun _ : Fin N => ρ) (qs.map fun q => (q.1, .obj q.2))
        (fun ds => est (s0.run (rbfOps (mlMarkov N H o o0 mvn) res) (history none ds))) =
      ∫⁻ s, paths s ∂(Spec.gauss o0.xi0 o0.Pxi0).prod (Spec.gauss o0.z0 o0.Pz0)) := by
  haveI hmk := joint_markov hK
  have h := fun y0 => C100_unbiased (Kf := mlMarkov N H o o0 mvn) (νf := Measure.pi fun _ : Fin N => ρ) hN
    (fun p _ => Measure.isProbabilityMeasure_map (by fun_prop)) hmk (ml_samples hD hG hPx hPz hm hmvn hN hK hmeas) res
    (ml_backward hD hG hQz hQ0 hz hmvz m hK) (rest := mlRest H o o0.rbInitial zero other) hM user d fuel
    (φ := fun path => φ (path.map Prod.fst)) (nonlinear_measurable hφ) (ψ := fun rows => φ (rows.map MlRow.xi)) hs y0
    (qs.map fun q => (q.1, .obj q.2)) (by
      intro q hq
      obtain ⟨q', -, rfl⟩ := List.mem_map.mp hq
      exact ⟨_, rfl⟩) (fun D hDat => by
        exact mlPost_reads hD hG hQz (by simp [MlX0.rbInitial]) (by
          intro xs q hq
          rw [List.eq_of_mem_replicate hq]
          exact hPz) zero hDat hM other φ)
  refine ⟨fun y0 => (h (.obj y0)).1 ⟨_, rfl⟩, fun hne => (h .none).2 rfl (by simpa using hne)⟩

/-! ### A concrete case -/

/-- `xi' = xi z + xi + vxi`, `z' = z/2 + vz`, `y = z + xi + e`. -/
noncomputable def smoToyO : MlObj 1 1 1 :=
  MlObj.init (some !![1 / 2]) (some !![1]) (some !![1]) (some !![1]) (some 0) none (some !![2]) none none none

/-- The model on paper. -/
noncomputable def smoToyM : Spec.RbModel 1 1 1 (Slot ℝ) ℕ ℝ := { rbfToyM with Qxiz := fun _ _ _ => 0 }

theorem smoToy_describes : Spec.RbDescribes rbfToyH smoToyO smoToyM := by
  constructor <;> intros <;> simp_all [Spec.Gives, Spec.GivesOrZero, rbfToyH, smoToyO, smoToyM, rbfToyM, MlObj.init, KF.new, KF.setDynamics]

theorem smoToy_good : smoToyM.Good :=
  ⟨fun _ _ _ => posDef_one_iff.2 (by simp [smoToyM, rbfToyM]), fun _ _ _ => (posDef_one_iff.2 (by simp [smoToyM, rbfToyM])).posSemidef,
    fun _ _ _ => posDef_one_iff.2 (by simp [smoToyM, rbfToyM])⟩

/-- C100: the hypotheses are met by a filter with three particles followed by smoothing with two trajectories. -/
example (y0 y1 y2 : ℝ) (other : SmoothCallbacks (MlRow 1 1) ℝ ℝ Unit (Fin 2 → VecR 1)) (d : AllDraws (Fin 2 → VecR 1)) :
    ∃ (mvn : VecR 1 × MatR 1 1 → VecR 1 → VecR 1) (K : ℕ → Slot ℝ → Kernel (VecR 1 × VecR 1) (VecR 1 × VecR 1))
    (s0 : PT (RbP 1 1) ℝ ℝ), (∀ t u s, K t u s = smoToyM.joint t u s) ∧ ∫⁻ ω, stepsE (Measure.pi fun _ : Fin 3 => Spec.gauss 0 1) [(.none, .obj y1), (.none, .obj y2)]
        (fun ds => runWeighted (smoothRbE (Measure.pi fun _ : Fin 2 => Spec.gauss 0 1) MlRow.filt
          (fun D => rbSmooth (mlLogpRows rbfToyH smoToyO) (mlLast rbfToyH smoToyO mvn) (mlBack rbfToyH smoToyO mvn)
            (mlRest rbfToyH smoToyO (MlX0.rbInitial ⟨0, 1, 0, 1⟩) 0 other D)) 2 "full" none d 0
          (pathMean (fun rows => ENNReal.ofReal ((rows.map fun r => r.xi 0).sum ^ 2)) 2))
          (s0.run (rbfOps (mlMarkov 3 rbfToyH smoToyO ⟨0, 1, 0, 1⟩ mvn) 0.5) (history (some (.obj y0, ω)) ds))) ∂(Measure.pi fun _ : Fin 3 => Spec.gauss 0 1) =
      ∫⁻ s, ENNReal.ofReal (exp (Spec.logNormal !![1] ((fun _ => y0) - !![1] *ᵥ s.2 - s.1))) *
        pathsE K smoToyM.loglik (fun path => ENNReal.ofReal ((path.map fun s => s.1 0).sum ^ 2)) 0 [(.none, .obj y1), (.none, .obj y2)] [] s
        ∂(Spec.gauss (0 : VecR 1) 1).prod (Spec.gauss (0 : VecR 1) 1) := by
  obtain ⟨mvn, h1, h2⟩ := exists_mvn 1
  have hk : ∀ t u, ∃ K : Kernel (VecR 1 × VecR 1) (VecR 1 × VecR 1), ∀ s, K s = smoToyM.joint t u s := fun t u =>
    joint_kernel smoToyM t u (fun _ => rfl) (fun _ => rfl) (Continuous.measurable (by simp only [smoToyM, rbfToyM]; fun_prop))
  choose K hK using hk
  obtain ⟨s0, hs⟩ : ∃ s0 : PT (RbP 1 1) ℝ ℝ, PT.init 3 none 0 = .ok s0 := ⟨_, rfl⟩
  refine ⟨mvn, K, s0, hK, ?_⟩
  have h := (C100_mixed_gaussian smoToy_describes smoToy_good (fun _ _ _ => posDef_one_iff.2 (by simp [smoToyM, rbfToyM])) (fun _ _ _ => rfl)
    (o0 := ⟨0, 1, 0, 1⟩) (PosSemidef.one) PosSemidef.one h1 h2 h1 h2 (N := 3) (m := 2) (by omega) (by omega) hK
    (fun t y => by
      cases y with
      | obj y => 
        have : Continuous fun s : VecR 1 × VecR 1 => Spec.logNormal (!![1] : MatR 1 1) ((fun _ => y) - !![1] *ᵥ s.2 - s.1) :=
          (continuous_logNormal _).comp (by fun_prop)
        exact this.measurable
      | _ => exact measurable_const) 0.5 0 other none d 0 (φ := fun l => ENNReal.ofReal ((l.map fun x => x 0).sum ^ 2)) (fun n => by
        simp only [List.map_ofFn, List.sum_ofFn]
        fun_prop) hs [(.none, y1), (.none, y2)]).1 y0
  simp only [List.map_map, List.map_cons, List.map_nil] at h
  exact h

end PyPE

import Verif.Smooth.BpCode

/-!
# C122: the time loop of `perform_mhbp` with one trajectory
-/

namespace PyPE
open Real Spec MeasureTheory ProbabilityTheory
open scoped ENNReal

variable {P U Y V Ω : Type}

/-- The smoothed steps of times `n, …, K` hold the states of the path `s`. -/
def Holds (K n : ℕ) (s : ℕ → P) (futs : List (SStep P)) : Prop :=
  futs.map (fun st => st.pa.part) = (List.range' n (K + 1 - n)).map fun j => [s j]

theorem Holds.cons {K t : ℕ} (ht : t ≤ K) {s : ℕ → P} {futs : List (SStep P)} (h : Holds K (t+1) s futs) {st : SStep P} {x : P} (hx : st.pa.part = [x]) :
    Holds K t (Function.update s t x) (st :: futs) := by
  unfold Holds at *
  rw [show K + 1 - t = (K + 1 - (t+1)) + 1 by omega, List.range'_succ, List.map_cons, List.map_cons, h, hx, Function.update_self]
  congr 1
  refine List.map_congr_left fun j hj => ?_
  rw [List.mem_range'] at hj
  rw [Function.update_of_ne (by omega)]

theorem Holds.congr {K n : ℕ} {s s' : ℕ → P} {futs : List (SStep P)} (h : Holds K n s futs) (e : ∀ j, n ≤ j → s' j = s j) : Holds K n s' futs := by
  unfold Holds at *
  rw [h]
  refine List.map_congr_left fun j hj => ?_
  rw [List.mem_range'] at hj
  rw [e j (by omega)]

theorem Holds.future {K t : ℕ} (ht : t ≤ K) {s : ℕ → P} {futs : List (SStep P)} (h : Holds K (t+1) s futs) :
    FutureAt (after K s t) (if t + 1 < K + 1 then some futs else none) := by
  unfold after
  by_cases hk : t < K
  · rw [if_pos hk, if_pos (by omega)]
    have hl : futs.length = K + 1 - (t+1) := by simpa [Holds] using congrArg List.length h
    have h0 : 0 < futs.length := by omega
    refine ⟨futs[0], List.getElem?_eq_getElem h0, ?_⟩
    have := congrArg (fun l => l[0]?) h
    simp only [List.getElem?_map, List.getElem?_eq_getElem h0, Option.map_some] at this
    rw [show K + 1 - (t+1) = (K - (t+1)) + 1 by omega, List.range'_succ] at this
    simpa using this
  · rw [if_neg hk, if_neg (by omega)]
    trivial

theorem partAt_get (x0 : P) {N : ℕ} {pt : List (Step P)} {n i : ℕ} {st : Step P} (h : pt[n]? = some st) (hg : GoodStep N st) (hi : i < N) :
    st.pa.part[i]? = some (partAt x0 pt n i) := by
  have hl : i < st.pa.part.length := by rw [hg.pa.part_len]; exact hi
  rw [List.getElem?_eq_getElem hl]
  simp [partAt, h, List.getD_eq_getElem?_getD, hl]

theorem ancOf_get {N : ℕ} {pt : List (Step P)} {n i : ℕ} {st : Step P} (h : pt[n]? = some st) (hg : GoodStep N st) (hi : i < N) :
    st.ancestors[i]? = some (ancOf pt n i) ∧ ancOf pt n i < N := by
  have hl : i < st.ancestors.length := by rw [hg.anc_len]; exact hi
  have e : st.ancestors[i]? = some (ancOf pt n i) := by
    rw [List.getElem?_eq_getElem hl]
    simp [ancOf, h, List.getD_eq_getElem?_getD, hl]
  exact ⟨e, hg.anc_lt _ (List.mem_of_getElem? e)⟩

section
variable [MeasurableSpace P] [MeasurableSpace Ω] {S : SmoothCallbacks P U Y V Ω} {D : SData U Y} {K : ℕ} {l0 : P → ℝ} {lp : ℕ → P → P → ℝ} {g : ℕ → P → ℝ}
  {ν : Measure Ω} [IsProbabilityMeasure ν] {vol : Measure P} [SigmaFinite vol] {lq : ℕ → Option P → Option P → P → ℝ}

/-- What the loop does after the iterations at time `t`. -/
noncomputable def bpRest (S : SmoothCallbacks P U Y V Ω) (pt : List (Step P)) (R : ℕ) (D : SData U Y) (t : ℕ) (futs : List (SStep P)) (draws : ℕ → MhbpDraws Ω) :
    PyM (List P × List ℕ × Option (List ℕ)) → PyM (List (SStep P))
  | .error e => .error e
  | .ok r => do
    let pa ← PA.new r.1 none
    mhbpLoop S pt 1 R D draws t r.2.1 (some r.2.1) r.2.2 (⟨pa, none⟩ :: futs)

/-- The draws of time `t` in the loop. -/
theorem bp_times {t R : ℕ} {A : (ℕ → MhbpDraws Ω) → MhbpDraws Ω → ℝ≥0∞} {f : (ℕ → MhbpDraws Ω) → ℝ≥0∞} (h : ∀ b, f b = A b (b t)) (b : ℕ → MhbpDraws Ω) :
    timesE ν R (t+1) f b = itersE ν R 0 (fun dt => timesE ν R t (fun b' => A b' dt) (Function.update b t dt)) (b t) := by
  rw [timesE]
  congr 1
  funext dt
  refine timesE_congr ν fun b' hb' => ?_
  rw [h, hb' t le_rfl, Function.update_self]

/-- The loop, integrated over its draws. -/
theorem bp_loop (hlaw : PathLaw vol l0 lp g lq) (h : MhPaths S D 1 K l0 lp g) (hp : BackProposal S D ν K vol lq) (hK : 1 ≤ K) {N : ℕ} (hN : 0 < N) {pt : List (Step P)}
    (hpt : pt.length = K + 1) (hgs : ∀ st ∈ pt, GoodStep N st) (x0 : P) (R : ℕ) {ψ : (ℕ → P) → ℝ≥0∞} (hψ : Measurable ψ) {F : PyM (List (SStep P)) → ℝ≥0∞}
    (hF : ∀ s out, Holds K 0 s out → F (.ok out) = ψ s) (t : ℕ) (ht : t ≤ K) (s : ℕ → P) {i : ℕ} (hi : i < N) {anc panc : Option (List ℕ)}
    (h0 : t = 0 → anc ≠ none ∧ (R ≠ 0 → panc ≠ none)) {futs : List (SStep P)} (hfuts : Holds K (t+1) s futs) (b : ℕ → MhbpDraws Ω) :
    timesE ν R (t+1) (fun draws => F (mhbpLoop S pt 1 R D draws (t+1) [i] anc panc futs)) b =
      bpOp vol l0 lp g lq K N R x0 pt ψ t (i, Function.update s t (partAt x0 pt t i)) := by
  induction t generalizing s i anc panc futs b with
  | zero =>
    obtain ⟨st, hst⟩ : ∃ st, pt[0]? = some st := ⟨_, List.getElem?_eq_getElem (by omega)⟩
    have hg := hgs st (List.mem_of_getElem? hst)
    obtain ⟨a1, rfl⟩ := Option.ne_none_iff_exists'.mp (h0 rfl).1
    have hloop : ∀ draws : ℕ → MhbpDraws Ω, mhbpLoop S pt 1 R D draws 1 [i] (some a1) panc futs =
        bpRest S pt R D 0 futs draws (mhbpInner S none (if 0 + 1 < K + 1 then some futs else none) 1 D 0 none (draws 0) (List.range' 0 R)
          ([partAt x0 pt 0 i], a1, panc)) := by
      intro draws
      rw [mhbpLoop]
      simp only [getIdx_ok.mpr hst, ok_bind, fancy_single (partAt_get x0 hst hg hi), lt_irrefl, if_false, pure_eq_ok, hpt, ← List.range_eq_range']
      generalize mhbpInner S none (if 0 + 1 < K + 1 then some futs else none) 1 D 0 none (draws 0) (List.range R) ([partAt x0 pt 0 i], a1, panc) = q
      rcases q with e | r
      · rfl
      · simp only [ok_bind, bpRest, h.smooth _ _ _ _ _ _ _]
    rw [bp_times (t := 0) (A := fun b dt => F (bpRest S pt R D 0 futs b (mhbpInner S none (if 0 + 1 < K + 1 then some futs else none) 1 D 0 none dt (List.range' 0 R)
          ([partAt x0 pt 0 i], a1, panc)))) (fun b => by rw [hloop])]
    refine (bp_inner_first (f := fun r dt => F (bpRest S pt R D 0 futs (Function.update b 0 dt) r)) hlaw h hp hK s (hfuts.future ht) hψ ?_ R 0 (h0 rfl).2 (b 0)).trans rfl
    intro d' x' a' p'
    obtain ⟨pa, e, -, hpa, -⟩ := PA.new_none_wf (part := [x']) rfl one_pos
    simp only [bpRest, e, ok_bind, mhbpLoop]
    exact hF _ _ (hfuts.cons ht (st := ⟨pa, none⟩) hpa)
  | succ n ih =>
    obtain ⟨st, hst⟩ : ∃ st, pt[n+1]? = some st := ⟨_, List.getElem?_eq_getElem (by omega)⟩
    have hg := hgs st (List.mem_of_getElem? hst)
    obtain ⟨prev, hprev⟩ : ∃ st, pt[n]? = some st := ⟨_, List.getElem?_eq_getElem (by omega)⟩
    have hgp := hgs prev (List.mem_of_getElem? hprev)
    obtain ⟨hanc, hancN⟩ := ancOf_get hst hg hi
    have hw' := maxNormalised_eq (hgp.pa.w_ne hN)
    have hloop : ∀ draws : ℕ → MhbpDraws Ω, mhbpLoop S pt 1 R D draws (n+1+1) [i] anc panc futs =
        bpRest S pt R D (n+1) futs draws (mhbpInner S (some ((pt.take (n+1)).map Step.toS)) (if n + 1 + 1 < K + 1 then some futs else none) 1 D (n+1)
          (some (normWeights prev.pa.w)) (draws (n+1)) (List.range' 0 R) ([partAt x0 pt (n+1) i], [ancOf pt (n+1) i], panc)) := by
      intro draws
      rw [mhbpLoop]
      simp only [getIdx_ok.mpr hst, ok_bind, fancy_single (partAt_get x0 hst hg hi), Nat.succ_pos, if_true, pure_eq_ok, hpt, ← List.range_eq_range',
        fancy_single hanc, Nat.add_sub_cancel, getIdx_ok.mpr hprev, hw']
      generalize mhbpInner S (some ((pt.take (n+1)).map Step.toS)) (if n + 1 + 1 < K + 1 then some futs else none) 1 D (n+1)
          (some (normWeights prev.pa.w)) (draws (n+1)) (List.range R) ([partAt x0 pt (n+1) i], [ancOf pt (n+1) i], panc) = q
      rcases q with e | r
      · rfl
      · simp only [ok_bind, bpRest, h.smooth _ _ _ _ _ _ _]
    rw [bp_times (t := n+1) (A := fun b dt => F (bpRest S pt R D (n+1) futs b (mhbpInner S (some ((pt.take (n+1)).map Step.toS)) (if n + 1 + 1 < K + 1 then some futs else none) 1 D (n+1)
          (some (normWeights prev.pa.w)) dt (List.range' 0 R) ([partAt x0 pt (n+1) i], [ancOf pt (n+1) i], panc)))) (fun b => by rw [hloop])]
    have mp : Measurable fun z : ℕ × (ℕ → P) => partAt x0 pt n z.1 := (measurable_from_nat (f := partAt x0 pt n)).comp measurable_fst
    have mΦ : Measurable fun z : ℕ × (ℕ → P) => bpOp vol l0 lp g lq K N R x0 pt ψ n (z.1, Function.update z.2 n (partAt x0 pt n z.1)) :=
      (bpOp_measurable hlaw K N R x0 pt hψ n).comp (measurable_fst.prodMk ((measurable_updateAt n).comp (measurable_snd.prodMk mp)))
    refine (bp_inner (Good := fun p => R ≠ 0 → p ≠ none)
      (f := fun r dt => timesE ν R (n+1) (fun b' => F (bpRest S pt R D (n+1) futs b' r)) (Function.update b (n+1) dt)) hlaw h hp hN ht hprev hgp hw' x0 s
      (hfuts.future ht) (fun _ _ => by simp) mΦ ?_ R 0 hancN (fun e e' => absurd e e') (b (n+1))).trans rfl
    intro d' x' a' p' ha' hp'
    obtain ⟨pa, e, -, hpa, -⟩ := PA.new_none_wf (part := [x']) rfl one_pos
    simp only [bpRest, e, ok_bind]
    exact ih (by omega) _ ha' (fun _ => ⟨by simp, hp'⟩) (hfuts.cons ht (st := ⟨pa, none⟩) hpa) _

end

end PyPE

import Verif.Sim.Model
import Verif.Traj.Props
import Verif.Filter.Props

/-!
# Properties of `Simulator` (simulator.py): C23, C24, C27, C62
-/

namespace PyPE
open Real Spec

variable {P U Y V Ω S : Type}

/-- The call `forward(u[i - offset], y[i])` of iteration `i`. -/
def loopOp (u : List (Slot U)) (y : List (Slot Y)) (offset : ℕ) (draws : ℕ → Ω × Draws Ω) (i : ℕ) :
    Op U Y Ω :=
  .forward (u.getD (i - offset) .none) (y.getD i .none) (draws i).1 (draws i).2

theorem simLoop_run {F : FilterOps P U Y V Ω} {u : List (Slot U)} {y : List (Slot Y)} {offset : ℕ}
    {draws : ℕ → Ω × Draws Ω} (is : List ℕ) {pt pt' : PT P U Y} {n n' : ℕ}
    (h : simLoop F u y offset draws is pt n = (pt', .ok n')) :
    ∃ bs, pt.run F (is.map (loopOp u y offset draws)) = (pt', .ok bs) ∧
      n' = n + bs.count (some true) ∧ bs.length = is.length ∧
      ∀ i ∈ is, i - offset < u.length ∧ i < y.length := by
  induction is generalizing pt n with
  | nil => simp only [simLoop, Prod.mk.injEq, Except.ok.injEq] at h
           exact ⟨[], by simp [PT.run, h.1], by simp [h.2], rfl, by simp⟩
  | cons i is ih =>
    unfold simLoop at h
    by_cases hu : i - offset < u.length
    · by_cases hy : i < y.length
      · rw [getIdx_of_lt hu] at h
        simp only at h
        rw [getIdx_of_lt hy] at h
        simp only at h
        have hop : loopOp u y offset draws i = .forward u[i - offset] y[i] (draws i).1 (draws i).2 := by
          simp [loopOp, hu, hy]
        rcases hf : pt.forward F u[i - offset] y[i] (draws i).1 (draws i).2 with ⟨pt1, r⟩
        rw [hf] at h
        have hst : ∀ b, r = .ok b → pt.step F (loopOp u y offset draws i) = (pt1, .ok (some b)) := by
          intro b hb
          rw [hop]; unfold PT.step; simp only; rw [hf, hb]
        rcases r with e | b
        · simp at h
        · have hst := hst b rfl
          have hb : simLoop F u y offset draws is pt1 (n + [some b].count (some true)) = (pt', .ok n') := by
            cases b <;> simpa using h
          obtain ⟨bs, h1, h2, h3, h4⟩ := ih hb
          refine ⟨some b :: bs, ?_, ?_, by simp [h3], ?_⟩
          · rw [List.map_cons]; unfold PT.run; rw [hst]; simp only; rw [h1]
          · rw [h2, List.count_cons]
            cases b <;> simp <;> omega
          · intro j hj
            rcases List.mem_cons.mp hj with rfl | hj
            · exact ⟨hu, hy⟩
            · exact h4 j hj
      · rw [getIdx_of_lt hu] at h
        simp only at h
        rw [getIdx_error (by omega)] at h
        simp at h
    · rw [getIdx_error (by omega)] at h
      simp at h

theorem log_loop (pfy : Bool) (u : List (Slot U)) (y : List (Slot Y)) (offset : ℕ)
    (draws : ℕ → Ω × Draws Ω) (is : List ℕ) (l : Spec.Log U Y) (hl : l.ys ≠ []) :
    (is.map (loopOp u y offset draws)).foldl (Spec.Log.step pfy) l =
      ⟨l.us ++ is.map (fun i => some (u.getD (i - offset) .none)),
       l.ys ++ is.map (fun i => y.getD i .none)⟩ := by
  induction is generalizing l with
  | nil => simp
  | cons i is ih =>
    rw [List.map_cons, List.foldl_cons, ih]
    · simp [loopOp, Spec.Log.step, Spec.Log.forward, hl]
    · simp [loopOp, Spec.Log.step, Spec.Log.forward, hl]

/-! ### C23: alignment of the data -/

/-- C23, `meas_first=False`: if `simulate` gets through a non-empty data set `y` with inputs `u`, the
trajectory has one more step than there are measurements; time 0 has no measurement; `y[k]` is the
measurement of time `k+1` and `u[k]` the input between times `k` and `k+1`; times are `0, 1, 2, …`; there
were at least as many inputs as measurements. -/
theorem C23_alignment {F : FilterOps P U Y V Ω} {N : ℕ} {pt0 pt : PT P U Y}
    (h0 : PT.init N none 0 = .ok pt0) {u : List (Slot U)} {y : List (Slot Y)} (hy : y ≠ [])
    {draws : ℕ → Ω × Draws Ω} {n : ℕ} (h : simForward F pt0 u y false draws = (pt, .ok n)) :
    pt.traj.length = y.length + 1 ∧ y.length ≤ u.length ∧
    pt.yvec[0]? = some .none ∧
    (∀ k < y.length, pt.yvec[k + 1]? = y[k]? ∧ pt.uvec[k]? = u[k]?) ∧
    (∀ k ≤ y.length, pt.tvec[k]? = some k) := by
  have h : simLoop F u y 0 draws (List.range y.length) pt0 0 = (pt, .ok n) := by
    simpa [simForward] using h
  obtain ⟨bs, hrun, -, -, hlen⟩ := simLoop_run _ h
  obtain ⟨h1, h2, h3⟩ := C21_contents h0 _ hrun
  obtain ⟨m, hm⟩ : ∃ m, y.length = m + 1 := ⟨y.length - 1, by have := List.length_pos_iff.mpr hy; omega⟩
  have hlog : Spec.log F.usingPfy ((List.range y.length).map (loopOp u y 0 draws)) =
      ⟨(List.range y.length).map (fun i => some (u.getD i .none)),
       .none :: (List.range y.length).map (fun i => y.getD i .none)⟩ := by
    unfold Spec.log
    rw [hm, List.range_succ_eq_map, List.map_cons, List.foldl_cons, log_loop]
    · simp [loopOp, Spec.Log.step, Spec.Log.forward]
    · simp [loopOp, Spec.Log.step, Spec.Log.forward]
  rw [hlog] at h1 h2 h3
  have hu : y.length ≤ u.length := by
    have := (hlen m (by simp [hm])).1; omega
  refine ⟨by simpa using h1, hu, ?_, ?_, ?_⟩
  · simpa using (h2 0 (by simp)).2
  · intro k hk
    constructor
    · have := (h2 (k + 1) (by simpa using hk)).2
      rw [this]; simp [hk]
    · have hk' : k < u.length := by omega
      have := h3 k u[k] (by simp [hk, hk'])
      rw [this, List.getElem?_eq_getElem hk']
  · intro k hk; exact (h2 k (by simp; omega)).1

/-- C23, `meas_first=True`: one step per measurement, `y[k]` is the measurement of time `k`, `u[k]` the
input between times `k` and `k+1`. -/
theorem C23_alignment_meas_first {F : FilterOps P U Y V Ω} {N : ℕ} {pt0 pt : PT P U Y}
    (h0 : PT.init N none 0 = .ok pt0) {u : List (Slot U)} {y : List (Slot Y)}
    {draws : ℕ → Ω × Draws Ω} {n : ℕ} (h : simForward F pt0 u y true draws = (pt, .ok n)) :
    y ≠ [] ∧ pt.traj.length = y.length ∧ y.length ≤ u.length + 1 ∧
    (∀ k < y.length, pt.yvec[k]? = y[k]? ∧ pt.tvec[k]? = some k) ∧
    (∀ k, k + 1 < y.length → pt.uvec[k]? = u[k]?) := by
  cases y with
  | nil => simp [simForward, getIdx] at h
  | cons y0 ys =>
    have hg0 : getIdx (y0 :: ys) 0 = .ok y0 := rfl
    unfold simForward at h
    rw [if_pos rfl, hg0] at h
    dsimp only at h
    rcases hm : pt0.measure F y0 (draws 0).1 with ⟨pt1, r⟩
    rw [hm] at h
    cases r with
    | error e => simp at h
    | ok _ =>
      simp only at h
      obtain ⟨bs, hrun, -, -, hlen⟩ := simLoop_run _ h
      have hst : pt0.step F (.measure y0 (draws 0).1) = (pt1, .ok none) := by
        unfold PT.step; simp only; rw [hm]
      have hrun' : pt0.run F (.measure y0 (draws 0).1 ::
          ((List.range (y0 :: ys).length).drop 1).map (loopOp u (y0 :: ys) 1 draws)) =
          (pt, .ok (none :: bs)) := by
        unfold PT.run; rw [hst]; simp only; rw [hrun]
      obtain ⟨h1, h2, h3⟩ := C21_contents h0 _ hrun'
      have hdrop : (List.range (y0 :: ys).length).drop 1 = (List.range ys.length).map Nat.succ := by
        rw [List.length_cons, List.range_succ_eq_map]; rfl
      have hlog : Spec.log F.usingPfy (.measure y0 (draws 0).1 ::
          ((List.range (y0 :: ys).length).drop 1).map (loopOp u (y0 :: ys) 1 draws)) =
          ⟨(List.range ys.length).map (fun i => some (u.getD i .none)),
           y0 :: (List.range ys.length).map (fun i => ys.getD i .none)⟩ := by
        unfold Spec.log
        rw [List.foldl_cons, log_loop, hdrop]
        · simp [Spec.Log.step, Spec.Log.measure, Function.comp_def]
        · simp [Spec.Log.step, Spec.Log.measure]
      rw [hlog] at h1 h2 h3
      rw [hdrop] at hlen
      have hu : ys.length ≤ u.length := by
        by_contra hc
        have := (hlen (u.length + 1) (by simp; omega)).1
        omega
      refine ⟨by simp, by simpa using h1, by simpa using hu, ?_, ?_⟩
      · intro k hk
        obtain ⟨e1, e2⟩ := h2 k (by simpa using hk)
        refine ⟨?_, e1⟩
        rw [e2]
        cases k with
        | zero => simp
        | succ k => simp only [List.length_cons, Nat.add_lt_add_iff_right] at hk; simp [hk]
      · intro k hk
        simp only [List.length_cons, Nat.add_lt_add_iff_right] at hk
        have hk' : k < u.length := by omega
        have := h3 k u[k] (by simp [hk, hk'])
        rw [this, List.getElem?_eq_getElem hk']

/-- C23: `u=None` means that every time step gets no input. -/
theorem C23_no_input (y : List (Slot Y)) :
    (Sim.new none y : Sim P U Y S).u.length = y.length ∧
    (∀ x ∈ (Sim.new none y : Sim P U Y S).u, x = .none) ∧ (Sim.new none y : Sim P U Y S).y = y := by
  simp [Sim.new]

/-- C23: `meas_first` on an empty data set raises `IndexError`; without `meas_first` an empty data set
leaves an empty trajectory and reports no resampling. -/
theorem C23_empty_data (F : FilterOps P U Y V Ω) (pt : PT P U Y) (u : List (Slot U))
    (draws : ℕ → Ω × Draws Ω) :
    simForward F pt u [] true draws = (pt, .error .indexError) ∧
    simForward F pt u [] false draws = (pt, .ok 0) := by
  simp [simForward, simLoop, getIdx]

/-! ### C24: number of resamplings -/

theorem simForward_count_le {F : FilterOps P U Y V Ω} {pt0 pt : PT P U Y} {u : List (Slot U)}
    {y : List (Slot Y)} {mf : Bool} {draws : ℕ → Ω × Draws Ω} {n : ℕ}
    (h : simForward F pt0 u y mf draws = (pt, .ok n)) : n ≤ y.length := by
  unfold simForward at h
  split at h
  · split at h
    · simp at h
    · split at h
      · simp at h
      · obtain ⟨bs, -, h2, h3, -⟩ := simLoop_run _ h
        have := List.count_le_length (a := some true) (l := bs)
        simp at h3; omega
  · obtain ⟨bs, -, h2, h3, -⟩ := simLoop_run _ h
    have := List.count_le_length (a := some true) (l := bs)
    simp at h3; omega

/-- C24: `simulate` never reports more resamplings than there are measurements. -/
theorem C24_count_le {F : FilterOps P U Y V Ω} {pt0 pt : PT P U Y} {u : List (Slot U)}
    {y : List (Slot Y)} {mf : Bool} {draws : ℕ → Ω × Draws Ω} {n : ℕ}
    (h : simForward F pt0 u y mf draws = (pt, .ok n)) : n ≤ y.length := simForward_count_le h

/-- A successful `ParticleFilter.forward` had a last step with weights. -/
theorem pfForward_w_ne {M : Callbacks P U Y V Ω} {res : ℝ} {tr : List (Step P)} {last : Step P}
    (hlast : tr.getLast? = some last) {yv : List (Slot Y)} {uv : List (Slot U)} {tv : List ℕ} {cur : ℕ}
    {d : Draws Ω} {x : PA P × Bool × List ℕ} (h : pfForward M res tr yv uv tv cur d = .ok x) :
    last.pa.w ≠ [] := by
  intro hw
  unfold pfForward at h
  obtain ⟨l', hl', h⟩ := bind_eq_ok.mp h
  obtain rfl : last = l' := by rw [getLast_ok, hlast] at hl'; exact Option.some.inj hl'
  simp only [PA.new, ok_bind, hw] at h
  obtain ⟨⟨p1, f1, a1⟩, hm, h⟩ := bind_eq_ok.mp h
  have hp1 : p1.w = [] := by
    unfold maybeResample at hm
    split at hm
    · simp [calcNeff, npMax] at hm
    · simp only [pure_eq_ok, Except.ok.injEq, Prod.mk.injEq] at hm
      rw [← hm.1]
  obtain ⟨p2, hp2, h⟩ := bind_eq_ok.mp h
  obtain ⟨p3, hp3, h⟩ := bind_eq_ok.mp h
  have hp2w : p2.w = [] := by
    unfold pfUpdate at hp2
    obtain ⟨v, -, hp2⟩ := bind_eq_ok.mp hp2
    obtain ⟨pp, -, hp2⟩ := bind_eq_ok.mp hp2
    simp only [pure_eq_ok, Except.ok.injEq] at hp2
    rw [← hp2]; exact hp1
  unfold pfMeasure at hp3
  obtain ⟨nw, -, hp3⟩ := bind_eq_ok.mp hp3
  unfold weightUpdate at hp3
  obtain ⟨m, -, hp3⟩ := bind_eq_ok.mp hp3
  obtain ⟨w, hw', hp3⟩ := bind_eq_ok.mp hp3
  obtain ⟨m', hm', -⟩ := bind_eq_ok.mp hp3
  rw [hp2w] at hw'
  unfold npAdd at hw'
  split at hw'
  · cases hw'; simp [npMax] at hm'
  · cases hw'

open Classical in
/-- Number of steps of a stored history (all but the last) whose weights call for resampling. -/
noncomputable def Spec.resampleCount (res : ℝ) (traj : List (Step P)) : ℕ :=
  traj.dropLast.countP fun st => decide (ShouldResample res st.pa.w st.pa.part.length)

/-- The filter object for `filter='pf'`. -/
noncomputable def pfOps (M : Callbacks P U Y V Ω) (res : ℝ) : FilterOps P U Y V Ω :=
  ⟨M.createInitial, pfForward M res, pfMeasure M, fun _ _ _ _ => .error .typeError, false⟩

theorem mkFilter_pf (M : Callbacks P U Y V Ω) (N : ℕ) (res : ℝ) {name : String}
    (hk : parseFilter name = .ok .pf) (o : FilterOptions P) :
    mkFilter M N res name o = .ok (pfOps M res) := by
  unfold mkFilter; simp [hk, pfOps]

theorem Spec.resampleCount_append (res : ℝ) {tr : List (Step P)} {last : Step P} (st : Step P)
    (hlast : tr.getLast? = some last) {b : Bool}
    (hb : b = true ↔ ShouldResample res last.pa.w last.pa.part.length) :
    Spec.resampleCount res (tr ++ [st]) = Spec.resampleCount res tr + [some b].count (some true) := by
  unfold Spec.resampleCount
  rw [List.dropLast_concat]
  have : tr = tr.dropLast ++ [last] := by
    rw [← List.dropLast_append_getLast? last hlast]; simp
  conv_lhs => rw [this, List.countP_append, List.countP_singleton]
  congr 1
  cases b with
  | true => simp [hb.mp rfl]
  | false =>
    have : ¬ ShouldResample res last.pa.w last.pa.part.length := by simpa using hb
    simp [this]

theorem forward_pf_count {M : Callbacks P U Y V Ω} {res : ℝ} {s s' : PT P U Y} (h : s.Inv)
    {u : Slot U} {y : Slot Y} {ω0 : Ω} {d : Draws Ω} {b : Bool}
    (hf : s.forward (pfOps M res) u y ω0 d = (s', .ok b)) :
    Spec.resampleCount res s'.traj = Spec.resampleCount res s.traj + [some b].count (some true) := by
  rw [PT.forward_eq h] at hf
  have key : ∀ (s1 : PT P U Y), s1.traj ≠ [] →
      (let b := s1.beforeForward u y
        match (pfOps M res).forward s1.traj b.yvec b.uvec b.tvec (s1.ind1 - 1) d with
        | .error e => (b, (.error e : PyM Bool))
        | .ok (pa, resampled, anc) => ({ b with traj := s1.traj ++ [⟨pa, anc⟩] }, .ok resampled)) = (s', .ok b) →
      Spec.resampleCount res s'.traj = Spec.resampleCount res s1.traj + [some b].count (some true) := by
    intro s1 hne hh
    simp only at hh
    split at hh
    · cases hh
    · rename_i pa rs anc hfw
      simp only [Prod.mk.injEq, Except.ok.injEq] at hh
      obtain ⟨rfl, rfl⟩ := hh
      obtain ⟨last, hl⟩ := Option.ne_none_iff_exists'.mp (mt List.getLast?_eq_none_iff.mp hne)
      exact Spec.resampleCount_append res _ hl
        (C11_pf_resample_iff hl (pfForward_w_ne hl hfw) hfw).1
  rcases s.ensureInit_cases (pfOps M res) ω0 with ⟨h1, h2⟩ | ⟨h1, e, h2, -⟩ | ⟨h1, part, pa, -, -, h2⟩
  · rw [h2] at hf; exact key s h1 hf
  · rw [h2] at hf; cases hf
  · rw [h2] at hf
    rw [key _ (by simp) hf]
    simp [Spec.resampleCount, h1]

theorem PT.inv_of_forward_eq {F : FilterOps P U Y V Ω} {s s' : PT P U Y} (h : s.Inv) {u : Slot U} {y : Slot Y}
    {ω0 : Ω} {d : Draws Ω} {r : PyM Bool} (hf : s.forward F u y ω0 d = (s', r)) : s'.Inv := by
  have := PT.forward_inv (F := F) h u y ω0 d
  rwa [hf] at this

theorem simLoop_pf_count {M : Callbacks P U Y V Ω} {res : ℝ} {u : List (Slot U)} {y : List (Slot Y)}
    {offset : ℕ} {draws : ℕ → Ω × Draws Ω} (is : List ℕ) {pt pt' : PT P U Y} (hi : pt.Inv) {n n' : ℕ}
    (h : simLoop (pfOps M res) u y offset draws is pt n = (pt', .ok n')) :
    n' + Spec.resampleCount res pt.traj = n + Spec.resampleCount res pt'.traj := by
  induction is generalizing pt n with
  | nil => simp only [simLoop, Prod.mk.injEq, Except.ok.injEq] at h; rw [h.1, h.2]
  | cons i is ih =>
    unfold simLoop at h
    split at h
    · simp at h
    · split at h
      · simp at h
      · split at h
        · simp at h
        · rename_i pt1 hf
          have h1 := forward_pf_count hi hf
          have h2 := ih (PT.inv_of_forward_eq hi hf) h
          simp at h1; omega
        · rename_i pt1 hf
          have h1 := forward_pf_count hi hf
          have h2 := ih (PT.inv_of_forward_eq hi hf) h
          simp at h1; omega

/-- C24: with the bootstrap filter, `simulate` returns exactly the number of stored time steps (other
than the last) whose effective sample size was below `res·N` — read off the stored trajectory. -/
theorem C24_count_exact {M : Callbacks P U Y V Ω} {res : ℝ} {N : ℕ} {pt0 pt : PT P U Y}
    (h0 : PT.init N none 0 = .ok pt0) {u : List (Slot U)} {y : List (Slot Y)} {mf : Bool}
    {draws : ℕ → Ω × Draws Ω} {n : ℕ}
    (h : simForward (pfOps M res) pt0 u y mf draws = (pt, .ok n)) :
    n = Spec.resampleCount res pt.traj := by
  have hi := PT.init_inv h0
  have ht : pt0.traj = [] := by simp [PT.init] at h0; rw [← h0]
  unfold simForward at h
  split at h
  · split at h
    · simp at h
    · split at h
      · simp at h
      · rename_i y0 _ _ pt1 hm
        have hi1 := PT.measure_inv (F := pfOps M res) hi y0 (draws 0).1
        rw [hm] at hi1
        dsimp only at hi1
        have hc : Spec.resampleCount res pt1.traj = 0 := by
          have hr := PT.measure_rep (PT.init_rep h0) hm
          have := hr.len
          simp only [Spec.Log.measure, if_true, List.length_singleton] at this
          obtain ⟨x, hx⟩ := List.length_eq_one_iff.mp this
          simp [Spec.resampleCount, hx]
        have := simLoop_pf_count _ hi1 h
        omega
  · have := simLoop_pf_count _ hi h
    have hc : Spec.resampleCount res pt0.traj = 0 := by simp [Spec.resampleCount, ht]
    omega

/-! ### C27: filtered estimates -/

/-- C27: the returned weights of every time step are a probability vector proportional to `exp(log-weight)`
and the returned particles are the stored ones. -/
theorem C27_filtered_weights {traj : List (Step P)} {ew : List (List P × List ℝ)}
    (h : filteredEstimates traj = .ok ew) :
    traj ≠ [] ∧ ew.length = traj.length ∧
    ∀ (t : ℕ) (st : Step P), traj[t]? = some st → st.pa.w ≠ [] →
      ∃ w, ew[t]? = some (st.pa.part, w) ∧ w.length = st.pa.w.length ∧ (∀ x ∈ w, 0 < x) ∧ w.sum = 1 ∧
        w = Spec.normWeights st.pa.w := by
  cases traj with
  | nil => simp [filteredEstimates] at h
  | cons s0 tr =>
    simp only [filteredEstimates, Except.ok.injEq] at h
    subst h
    refine ⟨by simp, by simp, ?_⟩
    intro t st hst hne
    refine ⟨expNormalised st.pa.w, by rw [List.getElem?_map, hst]; rfl, expNormalised_length _, ?_, ?_,
      expNormalised_eq _⟩
    · intro x hx
      unfold expNormalised at hx
      obtain ⟨y, hy, rfl⟩ := List.mem_map.mp hx
      obtain ⟨z, -, rfl⟩ := List.mem_map.mp hy
      exact div_pos (exp_pos z) (sum_exp_pos hne)
    · unfold expNormalised
      have hS := sum_exp_pos hne
      have : ((st.pa.w.map exp).map (· / (st.pa.w.map exp).sum)) =
          (st.pa.w.map exp).map (((st.pa.w.map exp).sum)⁻¹ * ·) := by
        apply List.map_congr_left; intro x _; field_simp
      simp only [this, list_sum_map_mul]
      exact inv_mul_cancel₀ hS.ne'

theorem weighted_sum_bounds (w x : List ℝ) (a b : ℝ) (hl : w.length = x.length) (hw : ∀ v ∈ w, 0 ≤ v)
    (ha : ∀ v ∈ x, a ≤ v) (hb : ∀ v ∈ x, v ≤ b) :
    a * w.sum ≤ (List.zipWith (· * ·) w x).sum ∧ (List.zipWith (· * ·) w x).sum ≤ b * w.sum := by
  induction w generalizing x with
  | nil => simp
  | cons v w ih =>
    cases x with
    | nil => simp at hl
    | cons z x =>
      obtain ⟨h1, h2⟩ := ih x (by simpa using hl) (fun v hv => hw v (by simp [hv]))
        (fun v hv => ha v (by simp [hv])) (fun v hv => hb v (by simp [hv]))
      have hv := hw v (by simp)
      have h3 := mul_le_mul_of_nonneg_left (ha z (by simp)) hv
      have h4 := mul_le_mul_of_nonneg_left (hb z (by simp)) hv
      simp only [List.zipWith_cons_cons, List.sum_cons]
      constructor <;> nlinarith

/-- C27: every component of the filtered mean lies between the smallest and the largest particle. -/
theorem C27_filtered_mean_bounds {coord : P → ℝ} {traj : List (Step P)} {m : List ℝ}
    (h : filteredMean coord traj = .ok m) :
    m.length = traj.length ∧
    ∀ (t : ℕ) (st : Step P), traj[t]? = some st → st.pa.w ≠ [] → st.pa.part.length = st.pa.w.length →
      ∀ a b : ℝ, (∀ p ∈ st.pa.part, a ≤ coord p ∧ coord p ≤ b) →
        ∃ x, m[t]? = some x ∧ a ≤ x ∧ x ≤ b := by
  unfold filteredMean at h
  obtain ⟨ew, he, h⟩ := bind_eq_ok.mp h
  simp only [pure_eq_ok, Except.ok.injEq] at h
  subst h
  obtain ⟨h1, h2, h3⟩ := C27_filtered_weights he
  refine ⟨by simp [h2], ?_⟩
  intro t st hst hne hlen a b hab
  obtain ⟨w, hw, hwl, hpos, hsum, -⟩ := h3 t st hst hne
  refine ⟨(List.zipWith (· * ·) w (st.pa.part.map coord)).sum, by rw [List.getElem?_map, hw]; rfl, ?_⟩
  obtain ⟨g1, g2⟩ := weighted_sum_bounds w (st.pa.part.map coord) a b (by simp [hwl, hlen])
    (fun v hv => (hpos v hv).le)
    (by intro v hv; obtain ⟨p, hp, rfl⟩ := List.mem_map.mp hv; exact (hab p hp).1)
    (by intro v hv; obtain ⟨p, hp, rfl⟩ := List.mem_map.mp hv; exact (hab p hp).2)
  rw [hsum, mul_one] at g1 g2
  exact ⟨g1, g2⟩

/-- C27: the filtered mean is the self-normalised weighted mean: `Σ exp(wᵢ) xᵢ / Σ exp(wᵢ)`. -/
theorem C27_filtered_mean_eq {coord : P → ℝ} {traj : List (Step P)} {m : List ℝ}
    (h : filteredMean coord traj = .ok m) (t : ℕ) (st : Step P) (hst : traj[t]? = some st) (hne : st.pa.w ≠ [])
    (hlen : st.pa.part.length = st.pa.w.length) :
    ∃ x, m[t]? = some x ∧ x * (st.pa.w.map Real.exp).sum =
      ((st.pa.w.zip st.pa.part).map fun p => Real.exp p.1 * coord p.2).sum := by
  unfold filteredMean at h
  obtain ⟨ew, he, h⟩ := bind_eq_ok.mp h
  simp only [pure_eq_ok, Except.ok.injEq] at h
  subst h
  obtain ⟨h1, h2, h3⟩ := C27_filtered_weights he
  obtain ⟨w, hw, hwl, hpos, hsum, hprop⟩ := h3 t st hst hne
  refine ⟨(List.zipWith (· * ·) w (st.pa.part.map coord)).sum, by rw [List.getElem?_map, hw]; rfl, ?_⟩
  have hT : 0 < (st.pa.w.map Real.exp).sum := by
    obtain ⟨v, w', hv⟩ := List.exists_cons_of_ne_nil hne
    rw [hv, List.map_cons, List.sum_cons]
    have : 0 ≤ (w'.map Real.exp).sum := List.sum_nonneg (by
      intro x hx; obtain ⟨y, -, rfl⟩ := List.mem_map.mp hx; exact (Real.exp_pos y).le)
    linarith [Real.exp_pos v]
  have key : ∀ (T : ℝ), T ≠ 0 → ∀ (l : List ℝ) (ps : List P),
      (List.zipWith (· * ·) (l.map fun a => Real.exp a / T) (ps.map coord)).sum * T =
        ((l.zip ps).map fun p => Real.exp p.1 * coord p.2).sum := by
    intro T hT' l
    induction l with
    | nil => intro ps; simp
    | cons a l ih =>
      intro ps
      cases ps with
      | nil => simp
      | cons q ps =>
        simp only [List.map_cons, List.zipWith_cons_cons, List.sum_cons, List.zip_cons_cons, add_mul, ih]
        congr 1
        field_simp
  have := key _ hT.ne' st.pa.w st.pa.part
  rw [← this, hprop]
  congr 3

/-- C27: the smoothed mean at every time is the plain average over the trajectories: as many numbers as time steps, and
each one times the number of trajectories is the sum of the component over the trajectories. -/
theorem C27_smoothed_mean {Q : Type} {get : S → PyM (List (List Q))} {coord : Q → ℝ} {s : Sim P U Y S} {m : List ℝ}
    (h : s.smoothedMean get coord = .ok m) :
    ∃ st est, s.straj = some st ∧ get st = .ok est ∧ m.length = est.length ∧
      ∀ (t : ℕ) (row : List Q), est[t]? = some row → row ≠ [] →
        ∃ x, m[t]? = some x ∧ x * row.length = (row.map coord).sum := by
  unfold Sim.smoothedMean at h
  obtain ⟨est, he, h⟩ := bind_eq_ok.mp h
  simp only [pure_eq_ok, Except.ok.injEq] at h
  subst h
  unfold Sim.smoothedEstimates at he
  cases hs : s.straj with
  | none => rw [hs] at he; cases he
  | some st =>
    rw [hs] at he
    refine ⟨st, est, rfl, he, by simp, fun t row hr hne => ⟨npMean (row.map coord), by simp [hr], ?_⟩⟩
    have : (row.length : ℝ) ≠ 0 := by simpa using hne
    simp only [npMean, List.length_map]
    field_simp

/-! ### C62: smoothed results and the latest run -/

/-- C62: the smoother runs iff one is named and `num_traj > 0`; when it ran, the stored smoothed
trajectory is the one computed from this run's filter trajectory; when it did not run, the stored one is
left as it was. -/
theorem C62_smoother_runs_iff {s s' : Sim P U Y S} {mk : PyM (FilterOps P U Y V Ω)} {np nt : ℕ}
    {sm : Option String} {smooth : PT P U Y → ℕ → String → PyM S} {mf : Bool}
    {draws : ℕ → Ω × Draws Ω} {n : ℕ} (h : s.simulate mk np nt sm smooth mf draws = (s', .ok n)) :
    (∀ m, sm = some m → 0 < nt → ∃ pt st, s'.pt = some pt ∧ smooth pt nt m = .ok st ∧ s'.straj = some st) ∧
    ((sm = none ∨ nt = 0) → s'.straj = s.straj) := by
  unfold Sim.simulate at h
  split at h
  · simp at h
  · split at h
    · simp at h
    · split at h
      · simp at h
      · split at h
        · simp only [Prod.mk.injEq] at h
          rw [← h.1]; simp
        · rename_i m
          split_ifs at h with hnt
          · split at h
            · simp at h
            · rename_i st hst
              simp only [Prod.mk.injEq] at h
              rw [← h.1]
              refine ⟨?_, ?_⟩
              · intro m' hm' _
                cases hm'
                exact ⟨_, _, rfl, hst, rfl⟩
              · rintro (h | h)
                · cases h
                · omega
          · simp only [Prod.mk.injEq] at h
            rw [← h.1]
            exact ⟨fun m' _ hn => absurd hn hnt, fun _ => rfl⟩

/-- C62 (false of the code): after a second, successful `simulate` without smoothing,
`get_smoothed_estimates` still returns the result of the *first* run instead of failing. -/
theorem C62_stale_smoothed_estimates {E : Type} (get : S → PyM E) {s s' : Sim P U Y S} {old : S}
    (hs : s.straj = some old) {mk : PyM (FilterOps P U Y V Ω)} {np nt : ℕ}
    {smooth : PT P U Y → ℕ → String → PyM S} {mf : Bool} {draws : ℕ → Ω × Draws Ω} {n : ℕ}
    (h : s.simulate mk np nt none smooth mf draws = (s', .ok n)) :
    s'.smoothedEstimates get = get old := by
  have := (C62_smoother_runs_iff h).2 (Or.inl rfl)
  unfold Sim.smoothedEstimates
  rw [this, hs]

/-- C62: before any smoothing, asking for smoothed estimates raises `AttributeError`. -/
theorem C62_no_smoothing_attribute_error {E : Type} (get : S → PyM E) {u : Option (List (Slot U))}
    {y : List (Slot Y)} {s' : Sim P U Y S} {mk : PyM (FilterOps P U Y V Ω)} {np nt : ℕ}
    {smooth : PT P U Y → ℕ → String → PyM S} {mf : Bool} {draws : ℕ → Ω × Draws Ω} {n : ℕ}
    (h : (Sim.new u y).simulate mk np nt none smooth mf draws = (s', .ok n)) :
    s'.smoothedEstimates get = .error .attributeError := by
  have := (C62_smoother_runs_iff h).2 (Or.inl rfl)
  unfold Sim.smoothedEstimates
  rw [this]; rfl

/-! ### Non-vacuity -/

/-- Two measurements, filter that does nothing: the hypotheses of C23 are met. -/
example : ∃ pt0 pt n, PT.init 1 none 0 = .ok pt0 ∧
    simForward (idleFilter false) pt0 [.none, .none] [.obj 3, .obj 4] false (fun _ => ((), ⟨0, 0, ()⟩)) =
      (pt, .ok n) := ⟨_, _, _, rfl, rfl⟩

example : ∃ pt0 pt n, PT.init 1 none 0 = .ok pt0 ∧
    simForward (idleFilter false) pt0 [.none] [.obj 3, .obj 4] true (fun _ => ((), ⟨0, 0, ()⟩)) =
      (pt, .ok n) := ⟨_, _, _, rfl, rfl⟩

/-- A run that smooths followed by one that does not. -/
example : ∃ s1 s2 : Sim ℕ ℕ ℕ ℕ, ∃ n1 n2,
    (Sim.new none [.obj 3]).simulate (.ok (idleFilter false)) 1 1 (some "full") (fun _ _ _ => .ok 7) false
      (fun _ => ((), ⟨0, 0, ()⟩)) = (s1, .ok n1) ∧
    s1.simulate (.ok (idleFilter false)) 1 1 none (fun _ _ _ => .ok 8) false
      (fun _ => ((), ⟨0, 0, ()⟩)) = (s2, .ok n2) ∧ s2.straj = some 7 := ⟨_, _, _, _, rfl, rfl, rfl⟩

end PyPE

import Verif.Traj.Props

/-!
# C101: the end of the buffers

`SmoothTrajectory` copies the whole buffers of the particle trajectory (smoother.py:212-214), and Rao-Blackwellised models read the last measurement of a
trajectory as `st.y[-1]`, `st.t[-1]` (rbpf.py:421-422). The last entry of a buffer is the last measurement only if the buffer ends with the run.
-/

namespace PyPE

variable {P U Y V Ω : Type}

/-- The preallocated entries that were not used yet. -/
def PT.Unused (s : PT P U Y) : Prop := ∀ i, s.ind1 ≤ i → i < s.T → s.yvec[i]? = some .none ∧ s.tvec[i]? = some i

theorem PT.ensureInit_unused {F : FilterOps P U Y V Ω} {s s' : PT P U Y} {ω : Ω} (he : s.ensureInit F ω = (s', .ok ())) (h : s.Unused) (h0 : s.traj = [] → s.ind1 = 0) :
    s'.Unused ∧ s'.T = s.T ∧ s.ind1 ≤ s'.ind1 := by
  rcases s.ensureInit_cases F ω with ⟨-, h2⟩ | ⟨-, e, h2, -⟩ | ⟨hnil, part, pa, -, -, h2⟩
  · rw [h2] at he
    obtain ⟨rfl, -⟩ := Prod.mk.inj he
    exact ⟨h, rfl, le_rfl⟩
  · rw [h2] at he
    cases (Prod.mk.inj he).2
  · rw [h2] at he
    obtain ⟨rfl, -⟩ := Prod.mk.inj he
    exact ⟨fun i hi hT => h i (by have := h0 hnil; omega) hT, rfl, by simp [h0 hnil]⟩

/-- A successful call that stays within the preallocated length leaves the rest of the buffers alone. -/
theorem PT.step_unused {F : FilterOps P U Y V Ω} {s s' : PT P U Y} {l : Spec.Log U Y} (hr : s.Rep l) {op : Op U Y Ω} {b : Option Bool}
    (hf : s.step F op = (s', .ok b)) (h : s.Unused) (hT : s'.ind1 < s.T) : s'.Unused ∧ s'.T = s.T := by
  have h0 : s.traj = [] → s.ind1 = 0 := fun ht => by rw [hr.ind, ← hr.len, ht]; rfl
  cases op with
  | forward u y ω0 d =>
    unfold PT.step at hf
    rcases hg : s.forward F u y ω0 d with ⟨s1, r⟩
    simp only [hg] at hf
    cases r with
    | error e => cases hf
    | ok b =>
      cases hf
      rw [PT.forward_eq hr.inv] at hg
      rcases he : s.ensureInit F ω0 with ⟨s2, _ | _⟩
      · simp only [he] at hg; cases hg
      · obtain ⟨k1, k2, k3⟩ := PT.ensureInit_unused he h h0
        simp only [he] at hg
        split at hg
        · cases hg
        · cases hg
          simp only [PT.beforeForward] at hT
          have hgr : s2.growForward = s2 := by unfold PT.growForward; rw [if_neg (by omega)]
          refine ⟨fun i hi hiT => ?_, by simp [PT.beforeForward, hgr, k2]⟩
          simp only [PT.beforeForward, hgr] at hi hiT ⊢
          rw [List.getElem?_set_ne (by omega), List.getElem?_set_ne (by omega)]
          exact k1 i (by omega) hiT
  | measure y ω =>
    unfold PT.step at hf
    rcases hg : s.measure F y ω with ⟨s1, r⟩
    simp only [hg] at hf
    cases r with
    | error e => cases hf
    | ok b =>
      cases hf
      cases hp : F.usingPfy with
      | true =>
        rw [PT.measure_pfy_eq hp hr.inv] at hg
        simp only at hg
        split at hg
        · cases hg
        · cases hg
          simp only [PT.beforeMeasurePfy] at hT
          have hgr : s.growMeasure = s := by unfold PT.growMeasure; rw [if_neg (by omega)]
          refine ⟨fun i hi hiT => ?_, by simp [PT.beforeMeasurePfy, hgr]⟩
          simp only [PT.beforeMeasurePfy, hgr] at hi hiT ⊢
          rw [List.getElem?_set_ne (by omega), List.getElem?_set_ne (by omega)]
          exact h i (by omega) hiT
      | false =>
        rw [PT.measure_eq hp hr.inv] at hg
        have key : ∀ s2 : PT P U Y, s.growMeasure.ensureInit F ω = (s2, .ok ()) → s2.ind1 < s.T → s2.Unused ∧ s2.T = s.T ∧ 1 ≤ s2.ind1 := by
          intro s2 he hlt
          have hle : s.ind1 ≤ s2.ind1 := by
            have hi := (PT.growMeasure_inv hr.inv).2.1
            have ht := (PT.growMeasure_inv hr.inv).2.2.2.1
            rcases s.growMeasure.ensureInit_cases F ω with ⟨-, h2⟩ | ⟨-, e, h2, -⟩ | ⟨hnil, part, pa, -, -, h2⟩ <;> rw [h2] at he
            · obtain ⟨rfl, -⟩ := Prod.mk.inj he; omega
            · cases (Prod.mk.inj he).2
            · obtain ⟨rfl, -⟩ := Prod.mk.inj he
              have := h0 (ht ▸ hnil)
              simp [this]
          have hgr : s.growMeasure = s := by unfold PT.growMeasure; rw [if_neg (by omega)]
          rw [hgr] at he
          obtain ⟨k1, k2, k3⟩ := PT.ensureInit_unused he h h0
          obtain ⟨hi, hne⟩ := PT.ensureInit_inv (F := F) hr.inv ω
          rw [he] at hi hne
          exact ⟨k1, k2, hi.started (hne rfl)⟩
        rcases he : s.growMeasure.ensureInit F ω with ⟨s2, _ | _⟩
        · simp only [he] at hg; cases hg
        · simp only [he] at hg
          split at hg
          · cases hg
          · split at hg
            · cases hg
            · cases hg
              simp only [PT.beforeMeasure] at hT
              obtain ⟨k1, k2, k3⟩ := key s2 he hT
              refine ⟨fun i hi hiT => ?_, by simp [PT.beforeMeasure, k2]⟩
              simp only [PT.beforeMeasure] at hi hiT ⊢
              rw [List.getElem?_set_ne (by omega), List.getElem?_set_ne (by omega)]
              exact k1 i hi hiT

theorem log_length_mono (pfy : Bool) (ops : List (Op U Y Ω)) (l : Spec.Log U Y) : l.ys.length ≤ (ops.foldl (Spec.Log.step pfy) l).ys.length := by
  induction ops generalizing l with
  | nil => exact le_rfl
  | cons op ops ih =>
    refine le_trans ?_ (ih _)
    cases op <;> simp only [Spec.Log.step, Spec.Log.forward, Spec.Log.measure] <;> split_ifs <;> simp_all <;> omega

theorem PT.run_unused {F : FilterOps P U Y V Ω} (ops : List (Op U Y Ω)) {s s' : PT P U Y} {l : Spec.Log U Y} (hr : s.Rep l) {bs : List (Option Bool)}
    (hf : s.run F ops = (s', .ok bs)) (h : s.Unused) (hT : s'.ind1 < s.T) : s'.Unused ∧ s'.T = s.T := by
  induction ops generalizing s l bs with
  | nil => cases hf; exact ⟨h, rfl⟩
  | cons op ops ih =>
    unfold PT.run at hf
    rcases hs : s.step F op with ⟨s1, _ | b⟩
    · simp only [hs] at hf; cases hf
    · simp only [hs] at hf
      rcases hr2 : PT.run F s1 ops with ⟨s2, _ | bs'⟩
      · simp only [hr2] at hf; cases hf
      · simp only [hr2] at hf
        cases hf
        have r1 := PT.step_rep hr hs
        have r2 := PT.run_rep ops r1 hr2
        have hle : s1.ind1 ≤ s'.ind1 := by rw [r1.ind, r2.ind]; exact log_length_mono _ _ _
        obtain ⟨k1, k2⟩ := PT.step_unused hr hs h (by omega)
        obtain ⟨k3, k4⟩ := ih r1 hr2 k1 (by omega)
        exact ⟨k3, k4.trans k2⟩

theorem PT.init_unused {N : ℕ} {T : Option ℕ} {s : PT P U Y} (h : PT.init N T 0 = .ok s) : s.Unused ∧ s.T = T.getD 0 := by
  unfold PT.init at h
  simp only [ne_eq, not_true_eq_false, if_false] at h
  split at h
  · cases h
  · cases h
    refine ⟨fun i _ hi => ?_, rfl⟩
    simp only at hi
    simp [hi]
  · cases h
    exact ⟨fun i _ hi => absurd hi (Nat.not_lt_zero _), rfl⟩

theorem PT.run_concat {F : FilterOps P U Y V Ω} (ops : List (Op U Y Ω)) (op : Op U Y Ω) {s s' : PT P U Y} {bs : List (Option Bool)}
    (hf : s.run F (ops ++ [op]) = (s', .ok bs)) : ∃ s1 bs1 b, s.run F ops = (s1, .ok bs1) ∧ s1.step F op = (s', .ok b) := by
  induction ops generalizing s bs with
  | nil =>
    simp only [List.nil_append, PT.run] at hf
    rcases hs : s.step F op with ⟨s1, _ | b⟩ <;> simp only [hs] at hf
    · cases hf
    · cases hf
      exact ⟨s, [], b, rfl, hs⟩
  | cons o ops ih =>
    simp only [List.cons_append, PT.run] at hf ⊢
    rcases hs : s.step F o with ⟨s1, _ | b⟩ <;> simp only [hs] at hf ⊢
    · cases hf
    · rcases hr : PT.run F s1 (ops ++ [op]) with ⟨s2, _ | bs2⟩ <;> simp only [hr] at hf
      · cases hf
      · cases hf
        obtain ⟨s3, bs3, b3, k1, k2⟩ := ih hr
        exact ⟨s3, b :: bs3, b3, by rw [k1], k2⟩

/-- What one successful call does to the bookkeeping: `forward` moves to the next time step and leaves room for it, `measure` leaves room for one more. -/
theorem PT.step_room {F : FilterOps P U Y V Ω} {s s' : PT P U Y} {l : Spec.Log U Y} (hr : s.Rep l) {op : Op U Y Ω} {b : Option Bool} (hf : s.step F op = (s', .ok b)) :
    s'.T ≤ max s.T (s'.ind1 + 1) ∧ s'.ind1 ≤ s'.T ∧ (∀ u y ω0 d, op = .forward u y ω0 d → s'.T ≤ max s.T s'.ind1) := by
  cases op with
  | forward u y ω0 d =>
    unfold PT.step at hf
    rcases hg : s.forward F u y ω0 d with ⟨s1, r⟩
    simp only [hg] at hf
    cases r with
    | error e => cases hf
    | ok b =>
      cases hf
      rw [PT.forward_eq hr.inv] at hg
      rcases he : s.ensureInit F ω0 with ⟨s2, _ | _⟩
      · simp only [he] at hg; cases hg
      · simp only [he] at hg
        have hT : s2.T = s.T := by
          rcases s.ensureInit_cases F ω0 with ⟨-, h2⟩ | ⟨-, e, h2, -⟩ | ⟨hnil, part, pa, -, -, h2⟩ <;> rw [h2] at he <;> cases he <;> rfl
        split at hg
        · cases hg
        · cases hg
          simp only [PT.beforeForward, PT.growForward]
          split <;> (try simp only) <;> refine ⟨by omega, by omega, fun _ _ _ _ _ => by omega⟩
  | measure y ω =>
    unfold PT.step at hf
    rcases hg : s.measure F y ω with ⟨s1, r⟩
    simp only [hg] at hf
    cases r with
    | error e => cases hf
    | ok b =>
      cases hf
      cases hp : F.usingPfy with
      | true =>
        rw [PT.measure_pfy_eq hp hr.inv] at hg
        simp only at hg
        split at hg
        · cases hg
        · cases hg
          simp only [PT.beforeMeasurePfy, PT.growMeasure]
          split <;> (try simp only) <;> exact ⟨by omega, by omega, fun _ _ _ _ h => by cases h⟩
      | false =>
        rw [PT.measure_eq hp hr.inv] at hg
        have h0 : s.traj = [] → s.ind1 = 0 := fun ht => by rw [hr.ind, ← hr.len, ht]; rfl
        rcases he : s.growMeasure.ensureInit F ω with ⟨s2, _ | _⟩
        · simp only [he] at hg; cases hg
        · simp only [he] at hg
          have hk : s2.T = s.growMeasure.T ∧ s2.ind1 = max s.ind1 1 := by
            have hi := (PT.growMeasure_inv hr.inv).2.1
            have ht := (PT.growMeasure_inv hr.inv).2.2.2.1
            rcases s.growMeasure.ensureInit_cases F ω with ⟨hne, h2⟩ | ⟨-, e, h2, -⟩ | ⟨hnil, part, pa, -, -, h2⟩ <;> rw [h2] at he
            · obtain ⟨rfl, -⟩ := Prod.mk.inj he
              have := hr.inv.started (ht ▸ hne)
              exact ⟨rfl, by omega⟩
            · cases (Prod.mk.inj he).2
            · obtain ⟨rfl, -⟩ := Prod.mk.inj he
              have := h0 (ht ▸ hnil)
              exact ⟨rfl, by simp [this]⟩
          have hT : s.growMeasure.T = max s.T (s.ind1 + 1) := by
            unfold PT.growMeasure; split <;> (try simp only) <;> omega
          split at hg
          · cases hg
          · split at hg
            · cases hg
            · cases hg
              simp only [PT.beforeMeasure, hk.1, hk.2, hT]
              exact ⟨by omega, by omega, fun _ _ _ _ h => by cases h⟩

theorem PT.run_room {F : FilterOps P U Y V Ω} (ops : List (Op U Y Ω)) {s s' : PT P U Y} {l : Spec.Log U Y} (hr : s.Rep l) {bs : List (Option Bool)}
    (hf : s.run F ops = (s', .ok bs)) : s'.T ≤ max s.T (s'.ind1 + 1) := by
  induction ops generalizing s l bs with
  | nil => cases hf; omega
  | cons op ops ih =>
    unfold PT.run at hf
    rcases hs : s.step F op with ⟨s1, _ | b⟩
    · simp only [hs] at hf; cases hf
    · simp only [hs] at hf
      rcases hr2 : PT.run F s1 ops with ⟨s2, _ | bs'⟩
      · simp only [hr2] at hf; cases hf
      · simp only [hr2] at hf
        cases hf
        have r1 := PT.step_rep hr hs
        have r2 := PT.run_rep ops r1 hr2
        have hle : s1.ind1 ≤ s'.ind1 := by rw [r1.ind, r2.ind]; exact log_length_mono _ _ _
        have := ih r1 hr2
        have := (PT.step_room hr hs).1
        omega

/-! ### The claims -/

/-- C101: with preallocated buffers longer than the run, the last entries are "no measurement" at the last preallocated time, whatever was measured. -/
theorem C101_preallocated {F : FilterOps P U Y V Ω} {N T : ℕ} {s0 s : PT P U Y} (h0 : PT.init N (some T) 0 = .ok s0) (ops : List (Op U Y Ω)) {bs : List (Option Bool)}
    (hrun : s0.run F ops = (s, .ok bs)) (hT : s.traj.length < T) : s.yvec.getLast? = some .none ∧ s.tvec.getLast? = some (T - 1) := by
  obtain ⟨hu, ht⟩ := PT.init_unused h0
  have hr := PT.run_rep ops (PT.init_rep h0) hrun
  rw [hr.len, ← hr.ind] at hT
  obtain ⟨k1, k2⟩ := PT.run_unused ops (PT.init_rep h0) hrun hu (by rw [ht]; exact hT)
  simp only [ht, Option.getD_some] at k2
  rw [List.getLast?_eq_getElem?, List.getLast?_eq_getElem?, hr.inv.ylen, hr.inv.tlen, k2, show max T 1 - 1 = T - 1 by omega]
  exact k1 _ (by omega) (by omega)

/-- C101: when the run ends with `forward` and fills the buffers, the last entries are the last measurement and its time. -/
theorem C101_filled {F : FilterOps P U Y V Ω} {N : ℕ} {T : Option ℕ} {s0 s : PT P U Y} (h0 : PT.init N T 0 = .ok s0) (ops : List (Op U Y Ω)) (u : Slot U) (y : Slot Y)
    (ω0 : Ω) (d : Draws Ω) {bs : List (Option Bool)} (hrun : s0.run F (ops ++ [.forward u y ω0 d]) = (s, .ok bs)) (hT : T.getD 0 ≤ s.traj.length) :
    s.yvec.getLast? = some y ∧ s.tvec.getLast? = some (s.traj.length - 1) := by
  obtain ⟨-, ht⟩ := PT.init_unused h0
  have hr := PT.run_rep _ (PT.init_rep h0) hrun
  obtain ⟨s1, bs1, b, e1, e2⟩ := PT.run_concat _ _ hrun
  have hr1 := PT.run_rep _ (PT.init_rep h0) e1
  have hroom := PT.run_room _ (PT.init_rep h0) e1
  obtain ⟨-, h2, h3⟩ := PT.step_room hr1 e2
  have h3 := h3 _ _ _ _ rfl
  have hl := hr.ind
  have hl1 := hr1.ind
  rw [List.foldl_concat] at hl hr
  have hlog : ((ops.foldl (Spec.Log.step F.usingPfy) ⟨[], []⟩).forward u y).ys.length = max (ops.foldl (Spec.Log.step F.usingPfy) (⟨[], []⟩ : Spec.Log U Y)).ys.length 1 + 1 ∧
      ((ops.foldl (Spec.Log.step F.usingPfy) ⟨[], []⟩).forward u y).ys.getLast? = some y := by
    unfold Spec.Log.forward
    split_ifs with hn
    · simp_all
    · have : (ops.foldl (Spec.Log.step F.usingPfy) (⟨[], []⟩ : Spec.Log U Y)).ys ≠ [] := by simpa using hn
      have := List.length_pos_of_ne_nil this
      simp; omega
  simp only [Spec.Log.step] at hl hr
  have hTe : s.T = s.ind1 := by
    have := hr.len
    omega
  have hpos : 1 ≤ s.ind1 := by omega
  rw [List.getLast?_eq_getElem?, List.getLast?_eq_getElem?, hr.inv.ylen, hr.inv.tlen, hTe, show max s.ind1 1 - 1 = s.ind1 - 1 by omega,
    hr.ys _ (by omega), hr.ts _ (by omega), hr.len, ← hr.ind]
  refine ⟨?_, rfl⟩
  rw [hr.ind, ← List.getLast?_eq_getElem?]
  exact hlog.2

/-- C101: when the last step of a run that fills the buffers is measured again, the buffers grow by one entry, which is `0`, at time `0`. -/
theorem C101_remeasured {F : FilterOps P U Y V Ω} (hF : F.usingPfy = false) {N : ℕ} {T : Option ℕ} {s0 s : PT P U Y} (h0 : PT.init N T 0 = .ok s0) (ops : List (Op U Y Ω))
    (u : Slot U) (y : Slot Y) (ω0 : Ω) (d : Draws Ω) (y' : Slot Y) (ω : Ω) {bs : List (Option Bool)}
    (hrun : s0.run F (ops ++ [.forward u y ω0 d] ++ [.measure y' ω]) = (s, .ok bs)) (hT : T.getD 0 ≤ s.traj.length) :
    s.yvec.getLast? = some .zero ∧ s.tvec.getLast? = some 0 := by
  obtain ⟨-, ht⟩ := PT.init_unused h0
  have hr := PT.run_rep _ (PT.init_rep h0) hrun
  obtain ⟨s2, bs2, b2, e3, e4⟩ := PT.run_concat _ _ hrun
  have hr2 := PT.run_rep _ (PT.init_rep h0) e3
  obtain ⟨s1, bs1, b1, e1, e2⟩ := PT.run_concat _ _ e3
  have hr1 := PT.run_rep _ (PT.init_rep h0) e1
  have hroom := PT.run_room _ (PT.init_rep h0) e1
  obtain ⟨-, h2, h3⟩ := PT.step_room hr1 e2
  have h3 := h3 _ _ _ _ rfl
  have hi12 : s1.ind1 + 1 ≤ s2.ind1 ∧ 1 ≤ s2.ind1 := by
    rw [hr1.ind, hr2.ind, List.foldl_concat]
    simp only [Spec.Log.step, Spec.Log.forward]
    split_ifs with hn <;> simp
    simp_all
  have hne : s2.traj ≠ [] := by
    intro h
    have := hr2.len
    rw [h, ← hr2.ind] at this
    simp at this
    omega
  have hi2 : s.traj.length = s2.ind1 := by
    have := hr2.len
    rw [hr.len, hr2.ind, List.foldl_append (l' := [Op.measure y' ω])]
    obtain ⟨L, hL⟩ : ∃ L, L = List.foldl (Spec.Log.step F.usingPfy) (⟨[], []⟩ : Spec.Log U Y) (ops ++ [Op.forward u y ω0 d]) := ⟨_, rfl⟩
    rw [← hL] at this ⊢
    have hy : L.ys ≠ [] := by
      intro h; rw [h] at this; simp at this; exact hne this
    have := List.length_pos_of_ne_nil hy
    simp only [List.foldl_cons, List.foldl_nil, Spec.Log.step, Spec.Log.measure, hF]
    simp [hy]
    omega
  have hTe : s2.T = s2.ind1 := by omega
  unfold PT.step at e4
  rcases hg : s2.measure F y' ω with ⟨s3, r⟩
  simp only [hg] at e4
  cases r with
  | error e => cases e4
  | ok b =>
    cases e4
    rw [PT.measure_eq hF hr2.inv] at hg
    obtain ⟨hgi, hg1, hg2, hg3, -⟩ := PT.growMeasure_inv hr2.inv
    rcases s2.growMeasure.ensureInit_cases F ω with ⟨-, h2⟩ | ⟨h2, -⟩ | ⟨h2, -⟩
    · rw [h2] at hg
      simp only at hg
      split at hg
      · cases hg
      · split at hg
        · cases hg
        · cases hg
          have hyl : s2.yvec.length = s2.ind1 := by rw [hr2.inv.ylen]; omega
          have htl : s2.tvec.length = s2.ind1 := by rw [hr2.inv.tlen]; omega
          simp only [PT.beforeMeasure, PT.growMeasure, hTe, le_refl, if_true, npResize]
          simp only [List.getLast?_eq_getElem?]
          simp [hyl, htl]
          constructor <;> rw [List.getElem_set_ne (by omega), List.getElem_append_right (by simp; omega)] <;> simp
    · exact absurd h2 (hg3 ▸ hne)
    · exact absurd h2 (hg3 ▸ hne)

/-- The hypotheses of C101 can be met: three preallocated entries and a run of two steps; and a run that fills its buffers and measures the last step again. -/
example : ∃ (s0 s : PT ℕ ℕ ℕ) (bs : List (Option Bool)), PT.init 1 (some 3) 0 = .ok s0 ∧
    s0.run faultyFilter [.measure (.obj 5) (), .forward .none (.obj 6) () ⟨0, 0, ()⟩] = (s, .ok bs) ∧ s.traj.length = 2 ∧ s.yvec = [.obj 5, .obj 6, .none] := by
  refine ⟨_, _, [none, some false], rfl, Prod.ext rfl ?_, ?_, ?_⟩ <;>
    simp [PT.run, PT.step, PT.measure, PT.growMeasure, faultyFilter, PT.ensureInit, npResize, setIdx, PA.new, getLast, PT.forward, PT.growForward, getIdx]

example : ∃ (s0 s : PT ℕ ℕ ℕ) (bs : List (Option Bool)), PT.init 1 none 0 = .ok s0 ∧
    s0.run faultyFilter ([.measure (.obj 5) ()] ++ [.forward .none (.obj 6) () ⟨0, 0, ()⟩] ++ [.measure (.obj 7) ()]) = (s, .ok bs) ∧ s.traj.length = 2 ∧
    s.yvec = [.obj 5, .obj 7, .zero] := by
  refine ⟨_, _, [none, some false, none], rfl, Prod.ext rfl ?_, ?_, ?_⟩ <;>
    simp [PT.run, PT.step, PT.measure, PT.growMeasure, faultyFilter, PT.ensureInit, npResize, setIdx, PA.new, getLast, PT.forward, PT.growForward, getIdx]

end PyPE

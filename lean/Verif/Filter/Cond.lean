import Verif.Filter.Props
import Verif.Traj.Run

/-!
# Conditional filters and run-level totality (filter.py:329-803): C12, C15, C16
-/

namespace PyPE
open Real Spec

variable {P U Y V Ω : Type}

/-- Contract of all callbacks for `N` particles: they succeed and return arrays whose first dimension is
`N`. -/
structure FullContract (M : Callbacks P U Y V Ω) (N : ℕ) : Prop extends FilterContract M N where
  create : ∀ ω, ∃ p, M.createInitial N ω = .ok p ∧ p.length = N
  first : ∀ part u y t, part.length = N → ∃ l, M.evalFirstStage part u y t = .ok l ∧ l.length = N
  single : ∀ part past pind fut find ut yt tt c, part.length = N → find.length = N →
    ∃ l, M.logpXnextSingle part past pind fut find ut yt tt c = .ok l ∧ l.length = N
  propose : ∀ y t ω, ∃ p, M.proposeFromY N y t ω = .ok p ∧ p.length = N
  qsample : ∀ part u y t ω, part.length = N → ∃ p, M.qsample part u y t ω = .ok p ∧ p.length = N
  logpQ : ∀ part nxt u y t, part.length = N → ∃ l, M.logpQ part nxt u y t = .ok l ∧ l.length = N
  logpXnext : ∀ part nxt u t, part.length = N → ∃ l, M.logpXnext part nxt u t = .ok l ∧ l.length = N
  sirMeasure : ∀ part y t, part.length = N → ∃ l, M.sirMeasure part y t = .ok l ∧ l.length = N

/-- `x` is the state of the reference trajectory at time `k`. -/
def Spec.RefState (ctraj : List (Step P)) (k : ℕ) (x : P) : Prop :=
  ∃ c, ctraj[k]? = some c ∧ c.pa.part[0]? = some x

/-- A well-formed stored step of `N` particles. -/
structure Spec.GoodStep (N : ℕ) (st : Step P) : Prop where
  pa : st.pa.WF N
  anc_len : st.ancestors.length = N
  anc_lt : ∀ a ∈ st.ancestors, a < N

/-! ### Shared pieces -/

theorem fancy_replicate {α : Type} {a : List α} {i n : ℕ} (h : i < a.length) :
    ∃ b, fancy a (List.replicate n i) = .ok b ∧ b.length = n := by
  obtain ⟨b, hb⟩ := fancy_ok (a := a) (ind := List.replicate n i) (by
    intro j hj; obtain ⟨-, rfl⟩ := List.mem_replicate.mp hj; exact h)
  exact ⟨b, hb, by simpa using (fancy_spec.mp hb).1⟩

theorem getLast_of_idx {α : Type} {a : List α} {k : ℕ} {x : α} (hk : a.length = k + 1)
    (h : a.getLast? = some x) : a[k]? = some x := by
  rw [List.getLast?_eq_getElem?, hk] at h; exact h

/-- The ancestors `sample(...)` of the first `N-1` particles. -/
theorem anc0_ok {w : List ℝ} {N : ℕ} (hw : w.length = N) (hN : 0 < N) {r : ℝ} (hr : Unit01 r) :
    ∃ a, sample (expNormalised w) (N - 1) r = .ok a ∧ a.length = N - 1 ∧ ∀ i ∈ a, i < N := by
  have hne : w ≠ [] := by intro h; rw [h] at hw; simp at hw; omega
  obtain ⟨a, h1, h2, h3⟩ := C01_sample_length_range (expNormalised_weights hne) (N - 1) hr
  exact ⟨a, h1, h2, by simpa [expNormalised_length, hw] using h3⟩

/-- Copying the ancestors, prediction, insertion of the reference state, measurement update. -/
theorem condTail_ok {M : Callbacks P U Y V Ω} {N : ℕ} (hM : FilterContract M N) (hN : 0 < N)
    (tr : List (Step P)) {part : List P} {anc : List ℕ} (hal : anc.length = N)
    (har : ∀ a ∈ anc, a < part.length) (x : P)
    (uv : List (Slot U)) (yv : List (Slot Y)) (tv : List ℕ) (cur : ℕ) (ω : Ω)
    (hy : cur + 1 < yv.length) :
    ∃ p0 pa0 pa1 part2 pa, fancy part anc = .ok p0 ∧ PA.new p0 none = .ok pa0 ∧
      pfUpdate M tr anc uv yv tv cur pa0 ω = .ok pa1 ∧ setLast pa1.part x = .ok part2 ∧
      condMeasure M tr anc { pa1 with part := part2 } uv yv tv (cur + 1) = .ok pa ∧ pa.WF N ∧
      pa.part[N-1]? = some x ∧
      (yv[cur+1]? = some .none → pa.w = List.replicate N (-log N)) ∧
      (yv[cur+1]? ≠ some .none → ∃ l, M.measure pa.part tr uv (yv.take (cur+2)) (tv.take (cur+2)) anc = .ok l ∧
        l.length = N ∧ normWeights pa.w = normWeights l ∧ npMax pa.w = .ok 0) := by
  obtain ⟨p0, hp0⟩ := fancy_ok har
  have hp0l : p0.length = N := by rw [(fancy_spec.mp hp0).1, hal]
  obtain ⟨pa0, h0, hwf0, -, hw0, -⟩ := PA.new_none_wf hp0l hN
  obtain ⟨pa1, h1, hwf1, hw1, -⟩ := pfUpdate_ok hM tr anc uv yv tv cur hwf0 ω
  obtain ⟨part2, h2, h2l, h2x, -⟩ := setLast_ok hwf1.part_len hN x
  have hwf2 : PA.WF { pa1 with part := part2 } N := ⟨h2l, hwf1.w_len, hwf1.num_eq⟩
  obtain ⟨l, pa', hl, hll, hm, hwu, hwf'⟩ := pfMeasure_ok hM hN tr anc hwf2 uv yv tv (cur+1)
  obtain ⟨e1, e2, e3, e4, e5, c, e6, e7⟩ := weightUpdate_spec hwu
  have hnorm : normWeights pa'.w = normWeights l := by
    rw [e7, normWeights_zipWith]
    simp only [hw1, hw0]
    have : List.zipWith (· + ·) (List.replicate N (-log N)) l = l.map (· + (-log N)) := by
      apply List.ext_getElem
      · simp [hll]
      · intro i h1 h2; simp [add_comm]
    rw [this, normWeights_shift]
  cases hyy : yv[cur+1]'hy with
  | none =>
    have hy' : yv[cur+1]? = some .none := by rw [List.getElem?_eq_getElem hy, hyy]
    refine ⟨p0, pa0, pa1, part2, { pa1 with part := part2 }, hp0, h0, h1, h2, ?_, hwf2, h2x,
      fun _ => by simp only [hw1, hw0], fun h => absurd hy' h⟩
    unfold condMeasure; rw [getIdx_ok.mpr hy']; rfl
  | zero =>
    have hy' : yv[cur+1]? = some .zero := by rw [List.getElem?_eq_getElem hy, hyy]
    refine ⟨p0, pa0, pa1, part2, pa', hp0, h0, h1, h2, ?_, hwf', by rw [e1]; exact h2x,
      (fun h => by rw [hy'] at h; cases h), (fun _ => ⟨l, by rw [e1]; exact hl, hll, hnorm, e5⟩)⟩
    unfold condMeasure; rw [getIdx_ok.mpr hy']; exact hm
  | obj a =>
    have hy' : yv[cur+1]? = some (.obj a) := by rw [List.getElem?_eq_getElem hy, hyy]
    refine ⟨p0, pa0, pa1, part2, pa', hp0, h0, h1, h2, ?_, hwf', by rw [e1]; exact h2x,
      (fun h => by rw [hy'] at h; cases h), (fun _ => ⟨l, by rw [e1]; exact hl, hll, hnorm, e5⟩)⟩
    unfold condMeasure; rw [getIdx_ok.mpr hy']; exact hm

/-! ### One-step theorems -/

/-- C15, one step: `CPF.forward` succeeds; the last particle becomes the reference state of the new time
and its ancestor is the last particle; the other `N-1` ancestors are drawn by systematic sampling from the
filter weights; the new weights are uniform when there is no measurement and the normalised likelihoods
otherwise. -/
theorem C15_cpf_step {M : Callbacks P U Y V Ω} {N : ℕ} (hM : FilterContract M N) (hN : 0 < N)
    {ctraj tr : List (Step P)} {last : Step P} {cur : ℕ} (hlen : tr.length = cur + 1)
    (hlast : tr.getLast? = some last) (hwf : last.pa.WF N) {x : P} (hx : RefState ctraj (cur + 1) x)
    {yv : List (Slot Y)} (hy : cur + 1 < yv.length) (uv : List (Slot U)) (tv : List ℕ) (d : Draws Ω)
    (hd : Unit01 d.r) :
    ∃ pa anc, cpfForward M ctraj tr yv uv tv cur d = .ok (pa, true, anc) ∧ GoodStep N ⟨pa, anc⟩ ∧
      pa.part[N-1]? = some x ∧ anc[N-1]? = some (N-1) ∧
      sample (normWeights last.pa.w) (N-1) d.r = .ok (anc.take (N-1)) ∧
      (yv[cur+1]? = some .none → pa.w = List.replicate N (-log N)) ∧
      (yv[cur+1]? ≠ some .none → ∃ l, M.measure pa.part tr uv (yv.take (cur+2)) (tv.take (cur+2)) anc = .ok l ∧
        normWeights pa.w = normWeights l) := by
  obtain ⟨c1, hc1, hcx⟩ := hx
  obtain ⟨a0, hs, hal, har⟩ := anc0_ok hwf.w_len hN hd
  obtain ⟨p0, pa0, pa1, part2, pa, h1, h2, h3, h4, h5, h6, h7, h8, h9⟩ :=
    condTail_ok hM hN tr (part := last.pa.part) (anc := a0 ++ [N - 1]) (by simp [hal]; omega)
      (by
        intro a ha; rw [hwf.part_len]
        rcases List.mem_append.mp ha with ha | ha
        · exact har a ha
        · simp at ha; omega) x uv yv tv cur d.ω hy
  refine ⟨pa, a0 ++ [N - 1], ?_, ⟨h6, by simp [hal]; omega, ?_⟩, h7, ?_, ?_, h8, ?_⟩
  · unfold cpfForward
    simp only [getIdx_ok.mpr (getLast_of_idx hlen hlast), ok_bind, getLast_ok.mpr hlast, hwf.part_len, hs,
      h1, h2, h3, getIdx_ok.mpr hc1, getIdx_ok.mpr hcx, h4, h5, pure_eq_ok]
  · intro a ha
    rcases List.mem_append.mp ha with ha | ha
    · exact har a ha
    · simp at ha; omega
  · rw [List.getElem?_append_right (by omega), hal]; simp
  · rw [← expNormalised_eq, hs, List.take_append_of_le_length (by omega), List.take_of_length_le (by omega)]
  · intro h; obtain ⟨l, e1, -, e2, -⟩ := h9 h; exact ⟨l, e1, e2⟩

/-- C16, one step of CPFAS: the last particle becomes the reference state of the new time, its ancestor is
a valid index drawn from weights proportional to filter weight times transition density to the
reference state. -/
theorem C16_cpfas_step {M : Callbacks P U Y V Ω} {N : ℕ} (hM : FullContract M N) (hN : 0 < N)
    {ctraj tr : List (Step P)} {last : Step P} {cur : ℕ} (hlen : tr.length = cur + 1)
    (hlast : tr.getLast? = some last) (hwf : GoodStep N last) {x : P} (hx : RefState ctraj (cur + 1) x)
    {yv : List (Slot Y)} (hy : cur + 1 < yv.length) (uv : List (Slot U)) (tv : List ℕ) (d : Draws Ω)
    (hd : Unit01 d.r) (hd2 : Unit01 d.r2) :
    ∃ pa anc, cpfasForward M ctraj tr yv uv tv cur d = .ok (pa, true, anc) ∧ GoodStep N ⟨pa, anc⟩ ∧
      pa.part[N-1]? = some x ∧
      sample (normWeights last.pa.w) (N-1) d.r = .ok (anc.take (N-1)) ∧
      (∃ c1 wt a, ctraj[cur+1]? = some c1 ∧
        M.logpXnextSingle last.pa.part (tr.take cur) last.ancestors c1.pa.part (List.replicate N 0)
          uv yv tv cur = .ok wt ∧ wt.length = N ∧ anc[N-1]? = some a ∧
        sample (normWeights (List.zipWith (· + ·) wt last.pa.w)) 1 d.r2 = .ok [a]) ∧
      (yv[cur+1]? = some .none → pa.w = List.replicate N (-log N)) ∧
      (yv[cur+1]? ≠ some .none → ∃ l, M.measure pa.part tr uv (yv.take (cur+2)) (tv.take (cur+2)) anc = .ok l ∧
        normWeights pa.w = normWeights l) := by
  obtain ⟨c1, hc1, hcx⟩ := hx
  obtain ⟨a0, hs, hal, har⟩ := anc0_ok hwf.pa.w_len hN hd
  obtain ⟨wt, hwt, hwtl⟩ := hM.single last.pa.part (tr.take cur) last.ancestors c1.pa.part
    (List.replicate N 0) uv yv tv cur hwf.pa.part_len (by simp)
  obtain ⟨a, hca, halt⟩ := condAncestor_ok hwtl hwf.pa.w_len hN hd2
  obtain ⟨p0, pa0, pa1, part2, pa, h1, h2, h3, h4, h5, h6, h7, h8, h9⟩ :=
    condTail_ok hM.toFilterContract hN tr (part := last.pa.part) (anc := a0 ++ [a])
      (by simp [hal]; omega)
      (by
        intro b hb; rw [hwf.pa.part_len]
        rcases List.mem_append.mp hb with hb | hb
        · exact har b hb
        · simp at hb; omega) x uv yv tv cur d.ω hy
  refine ⟨pa, a0 ++ [a], ?_, ⟨h6, by simp [hal]; omega, ?_⟩, h7, ?_, ?_, h8, ?_⟩
  · unfold cpfasForward
    have e1 : fancy last.pa.part (List.range N) = .ok last.pa.part := by
      have := fancy_range last.pa.part; rwa [hwf.pa.part_len] at this
    have e2 : fancy last.ancestors (List.range N) = .ok last.ancestors := by
      have := fancy_range last.ancestors; rwa [hwf.anc_len] at this
    have e3 : fancy last.pa.w (List.range N) = .ok last.pa.w := by
      have := fancy_range last.pa.w; rwa [hwf.pa.w_len] at this
    simp only [getIdx_ok.mpr (getLast_of_idx hlen hlast), ok_bind, getLast_ok.mpr hlast, hwf.pa.part_len, hs,
      e1, e2, e3, hwt, hca,
      h1, h2, h3, getIdx_ok.mpr hc1, getIdx_ok.mpr hcx, h4, h5, pure_eq_ok]
  · intro b hb
    rcases List.mem_append.mp hb with hb | hb
    · exact har b hb
    · simp at hb; omega
  · rw [← expNormalised_eq, hs, List.take_append_of_le_length (by omega), List.take_of_length_le (by omega)]
  · refine ⟨c1, wt, a, hc1, hwt, hwtl, ?_, ?_⟩
    · rw [List.getElem?_append_right (by omega), hal]; simp
    · unfold condAncestor at hca
      rw [npAdd_ok (hwtl.trans hwf.pa.w_len.symm)] at hca
      simp only [ok_bind] at hca
      obtain ⟨m, hm, hca⟩ := bind_eq_ok.mp hca
      obtain ⟨ci, hci, hca⟩ := bind_eq_ok.mp hca
      rw [← normWeights_shift _ (-m), ← expNormalised_eq]
      have hz : List.zipWith (· + ·) wt last.pa.w ≠ [] := by
        intro h; rw [h] at hm; simp [npMax] at hm
      have hlen1 := (C01_sample_length_range (weights_normalised (weights_exp
        (l := (List.zipWith (· + ·) wt last.pa.w).map (· - m)) (by simpa using hz))) 1 hd2)
      obtain ⟨ci', hci', hl', -⟩ := hlen1
      rw [hci] at hci'; cases hci'
      obtain ⟨b, rfl⟩ := List.length_eq_one_iff.mp hl'
      have : b = a := by simpa [getIdx] using hca
      subst this
      exact hci
  · intro h; obtain ⟨l, e1, -, e2, -⟩ := h9 h; exact ⟨l, e1, e2⟩

/-- C16, one step of CSIRAS: the last particle becomes the reference state of the new time and the
ancestors are valid. -/
theorem C16_csiras_step {M : Callbacks P U Y V Ω} {N : ℕ} (hM : FullContract M N) (hN : 0 < N)
    {ctraj tr : List (Step P)} {last : Step P} {cur : ℕ} (hlen : tr.length = cur + 1)
    (hlast : tr.getLast? = some last) (hwf : GoodStep N last) {x : P} (hx : RefState ctraj (cur + 1) x)
    {yv : List (Slot Y)} (hy : cur + 1 < yv.length) {uv : List (Slot U)} (hu : cur < uv.length)
    {tv : List ℕ} (ht : cur + 1 < tv.length) (d : Draws Ω)
    (hd : Unit01 d.r) (hd2 : Unit01 d.r2) :
    ∃ pa anc, csirasForward M ctraj tr yv uv tv cur d = .ok (pa, true, anc) ∧ GoodStep N ⟨pa, anc⟩ ∧
      pa.part[N-1]? = some x ∧
      sample (normWeights last.pa.w) (N-1) d.r = .ok (anc.take (N-1)) := by
  obtain ⟨c1, hc1, hcx⟩ := hx
  obtain ⟨a0, hs, hal, har⟩ := anc0_ok hwf.pa.w_len hN hd
  obtain ⟨cp, hcp, -⟩ := fancy_replicate (a := c1.pa.part) (i := 0) (n := N) (lt_of_getElem?_some hcx)
  obtain ⟨wt, hwt, hwtl⟩ := hM.logpXnext last.pa.part cp uv[cur] (tv[cur]'(by omega)) hwf.pa.part_len
  obtain ⟨a, hca, halt⟩ := condAncestor_ok hwtl hwf.pa.w_len hN hd2
  have hanc : ∀ b ∈ a0 ++ [a], b < N := by
    intro b hb
    rcases List.mem_append.mp hb with hb | hb
    · exact har b hb
    · simp at hb; omega
  obtain ⟨p0, hp0⟩ := fancy_ok (a := last.pa.part) (ind := a0 ++ [a]) (by rwa [hwf.pa.part_len])
  have hp0l : p0.length = N := by rw [(fancy_spec.mp hp0).1]; simp [hal]; omega
  obtain ⟨pa0, h0, hwf0, hpart0, -, -⟩ := PA.new_none_wf hp0l hN
  obtain ⟨q, hq, hql⟩ := hM.qsample pa0.part uv[cur] (yv[cur+1]) (tv[cur]'(by omega)) d.ω hwf0.part_len
  obtain ⟨q', hq', hql', hqx, -⟩ := setLast_ok hql hN x
  obtain ⟨qw, hqw, hqwl⟩ := hM.logpQ pa0.part q' uv[cur] yv[cur+1] (tv[cur]'(by omega)) hwf0.part_len
  obtain ⟨nw, hnw, hnwl⟩ := hM.logpXnext pa0.part q' uv[cur] (tv[cur]'(by omega)) hwf0.part_len
  obtain ⟨yw, hyw, hywl⟩ := hM.sirMeasure q' yv[cur+1] (tv[cur+1]) hql'
  have e3 : fancy last.pa.w (List.range N) = .ok last.pa.w := by
    have := fancy_range last.pa.w; rwa [hwf.pa.w_len] at this
  refine ⟨{ pa0 with w := List.zipWith (· - ·) (List.zipWith (· + ·) yw nw) qw, part := q' }, a0 ++ [a], ?_,
    ⟨⟨hql', by simp [hywl, hnwl, hqwl], hwf0.num_eq⟩, by simp [hal]; omega, hanc⟩, hqx, ?_⟩
  · unfold csirasForward
    simp only [getIdx_ok.mpr (getLast_of_idx hlen hlast), ok_bind, getLast_ok.mpr hlast, hwf.pa.part_len, hs,
      getIdx_ok.mpr hc1, hcp, getIdx_of_lt hu, getIdx_of_lt (show cur < tv.length by omega), hwt, e3, hca,
      hp0, h0, getIdx_of_lt hy, hq, getIdx_ok.mpr hcx, hq', hqw, hnw, getIdx_of_lt ht, hyw, pure_eq_ok,
      npAdd_ok (hywl.trans hnwl.symm)]
    rw [npSub_ok (by simp [hywl, hnwl, hqwl])]
    rfl
  · rw [← expNormalised_eq, hs, List.take_append_of_le_length (by omega), List.take_of_length_le (by omega)]

/-- `x` is the only particle of the reference trajectory at time `k` (what CPFYAS needs). -/
def Spec.RefSingle (ctraj : List (Step P)) (k : ℕ) (x : P) : Prop :=
  ∃ c, ctraj[k]? = some c ∧ c.pa.part = [x]

/-- C16, one step of CPFYAS. -/
theorem C16_cpfyas_step {M : Callbacks P U Y V Ω} {N : ℕ} (hM : FullContract M N) (hN : 0 < N)
    {ctraj tr : List (Step P)} {last : Step P} {cur : ℕ} (hlen : tr.length = cur + 1)
    (hlast : tr.getLast? = some last) (hwf : GoodStep N last) {x : P} (hx : RefSingle ctraj (cur + 1) x)
    {yv : List (Slot Y)} (hy : cur + 1 < yv.length) (uv : List (Slot U))
    {tv : List ℕ} (ht : cur + 1 < tv.length) (d : Draws Ω)
    (hd : Unit01 d.r) (hd2 : Unit01 d.r2) :
    ∃ pa anc, cpfyasForward M N ctraj tr yv uv tv cur d = .ok (pa, true, anc) ∧ GoodStep N ⟨pa, anc⟩ ∧
      pa.part[N-1]? = some x ∧
      sample (normWeights last.pa.w) (N-1) d.r = .ok (anc.take (N-1)) ∧ npMax pa.w = .ok 0 := by
  obtain ⟨c1, hc1, hcx⟩ := hx
  obtain ⟨a0, hs, hal, har⟩ := anc0_ok hwf.pa.w_len hN hd
  obtain ⟨wt, hwt, hwtl⟩ := hM.single last.pa.part (tr.take cur) last.ancestors c1.pa.part
    (List.replicate N 0) uv yv tv cur hwf.pa.part_len (by simp)
  obtain ⟨a, hca, halt⟩ := condAncestor_ok hwtl hwf.pa.w_len hN hd2
  have hanc : ∀ b ∈ a0 ++ [a], b < N := by
    intro b hb
    rcases List.mem_append.mp hb with hb | hb
    · exact har b hb
    · simp at hb; omega
  have hancl : (a0 ++ [a]).length = N := by simp [hal]; omega
  obtain ⟨p0, hp0⟩ := fancy_ok (a := last.pa.part) (ind := a0 ++ [a]) (by rwa [hwf.pa.part_len])
  have hp0l : p0.length = N := by rw [(fancy_spec.mp hp0).1, hancl]
  obtain ⟨pind, hpind⟩ := fancy_ok (a := last.ancestors) (ind := a0 ++ [a]) (by rwa [hwf.anc_len])
  obtain ⟨q, hq, hql⟩ := hM.propose (yv[cur+1]) (tv[cur+1]) d.ω
  obtain ⟨q', hq', hql', hqx, -⟩ := setLast_ok hql hN x
  obtain ⟨wn, hwn, hwnl⟩ := hM.single p0 (tr.take cur) pind q' (List.range N) uv yv tv cur hp0l (by simp)
  have hwne : wn ≠ [] := by intro h; rw [h] at hwnl; simp at hwnl; omega
  obtain ⟨m, hm⟩ := npMax_ok hwne
  have e1 : fancy last.pa.part (List.range N) = .ok last.pa.part := by
    have := fancy_range last.pa.part; rwa [hwf.pa.part_len] at this
  have e2 : fancy last.ancestors (List.range N) = .ok last.ancestors := by
    have := fancy_range last.ancestors; rwa [hwf.anc_len] at this
  have e3 : fancy last.pa.w (List.range N) = .ok last.pa.w := by
    have := fancy_range last.pa.w; rwa [hwf.pa.w_len] at this
  have e4 : setLastFrom q c1.pa.part = .ok q' := by rw [hcx]; exact hq'
  refine ⟨⟨q', wn.map (· - m), q'.length, 0 + m⟩, a0 ++ [a], ?_,
    ⟨⟨hql', by simp [hwnl], hql'⟩, hancl, hanc⟩, hqx, ?_, npMax_map_sub hm⟩
  · unfold cpfyasForward
    simp only [getIdx_ok.mpr (getLast_of_idx hlen hlast), ok_bind, getLast_ok.mpr hlast, hs, e1, e2,
      getIdx_ok.mpr hc1, hwt, e3, hca, getIdx_of_lt hy, getIdx_of_lt ht, hq, e4, hp0, hpind, hwn, hm, PA.new,
      pure_eq_ok]
  · rw [← expNormalised_eq, hs, List.take_append_of_le_length (by omega), List.take_of_length_le (by omega)]

/-- C16 (CPFYAS, restriction): a reference step holding more than one particle makes `CPFYAS.measure`
raise, because the whole particle array is assigned to the last row (CPF and CPFAS use its first
particle). -/
theorem C16_cpfyas_needs_single {M : Callbacks P U Y V Ω} {N : ℕ} (hM : FullContract M N)
    {ctraj : List (Step P)} {c : Step P} {cur : ℕ} (hc : ctraj[cur]? = some c)
    (hmany : c.pa.part.length ≠ 1) {yv : List (Slot Y)} (hy : cur < yv.length) {tv : List ℕ}
    (ht : cur < tv.length) (ω : Ω) :
    cpfyasMeasure M N ctraj yv tv cur ω = .error .valueError := by
  obtain ⟨q, hq, -⟩ := hM.propose yv[cur] tv[cur] ω
  have : setLastFrom q c.pa.part = .error .valueError := by
    unfold setLastFrom
    split
    · rename_i h; rw [h] at hmany; simp at hmany
    · rfl
  unfold cpfyasMeasure
  simp only [getIdx_of_lt hy, getIdx_of_lt ht, ok_bind, hq, getIdx_ok.mpr hc, this, error_bind]

end PyPE

import Verif.Rounding.Filter

/-!
# C105: the other filters in rounded arithmetic
-/

namespace PyPE
open Spec

variable {P U Y V Ω : Type} {A : Arith} {nmax : ℕ}

theorem cumAt_zero (hA : Rounded A nmax) {w : List ℝ} (h : ∀ x ∈ w, x = 0) (k : ℕ) : cumAt A w k = 0 := by
  have hget : ∀ k, w.getD k 0 = 0 := by
    intro k
    rw [List.getD_eq_getElem?_getD]
    rcases hk : w[k]? with _ | x
    · rfl
    · exact h x (List.mem_of_getElem? hk)
  induction k with
  | zero => exact hget 0
  | succ k ih => rw [cumAt, ih, hget, add_zero, fl_zero hA]

/-- Drawing by weights that are not scaled by their maximum gives valid indices, whatever the log-weights. -/
theorem flExpSample_ok (hA : Rounded A nmax) {w : List ℝ} (hne : w ≠ []) {n : ℕ} (hn : n ≤ nmax) {r : ℝ} (hr : Unit01 r) :
    ∃ idx, flExpSample A w n r = .ok idx ∧ idx.length = n ∧ ∀ i ∈ idx, i < w.length := by
  have hpos : 0 < w.length := List.length_pos_iff.mpr hne
  have hzero : ∀ i ∈ List.replicate n 0, i < w.length := fun i hi => by rw [(List.mem_replicate.mp hi).2]; exact hpos
  have h1 : FlWeights A (w.map A.exp) := by
    intro x hx
    obtain ⟨y, -, rfl⟩ := List.mem_map.mp hx
    exact ⟨hA.exp_nonneg _, hA.exp_rep _⟩
  obtain ⟨-, hs0, -⟩ := flSum_ge hA (hA.sum (w.map A.exp) (by simpa using hne)) h1
  by_cases hs : A.sum (w.map A.exp) = 0
  · exact ⟨_, by unfold flExpSample; simp only [hs, if_neg hne, if_true], by simp, hzero⟩
  obtain ⟨v, hv⟩ : ∃ v, v = (w.map A.exp).map fun x => A.fl (x / A.sum (w.map A.exp)) := ⟨_, rfl⟩
  have hvl : v.length = w.length := by rw [hv]; simp
  have hvne : v ≠ [] := by rintro h; rw [h] at hvl; simp at hvl; omega
  have heq : flExpSample A w n r = flSample A v n r := by unfold flExpSample; simp only [hs, if_neg hne, if_false]; rw [hv]
  have hw : FlWeights A v := by
    intro x hx
    rw [hv] at hx
    obtain ⟨y, hy, rfl⟩ := List.mem_map.mp hx
    exact ⟨fl_nonneg hA (div_nonneg (h1 y hy).1 hs0), hA.idem _⟩
  rw [heq]
  by_cases hp : ∃ x ∈ v, 0 < x
  · obtain ⟨idx, i1, i2, i3, -, -⟩ := C105_sample_valid hA hw hp hn hr
    exact ⟨idx, i1, i2, by rwa [hvl] at i3⟩
  · have hz : ∀ x ∈ v, x = 0 := fun x hx => by
      by_contra h
      exact hp ⟨x, hx, lt_of_le_of_ne (hw x hx).1 (Ne.symm h)⟩
    refine ⟨List.replicate n 0, ?_, by simp, hzero⟩
    have hl : getLast (flCumsum A v) = .ok 0 := by
      have hlt : v.length - 1 < v.length := by omega
      refine getLast_ok.mpr ?_
      rw [List.getLast?_eq_getElem?, flCumsum_length, flCumsum_get A v hlt, cumAt_zero hA hz]
    unfold flSample
    simp only [hl, ok_bind, if_true, pure_eq_ok]

theorem flCondAncestor_ok (hA : Rounded A nmax) {wt w : List ℝ} {N : ℕ} (h1 : wt.length = N) (h2 : w.length = N) (hN : 0 < N) (hmax : N ≤ nmax) {r : ℝ} (hr : Unit01 r) :
    ∃ a, flCondAncestor A wt w r = .ok a ∧ a < N := by
  have hadd : flAdd A wt w = .ok (List.zipWith (fun x y => A.fl (x + y)) wt w) := by unfold flAdd; rw [if_pos (h1.trans h2.symm)]
  have hzl : (List.zipWith (fun x y => A.fl (x + y)) wt w).length = N := by simp [h1, h2]
  obtain ⟨idx, i1, i2, i3, -⟩ := C105_max_sample hA (w := List.zipWith (fun x y => A.fl (x + y)) wt w)
    (by rintro h; rw [h] at hzl; simp at hzl; omega) (by rw [hzl]; exact hmax) (n := 1) hA.one_le hr
  obtain ⟨a, rfl⟩ := List.length_eq_one_iff.mp i2
  refine ⟨a, ?_, by rw [← hzl]; exact i3 a (by simp)⟩
  unfold flCondAncestor
  simp only [hadd, ok_bind, i1]
  rfl

theorem flNew_ok {part : List P} {N : ℕ} (h : part.length = N) (hN : 0 < N) :
    ∃ pa, flNew A part = .ok pa ∧ pa.WF N ∧ pa.part = part ∧ pa.w = List.replicate N (-A.log N) := by
  obtain ⟨pa, h1, h2, h3, -⟩ := PA.new_none_wf h hN
  refine ⟨{ pa with w := List.replicate N (-A.log N) }, ?_, ⟨h2.part_len, by simp, h2.num_eq⟩, h3, rfl⟩
  unfold flNew
  simp only [h1, ok_bind, h, pure_eq_ok]

/-- Weights whose largest one is exactly 0, or that are all equal. -/
def Spec.ScaledOrUniform (w : List ℝ) : Prop := (0 ∈ w ∧ ∀ x ∈ w, x ≤ 0) ∨ ∃ n c, w = List.replicate n c

theorem flCondTail_ok (hA : Rounded A nmax) {M : Callbacks P U Y V Ω} {N : ℕ} (hM : FilterContract M N) (hN : 0 < N)
    (tr : List (Step P)) {part : List P} {anc : List ℕ} (hal : anc.length = N) (har : ∀ a ∈ anc, a < part.length) (x : P)
    (uv : List (Slot U)) (yv : List (Slot Y)) (tv : List ℕ) (cur : ℕ) (ω : Ω) (hy : cur + 1 < yv.length) :
    ∃ p0 pa0 pa1 part2 pa, fancy part anc = .ok p0 ∧ flNew A p0 = .ok pa0 ∧
      pfUpdate M tr anc uv yv tv cur pa0 ω = .ok pa1 ∧ setLast pa1.part x = .ok part2 ∧
      flCondMeasure A M tr anc { pa1 with part := part2 } uv yv tv (cur + 1) = .ok pa ∧ pa.WF N ∧
      pa.part[N-1]? = some x ∧ ScaledOrUniform pa.w := by
  obtain ⟨p0, hp0⟩ := fancy_ok har
  have hp0l : p0.length = N := by rw [(fancy_spec.mp hp0).1, hal]
  obtain ⟨pa0, h0, hwf0, -, hw0⟩ := flNew_ok (A := A) hp0l hN
  obtain ⟨pa1, h1, hwf1, hw1, -⟩ := pfUpdate_ok hM tr anc uv yv tv cur hwf0 ω
  obtain ⟨part2, h2, h2l, h2x, -⟩ := setLast_ok hwf1.part_len hN x
  have hwf2 : PA.WF { pa1 with part := part2 } N := ⟨h2l, hwf1.w_len, hwf1.num_eq⟩
  obtain ⟨pa', hm, hwf', hp', hsc⟩ := flMeasure_ok hA hM hN tr anc hwf2 uv yv tv (cur+1)
  have hx' : pa'.part[N-1]? = some x := by rw [hp']; exact h2x
  cases hyy : yv[cur+1]'hy with
  | none =>
    have hy' : yv[cur+1]? = some .none := by rw [List.getElem?_eq_getElem hy, hyy]
    refine ⟨p0, pa0, pa1, part2, { pa1 with part := part2 }, hp0, h0, h1, h2, ?_, hwf2, h2x, .inr ⟨N, -A.log N, by simp only [hw1, hw0]⟩⟩
    unfold flCondMeasure; rw [getIdx_ok.mpr hy']; rfl
  | zero =>
    have hy' : yv[cur+1]? = some .zero := by rw [List.getElem?_eq_getElem hy, hyy]
    refine ⟨p0, pa0, pa1, part2, pa', hp0, h0, h1, h2, ?_, hwf', hx', .inl hsc⟩
    unfold flCondMeasure; rw [getIdx_ok.mpr hy']; exact hm
  | obj a =>
    have hy' : yv[cur+1]? = some (.obj a) := by rw [List.getElem?_eq_getElem hy, hyy]
    refine ⟨p0, pa0, pa1, part2, pa', hp0, h0, h1, h2, ?_, hwf', hx', .inl hsc⟩
    unfold flCondMeasure; rw [getIdx_ok.mpr hy']; exact hm

theorem mem_concat_lt {l : List ℕ} {N a : ℕ} (h : ∀ i ∈ l, i < N) (ha : a < N) : ∀ b ∈ l ++ [a], b < N := by
  intro b hb
  rcases List.mem_append.mp hb with hb | hb
  · exact h b hb
  · simp at hb; omega

theorem flCpfForward_ok (hA : Rounded A nmax) {M : Callbacks P U Y V Ω} {N : ℕ} (hM : FilterContract M N) (hN : 0 < N) (hmax : N ≤ nmax)
    {ctraj tr : List (Step P)} {last : Step P} {cur : ℕ} (hlen : tr.length = cur + 1)
    (hlast : tr.getLast? = some last) (hwf : GoodStep N last) {x : P} (hx : RefState ctraj (cur + 1) x)
    {yv : List (Slot Y)} (hy : cur + 1 < yv.length) (uv : List (Slot U)) (tv : List ℕ) (d : Draws Ω) (hd : Unit01 d.r) :
    ∃ pa anc, flCpfForward A M ctraj tr yv uv tv cur d = .ok (pa, true, anc) ∧ GoodStep N ⟨pa, anc⟩ ∧ pa.part[N-1]? = some x ∧
      ScaledOrUniform pa.w ∧ anc[N-1]? = some (N-1) := by
  obtain ⟨c1, hc1, hcx⟩ := hx
  have hne : last.pa.w ≠ [] := hwf.pa.w_ne hN
  obtain ⟨a0, hs, hal, har⟩ := flExpSample_ok hA hne (n := N - 1) (by omega) hd
  rw [hwf.pa.w_len] at har
  have hanc := mem_concat_lt har (show N - 1 < N by omega)
  obtain ⟨p0, pa0, pa1, part2, pa, h1, h2, h3, h4, h5, h6, h7, h8⟩ :=
    flCondTail_ok hA hM hN tr (part := last.pa.part) (anc := a0 ++ [N - 1]) (by simp [hal]; omega)
      (by rw [hwf.pa.part_len]; exact hanc) x uv yv tv cur d.ω hy
  refine ⟨pa, a0 ++ [N - 1], ?_, ⟨h6, by simp [hal]; omega, hanc⟩, h7, h8, ?_⟩
  · unfold flCpfForward
    simp only [getIdx_ok.mpr (getLast_of_idx hlen hlast), ok_bind, getLast_ok.mpr hlast, hwf.pa.part_len, hs,
      h1, h2, h3, getIdx_ok.mpr hc1, getIdx_ok.mpr hcx, h4, h5, pure_eq_ok]
  · rw [List.getElem?_append_right (by omega), hal]; simp

theorem flCpfasForward_ok (hA : Rounded A nmax) {M : Callbacks P U Y V Ω} {N : ℕ} (hM : FullContract M N) (hN : 0 < N) (hmax : N ≤ nmax)
    {ctraj tr : List (Step P)} {last : Step P} {cur : ℕ} (hlen : tr.length = cur + 1)
    (hlast : tr.getLast? = some last) (hwf : GoodStep N last) {x : P} (hx : RefState ctraj (cur + 1) x)
    {yv : List (Slot Y)} (hy : cur + 1 < yv.length) (uv : List (Slot U)) (tv : List ℕ) (d : Draws Ω) (hd : Unit01 d.r) (hd2 : Unit01 d.r2) :
    ∃ pa anc, flCpfasForward A M ctraj tr yv uv tv cur d = .ok (pa, true, anc) ∧ GoodStep N ⟨pa, anc⟩ ∧ pa.part[N-1]? = some x ∧
      ScaledOrUniform pa.w := by
  obtain ⟨c1, hc1, hcx⟩ := hx
  have hne : last.pa.w ≠ [] := hwf.pa.w_ne hN
  obtain ⟨a0, hs, hal, har⟩ := flExpSample_ok hA hne (n := N - 1) (by omega) hd
  rw [hwf.pa.w_len] at har
  obtain ⟨wt, hwt, hwtl⟩ := hM.single last.pa.part (tr.take cur) last.ancestors c1.pa.part (List.replicate N 0) uv yv tv cur hwf.pa.part_len (by simp)
  obtain ⟨a, hca, halt⟩ := flCondAncestor_ok hA hwtl hwf.pa.w_len hN hmax hd2
  have hanc := mem_concat_lt har halt
  obtain ⟨p0, pa0, pa1, part2, pa, h1, h2, h3, h4, h5, h6, h7, h8⟩ :=
    flCondTail_ok hA hM.toFilterContract hN tr (part := last.pa.part) (anc := a0 ++ [a]) (by simp [hal]; omega)
      (by rw [hwf.pa.part_len]; exact hanc) x uv yv tv cur d.ω hy
  refine ⟨pa, a0 ++ [a], ?_, ⟨h6, by simp [hal]; omega, hanc⟩, h7, h8⟩
  have e1 : fancy last.pa.part (List.range N) = .ok last.pa.part := by
    have := fancy_range last.pa.part; rwa [hwf.pa.part_len] at this
  have e2 : fancy last.ancestors (List.range N) = .ok last.ancestors := by
    have := fancy_range last.ancestors; rwa [hwf.anc_len] at this
  have e3 : fancy last.pa.w (List.range N) = .ok last.pa.w := by
    have := fancy_range last.pa.w; rwa [hwf.pa.w_len] at this
  unfold flCpfasForward
  simp only [getIdx_ok.mpr (getLast_of_idx hlen hlast), ok_bind, getLast_ok.mpr hlast, hwf.pa.part_len, hs,
    e1, e2, e3, hwt, hca, h1, h2, h3, getIdx_ok.mpr hc1, getIdx_ok.mpr hcx, h4, h5, pure_eq_ok]

/-- **C105.** One step of CSIRAS in rounded arithmetic never fails and keeps the reference state, but its weights are stored as they come, without scaling by their maximum:
when the exponentials of all log-weights of the previous step underflow, all particles but the conditioned one descend from particle 0. -/
theorem C105_csiras_step (hA : Rounded A nmax) {M : Callbacks P U Y V Ω} {N : ℕ} (hM : FullContract M N) (hN : 0 < N) (hmax : N ≤ nmax)
    {ctraj tr : List (Step P)} {last : Step P} {cur : ℕ} (hlen : tr.length = cur + 1)
    (hlast : tr.getLast? = some last) (hwf : GoodStep N last) {x : P} (hx : RefState ctraj (cur + 1) x)
    {yv : List (Slot Y)} (hy : cur + 1 < yv.length) {uv : List (Slot U)} (hu : cur < uv.length)
    {tv : List ℕ} (ht : cur + 1 < tv.length) (d : Draws Ω) (hd : Unit01 d.r) (hd2 : Unit01 d.r2) :
    ∃ pa anc, flCsirasForward A M ctraj tr yv uv tv cur d = .ok (pa, true, anc) ∧ GoodStep N ⟨pa, anc⟩ ∧ pa.part[N-1]? = some x ∧
      ((∀ v ∈ last.pa.w, A.exp v = 0) → ∀ i < N - 1, anc[i]? = some 0) := by
  obtain ⟨c1, hc1, hcx⟩ := hx
  have hne : last.pa.w ≠ [] := hwf.pa.w_ne hN
  obtain ⟨a0, hs, hal, har⟩ := flExpSample_ok hA hne (n := N - 1) (by omega) hd
  rw [hwf.pa.w_len] at har
  obtain ⟨cp, hcp, -⟩ := fancy_replicate (a := c1.pa.part) (i := 0) (n := N) (lt_of_getElem?_some hcx)
  obtain ⟨wt, hwt, hwtl⟩ := hM.logpXnext last.pa.part cp uv[cur] (tv[cur]'(by omega)) hwf.pa.part_len
  obtain ⟨a, hca, halt⟩ := flCondAncestor_ok hA hwtl hwf.pa.w_len hN hmax hd2
  have hanc := mem_concat_lt har halt
  obtain ⟨p0, hp0⟩ := fancy_ok (a := last.pa.part) (ind := a0 ++ [a]) (by rwa [hwf.pa.part_len])
  have hp0l : p0.length = N := by rw [(fancy_spec.mp hp0).1]; simp [hal]; omega
  obtain ⟨pa0, h0, hwf0, hpart0, -⟩ := flNew_ok (A := A) hp0l hN
  obtain ⟨q, hq, hql⟩ := hM.qsample pa0.part uv[cur] (yv[cur+1]) (tv[cur]'(by omega)) d.ω hwf0.part_len
  obtain ⟨q', hq', hql', hqx, -⟩ := setLast_ok hql hN x
  obtain ⟨qw, hqw, hqwl⟩ := hM.logpQ pa0.part q' uv[cur] yv[cur+1] (tv[cur]'(by omega)) hwf0.part_len
  obtain ⟨nw, hnw, hnwl⟩ := hM.logpXnext pa0.part q' uv[cur] (tv[cur]'(by omega)) hwf0.part_len
  obtain ⟨yw, hyw, hywl⟩ := hM.sirMeasure q' yv[cur+1] (tv[cur+1]) hql'
  have e3 : fancy last.pa.w (List.range N) = .ok last.pa.w := by
    have := fancy_range last.pa.w; rwa [hwf.pa.w_len] at this
  have hadd : flAdd A yw nw = .ok (List.zipWith (fun x y => A.fl (x + y)) yw nw) := by unfold flAdd; rw [if_pos (hywl.trans hnwl.symm)]
  have hsub : flSub A (List.zipWith (fun x y => A.fl (x + y)) yw nw) qw = .ok (List.zipWith (fun x y => A.fl (x - y)) (List.zipWith (fun x y => A.fl (x + y)) yw nw) qw) := by
    unfold flSub; rw [if_pos (by simp [hywl, hnwl, hqwl])]
  refine ⟨{ pa0 with w := List.zipWith (fun x y => A.fl (x - y)) (List.zipWith (fun x y => A.fl (x + y)) yw nw) qw, part := q' }, a0 ++ [a], ?_,
    ⟨⟨hql', by simp [hywl, hnwl, hqwl], hwf0.num_eq⟩, by simp [hal]; omega, hanc⟩, hqx, ?_⟩
  · unfold flCsirasForward
    simp only [getIdx_ok.mpr (getLast_of_idx hlen hlast), ok_bind, getLast_ok.mpr hlast, hwf.pa.part_len, hs,
      getIdx_ok.mpr hc1, hcp, getIdx_of_lt hu, getIdx_of_lt (show cur < tv.length by omega), hwt, e3, hca,
      hp0, h0, getIdx_of_lt hy, hq, getIdx_ok.mpr hcx, hq', hqw, hnw, getIdx_of_lt ht, hyw, pure_eq_ok, hadd, hsub]
  · intro hz i hi
    have h := C105_underflow hA hne hz (N - 1) d.r
    rw [hs] at h
    have ha0 : a0 = List.replicate (N - 1) 0 := Except.ok.inj h
    rw [List.getElem?_append_left (by omega), ha0]
    simp [hi]

theorem flSirForward_ok (hA : Rounded A nmax) {M : Callbacks P U Y V Ω} {N : ℕ} (hM : FullContract M N) (hN : 0 < N) (hmax : N ≤ nmax) (res : ℝ)
    {tr : List (Step P)} {last : Step P} {cur : ℕ} (hlast : tr.getLast? = some last) (hwf : GoodStep N last)
    {yv : List (Slot Y)} (hy : cur + 1 < yv.length) {uv : List (Slot U)} (hu : cur < uv.length)
    {tv : List ℕ} (ht : cur + 1 < tv.length) (d : Draws Ω) (hd : Unit01 d.r) :
    ∃ pa b anc, flSirForward A M res tr yv uv tv cur d = .ok (pa, b, anc) ∧ GoodStep N ⟨pa, anc⟩ ∧ 0 ∈ pa.w ∧ ∀ x ∈ pa.w, x ≤ 0 := by
  obtain ⟨pa0, h0, hwf0, -, -, -⟩ := PA.new_some_wf hwf.pa.part_len hwf.pa.w_len
  obtain ⟨pa1, flag, anc, h1, hwf1, hal, har, -⟩ := flMaybeResample_spec hA hwf0 hN hmax res hd
  obtain ⟨q, hq, hql⟩ := hM.qsample pa1.part uv[cur] (yv[cur+1]) (tv[cur]'(by omega)) d.ω hwf1.part_len
  obtain ⟨qw, hqw, hqwl⟩ := hM.logpQ pa1.part q uv[cur] yv[cur+1] (tv[cur]'(by omega)) hwf1.part_len
  obtain ⟨nw, hnw, hnwl⟩ := hM.logpXnext pa1.part q uv[cur] (tv[cur]'(by omega)) hwf1.part_len
  obtain ⟨yw, hyw, hywl⟩ := hM.sirMeasure q yv[cur+1] tv[cur+1] hql
  have hadd : flAdd A yw nw = .ok (List.zipWith (fun x y => A.fl (x + y)) yw nw) := by unfold flAdd; rw [if_pos (hywl.trans hnwl.symm)]
  have hsub : flSub A (List.zipWith (fun x y => A.fl (x + y)) yw nw) qw = .ok (List.zipWith (fun x y => A.fl (x - y)) (List.zipWith (fun x y => A.fl (x + y)) yw nw) qw) := by
    unfold flSub; rw [if_pos (by simp [hywl, hnwl, hqwl])]
  obtain ⟨pa2, h2, hwf2, -, hsc, -⟩ := C105_measure hA hwf1 hN (ll := List.zipWith (fun x y => A.fl (x - y)) (List.zipWith (fun x y => A.fl (x + y)) yw nw) qw)
    (by simp [hywl, hnwl, hqwl])
  refine ⟨{ pa2 with part := q }, flag, anc, ?_, ⟨⟨hql, hwf2.w_len, hwf2.num_eq⟩, hal, har⟩, hsc⟩
  unfold flSirForward
  simp only [getLast_ok.mpr hlast, ok_bind, h0, h1, getIdx_of_lt hu, getIdx_of_lt hy,
    getIdx_of_lt (show cur < tv.length by omega), getIdx_of_lt ht, hq, hqw, hnw, hyw, hadd, hsub, h2, pure_eq_ok]

/-! ### Runs -/

/-- The filters 'sir', 'cpf', 'cpfas' and 'csiras' in rounded arithmetic (simulator.py:75-111). -/
noncomputable def flOps (A : Arith) (M : Callbacks P U Y V Ω) (res : ℝ) (ctraj : List (Step P)) : FilterKind → Option (FilterOps P U Y V Ω)
  | .pf => some (flPfOps A M res)
  | .sir => some ⟨M.createInitial, flSirForward A M res, flMeasure A M, fun _ _ _ _ => .error .assertionError, false⟩
  | .cpf => some ⟨cpfInitial M ctraj, flCpfForward A M ctraj, flMeasure A M, fun _ _ _ _ => .error .assertionError, false⟩
  | .cpfas => some ⟨cpfInitial M ctraj, flCpfasForward A M ctraj, flMeasure A M, fun _ _ _ _ => .error .assertionError, false⟩
  | .csiras => some ⟨M.createInitial, flCsirasForward A M ctraj, flMeasure A M, fun _ _ _ _ => .error .assertionError, false⟩
  | _ => none

/-- What holds of every stored step: sizes, ancestors, the reference state in the last place (except for CSIRAS at time 0) and, except for CSIRAS, weights whose largest one
is 0 or that are all equal. -/
structure Spec.FlStep (k : FilterKind) (ctraj : List (Step P)) (N t : ℕ) (st : Step P) : Prop where
  good : GoodStep N st
  ref : k = .cpf ∨ k = .cpfas ∨ (k = .csiras ∧ 0 < t) → ∀ x, RefState ctraj t x → st.pa.part[N-1]? = some x
  weights : k ≠ .csiras → ScaledOrUniform st.pa.w

theorem flMeasure_step (hA : Rounded A nmax) {M : Callbacks P U Y V Ω} {N : ℕ} (hM : FilterContract M N) (hN : 0 < N) {k : FilterKind} {ctraj tr : List (Step P)}
    {cur : ℕ} {last : Step P} (h : FlStep k ctraj N cur last) (yv : List (Slot Y)) (uv : List (Slot U)) (tv : List ℕ) :
    ∃ pa, flMeasure A M tr last.ancestors last.pa uv yv tv cur = .ok pa ∧ FlStep k ctraj N cur ⟨pa, last.ancestors⟩ := by
  obtain ⟨pa', e1, e2, e3, e4⟩ := flMeasure_ok hA hM hN tr last.ancestors h.good.pa uv yv tv cur
  exact ⟨pa', e1, ⟨e2, h.good.anc_len, h.good.anc_lt⟩, fun hk x hx => by simp only; rw [e3]; exact h.ref hk x hx, fun _ => .inl e4⟩

theorem flCreate_step {M : Callbacks P U Y V Ω} {N : ℕ} (hM : FullContract M N) (hN : 0 < N) {k : FilterKind} (hk : ¬(k = .cpf ∨ k = .cpfas)) (ctraj : List (Step P)) (ω : Ω) :
    ∃ part pa, M.createInitial N ω = .ok part ∧ PA.new part none = .ok pa ∧ FlStep k ctraj N 0 ⟨pa, List.range N⟩ := by
  obtain ⟨p, hp, hl⟩ := hM.create ω
  obtain ⟨pa, h1, h2, h3, h4, -⟩ := PA.new_none_wf hl hN
  refine ⟨p, pa, hp, h1, ⟨h2, by simp, by simp⟩, fun h => ?_, fun _ => .inr ⟨_, _, h4⟩⟩
  rcases h with h | h | h
  · exact absurd (.inl h) hk
  · exact absurd (.inr h) hk
  · exact absurd h.2 (lt_irrefl 0)

theorem flCreate_ref {M : Callbacks P U Y V Ω} {N : ℕ} (hM : FullContract M N) (hN : 0 < N) (k : FilterKind) {ctraj : List (Step P)} {x : P} (hx : RefState ctraj 0 x) (ω : Ω) :
    ∃ part pa, cpfInitial M ctraj N ω = .ok part ∧ PA.new part none = .ok pa ∧ FlStep k ctraj N 0 ⟨pa, List.range N⟩ := by
  obtain ⟨p, hp, hl⟩ := hM.create ω
  obtain ⟨p', hp', hl', hx', -⟩ := setLast_ok hl hN x
  obtain ⟨pa, h1, h2, h3, h4, -⟩ := PA.new_none_wf hl' hN
  have hx0 := hx
  obtain ⟨c, hc, hcx⟩ := hx
  refine ⟨p', pa, ?_, h1, ⟨h2, by simp, by simp⟩, fun _ y hy => ?_, fun _ => .inr ⟨_, _, h4⟩⟩
  · unfold cpfInitial
    simp only [hp, ok_bind, getIdx_ok.mpr hc, getIdx_ok.mpr hcx, hp']
  · simp only
    rw [h3, hx', refState_unique hx0 hy]

/-- **C105.** Runs of 'pf', 'sir', 'cpf', 'cpfas' and 'csiras' in rounded arithmetic: for every history of calls, every data and draw, no call raises and every stored step
has `N` particles, weights and valid ancestors, the reference state in its place, and, except for CSIRAS, weights that cannot all underflow (the largest one is exactly 0, or
all are equal). -/
theorem C105_filter_runs (hA : Rounded A nmax) {M : Callbacks P U Y V Ω} {N : ℕ} (hM : FullContract M N) (hN : 0 < N) (hmax : N ≤ nmax) (res : ℝ) {k : FilterKind}
    {ctraj : List (Step P)} {F : FilterOps P U Y V Ω} (hF : flOps A M res ctraj k = some F) {T : Option ℕ} {s0 : PT P U Y} (h0 : PT.init N T 0 = .ok s0)
    (ops : List (Op U Y Ω)) (hops : ∀ op ∈ ops, op.Ok fun _ => True)
    (href : k = .cpf ∨ k = .cpfas ∨ k = .csiras → ∀ t < (Spec.log F.usingPfy ops).ys.length, ∃ x, RefState ctraj t x) :
    ∃ s bs, s0.run F ops = (s, .ok bs) ∧ s.traj.length = (Spec.log F.usingPfy ops).ys.length ∧ ∀ t st, s.traj[t]? = some st → FlStep k ctraj N t st := by
  by_cases hne : ops = []
  · subst hne
    have h := (PT.init_rep h0).len
    have ht : s0.traj = [] := List.length_eq_zero_iff.mp (by simpa using h)
    exact ⟨s0, [], rfl, h, by rw [ht]; simp⟩
  have hpos := List.length_pos_iff.mpr (Spec.log_ne_nil F.usingPfy hne)
  have hs : StepSafe F N (Spec.log F.usingPfy ops).ys.length (fun _ => True) (FlStep k ctraj N) := by
    cases k <;> simp only [flOps, Option.some.injEq, reduceCtorEq] at hF
    case pf =>
      subst hF
      refine ⟨fun _ ω => flCreate_step hM hN (by simp) ctraj ω, ?_, fun _ => ?_, (by intro h; cases h)⟩
      · intro tr yv uv tv cur d last y h1 h2 h3 h4 h5 h6 h7 h8 h9 h10 h11 h12
        have hg := (h3 cur last (getLast_of_idx h1 h2)).good
        obtain ⟨pa0, e0, hwf0, -, -, -⟩ := PA.new_some_wf hg.pa.part_len hg.pa.w_len
        obtain ⟨pa1, b, anc, e1, hwf1, hal, har, -⟩ := flMaybeResample_spec hA hwf0 hN hmax res h11
        obtain ⟨pa2, e2, hwf2, -, -⟩ := pfUpdate_ok hM.toFilterContract tr anc uv yv tv cur hwf1 d.ω
        obtain ⟨pa3, e3, hwf3, -, hmx⟩ := flMeasure_ok hA hM.toFilterContract hN tr anc hwf2 uv yv tv (cur+1)
        refine ⟨pa3, b, anc, ?_, ⟨hwf3, hal, har⟩, by simp, fun _ => .inl hmx⟩
        show flForward A M res tr yv uv tv cur d = _
        unfold flForward
        rw [getLast_ok.mpr h2]
        simp only [ok_bind, e0, e1, e2, e3, pure_eq_ok]
      · intro tr yv uv tv cur last h1 h2 h3
        exact flMeasure_step hA hM.toFilterContract hN (h3 cur last (getLast_of_idx h1 h2)) yv uv tv
    case sir =>
      subst hF
      refine ⟨fun _ ω => flCreate_step hM hN (by simp) ctraj ω, ?_, fun _ => ?_, (by intro h; cases h)⟩
      · intro tr yv uv tv cur d last y h1 h2 h3 h4 h5 h6 h7 h8 h9 h10 h11 h12
        obtain ⟨pa, b, anc, e1, e2, e3⟩ := flSirForward_ok hA hM hN hmax res h2 (h3 cur last (getLast_of_idx h1 h2)).good (lt_of_getElem?_some h5) h7 (lt_of_getElem?_some h9) d h11
        exact ⟨pa, b, anc, e1, e2, by simp, fun _ => .inl e3⟩
      · intro tr yv uv tv cur last h1 h2 h3
        exact flMeasure_step hA hM.toFilterContract hN (h3 cur last (getLast_of_idx h1 h2)) yv uv tv
    case cpf =>
      subst hF
      refine ⟨fun _ ω => ?_, ?_, fun _ => ?_, (by intro h; cases h)⟩
      · obtain ⟨x, hx⟩ := href (by simp) 0 hpos
        exact flCreate_ref hM hN _ hx ω
      · intro tr yv uv tv cur d last y h1 h2 h3 h4 h5 h6 h7 h8 h9 h10 h11 h12
        obtain ⟨x, hx⟩ := href (by simp) (cur+1) h4
        obtain ⟨pa, anc, e1, e2, e3, e4, -⟩ := flCpfForward_ok hA hM.toFilterContract hN hmax h1 h2 (h3 cur last (getLast_of_idx h1 h2)).good hx (lt_of_getElem?_some h5) uv tv d h11
        exact ⟨pa, true, anc, e1, e2, fun _ x' hx' => by simp only; rw [e3, refState_unique hx hx'], fun _ => e4⟩
      · intro tr yv uv tv cur last h1 h2 h3
        exact flMeasure_step hA hM.toFilterContract hN (h3 cur last (getLast_of_idx h1 h2)) yv uv tv
    case cpfas =>
      subst hF
      refine ⟨fun _ ω => ?_, ?_, fun _ => ?_, (by intro h; cases h)⟩
      · obtain ⟨x, hx⟩ := href (by simp) 0 hpos
        exact flCreate_ref hM hN _ hx ω
      · intro tr yv uv tv cur d last y h1 h2 h3 h4 h5 h6 h7 h8 h9 h10 h11 h12
        obtain ⟨x, hx⟩ := href (by simp) (cur+1) h4
        obtain ⟨pa, anc, e1, e2, e3, e4⟩ := flCpfasForward_ok hA hM hN hmax h1 h2 (h3 cur last (getLast_of_idx h1 h2)).good hx (lt_of_getElem?_some h5) uv tv d h11 h12
        exact ⟨pa, true, anc, e1, e2, fun _ x' hx' => by simp only; rw [e3, refState_unique hx hx'], fun _ => e4⟩
      · intro tr yv uv tv cur last h1 h2 h3
        exact flMeasure_step hA hM.toFilterContract hN (h3 cur last (getLast_of_idx h1 h2)) yv uv tv
    case csiras =>
      subst hF
      refine ⟨fun _ ω => flCreate_step hM hN (by simp) ctraj ω, ?_, fun _ => ?_, (by intro h; cases h)⟩
      · intro tr yv uv tv cur d last y h1 h2 h3 h4 h5 h6 h7 h8 h9 h10 h11 h12
        obtain ⟨x, hx⟩ := href (by simp) (cur+1) h4
        obtain ⟨pa, anc, e1, e2, e3, -⟩ := C105_csiras_step hA hM hN hmax h1 h2 (h3 cur last (getLast_of_idx h1 h2)).good hx (lt_of_getElem?_some h5) h7 (lt_of_getElem?_some h9) d h11 h12
        exact ⟨pa, true, anc, e1, e2, fun _ x' hx' => by simp only; rw [e3, refState_unique hx hx'], by simp⟩
      · intro tr yv uv tv cur last h1 h2 h3
        exact flMeasure_step hA hM.toFilterContract hN (h3 cur last (getLast_of_idx h1 h2)) yv uv tv
  exact run_safe_init hs h0 ops hops le_rfl

end PyPE

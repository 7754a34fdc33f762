import Verif.Rounding.Count
import Verif.Filter.Runs
import Verif.Models.LtvStore

/-!
# C105: filters and smoothers in rounded arithmetic
-/

namespace PyPE
open Spec

variable {P U Y V Ω : Type} {A : Arith} {nmax : ℕ} {ε η : ℝ}

/-! ### Sums -/

theorem flSum_ge (hA : Rounded A nmax) {l : List ℝ} {s : ℝ} (h : FlSum A.fl l s) (hl : FlWeights A l) : (∀ x ∈ l, x ≤ s) ∧ 0 ≤ s ∧ A.fl s = s := by
  induction h with
  | one x => exact ⟨by simp, (hl x (by simp)).1, (hl x (by simp)).2⟩
  | @add l l1 l2 a b h1 h2 hp ih1 ih2 =>
    obtain ⟨a1, a2, a3⟩ := ih1 fun x hx => hl x (hp.mem_iff.mpr (by simp [hx]))
    obtain ⟨b1, b2, b3⟩ := ih2 fun x hx => hl x (hp.mem_iff.mpr (by simp [hx]))
    refine ⟨fun x hx => ?_, fl_nonneg hA (add_nonneg a2 b2), hA.idem _⟩
    have hr := (hl x hx).2
    rw [← hr]
    apply hA.mono
    rcases List.mem_append.mp (hp.mem_iff.mp hx) with h | h
    · linarith [a1 x h]
    · linarith [b1 x h]

theorem flSum_le (hA : Rounded A nmax) {l : List ℝ} {s : ℝ} (h : FlSum A.fl l s) (hl : ∀ x ∈ l, x ≤ 1) (hn : l.length ≤ nmax) : s ≤ l.length := by
  induction h with
  | one x => simpa using hl x (by simp)
  | @add l l1 l2 a b h1 h2 hp ih1 ih2 =>
    have e : l.length = l1.length + l2.length := by rw [hp.length_eq, List.length_append]
    have h1 := ih1 (fun x hx => hl x (hp.mem_iff.mpr (by simp [hx]))) (by omega)
    have h2 := ih2 (fun x hx => hl x (hp.mem_iff.mpr (by simp [hx]))) (by omega)
    rw [← hA.nat l.length hn]
    apply hA.mono
    rw [e]; push_cast; linarith

theorem flSum_zero (hA : Rounded A nmax) {l : List ℝ} {s : ℝ} (h : FlSum A.fl l s) (hl : ∀ x ∈ l, x = 0) : s = 0 := by
  induction h with
  | one x => exact hl x (by simp)
  | @add l l1 l2 a b h1 h2 hp ih1 ih2 =>
    rw [ih1 fun x hx => hl x (hp.mem_iff.mpr (by simp [hx])), ih2 fun x hx => hl x (hp.mem_iff.mpr (by simp [hx])), add_zero, fl_zero hA]

/-! ### Weights relative to their maximum -/

/-- The weights `exp(w - max w)`. -/
theorem expMax_weights (hA : Rounded A nmax) {w : List ℝ} {m : ℝ} (hm : npMax w = .ok m) :
    FlWeights A (w.map fun x => A.exp (A.fl (x - m))) ∧ (1:ℝ) ∈ w.map (fun x => A.exp (A.fl (x - m))) ∧ ∀ x ∈ w.map (fun x => A.exp (A.fl (x - m))), x ≤ 1 := by
  obtain ⟨h1, h2⟩ := npMax_spec hm
  refine ⟨?_, List.mem_map.mpr ⟨m, h1, by rw [sub_self, fl_zero hA, hA.exp_zero]⟩, ?_⟩
  · intro x hx
    obtain ⟨y, -, rfl⟩ := List.mem_map.mp hx
    exact ⟨hA.exp_nonneg _, hA.exp_rep _⟩
  · intro x hx
    obtain ⟨y, hy, rfl⟩ := List.mem_map.mp hx
    refine hA.exp_le_one _ ?_
    rw [← fl_zero hA]
    exact hA.mono (by linarith [h2 y hy])

/-- **C105.** `resample` in rounded arithmetic never fails, whatever the log-weights are: it returns `N` valid ascending indices, the particles of these indices, equal weights,
and except for particle 0 no particle whose weight relative to the largest has underflowed to zero. -/
theorem C105_resample (hA : Rounded A nmax) {pa : PA P} {n : ℕ} (hwf : pa.WF n) (hn : 0 < n) {N : ℕ} (hN : N ≤ nmax) {r : ℝ} (hr : Unit01 r) :
    ∃ pa' anc, flResample A pa N r = .ok (pa', anc) ∧ pa'.WF N ∧ (∃ c, pa'.w = List.replicate N c) ∧ pa'.w_offset = 0 ∧
      anc.length = N ∧ (∀ a ∈ anc, a < n) ∧ anc.Pairwise (· ≤ ·) ∧ fancy pa.part anc = .ok pa'.part ∧
      ∃ m, npMax pa.w = .ok m ∧ ∀ a ∈ anc, a = 0 ∨ 0 < A.exp (A.fl (pa.w.getD a 0 - m)) := by
  obtain ⟨m, hm⟩ := npMax_ok (hwf.w_ne hn)
  obtain ⟨h1, h2, h3⟩ := expMax_weights hA hm
  obtain ⟨idx, i1, i2, i3, i4, i5⟩ := C105_sample_valid hA h1 ⟨1, h2, one_pos⟩ hN hr
  rw [List.length_map, hwf.w_len] at i3
  obtain ⟨p, hp⟩ := fancy_ok (a := pa.part) (ind := idx) (by rw [hwf.part_len]; exact i3)
  have hpl : p.length = N := by rw [(fancy_spec.mp hp).1, i2]
  refine ⟨_, idx, by unfold flResample; simp only [hm, ok_bind, i1, hp, pure_eq_ok]; rfl, ⟨hpl, by simp, rfl⟩, ⟨_, rfl⟩, rfl, i2, i3, i4, hp, m, hm, ?_⟩
  intro a ha
  refine (i5 a ha).imp_right fun h => ?_
  rw [List.getD_eq_getElem?_getD, List.getElem?_map] at h
  rw [List.getD_eq_getElem?_getD]
  have hlt : a < pa.w.length := by rw [hwf.w_len]; exact i3 a ha
  rw [List.getElem?_eq_getElem hlt] at h ⊢
  exact h

/-- **C105.** The weight update of `measure` in rounded arithmetic: it never fails, the particles are untouched, the largest new log-weight is exactly `0`, and a particle that
had at least the weight of another one and explains the measurement at least as well has at least its new weight. -/
theorem C105_measure (hA : Rounded A nmax) {pa : PA P} {n : ℕ} (hwf : pa.WF n) (hn : 0 < n) {ll : List ℝ} (hl : ll.length = n) :
    ∃ pa', flWeightUpdate A pa ll = .ok pa' ∧ pa'.WF n ∧ pa'.part = pa.part ∧ (0 ∈ pa'.w ∧ ∀ x ∈ pa'.w, x ≤ 0) ∧
      ∀ i j, i < n → j < n → pa.w.getD i 0 ≤ pa.w.getD j 0 → ll.getD i 0 ≤ ll.getD j 0 → pa'.w.getD i 0 ≤ pa'.w.getD j 0 := by
  obtain ⟨m, hm⟩ := npMax_ok (l := ll) (by rintro rfl; simp at hl; omega)
  have hadd : flAdd A pa.w (ll.map fun x => A.fl (x - m)) = .ok (List.zipWith (fun x y => A.fl (x + y)) pa.w (ll.map fun x => A.fl (x - m))) := by
    unfold flAdd
    rw [if_pos (by simp [hwf.w_len, hl])]
  obtain ⟨z, hz⟩ : ∃ z, z = List.zipWith (fun x y => A.fl (x + y)) pa.w (ll.map fun x => A.fl (x - m)) := ⟨_, rfl⟩
  have hzl : z.length = n := by rw [hz]; simp [hwf.w_len, hl]
  obtain ⟨m', hm'⟩ := npMax_ok (l := z) (by rintro h; rw [h] at hzl; simp at hzl; omega)
  obtain ⟨k1, k2⟩ := npMax_spec hm'
  refine ⟨{ pa with w := z.map fun x => A.fl (x - m'), w_offset := A.fl (A.fl (pa.w_offset + m) + m') },
    by unfold flWeightUpdate; simp only [hm, ok_bind, hadd, ← hz, hm', pure_eq_ok], ⟨hwf.part_len, by simp [hzl], hwf.num_eq⟩, rfl, ⟨?_, ?_⟩, ?_⟩
  · exact List.mem_map.mpr ⟨m', k1, by rw [sub_self, fl_zero hA]⟩
  · intro x hx
    obtain ⟨y, hy, rfl⟩ := List.mem_map.mp hx
    rw [← fl_zero hA]
    exact hA.mono (by linarith [k2 y hy])
  · intro i j hi hj hw hll
    have hget : ∀ k < n, (z.map fun x => A.fl (x - m')).getD k 0 = A.fl (A.fl (pa.w.getD k 0 + A.fl (ll.getD k 0 - m)) - m') := by
      intro k hk
      have e1 : k < pa.w.length := by rw [hwf.w_len]; exact hk
      have e2 : k < ll.length := by rw [hl]; exact hk
      rw [hz]
      simp [List.getD_eq_getElem?_getD, e1, e2]
    simp only [hget i hi, hget j hj]
    exact hA.mono (sub_le_sub_right (hA.mono (add_le_add hw (hA.mono (sub_le_sub_right hll m)))) m')

/-- The resampling test never fails. -/
theorem flMaybeResample_spec (hA : Rounded A nmax) {pa : PA P} {n : ℕ} (hwf : pa.WF n) (hn : 0 < n) (hN : n ≤ nmax) (res : ℝ) {r : ℝ} (hr : Unit01 r) :
    ∃ pa' b anc, flMaybeResample A res pa r = .ok (pa', b, anc) ∧ pa'.WF n ∧ anc.length = n ∧ (∀ a ∈ anc, a < n) ∧ fancy pa.part anc = .ok pa'.part := by
  have hno : fancy pa.part (List.range pa.num) = .ok pa.part := by rw [hwf.num_eq, ← hwf.part_len, fancy_range]
  have keep : pa.WF n ∧ (List.range pa.num).length = n ∧ (∀ a ∈ List.range pa.num, a < n) ∧ fancy pa.part (List.range pa.num) = .ok pa.part := by
    refine ⟨hwf, by simp [hwf.num_eq], fun a ha => ?_, hno⟩
    rw [hwf.num_eq] at ha; simpa using ha
  unfold flMaybeResample
  by_cases hres : 0 < res
  · rw [if_pos hres]
    obtain ⟨m, hm⟩ := npMax_ok (hwf.w_ne hn)
    have hq : ∃ q, flSumSq A pa.w = .ok q := by
      unfold flSumSq; simp only [hm, ok_bind, pure_eq_ok]; exact ⟨_, rfl⟩
    obtain ⟨q, hq⟩ := hq
    rw [hq, ok_bind]
    by_cases hb : flBelow A res pa.num q
    · rw [if_pos hb]
      obtain ⟨pa', anc, h1, h2, h3, h4, h5, h6, -, h7, -⟩ := C105_resample hA hwf hn (N := pa.num) (by rw [hwf.num_eq]; exact hN) hr
      rw [h1, ok_bind]
      rw [hwf.num_eq] at h2 h5
      exact ⟨pa', true, anc, rfl, h2, h5, h6, h7⟩
    · rw [if_neg hb]
      exact ⟨pa, false, _, rfl, keep⟩
  · rw [if_neg hres]
    exact ⟨pa, false, _, rfl, keep⟩

theorem flMeasure_ok (hA : Rounded A nmax) {M : Callbacks P U Y V Ω} {N : ℕ} (hM : FilterContract M N) (hN : 0 < N)
    (tr : List (Step P)) (anc : List ℕ) {pa : PA P} (h : pa.WF N) (uv : List (Slot U)) (yv : List (Slot Y)) (tv : List ℕ) (cur : ℕ) :
    ∃ pa', flMeasure A M tr anc pa uv yv tv cur = .ok pa' ∧ pa'.WF N ∧ pa'.part = pa.part ∧ 0 ∈ pa'.w ∧ ∀ x ∈ pa'.w, x ≤ 0 := by
  obtain ⟨l, h1, h2⟩ := hM.measure pa.part tr uv (yv.take (cur+1)) (tv.take (cur+1)) anc h.part_len
  obtain ⟨pa', e1, e2, e3, e4, -⟩ := C105_measure hA h hN h2
  refine ⟨pa', ?_, e2, e3, e4⟩
  unfold flMeasure
  simp only [h1, ok_bind, e1]

/-- **C105.** A whole run of the particle filter in rounded arithmetic: for every history of `forward` and `measure` calls, every data and draw, no call raises; every stored
step has `N` particles, `N` log-weights and `N` ancestors below `N`; and from the second step on the largest log-weight is exactly 0, so the weights never underflow all at
once, however long the run. -/
theorem C105_run (hA : Rounded A nmax) {M : Callbacks P U Y V Ω} {N : ℕ} (hM : FilterContract M N) (hc : ∀ ω, ∃ p, M.createInitial N ω = .ok p ∧ p.length = N)
    (hN : 0 < N) (hmax : N ≤ nmax) (res : ℝ) {T : Option ℕ} {s0 : PT P U Y} (h0 : PT.init N T 0 = .ok s0) (ops : List (Op U Y Ω))
    (hops : ∀ op ∈ ops, op.Ok fun _ => True) :
    ∃ s bs, s0.run (flPfOps A M res) ops = (s, .ok bs) ∧
      ∀ k st, s.traj[k]? = some st → GoodStep N st ∧ (0 < k → 0 ∈ st.pa.w ∧ ∀ x ∈ st.pa.w, x ≤ 0) := by
  have hs : StepSafe (flPfOps A M res) N (Spec.log (flPfOps A M res).usingPfy ops).ys.length (fun _ => True)
      (fun k st => GoodStep N st ∧ (0 < k → 0 ∈ st.pa.w ∧ ∀ x ∈ st.pa.w, x ≤ 0)) := by
    refine ⟨fun _ ω => ?_, ?_, fun _ => ?_, (by intro h; cases h)⟩
    · obtain ⟨p, hp, hl⟩ := hc ω
      obtain ⟨pa, h1, h2, -⟩ := PA.new_none_wf hl hN
      exact ⟨p, pa, hp, h1, ⟨h2, by simp, by simp⟩, fun h => absurd h (lt_irrefl 0)⟩
    · intro tr yv uv tv cur d last y h1 h2 h3 h4 h5 h6 h7 h8 h9 h10 h11 h12
      have hg := (h3 cur last (getLast_of_idx h1 h2)).1
      obtain ⟨pa0, e0, hwf0, -, -, -⟩ := PA.new_some_wf hg.pa.part_len hg.pa.w_len
      obtain ⟨pa1, b, anc, e1, hwf1, hal, har, -⟩ := flMaybeResample_spec hA hwf0 hN hmax res h11
      obtain ⟨pa2, e2, hwf2, -, -⟩ := pfUpdate_ok hM tr anc uv yv tv cur hwf1 d.ω
      obtain ⟨pa3, e3, hwf3, -, hmx⟩ := flMeasure_ok hA hM hN tr anc hwf2 uv yv tv (cur+1)
      refine ⟨pa3, b, anc, ?_, ⟨hwf3, hal, har⟩, fun _ => hmx⟩
      show flForward A M res tr yv uv tv cur d = _
      unfold flForward
      rw [getLast_ok.mpr h2]
      simp only [ok_bind, e0, e1, e2, e3, pure_eq_ok]
    · intro tr yv uv tv cur last h1 h2 h3
      have hg := (h3 cur last (getLast_of_idx h1 h2)).1
      obtain ⟨pa', e1, e2, -, e4⟩ := flMeasure_ok hA hM hN tr last.ancestors hg.pa uv yv tv cur
      exact ⟨pa', e1, ⟨e2, hg.anc_len, hg.anc_lt⟩, fun _ => e4⟩
  obtain ⟨s, bs, r1, -, r2⟩ := run_safe_init hs h0 ops hops le_rfl
  exact ⟨s, bs, r1, r2⟩

/-- **C105.** Drawing by weights that were scaled by their maximum (end particles of the smoothers, `bsi_full`, ancestor of the conditioned particle) never fails in rounded
arithmetic and returns valid indices. -/
theorem C105_max_sample (hA : Rounded A nmax) {w : List ℝ} (hne : w ≠ []) (hl : w.length ≤ nmax) {n : ℕ} (hn : n ≤ nmax) {r : ℝ} (hr : Unit01 r) :
    ∃ idx, flMaxSample A w n r = .ok idx ∧ idx.length = n ∧ (∀ i ∈ idx, i < w.length) ∧
      ∃ m, npMax w = .ok m ∧ ∀ i ∈ idx, i = 0 ∨ 0 < A.exp (A.fl (w.getD i 0 - m)) := by
  obtain ⟨m, hm⟩ := npMax_ok hne
  obtain ⟨h1, h2, h3⟩ := expMax_weights hA hm
  obtain ⟨tmp, htmp⟩ : ∃ t, t = w.map fun x => A.exp (A.fl (x - m)) := ⟨_, rfl⟩
  rw [← htmp] at h1 h2 h3
  have htl : tmp.length = w.length := by rw [htmp, List.length_map]
  have hsum := hA.sum tmp (by rintro h; rw [h] at h2; simp at h2)
  obtain ⟨s1, s2, s3⟩ := flSum_ge hA hsum h1
  have hS1 : 1 ≤ A.sum tmp := s1 1 h2
  have hSN : A.sum tmp ≤ w.length := by rw [← htl]; exact flSum_le hA hsum h3 (by rw [htl]; exact hl)
  have hpos : 0 < A.sum tmp := by linarith
  have hN0 : 0 < w.length := List.length_pos_iff.mpr hne
  have hw' : FlWeights A (tmp.map fun x => A.fl (x / A.sum tmp)) := by
    intro x hx
    obtain ⟨y, hy, rfl⟩ := List.mem_map.mp hx
    exact ⟨fl_nonneg hA (div_nonneg (h1 y hy).1 hpos.le), hA.idem _⟩
  have hex : ∃ x ∈ tmp.map (fun x => A.fl (x / A.sum tmp)), 0 < x := by
    refine ⟨_, List.mem_map.mpr ⟨1, h2, rfl⟩, ?_⟩
    exact lt_of_lt_of_le (hA.inv_pos w.length hN0 hl) (hA.mono (one_div_le_one_div_of_le hpos hSN))
  obtain ⟨idx, i1, i2, i3, -, i5⟩ := C105_sample_valid hA hw' hex hn hr
  refine ⟨idx, ?_, i2, fun i hi => by simpa [htl] using i3 i hi, m, hm, fun i hi => ?_⟩
  · unfold flMaxSample
    simp only [hm, ok_bind]
    rw [← htmp]
    exact i1
  · refine (i5 i hi).imp_right fun h => ?_
    have hlt : i < w.length := by simpa [htl] using i3 i hi
    rw [htmp] at h
    rw [List.getD_eq_getElem?_getD, List.getElem?_map, List.getElem?_map, List.getElem?_eq_getElem hlt] at h
    rw [List.getD_eq_getElem?_getD, List.getElem?_eq_getElem hlt]
    simp only [Option.map_some, Option.getD_some] at h ⊢
    rcases (hA.exp_nonneg (A.fl (w[i] - m))).lt_or_eq with h' | h'
    · exact h'
    · rw [← h', zero_div, fl_zero hA] at h
      exact absurd h (lt_irrefl 0)

/-- **C105.** `bsi_full` in rounded arithmetic: whenever the model returns one log-density per particle, it returns one valid particle index for every trajectory. -/
theorem C105_bsi_full (hA : Rounded A nmax) {S : SmoothCallbacks P U Y V Ω} {pa : PA P} {N : ℕ} (hwf : pa.WF N) (hN : 0 < N) (hmax : N ≤ nmax)
    {ptraj : List (SStep P)} {pind : List ℕ} {fut : List (SStep P)} {find : List ℕ} {D : SData U Y} {cur : ℕ} {rs : ℕ → ℝ} (hr : ∀ j, Unit01 (rs j))
    (hS : ∀ f, ∃ l, S.logpXnextFull pa.part (some ptraj) (some pind) fut (List.replicate pa.w.length f) D cur = .ok l ∧ l.length = N) :
    ∃ idx, flBsiFull A S pa ptraj pind fut find D cur rs = .ok idx ∧ idx.length = find.length ∧ ∀ i ∈ idx, i < N := by
  have hstep : ∀ fj : ℕ × ℕ, ∃ i, (do
      let p_next ← S.logpXnextFull pa.part (some ptraj) (some pind) fut (List.replicate pa.w.length fj.1) D cur
      let w ← flAdd A pa.w p_next
      let s ← flMaxSample A w 1 (rs fj.2)
      getIdx s 0 : PyM ℕ) = .ok i ∧ i < N := by
    intro fj
    obtain ⟨l, h1, h2⟩ := hS fj.1
    have hadd : flAdd A pa.w l = .ok (List.zipWith (fun x y => A.fl (x + y)) pa.w l) := by
      unfold flAdd
      rw [if_pos (by rw [hwf.w_len, h2])]
    have hzl : (List.zipWith (fun x y => A.fl (x + y)) pa.w l).length = N := by simp [hwf.w_len, h2]
    obtain ⟨idx, i1, i2, i3, -⟩ := C105_max_sample hA (w := List.zipWith (fun x y => A.fl (x + y)) pa.w l)
      (by intro h; rw [h] at hzl; simp at hzl; omega) (by rw [hzl]; exact hmax) hA.one_le (hr fj.2)
    obtain ⟨i, hi⟩ := List.length_eq_one_iff.mp i2
    refine ⟨i, ?_, by rw [← hzl]; exact i3 i (by rw [hi]; simp)⟩
    simp only [h1, ok_bind, hadd, i1, hi]
    rfl
  choose g hg using hstep
  refine ⟨find.zipIdx.map g, ?_, by simp, ?_⟩
  · unfold flBsiFull
    exact mapM_ok_map fun fj _ => (hg fj).1
  · intro i hi
    obtain ⟨fj, -, rfl⟩ := List.mem_map.mp hi
    exact (hg fj).2

/-- **C105.** (Defect.) Drawing by `exp(w)` without subtraction of the maximum, as the conditional filters do with the weights of the last step: when all the exponentials
underflow to zero, every draw is particle 0, and no error is raised.  The weights that `csiras` stores are log-densities that were not scaled by their maximum. -/
theorem C105_underflow (hA : Rounded A nmax) {w : List ℝ} (hne : w ≠ []) (hz : ∀ x ∈ w, A.exp x = 0) (n : ℕ) (r : ℝ) :
    flExpSample A w n r = .ok (List.replicate n 0) := by
  unfold flExpSample
  have hs : A.sum (w.map A.exp) = 0 := flSum_zero hA (hA.sum _ (by simpa using hne)) (by
    intro x hx
    obtain ⟨y, hy, rfl⟩ := List.mem_map.mp hx
    exact hz y hy)
  simp only [hs, if_neg hne, if_true]

/-- **C105.** The same draw never fails when some weight is exactly 0 (as after `measure`) and none is positive. -/
theorem C105_exp_sample (hA : Rounded A nmax) {w : List ℝ} (h0 : 0 ∈ w) (hle : ∀ x ∈ w, x ≤ 0) (hl : w.length ≤ nmax) {n : ℕ} (hn : n ≤ nmax) {r : ℝ} (hr : Unit01 r) :
    ∃ idx, flExpSample A w n r = .ok idx ∧ idx.length = n ∧ (∀ i ∈ idx, i < w.length) ∧ ∀ i ∈ idx, i = 0 ∨ 0 < A.exp (w.getD i 0) := by
  have hne : w ≠ [] := by rintro rfl; simp at h0
  obtain ⟨tmp, htmp⟩ : ∃ t, t = w.map A.exp := ⟨_, rfl⟩
  have h1 : FlWeights A tmp := by
    intro x hx
    rw [htmp] at hx
    obtain ⟨y, -, rfl⟩ := List.mem_map.mp hx
    exact ⟨hA.exp_nonneg _, hA.exp_rep _⟩
  have h2 : (1:ℝ) ∈ tmp := by rw [htmp]; exact List.mem_map.mpr ⟨0, h0, hA.exp_zero⟩
  have h3 : ∀ x ∈ tmp, x ≤ 1 := by
    intro x hx
    rw [htmp] at hx
    obtain ⟨y, hy, rfl⟩ := List.mem_map.mp hx
    exact hA.exp_le_one _ (hle y hy)
  have htl : tmp.length = w.length := by rw [htmp, List.length_map]
  have hsum := hA.sum tmp (by rintro h; rw [h] at h2; simp at h2)
  obtain ⟨s1, -, -⟩ := flSum_ge hA hsum h1
  have hS1 : 1 ≤ A.sum tmp := s1 1 h2
  have hSN : A.sum tmp ≤ w.length := by rw [← htl]; exact flSum_le hA hsum h3 (by rw [htl]; exact hl)
  have hpos : 0 < A.sum tmp := by linarith
  have hw' : FlWeights A (tmp.map fun x => A.fl (x / A.sum tmp)) := by
    intro x hx
    obtain ⟨y, hy, rfl⟩ := List.mem_map.mp hx
    exact ⟨fl_nonneg hA (div_nonneg (h1 y hy).1 hpos.le), hA.idem _⟩
  have hex : ∃ x ∈ tmp.map (fun x => A.fl (x / A.sum tmp)), 0 < x := by
    refine ⟨_, List.mem_map.mpr ⟨1, h2, rfl⟩, ?_⟩
    exact lt_of_lt_of_le (hA.inv_pos w.length (List.length_pos_iff.mpr hne) hl) (hA.mono (one_div_le_one_div_of_le hpos hSN))
  obtain ⟨idx, i1, i2, i3, -, i5⟩ := C105_sample_valid hA hw' hex hn hr
  refine ⟨idx, ?_, i2, fun i hi => by simpa [htl] using i3 i hi, fun i hi => ?_⟩
  · unfold flExpSample
    simp only [if_neg hne]
    rw [← htmp, if_neg hpos.ne']
    exact i1
  · refine (i5 i hi).imp_right fun h => ?_
    have hlt : i < w.length := by simpa [htl] using i3 i hi
    rw [htmp] at h
    rw [List.getD_eq_getElem?_getD, List.getElem?_map, List.getElem?_map, List.getElem?_eq_getElem hlt] at h
    rw [List.getD_eq_getElem?_getD, List.getElem?_eq_getElem hlt]
    simp only [Option.map_some, Option.getD_some] at h ⊢
    rcases (hA.exp_nonneg w[i]).lt_or_eq with h' | h'
    · exact h'
    · rw [← h', zero_div, fl_zero hA] at h
      exact absurd h (lt_irrefl 0)

/-- **C105.** `pa.sample()` after a `measure`, in rounded arithmetic, returns one of the particles. -/
theorem C105_draw (hA : Rounded A nmax) {pa : PA P} {N : ℕ} (hwf : pa.WF N) (h0 : 0 ∈ pa.w) {r : ℝ} (hr : Unit01 r) :
    ∃ x ∈ pa.part, flDraw A pa r = .ok x := by
  have h1 : FlWeights A (pa.w.map A.exp) := by
    intro x hx
    obtain ⟨y, -, rfl⟩ := List.mem_map.mp hx
    exact ⟨hA.exp_nonneg _, hA.exp_rep _⟩
  obtain ⟨idx, i1, i2, i3, -, -⟩ := C105_sample_valid hA h1 ⟨1, List.mem_map.mpr ⟨0, h0, hA.exp_zero⟩, one_pos⟩ hA.one_le hr
  obtain ⟨i, hi⟩ := List.length_eq_one_iff.mp i2
  have hlt : i < pa.part.length := by
    have := i3 i (by rw [hi]; simp)
    rwa [List.length_map, hwf.w_len, ← hwf.part_len] at this
  refine ⟨pa.part[i], List.getElem_mem hlt, ?_⟩
  unfold flDraw
  have e : getIdx [i] 0 = .ok i := rfl
  simp only [i1, ok_bind, hi, e, getIdx_of_lt hlt]

end PyPE

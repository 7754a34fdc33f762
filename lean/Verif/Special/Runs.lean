import Verif.Special.Props
import Verif.Filter.ApproxProps

/-! # C20: special values over whole runs, in resampling, and agreement with the real-number model -/

namespace PyPE
open Real Flt

/-! ## Sums -/

theorem foldl_add_nan (l : List Flt) : l.foldl add nan = nan := by
  induction l with
  | nil => rfl
  | cons x l ih => simpa using ih

theorem foldl_add_mem_nan {l : List Flt} (h : nan ∈ l) (a : Flt) : l.foldl add a = nan := by
  induction l generalizing a with
  | nil => cases h
  | cons x l ih =>
    rw [List.foldl_cons]
    rcases List.mem_cons.mp h with e | e
    · rw [← e, add_nan, foldl_add_nan]
    · exact ih e _

theorem fSum_nan {l : List Flt} (h : nan ∈ l) : fSum l = nan := foldl_add_mem_nan h _

theorem foldl_add_fin (l : List ℝ) (a : ℝ) : (l.map fin).foldl add (fin a) = fin (a + l.sum) := by
  induction l generalizing a with
  | nil => simp
  | cons x l ih =>
    rw [List.map_cons, List.foldl_cons, List.sum_cons]
    show (l.map fin).foldl add (fin (a + x)) = _
    rw [ih]; congr 1; ring

theorem fSum_fin (l : List ℝ) : fSum (l.map fin) = fin l.sum := by
  unfold fSum; rw [foldl_add_fin]; simp

theorem fCumsum_fin (l : List ℝ) : fCumsum (l.map fin) = (cumsum l).map fin := by
  unfold fCumsum cumsum
  rw [List.map_map, List.length_map]
  refine List.map_congr_left fun k _ => ?_
  rw [← List.map_take, fSum_fin]; rfl

theorem fCumsum_getLast {l : List Flt} (hne : l ≠ []) : getLast (fCumsum l) = .ok (fSum l) := by
  have hl : 0 < l.length := List.length_pos_iff.mpr hne
  unfold getLast fCumsum
  rw [List.getLast?_eq_getElem?]
  have : l.length - 1 + 1 = l.length := by omega
  simp [this, hl]

theorem div_nan (x : Flt) : div x nan = nan := by cases x <;> rfl

theorem map_div_nan (l : List Flt) : l.map (div · nan) = List.replicate l.length nan := by
  rw [List.eq_replicate_iff]
  refine ⟨by simp, ?_⟩
  intro b hb
  obtain ⟨x, -, rfl⟩ := List.mem_map.mp hb
  exact div_nan x

theorem fSearchsorted_nan (n : ℕ) (v : ℝ) : fSearchsorted (List.replicate n nan) v = 0 := by
  unfold fSearchsorted
  cases n with
  | zero => rfl
  | succ n => simp [List.replicate_succ, List.findIdx_cons, Flt.lt]

/-! ## C20: no recovery -/

/-- **C20**: sampling by weights of which one is `nan` does not raise: it returns index 0 every time,
whatever the other weights, the number of samples and the random draw. -/
theorem C20_sample_nan {w : List Flt} (h : nan ∈ w) (n : ℕ) (r : ℝ) :
    fSample w n r = .ok (List.replicate n 0) := by
  have hne : w ≠ [] := by rintro rfl; cases h
  unfold fSample
  simp only [fCumsum_getLast hne, ok_bind, pure_eq_ok, fSum_nan h, map_div_nan]
  congr 1
  rw [List.eq_replicate_iff]
  refine ⟨by simp [stratGrid], ?_⟩
  intro b hb
  obtain ⟨x, -, rfl⟩ := List.mem_map.mp hb
  exact fSearchsorted_nan _ _

theorem fNeff_nan {w : List Flt} (h : nan ∈ w) : fNeff w = .ok nan := by
  have e : nan ∈ w.map fun x => fexp (sub x nan) := List.mem_map.mpr ⟨nan, h, rfl⟩
  unfold fNeff
  simp only [fMax_nan h, ok_bind, pure_eq_ok, fSum_nan e, map_div_nan]
  have e2 : nan ∈ List.map sq (List.replicate (w.map fun x => fexp (sub x nan)).length nan) := by
    refine List.mem_map.mpr ⟨nan, ?_, rfl⟩
    rw [List.mem_replicate]
    refine ⟨?_, rfl⟩
    intro h0
    have := List.length_pos_of_mem h
    simp at h0
    rw [h0] at h
    cases h
  rw [fSum_nan e2, div_nan]

/-- **C20**: with `nan` weights the filter never resamples, whatever the threshold. -/
theorem C20_no_resampling {w : List Flt} (h : nan ∈ w) (res r : ℝ) (off : Flt) :
    fMaybeResample res ⟨w, off⟩ r = .ok (⟨w, off⟩, false, List.range w.length) := by
  unfold fMaybeResample
  split_ifs with hr
  · simp only [fNeff_nan h, ok_bind, Flt.lt, pure_eq_ok]
    exact if_neg not_false
  · rfl

theorem fResample_ok {pa : FW} (hne : pa.w ≠ []) (N : ℕ) (r : ℝ) :
    ∃ ind, fResample pa N r
      = .ok ({ w := List.replicate N (fin (log (1 / (N : ℝ)))), w_offset := fin 0 }, ind) := by
  obtain ⟨m, hm⟩ := fMax_ok hne
  unfold fResample fSample
  have h2 : pa.w.map (fun x => fexp (sub x m)) ≠ [] := by simpa using hne
  simp only [hm, ok_bind, fCumsum_getLast h2, pure_eq_ok]
  exact ⟨_, rfl⟩

theorem fNeff_ok {w : List Flt} (hne : w ≠ []) : ∃ v, fNeff w = .ok v := by
  obtain ⟨m, hm⟩ := fMax_ok hne
  unfold fNeff
  simp only [hm, ok_bind, pure_eq_ok]
  exact ⟨_, rfl⟩

theorem fMaybeResample_ok {pa : FW} (hne : pa.w ≠ []) (res r : ℝ) :
    ∃ pa' b anc, fMaybeResample res pa r = .ok (pa', b, anc)
      ∧ ((pa' = pa ∧ b = false)
        ∨ (b = true ∧ nan ∉ pa.w ∧ pa'.w = List.replicate pa.w.length (fin (log (1 / (pa.w.length : ℝ)))))) := by
  by_cases hn : nan ∈ pa.w
  · exact ⟨_, _, _, C20_no_resampling hn res r pa.w_offset, Or.inl ⟨rfl, rfl⟩⟩
  unfold fMaybeResample
  split_ifs with hr
  · obtain ⟨v, hv⟩ := fNeff_ok hne
    simp only [hv, ok_bind]
    split_ifs with h2
    · obtain ⟨ind, hi⟩ := fResample_ok hne pa.w.length r
      simp only [hi, ok_bind, pure_eq_ok]
      exact ⟨_, _, _, rfl, Or.inr ⟨rfl, hn, rfl⟩⟩
    · exact ⟨_, _, _, rfl, Or.inl ⟨rfl, rfl⟩⟩
  · exact ⟨_, _, _, rfl, Or.inl ⟨rfl, rfl⟩⟩

theorem fForward_ok {N : ℕ} (hN : 0 < N) {w : List Flt} (hw : w.length = N) (hp : pinf ∉ w)
    {ll : List Flt} (hl : ll.length = N) (res r : ℝ) :
    ∃ pa b anc, fForward res w r ll = .ok (pa, b, anc) ∧ pa.w.length = N
      ∧ ((∀ x ∈ pa.w, x = nan)
        ∨ ((∀ x ∈ pa.w, x = ninf ∨ ∃ y ≤ 0, x = fin y) ∧ fin 0 ∈ pa.w))
      ∧ (nan ∈ w → (∀ x ∈ pa.w, x = nan) ∧ b = false) := by
  have hne : w ≠ [] := by rintro rfl; simp at hw; omega
  have hlne : ll ≠ [] := by rintro rfl; simp at hl; omega
  obtain ⟨pa', b, anc, h1, h2⟩ := fMaybeResample_ok (pa := ⟨w, fin 0⟩) hne res r
  have hlen : pa'.w.length = ll.length := by
    rcases h2 with ⟨rfl, -⟩ | ⟨-, -, h⟩
    · rw [hw, hl]
    · rw [h, List.length_replicate, hw, hl]
  have hp' : pinf ∉ pa'.w := by
    rcases h2 with ⟨rfl, -⟩ | ⟨-, -, h⟩
    · exact hp
    · rw [h]; intro h; cases (List.mem_replicate.mp h).2
  obtain ⟨out, h3, h4, h5⟩ := C20_all_or_none hlen hlne hp'
  refine ⟨out, b, anc, ?_, by rw [h4, hl], h5, fun hnan => ?_⟩
  · unfold fForward
    simp only [h1, ok_bind, h3, pure_eq_ok]
  · rcases h2 with ⟨rfl, hb⟩ | ⟨-, h, -⟩
    · refine ⟨?_, hb⟩
      rcases h5 with h | ⟨h, -⟩
      · exact h
      · exfalso
        have := (C20_nan_iff hlen hlne hp' h3).mpr (Or.inl hnan)
        rcases h _ this with h | ⟨y, -, h⟩ <;> cases h
    · exact absurd hnan h

/-- **C20**: in every run of the filter, from any start weights without `+inf`, with any log-likelihoods
(special values included), any resampling threshold and any draws: nothing raises; after every step the
weights are either all `nan`, or numbers `≤ 0` and `-inf` with maximum 0; and once they are `nan` they
stay `nan` for ever, and no later step resamples. -/
theorem C20_run {N : ℕ} (hN : 0 < N) (res : ℝ) (steps : List (ℝ × List Flt))
    (hs : ∀ s ∈ steps, s.2.length = N) {w : List Flt} (hw : w.length = N) (hp : pinf ∉ w) :
    ∃ out, fRun res w steps = .ok out ∧ out.length = steps.length
      ∧ (∀ (j : ℕ) (e : List Flt × Bool), out[j]? = some e → e.1.length = N ∧ ((∀ x ∈ e.1, x = nan)
          ∨ ((∀ x ∈ e.1, x = ninf ∨ ∃ y ≤ 0, x = fin y) ∧ fin 0 ∈ e.1)))
      ∧ (∀ (j k : ℕ) (e e' : List Flt × Bool), j < k → out[j]? = some e → out[k]? = some e' → nan ∈ e.1 →
          (∀ x ∈ e'.1, x = nan) ∧ e'.2 = false)
      ∧ (nan ∈ w → ∀ e ∈ out, (∀ x ∈ e.1, x = nan) ∧ e.2 = false) := by
  induction steps generalizing w with
  | nil => exact ⟨[], rfl, rfl, by simp, by simp, by simp⟩
  | cons s steps ih =>
    obtain ⟨r, ll⟩ := s
    obtain ⟨pa, b, anc, h1, h2, h3, h4⟩ := fForward_ok hN hw hp
      (hs (r, ll) List.mem_cons_self) res r
    have hp' : pinf ∉ pa.w := by
      intro h
      rcases h3 with h' | ⟨h', -⟩
      · cases h' _ h
      · rcases h' _ h with h | ⟨y, -, h⟩ <;> cases h
    obtain ⟨out, k1, k2, k3, k4, k5⟩ := ih (fun s h => hs s (List.mem_cons_of_mem _ h)) h2 hp'
    refine ⟨(pa.w, b) :: out, ?_, by simp [k2], ?_, ?_, ?_⟩
    · simp only [fRun, h1, ok_bind, k1, pure_eq_ok]
    · intro j e hj
      cases j with
      | zero => simp only [List.getElem?_cons_zero, Option.some.injEq] at hj; subst hj; exact ⟨h2, h3⟩
      | succ j => exact k3 j e (by simpa using hj)
    · intro j k e e' hjk hj hk hnan
      obtain ⟨k, rfl⟩ : ∃ k', k = k' + 1 := ⟨k - 1, by omega⟩
      simp only [List.getElem?_cons_succ] at hk
      cases j with
      | zero =>
        simp only [List.getElem?_cons_zero, Option.some.injEq] at hj
        subst hj
        exact k5 hnan _ (List.mem_of_getElem? hk)
      | succ j => exact k4 j k e e' (by omega) (by simpa using hj) hk hnan
    · intro hnan e he
      rcases List.mem_cons.mp he with rfl | he
      · exact h4 hnan
      · refine k5 ?_ e he
        obtain ⟨x, hx⟩ := List.exists_mem_of_ne_nil pa.w (by intro h; rw [h] at h2; simp at h2; omega)
        rwa [(h4 hnan).1 x hx] at hx

/-! ## C20: agreement with the model over the real numbers -/

theorem fMax_fin {l : List ℝ} {m : ℝ} (h : npMax l = .ok m) : fMax (l.map fin) = .ok (fin m) := by
  cases l with
  | nil => cases h
  | cons a l =>
    simp only [npMax, Except.ok.injEq] at h
    subst h
    show Except.ok _ = Except.ok _
    congr 1
    induction l generalizing a with
    | nil => rfl
    | cons x l ih => exact ih (max a x)

/-- **C20**: on finite weights and log-likelihoods the update is that of the real-number model, so the
theorems about `weightUpdate` apply. -/
theorem C20_agrees_measure {P : Type} {pa pa' : PA P} {ll : List ℝ} (h : weightUpdate pa ll = .ok pa') :
    fWeightUpdate ⟨pa.w.map fin, fin pa.w_offset⟩ (ll.map fin)
      = .ok ⟨pa'.w.map fin, fin pa'.w_offset⟩ := by
  unfold weightUpdate at h
  rw [bind_eq_ok] at h
  obtain ⟨m, hm, h⟩ := h
  rw [bind_eq_ok] at h
  obtain ⟨w, hw, h⟩ := h
  rw [bind_eq_ok] at h
  obtain ⟨m', hm', h⟩ := h
  cases h
  unfold npAdd at hw
  split_ifs at hw with hl
  cases hw
  have e1 : List.zipWith add (pa.w.map fin) ((ll.map fin).map (sub · (fin m)))
      = (List.zipWith (· + ·) pa.w (ll.map (· - m))).map fin := by
    rw [List.map_map, List.zipWith_map, List.map_zipWith]
    rw [List.zipWith_map_right]
    congr 1
  rw [List.length_map] at hl
  unfold fWeightUpdate
  simp only [fMax_fin hm, ok_bind, List.length_map, hl, if_true, pure_eq_ok, e1, fMax_fin hm']
  congr 2
  rw [List.map_map, List.map_map]
  congr 1

theorem fSearchsorted_fin (l : List ℝ) (v : ℝ) : fSearchsorted (l.map fin) v = searchsorted l v := by
  unfold fSearchsorted searchsorted
  rw [List.findIdx_map]
  congr 1
  funext x
  simp [Flt.lt]

/-- **C20**: sampling from finite weights that can be normalised agrees as well. -/
theorem C20_agrees_sample {w : List ℝ} (hw : Spec.Weights w) (n : ℕ) (r : ℝ) :
    fSample (w.map fin) n r = sample w n r := by
  have hne : w.map fin ≠ [] := by simpa using weights_ne_nil hw
  rw [sample_eq hw]
  unfold fSample
  simp only [fCumsum_getLast hne, ok_bind, pure_eq_ok, fSum_fin]
  rw [fCumsum_fin]
  congr 1
  refine List.map_congr_left fun u _ => ?_
  rw [← fSearchsorted_fin]
  congr 1
  rw [List.map_map, List.map_map]
  refine List.map_congr_left fun x _ => ?_
  simp [div, hw.2.ne']

/-- **C20**: the effective sample size of finite weights agrees. -/
theorem C20_agrees_neff {w : List ℝ} {v : ℝ} (h : calcNeff w = .ok v) :
    fNeff (w.map fin) = .ok (fin v) := by
  unfold calcNeff at h
  rw [bind_eq_ok] at h
  obtain ⟨m, hm, h⟩ := h
  cases h
  have hne : w ≠ [] := by rintro rfl; cases hm
  have e1 : (w.map fin).map (fun x => fexp (sub x (fin m))) = (w.map fun x => exp (x - m)).map fin := by
    rw [List.map_map, List.map_map]
    congr 1
  have hpos : 0 < (w.map fun x => exp (x - m)).sum := by
    refine List.sum_pos _ ?_ (by simpa using hne)
    intro x hx
    obtain ⟨y, -, rfl⟩ := List.mem_map.mp hx
    exact exp_pos _
  have e2 : ((w.map fun x => exp (x - m)).map fin).map (div · (fin (w.map fun x => exp (x - m)).sum))
      = ((w.map fun x => exp (x - m)).map (· / (w.map fun x => exp (x - m)).sum)).map fin := by
    rw [List.map_map (l := List.map _ _), List.map_map (l := List.map _ _)]
    refine List.map_congr_left fun x _ => ?_
    simp [div, hpos.ne']
  have e3 : ∀ l : List ℝ, (l.map fin).map sq = (l.map (· ^ 2)).map fin := by
    intro l
    rw [List.map_map, List.map_map]
    congr 1
  unfold fNeff
  simp only [fMax_fin hm, ok_bind, pure_eq_ok, e1, fSum_fin, e2, e3]
  have hpos2 : 0 < (((w.map fun x => exp (x - m)).map (· / (w.map fun x => exp (x - m)).sum)).map (· ^ 2)).sum := by
    refine List.sum_pos _ ?_ (by simpa using hne)
    intro x hx
    obtain ⟨y, hy, rfl⟩ := List.mem_map.mp hx
    obtain ⟨z, hz, rfl⟩ := List.mem_map.mp hy
    obtain ⟨z', -, rfl⟩ := List.mem_map.mp hz
    exact pow_pos (div_pos (exp_pos _) hpos) 2
  simp only [div, hpos2.ne', if_false]

/-- **C20**: an impossible particle (weight `-inf`) is never selected by resampling, except possibly when
the random draw is exactly 0. -/
theorem C20_impossible_not_resampled {w : List Flt} (hn : nan ∉ w) (hp : pinf ∉ w) {x : ℝ}
    (hx : fin x ∈ w) {off : Flt} {N : ℕ} {r : ℝ} (hr : 0 < r ∧ r < 1) {pa : FW} {ind : List ℕ}
    (h : fResample ⟨w, off⟩ N r = .ok (pa, ind)) {i : ℕ} (hi : w[i]? = some ninf) : i ∉ ind := by
  have hne : w ≠ [] := by rintro rfl; cases hx
  obtain ⟨m, hm, e, hmax⟩ := fMax_spec hne hn
  obtain ⟨μ, rfl⟩ : ∃ μ, m = fin μ := by
    have h1 := hmax _ hx
    cases m with
    | fin y => exact ⟨y, rfl⟩
    | ninf => simp [Flt.lt] at h1
    | pinf => exact absurd hm hp
    | nan => exact absurd hm hn
  have e1 : w.map (fun x => fexp (sub x (fin μ)))
      = (w.map fun x => Spec.densityOf x * exp (-μ)).map fin := by
    rw [List.map_map]
    refine List.map_congr_left fun x hx => ?_
    cases x with
    | fin x => simp [sub, neg, Flt.add, fexp, Spec.densityOf, exp_add]
    | ninf => simp [sub, neg, Flt.add, fexp, Spec.densityOf]
    | pinf => exact absurd hx hp
    | nan => exact absurd hx hn
  have hnn : ∀ y ∈ w.map fun x => Spec.densityOf x * exp (-μ), 0 ≤ y := by
    intro y hy
    obtain ⟨z, -, rfl⟩ := List.mem_map.mp hy
    refine mul_nonneg ?_ (exp_pos _).le
    cases z <;> simp [Spec.densityOf, exp_nonneg]
  have hW : Spec.Weights (w.map fun x => Spec.densityOf x * exp (-μ)) := by
    refine ⟨hnn, ?_⟩
    refine lt_of_lt_of_le (mul_pos (exp_pos x) (exp_pos (-μ))) ?_
    exact List.single_le_sum hnn _ (List.mem_map.mpr ⟨fin x, hx, rfl⟩)
  unfold fResample at h
  simp only [e, ok_bind, e1, C20_agrees_sample hW] at h
  rw [bind_eq_ok] at h
  obtain ⟨idx, hidx, h⟩ := h
  cases h
  exact C05_zero_weight_never_drawn hW N ⟨hr.1.le, hr.2⟩ hr.1 hidx
    (by rw [List.getElem?_map, hi]; simp [Spec.densityOf])

/-! ## Concrete cases -/

/-- Two particles with weights `(-log 2, -log 2)`; both become impossible, later likelihoods are fine:
`C20_run` applies, and the weights are `nan` after the first and after the second step. -/
example : ∃ out, fRun 1 [fin (-log 2), fin (-log 2)] [(0, [ninf, ninf]), (0, [fin 0, fin 0])] = .ok out
    ∧ ∀ e ∈ out, ∀ x ∈ e.1, x = nan := by
  obtain ⟨out, h1, h2, h3, h4, -⟩ := C20_run (N := 2) (by norm_num) 1
    [(0, [ninf, ninf]), (0, [fin 0, fin 0])] (by simp) (w := [fin (-log 2), fin (-log 2)]) rfl (by simp)
  refine ⟨out, h1, ?_⟩
  simp only [fRun] at h1
  obtain ⟨pa', b, anc, g1, g2⟩ := fMaybeResample_ok (pa := ⟨[fin (-log 2), fin (-log 2)], fin 0⟩) (by simp) 1 0
  have hlen : pa'.w.length = [ninf, ninf].length := by
    rcases g2 with ⟨rfl, -⟩ | ⟨-, -, h⟩
    · rfl
    · rw [h]; rfl
  have hp : pinf ∉ pa'.w := by
    rcases g2 with ⟨rfl, -⟩ | ⟨-, -, h⟩
    · simp
    · rw [h]; simp
  obtain ⟨o, k1, k2, k3⟩ := C20_all_or_none hlen (by simp) hp
  have hnan : nan ∈ o.w := (C20_nan_iff hlen (by simp) hp k1).mpr (Or.inr (Or.inr (Or.inr (by
    rintro ⟨i, x, y, -, hy⟩
    have := List.mem_of_getElem? hy
    simp at this))))
  simp only [fForward, g1, ok_bind, k1, pure_eq_ok] at h1
  rw [bind_eq_ok] at h1
  obtain ⟨l, -, h1⟩ := h1
  cases h1
  intro e he
  rcases List.mem_cons.mp he with rfl | he
  · rcases k3 with h | ⟨h, -⟩
    · exact h
    · rcases h _ hnan with h | ⟨y, -, h⟩ <;> cases h
  · obtain ⟨j, hj⟩ := List.mem_iff_getElem?.mp he
    exact (h4 0 (j + 1) _ e (by omega) rfl (by simpa using hj) hnan).1

/-- One impossible particle of two does no harm: the weights stay free of `nan`. -/
example : ∃ out, fWeightUpdate ⟨[fin (-log 2), fin (-log 2)], fin 0⟩ [fin 3, ninf] = .ok out ∧ nan ∉ out.w := by
  obtain ⟨o, k1, k2, k3⟩ := C20_all_or_none (pa := ⟨[fin (-log 2), fin (-log 2)], fin 0⟩) (ll := [fin 3, ninf])
    rfl (by simp) (by simp)
  refine ⟨o, k1, fun h => ?_⟩
  have := (C20_nan_iff (pa := ⟨[fin (-log 2), fin (-log 2)], fin 0⟩) (ll := [fin 3, ninf]) rfl (by simp) (by simp) k1).mp h
  simp at this
  exact this ⟨0, _, _, rfl, rfl⟩

end PyPE

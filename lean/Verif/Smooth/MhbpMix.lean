import Verif.Smooth.Toy

/-!
# C64: the ancestor proposals of `mhbp`
-/

namespace PyPE
open Real Spec

variable {P U Y V Ω : Type}

/-- Systematic sampling of `N` from `N` equal weights returns `0, 1, …, N-1` for every uniform `0 < r < 1`. -/
theorem sample_equal {N : ℕ} (hN : 0 < N) {c : ℝ} (hc : 0 < c) {r : ℝ} (h0 : 0 < r) (h1 : r < 1) :
    sample (List.replicate N c) N r = .ok (List.range N) := by
  have hsum : (List.replicate N c).sum = N * c := by simp
  have hNR : (0:ℝ) < N := Nat.cast_pos.mpr hN
  have hw : Weights (List.replicate N c) :=
    ⟨fun x hx => by rw [List.eq_of_mem_replicate hx]; exact hc.le, by rw [hsum]; positivity⟩
  obtain ⟨idx, hidx, hl, hr⟩ := C01_sample_length_range hw N (r := r) ⟨h0.le, h1⟩
  rw [hidx]
  congr 1
  apply List.ext_getElem?
  intro i
  by_cases hi : i < N
  · obtain ⟨j, hj, h2, h3⟩ := C04_sample_inverse_cdf hw N ⟨h0.le, h1⟩ hidx i hi
    have hjN : j < N := by
      have := hr j (List.mem_of_getElem? hj)
      simpa using this
    rw [hj, List.getElem?_range hi]
    rw [hsum, List.take_replicate, List.sum_replicate, min_eq_left hjN.le, nsmul_eq_mul,
      mul_div_mul_right _ _ hc.ne'] at h2
    rw [hsum, List.take_replicate, List.sum_replicate, min_eq_left hjN, nsmul_eq_mul,
      mul_div_mul_right _ _ hc.ne'] at h3
    rw [div_le_div_iff_of_pos_right hNR] at h2 h3
    push_cast at h3
    have e1 : (j : ℝ) < i + 1 := by linarith
    have e2 : (i : ℝ) < j + 1 := by linarith
    have e1' : j < i + 1 := by exact_mod_cast e1
    have e2' : i < j + 1 := by exact_mod_cast e2
    congr 1; omega
  · rw [List.getElem?_eq_none (by omega), List.getElem?_eq_none (by simp; omega)]

/-- C64 (defect): the ancestors that `mhbp` proposes to the `M` trajectories in one iteration are always in ascending
order; they are not shuffled. -/
theorem C64_mhbp_proposals_sorted {w : List ℝ} (hw : w ≠ []) (M : ℕ) {r : ℝ} (hr : Unit01 r) (panc : Option (List ℕ))
    {p : List ℕ} (h : (do let t ← maxNormalised w; mhbpPropose (some t) panc M r) = .ok p) : p.Pairwise (· ≤ ·) := by
  rw [maxNormalised_eq hw, ok_bind] at h
  exact C04_sample_sorted (normWeights_weights hw) M hr h

/-- C64 (defect): if the filter weights of the previous time are equal (which they are after every resampling) and there
are as many trajectories as particles, the proposal for trajectory `j` is particle `j`, for every uniform but 0. -/
theorem C64_mhbp_equal_weights {N : ℕ} (hN : 0 < N) (c : ℝ) {r : ℝ} (h0 : 0 < r) (h1 : r < 1) (panc : Option (List ℕ)) :
    (do let t ← maxNormalised (List.replicate N c); mhbpPropose (some t) panc N r) = .ok (List.range N) := by
  have hne : List.replicate N c ≠ [] := by simp; omega
  rw [maxNormalised_eq hne, ok_bind]
  show sample (normWeights (List.replicate N c)) N r = _
  rw [sample_normWeights _ hne, List.map_replicate]
  exact sample_equal hN (exp_pos c) h0 h1

/-- C64 (defect): in that situation no number of iterations moves the ancestor of trajectory `j` to any particle other
than `j`: afterwards it is either the one it started with or `j`. -/
theorem C64_mhbp_never_mixes {S : SmoothCallbacks P U Y V Ω} {ptraj fut : Option (List (SStep P))} {N : ℕ} (hN : 0 < N)
    (c : ℝ) {D : SData U Y} {t : ℕ} {d : MhbpDraws Ω} (hr : ∀ i, 0 < d.r i ∧ d.r i < 1) {tmp : List ℝ}
    (htmp : maxNormalised (List.replicate N c) = .ok tmp) (R : ℕ) {pnew pout : List P} {anc aout : List ℕ}
    {panc pa' : Option (List ℕ)}
    (h : mhbpInner S ptraj fut N D t (some tmp) d (List.range R) (pnew, anc, panc) = .ok (pout, aout, pa')) :
    ∀ j i : ℕ, aout[j]? = some i → i = j ∨ anc[j]? = some i := by
  generalize List.range R = is at h
  induction is generalizing pnew anc panc with
  | nil =>
    simp only [mhbpInner, Except.ok.injEq, Prod.mk.injEq] at h
    obtain ⟨-, rfl, -⟩ := h
    exact fun j i hi => Or.inr hi
  | cons k ks ih =>
    have hp : mhbpPropose (some tmp) panc N (d.r k) = .ok (List.range N) := by
      have := C64_mhbp_equal_weights hN c (hr k).1 (hr k).2 panc
      rwa [htmp, ok_bind] at this
    simp only [mhbpInner, hp, ok_bind] at h
    obtain ⟨⟨pn, acc⟩, -, h2⟩ := bind_eq_ok.mp h
    intro j i hi
    rcases ih h2 j i hi with h3 | h3
    · exact Or.inl h3
    · rw [List.getElem?_zipWith] at h3
      cases ha : acc[j]? with
      | none => simp [ha] at h3
      | some b =>
        cases hz : ((List.range N).zip anc)[j]? with
        | none => simp [ha, hz] at h3
        | some q =>
          obtain ⟨q1, q2⟩ := q
          simp only [ha, hz, Option.some.injEq] at h3
          obtain ⟨g1, g2⟩ := List.getElem?_zip_eq_some.mp hz
          obtain ⟨g0, g3⟩ := List.getElem?_eq_some_iff.mp g1
          rw [List.getElem_range] at g3
          cases b
          · right; simpa [← h3] using g2
          · left; simp at h3; omega

/-- The hypotheses are met: three equally weighted particles. -/
example (d : MhbpDraws ℝ) (hd : ∀ i, d.r i = 1/2) {pout : List ℝ} {aout : List ℕ} {pa' : Option (List ℕ)} {tmp : List ℝ}
    (htmp : maxNormalised (List.replicate 3 0) = .ok tmp)
    (h : mhbpInner stoy (some ((srun.take 1).map Step.toS)) none 3 sdata 1 (some tmp) d (List.range 30)
      ([1, 2, 1], [0, 0, 0], none) = .ok (pout, aout, pa')) : aout[2]? ≠ some 1 := by
  intro h2
  have := C64_mhbp_never_mixes (by norm_num) 0 (fun i => by rw [hd]; norm_num) htmp 30 h 2 1 h2
  simp at this

end PyPE

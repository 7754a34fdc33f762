import Verif.Rounding.Spec
import Verif.PyLemmas
import Verif.Sampling.Props

/-!
# C105: sampling in rounded arithmetic
-/

namespace PyPE
open Spec

variable {P U Y V Ω : Type} {A : Arith} {nmax : ℕ}

/-- The `k`-th cumulative sum. -/
noncomputable def cumAt (A : Arith) (w : List ℝ) : ℕ → ℝ
  | 0 => w.getD 0 0
  | k + 1 => A.fl (cumAt A w k + w.getD (k + 1) 0)

theorem flCumsum_length (A : Arith) (w : List ℝ) : (flCumsum A w).length = w.length := by
  cases w <;> simp [flCumsum]

theorem flCumsum_get (A : Arith) (w : List ℝ) {k : ℕ} (hk : k < w.length) : (flCumsum A w)[k]? = some (cumAt A w k) := by
  cases w with
  | nil => simp at hk
  | cons x xs =>
    induction k with
    | zero => simp [flCumsum, cumAt]
    | succ k ih =>
      have ih := ih (by omega)
      simp only [flCumsum] at ih ⊢
      have h1 : k < xs.length := by simpa using hk
      have h2 : k < (List.scanl (fun c y => A.fl (c + y)) x xs).length := by simp; omega
      have h3 : k + 1 < (List.scanl (fun c y => A.fl (c + y)) x xs).length := by simp; omega
      rw [List.getElem?_eq_getElem h2, Option.some.injEq] at ih
      rw [List.getElem?_eq_getElem h3, List.getElem_succ_scanl, ih, cumAt]
      simp [h1]

theorem flCumsum_eq (A : Arith) (w : List ℝ) : flCumsum A w = (List.range w.length).map (cumAt A w) := by
  apply List.ext_getElem?
  intro k
  by_cases hk : k < w.length
  · rw [flCumsum_get A w hk]; simp [hk]
  · rw [List.getElem?_eq_none (by rw [flCumsum_length]; omega), List.getElem?_eq_none (by simp; omega)]

/-- Weights as the sampler gets them: representable, none negative. -/
def Spec.FlWeights (A : Arith) (w : List ℝ) : Prop := ∀ x ∈ w, 0 ≤ x ∧ A.fl x = x

theorem fl_zero (hA : Rounded A nmax) : A.fl 0 = 0 := by simpa using hA.nat 0 (Nat.zero_le _)
theorem fl_one (hA : Rounded A nmax) : A.fl 1 = 1 := by simpa using hA.nat 1 hA.one_le

theorem fl_nonneg (hA : Rounded A nmax) {x : ℝ} (h : 0 ≤ x) : 0 ≤ A.fl x := by
  have := hA.mono h
  rwa [fl_zero hA] at this

theorem fl_le_one (hA : Rounded A nmax) {x : ℝ} (h : x ≤ 1) : A.fl x ≤ 1 := by
  have := hA.mono h
  rwa [fl_one hA] at this

theorem flWeights_getD {w : List ℝ} (hw : FlWeights A w) (hA : Rounded A nmax) (k : ℕ) : 0 ≤ w.getD k 0 ∧ A.fl (w.getD k 0) = w.getD k 0 := by
  rw [List.getD_eq_getElem?_getD]
  cases h : w[k]? with
  | none => simpa using fl_zero hA
  | some x => exact hw x (List.mem_of_getElem? h)

theorem cumAt_rep (hA : Rounded A nmax) {w : List ℝ} (hw : FlWeights A w) (k : ℕ) : A.fl (cumAt A w k) = cumAt A w k := by
  cases k with
  | zero => exact (flWeights_getD hw hA 0).2
  | succ k => exact hA.idem _

theorem cumAt_nonneg (hA : Rounded A nmax) {w : List ℝ} (hw : FlWeights A w) (k : ℕ) : 0 ≤ cumAt A w k := by
  induction k with
  | zero => exact (flWeights_getD hw hA 0).1
  | succ k ih => exact fl_nonneg hA (add_nonneg ih (flWeights_getD hw hA _).1)

theorem cumAt_mono (hA : Rounded A nmax) {w : List ℝ} (hw : FlWeights A w) : Monotone (cumAt A w) := by
  refine monotone_nat_of_le_succ fun k => ?_
  have := hA.mono (le_add_of_nonneg_right (flWeights_getD hw hA (k+1)).1 : cumAt A w k ≤ cumAt A w k + w.getD (k+1) 0)
  rwa [cumAt_rep hA hw] at this

theorem le_cumAt (hA : Rounded A nmax) {w : List ℝ} (hw : FlWeights A w) (k : ℕ) : w.getD k 0 ≤ cumAt A w k := by
  cases k with
  | zero => exact le_refl _
  | succ k =>
    have := hA.mono (le_add_of_nonneg_left (cumAt_nonneg hA hw k) : w.getD (k+1) 0 ≤ cumAt A w k + w.getD (k+1) 0)
    rwa [(flWeights_getD hw hA _).2] at this

theorem cumAt_zero_step (hA : Rounded A nmax) {w : List ℝ} (hw : FlWeights A w) {k : ℕ} (h : w.getD (k+1) 0 = 0) : cumAt A w (k+1) = cumAt A w k := by
  rw [cumAt, h, add_zero, cumAt_rep hA hw]

/-- The total as computed. -/
noncomputable def flTotal (A : Arith) (w : List ℝ) : ℝ := cumAt A w (w.length - 1)

theorem flTotal_pos (hA : Rounded A nmax) {w : List ℝ} (hw : FlWeights A w) (hp : ∃ x ∈ w, 0 < x) : 0 < flTotal A w := by
  obtain ⟨x, hx, hx0⟩ := hp
  obtain ⟨k, hk, rfl⟩ := List.getElem_of_mem hx
  have h1 := le_cumAt hA hw k
  rw [List.getD_eq_getElem?_getD, List.getElem?_eq_getElem hk, Option.getD_some] at h1
  exact lt_of_lt_of_le hx0 (h1.trans (cumAt_mono hA hw (by omega)))

theorem getLast_flCumsum {w : List ℝ} (hne : w ≠ []) : getLast (flCumsum A w) = .ok (flTotal A w) := by
  have hl : 0 < w.length := List.length_pos_iff.mpr hne
  rw [getLast_ok, List.getLast?_eq_getElem?, flCumsum_length, flCumsum_get A w (by omega)]
  rfl

/-- The normalised cumulative sums. -/
noncomputable def flNorm (A : Arith) (w : List ℝ) (k : ℕ) : ℝ := A.fl (cumAt A w k / flTotal A w)

theorem flNorm_mono (hA : Rounded A nmax) {w : List ℝ} (hw : FlWeights A w) (hp : 0 < flTotal A w) : Monotone (flNorm A w) :=
  fun _ _ h => hA.mono (div_le_div_of_nonneg_right (cumAt_mono hA hw h) hp.le)

theorem flNorm_last (hA : Rounded A nmax) {w : List ℝ} (hp : 0 < flTotal A w) : flNorm A w (w.length - 1) = 1 := by
  unfold flNorm
  rw [show cumAt A w (w.length - 1) = flTotal A w from rfl, div_self hp.ne', fl_one hA]

theorem flSample_eq {w : List ℝ} (hp : 0 < flTotal A w) (hne : w ≠ []) (n : ℕ) (r : ℝ) :
    flSample A w n r = .ok ((flGrid A n r).map (searchsorted ((List.range w.length).map (flNorm A w)))) := by
  unfold flSample
  simp only [getLast_flCumsum hne, ok_bind, if_neg hp.ne', pure_eq_ok]
  rw [flCumsum_eq, List.map_map]
  rfl

/-- What `searchsorted` answers on the normalised cumulative sums. -/
theorem flSearch_iff (hA : Rounded A nmax) {w : List ℝ} (hw : FlWeights A w) (hp : 0 < flTotal A w) (hne : w ≠ []) {u : ℝ} (hu : u ≤ 1) (j : ℕ) :
    searchsorted ((List.range w.length).map (flNorm A w)) u = j ↔ j < w.length ∧ u ≤ flNorm A w j ∧ ∀ i < j, flNorm A w i < u := by
  have hl : 0 < w.length := List.length_pos_iff.mpr hne
  have hex : searchsorted ((List.range w.length).map (flNorm A w)) u < w.length := by
    have : searchsorted ((List.range w.length).map (flNorm A w)) u < ((List.range w.length).map (flNorm A w)).length := by
      unfold searchsorted
      rw [List.findIdx_lt_length]
      refine ⟨flNorm A w (w.length - 1), List.mem_map.mpr ⟨_, List.mem_range.mpr (by omega), rfl⟩, ?_⟩
      rw [flNorm_last hA hp]
      simpa using hu
    simpa using this
  constructor
  · rintro rfl
    refine ⟨hex, ?_, fun i hi => ?_⟩
    · have hex' : List.findIdx (fun x => decide (u ≤ x)) ((List.range w.length).map (flNorm A w)) < ((List.range w.length).map (flNorm A w)).length := by
        rw [List.length_map, List.length_range]; exact hex
      have := List.findIdx_getElem (p := fun x => decide (u ≤ x)) (xs := (List.range w.length).map (flNorm A w)) (w := hex')
      rw [List.getElem_map, List.getElem_range, decide_eq_true_eq] at this
      exact this
    · have := List.not_of_lt_findIdx (p := fun x => decide (u ≤ x)) (xs := (List.range w.length).map (flNorm A w)) hi
      simpa using this
  · rintro ⟨h1, h2, h3⟩
    unfold searchsorted
    rw [List.findIdx_eq (by simpa using h1)]
    refine ⟨by simpa using h2, fun i hi => ?_⟩
    simpa using h3 i hi

theorem flGrid_le_one (hA : Rounded A nmax) {n : ℕ} (hn : n ≤ nmax) {r : ℝ} (hr : Unit01 r) : ∀ u ∈ flGrid A n r, 0 ≤ u ∧ u ≤ 1 := by
  intro u hu
  simp only [flGrid, List.mem_map, List.mem_range] at hu
  obtain ⟨i, hi, rfl⟩ := hu
  have hn0 : (0:ℝ) < n := by exact_mod_cast (by omega : 0 < n)
  have hi' : (i:ℝ) + 1 ≤ n := by exact_mod_cast hi
  have h1 : A.fl ((i:ℝ) + r) ≤ n := by
    have := hA.mono (show (i:ℝ) + r ≤ n by linarith [hr.2])
    rwa [hA.nat n hn] at this
  have h0 : 0 ≤ A.fl ((i:ℝ) + r) := fl_nonneg hA (add_nonneg (Nat.cast_nonneg _) hr.1)
  exact ⟨fl_nonneg hA (div_nonneg h0 hn0.le), fl_le_one hA (by rwa [div_le_one hn0])⟩

theorem flGrid_sorted (hA : Rounded A nmax) (n : ℕ) (r : ℝ) : (flGrid A n r).Pairwise (· ≤ ·) := by
  rw [flGrid, List.pairwise_map]
  refine List.Pairwise.imp ?_ List.pairwise_lt_range
  intro i j hij
  exact hA.mono (div_le_div_of_nonneg_right (hA.mono (by have : (i:ℝ) ≤ j := by exact_mod_cast hij.le
                                                         linarith)) (Nat.cast_nonneg _))

/-- **C105.** `sample` in any rounded arithmetic: for representable non-negative weights that are not all zero, and up to `nmax` indices, it returns `n` valid indices in
ascending order, and except for index 0 no index of weight zero. -/
theorem C105_sample_valid (hA : Rounded A nmax) {w : List ℝ} (hw : FlWeights A w) (hp : ∃ x ∈ w, 0 < x) {n : ℕ} (hn : n ≤ nmax) {r : ℝ} (hr : Unit01 r) :
    ∃ idx, flSample A w n r = .ok idx ∧ idx.length = n ∧ (∀ i ∈ idx, i < w.length) ∧ idx.Pairwise (· ≤ ·) ∧ ∀ i ∈ idx, i = 0 ∨ 0 < w.getD i 0 := by
  have hne : w ≠ [] := by rintro rfl; simp at hp
  have ht := flTotal_pos hA hw hp
  refine ⟨_, flSample_eq ht hne n r, by simp [flGrid], ?_, ?_, ?_⟩
  · intro i hi
    obtain ⟨u, hu, rfl⟩ := List.mem_map.mp hi
    exact ((flSearch_iff hA hw ht hne (flGrid_le_one hA hn hr u hu).2 _).mp rfl).1
  · rw [List.pairwise_map]
    refine List.Pairwise.imp_of_mem ?_ (flGrid_sorted hA n r)
    intro u v hu hv huv
    obtain ⟨-, -, h3⟩ := (flSearch_iff hA hw ht hne (flGrid_le_one hA hn hr u hu).2 _).mp rfl
    obtain ⟨-, h2, -⟩ := (flSearch_iff hA hw ht hne (flGrid_le_one hA hn hr v hv).2 _).mp rfl
    by_contra hlt
    exact absurd (huv.trans h2) (not_le.mpr (h3 _ (not_le.mp hlt)))
  · intro i hi
    obtain ⟨u, hu, rfl⟩ := List.mem_map.mp hi
    obtain ⟨-, h2, h3⟩ := (flSearch_iff hA hw ht hne (flGrid_le_one hA hn hr u hu).2 _).mp rfl
    rcases hj : searchsorted ((List.range w.length).map (flNorm A w)) u with _ | k
    · exact Or.inl rfl
    · right
      rw [hj] at h2 h3
      by_contra h0
      have h0' : w.getD (k+1) 0 = 0 := le_antisymm (not_lt.mp h0) (flWeights_getD hw hA _).1
      have : flNorm A w (k+1) = flNorm A w k := by unfold flNorm; rw [cumAt_zero_step hA hw h0']
      rw [this] at h2
      exact absurd h2 (not_le.mpr (h3 k (Nat.lt_succ_self k)))

end PyPE

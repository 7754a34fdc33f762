import Verif.Models.LtvStore

/-!
# C49: rows of a Rao-Blackwellised particle array (rbpf.py)

A row is `[xi | z | P | Mz]`; `Mz` is only present after smoothing.
-/

namespace PyPE
open Matrix

/-- One Rao-Blackwellised particle: nonlinear state, mean and covariance of the linear state. -/
abbrev RbP (lxi lz : ℕ) := (Fin lxi → ℝ) × (Fin lz → ℝ) × Matrix (Fin lz) (Fin lz) ℝ

variable {lxi lz : ℕ}

/-- One row of `RBPSBase.get_states` (rbpf.py:447-469). Simplification: short rows raise `ValueError` whatever is missing; in the code only
the reshape of the covariance raises (all rows of an array have the same length, so it does). -/
def rbReadRow (lxi lz : ℕ) (row : List ℝ) : PyM (RbP lxi lz) := do
  let xi ← readSlice lxi 0 row
  let z ← readSlice lz lxi row
  let p ← readSlice (lz * lz) (lxi + lz) row
  return (xi, z, unravel p)

/-- `RBPSBase.get_states` (rbpf.py:447-469). -/
def rbGetStates (lxi lz : ℕ) (rows : List (List ℝ)) : PyM (List (RbP lxi lz)) := rows.mapM (rbReadRow lxi lz)

/-- One row of `RBPSBase.set_states` (rbpf.py:439-445). -/
def rbWriteRow (s : RbP lxi lz) (row : List ℝ) : PyM (List ℝ) := do
  let row ← writeSlice 0 s.1 row
  let row ← writeSlice lxi s.2.1 row
  writeSlice (lxi + lz) (ravel s.2.2) row

/-- `RBPSBase.set_states` (rbpf.py:428-445), the new content of `particles`; the reshape raises `ValueError` when the lists do not have one
entry per particle. Simplification: dimension zero (where any number of entries can be reshaped) is treated like the others. -/
def rbSetStates (rows : List (List ℝ)) (l : List (RbP lxi lz)) : PyM (List (List ℝ)) :=
  if l.length = rows.length then (rows.zip l).mapM fun rs => rbWriteRow rs.2 rs.1 else .error .valueError

/-- `RBPSBase.get_Mz` (rbpf.py:471-488). -/
def rbGetMz (lxi lz : ℕ) (rows : List (List ℝ)) : PyM (List (Matrix (Fin lz) (Fin lz) ℝ)) :=
  rows.mapM fun row => do
    let p ← readSlice (lz * lz) (lxi + lz + lz * lz) row
    return unravel p

/-- `RBPSBase.set_Mz` (rbpf.py:490-504). -/
def rbSetMz (lxi : ℕ) (rows : List (List ℝ)) (l : List (Matrix (Fin lz) (Fin lz) ℝ)) : PyM (List (List ℝ)) :=
  if l.length = rows.length then (rows.zip l).mapM fun rs => writeSlice (lxi + lz + lz * lz) (ravel rs.2) rs.1
  else .error .valueError

/-! ## Specification -/

/-- The row starts with the nonlinear state, then the mean, then the rows of the covariance. -/
def Spec.StoresRb (row : List ℝ) (s : RbP lxi lz) : Prop :=
  (∀ i : Fin lxi, row[(i : ℕ)]? = some (s.1 i)) ∧ (∀ i : Fin lz, row[lxi + i]? = some (s.2.1 i)) ∧
    ∀ i j : Fin lz, row[lxi + lz + (lz * i + j)]? = some (s.2.2 i j)

/-- After the covariance the row holds the rows of the cross covariance `Mz`. -/
def Spec.StoresMz (lxi : ℕ) (row : List ℝ) (Mz : Matrix (Fin lz) (Fin lz) ℝ) : Prop :=
  ∀ i j : Fin lz, row[lxi + lz + lz * lz + (lz * i + j)]? = some (Mz i j)

/-! ## Proofs -/

theorem readMat_iff {off : ℕ} {row : List ℝ} {M : Matrix (Fin lz) (Fin lz) ℝ} (hl : off + lz * lz ≤ row.length) :
    readSlice (lz * lz) off row = .ok (ravel M) ↔ ∀ i j : Fin lz, row[off + (lz * i + j)]? = some (M i j) := by
  constructor
  · intro h i j
    obtain ⟨-, h2⟩ := readSlice_spec h
    have := h2 ⟨lz * i + j, rowMajor_lt i j⟩
    rwa [ravel_rowMajor] at this
  · intro h
    refine readSlice_of hl fun k => ?_
    obtain ⟨⟨i, j⟩, rfl⟩ := finProdFinEquiv.surjective k
    have h1 := h i j
    have h2 : ravel M (finProdFinEquiv (i, j)) = M i j := by simp [ravel]
    rw [h2, ← h1]
    congr 1
    simp [finProdFinEquiv, add_comm]

theorem rbReadRow_iff {row : List ℝ} {s : RbP lxi lz} (hl : lxi + lz + lz * lz ≤ row.length) :
    rbReadRow lxi lz row = .ok s ↔ Spec.StoresRb row s := by
  obtain ⟨xi, z, P⟩ := s
  obtain ⟨v1, h1⟩ := readSlice_exists (n := lxi) (off := 0) (row := row) (by omega)
  obtain ⟨v2, h2⟩ := readSlice_exists (n := lz) (off := lxi) (row := row) (by omega)
  obtain ⟨v3, h3⟩ := readSlice_exists (n := lz * lz) (off := lxi + lz) (row := row) (by omega)
  have e : rbReadRow lxi lz row = .ok (v1, v2, unravel v3) := by simp [rbReadRow, h1, h2, h3, ok_bind]
  rw [e]
  obtain ⟨-, k1⟩ := readSlice_spec h1
  obtain ⟨-, k2⟩ := readSlice_spec h2
  have k3 := (readMat_iff (M := unravel v3) hl).1 (by rw [ravel_unravel, h3])
  constructor
  · intro h
    cases h
    exact ⟨fun i => by simpa using k1 i, k2, k3⟩
  · rintro ⟨g1, g2, g3⟩
    congr 2
    · funext i
      have h0 := k1 i
      rw [zero_add] at h0
      have := h0.symm.trans (g1 i)
      simpa using this
    · congr 1
      · funext i
        have := (k2 i).symm.trans (g2 i)
        simpa using this
      · ext i j
        have := (k3 i j).symm.trans (g3 i j)
        simpa using this

theorem rbReadRow_short {row : List ℝ} (hl : row.length < lxi + lz + lz * lz) : rbReadRow lxi lz row = .error .valueError := by
  unfold rbReadRow
  by_cases h1 : 0 + lxi ≤ row.length
  · obtain ⟨v1, e1⟩ := readSlice_exists (n := lxi) (off := 0) (row := row) h1
    by_cases h2 : lxi + lz ≤ row.length
    · obtain ⟨v2, e2⟩ := readSlice_exists (n := lz) (off := lxi) (row := row) h2
      have e3 : readSlice (lz * lz) (lxi + lz) row = .error .valueError := by unfold readSlice; rw [dif_neg (by omega)]
      simp only [e1, e2, e3, ok_bind]; rfl
    · have e2 : readSlice lz lxi row = .error .valueError := by unfold readSlice; rw [dif_neg (by omega)]
      simp only [e1, e2, ok_bind]; rfl
  · have e1 : readSlice lxi 0 row = .error .valueError := by unfold readSlice; rw [dif_neg (by omega)]
    simp only [e1]; rfl

theorem storesRb_unique {row : List ℝ} {s s' : RbP lxi lz} (h : Spec.StoresRb row s) (h' : Spec.StoresRb row s') : s = s' := by
  obtain ⟨xi, z, P⟩ := s
  obtain ⟨xi', z', P'⟩ := s'
  obtain ⟨a, b, c⟩ := h
  obtain ⟨a', b', c'⟩ := h'
  congr 1
  · funext i; have := (a i).symm.trans (a' i); simpa using this
  · congr 1
    · funext i; have := (b i).symm.trans (b' i); simpa using this
    · ext i j; have := (c i j).symm.trans (c' i j); simpa using this

theorem rbWriteRow_spec {row : List ℝ} (s : RbP lxi lz) (hl : lxi + lz + lz * lz ≤ row.length) :
    ∃ row', rbWriteRow s row = .ok row' ∧ row'.length = row.length ∧ Spec.StoresRb row' s ∧
      ∀ k, lxi + lz + lz * lz ≤ k → row'[k]? = row[k]? := by
  have w1 := writeSlice_ok (off := 0) (v := s.1) (row := row) (by omega)
  obtain ⟨a1, a2, a3⟩ := writeSlice_spec w1
  generalize List.take 0 row ++ List.ofFn s.1 ++ List.drop (0 + lxi) row = r1 at w1 a2 a3
  have w2 := writeSlice_ok (off := lxi) (v := s.2.1) (row := r1) (by omega)
  obtain ⟨b1, b2, b3⟩ := writeSlice_spec w2
  generalize List.take lxi r1 ++ List.ofFn s.2.1 ++ List.drop (lxi + lz) r1 = r2 at w2 b2 b3
  have w3 := writeSlice_ok (off := lxi + lz) (v := ravel s.2.2) (row := r2) (by omega)
  obtain ⟨c1, c2, c3⟩ := writeSlice_spec w3
  generalize List.take (lxi + lz) r2 ++ List.ofFn (ravel s.2.2) ++ List.drop (lxi + lz + lz * lz) r2 = r3 at w3 c2 c3
  refine ⟨r3, by simp only [rbWriteRow, w1, w2, w3, ok_bind], by omega, ⟨fun i => ?_, fun i => ?_, fun i j => ?_⟩, fun k hk => ?_⟩
  · rw [c3, dif_neg (by omega), b3, dif_neg (by omega), a3, dif_pos (by omega)]; simp
  · rw [c3, dif_neg (by omega), b3, dif_pos (by omega)]; simp
  · have := rowMajor_lt i j
    rw [c3, dif_pos (by omega)]
    simp only [Nat.add_sub_cancel_left]
    rw [ravel_rowMajor]
  · rw [c3, dif_neg (by omega), b3, dif_neg (by omega), a3, dif_neg (by omega)]

theorem rbWriteRow_short {row : List ℝ} (s : RbP lxi lz) (hl : row.length < lxi + lz + lz * lz) :
    rbWriteRow s row = .error .valueError := by
  unfold rbWriteRow
  by_cases h1 : 0 + lxi ≤ row.length
  · have w1 := writeSlice_ok (off := 0) (v := s.1) (row := row) h1
    obtain ⟨-, a2, -⟩ := writeSlice_spec w1
    generalize List.take 0 row ++ List.ofFn s.1 ++ List.drop (0 + lxi) row = r1 at w1 a2
    by_cases h2 : lxi + lz ≤ row.length
    · have w2 := writeSlice_ok (off := lxi) (v := s.2.1) (row := r1) (by omega)
      obtain ⟨-, b2, -⟩ := writeSlice_spec w2
      generalize List.take lxi r1 ++ List.ofFn s.2.1 ++ List.drop (lxi + lz) r1 = r2 at w2 b2
      have e3 : writeSlice (lxi + lz) (ravel s.2.2) r2 = .error .valueError := by unfold writeSlice; rw [if_neg (by omega)]
      simp only [w1, w2, e3, ok_bind]
    · have e2 : writeSlice lxi s.2.1 r1 = .error .valueError := by unfold writeSlice; rw [if_neg (by omega)]
      simp only [w1, e2, ok_bind]; rfl
  · have e1 : writeSlice 0 s.1 row = .error .valueError := by unfold writeSlice; rw [if_neg (by omega)]
    simp only [e1]; rfl

/-- **C49** `get_states` on rows that are long enough returns exactly what the rows store. -/
theorem C49_get_states (rows : List (List ℝ)) (l : List (RbP lxi lz)) (hr : ∀ row ∈ rows, lxi + lz + lz * lz ≤ row.length) :
    rbGetStates lxi lz rows = .ok l ↔ l.length = rows.length ∧
      ∀ (k : ℕ) (row : List ℝ), rows[k]? = some row → ∃ s, l[k]? = some s ∧ Spec.StoresRb row s := by
  unfold rbGetStates
  rw [mapM_ok_iff]
  refine and_congr_right fun _ => forall_congr' fun k => forall_congr' fun row => ?_
  refine forall_congr' fun hk => ?_
  have := hr row (List.mem_of_getElem? hk)
  simp only [rbReadRow_iff this]

/-- **C49** `get_states` raises `ValueError` when the rows are too short for state and statistics. -/
theorem C49_get_states_short (rows : List (List ℝ)) (hne : rows ≠ []) (hr : ∀ row ∈ rows, row.length < lxi + lz + lz * lz) :
    rbGetStates lxi lz rows = .error .valueError := by
  cases rows with
  | nil => exact absurd rfl hne
  | cons row rows =>
    unfold rbGetStates
    rw [List.mapM_cons, rbReadRow_short (hr row (by simp))]
    rfl

/-- **C49** `set_states` writes the given state and statistics into every row and changes nothing after them, so that `get_states` returns
what was set; it succeeds exactly when there is one entry per row and the rows are long enough. -/
theorem C49_set_states (rows : List (List ℝ)) (l : List (RbP lxi lz)) :
    ((∃ rows', rbSetStates rows l = .ok rows') ↔ l.length = rows.length ∧ ∀ row ∈ rows, lxi + lz + lz * lz ≤ row.length) ∧
    ∀ rows', rbSetStates rows l = .ok rows' → rbGetStates lxi lz rows' = .ok l ∧ rows'.length = rows.length ∧
      ∀ (k : ℕ) (row row' : List ℝ), rows[k]? = some row → rows'[k]? = some row' →
        row'.length = row.length ∧ ∀ i, lxi + lz + lz * lz ≤ i → row'[i]? = row[i]? := by
  have key : ∀ rows', rbSetStates rows l = .ok rows' → l.length = rows.length ∧ rows'.length = rows.length ∧
      ∀ (k : ℕ) (row : List ℝ), rows[k]? = some row → lxi + lz + lz * lz ≤ row.length ∧ ∃ s row', l[k]? = some s ∧
        rows'[k]? = some row' ∧ row'.length = row.length ∧ Spec.StoresRb row' s ∧
        ∀ i, lxi + lz + lz * lz ≤ i → row'[i]? = row[i]? := by
    intro rows' h
    unfold rbSetStates at h
    split at h
    · rename_i hlen
      obtain ⟨h1, h2⟩ := mapM_ok_iff.1 h
      refine ⟨hlen, by simpa [hlen] using h1, fun k row hk => ?_⟩
      have hkl := lt_of_getElem?_some hk
      obtain ⟨row', e1, e2⟩ := h2 k (row, l[k]) (by
        rw [List.getElem?_zip_eq_some]; exact ⟨hk, by simp⟩)
      by_cases hs : lxi + lz + lz * lz ≤ row.length
      · obtain ⟨r, w1, w2, w3, w4⟩ := rbWriteRow_spec l[k] hs
        cases w1.symm.trans e2
        exact ⟨hs, l[k], row', by simp, e1, w2, w3, w4⟩
      · rw [rbWriteRow_short (row := row) _ (by omega)] at e2
        cases e2
    · cases h
  refine ⟨⟨?_, ?_⟩, fun rows' h => ?_⟩
  · rintro ⟨rows', h⟩
    obtain ⟨k1, k2, k3⟩ := key rows' h
    refine ⟨k1, fun row hrow => ?_⟩
    obtain ⟨k, hk⟩ := List.mem_iff_getElem?.1 hrow
    exact (k3 k row hk).1
  · rintro ⟨h1, h2⟩
    unfold rbSetStates
    rw [if_pos h1]
    refine mapM_ok fun rs hrs => ?_
    obtain ⟨r, w1, -⟩ := rbWriteRow_spec rs.2 (h2 rs.1 (List.of_mem_zip hrs).1)
    exact ⟨r, w1⟩
  · obtain ⟨k1, k2, k3⟩ := key rows' h
    refine ⟨?_, k2, fun k row row' hk hk' => ?_⟩
    · rw [C49_get_states]
      · refine ⟨by omega, fun k row' hk' => ?_⟩
        have hkl : k < rows.length := by have := lt_of_getElem?_some hk'; omega
        obtain ⟨-, s, r, e1, e2, -, e4, -⟩ := k3 k rows[k] (by simp)
        cases hk'.symm.trans e2
        exact ⟨s, e1, e4⟩
      · intro row' hrow
        obtain ⟨k, hk'⟩ := List.mem_iff_getElem?.1 hrow
        have hkl : k < rows.length := by have := lt_of_getElem?_some hk'; omega
        obtain ⟨e0, s, r, e1, e2, e3, -⟩ := k3 k rows[k] (by simp)
        cases hk'.symm.trans e2
        exact e3 ▸ e0
    · obtain ⟨-, s, r, e1, e2, e3, e4, e5⟩ := k3 k row hk
      cases hk'.symm.trans e2
      exact ⟨e3, e5⟩

/-- **C49** When `set_states` fails it raises `ValueError`. -/
theorem C49_set_states_error {rows : List (List ℝ)} {l : List (RbP lxi lz)}
    (h : ¬ (l.length = rows.length ∧ ∀ row ∈ rows, lxi + lz + lz * lz ≤ row.length)) : rbSetStates rows l = .error .valueError := by
  unfold rbSetStates
  split_ifs with hl
  · have hne : ¬ ∃ rows', rbSetStates rows l = .ok rows' := fun hx => h ((C49_set_states rows l).1.1 hx)
    unfold rbSetStates at hne
    rw [if_pos hl] at hne
    refine mapM_error_of (fun rs _ => ?_) fun hall => ?_
    · by_cases hs : lxi + lz + lz * lz ≤ rs.1.length
      · obtain ⟨r, w1, -⟩ := rbWriteRow_spec rs.2 hs
        exact Or.inr ⟨r, w1⟩
      · exact Or.inl (rbWriteRow_short _ (by omega))
    · exact hne (mapM_ok hall)
  · rfl

/-- **C49** `set_Mz` stores the cross covariances behind state and statistics, which it leaves unchanged, and `get_Mz` returns them. -/
theorem C49_set_Mz (rows : List (List ℝ)) (l : List (Matrix (Fin lz) (Fin lz) ℝ)) (hl : l.length = rows.length)
    (hr : ∀ row ∈ rows, lxi + lz + lz * lz + lz * lz ≤ row.length) :
    ∃ rows', rbSetMz lxi rows l = .ok rows' ∧ rbGetMz lxi lz rows' = .ok l ∧
      rbGetStates lxi lz rows' = rbGetStates lxi lz rows ∧
      ∀ (k : ℕ) (row' : List ℝ), rows'[k]? = some row' → ∃ Mz, l[k]? = some Mz ∧ Spec.StoresMz lxi row' Mz := by
  have hw : ∀ (row : List ℝ) (Mz : Matrix (Fin lz) (Fin lz) ℝ), row ∈ rows →
      ∃ row', writeSlice (lxi + lz + lz * lz) (ravel Mz) row = .ok row' := fun row Mz hrow => ⟨_, writeSlice_ok (hr row hrow)⟩
  obtain ⟨rows', h⟩ := mapM_ok (l := rows.zip l) (f := fun rs => writeSlice (lxi + lz + lz * lz) (ravel rs.2) rs.1)
    fun rs hrs => hw rs.1 rs.2 (List.of_mem_zip hrs).1
  obtain ⟨h1, h2⟩ := mapM_ok_iff.1 h
  have h1' : rows'.length = rows.length := by simpa [hl] using h1
  have key : ∀ (k : ℕ) (row' : List ℝ), rows'[k]? = some row' → ∃ row Mz, rows[k]? = some row ∧ l[k]? = some Mz ∧
      writeSlice (lxi + lz + lz * lz) (ravel Mz) row = .ok row' := by
    intro k row' hk'
    have hkl : k < rows.length := by have := lt_of_getElem?_some hk'; omega
    obtain ⟨r, e1, e2⟩ := h2 k (rows[k], l[k]) (by rw [List.getElem?_zip_eq_some]; exact ⟨by simp, by simp⟩)
    cases hk'.symm.trans e1
    exact ⟨rows[k], l[k], by simp, by simp, e2⟩
  refine ⟨rows', by rw [rbSetMz, if_pos hl]; exact h, ?_, ?_, fun k row' hk' => ?_⟩
  · unfold rbGetMz
    rw [mapM_ok_iff]
    refine ⟨by omega, fun k row' hk' => ?_⟩
    obtain ⟨row, Mz, e1, e2, e3⟩ := key k row' hk'
    exact ⟨Mz, e2, by rw [readSlice_writeSlice e3, ok_bind, unravel_ravel]; rfl⟩
  · have hrd : ∀ (k : ℕ) (row row' : List ℝ), rows[k]? = some row → rows'[k]? = some row' →
        rbReadRow lxi lz row' = rbReadRow lxi lz row := by
      intro k row row' hk hk'
      obtain ⟨r, Mz, e1, e2, e3⟩ := key k row' hk'
      cases hk.symm.trans e1
      unfold rbReadRow
      rw [readSlice_writeSlice_disjoint e3 (by omega), readSlice_writeSlice_disjoint e3 (by omega),
        readSlice_writeSlice_disjoint e3 (by omega)]
    unfold rbGetStates
    have hmap : rows'.map (rbReadRow lxi lz) = rows.map (rbReadRow lxi lz) := by
      refine List.ext_getElem? fun k => ?_
      rw [List.getElem?_map, List.getElem?_map]
      by_cases hk : k < rows.length
      · rw [List.getElem?_eq_getElem hk, List.getElem?_eq_getElem (by omega)]
        simp only [Option.map_some]
        rw [hrd k rows[k] rows'[k] (by simp) (by simp)]
      · rw [List.getElem?_eq_none (by omega), List.getElem?_eq_none (by omega)]
    have e : ∀ rs : List (List ℝ), rs.mapM (rbReadRow lxi lz) = (rs.map (rbReadRow lxi lz)).mapM id := by
      intro rs; rw [List.mapM_map]; rfl
    rw [e, e, hmap]
  · obtain ⟨row, Mz, e1, e2, e3⟩ := key k row' hk'
    refine ⟨Mz, e2, (readMat_iff ?_).1 (readSlice_writeSlice e3)⟩
    obtain ⟨a, b, -⟩ := writeSlice_spec e3
    omega

/-- The hypotheses are met by a row of the layout `[xi | z | P | Mz]` in dimensions `1` and `2`. -/
example : ∃ rows : List (List ℝ), rows ≠ [] ∧ ∀ row ∈ rows, 1 + 2 + 2 * 2 + 2 * 2 ≤ row.length :=
  ⟨[List.replicate 11 0, List.replicate 11 1], by simp, by simp⟩

end PyPE

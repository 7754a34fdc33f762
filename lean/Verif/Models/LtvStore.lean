import Verif.Models.Ltv

/-!
# C44: the linear time-varying model stores and returns its statistics
-/

namespace PyPE
open Matrix

variable {n m : ℕ} {U T Y : Type}

/-! ## Specification -/

/-- The row of numbers starts with the mean, followed by the rows of the covariance. -/
def Spec.Stores (row : List ℝ) (s : Est n) : Prop :=
  (∀ i : Fin n, row[(i : ℕ)]? = some (s.1 i)) ∧ ∀ i j : Fin n, row[n + n * i + j]? = some (s.2 i j)

/-! ## Lemmas -/

theorem rowMajor_lt (i j : Fin n) : n * i + j < n * n := by
  calc n * (i : ℕ) + j < n * i + n := by omega
    _ = n * (i + 1) := by ring
    _ ≤ n * n := Nat.mul_le_mul_left _ i.2

theorem unravel_apply (v : Fin (n * n) → ℝ) (i j : Fin n) : unravel v i j = v ⟨n * i + j, rowMajor_lt i j⟩ := by
  have : finProdFinEquiv (i, j) = (⟨n * i + j, rowMajor_lt i j⟩ : Fin (n * n)) := by
    ext; simp [finProdFinEquiv, add_comm]
  simp [unravel, this]

theorem stores_length {row : List ℝ} {s : Est n} (h : Spec.Stores row s) : n + n * n ≤ row.length := by
  rcases Nat.eq_zero_or_pos n with rfl | hn
  · simp
  · obtain ⟨hl, -⟩ := List.getElem?_eq_some_iff.mp (h.2 ⟨n - 1, by omega⟩ ⟨n - 1, by omega⟩)
    have : n * (n - 1) + n = n * n := by
      obtain ⟨k, rfl⟩ : ∃ k, n = k + 1 := ⟨n - 1, by omega⟩
      simp; ring
    simp only at hl
    omega

theorem stores_unique {row : List ℝ} {s s' : Est n} (h : Spec.Stores row s) (h' : Spec.Stores row s') : s = s' := by
  refine Prod.ext (funext fun i => ?_) (Matrix.ext fun i j => ?_)
  · have := (h.1 i).symm.trans (h'.1 i); simpa using this
  · have := (h.2 i j).symm.trans (h'.2 i j); simpa using this

/-- **C44** Reading a row: succeeds exactly with the estimate that is stored in it. -/
theorem C44_read_iff (row : List ℝ) (s : Est n) : ltvReadRow n row = .ok s ↔ Spec.Stores row s := by
  unfold ltvReadRow
  constructor
  · intro h
    simp only [bind_eq_ok] at h
    obtain ⟨z, hz, p, hp, h⟩ := h
    cases h
    obtain ⟨-, h1⟩ := readSlice_spec hz
    obtain ⟨-, h2⟩ := readSlice_spec hp
    refine ⟨fun i => by simpa using h1 i, fun i j => ?_⟩
    have := h2 ⟨n * i + j, rowMajor_lt i j⟩
    show _ = some (unravel p i j)
    rw [unravel_apply, ← this]
    congr 1; simp; omega
  · intro h
    have hl := stores_length h
    have h1 : readSlice n 0 row = .ok s.1 := readSlice_of (by omega) fun i => by simpa using h.1 i
    have h2 : readSlice (n * n) n row = .ok (ravel s.2) := readSlice_of (by omega) fun k => by
      obtain ⟨⟨i, j⟩, rfl⟩ := finProdFinEquiv.surjective k
      have := h.2 i j
      simp only [ravel, Equiv.symm_apply_apply]
      rw [← this]
      congr 1; simp [finProdFinEquiv]; omega
    simp [h1, h2, ok_bind, unravel_ravel]

/-- Every row that is long enough stores something. -/
theorem exists_stores {row : List ℝ} (hl : n + n * n ≤ row.length) : ∃ s : Est n, Spec.Stores row s := by
  obtain ⟨z, hz⟩ := readSlice_exists (n := n) (off := 0) (row := row) (by omega)
  obtain ⟨p, hp⟩ := readSlice_exists (n := n * n) (off := n) (row := row) hl
  exact ⟨(z, unravel p), (C44_read_iff _ _).mp (by simp [ltvReadRow, hz, hp, ok_bind])⟩

theorem ltvWriteRow_iff {row : List ℝ} {s : Est n} :
    (∃ row', ltvWriteRow s row = .ok row') ↔ n + n * n ≤ row.length := by
  unfold ltvWriteRow
  constructor
  · rintro ⟨row', h⟩
    obtain ⟨r, h1, h2⟩ := bind_eq_ok.mp h
    have := (writeSlice_spec h2).1
    rw [(writeSlice_spec h1).2.1] at this
    exact this
  · intro h
    have h1 := writeSlice_ok (off := 0) (v := s.1) (row := row) (by omega)
    have h2 := (writeSlice_spec h1).2.1
    exact ⟨_, by rw [h1, ok_bind]; exact writeSlice_ok (by omega)⟩

theorem ltvWriteRow_spec {row row' : List ℝ} {s : Est n} (h : ltvWriteRow s row = .ok row') :
    Spec.Stores row' s ∧ row'.length = row.length ∧ ∀ k, n + n * n ≤ k → row'[k]? = row[k]? := by
  unfold ltvWriteRow at h
  obtain ⟨r, h1, h2⟩ := bind_eq_ok.mp h
  obtain ⟨a1, a2, a3⟩ := writeSlice_spec h1
  obtain ⟨b1, b2, b3⟩ := writeSlice_spec h2
  refine ⟨?_, by omega, fun k hk => ?_⟩
  · rw [← C44_read_iff]
    unfold ltvReadRow
    rw [readSlice_writeSlice_disjoint h2 (by omega), readSlice_writeSlice h1, ok_bind, readSlice_writeSlice h2, ok_bind,
      unravel_ravel]; rfl
  · rw [b3, dif_neg (by omega), a3, dif_neg (by omega)]

theorem packEst_length (s : Est n) : (packEst s).length = n + n * n := by simp [packEst]

theorem packEst_stores (s : Est n) (tail : List ℝ) : Spec.Stores (packEst s ++ tail) s := by
  refine ⟨fun i => ?_, fun i j => ?_⟩
  · have : (i : ℕ) < n := i.2
    rw [packEst, List.append_assoc, List.getElem?_append_left (by simp)]
    simp
  · have h := rowMajor_lt i j
    rw [packEst, List.append_assoc, List.getElem?_append_right (by simp; omega), List.getElem?_append_left (by simp; omega)]
    have : n + n * (i : ℕ) + j - (List.ofFn s.1).length = n * i + j := by simp; omega
    rw [this, List.getElem?_ofFn]
    simp only [h, dite_true]
    rw [ravel_rowMajor]

/-- **C44** `get_states` returns exactly what the rows store; it fails (with `ValueError`) when a row is too short. -/
theorem C44_get_states (rows : List (List ℝ)) (l : List (Est n)) :
    ltvGetStates n rows = .ok l ↔ l.length = rows.length ∧
      ∀ (k : ℕ) (row : List ℝ), rows[k]? = some row → ∃ s : Est n, l[k]? = some s ∧ Spec.Stores row s := by
  unfold ltvGetStates
  rw [mapM_ok_iff]
  simp only [C44_read_iff]

/-- **C44** `set_states` succeeds exactly when every row has room for the statistics and there is an estimate for every row. -/
theorem C44_set_states_succeeds_iff (rows : List (List ℝ)) (l : List (Est n)) :
    (∃ rows', ltvSetStates rows l = .ok rows') ↔ rows.length ≤ l.length ∧ ∀ row ∈ rows, n + n * n ≤ row.length := by
  unfold ltvSetStates
  constructor
  · rintro ⟨rows', h⟩
    obtain ⟨h1, h2⟩ := mapM_ok_iff.mp h
    have key : ∀ k (hk : k < rows.length), k < l.length ∧ n + n * n ≤ rows[k].length := by
      intro k hk
      obtain ⟨y, -, hy⟩ := h2 k (rows[k], k) (by simp [List.getElem?_zipIdx, hk])
      obtain ⟨s, hs, hw⟩ := bind_eq_ok.mp hy
      exact ⟨lt_of_getElem?_some (getIdx_ok.mp hs), ltvWriteRow_iff.mp ⟨y, hw⟩⟩
    refine ⟨?_, fun row hrow => ?_⟩
    · by_contra hc
      have := (key l.length (by omega)).1
      omega
    · obtain ⟨k, hk, rfl⟩ := List.getElem_of_mem hrow
      exact (key k hk).2
  · rintro ⟨h1, h2⟩
    apply mapM_ok
    rintro ⟨row, k⟩ hx
    obtain ⟨hk, hrow⟩ := List.mem_zipIdx' hx
    simp only at hk hrow ⊢
    obtain ⟨r, hr⟩ := (ltvWriteRow_iff (s := l[k]'(by omega))).mpr (h2 row (by rw [hrow]; exact List.getElem_mem hk))
    exact ⟨r, by rw [getIdx_of_lt (by omega), ok_bind, hr]⟩

/-- **C44** `set_states` followed by `get_states` returns the values that were set; the number and lengths of the rows and all entries
after the statistics are unchanged. -/
theorem C44_set_get (rows rows' : List (List ℝ)) (l : List (Est n)) (h : ltvSetStates rows l = .ok rows') :
    ltvGetStates n rows' = .ok (l.take rows.length) ∧ rows'.length = rows.length ∧
    ∀ (k : ℕ) (row row' : List ℝ), rows[k]? = some row → rows'[k]? = some row' →
      row'.length = row.length ∧ ∀ i, n + n * n ≤ i → row'[i]? = row[i]? := by
  have hlen := ((C44_set_states_succeeds_iff rows l).mp ⟨_, h⟩).1
  unfold ltvSetStates at h
  obtain ⟨h1, h2⟩ := mapM_ok_iff.mp h
  have h1' : rows'.length = rows.length := by simpa using h1
  have key : ∀ (k : ℕ) (row : List ℝ), rows[k]? = some row → ∃ row' s, rows'[k]? = some row' ∧ l[k]? = some s ∧
      ltvWriteRow s row = .ok row' := by
    intro k row hk
    obtain ⟨y, hy1, hy2⟩ := h2 k (row, k) (by simp [List.getElem?_zipIdx, hk])
    obtain ⟨s, hs, hw⟩ := bind_eq_ok.mp hy2
    exact ⟨y, s, hy1, getIdx_ok.mp hs, hw⟩
  refine ⟨?_, h1', fun k row row' hk hk' => ?_⟩
  · rw [C44_get_states]
    refine ⟨by simp; omega, fun k row' hk' => ?_⟩
    have hkl : k < rows.length := by have := lt_of_getElem?_some hk'; omega
    obtain ⟨r, s, a, b, c⟩ := key k rows[k] (by simp [hkl])
    have hr : r = row' := by rw [a] at hk'; simpa using hk'
    subst hr
    exact ⟨s, by rw [List.getElem?_take, if_pos hkl]; exact b, (ltvWriteRow_spec c).1⟩
  · obtain ⟨r, s, a, b, c⟩ := key k row hk
    have hr : r = row' := by rw [a] at hk'; simpa using hk'
    subst hr
    exact (ltvWriteRow_spec c).2

theorem ltvSetStates_ok {rows : List (List ℝ)} {l : List (Est n)} (h1 : l.length = rows.length)
    (h2 : ∀ row ∈ rows, n + n * n ≤ row.length) :
    ∃ rows', ltvSetStates rows l = .ok rows' ∧ ltvGetStates n rows' = .ok l ∧ rows'.length = rows.length ∧
      ∀ (k : ℕ) (row row' : List ℝ), rows[k]? = some row → rows'[k]? = some row' →
        row'.length = row.length ∧ ∀ i, n + n * n ≤ i → row'[i]? = row[i]? := by
  obtain ⟨rows', h⟩ := (C44_set_states_succeeds_iff rows l).mpr ⟨by omega, h2⟩
  obtain ⟨a, b, c⟩ := C44_set_get rows rows' l h
  exact ⟨rows', h, by rw [a, ← h1, List.take_length], b, c⟩

theorem getStates_rows {rows : List (List ℝ)} {l : List (Est n)} (h : ltvGetStates n rows = .ok l) :
    l.length = rows.length ∧ ∀ row ∈ rows, n + n * n ≤ row.length := by
  obtain ⟨h1, h2⟩ := (C44_get_states rows l).mp h
  refine ⟨h1, fun row hrow => ?_⟩
  obtain ⟨k, hk, rfl⟩ := List.getElem_of_mem hrow
  obtain ⟨s, -, hs⟩ := h2 k _ (List.getElem?_eq_getElem hk)
  exact stores_length hs

/-- **C44** The initial particles all store the initial mean and covariance, nothing else. -/
theorem C44_initial (M : Ltv n m U T Y) (N : ℕ) :
    ltvGetStates n (M.initial N) = .ok (List.replicate N (M.z0, M.P0)) ∧ (M.initial N).length = N ∧
    ∀ row ∈ M.initial N, row.length = n + n * n := by
  refine ⟨?_, by simp [Ltv.initial], ?_⟩
  · rw [C44_get_states]
    refine ⟨by simp [Ltv.initial], fun k row hk => ?_⟩
    rw [Ltv.initial, List.getElem?_replicate] at hk
    split at hk
    · rename_i hlt
      refine ⟨(M.z0, M.P0), by rw [List.getElem?_replicate, if_pos hlt], ?_⟩
      have : row = packEst (M.z0, M.P0) ++ [] := by simpa using hk.symm
      rw [this]; exact packEst_stores _ _
    · cases hk
  · intro row hrow
    rw [Ltv.initial, List.mem_replicate] at hrow
    rw [hrow.2, packEst_length]

theorem mapM_error_of {α β : Type} {f : α → PyM β} {e : PyErr} {l : List α} (h : ∀ x ∈ l, f x = .error e ∨ ∃ y, f x = .ok y)
    (h' : ¬ ∀ x ∈ l, ∃ y, f x = .ok y) : l.mapM f = .error e := by
  induction l with
  | nil => simp at h'
  | cons a l ih =>
    rw [List.mapM_cons]
    rcases h a List.mem_cons_self with ha | ⟨y, ha⟩
    · rw [ha]; rfl
    · rw [ha, ok_bind, ih fun x hx => h x (List.mem_cons_of_mem _ hx)]
      · rfl
      · intro hall
        refine h' fun x hx => ?_
        rcases List.mem_cons.1 hx with rfl | hx
        · exact ⟨y, ha⟩
        · exact hall x hx

theorem mapM_ok_map {α β : Type} {f : α → PyM β} {g : α → β} {l : List α} (h : ∀ x ∈ l, f x = .ok (g x)) :
    l.mapM f = .ok (l.map g) := by
  induction l with
  | nil => rfl
  | cons a l ih =>
    rw [List.mapM_cons, h a (List.mem_cons_self), ok_bind, ih fun x hx => h x (List.mem_cons_of_mem _ hx)]; rfl

/-- **C44** `update` predicts every particle with its own statistics and the dynamics in force (given now, or else most recently), and
keeps everything else in the particle. -/
theorem C44_update (M : Ltv n m U T Y) (kf : KF n m) (rows : List (List ℝ)) (u : U) (t : T) (l : List (Est n))
    (hl : ltvGetStates n rows = .ok l) (A Q : Matrix (Fin n) (Fin n) ℝ) (f : Fin n → ℝ)
    (hA : (M.predDyn u t).1.or kf.A = some A) (hf : (M.predDyn u t).2.1.or kf.fk = some f)
    (hQ : (M.predDyn u t).2.2.or kf.Q = some Q) :
    ∃ kf' rows', M.update kf rows u t = .ok (kf', rows') ∧ rows'.length = rows.length ∧
      ltvGetStates n rows' = .ok (l.map fun s => (A *ᵥ s.1 + f, A * s.2 * Aᵀ + Q)) ∧
      (kf'.A = some A ∧ kf'.fk = some f ∧ kf'.Q = some Q ∧ kf'.C = kf.C ∧ kf'.R = kf.R ∧ kf'.hk = kf.hk) ∧
      ∀ (k : ℕ) (row row' : List ℝ), rows[k]? = some row → rows'[k]? = some row' →
        row'.length = row.length ∧ ∀ i, n + n * n ≤ i → row'[i]? = row[i]? := by
  obtain ⟨e1, e2, e3, e4, e5, e6⟩ :=
    setDynamics_fields kf (M.predDyn u t).1 none (M.predDyn u t).2.2 none (M.predDyn u t).2.1 none
  rw [hA] at e1; rw [hQ] at e3; rw [hf] at e5
  obtain ⟨hlen, hroom⟩ := getStates_rows hl
  obtain ⟨rows', w1, w2, w3, w4⟩ := ltvSetStates_ok (rows := rows)
    (l := l.map fun s => ((A *ᵥ s.1 + f, A * s.2 * Aᵀ + Q) : Est n)) (by simpa using hlen) hroom
  refine ⟨_, rows', ?_, w3, w2, ⟨e1, e5, e3, by simpa using e2, by simpa using e4, by simpa using e6⟩, w4⟩
  unfold Ltv.update
  rw [hl, ok_bind]
  simp only []
  rw [mapM_ok_map (g := fun s : Est n => ((A *ᵥ s.1 + f, A * s.2 * Aᵀ + Q) : Est n)), ok_bind, w1, ok_bind]
  · rfl
  · intro s _
    simp only [KF.predict, e1, e3, e5, predictFull, add_comm]

/-- **C44** `measure` conditions every particle on the measurement, using its own statistics and the measurement equation in force, and
returns the log-likelihood of the measurement for every particle. -/
theorem C44_measure (M : Ltv n m U T Y) (kf : KF n m) (rows : List (List ℝ)) (y : Y) (t : T) (l : List (Est n))
    (hl : ltvGetStates n rows = .ok l) (C : Matrix (Fin m) (Fin n) ℝ) (h : Option (Fin m → ℝ)) (R : Matrix (Fin m) (Fin m) ℝ)
    (hC : (M.measDyn y t).2.1.or kf.C = some C) (hh : (M.measDyn y t).2.2.1.or kf.hk = h)
    (hR : (M.measDyn y t).2.2.2.or kf.R = some R) (hRpos : R.PosDef) (hP : ∀ s ∈ l, s.2.PosSemidef) :
    ∃ kf' rows', M.measure kf rows y t = .ok (kf', rows',
        l.map fun s => Spec.logNormal (C * s.2 * Cᵀ + R) ((M.measDyn y t).1 - C *ᵥ s.1 - Spec.offset h)) ∧ rows'.length = rows.length ∧
      ltvGetStates n rows' = .ok (l.map fun s =>
        (s.1 + (s.2 * Cᵀ * (C * s.2 * Cᵀ + R)⁻¹) *ᵥ ((M.measDyn y t).1 - C *ᵥ s.1 - Spec.offset h),
          s.2 - s.2 * Cᵀ * (C * s.2 * Cᵀ + R)⁻¹ * (C * s.2))) ∧
      (kf'.C = some C ∧ kf'.hk = h ∧ kf'.R = some R ∧ kf'.A = kf.A ∧ kf'.fk = kf.fk ∧ kf'.Q = kf.Q) ∧
      ∀ (k : ℕ) (row row' : List ℝ), rows[k]? = some row → rows'[k]? = some row' →
        row'.length = row.length ∧ ∀ i, n + n * n ≤ i → row'[i]? = row[i]? := by
  obtain ⟨e1, e2, e3, e4, e5, e6⟩ :=
    setDynamics_fields kf none (M.measDyn y t).2.1 none (M.measDyn y t).2.2.2 none (M.measDyn y t).2.2.1
  rw [hC] at e2; rw [hR] at e4; rw [hh] at e6
  obtain ⟨hlen, hroom⟩ := getStates_rows hl
  obtain ⟨rows', w1, w2, w3, w4⟩ := ltvSetStates_ok (rows := rows)
    (l := l.map fun s => ((s.1 + (s.2 * Cᵀ * (C * s.2 * Cᵀ + R)⁻¹) *ᵥ ((M.measDyn y t).1 - C *ᵥ s.1 - Spec.offset h),
          s.2 - s.2 * Cᵀ * (C * s.2 * Cᵀ + R)⁻¹ * (C * s.2)) : Est n)) (by simpa using hlen) hroom
  refine ⟨_, rows', ?_, w3, w2, ⟨e2, e6, e4, by simpa using e1, by simpa using e5, by simpa using e3⟩, w4⟩
  unfold Ltv.measure
  rw [hl, ok_bind]
  simp only []
  rw [mapM_ok_map (g := fun s : Est n => (s.1 + (s.2 * Cᵀ * (C * s.2 * Cᵀ + R)⁻¹) *ᵥ ((M.measDyn y t).1 - C *ᵥ s.1 - Spec.offset h),
          s.2 - s.2 * Cᵀ * (C * s.2 * Cᵀ + R)⁻¹ * (C * s.2),
          Spec.logNormal (C * s.2 * Cᵀ + R) ((M.measDyn y t).1 - C *ᵥ s.1 - Spec.offset h))), ok_bind, List.map_map, List.map_map]
  · rw [show ((fun r : (Fin n → ℝ) × Matrix (Fin n) (Fin n) ℝ × ℝ => (r.1, r.2.1)) ∘ fun s : Est n =>
          (s.1 + (s.2 * Cᵀ * (C * s.2 * Cᵀ + R)⁻¹) *ᵥ ((M.measDyn y t).1 - C *ᵥ s.1 - Spec.offset h),
          s.2 - s.2 * Cᵀ * (C * s.2 * Cᵀ + R)⁻¹ * (C * s.2),
          Spec.logNormal (C * s.2 * Cᵀ + R) ((M.measDyn y t).1 - C *ᵥ s.1 - Spec.offset h))) = fun s : Est n =>
          ((s.1 + (s.2 * Cᵀ * (C * s.2 * Cᵀ + R)⁻¹) *ᵥ ((M.measDyn y t).1 - C *ᵥ s.1 - Spec.offset h),
          s.2 - s.2 * Cᵀ * (C * s.2 * Cᵀ + R)⁻¹ * (C * s.2)) : Est n) from rfl, w1, ok_bind]
    rfl
  · intro s hs
    have hPs := hP s hs
    have hS : (C * s.2 * Cᵀ + R).PosDef := Matrix.PosDef.posSemidef_add (posSemidef_conj hPs C) hRpos
    simp only [KF.measure, e2, e4, e6]
    rw [measureFull_eq (PosSemidef.isSymm' hPs) (PosSemidef.isSymm' hRpos.posSemidef) hS]

/-- A row with room for one extra number. -/
example : Spec.Stores (n := 1) [2, 3, 4] (fun _ => 2, fun _ _ => 3) := by
  refine ⟨fun i => ?_, fun i j => ?_⟩
  · fin_cases i; rfl
  · fin_cases i; fin_cases j; rfl

end PyPE

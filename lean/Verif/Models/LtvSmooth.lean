import Verif.Models.LtvStore

/-!
# C45: smoothing with an LTV model
-/

namespace PyPE
open Matrix

variable {n m : ℕ} {U T Y : Type}

/-- The row is `[z | P | M]` and nothing else. -/
def Spec.StoresSmooth (row : List ℝ) (s : Est n) (Ms : Matrix (Fin n) (Fin n) ℝ) : Prop :=
  Spec.Stores row s ∧ row.length = n + 2 * n ^ 2 ∧ ∀ i j : Fin n, row[n + n * n + n * i + j]? = some (Ms i j)

theorem packSmooth_stores (s : Est n) (Ms : Matrix (Fin n) (Fin n) ℝ) : Spec.StoresSmooth (packSmooth s Ms) s Ms := by
  refine ⟨packEst_stores _ _, by simp [packSmooth, packEst]; ring, fun i j => ?_⟩
  have h := rowMajor_lt i j
  rw [packSmooth, List.getElem?_append_right (by rw [packEst_length]; omega)]
  have : n + n * n + n * (i : ℕ) + j - (packEst s).length = n * i + j := by rw [packEst_length]; omega
  rw [this, List.getElem?_ofFn]
  simp only [h, dite_true]
  rw [ravel_rowMajor]

theorem setDynamics_idem (kf : KF n m) (A C Q R f h) :
    (kf.setDynamics A C Q R f h).setDynamics A C Q R f h = kf.setDynamics A C Q R f h := by
  cases A <;> cases C <;> cases Q <;> cases R <;> cases f <;> cases h <;> rfl

theorem smoothLoop_none (M : Ltv n m U T Y) (l : List (Est n)) (ut : List U) (tt : List T) (kf : KF n m) (k j : ℕ)
    (hk : j + k ≤ l.length) :
    M.smoothLoop l none ut tt kf j k = .ok (kf, ((l.drop j).take k).map fun s => packSmooth s 0) := by
  induction k generalizing j with
  | zero => simp [Ltv.smoothLoop]
  | succ k ih =>
    have hj : j < l.length := by omega
    have hd : l.drop j = l[j] :: l.drop (j + 1) := List.drop_eq_getElem_cons hj
    simp only [Ltv.smoothLoop, Ltv.smoothIter, getIdx_of_lt hj, ok_bind, pure_eq_ok, ih (j + 1) (by omega), hd,
      List.take_succ_cons, List.map_cons]

/-- **C45** `logp_xnext` ignores its arguments: all particles are equally likely ancestors of every future state. -/
theorem C45_logp_xnext (rows : List (List ℝ)) : (ltvLogpXnext rows).length = rows.length ∧ ∀ i : ℕ, i < rows.length → (ltvLogpXnext rows)[i]? = some 0 := by
  unfold ltvLogpXnext
  exact ⟨by simp, fun i hi => by simp [hi]⟩

/-- **C45** At the last time step (no future) the smoothed particles are the filtered ones, with a zero block appended. -/
theorem C45_last_step (M : Ltv n m U T Y) (kf : KF n m) (rows : List (List ℝ)) (ut : List U) (tt : List T) (l : List (Est n))
    (hl : ltvGetStates n rows = .ok l) :
    ∃ res, M.sampleSmooth kf rows none ut tt = .ok (kf, res) ∧ res.length = rows.length ∧
      ∀ (j : ℕ) (s : Est n), l[j]? = some s → ∃ row, res[j]? = some row ∧ Spec.StoresSmooth row s 0 := by
  obtain ⟨hlen, -⟩ := getStates_rows hl
  refine ⟨l.map fun s => packSmooth s 0, ?_, by simpa using hlen, fun j s hs => ⟨packSmooth s 0, by simp [hs], packSmooth_stores _ _⟩⟩
  unfold Ltv.sampleSmooth
  rw [hl, ok_bind, smoothLoop_none _ _ _ _ _ _ _ (by omega)]
  simp [← hlen]

theorem smoothLoop_some (M : Ltv n m U T Y) (l : List (Est n)) (u : U) (ut : List U) (t : T) (tt : List T) (kf : KF n m)
    (fut : List (List ℝ)) (fl : List (Est n)) (hfut : ltvGetStates n fut = .ok fl) (s0 : Est n) (hs0 : l[0]? = some s0)
    (kf' : KF n m) (hkf' : kf' = kf.setDynamics (M.predDyn u t).1 none (M.predDyn u t).2.2 none (M.predDyn u t).2.1 none)
    (k j : ℕ) (hk : j + k ≤ fut.length) (out : ℕ → Est n × Matrix (Fin n) (Fin n) ℝ)
    (hout : ∀ i sn, j ≤ i → i < j + k → fl[i]? = some sn → kf'.smoothOwn s0 sn = .ok (out i)) (kf0 : KF n m)
    (hkf0 : kf0 = kf ∨ kf0 = kf') :
    ∃ kf1, (k = 0 ∨ kf1 = kf') ∧ M.smoothLoop l (some fut) (u :: ut) (t :: tt) kf0 j k =
      .ok (kf1, (List.range' j k).map fun i => packSmooth (out i).1 (out i).2) := by
  induction k generalizing j kf0 with
  | zero => exact ⟨kf0, .inl rfl, by simp [Ltv.smoothLoop]⟩
  | succ k ih =>
    have hj : j < fut.length := by omega
    obtain ⟨g1, g2⟩ := (C44_get_states fut fl).mp hfut
    obtain ⟨sn, hsn1, hsn2⟩ := g2 j _ (List.getElem?_eq_getElem hj)
    have hset : kf0.setDynamics (M.predDyn u t).1 none (M.predDyn u t).2.2 none (M.predDyn u t).2.1 none = kf' := by
      rcases hkf0 with rfl | rfl
      · exact hkf'.symm
      · rw [hkf', setDynamics_idem]
    have hit : M.smoothIter l (some fut) (u :: ut) (t :: tt) kf0 j = .ok (kf', packSmooth (out j).1 (out j).2) := by
      unfold Ltv.smoothIter
      simp only [getIdx_of_lt hj, ok_bind, (C44_read_iff _ _).mpr hsn2, getIdx_ok.mpr hs0, hset,
        hout j sn le_rfl (by omega) hsn1, getIdx_ok.mpr (show (u :: ut)[0]? = some u from rfl),
        getIdx_ok.mpr (show (t :: tt)[0]? = some t from rfl), pure_eq_ok]
    obtain ⟨kf1, h1, h2⟩ := ih (j + 1) (by omega) (fun i sn hi hi' h => hout i sn (by omega) (by omega) h) kf' (.inr rfl)
    refine ⟨kf', .inr rfl, ?_⟩
    rw [Ltv.smoothLoop, hit, ok_bind]
    simp only []
    rw [h2, ok_bind, pure_eq_ok, List.range'_succ, List.map_cons]
    congr 2
    rcases h1 with rfl | h1
    · simpa [Ltv.smoothLoop] using h2.symm
    · exact h1

/-- **C45** Before the last time step, *every* trajectory `j` is smoothed from the statistics of particle **0**, with the dynamics given
for the input and time stamp at index **0**, and the next smoothed estimate of trajectory `j`: the exact result of the code. -/
theorem C45_uses_index_zero (M : Ltv n m U T Y) (kf : KF n m) (rows fut : List (List ℝ)) (u : U) (ut : List U) (t : T) (tt : List T)
    (l fl : List (Est n)) (hl : ltvGetStates n rows = .ok l) (hfl : ltvGetStates n fut = .ok fl) (hM : fut.length = rows.length)
    (s0 : Est n) (hs0 : l[0]? = some s0) (A Q : Matrix (Fin n) (Fin n) ℝ) (f : Fin n → ℝ)
    (hA : (M.predDyn u t).1.or kf.A = some A) (hf : (M.predDyn u t).2.1.or kf.fk = some f)
    (hQ : (M.predDyn u t).2.2.or kf.Q = some Q) (hdet : (A * s0.2 * Aᵀ + Q).det ≠ 0) :
    ∃ kf' res, M.sampleSmooth kf rows (some fut) (u :: ut) (t :: tt) = .ok (kf', res) ∧ res.length = rows.length ∧
      ∀ (j : ℕ) (sn : Est n), fl[j]? = some sn → ∃ row zs Ps Ms, res[j]? = some row ∧
        kalmanSmooth s0.1 s0.2 sn.1 sn.2 A f Q = .ok (zs, Ps, Ms) ∧ Spec.StoresSmooth row (zs, Ps) Ms := by
  obtain ⟨hlen, -⟩ := getStates_rows hl
  obtain ⟨hflen, -⟩ := getStates_rows hfl
  set kf' := kf.setDynamics (M.predDyn u t).1 none (M.predDyn u t).2.2 none (M.predDyn u t).2.1 none with hkf'
  obtain ⟨e1, -, e3, -, e5, -⟩ :=
    setDynamics_fields kf (M.predDyn u t).1 none (M.predDyn u t).2.2 none (M.predDyn u t).2.1 none
  rw [hA] at e1; rw [hQ] at e3; rw [hf] at e5
  have hsm : ∀ sn : Est n, ∃ r, kalmanSmooth s0.1 s0.2 sn.1 sn.2 A f Q = .ok r := fun sn =>
    ⟨_, kalmanSmooth_ok (by simpa [predictFull] using hdet)⟩
  choose g hg using hsm
  let out : ℕ → Est n × Matrix (Fin n) (Fin n) ℝ := fun i => (((g (fl.getD i default)).1, (g (fl.getD i default)).2.1),
    (g (fl.getD i default)).2.2)
  have hout : ∀ i sn, fl[i]? = some sn → kf'.smoothOwn s0 sn = .ok (out i) := by
    intro i sn hsn
    have : fl.getD i default = sn := by simp [List.getD_eq_getElem?_getD, hsn]
    simp only [KF.smoothOwn, hkf', e1, e3, e5, hg sn, ok_bind, out, this]; rfl
  obtain ⟨kf1, -, hloop⟩ := smoothLoop_some M l u ut t tt kf fut fl hfl s0 hs0 kf' hkf' rows.length 0 (by omega) out
    (fun i sn _ _ h => hout i sn h) kf (.inl rfl)
  refine ⟨kf1, (List.range' 0 rows.length).map fun i => packSmooth (out i).1 (out i).2, ?_, ?_, fun j sn hsn => ?_⟩
  · unfold Ltv.sampleSmooth
    rw [hl, ok_bind, hloop]
  · simp
  · have hj : j < rows.length := by have := lt_of_getElem?_some hsn; omega
    have : fl.getD j default = sn := by simp [List.getD_eq_getElem?_getD, hsn]
    refine ⟨packSmooth (out j).1 (out j).2, (g sn).1, (g sn).2.1, (g sn).2.2, by simp [hj], hg sn, ?_⟩
    have := packSmooth_stores (out j).1 (out j).2
    simp only [out, ‹fl.getD j default = sn›] at this ⊢
    exact this

/-- **C45** The step is the right one for time `k` if the dynamics at index `0` are those at index `k` (for instance for
time-invariant systems) and all particles carry the same statistics (which is always so, see C66). -/
theorem C45_right_if_time_invariant (M : Ltv n m U T Y) (kf : KF n m) (N : ℕ) (rows fut : List (List ℝ)) (ut : List U)
    (tt : List T) (s : Est n) (fl : List (Est n)) (hN : 0 < N) (hl : ltvGetStates n rows = .ok (List.replicate N s))
    (hfl : ltvGetStates n fut = .ok fl) (hM : fut.length = rows.length) (k : ℕ) (u : U) (t : T) (hu : ut[k]? = some u)
    (ht : tt[k]? = some t) (hinv : ∀ u' ∈ ut, ∀ t' ∈ tt, M.predDyn u' t' = M.predDyn u t)
    (A Q : Matrix (Fin n) (Fin n) ℝ) (f : Fin n → ℝ)
    (hA : (M.predDyn u t).1.or kf.A = some A) (hf : (M.predDyn u t).2.1.or kf.fk = some f)
    (hQ : (M.predDyn u t).2.2.or kf.Q = some Q) (hdet : (A * s.2 * Aᵀ + Q).det ≠ 0) :
    ∃ kf' res, M.sampleSmooth kf rows (some fut) ut tt = .ok (kf', res) ∧ res.length = rows.length ∧
      ∀ (j : ℕ) (sn : Est n), fl[j]? = some sn → ∃ row zs Ps Ms, res[j]? = some row ∧
        kalmanSmooth s.1 s.2 sn.1 sn.2 A f Q = .ok (zs, Ps, Ms) ∧ Spec.StoresSmooth row (zs, Ps) Ms := by
  cases ut with
  | nil => simp at hu
  | cons u0 ut =>
    cases tt with
    | nil => simp at ht
    | cons t0 tt =>
      have h := hinv u0 (by simp) t0 (by simp)
      exact C45_uses_index_zero M kf rows fut u0 ut t0 tt _ fl hl hfl hM s (by simp [hN]) A Q f (by rw [h, hA])
        (by rw [h, hf]) (by rw [h, hQ]) hdet

/-- A time-varying system: `z ↦ (t + 1) z + v`, `v ~ N(0, 1)`. -/
def growing : Ltv 1 1 Unit ℕ Unit where
  z0 := 0
  P0 := 1
  predDyn _ t := (some !![(t : ℝ) + 1], none, none)
  measDyn _ _ := (0, none, none, none)

/-- **C45** (Defect) For a time-varying system smoothing at time 1 uses the dynamics of time 0: here the code returns the
mean `1/2` for the state at time 1, while the smoothing step with the dynamics of time 1 gives `2/5`. -/
theorem C45_wrong_if_time_varying :
    let kf := ltvInitKf (n := 1) (m := 1) none none (some 1) none none none
    let s : Est 1 := (fun _ => 0, !![1])
    let sn : Est 1 := (fun _ => 1, !![1])
    (∃ kf' row, ∃ (zs : Fin 1 → ℝ) (Ps Ms : Matrix (Fin 1) (Fin 1) ℝ), growing.sampleSmooth kf [packEst s] (some [packEst sn]) [(), ()] [0, 1] = .ok (kf', [row]) ∧
      Spec.StoresSmooth row (zs, Ps) Ms ∧ zs = (fun _ => 1 / 2)) ∧
    ∃ A f Q zs Ps Ms, (growing.predDyn () 1).1.or kf.A = some A ∧ (growing.predDyn () 1).2.1.or kf.fk = some f ∧
      (growing.predDyn () 1).2.2.or kf.Q = some Q ∧ kalmanSmooth s.1 s.2 sn.1 sn.2 A f Q = .ok (zs, Ps, Ms) ∧
      zs = (fun _ => 2 / 5) := by
  intro kf s sn
  have hst : ∀ s : Est 1, ltvGetStates 1 [packEst s] = .ok [s] := fun s => by
    rw [C44_get_states]
    refine ⟨rfl, fun k row hk => ?_⟩
    cases k with
    | zero => exact ⟨s, rfl, by cases hk; simpa using packEst_stores s []⟩
    | succ k => simp at hk
  constructor
  · obtain ⟨kf', res, h1, h2, h3⟩ := C45_uses_index_zero growing kf [packEst s] [packEst sn] () [()] 0 [1] [s] [sn] (hst s) (hst sn) rfl
      s rfl !![((0 : ℕ) : ℝ) + 1] 1 (0 : Fin 1 → ℝ) rfl rfl rfl (by simp [s, Matrix.mul_apply, Matrix.det_fin_one, Matrix.vecMul, dotProduct])
    obtain ⟨row, zs, Ps, Ms, e1, e2, e3⟩ := h3 0 sn rfl
    obtain ⟨r, rfl⟩ := List.length_eq_one_iff.mp h2
    have hr : r = row := by simpa using e1
    subst hr
    refine ⟨kf', r, zs, Ps, Ms, h1, e3, ?_⟩
    rw [kalmanSmooth_ok (A := !![((0 : ℕ) : ℝ) + 1]) (P := s.2) (Q := 1) (by simp [s, Matrix.mul_apply, Matrix.det_fin_one, Matrix.vecMul, dotProduct])] at e2
    have := (Prod.mk.inj (Except.ok.inj e2)).1
    rw [← this]
    funext i; fin_cases i
    simp [s, sn, Matrix.mul_apply, Matrix.mulVec, dotProduct, Matrix.inv_def, Matrix.det_fin_one, Matrix.adjugate_fin_one,
      Ring.inverse_eq_inv', Matrix.vecMul, Matrix.vecHead]
    norm_num
  · refine ⟨!![((1 : ℕ) : ℝ) + 1], (0 : Fin 1 → ℝ), 1, _, _, _, rfl, rfl, rfl,
      kalmanSmooth_ok (by simp [s, Matrix.mul_apply, Matrix.det_fin_one, Matrix.vecMul, dotProduct]; norm_num), ?_⟩
    funext i; fin_cases i
    simp [s, sn, Matrix.mul_apply, Matrix.mulVec, dotProduct, Matrix.inv_def, Matrix.det_fin_one, Matrix.adjugate_fin_one,
      Ring.inverse_eq_inv', Matrix.vecMul, Matrix.vecHead]
    norm_num

end PyPE

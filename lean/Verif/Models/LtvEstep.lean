import Verif.Models.LtvRun
import Verif.Models.LtvSmooth
import Verif.Kalman.Em

/-!
# Filtering and smoothing of a whole record with an LTV model (C115)
-/

namespace PyPE
open Matrix MeasureTheory
open scoped ENNReal

variable {n m : ℕ} {U T : Type}

/-! ## Specification -/

/-- The measurement at time `j`, if there is one. -/
def Spec.LtvSys.seenAt (D : Spec.LtvSys n m U T) (y : ℕ → Option (Fin m → ℝ)) (tm : ℕ → T) (j : ℕ) : List (Spec.DataOp n) :=
  match y j with
  | none => []
  | some v => [.meas m (D.C (tm j)) (D.h (tm j)) (D.R (tm j)) v]

/-- What happens in the `k` steps after time `j`: a move, then the measurement of the next time if there is one. -/
def Spec.LtvSys.record (D : Spec.LtvSys n m U T) (u : ℕ → U) (y : ℕ → Option (Fin m → ℝ)) (tm : ℕ → T) : ℕ → ℕ → List (Spec.DataOp n)
  | _, 0 => []
  | j, k + 1 => .move (D.A (u j) (tm j)) (D.f (u j) (tm j)) (D.Q (u j) (tm j)) :: (D.seenAt y tm (j + 1) ++ D.record u y tm (j + 1) k)

/-! ## The code -/

/-- The measurement at time 0; without one the filter is started without calling `measure` (simulator.py:100-102). -/
noncomputable def ltvObserve (M : Ltv n m U T (Fin m → ℝ)) (kf : KF n m) (rows : List (List ℝ)) (y : Option (Fin m → ℝ)) (t : T) :
    PyM (KF n m × List (List ℝ) × List ℝ) :=
  match y with
  | none => .ok (kf, rows, List.replicate rows.length 0)
  | some v => M.measure kf rows v t

/-- The part of a later filter step that uses the measurement. There `measure` is always called (the test `yvec is not None` of filter.py:90 is about the
whole vector of measurements), so a missing measurement is passed on and `kf.measure` fails on `y - …` (ltv.py:201-211, kalman.py:155).
Simplification: with no particles at all the code would not fail. -/
noncomputable def ltvObserveNext (M : Ltv n m U T (Fin m → ℝ)) (kf : KF n m) (rows : List (List ℝ)) (y : Option (Fin m → ℝ)) (t : T) :
    PyM (KF n m × List (List ℝ) × List ℝ) :=
  match y with
  | none => .error .typeError
  | some v => M.measure kf rows v t

/-- The filter from time `j` on, `k` steps: `update` with the input and time stamp of the step, then the measurement of the next time; the particle
arrays of all times are kept (filter.py:57-94). The values `measure` returns are added up. Simplification: no resampling; C121 (Models/LtvSim.lean,
ltv_run) proves that the run of the filter with weights and resampling stores the same values. -/
noncomputable def ltvFilter (M : Ltv n m U T (Fin m → ℝ)) (u : ℕ → U) (y : ℕ → Option (Fin m → ℝ)) (tm : ℕ → T) :
    KF n m → List (List ℝ) → List ℝ → ℕ → ℕ → PyM (KF n m × List (List (List ℝ)) × List ℝ)
  | kf, rows, ll, _, 0 => .ok (kf, [rows], ll)
  | kf, rows, ll, j, k + 1 => do
    let (kf, next) ← M.update kf rows (u j) (tm j)
    let (kf, next, dl) ← ltvObserveNext M kf next (y (j + 1)) (tm (j + 1))
    let (kf, later, ll) ← ltvFilter M u y tm kf next (List.zipWith (· + ·) ll dl) (j + 1) k
    return (kf, rows :: later, ll)

/-- The whole filter: `N` initial particles, the measurement at time 0 if there is one, then `K` steps. -/
noncomputable def ltvFilterAll (M : Ltv n m U T (Fin m → ℝ)) (kf : KF n m) (N : ℕ) (u : ℕ → U) (y : ℕ → Option (Fin m → ℝ)) (tm : ℕ → T) (K : ℕ) :
    PyM (KF n m × List (List (List ℝ)) × List ℝ) := do
  let (kf, rows, ll) ← ltvObserve M kf (M.initial N) (y 0) (tm 0)
  ltvFilter M u y tm kf rows ll 0 K

/-- The backward pass of the smoothers over the particles `picked` at every time, one per trajectory (smoother.py:270-301 for `'ancestor'`,
:332-414 for the backward simulators): `sample_smooth` for the last time, then back to the first with the trajectories so far; the
whole records of inputs and time stamps are passed on. -/
noncomputable def ltvBackward (M : Ltv n m U T (Fin m → ℝ)) (ut : List U) (tt : List T) :
    KF n m → List (List (List ℝ)) → PyM (KF n m × List (List (List ℝ)))
  | kf, [] => .ok (kf, [])
  | kf, part :: later => do
    let (kf, fut) ← ltvBackward M ut tt kf later
    let (kf, res) ← M.sampleSmooth kf part fut.head? ut tt
    return (kf, res :: fut)

/-! ## One step -/

theorem ltv_update_step {M : Ltv n m U T (Fin m → ℝ)} {kf kf' : KF n m} {D : Spec.LtvSys n m U T} (hD : Spec.Describes M kf D)
    (h5 : Kept M kf kf') {N : ℕ} {rows : List (List ℝ)} {z : Fin n → ℝ} {P : Matrix (Fin n) (Fin n) ℝ}
    (h4 : ltvGetStates n rows = .ok (List.replicate N (z, P))) (u : U) (t : T) :
    ∃ kf'' rows', M.update kf' rows u t = .ok (kf'', rows') ∧ Kept M kf kf'' ∧
      ltvGetStates n rows' = .ok (List.replicate N (predictFull z P (D.A u t) (D.f u t) (D.Q u t))) := by
  obtain ⟨kf'', rows', e1, e2, e3, ⟨a1, a2, a3, a4, a5, a6⟩, -⟩ := C44_update M kf' rows u t _ h4 (D.A u t) (D.Q u t) (D.f u t)
    (given_or hD.A h5.A (u, t)) (given_or hD.f h5.f (u, t)) (given_or hD.Q h5.Q (u, t))
  refine ⟨kf'', rows', e1, ⟨?_, ?_, ?_, ?_, ?_, ?_⟩, ?_⟩
  · rw [a1, ← given_or hD.A h5.A (u, t)]; exact keptBy_or h5.A (u, t)
  · rw [a2, ← given_or hD.f h5.f (u, t)]; exact keptBy_or h5.f (u, t)
  · rw [a3, ← given_or hD.Q h5.Q (u, t)]; exact keptBy_or h5.Q (u, t)
  · rw [a4]; exact h5.C
  · rw [a6]; exact h5.h
  · rw [a5]; exact h5.R
  · rw [e3, List.map_replicate, add_comm]; rfl

theorem ltv_measure_step {M : Ltv n m U T (Fin m → ℝ)} {kf kf' : KF n m} {D : Spec.LtvSys n m U T} (hD : Spec.Describes M kf D)
    (h5 : Kept M kf kf') {N : ℕ} {rows : List (List ℝ)} {z : Fin n → ℝ} {P : Matrix (Fin n) (Fin n) ℝ} (h2 : P.PosSemidef)
    (h4 : ltvGetStates n rows = .ok (List.replicate N (z, P))) (y : Fin m → ℝ) (t : T) (hR : (D.R t).PosDef) :
    ∃ kf'' rows' z' P' dl, M.measure kf' rows y t = .ok (kf'', rows', List.replicate N dl) ∧ Kept M kf kf'' ∧ P'.PosSemidef ∧
      measureFull y z P (some (D.C t)) (some (D.h t)) (D.R t) = .ok (z', P', dl) ∧
      ltvGetStates n rows' = .ok (List.replicate N (z', P')) := by
  have hoff : Spec.offset ((M.measDyn y t).2.2.1.or kf'.hk) = D.h t := by
    rcases hD.h with hh | ⟨hh1, hh2, hh3⟩
    · rw [given_or hh h5.h (y, t)]; rfl
    · rw [hh1 (y, t), Option.none_or, h5.h hh1, hh2, hh3]; rfl
  obtain ⟨kf'', rows', e1, e2, e3, ⟨a1, a2, a3, a4, a5, a6⟩, -⟩ := C44_measure M kf' rows y t _ h4 (D.C t) _ (D.R t)
    (given_or hD.C h5.C (y, t)) rfl (given_or hD.R h5.R (y, t)) hR
    (fun s hs => by rw [List.mem_replicate] at hs; rw [hs.2]; exact h2)
  rw [hoff, hD.obs] at e1 e3
  have hS : (D.C t * P * (D.C t)ᵀ + D.R t).PosDef := Matrix.PosDef.posSemidef_add (posSemidef_conj h2 _) hR
  have hK : (P * (D.C t)ᵀ * (D.C t * P * (D.C t)ᵀ + D.R t)⁻¹) * (D.C t * P * (D.C t)ᵀ + D.R t) = P * (D.C t)ᵀ := by
    rw [Matrix.mul_assoc, Matrix.nonsing_inv_mul _ hS.det_pos.ne'.isUnit, Matrix.mul_one]
  refine ⟨kf'', rows', z + (P * (D.C t)ᵀ * (D.C t * P * (D.C t)ᵀ + D.R t)⁻¹) *ᵥ (y - D.C t *ᵥ z - D.h t),
    P - P * (D.C t)ᵀ * (D.C t * P * (D.C t)ᵀ + D.R t)⁻¹ * (D.C t * P),
    Spec.logNormal (D.C t * P * (D.C t)ᵀ + D.R t) (y - D.C t *ᵥ z - D.h t), ?_, ⟨?_, ?_, ?_, ?_, ?_, ?_⟩,
    posterior_posSemidef h2 hR.posSemidef hK, ?_, e3.trans ?_⟩
  · rw [e1, List.map_replicate]
  · rw [a4]; exact h5.A
  · rw [a5]; exact h5.f
  · rw [a6]; exact h5.Q
  · rw [a1, ← given_or hD.C h5.C (y, t)]; exact keptBy_or h5.C (y, t)
  · rw [a2]; exact keptBy_or h5.h (y, t)
  · rw [a3, ← given_or hD.R h5.R (y, t)]; exact keptBy_or h5.R (y, t)
  · rw [measureFull_eq (PosSemidef.isSymm' h2) (PosSemidef.isSymm' hR.posSemidef) hS]; rfl
  · rw [List.map_replicate]

/-- The step of the filter that uses the measurement, if there is one. -/
theorem ltv_observe_step {M : Ltv n m U T (Fin m → ℝ)} {kf kf' : KF n m} {D : Spec.LtvSys n m U T} (hD : Spec.Describes M kf D)
    (h5 : Kept M kf kf') {N : ℕ} {rows : List (List ℝ)} {z : Fin n → ℝ} {P : Matrix (Fin n) (Fin n) ℝ} (h2 : P.PosSemidef)
    (h4 : ltvGetStates n rows = .ok (List.replicate N (z, P))) (y : ℕ → Option (Fin m → ℝ)) (tm : ℕ → T) (hR : ∀ t, (D.R t).PosDef) (j : ℕ) :
    ∃ kf'' rows' z' P' dl, ltvObserve M kf' rows (y j) (tm j) = .ok (kf'', rows', List.replicate N dl) ∧ Kept M kf kf'' ∧ P'.PosSemidef ∧
      kfData z P (D.seenAt y tm j) = .ok (z', P', dl) ∧ (∀ l, rtsData z P (D.seenAt y tm j ++ l) = rtsData z' P' l) ∧
      ltvGetStates n rows' = .ok (List.replicate N (z', P')) := by
  have hlen : rows.length = N := by simpa using (getStates_rows h4).1.symm
  cases hy : y j with
  | none => exact ⟨kf', rows, z, P, 0, by rw [ltvObserve, hlen], h5, h2, by simp [Spec.LtvSys.seenAt, hy, kfData],
      fun l => by simp [Spec.LtvSys.seenAt, hy], h4⟩
  | some v =>
    obtain ⟨kf'', rows', z', P', dl, e1, e2, e3, e4, e5⟩ := ltv_measure_step hD h5 h2 h4 v (tm j) (hR _)
    refine ⟨kf'', rows', z', P', dl, by rw [ltvObserve]; exact e1, e2, e3, ?_, fun l => ?_, e5⟩
    · simp [Spec.LtvSys.seenAt, hy, kfData, e4]
    · simp only [Spec.LtvSys.seenAt, hy, List.singleton_append, rtsData, e4, ok_bind]

theorem ltvObserveNext_eq {M : Ltv n m U T (Fin m → ℝ)} {y : Option (Fin m → ℝ)} (hy : y.isSome) (kf : KF n m) (rows : List (List ℝ)) (t : T) :
    ltvObserveNext M kf rows y t = ltvObserve M kf rows y t := by
  cases y with
  | none => cases hy
  | some v => rfl

/-- One step back: every trajectory gets the exact smoothed statistics if all particles are equal. -/
theorem ltv_smooth_step {M : Ltv n m U T (Fin m → ℝ)} {kf kf' : KF n m} {D : Spec.LtvSys n m U T} (hD : Spec.Describes M kf D)
    (h5 : Kept M kf kf') {N : ℕ} (hN : 0 < N) {rows fut : List (List ℝ)} {s sn : Est n} (hl : ltvGetStates n rows = .ok (List.replicate N s))
    (hfl : ltvGetStates n fut = .ok (List.replicate N sn)) (u : U) (ut : List U) (t : T) (tt : List T)
    (hdet : (D.A u t * s.2 * (D.A u t)ᵀ + D.Q u t).det ≠ 0) {zs Ps Ms}
    (hk : kalmanSmooth s.1 s.2 sn.1 sn.2 (D.A u t) (D.f u t) (D.Q u t) = .ok (zs, Ps, Ms)) :
    ∃ kf'' res, M.sampleSmooth kf' rows (some fut) (u :: ut) (t :: tt) = .ok (kf'', res) ∧ Kept M kf kf'' ∧ res.length = N ∧
      ∀ row ∈ res, Spec.StoresSmooth row (zs, Ps) Ms := by
  have hlen : rows.length = N := by simpa using (getStates_rows hl).1.symm
  have hflen : fut.length = N := by simpa using (getStates_rows hfl).1.symm
  have hA := given_or hD.A h5.A (u, t)
  have hf := given_or hD.f h5.f (u, t)
  have hQ := given_or hD.Q h5.Q (u, t)
  set k1 := kf'.setDynamics (M.predDyn u t).1 none (M.predDyn u t).2.2 none (M.predDyn u t).2.1 none with hk1
  obtain ⟨e1, e2, e3, e4, e5, e6⟩ :=
    setDynamics_fields kf' (M.predDyn u t).1 none (M.predDyn u t).2.2 none (M.predDyn u t).2.1 none
  have hout : ∀ (i : ℕ) sn', (List.replicate N sn)[i]? = some sn' → k1.smoothOwn s sn' = .ok ((zs, Ps), Ms) := by
    intro i sn' h'
    have : sn' = sn := List.eq_of_mem_replicate (List.mem_of_getElem? h')
    subst this
    rw [hA] at e1; rw [hQ] at e3; rw [hf] at e5
    simp only [KF.smoothOwn, hk1, e1, e3, e5, hk, ok_bind]; rfl
  obtain ⟨kf1, hkf1, hloop⟩ := smoothLoop_some M _ u ut t tt kf' fut _ hfl s (by rw [List.getElem?_replicate, if_pos hN]) k1 hk1 rows.length 0 (by omega)
    (fun _ => ((zs, Ps), Ms)) (fun i sn _ _ h => hout i sn h) kf' (.inl rfl)
  refine ⟨kf1, (List.range' 0 rows.length).map fun i => packSmooth (zs, Ps) Ms, ?_, ?_, by simp [hlen], fun row hrow => ?_⟩
  · unfold Ltv.sampleSmooth
    rw [hl, ok_bind, hloop]
  · rcases hkf1 with h0 | rfl
    · omega
    · refine ⟨?_, ?_, ?_, ?_, ?_, ?_⟩
      · rw [hk1, e1]; exact keptBy_or h5.A (u, t)
      · rw [hk1, e5]; exact keptBy_or h5.f (u, t)
      · rw [hk1, e3]; exact keptBy_or h5.Q (u, t)
      · rw [hk1, e2]; exact h5.C
      · rw [hk1, e6]; exact h5.h
      · rw [hk1, e4]; exact h5.R
  · obtain ⟨i, -, rfl⟩ := List.mem_map.mp hrow
    exact packSmooth_stores _ _

theorem getStates_replicate {N : ℕ} {rows : List (List ℝ)} {s : Est n} (hlen : rows.length = N) (h : ∀ row ∈ rows, Spec.Stores row s) :
    ltvGetStates n rows = .ok (List.replicate N s) := by
  rw [C44_get_states]
  refine ⟨by simp [hlen], fun k row hk => ⟨s, ?_, h row (List.mem_of_getElem? hk)⟩⟩
  have := lt_of_getElem?_some hk
  rw [List.getElem?_replicate, if_pos (by omega)]

theorem stores_of_replicate {N : ℕ} {rows : List (List ℝ)} {s : Est n} (h : ltvGetStates n rows = .ok (List.replicate N s)) :
    ∀ row ∈ rows, Spec.Stores row s := by
  intro row hrow
  obtain ⟨-, g2⟩ := (C44_get_states rows _).mp h
  obtain ⟨k, hk, rfl⟩ := List.getElem_of_mem hrow
  obtain ⟨s', hs1, hs2⟩ := g2 k _ (List.getElem?_eq_getElem hk)
  rwa [List.eq_of_mem_replicate (List.mem_of_getElem? hs1)] at hs2

/-- The joint covariance of the states before and after a move, as the smoother returns it, is valid. -/
theorem smooth_pair_posSemidef {z : Fin n → ℝ} {P A Q : Matrix (Fin n) (Fin n) ℝ} {f : Fin n → ℝ} (hP : P.PosSemidef) (hQ : Q.PosSemidef)
    (hdet : (A * P * Aᵀ + Q).det ≠ 0) {zN : Fin n → ℝ} {PN : Matrix (Fin n) (Fin n) ℝ} (hPN : PN.PosSemidef) {zs Ps Ms}
    (h : kalmanSmooth z P zN PN A f Q = .ok (zs, Ps, Ms)) : (fromBlocks Ps Ms Msᵀ PN).PosSemidef := by
  rw [kalmanSmooth_ok hdet] at h
  cases h
  obtain ⟨S, hS⟩ : ∃ S, S = A * P * Aᵀ + Q := ⟨_, rfl⟩
  obtain ⟨J, hJ⟩ : ∃ J, J = P * (Aᵀ * S⁻¹) := ⟨_, rfl⟩
  rw [← hS] at hdet ⊢
  rw [← hJ]
  have hPs := PosSemidef.isSymm' hP
  have hQs := PosSemidef.isSymm' hQ
  have hSs : S.IsSymm := hS ▸ innovation_isSymm hPs hQs
  have hPNs := PosSemidef.isSymm' hPN
  have hJS : J * S = P * Aᵀ := by
    rw [hJ, Matrix.mul_assoc, Matrix.mul_assoc, Matrix.nonsing_inv_mul _ hdet.isUnit, Matrix.mul_one]
  have hV : (P - J * (A * P)).PosSemidef := posterior_posSemidef hP hQ (hS ▸ hJS)
  have e1 : J * (A * P) = J * S * Jᵀ := by
    have : A * P = S * Jᵀ := by
      have := congrArg transpose hJS
      rw [transpose_mul, transpose_mul, transpose_transpose, hSs.eq, hPs.eq] at this
      exact this.symm
    rw [this, Matrix.mul_assoc]
  have h1 := posSemidef_conj hPN (fromRows J (1 : Matrix (Fin n) (Fin n) ℝ))
  have h2 := posSemidef_conj hV (fromRows (1 : Matrix (Fin n) (Fin n) ℝ) (0 : Matrix (Fin n) (Fin n) ℝ))
  have h3 := h2.add h1
  rw [transpose_fromRows, transpose_fromRows] at h3
  rw [fromRows_mul J 1 PN, fromRows_mul 1 0 (P - J * (A * P)), fromRows_mul_fromCols, fromRows_mul_fromCols, fromBlocks_add] at h3
  convert h3 using 2
  · rw [e1]
    simp only [Matrix.one_mul, transpose_one, Matrix.mul_one, Matrix.mul_sub, Matrix.sub_mul]
    rw [← Matrix.mul_assoc J PN, ← Matrix.mul_assoc J S]
    abel
  · simp
  · simp [transpose_mul, hPNs.eq]
  · simp

end PyPE

import Verif.Models.LtvEmStep

/-!
# The results of an LTV model do not depend on the state of its Kalman filter object (C121)

`set_dynamics` overwrites the matrices of `self.kf` that `get_pred_dynamics` or `get_meas_dynamics` give and leaves the others. A matrix that is given at
every call is never read from an earlier call, one that is never given has its constructor value.
-/

namespace PyPE
open Matrix

variable {n m : ℕ} {U T : Type}

theorem predict_fields {k1 k2 : KF n m} (hA : k1.A = k2.A) (hf : k1.fk = k2.fk) (hQ : k1.Q = k2.Q) (z : Fin n → ℝ) (P : Matrix (Fin n) (Fin n) ℝ) :
    k1.predict z P = k2.predict z P := by
  simp only [KF.predict, hA, hf, hQ]

theorem smoothOwn_fields {k1 k2 : KF n m} (hA : k1.A = k2.A) (hf : k1.fk = k2.fk) (hQ : k1.Q = k2.Q) (s sn : Est n) :
    k1.smoothOwn s sn = k2.smoothOwn s sn := by
  simp only [KF.smoothOwn, hA, hf, hQ]

theorem measure_fields {k1 k2 : KF n m} (hC : k1.C = k2.C) (hh : k1.hk = k2.hk) (hR : k1.R = k2.R) (y : Fin m → ℝ) (z : Fin n → ℝ)
    (P : Matrix (Fin n) (Fin n) ℝ) : k1.measure y z P = k2.measure y z P := by
  simp only [KF.measure, hC, hh, hR]

variable {M : Ltv n m U T (Fin m → ℝ)} {kf k1 k2 : KF n m} {D : Spec.LtvSys n m U T}

/-- The matrices of the motion model after `set_dynamics`. -/
theorem pred_fields (hD : Spec.Describes M kf D) (h1 : Kept M kf k1) (h2 : Kept M kf k2) (u : U) (t : T) :
    let a := k1.setDynamics (M.predDyn u t).1 none (M.predDyn u t).2.2 none (M.predDyn u t).2.1 none
    let b := k2.setDynamics (M.predDyn u t).1 none (M.predDyn u t).2.2 none (M.predDyn u t).2.1 none
    a.A = b.A ∧ a.fk = b.fk ∧ a.Q = b.Q := by
  intro a b
  obtain ⟨e1, -, e3, -, e5, -⟩ := setDynamics_fields k1 (M.predDyn u t).1 none (M.predDyn u t).2.2 none (M.predDyn u t).2.1 none
  obtain ⟨f1, -, f3, -, f5, -⟩ := setDynamics_fields k2 (M.predDyn u t).1 none (M.predDyn u t).2.2 none (M.predDyn u t).2.1 none
  refine ⟨?_, ?_, ?_⟩
  · exact e1.trans ((given_or hD.A h1.A (u, t)).trans ((given_or hD.A h2.A (u, t)).symm.trans f1.symm))
  · exact e5.trans ((given_or hD.f h1.f (u, t)).trans ((given_or hD.f h2.f (u, t)).symm.trans f5.symm))
  · exact e3.trans ((given_or hD.Q h1.Q (u, t)).trans ((given_or hD.Q h2.Q (u, t)).symm.trans f3.symm))

/-- The object stays as described. -/
theorem pred_kept (h1 : Kept M kf k1) (u : U) (t : T) :
    Kept M kf (k1.setDynamics (M.predDyn u t).1 none (M.predDyn u t).2.2 none (M.predDyn u t).2.1 none) := by
  obtain ⟨e1, e2, e3, e4, e5, e6⟩ := setDynamics_fields k1 (M.predDyn u t).1 none (M.predDyn u t).2.2 none (M.predDyn u t).2.1 none
  refine ⟨?_, ?_, ?_, ?_, ?_, ?_⟩
  · rw [e1]; exact keptBy_or h1.A (u, t)
  · rw [e5]; exact keptBy_or h1.f (u, t)
  · rw [e3]; exact keptBy_or h1.Q (u, t)
  · rw [e2]; exact h1.C
  · rw [e6]; exact h1.h
  · rw [e4]; exact h1.R

theorem meas_kept (h1 : Kept M kf k1) (y : Fin m → ℝ) (t : T) :
    Kept M kf (k1.setDynamics none (M.measDyn y t).2.1 none (M.measDyn y t).2.2.2 none (M.measDyn y t).2.2.1) := by
  obtain ⟨e1, e2, e3, e4, e5, e6⟩ := setDynamics_fields k1 none (M.measDyn y t).2.1 none (M.measDyn y t).2.2.2 none (M.measDyn y t).2.2.1
  refine ⟨?_, ?_, ?_, ?_, ?_, ?_⟩
  · rw [e1]; exact h1.A
  · rw [e5]; exact h1.f
  · rw [e3]; exact h1.Q
  · rw [e2]; exact keptBy_or h1.C (y, t)
  · rw [e6]; exact keptBy_or h1.h (y, t)
  · rw [e4]; exact keptBy_or h1.R (y, t)

theorem meas_fields (hD : Spec.Describes M kf D) (h1 : Kept M kf k1) (h2 : Kept M kf k2) (y : Fin m → ℝ) (t : T) :
    let a := k1.setDynamics none (M.measDyn y t).2.1 none (M.measDyn y t).2.2.2 none (M.measDyn y t).2.2.1
    let b := k2.setDynamics none (M.measDyn y t).2.1 none (M.measDyn y t).2.2.2 none (M.measDyn y t).2.2.1
    a.C = b.C ∧ a.hk = b.hk ∧ a.R = b.R := by
  intro a b
  obtain ⟨-, e2, -, e4, -, e6⟩ := setDynamics_fields k1 none (M.measDyn y t).2.1 none (M.measDyn y t).2.2.2 none (M.measDyn y t).2.2.1
  obtain ⟨-, f2, -, f4, -, f6⟩ := setDynamics_fields k2 none (M.measDyn y t).2.1 none (M.measDyn y t).2.2.2 none (M.measDyn y t).2.2.1
  refine ⟨?_, ?_, ?_⟩
  · exact e2.trans ((given_or hD.C h1.C (y, t)).trans ((given_or hD.C h2.C (y, t)).symm.trans f2.symm))
  · refine e6.trans (Eq.trans ?_ f6.symm)
    rcases hD.h with hh | ⟨hh1, hh2, -⟩
    · exact (given_or hh h1.h (y, t)).trans (given_or hh h2.h (y, t)).symm
    · rw [h1.h hh1, h2.h hh1]
  · exact e4.trans ((given_or hD.R h1.R (y, t)).trans ((given_or hD.R h2.R (y, t)).symm.trans f4.symm))

/-- **C121** `update` writes the same particles whatever calls were made before. -/
theorem C121_update_stateless (hD : Spec.Describes M kf D) (h1 : Kept M kf k1) (h2 : Kept M kf k2) (rows : List (List ℝ)) (u : U) (t : T) :
    (M.update k1 rows u t).map Prod.snd = (M.update k2 rows u t).map Prod.snd := by
  obtain ⟨a1, a2, a3⟩ := pred_fields hD h1 h2 u t
  unfold Ltv.update
  rcases ltvGetStates n rows with e | l
  · rfl
  simp only [ok_bind]
  rw [show (fun s : Est n => (k1.setDynamics (M.predDyn u t).1 none (M.predDyn u t).2.2 none (M.predDyn u t).2.1 none).predict s.1 s.2) =
    fun s : Est n => (k2.setDynamics (M.predDyn u t).1 none (M.predDyn u t).2.2 none (M.predDyn u t).2.1 none).predict s.1 s.2 from
    funext fun s => predict_fields a1 a2 a3 _ _]
  rcases l.mapM (fun s : Est n => (k2.setDynamics (M.predDyn u t).1 none (M.predDyn u t).2.2 none (M.predDyn u t).2.1 none).predict s.1 s.2) with e | l'
  · rfl
  simp only [ok_bind]
  rcases ltvSetStates rows l' with e | r <;> rfl

/-- **C121** `measure` writes the same particles and returns the same values whatever calls were made before. -/
theorem C121_measure_stateless (hD : Spec.Describes M kf D) (h1 : Kept M kf k1) (h2 : Kept M kf k2) (rows : List (List ℝ)) (y : Fin m → ℝ) (t : T) :
    (M.measure k1 rows y t).map Prod.snd = (M.measure k2 rows y t).map Prod.snd := by
  obtain ⟨a1, a2, a3⟩ := meas_fields hD h1 h2 y t
  unfold Ltv.measure
  rcases ltvGetStates n rows with e | l
  · rfl
  simp only [ok_bind]
  rw [show (fun s : Est n => (k1.setDynamics none (M.measDyn y t).2.1 none (M.measDyn y t).2.2.2 none (M.measDyn y t).2.2.1).measure (M.measDyn y t).1 s.1 s.2) =
    fun s : Est n => (k2.setDynamics none (M.measDyn y t).2.1 none (M.measDyn y t).2.2.2 none (M.measDyn y t).2.2.1).measure (M.measDyn y t).1 s.1 s.2 from
    funext fun s => measure_fields a1 a2 a3 _ _ _]
  rcases l.mapM (fun s : Est n => (k2.setDynamics none (M.measDyn y t).2.1 none (M.measDyn y t).2.2.2 none (M.measDyn y t).2.2.1).measure (M.measDyn y t).1 s.1 s.2)
    with e | l'
  · rfl
  simp only [ok_bind]
  generalize ltvSetStates rows (List.map _ l') = q
  cases q <;> rfl

theorem update_kept (h1 : Kept M kf k1) {rows rows' : List (List ℝ)} {u : U} {t : T} (h : M.update k1 rows u t = .ok (k2, rows')) : Kept M kf k2 := by
  unfold Ltv.update at h
  obtain ⟨l, -, h⟩ := bind_eq_ok.mp h
  obtain ⟨l', -, h⟩ := bind_eq_ok.mp h
  obtain ⟨r, -, h⟩ := bind_eq_ok.mp h
  cases h
  exact pred_kept h1 u t

theorem measure_kept (h1 : Kept M kf k1) {rows rows' : List (List ℝ)} {ll : List ℝ} {y : Fin m → ℝ} {t : T}
    (h : M.measure k1 rows y t = .ok (k2, rows', ll)) : Kept M kf k2 := by
  unfold Ltv.measure at h
  obtain ⟨l, -, h⟩ := bind_eq_ok.mp h
  obtain ⟨l', -, h⟩ := bind_eq_ok.mp h
  obtain ⟨r, -, h⟩ := bind_eq_ok.mp h
  cases h
  exact meas_kept h1 y t

theorem smoothIter_stateless (hD : Spec.Describes M kf D) (h1 : Kept M kf k1) (h2 : Kept M kf k2) (l : List (Est n)) (fut : Option (List (List ℝ)))
    (ut : List U) (tt : List T) (j : ℕ) : (M.smoothIter l fut ut tt k1 j).map Prod.snd = (M.smoothIter l fut ut tt k2 j).map Prod.snd := by
  unfold Ltv.smoothIter
  cases fut with
  | none => rcases getIdx l j with e | s <;> rfl
  | some rows =>
    simp only []
    rcases getIdx rows j with e | frow
    · rfl
    simp only [ok_bind]
    rcases ltvReadRow n frow with e | sn
    · rfl
    simp only [ok_bind]
    rcases getIdx ut 0 with e | u
    · rfl
    simp only [ok_bind]
    rcases getIdx tt 0 with e | t
    · rfl
    simp only [ok_bind]
    rcases getIdx l 0 with e | s
    · rfl
    simp only [ok_bind]
    obtain ⟨a1, a2, a3⟩ := pred_fields hD h1 h2 u t
    rw [smoothOwn_fields a1 a2 a3]
    rcases (k2.setDynamics (M.predDyn u t).1 none (M.predDyn u t).2.2 none (M.predDyn u t).2.1 none).smoothOwn s sn with e | r <;> rfl

theorem smoothIter_kept (h1 : Kept M kf k1) {l : List (Est n)} {fut : Option (List (List ℝ))} {ut : List U} {tt : List T} {j : ℕ} {row : List ℝ}
    (h : M.smoothIter l fut ut tt k1 j = .ok (k2, row)) : Kept M kf k2 := by
  unfold Ltv.smoothIter at h
  cases fut with
  | none =>
    obtain ⟨s, -, h⟩ := bind_eq_ok.mp h
    cases h; exact h1
  | some rows =>
    obtain ⟨frow, -, h⟩ := bind_eq_ok.mp h
    obtain ⟨sn, -, h⟩ := bind_eq_ok.mp h
    obtain ⟨u, -, h⟩ := bind_eq_ok.mp h
    obtain ⟨t, -, h⟩ := bind_eq_ok.mp h
    obtain ⟨s, -, h⟩ := bind_eq_ok.mp h
    obtain ⟨r, -, h⟩ := bind_eq_ok.mp h
    cases h; exact pred_kept h1 u t

theorem smoothLoop_stateless (hD : Spec.Describes M kf D) (l : List (Est n)) (fut : Option (List (List ℝ))) (ut : List U) (tt : List T) (k : ℕ)
    {k1 k2 : KF n m} (h1 : Kept M kf k1) (h2 : Kept M kf k2) (j : ℕ) :
    (M.smoothLoop l fut ut tt k1 j k).map Prod.snd = (M.smoothLoop l fut ut tt k2 j k).map Prod.snd := by
  induction k generalizing j k1 k2 with
  | zero => rfl
  | succ k ih =>
    have hi := smoothIter_stateless hD h1 h2 l fut ut tt j
    unfold Ltv.smoothLoop
    rcases e1 : M.smoothIter l fut ut tt k1 j with e | ⟨k1', row⟩ <;> rcases e2 : M.smoothIter l fut ut tt k2 j with e' | ⟨k2', row'⟩ <;>
      rw [e1, e2] at hi <;> simp only [Except.map, Except.ok.injEq, Except.error.injEq, reduceCtorEq] at hi
    · rw [hi]
    · subst hi
      have := ih (smoothIter_kept h1 e1) (smoothIter_kept h2 e2) (j + 1)
      simp only [ok_bind]
      rcases f1 : M.smoothLoop l fut ut tt k1' (j + 1) k with e | ⟨k3, rows⟩ <;> rcases f2 : M.smoothLoop l fut ut tt k2' (j + 1) k with e' | ⟨k4, rows'⟩ <;>
        rw [f1, f2] at this <;> simp only [Except.map, Except.ok.injEq, Except.error.injEq, reduceCtorEq] at this
      · rw [this]
      · subst this; rfl

theorem smoothLoop_kept {l : List (Est n)} {fut : Option (List (List ℝ))} {ut : List U} {tt : List T} (k : ℕ) {k1 k2 : KF n m} (h1 : Kept M kf k1) {j : ℕ}
    {rows : List (List ℝ)} (h : M.smoothLoop l fut ut tt k1 j k = .ok (k2, rows)) : Kept M kf k2 := by
  induction k generalizing j k1 rows with
  | zero => cases h; exact h1
  | succ k ih =>
    unfold Ltv.smoothLoop at h
    obtain ⟨⟨k3, row⟩, e1, h⟩ := bind_eq_ok.mp h
    obtain ⟨⟨k4, rows'⟩, e2, h⟩ := bind_eq_ok.mp h
    cases h
    exact ih (smoothIter_kept h1 e1) e2

/-- **C121** `sample_smooth` returns the same rows whatever calls were made before. -/
theorem C121_sample_smooth_stateless (hD : Spec.Describes M kf D) (h1 : Kept M kf k1) (h2 : Kept M kf k2) (rows : List (List ℝ))
    (fut : Option (List (List ℝ))) (ut : List U) (tt : List T) :
    (M.sampleSmooth k1 rows fut ut tt).map Prod.snd = (M.sampleSmooth k2 rows fut ut tt).map Prod.snd := by
  unfold Ltv.sampleSmooth
  rcases ltvGetStates n rows with e | l
  · rfl
  exact smoothLoop_stateless hD l fut ut tt _ h1 h2 0

theorem sampleSmooth_kept (h1 : Kept M kf k1) {rows res : List (List ℝ)} {fut : Option (List (List ℝ))} {ut : List U} {tt : List T}
    (h : M.sampleSmooth k1 rows fut ut tt = .ok (k2, res)) : Kept M kf k2 := by
  unfold Ltv.sampleSmooth at h
  obtain ⟨l, -, h⟩ := bind_eq_ok.mp h
  exact smoothLoop_kept _ h1 h

/-! ## Equal particles stay equal -/

theorem setStates_replicate {N : ℕ} (hN : 0 < N) {r : List ℝ} {s : Est n} {rows' : List (List ℝ)}
    (h : ltvSetStates (List.replicate N r) (List.replicate N s) = .ok rows') : ∃ r', rows' = List.replicate N r' := by
  obtain ⟨h1, h2⟩ := mapM_ok_iff.mp h
  simp only [List.length_zipIdx, List.length_replicate] at h1
  have key : ∀ k (hk : k < N), ltvWriteRow s r = .ok (rows'[k]'(by omega)) := by
    intro k hk
    obtain ⟨row, e1, e2⟩ := h2 k (r, k) (by simp [hk])
    rw [List.getElem?_eq_getElem (by omega), Option.some.injEq] at e1
    rw [show getIdx (List.replicate N s) k = .ok s from getIdx_ok.mpr (by rw [List.getElem?_replicate, if_pos hk]), ok_bind] at e2
    rw [e1]; exact e2
  refine ⟨rows'[0]'(by omega), List.eq_replicate_iff.mpr ⟨h1, fun row hr => ?_⟩⟩
  obtain ⟨k, hk, rfl⟩ := List.getElem_of_mem hr
  exact Except.ok.inj ((key k (by omega)).symm.trans (key 0 hN))

theorem getStates_equal {N : ℕ} (hN : 0 < N) {r : List ℝ} {l : List (Est n)} (h : ltvGetStates n (List.replicate N r) = .ok l) :
    ∃ s, l = List.replicate N s := by
  obtain ⟨h1, h2⟩ := mapM_ok_iff.mp h
  simp only [List.length_replicate] at h1
  have key : ∀ k (hk : k < N), ltvReadRow n r = .ok (l[k]'(by omega)) := by
    intro k hk
    obtain ⟨s, e1, e2⟩ := h2 k r (by simp [hk])
    rw [List.getElem?_eq_getElem (by omega), Option.some.injEq] at e1
    rw [e1]; exact e2
  refine ⟨l[0]'(by omega), List.eq_replicate_iff.mpr ⟨h1, fun s hs => ?_⟩⟩
  obtain ⟨k, hk, rfl⟩ := List.getElem_of_mem hs
  exact Except.ok.inj ((key k (by omega)).symm.trans (key 0 hN))

theorem mapM_replicate_ok {α β : Type} {f : α → PyM β} {N : ℕ} (hN : 0 < N) {a : α} {l : List β} (h : (List.replicate N a).mapM f = .ok l) :
    ∃ b, l = List.replicate N b := by
  obtain ⟨h1, h2⟩ := mapM_ok_iff.mp h
  simp only [List.length_replicate] at h1
  have key : ∀ k (hk : k < N), f a = .ok (l[k]'(by omega)) := by
    intro k hk
    obtain ⟨s, e1, e2⟩ := h2 k a (by simp [hk])
    rw [List.getElem?_eq_getElem (by omega), Option.some.injEq] at e1
    rw [e1]; exact e2
  refine ⟨l[0]'(by omega), List.eq_replicate_iff.mpr ⟨h1, fun s hs => ?_⟩⟩
  obtain ⟨k, hk, rfl⟩ := List.getElem_of_mem hs
  exact Except.ok.inj ((key k (by omega)).symm.trans (key 0 hN))

theorem update_replicate {N : ℕ} (hN : 0 < N) {r : List ℝ} {u : U} {t : T} {rows' : List (List ℝ)}
    (h : M.update k1 (List.replicate N r) u t = .ok (k2, rows')) : ∃ r', rows' = List.replicate N r' := by
  unfold Ltv.update at h
  obtain ⟨l, e1, h⟩ := bind_eq_ok.mp h
  obtain ⟨s, rfl⟩ := getStates_equal hN e1
  obtain ⟨l', e2, h⟩ := bind_eq_ok.mp h
  obtain ⟨s', rfl⟩ := mapM_replicate_ok hN e2
  obtain ⟨q, e3, h⟩ := bind_eq_ok.mp h
  cases h
  exact setStates_replicate hN e3

theorem measure_replicate {N : ℕ} (hN : 0 < N) {r : List ℝ} {y : Fin m → ℝ} {t : T} {rows' : List (List ℝ)} {ll : List ℝ}
    (h : M.measure k1 (List.replicate N r) y t = .ok (k2, rows', ll)) : (∃ r', rows' = List.replicate N r') ∧ ∃ c, ll = List.replicate N c := by
  unfold Ltv.measure at h
  obtain ⟨l, e1, h⟩ := bind_eq_ok.mp h
  obtain ⟨s, rfl⟩ := getStates_equal hN e1
  obtain ⟨l', e2, h⟩ := bind_eq_ok.mp h
  obtain ⟨s', rfl⟩ := mapM_replicate_ok hN e2
  obtain ⟨q, e3, h⟩ := bind_eq_ok.mp h
  cases h
  rw [List.map_replicate] at e3
  exact ⟨setStates_replicate hN e3, s'.2.2, by rw [List.map_replicate]⟩

end PyPE

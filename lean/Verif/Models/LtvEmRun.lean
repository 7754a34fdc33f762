import Verif.Models.LtvEstep

/-!
# The E-step with an LTV model, and what it is worth to the M-step (C115)
-/

namespace PyPE
open Matrix MeasureTheory
open scoped ENNReal

variable {n m : ℕ} {U T : Type}

/-- The expected log-density of the measurement at time `j`, if there is one, when the state is normal. -/
noncomputable def Spec.LtvSys.seenMean (D : Spec.LtvSys n m U T) (y : ℕ → Option (Fin m → ℝ)) (tm : ℕ → T) (j : ℕ) (s : Est n) : ℝ :=
  match y j with
  | none => 0
  | some v => ∫ x, Spec.logNormal (D.R (tm j)) (v - (D.C (tm j) *ᵥ x + D.h (tm j))) ∂(Spec.gauss s.1 s.2)

/-- The expected log-density of the transition at time `j` when the two states are jointly normal. -/
noncomputable def Spec.LtvSys.moveMean (D : Spec.LtvSys n m U T) (u : ℕ → U) (tm : ℕ → T) (j : ℕ) (e : Est n × Matrix (Fin n) (Fin n) ℝ)
    (en : Est n) : ℝ :=
  ∫ w, Spec.logNormal (D.Q (u j) (tm j)) ((fun i => w (.inr i)) - (D.A (u j) (tm j) *ᵥ (fun i => w (.inl i)) + D.f (u j) (tm j)))
    ∂(Spec.pairLaw e.1 en e.2)

/-- Every trajectory takes one of the stored particles of each time. -/
def Spec.Picks (Mt : ℕ) (G F : List (List (List ℝ))) : Prop := List.Forall₂ (fun g f => g.length = Mt ∧ ∀ row ∈ g, row ∈ f) G F

theorem average_smul {α : Type} [MeasurableSpace α] (ν : Measure α) [IsProbabilityMeasure ν] (ll : ℝ) (g : α → ℝ) :
    Spec.average (ENNReal.ofReal (Real.exp ll) • ν) g = ∫ x, g x ∂ν := by
  have := (Real.exp_pos ll).ne'
  rw [Spec.average, integral_smul_measure]
  simp [ENNReal.toReal_ofReal (Real.exp_pos _).le]

theorem seenAt_good {D : Spec.LtvSys n m U T} (hR : ∀ t, (D.R t).PosDef) (y : ℕ → Option (Fin m → ℝ)) (tm : ℕ → T) (j : ℕ) :
    ∀ op ∈ D.seenAt y tm j, op.Good ∧ op.Strict := by
  intro op h
  unfold Spec.LtvSys.seenAt at h
  split at h
  · simp at h
  · rw [List.mem_singleton] at h
    subst h
    exact ⟨hR _, trivial⟩

theorem record_good {D : Spec.LtvSys n m U T} (hQ : ∀ u t, (D.Q u t).PosDef) (hR : ∀ t, (D.R t).PosDef) (u : ℕ → U)
    (y : ℕ → Option (Fin m → ℝ)) (tm : ℕ → T) (j k : ℕ) : ∀ op ∈ D.record u y tm j k, op.Good ∧ op.Strict := by
  induction k generalizing j with
  | zero => intro op h; simp [Spec.LtvSys.record] at h
  | succ k ih =>
    intro op h
    rw [Spec.LtvSys.record, List.mem_cons, List.mem_append] at h
    rcases h with rfl | h | h
    · exact ⟨(hQ _ _).posSemidef, hQ _ _⟩
    · exact seenAt_good hR y tm _ op h
    · exact ih _ op h

theorem seenAt_same (D D' : Spec.LtvSys n m U T) (y : ℕ → Option (Fin m → ℝ)) (tm : ℕ → T) (j : ℕ) {l l' : List (Spec.DataOp n)}
    (h : Spec.SameData l l') : Spec.SameData (D.seenAt y tm j ++ l) (D'.seenAt y tm j ++ l') := by
  unfold Spec.LtvSys.seenAt
  split
  · exact h
  · exact .meas h

theorem record_same (D D' : Spec.LtvSys n m U T) (u : ℕ → U) (y : ℕ → Option (Fin m → ℝ)) (tm : ℕ → T) (j k : ℕ) :
    Spec.SameData (D.record u y tm j k) (D'.record u y tm j k) := by
  induction k generalizing j with
  | zero => exact .nil
  | succ k ih => exact .move (seenAt_same D D' y tm _ (ih _))

theorem upper_posSemidef {Ps Ms Pn : Matrix (Fin n) (Fin n) ℝ} (h : (fromBlocks Ps Ms Msᵀ Pn).PosSemidef) : Ps.PosSemidef := by
  have := h.submatrix (Sum.inl : Fin n → Fin n ⊕ Fin n)
  exact this

/-- The expected log-density of a transition under the smoothing law. -/
theorem average_move (z0 : Fin n → ℝ) (P0 : Matrix (Fin n) (Fin n) ℝ) (hP0 : P0.PosSemidef) (past future : List (Spec.DataOp n))
    {A Q : Matrix (Fin n) (Fin n) ℝ} {f : Fin n → ℝ} (hl : ∀ op ∈ past ++ .move A f Q :: future, op.Good) {z P ll}
    (hf : kfData z0 P0 past = .ok (z, P, ll)) {en : Est n} (hn : rtsData (predictFull z P A f Q).1 (predictFull z P A f Q).2 future = .ok en)
    {zs Ps Ms} (hs : kalmanSmooth z P en.1 en.2 A f Q = .ok (zs, Ps, Ms)) (A' Q' : Matrix (Fin n) (Fin n) ℝ) (f' : Fin n → ℝ) :
    Spec.average (Spec.smoothedPair (Spec.gauss z0 P0) past (.move A f Q) future) (fun p => (Spec.DataOp.move A' f' Q').logp p.1 p.2) =
      ∫ w, Spec.logNormal Q' ((fun i => w (.inr i)) - (A' *ᵥ (fun i => w (.inl i)) + f')) ∂(Spec.pairLaw (zs, Ps) en Ms) := by
  obtain ⟨zT, PT, llT, -, h⟩ := C71_pair_exact z0 P0 hP0 past future A f Q hl hf hn hs
  rw [h]
  have : IsProbabilityMeasure (Spec.gauss (Sum.elim zs en.1) (fromBlocks Ps Ms Msᵀ en.2)) := inferInstance
  have : IsProbabilityMeasure ((Spec.gauss (Sum.elim zs en.1) (fromBlocks Ps Ms Msᵀ en.2)).map
      (MeasurableEquiv.sumPiEquivProdPi fun _ : Fin n ⊕ Fin n => ℝ)) := Measure.isProbabilityMeasure_map (by fun_prop)
  rw [average_smul, integral_map (by fun_prop) (measurable_logp (.move A' f' Q')).aestronglyMeasurable]
  rfl

/-- The expected log-density of a measured value under the smoothing law. -/
theorem average_meas (z0 : Fin n → ℝ) (P0 : Matrix (Fin n) (Fin n) ℝ) (hP0 : P0.PosSemidef) (past future : List (Spec.DataOp n))
    {C : Matrix (Fin m) (Fin n) ℝ} {h : Fin m → ℝ} {R : Matrix (Fin m) (Fin m) ℝ} {v : Fin m → ℝ}
    (hl : ∀ op ∈ past ++ .meas m C h R v :: future, op.Good) {z P ll} (hf : kfData z0 P0 past = .ok (z, P, ll)) {e : Est n}
    (hn : rtsData z P (.meas m C h R v :: future) = .ok e) (C' : Matrix (Fin m) (Fin n) ℝ) (h' : Fin m → ℝ) (R' : Matrix (Fin m) (Fin m) ℝ) :
    Spec.average (Spec.smoothedPair (Spec.gauss z0 P0) past (.meas m C h R v) future)
        (fun p => (Spec.DataOp.meas m C' h' R' v).logp p.1 p.2) =
      ∫ x, Spec.logNormal R' (v - (C' *ᵥ x + h')) ∂(Spec.gauss e.1 e.2) := by
  obtain ⟨z', P', ll', h1, h2⟩ := C71_smoother_exact z0 P0 hP0 past (.meas m C h R v :: future) hl
  cases hf.symm.trans h1
  rcases h2 with h2 | ⟨zs, Ps, zT, PT, llT, h3, -, -, h5⟩
  · cases hn.symm.trans h2
  cases hn.symm.trans h3
  have hm : Measurable fun x : Fin n → ℝ => Spec.logNormal R' (v - (C' *ᵥ x + h')) :=
    Continuous.measurable (by unfold Spec.logNormal; fun_prop)
  have e1 : ∫ p, (Spec.DataOp.meas m C' h' R' v).logp p.1 p.2 ∂(Spec.smoothedPair (Spec.gauss z0 P0) past (.meas m C h R v) future) =
      ∫ x, Spec.logNormal R' (v - (C' *ᵥ x + h')) ∂(Spec.smoothed (Spec.gauss z0 P0) past (.meas m C h R v :: future)) := by
    rw [← smoothedPair_fst, integral_map measurable_fst.aemeasurable hm.aestronglyMeasurable]
    rfl
  have e2 : Spec.smoothedPair (Spec.gauss z0 P0) past (.meas m C h R v) future Set.univ =
      Spec.smoothed (Spec.gauss z0 P0) past (.meas m C h R v :: future) Set.univ := by rw [smoothedPair_mass, smoothed_mass]
  rw [Spec.average, e1, e2, ← average_smul (Spec.gauss zs Ps) llT, ← h5]
  rfl

/-- The expected log-density of the measurement of time `j`, as part of the sum EM maximises. -/
theorem emSum_seen (z0 : Fin n → ℝ) (P0 : Matrix (Fin n) (Fin n) ℝ) (hP0 : P0.PosSemidef) {D : Spec.LtvSys n m U T}
    (hR : ∀ t, (D.R t).PosDef) (y : ℕ → Option (Fin m → ℝ)) (tm : ℕ → T) (j : ℕ) (past future : List (Spec.DataOp n))
    (hl : ∀ op ∈ past ++ future, op.Good) {z P ll} (hf : kfData z0 P0 past = .ok (z, P, ll)) {e : Est n}
    (hn : rtsData z P (D.seenAt y tm j ++ future) = .ok e) (D' : Spec.LtvSys n m U T) (future' : List (Spec.DataOp n)) :
    Spec.emSum (Spec.gauss z0 P0) past (D.seenAt y tm j ++ future) (D'.seenAt y tm j ++ future') =
      D'.seenMean y tm j e + Spec.emSum (Spec.gauss z0 P0) (past ++ D.seenAt y tm j) future future' := by
  cases hy : y j with
  | none => simp [Spec.LtvSys.seenAt, Spec.LtvSys.seenMean, hy]
  | some v =>
    have e1 : D.seenAt y tm j = [.meas m (D.C (tm j)) (D.h (tm j)) (D.R (tm j)) v] := by simp [Spec.LtvSys.seenAt, hy]
    have e2 : D'.seenAt y tm j = [.meas m (D'.C (tm j)) (D'.h (tm j)) (D'.R (tm j)) v] := by simp [Spec.LtvSys.seenAt, hy]
    have e3 : D'.seenMean y tm j e = ∫ x, Spec.logNormal (D'.R (tm j)) (v - (D'.C (tm j) *ᵥ x + D'.h (tm j))) ∂(Spec.gauss e.1 e.2) := by
      simp [Spec.LtvSys.seenMean, hy]
    rw [e1] at hn ⊢
    rw [e2, e3]
    simp only [List.singleton_append] at hn ⊢
    rw [Spec.emSum, average_meas z0 P0 hP0 past future (fun op ho => ?_) hf hn]
    rw [List.mem_append, List.mem_cons] at ho
    rcases ho with ho | rfl | ho
    · exact hl op (List.mem_append_left _ ho)
    · exact hR _
    · exact hl op (List.mem_append_right _ ho)

/-- Filter and smoother from time `j` on: the filter stores the same estimate in all particles; going back, all trajectories get the same smoothed
statistics `st i`, and these give the expected log-densities of the steps. -/
theorem ltv_suffix {M : Ltv n m U T (Fin m → ℝ)} {kf : KF n m} {D : Spec.LtvSys n m U T} (hD : Spec.Describes M kf D)
    (hP0 : M.P0.PosSemidef) (hQ : ∀ u t, (D.Q u t).PosDef) (hR : ∀ t, (D.R t).PosDef) (u : ℕ → U) (y : ℕ → Option (Fin m → ℝ)) (tm : ℕ → T)
    (ut : List U) (tt : List T) {N Mt : ℕ} (hMt : 0 < Mt) (k j : ℕ) (hy : ∀ i, j < i → i ≤ j + k → (y i).isSome)
    (hinv : ∀ i, j ≤ i → i < j + k → ∃ u0 ut' t0 tt', ut = u0 :: ut' ∧ tt = t0 :: tt' ∧ D.A (u i) (tm i) = D.A u0 t0 ∧
      D.f (u i) (tm i) = D.f u0 t0 ∧ D.Q (u i) (tm i) = D.Q u0 t0)
    {kf' : KF n m} (h5 : Kept M kf kf') {rows : List (List ℝ)} {z : Fin n → ℝ} {P : Matrix (Fin n) (Fin n) ℝ} (h2 : P.PosSemidef)
    (h4 : ltvGetStates n rows = .ok (List.replicate N (z, P))) (l0 : ℝ) :
    ∃ kf1 F zT PT ll, ltvFilter M u y tm kf' rows (List.replicate N l0) j k = .ok (kf1, F, List.replicate N (l0 + ll)) ∧ Kept M kf kf1 ∧
      kfData z P (D.record u y tm j k) = .ok (zT, PT, ll) ∧ F.length = k + 1 ∧ F.head? = some rows ∧
      ∃ st : ℕ → Est n × Matrix (Fin n) (Fin n) ℝ,
        (∀ G kf2, Spec.Picks Mt G F → Kept M kf kf2 → ∃ kf3 S, ltvBackward M ut tt kf2 G = .ok (kf3, S) ∧ Kept M kf kf3 ∧
          S.length = k + 1 ∧ ∀ (i : ℕ) R, S[i]? = some R → R.length = Mt ∧ ∀ row ∈ R, Spec.StoresSmooth row (st i).1 (st i).2) ∧
        rtsData z P (D.record u y tm j k) = .ok (st 0).1 ∧ (∀ i, i ≤ k → (st i).1.2.PosSemidef) ∧
        (∀ i, i < k → (fromBlocks (st i).1.2 (st i).2 (st i).2ᵀ (st (i + 1)).1.2).PosSemidef) ∧
        (∀ past lp, kfData M.z0 M.P0 past = .ok (z, P, lp) → (∀ op ∈ past, op.Good) → ∀ D' : Spec.LtvSys n m U T,
          Spec.emSum (Spec.gauss M.z0 M.P0) past (D.record u y tm j k) (D'.record u y tm j k) =
            ∑ i ∈ Finset.range k, (D'.moveMean u tm (j + i) (st i) (st (i + 1)).1 + D'.seenMean y tm (j + i + 1) (st (i + 1)).1)) ∧
        ∀ i, i ≤ k → ∃ zi Pi li, kfData z P (D.record u y tm j i) = .ok (zi, Pi, li) ∧
          (∀ R, F[i]? = some R → ltvGetStates n R = .ok (List.replicate N (zi, Pi))) ∧
          rtsData zi Pi (D.record u y tm (j + i) (k - i)) = .ok (st i).1 := by
  induction k generalizing j kf' rows z P l0 with
  | zero =>
    refine ⟨kf', [rows], z, P, 0, by rw [ltvFilter, add_zero], h5, rfl, rfl, rfl, fun _ => ((z, P), 0), ?_, rfl, fun _ _ => h2,
      fun _ h => absurd h (Nat.not_lt_zero _), fun past lp _ _ D' => by simp [Spec.LtvSys.record, Spec.emSum],
      fun i hi => ⟨z, P, 0, by rw [Nat.le_zero.mp hi]; rfl, fun R hR => by
        rw [Nat.le_zero.mp hi] at hR; cases hR; exact h4, by rw [Nat.le_zero.mp hi]; rfl⟩⟩
    intro G kf2 hG hk2
    obtain ⟨g, G', ⟨hg1, hg2⟩, hG', rfl⟩ := List.forall₂_cons_right_iff.mp hG
    cases hG'
    have hst := getStates_replicate hg1 fun row hrow => stores_of_replicate h4 row (hg2 row hrow)
    obtain ⟨res, e1, e2, e3⟩ := C45_last_step M kf2 g ut tt _ hst
    refine ⟨kf2, [res], ?_, hk2, rfl, fun i R hi => ?_⟩
    · simp [ltvBackward, e1]
    · obtain ⟨rfl, rfl⟩ : i = 0 ∧ R = res := by
        cases i with
        | zero => exact ⟨rfl, by simpa using hi.symm⟩
        | succ i => simp at hi
      refine ⟨by omega, fun row hrow => ?_⟩
      obtain ⟨q, hq, rfl⟩ := List.getElem_of_mem hrow
      obtain ⟨row, hr1, hr2⟩ := e3 q (z, P) (by rw [List.getElem?_replicate, if_pos (by omega)])
      rw [List.getElem?_eq_getElem hq] at hr1
      cases hr1
      exact hr2
  | succ k ih =>
    obtain ⟨kfa, next, a1, a2, a3⟩ := ltv_update_step hD h5 h4 (u j) (tm j)
    have hPp : (predictFull z P (D.A (u j) (tm j)) (D.f (u j) (tm j)) (D.Q (u j) (tm j))).2.PosSemidef :=
      (posSemidef_conj h2 _).add (hQ _ _).posSemidef
    have hPd : (D.A (u j) (tm j) * P * (D.A (u j) (tm j))ᵀ + D.Q (u j) (tm j)).PosDef :=
      Matrix.PosDef.posSemidef_add (posSemidef_conj h2 _) (hQ _ _)
    obtain ⟨kfb, next', z', P', dl, b1, b2, b3, b4, b5, b6⟩ := ltv_observe_step hD a2 hPp a3 y tm hR (j + 1)
    obtain ⟨kf1, F, zT, PT, ll, c1, c2, c3, c4, c5, st, d1, d2, d3, d4, d5, d6⟩ :=
      ih (j + 1) (fun i hi hi' => hy i (by omega) (by omega)) (fun i hi hi' => hinv i (by omega) (by omega)) b2 b3 b6 (l0 + dl)
    obtain ⟨zs, Ps, Ms, hs⟩ : ∃ zs Ps Ms, kalmanSmooth z P (st 0).1.1 (st 0).1.2 (D.A (u j) (tm j)) (D.f (u j) (tm j)) (D.Q (u j) (tm j)) =
        .ok (zs, Ps, Ms) := ⟨_, _, _, kalmanSmooth_ok hPd.det_pos.ne'⟩
    have hjoint := smooth_pair_posSemidef h2 (hQ _ _).posSemidef hPd.det_pos.ne' (d3 0 (Nat.zero_le _)) hs
    have hrts : rtsData (predictFull z P (D.A (u j) (tm j)) (D.f (u j) (tm j)) (D.Q (u j) (tm j))).1
        (predictFull z P (D.A (u j) (tm j)) (D.f (u j) (tm j)) (D.Q (u j) (tm j))).2
        (D.seenAt y tm (j + 1) ++ D.record u y tm (j + 1) k) = .ok (st 0).1 := (b5 _).trans d2
    have hkf : kfData (predictFull z P (D.A (u j) (tm j)) (D.f (u j) (tm j)) (D.Q (u j) (tm j))).1
        (predictFull z P (D.A (u j) (tm j)) (D.f (u j) (tm j)) (D.Q (u j) (tm j))).2
        (D.seenAt y tm (j + 1) ++ D.record u y tm (j + 1) k) = .ok (zT, PT, dl + ll) := kfData_append _ _ _ _ b4 c3
    refine ⟨kf1, rows :: F, zT, PT, dl + ll, ?_, c2, hkf, by simp [c4], rfl, fun i => Nat.casesOn i ((zs, Ps), Ms) st, ?_, ?_, ?_, ?_, ?_, ?_⟩
    · rw [ltvFilter, a1, ok_bind]
      simp only []
      rw [ltvObserveNext_eq (hy _ (by omega) (by omega)), b1, ok_bind]
      simp only []
      rw [List.zipWith_replicate, min_self, c1, ok_bind, ← add_assoc]
      rfl
    · intro G kf2 hG hk2
      obtain ⟨g, G', ⟨hg1, hg2⟩, hG', rfl⟩ := List.forall₂_cons_right_iff.mp hG
      obtain ⟨kf3, S, s1, s2, s3, s4⟩ := d1 G' kf2 hG' hk2
      obtain ⟨R0, S', rfl⟩ : ∃ R0 S', S = R0 :: S' := by
        cases S with
        | nil => simp at s3
        | cons R0 S' => exact ⟨R0, S', rfl⟩
      obtain ⟨r1, r2⟩ := s4 0 R0 rfl
      have hst := getStates_replicate hg1 fun row hrow => stores_of_replicate h4 row (hg2 row hrow)
      have hsn := getStates_replicate r1 fun row hrow => (r2 row hrow).1
      obtain ⟨u0, ut', t0, tt', rfl, rfl, hA, hf, hQ'⟩ := hinv j le_rfl (by omega)
      rw [hA, hf, hQ'] at hs
      rw [hA, hQ'] at hPd
      obtain ⟨kf4, res, t1, t2, t3, t4⟩ := ltv_smooth_step hD s2 hMt hst hsn u0 ut' t0 tt' hPd.det_pos.ne' hs
      refine ⟨kf4, res :: R0 :: S', ?_, t2, by simp at s3 ⊢; exact s3, fun i R hi => ?_⟩
      · rw [ltvBackward, s1, ok_bind]
        simp only [List.head?_cons]
        rw [t1, ok_bind]
        rfl
      · cases i with
        | zero =>
          have : res = R := by simpa using hi
          subst this
          exact ⟨t3, t4⟩
        | succ i => exact s4 i R (by simpa using hi)
    · show rtsData z P (_ :: _) = _
      rw [rtsData, hrts, ok_bind]
      simp only []
      rw [hs, ok_bind]
      rfl
    · intro i hi
      cases i with
      | zero => exact (upper_posSemidef hjoint)
      | succ i => exact d3 i (by omega)
    · intro i hi
      cases i with
      | zero => exact hjoint
      | succ i => exact d4 i (by omega)
    · intro past lp hp hg D'
      have hgood := record_good hQ hR u y tm (j + 1) k
      have hseen := seenAt_good hR y tm (j + 1)
      have hfut : ∀ op ∈ D.seenAt y tm (j + 1) ++ D.record u y tm (j + 1) k, op.Good := by
        intro op ho
        rcases List.mem_append.mp ho with ho | ho
        · exact (hseen op ho).1
        · exact (hgood op ho).1
      have hp1 : kfData M.z0 M.P0 (past ++ [.move (D.A (u j) (tm j)) (D.f (u j) (tm j)) (D.Q (u j) (tm j))]) =
          .ok ((predictFull z P (D.A (u j) (tm j)) (D.f (u j) (tm j)) (D.Q (u j) (tm j))).1,
            (predictFull z P (D.A (u j) (tm j)) (D.f (u j) (tm j)) (D.Q (u j) (tm j))).2, lp) := by
        have := kfData_append M.z0 M.P0 past [.move (D.A (u j) (tm j)) (D.f (u j) (tm j)) (D.Q (u j) (tm j))] hp
          (z'' := (predictFull z P (D.A (u j) (tm j)) (D.f (u j) (tm j)) (D.Q (u j) (tm j))).1)
          (P'' := (predictFull z P (D.A (u j) (tm j)) (D.f (u j) (tm j)) (D.Q (u j) (tm j))).2) (ll' := 0) rfl
        rwa [add_zero] at this
      have hg1 : ∀ op ∈ past ++ [.move (D.A (u j) (tm j)) (D.f (u j) (tm j)) (D.Q (u j) (tm j))], op.Good := by
        intro op ho
        rcases List.mem_append.mp ho with ho | ho
        · exact hg op ho
        · rw [List.mem_singleton] at ho; subst ho; exact (hQ _ _).posSemidef
      have hp2 := kfData_append _ _ _ _ hp1 b4
      have g1 : ∀ op ∈ past ++ .move (D.A (u j) (tm j)) (D.f (u j) (tm j)) (D.Q (u j) (tm j)) ::
          (D.seenAt y tm (j + 1) ++ D.record u y tm (j + 1) k), op.Good := by
        intro op ho
        rcases List.mem_append.mp ho with ho | ho
        · exact hg op ho
        · rw [List.mem_cons] at ho
          rcases ho with rfl | ho
          · exact (hQ _ _).posSemidef
          · exact hfut op ho
      have g2 : ∀ op ∈ (past ++ [.move (D.A (u j) (tm j)) (D.f (u j) (tm j)) (D.Q (u j) (tm j))]) ++ D.record u y tm (j + 1) k, op.Good := by
        intro op ho
        rcases List.mem_append.mp ho with ho | ho
        · exact hg1 op ho
        · exact (hgood op ho).1
      have g3 : ∀ op ∈ (past ++ [.move (D.A (u j) (tm j)) (D.f (u j) (tm j)) (D.Q (u j) (tm j))]) ++ D.seenAt y tm (j + 1), op.Good := by
        intro op ho
        rcases List.mem_append.mp ho with ho | ho
        · exact hg1 op ho
        · exact (hseen op ho).1
      rw [Spec.LtvSys.record, Spec.LtvSys.record, Spec.emSum,
        average_move M.z0 M.P0 hP0 past _ g1 hp hrts hs,
        emSum_seen M.z0 M.P0 hP0 hR y tm (j + 1) _ _ g2 hp1 hrts D',
        d5 _ _ hp2 g3 D', Finset.sum_range_succ']
      have e0 : (∫ w, Spec.logNormal (D'.Q (u j) (tm j)) ((fun i => w (.inr i)) - (D'.A (u j) (tm j) *ᵥ (fun i => w (.inl i)) + D'.f (u j) (tm j)))
          ∂(Spec.pairLaw (zs, Ps) (st 0).1 Ms)) = D'.moveMean u tm j ((zs, Ps), Ms) (st 0).1 := by
        unfold Spec.LtvSys.moveMean
        simp only [sub_sub]
      rw [e0, ← add_assoc, add_comm]
      refine congrArg₂ _ (Finset.sum_congr rfl fun i _ => ?_) rfl
      rw [show j + 1 + i = j + (i + 1) by omega]
    · intro i hi
      cases i with
      | zero =>
        refine ⟨z, P, 0, rfl, fun R hR => by cases hR; exact h4, ?_⟩
        show rtsData z P (D.record u y tm j (k + 1)) = .ok (zs, Ps)
        rw [Spec.LtvSys.record, rtsData, hrts, ok_bind]
        simp only []
        rw [hs, ok_bind]
        rfl
      | succ i =>
        obtain ⟨zi, Pi, li, g1, g2, g3⟩ := d6 i (by omega)
        refine ⟨zi, Pi, dl + li, kfData_append (predictFull z P (D.A (u j) (tm j)) (D.f (u j) (tm j)) (D.Q (u j) (tm j))).1
          (predictFull z P (D.A (u j) (tm j)) (D.f (u j) (tm j)) (D.Q (u j) (tm j))).2 _ _ b4 g1, fun R hR => g2 R (by simpa using hR), ?_⟩
        rw [show j + (i + 1) = j + 1 + i by omega, show k + 1 - (i + 1) = k - i by omega]
        exact g3

end PyPE

import Verif.Models.LtvEmRun
import Verif.Models.LtvEm
import Verif.Param.Objective

/-!
# One iteration of EM with an LTV model (C115)
-/

namespace PyPE
open Matrix MeasureTheory
open scoped ENNReal

variable {n m : ℕ} {U T : Type}

/-! ## The objective when all trajectories have the same value -/

section objective
variable {X Y Tm : Type}

theorem logpYLoop_const {evalY : List X → Y → Tm → PyM (List ℝ)} {S : List (List X)} {yt : List (Option Y)} {tt : List Tm} {Mt : ℕ}
    (c : ℕ → ℝ) (is : List ℕ)
    (h : ∀ i ∈ is, ∃ R o t, S[i]? = some R ∧ yt[i]? = some o ∧ tt[i]? = some t ∧
      ((o = none ∧ c i = 0) ∨ ∃ v, o = some v ∧ evalY R v t = .ok (List.replicate Mt (c i)))) (acc : ℝ) :
    logpYLoop evalY S yt tt is acc = .ok (acc + Mt * (is.map c).sum) := by
  induction is generalizing acc with
  | nil => simp [logpYLoop]
  | cons i is ih =>
    obtain ⟨R, o, t, h1, h2, h3, h4⟩ := h i (by simp)
    have ih' := ih fun j hj => h j (List.mem_cons_of_mem _ hj)
    rw [logpYLoop, getIdx_ok.mpr h2, ok_bind]
    rcases h4 with ⟨rfl, h4⟩ | ⟨v, rfl, h4⟩
    · simp only []
      rw [ih', List.map_cons, List.sum_cons, h4, zero_add]
    · simp only []
      rw [getIdx_ok.mpr h1, ok_bind, getIdx_ok.mpr h3, ok_bind, h4, ok_bind, ih', List.map_cons, List.sum_cons, List.sum_replicate,
        nsmul_eq_mul]
      congr 1; ring

theorem logpXnextLoop_const {evalX : List X → List X → U → Tm → PyM (List ℝ)} {S : List (List X)} {ut : List U} {tt : List Tm} {Mt : ℕ}
    (c : ℕ → ℝ) (is : List ℕ)
    (h : ∀ i ∈ is, ∃ R R' u t, S[i]? = some R ∧ S[i + 1]? = some R' ∧ ut[i]? = some u ∧ tt[i]? = some t ∧
      evalX R R' u t = .ok (List.replicate Mt (c i))) (acc : ℝ) :
    logpXnextLoop evalX S ut tt is acc = .ok (acc + Mt * (is.map c).sum) := by
  induction is generalizing acc with
  | nil => simp [logpXnextLoop]
  | cons i is ih =>
    obtain ⟨R, R', u, t, h1, h2, h3, h4, h5⟩ := h i (by simp)
    have ih' := ih fun j hj => h j (List.mem_cons_of_mem _ hj)
    rw [logpXnextLoop, getIdx_ok.mpr h1, ok_bind, getIdx_ok.mpr h2, ok_bind, getIdx_ok.mpr h3, ok_bind, getIdx_ok.mpr h4, ok_bind, h5,
      ok_bind, ih', List.map_cons, List.sum_cons, List.sum_replicate, nsmul_eq_mul]
    congr 1; ring

theorem fvalNumeric_const {evalY : List X → Y → Tm → PyM (List ℝ)} {evalX : List X → List X → U → Tm → PyM (List ℝ)}
    {evalX0 : List X → Tm → PyM (List ℝ)} {S : List (List X)} {yt : List (Option Y)} {ut : List U} {tt : List Tm} {Mt K : ℕ} (hMt : 0 < Mt)
    (hS : S.length = K + 1) (hrow : ∀ (i : ℕ) R, S[i]? = some R → R.length = Mt) (cy cx : ℕ → ℝ) (c0 : ℝ)
    (hy : ∀ i, i < K + 1 → ∃ R o t, S[i]? = some R ∧ yt[i]? = some o ∧ tt[i]? = some t ∧
      ((o = none ∧ cy i = 0) ∨ ∃ v, o = some v ∧ evalY R v t = .ok (List.replicate Mt (cy i))))
    (hx : ∀ i, i < K → ∃ R R' u t, S[i]? = some R ∧ S[i + 1]? = some R' ∧ ut[i]? = some u ∧ tt[i]? = some t ∧
      evalX R R' u t = .ok (List.replicate Mt (cx i)))
    (h0 : ∃ R t, S[0]? = some R ∧ tt[0]? = some t ∧ evalX0 R t = .ok (List.replicate Mt c0)) :
    fvalNumeric .py2 evalY evalX evalX0 S yt ut tt =
      .ok (-(c0 + ∑ i ∈ Finset.range (K + 1), cy i + ∑ i ∈ Finset.range K, cx i)) := by
  have hM : (Mt : ℝ) ≠ 0 := by exact_mod_cast hMt.ne'
  obtain ⟨R, t, e1, e2, e3⟩ := h0
  have hsh : estShape S = .ok Mt := by
    cases S with
    | nil => simp at hS
    | cons r S => rw [estShape, hrow 0 r rfl]
  have s1 : logpYFull .py2 evalY S yt tt = .ok (∑ i ∈ Finset.range (K + 1), cy i) := by
    rw [logpYFull, hsh, ok_bind]
    show (do let s ← logpYLoop evalY S yt tt (List.range S.length) 0; return s / Mt) = _
    rw [logpYLoop_const cy _ (fun i hi => hy i (by rw [List.mem_range] at hi; omega)), ok_bind, hS, zero_add, mul_div_cancel_left₀ _ hM]
    rfl
  have s2 : logpXnextFull .py2 evalX S ut tt = .ok (∑ i ∈ Finset.range K, cx i) := by
    rw [logpXnextFull, hsh, ok_bind]
    show (do let s ← logpXnextLoop evalX S ut tt (List.range (S.length - 1)) 0; return s / Mt) = _
    rw [logpXnextLoop_const cx _ (fun i hi => hx i (by rw [List.mem_range] at hi; omega)), ok_bind, hS, zero_add, mul_div_cancel_left₀ _ hM,
      Nat.add_sub_cancel]
    rfl
  rw [fvalNumeric, s1, ok_bind, s2, ok_bind, getIdx_ok.mpr e1, ok_bind, getIdx_ok.mpr e2, ok_bind, e3, ok_bind, npMean, List.sum_replicate,
    List.length_replicate, nsmul_eq_mul, mul_div_cancel_left₀ _ hM]
  show Except.ok _ = _
  congr 1; ring

end objective

/-! ## The evaluators of the model -/

/-- The functions by which the objective evaluates the log-densities with the model `M`: `eval_logp_y` and `eval_logp_xnext` of the class. Both
leave matrices in the model's Kalman filter object, so that a later call may find any `kf'` earlier calls could have left there. -/
structure Spec.LtvEvals (M : Ltv n m U T (Fin m → ℝ)) (kf : KF n m) (ey : List (List ℝ) → (Fin m → ℝ) → T → PyM (List ℝ))
    (ex : List (List ℝ) → List (List ℝ) → U → T → PyM (List ℝ)) : Prop where
  y : ∀ rows v t, ∃ kf', Kept M kf kf' ∧ ey rows v t = (M.evalLogpY kf' rows v t).map Prod.snd
  x : ∀ rows next u t, ∃ kf', Kept M kf kf' ∧ ex rows next u t = (M.evalLogpXnext kf' rows next u t).map Prod.snd

theorem Kept.rfl' (M : Ltv n m U T (Fin m → ℝ)) (kf : KF n m) : Kept M kf kf :=
  ⟨fun _ => rfl, fun _ => rfl, fun _ => rfl, fun _ => rfl, fun _ => rfl, fun _ => rfl⟩

theorem evalY_const {M : Ltv n m U T (Fin m → ℝ)} {kf kf' : KF n m} {D : Spec.LtvSys n m U T} (hD : Spec.Describes M kf D)
    (h5 : Kept M kf kf') (hR : ∀ t, (D.R t).PosDef) {Mt : ℕ} {R : List (List ℝ)} (hlen : R.length = Mt) {s : Est n} {Ms : Matrix (Fin n) (Fin n) ℝ}
    (hst : ∀ row ∈ R, Spec.StoresSmooth row s Ms) (hP : s.2.PosSemidef) (v : Fin m → ℝ) (t : T) :
    (M.evalLogpY kf' R v t).map Prod.snd = .ok (List.replicate Mt
      (∫ x, Spec.logNormal (D.R t) (v - (D.C t *ᵥ x + D.h t)) ∂(Spec.gauss s.1 s.2) + m / 2 * Real.log (2 * Real.pi))) := by
  have hoff : Spec.offset ((M.measDyn v t).2.2.1.or kf'.hk) = D.h t := by
    rcases hD.h with hh | ⟨hh1, hh2, hh3⟩
    · rw [given_or hh h5.h (v, t)]; rfl
    · rw [hh1 (v, t), Option.none_or, h5.h hh1, hh2, hh3]; rfl
  obtain ⟨kf'', e⟩ := C67_logp_y M kf' R v t _ (getStates_replicate hlen fun row hr => (hst row hr).1) (D.C t) _ (D.R t)
    (given_or hD.C h5.C (v, t)) rfl (given_or hD.R h5.R (v, t)) (hR t) (fun e he => by rw [List.mem_replicate] at he; rw [he.2]; exact hP)
  rw [e, hoff, hD.obs, List.map_replicate]
  rfl

theorem evalX_const {M : Ltv n m U T (Fin m → ℝ)} {kf kf' : KF n m} {D : Spec.LtvSys n m U T} (hD : Spec.Describes M kf D)
    (h5 : Kept M kf kf') (hQ : ∀ u t, (D.Q u t).PosDef) {Mt : ℕ} {R R' : List (List ℝ)} (hlen : R.length = Mt) (hlen' : R'.length = Mt)
    {s s' : Est n} {Ms Ms' : Matrix (Fin n) (Fin n) ℝ} (hst : ∀ row ∈ R, Spec.StoresSmooth row s Ms)
    (hst' : ∀ row ∈ R', Spec.StoresSmooth row s' Ms') (hP : (fromBlocks s.2 Ms Msᵀ s'.2).PosSemidef) (u : U) (t : T) :
    (M.evalLogpXnext kf' R R' u t).map Prod.snd = .ok (List.replicate Mt
      (∫ w, Spec.logNormal (D.Q u t) ((fun i => w (.inr i)) - (D.A u t *ᵥ (fun i => w (.inl i)) + D.f u t)) ∂(Spec.pairLaw s s' Ms) +
        n / 2 * Real.log (2 * Real.pi))) := by
  obtain ⟨kf'', e⟩ := C67_logp_xnext M kf' R R' u t (List.replicate Mt (s, s', Ms)) (by simp [hlen])
    (fun k row e hk he => by
      have : e = (s, s', Ms) := List.eq_of_mem_replicate (List.mem_of_getElem? he)
      subst this
      exact hst row (List.mem_of_getElem? hk))
    (by rw [List.map_replicate]; exact getStates_replicate hlen' fun row hr => (hst' row hr).1)
    (D.A u t) (D.Q u t) (D.f u t) (given_or hD.A h5.A (u, t)) (given_or hD.f h5.f (u, t)) (given_or hD.Q h5.Q (u, t)) (hQ u t)
    (fun e he => by rw [List.mem_replicate] at he; rw [he.2]; exact hP)
  rw [e, List.map_replicate]
  rfl

/-! ## One iteration -/

/-- The constant by which the objective differs from the expected log-likelihood; it depends only on how many measurements there are. -/
noncomputable def emConst (n m : ℕ) (y : ℕ → Option (Fin m → ℝ)) (K : ℕ) : ℝ :=
  (n / 2 * Real.log (2 * Real.pi)) + ∑ i ∈ Finset.range (K + 1), (if (y i).isSome then m / 2 * Real.log (2 * Real.pi) else 0) +
    ∑ _i ∈ Finset.range K, (n / 2 * Real.log (2 * Real.pi))

/-- The objective evaluated with the parameters of `D'` at smoothed statistics `st`. -/
theorem ltv_objective {M' : Ltv n m U T (Fin m → ℝ)} {kf' : KF n m} {D' : Spec.LtvSys n m U T} (hD' : Spec.Describes M' kf' D')
    (hP0' : M'.P0.PosDef) (hQ' : ∀ u t, (D'.Q u t).PosDef) (hR' : ∀ t, (D'.R t).PosDef) {u : ℕ → U} {y : ℕ → Option (Fin m → ℝ)} {tm : ℕ → T}
    {ut : List U} {tt : List T} {yt : List (Option (Fin m → ℝ))} {K Mt : ℕ} (hMt : 0 < Mt) (hut : ∀ i, i < K → ut[i]? = some (u i))
    (htt : ∀ i, i ≤ K → tt[i]? = some (tm i)) (hyt : ∀ i, i ≤ K → yt[i]? = some (y i)) {S : List (List (List ℝ))} (hS : S.length = K + 1)
    {st : ℕ → Est n × Matrix (Fin n) (Fin n) ℝ}
    (hst : ∀ (i : ℕ) R, S[i]? = some R → R.length = Mt ∧ ∀ row ∈ R, Spec.StoresSmooth row (st i).1 (st i).2)
    (hP : ∀ i, i ≤ K → (st i).1.2.PosSemidef) (hJ : ∀ i, i < K → (fromBlocks (st i).1.2 (st i).2 (st i).2ᵀ (st (i + 1)).1.2).PosSemidef)
    {ey ex} (he : Spec.LtvEvals M' kf' ey ex) :
    fvalNumeric .py2 ey ex (fun rows _ => M'.evalLogpX0 rows) S yt ut tt =
      .ok (-(∫ x, Spec.logNormal M'.P0 (x - M'.z0) ∂(Spec.gauss (st 0).1.1 (st 0).1.2) + D'.seenMean y tm 0 (st 0).1 +
        ∑ i ∈ Finset.range K, (D'.moveMean u tm i (st i) (st (i + 1)).1 + D'.seenMean y tm (i + 1) (st (i + 1)).1) + emConst n m y K)) := by
  have hget : ∀ i, i < K + 1 → ∃ R, S[i]? = some R := fun i hi => ⟨_, List.getElem?_eq_getElem (by omega)⟩
  rw [fvalNumeric_const hMt hS (fun i R h => (hst i R h).1)
    (fun i => D'.seenMean y tm i (st i).1 + if (y i).isSome then m / 2 * Real.log (2 * Real.pi) else 0)
    (fun i => D'.moveMean u tm i (st i) (st (i + 1)).1 + n / 2 * Real.log (2 * Real.pi))
    (∫ x, Spec.logNormal M'.P0 (x - M'.z0) ∂(Spec.gauss (st 0).1.1 (st 0).1.2) + n / 2 * Real.log (2 * Real.pi)) ?_ ?_ ?_]
  · rw [Finset.sum_add_distrib, Finset.sum_add_distrib, Finset.sum_add_distrib, Finset.sum_range_succ' (fun i => D'.seenMean y tm i (st i).1),
      emConst]
    congr 1; ring
  · intro i hi
    obtain ⟨R, hR⟩ := hget i hi
    obtain ⟨r1, r2⟩ := hst i R hR
    refine ⟨R, y i, tm i, hR, hyt i (by omega), htt i (by omega), ?_⟩
    cases hy : y i with
    | none => exact .inl ⟨rfl, by simp [Spec.LtvSys.seenMean, hy]⟩
    | some v =>
      refine .inr ⟨v, rfl, ?_⟩
      obtain ⟨kf1, k1, k2⟩ := he.y R v (tm i)
      rw [k2, evalY_const hD' k1 hR' r1 r2 (hP i (by omega))]
      simp [Spec.LtvSys.seenMean, hy]
  · intro i hi
    obtain ⟨R, hR⟩ := hget i (by omega)
    obtain ⟨R', hR'⟩ := hget (i + 1) (by omega)
    obtain ⟨r1, r2⟩ := hst i R hR
    obtain ⟨r1', r2'⟩ := hst _ R' hR'
    refine ⟨R, R', u i, tm i, hR, hR', hut i hi, htt i (by omega), ?_⟩
    obtain ⟨kf1, k1, k2⟩ := he.x R R' (u i) (tm i)
    rw [k2, evalX_const hD' k1 hQ' r1 r1' r2 r2' (hJ i hi)]
    rfl
  · obtain ⟨R, hR⟩ := hget 0 (by omega)
    obtain ⟨r1, r2⟩ := hst 0 R hR
    refine ⟨R, tm 0, hR, htt 0 (by omega), ?_⟩
    rw [C67_logp_x0 M' R _ (getStates_replicate r1 fun row hr => (r2 row hr).1) hP0'
      (fun s hs => by rw [List.mem_replicate] at hs; rw [hs.2]; exact hP 0 (by omega)), List.map_replicate]

/-- The filter alone. -/
theorem ltv_forward {M : Ltv n m U T (Fin m → ℝ)} {kf : KF n m} {D : Spec.LtvSys n m U T} (hD : Spec.Describes M kf D)
    (hQ : ∀ u t, (D.Q u t).PosSemidef) (hR : ∀ t, (D.R t).PosDef) (u : ℕ → U) (y : ℕ → Option (Fin m → ℝ)) (tm : ℕ → T) {N : ℕ} (k j : ℕ)
    (hy : ∀ i, j < i → i ≤ j + k → (y i).isSome) {kf' : KF n m} (h5 : Kept M kf kf') {rows : List (List ℝ)} {z : Fin n → ℝ} {P : Matrix (Fin n) (Fin n) ℝ} (h2 : P.PosSemidef)
    (h4 : ltvGetStates n rows = .ok (List.replicate N (z, P))) (l0 : ℝ) :
    ∃ kf1 F zT PT ll, ltvFilter M u y tm kf' rows (List.replicate N l0) j k = .ok (kf1, F, List.replicate N (l0 + ll)) ∧
      kfData z P (D.record u y tm j k) = .ok (zT, PT, ll) ∧ Kept M kf kf1 ∧ F.length = k + 1 ∧
      ∀ i, i ≤ k → ∃ zi Pi li, kfData z P (D.record u y tm j i) = .ok (zi, Pi, li) ∧
        ∀ R, F[i]? = some R → ltvGetStates n R = .ok (List.replicate N (zi, Pi)) := by
  induction k generalizing j kf' rows z P l0 with
  | zero =>
    refine ⟨kf', [rows], z, P, 0, by rw [ltvFilter, add_zero], rfl, h5, rfl, fun i hi => ⟨z, P, 0, by rw [Nat.le_zero.mp hi]; rfl, fun R hR => ?_⟩⟩
    rw [Nat.le_zero.mp hi] at hR
    cases hR
    exact h4
  | succ k ih =>
    obtain ⟨kfa, next, a1, a2, a3⟩ := ltv_update_step hD h5 h4 (u j) (tm j)
    have hPp : (predictFull z P (D.A (u j) (tm j)) (D.f (u j) (tm j)) (D.Q (u j) (tm j))).2.PosSemidef :=
      (posSemidef_conj h2 _).add (hQ _ _)
    obtain ⟨kfb, next', z', P', dl, b1, b2, b3, b4, -, b6⟩ := ltv_observe_step hD a2 hPp a3 y tm hR (j + 1)
    obtain ⟨kf1, F, zT, PT, ll, c1, c3, c4, c5, c6⟩ := ih (j + 1) (fun i hi hi' => hy i (by omega) (by omega)) b2 b3 b6 (l0 + dl)
    have happ : ∀ i {zi Pi li}, kfData z' P' (D.record u y tm (j + 1) i) = .ok (zi, Pi, li) →
        kfData z P (D.record u y tm j (i + 1)) = .ok (zi, Pi, dl + li) := fun i {zi Pi li} h =>
      kfData_append (predictFull z P (D.A (u j) (tm j)) (D.f (u j) (tm j)) (D.Q (u j) (tm j))).1
        (predictFull z P (D.A (u j) (tm j)) (D.f (u j) (tm j)) (D.Q (u j) (tm j))).2 _ _ b4 h
    refine ⟨kf1, rows :: F, zT, PT, dl + ll, ?_, happ k c3, c4, by simp [c5], fun i hi => ?_⟩
    · rw [ltvFilter, a1, ok_bind]
      simp only []
      rw [ltvObserveNext_eq (hy _ (by omega) (by omega)), b1, ok_bind]
      simp only []
      rw [List.zipWith_replicate, min_self, c1, ok_bind, ← add_assoc]
      rfl
    · cases i with
      | zero => exact ⟨z, P, 0, rfl, fun R hR => by cases hR; exact h4⟩
      | succ i =>
        obtain ⟨zi, Pi, li, g1, g2⟩ := c6 i (by omega)
        exact ⟨zi, Pi, dl + li, happ i g1, fun R hR => g2 R (by simpa using hR)⟩

/-- **C115.** One iteration of EM with a linear Gaussian (`LTV`) model. Filter and smooth the record with the parameters `θ` (model `M`), and evaluate the
objective `fval` that `maximize` minimises at `θ` and at new parameters `θ'` (model `M'`): its decrease is at most the increase of the
log-likelihood of the record, which is what the filter computes. So new parameters at which the objective is not larger never make the
record less likely. The inputs, times and transition matrices of the smoothed record must be such that those at the first time serve for all
(C45: the smoother uses index 0 throughout). -/
theorem C115_ltv_em {M M' : Ltv n m U T (Fin m → ℝ)} {kf kf' : KF n m} {D D' : Spec.LtvSys n m U T} (hD : Spec.Describes M kf D)
    (hD' : Spec.Describes M' kf' D') (hP0 : M.P0.PosDef) (hP0' : M'.P0.PosDef) (hQ : ∀ u t, (D.Q u t).PosDef) (hR : ∀ t, (D.R t).PosDef)
    (hQ' : ∀ u t, (D'.Q u t).PosDef) (hR' : ∀ t, (D'.R t).PosDef) {u : ℕ → U} {y : ℕ → Option (Fin m → ℝ)} {tm : ℕ → T} {ut : List U}
    {tt : List T} {yt : List (Option (Fin m → ℝ))} (K : ℕ) (hut : ∀ i, i < K → ut[i]? = some (u i)) (htt : ∀ i, i ≤ K → tt[i]? = some (tm i))
    (hyt : ∀ i, i ≤ K → yt[i]? = some (y i)) (hy : ∀ i, 0 < i → i ≤ K → (y i).isSome)
    (hinv : ∀ i, i < K → D.A (u i) (tm i) = D.A (u 0) (tm 0) ∧ D.f (u i) (tm i) = D.f (u 0) (tm 0) ∧ D.Q (u i) (tm i) = D.Q (u 0) (tm 0))
    (N : ℕ) {Mt : ℕ} (hMt : 0 < Mt) :
    ∃ kf1 F ll kf1' F' ll', ltvFilterAll M kf N u y tm K = .ok (kf1, F, List.replicate N ll) ∧
      ltvFilterAll M' kf' N u y tm K = .ok (kf1', F', List.replicate N ll') ∧
      Spec.filtered (Spec.gauss M.z0 M.P0) (D.seenAt y tm 0 ++ D.record u y tm 0 K) Set.univ = ENNReal.ofReal (Real.exp ll) ∧
      Spec.filtered (Spec.gauss M'.z0 M'.P0) (D'.seenAt y tm 0 ++ D'.record u y tm 0 K) Set.univ = ENNReal.ofReal (Real.exp ll') ∧
      ∀ G, Spec.Picks Mt G F → ∃ kf2 S, ltvBackward M ut tt kf1 G = .ok (kf2, S) ∧
        ∀ ey ex ey' ex', Spec.LtvEvals M kf ey ex → Spec.LtvEvals M' kf' ey' ex' →
          ∃ v v', fvalNumeric .py2 ey ex (fun rows _ => M.evalLogpX0 rows) S yt ut tt = .ok v ∧
            fvalNumeric .py2 ey' ex' (fun rows _ => M'.evalLogpX0 rows) S yt ut tt = .ok v' ∧ v - v' ≤ ll' - ll := by
  -- the filter at θ
  obtain ⟨kfb, rows, z, P, dl, b1, b2, b3, b4, b5, b6⟩ :=
    ltv_observe_step hD (Kept.rfl' M kf) hP0.posSemidef (C44_initial M N).1 y tm hR 0
  have hinv' : ∀ i, 0 ≤ i → i < 0 + K → ∃ u0 ut' t0 tt', ut = u0 :: ut' ∧ tt = t0 :: tt' ∧ D.A (u i) (tm i) = D.A u0 t0 ∧
      D.f (u i) (tm i) = D.f u0 t0 ∧ D.Q (u i) (tm i) = D.Q u0 t0 := by
    intro i _ hi
    have h1 := hut 0 (by omega)
    have h2 := htt 0 (by omega)
    obtain ⟨ut', rfl⟩ : ∃ ut', ut = u 0 :: ut' := by
      cases ut with
      | nil => simp at h1
      | cons a l => simp at h1; exact ⟨l, by rw [h1]⟩
    obtain ⟨tt', rfl⟩ : ∃ tt', tt = tm 0 :: tt' := by
      cases tt with
      | nil => simp at h2
      | cons a l => simp at h2; exact ⟨l, by rw [h2]⟩
    exact ⟨_, _, _, _, rfl, rfl, hinv i (by omega)⟩
  obtain ⟨kf1, F, zT, PT, ll, c1, c2, c3, -, -, st, d1, d2, d3, d4, d5, -⟩ :=
    ltv_suffix hD hP0.posSemidef hQ hR u y tm ut tt hMt K 0 (fun i h1 h2 => hy i h1 (by omega)) hinv' b2 b3 b6 dl
  -- the filter at θ'
  obtain ⟨kfb', rows', z', P', dl', b1', b2', b3', b4', b5', b6'⟩ :=
    ltv_observe_step hD' (Kept.rfl' M' kf') hP0'.posSemidef (C44_initial M' N).1 y tm hR' 0
  obtain ⟨kf1', F', zT', PT', ll', c1', c3', -⟩ := ltv_forward hD' (fun u t => (hQ' u t).posSemidef) hR' u y tm K 0 (fun i h1 h2 => hy i h1 (by omega)) b2' b3' b6' dl'
  have k1 := kfData_append _ _ _ _ b4 c3
  have k1' := kfData_append _ _ _ _ b4' c3'
  have hr := record_good hQ hR u y tm 0 K
  have hs := seenAt_good hR y tm 0
  have hl : ∀ op ∈ D.seenAt y tm 0 ++ D.record u y tm 0 K, op.Good ∧ op.Strict := fun op ho =>
    (List.mem_append.mp ho).elim (hs op) (hr op)
  have hl' : ∀ op ∈ D'.seenAt y tm 0 ++ D'.record u y tm 0 K, op.Good ∧ op.Strict := fun op ho =>
    (List.mem_append.mp ho).elim (seenAt_good hR' y tm 0 op) (record_good hQ' hR' u y tm 0 K op)
  refine ⟨kf1, F, dl + ll, kf1', F', dl' + ll', ?_, ?_, filtered_mass hP0.posSemidef _ (fun op ho => (hl op ho).1) k1,
    filtered_mass hP0'.posSemidef _ (fun op ho => (hl' op ho).1) k1', ?_⟩
  · rw [ltvFilterAll, b1, ok_bind]; exact c1
  · rw [ltvFilterAll, b1', ok_bind]; exact c1'
  intro G hG
  obtain ⟨kf2, S, s1, -, s3, s4⟩ := d1 G kf1 hG c2
  refine ⟨kf2, S, s1, fun ey ex ey' ex' he he' => ?_⟩
  have o := ltv_objective hD hP0 hQ hR hMt hut htt hyt s3 s4 d3 d4 he
  have o' := ltv_objective hD' hP0' hQ' hR' hMt hut htt hyt s3 s4 d3 d4 he'
  refine ⟨_, _, o, o', ?_⟩
  obtain ⟨_, _, L, _, _, L', q1, q2, q3⟩ := C115_em_inequality M.z0 M'.z0 hP0 hP0'
    (seenAt_same D D' y tm 0 (record_same D D' u y tm 0 K)) hl hl'
  cases k1.symm.trans q1
  cases k1'.symm.trans q2
  have hrts : rtsData M.z0 M.P0 (D.seenAt y tm 0 ++ D.record u y tm 0 K) = .ok (st 0).1 := (b5 _).trans d2
  have eQ : ∀ (E : Spec.LtvSys n m U T) (z0 : Fin n → ℝ) (P0 : Matrix (Fin n) (Fin n) ℝ),
      Spec.emQ M.z0 M.P0 (D.seenAt y tm 0 ++ D.record u y tm 0 K) z0 P0 (E.seenAt y tm 0 ++ E.record u y tm 0 K) =
        ∫ x, Spec.logNormal P0 (x - z0) ∂(Spec.gauss (st 0).1.1 (st 0).1.2) + E.seenMean y tm 0 (st 0).1 +
          ∑ i ∈ Finset.range K, (E.moveMean u tm i (st i) (st (i + 1)).1 + E.seenMean y tm (i + 1) (st (i + 1)).1) := by
    intro E z0 P0
    rw [Spec.emQ, emSum_seen M.z0 M.P0 hP0.posSemidef hR y tm 0 [] _ (fun op ho => (hr op ho).1) rfl hrts E,
      d5 ([] ++ D.seenAt y tm 0) _ (by rw [List.nil_append]; exact b4) (fun op ho => (hs op ho).1) E]
    obtain ⟨z1, P1, l1, f1, f2⟩ := C71_smoother_exact M.z0 M.P0 hP0.posSemidef [] (D.seenAt y tm 0 ++ D.record u y tm 0 K)
      (fun op ho => (hl op ho).1)
    cases f1
    rcases f2 with f2 | ⟨zs, Ps, zT, PT, llT, f3, -, -, f5⟩
    · cases hrts.symm.trans f2
    have f6 : (st 0).1 = (zs, Ps) := Except.ok.inj (hrts.symm.trans f3)
    rw [f5, average_smul, f6]
    simp only [zero_add]
    ring
  rw [eQ, eQ] at q3
  linarith

/-- A whole EM run: parameters `θ 0, θ 1, …` (models `M k`), where every maximisation ends at parameters at which its objective is not larger than
at those it started from. The log-likelihoods the filter computes, in every particle, never decrease. -/
theorem C115_ltv_em_run {M : ℕ → Ltv n m U T (Fin m → ℝ)} {kf : ℕ → KF n m} {D : ℕ → Spec.LtvSys n m U T}
    (hD : ∀ k, Spec.Describes (M k) (kf k) (D k)) (hP0 : ∀ k, (M k).P0.PosDef) (hQ : ∀ k u t, ((D k).Q u t).PosDef)
    (hR : ∀ k t, ((D k).R t).PosDef) {u : ℕ → U} {y : ℕ → Option (Fin m → ℝ)} {tm : ℕ → T} {ut : List U}
    {tt : List T} {yt : List (Option (Fin m → ℝ))} (K : ℕ) (hut : ∀ i, i < K → ut[i]? = some (u i)) (htt : ∀ i, i ≤ K → tt[i]? = some (tm i))
    (hyt : ∀ i, i ≤ K → yt[i]? = some (y i)) (hy : ∀ i, 0 < i → i ≤ K → (y i).isSome)
    (hinv : ∀ k i, i < K → (D k).A (u i) (tm i) = (D k).A (u 0) (tm 0) ∧ (D k).f (u i) (tm i) = (D k).f (u 0) (tm 0) ∧
      (D k).Q (u i) (tm i) = (D k).Q (u 0) (tm 0)) {N Mt : ℕ} (hN : 0 < N) (hMt : 0 < Mt)
    (ll : ℕ → ℝ) (F : ℕ → List (List (List ℝ))) (kf1 : ℕ → KF n m) (hF : ∀ k, ltvFilterAll (M k) (kf k) N u y tm K = .ok (kf1 k, F k, List.replicate N (ll k)))
    (hmax : ∀ k, ∃ G kf2 S ey ex ey' ex' v v', Spec.Picks Mt G (F k) ∧ ltvBackward (M k) ut tt (kf1 k) G = .ok (kf2, S) ∧
      Spec.LtvEvals (M k) (kf k) ey ex ∧ Spec.LtvEvals (M (k + 1)) (kf (k + 1)) ey' ex' ∧
      fvalNumeric .py2 ey ex (fun rows _ => (M k).evalLogpX0 rows) S yt ut tt = .ok v ∧
      fvalNumeric .py2 ey' ex' (fun rows _ => (M (k + 1)).evalLogpX0 rows) S yt ut tt = .ok v' ∧ v' ≤ v) :
    Monotone ll := by
  have hinj : ∀ {a b : ℝ}, List.replicate N a = List.replicate N b → a = b := fun {a b} h =>
    (List.replicate_right_inj hN.ne').mp h
  refine monotone_nat_of_le_succ fun k => ?_
  obtain ⟨k1, Fk, l, k1', F', l', e1, e2, -, -, h⟩ := C115_ltv_em (hD k) (hD (k + 1)) (hP0 k) (hP0 (k + 1)) (hQ k) (hR k) (hQ (k + 1))
    (hR (k + 1)) K hut htt hyt hy (hinv k) N hMt
  obtain ⟨G, kf2, S, ey, ex, ey', ex', v, v', g1, g2, g3, g4, g5, g6, g7⟩ := hmax k
  have a1 := Except.ok.inj (e1.symm.trans (hF k))
  have a2 := Except.ok.inj (e2.symm.trans (hF (k + 1)))
  simp only [Prod.mk.injEq] at a1 a2
  obtain ⟨rfl, rfl, a1⟩ := a1
  obtain ⟨-, -, a2⟩ := a2
  rw [← hinj a1, ← hinj a2]
  obtain ⟨kf2', S', s1, s2⟩ := h G g1
  cases g2.symm.trans s1
  obtain ⟨w, w', w1, w2, w3⟩ := s2 ey ex ey' ex' g3 g4
  cases g5.symm.trans w1
  cases g6.symm.trans w2
  linarith

/-- Two random walks observed in noise, with different noise levels, are such models. -/
example (q r q' r' : ℝ) (hq : 0 < q) (hr : 0 < r) (hq' : 0 < q') (hr' : 0 < r') (y : ℕ → Option (Fin 1 → ℝ)) (hy : ∀ i, 0 < i → (y i).isSome)
    (K N : ℕ) :=
  let W (q r : ℝ) : Ltv 1 1 Unit ℕ (Fin 1 → ℝ) :=
    { z0 := 0, P0 := 1, predDyn := fun _ _ => (none, none, some (q • 1)), measDyn := fun y _ => (y, none, none, some (r • 1)) }
  let E (q r : ℝ) : Spec.LtvSys 1 1 Unit ℕ :=
    { A := fun _ _ => 1, f := fun _ _ => 0, Q := fun _ _ => q • 1, C := fun _ => 1, h := fun _ => 0, R := fun _ => r • 1 }
  have hE (q r : ℝ) : Spec.Describes (W q r) (ltvInitKf (some 1) (some 1) none none (some 0) none) (E q r) :=
    { obs := fun _ _ => rfl
      A := .inr ⟨fun _ => rfl, fun _ => rfl⟩
      f := .inr ⟨fun _ => rfl, fun _ => rfl⟩
      Q := .inl fun _ => rfl
      C := .inr ⟨fun _ => rfl, fun _ => rfl⟩
      h := .inr ⟨fun _ => rfl, rfl, fun _ => rfl⟩
      R := .inl fun _ => rfl }
  have hp (c : ℝ) (hc : 0 < c) : (c • (1 : Matrix (Fin 1) (Fin 1) ℝ)).PosDef := Matrix.PosDef.one.smul hc
  C115_ltv_em (hE q r) (hE q' r') Matrix.PosDef.one Matrix.PosDef.one (fun _ _ => hp q hq) (fun _ => hp r hr) (fun _ _ => hp q' hq')
    (fun _ => hp r' hr') (u := fun _ => ()) (y := y) (tm := id) (ut := List.replicate K ()) (tt := List.range (K + 1))
    (yt := (List.range (K + 1)).map y) K (fun i hi => by rw [List.getElem?_replicate, if_pos hi])
    (fun i hi => by simp [show i < K + 1 by omega]) (fun i hi => by simp [show i < K + 1 by omega]) (fun i h _ => hy i h) (fun _ _ => ⟨rfl, rfl, rfl⟩) N (Mt := 3) (by omega)

end PyPE

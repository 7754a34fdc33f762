import Verif.Models.LtvStore
import Verif.Kalman.Exact

/-!
# C66: filtering with an LTV model is the exact Bayesian filter
-/

namespace PyPE
open Matrix MeasureTheory
open scoped ENNReal

variable {n m : ℕ} {U T : Type}

/-! ## Specification -/

/-- The linear system a user has in mind: matrices as functions of input and time. -/
structure Spec.LtvSys (n m : ℕ) (U T : Type) where
  A : U → T → Matrix (Fin n) (Fin n) ℝ
  f : U → T → Fin n → ℝ
  Q : U → T → Matrix (Fin n) (Fin n) ℝ
  C : T → Matrix (Fin m) (Fin n) ℝ
  h : T → Fin m → ℝ
  R : T → Matrix (Fin m) (Fin m) ℝ

/-- A matrix is either returned by the `get_…_dynamics` method at all times, or never and constant in the constructor. -/
def Spec.GivenAs {I α : Type} (method : I → Option α) (constructor : Option α) (v : I → α) : Prop :=
  (∀ i, method i = some (v i)) ∨ (∀ i, method i = none) ∧ ∀ i, constructor = some (v i)

/-- The class describes the system: measurements are used as they are, matrices are given as above (an offset `h` that is not given at
all is zero). -/
structure Spec.Describes (M : Ltv n m U T (Fin m → ℝ)) (kf : KF n m) (D : Spec.LtvSys n m U T) : Prop where
  obs : ∀ y t, (M.measDyn y t).1 = y
  A : Spec.GivenAs (fun i : U × T => (M.predDyn i.1 i.2).1) kf.A (fun i => D.A i.1 i.2)
  f : Spec.GivenAs (fun i : U × T => (M.predDyn i.1 i.2).2.1) kf.fk (fun i => D.f i.1 i.2)
  Q : Spec.GivenAs (fun i : U × T => (M.predDyn i.1 i.2).2.2) kf.Q (fun i => D.Q i.1 i.2)
  C : Spec.GivenAs (fun i : (Fin m → ℝ) × T => (M.measDyn i.1 i.2).2.1) kf.C (fun i => D.C i.2)
  h : Spec.GivenAs (fun i : (Fin m → ℝ) × T => (M.measDyn i.1 i.2).2.2.1) kf.hk (fun i => D.h i.2) ∨
    (∀ i : (Fin m → ℝ) × T, (M.measDyn i.1 i.2).2.2.1 = none) ∧ kf.hk = none ∧ ∀ t, D.h t = 0
  R : Spec.GivenAs (fun i : (Fin m → ℝ) × T => (M.measDyn i.1 i.2).2.2.2) kf.R (fun i => D.R i.2)

/-- What a filter does with the model: propagate, or use a measurement. -/
inductive Spec.LtvOp (U T : Type) where
  | update (u : U) (t : T)
  | measure (t : T)

/-- The step of the linear system that belongs to an operation. -/
def Spec.LtvSys.op (D : Spec.LtvSys n m U T) : Spec.LtvOp U T → Spec.LinOp n m
  | .update u t => .move (D.A u t) (D.f u t) (D.Q u t)
  | .measure t => .meas (D.C t) (D.h t) (D.R t)

/-- The code: `N` initial particles, then the operations (latest first); the log-likelihoods returned by `measure` are added up. -/
noncomputable def ltvRun (M : Ltv n m U T (Fin m → ℝ)) (kf : KF n m) (N : ℕ) (D : Spec.LtvSys n m U T) :
    (ops : List (Spec.LtvOp U T)) → Spec.Hist (ops.map D.op) → PyM (KF n m × List (List ℝ) × List ℝ)
  | [], _ => .ok (kf, M.initial N, List.replicate N 0)
  | .update u t :: ops, ys => do
    let (kf, rows, ll) ← ltvRun M kf N D ops ys
    let (kf, rows) ← M.update kf rows u t
    return (kf, rows, ll)
  | .measure t :: ops, ys => do
    let (kf, rows, ll) ← ltvRun M kf N D ops ys.2
    let (kf, rows, l) ← M.measure kf rows ys.1 t
    return (kf, rows, List.zipWith (· + ·) ll l)

/-! ## Proof -/

/-- A matrix that the methods never give keeps its constructor value. -/
def KeptBy {I α : Type} (method : I → Option α) (stored stored' : Option α) : Prop :=
  (∀ i, method i = none) → stored' = stored

theorem keptBy_or {I α : Type} {method : I → Option α} {s s' : Option α} (h : KeptBy method s s') (i : I) :
    KeptBy method s ((method i).or s') := fun hn => by rw [hn i, Option.none_or, h hn]

theorem given_or {I α : Type} {method : I → Option α} {s s' : Option α} {v : I → α} (h : Spec.GivenAs method s v)
    (hk : KeptBy method s s') (i : I) : (method i).or s' = some (v i) := by
  rcases h with h | ⟨h1, h2⟩
  · rw [h i]; rfl
  · rw [h1 i, Option.none_or, hk h1, h2 i]

structure Kept (M : Ltv n m U T (Fin m → ℝ)) (kf kf' : KF n m) : Prop where
  A : KeptBy (fun i : U × T => (M.predDyn i.1 i.2).1) kf.A kf'.A
  f : KeptBy (fun i : U × T => (M.predDyn i.1 i.2).2.1) kf.fk kf'.fk
  Q : KeptBy (fun i : U × T => (M.predDyn i.1 i.2).2.2) kf.Q kf'.Q
  C : KeptBy (fun i : (Fin m → ℝ) × T => (M.measDyn i.1 i.2).2.1) kf.C kf'.C
  h : KeptBy (fun i : (Fin m → ℝ) × T => (M.measDyn i.1 i.2).2.2.1) kf.hk kf'.hk
  R : KeptBy (fun i : (Fin m → ℝ) × T => (M.measDyn i.1 i.2).2.2.2) kf.R kf'.R

theorem ltvRun_eq (M : Ltv n m U T (Fin m → ℝ)) (kf : KF n m) (N : ℕ) (D : Spec.LtvSys n m U T) (hD : Spec.Describes M kf D)
    (hP0 : M.P0.PosSemidef) (hQ : ∀ u t, (D.Q u t).PosSemidef) (hR : ∀ t, (D.R t).PosDef)
    (ops : List (Spec.LtvOp U T)) (ys : Spec.Hist (ops.map D.op)) :
    ∃ z P ll kf' rows, kfRun M.z0 M.P0 (ops.map D.op) ys = .ok (z, P, ll) ∧ P.PosSemidef ∧
      ltvRun M kf N D ops ys = .ok (kf', rows, List.replicate N ll) ∧
      ltvGetStates n rows = .ok (List.replicate N (z, P)) ∧ Kept M kf kf' := by
  induction ops with
  | nil =>
    exact ⟨M.z0, M.P0, 0, kf, M.initial N, rfl, hP0, rfl, (C44_initial M N).1,
      ⟨fun _ => rfl, fun _ => rfl, fun _ => rfl, fun _ => rfl, fun _ => rfl, fun _ => rfl⟩⟩
  | cons op ops ih =>
    cases op with
    | update u t =>
      obtain ⟨z, P, ll, kf', rows, h1, h2, h3, h4, h5⟩ := ih ys
      obtain ⟨kf'', rows', e1, e2, e3, ⟨a1, a2, a3, a4, a5, a6⟩, -⟩ := C44_update M kf' rows u t _ h4 (D.A u t) (D.Q u t) (D.f u t)
        (given_or hD.A h5.A (u, t)) (given_or hD.f h5.f (u, t)) (given_or hD.Q h5.Q (u, t))
      refine ⟨D.f u t + D.A u t *ᵥ z, D.A u t * P * (D.A u t)ᵀ + D.Q u t, ll, kf'', rows', ?_,
        (posSemidef_conj h2 _).add (hQ u t), ?_, ?_, ?_⟩
      · show (kfRun M.z0 M.P0 (ops.map D.op) ys >>= fun r => _) = _
        rw [h1]; rfl
      · simp only [ltvRun, h3, ok_bind, e1]; rfl
      · rw [e3, List.map_replicate, add_comm]
      · refine ⟨?_, ?_, ?_, ?_, ?_, ?_⟩
        · rw [a1, ← given_or hD.A h5.A (u, t)]; exact keptBy_or h5.A (u, t)
        · rw [a2, ← given_or hD.f h5.f (u, t)]; exact keptBy_or h5.f (u, t)
        · rw [a3, ← given_or hD.Q h5.Q (u, t)]; exact keptBy_or h5.Q (u, t)
        · rw [a4]; exact h5.C
        · rw [a6]; exact h5.h
        · rw [a5]; exact h5.R
    | measure t =>
      obtain ⟨z, P, ll, kf', rows, h1, h2, h3, h4, h5⟩ := ih ys.2
      have hoff : Spec.offset ((M.measDyn ys.1 t).2.2.1.or kf'.hk) = D.h t := by
        rcases hD.h with hh | ⟨hh1, hh2, hh3⟩
        · rw [given_or hh h5.h (ys.1, t)]; rfl
        · rw [hh1 (ys.1, t), Option.none_or, h5.h hh1, hh2, hh3]; rfl
      obtain ⟨kf'', rows', e1, e2, e3, ⟨a1, a2, a3, a4, a5, a6⟩, -⟩ := C44_measure M kf' rows ys.1 t _ h4 (D.C t) _ (D.R t)
        (given_or hD.C h5.C (ys.1, t)) rfl (given_or hD.R h5.R (ys.1, t)) (hR t)
        (fun s hs => by rw [List.mem_replicate] at hs; rw [hs.2]; exact h2)
      rw [hoff, hD.obs] at e1 e3
      have hS : (D.C t * P * (D.C t)ᵀ + D.R t).PosDef := Matrix.PosDef.posSemidef_add (posSemidef_conj h2 _) (hR t)
      have hK : (P * (D.C t)ᵀ * (D.C t * P * (D.C t)ᵀ + D.R t)⁻¹) * (D.C t * P * (D.C t)ᵀ + D.R t) = P * (D.C t)ᵀ := by
        rw [Matrix.mul_assoc, Matrix.nonsing_inv_mul _ hS.det_pos.ne'.isUnit, Matrix.mul_one]
      refine ⟨z + (P * (D.C t)ᵀ * (D.C t * P * (D.C t)ᵀ + D.R t)⁻¹) *ᵥ (ys.1 - D.C t *ᵥ z - D.h t),
        P - P * (D.C t)ᵀ * (D.C t * P * (D.C t)ᵀ + D.R t)⁻¹ * (D.C t * P),
        ll + Spec.logNormal (D.C t * P * (D.C t)ᵀ + D.R t) (ys.1 - D.C t *ᵥ z - D.h t), kf'', rows', ?_, posterior_posSemidef h2 (hR t).posSemidef hK, ?_, e3.trans ?_, ?_⟩
      · show (kfRun M.z0 M.P0 (ops.map D.op) ys.2 >>= fun r => measureFull ys.1 r.1 r.2.1 (some (D.C t)) (some (D.h t)) (D.R t) >>=
          fun q => _) = _
        rw [h1, ok_bind, measureFull_eq (PosSemidef.isSymm' h2) (PosSemidef.isSymm' (hR t).posSemidef) hS]
        rfl
      · simp only [ltvRun, h3, ok_bind, e1]
        rw [List.map_replicate, List.zipWith_replicate, min_self]; rfl
      · rw [List.map_replicate]
      · refine ⟨?_, ?_, ?_, ?_, ?_, ?_⟩
        · rw [a4]; exact h5.A
        · rw [a5]; exact h5.f
        · rw [a6]; exact h5.Q
        · rw [a1, ← given_or hD.C h5.C (ys.1, t)]; exact keptBy_or h5.C (ys.1, t)
        · rw [a2]; exact keptBy_or h5.h (ys.1, t)
        · rw [a3, ← given_or hD.R h5.R (ys.1, t)]; exact keptBy_or h5.R (ys.1, t)

/-- **C66** Filtering with an LTV class: after any sequence of `update` and `measure` calls each of the `N` particles stores the mean and
covariance of the conditional law of the state given the measurements so far, and the log-likelihoods returned by `measure` add
up, for every particle, to the log density of the record of measurements. -/
theorem C66_ltv_filter_exact (M : Ltv n m U T (Fin m → ℝ)) (kf : KF n m) (N : ℕ) (D : Spec.LtvSys n m U T)
    (hD : Spec.Describes M kf D) (hP0 : M.P0.PosSemidef) (hQ : ∀ u t, (D.Q u t).PosSemidef) (hR : ∀ t, (D.R t).PosDef)
    (ops : List (Spec.LtvOp U T)) :
    ∃ (mean : Spec.Hist (ops.map D.op) → Fin n → ℝ) (cov : Matrix (Fin n) (Fin n) ℝ) (loglik : Spec.Hist (ops.map D.op) → ℝ),
      Spec.IsCondLaw (Spec.joint M.z0 M.P0 (ops.map D.op)) (fun ys => Spec.gauss (mean ys) cov) ∧ cov.PosSemidef ∧
      (Spec.joint M.z0 M.P0 (ops.map D.op)).map Prod.snd =
        (Spec.histVol (ops.map D.op)).withDensity (fun ys => ENNReal.ofReal (Real.exp (loglik ys))) ∧
      ∀ ys, ∃ kf' rows, ltvRun M kf N D ops ys = .ok (kf', rows, List.replicate N (loglik ys)) ∧ rows.length = N ∧
        ∀ row ∈ rows, Spec.Stores row (mean ys, cov) := by
  obtain ⟨mean, cov, ll, h1, h2, h3, h4⟩ := C65_kalman_filter_exact M.z0 M.P0 hP0 (ops.map D.op) (by
    intro op hop
    obtain ⟨o, -, rfl⟩ := List.mem_map.mp hop
    cases o with
    | update u t => exact hQ u t
    | measure t => exact hR t)
  refine ⟨mean, cov, ll, h3, h2, h4, fun ys => ?_⟩
  obtain ⟨z, P, l, kf', rows, e1, -, e3, e4, -⟩ := ltvRun_eq M kf N D hD hP0 hQ hR ops ys
  rw [h1 ys] at e1
  cases e1
  obtain ⟨g1, g2⟩ := (C44_get_states rows _).mp e4
  refine ⟨kf', rows, e3, by simpa using g1.symm, fun row hrow => ?_⟩
  obtain ⟨k, hk, rfl⟩ := List.getElem_of_mem hrow
  obtain ⟨s, hs1, hs2⟩ := g2 k _ (List.getElem?_eq_getElem hk)
  rw [List.getElem?_replicate] at hs1
  split at hs1
  · cases hs1; exact hs2
  · cases hs1

/-- A random walk observed in noise; `A`, `C`, `R` constant in the constructor, `Q` depending on time, no `h`. -/
example : Spec.Describes (n := 1) (m := 1) (U := ℝ) (T := ℕ)
    { z0 := 0, P0 := 1, predDyn := fun u t => (none, some fun _ => u, some (t • 1)), measDyn := fun y _ => (y, none, none, none) }
    (ltvInitKf (some 1) (some 1) none (some 1) none none)
    { A := fun _ _ => 1, f := fun u _ _ => u, Q := fun _ t => t • 1, C := fun _ => 1, h := fun _ => 0, R := fun _ => 1 } where
  obs _ _ := rfl
  A := .inr ⟨fun _ => rfl, fun _ => rfl⟩
  f := .inl fun _ => rfl
  Q := .inl fun _ => rfl
  C := .inr ⟨fun _ => rfl, fun _ => rfl⟩
  h := .inr ⟨fun _ => rfl, rfl, fun _ => rfl⟩
  R := .inr ⟨fun _ => rfl, fun _ => rfl⟩

end PyPE

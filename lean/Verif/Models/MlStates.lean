import Verif.Smooth.Disint
import Verif.Models.MlFfbsi

/-!
# C100 for the linear states of mixed linear/nonlinear Gaussian models: the means and covariances that `post_smoothing` stores
-/

namespace PyPE
open Real Spec MeasureTheory ProbabilityTheory Matrix
open scoped ENNReal

variable {lxi lz ly : ℕ} {U Y Ω R : Type} [MeasurableSpace R]

/-- The steps of a trajectory with nonlinear states `x` from time `k` on, where `y` was measured at time `k` and `qs` are the later inputs and measurements. -/
def trajFrom (x : ℕ → VecR lxi) : ℕ → Option Y → List (Slot U × Y) → List (Spec.TrajStep lxi (Slot U) ℕ Y)
  | k, y, [] => [⟨x k, .none, y, k⟩]
  | k, y, q :: qs => ⟨x k, q.1, y, k⟩ :: trajFrom x (k+1) (some q.2) qs

/-- The calls with measurements that are objects. -/
def objs (qs : List (Slot U × Y)) : List (Slot U × Slot Y) := qs.map fun q => (q.1, .obj q.2)

/-- The likelihood of what was measured at time `k`. -/
noncomputable def Spec.RbModel.likO (M : Spec.RbModel lxi lz ly (Slot U) ℕ Y) (k : ℕ) (x : VecR lxi) : Option Y → VecR lz → ℝ≥0∞
  | none, _ => 1
  | some y, z => Spec.likelihood (M.C x y k) (M.h x y k) (M.R x y k) (M.y y k) z

variable {M : Spec.RbModel lxi lz ly (Slot U) ℕ Y}

theorem likO_measurable (k : ℕ) (x : VecR lxi) (y : Option Y) : Measurable (M.likO k x y) := by
  cases y with
  | none => exact measurable_const
  | some y => exact measurable_likelihood _ _ _ _

theorem future_cons (a : Spec.TrajStep lxi (Slot U) ℕ Y) (x : ℕ → VecR lxi) (k : ℕ) (y : Option Y) (qs : List (Slot U × Y)) :
    M.future (a :: trajFrom x k y qs) = M.moveOps a (x k) ++ M.measOps ⟨x k, .none, y, k⟩ ++ M.future (trajFrom x k y qs) := by
  cases qs <;> rfl

theorem past_cons (a : Spec.TrajStep lxi (Slot U) ℕ Y) (x : ℕ → VecR lxi) (k : ℕ) (y : Option Y) (qs : List (Slot U × Y)) (i : ℕ) :
    M.past (a :: trajFrom x k y qs) (i + 1) = M.measOps a ++ M.moveOps a (x k) ++ M.past (trajFrom x k y qs) i := by
  cases qs <;> rfl

theorem past_zero (x : ℕ → VecR lxi) (k : ℕ) (y : Option Y) (qs : List (Slot U × Y)) :
    M.past (trajFrom x k y qs) 0 = M.measOps ⟨x k, .none, y, k⟩ := by
  cases qs <;> rfl

theorem follow_append {n : ℕ} (a b : List (Spec.DataOp n)) (ν : Measure (R × (Fin n → ℝ))) : Spec.follow (a ++ b) ν = Spec.follow b (Spec.follow a ν) := by
  induction a generalizing ν with
  | nil => rfl
  | cons op a ih => cases op <;> simp [Spec.follow, ih]

theorem follow_sfinite {n : ℕ} (a : List (Spec.DataOp n)) (ν : Measure (R × (Fin n → ℝ))) [SFinite ν] : SFinite (Spec.follow a ν) := by
  induction a generalizing ν with
  | nil => assumption
  | cons op a ih => cases op <;> exact ih _

theorem filtered_append {n : ℕ} (a b : List (Spec.DataOp n)) (μ : Measure (Fin n → ℝ)) : Spec.filtered μ (a ++ b) = Spec.filtered (Spec.filtered μ a) b := by
  unfold Spec.filtered
  rw [follow_append]
  congr 2
  rw [Measure.map_map (by fun_prop) measurable_snd]
  exact Measure.map_id.symm

theorem filtered_sfinite {n : ℕ} (a : List (Spec.DataOp n)) (μ : Measure (Fin n → ℝ)) [SFinite μ] : SFinite (Spec.filtered μ a) := by
  haveI := follow_sfinite a (μ.map fun x => ((), x))
  unfold Spec.filtered
  infer_instance

section
attribute [local irreducible] Spec.likelihood

theorem follow_meas (s : Spec.TrajStep lxi (Slot U) ℕ Y) (ν : Measure (R × VecR lz)) {g : R × VecR lz → ℝ≥0∞} (hg : Measurable g) :
    ∫⁻ p, g p ∂Spec.follow (M.measOps s) ν = ∫⁻ p, M.likO s.t s.xi s.y p.2 * g p ∂ν := by
  obtain ⟨x, u, y, t⟩ := s
  cases y with
  | none => simp [Spec.RbModel.measOps, Spec.follow, Spec.RbModel.likO]
  | some y =>
    simp only [Spec.RbModel.measOps, Spec.follow, Spec.RbModel.likO]
    have hl : Measurable fun p : R × VecR lz => Spec.likelihood (M.C x y t) (M.h x y t) (M.R x y t) (M.y y t) p.2 :=
      (measurable_likelihood _ _ _ _).comp measurable_snd
    rw [lintegral_withDensity_eq_lintegral_mul ν hl hg]
    simp only [Pi.mul_apply]

theorem follow_move (hG : M.Good) (hQz : ∀ x u t, (M.Qz x u t).PosDef) (h0 : ∀ x u t, M.Qxiz x u t = 0) (s : Spec.TrajStep lxi (Slot U) ℕ Y) (x' : VecR lxi)
    (ν : Measure (R × VecR lz)) [SFinite ν] {g : R × VecR lz → ℝ≥0∞} (hg : Measurable g) :
    ∫⁻ p, g p ∂Spec.follow (M.moveOps s x') ν = ∫⁻ p, ∫⁻ z', M.nextDens s.t s.u s.xi p.2 (x', z') * g (p.1, z') ∂volume ∂ν := by
  have e1 : M.condA s.xi s.u s.t = M.Az s.xi s.u s.t := by simp [Spec.RbModel.condA, h0]
  have e2 : M.condF s.xi s.u s.t x' = M.fz s.xi s.u s.t := by simp [Spec.RbModel.condF, h0]
  simp only [Spec.RbModel.moveOps, Spec.follow, e1, e2]
  have hl : Measurable fun p : R × VecR lz => Spec.likelihood (M.Axi s.xi s.u s.t) (M.fxi s.xi s.u s.t) (M.Qxi s.xi s.u s.t) x' p.2 :=
    (measurable_likelihood _ _ _ _).comp measurable_snd
  have hf : Measurable fun p : (R × VecR lz) × VecR lz => (p.1.1, M.Az s.xi s.u s.t *ᵥ p.1.2 + M.fz s.xi s.u s.t + p.2) := by
    refine (measurable_fst.comp measurable_fst).prodMk ?_
    have : Measurable fun q : VecR lz × VecR lz => M.Az s.xi s.u s.t *ᵥ q.1 + M.fz s.xi s.u s.t + q.2 := Continuous.measurable (by fun_prop)
    exact this.comp ((measurable_snd.comp measurable_fst).prodMk measurable_snd)
  have hgf : Measurable fun p : (R × VecR lz) × VecR lz => g (p.1.1, M.Az s.xi s.u s.t *ᵥ p.1.2 + M.fz s.xi s.u s.t + p.2) := hg.comp hf
  rw [lintegral_map hg hf, lintegral_prod _ hgf.aemeasurable]
  have hm : Measurable fun p : R × VecR lz => ∫⁻ v, g (p.1, M.Az s.xi s.u s.t *ᵥ p.2 + M.fz s.xi s.u s.t + v) ∂Spec.gauss 0 (M.Qz s.xi s.u s.t) :=
    Measurable.lintegral_prod_right' hgf
  rw [lintegral_withDensity_eq_lintegral_mul _ (f := fun p : R × VecR lz => Spec.likelihood (M.Axi s.xi s.u s.t) (M.fxi s.xi s.u s.t) (M.Qxi s.xi s.u s.t) x' p.2) hl hm]
  refine lintegral_congr fun p => ?_
  have hgp : Measurable fun z' : VecR lz => g (p.1, z') := hg.comp measurable_prodMk_left
  have hmv : Measurable fun v : VecR lz => M.Az s.xi s.u s.t *ᵥ p.2 + M.fz s.xi s.u s.t + v := by fun_prop
  simp only [Pi.mul_apply]
  rw [← lintegral_map (f := fun z' : VecR lz => g (p.1, z')) hgp hmv, gauss_likelihood (hQz _ _ _),
    lintegral_withDensity_eq_lintegral_mul _ (likelihood_measurable_obs _ _ _ _) hgp,
    ← lintegral_const_mul _ ((likelihood_measurable_obs _ _ _ _).mul hgp)]
  refine lintegral_congr fun z' => ?_
  simp only [Spec.RbModel.nextDens, Pi.mul_apply, mul_assoc]

end

/-- The transition density of the model on pairs of states. -/
noncomputable def Spec.RbModel.dens (M : Spec.RbModel lxi lz ly (Slot U) ℕ Y) (k : ℕ) (u : Slot U) (s s' : VecR lxi × VecR lz) : ℝ≥0∞ :=
  M.nextDens k u s.1 s.2 s'

/-- Integrate over the linear states after time `k`. -/
noncomputable def Spec.RbModel.lin (M : Spec.RbModel lxi lz ly (Slot U) ℕ Y) (Φ : (ℕ → VecR lz) → ℝ≥0∞) (x : ℕ → VecR lxi) (k : ℕ) (qs : List (Slot U × Y))
    (z : ℕ → VecR lz) : ℝ≥0∞ := linE volume M.dens M.loglik Φ x k (objs qs) z

theorem lin_cons (Φ : (ℕ → VecR lz) → ℝ≥0∞) (x : ℕ → VecR lxi) (k : ℕ) (q : Slot U × Y) (qs : List (Slot U × Y)) (z : ℕ → VecR lz) :
    M.lin Φ x k (q :: qs) z = ∫⁻ z', M.nextDens k q.1 (x k) (z k) (x (k+1), z') *
      (M.likO (k+1) (x (k+1)) (some q.2) z' * M.lin Φ x (k+1) qs (Function.update z (k+1) z')) ∂volume := by
  show linE volume M.dens M.loglik Φ x k ((q.1, .obj q.2) :: objs qs) z = _
  rw [linE]
  refine lintegral_congr fun z' => ?_
  rw [mul_assoc]
  rfl

section
variable (hd : ∀ k u, Measurable fun p : (VecR lxi × VecR lz) × (VecR lxi × VecR lz) => M.nextDens k u p.1.1 p.1.2 p.2) (hℓ : ∀ k y, Measurable (M.loglik k y))
include hd hℓ

theorem lin_measurable {A : Type} [MeasurableSpace A] {Φ : A → (ℕ → VecR lz) → ℝ≥0∞} (hΦ : Measurable (Function.uncurry Φ)) {x : A → ℕ → VecR lxi} (hx : Measurable x)
    (k : ℕ) (qs : List (Slot U × Y)) : Measurable fun p : A × (ℕ → VecR lz) => M.lin (Φ p.1) (x p.1) k qs p.2 :=
  linE_measurable hd hℓ hΦ hx k _

theorem lin_measurable' {Φ : (ℕ → VecR lz) → ℝ≥0∞} (hΦ : Measurable Φ) (x : ℕ → VecR lxi) (k : ℕ) (qs : List (Slot U × Y)) : Measurable (M.lin Φ x k qs) :=
  (lin_measurable (A := Unit) (Φ := fun _ => Φ) (x := fun _ => x) hd hℓ (hΦ.comp measurable_snd) measurable_const k qs).comp (measurable_prodMk_left (x := ()))

theorem lin_point {Φ : (ℕ → VecR lz) → ℝ≥0∞} (hΦ : Measurable Φ) (x : ℕ → VecR lxi) (k : ℕ) (qs : List (Slot U × Y)) :
    Measurable fun z : VecR lz => M.lin Φ x k qs fun _ => z :=
  (lin_measurable' hd hℓ hΦ x k qs).comp (measurable_pi_lambda _ fun _ => measurable_id)

/-- What happens after time `k`. -/
theorem follow_future (hG : M.Good) (hQz : ∀ x u t, (M.Qz x u t).PosDef) (h0 : ∀ x u t, M.Qxiz x u t = 0) (x : ℕ → VecR lxi) (k : ℕ) (y : Option Y)
    (qs : List (Slot U × Y)) (ν : Measure (R × VecR lz)) [SFinite ν] {F : R → ℝ≥0∞} (hF : Measurable F) :
    ∫⁻ p, F p.1 ∂Spec.follow (M.future (trajFrom x k y qs)) ν = ∫⁻ p, F p.1 * M.lin (fun _ => 1) x k qs (fun _ => p.2) ∂ν := by
  induction qs generalizing k y ν with
  | nil => simp [trajFrom, Spec.RbModel.future, Spec.follow, Spec.RbModel.lin, objs, linE]
  | cons q qs ih =>
    simp only [trajFrom]
    rw [future_cons, follow_append, follow_append]
    haveI := follow_sfinite (M.moveOps ⟨x k, q.1, y, k⟩ (x (k+1))) ν
    haveI := follow_sfinite (M.measOps ⟨x (k+1), .none, some q.2, k+1⟩) (Spec.follow (M.moveOps ⟨x k, q.1, y, k⟩ (x (k+1))) ν)
    have hl := lin_point hd hℓ (measurable_const (a := (1 : ℝ≥0∞))) x (k+1) qs
    have h1 : Measurable fun p : R × VecR lz => F p.1 * M.lin (fun _ => 1) x (k+1) qs (fun _ => p.2) := (hF.comp measurable_fst).mul (hl.comp measurable_snd)
    have h2 : Measurable fun p : R × VecR lz => M.likO (k+1) (x (k+1)) (some q.2) p.2 * (F p.1 * M.lin (fun _ => 1) x (k+1) qs (fun _ => p.2)) :=
      ((likO_measurable _ _ _).comp measurable_snd).mul h1
    rw [ih, follow_meas _ _ h1, follow_move hG hQz h0 _ _ _ h2]
    refine lintegral_congr fun p => ?_
    rw [lin_cons, ← lintegral_const_mul]
    · refine lintegral_congr fun z' => ?_
      have e : M.lin (fun _ => 1) x (k+1) qs (Function.update (fun _ => p.2) (k+1) z') = M.lin (fun _ => 1) x (k+1) qs (fun _ => z') :=
        linE_congr (by simp) fun _ _ _ _ _ => rfl
      rw [e]
      ring
    · refine Measurable.mul ?_ (Measurable.mul (likO_measurable _ _ _) ?_)
      · exact (nextDens_measurable M k q.1 (x k)).comp (f := fun z' : VecR lz => (p.2, (x (k+1), z'))) (by fun_prop)
      · exact (lin_measurable' hd hℓ measurable_const x (k+1) qs).comp ((measurable_updateAt (k+1)).comp measurable_prodMk_left)

/-- The smoothed law of a linear state, computed by integrating over all linear states. -/
theorem smoothed_lin (hG : M.Good) (hQz : ∀ x u t, (M.Qz x u t).PosDef) (h0 : ∀ x u t, M.Qxiz x u t = 0) (x : ℕ → VecR lxi) (n k : ℕ) (y : Option Y)
    (qs : List (Slot U × Y)) (hn : n ≤ qs.length) (μ : Measure (VecR lz)) [SFinite μ] {F : VecR lz → ℝ≥0∞} (hF : Measurable F) :
    ∫⁻ z, F z ∂Spec.smoothed μ (M.past (trajFrom x k y qs) n) (M.future ((trajFrom x k y qs).drop n)) =
      ∫⁻ z, M.likO k (x k) y z * M.lin (fun s => F (s (k+n))) x k qs (fun _ => z) ∂μ := by
  induction n generalizing k y qs μ with
  | zero =>
    unfold Spec.smoothed
    haveI := filtered_sfinite (M.past (trajFrom x k y qs) 0) μ
    haveI : SFinite (Spec.remember (Spec.filtered μ (M.past (trajFrom x k y qs) 0))) := by unfold Spec.remember; infer_instance
    have hl := lin_point hd hℓ (measurable_const (a := (1 : ℝ≥0∞))) x k qs
    rw [lintegral_map hF measurable_fst, List.drop_zero, follow_future hd hℓ hG hQz h0 x k y qs _ hF, Spec.remember,
      lintegral_map (f := fun p : VecR lz × VecR lz => F p.1 * M.lin (fun _ => 1) x k qs (fun _ => p.2)) ((hF.comp measurable_fst).mul (hl.comp measurable_snd)) (by fun_prop), past_zero]
    simp only [Pi.mul_apply, Function.comp_apply]
    unfold Spec.filtered
    rw [lintegral_map (f := fun z => F z * M.lin (fun _ => 1) x k qs fun _ => z) (hF.mul hl) measurable_snd,
      follow_meas _ _ (g := fun a : Unit × VecR lz => F a.2 * M.lin (fun _ => 1) x k qs fun _ => a.2) ((hF.mul hl).comp measurable_snd), lintegral_map ?_ (by fun_prop)]
    · refine lintegral_congr fun z => ?_
      simp only [Function.comp_apply]
      congr 1
      have e : M.lin (fun s => F (s (k+0))) x k qs (fun _ => z) = M.lin (fun _ => F z) x k qs (fun _ => z) :=
        linE_congr rfl fun w w' h1 _ _ => by rw [h1 (k+0) (by omega)]
      rw [e]
      exact (linE_mul hd hℓ _ x k _ _ fun k qs => (linE_measurable (A := Unit) (Φ := fun _ _ => 1) (x := fun _ => x) hd hℓ measurable_const measurable_const k qs).comp
        (measurable_prodMk_left (x := ()))).symm
    · exact ((likO_measurable _ _ _).comp measurable_snd).mul ((hF.mul hl).comp measurable_snd)
  | succ n ih =>
    obtain ⟨q, qs, rfl⟩ : ∃ q qs', qs = q :: qs' := by cases qs with | nil => simp at hn | cons q qs => exact ⟨_, _, rfl⟩
    haveI := filtered_sfinite (M.measOps ⟨x k, q.1, y, k⟩ ++ M.moveOps ⟨x k, q.1, y, k⟩ (x (k+1))) μ
    have e : Spec.smoothed μ (M.past (trajFrom x k y (q :: qs)) (n+1)) (M.future ((trajFrom x k y (q :: qs)).drop (n+1))) =
        Spec.smoothed (Spec.filtered μ (M.measOps ⟨x k, q.1, y, k⟩ ++ M.moveOps ⟨x k, q.1, y, k⟩ (x (k+1)))) (M.past (trajFrom x (k+1) (some q.2) qs) n)
          (M.future ((trajFrom x (k+1) (some q.2) qs).drop n)) := by
      unfold Spec.smoothed
      rw [trajFrom, past_cons, filtered_append, List.drop_succ_cons]
    rw [e, ih (k+1) (some q.2) qs (by simpa using hn)]
    have hΦ : Measurable fun s : ℕ → VecR lz => F (s (k+1+n)) := hF.comp (measurable_pi_apply _)
    have hl := lin_point hd hℓ hΦ x (k+1) qs
    have h1 := (likO_measurable (M := M) (k+1) (x (k+1)) (some q.2)).mul hl
    have h2 : Measurable fun z : VecR lz => M.lin (fun s => F (s (k+(n+1)))) x k (q :: qs) (fun _ => z) := lin_point hd hℓ (hF.comp (measurable_pi_apply _)) x k (q :: qs)
    have h3 : ∀ z, ∫⁻ z', M.nextDens k q.1 (x k) z (x (k+1), z') * (M.likO (k+1) (x (k+1)) (some q.2) z' * M.lin (fun s => F (s (k+1+n))) x (k+1) qs (fun _ => z')) ∂volume =
        M.lin (fun s => F (s (k+(n+1)))) x k (q :: qs) (fun _ => z) := fun z => by
      rw [lin_cons]
      refine lintegral_congr fun z' => ?_
      congr 2
      have hn' : n ≤ (objs qs).length := by simpa [objs] using hn
      refine linE_congr (by simp) fun w w' g1 g2 g3 => ?_
      rw [show k + (n+1) = k + 1 + n by omega]
      congr 1
      rcases Nat.eq_zero_or_pos n with rfl | hp
      · rw [g1 _ (by omega), g2 _ (by omega)]; simp
      · exact g3 _ (by omega) (by omega)
    unfold Spec.filtered
    rw [lintegral_map (f := fun z => M.likO (k+1) (x (k+1)) (some q.2) z * M.lin (fun s => F (s (k+1+n))) x (k+1) qs fun _ => z) h1 measurable_snd, follow_append]
    haveI := follow_sfinite (M.measOps ⟨x k, q.1, y, k⟩) (μ.map fun z : VecR lz => ((), z))
    rw [follow_move hG hQz h0 _ _ _ (g := fun a : Unit × VecR lz => M.likO (k+1) (x (k+1)) (some q.2) a.2 * M.lin (fun s => F (s (k+1+n))) x (k+1) qs fun _ => a.2)
      (h1.comp measurable_snd)]
    simp only [Function.comp_apply, Pi.mul_apply, h3]
    rw [follow_meas _ _ (g := fun a : Unit × VecR lz => M.lin (fun s => F (s (k+(n+1)))) x k (q :: qs) fun _ => a.2) (h2.comp measurable_snd), lintegral_map ?_ (by fun_prop)]
    exact ((likO_measurable _ _ _).comp measurable_snd).mul (h2.comp measurable_snd)

end

/-! ### The weighted average of a function of the nonlinear path and one linear state -/

/-- `∫ F(xi_0, …, xi_K, z_n) dp(z_n, y_0, …, y_K | xi)` up to the density of `xi`. -/
noncomputable def Spec.RbModel.stateMass (M : Spec.RbModel lxi lz ly (Slot U) ℕ Y) (μ : Measure (VecR lz)) (y : Option Y) (qs : List (Slot U × Y))
    (F : List (VecR lxi) → VecR lz → ℝ≥0∞) (n : ℕ) (x : ℕ → VecR lxi) : ℝ≥0∞ :=
  ∫⁻ z, M.likO 0 (x 0) y z * M.lin (fun s => F ((List.range (qs.length + 1)).map x) (s n)) x 0 qs (fun _ => z) ∂μ

/-- The conditional expectation of `F(xi_0, …, xi_K, z_n)` given the nonlinear path and the data. -/
noncomputable def Spec.RbModel.stateMean (M : Spec.RbModel lxi lz ly (Slot U) ℕ Y) (μ : Measure (VecR lz)) (y : Option Y) (qs : List (Slot U × Y))
    (F : List (VecR lxi) → VecR lz → ℝ≥0∞) (n : ℕ) (x : ℕ → VecR lxi) : ℝ≥0∞ :=
  M.stateMass μ y qs F n x / M.stateMass μ y qs (fun _ _ => 1) n x

theorem range_map_fin {α : Type} (n : ℕ) (f : ℕ → α) : (List.range n).map f = List.ofFn fun i : Fin n => f i := by
  apply List.ext_getElem <;> simp

theorem stateMass_trunc (μ : Measure (VecR lz)) (y : Option Y) (qs : List (Slot U × Y)) (G : List (VecR lxi) → VecR lz → ℝ≥0∞) (n : ℕ) (x : ℕ → VecR lxi) :
    M.stateMass μ y qs G n (fun i => ((List.range (qs.length + 1)).map x).getD i 0) = M.stateMass μ y qs G n x := by
  have hx : ∀ i ≤ qs.length, ((List.range (qs.length + 1)).map x).getD i 0 = x i := fun i hi => by
    simp [List.getD_eq_getElem?_getD, Nat.lt_succ_of_le hi]
  unfold Spec.RbModel.stateMass
  have hr : ((List.range (qs.length + 1)).map fun i => ((List.range (qs.length + 1)).map x).getD i 0) = (List.range (qs.length + 1)).map x :=
    List.map_congr_left fun i hi => hx i (Nat.lt_succ_iff.mp (List.mem_range.mp hi))
  rw [hr]
  refine lintegral_congr fun z => ?_
  beta_reduce
  rw [hx 0 (by omega)]
  congr 1
  exact linE_path (fun i hi => hx i (by simpa [objs] using hi)) _

section
variable (hd : ∀ k u, Measurable fun p : (VecR lxi × VecR lz) × (VecR lxi × VecR lz) => M.nextDens k u p.1.1 p.1.2 p.2) (hℓ : ∀ k y, Measurable (M.loglik k y))
include hd hℓ

theorem likO_joint (k : ℕ) (y : Option Y) : Measurable fun p : VecR lxi × VecR lz => M.likO k p.1 y p.2 := by
  cases y with
  | none => exact measurable_const
  | some y => exact (measurable_exp.comp (hℓ k (.obj y))).ennreal_ofReal

theorem stateMass_eq (hG : M.Good) (hQz : ∀ x u t, (M.Qz x u t).PosDef) (h0 : ∀ x u t, M.Qxiz x u t = 0) (μ : Measure (VecR lz)) [SFinite μ] (y : Option Y)
    (qs : List (Slot U × Y)) {F : List (VecR lxi) → VecR lz → ℝ≥0∞} (x : ℕ → VecR lxi) (hF : Measurable (F ((List.range (qs.length + 1)).map x))) {n : ℕ}
    (hn : n ≤ qs.length) : M.stateMass μ y qs F n x =
      ∫⁻ z, F ((List.range (qs.length + 1)).map x) z ∂Spec.smoothed μ (M.past (trajFrom x 0 y qs) n) (M.future ((trajFrom x 0 y qs).drop n)) := by
  rw [smoothed_lin hd hℓ hG hQz h0 x n 0 y qs hn μ hF, Spec.RbModel.stateMass]
  simp only [Nat.zero_add]

theorem stateMass_measurable (μ : Measure (VecR lz)) [SFinite μ] (y : Option Y) (qs : List (Slot U × Y)) {F : List (VecR lxi) → VecR lz → ℝ≥0∞}
    (hF : ∀ n, Measurable fun p : (Fin n → VecR lxi) × VecR lz => F (List.ofFn p.1) p.2) (n : ℕ) : Measurable (M.stateMass μ y qs F n) := by
  unfold Spec.RbModel.stateMass
  refine Measurable.lintegral_prod_right' (ν := μ) (f := fun p : (ℕ → VecR lxi) × VecR lz =>
    M.likO 0 (p.1 0) y p.2 * M.lin (fun s => F ((List.range (qs.length + 1)).map p.1) (s n)) p.1 0 qs (fun _ => p.2)) ?_
  refine Measurable.mul ?_ ?_
  · have h : Measurable fun p : (ℕ → VecR lxi) × VecR lz => (p.1 0, p.2) := by fun_prop
    exact (likO_joint hd hℓ 0 y).comp h
  · have hΦ : Measurable (Function.uncurry fun (x : ℕ → VecR lxi) (s : ℕ → VecR lz) => F ((List.range (qs.length + 1)).map x) (s n)) := by
      simp only [range_map_fin]
      have h : Measurable fun p : (ℕ → VecR lxi) × (ℕ → VecR lz) => ((fun i : Fin (qs.length + 1) => p.1 i), p.2 n) := by fun_prop
      exact (hF _).comp h
    exact (lin_measurable hd hℓ hΦ measurable_id 0 qs).comp (measurable_fst.prodMk (measurable_pi_lambda _ fun _ => measurable_snd))

theorem stateMass_one (hG : M.Good) (hQz : ∀ x u t, (M.Qz x u t).PosDef) (h0 : ∀ x u t, M.Qxiz x u t = 0) {z0 : VecR lz} {P0 : MatR lz lz} (hP : P0.PosSemidef)
    (y : Option Y) (qs : List (Slot U × Y)) (n : ℕ) (x : ℕ → VecR lxi) :
    M.stateMass (Spec.gauss z0 P0) y qs (fun _ _ => 1) n x ≠ 0 ∧ M.stateMass (Spec.gauss z0 P0) y qs (fun _ _ => 1) n x ≠ ∞ := by
  have e : M.stateMass (Spec.gauss z0 P0) y qs (fun _ _ => 1) n x = M.stateMass (Spec.gauss z0 P0) y qs (fun _ _ => 1) 0 x := rfl
  obtain ⟨z, P, ll, -, -, h⟩ := filtered_eq z0 P0 hP (M.past (trajFrom x 0 y qs) qs.length) (past_good hG _ _)
  have hd' : ∀ k y, M.future ((trajFrom x k y qs).drop qs.length) = [] := by
    clear e h
    induction qs with
    | nil => intro k y; rfl
    | cons q qs ih => intro k y; simpa [trajFrom] using ih (k+1) (some q.2)
  have h1 := stateMass_eq hd hℓ hG hQz h0 (Spec.gauss z0 P0) y qs (F := fun _ _ => 1) x measurable_const (le_refl qs.length)
  have e1 : M.stateMass (Spec.gauss z0 P0) y qs (fun _ _ => 1) n x = ENNReal.ofReal (exp ll) := by
    rw [show M.stateMass (Spec.gauss z0 P0) y qs (fun _ _ => 1) n x = M.stateMass (Spec.gauss z0 P0) y qs (fun _ _ => 1) qs.length x from rfl, h1, Spec.smoothed, hd',
      Spec.follow, Spec.remember, h, MeasureTheory.lintegral_one, Measure.map_map measurable_fst (by fun_prop), Measure.map_apply (by fun_prop) MeasurableSet.univ]
    simp
  rw [e1]
  simp [exp_pos]

/-- The joint expectation of a function of the nonlinear path and one linear state. -/
theorem joint_split {K : ℕ → Slot U → Kernel (VecR lxi × VecR lz) (VecR lxi × VecR lz)} (hK : ∀ t u s, K t u s = M.joint t u s)
    (hG : M.Good) (hQz : ∀ x u t, (M.Qz x u t).PosDef) (h0 : ∀ x u t, M.Qxiz x u t = 0) (μ0 : Measure (VecR lxi)) [SFinite μ0] (μ : Measure (VecR lz)) [SFinite μ]
    (y : Option Y) (qs : List (Slot U × Y)) {φ : List (VecR lxi × VecR lz) → ℝ≥0∞} (hφ : ∀ n, Measurable fun x : Fin n → VecR lxi × VecR lz => φ (List.ofFn x)) :
    ∫⁻ s, M.likO 0 s.1 y s.2 * pathsE K M.loglik φ 0 (objs qs) [] s ∂μ0.prod μ =
      ∫⁻ x0, nonE volume (fun x => ∫⁻ z, M.likO 0 (x 0) y z *
        M.lin (fun s => φ ((List.range (qs.length + 1)).map fun i => (x i, s i))) x 0 qs (fun _ => z) ∂μ) 0 qs.length (fun _ => x0) ∂μ0 := by
  have hlen : (objs qs).length = qs.length := by simp [objs]
  have hp : ∀ s : VecR lxi × VecR lz, pathsE K M.loglik φ 0 (objs qs) [] s =
      nonE volume (fun x => M.lin (fun s => φ ((List.range (qs.length + 1)).map fun i => (x i, s i))) x 0 qs (fun _ => s.2)) 0 qs.length (fun _ => s.1) := fun s => by
    have h := pathG_split (M := K) (μX := volume) (μZ := volume) (d := M.dens) hd (fun k u s => by
      rw [hK]; exact joint_density M k u s.1 s.2 (h0 _ _ _) (hG.Qxi _ _ _) (hQz _ _ _)) hℓ hφ 0 (objs qs) (fun _ => s.1) (fun _ => s.2)
    rw [hlen, Nat.zero_add] at h
    exact h
  have hΦ : Measurable (Function.uncurry fun (x : ℕ → VecR lxi) (s : ℕ → VecR lz) => φ ((List.range (qs.length + 1)).map fun i => (x i, s i))) := by
    simp only [range_map_fin]
    exact (hφ _).comp (measurable_pi_lambda _ fun i => ((measurable_pi_apply _).comp measurable_fst).prodMk ((measurable_pi_apply _).comp measurable_snd))
  have hL : Measurable fun p : VecR lz × (ℕ → VecR lxi) =>
      M.lin (fun s => φ ((List.range (qs.length + 1)).map fun i => (p.2 i, s i))) p.2 0 qs (fun _ => p.1) :=
    (lin_measurable hd hℓ hΦ measurable_id 0 qs).comp (measurable_snd.prodMk (measurable_pi_lambda _ fun _ => measurable_fst))
  have hN : Measurable fun s : VecR lxi × VecR lz => pathsE K M.loglik φ 0 (objs qs) [] s := by
    simp only [hp]
    exact (nonE_measurable (μ := volume) (W := fun (z : VecR lz) x => M.lin (fun s => φ ((List.range (qs.length + 1)).map fun i => (x i, s i))) x 0 qs (fun _ => z)) hL 0 qs.length).comp
      (measurable_snd.prodMk (measurable_pi_lambda _ fun _ => measurable_fst))
  have hN' : Measurable fun s : VecR lxi × VecR lz => M.likO 0 s.1 y s.2 * pathsE K M.loglik φ 0 (objs qs) [] s := (likO_joint hd hℓ 0 y).mul hN
  rw [lintegral_prod _ hN'.aemeasurable]
  refine lintegral_congr fun x0 => ?_
  have hW : Measurable (Function.uncurry fun (z : VecR lz) (x : ℕ → VecR lxi) => M.likO 0 x0 y z *
      M.lin (fun s => φ ((List.range (qs.length + 1)).map fun i => (x i, s i))) x 0 qs (fun _ => z)) :=
    ((likO_measurable 0 x0 y).comp measurable_fst).mul hL
  have h1 : ∀ z, M.likO 0 x0 y z * pathsE K M.loglik φ 0 (objs qs) [] (x0, z) = nonE volume (fun x => M.likO 0 x0 y z *
      M.lin (fun s => φ ((List.range (qs.length + 1)).map fun i => (x i, s i))) x 0 qs (fun _ => z)) 0 qs.length (fun _ => x0) := fun z => by
    rw [hp, nonE_mul (W := fun x => M.lin (fun s => φ ((List.range (qs.length + 1)).map fun i => (x i, s i))) x 0 qs (fun _ => z)) (hL.comp (measurable_prodMk_left (x := z)))]
  simp only [h1]
  rw [nonE_lintegral μ hW]
  exact nonE_congr fun w hw => by simp only [hw 0 le_rfl]

/-- Replacing `F` by its conditional expectation given the nonlinear path changes nothing. -/
theorem state_tower {K : ℕ → Slot U → Kernel (VecR lxi × VecR lz) (VecR lxi × VecR lz)} (hK : ∀ t u s, K t u s = M.joint t u s)
    (hG : M.Good) (hQz : ∀ x u t, (M.Qz x u t).PosDef) (h0 : ∀ x u t, M.Qxiz x u t = 0) (μ0 : Measure (VecR lxi)) [SFinite μ0] {z0 : VecR lz} {P0 : MatR lz lz}
    (hP : P0.PosSemidef) (y : Option Y) (qs : List (Slot U × Y)) {F : List (VecR lxi) → VecR lz → ℝ≥0∞}
    (hF : ∀ n, Measurable fun p : (Fin n → VecR lxi) × VecR lz => F (List.ofFn p.1) p.2) {n : ℕ} (hn : n ≤ qs.length) :
    (∀ m, Measurable fun x : Fin m → VecR lxi × VecR lz =>
      M.stateMean (Spec.gauss z0 P0) y qs F n (fun i => ((List.ofFn x).map Prod.fst).getD i 0)) ∧
    ∫⁻ s, M.likO 0 s.1 y s.2 * pathsE K M.loglik (fun path => M.stateMean (Spec.gauss z0 P0) y qs F n (fun i => (path.map Prod.fst).getD i 0)) 0 (objs qs) [] s
        ∂μ0.prod (Spec.gauss z0 P0) =
      ∫⁻ s, M.likO 0 s.1 y s.2 * pathsE K M.loglik (fun path => F (path.map Prod.fst) ((path[n]?.map Prod.snd).getD 0)) 0 (objs qs) [] s
        ∂μ0.prod (Spec.gauss z0 P0) := by
  have hsm : Measurable (M.stateMean (Spec.gauss z0 P0) y qs F n) :=
    (stateMass_measurable hd hℓ _ y qs hF n).div (stateMass_measurable hd hℓ _ y qs (F := fun _ _ => 1) (fun _ => measurable_const) n)
  have hx : ∀ m, Measurable fun x : Fin m → VecR lxi × VecR lz => fun i => ((List.ofFn x).map Prod.fst).getD i 0 := fun m => by
    refine measurable_pi_lambda _ fun i => ?_
    simp only [List.map_ofFn, List.getD_eq_getElem?_getD, List.getElem?_ofFn]
    split
    · simp only [Option.getD_some, Function.comp_apply]; exact measurable_fst.comp (measurable_pi_apply _)
    · exact measurable_const
  refine ⟨fun m => hsm.comp (hx m), ?_⟩
  have hφ2 : ∀ m, Measurable fun x : Fin m → VecR lxi × VecR lz => F ((List.ofFn x).map Prod.fst) (((List.ofFn x)[n]?.map Prod.snd).getD 0) := fun m => by
    simp only [List.map_ofFn, List.getElem?_ofFn]
    refine (hF m).comp ((measurable_pi_lambda _ fun i => measurable_fst.comp (measurable_pi_apply _)).prodMk ?_)
    split
    · exact measurable_snd.comp (measurable_pi_apply _)
    · exact measurable_const
  rw [joint_split hd hℓ hK hG hQz h0 μ0 _ y qs (φ := fun path => M.stateMean (Spec.gauss z0 P0) y qs F n (fun i => (path.map Prod.fst).getD i 0)) (fun m => hsm.comp (hx m)),
    joint_split hd hℓ hK hG hQz h0 μ0 _ y qs (φ := fun path => F (path.map Prod.fst) ((path[n]?.map Prod.snd).getD 0)) hφ2]
  refine lintegral_congr fun x0 => ?_
  congr 1
  funext x
  obtain ⟨d0, d1⟩ := stateMass_one hd hℓ hG hQz h0 hP y qs n x (z0 := z0)
  have e1 : ∀ s : ℕ → VecR lz, ((List.range (qs.length + 1)).map fun i => (x i, s i)).map Prod.fst = (List.range (qs.length + 1)).map x := fun s => by
    rw [List.map_map]; rfl
  have e2 : ∀ s : ℕ → VecR lz, ((((List.range (qs.length + 1)).map fun i => (x i, s i))[n]?).map Prod.snd).getD 0 = s n := fun s => by
    simp [Nat.lt_succ_of_le hn]
  have e3 : ∀ G : List (VecR lxi) → VecR lz → ℝ≥0∞, M.stateMass (Spec.gauss z0 P0) y qs G n (fun i => ((List.range (qs.length + 1)).map x).getD i 0) =
      M.stateMass (Spec.gauss z0 P0) y qs G n x := fun G => stateMass_trunc _ _ _ _ _ _
  simp only [e1, e2]
  have hc : M.stateMean (Spec.gauss z0 P0) y qs F n (fun i => ((List.range (qs.length + 1)).map x).getD i 0) =
      M.stateMass (Spec.gauss z0 P0) y qs F n x / M.stateMass (Spec.gauss z0 P0) y qs (fun _ _ => 1) n x := by
    unfold Spec.RbModel.stateMean; rw [e3, e3]
  rw [hc]
  show _ = M.stateMass (Spec.gauss z0 P0) y qs F n x
  conv_rhs => rw [← ENNReal.div_mul_cancel (b := M.stateMass (Spec.gauss z0 P0) y qs F n x) d0 d1]
  have hl := lin_point hd hℓ (measurable_const (a := (1 : ℝ≥0∞))) x 0 qs
  obtain ⟨c, hcd⟩ : ∃ c, c = M.stateMass (Spec.gauss z0 P0) y qs F n x / M.stateMass (Spec.gauss z0 P0) y qs (fun _ _ => 1) n x := ⟨_, rfl⟩
  rw [← hcd]
  have hll : Measurable fun z => M.likO 0 (x 0) y z * M.lin (fun _ => 1) x 0 qs (fun _ => z) := (likO_measurable 0 (x 0) y).mul hl
  show _ = c * ∫⁻ z, M.likO 0 (x 0) y z * M.lin (fun _ => 1) x 0 qs (fun _ => z) ∂Spec.gauss z0 P0
  rw [← lintegral_const_mul _ hll]
  refine lintegral_congr fun z => ?_
  have := linE_mul (μ := volume) (d := M.dens) hd hℓ c x 0 (objs qs) (fun _ => z)
    fun k qs => (linE_measurable (d := M.dens) (A := Unit) (Φ := fun _ _ => 1) (x := fun _ => x) hd hℓ measurable_const measurable_const k qs).comp (measurable_prodMk_left (x := ()))
  unfold Spec.RbModel.lin
  rw [this]
  ring

end

/-! ### The trajectory `post_smoothing` sees -/

theorem trajFrom_get (x : ℕ → VecR lxi) (k : ℕ) (y : Option Y) (qs : List (Slot U × Y)) (i : ℕ) (hi : i ≤ qs.length) :
    (trajFrom x k y qs)[i]? = some ⟨x (k+i), (qs[i]?.map Prod.fst).getD .none, if i = 0 then y else qs[i-1]?.map Prod.snd, k+i⟩ := by
  induction qs generalizing k y i with
  | nil => obtain rfl : i = 0 := by simpa using hi
           rfl
  | cons q qs ih =>
    cases i with
    | zero => rfl
    | succ i =>
      simp only [trajFrom, List.getElem?_cons_succ]
      rw [ih (k+1) (some q.2) i (by simpa using hi)]
      have h1 : k + 1 + i = k + (i+1) := by omega
      rw [h1]
      cases i with
      | zero => simp
      | succ i => simp

theorem trajFrom_length (x : ℕ → VecR lxi) (k : ℕ) (y : Option Y) (qs : List (Slot U × Y)) : (trajFrom x k y qs).length = qs.length + 1 := by
  induction qs generalizing k y with
  | nil => rfl
  | cons q qs ih => simp [trajFrom, ih]

/-- With buffers no longer than the run, `post_smoothing` reads the right data at every step, the last included. -/
theorem mlTraj_eq (zero : Y) {y0 : Slot Y} {qs : List (Slot U × Y)} {D : SData U Y} {T : Option ℕ} (hDat : Spec.RunData T y0 (objs qs) D) (hT : T.getD 0 ≤ qs.length + 1)
    (x : ℕ → VecR lxi) :
    ((List.range ((objs qs).length + 1)).map fun i => mlTrajStep zero D (objs qs).length (x i) i) = trajFrom x 0 (slotY zero y0) qs := by
  have hlen : (objs qs).length = qs.length := by simp [objs]
  rw [hlen]
  have hy : ∀ i, i ≤ qs.length → (D.y[i]?).map (slotY zero) = some (if i = 0 then slotY zero y0 else qs[i-1]?.map Prod.snd) := by
    intro i hi
    cases i with
    | zero => simp [hDat.y0]
    | succ i =>
      have hq : qs[i]? = some qs[i] := List.getElem?_eq_getElem (by omega)
      rw [hDat.y i (qs[i].1, .obj qs[i].2) (by simp [objs, hq])]
      simp [hq, slotY]
  have hyl : D.y.length = qs.length + 1 := by
    have h1 := hDat.ylen
    rw [hlen] at h1
    have h2 : qs.length < D.y.length := by
      have := hy qs.length le_rfl
      rcases h : D.y[qs.length]? with _ | a
      · rw [h] at this; simp at this
      · exact lt_of_getElem?_some h
    omega
  have htl : D.t.length = qs.length + 1 := by
    have h1 := hDat.tlen
    rw [hlen] at h1
    have h2 := lt_of_getElem?_some (hDat.t qs.length (by omega))
    omega
  refine List.ext_getElem? fun i => ?_
  rcases Nat.lt_or_ge qs.length i with hi | hi
  · rw [List.getElem?_eq_none (by simp; omega), List.getElem?_eq_none (by rw [trajFrom_length]; omega)]
  · rw [trajFrom_get x 0 _ qs i hi, List.getElem?_map, List.getElem?_range (by omega)]
    simp only [Option.map_some, Nat.zero_add]
    congr 1
    have hyi := hy i hi
    obtain ⟨a, ha⟩ : ∃ a, D.y[i]? = some a := ⟨_, List.getElem?_eq_getElem (by omega)⟩
    rw [ha, Option.map_some] at hyi
    have hti := hDat.t i (by omega)
    unfold mlTrajStep
    rcases Nat.lt_or_ge i qs.length with hk | hk
    · have hq : qs[i]? = some qs[i] := List.getElem?_eq_getElem hk
      have hu := hDat.u i (qs[i].1, .obj qs[i].2) (by simp [objs, hq])
      rw [if_pos hk]
      simp only [List.getD_eq_getElem?_getD, ha, hti, hu, hq, Option.getD_some, Option.some.inj hyi, Option.map_some]
    · obtain rfl : i = qs.length := by omega
      rw [if_neg (by omega), List.getLast?_eq_getElem?, List.getLast?_eq_getElem?, hyl, htl, Nat.add_sub_cancel, ha, hti]
      simp only [Option.getD_some, Option.some.inj hyi]
      simp

/-- The expectation of `F(xi_0, …, xi_K, z)` over the normal law stored for the linear state at time `n` in the rows of one returned trajectory. -/
noncomputable def Spec.stateE (F : List (VecR lxi) → VecR lz → ℝ≥0∞) (n : ℕ) (rows : List (MlRow lxi lz)) : ℝ≥0∞ :=
  match rows[n]? with
  | some (.post ((_, z, P), _)) => ∫⁻ z', F (rows.map MlRow.xi) z' ∂Spec.gauss z P
  | _ => 0

/-- `post_smoothing` stores the conditional law of every linear state given the nonlinear path. -/
theorem mlPost_states {H : MlHooks lxi lz ly (Slot U) ℕ Y} {o : MlObj lxi lz ly} (hD : Spec.RbDescribes H o M) (hG : M.Good) (hQz : ∀ x u t, (M.Qz x u t).PosDef)
    (h0 : ∀ x u t, M.Qxiz x u t = 0) (hd : ∀ k u, Measurable fun p : (VecR lxi × VecR lz) × (VecR lxi × VecR lz) => M.nextDens k u p.1.1 p.1.2 p.2)
    (hℓ : ∀ k y, Measurable (M.loglik k y)) {z0 : VecR lz} {P0 : MatR lz lz} (hP0 : P0.PosSemidef)
    {init : List (VecR lxi) → List (VecR lz × MatR lz lz)} (hi : ∀ xs, init xs = List.replicate xs.length (z0, P0))
    (zero : Y) {y0 : Slot Y} {qs : List (Slot U × Y)} {D : SData U Y} {T : Option ℕ} (hDat : Spec.RunData T y0 (objs qs) D) (hT : T.getD 0 ≤ qs.length + 1) {m : ℕ}
    (hm : 0 < m) {V Ω' : Type} (other : SmoothCallbacks (MlRow lxi lz) U Y V Ω') {F : List (VecR lxi) → VecR lz → ℝ≥0∞}
    (hF : ∀ n, Measurable fun p : (Fin n → VecR lxi) × VecR lz => F (List.ofFn p.1) p.2) {n : ℕ} (hn : n ≤ qs.length) :
    Spec.ReadsPaths (mlRest H o init zero other D).postSmoothing MlRow.samp m ((objs qs).length + 1) (Spec.stateE F n)
      (fun path => M.stateMean (Spec.gauss z0 P0) (slotY zero y0) qs F n (fun i => (path.map Prod.fst).getD i 0)) := by
  have hlen : (objs qs).length = qs.length := by simp [objs]
  intro traj σ hl hr
  obtain ⟨out, h1, h2, h3⟩ := mlPostHook_spec hD hG hQz (init := init) (fun xs => by rw [hi]; simp) (fun xs q hq => by
    rw [hi] at hq; rw [List.eq_of_mem_replicate hq]; exact hP0) zero hDat hm traj σ hl hr
  refine ⟨out, h1, fun j hj => ?_⟩
  have hq : (init ((List.range m).map fun j => (σ j 0).1))[j]? = some (z0, P0) := by rw [hi]; simp [hj]
  obtain ⟨ll, h⟩ := h3 j hj z0 P0 hq
  simp only [mlTraj_eq zero hDat hT (fun i => (σ j i).1)] at h
  choose! st zs Ps Mz g1 g2 g3 using h
  have hp : pathOf out j = (List.range (qs.length + 1)).map fun i => .post (((σ j i).1, zs i, Ps i), Mz i) := by
    unfold pathOf
    rw [filterMap_range out _ (fun i => .post (((σ j i).1, zs i, Ps i), Mz i)), h2, hlen]
    intro t a ha
    have ht : t < (objs qs).length + 1 := by rw [← h2]; exact lt_of_getElem?_some ha
    have := g1 t ht
    rw [ha] at this
    rw [Option.some.inj this]
    exact g2 t ht
  have hxi : (pathOf out j).map MlRow.xi = (List.range (qs.length + 1)).map fun i => (σ j i).1 := by
    rw [hp, List.map_map]; rfl
  have hFx : Measurable (F ((List.range (qs.length + 1)).map fun i => (σ j i).1)) := by
    rw [range_map_fin]
    exact (hF _).comp (measurable_prodMk_left (x := fun i : Fin (qs.length + 1) => (σ j i).1))
  have hE : Spec.stateE F n (pathOf out j) = ∫⁻ z', F ((List.range (qs.length + 1)).map fun i => (σ j i).1) z' ∂Spec.gauss (zs n) (Ps n) := by
    have hrow : (pathOf out j)[n]? = some (.post (((σ j n).1, zs n, Ps n), Mz n)) := by rw [hp]; simp [Nat.lt_succ_of_le hn]
    unfold Spec.stateE
    rw [hrow, hxi]
  have hmap : ((List.range ((objs qs).length + 1)).map (σ j)).map Prod.fst = (List.range (qs.length + 1)).map fun i => (σ j i).1 := by
    rw [List.map_map, hlen]; rfl
  rw [hE]
  beta_reduce
  rw [hmap]
  have e3 : ∀ G : List (VecR lxi) → VecR lz → ℝ≥0∞, M.stateMass (Spec.gauss z0 P0) (slotY zero y0) qs G n
      (fun i => ((List.range (qs.length + 1)).map fun i => (σ j i).1).getD i 0) = M.stateMass (Spec.gauss z0 P0) (slotY zero y0) qs G n fun i => (σ j i).1 := fun G =>
    stateMass_trunc _ _ _ _ _ _
  unfold Spec.RbModel.stateMean
  rw [e3, e3, stateMass_eq hd hℓ hG hQz h0 _ _ qs _ hFx hn, stateMass_eq hd hℓ hG hQz h0 _ _ qs (F := fun _ _ => 1) _ measurable_const hn, g3 n (by omega),
    lintegral_smul_measure, lintegral_smul_measure]
  simp only [MeasureTheory.lintegral_one, measure_univ, smul_eq_mul, mul_one]
  rw [ENNReal.mul_div_right_comm, ENNReal.div_self (by simp [exp_pos]) ENNReal.ofReal_ne_top, one_mul]

/-- **C100** The linear states: under the hypotheses of `C100_mixed_gaussian`, if the buffers were not preallocated longer than the run, the likelihood estimate times the
average over the returned trajectories of `E[F(xi_0, …, xi_K, z)]`, `z` normal with the mean and covariance stored for time `n`, has expectation
`E[Π_t p(y_t | xi_t, z_t) F(xi_0, …, xi_K, z_n)]`: the smoothed means and covariances describe the linear state exactly, whatever the number of particles. -/
theorem C100_linear_states {Ωz V : Type} [MeasurableSpace Ω] [MeasurableSpace Ωz] {H : MlHooks 1 lz ly (Slot U) ℕ Y} {o : MlObj 1 lz ly}
    {M : Spec.RbModel 1 lz ly (Slot U) ℕ Y} (hD : Spec.RbDescribes H o M) (hG : M.Good) (hQz : ∀ x u t, (M.Qz x u t).PosDef)
    (hQ0 : ∀ x u t, M.Qxiz x u t = 0) {o0 : MlX0 1 lz} (hPx : o0.Pxi0.PosSemidef) (hPz : o0.Pz0.PosSemidef)
    {ρ : Measure Ω} [IsProbabilityMeasure ρ] {mvn : VecR 1 × MatR 1 1 → Ω → VecR 1} (hm : ∀ a, Measurable (mvn a))
    (hmvn : ∀ a, a.2.PosSemidef → ρ.map (mvn a) = Spec.gauss a.1 a.2)
    {ρz : Measure Ωz} [IsProbabilityMeasure ρz] {mvz : VecR lz × MatR lz lz → Ωz → VecR lz} (hz : ∀ a, Measurable (mvz a))
    (hmvz : ∀ a, a.2.PosSemidef → ρz.map (mvz a) = Spec.gauss a.1 a.2) {N m : ℕ} (hN : 0 < N) (hM : 0 < m)
    {K : ℕ → Slot U → Kernel (VecR 1 × VecR lz) (VecR 1 × VecR lz)} (hK : ∀ t u s, K t u s = M.joint t u s)
    (hmeas : ∀ t y, Measurable (M.loglik t y)) (hd : ∀ k u, Measurable fun p : (VecR 1 × VecR lz) × (VecR 1 × VecR lz) => M.nextDens k u p.1.1 p.1.2 p.2)
    (res : ℝ) (zero : Y) (other : SmoothCallbacks (MlRow 1 lz) U Y V (Fin m → Ωz)) (user : Option SOpts)
    (d : AllDraws (Fin m → Ωz)) (fuel : ℕ) {F : List (VecR 1) → VecR lz → ℝ≥0∞}
    (hF : ∀ n, Measurable fun p : (Fin n → VecR 1) × VecR lz => F (List.ofFn p.1) p.2)
    {T : Option ℕ} {s0 : PT (RbP 1 lz) U Y} (hs : PT.init N T 0 = .ok s0) (qs : List (Slot U × Y)) (hT : T.getD 0 ≤ qs.length + 1) {n : ℕ} (hn : n ≤ qs.length) :
    let est := runWeighted (smoothRbE (Measure.pi fun _ : Fin m => ρz) MlRow.filt
      (fun D => rbSmooth (mlLogpRows H o) (mlLast H o mvz) (mlBack H o mvz) (mlRest H o o0.rbInitial zero other D)) m "full" user d fuel
      (pathMean (Spec.stateE F n) m))
    let paths := pathsE K M.loglik (fun path => F (path.map Prod.fst) ((path[n]?.map Prod.snd).getD 0)) 0 (qs.map fun q => (q.1, .obj q.2)) []
    (∀ y0, ∫⁻ ω, stepsE (Measure.pi fun _ : Fin N => ρ) (qs.map fun q => (q.1, .obj q.2))
        (fun ds => est (s0.run (rbfOps (mlMarkov N H o o0 mvn) res) (history (some (.obj y0, ω)) ds))) ∂(Measure.pi fun _ : Fin N => ρ) =
      ∫⁻ s, ENNReal.ofReal (exp (Spec.logNormal (M.R s.1 y0 0) (M.y y0 0 - M.C s.1 y0 0 *ᵥ s.2 - M.h s.1 y0 0))) * paths s
        ∂(Spec.gauss o0.xi0 o0.Pxi0).prod (Spec.gauss o0.z0 o0.Pz0)) ∧
    (qs ≠ [] → stepsE (Measure.pi fun _ : Fin N => ρ) (qs.map fun q => (q.1, .obj q.2))
        (fun ds => est (s0.run (rbfOps (mlMarkov N H o o0 mvn) res) (history none ds))) =
      ∫⁻ s, paths s ∂(Spec.gauss o0.xi0 o0.Pxi0).prod (Spec.gauss o0.z0 o0.Pz0)) := by
  haveI hmk := joint_markov hK
  have hst := fun y => state_tower hd hmeas hK hG hQz hQ0 (Spec.gauss o0.xi0 o0.Pxi0) hPz y qs hF hn (z0 := o0.z0)
  have h := fun y0 => C100_unbiased (Kf := mlMarkov N H o o0 mvn) (νf := Measure.pi fun _ : Fin N => ρ) hN
    (fun p _ => Measure.isProbabilityMeasure_map (by fun_prop)) hmk (ml_samples hD hG hPx hPz hm hmvn hN hK hmeas) res
    (ml_backward hD hG hQz hQ0 hz hmvz m hK) (rest := mlRest H o o0.rbInitial zero other) hM user d fuel
    (φ := fun path => M.stateMean (Spec.gauss o0.z0 o0.Pz0) (slotY zero y0) qs F n (fun i => (path.map Prod.fst).getD i 0)) (hst _).1 (ψ := Spec.stateE F n) hs y0
    (objs qs) (by
      intro q hq
      obtain ⟨q', -, rfl⟩ := List.mem_map.mp hq
      exact ⟨_, rfl⟩) (fun D hDat => mlPost_states hD hG hQz hQ0 hd hmeas hPz (fun xs => rfl) zero hDat hT hM other hF hn)
  refine ⟨fun y0 => ?_, fun hne => ?_⟩
  · refine ((h (.obj y0)).1 ⟨_, rfl⟩).trans ?_
    exact (hst (some y0)).2
  · refine ((h .none).2 rfl (by simpa [objs] using hne)).trans ?_
    have := (hst none).2
    simp only [Spec.RbModel.likO, one_mul] at this
    exact this

/-- C100: the hypotheses are met: the second moment of the smoothed linear state at the middle of three time steps. -/
example (y0 y1 y2 : ℝ) (other : SmoothCallbacks (MlRow 1 1) ℝ ℝ Unit (Fin 2 → VecR 1)) (d : AllDraws (Fin 2 → VecR 1)) :
    ∃ (mvn : VecR 1 × MatR 1 1 → VecR 1 → VecR 1) (K : ℕ → Slot ℝ → Kernel (VecR 1 × VecR 1) (VecR 1 × VecR 1))
    (s0 : PT (RbP 1 1) ℝ ℝ), (∀ t u s, K t u s = smoToyM.joint t u s) ∧ ∫⁻ ω, stepsE (Measure.pi fun _ : Fin 3 => Spec.gauss 0 1) [(.none, .obj y1), (.none, .obj y2)]
        (fun ds => runWeighted (smoothRbE (Measure.pi fun _ : Fin 2 => Spec.gauss 0 1) MlRow.filt
          (fun D => rbSmooth (mlLogpRows rbfToyH smoToyO) (mlLast rbfToyH smoToyO mvn) (mlBack rbfToyH smoToyO mvn)
            (mlRest rbfToyH smoToyO (MlX0.rbInitial ⟨0, 1, 0, 1⟩) 0 other D)) 2 "full" none d 0
          (pathMean (Spec.stateE (fun _ z => ENNReal.ofReal (z 0 ^ 2)) 1) 2))
          (s0.run (rbfOps (mlMarkov 3 rbfToyH smoToyO ⟨0, 1, 0, 1⟩ mvn) 0.5) (history (some (.obj y0, ω)) ds))) ∂(Measure.pi fun _ : Fin 3 => Spec.gauss 0 1) =
      ∫⁻ s, ENNReal.ofReal (exp (Spec.logNormal !![1] ((fun _ => y0) - !![1] *ᵥ s.2 - s.1))) *
        pathsE K smoToyM.loglik (fun path => ENNReal.ofReal (((path[1]?.map Prod.snd).getD (0 : VecR 1)) 0 ^ 2)) 0 [(.none, .obj y1), (.none, .obj y2)] [] s
        ∂(Spec.gauss (0 : VecR 1) 1).prod (Spec.gauss (0 : VecR 1) 1) := by
  obtain ⟨mvn, h1, h2⟩ := exists_mvn 1
  have hk : ∀ t u, ∃ K : Kernel (VecR 1 × VecR 1) (VecR 1 × VecR 1), ∀ s, K s = smoToyM.joint t u s := fun t u =>
    joint_kernel smoToyM t u (fun _ => rfl) (fun _ => rfl) (Continuous.measurable (by simp only [smoToyM, rbfToyM]; fun_prop))
  choose K hK using hk
  obtain ⟨s0, hs⟩ : ∃ s0 : PT (RbP 1 1) ℝ ℝ, PT.init 3 none 0 = .ok s0 := ⟨_, rfl⟩
  refine ⟨mvn, K, s0, hK, ?_⟩
  have h := (C100_linear_states smoToy_describes smoToy_good (fun _ _ _ => posDef_one_iff.2 (by simp [smoToyM, rbfToyM])) (fun _ _ _ => rfl)
    (o0 := ⟨0, 1, 0, 1⟩) (PosSemidef.one) PosSemidef.one h1 h2 h1 h2 (N := 3) (m := 2) (by omega) (by omega) hK
    (fun t y => by
      cases y with
      | obj y =>
        have : Continuous fun s : VecR 1 × VecR 1 => Spec.logNormal (!![1] : MatR 1 1) ((fun _ => y) - !![1] *ᵥ s.2 - s.1) :=
          (continuous_logNormal _).comp (by fun_prop)
        exact this.measurable
      | _ => exact measurable_const)
    (fun k u => by
      simp only [Spec.RbModel.nextDens, Spec.likelihood, smoToyM, rbfToyM]
      have q : ∀ {Q : MatR 1 1} {f : (VecR 1 × VecR 1) × (VecR 1 × VecR 1) → VecR 1}, Continuous f → Measurable fun p => ENNReal.ofReal (exp (Spec.logNormal Q (f p))) :=
        fun hf => (measurable_exp.comp ((continuous_logNormal _).comp hf).measurable).ennreal_ofReal
      refine Measurable.fun_mul (q ?_) (q ?_) <;> fun_prop)
    0.5 0 other none d 0 (F := fun _ z => ENNReal.ofReal (z 0 ^ 2)) (fun n => by fun_prop) hs [(.none, y1), (.none, y2)] (by simp) (n := 1) (by simp)).1 y0
  simp only [List.map_cons, List.map_nil] at h
  exact h

end PyPE

import Verif.Models.LtvSmooth
import Mathlib.Probability.Distributions.Gaussian.Fernique
import Mathlib.Data.Matrix.ColumnRowPartitioned

/-!
# C67: the EM objective of an LTV model is the expected complete-data log-density
-/

namespace PyPE
open Matrix MeasureTheory ProbabilityTheory

variable {n m : ℕ} {U T Y : Type}

/-! ## Second moments of normal laws -/

section moments
variable {ι : Type*} [Fintype ι] [DecidableEq ι]

theorem gauss_memLp (μ : ι → ℝ) (S : Matrix ι ι ℝ) (i : ι) : MemLp (fun x : ι → ℝ => x i) 2 (Spec.gauss μ S) := by
  rw [Spec.gauss, memLp_map_measure_iff (Measurable.aestronglyMeasurable (by fun_prop)) (Measurable.aemeasurable (by fun_prop))]
  exact (IsGaussian.memLp_two_id (μ := multivariateGaussian (WithLp.toLp 2 μ) S)).continuousLinearMap_comp
    (EuclideanSpace.proj (𝕜 := ℝ) i)

theorem gauss_integrable_mul (μ : ι → ℝ) (S : Matrix ι ι ℝ) (i j : ι) :
    Integrable (fun x : ι → ℝ => x i * x j) (Spec.gauss μ S) := (gauss_memLp μ S i).integrable_mul (gauss_memLp μ S j)

theorem gauss_second_moment (μ : ι → ℝ) {S : Matrix ι ι ℝ} (hS : S.PosSemidef) (i j : ι) :
    ∫ x, x i * x j ∂(Spec.gauss μ S) = μ i * μ j + S i j := by
  have h := covariance_eq_sub (gauss_memLp μ S i) (gauss_memLp μ S j)
  rw [gauss_cov hS, gauss_mean, gauss_mean] at h
  have : ∫ x, ((fun x : ι → ℝ => x i) * fun x : ι → ℝ => x j) x ∂(Spec.gauss μ S) = ∫ x, x i * x j ∂(Spec.gauss μ S) := rfl
  rw [this] at h
  linarith

/-- The expectation of a quadratic form. -/
theorem gauss_quadratic (μ : ι → ℝ) {S : Matrix ι ι ℝ} (hS : S.PosSemidef) (W : Matrix ι ι ℝ) :
    Integrable (fun x : ι → ℝ => x ⬝ᵥ W *ᵥ x) (Spec.gauss μ S) ∧
    ∫ x, x ⬝ᵥ W *ᵥ x ∂(Spec.gauss μ S) = (W * (vecMulVec μ μ + S)).trace := by
  have e : (fun x : ι → ℝ => x ⬝ᵥ W *ᵥ x) = fun x => ∑ i, ∑ j, W i j * (x j * x i) := by
    funext x
    simp only [dotProduct, mulVec, Finset.mul_sum]
    exact Finset.sum_congr rfl fun i _ => Finset.sum_congr rfl fun j _ => by ring
  have hi : ∀ i j, Integrable (fun x : ι → ℝ => W i j * (x j * x i)) (Spec.gauss μ S) := fun i j =>
    (gauss_integrable_mul μ S j i).const_mul _
  rw [e]
  refine ⟨integrable_finsetSum _ fun i _ => integrable_finsetSum _ fun j _ => hi i j, ?_⟩
  rw [integral_finsetSum _ fun i _ => integrable_finsetSum _ fun j _ => hi i j]
  simp only [trace, diag_apply, Matrix.mul_apply]
  refine Finset.sum_congr rfl fun i _ => ?_
  rw [integral_finsetSum _ fun j _ => hi i j]
  refine Finset.sum_congr rfl fun j _ => ?_
  rw [integral_const_mul, gauss_second_moment μ hS]
  simp [vecMulVec_apply]

end moments

/-- The expected log-density of `N(0, S)` at a normal argument. -/
theorem integral_logNormal {k : ℕ} (S : Matrix (Fin k) (Fin k) ℝ) (μ : Fin k → ℝ) {V : Matrix (Fin k) (Fin k) ℝ}
    (hV : V.PosSemidef) :
    Integrable (fun e => Spec.logNormal S e) (Spec.gauss μ V) ∧ ∫ e, Spec.logNormal S e ∂(Spec.gauss μ V) =
      -(k / 2) * Real.log (2 * Real.pi) - 1 / 2 * (Real.log S.det + (S⁻¹ * (vecMulVec μ μ + V)).trace) := by
  obtain ⟨h1, h2⟩ := gauss_quadratic μ hV S⁻¹
  constructor
  · exact (integrable_const _).sub (h1.const_mul _)
  · unfold Spec.logNormal
    rw [integral_sub (integrable_const _) (h1.const_mul _), integral_const_mul, h2]
    simp
    ring

theorem halfLogForm_eq {k : ℕ} {S : Matrix (Fin k) (Fin k) ℝ} (hS : S.PosDef) (μ : Fin k → ℝ) {V : Matrix (Fin k) (Fin k) ℝ}
    (hV : V.PosSemidef) : halfLogForm S (vecMulVec μ μ + V) =
      .ok (∫ e, Spec.logNormal S e ∂(Spec.gauss μ V) + k / 2 * Real.log (2 * Real.pi)) := by
  rw [halfLogForm, if_neg hS.det_pos.ne', (integral_logNormal S μ hV).2, abs_of_pos hS.det_pos]
  congr 1; ring

/-- **C67** `eval_logp_x0` returns, up to the constant `n/2 log 2π`, the expected log-density of the initial state: for a particle with
smoothed statistics `(z, P)` the expectation of `log N(x; z0, P0)` over `x ~ N(z, P)`. -/
theorem C67_logp_x0 (M : Ltv n m U T Y) (rows : List (List ℝ)) (l : List (Est n)) (hl : ltvGetStates n rows = .ok l)
    (hP0 : M.P0.PosDef) (hP : ∀ s ∈ l, s.2.PosSemidef) :
    M.evalLogpX0 rows = .ok (l.map fun s =>
      ∫ x, Spec.logNormal M.P0 (x - M.z0) ∂(Spec.gauss s.1 s.2) + n / 2 * Real.log (2 * Real.pi)) := by
  unfold Ltv.evalLogpX0
  rw [hl, ok_bind]
  refine mapM_ok_map fun s hs => ?_
  rw [ltvL1, halfLogForm_eq hP0 _ (hP s hs)]
  have hg : Spec.gauss (s.1 - M.z0) s.2 = (Spec.gauss s.1 s.2).map fun x => x - M.z0 := by
    have := gauss_affine_one (μ := s.1) (hP s hs) (-M.z0) (1 : Matrix (Fin n) (Fin n) ℝ)
    simp only [one_mulVec, Matrix.one_mul, transpose_one, Matrix.mul_one] at this
    rw [sub_eq_neg_add, ← this]
    congr 1; funext x; abel
  rw [hg, integral_map (Measurable.aemeasurable (by fun_prop))]
  refine (Continuous.aestronglyMeasurable ?_)
  unfold Spec.logNormal; fun_prop

/-- **C67** `eval_logp_y` returns, up to the constant `m/2 log 2π`, the expectation of `log N(y; C x + h, R)` over `x ~ N(z, P)`, for
every particle; `C`, `h`, `R` are the ones in force. -/
theorem C67_logp_y (M : Ltv n m U T Y) (kf : KF n m) (rows : List (List ℝ)) (y : Y) (t : T) (l : List (Est n))
    (hl : ltvGetStates n rows = .ok l) (C : Matrix (Fin m) (Fin n) ℝ) (h : Option (Fin m → ℝ)) (R : Matrix (Fin m) (Fin m) ℝ)
    (hC : (M.measDyn y t).2.1.or kf.C = some C) (hh : (M.measDyn y t).2.2.1.or kf.hk = h)
    (hR : (M.measDyn y t).2.2.2.or kf.R = some R) (hRpos : R.PosDef) (hP : ∀ s ∈ l, s.2.PosSemidef) :
    ∃ kf', M.evalLogpY kf rows y t = .ok (kf', l.map fun s =>
      ∫ x, Spec.logNormal R ((M.measDyn y t).1 - (C *ᵥ x + Spec.offset h)) ∂(Spec.gauss s.1 s.2) +
        m / 2 * Real.log (2 * Real.pi)) := by
  obtain ⟨e1, e2, e3, e4, e5, e6⟩ :=
    setDynamics_fields kf none (M.measDyn y t).2.1 none (M.measDyn y t).2.2.2 none (M.measDyn y t).2.2.1
  rw [hC] at e2; rw [hR] at e4; rw [hh] at e6
  refine ⟨kf.setDynamics none (M.measDyn y t).2.1 none (M.measDyn y t).2.2.2 none (M.measDyn y t).2.2.1, ?_⟩
  unfold Ltv.evalLogpY
  simp only [hl, ok_bind, e2, e4, e6, unwrap]
  rw [mapM_ok_map (g := fun s : Est n => ∫ x, Spec.logNormal R ((M.measDyn y t).1 - (C *ᵥ x + Spec.offset h)) ∂(Spec.gauss s.1 s.2) +
        m / 2 * Real.log (2 * Real.pi))]
  · rfl
  intro s hs
  have hd : measurementDiff (M.measDyn y t).1 s.1 (some C) h = (M.measDyn y t).1 - Spec.offset h + (-C) *ᵥ s.1 := by
    cases h <;> simp [measurementDiff, Spec.offset, neg_mulVec] <;> abel
  have hg := gauss_affine_one (μ := s.1) (hP s hs) ((M.measDyn y t).1 - Spec.offset h) (-C)
  simp only [ltvL3, hd]
  rw [show C * s.2 * Cᵀ = -C * s.2 * (-C)ᵀ by simp, halfLogForm_eq hRpos _ (posSemidef_conj (hP s hs) _), ← hg,
    integral_map (Continuous.measurable (by fun_prop)).aemeasurable]
  · congr 3; funext x; congr 1; rw [neg_mulVec]; abel
  · refine (Continuous.aestronglyMeasurable ?_)
    unfold Spec.logNormal; fun_prop

/-- The joint normal law of two successive states: means `z`, `zn`, covariances `P`, `Pn`, cross covariance `Ms`. -/
noncomputable def Spec.pairLaw (s sn : Est n) (Ms : Matrix (Fin n) (Fin n) ℝ) : Measure (Fin n ⊕ Fin n → ℝ) :=
  Spec.gauss (Sum.elim s.1 sn.1) (fromBlocks s.2 Ms Msᵀ sn.2)

/-- **C67** `eval_logp_xnext` returns, up to the constant `n/2 log 2π`, the expectation of `log N(x'; A x + f, Q)` over the joint normal
law of the pair `(x, x')` described by the smoothed statistics `(z, P, M)` of the particle and `(z', P')` of its successor; `M`
is the cross covariance `cov(x, x')`, which is what `smooth` returns (C41). -/
theorem C67_logp_xnext (M : Ltv n m U T Y) (kf : KF n m) (rows nrows : List (List ℝ)) (u : U) (t : T)
    (l : List (Est n × Est n × Matrix (Fin n) (Fin n) ℝ)) (hlen : l.length = rows.length)
    (hl : ∀ (k : ℕ) (row : List ℝ) (e), rows[k]? = some row → l[k]? = some e → Spec.StoresSmooth row e.1 e.2.2)
    (hln : ltvGetStates n nrows = .ok (l.map fun e => e.2.1)) (A Q : Matrix (Fin n) (Fin n) ℝ) (f : Fin n → ℝ)
    (hA : (M.predDyn u t).1.or kf.A = some A) (hf : (M.predDyn u t).2.1.or kf.fk = some f)
    (hQ : (M.predDyn u t).2.2.or kf.Q = some Q) (hQpos : Q.PosDef)
    (hP : ∀ e ∈ l, (fromBlocks e.1.2 e.2.2 e.2.2ᵀ e.2.1.2).PosSemidef) :
    ∃ kf', M.evalLogpXnext kf rows nrows u t = .ok (kf', l.map fun e =>
      ∫ w, Spec.logNormal Q ((fun i => w (.inr i)) - (A *ᵥ (fun i => w (.inl i)) + f)) ∂(Spec.pairLaw e.1 e.2.1 e.2.2) +
        n / 2 * Real.log (2 * Real.pi)) := by
  obtain ⟨e1, e2, e3, e4, e5, e6⟩ :=
    setDynamics_fields kf (M.predDyn u t).1 none (M.predDyn u t).2.2 none (M.predDyn u t).2.1 none
  rw [hA] at e1; rw [hQ] at e3; rw [hf] at e5
  refine ⟨kf.setDynamics (M.predDyn u t).1 none (M.predDyn u t).2.2 none (M.predDyn u t).2.1 none, ?_⟩
  have hg : ltvGetStates n rows = .ok (l.map fun e => e.1) := by
    rw [C44_get_states]
    refine ⟨by simpa using hlen, fun k row hk => ?_⟩
    have hkl : k < l.length := by have := lt_of_getElem?_some hk; omega
    exact ⟨l[k].1, by simp [hkl], (hl k row l[k] hk (List.getElem?_eq_getElem hkl)).1⟩
  unfold Ltv.evalLogpXnext
  simp only [hg, hln, ok_bind, e1, e3, e5, unwrap]
  rw [show (rows.zipIdx.mapM fun ri : List ℝ × ℕ => do
      let s ← getIdx (l.map fun e => e.1) ri.2
      let sn ← getIdx (l.map fun e => e.2.1) ri.2
      ltvXnextRow A f Q ri.1 s sn : PyM (List ℝ)) = .ok (l.map fun e =>
      ∫ w, Spec.logNormal Q ((fun i => w (.inr i)) - (A *ᵥ (fun i => w (.inl i)) + f)) ∂(Spec.pairLaw e.1 e.2.1 e.2.2) +
        n / 2 * Real.log (2 * Real.pi)) from ?_]
  · rfl
  rw [mapM_ok_iff]
  refine ⟨by simpa using hlen, ?_⟩
  rintro k ⟨row, i⟩ hk
  have hk' : rows[k]? = some row ∧ i = k := by
    rw [List.getElem?_zipIdx] at hk
    simp at hk
    exact ⟨hk.1, hk.2.symm⟩
  obtain ⟨hk, rfl⟩ := hk'
  have hil : i < l.length := by have := lt_of_getElem?_some hk; omega
  set e := l[i] with he
  refine ⟨_, by rw [List.getElem?_map, List.getElem?_eq_getElem hil]; rfl, ?_⟩
  obtain ⟨hs1, hs2, hs3⟩ := hl i row e hk (List.getElem?_eq_getElem hil)
  have hPe := hP e (List.getElem_mem hil)
  simp only [getIdx_ok.mpr (show (l.map fun e => e.1)[i]? = some e.1 by simp [hil, he]),
    getIdx_ok.mpr (show (l.map fun e => e.2.1)[i]? = some e.2.1 by simp [hil, he]), ok_bind]
  unfold ltvXnextRow
  have hrow : row.length = n + n * n + n * n := by rw [hs2]; ring
  have hread : readSlice (n * n) (n + n * n) row = .ok (ravel e.2.2) := readSlice_of (by omega) fun q => by
    obtain ⟨⟨a, b⟩, rfl⟩ := finProdFinEquiv.surjective q
    have := hs3 a b
    simp only [ravel, Equiv.symm_apply_apply]
    rw [← this]
    congr 1; simp [finProdFinEquiv]; omega
  rw [if_pos hrow, hread, ok_bind]
  beta_reduce
  rw [unravel_ravel]
  -- the prediction error as an affine image of the pair
  have haff := gauss_affine_one (μ := Sum.elim e.1.1 e.2.1.1) hPe (-f) (fromCols (-A) (1 : Matrix (Fin n) (Fin n) ℝ))
  have hmean : -f + fromCols (-A) (1 : Matrix (Fin n) (Fin n) ℝ) *ᵥ Sum.elim e.1.1 e.2.1.1 = e.2.1.1 - f - A *ᵥ e.1.1 := by
    rw [fromCols_mulVec]
    simp only [Sum.elim_comp_inl, Sum.elim_comp_inr, one_mulVec, neg_mulVec]; abel
  have hcov : fromCols (-A) (1 : Matrix (Fin n) (Fin n) ℝ) * fromBlocks e.1.2 e.2.2 e.2.2ᵀ e.2.1.2 *
      (fromCols (-A) (1 : Matrix (Fin n) (Fin n) ℝ))ᵀ = e.2.1.2 + A * e.1.2 * Aᵀ - (A * e.2.2)ᵀ - A * e.2.2 := by
    rw [fromCols_mul_fromBlocks, transpose_fromCols, fromCols_mul_fromRows]
    simp only [transpose_neg, transpose_one, Matrix.mul_one, Matrix.one_mul, Matrix.neg_mul, Matrix.mul_neg, transpose_mul,
      Matrix.add_mul]
    abel
  have hpsd := posSemidef_conj hPe (fromCols (-A) (1 : Matrix (Fin n) (Fin n) ℝ))
  rw [hmean, hcov] at haff
  rw [hcov] at hpsd
  simp only [ltvL2]
  rw [halfLogForm_eq hQpos _ hpsd, ← haff, integral_map (Continuous.measurable (by fun_prop)).aemeasurable]
  · congr 3
    funext w
    congr 1
    rw [fromCols_mulVec, neg_mulVec, one_mulVec]
    show -f + (-(A *ᵥ (w ∘ Sum.inl)) + w ∘ Sum.inr) = (w ∘ Sum.inr) - (A *ᵥ (w ∘ Sum.inl) + f)
    abel
  · refine (Continuous.aestronglyMeasurable ?_)
    unfold Spec.logNormal; fun_prop

/-- Independent standard normal successive states meet the hypothesis on the joint covariance. -/
example : (fromBlocks (1 : Matrix (Fin 2) (Fin 2) ℝ) (0 : Matrix (Fin 2) (Fin 2) ℝ) 0ᵀ (1 : Matrix (Fin 2) (Fin 2) ℝ)).PosSemidef := by
  rw [transpose_zero, fromBlocks_one]; exact PosSemidef.one

end PyPE

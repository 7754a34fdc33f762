import Verif.Models.MlComputeClaims

/-!
# C68: analytic gradients of an LTV model

Arrays of gradients, one entry per parameter, are functions on `Fin p` (`p = len(self.params)`).
-/

namespace PyPE
open Matrix

variable {n m p : ℕ} {U T Y : Type}

/-- The first component returned by the `…_val_grad` methods: a number, or (without any gradient) an array. -/
inductive NumVal where
  | num (x : ℝ)
  | arr (l : List ℝ)

/-- `LTV.calc_l1_grad` (ltv.py:562-572): `l1` and `l1_diff`. -/
def ltvL1Grad (z : Fin n → ℝ) (P : Matrix (Fin n) (Fin n) ℝ) (z0 : Fin n → ℝ) (z0Grad : Option (Fin p → Fin n → ℝ)) :
    Matrix (Fin n) (Fin n) ℝ × (Fin p → Matrix (Fin n) (Fin n) ℝ) :=
  let d := z - z0
  (vecMulVec d d + P, fun j => match z0Grad with
    | none => 0
    | some g => 0 + (-(vecMulVec (g j) d) + (-(vecMulVec (g j) d))ᵀ))

/-- The loop of `LTV.eval_logp_x0_val_grad` (ltv.py:346-353); `P0_grad = None` cannot be subscripted (only reached when there are
particles and parameters). -/
noncomputable def ltvX0Loop (c : Matrix (Fin n) (Fin n) ℝ) (z0 : Fin n → ℝ) (z0Grad : Option (Fin p → Fin n → ℝ))
    (P0Grad : Option (Fin p → Matrix (Fin n) (Fin n) ℝ)) (l : List (Est n)) : PyM (ℝ × (Fin p → ℝ)) :=
  match P0Grad with
  | none => if l ≠ [] ∧ p ≠ 0 then .error .typeError else
      .ok (l.foldl (fun acc s => acc + -(1 / 2) * (choLogDet c + (choSolveM c (ltvL1 s.1 s.2 z0)).trace)) 0, fun _ => 0)
  | some PG => .ok (l.foldl (fun acc s => acc + -(1 / 2) * (choLogDet c + (choSolveM c (ltvL1Grad s.1 s.2 z0 z0Grad).1).trace)) 0,
      fun j => l.foldl (fun acc s => acc - 1 / 2 * logprodDerivative c (PG j) (ltvL1Grad s.1 s.2 z0 z0Grad).1
        ((ltvL1Grad s.1 s.2 z0 z0Grad).2 j)) 0)

/-- `LTV.eval_logp_x0_val_grad` (ltv.py:329-356); the two gradients are what `get_initial_grad` returns. -/
noncomputable def Ltv.evalLogpX0ValGrad (M : Ltv n m U T Y) (z0Grad : Option (Fin p → Fin n → ℝ))
    (P0Grad : Option (Fin p → Matrix (Fin n) (Fin n) ℝ)) (rows : List (List ℝ)) : PyM (NumVal × (Fin p → ℝ)) := do
  let l ← ltvGetStates n rows
  match z0Grad, P0Grad with
  | none, none =>
    let v ← M.evalLogpX0 rows
    return (.arr v, fun _ => 0)
  | _, _ =>
    let c ← choFactor M.P0
    let r ← ltvX0Loop c M.z0 z0Grad P0Grad l
    return (.num r.1, r.2)

/-- `LTV.calc_l2_grad` (ltv.py:582-602), the array `l2_grad`. -/
def ltvL2Grad (zn : Fin n → ℝ) (z : Fin n → ℝ) (P A : Matrix (Fin n) (Fin n) ℝ) (f : Fin n → ℝ)
    (M : Matrix (Fin n) (Fin n) ℝ) (AGrad : Option (Fin p → Matrix (Fin n) (Fin n) ℝ)) (fGrad : Option (Fin p → Fin n → ℝ)) :
    Fin p → Matrix (Fin n) (Fin n) ℝ := fun j =>
  let predictErr := zn - f - A *ᵥ z
  let g : Matrix (Fin n) (Fin n) ℝ := 0
  let g := match fGrad with
    | none => g
    | some fg =>
      let tmp := -(vecMulVec (fg j) predictErr)
      g + (tmp + tmpᵀ)
  match AGrad with
  | none => g
  | some Ag =>
    let tmp := -(vecMulVec (Ag j *ᵥ z) predictErr)
    let g := g + (tmp + tmpᵀ)
    let tmp := Ag j * P * Aᵀ
    let g := g + (tmp + tmpᵀ)
    let tmp := -(Ag j * M)
    g + (tmp + tmpᵀ)

/-- Reading the stored block `Mz` (ltv.py:425-426). -/
def ltvReadMz (n : ℕ) (row : List ℝ) : PyM (Fin (n * n) → ℝ) :=
  if row.length = n + n * n + n * n then readSlice (n * n) (n + n * n) row else .error .valueError

/-- The `k`-th particle, its successor and the stored block `Mz` in `eval_logp_xnext_val_grad` (ltv.py:424-428). -/
def ltvPairs (rows : List (List ℝ)) (l ln : List (Est n)) : PyM (List (Est n × Est n × Matrix (Fin n) (Fin n) ℝ)) :=
  rows.zipIdx.mapM fun ri => do
    let Mz ← ltvReadMz n ri.1
    let sn ← getIdx ln ri.2
    let s ← getIdx l ri.2
    return (s, sn, unravel Mz)

/-- The loop of `LTV.eval_logp_xnext_val_grad` (ltv.py:424-434). -/
noncomputable def ltvXnextLoop (c A : Matrix (Fin n) (Fin n) ℝ) (f : Fin n → ℝ) (AGrad : Option (Fin p → Matrix (Fin n) (Fin n) ℝ))
    (fGrad : Option (Fin p → Fin n → ℝ)) (QGrad : Fin p → Matrix (Fin n) (Fin n) ℝ)
    (es : List (Est n × Est n × Matrix (Fin n) (Fin n) ℝ)) : ℝ × (Fin p → ℝ) :=
  (es.foldl (fun acc e => acc + -(1 / 2) * (choLogDet c +
      (choSolveM c (ltvL2 e.2.1.1 e.2.1.2 e.1.1 e.1.2 A f e.2.2)).trace)) 0,
   fun j => es.foldl (fun acc e => acc - 1 / 2 * logprodDerivative c (QGrad j) (ltvL2 e.2.1.1 e.2.1.2 e.1.1 e.1.2 A f e.2.2)
      (ltvL2Grad e.2.1.1 e.1.1 e.1.2 A f e.2.2 AGrad fGrad j)) 0)

/-- `LTV.eval_logp_xnext_val_grad` (ltv.py:392-435); the three gradients are what `get_pred_dynamics_grad` returns. -/
noncomputable def Ltv.evalLogpXnextValGrad (M : Ltv n m U T Y) (AGrad : Option (Fin p → Matrix (Fin n) (Fin n) ℝ))
    (fGrad : Option (Fin p → Fin n → ℝ)) (QGrad : Option (Fin p → Matrix (Fin n) (Fin n) ℝ)) (kf : KF n m)
    (rows nrows : List (List ℝ)) (u : U) (t : T) : PyM (KF n m × NumVal × (Fin p → ℝ)) := do
  let l ← ltvGetStates n rows
  let ln ← ltvGetStates n nrows
  let d := M.predDyn u t
  match AGrad, fGrad, QGrad with
  | none, none, none =>
    let r ← M.evalLogpXnext kf rows nrows u t
    return (r.1, .arr r.2, fun _ => 0)
  | _, _, _ =>
    let kf := kf.setDynamics d.1 none d.2.2 none d.2.1 none
    let Q ← unwrap kf.Q
    let c ← choFactor Q
    let A ← unwrap kf.A
    let f ← unwrap kf.fk
    let es ← ltvPairs rows l ln
    let r := ltvXnextLoop c A f AGrad fGrad (QGrad.getD fun _ => 0) es
    return (kf, .num r.1, r.2)

/-- `LTV.eval_logp_y_val_grad` (ltv.py:464-504): `calc_l3_grad` is called without two of its arguments. `grads` says that one of the three
gradients returned by `get_meas_dynamics_grad` is not `None`. -/
noncomputable def Ltv.evalLogpYValGrad (p : ℕ) (M : Ltv n m U T Y) (grads : Bool) (kf : KF n m) (rows : List (List ℝ)) (y : Y) (t : T) :
    PyM (KF n m × NumVal × (Fin p → ℝ)) :=
  if grads = false then do
    let r ← M.evalLogpY kf rows y t
    return (r.1, .arr r.2, fun _ => 0)
  else do
    let d := M.measDyn y t
    let kf := kf.setDynamics none d.2.1 none d.2.2.2 none d.2.2.1
    let R ← unwrap kf.R
    let _ ← choFactor R
    let l ← ltvGetStates n rows
    if l ≠ [] then .error .typeError else return (kf, .num 0, fun _ => 0)

/-! ## Theorems -/

theorem foldl_add_eq_sum {α : Type} (f : α → ℝ) (l : List α) (a : ℝ) : l.foldl (fun acc x => acc + f x) a = a + (l.map f).sum := by
  induction l generalizing a with
  | nil => simp
  | cons x l ih => rw [List.foldl_cons, ih, List.map_cons, List.sum_cons]; ring

theorem foldl_sub_eq_sum {α : Type} (f : α → ℝ) (l : List α) (a : ℝ) : l.foldl (fun acc x => acc - f x) a = a - (l.map f).sum := by
  induction l generalizing a with
  | nil => simp
  | cons x l ih => rw [List.foldl_cons, ih, List.map_cons, List.sum_cons]; ring

theorem hasDerivAt_list_sum {α : Type} (l : List α) (F : α → ℝ → ℝ) (F' : α → ℝ) (x : ℝ) (h : ∀ a ∈ l, HasDerivAt (F a) (F' a) x) :
    HasDerivAt (fun t => (l.map fun a => F a t).sum) (l.map F').sum x := by
  induction l with
  | nil => simpa using hasDerivAt_const x (0 : ℝ)
  | cons a l ih =>
    simp only [List.map_cons, List.sum_cons]
    exact (h a (List.mem_cons_self)).add (ih fun b hb => h b (List.mem_cons_of_mem _ hb))

theorem choForm {k : ℕ} {S : Matrix (Fin k) (Fin k) ℝ} (hS : S.PosDef) :
    ∃ c, choFactor S = .ok c ∧ choLogDet c = Real.log S.det ∧ ∀ B : Matrix (Fin k) (Fin k) ℝ, choSolveM c B = S⁻¹ * B := by
  obtain ⟨c, hc⟩ := (choFactor_ok_iff S).mpr (by rw [symUpper_of_isSymm (PosSemidef.isSymm' hS.posSemidef)]; exact hS)
  have hu := triu_choFactor hc
  have h := hu.eq
  rw [symUpper_of_isSymm (PosSemidef.isSymm' hS.posSemidef)] at h
  refine ⟨c, hc, ?_, fun B => by simp only [choSolveM, h]⟩
  rw [choLogDet_eq hc, symUpper_of_isSymm (PosSemidef.isSymm' hS.posSemidef)]

theorem halfLogForm_posDef {k : ℕ} {S : Matrix (Fin k) (Fin k) ℝ} (hS : S.PosDef) (l : Matrix (Fin k) (Fin k) ℝ) :
    halfLogForm S l = .ok (-(1 / 2) * (Real.log S.det + (S⁻¹ * l).trace)) := by
  unfold halfLogForm
  rw [if_neg hS.det_pos.ne', abs_of_pos hS.det_pos]

theorem ltvXnextRow_eq (A : Matrix (Fin n) (Fin n) ℝ) (f : Fin n → ℝ) (Q : Matrix (Fin n) (Fin n) ℝ) (row : List ℝ) (s sn : Est n) :
    ltvXnextRow A f Q row s sn = ltvReadMz n row >>= fun Mz => halfLogForm Q (ltvL2 sn.1 sn.2 s.1 s.2 A f (unravel Mz)) := by
  unfold ltvXnextRow ltvReadMz
  split <;> rfl

theorem sum_neg_half {α : Type} (l : List α) (g : α → ℝ) : 0 - (l.map fun a => 1 / 2 * g a).sum = (l.map fun a => -(1 / 2) * g a).sum := by
  induction l with
  | nil => simp
  | cons a l ih => simp only [List.map_cons, List.sum_cons]; linarith

/-- **C68** `eval_logp_x0_val_grad` for a model whose initial mean and covariance do not depend on the parameters
(`get_initial_grad` returns `(None, None)`): the value is the array of `eval_logp_x0`, one entry per particle, and the gradient is zero, which
is the gradient of each entry. -/
theorem C68_x0_constant (M : (Fin p → ℝ) → Ltv n m U T Y) (hz : ∀ q q', (M q).z0 = (M q').z0) (hP : ∀ q q', (M q).P0 = (M q').P0)
    (params : Fin p → ℝ) (rows : List (List ℝ)) (grad : Fin p → ℝ) (v : NumVal)
    (h : (M params).evalLogpX0ValGrad none none rows = .ok (v, grad)) :
    ∃ vs, v = .arr vs ∧ (∀ q, (M q).evalLogpX0 rows = .ok vs) ∧ ∀ (j : Fin p) (f : (Fin p → ℝ) → List ℝ),
      (∀ q, (M q).evalLogpX0 rows = .ok (f q)) → ∀ i : ℕ, HasDerivAt (fun t => (f (Function.update params j t)).getD i 0) (grad j) (params j) := by
  unfold Ltv.evalLogpX0ValGrad at h
  obtain ⟨l, -, h⟩ := bind_eq_ok.mp h
  obtain ⟨vs, hv, h⟩ := bind_eq_ok.mp h
  cases h
  have hall : ∀ q, (M q).evalLogpX0 rows = .ok vs := by
    intro q
    rw [← hv]
    unfold Ltv.evalLogpX0
    rw [hz q params, hP q params]
  refine ⟨vs, rfl, hall, fun j f hf i => ?_⟩
  have : ∀ q, f q = vs := fun q => Except.ok.inj ((hf q).symm.trans (hall q))
  simp only [this]
  exact hasDerivAt_const _ _

/-- **C68** `eval_logp_x0_val_grad`: when the initial mean and covariance depend on the parameters, with the derivatives returned by
`get_initial_grad`, the value is the sum of the values of `eval_logp_x0` and the gradient is its gradient. -/
theorem C68_x0_gradient (M : (Fin p → ℝ) → Ltv n m U T Y) (params : Fin p → ℝ) (z0Grad : (Fin p → ℝ) → Fin p → Fin n → ℝ)
    (P0Grad : (Fin p → ℝ) → Fin p → Matrix (Fin n) (Fin n) ℝ) (rows : List (List ℝ)) (l : List (Est n))
    (hl : ltvGetStates n rows = .ok l) (hpos : ∀ q, (M q).P0.PosDef)
    (hz : ∀ q j, Spec.VecDerivAt (fun t => (M (Function.update q j t)).z0) (z0Grad q j) (q j))
    (hP : ∀ q j, Spec.MatDerivAt (fun t => (M (Function.update q j t)).P0) (P0Grad q j) (q j)) :
    ∃ (val : (Fin p → ℝ) → ℝ) (grad : (Fin p → ℝ) → Fin p → ℝ),
      (∀ q, (M q).evalLogpX0ValGrad (some (z0Grad q)) (some (P0Grad q)) rows = .ok (.num (val q), grad q)) ∧
      (∀ q, ∃ vs, (M q).evalLogpX0 rows = .ok vs ∧ val q = vs.sum) ∧
      ∀ j, HasDerivAt (fun t => val (Function.update params j t)) (grad params j) (params j) := by
  choose c hc1 hc2 hc3 using fun q => choForm (hpos q)
  refine ⟨fun q => (l.map fun s => -(1 / 2) * (Real.log (M q).P0.det + ((M q).P0⁻¹ * ltvL1 s.1 s.2 (M q).z0).trace)).sum,
    fun q j => (l.map fun s => -(1 / 2) * logprodDerivative (c q) (P0Grad q j) (ltvL1 s.1 s.2 (M q).z0)
      ((ltvL1Grad s.1 s.2 (M q).z0 (some (z0Grad q))).2 j)).sum, fun q => ?_, fun q => ?_, fun j => ?_⟩
  · unfold Ltv.evalLogpX0ValGrad
    simp only [hl, ok_bind, hc1, ltvX0Loop, pure_eq_ok]
    congr 2
    · rw [foldl_add_eq_sum, zero_add]
      simp only [hc2, hc3]; rfl
    · funext j
      rw [foldl_sub_eq_sum, sum_neg_half]; rfl
  · refine ⟨l.map fun s => -(1 / 2) * (Real.log (M q).P0.det + ((M q).P0⁻¹ * ltvL1 s.1 s.2 (M q).z0).trace), ?_, ?_⟩
    swap; · with_reducible rfl
    unfold Ltv.evalLogpX0
    rw [hl, ok_bind]
    exact mapM_ok_map fun s _ => halfLogForm_posDef (hpos q) _
  · refine hasDerivAt_list_sum l (fun s t => -(1 / 2) * (Real.log (M (Function.update params j t)).P0.det +
      ((M (Function.update params j t)).P0⁻¹ * ltvL1 s.1 s.2 (M (Function.update params j t)).z0).trace))
      (fun s => -(1 / 2) * logprodDerivative (c params) (P0Grad params j) (ltvL1 s.1 s.2 (M params).z0)
      ((ltvL1Grad s.1 s.2 (M params).z0 (some (z0Grad params))).2 j)) _ fun s _ => HasDerivAt.const_mul _ ?_
    have hd : Spec.VecDerivAt (fun t => s.1 - (M (Function.update params j t)).z0) (-(z0Grad params j)) (params j) := by
      have := vecDeriv_sub (vecDeriv_const (x := params j) s.1) (hz params j)
      rwa [zero_sub] at this
    have hB : Spec.MatDerivAt (fun t => ltvL1 s.1 s.2 (M (Function.update params j t)).z0)
        ((ltvL1Grad s.1 s.2 (M params).z0 (some (z0Grad params))).2 j) (params j) := by
      have h := matDeriv_add (matDeriv_vecMulVec hd hd) (matDeriv_const s.2)
      rw [Function.update_eq_self, add_zero] at h
      have hD : (ltvL1Grad s.1 s.2 (M params).z0 (some (z0Grad params))).2 j =
          vecMulVec (-z0Grad params j) (s.1 - (M params).z0) + vecMulVec (s.1 - (M params).z0) (-z0Grad params j) := by
        ext a b
        simp only [ltvL1Grad, Matrix.add_apply, Matrix.neg_apply, transpose_apply, vecMulVec_apply, Pi.sub_apply, Pi.neg_apply,
          Matrix.zero_apply]
        ring
      rw [hD]
      exact h
    have h := matDeriv_logdet_trace (hP params j) hB (by rw [Function.update_eq_self]; exact (hpos params).det_pos.ne')
    rw [Function.update_eq_self] at h
    rw [logprodDerivative_eq (hpos params) _ (hc1 params)]
    exact h

/-- The entry of an optional array of gradients: not given means zero. -/
def Spec.gradOr {α : Type} [Zero α] (g : Option (Fin p → α)) (j : Fin p) : α :=
  match g with
  | none => 0
  | some G => G j

/-- Derivative of an optional array of parameter functions: not given means constant. -/
def Spec.OptMatDeriv {k : ℕ} (F : (Fin p → ℝ) → Matrix (Fin k) (Fin k) ℝ) (g : (Fin p → ℝ) → Option (Fin p → Matrix (Fin k) (Fin k) ℝ)) : Prop :=
  ∀ q j, Spec.MatDerivAt (fun t => F (Function.update q j t)) (Spec.gradOr (g q) j) (q j)

def Spec.OptVecDeriv {k : ℕ} (F : (Fin p → ℝ) → Fin k → ℝ) (g : (Fin p → ℝ) → Option (Fin p → Fin k → ℝ)) : Prop :=
  ∀ q j, Spec.VecDerivAt (fun t => F (Function.update q j t)) (Spec.gradOr (g q) j) (q j)

theorem ltvPairs_ok {rows : List (List ℝ)} {es : List (Est n × Est n × Matrix (Fin n) (Fin n) ℝ)}
    (hlen : es.length = rows.length)
    (hl : ∀ (k : ℕ) (row : List ℝ) (e), rows[k]? = some row → es[k]? = some e → Spec.StoresSmooth row e.1 e.2.2) :
    ltvPairs rows (es.map fun e => e.1) (es.map fun e => e.2.1) = .ok es := by
  unfold ltvPairs
  rw [mapM_ok_iff]
  refine ⟨by simpa using hlen, ?_⟩
  rintro k ⟨row, i⟩ hk
  have hk' : rows[k]? = some row ∧ i = k := by
    rw [List.getElem?_zipIdx] at hk
    simp at hk
    exact ⟨hk.1, hk.2.symm⟩
  obtain ⟨hk, rfl⟩ := hk'
  have hil : i < es.length := by have := lt_of_getElem?_some hk; omega
  obtain ⟨hs1, hs2, hs3⟩ := hl i row es[i] hk (List.getElem?_eq_getElem hil)
  have hrow : row.length = n + n * n + n * n := by rw [hs2]; ring
  have hread : readSlice (n * n) (n + n * n) row = .ok (ravel es[i].2.2) := readSlice_of (by omega) fun q => by
    obtain ⟨⟨a, b⟩, rfl⟩ := finProdFinEquiv.surjective q
    have := hs3 a b
    simp only [ravel, Equiv.symm_apply_apply]
    rw [← this]
    congr 1; simp [finProdFinEquiv]; omega
  refine ⟨es[i], List.getElem?_eq_getElem hil, ?_⟩
  have hread' : ltvReadMz n row = .ok (ravel es[i].2.2) := by rw [ltvReadMz, if_pos hrow, hread]
  simp only [hread', ok_bind, unravel_ravel, pure_eq_ok,
    getIdx_ok.mpr (show (es.map fun e => e.1)[i]? = some es[i].1 by simp [hil]),
    getIdx_ok.mpr (show (es.map fun e => e.2.1)[i]? = some es[i].2.1 by simp [hil])]

/-- The derivative of `ltvL2` in terms of the derivatives of `A` and `f`. -/
def ltvL2D (zn : Fin n → ℝ) (z : Fin n → ℝ) (P A : Matrix (Fin n) (Fin n) ℝ) (f : Fin n → ℝ) (Ms A' : Matrix (Fin n) (Fin n) ℝ)
    (f' : Fin n → ℝ) : Matrix (Fin n) (Fin n) ℝ :=
  (-(vecMulVec f' (zn - f - A *ᵥ z)) + (-(vecMulVec f' (zn - f - A *ᵥ z)))ᵀ) +
  (-(vecMulVec (A' *ᵥ z) (zn - f - A *ᵥ z)) + (-(vecMulVec (A' *ᵥ z) (zn - f - A *ᵥ z)))ᵀ) +
  (A' * P * Aᵀ + (A' * P * Aᵀ)ᵀ) + (-(A' * Ms) + (-(A' * Ms))ᵀ)

theorem ltvL2_deriv_aux (A : ℝ → Matrix (Fin n) (Fin n) ℝ) (f : ℝ → Fin n → ℝ) (A' : Matrix (Fin n) (Fin n) ℝ) (f' : Fin n → ℝ) (x : ℝ)
    (hA : Spec.MatDerivAt A A' x) (hf : Spec.VecDerivAt f f' x)
    (zn z : Fin n → ℝ) (Pn P Ms : Matrix (Fin n) (Fin n) ℝ) (hP : P.IsSymm) :
    Spec.MatDerivAt (fun t => ltvL2 zn Pn z P (A t) (f t) Ms) (ltvL2D zn z P (A x) (f x) Ms A' f') x := by
  have herr : Spec.VecDerivAt (fun t => zn - f t - A t *ᵥ z) (-f' - A' *ᵥ z) x := by
    have h1 := vecDeriv_sub (vecDeriv_sub (vecDeriv_const (x := x) zn) hf) (vecDeriv_mulVec hA (vecDeriv_const z))
    rwa [mulVec_zero, add_zero, zero_sub] at h1
  have h2 := matDeriv_vecMulVec herr herr
  have h3 := matDeriv_mul (matDeriv_mul hA (matDeriv_const P)) (matDeriv_transpose hA)
  have h4 := matDeriv_mul hA (matDeriv_const Ms)
  have h5 := matDeriv_add h2 (matDeriv_sub (matDeriv_sub (matDeriv_add (matDeriv_const Pn) h3) (matDeriv_transpose h4)) h4)
  simp only [Matrix.mul_zero, add_zero, zero_add] at h5
  have hT : (A' * P * (A x)ᵀ)ᵀ = A x * P * A'ᵀ := by
    rw [transpose_mul, transpose_mul, transpose_transpose, hP.eq, Matrix.mul_assoc]
  have hD : ltvL2D zn z P (A x) (f x) Ms A' f' = vecMulVec (-f' - A' *ᵥ z) (zn - f x - A x *ᵥ z) +
      vecMulVec (zn - f x - A x *ᵥ z) (-f' - A' *ᵥ z) + (A' * P * (A x)ᵀ + A x * P * A'ᵀ - (A' * Ms)ᵀ - A' * Ms) := by
    rw [ltvL2D, hT]
    ext a b
    simp only [Matrix.add_apply, Matrix.sub_apply, Matrix.neg_apply, transpose_apply, vecMulVec_apply, Pi.sub_apply, Pi.neg_apply]
    ring
  rw [hD]
  exact h5

theorem ltvL2_deriv (A : ℝ → Matrix (Fin n) (Fin n) ℝ) (f : ℝ → Fin n → ℝ) (Ag : Option (Fin p → Matrix (Fin n) (Fin n) ℝ))
    (fg : Option (Fin p → Fin n → ℝ)) (j : Fin p) (x : ℝ)
    (hA : Spec.MatDerivAt A (Spec.gradOr (Ag) j) x)
    (hf : Spec.VecDerivAt f (Spec.gradOr (fg) j) x)
    (zn z : Fin n → ℝ) (Pn P Ms : Matrix (Fin n) (Fin n) ℝ) (hP : P.IsSymm) :
    Spec.MatDerivAt (fun t => ltvL2 zn Pn z P (A t) (f t) Ms) (ltvL2Grad zn z P (A x) (f x) Ms Ag fg j) x := by
  have h := ltvL2_deriv_aux A f _ _ x hA hf zn z Pn P Ms hP
  refine cast (congrArg (fun D => Spec.MatDerivAt (fun t => ltvL2 zn Pn z P (A t) (f t) Ms) D x) ?_) h
  cases fg <;> cases Ag <;> simp [ltvL2Grad, ltvL2D, Spec.gradOr, zero_vecMulVec]

/-- **C68** `eval_logp_xnext_val_grad`: when `A`, `f`, `Q` depend on the parameters, with the derivatives returned by
`get_pred_dynamics_grad` (`None` for those that do not depend on them, at least one given), the value is the sum of the values
of `eval_logp_xnext` and the gradient is its gradient. -/
theorem C68_xnext_gradient (M : (Fin p → ℝ) → Ltv n m U T Y) (kf : KF n m) (params : Fin p → ℝ)
    (rows nrows : List (List ℝ)) (u : U) (t : T)
    (es : List (Est n × Est n × Matrix (Fin n) (Fin n) ℝ)) (hlen : es.length = rows.length)
    (hl : ∀ (k : ℕ) (row : List ℝ) (e), rows[k]? = some row → es[k]? = some e → Spec.StoresSmooth row e.1 e.2.2)
    (hln : ltvGetStates n nrows = .ok (es.map fun e => e.2.1)) (hsym : ∀ e ∈ es, e.1.2.IsSymm)
    (A Q : (Fin p → ℝ) → Matrix (Fin n) (Fin n) ℝ) (f : (Fin p → ℝ) → Fin n → ℝ)
    (hA : ∀ q, ((M q).predDyn u t).1.or kf.A = some (A q)) (hf : ∀ q, ((M q).predDyn u t).2.1.or kf.fk = some (f q))
    (hQ : ∀ q, ((M q).predDyn u t).2.2.or kf.Q = some (Q q)) (hpos : ∀ q, (Q q).PosDef)
    (AGrad QGrad : (Fin p → ℝ) → Option (Fin p → Matrix (Fin n) (Fin n) ℝ)) (fGrad : (Fin p → ℝ) → Option (Fin p → Fin n → ℝ))
    (dA : Spec.OptMatDeriv A AGrad) (df : Spec.OptVecDeriv f fGrad) (dQ : Spec.OptMatDeriv Q QGrad)
    (hsome : ∀ q, AGrad q ≠ none ∨ fGrad q ≠ none ∨ QGrad q ≠ none) :
    ∃ (val : (Fin p → ℝ) → ℝ) (grad : (Fin p → ℝ) → Fin p → ℝ),
      (∀ q, ∃ kf', (M q).evalLogpXnextValGrad (AGrad q) (fGrad q) (QGrad q) kf rows nrows u t = .ok (kf', .num (val q), grad q)) ∧
      (∀ q, ∃ kf' vs, (M q).evalLogpXnext kf rows nrows u t = .ok (kf', vs) ∧ val q = vs.sum) ∧
      ∀ j, HasDerivAt (fun t => val (Function.update params j t)) (grad params j) (params j) := by
  choose c hc1 hc2 hc3 using fun q => choForm (hpos q)
  have hg : ltvGetStates n rows = .ok (es.map fun e => e.1) := by
    rw [C44_get_states]
    refine ⟨by simpa using hlen, fun k row hk => ?_⟩
    have hkl : k < es.length := by have := lt_of_getElem?_some hk; omega
    exact ⟨es[k].1, by simp [hkl], (hl k row es[k] hk (List.getElem?_eq_getElem hkl)).1⟩
  have hset := fun q => setDynamics_fields kf ((M q).predDyn u t).1 none ((M q).predDyn u t).2.2 none ((M q).predDyn u t).2.1 none
  have eA : ∀ q, (kf.setDynamics ((M q).predDyn u t).1 none ((M q).predDyn u t).2.2 none ((M q).predDyn u t).2.1 none).A = some (A q) :=
    fun q => (hset q).1.trans (hA q)
  have eQ : ∀ q, (kf.setDynamics ((M q).predDyn u t).1 none ((M q).predDyn u t).2.2 none ((M q).predDyn u t).2.1 none).Q = some (Q q) :=
    fun q => (hset q).2.2.1.trans (hQ q)
  have ef : ∀ q, (kf.setDynamics ((M q).predDyn u t).1 none ((M q).predDyn u t).2.2 none ((M q).predDyn u t).2.1 none).fk = some (f q) :=
    fun q => (hset q).2.2.2.2.1.trans (hf q)
  refine ⟨fun q => (es.map fun e => -(1 / 2) * (Real.log (Q q).det +
        ((Q q)⁻¹ * ltvL2 e.2.1.1 e.2.1.2 e.1.1 e.1.2 (A q) (f q) e.2.2).trace)).sum,
    fun q j => (es.map fun e => -(1 / 2) * logprodDerivative (c q) ((QGrad q).getD (fun _ => 0) j)
      (ltvL2 e.2.1.1 e.2.1.2 e.1.1 e.1.2 (A q) (f q) e.2.2)
      (ltvL2Grad e.2.1.1 e.1.1 e.1.2 (A q) (f q) e.2.2 (AGrad q) (fGrad q) j)).sum, fun q => ?_, fun q => ?_, fun j => ?_⟩
  · refine ⟨kf.setDynamics ((M q).predDyn u t).1 none ((M q).predDyn u t).2.2 none ((M q).predDyn u t).2.1 none, ?_⟩
    have hmain : (do
        let Q ← unwrap (kf.setDynamics ((M q).predDyn u t).1 none ((M q).predDyn u t).2.2 none ((M q).predDyn u t).2.1 none).Q
        let c ← choFactor Q
        let A ← unwrap (kf.setDynamics ((M q).predDyn u t).1 none ((M q).predDyn u t).2.2 none ((M q).predDyn u t).2.1 none).A
        let f ← unwrap (kf.setDynamics ((M q).predDyn u t).1 none ((M q).predDyn u t).2.2 none ((M q).predDyn u t).2.1 none).fk
        let es ← ltvPairs rows (es.map fun e => e.1) (es.map fun e => e.2.1)
        let r := ltvXnextLoop c A f (AGrad q) (fGrad q) ((QGrad q).getD fun _ => 0) es
        return (kf.setDynamics ((M q).predDyn u t).1 none ((M q).predDyn u t).2.2 none ((M q).predDyn u t).2.1 none, NumVal.num r.1, r.2) :
          PyM (KF n m × NumVal × (Fin p → ℝ))) =
        .ok (kf.setDynamics ((M q).predDyn u t).1 none ((M q).predDyn u t).2.2 none ((M q).predDyn u t).2.1 none,
          .num (es.map fun e => -(1 / 2) * (Real.log (Q q).det +
            ((Q q)⁻¹ * ltvL2 e.2.1.1 e.2.1.2 e.1.1 e.1.2 (A q) (f q) e.2.2).trace)).sum,
          fun j => (es.map fun e => -(1 / 2) * logprodDerivative (c q) ((QGrad q).getD (fun _ => 0) j)
            (ltvL2 e.2.1.1 e.2.1.2 e.1.1 e.1.2 (A q) (f q) e.2.2)
            (ltvL2Grad e.2.1.1 e.1.1 e.1.2 (A q) (f q) e.2.2 (AGrad q) (fGrad q) j)).sum) := by
      simp only [eA, eQ, ef, unwrap, ok_bind, hc1, ltvPairs_ok hlen hl, pure_eq_ok, ltvXnextLoop]
      congr 3
      · rw [foldl_add_eq_sum, zero_add]
        simp only [hc2, hc3]
      · funext j
        rw [foldl_sub_eq_sum, sum_neg_half]
    unfold Ltv.evalLogpXnextValGrad
    simp only [hg, hln, ok_bind]
    rcases hAG : AGrad q with _ | ag <;> rcases hfG : fGrad q with _ | fg <;> rcases hQG : QGrad q with _ | qg
    · exact absurd (hsome q) (by simp [hAG, hfG, hQG])
    all_goals (rw [hAG, hfG, hQG] at hmain; exact hmain)
  · refine ⟨kf.setDynamics ((M q).predDyn u t).1 none ((M q).predDyn u t).2.2 none ((M q).predDyn u t).2.1 none,
      es.map fun e => -(1 / 2) * (Real.log (Q q).det + ((Q q)⁻¹ * ltvL2 e.2.1.1 e.2.1.2 e.1.1 e.1.2 (A q) (f q) e.2.2).trace), ?_, ?_⟩
    swap; · with_reducible rfl
    unfold Ltv.evalLogpXnext
    simp only [hg, hln, ok_bind, eA, eQ, ef, unwrap]
    have hp := mapM_ok_iff.mp (ltvPairs_ok hlen hl)
    have : (rows.zipIdx.mapM fun ri : List ℝ × ℕ => do
      let s ← getIdx (es.map fun e => e.1) ri.2
      let sn ← getIdx (es.map fun e => e.2.1) ri.2
      ltvXnextRow (A q) (f q) (Q q) ri.1 s sn : PyM (List ℝ)) = .ok (es.map fun e => -(1 / 2) * (Real.log (Q q).det +
        ((Q q)⁻¹ * ltvL2 e.2.1.1 e.2.1.2 e.1.1 e.1.2 (A q) (f q) e.2.2).trace)) := by
      rw [mapM_ok_iff]
      refine ⟨by simpa using hp.1, fun k ri hk => ?_⟩
      obtain ⟨e, he1, he2⟩ := hp.2 k ri hk
      refine ⟨_, by rw [List.getElem?_map, he1]; rfl, ?_⟩
      simp only [bind_eq_ok] at he2
      obtain ⟨Mz, hM, sn, hsn, s, hs, he2⟩ := he2
      cases he2
      simp only [hsn, hs, ok_bind]
      rw [ltvXnextRow_eq, hM, ok_bind, halfLogForm_posDef (hpos q)]
    rw [this]; rfl
  · refine hasDerivAt_list_sum es (fun e t => -(1 / 2) * (Real.log (Q (Function.update params j t)).det +
        ((Q (Function.update params j t))⁻¹ * ltvL2 e.2.1.1 e.2.1.2 e.1.1 e.1.2 (A (Function.update params j t))
          (f (Function.update params j t)) e.2.2).trace))
      (fun e => -(1 / 2) * logprodDerivative (c params) ((QGrad params).getD (fun _ => 0) j)
      (ltvL2 e.2.1.1 e.2.1.2 e.1.1 e.1.2 (A params) (f params) e.2.2)
      (ltvL2Grad e.2.1.1 e.1.1 e.1.2 (A params) (f params) e.2.2 (AGrad params) (fGrad params) j)) _
      fun e he => HasDerivAt.const_mul _ ?_
    have hB := ltvL2_deriv (fun t => A (Function.update params j t)) (fun t => f (Function.update params j t)) (AGrad params)
      (fGrad params) j (params j) (dA params j) (df params j) e.2.1.1 e.1.1 e.2.1.2 e.1.2 e.2.2 (hsym e he)
    simp only [Function.update_eq_self] at hB
    have hdQ : Spec.MatDerivAt (fun t => Q (Function.update params j t)) ((QGrad params).getD (fun _ => 0) j) (params j) := by
      have := dQ params j
      cases h : QGrad params <;> rw [h] at this <;> exact this
    have h := matDeriv_logdet_trace hdQ hB (by rw [Function.update_eq_self]; exact (hpos params).det_pos.ne')
    simp only [Function.update_eq_self] at h
    rw [logprodDerivative_eq (hpos params) _ (hc1 params)]
    exact h

/-- **C68** (Defect) `eval_logp_y_val_grad` raises `TypeError` whenever a gradient of the measurement equation is given and there is
a particle. -/
theorem C68_y_gradient_raises (M : Ltv n m U T Y) (kf : KF n m) (rows : List (List ℝ)) (y : Y) (t : T) (l : List (Est n))
    (hl : ltvGetStates n rows = .ok l) (hrows : rows ≠ []) (R : Matrix (Fin m) (Fin m) ℝ)
    (hR : (M.measDyn y t).2.2.2.or kf.R = some R) (hpos : R.PosDef) :
    M.evalLogpYValGrad p true kf rows y t = .error .typeError := by
  obtain ⟨c, hc, -⟩ := choForm hpos
  obtain ⟨-, -, -, e4, -, -⟩ :=
    setDynamics_fields kf none (M.measDyn y t).2.1 none (M.measDyn y t).2.2.2 none (M.measDyn y t).2.2.1
  rw [hR] at e4
  have hlne : l ≠ [] := by
    intro h; subst h
    have := (getStates_rows hl).1
    simp at this; exact hrows (List.length_eq_zero_iff.mp this.symm)
  unfold Ltv.evalLogpYValGrad
  rw [if_neg (by simp)]
  simp only [e4, unwrap, ok_bind, hc, hl, if_pos hlne]

/-- **C68** (Defect) Without any gradient the two methods return the array of values of `eval_logp_…` instead of their sum. -/
theorem C68_no_gradient_returns_array (M : Ltv n m U T Y) (kf : KF n m) (rows nrows : List (List ℝ)) (u : U) (t : T) (kf' : KF n m)
    (vs : List ℝ) (h : M.evalLogpXnext kf rows nrows u t = .ok (kf', vs)) :
    M.evalLogpXnextValGrad (p := p) none none none kf rows nrows u t = .ok (kf', .arr vs, fun _ => 0) := by
  unfold Ltv.evalLogpXnextValGrad
  have h' := h
  unfold Ltv.evalLogpXnext at h'
  simp only [bind_eq_ok] at h'
  obtain ⟨l, hl, ln, hln, -⟩ := h'
  simp only [hl, hln, ok_bind, h, pure_eq_ok]

/-- A scalar random walk whose initial mean is the parameter. -/
example : (∀ q : Fin 1 → ℝ, (1 : Matrix (Fin 1) (Fin 1) ℝ).PosDef) ∧
    ∀ (q : Fin 1 → ℝ) (j : Fin 1), Spec.VecDerivAt (fun t => Function.update q j t) (Function.const _ 1) (q j) := by
  refine ⟨fun _ => PosDef.one, fun q j i => ?_⟩
  rw [Subsingleton.elim i j]
  simpa using hasDerivAt_id' (q j)

end PyPE

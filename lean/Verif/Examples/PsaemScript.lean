import Verif.Examples.ParamScriptStep
import Verif.Param.PsRuns

/-!
# C118: the script `test/manual/paramest/standard_nonlin_model_psaem.py`

The growth model of C117 with its own `maximize_weighted`, used by `ParamEstimationPSAEM`. The M-step is in closed form (`maximize_weighted_analytic`); a numerical
search (`maximize_weighted_numeric`) is kept beside it.
-/

namespace PyPE
open Real Spec

variable {U : Type}

/-! ### The code -/

/-- `Model.set_params` (standard_nonlin_model_psaem.py:66-69): the variances themselves, not their logarithms. -/
def psaemSet (o : StdObj) (params : List ℝ) : PyM StdObj := do
  let a ← getIdx params 0
  let b ← getIdx params 1
  return { o with q := a, r := b }

section
variable {T : ℕ}

/-- `diff[:, j]` of the transitions (standard_nonlin_model_psaem.py:112-114) for the `j`-th trajectory `col`, a column of the array with `T` rows; nan is `none`. Simplification: time
stamps and rows must be equally many (NumPy would also broadcast a single one). -/
noncomputable def psaemDiffX (tt : List ℕ) (col : Fin T → ℝ) : PyM (List (Option ℝ)) :=
  if tt.length = T then
    let part := List.ofFn col
    let xp := List.zipWith (fun x (t : ℕ) => 0.5 * x + 25 * x / (1 + x ^ 2) + 8 * Real.cos (1.2 * t)) part tt
    .ok (List.zipWith (fun a b => some (a - b)) (part.drop 1) xp.dropLast)
  else .error .valueError

/-- `diff[:, j]` of the measurements (standard_nonlin_model_psaem.py:123-125); `numpy.asarray(yt, dtype=float)` turns `None` into nan. Simplification: as above. -/
noncomputable def psaemDiffY (yt : List (Slot (Fin 1 → ℝ))) (col : Fin T → ℝ) : PyM (List (Option ℝ)) :=
  if yt.length = T then .ok (List.zipWith (fun x y => (stdNum y).map fun y => 0.05 * x ^ 2 - y) (List.ofFn col) yt)
  else .error .valueError

/-- The loop `for j in range(len(weights)): werr[:, j:j + 1] = weights[j] * diff[:, j] ** 2` (standard_nonlin_model_psaem.py:118-119, 129-130); `werr` is the list of
its columns. -/
noncomputable def psaemFill (diff : List (List (Option ℝ))) (weights : List ℝ) : List ℕ → List (List (Option ℝ)) → PyM (List (List (Option ℝ)))
  | [], werr => .ok werr
  | j :: js, werr => do
    let w ← getIdx weights j
    let d ← getIdx diff j
    psaemFill diff weights js (werr.set j (d.map fun e => e.map fun e => w * e ^ 2))

/-- `numpy.mean(numpy.sum(werr, axis=1))` (standard_nonlin_model_psaem.py:121, 132) of an array with `rows` rows; nan without rows. -/
noncomputable def psaemMean (rows : ℕ) (werr : List (List (Option ℝ))) : Option ℝ :=
  if rows = 0 then none
  else (nanSum ((List.range rows).map fun t => nanSum (werr.map fun c => c.getD t none))).map fun s => s / rows

/-- `werr = numpy.empty((rows, M))`, whose content `empty` is arbitrary, then the loop and the mean. -/
noncomputable def psaemErr (empty : ℕ → ℕ → Option ℝ) (rows : ℕ) (diff : List (List (Option ℝ))) (weights : List ℝ) : PyM (Option ℝ) := do
  let werr ← psaemFill diff weights (List.range weights.length) ((List.range diff.length).map fun j => (List.range rows).map fun t => empty t j)
  return psaemMean rows werr

/-- `Model.maximize_weighted` = `maximize_weighted_analytic` (standard_nonlin_model_psaem.py:101-136) on the array whose columns are `cols`, with `straj.t`, `straj.y` in `D`. -/
noncomputable def psaemAnalytic (empty empty' : ℕ → ℕ → Option ℝ) (D : SData U (Fin 1 → ℝ)) (cols : List (Fin T → ℝ)) (weights : List ℝ) :
    PyM (Option ℝ × Option ℝ) := do
  let dx ← cols.mapM (psaemDiffX D.t)
  let Q ← psaemErr empty (T - 1) dx weights
  let dy ← cols.mapM (psaemDiffY D.y)
  let R ← psaemErr empty' T dy weights
  return (Q, R)

/-- The loop of `fval` in `maximize_weighted_numeric` (standard_nonlin_model_psaem.py:145-154) for a model with the attributes `o`: `log_py`, `log_pxnext` and `log_px0`, nan is `none`.
`alltrajs[:, i:i + 1]` is the array of one column; the trajectory terms (standard_nonlin_model_psaem.py:84-99) are those of C117. -/
noncomputable def psaemNumLoop (o : StdObj) (D : SData U (Fin 1 → ℝ)) (cols : List (Fin T → ℝ)) (weights : List ℝ) :
    List ℕ → Option ℝ × ℝ × ℝ → PyM (Option ℝ × ℝ × ℝ)
  | [], s => .ok s
  | i :: is, s => do
    let w ← getIdx weights i
    let col ← getIdx cols i
    let arr := List.ofFn fun t => [fun _ : Fin 1 => col t]
    let ly ← stdYFull o arr D.y
    let lx ← stdXFull o arr D.t
    let row ← getIdx arr 0
    let t0 ← getIdx D.t 0
    let tmp ← stdEvalX0 o row t0
    psaemNumLoop o D cols weights is (s.1.bind fun a => ly.map fun b => a + w * b, s.2.1 + w * lx, s.2.2 + w * npMean tmp)

/-- `fval` of `maximize_weighted_numeric` (standard_nonlin_model_psaem.py:139-157) after `set_params(params_val)`. -/
noncomputable def psaemNumeric (o : StdObj) (D : SData U (Fin 1 → ℝ)) (cols : List (Fin T → ℝ)) (weights : List ℝ) : PyM (Option ℝ) := do
  let s ← psaemNumLoop o D cols weights (List.range weights.length) (some 0, 0, 0)
  return s.1.map fun a => (-1) * (a + s.2.2 + s.2.1)

end

/-! ### Specification -/

/-- Mean squared transition residual of a path of the growth model. -/
noncomputable def Spec.growthResidual {n : ℕ} (x : Fin (n+1) → ℝ) : ℝ := (∑ t : Fin n, (x t.succ - growth t (x t.castSucc)) ^ 2) / n

/-- Mean squared measurement residual of a path. -/
noncomputable def Spec.growthMisfit {n : ℕ} (y x : Fin (n+1) → ℝ) : ℝ := (∑ t, (y t - x t ^ 2 / 20) ^ 2) / (n + 1)

/-! ### Closed form of the M-step -/

theorem psaemDiffX_eq {n : ℕ} (col : Fin (n+1) → ℝ) :
    psaemDiffX (List.range (n+1)) col = .ok (List.ofFn fun t : Fin n => some (col t.succ - growth t (col t.castSucc))) := by
  have hrange : List.range (n+1) = List.ofFn fun t : Fin (n+1) => (t : ℕ) := by
    rw [← List.map_coe_finRange_eq_range, List.ofFn_eq_map]
  unfold psaemDiffX
  rw [if_pos (by simp), hrange]
  have e1 : (List.ofFn col).drop 1 = List.ofFn fun t : Fin n => col t.succ := by rw [List.ofFn_succ]; rfl
  have e2 : ∀ f : Fin (n+1) → ℝ, (List.ofFn f).dropLast = List.ofFn fun t : Fin n => f t.castSucc := by
    intro f
    rw [List.ofFn_succ', List.concat_eq_append, List.dropLast_concat]
  simp only [zipWith_ofFn', e1, e2]
  rfl

theorem psaemDiffY_eq {n : ℕ} (y col : Fin (n+1) → ℝ) :
    psaemDiffY (List.ofFn fun t => Slot.obj fun _ => y t) col = .ok (List.ofFn fun t => some (0.05 * col t ^ 2 - y t)) := by
  unfold psaemDiffY
  rw [if_pos (by simp), zipWith_ofFn']
  rfl

/-- With as many weights as trajectories the loop fills every column. -/
theorem psaemFill_eq {diff : List (List (Option ℝ))} {weights : List ℝ} (h : weights.length = diff.length) {werr : List (List (Option ℝ))}
    (hw : werr.length = diff.length) :
    psaemFill diff weights (List.range weights.length) werr = .ok (List.zipWith (fun w d => d.map fun e => e.map fun e => w * e ^ 2) weights diff) := by
  obtain ⟨G, hG⟩ : ∃ G, G = List.zipWith (fun w (d : List (Option ℝ)) => d.map fun e => e.map fun e => w * e ^ 2) weights diff := ⟨_, rfl⟩
  have hGl : G.length = diff.length := by rw [hG]; simp [h]
  have key : ∀ (r k : ℕ) (W : List (List (Option ℝ))), k + r = diff.length → W.length = diff.length → W.take k = G.take k →
      psaemFill diff weights (List.range' k r) W = .ok G := by
    intro r
    induction r with
    | zero =>
      intro k W hk hW ht
      rw [List.range'_zero, psaemFill]
      rw [Nat.add_zero] at hk
      rw [List.take_of_length_le (by omega), List.take_of_length_le (by omega)] at ht
      rw [ht]
    | succ r ih =>
      intro k W hk hW ht
      rw [List.range'_succ, psaemFill, getIdx_of_lt (by omega), ok_bind, getIdx_of_lt (by omega), ok_bind]
      refine ih (k+1) _ (by omega) (by simpa using hW) ?_
      have hg : G[k]'(by omega) = (diff[k]'(by omega)).map fun e => e.map fun e => (weights[k]'(by omega)) * e ^ 2 := by
        simp only [hG, List.getElem_zipWith]
      apply List.ext_getElem
      · simp; omega
      · intro i h1 h2
        rw [List.getElem_take, List.getElem_take, List.getElem_set]
        split
        · next hi => subst hi; exact hg.symm
        · next hi =>
          have hik : i < k := by simp at h1; omega
          have := congrArg (fun l => l[i]?) ht
          simp only [List.getElem?_take_of_lt hik] at this
          rw [List.getElem?_eq_getElem (by omega), List.getElem?_eq_getElem (by omega)] at this
          exact Option.some.inj this
  rw [hG] at key
  have := key weights.length 0 werr (by omega) hw (by simp)
  rwa [← List.range_eq_range'] at this

theorem psaemErr_eq {rows m : ℕ} (hr : 0 < rows) (empty : ℕ → ℕ → Option ℝ) (w : Fin m → ℝ) (d : Fin m → Fin rows → ℝ) :
    psaemErr empty rows (List.ofFn fun j => List.ofFn fun t => some (d j t)) (List.ofFn w) = .ok (some ((∑ t, ∑ j, w j * d j t ^ 2) / rows)) := by
  unfold psaemErr
  rw [psaemFill_eq (by simp) (by simp), ok_bind, zipWith_ofFn', psaemMean, if_neg hr.ne']
  have e : ((List.range rows).map fun t => nanSum ((List.ofFn fun j => (List.ofFn fun t => some (d j t)).map fun e => e.map fun e => w j * e ^ 2).map fun c => c.getD t none)) =
      (List.ofFn fun t : Fin rows => ∑ j, w j * d j t ^ 2).map some := by
    apply List.ext_getElem
    · simp
    · intro t h1 h2
      have ht : t < rows := by simpa using h1
      rw [List.getElem_map, List.getElem_range, List.getElem_map, List.getElem_ofFn, List.map_ofFn]
      have : ((fun c : List (Option ℝ) => c.getD t none) ∘ fun j => (List.ofFn fun t => some (d j t)).map fun e => e.map fun e => w j * e ^ 2) =
          some ∘ fun j => w j * d j ⟨t, ht⟩ ^ 2 := by
        funext j
        simp only [Function.comp, List.map_ofFn, List.getD_eq_getElem?_getD, List.getElem?_ofFn, ht, dif_pos, Option.map_some, Option.getD_some]
      rw [this, ← List.map_ofFn, nanSum_some, List.sum_ofFn]
  rw [e, nanSum_some, List.sum_ofFn]
  rfl

/-- C118: the M-step returns the weighted mean squared residuals: `Q` over the `n` transitions and `R` over the `n+1` measurements. What `numpy.empty` returned
does not matter. -/
theorem C118_closed_form {n m : ℕ} (hn : 0 < n) (empty empty' : ℕ → ℕ → Option ℝ) (w : Fin m → ℝ) (x : Fin m → Fin (n+1) → ℝ) (y : Fin (n+1) → ℝ)
    {D : SData U (Fin 1 → ℝ)} (hy : D.y = List.ofFn fun t => Slot.obj fun _ => y t) (ht : D.t = List.range (n+1)) :
    psaemAnalytic empty empty' D (List.ofFn x) (List.ofFn w) = .ok (some (∑ j, w j * growthResidual (x j)), some (∑ j, w j * growthMisfit y (x j))) := by
  unfold psaemAnalytic
  have e1 : (List.ofFn x).mapM (psaemDiffX D.t) = .ok (List.ofFn fun j => List.ofFn fun t : Fin n => some (x j t.succ - growth t (x j t.castSucc))) := by
    rw [mapM_ok_map (g := fun c : Fin (n+1) → ℝ => List.ofFn fun t : Fin n => some (c t.succ - growth t (c t.castSucc))) (fun c _ => by rw [ht, psaemDiffX_eq]), List.map_ofFn]
    rfl
  have e2 : (List.ofFn x).mapM (psaemDiffY D.y) = .ok (List.ofFn fun j => List.ofFn fun t => some (0.05 * x j t ^ 2 - y t)) := by
    rw [mapM_ok_map (g := fun c : Fin (n+1) → ℝ => List.ofFn fun t => some (0.05 * c t ^ 2 - y t)) (fun c _ => by rw [hy, psaemDiffY_eq]), List.map_ofFn]
    rfl
  rw [e1, ok_bind, Nat.add_sub_cancel, psaemErr_eq hn, ok_bind, e2, ok_bind, psaemErr_eq (Nat.succ_pos n), ok_bind]
  have s1 : (∑ t, ∑ j, w j * (x j (Fin.succ t) - growth t (x j t.castSucc)) ^ 2) / (n : ℝ) = ∑ j, w j * growthResidual (x j) := by
    rw [Finset.sum_comm, Finset.sum_div]
    refine Finset.sum_congr rfl fun j _ => ?_
    rw [growthResidual, ← Finset.mul_sum]; ring
  have s2 : (∑ t, ∑ j, w j * (0.05 * x j t ^ 2 - y t) ^ 2) / ((n + 1 : ℕ) : ℝ) = ∑ j, w j * growthMisfit y (x j) := by
    rw [Finset.sum_comm, Finset.sum_div]
    refine Finset.sum_congr rfl fun j _ => ?_
    rw [growthMisfit, ← Finset.mul_sum, mul_div_assoc]
    push_cast
    congr 2
    refine Finset.sum_congr rfl fun t _ => ?_
    ring
  rw [s1, s2]
  rfl

end PyPE

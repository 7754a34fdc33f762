import Verif.Examples.ParamScriptObj

/-!
# C117: the EM iteration of `test/manual/paramest/standard_nonlin_model.py`
-/

namespace PyPE
open Real Spec MeasureTheory ProbabilityTheory Matrix
open scoped ENNReal

variable {U : Type}

/-! ### Specification -/

/-- `log p(x_0)`. -/
noncomputable def Spec.growthStart (p0 : ℝ) (x : Fin 1 → ℝ) : ℝ := logNormal !![p0] x

/-- The complete-data log-likelihood of the documented growth model. -/
noncomputable def Spec.growthLog (p0 q r : ℝ) : Option (Slot (Fin 1 → ℝ)) → List (Slot U × Slot (Fin 1 → ℝ)) → List (Fin 1 → ℝ) → ℝ :=
  completeLog (growthStart p0) (growthTrans q) (growthLik r)

/-- The likelihood of the measurements under the documented growth model: the integral of the joint density over all state paths. -/
noncomputable def Spec.growthLikelihood (p0 q r : ℝ) (first : Option (Slot (Fin 1 → ℝ))) (qs : List (Slot U × Slot (Fin 1 → ℝ))) : ℝ≥0∞ :=
  smoothingE (gauss 0 !![p0]) (growthKernel U q) (growthLik r) first qs fun _ => 1

/-! ### The constructor and `set_params` -/

/-- C117: the constructor raises exactly for a non-positive `Q`; `set_params` sets `Q` and `R` to the exponentials of the parameters and changes nothing else. -/
theorem C117_parameters (p0 q r : ℝ) (params : List ℝ) :
    (q ≤ 0 → stdInit p0 q r = .error .valueError) ∧
    (0 < q → stdInit p0 q r = .ok ⟨p0, q, r, -(1 / 2) * (Real.log (2 * π) + Real.log q)⟩) ∧
    (∀ o, params.length < 2 → stdSet o params = .error .indexError) ∧
    (∀ o a b rest, params = a :: b :: rest → stdSet o params = .ok ⟨o.p0, exp a, exp b, o.logxnMax⟩) := by
  refine ⟨fun h => ?_, fun h => ?_, fun o h => ?_, ?_⟩
  · rw [stdInit, lognormpdfScalar, if_pos h]; rfl
  · rw [stdInit, lognormpdfScalar, if_neg (not_le.2 h)]
    simp [ok_bind, getIdx, l2pi]
  · rcases params with _ | ⟨a, _ | ⟨b, rest⟩⟩
    · rfl
    · rfl
    · simp at h
  · rintro o a b rest rfl
    rfl

/-! ### The objective is minus the average complete-data log-likelihood -/

theorem growthLog_ofFn {p0 q r : ℝ} (hp : 0 < p0) (hq : 0 < q) (hr : 0 < r) (y0 : Fin 1 → ℝ) (qs : List (Slot U × (Fin 1 → ℝ))) (x : Fin (qs.length + 1) → ℝ) :
    growthLog p0 q r (some (.obj y0)) (asSlots qs) (List.ofFn fun t _ => x t) =
      -(1/2) * ((Real.log (2 * π) + Real.log p0 + x 0 ^ 2 / p0) + (Real.log (2 * π) + Real.log r + (y0 0 - x 0 ^ 2 / 20) ^ 2 / r) +
        ∑ t : Fin qs.length, ((Real.log (2 * π) + Real.log q + (x t.succ - growth t (x t.castSucc)) ^ 2 / q) +
          (Real.log (2 * π) + Real.log r + ((qs.get t).2 0 - x t.succ ^ 2 / 20) ^ 2 / r))) := by
  have hlen : (asSlots qs).length = qs.length := by simp [asSlots]
  obtain ⟨xx, hxx⟩ : ∃ xx : Fin ((asSlots qs).length + 1) → Fin 1 → ℝ, xx = fun t _ => x (t.cast (by rw [hlen])) := ⟨_, rfl⟩
  have e0 : (List.ofFn fun (t : Fin (qs.length + 1)) (_ : Fin 1) => x t) = List.ofFn xx := by
    rw [hxx]
    apply List.ext_getElem
    · simp [hlen]
    · intro i h1 h2
      rw [List.getElem_ofFn, List.getElem_ofFn]
      rfl
  have e : (List.ofFn fun (t : Fin (qs.length + 1)) (_ : Fin 1) => x t) = (fun _ => x 0) :: List.ofFn fun (t : Fin qs.length) (_ : Fin 1) => x t.succ := List.ofFn_succ
  have ep := pathLog_ofFn (growthTrans q) (growthLik r) 0 (asSlots qs) xx
  rw [← e0] at ep
  rw [growthLog, e, completeLog, ← e, ep]
  have s1 : ∑ t : Fin (asSlots qs).length, (growthTrans q (0 + t) ((asSlots qs).get t).1 (xx t.castSucc) (xx t.succ) +
      seen (growthLik r) (0 + t + 1) ((asSlots qs).get t).2 (xx t.succ)) =
      ∑ t : Fin qs.length, -(1/2) * ((Real.log (2 * π) + Real.log q + (x t.succ - growth t (x t.castSucc)) ^ 2 / q) +
          (Real.log (2 * π) + Real.log r + ((qs.get t).2 0 - x t.succ ^ 2 / 20) ^ 2 / r)) := by
    rw [← Equiv.sum_comp (finCongr hlen.symm)]
    refine Finset.sum_congr rfl fun t _ => ?_
    have hg : (asSlots qs).get (finCongr hlen.symm t) = ((qs.get t).1, .obj (qs.get t).2) := by
      simp only [asSlots, List.get_eq_getElem, List.getElem_map]
      rfl
    rw [hg, hxx]
    show logNormal !![q] ((fun _ => x t.succ) - fun _ => growth (0 + t) (x t.castSucc)) + logNormal !![r] ((qs.get t).2 - fun _ => x t.succ ^ 2 / 20) = _
    rw [logNormal_single _ hq, logNormal_single _ hr]
    simp only [Pi.sub_apply, zero_add]
    ring
  rw [s1, ← Finset.mul_sum]
  show logNormal !![p0] (fun _ => x 0) + logNormal !![r] (y0 - fun _ => x 0 ^ 2 / 20) + _ = _
  rw [logNormal_single _ hp, logNormal_single _ hr]
  simp only [Pi.sub_apply]
  ring

/-- C117: the vectorised objective of the script is minus the average, over the trajectories, of the complete-data log-likelihood of the documented model, when
there is a measurement at every time and the data vectors are as long as the run. -/
theorem C117_objective {o : StdObj} (hp : 0 < o.p0) (hq : 0 < o.q) (hr : 0 < o.r) {y0 : Fin 1 → ℝ} {qs : List (Slot U × (Fin 1 → ℝ))} {D : SData U (Fin 1 → ℝ)}
    (hy : D.y = .obj y0 :: qs.map fun q => .obj q.2) (ht : D.t = List.range (qs.length + 1)) {traj : List (SStep (Fin 1 → ℝ))} {m : ℕ}
    (hS : Shape traj (qs.length + 1) m) :
    stdFval o D traj = .ok (some (-((∑ j ∈ Finset.range m, growthLog o.p0 o.q o.r (some (.obj y0)) (asSlots qs) (pathOf traj j)) / m))) := by
  obtain ⟨xx, hxx⟩ := shape_ofFn hS
  obtain ⟨x, rfl⟩ : ∃ x : Fin (qs.length + 1) → Fin m → ℝ, xx = fun t j _ => x t j := ⟨fun t j => xx t j 0, by
    funext t j i
    fin_cases i
    rfl⟩
  have hyy : D.y = List.ofFn fun t : Fin (qs.length + 1) => Slot.obj fun _ : Fin 1 => (Fin.cons (y0 0) (fun t => (qs.get t).2 0) : Fin (qs.length + 1) → ℝ) t := by
    have one : ∀ v : Fin 1 → ℝ, (fun _ => v 0) = v := fun v => by funext i; fin_cases i; rfl
    rw [hy, List.ofFn_succ]
    simp only [Fin.cons_zero, Fin.cons_succ, one]
    congr 1
    apply List.ext_getElem
    · simp
    · intro i h1 h2
      simp
  rw [C117_closed_form x hp hq hr hxx _ hyy ht, Finset.sum_range]
  have e := fun j : Fin m => growthLog_ofFn hp hq hr y0 qs fun t => x t j
  have e' := fun j : Fin m => pathOf_ofFn hxx j
  simp only [e', e, Fin.sum_univ_succ (n := qs.length), Fin.cons_zero, Fin.cons_succ, ← Finset.mul_sum, Finset.sum_add_distrib, Finset.sum_const, Finset.card_univ, Fintype.card_fin, nsmul_eq_mul]
  refine congrArg Except.ok (congrArg some ?_)
  have c : ∀ f : Fin qs.length → Fin m → ℝ, ∑ t, ∑ j, f t j = ∑ j, ∑ t, f t j := fun f => Finset.sum_comm
  rw [← c, ← c]
  ring

/-- C117 (Defect): if any measurement is missing, the objective is nan whatever the parameters are, while the default terms it overrides would skip the
measurement (C116). -/
theorem C117_missing_measurement {o : StdObj} (hp : 0 < o.p0) (hq : 0 < o.q) (hr : 0 < o.r) {D : SData U (Fin 1 → ℝ)} {n m : ℕ} (hm : 0 < m)
    (hy : D.y.length = n + 1) (hmiss : Slot.none ∈ D.y) (ht : D.t = List.range (n + 1)) {traj : List (SStep (Fin 1 → ℝ))} (hS : Shape traj (n + 1) m) :
    stdFval o D traj = .ok none := by
  obtain ⟨xx, hxx⟩ := shape_ofFn hS
  obtain ⟨x, rfl⟩ : ∃ x : Fin (n + 1) → Fin m → ℝ, xx = fun t j _ => x t j := ⟨fun t j => xx t j 0, by
    funext t j i
    fin_cases i
    rfl⟩
  obtain ⟨h1, s0, h2, h3⟩ := stdRows_of x hxx
  have hY : stdYFull o (stdRows x) D.y = .ok none := by
    unfold stdYFull
    rw [stdRows_shape, ok_bind, npBroadcast_eq (by simp [stdRows, hy]), ok_bind, nanLogpdf, if_neg (not_le.2 hr), ok_bind, nanSum_none]
    · rfl
    · obtain ⟨t, ht', hget⟩ := List.mem_iff_getElem.mp hmiss
      refine List.mem_map.mpr ⟨none, List.mem_flatMap.mpr ⟨((stdRows x)[t]'(by simp [stdRows]; omega), none), ?_, ?_⟩, rfl⟩
      · have hz : t < ((stdRows x).zip (D.y.map stdNum)).length := by simp [stdRows]; omega
        have : ((stdRows x).zip (D.y.map stdNum))[t] = ((stdRows x)[t]'(by simp [stdRows]; omega), none) := by
          rw [List.getElem_zip, List.getElem_map, hget]
          rfl
        exact this ▸ List.getElem_mem hz
      · refine List.mem_map.mpr ⟨fun _ => x ⟨t, by omega⟩ ⟨0, hm⟩, ?_, rfl⟩
        simp only [stdRows, List.getElem_ofFn]
        exact (List.mem_ofFn' _ _).mpr ⟨⟨0, hm⟩, rfl⟩
  unfold stdFval
  rw [h1, ok_bind, hY, ok_bind, ht, stdXFull_eq x hq, ok_bind, h2, ok_bind, getIdx_of_lt (by simp), ok_bind, stdEvalX0, h3, lognormpdfScalar,
    if_neg (not_le.2 hp), ok_bind]
  rfl

end PyPE

import Verif.Param.SaReturn
import Verif.Examples.PsaemScript
import Verif.Param.PsToy

/-!
# C118: what the M-step of the script maximises, and what a run of PSAEM with it computes
-/

namespace PyPE
open Real Spec

variable {U : Type}

/-! ### Specification -/

/-- `log p(x, y)` of a path and the measurements `y0, qs` under the growth model with variances `p0`, `q`, `r`. -/
noncomputable def Spec.growthJoint (p0 : ℝ) (y0 : Fin 1 → ℝ) (qs : List (Slot U × (Fin 1 → ℝ))) (q r : ℝ) (x : Fin (qs.length + 1) → ℝ) : ℝ :=
  growthLog p0 q r (some (.obj y0)) (asSlots qs) (List.ofFn fun t _ => x t)

/-- The measurements of all times as numbers. -/
def Spec.seenY (y0 : Fin 1 → ℝ) (qs : List (Slot U × (Fin 1 → ℝ))) : Fin (qs.length + 1) → ℝ := Fin.cons (y0 0) fun t => (qs.get t).2 0

/-! ### The objective -/

theorem wsum_ofFn {X : Type} {m : ℕ} (f : X → ℝ) (w : Fin m → ℝ) (x : Fin m → X) : wsum f (List.ofFn w) (List.ofFn x) = ∑ j, w j * f (x j) := by
  rw [wsum, zipWith_ofFn', List.sum_ofFn]

theorem exists_ofFn {X : Type} {weights : List ℝ} {cols : List X} (h : weights.length = cols.length) :
    ∃ (m : ℕ) (w : Fin m → ℝ) (x : Fin m → X), weights = List.ofFn w ∧ cols = List.ofFn x :=
  ⟨cols.length, fun j => weights.get (j.cast h.symm), cols.get, by
    apply List.ext_getElem
    · simp [h]
    · intro i h1 h2; simp, (List.ofFn_get cols).symm⟩

theorem slots_ofFn {D : SData U (Fin 1 → ℝ)} {y0 : Fin 1 → ℝ} {qs : List (Slot U × (Fin 1 → ℝ))} (hy : D.y = .obj y0 :: qs.map fun q => .obj q.2) :
    D.y = List.ofFn fun t => Slot.obj fun _ : Fin 1 => seenY y0 qs t := by
  have one : ∀ v : Fin 1 → ℝ, (fun _ => v 0) = v := fun v => by funext i; fin_cases i; rfl
  rw [hy, List.ofFn_succ]
  simp only [seenY, Fin.cons_zero, Fin.cons_succ, one]
  congr 1
  apply List.ext_getElem
  · simp
  · intro i h1 h2
    simp

theorem growthJoint_eq {p0 q r : ℝ} (hp : 0 < p0) (hq : 0 < q) (hr : 0 < r) (y0 : Fin 1 → ℝ) {qs : List (Slot U × (Fin 1 → ℝ))} (hqs : qs ≠ [])
    (x : Fin (qs.length + 1) → ℝ) :
    growthJoint p0 y0 qs q r x = -(1/2) * ((Real.log (2 * π) + Real.log p0 + x 0 ^ 2 / p0) +
      (qs.length + 1) * (Real.log (2 * π) + Real.log r + growthMisfit (seenY y0 qs) x / r) +
      qs.length * (Real.log (2 * π) + Real.log q + growthResidual x / q)) := by
  have hn : (qs.length : ℝ) ≠ 0 := by
    have := List.length_pos_of_ne_nil hqs
    positivity
  have hn1 : (qs.length : ℝ) + 1 ≠ 0 := by positivity
  rw [growthJoint, growthLog_ofFn hp hq hr]
  have e1 : growthMisfit (seenY y0 qs) x = ((y0 0 - x 0 ^ 2 / 20) ^ 2 + ∑ t : Fin qs.length, ((qs.get t).2 0 - x t.succ ^ 2 / 20) ^ 2) / (qs.length + 1) := by
    rw [growthMisfit, Fin.sum_univ_succ]
    rfl
  rw [e1, growthResidual]
  simp only [Finset.sum_add_distrib, Finset.sum_const, Finset.card_univ, Fintype.card_fin, nsmul_eq_mul, ← Finset.sum_div]
  field_simp
  ring

/-- The weighted objective in terms of the weighted residuals. -/
theorem growthJoint_wsum {p0 q r : ℝ} (hp : 0 < p0) (hq : 0 < q) (hr : 0 < r) (y0 : Fin 1 → ℝ) {qs : List (Slot U × (Fin 1 → ℝ))} (hqs : qs ≠ [])
    {m : ℕ} (w : Fin m → ℝ) (hw : ∑ j, w j = 1) (x : Fin m → Fin (qs.length + 1) → ℝ) :
    ∑ j, w j * growthJoint p0 y0 qs q r (x j) = -(1/2) * ((∑ j, w j * (Real.log (2 * π) + Real.log p0 + x j 0 ^ 2 / p0)) +
      (qs.length + 1) * (Real.log (2 * π) + Real.log r + (∑ j, w j * growthMisfit (seenY y0 qs) (x j)) / r) +
      qs.length * (Real.log (2 * π) + Real.log q + (∑ j, w j * growthResidual (x j)) / q)) := by
  have e : ∀ j, w j * growthJoint p0 y0 qs q r (x j) = -(1/2) * (w j * (Real.log (2 * π) + Real.log p0 + x j 0 ^ 2 / p0) +
      (w j * ((qs.length + 1) * (Real.log (2 * π) + Real.log r)) + (qs.length + 1) * (w j * growthMisfit (seenY y0 qs) (x j) / r)) +
      (w j * (qs.length * (Real.log (2 * π) + Real.log q)) + qs.length * (w j * growthResidual (x j) / q))) := by
    intro j
    rw [growthJoint_eq hp hq hr y0 hqs]
    ring
  rw [Finset.sum_congr rfl fun j _ => e j, ← Finset.mul_sum]
  simp only [Finset.sum_add_distrib, ← Finset.sum_mul, ← Finset.mul_sum, ← Finset.sum_div, hw]
  ring

/-- C118: for weights of sum one and positive results, the `(Q, R)` the M-step returns is the unique maximiser, over all positive variances, of the weighted
complete-data log-likelihood of the documented growth model. -/
theorem C118_maximiser {p0 : ℝ} (hp : 0 < p0) {y0 : Fin 1 → ℝ} {qs : List (Slot U × (Fin 1 → ℝ))} (hqs : qs ≠ []) {D : SData U (Fin 1 → ℝ)}
    (hy : D.y = .obj y0 :: qs.map fun q => .obj q.2) (ht : D.t = List.range (qs.length + 1)) (empty empty' : ℕ → ℕ → Option ℝ)
    {cols : List (Fin (qs.length + 1) → ℝ)} {weights : List ℝ} (hl : weights.length = cols.length) (hw : weights.sum = 1) {Q R : ℝ}
    (h : psaemAnalytic empty empty' D cols weights = .ok (some Q, some R)) (hQ : 0 < Q) (hR : 0 < R) :
    ∀ q r, 0 < q → 0 < r → (q, r) ≠ (Q, R) → wsum (growthJoint p0 y0 qs q r) weights cols < wsum (growthJoint p0 y0 qs Q R) weights cols := by
  intro q r hq hr hne
  have hn : 0 < qs.length := List.length_pos_of_ne_nil hqs
  obtain ⟨m, w, x, rfl, rfl⟩ := exists_ofFn hl
  rw [List.sum_ofFn] at hw
  rw [C118_closed_form hn empty empty' w x _ (slots_ofFn hy) ht] at h
  simp only [Except.ok.injEq, Prod.mk.injEq, Option.some.injEq] at h
  rw [wsum_ofFn, wsum_ofFn, growthJoint_wsum hp hq hr y0 hqs w hw x, growthJoint_wsum hp hQ hR y0 hqs w hw x, h.1, h.2, div_self hQ.ne', div_self hR.ne']
  have hn' : (0 : ℝ) < qs.length := by exact_mod_cast hn
  have h1 := log_add_div_le hQ hq
  have h2 := log_add_div_le hR hr
  by_cases hqQ : q = Q
  · have hrR : r ≠ R := fun e => hne (by rw [hqQ, e])
    have h3 := log_add_div_lt hR hr hrR
    have a1 := mul_le_mul_of_nonneg_left h1 hn'.le
    have a2 := mul_lt_mul_of_pos_left h3 (show (0:ℝ) < qs.length + 1 by positivity)
    nlinarith
  · have h3 := log_add_div_lt hQ hq hqQ
    have a1 := mul_lt_mul_of_pos_left h3 hn'
    have a2 := mul_le_mul_of_nonneg_left h2 (show (0:ℝ) ≤ qs.length + 1 by positivity)
    nlinarith

/-! ### The numerical search -/

theorem psaemNumLoop_eq {o : StdObj} {T m : ℕ} {D : SData U (Fin 1 → ℝ)} {w : Fin m → ℝ} {x : Fin m → Fin T → ℝ} {ly lx l0 : (Fin T → ℝ) → ℝ}
    (hy : ∀ c, stdYFull o (List.ofFn fun t => [fun _ : Fin 1 => c t]) D.y = .ok (some (ly c)))
    (hx : ∀ c, stdXFull o (List.ofFn fun t => [fun _ : Fin 1 => c t]) D.t = .ok (lx c)) {t0 : ℕ} (ht0 : getIdx D.t 0 = .ok t0)
    (h0 : ∀ c, ∃ row tmp, getIdx (List.ofFn fun t => [fun _ : Fin 1 => c t]) 0 = .ok row ∧ stdEvalX0 o row t0 = .ok tmp ∧ npMean tmp = l0 c) :
    ∀ (is : List (Fin m)) (a b c : ℝ), psaemNumLoop o D (List.ofFn x) (List.ofFn w) (is.map Fin.val) (some a, b, c) =
      .ok (some (a + (is.map fun i => w i * ly (x i)).sum), b + (is.map fun i => w i * lx (x i)).sum, c + (is.map fun i => w i * l0 (x i)).sum) := by
  intro is
  induction is with
  | nil => intro a b c; simp [psaemNumLoop]
  | cons i is ih =>
    intro a b c
    obtain ⟨row, tmp, e1, e2, e3⟩ := h0 (x i)
    rw [List.map_cons, psaemNumLoop, getIdx_ofFn, ok_bind, getIdx_ofFn, ok_bind]
    simp only [hy, hx, ok_bind, e1, ht0, e2, e3, Option.map_some, Option.bind_some]
    rw [ih]
    simp only [List.map_cons, List.sum_cons, add_assoc]

/-- C118: the objective of the numerical search the script keeps beside the closed form is minus the weighted complete-data log-likelihood; by
`C118_maximiser` its only minimiser is what the closed form returns. -/
theorem C118_numeric {o : StdObj} (hp : 0 < o.p0) (hq : 0 < o.q) (hr : 0 < o.r) {y0 : Fin 1 → ℝ} {qs : List (Slot U × (Fin 1 → ℝ))} (hqs : qs ≠ [])
    {D : SData U (Fin 1 → ℝ)} (hy : D.y = .obj y0 :: qs.map fun q => .obj q.2) (ht : D.t = List.range (qs.length + 1))
    {cols : List (Fin (qs.length + 1) → ℝ)} {weights : List ℝ} (hl : weights.length = cols.length) :
    psaemNumeric o D cols weights = .ok (some (-wsum (growthJoint o.p0 y0 qs o.q o.r) weights cols)) := by
  have hn' : (qs.length : ℝ) ≠ 0 := by
    have := List.length_pos_of_ne_nil hqs
    positivity
  obtain ⟨m, w, x, rfl, rfl⟩ := exists_ofFn hl
  have hrow : ∀ c : Fin (qs.length + 1) → ℝ, (List.ofFn fun t => [fun _ : Fin 1 => c t]) = stdRows fun t (_ : Fin 1) => c t := by
    intro c; rw [stdRows]; simp
  have hy' : ∀ c : Fin (qs.length + 1) → ℝ, stdYFull o (List.ofFn fun t => [fun _ : Fin 1 => c t]) D.y =
      .ok (some (-(1/2) * ((qs.length + 1) * (Real.log (2 * π) + Real.log o.r + growthMisfit (seenY y0 qs) c / o.r)))) := by
    intro c
    rw [hrow, slots_ofFn hy, stdYFull_eq _ hr]
    refine congrArg Except.ok (congrArg some ?_)
    have e : ∀ t, (0.05 * c t ^ 2 - seenY y0 qs t) ^ 2 = (seenY y0 qs t - c t ^ 2 / 20) ^ 2 := fun t => by ring
    simp only [Fin.sum_univ_one, Nat.cast_one, div_one, l2pi, ← Finset.mul_sum, Finset.sum_add_distrib, e, Finset.sum_const, Finset.card_univ,
      Fintype.card_fin, nsmul_eq_mul, growthMisfit, ← Finset.sum_div]
    push_cast
    generalize (∑ t, (seenY y0 qs t - c t ^ 2 / 20) ^ 2) = S
    field_simp
  have hx' : ∀ c : Fin (qs.length + 1) → ℝ, stdXFull o (List.ofFn fun t => [fun _ : Fin 1 => c t]) D.t =
      .ok (-(1/2) * (qs.length * (Real.log (2 * π) + Real.log o.q + growthResidual c / o.q))) := by
    intro c
    rw [hrow, ht, stdXFull_eq _ hq]
    refine congrArg Except.ok ?_
    simp only [Fin.sum_univ_one, Nat.cast_one, div_one, l2pi, ← Finset.mul_sum, Finset.sum_add_distrib, Finset.sum_const, Finset.card_univ,
      Fintype.card_fin, nsmul_eq_mul, growthResidual, ← Finset.sum_div]
    field_simp
  have h0' : ∀ c : Fin (qs.length + 1) → ℝ, ∃ row tmp, getIdx (List.ofFn fun t => [fun _ : Fin 1 => c t]) 0 = .ok row ∧ stdEvalX0 o row 0 = .ok tmp ∧
      npMean tmp = -(1/2) * (Real.log (2 * π) + Real.log o.p0 + c 0 ^ 2 / o.p0) := by
    intro c
    refine ⟨[fun _ => c 0], _, by rw [List.ofFn_succ]; rfl, by rw [stdEvalX0, lognormpdfScalar, if_neg (not_le.2 hp)], ?_⟩
    simp [npMean, l2pi]
  have hrange : List.range (List.ofFn w).length = (List.finRange m).map Fin.val := by
    rw [List.length_ofFn]; exact (List.map_coe_finRange_eq_range).symm
  unfold psaemNumeric
  rw [hrange, psaemNumLoop_eq hy' hx' (t0 := 0) (by rw [ht, getIdx_of_lt (by simp)]; simp) h0', ok_bind, wsum_ofFn]
  simp only [← List.ofFn_eq_map, List.sum_ofFn, zero_add]
  refine congrArg Except.ok (congrArg some ?_)
  beta_reduce
  rw [← Finset.sum_add_distrib, ← Finset.sum_add_distrib, ← Finset.sum_neg_distrib, Finset.mul_sum]
  refine Finset.sum_congr rfl fun j _ => ?_
  rw [growthJoint_eq hp hq hr y0 hqs]
  ring

/-! ### Missing data -/

theorem psaemErr_none {rows m : ℕ} (hm : 0 < m) (empty : ℕ → ℕ → Option ℝ) (w : Fin m → ℝ) (d : Fin m → Fin rows → Option ℝ) (t0 : Fin rows) (h : ∀ j, d j t0 = none) :
    psaemErr empty rows (List.ofFn fun j => List.ofFn (d j)) (List.ofFn w) = .ok none := by
  have hr : rows ≠ 0 := by have := t0.2; omega
  unfold psaemErr
  rw [psaemFill_eq (by simp) (by simp), ok_bind, zipWith_ofFn', psaemMean, if_neg hr, nanSum_none]
  · rfl
  refine List.mem_map.mpr ⟨t0, List.mem_range.2 t0.2, nanSum_none ?_⟩
  refine List.mem_map.mpr ⟨_, (List.mem_ofFn' _ _).mpr ⟨⟨0, hm⟩, rfl⟩, ?_⟩
  simp only [List.map_ofFn, List.getD_eq_getElem?_getD, List.getElem?_ofFn, t0.2, dif_pos, Function.comp, h, Option.map_none, Option.getD_some]

/-- C118 (Defect): if any measurement is missing, the new `R` is nan whatever the trajectories are; `Q` is not affected. -/
theorem C118_missing_measurement {n m : ℕ} (hn : 0 < n) (hm : 0 < m) (empty empty' : ℕ → ℕ → Option ℝ) (w : Fin m → ℝ) (x : Fin m → Fin (n+1) → ℝ)
    {D : SData U (Fin 1 → ℝ)} (hy : D.y.length = n + 1) (hmiss : Slot.none ∈ D.y) (ht : D.t = List.range (n+1)) :
    psaemAnalytic empty empty' D (List.ofFn x) (List.ofFn w) = .ok (some (∑ j, w j * growthResidual (x j)), none) := by
  obtain ⟨t0, h1, h2⟩ := List.mem_iff_getElem.mp hmiss
  have hq := C118_closed_form (D := ⟨D.u, List.ofFn fun _ : Fin (n+1) => Slot.obj fun _ => 0, D.t⟩) hn empty empty' w x (fun _ => 0) rfl ht
  have e2 : (List.ofFn x).mapM (psaemDiffY D.y) = .ok (List.ofFn fun j => List.ofFn fun t : Fin (n+1) => (stdNum (D.y[(t : ℕ)]'(by omega))).map fun y => 0.05 * x j t ^ 2 - y) := by
    rw [mapM_ok_map (g := fun c : Fin (n+1) → ℝ => List.ofFn fun t : Fin (n+1) => (stdNum (D.y[(t : ℕ)]'(by omega))).map fun y => 0.05 * c t ^ 2 - y) ?_, List.map_ofFn]
    · rfl
    · intro c _
      unfold psaemDiffY
      rw [if_pos hy]
      congr 1
      apply List.ext_getElem
      · simp [hy]
      · intro i h1 h2
        rw [List.getElem_zipWith, List.getElem_ofFn, List.getElem_ofFn]
  unfold psaemAnalytic at hq ⊢
  rw [bind_eq_ok] at hq
  obtain ⟨dx, hdx, hq⟩ := hq
  rw [bind_eq_ok] at hq
  obtain ⟨Q, hQ, hq⟩ := hq
  rw [bind_eq_ok] at hq
  obtain ⟨dy, _, hq⟩ := hq
  rw [bind_eq_ok] at hq
  obtain ⟨R, _, hq⟩ := hq
  rw [pure_eq_ok] at hq
  simp only [Except.ok.injEq, Prod.mk.injEq] at hq
  rw [hdx, ok_bind, hQ, ok_bind, e2, ok_bind, psaemErr_none hm empty' w _ ⟨t0, by omega⟩ fun j => by simp [h2, stdNum], ok_bind, hq.1]
  rfl

/-- C118 (Defect): with a single time step there is no transition, and the new `Q` is nan. -/
theorem C118_single_step (empty empty' : ℕ → ℕ → Option ℝ) {cols : List (Fin 1 → ℝ)} {weights : List ℝ} (hl : weights.length = cols.length)
    {D : SData U (Fin 1 → ℝ)} (ht : D.t.length = 1) (hy : D.y.length = 1) : ∃ R, psaemAnalytic empty empty' D cols weights = .ok (none, R) := by
  obtain ⟨t, ht'⟩ := List.length_eq_one_iff.mp ht
  have h1 := mapM_ok_map (l := cols) (f := psaemDiffX D.t) (g := fun _ => []) (fun c _ => by unfold psaemDiffX; rw [if_pos ht]; simp)
  have h2 := mapM_ok_map (l := cols) (f := psaemDiffY D.y) (g := fun c => List.zipWith (fun x y => (stdNum y).map fun y => 0.05 * x ^ 2 - y) (List.ofFn c) D.y)
    (fun c _ => by unfold psaemDiffY; rw [if_pos hy])
  unfold psaemAnalytic psaemErr
  rw [h1, ok_bind, psaemFill_eq (by simp [hl]) (by simp), ok_bind, pure_eq_ok, ok_bind, h2, ok_bind, psaemFill_eq (by simp [hl]) (by simp)]
  exact ⟨_, rfl⟩

/-! ### The constructor and `set_params` -/

/-- C118: `set_params` sets the variances themselves, and nothing else. -/
theorem C118_parameters (o : StdObj) (params : List ℝ) :
    (params.length < 2 → psaemSet o params = .error .indexError) ∧ (∀ a b rest, params = a :: b :: rest → psaemSet o params = .ok ⟨o.p0, a, b, o.logxnMax⟩) := by
  refine ⟨fun h => ?_, ?_⟩
  · rcases params with _ | ⟨a, _ | ⟨b, rest⟩⟩
    · rfl
    · rfl
    · simp at h
  · rintro a b rest rfl
    rfl

/-! ### A run of PSAEM -/

section
variable {W Θ X C : Type} {H : PsHooks W Θ X C} {o : PsOpts} {garbage : ℕ → ℕ → X} {cb : Θ → ℕ → W → PyM (Bool × W)}

/-- Every M-step recorded in a run is a call of `maximize_weighted`. -/
theorem psIter_mstep {i : ℕ} {s s' : PsState W Θ X C} {tr : List (SaCall Θ X C)} (h : psIter H o garbage i s = (tr, .ok s')) {x : List X} {v : List ℝ} {θ : Θ}
    (hm : SaCall.maximizeWeighted x v θ ∈ tr) : ∃ w w', H.maximizeWeighted x v w = .ok (θ, w') := by
  unfold psIter at h
  simp only [Traced.call_ok] at h
  obtain ⟨w1, _, t1, ⟨w2, _, t2, ⟨new, hnew, t3, ⟨c, _, t4, ⟨opts, hopts, t5, ⟨w3, _, t6, ⟨acc, hacc, t7,
    ⟨⟨θ', w4⟩, hmw, t8, h8, rfl⟩, rfl⟩, rfl⟩, rfl⟩, rfl⟩, rfl⟩, rfl⟩, rfl⟩ := h
  simp only [Prod.mk.injEq, Except.ok.injEq] at h8
  obtain ⟨rfl, rfl⟩ := h8
  have hopt : SaCall.maximizeWeighted x v θ ∉ optRecord H.callbackSim (.callbackSim : SaCall Θ X C) := by cases H.callbackSim <;> simp [optRecord]
  simp only [List.mem_append, List.mem_cons, List.not_mem_nil, or_false, hopt, reduceCtorEq, false_or, SaCall.maximizeWeighted.injEq] at hm
  obtain ⟨rfl, rfl, rfl⟩ := hm
  exact ⟨_, _, hmw⟩

theorem psLoop_mstep : ∀ (fuel i : ℕ) (s : PsState W Θ X C) {x : List X} {v : List ℝ} {θ : Θ},
    SaCall.maximizeWeighted x v θ ∈ (psLoop H o garbage cb fuel i s).1 → ∃ w w', H.maximizeWeighted x v w = .ok (θ, w') := by
  intro fuel
  induction fuel with
  | zero => intro i s x v θ h; simp [psLoop] at h
  | succ fuel ih =>
    intro i s x v θ h
    rcases psLoop_cases (H := H) (o := o) (garbage := garbage) (cb := cb) fuel i s with
      ⟨tr, e, h1, h2⟩ | ⟨tr, s', h1, ⟨e, _, h2⟩ | ⟨w, _, h2⟩ | ⟨w, _, h2⟩⟩
    · rw [h2] at h
      have : (x, v) ∈ mStepInputs tr := List.mem_filterMap.mpr ⟨_, h, rfl⟩
      rw [(psIter_err h1).1] at this
      simp at this
    · rw [h2] at h
      exact psIter_mstep h1 h
    · rw [h2] at h
      simp only [List.mem_append, List.mem_singleton, reduceCtorEq, or_false] at h
      exact psIter_mstep h1 h
    · rw [h2] at h
      simp only [List.mem_append, List.mem_singleton, reduceCtorEq, or_false] at h
      rcases h with h | h
      · exact psIter_mstep h1 h
      · exact ih _ _ h

theorem mStepResults_eq {tr : List (SaCall Θ X C)} {g : List X × List ℝ → Θ} (h : ∀ x v θ, SaCall.maximizeWeighted x v θ ∈ tr → θ = g (x, v)) :
    mStepResults tr = (mStepInputs tr).map g := by
  induction tr with
  | nil => rfl
  | cons c tr ih =>
    have ih := ih fun x v θ hm => h x v θ (List.mem_cons_of_mem _ hm)
    cases c with
    | maximizeWeighted x v θ =>
      show θ :: mStepResults tr = g (x, v) :: (mStepInputs tr).map g
      rw [ih, ← h x v θ (by simp)]
    | _ => exact ih

end

section
variable {W C : Type} {n : ℕ} {H : PsHooks W (Option ℝ × Option ℝ) (Fin (n+1) → ℝ) C} {o : PsOpts} {garbage : ℕ → ℕ → Fin (n+1) → ℝ}

theorem psaem_results (hn : 0 < n) {D : SData U (Fin 1 → ℝ)} {y : Fin (n+1) → ℝ} (hy : D.y = List.ofFn fun t => Slot.obj fun _ => y t) (ht : D.t = List.range (n+1))
    (hmw : ∀ cols ws w θ w', H.maximizeWeighted cols ws w = .ok (θ, w') → ∃ e e', psaemAnalytic e e' D cols ws = .ok θ)
    (hsm : ∀ w x, H.smoothed w = .ok x → x ≠ []) (hfw : ∀ w x, H.finalWeights w = .ok x → x ≠ []) (hα : ∀ k, 0 ≤ o.alpha k ∧ o.alpha k ≤ 1)
    (he : 0 ≤ o.discard_eps) (callback : Option (Option ℝ × Option ℝ → ℕ → W → PyM (Bool × W))) (max_iter : ℕ) (param0 : Option ℝ × Option ℝ) (opts : FilterOpts C)
    (w : W) (fuel : ℕ) :
    mStepResults (psMaximize H o garbage callback max_iter param0 opts w fuel).1 =
      (mStepInputs (psMaximize H o garbage callback max_iter param0 opts w fuel).1).map fun p => (some (wsum growthResidual p.2 p.1), some (wsum (growthMisfit y) p.2 p.1)) := by
  refine mStepResults_eq fun x v θ hm => ?_
  obtain ⟨w1, w2, h1⟩ := psLoop_mstep _ _ _ hm
  obtain ⟨e, e', h2⟩ := hmw _ _ _ _ _ h1
  have hw := C55_psaem_weights hsm hfw hα he callback max_iter param0 opts w fuel (garbage := garbage) (x, v) (List.mem_filterMap.mpr ⟨_, hm, rfl⟩)
  obtain ⟨m, ww, xx, rfl, rfl⟩ := exists_ofFn hw.1
  rw [C118_closed_form hn e e' ww xx y hy ht] at h2
  rw [wsum_ofFn, wsum_ofFn]
  exact (Except.ok.inj h2).symm

/-- C118: with the script's M-step, a run of PSAEM (default pruning) is a stochastic approximation of the two residuals: the `k`-th estimates are
`Q_k = (1 - α_k) Q_{k-1} + α_k q_k` and `R_k = (1 - α_k) R_{k-1} + α_k r_k`, `q_k` and `r_k` being the mean squared residuals of the trajectories of iteration `k`. -/
theorem C118_run (hn : 0 < n) {D : SData U (Fin 1 → ℝ)} {y : Fin (n+1) → ℝ} (hy : D.y = List.ofFn fun t => Slot.obj fun _ => y t) (ht : D.t = List.range (n+1))
    (hmw : ∀ cols ws w θ w', H.maximizeWeighted cols ws w = .ok (θ, w') → ∃ e e', psaemAnalytic e e' D cols ws = .ok θ)
    (hsm : ∀ w x, H.smoothed w = .ok x → x ≠ []) (hfw : ∀ w x, H.finalWeights w = .ok x → x ≠ []) (hα : ∀ k, 0 ≤ o.alpha k ∧ o.alpha k ≤ 1)
    (he : o.discard_eps = 0) (hm : o.max_traj = 0) (hrb : o.raoblackwell = false) (callback : Option (Option ℝ × Option ℝ → ℕ → W → PyM (Bool × W)))
    (max_iter : ℕ) (param0 : Option ℝ × Option ℝ) (opts : FilterOpts C) (w : W) (fuel : ℕ) :
    ∃ new : List (List (Fin (n+1) → ℝ)), (∀ x ∈ new, ∃ w', H.smoothed w' = .ok x) ∧
      ∃ Qs Rs, mStepResults (psMaximize H o garbage callback max_iter param0 opts w fuel).1 = (Qs.zip Rs).map (fun p => (some p.1, some p.2)) ∧ Qs.length = Rs.length ∧
        Qs <+: saAverages o.alpha 0 none (new.map fun x => (x.map growthResidual).sum / x.length) ∧
        Rs <+: saAverages o.alpha 0 none (new.map fun x => (x.map (growthMisfit y)).sum / x.length) := by
  obtain ⟨tr, htr⟩ : ∃ tr, tr = (psMaximize H o garbage callback max_iter param0 opts w fuel).1 := ⟨_, rfl⟩
  have hmean := fun f => C55_contribution_mean (garbage := garbage) hrb callback max_iter param0 opts w fuel f (H := H)
  have havg := fun f => C55_psaem_average (garbage := garbage) hsm hfw hα he hm callback max_iter param0 opts w fuel f
  have hres := psaem_results (garbage := garbage) hn hy ht hmw hsm hfw hα he.ge callback max_iter param0 opts w fuel
  rw [← htr] at hres havg hmean ⊢
  refine ⟨(contributions tr).map (·.1), ?_, (mStepInputs tr).map (fun p => wsum growthResidual p.2 p.1), (mStepInputs tr).map (fun p => wsum (growthMisfit y) p.2 p.1),
    ?_, by simp, ?_, ?_⟩
  · intro x hx
    obtain ⟨p, hp, rfl⟩ := List.mem_map.mp hx
    exact (hmean (fun _ => 0) p hp).1
  · rw [hres, List.zip_map', List.map_map]
    rfl
  all_goals
    rw [List.map_map]
    refine (havg _).trans ?_
    rw [List.map_congr_left fun p hp => (hmean _ p hp).2]
    exact List.prefix_rfl

end

/-- C118: in every run of PSAEM with the script's M-step, whatever the pruning, every M-step returns two non-negative numbers, and when they are positive they are
the unique maximiser of the weighted complete-data log-likelihood of the trajectories it was given. -/
theorem C118_run_maximises {W C : Type} {p0 : ℝ} (hp : 0 < p0) {y0 : Fin 1 → ℝ} {qs : List (Slot U × (Fin 1 → ℝ))} (hqs : qs ≠ []) {D : SData U (Fin 1 → ℝ)}
    (hy : D.y = .obj y0 :: qs.map fun q => .obj q.2) (ht : D.t = List.range (qs.length + 1))
    {H : PsHooks W (Option ℝ × Option ℝ) (Fin (qs.length + 1) → ℝ) C} {o : PsOpts} {garbage : ℕ → ℕ → Fin (qs.length + 1) → ℝ}
    (hmw : ∀ cols ws w θ w', H.maximizeWeighted cols ws w = .ok (θ, w') → ∃ e e', psaemAnalytic e e' D cols ws = .ok θ)
    (hsm : ∀ w x, H.smoothed w = .ok x → x ≠ []) (hfw : ∀ w x, H.finalWeights w = .ok x → x ≠ []) (hα : ∀ k, 0 ≤ o.alpha k ∧ o.alpha k ≤ 1)
    (he : 0 ≤ o.discard_eps) (callback : Option (Option ℝ × Option ℝ → ℕ → W → PyM (Bool × W))) (max_iter : ℕ) (param0 : Option ℝ × Option ℝ) (opts : FilterOpts C)
    (w : W) (fuel : ℕ) {cols : List (Fin (qs.length + 1) → ℝ)} {weights : List ℝ} {θ : Option ℝ × Option ℝ}
    (hcall : SaCall.maximizeWeighted cols weights θ ∈ (psMaximize H o garbage callback max_iter param0 opts w fuel).1) :
    ∃ Q R : ℝ, θ = (some Q, some R) ∧ 0 ≤ Q ∧ 0 ≤ R ∧
      (0 < Q → 0 < R → ∀ q r, 0 < q → 0 < r → (q, r) ≠ (Q, R) → wsum (growthJoint p0 y0 qs q r) weights cols < wsum (growthJoint p0 y0 qs Q R) weights cols) := by
  obtain ⟨w1, w2, h1⟩ := psLoop_mstep _ _ _ hcall
  obtain ⟨e, e', h2⟩ := hmw _ _ _ _ _ h1
  obtain ⟨hl, _, hpos, hsum, _⟩ := C55_psaem_weights hsm hfw hα he callback max_iter param0 opts w fuel (garbage := garbage) (cols, weights)
    (List.mem_filterMap.mpr ⟨_, hcall, rfl⟩)
  have hmax := fun Q R (h : psaemAnalytic e e' D cols weights = .ok (some Q, some R)) => C118_maximiser hp hqs hy ht e e' hl hsum h
  obtain ⟨m, ww, x, hww, hxx⟩ := exists_ofFn hl
  simp only at hww hxx hpos
  have hc := C118_closed_form (List.length_pos_of_ne_nil hqs) e e' ww x _ (slots_ofFn hy) ht
  rw [← hww, ← hxx, h2] at hc
  have hθ := Except.ok.inj hc
  have hw0 : ∀ j, 0 ≤ ww j := fun j => (hpos _ (by rw [hww]; exact (List.mem_ofFn' _ _).mpr ⟨j, rfl⟩)).le
  refine ⟨_, _, hθ, Finset.sum_nonneg fun j _ => mul_nonneg (hw0 j) ?_, Finset.sum_nonneg fun j _ => mul_nonneg (hw0 j) ?_, hmax _ _ (by rw [h2, hθ])⟩
  · unfold growthResidual; positivity
  · unfold growthMisfit; positivity

/-! ### A concrete case -/

/-- Two trajectories over two time steps with weights 1/4 and 3/4. -/
example : ∃ Q R : ℝ, psaemAnalytic (U := Unit) (fun _ _ => none) (fun _ _ => none) ⟨[.none, .none], [.obj fun _ => 0, .obj fun _ => 1], [0, 1]⟩
    (List.ofFn ![![0, 9], ![0, 10]]) (List.ofFn ![1/4, 3/4]) = .ok (some Q, some R) ∧ 0 < Q ∧ 0 < R ∧
      ∀ q r, 0 < q → 0 < r → (q, r) ≠ (Q, R) →
        wsum (growthJoint (U := Unit) 5 (fun _ => 0) [(.none, fun _ => 1)] q r) [1/4, 3/4] [![0, 9], ![0, 10]] <
          wsum (growthJoint (U := Unit) 5 (fun _ => 0) [(.none, fun _ => 1)] Q R) [1/4, 3/4] [![0, 9], ![0, 10]] := by
  have hy : (⟨[.none, .none], [.obj fun _ => 0, .obj fun _ => 1], [0, 1]⟩ : SData Unit (Fin 1 → ℝ)).y = List.ofFn fun t => Slot.obj fun _ : Fin 1 => ![(0:ℝ), 1] t := by
    simp [List.ofFn_succ]
  have h := C118_closed_form (U := Unit) (n := 1) one_pos (fun _ _ => none) (fun _ _ => none) ![1/4, 3/4] ![![0, 9], ![0, 10]] ![0, 1]
    (D := ⟨[.none, .none], [.obj fun _ => 0, .obj fun _ => 1], [0, 1]⟩) hy rfl
  have hQ : (0:ℝ) < ∑ j : Fin 2, ![1/4, 3/4] j * growthResidual (n := 1) (![![0, 9], ![0, 10]] j) := by
    simp [growthResidual, growth, Fin.sum_univ_succ]
    norm_num
  have hR : (0:ℝ) < ∑ j : Fin 2, ![1/4, 3/4] j * growthMisfit (n := 1) ![0, 1] (![![0, 9], ![0, 10]] j) := by
    simp [growthMisfit, Fin.sum_univ_succ]
    norm_num
  refine ⟨_, _, h, hQ, hR, ?_⟩
  have e1 : (List.ofFn ![![(0:ℝ), 9], ![0, 10]]) = [![0, 9], ![0, 10]] := by simp [List.ofFn_succ]
  have e2 : (List.ofFn ![(1/4 : ℝ), 3/4]) = [1/4, 3/4] := by simp [List.ofFn_succ]
  rw [e1, e2] at h
  exact C118_maximiser (U := Unit) (p0 := 5) (by norm_num) (y0 := fun _ => 0) (qs := [(.none, fun _ => 1)]) (by simp) (by simp) rfl _ _ (by simp) (by norm_num) h hQ hR

/-- A world that counts its simulations, with the script's M-step; the smoothed trajectory of the `k`-th simulation ends in `k + 9`. -/
noncomputable def psaemToy : PsHooks ℕ (Option ℝ × Option ℝ) (Fin (1+1) → ℝ) ℕ where
  setParams := fun _ w => .ok w
  simulate := fun _ _ _ w => .ok (w + 1)
  smoothed := fun w => .ok [![0, w + 9]]
  finalWeights := fun _ => .ok [0, 0]
  straj := fun w => .ok w
  callbackSim := none
  maximizeWeighted := fun x v w => (psaemAnalytic (U := Unit) (fun _ _ => none) (fun _ _ => none) ⟨[.none, .none], [.obj fun _ => 0, .obj fun _ => 1], [0, 1]⟩ x v).map
    fun θ => (θ, w)

/-- `C118_run` applies to the runs of this world, of any length. -/
example (max_iter fuel : ℕ) : ∃ new : List (List (Fin (1+1) → ℝ)), (∀ x ∈ new, ∃ w', psaemToy.smoothed w' = .ok x) ∧
      ∃ Qs Rs, mStepResults (psMaximize psaemToy (psToyOpts false) (fun _ _ => 0) none max_iter (some 1, some 1) (.dict none) 0 fuel).1 = (Qs.zip Rs).map (fun p => (some p.1, some p.2)) ∧
        Qs.length = Rs.length ∧ Qs <+: saAverages alphaGen 0 none (new.map fun x => (x.map growthResidual).sum / x.length) ∧
        Rs <+: saAverages alphaGen 0 none (new.map fun x => (x.map (growthMisfit ![0, 1])).sum / x.length) := by
  refine C118_run (U := Unit) (H := psaemToy) (o := psToyOpts false) one_pos
    (D := ⟨[.none, .none], [.obj fun _ => 0, .obj fun _ => 1], [0, 1]⟩) (y := ![0, 1]) (by simp [List.ofFn_succ]) rfl ?_
    (fun w x h => by cases h; simp) (fun w x h => by cases h; simp) (fun k => ⟨(C54_range k).1.le, (C54_range k).2⟩) rfl rfl rfl none max_iter _ _ _ _
  intro cols ws w θ w' h
  refine ⟨fun _ _ => none, fun _ _ => none, ?_⟩
  rcases hr : psaemAnalytic (U := Unit) (fun _ _ => none) (fun _ _ => none) ⟨[.none, .none], [.obj fun _ => 0, .obj fun _ => 1], [0, 1]⟩ cols ws with e | p
  · simp only [psaemToy] at h
    rw [hr] at h
    cases h
  · simp only [psaemToy] at h
    rw [hr] at h
    cases h
    rfl

end PyPE

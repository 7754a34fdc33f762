import Verif.Models.MlDensity

/-!
# C73: the constrained smoother (`pre_mhips_pass`, `post_smoothing` in rbpf.py)
-/

open MeasureTheory ProbabilityTheory Matrix
namespace PyPE

variable {lxi lz ly : ℕ} {U T Y : Type}

/-! ## Specification -/

/-- One smoothed trajectory at one time: nonlinear state, input, measurement, time stamp. -/
structure Spec.TrajStep (lxi : ℕ) (U T Y : Type) where
  xi : VecR lxi
  u : U
  y : Option Y
  t : T

/-- `traj` is trajectory number `j` of the smoothed trajectories. -/
def Spec.IsTraj (steps : List (StStep lxi U T Y)) (j : ℕ) (traj : List (Spec.TrajStep lxi U T Y)) : Prop :=
  List.Forall₂ (fun s r => s.xi[j]? = some r.xi ∧ s.u = r.u ∧ s.y = r.y ∧ s.t = r.t) steps traj

/-- What the measurement at one time says about the linear state. -/
def Spec.RbModel.measOps (M : Spec.RbModel lxi lz ly U T Y) (s : Spec.TrajStep lxi U T Y) : List (Spec.DataOp lz) :=
  match s.y with
  | none => []
  | some y => [.meas ly (M.C s.xi y s.t) (M.h s.xi y s.t) (M.R s.xi y s.t) (M.y y s.t)]

/-- What the next nonlinear state `x'` says about the linear state, and how the linear state moves. -/
noncomputable def Spec.RbModel.moveOps (M : Spec.RbModel lxi lz ly U T Y) (s : Spec.TrajStep lxi U T Y) (x' : VecR lxi) :
    List (Spec.DataOp lz) :=
  [.meas lxi (M.Axi s.xi s.u s.t) (M.fxi s.xi s.u s.t) (M.Qxi s.xi s.u s.t) x',
    .move (M.condA s.xi s.u s.t) (M.condF s.xi s.u s.t x') (M.Qz s.xi s.u s.t)]

/-- Everything that happens to the linear state of the trajectory up to and including the measurement at time `i`. -/
noncomputable def Spec.RbModel.past (M : Spec.RbModel lxi lz ly U T Y) : List (Spec.TrajStep lxi U T Y) → ℕ → List (Spec.DataOp lz)
  | s :: _, 0 => M.measOps s
  | s :: s' :: l, i + 1 => M.measOps s ++ M.moveOps s s'.xi ++ M.past (s' :: l) i
  | _, _ => []

/-- Everything that happens to it after the measurement at the first time of the list. -/
noncomputable def Spec.RbModel.future (M : Spec.RbModel lxi lz ly U T Y) : List (Spec.TrajStep lxi U T Y) → List (Spec.DataOp lz)
  | s :: s' :: l => M.moveOps s s'.xi ++ M.measOps s' ++ M.future (s' :: l)
  | _ => []

/-! ## Forward pass -/

theorem measOps_good {M : Spec.RbModel lxi lz ly U T Y} (hG : M.Good) (s : Spec.TrajStep lxi U T Y) : ∀ op ∈ M.measOps s, op.Good := by
  unfold Spec.RbModel.measOps
  cases s.y with
  | none => simp
  | some y => simp only [List.mem_singleton]; rintro op rfl; exact hG.R _ _ _

theorem moveOps_good {M : Spec.RbModel lxi lz ly U T Y} (hG : M.Good) (s : Spec.TrajStep lxi U T Y) (x' : VecR lxi) :
    ∀ op ∈ M.moveOps s x', op.Good := by
  intro op hop
  simp only [Spec.RbModel.moveOps, List.mem_cons, List.not_mem_nil, or_false] at hop
  rcases hop with rfl | rfl
  · exact hG.Qxi _ _ _
  · exact hG.Qz _ _ _

theorem past_good {M : Spec.RbModel lxi lz ly U T Y} (hG : M.Good) (traj : List (Spec.TrajStep lxi U T Y)) (i : ℕ) :
    ∀ op ∈ M.past traj i, op.Good := by
  induction traj generalizing i with
  | nil => simp [Spec.RbModel.past]
  | cons s l ih =>
    cases i with
    | zero => exact measOps_good hG s
    | succ i =>
      cases l with
      | nil => simp [Spec.RbModel.past]
      | cons s' l =>
        intro op hop
        simp only [Spec.RbModel.past, List.mem_append] at hop
        rcases hop with (h | h) | h
        · exact measOps_good hG s op h
        · exact moveOps_good hG s _ op h
        · exact ih i op h

theorem future_good {M : Spec.RbModel lxi lz ly U T Y} (hG : M.Good) (traj : List (Spec.TrajStep lxi U T Y)) :
    ∀ op ∈ M.future traj, op.Good := by
  induction traj with
  | nil => simp [Spec.RbModel.future]
  | cons s l ih =>
    cases l with
    | nil => simp [Spec.RbModel.future]
    | cons s' l =>
      intro op hop
      simp only [Spec.RbModel.future, List.mem_append] at hop
      rcases hop with (h | h) | h
      · exact moveOps_good hG s _ op h
      · exact measOps_good hG s' op h
      · exact ih op h

/-- The measurement update of `pre_mhips_pass`, particle by particle. -/
theorem mlMaybeMeasure_good {H : MlHooks lxi lz ly U T Y} {o : MlObj lxi lz ly} {M : Spec.RbModel lxi lz ly U T Y} (hD : Spec.RbDescribes H o M)
    (hG : M.Good) (parts : List (RbP lxi lz)) (hne : parts ≠ []) (hP : ∀ p ∈ parts, p.2.2.PosSemidef) (y : Option Y) (t : T) :
    ∃ r, mlMaybeMeasure H o parts y t = .ok r ∧ r.length = parts.length ∧ ∀ (j : ℕ) p, parts[j]? = some p →
      ∃ z P ll, r[j]? = some (p.1, z, P) ∧ P.PosSemidef ∧
        ∀ u, kfData p.2.1 p.2.2 (M.measOps ⟨p.1, u, y, t⟩) = .ok (z, P, ll) := by
  cases y with
  | none => exact ⟨parts, rfl, rfl, fun j p hp => ⟨p.2.1, p.2.2, 0, hp, hP p (List.mem_of_getElem? hp), fun u => rfl⟩⟩
  | some y =>
    obtain ⟨r, ll, h1, h2, h3, h4⟩ := mlMeasure_good hD hG parts hne hP y t
    refine ⟨r, by simp only [mlMaybeMeasure, h1, ok_bind]; rfl, h2, fun j p hp => ?_⟩
    obtain ⟨z, P, dl, e1, e2, e3⟩ := h4 j p hp
    obtain ⟨z', P', dl', f1, f2, f3⟩ := measureFull_good (M.y y t) p.2.1 (M.C p.1 y t) (M.h p.1 y t) (hP p (List.mem_of_getElem? hp)) (hG.R p.1 y t)
    cases e1.symm.trans f1
    refine ⟨z, P, dl, e2, f2, fun u => ?_⟩
    simp only [measOneP] at e1
    simp only [Spec.RbModel.measOps, kfData, e1, ok_bind, pure_eq_ok, add_zero]

/-- The forward pass: at every time, for every trajectory, the filtered law given the past of the trajectory. -/
theorem mlForward_good {H : MlHooks lxi lz ly U T Y} {o : MlObj lxi lz ly} {M : Spec.RbModel lxi lz ly U T Y} (hD : Spec.RbDescribes H o M)
    (hG : M.Good) (parts : List (RbP lxi lz)) (hne : parts ≠ []) (hP : ∀ p ∈ parts, p.2.2.PosSemidef) (s : StStep lxi U T Y)
    (rest : List (StStep lxi U T Y)) (hs : xisOf parts = s.xi) (hl : ∀ s' ∈ rest, s'.xi.length = parts.length) :
    ∃ ft, mlForward H o parts s rest = .ok ft ∧ ft.length = rest.length + 1 ∧
      ∀ (i : ℕ) fp, ft[i]? = some fp → fp.length = parts.length ∧ (∀ p ∈ fp, p.2.2.PosSemidef) ∧
        (∀ si, (s :: rest)[i]? = some si → xisOf fp = si.xi) ∧
        ∀ (j : ℕ) p traj, parts[j]? = some p → Spec.IsTraj (s :: rest) j traj → ∃ q ll, fp[j]? = some q ∧
          kfData p.2.1 p.2.2 (M.past traj i) = .ok (q.2.1, q.2.2, ll) := by
  induction rest generalizing parts s with
  | nil =>
    obtain ⟨r, h1, h2, h3⟩ := mlMaybeMeasure_good hD hG parts hne hP s.y s.t
    have hPr : ∀ q ∈ r, q.2.2.PosSemidef := by
      intro q hq
      obtain ⟨j, hj⟩ := List.mem_iff_getElem?.1 hq
      obtain ⟨z, P, ll, e1, e2, -⟩ := h3 j _ (List.getElem?_eq_getElem (h2 ▸ lt_of_getElem?_some hj))
      rw [hj, Option.some.injEq] at e1
      rw [e1]; exact e2
    have hxr : xisOf r = s.xi := by
      rw [← hs]
      apply List.ext_getElem?
      intro j
      rw [xisOf_getElem?, xisOf_getElem?]
      cases hj : parts[j]? with
      | none => rw [List.getElem?_eq_none (by rw [h2]; exact List.getElem?_eq_none_iff.1 hj)]
      | some p => obtain ⟨z, P, ll, e1, -⟩ := h3 j p hj; rw [e1]; rfl
    refine ⟨[r], by simp only [mlForward, h1, ok_bind]; rfl, rfl, fun i fp hfp => ?_⟩
    have hi : i = 0 := by have := lt_of_getElem?_some hfp; simp at this; exact this
    subst hi
    simp only [List.getElem?_cons_zero, Option.some.injEq] at hfp
    subst hfp
    refine ⟨h2, hPr, fun si hsi => ?_, fun j p traj hp ht => ?_⟩
    · simp only [List.getElem?_cons_zero, Option.some.injEq] at hsi
      rw [← hsi]; exact hxr
    · cases ht with
      | cons hst htl =>
        obtain ⟨z, P, ll, e1, -, e3⟩ := h3 j p hp
        rename_i a l
        obtain ⟨k1, k2, k3, k4⟩ := hst
        have hx : (xisOf parts)[j]? = some p.1 := by rw [xisOf_getElem?, hp]; rfl
        have hax : a = ⟨p.1, a.u, s.y, s.t⟩ := by
          rw [← hs, hx, Option.some.injEq] at k1
          rw [k1, k3, k4]
        refine ⟨_, ll, e1, ?_⟩
        simp only [Spec.RbModel.past]
        rw [hax]
        exact e3 a.u
  | cons s' rest ih =>
    obtain ⟨r, h1, h2, h3⟩ := mlMaybeMeasure_good hD hG parts hne hP s.y s.t
    have hPr : ∀ q ∈ r, q.2.2.PosSemidef := by
      intro q hq
      obtain ⟨j, hj⟩ := List.mem_iff_getElem?.1 hq
      obtain ⟨z, P, ll, e1, e2, -⟩ := h3 j _ (List.getElem?_eq_getElem (h2 ▸ lt_of_getElem?_some hj))
      rw [hj, Option.some.injEq] at e1
      rw [e1]; exact e2
    have hxr : xisOf r = s.xi := by
      rw [← hs]
      apply List.ext_getElem?
      intro j
      rw [xisOf_getElem?, xisOf_getElem?]
      cases hj : parts[j]? with
      | none => rw [List.getElem?_eq_none (by rw [h2]; exact List.getElem?_eq_none_iff.1 hj)]
      | some p => obtain ⟨z, P, ll, e1, -⟩ := h3 j p hj; rw [e1]; rfl
    have hl' : s'.xi.length = r.length := by rw [h2]; exact hl s' List.mem_cons_self
    obtain ⟨r', g1, g2, g3⟩ := mlCondPredict_good hD hG r hPr s'.xi hl' s.u s.t
    have hr'j : ∀ (j : ℕ) q, r'[j]? = some q → ∃ p x, r[j]? = some p ∧ s'.xi[j]? = some x := fun j q hq =>
      have hj := lt_of_getElem?_some hq
      ⟨_, _, List.getElem?_eq_getElem (by rw [← g2]; exact hj), List.getElem?_eq_getElem (by rw [hl', ← g2]; exact hj)⟩
    have hPr' : ∀ q ∈ r', q.2.2.PosSemidef := by
      intro q hq
      obtain ⟨j, hj⟩ := List.mem_iff_getElem?.1 hq
      obtain ⟨p, x, hp, hx⟩ := hr'j j q hj
      obtain ⟨z1, P1, dl, e1, e2, e3⟩ := g3 j p x hp hx
      rw [hj, Option.some.injEq] at e3
      rw [e3]
      exact (posSemidef_conj e2 _).add (hG.Qz _ _ _)
    have hxr' : xisOf r' = s'.xi := by
      apply List.ext_getElem?
      intro j
      rw [xisOf_getElem?]
      cases hj : r'[j]? with
      | none => rw [List.getElem?_eq_none (by rw [hl', ← g2]; exact List.getElem?_eq_none_iff.1 hj)]; rfl
      | some q =>
        obtain ⟨p, x, hp, hx⟩ := hr'j j q hj
        obtain ⟨z1, P1, dl, e1, e2, e3⟩ := g3 j p x hp hx
        rw [hj, Option.some.injEq] at e3
        rw [hx, e3]
        rfl
    obtain ⟨ft, f1, f2, f3⟩ := ih r' (by rw [ne_eq, ← List.length_eq_zero_iff, g2, h2, List.length_eq_zero_iff]; exact hne) hPr' s' hxr'
      fun s'' hs'' => by rw [g2, h2]; exact hl s'' (List.mem_cons_of_mem _ hs'')
    refine ⟨r :: ft, by simp only [mlForward, h1, g1, f1, ok_bind]; rfl, by simp [f2], fun i fp hfp => ?_⟩
    cases i with
    | zero =>
      simp only [List.getElem?_cons_zero, Option.some.injEq] at hfp
      subst hfp
      refine ⟨h2, hPr, fun si hsi => ?_, fun j p traj hp ht => ?_⟩
      · simp only [List.getElem?_cons_zero, Option.some.injEq] at hsi
        rw [← hsi]; exact hxr
      · cases ht with
        | cons hst htl =>
          obtain ⟨z, P, ll, e1, -, e3⟩ := h3 j p hp
          rename_i a l
          obtain ⟨k1, k2, k3, k4⟩ := hst
          have hx : (xisOf parts)[j]? = some p.1 := by rw [xisOf_getElem?, hp]; rfl
          have hax : a = ⟨p.1, a.u, s.y, s.t⟩ := by
            rw [← hs, hx, Option.some.injEq] at k1
            rw [k1, k3, k4]
          refine ⟨_, ll, e1, ?_⟩
          simp only [Spec.RbModel.past]
          rw [hax]
          exact e3 a.u
    | succ i =>
      rw [List.getElem?_cons_succ] at hfp
      obtain ⟨k1, k2, k3, k4⟩ := f3 i fp hfp
      refine ⟨by rw [k1, g2, h2], k2, fun si hsi => k3 si (by simpa using hsi), fun j p traj hp ht => ?_⟩
      cases ht with
      | cons hst htl =>
        rename_i a l
        obtain ⟨z, P, ll, e1, -, e3⟩ := h3 j p hp
        obtain ⟨m1, m2, m3, m4⟩ := hst
        have hx : (xisOf parts)[j]? = some p.1 := by rw [xisOf_getElem?, hp]; rfl
        have hax : a = ⟨p.1, s.u, s.y, s.t⟩ := by
          rw [← hs, hx, Option.some.injEq] at m1
          rw [m1, m2, m3, m4]
        cases htl with
        | cons hst' htl' =>
          rename_i a' l'
          obtain ⟨z1, P1, dl, d1, d2, d3⟩ := g3 j (p.1, z, P) a'.xi e1 hst'.1
          obtain ⟨q, ll', n1, n2⟩ := k4 j _ (a' :: l') d3 (List.Forall₂.cons hst' htl')
          refine ⟨q, ll + (dl + ll'), n1, ?_⟩
          rw [Spec.RbModel.past, List.append_assoc]
          refine kfData_append _ _ _ _ (by rw [hax]; exact e3 s.u) ?_
          rw [hax, Spec.RbModel.moveOps]
          simp only [List.cons_append, List.nil_append, kfData]
          rw [d1, ok_bind]
          simp only [predictFull] at n2 ⊢
          rw [n2]
          rfl

/-! ## Backward pass -/

theorem past_succ (M : Spec.RbModel lxi lz ly U T Y) (traj : List (Spec.TrajStep lxi U T Y)) (i : ℕ) {a a' : Spec.TrajStep lxi U T Y}
    (h : traj[i]? = some a) (h' : traj[i + 1]? = some a') :
    M.past traj (i + 1) = M.past traj i ++ (M.moveOps a a'.xi ++ M.measOps a') := by
  induction traj generalizing i with
  | nil => simp at h
  | cons s l ih =>
    cases l with
    | nil => simp at h'
    | cons s' l =>
      cases i with
      | zero =>
        simp only [List.getElem?_cons_zero, List.getElem?_cons_succ, Option.some.injEq, zero_add] at h h'
        subst h; subst h'
        simp [Spec.RbModel.past]
      | succ i =>
        rw [List.getElem?_cons_succ] at h h'
        rw [Spec.RbModel.past, ih i h h', Spec.RbModel.past]
        simp only [List.append_assoc]

theorem future_drop (M : Spec.RbModel lxi lz ly U T Y) (traj : List (Spec.TrajStep lxi U T Y)) (i : ℕ) {a a' : Spec.TrajStep lxi U T Y}
    (h : traj[i]? = some a) (h' : traj[i + 1]? = some a') :
    M.future (traj.drop i) = M.moveOps a a'.xi ++ (M.measOps a' ++ M.future (traj.drop (i + 1))) := by
  have hi := lt_of_getElem?_some h
  have hi' := lt_of_getElem?_some h'
  rw [List.drop_eq_getElem_cons hi, List.drop_eq_getElem_cons hi', Spec.RbModel.future, List.append_assoc]
  rw [List.getElem?_eq_getElem hi, Option.some.injEq] at h
  rw [List.getElem?_eq_getElem hi', Option.some.injEq] at h'
  rw [h, h']

theorem future_last (M : Spec.RbModel lxi lz ly U T Y) (traj : List (Spec.TrajStep lxi U T Y)) (i : ℕ) (h : i + 1 = traj.length) :
    M.future (traj.drop i) = [] := by
  rw [List.drop_eq_getElem_cons (by omega), List.drop_eq_nil_of_le (by omega)]
  rfl

/-- All data of the trajectory, split at any time. -/
theorem past_future (M : Spec.RbModel lxi lz ly U T Y) (traj : List (Spec.TrajStep lxi U T Y)) (i : ℕ) (h : i < traj.length) :
    M.past traj i ++ M.future (traj.drop i) = M.past traj (traj.length - 1) := by
  obtain ⟨d, hd⟩ : ∃ d, traj.length = i + 1 + d := ⟨traj.length - (i + 1), by omega⟩
  induction d generalizing i with
  | zero => rw [future_last M traj i (by omega), List.append_nil]; congr 1; omega
  | succ d ih =>
    have h1 : traj[i]? = some traj[i] := List.getElem?_eq_getElem h
    have h2 : traj[i + 1]? = some (traj[i + 1]'(by omega)) := List.getElem?_eq_getElem (by omega)
    rw [future_drop M traj i h1 h2, ← ih (i + 1) (by omega) (by omega), past_succ M traj i h1 h2]
    simp only [List.append_assoc]

theorem kfData_append_inv {n : ℕ} (z : Fin n → ℝ) (P : Matrix (Fin n) (Fin n) ℝ) (l l' : List (Spec.DataOp n)) {z' P' ll} {z'' P'' ll''}
    (h : kfData z P l = .ok (z', P', ll)) (h' : kfData z P (l ++ l') = .ok (z'', P'', ll'')) :
    ∃ ll', kfData z' P' l' = .ok (z'', P'', ll') := by
  induction l generalizing z P ll ll'' with
  | nil =>
    simp only [kfData, Except.ok.injEq, Prod.mk.injEq] at h
    obtain ⟨rfl, rfl, -⟩ := h
    exact ⟨_, h'⟩
  | cons op l ih =>
    cases op with
    | move A f Q => exact ih _ _ h h'
    | meas m C c R y =>
      simp only [kfData, List.cons_append] at h h'
      rw [bind_eq_ok] at h h'
      obtain ⟨⟨z1, P1, d1⟩, e1, e2⟩ := h
      obtain ⟨⟨z2, P2, d2⟩, e3, e4⟩ := h'
      cases e1.symm.trans e3
      simp only [bind_eq_ok] at e2 e4
      obtain ⟨⟨z3, P3, d3⟩, e5, e6⟩ := e2
      obtain ⟨⟨z4, P4, d4⟩, e7, e8⟩ := e4
      simp only [pure_eq_ok, Except.ok.injEq, Prod.mk.injEq] at e6 e8
      obtain ⟨rfl, rfl, -⟩ := e6
      obtain ⟨rfl, rfl, -⟩ := e8
      exact ih _ _ e5 e7

theorem rtsData_append {n : ℕ} (z : Fin n → ℝ) (P : Matrix (Fin n) (Fin n) ℝ) (l l' : List (Spec.DataOp n)) {z' P' ll}
    (hm : ∀ op ∈ l, ∃ m C h R y, op = .meas m C h R y) (h : kfData z P l = .ok (z', P', ll)) : rtsData z P (l ++ l') = rtsData z' P' l' := by
  induction l generalizing z P ll with
  | nil =>
    simp only [kfData, Except.ok.injEq, Prod.mk.injEq] at h
    obtain ⟨rfl, rfl, -⟩ := h
    rfl
  | cons op l ih =>
    obtain ⟨m, C, c, R, y, rfl⟩ := hm op List.mem_cons_self
    simp only [kfData] at h
    rw [bind_eq_ok] at h
    obtain ⟨⟨z1, P1, d1⟩, e1, e2⟩ := h
    simp only [bind_eq_ok] at e2
    obtain ⟨⟨z3, P3, d3⟩, e5, e6⟩ := e2
    simp only [pure_eq_ok, Except.ok.injEq, Prod.mk.injEq] at e6
    obtain ⟨rfl, rfl, -⟩ := e6
    simp only [List.cons_append, rtsData, e1, ok_bind]
    exact ih _ _ (fun o ho => hm o (List.mem_cons_of_mem _ ho)) e5

theorem measOps_meas (M : Spec.RbModel lxi lz ly U T Y) (s : Spec.TrajStep lxi U T Y) :
    ∀ op ∈ M.measOps s, ∃ m C h R y, op = .meas m C h R y := by
  unfold Spec.RbModel.measOps
  cases s.y with
  | none => simp
  | some y => simp

/-- One backward step for all trajectories. -/
theorem mlBackStep_spec {H : MlHooks lxi lz ly U T Y} {o : MlObj lxi lz ly} {M : Spec.RbModel lxi lz ly U T Y} (hD : Spec.RbDescribes H o M)
    (hG : M.Good) (fp : List (RbP lxi lz)) (hP : ∀ p ∈ fp, p.2.2.PosSemidef) (next : List (RbS lxi lz)) (hl : next.length = fp.length)
    (u : U) (t : T) :
    (mlBackStep H o fp next u t = .error .linAlgError ∨ ∃ r, mlBackStep H o fp next u t = .ok r ∧ r.length = fp.length ∧
      ∀ (j : ℕ) p pn, fp[j]? = some p → next[j]? = some pn → ∃ z1 P1 dl zs Ps Mz,
        measureFull pn.1.1 p.2.1 p.2.2 (some (M.Axi p.1 u t)) (some (M.fxi p.1 u t)) (M.Qxi p.1 u t) = .ok (z1, P1, dl) ∧
        kalmanSmooth z1 P1 pn.1.2.1 pn.1.2.2 (M.condA p.1 u t) (M.condF p.1 u t pn.1.1) (M.Qz p.1 u t) = .ok (zs, Ps, Mz) ∧
        r[j]? = some ((p.1, zs, Ps), Mz)) ∧
    ((∀ x u t, (M.Qz x u t).PosDef) → ∃ r, mlBackStep H o fp next u t = .ok r) := by
  have hl' : (next.map fun p => p.1.1).length = fp.length := by simp [hl]
  obtain ⟨q, hq, hql, hqi⟩ := mlMeasXiNext_good hD hG fp hP (next.map fun p => p.1.1) hl' u t
  have hdyn := mlCondDyn_eq hD hG q (next.map fun p => p.1.1) (hl'.trans hql.symm) u t
  have hone : ∀ (j : ℕ) p pn, fp[j]? = some p → next[j]? = some pn → ∃ z1 P1 dl, P1.PosSemidef ∧
      measureFull pn.1.1 p.2.1 p.2.2 (some (M.Axi p.1 u t)) (some (M.fxi p.1 u t)) (M.Qxi p.1 u t) = .ok (z1, P1, dl) ∧ (do
      let p ← getIdx q j
      let pn ← getIdx next j
      let d ← getIdx ((q.zip (next.map fun p => p.1.1)).map fun px =>
        (some (M.condA px.1.1 u t), some (M.condF px.1.1 u t px.2), some (M.Qz px.1.1 u t))) j
      let r ← smoothOpt p pn.1 d
      return ((p.1, r.1, r.2.1), r.2.2) : PyM (RbS lxi lz)) = (do
        let r ← kalmanSmooth z1 P1 pn.1.2.1 pn.1.2.2 (M.condA p.1 u t) (M.condF p.1 u t pn.1.1) (M.Qz p.1 u t)
        return ((p.1, r.1, r.2.1), r.2.2)) := by
    intro j p pn hp hpn
    have hx1 : (next.map fun p => p.1.1)[j]? = some pn.1.1 := by simp [hpn]
    obtain ⟨z1, P1, dl, e1, e2, e3⟩ := hqi j p pn.1.1 hp hx1
    refine ⟨z1, P1, dl, e2, e1, ?_⟩
    have hz : (q.zip (next.map fun p => p.1.1))[j]? = some ((p.1, z1, P1), pn.1.1) := by rw [List.getElem?_zip_eq_some]; exact ⟨e3, hx1⟩
    simp only [getIdx_ok.2 e3, getIdx_ok.2 hpn, ok_bind, getIdx_ok.2 (show ((q.zip (next.map fun p => p.1.1)).map fun px =>
      (some (M.condA px.1.1 u t), some (M.condF px.1.1 u t px.2), some (M.Qz px.1.1 u t)))[j]? =
        some (some (M.condA p.1 u t), some (M.condF p.1 u t pn.1.1), some (M.Qz p.1 u t)) by simp [hz]), smoothOpt]
  have hunf : mlBackStep H o fp next u t = (List.range q.length).mapM fun j => (do
      let p ← getIdx q j
      let pn ← getIdx next j
      let d ← getIdx ((q.zip (next.map fun p => p.1.1)).map fun px =>
        (some (M.condA px.1.1 u t), some (M.condF px.1.1 u t px.2), some (M.Qz px.1.1 u t))) j
      let r ← smoothOpt p pn.1 d
      return ((p.1, r.1, r.2.1), r.2.2) : PyM (RbS lxi lz)) := by
    simp only [mlBackStep, hq, hdyn, ok_bind]
  rw [hunf]
  have hks : ∀ (z1 : VecR lz) P1 (zn : VecR lz) Pn A f Q, kalmanSmooth z1 P1 zn Pn A f Q = .error .linAlgError ∨
      ∃ r, kalmanSmooth z1 P1 zn Pn A f Q = .ok r := by
    intro z1 P1 zn Pn A f Q
    unfold kalmanSmooth
    by_cases h : (predictFull z1 P1 A f Q).2.det = 0
    · left; simp [h]
    · right; simp [h]
  constructor
  · by_cases hall : ∀ k ∈ List.range q.length, ∃ y, (do
        let p ← getIdx q k
        let pn ← getIdx next k
        let d ← getIdx ((q.zip (next.map fun p => p.1.1)).map fun px =>
          (some (M.condA px.1.1 u t), some (M.condF px.1.1 u t px.2), some (M.Qz px.1.1 u t))) k
        let r ← smoothOpt p pn.1 d
        return ((p.1, r.1, r.2.1), r.2.2) : PyM (RbS lxi lz)) = .ok y
    · right
      obtain ⟨r, hr⟩ := mapM_ok hall
      have hr' := mapM_ok_iff.1 hr
      refine ⟨r, hr, by simpa [hql] using hr'.1, fun j p pn hp hpn => ?_⟩
      obtain ⟨z1, P1, dl, e0, e1, e2⟩ := hone j p pn hp hpn
      obtain ⟨v, hv, hv'⟩ := hr'.2 j j (by simp [hql, lt_of_getElem?_some hp])
      rw [e2, bind_eq_ok] at hv'
      obtain ⟨⟨zs, Ps, Mz⟩, hk, hk'⟩ := hv'
      refine ⟨z1, P1, dl, zs, Ps, Mz, e1, hk, ?_⟩
      rw [hv, ← Except.ok.inj hk']
    · left
      refine mapM_error_of (fun k hk => ?_) hall
      rw [List.mem_range, hql] at hk
      obtain ⟨z1, P1, dl, e0, e1, e2⟩ := hone k _ _ (List.getElem?_eq_getElem hk) (List.getElem?_eq_getElem (by rw [hl]; exact hk))
      rw [e2]
      rcases hks z1 P1 next[k].1.2.1 next[k].1.2.2 (M.condA fp[k].1 u t) (M.condF fp[k].1 u t next[k].1.1) (M.Qz fp[k].1 u t) with h | ⟨r, h⟩
      · left; rw [h]; rfl
      · right; exact ⟨_, by rw [h]; rfl⟩
  · intro hQ
    refine mapM_ok fun k hk => ?_
    rw [List.mem_range, hql] at hk
    obtain ⟨z1, P1, dl, e0, e1, e2⟩ := hone k _ _ (List.getElem?_eq_getElem hk) (List.getElem?_eq_getElem (by rw [hl]; exact hk))
    rw [e2]
    have hd := (Matrix.PosDef.posSemidef_add (posSemidef_conj e0 (M.condA fp[k].1 u t)) (hQ fp[k].1 u t)).det_pos.ne'
    rw [kalmanSmooth_ok hd]
    exact ⟨_, rfl⟩

/-- The backward pass is a chain of backward steps. -/
theorem mlBackward_spec {H : MlHooks lxi lz ly U T Y} {o : MlObj lxi lz ly} {M : Spec.RbModel lxi lz ly U T Y} (hD : Spec.RbDescribes H o M)
    (hG : M.Good) (N : ℕ) (L : List (List (RbP lxi lz) × StStep lxi U T Y)) (hne : L ≠ [])
    (hL : ∀ q ∈ L, q.1.length = N ∧ ∀ p ∈ q.1, p.2.2.PosSemidef) :
    (mlBackward H o L = .error .linAlgError ∨ ∃ l, mlBackward H o L = .ok l ∧ l.length = L.length ∧ (∀ lk ∈ l, lk.length = N) ∧
      (∀ (k : ℕ) fp s lk, L[k]? = some (fp, s) → l[k]? = some lk → k + 1 = L.length → lk = fp.map fun p => (p, 0)) ∧
      ∀ (k : ℕ) fp s lk lk', L[k]? = some (fp, s) → l[k]? = some lk → l[k + 1]? = some lk' → mlBackStep H o fp lk' s.u s.t = .ok lk) ∧
    ((∀ x u t, (M.Qz x u t).PosDef) → ∃ l, mlBackward H o L = .ok l) := by
  induction L with
  | nil => exact absurd rfl hne
  | cons q L ih =>
    obtain ⟨fp, s⟩ := q
    cases L with
    | nil =>
      refine ⟨.inr ⟨[fp.map fun p => (p, 0)], rfl, rfl, ?_, ?_, ?_⟩, fun _ => ⟨_, rfl⟩⟩
      · intro lk hlk
        rw [List.mem_singleton] at hlk
        rw [hlk, List.length_map]
        exact (hL _ List.mem_cons_self).1
      · intro k fp' s' lk h1 h2 h3
        have hk : k = 0 := by simpa using h3
        subst hk
        simp only [List.getElem?_cons_zero, Option.some.injEq, Prod.mk.injEq] at h1 h2
        rw [← h2, h1.1]
      · intro k fp' s' lk lk' h1 h2 h3
        simp at h3
    | cons q L =>
      obtain ⟨hA, hB⟩ := ih (by simp) fun q hq => hL q (List.mem_cons_of_mem _ hq)
      have hfp := hL _ (List.mem_cons_self (a := (fp, s)))
      have hstep : ∀ l, mlBackward H o (q :: L) = .ok l → ∀ nxt, l[0]? = some nxt → mlBackward H o ((fp, s) :: q :: L) = (do
          let r ← mlBackStep H o fp nxt s.u s.t
          return r :: l) := by
        intro l hl nxt hn
        simp only [mlBackward, hl, ok_bind, getIdx_ok.2 hn]
      rcases hA with hA | ⟨l, a1, a2, a3, a4, a5⟩
      · refine ⟨.inl ?_, fun hQ => ?_⟩
        · simp only [mlBackward, hA]; rfl
        · obtain ⟨l, hl⟩ := hB hQ
          cases hA.symm.trans hl
      obtain ⟨nxt, hn⟩ : ∃ nxt, l[0]? = some nxt := ⟨_, List.getElem?_eq_getElem (by rw [a2]; simp)⟩
      have hnl : nxt.length = fp.length := by rw [a3 _ (List.mem_of_getElem? hn), hfp.1]
      obtain ⟨b1, b2⟩ := mlBackStep_spec hD hG fp hfp.2 nxt hnl s.u s.t
      rw [hstep l a1 nxt hn]
      refine ⟨?_, fun hQ => ?_⟩
      · rcases b1 with b1 | ⟨r, r1, r2, r3⟩
        · left; rw [b1]; rfl
        · right
          refine ⟨r :: l, by rw [r1]; rfl, by simp [a2], ?_, ?_, ?_⟩
          · intro lk hlk
            rcases List.mem_cons.1 hlk with rfl | hlk
            · rw [r2, hfp.1]
            · exact a3 lk hlk
          · intro k fp' s' lk h1 h2 h3
            cases k with
            | zero => simp at h3
            | succ k => exact a4 k fp' s' lk (by simpa using h1) (by simpa using h2) (by simpa using h3)
          · intro k fp' s' lk lk' h1 h2 h3
            cases k with
            | zero =>
              simp only [List.getElem?_cons_zero, Option.some.injEq, Prod.mk.injEq] at h1 h2
              simp only [zero_add, List.getElem?_cons_succ] at h3
              rw [hn, Option.some.injEq] at h3
              rw [← h1.1, ← h1.2, ← h2, ← h3]
              exact r1
            | succ k => exact a5 k fp' s' lk lk' (by simpa using h1) (by simpa using h2) (by simpa using h3)
      · obtain ⟨r, hr⟩ := b2 hQ
        exact ⟨r :: l, by rw [hr]; rfl⟩

theorem isTraj_getElem? {steps : List (StStep lxi U T Y)} {j : ℕ} {traj : List (Spec.TrajStep lxi U T Y)} (h : Spec.IsTraj steps j traj)
    {i : ℕ} {a : Spec.TrajStep lxi U T Y} (ha : traj[i]? = some a) :
    ∃ s, steps[i]? = some s ∧ s.xi[j]? = some a.xi ∧ s.u = a.u ∧ s.y = a.y ∧ s.t = a.t := by
  induction h generalizing i with
  | nil => simp at ha
  | cons h1 h2 ih =>
    cases i with
    | zero => simp only [List.getElem?_cons_zero, Option.some.injEq] at ha; subst ha; exact ⟨_, rfl, h1⟩
    | succ i => rw [List.getElem?_cons_succ] at ha; simpa using ih ha

/-- **C73** `post_smoothing` (with the forward pass `pre_mhips_pass`): either a predicted covariance is singular and `LinAlgError` is raised, or for every
trajectory `j` and every time `i` the stored statistics are exact: the law of the linear state at time `i`, weighted with the densities of all
measurements and of all nonlinear states of that trajectory, is `exp(ll) N(zs, Ps)` with the same `ll` at all times; the nonlinear state is kept; `Mz` is the cross covariance
of the linear states at time `i` and `i + 1` given all data, zero at the last time. -/
theorem C73_smoothing_exact {H : MlHooks lxi lz ly U T Y} {o : MlObj lxi lz ly} {M : Spec.RbModel lxi lz ly U T Y} (hD : Spec.RbDescribes H o M)
    (hG : M.Good) (init : List (VecR lxi) → List (VecR lz × MatR lz lz)) (s : StStep lxi U T Y) (rest : List (StStep lxi U T Y))
    (hne : s.xi ≠ []) (hl : ∀ s' ∈ rest, s'.xi.length = s.xi.length) (hi : (init s.xi).length = s.xi.length)
    (hP0 : ∀ q ∈ init s.xi, q.2.PosSemidef) :
    mlPostSmoothing H o init s rest = .error .linAlgError ∨ ∃ l, mlPostSmoothing H o init s rest = .ok l ∧ l.length = rest.length + 1 ∧
      ∀ (j : ℕ) traj z0 P0, Spec.IsTraj (s :: rest) j traj → (init s.xi)[j]? = some (z0, P0) →
        ∃ ll, ∀ (i : ℕ) a, traj[i]? = some a → ∃ li zs Ps Mz, l[i]? = some li ∧ li.length = s.xi.length ∧
          li[j]? = some ((a.xi, zs, Ps), Mz) ∧
          Spec.smoothed (Spec.gauss z0 P0) (M.past traj i) (M.future (traj.drop i)) = ENNReal.ofReal (Real.exp ll) • Spec.gauss zs Ps ∧
          (i + 1 = traj.length → Mz = 0) ∧
          ∀ a', traj[i + 1]? = some a' → ∃ li' zn Pn Mn, l[i + 1]? = some li' ∧ li'[j]? = some ((a'.xi, zn, Pn), Mn) ∧
            Spec.smoothedPair (Spec.gauss z0 P0)
              (M.past traj i ++ [.meas lxi (M.Axi a.xi a.u a.t) (M.fxi a.xi a.u a.t) (M.Qxi a.xi a.u a.t) a'.xi])
              (.move (M.condA a.xi a.u a.t) (M.condF a.xi a.u a.t a'.xi) (M.Qz a.xi a.u a.t))
              (M.measOps a' ++ M.future (traj.drop (i + 1))) = ENNReal.ofReal (Real.exp ll) •
                (Spec.gauss (Sum.elim zs zn) (fromBlocks Ps Mz Mzᵀ Pn)).map (MeasurableEquiv.sumPiEquivProdPi fun _ : Fin lz ⊕ Fin lz => ℝ) := by
  set parts := List.zipWith (fun x zp => ((x, zp.1, zp.2) : RbP lxi lz)) s.xi (init s.xi) with hparts
  have hpl : parts.length = s.xi.length := by rw [hparts]; simp [hi]
  have hpj : ∀ (j : ℕ) p, parts[j]? = some p ↔ ∃ x z0 P0, s.xi[j]? = some x ∧ (init s.xi)[j]? = some (z0, P0) ∧ p = (x, z0, P0) := by
    intro j p
    rw [hparts, List.getElem?_zipWith_eq_some]
    constructor
    · rintro ⟨x, zp, h1, h2, h3⟩; exact ⟨x, zp.1, zp.2, h1, h2, h3.symm⟩
    · rintro ⟨x, z0, P0, h1, h2, h3⟩; exact ⟨x, (z0, P0), h1, h2, h3.symm⟩
  have hpP : ∀ p ∈ parts, p.2.2.PosSemidef := by
    intro p hp
    obtain ⟨j, hj⟩ := List.mem_iff_getElem?.1 hp
    obtain ⟨x, z0, P0, h1, h2, rfl⟩ := (hpj j p).1 hj
    exact hP0 _ (List.mem_of_getElem? h2)
  have hpx : xisOf parts = s.xi := by
    apply List.ext_getElem?
    intro j
    rw [xisOf_getElem?]
    cases hj : parts[j]? with
    | none => rw [List.getElem?_eq_none (by rw [← hpl]; exact List.getElem?_eq_none_iff.1 hj)]; rfl
    | some p => obtain ⟨x, z0, P0, h1, h2, rfl⟩ := (hpj j p).1 hj; rw [h1]; rfl
  have hpne : parts ≠ [] := by rw [ne_eq, ← List.length_eq_zero_iff, hpl, List.length_eq_zero_iff]; exact hne
  obtain ⟨ft, f1, f2, f3⟩ := mlForward_good hD hG parts hpne hpP s rest hpx fun s' hs' => by rw [hpl]; exact hl s' hs'
  have hzip : ∀ (k : ℕ) fp st, (ft.zip (s :: rest))[k]? = some (fp, st) ↔ ft[k]? = some fp ∧ (s :: rest)[k]? = some st := by
    intro k fp st; rw [List.getElem?_zip_eq_some]
  have hLlen : (ft.zip (s :: rest)).length = rest.length + 1 := by simp [f2]
  obtain ⟨hB, -⟩ := mlBackward_spec hD hG s.xi.length (ft.zip (s :: rest)) (by
      rw [ne_eq, ← List.length_eq_zero_iff, hLlen]; simp) (by
      intro q hq
      obtain ⟨k, hk⟩ := List.mem_iff_getElem?.1 hq
      obtain ⟨h1, h2⟩ := (hzip k q.1 q.2).1 hk
      obtain ⟨e1, e2, -⟩ := f3 k q.1 h1
      exact ⟨by rw [e1, hpl], e2⟩)
  have hunf : mlPostSmoothing H o init s rest = mlBackward H o (ft.zip (s :: rest)) := by
    simp only [mlPostSmoothing, mlPreMhips, hi, if_true, ← hparts, f1, ok_bind]
  rw [hunf]
  rcases hB with hB | ⟨l, l1, l2, l3, l4, l5⟩
  · exact .inl hB
  refine .inr ⟨l, l1, by rw [l2, hLlen], fun j traj z0 P0 ht hz0 => ?_⟩
  have htl : traj.length = rest.length + 1 := by rw [← ht.length_eq]; rfl
  have hPz : P0.PosSemidef := hP0 _ (List.mem_of_getElem? hz0)
  have hjlt : j < s.xi.length := by rw [← hi]; exact lt_of_getElem?_some hz0
  have hp0 : parts[j]? = some (s.xi[j], z0, P0) := (hpj j _).2 ⟨s.xi[j], z0, P0, List.getElem?_eq_getElem hjlt, hz0, rfl⟩
  obtain ⟨zT, PT, ll, hT, -, -⟩ := C71_filter_exact z0 P0 hPz (M.past traj (traj.length - 1)) (past_good hG _ _)
  -- the filtered statistics at time `i`
  have hfil : ∀ (i : ℕ) a, traj[i]? = some a → ∃ fp st z P lli, ft[i]? = some fp ∧ (s :: rest)[i]? = some st ∧ st.u = a.u ∧ st.t = a.t ∧
      fp[j]? = some (a.xi, z, P) ∧ kfData z0 P0 (M.past traj i) = .ok (z, P, lli) ∧ P.PosSemidef := by
    intro i a ha
    have hilt := lt_of_getElem?_some ha
    obtain ⟨fp, hfp⟩ : ∃ fp, ft[i]? = some fp := ⟨_, List.getElem?_eq_getElem (by omega)⟩
    obtain ⟨e1, e2, e3, e4⟩ := f3 i fp hfp
    obtain ⟨st, g1, g2, g3, g4, g5⟩ := isTraj_getElem? ht ha
    obtain ⟨q, lli, k1, k2⟩ := e4 j _ traj hp0 ht
    have hx := e3 st g1
    have hxj : (xisOf fp)[j]? = some q.1 := by rw [xisOf_getElem?, k1]; rfl
    rw [hx, g2, Option.some.injEq] at hxj
    exact ⟨fp, st, q.2.1, q.2.2, lli, hfp, g1, g3, g5, by rw [k1, hxj], k2, e2 q (List.mem_of_getElem? k1)⟩
  -- backwards in time
  have hback : ∀ (d i : ℕ) a, traj[i]? = some a → traj.length = i + 1 + d → ∃ li zs Ps Mz z P lli, l[i]? = some li ∧
      li.length = s.xi.length ∧ li[j]? = some ((a.xi, zs, Ps), Mz) ∧ kfData z0 P0 (M.past traj i) = .ok (z, P, lli) ∧ P.PosSemidef ∧
      rtsData z P (M.future (traj.drop i)) = .ok (zs, Ps) ∧ (i + 1 = traj.length → Mz = 0) ∧
      ∀ a', traj[i + 1]? = some a' → ∃ li' zn Pn Mn z1 P1 dl, l[i + 1]? = some li' ∧ li'[j]? = some ((a'.xi, zn, Pn), Mn) ∧
        measureFull a'.xi z P (some (M.Axi a.xi a.u a.t)) (some (M.fxi a.xi a.u a.t)) (M.Qxi a.xi a.u a.t) = .ok (z1, P1, dl) ∧
        rtsData (predictFull z1 P1 (M.condA a.xi a.u a.t) (M.condF a.xi a.u a.t a'.xi) (M.Qz a.xi a.u a.t)).1
          (predictFull z1 P1 (M.condA a.xi a.u a.t) (M.condF a.xi a.u a.t a'.xi) (M.Qz a.xi a.u a.t)).2
          (M.measOps a' ++ M.future (traj.drop (i + 1))) = .ok (zn, Pn) ∧
        kalmanSmooth z1 P1 zn Pn (M.condA a.xi a.u a.t) (M.condF a.xi a.u a.t a'.xi) (M.Qz a.xi a.u a.t) = .ok (zs, Ps, Mz) := by
    intro d
    induction d with
    | zero =>
      intro i a ha hlen
      obtain ⟨fp, st, z, P, lli, e1, e2, e3, e4, e5, e6, e7⟩ := hfil i a ha
      obtain ⟨li, hli⟩ : ∃ li, l[i]? = some li := ⟨_, List.getElem?_eq_getElem (by omega)⟩
      have hlast := l4 i fp st li ((hzip i fp st).2 ⟨e1, e2⟩) hli (by omega)
      refine ⟨li, z, P, 0, z, P, lli, hli, l3 li (List.mem_of_getElem? hli), by rw [hlast]; simp [e5], e6, e7, ?_, fun _ => rfl, ?_⟩
      · rw [future_last M traj i (by omega)]; rfl
      · intro a' ha'
        have := lt_of_getElem?_some ha'
        omega
    | succ d ih =>
      intro i a ha hlen
      obtain ⟨fp, st, z, P, lli, e1, e2, e3, e4, e5, e6, e7⟩ := hfil i a ha
      have ha' : traj[i + 1]? = some (traj[i + 1]'(by omega)) := List.getElem?_eq_getElem (by omega)
      set a' := traj[i + 1]'(by omega) with ha'def
      obtain ⟨li', zn, Pn, Mn, z', P', lli', g1, g2, g3, g4, g5, g6, -, -⟩ := ih (i + 1) a' ha' (by omega)
      obtain ⟨li, hli⟩ : ∃ li, l[i]? = some li := ⟨_, List.getElem?_eq_getElem (by omega)⟩
      have hst := l5 i fp st li li' ((hzip i fp st).2 ⟨e1, e2⟩) hli g1
      obtain ⟨m1, m2, -⟩ := f3 i fp e1
      obtain ⟨hbs, -⟩ := mlBackStep_spec hD hG fp m2 li' (by rw [g2, m1, hpl]) st.u st.t
      rcases hbs with hbs | ⟨r, r1, r2, r3⟩
      · cases hbs.symm.trans hst
      cases r1.symm.trans hst
      obtain ⟨z1, P1, dl, zs, Ps, Mz, n1, n2, n3⟩ := r3 j _ _ e5 g3
      simp only [e3, e4] at n1 n2
      -- the next filtered statistics continue from here
      have hps := past_succ M traj i ha ha'
      rw [hps] at g4
      obtain ⟨ll3, hc⟩ := kfData_append_inv _ _ _ _ e6 g4
      have hc' : ∃ ll4, kfData (predictFull z1 P1 (M.condA a.xi a.u a.t) (M.condF a.xi a.u a.t a'.xi) (M.Qz a.xi a.u a.t)).1
          (predictFull z1 P1 (M.condA a.xi a.u a.t) (M.condF a.xi a.u a.t a'.xi) (M.Qz a.xi a.u a.t)).2 (M.measOps a') = .ok (z', P', ll4) := by
        simp only [Spec.RbModel.moveOps, List.cons_append, List.nil_append, kfData, n1, ok_bind] at hc
        rw [bind_eq_ok] at hc
        obtain ⟨⟨z5, P5, d5⟩, h5, h6⟩ := hc
        simp only [pure_eq_ok, Except.ok.injEq, Prod.mk.injEq] at h6
        obtain ⟨rfl, rfl, -⟩ := h6
        exact ⟨d5, h5⟩
      obtain ⟨ll4, hc4⟩ := hc'
      have hnext : rtsData (predictFull z1 P1 (M.condA a.xi a.u a.t) (M.condF a.xi a.u a.t a'.xi) (M.Qz a.xi a.u a.t)).1
          (predictFull z1 P1 (M.condA a.xi a.u a.t) (M.condF a.xi a.u a.t a'.xi) (M.Qz a.xi a.u a.t)).2
          (M.measOps a' ++ M.future (traj.drop (i + 1))) = .ok (zn, Pn) := by
        rw [rtsData_append _ _ _ _ (measOps_meas M a') hc4]
        exact g6
      refine ⟨li, zs, Ps, Mz, z, P, lli, hli, l3 li (List.mem_of_getElem? hli), n3, e6, e7, ?_, fun h => by omega, ?_⟩
      · rw [future_drop M traj i ha ha']
        simp only [Spec.RbModel.moveOps, List.cons_append, List.nil_append, rtsData, n1, ok_bind]
        rw [hnext, ok_bind]
        simp only
        rw [n2]
        rfl
      · intro a'' ha''
        rw [ha', Option.some.injEq] at ha''
        subst ha''
        exact ⟨li', zn, Pn, Mn, z1, P1, dl, g1, g3, n1, hnext, n2⟩
  refine ⟨ll, fun i a ha => ?_⟩
  have hilt := lt_of_getElem?_some ha
  obtain ⟨li, zs, Ps, Mz, z, P, lli, b1, b2, b3, b4, b5, b6, b7, b8⟩ := hback (traj.length - (i + 1)) i a ha (by omega)
  refine ⟨li, zs, Ps, Mz, b1, b2, b3, ?_, b7, fun a' ha' => ?_⟩
  · obtain ⟨z', P', lli', c1, c2⟩ := C71_smoother_exact z0 P0 hPz (M.past traj i) (M.future (traj.drop i)) (by
      intro op hop
      rcases List.mem_append.1 hop with h | h
      · exact past_good hG _ _ op h
      · exact future_good hG _ op h)
    cases b4.symm.trans c1
    rcases c2 with c2 | ⟨zs', Ps', zT', PT', llT, c3, c4, c5, c6⟩
    · cases b6.symm.trans c2
    cases b6.symm.trans c3
    rw [past_future M traj i hilt] at c4
    cases hT.symm.trans c4
    exact c6
  · obtain ⟨li', zn, Pn, Mn, z1, P1, dl, d1, d2, d3, d4, d5⟩ := b8 a' ha'
    refine ⟨li', zn, Pn, Mn, d1, d2, ?_⟩
    have hf : kfData z0 P0 (M.past traj i ++ [.meas lxi (M.Axi a.xi a.u a.t) (M.fxi a.xi a.u a.t) (M.Qxi a.xi a.u a.t) a'.xi]) =
        .ok (z1, P1, lli + dl) := by
      refine kfData_append _ _ _ _ b4 ?_
      simp only [kfData, d3, ok_bind, pure_eq_ok, add_zero]
    have heq : (M.past traj i ++ [.meas lxi (M.Axi a.xi a.u a.t) (M.fxi a.xi a.u a.t) (M.Qxi a.xi a.u a.t) a'.xi]) ++
        Spec.DataOp.move (M.condA a.xi a.u a.t) (M.condF a.xi a.u a.t a'.xi) (M.Qz a.xi a.u a.t) ::
          (M.measOps a' ++ M.future (traj.drop (i + 1))) = M.past traj (traj.length - 1) := by
      rw [← past_future M traj i hilt, future_drop M traj i ha ha', Spec.RbModel.moveOps]
      simp
    obtain ⟨zT', PT', llT, c1, c2⟩ := C71_pair_exact z0 P0 hPz _ (M.measOps a' ++ M.future (traj.drop (i + 1)))
      (M.condA a.xi a.u a.t) (M.condF a.xi a.u a.t a'.xi) (M.Qz a.xi a.u a.t) (by rw [heq]; exact past_good hG _ _) hf d4 d5
    rw [heq] at c1
    cases hT.symm.trans c1
    exact c2

/-- **C73** With invertible linear process noise `post_smoothing` never fails. -/
theorem C73_smoothing_succeeds {H : MlHooks lxi lz ly U T Y} {o : MlObj lxi lz ly} {M : Spec.RbModel lxi lz ly U T Y} (hD : Spec.RbDescribes H o M)
    (hG : M.Good) (hQ : ∀ x u t, (M.Qz x u t).PosDef) (init : List (VecR lxi) → List (VecR lz × MatR lz lz)) (s : StStep lxi U T Y)
    (rest : List (StStep lxi U T Y)) (hne : s.xi ≠ []) (hl : ∀ s' ∈ rest, s'.xi.length = s.xi.length)
    (hi : (init s.xi).length = s.xi.length) (hP0 : ∀ q ∈ init s.xi, q.2.PosSemidef) :
    ∃ l, mlPostSmoothing H o init s rest = .ok l := by
  set parts := List.zipWith (fun x zp => ((x, zp.1, zp.2) : RbP lxi lz)) s.xi (init s.xi) with hparts
  have hpl : parts.length = s.xi.length := by rw [hparts]; simp [hi]
  have hpj : ∀ (j : ℕ) p, parts[j]? = some p ↔ ∃ x z0 P0, s.xi[j]? = some x ∧ (init s.xi)[j]? = some (z0, P0) ∧ p = (x, z0, P0) := by
    intro j p
    rw [hparts, List.getElem?_zipWith_eq_some]
    constructor
    · rintro ⟨x, zp, h1, h2, h3⟩; exact ⟨x, zp.1, zp.2, h1, h2, h3.symm⟩
    · rintro ⟨x, z0, P0, h1, h2, h3⟩; exact ⟨x, (z0, P0), h1, h2, h3.symm⟩
  have hpP : ∀ p ∈ parts, p.2.2.PosSemidef := by
    intro p hp
    obtain ⟨j, hj⟩ := List.mem_iff_getElem?.1 hp
    obtain ⟨x, z0, P0, h1, h2, rfl⟩ := (hpj j p).1 hj
    exact hP0 _ (List.mem_of_getElem? h2)
  have hpx : xisOf parts = s.xi := by
    apply List.ext_getElem?
    intro j
    rw [xisOf_getElem?]
    cases hj : parts[j]? with
    | none => rw [List.getElem?_eq_none (by rw [← hpl]; exact List.getElem?_eq_none_iff.1 hj)]; rfl
    | some p => obtain ⟨x, z0, P0, h1, h2, rfl⟩ := (hpj j p).1 hj; rw [h1]; rfl
  have hpne : parts ≠ [] := by rw [ne_eq, ← List.length_eq_zero_iff, hpl, List.length_eq_zero_iff]; exact hne
  obtain ⟨ft, f1, f2, f3⟩ := mlForward_good hD hG parts hpne hpP s rest hpx fun s' hs' => by rw [hpl]; exact hl s' hs'
  obtain ⟨-, hB⟩ := mlBackward_spec hD hG s.xi.length (ft.zip (s :: rest)) (by
      rw [ne_eq, ← List.length_eq_zero_iff]; simp [f2]) (by
      intro q hq
      obtain ⟨k, hk⟩ := List.mem_iff_getElem?.1 hq
      obtain ⟨h1, h2⟩ := List.getElem?_zip_eq_some.1 hk
      obtain ⟨e1, e2, -⟩ := f3 k q.1 h1
      exact ⟨by rw [e1, hpl], e2⟩)
  obtain ⟨l, hl⟩ := hB hQ
  exact ⟨l, by simp only [mlPostSmoothing, mlPreMhips, hi, if_true, ← hparts, f1, ok_bind, hl]⟩

end PyPE

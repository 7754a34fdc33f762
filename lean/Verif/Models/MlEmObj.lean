import Verif.Models.MlEmGrad
import Verif.Param.Objective

/-!
# Claim C82: the EM objective of a Rao-Blackwellised model

The objective `ParamEstBaseNumeric.maximize` minimises (C81), for the terms of `MixedNLGaussianSampled`.
-/

namespace PyPE
open Matrix MeasureTheory ProbabilityTheory Spec

section
variable {X Y U Tm : Type}

theorem logpYLoop_at {T M : ℕ} (g : X → Y → Tm → ℝ) {evalY : List X → Y → Tm → PyM (List ℝ)}
    (x : Fin T → Fin M → X) (y : Fin T → Option Y) (tm : Fin T → Tm)
    (hev : ∀ t yy, y t = some yy → ∃ l, evalY (List.ofFn (x t)) yy (tm t) = .ok l ∧ l.sum = ∑ j, g (x t j) yy (tm t)) :
    ∀ (l : List (Fin T)) (acc : ℝ),
      logpYLoop evalY (List.ofFn fun t => List.ofFn (x t)) (List.ofFn y) (List.ofFn tm) (l.map Fin.val) acc =
        .ok (acc + (l.map fun t => ∑ j, match y t with
          | none => 0
          | some yy => g (x t j) yy (tm t)).sum) := by
  intro l
  induction l with
  | nil => intro acc; simp [logpYLoop]
  | cons i l ih =>
    intro acc
    rw [List.map_cons, logpYLoop, getIdx_ofFn, ok_bind]
    cases hy : y i with
    | none =>
      dsimp only
      rw [ih]
      simp [hy]
    | some yy =>
      dsimp only
      obtain ⟨v, h1, h2⟩ := hev i yy hy
      rw [getIdx_ofFn, ok_bind, getIdx_ofFn, ok_bind, h1, ok_bind, ih]
      simp only [List.map_cons, List.sum_cons, hy]
      rw [← add_assoc, h2]

theorem logpXnextLoop_at {T M : ℕ} (g : X → X → U → Tm → ℝ) {evalX : List X → List X → U → Tm → PyM (List ℝ)}
    (x : Fin (T + 1) → Fin M → X) (u : Fin T → U) (us : List U) (tm : Fin (T + 1) → Tm)
    (hev : ∀ t : Fin T, ∃ l, evalX (List.ofFn (x t.castSucc)) (List.ofFn (x t.succ)) (u t) (tm t.castSucc) = .ok l ∧
      l.sum = ∑ j, g (x t.castSucc j) (x t.succ j) (u t) (tm t.castSucc)) :
    ∀ (l : List (Fin T)) (acc : ℝ),
      logpXnextLoop evalX (List.ofFn fun t => List.ofFn (x t)) (List.ofFn u ++ us) (List.ofFn tm) (l.map Fin.val) acc =
        .ok (acc + (l.map fun t => ∑ j, g (x t.castSucc j) (x t.succ j) (u t) (tm t.castSucc)).sum) := by
  intro l
  induction l with
  | nil => intro acc; simp [logpXnextLoop]
  | cons i l ih =>
    intro acc
    have h1 := getIdx_ofFn (fun t => List.ofFn (x t)) i.castSucc
    have h2 := getIdx_ofFn (fun t => List.ofFn (x t)) i.succ
    have h3 : getIdx (List.ofFn u ++ us) i = .ok (u i) := by
      have hlt : (i : ℕ) < (List.ofFn u).length := by simp
      rw [getIdx, List.getElem?_append_left hlt]
      exact getIdx_ofFn u i
    have h4 := getIdx_ofFn tm i.castSucc
    rw [Fin.val_castSucc] at h1 h4
    rw [Fin.val_succ] at h2
    obtain ⟨v, h5, h6⟩ := hev i
    rw [List.map_cons, logpXnextLoop, h1, ok_bind, h2, ok_bind, h3, ok_bind, h4, ok_bind, h5, ok_bind, ih, h6]
    simp only [List.map_cons, List.sum_cons]
    rw [← add_assoc]

/-- The objective when every term returns numbers with the right sum (initial term: mean) at the smoothed trajectories. -/
theorem fvalNumeric_at {T M : ℕ} (gy : X → Y → Tm → ℝ) (gx : X → X → U → Tm → ℝ) (g0 : X → Tm → ℝ)
    {evalY : List X → Y → Tm → PyM (List ℝ)} {evalX : List X → List X → U → Tm → PyM (List ℝ)}
    {evalX0 : List X → Tm → PyM (List ℝ)} (x : Fin (T + 1) → Fin M → X) (y : Fin (T + 1) → Option Y) (u : Fin T → U) (us : List U)
    (tm : Fin (T + 1) → Tm)
    (hy : ∀ t yy, y t = some yy → ∃ l, evalY (List.ofFn (x t)) yy (tm t) = .ok l ∧ l.sum = ∑ j, gy (x t j) yy (tm t))
    (hx : ∀ t : Fin T, ∃ l, evalX (List.ofFn (x t.castSucc)) (List.ofFn (x t.succ)) (u t) (tm t.castSucc) = .ok l ∧
      l.sum = ∑ j, gx (x t.castSucc j) (x t.succ j) (u t) (tm t.castSucc))
    (h0 : ∃ l, evalX0 (List.ofFn (x 0)) (tm 0) = .ok l ∧ npMean l = avg fun j => g0 (x 0 j) (tm 0)) :
    fvalNumeric .py2 evalY evalX evalX0 (List.ofFn fun t => List.ofFn (x t)) (List.ofFn y)
        (List.ofFn u ++ us) (List.ofFn tm) =
      .ok (-avg fun j => g0 (x 0 j) (tm 0) + trajX gx x u tm j + trajY gy x y tm j) := by
  have e1 := getIdx_ofFn (fun t => List.ofFn (x t)) 0
  have e2 := getIdx_ofFn tm 0
  rw [Fin.val_zero] at e1 e2
  obtain ⟨l0, h1, h2⟩ := h0
  have hr : ∀ T, List.range T = (List.finRange T).map Fin.val := by simp
  have c1 : logpYFull .py2 evalY (List.ofFn fun t => List.ofFn (x t)) (List.ofFn y) (List.ofFn tm) = .ok (avg (trajY gy x y tm)) := by
    rw [logpYFull, estShape_ofFn (Nat.succ_pos T), ok_bind, xrange, ok_bind, List.length_ofFn, hr, logpYLoop_at gy x y tm hy, ok_bind]
    rw [← List.ofFn_eq_map, List.sum_ofFn, Finset.sum_comm, zero_add]
    rfl
  have c2 : logpXnextFull .py2 evalX (List.ofFn fun t => List.ofFn (x t)) (List.ofFn u ++ us) (List.ofFn tm) =
      .ok (avg (trajX gx x u tm)) := by
    rw [logpXnextFull, estShape_ofFn (Nat.succ_pos T), ok_bind, xrange, ok_bind, List.length_ofFn,
      Nat.add_sub_cancel, hr, logpXnextLoop_at gx x u us tm hx, ok_bind]
    rw [← List.ofFn_eq_map, List.sum_ofFn, Finset.sum_comm, zero_add]
    rfl
  rw [fvalNumeric, c1, ok_bind, c2, ok_bind, e1, ok_bind, e2, ok_bind, h1, ok_bind, h2]
  simp only [pure, Except.pure, avg, Finset.sum_add_distrib]
  congr 1
  ring

end

variable {lxi lz ly : ℕ} {U T Y : Type}

theorem zipWith_ofFn {α β γ : Type} {n : ℕ} (f : α → β → γ) (a : Fin n → α) (b : Fin n → β) :
    List.zipWith f (List.ofFn a) (List.ofFn b) = List.ofFn fun i => f (a i) (b i) := by
  apply List.ext_getElem <;> simp

/-- A call returning one number, as a list of one number. -/
def asList (v : PyM ℝ) : PyM (List ℝ) := v.map fun r => [r]

/-- **C82** The function `ParamEstBaseNumeric.maximize` minimises for a mixed linear/nonlinear model is minus the average over the trajectories of
the expected complete-data log-likelihood: `log p(xi0)` plus the expected log-densities of the linear initial state, of all the transitions and of all
the measurements present, the expectations being over the smoothed law of the linear states along that trajectory; each log-density up to its
constant. -/
theorem C82_em_objective {n N : ℕ} (hN : 0 < N) {H : MlHooks lxi lz ly U T Y} {o : MlObj lxi lz ly} {M : Spec.RbModel lxi lz ly U T Y}
    (hD : Spec.RbDescribes H o M) (hG : M.Good) (Z : VecR lxi → VecR lz × MatR lz lz) (ell : VecR lxi → ℝ)
    (init : List (VecR lxi) → List (VecR lz × MatR lz lz)) (lpxi0 : List (VecR lxi) → List ℝ)
    (hi : ∀ xs, init xs = xs.map Z) (hl : ∀ xs, lpxi0 xs = xs.map ell) (hZ : ∀ x, (Z x).2.PosDef)
    (x : Fin (n + 1) → Fin N → RbS lxi lz) (y : Fin (n + 1) → Option Y) (u : Fin n → U) (us : List U) (tm : Fin (n + 1) → T)
    (hQ : ∀ xi u t, (M.stQ xi u t).PosDef)
    (hC : ∀ xs y t, (H.meas xs y t).2.1 ≠ none ∨ o.kf.C ≠ none ∨ (H.meas xs y t).2.2.1 ≠ none)
    (hP : ∀ t j, (x t j).1.2.2.PosSemidef)
    (hPP : ∀ (t : Fin n) j, (fromBlocks (x t.castSucc j).1.2.2 (x t.castSucc j).2 (x t.castSucc j).2ᵀ (x t.succ j).1.2.2).PosSemidef) :
    fvalNumeric .py2 (fun p y t => asList (mlEvalY H o p y t)) (fun p q u t => asList (mlEvalXnext H o p (q.map Prod.fst) u t))
        (fun p _ => mlEvalX0 init lpxi0 p) (List.ofFn fun t => List.ofFn (x t)) (List.ofFn y) (List.ofFn u ++ us) (List.ofFn tm) =
      .ok (-avg fun j => (ell (x 0 j).1.1 + (Spec.expLogZ0 (Z (x 0 j).1.1) (x 0 j) + lz / 2 * Real.log (2 * Real.pi))) +
        trajX (fun s s' u t => M.expLogNext u t s s'.1 + ((lxi + lz : ℕ) : ℝ) / 2 * Real.log (2 * Real.pi)) x u tm j +
        trajY (fun s y t => M.expLogY y t s + ly / 2 * Real.log (2 * Real.pi)) x y tm j) := by
  have hne : ∀ t, List.ofFn (x t) ≠ [] := fun t h => by
    have := congrArg List.length h; simp at this; omega
  refine fvalNumeric_at (fun s y t => M.expLogY y t s + ly / 2 * Real.log (2 * Real.pi)) 
    (fun s s' u t => M.expLogNext u t s s'.1 + ((lxi + lz : ℕ) : ℝ) / 2 * Real.log (2 * Real.pi))
    (fun s _ => ell s.1.1 + (Spec.expLogZ0 (Z s.1.1) s + lz / 2 * Real.log (2 * Real.pi))) x y u us tm (fun t yy hy => ?_) (fun t => ?_) ?_
  · refine ⟨_, by rw [C82_logp_y hD hG _ (hne t) yy (tm t) (fun xs => hC xs _ _) (by
      intro s hs; obtain ⟨j, rfl⟩ := List.mem_ofFn.1 hs; exact hP t j)]; rfl, ?_⟩
    simp [List.map_ofFn, List.sum_ofFn]
  · refine ⟨_, by rw [C82_logp_xnext hD _ (hne _) _ (by simp) (u t) (tm t.castSucc) (fun x => hQ x _ _) (by
      intro i s m hs hm
      simp only [List.map_ofFn, List.getElem?_ofFn] at hs hm
      split at hs
      · rename_i hlt
        rw [dif_pos hlt] at hm
        simp only [Option.some.injEq, Function.comp_apply] at hs hm
        subst hs hm
        exact hPP t ⟨i, hlt⟩
      · cases hs)]; rfl, ?_⟩
    simp [List.map_ofFn, zipWith_ofFn, List.sum_ofFn]
  · obtain ⟨r, h1, h2, h3⟩ := C82_logp_x0 init lpxi0 (List.ofFn (x 0)) (by simp [hi]) (by simp [hl]) (by
      intro zp hzp; rw [hi] at hzp; obtain ⟨a, -, rfl⟩ := List.mem_map.1 hzp; exact hZ a) (by
      intro s hs; obtain ⟨j, rfl⟩ := List.mem_ofFn.1 hs; exact hP 0 j)
    refine ⟨r, h1, ?_⟩
    have e : r = List.ofFn fun j => ell (x 0 j).1.1 + (Spec.expLogZ0 (Z (x 0 j).1.1) (x 0 j) + lz / 2 * Real.log (2 * Real.pi)) := by
      refine List.ext_getElem? fun i => ?_
      by_cases hlt : i < N
      · rw [h3 i (x 0 ⟨i, hlt⟩) (Z (x 0 ⟨i, hlt⟩).1.1) (ell (x 0 ⟨i, hlt⟩).1.1) (by simp [hlt]) (by simp [hi, hlt]) (by simp [hl, hlt])]
        simp [hlt, Spec.expLogZ0]
      · rw [List.getElem?_eq_none (by simp at h2; omega), List.getElem?_eq_none (by simp; omega)]
    rw [e, npMean, List.sum_ofFn, List.length_ofFn]
    rfl

end PyPE

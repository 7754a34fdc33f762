import Verif.Smooth.Shape
import Verif.Smooth.Estimates
import Verif.Smooth.MhModel
import Verif.Param.Objective

/-!
# C116: the objective of particle EM

`ParamEstimation.maximize` runs a filter, a smoother and then `ParamEstBaseNumeric.maximize`, which minimises `fval`. Here `fval` is computed from what the
smoother returned and the stored data, and turns out to be minus the average of the complete-data log-likelihood over the trajectories.
-/

namespace PyPE
open Real Spec MeasureTheory ProbabilityTheory
open scoped ENNReal

variable {P U Y V Ω : Type}

/-! ### The code -/

/-- `yt[i] is not None` (interfaces.py:77). -/
def present : Slot Y → Option (Slot Y)
  | .none => none
  | y => some y

/-- `fval` of `ParamEstBaseNumeric.maximize` (interfaces.py:240-255) on the smoothed trajectory `traj` with the data `D` of the filter run
(`straj.u`, `straj.y`, `straj.t`, smoother.py:212-214), under Python 2 (C57: Python 3 raises `NameError`). The `eval_` functions are those of the model after
`set_params(params_val)`. -/
noncomputable def trajFval (evalY : List P → Slot Y → ℕ → PyM (List ℝ)) (evalX : List P → List P → Slot U → ℕ → PyM (List ℝ))
    (evalX0 : List P → ℕ → PyM (List ℝ)) (D : SData U Y) (traj : List (SStep P)) : PyM ℝ := do
  let sest ← smoothedEstimates traj
  fvalNumeric .py2 evalY evalX evalX0 sest (D.y.map present) D.u D.t

/-! ### Specification -/

/-- `Σ_t log p(x_{t+1} | x_t, u_t) + log p(y_{t+1} | x_{t+1})` over the times `k, k+1, …` with inputs and measurements `qs`; a missing measurement
contributes nothing. -/
noncomputable def Spec.pathLog (lx : ℕ → Slot U → P → P → ℝ) (ly : ℕ → Slot Y → P → ℝ) : ℕ → List (Slot U × Slot Y) → List P → ℝ
  | k, q :: qs, x :: x' :: xs => lx k q.1 x x' + seen ly (k+1) q.2 x' + pathLog lx ly (k+1) qs (x' :: xs)
  | _, _, _ => 0

/-- The complete-data log-likelihood `log p(x_0) + log p(y_0 | x_0) + Σ_t log p(x_{t+1} | x_t, u_t) + log p(y_{t+1} | x_{t+1})` of a path. -/
noncomputable def Spec.completeLog (l0 : P → ℝ) (lx : ℕ → Slot U → P → P → ℝ) (ly : ℕ → Slot Y → P → ℝ) (first : Option (Slot Y))
    (qs : List (Slot U × Slot Y)) : List P → ℝ
  | [] => 0
  | x :: xs => l0 x + firstLik ly first x + pathLog lx ly 0 qs (x :: xs)

/-- The model's `eval_logp_x0`, `eval_logp_xnext` and `eval_logp_y` return one log-density per particle. `eval_logp_y` is only asked about
measurements of the form `good`. -/
structure Spec.LogTerms (evalY : List P → Slot Y → ℕ → PyM (List ℝ)) (evalX : List P → List P → Slot U → ℕ → PyM (List ℝ))
    (evalX0 : List P → ℕ → PyM (List ℝ)) (good : Slot Y → Prop) (l0 : P → ℝ) (lx : ℕ → Slot U → P → P → ℝ) (ly : ℕ → Slot Y → P → ℝ) : Prop where
  y : ∀ xs y t, good y → y ≠ .none → evalY xs y t = .ok (xs.map (ly t y))
  x : LogDensity evalX lx
  x0 : ∀ xs, evalX0 xs 0 = .ok (xs.map l0)

/-! ### The loops read only the recorded entries -/

section
variable {X Y' U' Tm : Type}

theorem logpYLoop_congr {evalY evalY' : List X → Y' → Tm → PyM (List ℝ)} {sest : List (List X)} {yt yt' : List (Option Y')} {tt tt' : List Tm}
    (is : List ℕ) (acc : ℝ) (h : ∀ i ∈ is, getIdx yt i = getIdx yt' i ∧ getIdx tt i = getIdx tt' i ∧
      ∀ row y t, getIdx sest i = .ok row → getIdx yt i = .ok (some y) → getIdx tt i = .ok t → evalY row y t = evalY' row y t) :
    logpYLoop evalY sest yt tt is acc = logpYLoop evalY' sest yt' tt' is acc := by
  induction is generalizing acc with
  | nil => rfl
  | cons i is ih =>
    obtain ⟨h1, h2, h3⟩ := h i (by simp)
    have ih := fun acc => ih acc fun j hj => h j (by simp [hj])
    unfold logpYLoop
    rw [← h1, ← h2]
    rcases hy : getIdx yt i with e | y
    · rfl
    · simp only [ok_bind]
      cases y with
      | none => exact ih _
      | some y =>
        dsimp only
        rcases hr : getIdx sest i with e | row
        · rfl
        · rcases ht : getIdx tt i with e | t
          · rfl
          · simp only [ok_bind]
            rw [h3 row y t hr hy ht]
            rcases evalY' row y t with e | v
            · rfl
            · exact ih _

theorem logpXnextLoop_congr {evalX evalX' : List X → List X → U' → Tm → PyM (List ℝ)} {sest : List (List X)} {ut ut' : List U'} {tt tt' : List Tm}
    (is : List ℕ) (acc : ℝ) (h : ∀ i ∈ is, getIdx ut i = getIdx ut' i ∧ getIdx tt i = getIdx tt' i ∧
      ∀ row next u t, getIdx sest i = .ok row → getIdx sest (i+1) = .ok next → getIdx ut i = .ok u → getIdx tt i = .ok t →
        evalX row next u t = evalX' row next u t) :
    logpXnextLoop evalX sest ut tt is acc = logpXnextLoop evalX' sest ut' tt' is acc := by
  induction is generalizing acc with
  | nil => rfl
  | cons i is ih =>
    obtain ⟨h1, h2, h3⟩ := h i (by simp)
    have ih := fun acc => ih acc fun j hj => h j (by simp [hj])
    unfold logpXnextLoop
    rw [← h1, ← h2]
    rcases hr : getIdx sest i with e | row
    · rfl
    · rcases hn : getIdx sest (i+1) with e | next
      · rfl
      · rcases hu : getIdx ut i with e | u
        · rfl
        · rcases ht : getIdx tt i with e | t
          · rfl
          · simp only [ok_bind]
            rw [h3 row next u t hr hn hu ht]
            rcases evalX' row next u t with e | v
            · rfl
            · exact ih _

theorem fvalNumeric_congr {evalY evalY' : List X → Y' → Tm → PyM (List ℝ)} {evalX evalX' : List X → List X → U' → Tm → PyM (List ℝ)}
    {evalX0 evalX0' : List X → Tm → PyM (List ℝ)} {sest : List (List X)} {yt yt' : List (Option Y')} {ut ut' : List U'} {tt tt' : List Tm}
    (hy : ∀ i < sest.length, getIdx yt i = getIdx yt' i ∧ getIdx tt i = getIdx tt' i ∧
      ∀ row y t, getIdx sest i = .ok row → getIdx yt i = .ok (some y) → getIdx tt i = .ok t → evalY row y t = evalY' row y t)
    (hx : ∀ i < sest.length - 1, getIdx ut i = getIdx ut' i ∧
      ∀ row next u t, getIdx sest i = .ok row → getIdx sest (i+1) = .ok next → getIdx ut i = .ok u → getIdx tt i = .ok t →
        evalX row next u t = evalX' row next u t)
    (h0 : ∀ row t, getIdx sest 0 = .ok row → getIdx tt 0 = .ok t → evalX0 row t = evalX0' row t) :
    fvalNumeric .py2 evalY evalX evalX0 sest yt ut tt = fvalNumeric .py2 evalY' evalX' evalX0' sest yt' ut' tt' := by
  cases sest with
  | nil => rfl
  | cons r sest =>
    have ht0 := (hy 0 (by simp)).2.1
    unfold fvalNumeric logpYFull logpXnextFull
    simp only [xrange, ok_bind]
    rw [logpYLoop_congr (List.range (r :: sest).length) 0 fun i hi => hy i (List.mem_range.mp hi),
      logpXnextLoop_congr (List.range ((r :: sest).length - 1)) 0 fun i hi =>
        ⟨(hx i (List.mem_range.mp hi)).1, (hy i (by have := List.mem_range.mp hi; simp at this ⊢; omega)).2.1, (hx i (List.mem_range.mp hi)).2⟩, ← ht0]
    have e : getIdx (r :: sest) 0 = .ok r := rfl
    rcases ht : getIdx tt 0 with e' | t
    · rfl
    · rw [e]
      simp only [ok_bind, h0 r t e ht]

end

/-! ### The objective -/

theorem pathLog_ofFn (lx : ℕ → Slot U → P → P → ℝ) (ly : ℕ → Slot Y → P → ℝ) (k : ℕ) (qs : List (Slot U × Slot Y)) (x : Fin (qs.length + 1) → P) :
    pathLog lx ly k qs (List.ofFn x) = ∑ t : Fin qs.length, (lx (k + t) (qs.get t).1 (x t.castSucc) (x t.succ) +
      seen ly (k + t + 1) (qs.get t).2 (x t.succ)) := by
  induction qs generalizing k with
  | nil => simp [pathLog]
  | cons q qs ih =>
    have e : List.ofFn x = x 0 :: x 1 :: List.ofFn (fun i : Fin qs.length => x i.succ.succ) := by
      show List.ofFn (n := qs.length + 1 + 1) x = _
      rw [List.ofFn_succ, List.ofFn_succ]
      rfl
    have e' : List.ofFn (fun i : Fin (qs.length + 1) => x i.succ) = x 1 :: List.ofFn (fun i : Fin qs.length => x i.succ.succ) := by
      rw [List.ofFn_succ]; rfl
    rw [e, pathLog, ← e', ih]
    show _ = ∑ t : Fin (qs.length + 1), _
    rw [Fin.sum_univ_succ]
    have : ∀ t : Fin qs.length, k + 1 + (t : ℕ) = k + ((t : ℕ) + 1) := fun t => by omega
    simp only [List.get_cons_succ, List.get_cons_zero, Fin.val_succ, Fin.val_zero, this]
    rfl

theorem pathOf_ofFn {traj : List (SStep P)} {T m : ℕ} {x : Fin T → Fin m → P} (h : (traj.map fun s => s.pa.part) = List.ofFn fun t => List.ofFn (x t))
    (j : Fin m) : pathOf traj j = List.ofFn fun t => x t j := by
  have : pathOf traj j = (traj.map fun s => s.pa.part).filterMap fun p => p[(j : ℕ)]? := by
    rw [List.filterMap_map]; rfl
  rw [this, h, List.ofFn_eq_map, List.ofFn_eq_map, List.filterMap_map]
  have e : ((fun p : List P => p[(j : ℕ)]?) ∘ fun t => List.ofFn (x t)) = fun t => some (x t j) := by
    funext t
    simp
  rw [e]
  rw [List.filterMap_eq_map']

theorem trajY_elim {X Y' Tm : Type} {T M : ℕ} (g : X → Y' → Tm → ℝ) (x : Fin T → Fin M → X) (y : Fin T → Option Y') (tm : Fin T → Tm) (j : Fin M) :
    trajY g x y tm j = ∑ t, (y t).elim 0 fun yy => g (x t j) yy (tm t) := by
  unfold trajY
  exact Finset.sum_congr rfl fun t _ => by cases y t <;> rfl

theorem shape_ofFn {traj : List (SStep P)} {T m : ℕ} (h : Shape traj T m) :
    ∃ x : Fin T → Fin m → P, (traj.map fun s => s.pa.part) = List.ofFn fun t => List.ofFn (x t) := by
  obtain ⟨rfl, h⟩ := h
  refine ⟨fun t j => (traj[(t : ℕ)].pa.part)[(j : ℕ)]'(by rw [h _ (List.getElem_mem t.2)]; exact j.2), ?_⟩
  apply List.ext_getElem
  · simp
  · intro t h1 h2
    rw [List.getElem_map, List.getElem_ofFn]
    apply List.ext_getElem
    · simp [h _ (List.getElem_mem _)]
    · intro j h3 h4
      simp

/-- C116: `fval`, evaluated on what a smoother returned for a filter run over the history (`measure(first)` if there is a first measurement, then
`forward(u, y)` for every `(u, y)` in `qs`), is minus the average of the complete-data log-likelihood over the trajectories, whatever the length of the
preallocated data vectors. -/
theorem C116_objective_value {evalY : List P → Slot Y → ℕ → PyM (List ℝ)} {evalX : List P → List P → Slot U → ℕ → PyM (List ℝ)}
    {evalX0 : List P → ℕ → PyM (List ℝ)} {good : Slot Y → Prop} {l0 : P → ℝ} {lx : ℕ → Slot U → P → P → ℝ} {ly : ℕ → Slot Y → P → ℝ}
    (hL : LogTerms evalY evalX evalX0 good l0 lx ly) {first : Option (Slot Y)} {qs : List (Slot U × Slot Y)} {D : SData U Y} (hD : Recorded first qs D)
    (hfirst : ∀ y ∈ first, good y ∧ y ≠ .none) (hqs : ∀ q ∈ qs, q.2 = .none ∨ good q.2) {traj : List (SStep P)} {m : ℕ}
    (hS : Shape traj (qs.length + 1) m) :
    trajFval evalY evalX evalX0 D traj = .ok (-((∑ j ∈ Finset.range m, completeLog l0 lx ly first qs (pathOf traj j)) / m)) := by
  obtain ⟨x, hx⟩ := shape_ofFn hS
  have hne : traj ≠ [] := by intro h; have := hS.1; rw [h] at this; simp at this
  obtain ⟨s0, ts, rfl⟩ := List.exists_cons_of_ne_nil hne
  have hest : smoothedEstimates (s0 :: ts) = .ok (List.ofFn fun t => List.ofFn (x t)) := by
    rw [← hx]
    exact ((C95_get_smoothed_estimates (s0 :: ts)).2 s0 rfl).1 fun s hs => by rw [hS.2 s hs, hS.2 s0 (by simp)]
  set traj := s0 :: ts
  unfold trajFval
  rw [hest, ok_bind]
  have hu : ∀ t : Fin qs.length, D.u[(t : ℕ)]? = some (qs.get t).1 := fun t => hD.us t _ (List.getElem?_eq_getElem t.2)
  have hy : ∀ t : Fin qs.length, D.y[(t : ℕ) + 1]? = some (qs.get t).2 := fun t => hD.ys t _ (List.getElem?_eq_getElem t.2)
  -- the exact-length data
  let y' : Fin (qs.length + 1) → Option (Slot Y) := Fin.cons (present (first.getD .none)) fun t => present (qs.get t).2
  let u' : Fin qs.length → Slot U := fun t => (qs.get t).1
  let t' : Fin (qs.length + 1) → ℕ := fun t => t
  have hyy : ∀ t : Fin (qs.length + 1), getIdx (D.y.map present) t = .ok (y' t) := by
    intro t
    refine Fin.cases ?_ (fun t => ?_) t
    · exact getIdx_ok.mpr (by simp [hD.y0, y'])
    · refine getIdx_ok.mpr ?_
      rw [Fin.val_succ, List.getElem?_map, hy]
      simp [y']
  have htt : ∀ t : Fin (qs.length + 1), getIdx D.t t = .ok (t' t) := fun t => getIdx_ok.mpr (hD.ts t (by omega))
  have hgoody : ∀ (t : Fin (qs.length + 1)) y, y' t = some y → good y ∧ y ≠ .none := by
    intro t y
    have hp : ∀ z : Slot Y, present z = some y → z = y ∧ y ≠ .none := by
      intro z hz
      cases z with
      | none => cases hz
      | zero => obtain rfl := Option.some.inj hz; exact ⟨rfl, by simp⟩
      | obj v => obtain rfl := Option.some.inj hz; exact ⟨rfl, by simp⟩
    refine Fin.cases ?_ (fun t => ?_) t
    · intro h
      obtain ⟨h1, h2⟩ := hp _ (show present (first.getD .none) = some y from h)
      cases first with
      | none => exact absurd h1.symm h2
      | some y0 => obtain rfl : y0 = y := h1; exact hfirst _ rfl
    · intro h
      obtain ⟨h1, h2⟩ := hp _ (show present (qs.get t).2 = some y from h)
      rcases hqs (qs.get t) (List.get_mem _ _) with h3 | h3
      · exact absurd (h3.symm.trans h1).symm h2
      · rw [h1] at h3; exact ⟨h3, h2⟩
  have key := C81_em_objective (T := qs.length) (M := m) (fun (a : P) y t => ly t y a) (fun a b u t => lx t u a b) (fun a (_ : ℕ) => l0 a)
    (evalY := fun xs y t => .ok (xs.map (ly t y))) (evalX := fun xs ys u t => .ok (List.zipWith (lx t u) xs ys)) (evalX0 := fun xs _ => .ok (xs.map l0))
    (fun _ _ _ => rfl) (fun _ _ _ _ => rfl) (fun _ _ => rfl) x y' u' [] t'
  rw [List.append_nil] at key
  rw [fvalNumeric_congr (evalY' := fun xs y t => .ok (xs.map (ly t y))) (evalX' := fun xs ys u t => .ok (List.zipWith (lx t u) xs ys))
    (evalX0' := fun xs _ => .ok (xs.map l0)) (yt' := List.ofFn y') (ut' := List.ofFn u') (tt' := List.ofFn t'), key]
  · refine congrArg (fun z => Except.ok (-z)) ?_
    unfold avg
    rw [Finset.sum_range]
    refine congrArg (fun z => z / (m : ℝ)) (Finset.sum_congr rfl fun j _ => ?_)
    rw [pathOf_ofFn hx j]
    have e : (List.ofFn fun t => x t j) = x 0 j :: List.ofFn fun t : Fin qs.length => x t.succ j := List.ofFn_succ
    have ep := pathLog_ofFn lx ly 0 qs fun t => x t j
    rw [e] at ep ⊢
    rw [completeLog, ep]
    simp only [trajX, trajY_elim, Fin.sum_univ_succ, Finset.sum_add_distrib, zero_add]
    have e0 : (y' 0).elim 0 (fun yy => ly (t' 0) yy (x 0 j)) = firstLik ly first (x 0 j) := by
      cases first with
      | none => rfl
      | some y0 =>
        have := (hfirst y0 rfl).2
        cases y0 with
        | none => exact absurd rfl this
        | zero => rfl
        | obj v => rfl
    have e1 : ∀ t : Fin qs.length, (y' t.succ).elim 0 (fun yy => ly (t' t.succ) yy (x t.succ j)) =
        seen ly ((t : ℕ) + 1) (qs.get t).2 (x t.succ j) := by
      intro t
      show (present (qs.get t).2).elim 0 (fun yy => ly ((t : ℕ) + 1) yy (x t.succ j)) = _
      cases (qs.get t).2 <;> rfl
    have e2 := Finset.sum_congr (rfl : (Finset.univ : Finset (Fin qs.length)) = Finset.univ) fun t _ => e1 t
    rw [e0, e2]
    simp only [u', t', Fin.val_castSucc]
    ring
  · intro i hi
    rw [List.length_ofFn] at hi
    have h1 := hyy ⟨i, hi⟩
    have h2 := htt ⟨i, hi⟩
    dsimp only at h1 h2
    refine ⟨by rw [h1]; exact (getIdx_ofFn y' ⟨i, hi⟩).symm, by rw [h2]; exact (getIdx_ofFn t' ⟨i, hi⟩).symm, fun row y t _ hy ht => ?_⟩
    rw [h1] at hy
    obtain ⟨g1, g2⟩ := hgoody _ _ (Except.ok.inj hy)
    exact hL.y _ _ _ g1 g2
  · intro i hi
    rw [List.length_ofFn, Nat.add_sub_cancel] at hi
    have h1 : getIdx D.u i = .ok (u' ⟨i, hi⟩) := getIdx_ok.mpr (hu ⟨i, hi⟩)
    refine ⟨by rw [h1]; exact (getIdx_ofFn u' ⟨i, hi⟩).symm, fun row next u t hr hn _ _ => hL.x _ _ _ _ ?_⟩
    have h3 := getIdx_ofFn (fun t => List.ofFn (x t)) ⟨i, by omega⟩
    have h4 := getIdx_ofFn (fun t => List.ofFn (x t)) ⟨i+1, by omega⟩
    dsimp only at h3 h4
    rw [h3] at hr
    rw [h4] at hn
    obtain rfl := Except.ok.inj hr
    obtain rfl := Except.ok.inj hn
    simp
  · intro row t _ ht
    have := htt 0
    rw [Fin.val_zero] at this
    rw [this] at ht
    obtain rfl := Except.ok.inj ht
    exact hL.x0 _

end PyPE

import Verif.Param.PsToy
import Verif.Param.Faithful
import Verif.Param.Objective
import Verif.Param.Ps2Props

/-!
# Concrete cases of the theorems about parameter estimation (C53-C57, C79-C81)
-/

namespace PyPE
open Spec

/-- A SAEM world whose smoother returns columns, one trajectory per simulation. -/
def saColsToy : SaHooks ℕ ℕ ℕ where
  setParams := fun _ w => .ok w
  simulate := fun _ _ w => .ok (w + 1)
  traj := fun w => .ok (.cols [w])
  callbackSim := none
  maximizeWeighted := fun x _ w => .ok (x.sum, w)
  callback := none

example : ∀ p ∈ mStepInputs (saMaximize .py2 saColsToy alphaGen 0 (.scalar 10) (.scalar 5) 300 0).1,
    p.2.length = p.1.length ∧ (∀ a ∈ p.2, 0 < a) ∧ p.2.sum = 1 :=
  C55_saem_weights (fun w a h => ⟨[w], by simp, by cases h; rfl⟩) (fun k => ⟨(C54_range k).1.le, (C54_range k).2⟩) .py2 0 300 0

example : ∃ e, (saMaximize .py2 saToy alphaGen 0 (.scalar 10) (.scalar 5) 3 0).2 = .error e ∧
    mStepInputs (saMaximize .py2 saToy alphaGen 0 (.scalar 10) (.scalar 5) 3 0).1 = [] :=
  C55_saem_never_completes (H := saToy) (fun w a h => ⟨5, by cases h; rfl⟩) 0 2 0

example : ∃ tr s', psMaximize psToy (psToyOpts false) (fun i j => i + j) none 200 0 (.dict none) 0 200 = (tr, some (.ok s')) ∧
    (mStepInputs tr).length = 200 ∧ (∀ p ∈ mStepInputs tr, p.2.length = p.1.length ∧ (∀ a ∈ p.2, 0 < a) ∧ p.2.sum = 1) ∧
    (mStepInputs tr).take 102 <+: contributions tr ∧
    (∀ p ∈ contributions tr, wsum (fun x : ℕ => (x : ℝ)) p.2 p.1 = (p.1.map fun x : ℕ => (x : ℝ)).sum / p.1.length) ∧
    condGiven tr <+: none :: (condStored tr).map some := by
  obtain ⟨tr, s', h, hl⟩ := psToy_run false
  have h1 := C55_psaem_weights (H := psToy) (o := psToyOpts false) (garbage := fun i j => i + j)
    (fun w x h => by cases h; simp) (fun w x h => by cases h; simp) (fun k => ⟨(C54_range k).1.le, (C54_range k).2⟩) le_rfl none 200 0 (.dict none) 0 200
  have h2 := C55_burn_in (H := psToy) (o := psToyOpts false) (garbage := fun i j => i + j)
    (fun w x h => by cases h; simp) (fun w x h => by cases h; simp) rfl le_rfl rfl rfl none 200 0 (.dict none) 0 200
  have h3 := C55_contribution_mean (H := psToy) (o := psToyOpts false) (garbage := fun i j => i + j) rfl none 200 0 (.dict none) 0 200
    (fun x : ℕ => (x : ℝ))
  have h4 := C56_conditioning (H := psToy) (o := psToyOpts false) (garbage := fun i j => i + j) none 200 0 (.dict none) 0 200
  rw [h] at h1 h2 h3 h4
  exact ⟨tr, s', h, hl, fun p hp => ⟨(h1 p hp).1, (h1 p hp).2.2.1, (h1 p hp).2.2.2.1⟩, h2, fun p hp => (h3 p hp).2, h4⟩

/-- With a callback of the caller that stops after 200 iterations. -/
example : ∃ tr s', psMaximize psToy (psToyOpts false) (fun i j => i + j) (some fun _ i w => .ok (decide (200 ≤ i), w)) 7 0 (.dict none) 0 200 =
    (tr, some (.ok s')) ∧ ∃ n, reported tr = List.range' 1 (n + 1) ∧ (mStepInputs tr).length = n + 1 := by
  obtain ⟨tr, s', h, hl⟩ := psToy_run false
  have h' : psMaximize psToy (psToyOpts false) (fun i j => i + j) (some fun _ i w => .ok (decide (200 ≤ i), w)) 7 0 (.dict none) 0 200 =
    (tr, some (.ok s')) := h
  obtain ⟨n, h1, h2, -⟩ := C56_callback_stops h'
  exact ⟨tr, s', h', n, h1, h2⟩

example (fuel : ℕ) (s' : PsState ℕ ℕ ℕ ℕ) :
    (psMaximize psToy (psToyOpts false) (fun i j => i + j) (some fun _ _ w => .ok (false, w)) 7 0 (.dict none) 0 fuel).2 ≠ some (.ok s') :=
  C56_never_returns (by intro _ _ _ _ _ h; cases h; rfl) 7 0 (.dict none) 0 fuel s'

example : (psMaximize psToy (psToyOpts false) (fun i j => i + j) none 200 0 (.dict none) 0 300).2 ≠ none :=
  C56_default_stops 200 0 (.dict none) 0 300 (by norm_num)

example : (psMaximize psToy (psToyOpts false) (fun i j => i + j) none 200 0 .none 0 10).2 = some (.error .typeError) :=
  C56_no_options_typeError (w1 := 0) (w2 := 1) (c := 1) none 200 0 9 rfl rfl rfl rfl

example : ∃ tr s', psMaximize psToy (psToyOpts true) (fun i j => i + j) none 200 0 (.dict none) 0 200 = (tr, some (.ok s')) ∧
    (mStepInputs tr).length = 200 ∧ ∀ p ∈ mStepInputs tr, ∀ x ∈ p.1, ∃ i j, x = i + j := by
  obtain ⟨tr, s', h, hl⟩ := psToy_run true
  have h1 := C79_raoblackwell_garbage (H := psToy) (o := psToyOpts true) (garbage := fun i j => i + j) rfl none 200 0 (.dict none) 0 200
  rw [h] at h1
  exact ⟨tr, s', h, hl, h1⟩

/-- Two trajectories over three steps: the measurement, transition and summed initial terms. -/
example (x : Fin 3 → Fin 2 → ℝ) (y : ℝ) (u : Fin 2 → Unit) :
    logpYFull .py2 (fun xs y (_ : ℕ) => .ok (xs.map fun x => -(x - y) ^ 2)) (List.ofFn fun t => List.ofFn (x t)) (List.ofFn ![some y, none, some y])
        (List.ofFn fun t : Fin 3 => (t : ℕ)) =
      .ok (avg (trajY (fun x y _ => -(x - y) ^ 2) x ![some y, none, some y] fun t => (t : ℕ))) ∧
    logpXnextFull .py2 (fun xs ys (_ : Unit) (_ : ℕ) => .ok (List.zipWith (fun a b => -(a - b) ^ 2) xs ys)) (List.ofFn fun t => List.ofFn (x t))
        (List.ofFn u ++ [()]) (List.ofFn fun t : Fin 3 => (t : ℕ)) =
      .ok (avg (trajX (fun a b _ _ => -(a - b) ^ 2) x u fun t => (t : ℕ))) :=
  ⟨C57_measurement_term (by norm_num) (fun x y _ => -(x - y) ^ 2) (fun _ _ _ => rfl) x _ _,
    C57_transition_term (fun a b _ _ => -(a - b) ^ 2) (fun _ _ _ _ => rfl) x u [()] _⟩

/-- Pruning four weighted trajectories: one of weight zero goes; with `max_traj = 2` the last two stay. -/
example : ∃ w' x', psPrune 0 10 0 [1/2, 0, 1/4, 1/4] [1, 2, 3, 4] = .ok (w', x') ∧ wsum (fun x : ℕ => (x : ℝ)) w' x' = 9 / 4 ∧
    ∃ t p, npPercentile [1/2, 0, 1/4, 1/4] 10 = .ok p ∧ t ≤ 0 ∧ (t ≤ 0 ∨ t < p) ∧ 1 ∈ x' := by
  obtain ⟨t, ht⟩ := discardThreshold_exists (w := [1/2, 0, 1/4, 1/4]) (eps := 0) (q := 10) (by simp) (by norm_num) (by norm_num)
  have hl : ([1/2, 0, 1/4, 1/4] : List ℝ).length = ([1, 2, 3, 4] : List ℕ).length := rfl
  have h := psPrune_eq (mt := 0) (w := [1/2, 0, 1/4, 1/4]) (x := ([1, 2, 3, 4] : List ℕ)) rfl ht
  refine ⟨_, _, h, ?_, ?_⟩
  · rw [C55_prune_default hl (by simp) (by norm_num) h (fun x : ℕ => (x : ℝ))]
    norm_num [wsum]
  · obtain ⟨t, p, h1, h2, h3, -, h4⟩ := C55_prune_discards hl h
    exact ⟨t, p, h1, h2, h3, h4 (1/2, 1) (by simp) (by norm_num) (by norm_num)⟩

example : ∃ w' x', psPrune 0.1 10 2 [1/2, 0, 1/4, 1/4] ([1, 2, 3, 4] : List ℕ) = .ok (w', x') ∧ WeightsOk w' x' ∧ w'.length ≤ 2 := by
  obtain ⟨t, ht⟩ := discardThreshold_exists (w := [1/2, 0, 1/4, 1/4]) (eps := 0.1) (q := 10) (by simp) (by norm_num) (by norm_num)
  have hl : ([1/2, 0, 1/4, 1/4] : List ℝ).length = ([1, 2, 3, 4] : List ℕ).length := rfl
  have h := psPrune_eq (mt := 2) (w := [1/2, 0, 1/4, 1/4]) (x := ([1, 2, 3, 4] : List ℕ)) rfl ht
  obtain ⟨h1, -, h2⟩ := C55_prune_weights hl (by simp) (by norm_num) (by norm_num) h
  exact ⟨_, _, h, h1, h2 (by norm_num)⟩

end PyPE

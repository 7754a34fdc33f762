import Verif.Sim.Props
import Verif.Filter.Markov

/-!
# `Simulator.simulate` runs the filter over its data

The converse of `simLoop_run`: if the calls succeed, `simulate` makes them.
-/

namespace PyPE
open Spec

variable {P U Y V Ω : Type}

theorem simLoop_of_run {F : FilterOps P U Y V Ω} {u : List (Slot U)} {y : List (Slot Y)} {offset : ℕ} {draws : ℕ → Ω × Draws Ω} (is : List ℕ)
    (his : ∀ i ∈ is, i - offset < u.length ∧ i < y.length) {pt pt' : PT P U Y} {bs : List (Option Bool)} (n : ℕ)
    (h : pt.run F (is.map (loopOp u y offset draws)) = (pt', .ok bs)) :
    simLoop F u y offset draws is pt n = (pt', .ok (n + bs.count (some true))) := by
  induction is generalizing pt n bs with
  | nil =>
    simp only [List.map_nil, PT.run, Prod.mk.injEq, Except.ok.injEq] at h
    obtain ⟨rfl, rfl⟩ := h
    rfl
  | cons i is ih =>
    obtain ⟨hu, hy⟩ := his i (by simp)
    have hop : loopOp u y offset draws i = .forward u[i - offset] y[i] (draws i).1 (draws i).2 := by simp [loopOp, hu, hy]
    rw [List.map_cons, hop, PT.run] at h
    unfold simLoop
    rw [getIdx_of_lt hu]
    simp only
    rw [getIdx_of_lt hy]
    simp only
    rcases hf : pt.forward F u[i - offset] y[i] (draws i).1 (draws i).2 with ⟨pt1, e | b⟩
    · simp only [PT.step, hf] at h
      cases h
    · simp only [PT.step, hf] at h
      rcases hr : pt1.run F (is.map (loopOp u y offset draws)) with ⟨pt2, e | bs'⟩
      · rw [hr] at h; cases h
      · rw [hr] at h
        simp only [Prod.mk.injEq, Except.ok.injEq] at h
        obtain ⟨rfl, rfl⟩ := h
        cases b with
        | true =>
          simp only []
          rw [ih (fun j hj => his j (List.mem_cons_of_mem _ hj)) (n + 1) hr, List.count_cons_self]
          simp only [Prod.mk.injEq, Except.ok.injEq, true_and]
          omega
        | false =>
          simp only []
          rw [ih (fun j hj => his j (List.mem_cons_of_mem _ hj)) n hr, List.count_cons_of_ne (by simp)]

/-- The calls `forward` that `simulate` makes after an initial `measure`. -/
def simCalls (u : List (Slot U)) (y : List (Slot Y)) (draws : ℕ → Ω × Draws Ω) : List (Slot U × Slot Y × Ω × Draws Ω) :=
  (List.range (y.length - 1)).map fun i => (u.getD i .none, y.getD (i + 1) .none, (draws (i + 1)).1, (draws (i + 1)).2)

/-- `simulate` with `meas_first=True` is the history `measure(y[0]); forward(u[0], y[1]); …`. -/
theorem simForward_of_history {F : FilterOps P U Y V Ω} {pt pt' : PT P U Y} {u : List (Slot U)} {y : List (Slot Y)} {y0 : Slot Y} (hy0 : y[0]? = some y0)
    (hu : y.length ≤ u.length + 1) (draws : ℕ → Ω × Draws Ω) {bs : List (Option Bool)}
    (h : pt.run F (history (some (y0, (draws 0).1)) (simCalls u y draws)) = (pt', .ok bs)) :
    simForward F pt u y true draws = (pt', .ok (bs.count (some true))) := by
  have hl := lt_of_getElem?_some hy0
  have hops : (simCalls u y draws).map (fun q => Op.forward q.1 q.2.1 q.2.2.1 q.2.2.2) = ((List.range y.length).drop 1).map (loopOp u y 1 draws) := by
    apply List.ext_getElem
    · simp [simCalls]
    · intro i h1 h2
      simp [simCalls, loopOp, add_comm 1 i]
  have h' : pt.run F (.measure y0 (draws 0).1 :: ((List.range y.length).drop 1).map (loopOp u y 1 draws)) = (pt', .ok bs) := by rw [← hops]; exact h
  rw [PT.run] at h'
  unfold simForward
  rw [if_pos rfl, getIdx_ok.mpr hy0]
  simp only
  rcases hm : pt.measure F y0 (draws 0).1 with ⟨pt1, e | _⟩
  · simp only [PT.step, hm] at h'
    cases h'
  · simp only [PT.step, hm] at h'
    rcases hr : pt1.run F (((List.range y.length).drop 1).map (loopOp u y 1 draws)) with ⟨pt2, e | bs'⟩
    · rw [hr] at h'; cases h'
    · rw [hr] at h'
      simp only [Prod.mk.injEq, Except.ok.injEq] at h'
      obtain ⟨rfl, rfl⟩ := h'
      simp only []
      rw [simLoop_of_run _ (fun i hi => ?_) 0 hr, List.count_cons_of_ne (by simp), Nat.zero_add]
      obtain ⟨j, hj, rfl⟩ := List.getElem_of_mem hi
      simp at hj ⊢
      omega

end PyPE

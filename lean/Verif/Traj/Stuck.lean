import Verif.Traj.Props
import Verif.Traj.Faults

/-!
# C22: a conditional filter does not recover from a failed step
-/

namespace PyPE
open Spec
variable {P U Y V Ω : Type}

/-- There are fewer stored steps than the time index says. -/
def PT.Behind (s : PT P U Y) : Prop := s.Inv ∧ s.traj ≠ [] ∧ s.traj.length < s.ind1

theorem behind_forward {F : FilterOps P U Y V Ω} {s : PT P U Y} (h : s.Behind) (u : Slot U) (y : Slot Y) (ω : Ω) (d : Draws Ω)
    {bad : PyErr → Prop} (hF : ∀ tr y u t c (d : Draws Ω), tr ≠ [] → tr.length ≤ c → ∃ e, F.forward tr y u t c d = .error e ∧ bad e) :
    (s.forward F u y ω d).1.Behind ∧ ∃ e, (s.forward F u y ω d).2 = .error e ∧ bad e := by
  obtain ⟨h1, h2, h3⟩ := h
  have hi := PT.forward_inv (F := F) h1 u y ω d
  obtain ⟨hg, e1, e2, e3, e4⟩ := PT.growForward_inv h1 (h1.started h2)
  rw [PT.forward_eq h1] at hi ⊢
  rcases s.ensureInit_cases F ω with ⟨-, he⟩ | ⟨h', -⟩ | ⟨h', -⟩
  · rw [he] at hi ⊢
    dsimp only at hi ⊢
    obtain ⟨e, hfe, hb⟩ := hF s.traj (s.beforeForward u y).yvec (s.beforeForward u y).uvec (s.beforeForward u y).tvec (s.ind1 - 1) d h2 (by omega)
    rw [hfe] at hi ⊢
    refine ⟨⟨hi, ?_, ?_⟩, e, rfl, hb⟩
    · simp only [PT.beforeForward]; rw [e3]; exact h2
    · simp only [PT.beforeForward]; rw [e3]; omega
  · exact absurd h' h2
  · exact absurd h' h2

theorem behind_measure {F : FilterOps P U Y V Ω} {s : PT P U Y} (h : s.Behind) (y : Slot Y) (ω : Ω) : (s.measure F y ω).1.Behind := by
  obtain ⟨h1, h2, h3⟩ := h
  have hi := PT.measure_inv (F := F) h1 y ω
  obtain ⟨hg, e1, e2, e3, e4⟩ := PT.growMeasure_inv h1
  cases hp : F.usingPfy with
  | true =>
    rw [PT.measure_pfy_eq hp h1] at hi ⊢
    dsimp only at hi ⊢
    rcases hm : F.measureNew (s.beforeMeasurePfy y).yvec (s.beforeMeasurePfy y).tvec s.ind1 ω with e | pa
    · rw [hm] at hi
      refine ⟨hi, ?_, ?_⟩
      · simp only [PT.beforeMeasurePfy]; rw [e3]; exact h2
      · simp only [PT.beforeMeasurePfy]; rw [e3]; omega
    · rw [hm] at hi
      refine ⟨hi, by simp, ?_⟩
      simp only [PT.beforeMeasurePfy, List.length_append, List.length_singleton]
      omega
  | false =>
    rw [PT.measure_eq hp h1] at hi ⊢
    rcases s.growMeasure.ensureInit_cases F ω with ⟨-, he⟩ | ⟨h', -⟩ | ⟨h', -⟩
    · rw [he] at hi ⊢
      dsimp only at hi ⊢
      obtain ⟨last, hl⟩ := Option.ne_none_iff_exists'.mp (mt List.getLast?_eq_none_iff.mp (e3.symm ▸ h2 : s.growMeasure.traj ≠ []))
      rw [getLast_ok.mpr hl] at hi ⊢
      dsimp only at hi ⊢
      rcases hm : F.measure s.growMeasure.traj last.ancestors last.pa (s.growMeasure.beforeMeasure y).uvec (s.growMeasure.beforeMeasure y).yvec
          (s.growMeasure.beforeMeasure y).tvec (s.growMeasure.ind1 - 1) with e | pa
      · rw [hm] at hi
        refine ⟨hi, ?_, ?_⟩
        · simp only [PT.beforeMeasure]; rw [e3]; exact h2
        · simp only [PT.beforeMeasure]; rw [e3, e1]; exact h3
      · rw [hm] at hi
        refine ⟨hi, by simp, ?_⟩
        have := List.length_pos_iff.2 h2
        simp only [PT.beforeMeasure, List.length_append, List.length_singleton, List.length_dropLast, e3, e1]
        omega
    · exact absurd (e3 ▸ h') h2
    · exact absurd (e3 ▸ h') h2

theorem behind_runCatch {F : FilterOps P U Y V Ω} {bad : PyErr → Prop}
    (hF : ∀ tr y u t c (d : Draws Ω), tr ≠ [] → tr.length ≤ c → ∃ e, F.forward tr y u t c d = .error e ∧ bad e) (ops : List (Op U Y Ω)) {s : PT P U Y}
    (h : s.Behind) : (s.runCatch F ops).Behind := by
  induction ops generalizing s with
  | nil => exact h
  | cons op ops ih =>
    refine ih (s := (s.step F op).1) ?_
    cases op with
    | forward u y ω0 d =>
      have := (behind_forward h u y ω0 d hF).1
      unfold PT.step
      dsimp only
      rcases hq : s.forward F u y ω0 d with ⟨s', _ | _⟩ <;> rw [hq] at this <;> exact this
    | measure y ω =>
      have := behind_measure (F := F) h y ω
      unfold PT.step
      dsimp only
      rcases hq : s.measure F y ω with ⟨s', _ | _⟩ <;> rw [hq] at this <;> exact this

/-- C22 (defect) For the conditional filters `cpf`, `cpfas`, `cpfyas` and `csiras`: after any successful non-empty history, a `forward()` that fails (for instance in the
model), and any further calls whose exceptions the caller caught, every `forward()` fails; for `cpf` and `cpfyas` with `IndexError`. -/
theorem C22_conditional_never_recovers {M : Callbacks P U Y V Ω} {N : ℕ} {res : ℝ} {name : String} {opts : FilterOptions P} {k : FilterKind}
    (hk : parseFilter name = .ok k) (hk4 : Spec.Conditional k) {F : FilterOps P U Y V Ω} (hF : mkFilter M N res name opts = .ok F)
    {T : Option ℕ} {s0 s s' : PT P U Y} (h0 : PT.init N T 0 = .ok s0) {ops : List (Op U Y Ω)} (hne : ops ≠ []) {bs : List (Option Bool)}
    (hrun : s0.run F ops = (s, .ok bs)) {u : Slot U} {y : Slot Y} {ω0 : Ω} {d : Draws Ω} {e : PyErr} (hf : s.forward F u y ω0 d = (s', .error e))
    (later : List (Op U Y Ω)) (u' : Slot U) (y' : Slot Y) (ω' : Ω) (d' : Draws Ω) :
    ∃ e', ((s'.runCatch F later).forward F u' y' ω' d').2 = .error e' ∧ (k = .cpf ∨ k = .cpfyas → e' = .indexError) := by
  have hgi : ∀ (tr : List (Step P)) c, tr.length ≤ c → getIdx tr c = .error .indexError := fun tr c h => by
    unfold getIdx
    rw [List.getElem?_eq_none h]
  have hread : ∀ tr y u t c (d : Draws Ω), tr ≠ [] → tr.length ≤ c → ∃ e, F.forward tr y u t c d = .error e ∧ (k = .cpf ∨ k = .cpfyas → e = .indexError) := by
    intro tr y u t c d hne hc
    unfold mkFilter at hF
    rw [hk, ok_bind] at hF
    rcases hk4 with rfl | rfl | rfl | rfl
    · dsimp only at hF
      rcases hcond : opts.condTraj with e | ct
      · rw [hcond] at hF; cases hF
      · rw [hcond] at hF
        cases hF
        refine ⟨.indexError, ?_, fun _ => rfl⟩
        simp only [cpfForward, hgi tr c hc]
        rfl
    · dsimp only at hF
      rcases hcond : opts.condTraj with e | ct
      · rw [hcond] at hF; cases hF
      · rw [hcond] at hF
        cases hF
        refine (?_ : ∃ e, _).imp fun e he => ⟨he, by simp⟩
        obtain ⟨last, hl⟩ := Option.ne_none_iff_exists'.mp (mt List.getLast?_eq_none_iff.mp hne)
        simp only [cpfasForward, getLast_ok.mpr hl, ok_bind]
        rcases sample (expNormalised last.pa.w) (last.pa.part.length - 1) d.r with e | a
        · exact ⟨e, rfl⟩
        · refine ⟨.indexError, ?_⟩
          simp only [ok_bind, hgi tr c hc]
          rfl
    · dsimp only at hF
      rcases hcond : opts.condTraj with e | ct
      · rw [hcond] at hF; cases hF
      · rw [hcond] at hF
        cases hF
        refine ⟨.indexError, ?_, fun _ => rfl⟩
        simp only [cpfyasForward, hgi tr c hc]
        rfl
    · dsimp only at hF
      rcases hcond : opts.condTraj with e | ct
      · rw [hcond] at hF; cases hF
      · rw [hcond] at hF
        cases hF
        refine (?_ : ∃ e, _).imp fun e he => ⟨he, by simp⟩
        obtain ⟨last, hl⟩ := Option.ne_none_iff_exists'.mp (mt List.getLast?_eq_none_iff.mp hne)
        simp only [csirasForward, getLast_ok.mpr hl, ok_bind]
        rcases sample (expNormalised last.pa.w) (last.pa.part.length - 1) d.r with e | a
        · exact ⟨e, rfl⟩
        · refine ⟨.indexError, ?_⟩
          simp only [ok_bind, hgi tr c hc]
          rfl
  have hr := PT.run_rep ops (PT.init_rep h0) hrun
  have hst := C22_failed_forward_state h0 hne hrun hf
  have hinv' : s'.Inv := by have := PT.forward_inv (F := F) hr.inv u y ω0 d; rwa [hf] at this
  have htr := (PT.failed_forward hr (Spec.log_ne_nil _ hne) hf).2.1
  have hb : s'.Behind := ⟨hinv', by rw [hst.1]; exact htr, by rw [hst.1, hst.2.2.1, hr.len, hr.ind]; omega⟩
  exact (behind_forward (behind_runCatch hread later hb) u' y' ω' d' hread).2

theorem bind_fails {α β : Type} {x : PyM α} {f : α → PyM β} (h : ∀ a, ∃ e, f a = .error e) : ∃ e, (x >>= f) = .error e := by
  cases x with
  | error e => exact ⟨e, rfl⟩
  | ok a => exact h a

/-- `toy` with a transition that raises `ValueError`. -/
noncomputable def brokenToy : Callbacks ℝ ℝ ℝ (List ℝ) ℝ := { toy with update := fun _ _ _ _ _ _ _ => .error .valueError }

/-- One particle of a conditional trajectory of two steps. -/
def brokenCond : List (Step ℝ) := [⟨⟨[0], [0], 1, 0⟩, [0]⟩, ⟨⟨[1], [0], 1, 0⟩, [0]⟩]

/-- A conditional filter over a model that raises: one measurement, a failed step, a further measurement, and then a step that raises `IndexError`. -/
example : ∃ (F : FilterOps ℝ ℝ ℝ (List ℝ) ℝ) (s0 s s' : PT ℝ ℝ ℝ) (bs : List (Option Bool)) (e : PyErr),
    mkFilter brokenToy 2 (2/3) "cpf" (.dict (some brokenCond)) = .ok F ∧ PT.init 2 none 0 = .ok s0 ∧
      s0.run F [.measure (.obj 1) 0] = (s, .ok bs) ∧ s.forward F (.obj 1) (.obj 2) 0 ⟨1/2, 1/3, 1⟩ = (s', .error e) ∧
      ((s'.runCatch F [.measure (.obj 2) 0]).forward F (.obj 1) (.obj 2) 0 ⟨1/2, 1/3, 1⟩).2 = .error .indexError := by
  have hF : mkFilter brokenToy 2 (2/3) "cpf" (.dict (some brokenCond)) =
      .ok ⟨cpfInitial brokenToy brokenCond, cpfForward brokenToy brokenCond, pfMeasure brokenToy, fun _ _ _ _ => .error .typeError, false⟩ := by
    unfold mkFilter; rw [parse_cpf]; rfl
  have hb : ∀ tr y u t c d, ∃ e, cpfForward brokenToy brokenCond tr y u t c d = .error e := fun tr y u t c d =>
    bind_fails fun _ => bind_fails fun _ => bind_fails fun _ => bind_fails fun _ => bind_fails fun _ => ⟨_, rfl⟩
  generalize hFF : (⟨cpfInitial brokenToy brokenCond, cpfForward brokenToy brokenCond, pfMeasure brokenToy, fun _ _ _ _ => .error .typeError, false⟩ :
    FilterOps ℝ ℝ ℝ (List ℝ) ℝ) = F at hF
  have h0 : PT.init 2 none 0 = .ok (⟨[.none], [.none], [0], 0, 0, 2, []⟩ : PT ℝ ℝ ℝ) := rfl
  obtain ⟨s, bs, hrun⟩ : ∃ s bs, (⟨[.none], [.none], [0], 0, 0, 2, []⟩ : PT ℝ ℝ ℝ).run F [.measure (.obj 1) 0] = (s, .ok bs) := by
    subst hFF
    exact ⟨_, _, rfl⟩
  obtain ⟨s', e, hf⟩ : ∃ s' e, s.forward F (.obj 1) (.obj 2) 0 ⟨1/2, 1/3, 1⟩ = (s', .error e) := by
    rw [PT.forward_eq (PT.run_rep _ (PT.init_rep h0) hrun).inv]
    rcases s.ensureInit F 0 with ⟨s', e | _⟩
    · exact ⟨_, _, rfl⟩
    · dsimp only
      obtain ⟨e, he⟩ : ∃ e, F.forward s'.traj (s'.beforeForward (.obj 1) (.obj 2)).yvec (s'.beforeForward (.obj 1) (.obj 2)).uvec
          (s'.beforeForward (.obj 1) (.obj 2)).tvec (s'.ind1 - 1) ⟨1/2, 1/3, 1⟩ = .error e := by
        subst hFF
        exact hb _ _ _ _ _ _
      rw [he]
      exact ⟨_, _, rfl⟩
  obtain ⟨e', h1, h2⟩ := C22_conditional_never_recovers parse_cpf (.inl rfl) hF h0 (by simp) hrun hf [.measure (.obj 2) 0] (.obj 1) (.obj 2) 0 ⟨1/2, 1/3, 1⟩
  exact ⟨F, _, s, s', bs, e, hF, h0, hrun, hf, by rw [h1, h2 (.inl rfl)]⟩

end PyPE

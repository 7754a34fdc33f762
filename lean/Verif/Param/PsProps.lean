import Verif.Param.SaProps

/-!
# Runs of PSAEM (C55, C56)
-/

namespace PyPE

namespace Spec

/-- What the model's M-step was given in each iteration: trajectories and weights. -/
def mStepInputs {Θ X C : Type} (tr : List (SaCall Θ X C)) : List (List X × List ℝ) :=
  tr.filterMap fun c => match c with
    | .maximizeWeighted x w _ => some (x, w)
    | _ => none

/-- The trajectories and weights each iteration contributed. -/
def contributions {Θ X C : Type} (tr : List (SaCall Θ X C)) : List (List X × List ℝ) :=
  tr.filterMap fun c => match c with
    | .newTrajs x w => some (x, w)
    | _ => none

/-- The iteration numbers reported to the callback. -/
def reported {Θ X C : Type} (tr : List (SaCall Θ X C)) : List ℕ :=
  tr.filterMap fun c => match c with
    | .callback _ i => some i
    | _ => none

/-- The conditioning trajectories given to the simulations. -/
def condGiven {Θ X C : Type} (tr : List (SaCall Θ X C)) : List (Option C) :=
  tr.filterMap fun c => match c with
    | .simulate _ _ c => some c
    | _ => none

/-- The trajectories stored in the caller's options dictionary. -/
def condStored {Θ X C : Type} (tr : List (SaCall Θ X C)) : List C :=
  tr.filterMap fun c => match c with
    | .setCond c => some c
    | _ => none

/-- The stochastic approximation `S₀ = m₀`, `Sₖ = (1 - αₖ) Sₖ₋₁ + αₖ mₖ` of a list of values; `k` is the
index of the first value and `S` the average so far. -/
noncomputable def saAverages (alpha : ℕ → ℝ) : ℕ → Option ℝ → List ℝ → List ℝ
  | _, _, [] => []
  | k, none, m :: ms => m :: saAverages alpha (k + 1) (some m) ms
  | k, some S, m :: ms =>
    ((1 - alpha k) * S + alpha k * m) ::
      saAverages alpha (k + 1) (some ((1 - alpha k) * S + alpha k * m)) ms

end Spec

open Spec

theorem Traced.call_err {C α β : Type} {x : PyM α} {c : α → List C} {k : α → Traced C β}
    {tr : List C} {e : PyErr} (h : Traced.call x c k = (tr, .error e)) :
    (tr = [] ∧ x = .error e) ∨ ∃ a, x = .ok a ∧ ∃ tr', k a = (tr', .error e) ∧ tr = c a ++ tr' := by
  cases x with
  | error e' =>
    simp only [Traced.call, Prod.mk.injEq, Except.error.injEq] at h
    left
    exact ⟨h.1.symm, by rw [h.2]⟩
  | ok a =>
    right
    simp only [Traced.call, Prod.mk.injEq] at h
    exact ⟨a, rfl, (k a).1, by rw [← h.2], h.1.symm⟩

section
variable {W Θ X C : Type} {H : PsHooks W Θ X C} {o : PsOpts} {garbage : ℕ → ℕ → X}

theorem psNew_ok {rb : Bool} {g : ℕ → X} {w : W} {x : List X} {v : List ℝ}
    (hsm : ∀ w x, H.smoothed w = .ok x → x ≠ []) (hfw : ∀ w x, H.finalWeights w = .ok x → x ≠ [])
    (h : psNew H rb g w = .ok (x, v)) : v.length = x.length ∧ (∀ a ∈ v, 0 ≤ a) ∧ v.sum = 1 := by
  cases rb with
  | true =>
    simp only [psNew, if_true] at h
    rw [bind_eq_ok] at h
    obtain ⟨lw, hlw, h⟩ := h
    rw [pure_eq_ok] at h
    cases h
    have hpos : ∀ a ∈ lw.map Real.exp, 0 < a := by
      intro a ha
      rw [List.mem_map] at ha
      obtain ⟨b, _, rfl⟩ := ha
      exact Real.exp_pos b
    have hs : 0 < (lw.map Real.exp).sum := List.sum_pos _ hpos (by simpa using hfw w lw hlw)
    refine ⟨by simp [normalise], ?_, sum_normalise hs.ne'⟩
    intro a ha
    rw [normalise, List.mem_map] at ha
    obtain ⟨b, hb, rfl⟩ := ha
    exact div_nonneg (hpos b hb).le hs.le
  | false =>
    simp only [psNew, Bool.false_eq_true, if_false] at h
    rw [bind_eq_ok] at h
    obtain ⟨y, hy, h⟩ := h
    rw [pure_eq_ok] at h
    cases h
    refine ⟨by simp [uniformW], ?_, sum_uniformW (List.length_pos_of_ne_nil (hsm w _ hy))⟩
    intro a ha
    rw [uniformW] at ha
    rw [(List.mem_replicate.1 ha).2]
    positivity

/-- The parts of a completed iteration. -/
theorem psIter_ok {i : ℕ} {s s' : PsState W Θ X C} {tr : List (SaCall Θ X C)}
    (h : psIter H o garbage i s = (tr, .ok s')) :
    ∃ (w1 : W) (new : List X × List ℝ) (c : C) (acc : List ℝ × List X),
      psNew H o.raoblackwell (garbage i) w1 = .ok new ∧ s.opts.setCond c = .ok s'.opts ∧
      psPrune o.discard_eps o.discard_percentile o.max_traj
        (mixWeights (s.acc.map Prod.fst) (o.alpha (i - 1)) new.2)
        (mixTrajs (s.acc.map Prod.snd) new.1) = .ok acc ∧ s'.acc = some acc ∧
      tr = [.setParams s.θ, .simulate o.num_part o.M s.opts.cond, .newTrajs new.1 new.2, .setCond c] ++
        optRecord H.callbackSim .callbackSim ++ [.maximizeWeighted acc.2 acc.1 s'.θ] := by
  unfold psIter at h
  simp only [Traced.call_ok] at h
  obtain ⟨w1, _, t1, ⟨w2, _, t2, ⟨new, hnew, t3, ⟨c, _, t4, ⟨opts, hopts, t5, ⟨w3, _, t6, ⟨acc, hacc, t7,
    ⟨⟨θ', w4⟩, _, t8, h8, rfl⟩, rfl⟩, rfl⟩, rfl⟩, rfl⟩, rfl⟩, rfl⟩, rfl⟩ := h
  simp only [Prod.mk.injEq, Except.ok.injEq] at h8
  obtain ⟨rfl, rfl⟩ := h8
  exact ⟨w2, new, c, acc, hnew, hopts, hacc, rfl, by simp⟩

theorem mStepInputs_optRecord {α : Type} (f : Option α) :
    mStepInputs (optRecord f (.callbackSim : SaCall Θ X C)) = [] := by
  cases f <;> rfl

theorem condGiven_optRecord {α : Type} (f : Option α) :
    condGiven (optRecord f (.callbackSim : SaCall Θ X C)) = [] := by
  cases f <;> rfl

theorem reported_optRecord {α : Type} (f : Option α) :
    reported (optRecord f (.callbackSim : SaCall Θ X C)) = [] := by
  cases f <;> rfl

theorem contributions_optRecord {α : Type} (f : Option α) :
    contributions (optRecord f (.callbackSim : SaCall Θ X C)) = [] := by
  cases f <;> rfl

theorem condStored_optRecord {α : Type} (f : Option α) :
    condStored (optRecord f (.callbackSim : SaCall Θ X C)) = [] := by
  cases f <;> rfl

/-- An iteration that raised performed no M-step and reported nothing. -/
theorem psIter_err {i : ℕ} {s : PsState W Θ X C} {tr : List (SaCall Θ X C)} {e : PyErr}
    (h : psIter H o garbage i s = (tr, .error e)) :
    mStepInputs tr = [] ∧ reported tr = [] ∧ (condGiven tr = [] ∧ condStored tr = [] ∨
      condGiven tr = [s.opts.cond]) := by
  unfold psIter at h
  rcases Traced.call_err h with ⟨rfl, _⟩ | ⟨w1, _, t1, h1, rfl⟩
  · exact ⟨rfl, rfl, Or.inl ⟨rfl, rfl⟩⟩
  rcases Traced.call_err h1 with ⟨rfl, _⟩ | ⟨w2, _, t2, h2, rfl⟩
  · exact ⟨rfl, rfl, Or.inl ⟨rfl, rfl⟩⟩
  rcases Traced.call_err h2 with ⟨rfl, _⟩ | ⟨w3, _, t3, h3, rfl⟩
  · exact ⟨rfl, rfl, Or.inr rfl⟩
  rcases Traced.call_err h3 with ⟨rfl, _⟩ | ⟨w4, _, t4, h4, rfl⟩
  · exact ⟨rfl, rfl, Or.inr rfl⟩
  rcases Traced.call_err h4 with ⟨rfl, _⟩ | ⟨w5, _, t5, h5, rfl⟩
  · exact ⟨rfl, rfl, Or.inr rfl⟩
  rcases Traced.call_err h5 with ⟨rfl, _⟩ | ⟨w6, _, t6, h6, rfl⟩
  · exact ⟨rfl, rfl, Or.inr rfl⟩
  rcases Traced.call_err h6 with ⟨rfl, _⟩ | ⟨w7, _, t7, h7, rfl⟩
  · cases H.callbackSim <;> exact ⟨rfl, rfl, Or.inr rfl⟩
  rcases Traced.call_err h7 with ⟨rfl, _⟩ | ⟨w8, _, t8, h8, rfl⟩
  · cases H.callbackSim <;> exact ⟨rfl, rfl, Or.inr rfl⟩
  simp at h8

/-- A completed iteration, as seen in the lists of the specification. -/
theorem psIter_lists {i : ℕ} {s s' : PsState W Θ X C} {tr : List (SaCall Θ X C)}
    (h : psIter H o garbage i s = (tr, .ok s')) :
    ∃ (w1 : W) (new : List X × List ℝ) (c : C) (acc : List ℝ × List X),
      psNew H o.raoblackwell (garbage i) w1 = .ok new ∧ s.opts.setCond c = .ok s'.opts ∧
      psPrune o.discard_eps o.discard_percentile o.max_traj
        (mixWeights (s.acc.map Prod.fst) (o.alpha (i - 1)) new.2)
        (mixTrajs (s.acc.map Prod.snd) new.1) = .ok acc ∧ s'.acc = some acc ∧
      mStepInputs tr = [(acc.2, acc.1)] ∧ contributions tr = [new] ∧ reported tr = [] ∧
      condGiven tr = [s.opts.cond] ∧ condStored tr = [c] := by
  obtain ⟨w1, new, c, acc, h1, h2, h3, h4, rfl⟩ := psIter_ok h
  refine ⟨w1, new, c, acc, h1, h2, h3, h4, ?_, ?_, ?_, ?_, ?_⟩ <;> cases H.callbackSim <;> rfl

theorem mStepInputs_append (a b : List (SaCall Θ X C)) :
    mStepInputs (a ++ b) = mStepInputs a ++ mStepInputs b := List.filterMap_append
theorem contributions_append (a b : List (SaCall Θ X C)) :
    contributions (a ++ b) = contributions a ++ contributions b := List.filterMap_append
theorem reported_append (a b : List (SaCall Θ X C)) :
    reported (a ++ b) = reported a ++ reported b := List.filterMap_append
theorem condGiven_append (a b : List (SaCall Θ X C)) :
    condGiven (a ++ b) = condGiven a ++ condGiven b := List.filterMap_append
theorem condStored_append (a b : List (SaCall Θ X C)) :
    condStored (a ++ b) = condStored a ++ condStored b := List.filterMap_append

variable {cb : Θ → ℕ → W → PyM (Bool × W)}

/-- One unrolling of the loop: either it stops in this iteration, or goes on. -/
theorem psLoop_cases (fuel i : ℕ) (s : PsState W Θ X C) :
    (∃ tr e, psIter H o garbage (i + 1) s = (tr, .error e) ∧
        psLoop H o garbage cb (fuel + 1) i s = (tr, some (.error e))) ∨
    ∃ tr s', psIter H o garbage (i + 1) s = (tr, .ok s') ∧
      ((∃ e, cb s'.θ (i + 1) s'.w = .error e ∧
          psLoop H o garbage cb (fuel + 1) i s = (tr, some (.error e))) ∨
       (∃ w, cb s'.θ (i + 1) s'.w = .ok (true, w) ∧
          psLoop H o garbage cb (fuel + 1) i s =
            (tr ++ [.callback s'.θ (i + 1)], some (.ok { s' with w := w }))) ∨
       (∃ w, cb s'.θ (i + 1) s'.w = .ok (false, w) ∧
          psLoop H o garbage cb (fuel + 1) i s =
            (tr ++ [.callback s'.θ (i + 1)] ++ (psLoop H o garbage cb fuel (i + 1) { s' with w := w }).1,
              (psLoop H o garbage cb fuel (i + 1) { s' with w := w }).2))) := by
  rcases hi : psIter H o garbage (i + 1) s with ⟨tr, r⟩
  cases r with
  | error e => exact Or.inl ⟨tr, e, rfl, by simp only [psLoop, hi]⟩
  | ok s' =>
    right
    refine ⟨tr, s', rfl, ?_⟩
    rcases hc : cb s'.θ (i + 1) s'.w with e | ⟨b, w⟩
    · left
      exact ⟨e, rfl, by simp only [psLoop, hi, hc]⟩
    · right
      cases b with
      | true =>
        left
        exact ⟨w, rfl, by simp only [psLoop, hi, hc]⟩
      | false =>
        right
        exact ⟨w, rfl, by simp only [psLoop, hi, hc]⟩

/-- Every M-step of a run gets a probability vector. -/
theorem psLoop_weights (hsm : ∀ w x, H.smoothed w = .ok x → x ≠ [])
    (hfw : ∀ w x, H.finalWeights w = .ok x → x ≠ []) (hα : ∀ k, 0 ≤ o.alpha k ∧ o.alpha k ≤ 1)
    (he : 0 ≤ o.discard_eps) :
    ∀ (fuel i : ℕ) (s : PsState W Θ X C), (∀ w x, s.acc = some (w, x) → WeightsOk w x) →
      ∀ p ∈ mStepInputs (psLoop H o garbage cb fuel i s).1, WeightsOk p.2 p.1 ∧ p.2 ≠ [] ∧
        (0 < o.max_traj → p.2.length ≤ o.max_traj) := by
  intro fuel
  induction fuel with
  | zero => intro i s _ p hp; simp [psLoop, mStepInputs] at hp
  | succ fuel ih =>
    intro i s hs
    have step : ∀ {tr s'}, psIter H o garbage (i + 1) s = (tr, .ok s') →
        (∀ w x, s'.acc = some (w, x) → WeightsOk w x) ∧ ∀ p ∈ mStepInputs tr, WeightsOk p.2 p.1 ∧ p.2 ≠ [] ∧
        (0 < o.max_traj → p.2.length ≤ o.max_traj) := by
      intro tr s' h
      obtain ⟨w1, new, c, acc, h1, _, h3, h4, h5, _⟩ := psIter_lists h
      obtain ⟨n1, n2, n3⟩ := psNew_ok hsm hfw (x := new.1) (v := new.2) h1
      obtain ⟨m1, m2, m3⟩ := mix_ok (acc := s.acc) (α := o.alpha (i + 1 - 1)) (v := new.2) (y := new.1) hs (hα _).1 (hα _).2 n1 n2 n3
      have := C55_prune_weights (w' := acc.1) (x' := acc.2) m1 m2 m3 he h3
      rw [h4, h5]
      refine ⟨fun w x hw => ?_, fun p hp => ?_⟩
      · cases hw
        exact this.1
      · rw [List.mem_singleton] at hp
        subst hp
        exact this
    rcases psLoop_cases (H := H) (o := o) (garbage := garbage) (cb := cb) fuel i s with
      ⟨tr, e, h1, h2⟩ | ⟨tr, s', h1, ⟨e, _, h2⟩ | ⟨w, _, h2⟩ | ⟨w, _, h2⟩⟩
    · rw [h2]
      intro p hp
      rw [(psIter_err h1).1] at hp
      simp at hp
    · rw [h2]
      exact (step h1).2
    · rw [h2]
      intro p hp
      rw [mStepInputs_append] at hp
      exact (step h1).2 p (by simpa [mStepInputs] using hp)
    · rw [h2]
      intro p hp
      rw [mStepInputs_append, mStepInputs_append, List.mem_append] at hp
      rcases hp with hp | hp
      · exact (step h1).2 p (by simpa [mStepInputs] using hp)
      · exact ih (i + 1) { s' with w := w } (step h1).1 p hp

/-- **C55**: in every run of PSAEM, however long and with whatever step sizes in `[0, 1]`, every M-step is
given a non-empty list of trajectories whose weights are positive and sum to one (at most `max_traj` of
them, if limited). -/
theorem C55_psaem_weights (hsm : ∀ w x, H.smoothed w = .ok x → x ≠ [])
    (hfw : ∀ w x, H.finalWeights w = .ok x → x ≠ []) (hα : ∀ k, 0 ≤ o.alpha k ∧ o.alpha k ≤ 1)
    (he : 0 ≤ o.discard_eps) (callback : Option (Θ → ℕ → W → PyM (Bool × W))) (max_iter : ℕ) (param0 : Θ)
    (opts : FilterOpts C) (w : W) (fuel : ℕ) :
    ∀ p ∈ mStepInputs (psMaximize H o garbage callback max_iter param0 opts w fuel).1,
      p.2.length = p.1.length ∧ p.2 ≠ [] ∧ (∀ a ∈ p.2, 0 < a) ∧ p.2.sum = 1 ∧
        (0 < o.max_traj → p.2.length ≤ o.max_traj) := by
  intro p hp
  have := psLoop_weights hsm hfw hα he fuel 0 _ (by intro w x h; cases h) p hp
  exact ⟨this.1.1, this.2.1, this.1.2.1, this.1.2.2, this.2.2⟩

theorem psLoop_averages (hsm : ∀ w x, H.smoothed w = .ok x → x ≠ [])
    (hfw : ∀ w x, H.finalWeights w = .ok x → x ≠ []) (hα : ∀ k, 0 ≤ o.alpha k ∧ o.alpha k ≤ 1)
    (he : o.discard_eps = 0) (hm : o.max_traj = 0) (f : X → ℝ) :
    ∀ (fuel i : ℕ) (s : PsState W Θ X C), (∀ w x, s.acc = some (w, x) → WeightsOk w x) →
      (mStepInputs (psLoop H o garbage cb fuel i s).1).map (fun p => wsum f p.2 p.1) <+:
        saAverages o.alpha i (s.acc.map fun a => wsum f a.1 a.2)
          ((contributions (psLoop H o garbage cb fuel i s).1).map fun p => wsum f p.2 p.1) := by
  intro fuel
  induction fuel with
  | zero => intro i s _; simp [psLoop, mStepInputs]
  | succ fuel ih =>
    intro i s hs
    have step : ∀ {tr s'}, psIter H o garbage (i + 1) s = (tr, .ok s') →
        (∀ w x, s'.acc = some (w, x) → WeightsOk w x) ∧
        ∃ new acc, contributions tr = [new] ∧ mStepInputs tr = [(acc.2, acc.1)] ∧ s'.acc = some acc ∧
          ∀ ms, saAverages o.alpha i (s.acc.map fun a => wsum f a.1 a.2) (wsum f new.2 new.1 :: ms) =
            wsum f acc.1 acc.2 :: saAverages o.alpha (i + 1) (some (wsum f acc.1 acc.2)) ms := by
      intro tr s' h
      obtain ⟨w1, new, c, acc, h1, _, h3, h4, h5, h6, _⟩ := psIter_lists h
      obtain ⟨n1, n2, n3⟩ := psNew_ok hsm hfw (x := new.1) (v := new.2) h1
      obtain ⟨m1, m2, m3⟩ := mix_ok (acc := s.acc) (α := o.alpha (i + 1 - 1)) (v := new.2) (y := new.1) hs (hα _).1 (hα _).2 n1 n2 n3
      have hw := C55_prune_weights (w' := acc.1) (x' := acc.2) m1 m2 m3 he.ge h3
      rw [he, hm] at h3
      have hd := C55_prune_default (w' := acc.1) (x' := acc.2) m1 m2 m3 h3 f
      rw [wsum_mix hs, Nat.add_sub_cancel] at hd
      refine ⟨?_, new, acc, h6, h5, h4, ?_⟩
      · rw [h4]
        intro w x hw'
        cases hw'
        exact hw.1
      · intro ms
        cases ha : s.acc.map (fun a => wsum f a.1 a.2) with
        | none =>
          rw [ha] at hd
          simp only [saAverages, hd, saStep]
        | some a =>
          rw [ha] at hd
          simp only [saAverages, hd, saStep]
    rcases psLoop_cases (H := H) (o := o) (garbage := garbage) (cb := cb) fuel i s with
      ⟨tr, e, h1, h2⟩ | ⟨tr, s', h1, ⟨e, _, h2⟩ | ⟨w, _, h2⟩ | ⟨w, _, h2⟩⟩
    · rw [h2, (psIter_err h1).1]
      exact List.nil_prefix
    all_goals obtain ⟨hs', new, acc, e1, e2, e3, e4⟩ := step h1
    · rw [h2, e1, e2]
      simp only [List.map_cons, List.map_nil, e4, saAverages]
      exact List.prefix_rfl
    · rw [h2, mStepInputs_append, contributions_append, e1, e2]
      simp only [mStepInputs, contributions, List.filterMap_cons, List.filterMap_nil, List.append_nil, List.map_cons,
        List.map_nil, e4, saAverages]
      exact List.prefix_rfl
    · rw [h2]
      have := ih (i + 1) { s' with w := w } hs'
      simp only [mStepInputs_append, contributions_append, e1, e2]
      simp only [e3, Option.map_some] at this
      simp only [mStepInputs, contributions, List.filterMap_cons, List.filterMap_nil, List.append_nil, List.map_cons,
        List.map_nil, List.cons_append, List.nil_append, e3, e4] at this ⊢
      exact List.prefix_cons_inj _ |>.2 this

/-- **C55**: with the default pruning (`discard_eps = 0`, `max_traj = 0`) the weighted average of any
function of a trajectory that the `k`-th M-step sees is the stochastic approximation
`S₀ = m₀`, `Sₖ = (1 - αₖ) Sₖ₋₁ + αₖ mₖ`, `mₖ` being the average over the trajectories of iteration `k`. -/
theorem C55_psaem_average (hsm : ∀ w x, H.smoothed w = .ok x → x ≠ [])
    (hfw : ∀ w x, H.finalWeights w = .ok x → x ≠ []) (hα : ∀ k, 0 ≤ o.alpha k ∧ o.alpha k ≤ 1)
    (he : o.discard_eps = 0) (hm : o.max_traj = 0) (callback : Option (Θ → ℕ → W → PyM (Bool × W)))
    (max_iter : ℕ) (param0 : Θ) (opts : FilterOpts C) (w : W) (fuel : ℕ) (f : X → ℝ) :
    (mStepInputs (psMaximize H o garbage callback max_iter param0 opts w fuel).1).map
        (fun p => wsum f p.2 p.1) <+:
      saAverages o.alpha 0 none
        ((contributions (psMaximize H o garbage callback max_iter param0 opts w fuel).1).map
          fun p => wsum f p.2 p.1) :=
  psLoop_averages hsm hfw hα he hm f fuel 0 _ (by intro w x h; cases h)

end
end PyPE

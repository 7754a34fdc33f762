import Verif.Param.PsProps

/-!
# Runs of PSAEM: iteration count, conditioning chain, first iterations, Rao-Blackwellised variant
-/

namespace PyPE

open Spec

section
variable {W Θ X C : Type} {H : PsHooks W Θ X C} {o : PsOpts} {garbage : ℕ → ℕ → X}
variable {cb : Θ → ℕ → W → PyM (Bool × W)}

/-- Everything an iteration contributes comes from `psNew`, whether or not it completes. -/
theorem psIter_contrib {i : ℕ} {s : PsState W Θ X C} (p : List X × List ℝ)
    (hp : p ∈ contributions (psIter H o garbage i s).1) :
    ∃ w, psNew H o.raoblackwell (garbage i) w = .ok p := by
  rcases h : psIter H o garbage i s with ⟨tr, r⟩
  rw [h] at hp
  cases r with
  | ok s' =>
    obtain ⟨w1, new, c, acc, h1, _, _, _, _, h6, _⟩ := psIter_lists h
    rw [h6, List.mem_singleton] at hp
    exact ⟨w1, hp ▸ h1⟩
  | error e =>
    unfold psIter at h
    have case : ∀ (t : List (SaCall Θ X C)) (w : W) (new : List X × List ℝ),
        contributions t = [] → psNew H o.raoblackwell (garbage i) w = .ok new →
        p ∈ contributions ([SaCall.setParams s.θ] ++ ([SaCall.simulate o.num_part o.M s.opts.cond] ++
          ([SaCall.newTrajs new.1 new.2] ++ t))) → ∃ w, psNew H o.raoblackwell (garbage i) w = .ok p := by
      intro t w new ht hw hp
      have : contributions ([SaCall.setParams s.θ] ++ ([SaCall.simulate o.num_part o.M s.opts.cond] ++
          ([SaCall.newTrajs new.1 new.2] ++ t))) = [new] := by
        rw [contributions_append, contributions_append, contributions_append, ht]
        rfl
      rw [this, List.mem_singleton] at hp
      exact ⟨w, hp ▸ hw⟩
    rcases Traced.call_err h with ⟨rfl, _⟩ | ⟨w1, _, t1, h1, rfl⟩
    · simp [contributions] at hp
    rcases Traced.call_err h1 with ⟨rfl, _⟩ | ⟨w2, _, t2, h2, rfl⟩
    · simp [contributions] at hp
    rcases Traced.call_err h2 with ⟨rfl, _⟩ | ⟨new, hnew, t3, h3, rfl⟩
    · simp [contributions] at hp
    refine case t3 w2 new ?_ hnew hp
    rcases Traced.call_err h3 with ⟨rfl, _⟩ | ⟨w4, _, t4, h4, rfl⟩
    · rfl
    rcases Traced.call_err h4 with ⟨rfl, _⟩ | ⟨w5, _, t5, h5, rfl⟩
    · rfl
    rcases Traced.call_err h5 with ⟨rfl, _⟩ | ⟨w6, _, t6, h6, rfl⟩
    · rfl
    rcases Traced.call_err h6 with ⟨rfl, _⟩ | ⟨w7, _, t7, h7, rfl⟩
    · cases H.callbackSim <;> rfl
    rcases Traced.call_err h7 with ⟨rfl, _⟩ | ⟨w8, _, t8, h8, rfl⟩
    · cases H.callbackSim <;> rfl
    simp at h8

theorem psLoop_contrib : ∀ (fuel i : ℕ) (s : PsState W Θ X C),
    ∀ p ∈ contributions (psLoop H o garbage cb fuel i s).1,
      ∃ k w, psNew H o.raoblackwell (garbage k) w = .ok p := by
  intro fuel
  induction fuel with
  | zero => intro i s p hp; simp [psLoop, contributions] at hp
  | succ fuel ih =>
    intro i s p hp
    have first : p ∈ contributions (psIter H o garbage (i + 1) s).1 →
        ∃ k w, psNew H o.raoblackwell (garbage k) w = .ok p := fun h =>
      ⟨i + 1, psIter_contrib p h⟩
    rcases psLoop_cases (H := H) (o := o) (garbage := garbage) (cb := cb) fuel i s with
      ⟨tr, e, h1, h2⟩ | ⟨tr, s', h1, ⟨e, _, h2⟩ | ⟨w, _, h2⟩ | ⟨w, _, h2⟩⟩
    all_goals rw [h1] at first
    · rw [h2] at hp
      exact first hp
    · rw [h2] at hp
      exact first hp
    · rw [h2, contributions_append] at hp
      exact first (by simpa [contributions] using hp)
    · rw [h2, contributions_append, contributions_append, List.mem_append] at hp
      rcases hp with hp | hp
      · exact first (by simpa [contributions] using hp)
      · exact ih (i + 1) { s' with w := w } p hp

/-- **C55**: without `raoblackwell`, what an iteration contributes to the averages of
`C55_psaem_average` is the plain mean over the trajectories the smoother produced. -/
theorem C55_contribution_mean (hrb : o.raoblackwell = false)
    (callback : Option (Θ → ℕ → W → PyM (Bool × W))) (max_iter : ℕ) (param0 : Θ) (opts : FilterOpts C)
    (w : W) (fuel : ℕ) (f : X → ℝ) :
    ∀ p ∈ contributions (psMaximize H o garbage callback max_iter param0 opts w fuel).1,
      (∃ w', H.smoothed w' = .ok p.1) ∧ wsum f p.2 p.1 = (p.1.map f).sum / p.1.length := by
  intro p hp
  obtain ⟨k, w', h⟩ := psLoop_contrib fuel 0 _ p hp
  rw [hrb] at h
  simp only [psNew, Bool.false_eq_true, if_false] at h
  rw [bind_eq_ok] at h
  obtain ⟨y, hy, h⟩ := h
  rw [pure_eq_ok] at h
  cases h
  exact ⟨⟨w', hy⟩, wsum_uniformW f y⟩

/-! ## Iteration count -/

/-- **C56**: the iterations of a run are numbered 1, 2, 3, … in the callback. -/
theorem psLoop_reported : ∀ (fuel i : ℕ) (s : PsState W Θ X C),
    ∃ n, n ≤ fuel ∧ reported (psLoop H o garbage cb fuel i s).1 = List.range' (i + 1) n := by
  intro fuel
  induction fuel with
  | zero => intro i s; exact ⟨0, le_rfl, rfl⟩
  | succ fuel ih =>
    intro i s
    rcases psLoop_cases (H := H) (o := o) (garbage := garbage) (cb := cb) fuel i s with
      ⟨tr, e, h1, h2⟩ | ⟨tr, s', h1, ⟨e, _, h2⟩ | ⟨w, _, h2⟩ | ⟨w, _, h2⟩⟩
    · rw [h2]
      exact ⟨0, by omega, (psIter_err h1).2.1⟩
    all_goals obtain ⟨w1, new, c, acc, _, _, _, _, _, _, h7, _⟩ := psIter_lists h1
    · rw [h2]
      exact ⟨0, by omega, h7⟩
    · rw [h2, reported_append, h7]
      exact ⟨1, by omega, rfl⟩
    · obtain ⟨n, hn, h⟩ := ih (i + 1) { s' with w := w }
      refine ⟨n + 1, by omega, ?_⟩
      rw [h2, reported_append, reported_append, h7, List.range'_succ, h]
      rfl

/-- The loop with the default callback: it stops after the iteration whose number reaches `max_iter`. -/
theorem psLoop_default (max_iter : ℕ) :
    ∀ (fuel i : ℕ) (s s' : PsState W Θ X C) (tr : List (SaCall Θ X C)),
      psLoop H o garbage (defaultCallback max_iter) fuel i s = (tr, some (.ok s')) →
      reported tr = List.range' (i + 1) (max 1 (max_iter - i)) ∧
        (mStepInputs tr).length = max 1 (max_iter - i) := by
  intro fuel
  induction fuel with
  | zero => intro i s s' tr h; simp [psLoop] at h
  | succ fuel ih =>
    intro i s s' tr h
    rcases psLoop_cases (H := H) (o := o) (garbage := garbage) (cb := defaultCallback max_iter) fuel i s with
      ⟨tr', e, h1, h2⟩ | ⟨tr', s'', h1, ⟨e, _, h2⟩ | ⟨w, hc, h2⟩ | ⟨w, hc, h2⟩⟩
    · rw [h2] at h; simp at h
    · rw [h2] at h; simp at h
    all_goals
      obtain ⟨w1, new, c, acc, _, _, _, _, h5, _, h7, _⟩ := psIter_lists h1
      rw [h2] at h
      simp only [defaultCallback, Except.ok.injEq, Prod.mk.injEq] at hc
    · have hle : max_iter ≤ i + 1 := by simpa using hc.1
      have hmax : max 1 (max_iter - i) = 1 := by omega
      simp only [Prod.mk.injEq] at h
      rw [← h.1, reported_append, mStepInputs_append, h5, h7, hmax]
      exact ⟨rfl, rfl⟩
    · have hlt : i + 1 < max_iter := by simpa using hc.1
      simp only [Prod.mk.injEq] at h
      obtain ⟨e1, e2⟩ := ih (i + 1) _ s' _ (Prod.ext rfl h.2)
      have hmax : max 1 (max_iter - i) = max 1 (max_iter - (i + 1)) + 1 := by omega
      rw [← h.1, reported_append, reported_append, mStepInputs_append, mStepInputs_append, h5, h7, e1, hmax,
        List.range'_succ]
      refine ⟨rfl, ?_⟩
      rw [List.length_append, List.length_append, e2]
      simp [mStepInputs]
      omega

/-- **C56**: with the default callback a completed run made exactly `max(1, max_iter)` iterations (one
even for `max_iter = 0`), each with one M-step, numbered from 1. -/
theorem C56_default_count {max_iter : ℕ} {param0 : Θ} {opts : FilterOpts C} {w : W} {fuel : ℕ}
    {tr : List (SaCall Θ X C)} {s' : PsState W Θ X C}
    (h : psMaximize H o garbage none max_iter param0 opts w fuel = (tr, some (.ok s'))) :
    reported tr = List.range' 1 (max 1 max_iter) ∧ (mStepInputs tr).length = max 1 max_iter := by
  have := psLoop_default (H := H) (o := o) (garbage := garbage) max_iter fuel 0 _ s' tr h
  simpa using this

/-- **C56**: … and it does stop: after `max(1, max_iter)` iterations the run has ended, by returning or by
an exception. -/
theorem C56_default_stops (max_iter : ℕ) (param0 : Θ) (opts : FilterOpts C) (w : W) (fuel : ℕ)
    (hf : max 1 max_iter ≤ fuel) :
    (psMaximize H o garbage none max_iter param0 opts w fuel).2 ≠ none := by
  have key : ∀ (fuel i : ℕ) (s : PsState W Θ X C), max 1 (max_iter - i) ≤ fuel →
      (psLoop H o garbage (defaultCallback max_iter) fuel i s).2 ≠ none := by
    intro fuel
    induction fuel with
    | zero => intro i s h; omega
    | succ fuel ih =>
      intro i s hf
      rcases psLoop_cases (H := H) (o := o) (garbage := garbage) (cb := defaultCallback max_iter) fuel i s with
        ⟨tr', e, h1, h2⟩ | ⟨tr', s'', h1, ⟨e, _, h2⟩ | ⟨w, hc, h2⟩ | ⟨w, hc, h2⟩⟩
      · rw [h2]; simp
      · rw [h2]; simp
      · rw [h2]; simp
      · rw [h2]
        simp only [defaultCallback, Except.ok.injEq, Prod.mk.injEq] at hc
        have hlt : i + 1 < max_iter := by simpa using hc.1
        exact ih (i + 1) _ (by omega)
  exact key fuel 0 _ (by simpa using hf)

/-- **C56**: with a callback that never asks to stop, PSAEM never returns, whatever `max_iter` is: for
every number of iterations it is still running, unless an exception ended it. -/
theorem C56_never_returns (hcb : ∀ θ i w b w', cb θ i w = .ok (b, w') → b = false) (max_iter : ℕ)
    (param0 : Θ) (opts : FilterOpts C) (w : W) (fuel : ℕ) :
    ∀ s', (psMaximize H o garbage (some cb) max_iter param0 opts w fuel).2 ≠ some (.ok s') := by
  have key : ∀ (fuel i : ℕ) (s s' : PsState W Θ X C), (psLoop H o garbage cb fuel i s).2 ≠ some (.ok s') := by
    intro fuel
    induction fuel with
    | zero => intro i s s'; simp [psLoop]
    | succ fuel ih =>
      intro i s s'
      rcases psLoop_cases (H := H) (o := o) (garbage := garbage) (cb := cb) fuel i s with
        ⟨tr', e, h1, h2⟩ | ⟨tr', s'', h1, ⟨e, _, h2⟩ | ⟨w, hc, h2⟩ | ⟨w, hc, h2⟩⟩
      · rw [h2]; simp
      · rw [h2]; simp
      · exact absurd (hcb _ _ _ _ _ hc) (by simp)
      · rw [h2]
        exact ih (i + 1) _ s'
  exact key fuel 0 _

/-- **C56**: the callback ends the run: a completed run reported to the callback until it asked to stop,
and it did so in the last iteration only. -/
theorem C56_callback_stops {max_iter : ℕ} {param0 : Θ} {opts : FilterOpts C} {w : W} {fuel : ℕ}
    {tr : List (SaCall Θ X C)} {s' : PsState W Θ X C}
    (h : psMaximize H o garbage (some cb) max_iter param0 opts w fuel = (tr, some (.ok s'))) :
    ∃ n, reported tr = List.range' 1 (n + 1) ∧ (mStepInputs tr).length = n + 1 ∧
      ∃ w1, cb s'.θ (n + 1) w1 = .ok (true, s'.w) := by
  have key : ∀ (fuel i : ℕ) (s s' : PsState W Θ X C) (tr : List (SaCall Θ X C)),
      psLoop H o garbage cb fuel i s = (tr, some (.ok s')) →
      ∃ n, reported tr = List.range' (i + 1) (n + 1) ∧ (mStepInputs tr).length = n + 1 ∧
        ∃ w1, cb s'.θ (i + n + 1) w1 = .ok (true, s'.w) := by
    intro fuel
    induction fuel with
    | zero => intro i s s' tr h; simp [psLoop] at h
    | succ fuel ih =>
      intro i s s' tr h
      rcases psLoop_cases (H := H) (o := o) (garbage := garbage) (cb := cb) fuel i s with
        ⟨tr', e, h1, h2⟩ | ⟨tr', s'', h1, ⟨e, _, h2⟩ | ⟨w, hc, h2⟩ | ⟨w, hc, h2⟩⟩
      · rw [h2] at h; simp at h
      · rw [h2] at h; simp at h
      all_goals
        obtain ⟨w1, new, c, acc, _, _, _, _, h5, _, h7, _⟩ := psIter_lists h1
        rw [h2] at h
        simp only [Prod.mk.injEq] at h
      · refine ⟨0, ?_, ?_, s''.w, ?_⟩
        · rw [← h.1, reported_append, h7]; rfl
        · rw [← h.1, mStepInputs_append, h5]; rfl
        · have := h.2
          simp only [Option.some.injEq, Except.ok.injEq] at this
          rw [← this]
          exact hc
      · obtain ⟨n, e1, e2, w1, e3⟩ := ih (i + 1) _ s' _ (Prod.ext rfl h.2)
        refine ⟨n + 1, ?_, ?_, w1, ?_⟩
        · rw [← h.1, reported_append, reported_append, h7, e1, List.range'_succ (n := n + 1)]; rfl
        · rw [← h.1, mStepInputs_append, mStepInputs_append, h5, List.length_append, List.length_append, e2]
          simp [mStepInputs]
          omega
        · rw [← e3]
          congr 1
          omega
  obtain ⟨n, h1, h2, h3⟩ := key fuel 0 _ s' tr h
  exact ⟨n, by simpa using h1, h2, by simpa using h3⟩

/-! ## The conditioning trajectory -/

theorem setCond_cond {opts opts' : FilterOpts C} {c : C} (h : opts.setCond c = .ok opts') :
    opts'.cond = some c := by
  cases opts with
  | none => cases h
  | dict d => cases h; rfl

/-- **C56** (particle Gibbs): the first simulation is conditioned on the caller's trajectory, every later
one on the trajectory produced in the iteration before; the caller's dictionary is overwritten with it. -/
theorem C56_conditioning (callback : Option (Θ → ℕ → W → PyM (Bool × W))) (max_iter : ℕ) (param0 : Θ)
    (opts : FilterOpts C) (w : W) (fuel : ℕ) :
    condGiven (psMaximize H o garbage callback max_iter param0 opts w fuel).1 <+:
      opts.cond :: (condStored (psMaximize H o garbage callback max_iter param0 opts w fuel).1).map some := by
  have key : ∀ (fuel i : ℕ) (s : PsState W Θ X C) (cb : Θ → ℕ → W → PyM (Bool × W)),
      condGiven (psLoop H o garbage cb fuel i s).1 <+:
        s.opts.cond :: (condStored (psLoop H o garbage cb fuel i s).1).map some := by
    intro fuel
    induction fuel with
    | zero => intro i s cb; simp [psLoop, condGiven]
    | succ fuel ih =>
      intro i s cb
      rcases psLoop_cases (H := H) (o := o) (garbage := garbage) (cb := cb) fuel i s with
        ⟨tr', e, h1, h2⟩ | ⟨tr', s'', h1, ⟨e, _, h2⟩ | ⟨w, hc, h2⟩ | ⟨w, hc, h2⟩⟩
      · rw [h2]
        rcases (psIter_err h1).2.2 with ⟨h, _⟩ | h
        · rw [h]; exact List.nil_prefix
        · rw [h]; exact List.prefix_cons_inj _ |>.2 List.nil_prefix
      all_goals
        obtain ⟨w1, new, c, acc, _, hs, _, _, _, _, _, h8, h9⟩ := psIter_lists h1
        rw [h2]
      · rw [h8]; exact List.prefix_cons_inj _ |>.2 List.nil_prefix
      · rw [condGiven_append, h8]
        exact List.prefix_cons_inj _ |>.2 List.nil_prefix
      · rw [condGiven_append, condGiven_append, condStored_append, condStored_append, h8, h9]
        have := ih (i + 1) { s'' with w := w } cb
        simp only [setCond_cond hs] at this
        exact List.prefix_cons_inj _ |>.2 this
  exact key fuel 0 _ _

/-- **C56**: `filter_options=None` (the default) always fails: `TypeError` in the first iteration, unless
something raised before; no M-step is run. -/
theorem C56_no_options (callback : Option (Θ → ℕ → W → PyM (Bool × W))) (max_iter : ℕ) (param0 : Θ)
    (w : W) (fuel : ℕ) :
    ∃ e, (psMaximize H o garbage callback max_iter param0 .none w (fuel + 1)).2 = some (.error e) ∧
      mStepInputs (psMaximize H o garbage callback max_iter param0 .none w (fuel + 1)).1 = [] := by
  rcases psLoop_cases (H := H) (o := o) (garbage := garbage) (cb := callback.getD (defaultCallback max_iter)) fuel 0
    { θ := param0, acc := none, opts := .none, w := w } with
    ⟨tr', e, h1, h2⟩ | ⟨tr', s'', h1, _⟩
  · exact ⟨e, by rw [psMaximize, h2], by rw [psMaximize, h2]; exact (psIter_err h1).1⟩
  · obtain ⟨w1, new, c, acc, _, hs, _⟩ := psIter_lists h1
    cases hs

/-- **C56**: if nothing raised before the assignment to the dictionary, the exception is `TypeError`. -/
theorem C56_no_options_typeError (callback : Option (Θ → ℕ → W → PyM (Bool × W))) (max_iter : ℕ)
    (param0 : Θ) {w w1 w2 : W} {new : List X × List ℝ} {c : C} (fuel : ℕ)
    (h1 : H.setParams param0 w = .ok w1) (h2 : H.simulate o.num_part o.M .none w1 = .ok w2)
    (h3 : psNew H o.raoblackwell (garbage 1) w2 = .ok new) (h4 : H.straj w2 = .ok c) :
    (psMaximize H o garbage callback max_iter param0 .none w (fuel + 1)).2 = some (.error .typeError) := by
  simp [psMaximize, psLoop, psIter, Traced.call, h1, h2, h3, h4, FilterOpts.setCond]

/-! ## The first iterations -/

theorem filter_replicate_zero {t : ℝ} (ht : 0 ≤ t) (l : List ℝ) :
    (l.map fun x => (1 - 1) * x).filter (fun a => decide (t < a)) = [] := by
  rw [List.filter_eq_nil_iff]
  intro a ha
  rw [List.mem_map] at ha
  obtain ⟨b, _, rfl⟩ := ha
  simpa using ht

theorem normalise_of_sum_one {l : List ℝ} (h : l.sum = 1) : normalise l = l := by
  simp [normalise, h]

/-- With step size one, pruning leaves exactly the new trajectories with their uniform weights. -/
theorem prune_step_one {acc : Option (List ℝ × List X)} {eps q : ℝ} {y : List X} {r : List ℝ × List X}
    (hacc : ∀ w x, acc = some (w, x) → WeightsOk w x) (hy : y ≠ []) (he : 0 ≤ eps)
    (h : psPrune eps q 0 (mixWeights (acc.map Prod.fst) 1 (uniformW y.length))
      (mixTrajs (acc.map Prod.snd) y) = .ok r) : r = (uniformW y.length, y) := by
  have hn : 0 < y.length := List.length_pos_of_ne_nil hy
  have hu : (0 : ℝ) < 1 / (y.length : ℝ) := by positivity
  have hul : (uniformW y.length).length = y.length := by simp [uniformW]
  obtain ⟨m1, m2, m3⟩ := mix_ok (acc := acc) (α := 1) (v := uniformW y.length) (y := y) hacc zero_le_one le_rfl hul
    (fun a ha => by rw [uniformW] at ha; rw [(List.mem_replicate.1 ha).2]; exact hu.le) (sum_uniformW hn)
  set w := mixWeights (acc.map Prod.fst) 1 (uniformW y.length) with hw
  set x := mixTrajs (acc.map Prod.snd) y with hx
  obtain ⟨t, ht⟩ : ∃ t, discardThreshold w eps q = .ok t := by
    unfold psPrune at h
    rw [bind_eq_ok] at h
    obtain ⟨t, ht, _⟩ := h
    exact ⟨t, ht⟩
  rw [psPrune_eq m1 ht] at h
  obtain ⟨p, hp, _, htp, ht0, _⟩ := discardThreshold_ok ht
  obtain ⟨hne, hq0, hq1⟩ := npPercentile_err hp
  obtain ⟨p', hp', hpm⟩ := npPercentile_ok hne hq0 hq1
  rw [hp] at hp'
  cases hp'
  have hmem : ∀ a ∈ w, a ≤ 1 / (y.length : ℝ) := by
    intro a ha
    cases acc with
    | none =>
      simp only [hw, mixWeights, Option.map_none, uniformW] at ha
      rw [(List.mem_replicate.1 ha).2]
    | some c =>
      simp only [hw, mixWeights, Option.map_some, List.mem_append, List.mem_map, uniformW] at ha
      rcases ha with ⟨b, _, rfl⟩ | ⟨b, hb, rfl⟩
      · simpa using hu.le
      · rw [(List.mem_replicate.1 hb).2, one_mul]
  have htu : t < 1 / (y.length : ℝ) := by
    rcases htp with h | h
    · linarith
    · exact lt_of_lt_of_le h (hpm _ hmem)
  have ht0 := ht0 he
  have hfil : w.filter (fun a => decide (t < a)) = uniformW y.length := by
    have hself : ∀ l : List ℝ, l = uniformW y.length → l.filter (fun a => decide (t < a)) = uniformW y.length := by
      intro l hl
      rw [hl, List.filter_eq_self]
      intro a ha
      rw [uniformW] at ha
      rw [(List.mem_replicate.1 ha).2]
      simpa using htu
    cases acc with
    | none => exact hself w rfl
    | some c =>
      simp only [hw, mixWeights, Option.map_some, List.filter_append]
      rw [filter_replicate_zero ht0, List.nil_append]
      exact hself _ (by simp)
  have hfx : ((w.zip x).filter fun p => decide (t < p.1)).map Prod.snd = y := by
    have hself : ∀ l : List ℝ, l = uniformW y.length →
        ((l.zip y).filter fun p => decide (t < p.1)).map Prod.snd = y := by
      intro l hl
      rw [hl, List.filter_eq_self.2, List.map_snd_zip]
      · rw [hul]
      · intro p hp
        have := (List.of_mem_zip hp).1
        rw [uniformW] at this
        rw [(List.mem_replicate.1 this).2]
        simpa using htu
    cases acc with
    | none => exact hself w rfl
    | some c =>
      obtain ⟨hwl, _⟩ := hacc c.1 c.2 rfl
      simp only [hw, hx, mixWeights, mixTrajs, Option.map_some]
      rw [List.zip_append (by simpa using hwl), List.filter_append, List.map_append, hself _ (by simp)]
      have : ((c.1.map fun x => (1 - 1) * x).zip c.2).filter (fun p => decide (t < p.1)) = [] := by
        rw [List.filter_eq_nil_iff]
        intro p hp
        have := (List.of_mem_zip hp).1
        rw [List.mem_map] at this
        obtain ⟨b, _, hb⟩ := this
        rw [← hb]
        simpa using ht0
      rw [this]
      rfl
  rw [hfil, hfx] at h
  cases h
  simp only [keepLast, lt_irrefl, false_and, if_false]
  rw [normalise_of_sum_one (sum_uniformW hn)]

theorem psLoop_step_one (hsm : ∀ w x, H.smoothed w = .ok x → x ≠ [])
    (hfw : ∀ w x, H.finalWeights w = .ok x → x ≠ []) (hα : ∀ k, 0 ≤ o.alpha k ∧ o.alpha k ≤ 1)
    (he : 0 ≤ o.discard_eps) (hm : o.max_traj = 0) (hrb : o.raoblackwell = false) {K : ℕ}
    (h1 : ∀ k, k < K → o.alpha k = 1) :
    ∀ (fuel i : ℕ) (s : PsState W Θ X C), (∀ w x, s.acc = some (w, x) → WeightsOk w x) →
      (mStepInputs (psLoop H o garbage cb fuel i s).1).take (K - i) <+:
        contributions (psLoop H o garbage cb fuel i s).1 := by
  intro fuel
  induction fuel with
  | zero => intro i s _; simp [psLoop, mStepInputs]
  | succ fuel ih =>
    intro i s hs
    by_cases hK : K ≤ i
    · rw [show K - i = 0 by omega, List.take_zero]
      exact List.nil_prefix
    push Not at hK
    have step : ∀ {tr s'}, psIter H o garbage (i + 1) s = (tr, .ok s') →
        (∀ w x, s'.acc = some (w, x) → WeightsOk w x) ∧
        ∃ new, contributions tr = [new] ∧ mStepInputs tr = [new] := by
      intro tr s' h
      obtain ⟨w1, new, c, acc, g1, _, g3, g4, g5, g6, _⟩ := psIter_lists h
      obtain ⟨n1, n2, n3⟩ := psNew_ok hsm hfw (x := new.1) (v := new.2) g1
      obtain ⟨m1, m2, m3⟩ := mix_ok (acc := s.acc) (α := o.alpha (i + 1 - 1)) (v := new.2) (y := new.1) hs (hα _).1 (hα _).2 n1 n2 n3
      have hw := C55_prune_weights (w' := acc.1) (x' := acc.2) m1 m2 m3 he g3
      refine ⟨fun w x hw' => ?_, new, g6, ?_⟩
      · rw [g4] at hw'
        cases hw'
        exact hw.1
      · rw [hrb] at g1
        simp only [psNew, Bool.false_eq_true, if_false] at g1
        rw [bind_eq_ok] at g1
        obtain ⟨y, hy, g1⟩ := g1
        rw [pure_eq_ok] at g1
        cases g1
        rw [Nat.add_sub_cancel, h1 i hK, hm] at g3
        have := prune_step_one hs (hsm _ _ hy) he g3
        rw [g5, this]
    rcases psLoop_cases (H := H) (o := o) (garbage := garbage) (cb := cb) fuel i s with
      ⟨tr, e, h1, h2⟩ | ⟨tr, s', h1, ⟨e, _, h2⟩ | ⟨w, _, h2⟩ | ⟨w, _, h2⟩⟩
    · rw [h2, (psIter_err h1).1, List.take_nil]
      exact List.nil_prefix
    all_goals obtain ⟨hs', new, e1, e2⟩ := step h1
    · rw [h2, e1, e2]
      exact List.take_prefix _ _
    · rw [h2, mStepInputs_append, contributions_append, e1, e2]
      exact List.take_prefix _ _
    · rw [h2, mStepInputs_append, contributions_append, mStepInputs_append, contributions_append, e1, e2]
      have := ih (i + 1) { s' with w := w } hs'
      obtain ⟨k, hk⟩ : ∃ k, K - i = k + 1 := ⟨K - i - 1, by omega⟩
      rw [show K - (i + 1) = k by omega] at this
      rw [hk]
      exact List.prefix_cons_inj _ |>.2 this

/-- **C55**: with the default step sizes the first 102 M-steps see exactly the trajectories of their own
iteration, with equal weights (plain Monte-Carlo EM): nothing is remembered. -/
theorem C55_burn_in (hsm : ∀ w x, H.smoothed w = .ok x → x ≠ [])
    (hfw : ∀ w x, H.finalWeights w = .ok x → x ≠ []) (hα : o.alpha = alphaGen)
    (he : 0 ≤ o.discard_eps) (hm : o.max_traj = 0) (hrb : o.raoblackwell = false)
    (callback : Option (Θ → ℕ → W → PyM (Bool × W))) (max_iter : ℕ) (param0 : Θ) (opts : FilterOpts C)
    (w : W) (fuel : ℕ) :
    (mStepInputs (psMaximize H o garbage callback max_iter param0 opts w fuel).1).take 102 <+:
      contributions (psMaximize H o garbage callback max_iter param0 opts w fuel).1 :=
  psLoop_step_one hsm hfw (fun k => by rw [hα]; exact ⟨(C54_range k).1.le, (C54_range k).2⟩) he hm hrb
    (K := 102) (fun k hk => by rw [hα]; exact (C54_one_iff k).2 (by omega)) fuel 0 _
    (by intro w x h; cases h)

/-! ## The Rao-Blackwellised variant -/

/-- **C79**: with `raoblackwell=True` every trajectory given to an M-step is uninitialised memory (an entry
of the array `numpy.empty` returned), never a trajectory of the filter or the smoother. -/
theorem C79_raoblackwell_garbage (hrb : o.raoblackwell = true)
    (callback : Option (Θ → ℕ → W → PyM (Bool × W))) (max_iter : ℕ) (param0 : Θ) (opts : FilterOpts C)
    (w : W) (fuel : ℕ) :
    ∀ p ∈ mStepInputs (psMaximize H o garbage callback max_iter param0 opts w fuel).1,
      ∀ x ∈ p.1, ∃ i j, x = garbage i j := by
  have sub : ∀ {a : List ℝ} {b b' : List X} {a' : List ℝ} {e q : ℝ} {m : ℕ},
      psPrune e q m a b = .ok (a', b') → ∀ x ∈ b', x ∈ b := by
    intro a b b' a' e q m h x hx
    unfold psPrune at h
    rw [bind_eq_ok] at h
    obtain ⟨t, _, h⟩ := h
    rw [bind_eq_ok] at h
    obtain ⟨w', _, h⟩ := h
    rw [bind_eq_ok] at h
    obtain ⟨x', h3, h⟩ := h
    rw [pure_eq_ok] at h
    cases h
    have := mem_keepLast hx
    rw [maskSelect] at h3
    split_ifs at h3
    cases h3
    rw [List.mem_map] at this
    obtain ⟨z, hz, rfl⟩ := this
    exact (List.of_mem_zip (List.mem_filter.1 hz).1).1
  have key : ∀ (fuel i : ℕ) (s : PsState W Θ X C) (cb : Θ → ℕ → W → PyM (Bool × W)),
      (∀ w x, s.acc = some (w, x) → ∀ a ∈ x, ∃ i j, a = garbage i j) →
      ∀ p ∈ mStepInputs (psLoop H o garbage cb fuel i s).1, ∀ x ∈ p.1, ∃ i j, x = garbage i j := by
    intro fuel
    induction fuel with
    | zero => intro i s cb _ p hp; simp [psLoop, mStepInputs] at hp
    | succ fuel ih =>
      intro i s cb hs p hp
      have step : ∀ {tr s'}, psIter H o garbage (i + 1) s = (tr, .ok s') →
          (∀ w x, s'.acc = some (w, x) → ∀ a ∈ x, ∃ i j, a = garbage i j) ∧
          ∀ p ∈ mStepInputs tr, ∀ x ∈ p.1, ∃ i j, x = garbage i j := by
        intro tr s' h
        obtain ⟨w1, new, c, acc, g1, _, g3, g4, g5, g6, _⟩ := psIter_lists h
        have hnew : ∀ a ∈ new.1, ∃ i j, a = garbage i j := by
          rw [hrb] at g1
          simp only [psNew, if_true] at g1
          rw [bind_eq_ok] at g1
          obtain ⟨lw, _, g1⟩ := g1
          rw [pure_eq_ok] at g1
          cases g1
          intro a ha
          simp only [List.mem_map] at ha
          obtain ⟨j, _, rfl⟩ := ha
          exact ⟨i + 1, j, rfl⟩
        have hacc : ∀ a ∈ acc.2, ∃ i j, a = garbage i j := by
          intro a ha
          have := sub (a' := acc.1) (b' := acc.2) g3 a ha
          cases hsa : s.acc with
          | none =>
            rw [hsa] at this
            exact hnew a this
          | some q =>
            rw [hsa] at this
            simp only [mixTrajs, Option.map_some, List.mem_append] at this
            rcases this with h | h
            · exact hs q.1 q.2 hsa a h
            · exact hnew a h
        rw [g4, g5]
        refine ⟨fun w x hw => ?_, fun p hp => ?_⟩
        · cases hw
          exact hacc
        · rw [List.mem_singleton] at hp
          subst hp
          exact hacc
      rcases psLoop_cases (H := H) (o := o) (garbage := garbage) (cb := cb) fuel i s with
        ⟨tr, e, h1, h2⟩ | ⟨tr, s', h1, ⟨e, _, h2⟩ | ⟨w, _, h2⟩ | ⟨w, _, h2⟩⟩
      · rw [h2, (psIter_err h1).1] at hp
        simp at hp
      · rw [h2] at hp
        exact (step h1).2 p hp
      · rw [h2, mStepInputs_append] at hp
        exact (step h1).2 p (by simpa [mStepInputs] using hp)
      · rw [h2, mStepInputs_append, mStepInputs_append, List.mem_append] at hp
        rcases hp with hp | hp
        · exact (step h1).2 p (by simpa [mStepInputs] using hp)
        · exact ih (i + 1) { s' with w := w } cb (step h1).1 p hp
  exact key fuel 0 _ _ (by intro w x h; cases h)

end
end PyPE

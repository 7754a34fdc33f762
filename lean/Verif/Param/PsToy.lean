import Verif.Param.Ps2Props

/-!
# Completion of PSAEM, and a concrete world meeting the hypotheses of C55, C56, C79, C80
-/

namespace PyPE

open Spec

section
variable {W Θ X C : Type} {H : PsHooks W Θ X C} {o : PsOpts} {garbage : ℕ → ℕ → X}

theorem psIter_total (hset : ∀ θ w, ∃ w', H.setParams θ w = .ok w')
    (hsim : ∀ a b c w, ∃ w', H.simulate a b c w = .ok w')
    (hsm : ∀ w, ∃ x, H.smoothed w = .ok x ∧ x ≠ []) (hfw : ∀ w, ∃ x, H.finalWeights w = .ok x ∧ x ≠ [])
    (hst : ∀ w, ∃ c, H.straj w = .ok c) (hcs : ∀ f, H.callbackSim = some f → ∀ w, ∃ w', f w = .ok w')
    (hmax : ∀ x v w, ∃ r, H.maximizeWeighted x v w = .ok r) (hα : ∀ k, 0 ≤ o.alpha k ∧ o.alpha k ≤ 1)
    (hq : 0 ≤ o.discard_percentile ∧ o.discard_percentile ≤ 100) (i : ℕ) (s : PsState W Θ X C)
    (hs : ∀ w x, s.acc = some (w, x) → WeightsOk w x) (ho : ∃ d, s.opts = .dict d) :
    ∃ tr s', psIter H o garbage i s = (tr, .ok s') ∧ ∃ d, s'.opts = .dict d := by
  obtain ⟨w1, e1⟩ := hset s.θ s.w
  obtain ⟨w2, e2⟩ := hsim o.num_part o.M s.opts w1
  have hsm' : ∀ w x, H.smoothed w = .ok x → x ≠ [] := fun w x h => by
    obtain ⟨y, hy, hne⟩ := hsm w
    rw [hy] at h; cases h; exact hne
  have hfw' : ∀ w x, H.finalWeights w = .ok x → x ≠ [] := fun w x h => by
    obtain ⟨y, hy, hne⟩ := hfw w
    rw [hy] at h; cases h; exact hne
  obtain ⟨new, e3⟩ : ∃ new, psNew H o.raoblackwell (garbage i) w2 = .ok new := by
    cases hrb : o.raoblackwell with
    | true =>
      obtain ⟨l, hl, _⟩ := hfw w2
      exact ⟨_, by simp only [psNew, if_true, hl, ok_bind]; rfl⟩
    | false =>
      obtain ⟨x, hx, _⟩ := hsm w2
      exact ⟨_, by simp only [psNew, Bool.false_eq_true, if_false, hx, ok_bind]; rfl⟩
  obtain ⟨n1, n2, n3⟩ := psNew_ok hsm' hfw' (x := new.1) (v := new.2) e3
  obtain ⟨m1, m2, m3⟩ := mix_ok (acc := s.acc) (α := o.alpha (i - 1)) (v := new.2) (y := new.1) hs (hα _).1 (hα _).2 n1 n2 n3
  obtain ⟨c, e4⟩ := hst w2
  obtain ⟨d, hd⟩ := ho
  have e5 : s.opts.setCond c = .ok (.dict (some (some c))) := by rw [hd]; rfl
  obtain ⟨w3, e6⟩ : ∃ w3, optCall H.callbackSim w2 = .ok w3 := by
    cases hc : H.callbackSim with
    | none => exact ⟨w2, rfl⟩
    | some f => exact hcs f hc w2
  obtain ⟨t, ht⟩ := discardThreshold_exists (w := mixWeights (s.acc.map Prod.fst) (o.alpha (i - 1)) new.2)
    (eps := o.discard_eps) (by intro h; rw [h] at m3; simp at m3) hq.1 hq.2
  obtain ⟨a, e7⟩ : ∃ a, psPrune o.discard_eps o.discard_percentile o.max_traj
      (mixWeights (s.acc.map Prod.fst) (o.alpha (i - 1)) new.2) (mixTrajs (s.acc.map Prod.snd) new.1) = .ok a :=
    ⟨_, psPrune_eq (mt := o.max_traj) m1 ht⟩
  obtain ⟨⟨θ', w4⟩, e8⟩ := hmax a.2 a.1 w3
  refine ⟨(psIter H o garbage i s).1, { θ := θ', acc := some a, opts := .dict (some (some c)), w := w4 },
    Prod.ext rfl ?_, ⟨_, rfl⟩⟩
  simp only [psIter, Traced.call, e1, e2, e3, e4, e5, e6, e7, e8]

/-- **C56**: if no operation raises, the options are a dictionary and the percentile is in range, PSAEM
with the default callback returns after `max(1, max_iter)` iterations. -/
theorem C56_completes (hset : ∀ θ w, ∃ w', H.setParams θ w = .ok w')
    (hsim : ∀ a b c w, ∃ w', H.simulate a b c w = .ok w')
    (hsm : ∀ w, ∃ x, H.smoothed w = .ok x ∧ x ≠ []) (hfw : ∀ w, ∃ x, H.finalWeights w = .ok x ∧ x ≠ [])
    (hst : ∀ w, ∃ c, H.straj w = .ok c) (hcs : ∀ f, H.callbackSim = some f → ∀ w, ∃ w', f w = .ok w')
    (hmax : ∀ x v w, ∃ r, H.maximizeWeighted x v w = .ok r) (hα : ∀ k, 0 ≤ o.alpha k ∧ o.alpha k ≤ 1)
    (he : 0 ≤ o.discard_eps) (hq : 0 ≤ o.discard_percentile ∧ o.discard_percentile ≤ 100) (max_iter : ℕ)
    (param0 : Θ) (cond : Option (Option C)) (w : W) :
    ∃ tr s', psMaximize H o garbage none max_iter param0 (.dict cond) w (max 1 max_iter) =
      (tr, some (.ok s')) := by
  have hsm' : ∀ w x, H.smoothed w = .ok x → x ≠ [] := fun w x h => by
    obtain ⟨y, hy, hne⟩ := hsm w
    rw [hy] at h; cases h; exact hne
  have hfw' : ∀ w x, H.finalWeights w = .ok x → x ≠ [] := fun w x h => by
    obtain ⟨y, hy, hne⟩ := hfw w
    rw [hy] at h; cases h; exact hne
  have key : ∀ (fuel i : ℕ) (s : PsState W Θ X C), max 1 (max_iter - i) ≤ fuel →
      (∀ w x, s.acc = some (w, x) → WeightsOk w x) → (∃ d, s.opts = .dict d) →
      ∃ tr s', psLoop H o garbage (defaultCallback max_iter) fuel i s = (tr, some (.ok s')) := by
    intro fuel
    induction fuel with
    | zero => intro i s h; omega
    | succ fuel ih =>
      intro i s hf hs ho
      obtain ⟨tr, s', h1, hd⟩ := psIter_total (garbage := garbage) hset hsim hsm hfw hst hcs hmax hα hq (i + 1) s hs ho
      rcases psLoop_cases (H := H) (o := o) (garbage := garbage) (cb := defaultCallback max_iter) fuel i s with
        ⟨tr', e, h1', h2⟩ | ⟨tr', s'', h1', ⟨e, hc, h2⟩ | ⟨w, hc, h2⟩ | ⟨w, hc, h2⟩⟩
      · rw [h1'] at h1; cases h1
      · simp [defaultCallback] at hc
      · exact ⟨_, _, h2⟩
      · rw [h1'] at h1
        cases h1
        simp only [defaultCallback, Except.ok.injEq, Prod.mk.injEq] at hc
        have hlt : i + 1 < max_iter := by simpa using hc.1
        obtain ⟨w1, new, c, acc, g1, _, g3, g4, _⟩ := psIter_lists h1'
        obtain ⟨n1, n2, n3⟩ := psNew_ok hsm' hfw' (x := new.1) (v := new.2) g1
        obtain ⟨m1, m2, m3⟩ := mix_ok (acc := s.acc) (α := o.alpha (i + 1 - 1)) (v := new.2) (y := new.1) hs (hα _).1 (hα _).2 n1 n2 n3
        have hw := C55_prune_weights (w' := acc.1) (x' := acc.2) m1 m2 m3 he g3
        obtain ⟨tr2, s2, h⟩ := ih (i + 1) { s' with w := w } (by omega)
          (fun w x h => by dsimp only at h; rw [g4] at h; cases h; exact hw.1) hd
        rw [h2, h]
        exact ⟨_, _, rfl⟩
  exact key _ 0 _ (by simp) (by intro w x h; cases h) ⟨_, rfl⟩

end

/-- A world that counts simulations; the smoothed trajectory of a simulation is its number. -/
def psToy : PsHooks ℕ ℕ ℕ ℕ where
  setParams := fun _ w => .ok w
  simulate := fun _ _ _ w => .ok (w + 1)
  smoothed := fun w => .ok [w]
  finalWeights := fun _ => .ok [0, 0]
  straj := fun w => .ok w
  callbackSim := none
  maximizeWeighted := fun x _ w => .ok (x.sum, w)

/-- Settings for the example. -/
noncomputable def psToyOpts (rb : Bool) : PsOpts where
  num_part := 2
  M := 1
  alpha := alphaGen
  discard_eps := 0
  discard_percentile := 0
  max_traj := 0
  raoblackwell := rb

/-- Non-vacuity: the toy run with 200 iterations completes, with 200 M-steps. -/
theorem psToy_run (rb : Bool) : ∃ tr s', psMaximize psToy (psToyOpts rb) (fun i j => i + j) none 200 0 (.dict none) 0 200 =
    (tr, some (.ok s')) ∧ (mStepInputs tr).length = 200 := by
  obtain ⟨tr, s', h⟩ := C56_completes (H := psToy) (o := psToyOpts rb) (garbage := fun i j => i + j)
    (fun _ w => ⟨w, rfl⟩) (fun _ _ _ w => ⟨w + 1, rfl⟩) (fun w => ⟨[w], rfl, by simp⟩)
    (fun _ => ⟨[0, 0], rfl, by simp⟩) (fun w => ⟨w, rfl⟩) (fun f h => by cases h)
    (fun x _ w => ⟨(x.sum, w), rfl⟩) (fun k => ⟨(C54_range k).1.le, (C54_range k).2⟩) le_rfl
    ⟨le_rfl, by simp [psToyOpts]⟩ 200 0 none 0
  exact ⟨tr, s', h, by simpa using (C56_default_count h).2⟩

/-- Non-vacuity of the hypotheses of C55: `C55_psaem_average` applies to this run of 200 M-steps. -/
example : ∃ tr s', psMaximize psToy (psToyOpts false) (fun i j => i + j) none 200 0 (.dict none) 0 200 = (tr, some (.ok s')) ∧
    (mStepInputs tr).length = 200 ∧
    (mStepInputs tr).map (fun p => wsum (fun x : ℕ => (x : ℝ)) p.2 p.1) <+:
      saAverages alphaGen 0 none ((contributions tr).map fun p => wsum (fun x : ℕ => (x : ℝ)) p.2 p.1) := by
  obtain ⟨tr, s', h, hl⟩ := psToy_run false
  refine ⟨tr, s', h, hl, ?_⟩
  have := C55_psaem_average (H := psToy) (o := psToyOpts false) (garbage := fun i j => i + j)
    (fun w x h => by cases h; simp) (fun w x h => by cases h; simp)
    (fun k => ⟨(C54_range k).1.le, (C54_range k).2⟩) rfl rfl none 200 0 (.dict none) 0 200 (fun x : ℕ => (x : ℝ))
  rw [h] at this
  exact this

/-- Non-vacuity of the hypotheses of C80. -/
example (empty : ℕ → ℝ) : (ps2Maximize .py2 psToy (psToyOpts false) none empty 200 0 (.dict none) 0).1 =
    dropCallbacks (psMaximize psToy (psToyOpts false) (fun i j => i + j) none 200 0 (.dict none) 0 200).1 :=
  (C80_psaem2_refines (H := psToy) (o := psToyOpts false) (fun w x h => ⟨w, by cases h; rfl⟩) rfl rfl rfl
    (fun k => ⟨(C54_range k).1.le, (C54_range k).2⟩) (C54_range 0).1 le_rfl (by simp [psToyOpts]) empty 199 0
    (.dict none) 0).1

/-- A SAEM world as every smoother of the library builds it: a one-dimensional array of steps. -/
def saToy : SaHooks ℕ ℕ ℕ where
  setParams := fun _ w => .ok w
  simulate := fun _ _ w => .ok (w + 1)
  traj := fun _ => .ok (.steps 5)
  callbackSim := none
  maximizeWeighted := fun x _ w => .ok (x.sum, w)
  callback := none

/-- Non-vacuity of `C55_saem_index_error`. -/
example : (saMaximize .py2 saToy alphaGen 0 (.scalar 10) (.scalar 5) 3 0).2 = .error .indexError :=
  C55_saem_index_error (w1 := 0) (w2 := 1) (w3 := 1) rfl rfl rfl rfl rfl rfl

end PyPE

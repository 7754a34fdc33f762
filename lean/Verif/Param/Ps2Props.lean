import Verif.Param.PsRuns

/-!
# SAEM (C55) and the in-place variant PSAEM2 (C80)
-/

namespace PyPE

open Spec

/-! ## SAEM -/

section
variable {W Θ X : Type} {H : SaHooks W Θ X} {alpha : ℕ → ℝ} {np nt : Sched}

/-- **C55**: SAEM never completes an iteration: the array of smoothed trajectory steps is one-dimensional,
so `alltrajs[:, ~zero_ind]` fails; no M-step is ever run. -/
theorem C55_saem_never_completes (hsteps : ∀ w a, H.traj w = .ok a → ∃ T, a = .steps T) (param0 : Θ)
    (max_iter : ℕ) (w : W) :
    ∃ e, (saMaximize .py2 H alpha param0 np nt (max_iter + 1) w).2 = .error e ∧
      mStepInputs (saMaximize .py2 H alpha param0 np nt (max_iter + 1) w).1 = [] := by
  have iter : ∃ tr e, saIter H alpha np nt 0 none param0 w = (tr, .error e) ∧ mStepInputs tr = [] := by
    unfold saIter
    rcases H.setParams param0 w with e | w1
    · exact ⟨_, e, rfl, rfl⟩
    rcases np.pick 0 with e | nump
    · exact ⟨_, e, rfl, rfl⟩
    rcases nt.pick 0 with e | numt
    · exact ⟨_, e, rfl, rfl⟩
    simp only [Traced.call]
    rcases H.simulate nump numt w1 with e | w2
    · exact ⟨_, e, rfl, rfl⟩
    dsimp only
    rcases hT : H.traj w2 with e | a
    · exact ⟨_, e, rfl, rfl⟩
    obtain ⟨T, rfl⟩ := hsteps w2 a hT
    dsimp only
    rcases optCall H.callbackSim w2 with e | w3
    · exact ⟨_, e, rfl, rfl⟩
    dsimp only
    rw [maskSelect_self]
    dsimp only [TrajArr.select, saAppend]
    refine ⟨_, _, rfl, ?_⟩
    cases H.callbackSim <;> rfl
  obtain ⟨tr, e, h1, h2⟩ := iter
  refine ⟨e, ?_, ?_⟩ <;>
    simp only [saMaximize, xrange, Traced.call, List.range_succ_eq_map, saLoop, h1, List.nil_append]
  exact h2

/-- **C55**: if setting the parameters, the simulation and the simulation callback succeed, the exception
of `C55_saem_never_completes` is `IndexError`, in the first iteration. -/
theorem C55_saem_index_error {param0 : Θ} {max_iter nump numt T : ℕ} {w w1 w2 w3 : W}
    (h1 : H.setParams param0 w = .ok w1) (h2 : np.pick 0 = .ok nump) (h3 : nt.pick 0 = .ok numt)
    (h4 : H.simulate nump numt w1 = .ok w2) (h5 : H.traj w2 = .ok (.steps T))
    (h6 : optCall H.callbackSim w2 = .ok w3) :
    (saMaximize .py2 H alpha param0 np nt (max_iter + 1) w).2 = .error .indexError := by
  simp only [saMaximize, xrange, Traced.call, List.range_succ_eq_map, saLoop, saIter, h1, h2, h3, h4, h5, h6,
    maskSelect_self, TrajArr.select, saAppend]

/-- SAEM with a model whose `post_smoothing` returns an array with one column per trajectory: every M-step
gets a probability vector without zeros. -/
theorem C55_saem_weights (hcols : ∀ w a, H.traj w = .ok a → ∃ c, c ≠ [] ∧ a = .cols c)
    (hα : ∀ k, 0 ≤ alpha k ∧ alpha k ≤ 1) (v : PyVersion) (param0 : Θ) (max_iter : ℕ) (w : W) :
    ∀ p ∈ mStepInputs (saMaximize v H alpha param0 np nt max_iter w).1,
      p.2.length = p.1.length ∧ (∀ a ∈ p.2, 0 < a) ∧ p.2.sum = 1 := by
  have iter : ∀ (i : ℕ) (acc : Option (List ℝ × List X)) (θ : Θ) (w : W),
      (∀ w x, acc = some (w, x) → WeightsOk w x) →
      (∀ p ∈ mStepInputs (saIter H alpha np nt i acc θ w).1, WeightsOk p.2 p.1) ∧
      ∀ r θ' w', (saIter H alpha np nt i acc θ w).2 = .ok (r, θ', w') → WeightsOk r.1 r.2 := by
    intro i acc θ w hacc
    unfold saIter
    have triv : ∀ {e : PyErr} {tr : List (SaCall Θ X Unit)}, mStepInputs tr = [] →
        (∀ p ∈ mStepInputs (tr, (Except.error e : PyM ((List ℝ × List X) × Θ × W))).1, WeightsOk p.2 p.1) ∧
        ∀ r θ' w', (tr, (Except.error e : PyM ((List ℝ × List X) × Θ × W))).2 = .ok (r, θ', w') → WeightsOk r.1 r.2 := by
      intro e tr h
      refine ⟨by simp [h], ?_⟩
      intro r θ' w' h
      cases h
    rcases H.setParams θ w with e | w1
    · exact triv rfl
    rcases np.pick i with e | nump
    · exact triv rfl
    rcases nt.pick i with e | numt
    · exact triv rfl
    simp only [Traced.call]
    rcases H.simulate nump numt w1 with e | w2
    · exact triv rfl
    dsimp only
    rcases hT : H.traj w2 with e | a
    · exact triv rfl
    obtain ⟨c, hc, rfl⟩ := hcols w2 a hT
    dsimp only
    rcases optCall H.callbackSim w2 with e | w3
    · exact triv rfl
    dsimp only
    have hall : saAppend acc (.cols c) = .ok (.cols (mixTrajs (acc.map Prod.snd) c)) := by
      cases acc <;> rfl
    rw [hall]
    dsimp only [TrajArr.select]
    by_cases hn : numt = c.length
    · subst hn
      have hpos : 0 < c.length := List.length_pos_of_ne_nil hc
      obtain ⟨m1, m2, m3⟩ := mix_ok (acc := acc) (α := alpha i) (v := uniformW c.length) (y := c) hacc (hα i).1 (hα i).2
        (by simp [uniformW])
        (fun a ha => by rw [uniformW] at ha; rw [(List.mem_replicate.1 ha).2]; positivity) (sum_uniformW hpos)
      set ws := mixWeights (acc.map Prod.fst) (alpha i) (uniformW c.length)
      set xs := mixTrajs (acc.map Prod.snd) c
      have hfil : ws.filter (fun x => decide (x ≠ 0)) = ws.filter (fun x => decide (0 < x)) :=
        List.filter_congr fun a ha => by
          have := m2 a ha
          simp only [decide_eq_decide]
          exact ⟨fun h => lt_of_le_of_ne this (Ne.symm h), fun h => h.ne'⟩
      have hok : WeightsOk (ws.filter (fun x => decide (x ≠ 0)))
          (((ws.zip xs).filter fun q => decide (q.1 ≠ 0)).map Prod.snd) := by
        refine ⟨?_, ?_, ?_⟩
        · rw [filter_eq_zip ws xs _ m1, List.length_map, List.length_map]
        · intro a ha
          rw [hfil] at ha
          simpa using (List.mem_filter.1 ha).2
        · rw [hfil, sum_filter_pos ws m2, m3]
      have g1 := maskSelect_self ws (fun x => decide (x ≠ 0))
      have g2 := maskSelect_other ws xs (fun x => decide (x ≠ 0)) m1
      generalize (((ws.zip xs).filter fun q => decide (q.1 ≠ 0)).map Prod.snd) = xsel at hok g2
      generalize (ws.filter (fun x => decide (x ≠ 0))) = wsel at hok g1
      rw [g1, g2]
      dsimp only
      rcases H.maximizeWeighted xsel wsel w3 with e | ⟨θ', w4⟩
      · refine triv ?_
        cases H.callbackSim <;> rfl
      dsimp only
      have hrec : mStepInputs (optRecord H.callbackSim (.callbackSim : SaCall Θ X Unit)) = [] :=
        mStepInputs_optRecord _
      have hrec2 : mStepInputs (optRecord H.callback (.callback θ' i : SaCall Θ X Unit)) = [] := by
        cases H.callback <;> rfl
      rcases hoc : optCall (H.callback.map fun f => f θ' i) w4 with e | w5 <;> simp only [hoc]
      · refine ⟨fun p hp => ?_, fun r θ' w' h => by simp at h⟩
        have : p = (xsel, wsel) := by
          simp only [mStepInputs_append, hrec] at hp
          simpa [mStepInputs] using hp
        rw [this]
        exact hok
      · refine ⟨fun p hp => ?_, fun r θ' w' h => ?_⟩
        · have : p = (xsel, wsel) := by
            simp only [mStepInputs_append, hrec, hrec2] at hp
            simpa [mStepInputs] using hp
          rw [this]
          exact hok
        · simp only [Except.ok.injEq, Prod.mk.injEq] at h
          rw [← h.1]
          exact hok
    · have hlen : (mixTrajs (acc.map Prod.snd) c).length ≠
          ((mixWeights (acc.map Prod.fst) (alpha i) (uniformW numt)).map fun x => decide (x ≠ 0)).length := by
        cases acc with
        | none => simpa [mixTrajs, mixWeights, uniformW] using Ne.symm hn
        | some q =>
          have := (hacc q.1 q.2 rfl).1
          simp [mixTrajs, mixWeights, uniformW, this]
          exact Ne.symm hn
      rw [maskSelect_self, maskSelect, if_neg hlen]
      refine triv ?_
      cases H.callbackSim <;> rfl
  have loop : ∀ (is : List ℕ) (acc : Option (List ℝ × List X)) (θ : Θ) (w : W),
      (∀ w x, acc = some (w, x) → WeightsOk w x) →
      ∀ p ∈ mStepInputs (saLoop H alpha np nt is acc θ w).1, WeightsOk p.2 p.1 := by
    intro is
    induction is with
    | nil => intro acc θ w _ p hp; simp [saLoop, mStepInputs] at hp
    | cons i is ih =>
      intro acc θ w hacc p hp
      obtain ⟨i1, i2⟩ := iter i acc θ w hacc
      rw [saLoop] at hp
      rcases hi : saIter H alpha np nt i acc θ w with ⟨tr, e | ⟨r, θ', w'⟩⟩
      · rw [hi] at hp i1
        exact i1 p hp
      · rw [hi] at hp i1 i2
        dsimp only at hp
        rw [mStepInputs_append, List.mem_append] at hp
        rcases hp with hp | hp
        · exact i1 p hp
        · exact ih (some r) θ' w' (fun w x h => by cases h; exact i2 _ θ' w' rfl) p hp
  intro p hp
  have : WeightsOk p.2 p.1 := by
    cases v with
    | py3 => simp [saMaximize, xrange, Traced.call, mStepInputs] at hp
    | py2 =>
      simp only [saMaximize, xrange, Traced.call, List.nil_append] at hp
      refine loop (List.range max_iter) none param0 w (by intro w x h; cases h) p ?_
      rcases hl : saLoop H alpha np nt (List.range max_iter) none param0 w with ⟨tr, e | ⟨θ, w'⟩⟩ <;>
        (rw [hl] at hp; exact hp)
  exact this

end

/-! ## PSAEM2 refines PSAEM -/

theorem count_le_filter (w : List ℝ) (t : ℝ) :
    (w.map fun x => decide (x ≤ t)).count true + (w.filter fun x => decide (t < x)).length = w.length := by
  induction w with
  | nil => rfl
  | cons a w ih =>
    by_cases h : a ≤ t
    · have h' : ¬ t < a := not_lt.2 h
      simp [h, h'] at ih ⊢
      omega
    · have h' : t < a := not_le.1 h
      simp [h, h'] at ih ⊢
      omega

/-- The compaction of PSAEM2 computes, in the valid prefix of its buffers, the pruning of PSAEM. -/
theorem ps2Prune_eq {X : Type} {eps q t : ℝ} {buf : List ℝ} {x : List X} {d : ℕ} (hd : d ≤ buf.length)
    (hx : x.length = d) (ht : discardThreshold (buf.take d) eps q = .ok t) :
    ∃ r1 r2, ps2Prune eps q buf x d = .ok
      (normalise ((buf.take d).filter fun a => decide (t < a)) ++ r1,
        ((((buf.take d).zip x).filter fun p => decide (t < p.1)).map Prod.snd) ++ r2,
        ((buf.take d).filter fun a => decide (t < a)).length) ∧
      buf.length = ((buf.take d).filter fun a => decide (t < a)).length + r1.length := by
  set w := buf.take d with hw
  have hwl : w.length = d := by simp [hw, hd]
  have hkeep : (w.map fun x => decide (x ≤ t)).map (!·) = w.map fun x => decide (t < x) := by
    rw [List.map_map]
    refine List.map_congr_left fun a _ => ?_
    simp only [Function.comp, ← decide_not, not_le]
  have hcount : d - (w.map fun x => decide (x ≤ t)).count true = (w.filter fun a => decide (t < a)).length := by
    have := count_le_filter w t
    omega
  have hxt : x.take d = x := List.take_of_length_le hx.le
  have hflen : (w.filter fun a => decide (t < a)).length ≤ d := by
    rw [← hwl]
    exact List.length_filter_le _ _
  have hsl : (((w.zip x).filter fun p => decide (t < p.1)).map Prod.snd).length =
      (w.filter fun a => decide (t < a)).length := by
    rw [filter_eq_zip w x _ (by omega), List.length_map, List.length_map]
  have ha1 : assignPrefix buf (w.filter fun a => decide (t < a)).length (w.filter fun a => decide (t < a)) =
      .ok ((w.filter fun a => decide (t < a)) ++ buf.drop (w.filter fun a => decide (t < a)).length) := by
    rw [assignPrefix, if_pos]
    rw [List.length_take]
    omega
  have ha2 : assignPrefix x (w.filter fun a => decide (t < a)).length
        (((w.zip x).filter fun p => decide (t < p.1)).map Prod.snd) =
      .ok ((((w.zip x).filter fun p => decide (t < p.1)).map Prod.snd) ++
        x.drop (w.filter fun a => decide (t < a)).length) := by
    rw [assignPrefix, if_pos]
    rw [List.length_take, hsl]
    omega
  refine ⟨buf.drop (w.filter fun a => decide (t < a)).length,
    x.drop (w.filter fun a => decide (t < a)).length, ?_, ?_⟩
  · simp only [ps2Prune, ← hw, ht, ok_bind, hkeep, hcount, hxt, maskSelect_self,
      maskSelect_other w x (fun a => decide (t < a)) (by omega), ha1, ha2]
    rw [List.take_left', List.drop_left'] <;> rfl
  · rw [List.length_drop]
    omega

theorem ps2Mix_take {buf : List ℝ} {d : ℕ} (hd : d < buf.length) (α : ℝ) :
    (ps2Mix buf d α).take (d + 1) = (buf.take d).map (fun x => (1 - α) * x) ++ [α] ∧
      (ps2Mix buf d α).length = buf.length := by
  have h1 : ((buf.take d).map (fun x => x * (1 - α))).length = d := by simp [hd.le]
  have h2 : ((buf.take d).map (fun x => x * (1 - α)) ++ buf.drop d).take d =
      (buf.take d).map (fun x => x * (1 - α)) := List.take_left' h1
  have h3 : ((buf.take d).map (fun x => x * (1 - α)) ++ buf.drop d).drop d = buf.drop d := List.drop_left' h1
  have h4 : ((buf.drop d).take 1).map (fun _ => α * 1) = [α] := by
    rw [List.drop_eq_getElem_cons hd, List.take_succ_cons, List.take_zero, List.map_cons, List.map_nil, mul_one]
  have h5 : ((buf.take d).map (fun x => x * (1 - α)) ++ buf.drop d).drop (d + 1) = buf.drop (d + 1) := by
    rw [← List.drop_drop, h3, List.drop_drop]
  unfold ps2Mix
  dsimp only
  rw [h2, h3, h4, h5]
  constructor
  · rw [List.take_left' (by simp [hd.le])]
    simp [mul_comm]
  · simp
    omega

section
variable {W Θ X C : Type} {H : PsHooks W Θ X C} {o : PsOpts} {garbage : ℕ → ℕ → X}

/-- The relation between the states: the valid prefixes of the buffers of PSAEM2 are the lists of PSAEM. -/
structure PsRel (s : PsState W Θ X C) (s2 : Ps2State W Θ X C) : Prop where
  θ : s2.θ = s.θ
  opts : s2.opts = s.opts
  w : s2.w = s.w
  acc : (s.acc = none ∧ s2.trajs = none ∧ s2.datalen = 0) ∨
    ∃ a, s.acc = some a ∧ WeightsOk a.1 a.2 ∧ s2.buf.take s2.datalen = a.1 ∧
      s2.datalen = a.1.length ∧ ∃ t, s2.trajs = some t ∧ t.take s2.datalen = a.2

/-- Removing the reports to the callback. -/
def dropCallbacks (tr : List (SaCall Θ X C)) : List (SaCall Θ X C) :=
  tr.filter fun c => match c with
    | .callback _ _ => false
    | _ => true

/-- The threshold for a single weight is zero. -/
theorem discardThreshold_single {a eps q : ℝ} (he : 0 ≤ eps) (h0 : 0 ≤ q) (h1 : q ≤ 100) :
    discardThreshold [a] eps q = .ok 0 := by
  have hp : npPercentile [a] q = .ok a := by
    rw [npPercentile, if_neg (by push Not; exact ⟨h0, h1⟩), if_neg (by simp)]
    simp
  simp only [discardThreshold, hp, ok_bind]
  simp [npMax, he, ok_bind, pure, Except.pure]

theorem discardThreshold_range {w : List ℝ} {eps q : ℝ} (h : ¬ (0 ≤ q ∧ q ≤ 100)) :
    discardThreshold w eps q = .error .valueError := by
  have : npPercentile w q = .error .valueError := by
    rw [npPercentile, if_pos]
    by_contra hc
    push Not at hc
    exact h hc
  simp [discardThreshold, this]

/-- Pruning a single trajectory keeps it, with weight one, whatever positive weight it had. -/
theorem psPrune_single {a eps q : ℝ} {x : X} (ha : 0 < a) (he : 0 ≤ eps) (h0 : 0 ≤ q) (h1 : q ≤ 100) :
    psPrune eps q 0 [a] [x] = .ok ([1], [x]) := by
  rw [psPrune_eq (w := [a]) (x := [x]) rfl (discardThreshold_single he h0 h1)]
  simp [ha, keepLast, normalise, ha.ne']

theorem ps2Prune_single {α eps q : ℝ} {buf : List ℝ} {x : X} (hb : buf.take 1 = [α]) (ha : 0 < α)
    (he : 0 ≤ eps) (h0 : 0 ≤ q) (h1 : q ≤ 100) :
    ∃ r1 r2, ps2Prune eps q buf [x] 1 = .ok ([1] ++ r1, [x] ++ r2, 1) ∧ buf.length = 1 + r1.length := by
  have hbl : 1 ≤ buf.length := by
    have := congrArg List.length hb
    simp at this
    omega
  obtain ⟨r1, r2, h, hl⟩ := ps2Prune_eq (x := [x]) (d := 1) hbl rfl
    (by rw [hb]; exact discardThreshold_single he h0 h1)
  refine ⟨r1, r2, ?_, ?_⟩
  · rw [h, hb]
    simp [ha, normalise, ha.ne']
  · rw [hl, hb]
    simp [ha]

theorem ps2Prune_error {eps q : ℝ} {buf : List ℝ} {x : List X} {d : ℕ} {e : PyErr}
    (h : discardThreshold (buf.take d) eps q = .error e) : ps2Prune eps q buf x d = .error e := by
  simp [ps2Prune, h]

theorem psPrune_error {eps q : ℝ} {w : List ℝ} {x : List X} {m : ℕ} {e : PyErr}
    (h : discardThreshold w eps q = .error e) : psPrune eps q m w x = .error e := by
  simp [psPrune, h]

/-- The two prunings agree on related states with one new trajectory. -/
theorem prune_rel {s : PsState W Θ X C} {s2 : Ps2State W Θ X C} (hr : PsRel s s2) (α : ℝ) (y : X)
    (hα0 : s.acc = none → 0 < α) (h01 : 0 ≤ α) (h1 : α ≤ 1) (hd : s2.datalen < s2.buf.length)
    {eps q : ℝ} (he : 0 ≤ eps) :
    (∃ e, psPrune eps q 0 (mixWeights (s.acc.map Prod.fst) α (uniformW 1)) (mixTrajs (s.acc.map Prod.snd) [y]) = .error e ∧
      ps2Prune eps q (ps2Mix s2.buf s2.datalen α) (ps2Append s2.trajs s2.datalen [y]) (s2.datalen + 1) = .error e) ∨
    ∃ a b, psPrune eps q 0 (mixWeights (s.acc.map Prod.fst) α (uniformW 1)) (mixTrajs (s.acc.map Prod.snd) [y]) = .ok a ∧
      ps2Prune eps q (ps2Mix s2.buf s2.datalen α) (ps2Append s2.trajs s2.datalen [y]) (s2.datalen + 1) = .ok b ∧
      WeightsOk a.1 a.2 ∧ b.2.2 = a.1.length ∧ b.1.take b.2.2 = a.1 ∧ b.2.1.take b.2.2 = a.2 ∧
      b.1.length = s2.buf.length ∧ b.2.2 ≤ s2.datalen + 1 := by
  obtain ⟨m1, m2⟩ := ps2Mix_take hd α
  have hu : uniformW 1 = [1] := by simp [uniformW]
  rw [hu]
  rcases hr.acc with ⟨e1, e2, e3⟩ | ⟨a, e1, e2, e3, e4, t, e5, e6⟩
  · rw [e1, e2, e3]
    rw [e3] at m1 m2
    simp only [List.take_zero, List.map_nil, List.nil_append, Nat.zero_add] at m1
    by_cases hq : 0 ≤ q ∧ q ≤ 100
    · right
      obtain ⟨r1, r2, h, hl⟩ := ps2Prune_single (x := y) m1 (hα0 e1) he hq.1 hq.2
      refine ⟨_, _, psPrune_single one_pos he hq.1 hq.2, h, ⟨rfl, by simp, by simp⟩, rfl, by simp, by simp, ?_, by simp⟩
      rw [← m2, hl]
      simp [Nat.add_comm]
    · left
      exact ⟨_, psPrune_error (discardThreshold_range hq), ps2Prune_error (discardThreshold_range hq)⟩
  · have htl : s2.datalen ≤ t.length := by
      have := congrArg List.length e6
      rw [List.length_take, ← e2.1, ← e4] at this
      omega
    have hw : (ps2Mix s2.buf s2.datalen α).take (s2.datalen + 1) = mixWeights (s.acc.map Prod.fst) α [1] := by
      rw [m1, e1, e3]
      simp [mixWeights]
    have hx : ps2Append s2.trajs s2.datalen [y] = mixTrajs (s.acc.map Prod.snd) [y] := by
      rw [e5, e1]
      simp [ps2Append, mixTrajs, e6]
    have hlen : (mixTrajs (s.acc.map Prod.snd) [y]).length = s2.datalen + 1 := by
      rw [e1, e4, e2.1]
      simp [mixTrajs]
    obtain ⟨k1, k2, k3⟩ := mix_ok (acc := s.acc) (α := α) (v := [1]) (y := [y])
      (fun w x h => by rw [e1] at h; cases h; exact e2) h01 h1 rfl (by simp) (by simp)
    rcases ht : discardThreshold (mixWeights (s.acc.map Prod.fst) α [1]) eps q with e | t
    · left
      refine ⟨e, psPrune_error ht, ps2Prune_error ?_⟩
      rw [hw]
      exact ht
    · right
      obtain ⟨r1, r2, h, hl⟩ := ps2Prune_eq (eps := eps) (q := q) (t := t) (buf := ps2Mix s2.buf s2.datalen α)
        (x := mixTrajs (s.acc.map Prod.snd) [y]) (d := s2.datalen + 1) (by rw [m2]; omega) hlen (by rw [hw]; exact ht)
      rw [hx]
      have hp := psPrune_eq (mt := 0) k1 ht
      refine ⟨_, _, hp, h, (C55_prune_weights k1 k2 k3 he hp).1, ?_, ?_, ?_, ?_, ?_⟩
      · simp only [hw, keepLast, lt_irrefl, false_and, if_false]
        simp [normalise]
      · simp only [hw, keepLast, lt_irrefl, false_and, if_false]
        exact List.take_left' (by simp [normalise])
      · simp only [hw, keepLast, lt_irrefl, false_and, if_false]
        refine List.take_left' ?_
        rw [filter_eq_zip _ _ (fun a => decide (t < a)) k1, List.length_map, List.length_map]
      · rw [← m2, hl]
        simp [normalise]
      · simp only [hw]
        refine (List.length_filter_le _ _).trans ?_
        rw [k1, hlen]

/-- One iteration of PSAEM2 and of PSAEM on related states: the same calls, and the same exception or
related states. -/
theorem iter_rel (hone : ∀ w x, H.smoothed w = .ok x → ∃ y, x = [y]) (hM : o.M = 1) (hmt : o.max_traj = 0)
    (hrb : o.raoblackwell = false) (hα : ∀ k, 0 ≤ o.alpha k ∧ o.alpha k ≤ 1) (he : 0 ≤ o.discard_eps)
    {i : ℕ} {s : PsState W Θ X C} {s2 : Ps2State W Θ X C} (hr : PsRel s s2)
    (hα0 : s.acc = none → 0 < o.alpha i) (hd : s2.datalen < s2.buf.length) :
    (ps2Iter H o none i s2).1 = (psIter H o garbage (i + 1) s).1 ∧
    ((∃ e, (ps2Iter H o none i s2).2 = .error e ∧ (psIter H o garbage (i + 1) s).2 = .error e) ∨
      ∃ s' s2', (ps2Iter H o none i s2).2 = .ok s2' ∧ (psIter H o garbage (i + 1) s).2 = .ok s' ∧ PsRel s' s2' ∧
        s'.acc ≠ none ∧ s2'.buf.length = s2.buf.length ∧ s2'.datalen ≤ s2.datalen + 1) := by
  unfold ps2Iter psIter
  rw [hr.θ, hr.w, hr.opts, hM, hmt, hrb, Nat.add_sub_cancel]
  rcases H.setParams s.θ s.w with e | w1
  · exact ⟨rfl, Or.inl ⟨e, rfl, rfl⟩⟩
  simp only [Traced.call]
  rcases H.simulate o.num_part 1 s.opts w1 with e | w2
  · exact ⟨rfl, Or.inl ⟨e, rfl, rfl⟩⟩
  simp only [psNew, Bool.false_eq_true, if_false]
  rcases hs : H.smoothed w2 with e | x
  · exact ⟨rfl, Or.inl ⟨e, rfl, rfl⟩⟩
  obtain ⟨y, rfl⟩ := hone w2 x hs
  have hu : uniformW [y].length = [1] := by simp [uniformW]
  have hu1 : uniformW 1 = [1] := by simp [uniformW]
  simp only [ok_bind, pure_eq_ok, pure, Except.pure, hu]
  rcases H.straj w2 with e | c
  · exact ⟨rfl, Or.inl ⟨e, rfl, rfl⟩⟩
  dsimp only
  rcases s.opts.setCond c with e | opts
  · exact ⟨rfl, Or.inl ⟨e, rfl, rfl⟩⟩
  dsimp only
  rcases optCall H.callbackSim w2 with e | w3
  · exact ⟨rfl, Or.inl ⟨e, rfl, rfl⟩⟩
  dsimp only
  rcases prune_rel hr (o.alpha i) y hα0 (hα i).1 (hα i).2 hd (q := o.discard_percentile) he with
    ⟨e, h1, h2⟩ | ⟨a, ⟨b1, b2, b3⟩, h1, h2, h3, h4, h5, h6, h7, h8⟩
  · rw [hu1] at h1
    rw [h1, h2]
    exact ⟨rfl, Or.inl ⟨e, rfl, rfl⟩⟩
  · rw [hu1] at h1
    rw [h1, h2]
    dsimp only at h4 h5 h6 h7 h8 ⊢
    rw [h5, h6]
    rcases H.maximizeWeighted a.2 a.1 w3 with e | ⟨θ', w4⟩
    · exact ⟨rfl, Or.inl ⟨e, rfl, rfl⟩⟩
    refine ⟨rfl, Or.inr ⟨_, _, rfl, rfl, ⟨rfl, rfl, rfl, Or.inr ⟨a, rfl, h3, h5, h4, _, rfl, h6⟩⟩, by simp, h7, h8⟩⟩

/-- **C80**: PSAEM2 (in-place buffers, `numpy.empty` storage) is PSAEM with one trajectory per iteration
and no limit on their number: started with the same arguments (`max_iter ≥ 1`, at least one particle, a
positive first step size) it performs the same calls, gives the M-steps the same trajectories and weights
and returns the same estimate or exception; the uninitialised content of its buffer has no influence. -/
theorem C80_psaem2_refines (hone : ∀ w x, H.smoothed w = .ok x → ∃ y, x = [y]) (hM : o.M = 1)
    (hmt : o.max_traj = 0) (hrb : o.raoblackwell = false) (hα : ∀ k, 0 ≤ o.alpha k ∧ o.alpha k ≤ 1)
    (hα0 : 0 < o.alpha 0) (he : 0 ≤ o.discard_eps) (hnp : 0 < o.num_part) (empty : ℕ → ℝ) (n : ℕ)
    (param0 : Θ) (opts : FilterOpts C) (w : W) :
    (ps2Maximize .py2 H o none empty (n + 1) param0 opts w).1 =
        dropCallbacks (psMaximize H o garbage none (n + 1) param0 opts w (n + 1)).1 ∧
      some ((ps2Maximize .py2 H o none empty (n + 1) param0 opts w).2.map Ps2State.θ) =
        (psMaximize H o garbage none (n + 1) param0 opts w (n + 1)).2.map fun r => r.map PsState.θ := by
  have hdrop : ∀ {i s}, dropCallbacks (psIter H o garbage i s).1 = (psIter H o garbage i s).1 := by
    intro i s
    rw [dropCallbacks, List.filter_eq_self]
    rcases h : psIter H o garbage i s with ⟨tr, e | s'⟩
    · have := (psIter_err h).2.1
      intro c hc
      cases c with
      | callback θ k =>
        have : k ∈ reported tr := List.mem_filterMap.2 ⟨_, hc, rfl⟩
        rw [(psIter_err h).2.1] at this
        simp at this
      | _ => rfl
    · intro c hc
      cases c with
      | callback θ k =>
        have hk : k ∈ reported tr := List.mem_filterMap.2 ⟨_, hc, rfl⟩
        obtain ⟨_, _, _, _, _, _, _, _, _, _, h7, _⟩ := psIter_lists h
        rw [h7] at hk
        simp at hk
      | _ => rfl
  have key : ∀ (m i : ℕ) (s : PsState W Θ X C) (s2 : Ps2State W Θ X C), i + m = n → PsRel s s2 →
      (s.acc = none → i = 0) → s2.datalen + m < s2.buf.length →
      (ps2Loop H o none (List.range' i (m + 1)) s2).1 =
        dropCallbacks (psLoop H o garbage (defaultCallback (n + 1)) (m + 1) i s).1 ∧
      some ((ps2Loop H o none (List.range' i (m + 1)) s2).2.map Ps2State.θ) =
        (psLoop H o garbage (defaultCallback (n + 1)) (m + 1) i s).2.map fun r => r.map PsState.θ := by
    intro m
    induction m with
    | zero =>
      intro i s s2 hi hr h0 hd
      obtain ⟨k1, k2⟩ := iter_rel (garbage := garbage) (i := i) hone hM hmt hrb hα he hr
        (fun h => by rw [h0 h]; exact hα0) (by omega)
      rcases h2 : ps2Iter H o none i s2 with ⟨tr2, r2⟩
      rcases h1 : psIter H o garbage (i + 1) s with ⟨tr, r⟩
      have hdr := hdrop (i := i + 1) (s := s)
      rw [h1] at hdr
      rw [h1, h2] at k1 k2
      dsimp only at k1 k2 hdr
      rcases k2 with ⟨e, rfl, rfl⟩ | ⟨s', s2', rfl, rfl, hr', hacc, hb1, hb2⟩
      · simp only [Nat.zero_add, List.range'_one, ps2Loop, h2, psLoop, h1, k1, hdr]
        exact ⟨trivial, rfl⟩
      · have hstop : decide (n + 1 ≤ i + 1) = true := by simp; omega
        simp only [Nat.zero_add, List.range'_one, ps2Loop, h2, psLoop, h1, defaultCallback, hstop, List.append_nil, k1]
        refine ⟨?_, ?_⟩
        · rw [dropCallbacks, List.filter_append, ← dropCallbacks, hdr]
          simp
        · simp [Except.map, hr'.θ]
    | succ m ih =>
      intro i s s2 hi hr h0 hd
      obtain ⟨k1, k2⟩ := iter_rel (garbage := garbage) (i := i) hone hM hmt hrb hα he hr
        (fun h => by rw [h0 h]; exact hα0) (by omega)
      rcases h2 : ps2Iter H o none i s2 with ⟨tr2, r2⟩
      rcases h1 : psIter H o garbage (i + 1) s with ⟨tr, r⟩
      have hdr := hdrop (i := i + 1) (s := s)
      rw [h1] at hdr
      rw [h1, h2] at k1 k2
      dsimp only at k1 k2 hdr
      rw [List.range'_succ]
      rcases k2 with ⟨e, rfl, rfl⟩ | ⟨s', s2', rfl, rfl, hr', hacc, hb1, hb2⟩
      · rw [ps2Loop, psLoop]
        simp only [h2, h1, k1, hdr]
        exact ⟨trivial, rfl⟩
      · have hgo : decide (n + 1 ≤ i + 1) = false := by simp; omega
        obtain ⟨j1, j2⟩ := ih (i + 1) s' s2' (by omega) hr' (fun h => absurd h hacc) (by omega)
        rw [ps2Loop, psLoop]
        simp only [h2, h1, defaultCallback, hgo, k1]
        refine ⟨?_, j2⟩
        rw [j1]
        conv_rhs => rw [dropCallbacks, List.filter_append, List.filter_append, ← dropCallbacks, hdr]
        simp
        rfl
  simp only [ps2Maximize, xrange, Traced.call, List.nil_append, psMaximize, Option.getD_none]
  rw [List.range_eq_range']
  refine key n 0 _ _ (by omega) ⟨rfl, rfl, rfl, Or.inl ⟨rfl, rfl, rfl⟩⟩ (fun _ => rfl) ?_
  simp only [List.length_map, List.length_range]
  nlinarith

/-- **C80**: under Python 3 PSAEM2 raises `NameError` before doing anything. -/
theorem C80_python3 (callback : Option (Θ → ℕ → W → PyM W)) (empty : ℕ → ℝ) (n : ℕ) (param0 : Θ)
    (opts : FilterOpts C) (w : W) :
    ps2Maximize .py3 H o callback empty n param0 opts w = ([], .error .nameError) := rfl

end

end PyPE

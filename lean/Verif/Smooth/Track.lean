import Verif.Smooth.Traj

/-!
# Following a backward pass step by step

An induction principle for the backward simulators and the method 'ancestor', for models whose `sample_smooth` may fail on foreign arrays.
-/

namespace PyPE
open Real Spec

variable {P U Y V Ω : Type} {S : SmoothCallbacks P U Y V Ω} {pt : List (Step P)} {D : SData U Y} {N M : ℕ} {J : ℕ → List (SStep P) → Prop}

/-- What `sample_smooth` must do at time `n`: accept `M` particles of that time, with the smoothed steps of the later times, and keep the invariant. -/
def SmoothKeeps (S : SmoothCallbacks P U Y V Ω) (pt : List (Step P)) (D : SData U Y) (M : ℕ) (J : ℕ → List (SStep P) → Prop) : Prop :=
  (∀ n st part ptraj anc fut ω, pt[n]? = some st → part.length = M → (∀ x ∈ part, x ∈ st.pa.part) → J (n + 1) fut → n + 1 < pt.length →
    ∃ out, S.sampleSmooth part ptraj anc (some fut) (some (List.range M)) D n ω = .ok out ∧ out.length = M ∧
      ∀ pa, PA.new out none = .ok pa → J n (⟨pa, some (List.range M)⟩ :: fut)) ∧
  ∀ n st part ptraj anc ω, pt[n]? = some st → part.length = M → (∀ x ∈ part, x ∈ st.pa.part) → n + 1 = pt.length →
    ∃ out, S.sampleSmooth part ptraj anc none none D n ω = .ok out ∧ out.length = M ∧
      ∀ pa, PA.new out none = .ok pa → J n [⟨pa, some (List.range M)⟩]

/-- The model has a transition density for the steps that occur. -/
def DensityKept (S : SmoothCallbacks P U Y V Ω) (pt : List (Step P)) (D : SData U Y) (M : ℕ) (J : ℕ → List (SStep P) → Prop) : Prop :=
  ∀ cur st fut, pt[cur]? = some st → J (cur + 1) fut → cur + 1 < pt.length →
    ∃ L, BackwardDensity S st.pa ((pt.take cur).map Step.toS) st.ancestors fut D cur M L

theorem step_pick_ok {st : Step P} (hs : GoodStep N st) {ind : List ℕ} (hl : ind.length = M) (hlt : ∀ i ∈ ind, i < N) :
    ∃ anc part, fancy st.ancestors ind = .ok anc ∧ fancy st.pa.part ind = .ok part ∧ anc.length = M ∧ (∀ i ∈ anc, i < N) ∧ part.length = M ∧
      ∀ x ∈ part, x ∈ st.pa.part := by
  obtain ⟨anc, ha⟩ := fancy_ok (a := st.ancestors) (ind := ind) (by rw [hs.anc_len]; exact hlt)
  obtain ⟨part, hp⟩ := fancy_ok (a := st.pa.part) (ind := ind) (by rw [hs.pa.part_len]; exact hlt)
  exact ⟨anc, part, ha, hp, (fancy_spec.mp ha).1.trans hl, fun i hi => hs.anc_lt i (fancy_mem ha i hi), (fancy_spec.mp hp).1.trans hl, fancy_mem hp⟩

theorem bsiLoop_track (hpt : GoodRun N pt) (hden : DensityKept S pt D M J) (hM : 0 < M) (hk : SmoothKeeps S pt D M J)
    {m : BsiMethod} {draws : ℕ → BsiDraws Ω} (hd : ∀ t, GoodDraws (draws t)) {B : ℕ}
    (hB : ∀ (S : SmoothCallbacks P U Y V Ω) (st : Step P) (ptraj fut : List (SStep P)) (D : SData U Y) (cur : ℕ)
      (L : ℕ → ℕ → ℝ) (anc : List ℕ) (d : BsiDraws Ω), GoodStep N st →
      BackwardDensity S st.pa ptraj st.ancestors fut D cur M L → cur + 1 < pt.length → GoodDraws d →
      anc.length = M → (∀ i ∈ anc, i < N) →
      ∃ ind, (∀ fuel, B ≤ fuel →
        bsiPick S m st ptraj fut (List.range M) D cur anc d fuel = .ok (some ind)) ∧
        ind.length = M ∧ ∀ i ∈ ind, i < N)
    (n : ℕ) (hn : n < pt.length) {anc : List ℕ} (ha : anc.length = M) (hlt : ∀ i ∈ anc, i < N) {fut : List (SStep P)} (hf : J n fut) :
    ∃ traj, (∀ fuel, B ≤ fuel → bsiLoop S m pt M D draws fuel n anc fut = .ok (some traj)) ∧ J 0 traj := by
  induction n generalizing anc fut with
  | zero => exact ⟨fut, fun _ _ => rfl, hf⟩
  | succ n ih =>
    have hn' : n < pt.length := by omega
    have hs := hpt.steps pt[n] (List.getElem_mem _)
    obtain ⟨L, hL⟩ := hden n pt[n] fut (List.getElem?_eq_getElem hn') hf hn
    obtain ⟨ind, h1, h2, h3⟩ := hB S pt[n] ((pt.take n).map Step.toS) fut D n L anc (draws n) hs hL hn (hd n) ha hlt
    obtain ⟨anc', part, e1, e2, e3, e4, e5, e6⟩ := step_pick_ok hs h2 h3
    obtain ⟨tmp, t1, t2, t3⟩ := hk.1 n pt[n] part (some ((pt.take n).map Step.toS)) anc' fut (draws n).ω (List.getElem?_eq_getElem hn') e5 e6 hf hn
    obtain ⟨pa, p1, -⟩ := PA.new_none_wf t2 hM
    obtain ⟨traj, h4, h5⟩ := ih hn' e3 e4 (t3 pa p1)
    refine ⟨traj, fun fuel hfuel => ?_, h5⟩
    simp only [bsiLoop, getIdx_of_lt hn', ok_bind, h1 fuel hfuel, e1, e2, t1, p1]
    exact h4 fuel hfuel

/-- Backward simulation keeps what `sample_smooth` keeps. -/
theorem bsi_track (hpt : GoodRun N pt) (hden : DensityKept S pt D M J) (hM : 0 < M) (hk : SmoothKeeps S pt D M J)
    {m : BsiMethod} (hm : UsableMethod pt.length m) {d : SmoothDraws Ω} (hd : GoodSmoothDraws d) :
    ∃ traj B, (∀ fuel, B ≤ fuel → performBsi S (.ok m) pt M D d fuel = .ok (some traj)) ∧ J 0 traj := by
  obtain ⟨T, st, hT, hst, hlast, hs⟩ := lastStep hpt
  obtain ⟨ind, h1, -, h2, h3⟩ := drawEnd_ok hs hpt.pos M hd.r0
  obtain ⟨anc, part, e1, e2, e3, e4, e5, e6⟩ := step_pick_ok hs h2 h3
  obtain ⟨tmp, t1, t2, t3⟩ := hk.2 T st part (some ((pt.take T).map Step.toS)) anc d.ω0 hst e5 e6 hT.symm
  obtain ⟨pa, p1, -⟩ := PA.new_none_wf t2 hM
  obtain ⟨B, hB⟩ := bsiPick_ok (P := P) (U := U) (Y := Y) (V := V) (Ω := Ω) hm hpt.pos M
  obtain ⟨traj, h4, h5⟩ := bsiLoop_track hpt hden hM hk hd.step hB T (by omega) e3 e4 (t3 pa p1)
  refine ⟨traj, B, fun fuel hf => ?_, h5⟩
  simp only [performBsi, hlast, ok_bind, h1, e1, e2, hT, Nat.add_sub_cancel, t1, p1]
  exact h4 fuel hf

theorem ancLoop_track (hpt : GoodRun N pt) (hM : 0 < M) (hk : SmoothKeeps S pt D M J) (ω : ℕ → Ω)
    (n : ℕ) (hn : n < pt.length) {ind : List ℕ} (ha : ind.length = M) (hlt : ∀ i ∈ ind, i < N) {fut : List (SStep P)} (hf : J n fut) :
    ∃ traj, ancLoop S pt M D ω n ind fut = .ok traj ∧ J 0 traj := by
  induction n generalizing ind fut with
  | zero => exact ⟨fut, rfl, hf⟩
  | succ n ih =>
    have hn' : n < pt.length := by omega
    have hs := hpt.steps pt[n] (List.getElem_mem _)
    obtain ⟨anc', part, e1, e2, e3, e4, e5, e6⟩ := step_pick_ok hs ha hlt
    obtain ⟨tmp, t1, t2, t3⟩ := hk.1 n pt[n] part (some ((pt.take n).map Step.toS)) anc' fut (ω n) (List.getElem?_eq_getElem hn') e5 e6 hf hn
    obtain ⟨pa, p1, -⟩ := PA.new_none_wf t2 hM
    obtain ⟨traj, h4, h5⟩ := ih hn' e3 e4 (t3 pa p1)
    exact ⟨traj, by simp only [ancLoop, getIdx_of_lt hn', ok_bind, e1, e2, t1, p1]; exact h4, h5⟩

/-- So does the method 'ancestor'. -/
theorem ancestors_track (hpt : GoodRun N pt) (hM : 0 < M) (hk : SmoothKeeps S pt D M J) {d : SmoothDraws Ω} (hr : Unit01 d.r0) :
    ∃ traj, performAncestorsInt S pt M D d = .ok traj ∧ J 0 traj := by
  obtain ⟨T, last, hT, hst, hlast, hs⟩ := lastStep hpt
  obtain ⟨ind, h1, -, h2, h3⟩ := drawEnd_ok hs hpt.pos M hr
  obtain ⟨anc, part, e1, e2, e3, e4, e5, e6⟩ := step_pick_ok hs h2 h3
  obtain ⟨tmp, t1, t2, t3⟩ := hk.2 T last part (some ((pt.take T).map Step.toS)) anc d.ω0 hst e5 e6 hT.symm
  obtain ⟨pa, p1, -⟩ := PA.new_none_wf t2 hM
  obtain ⟨traj, h4, h5⟩ := ancLoop_track hpt hM hk (fun t => (d.step t).ω) T (by omega) e3 e4 (t3 pa p1)
  refine ⟨traj, ?_, h5⟩
  simp only [performAncestorsInt, calculateAncestors, hlast, ok_bind, h1, e1, e2, hT, Nat.add_sub_cancel, t1, p1, h2]
  exact h4

end PyPE

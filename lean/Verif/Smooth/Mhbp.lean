import Verif.Smooth.Mh

/-!
# C34: runs of the Metropolis-Hastings smoothers ('mhbp', 'mhips', 'mhips_reduced')
-/

namespace PyPE
open Real Spec

variable {P U Y V Ω : Type}

/-- A model whose callbacks accept every call and return arrays of the documented length. -/
structure Spec.TotalMh (S : SmoothCallbacks P U Y V Ω) (D : SData U Y) : Prop where
  sample : SamplesAll S D
  condPredict : ∀ old pt pi x find cur, ∃ out, S.condPredict old pt pi x find D cur = .ok out ∧ out.length = x.length
  condInitial : ∀ x t, ∃ out, S.condInitial x t = .ok out ∧ out.length = x.length
  propose : ∀ ptraj anc fut find cur ω, ∃ out, S.proposeSmooth ptraj anc fut find D cur ω = .ok out ∧
    out.length = find.length
  proposal : ∀ x ptraj anc fut find cur, ∃ l, S.logpProposal x ptraj anc fut find D cur = .ok l ∧ l.length = x.length
  single : ∀ old pt pi x find cur, ∃ l, S.logpXnextSingle old pt pi x find D cur = .ok l ∧ l.length = x.length
  x0 : ∀ x t, ∃ l, S.evalLogpX0 x t = .ok l ∧ l.length = x.length
  measure : ∀ x ptraj n pind, ∃ x' l, S.measure x ptraj ⟨D.u.take n, D.y.take n, D.t.take n⟩ pind = .ok (x', l) ∧ x'.length = x.length ∧
    l.length = x.length
  next : ∀ x ptraj pind f find cur, ∃ l, S.logpXnextFull x ptraj pind f find D cur = .ok l ∧ l.length = x.length
  noise : ∀ ptraj anc u t ω, ∃ v, S.sampleNoise ptraj anc u t ω = .ok v
  update : ∀ x ptraj n anc v, ∃ out, S.update x ptraj ⟨D.u.take n, D.y.take n, D.t.take n⟩ anc v = .ok out ∧ out.length = x.length
  initial : ∀ n ω, ∃ out, S.createInitial n ω = .ok out ∧ out.length = n

variable {S : SmoothCallbacks P U Y V Ω} {D : SData U Y} {M N : ℕ}

theorem mcAccept_total (hS : TotalMh S D) {cur : ℕ} (hcur : cur < D.y.length) {xprop part : List P} (h1 : xprop.length = M)
    (h2 : part.length = M) {ptraj fut : Option (List (SStep P))} {pp pc : Option (List ℕ)} (find : List ℕ)
    {pP pC qP qC : Term} (u : ℕ → ℝ) (hpP : tlen M pP) (hpC : tlen M pC) (hqP : tlen M qP) (hqC : tlen M qC)
    (hs : pP ≠ none ∨ qP ≠ none ∨ D.y[cur]? ≠ some .none ∨ fut ≠ none) :
    ∃ out acc, mcAccept S xprop part ptraj pp pc fut find D cur pP pC qP qC u = .ok (out, acc) ∧ out.length = M ∧
      acc.length = M := by
  have hy : D.y[cur]? = some D.y[cur] := List.getElem?_eq_getElem hcur
  obtain ⟨xp, lp, a1, a2, a3⟩ := hS.measure xprop ptraj (cur + 1) pp
  obtain ⟨cp, lc, b1, b2, b3⟩ := hS.measure part ptraj (cur + 1) pc
  have tl : ∀ {l : List ℝ}, l.length = M → tlen M (some l) := by
    intro l h l' e; cases e; exact h
  have tn : tlen M none := by intro l e; cases e
  by_cases hyn : D.y[cur] = .none
  · cases fut with
    | none =>
      obtain ⟨out, acc, e1, e2, e3, -⟩ := mcAccept_spec (S := S) (ptraj := ptraj) (pp := pp) (pc := pc) (fut := none)
        (find := find) u hpP hpC hqP hqC h1 h2 hy tn tn tn tn (fun _ => ⟨rfl, rfl, rfl, rfl⟩) (fun h => absurd hyn h)
        (fun _ => ⟨rfl, rfl⟩) (fun f hf => by cases hf) (by
          rcases hs with h | h | h | h
          · exact Or.inl h
          · exact Or.inr (Or.inr (Or.inr h))
          · exact absurd (hy.trans (by rw [hyn])) h
          · exact absurd rfl h)
      exact ⟨out, acc, e1, e3, e2⟩
    | some f =>
      obtain ⟨l1, c1, c2⟩ := hS.next xprop ptraj pp f find cur
      obtain ⟨l2, d1, d2⟩ := hS.next part ptraj pc f find cur
      obtain ⟨out, acc, e1, e2, e3, -⟩ := mcAccept_spec (S := S) (ptraj := ptraj) (pp := pp) (pc := pc) (fut := some f)
        (find := find) u hpP hpC hqP hqC h1 h2 hy tn tn (tl (c2.trans h1)) (tl (d2.trans h2))
        (fun _ => ⟨rfl, rfl, rfl, rfl⟩) (fun h => absurd hyn h) (fun h => by cases h)
        (fun g hg => by cases hg; exact ⟨_, _, c1, d1, rfl, rfl⟩) (by right; right; left; simp)
      exact ⟨out, acc, e1, e3, e2⟩
  · cases fut with
    | none =>
      obtain ⟨out, acc, e1, e2, e3, -⟩ := mcAccept_spec (S := S) (ptraj := ptraj) (pp := pp) (pc := pc) (fut := none)
        (find := find) u hpP hpC hqP hqC (a2.trans h1) (b2.trans h2) hy (tl (a3.trans h1)) (tl (b3.trans h2)) tn tn
        (fun h => absurd h hyn) (fun _ => ⟨_, _, a1, b1, rfl, rfl⟩)
        (fun _ => ⟨rfl, rfl⟩) (fun f hf => by cases hf) (by right; left; simp)
      exact ⟨out, acc, e1, e3, e2⟩
    | some f =>
      obtain ⟨l1, c1, c2⟩ := hS.next xp ptraj pp f find cur
      obtain ⟨l2, d1, d2⟩ := hS.next cp ptraj pc f find cur
      obtain ⟨out, acc, e1, e2, e3, -⟩ := mcAccept_spec (S := S) (ptraj := ptraj) (pp := pp) (pc := pc) (fut := some f)
        (find := find) u hpP hpC hqP hqC (a2.trans h1) (b2.trans h2) hy (tl (a3.trans h1)) (tl (b3.trans h2))
        (tl (c2.trans (a2.trans h1))) (tl (d2.trans (b2.trans h2)))
        (fun h => absurd h hyn) (fun _ => ⟨_, _, a1, b1, rfl, rfl⟩) (fun h => by cases h)
        (fun g hg => by cases hg; exact ⟨_, _, c1, d1, rfl, rfl⟩) (by right; right; left; simp)
      exact ⟨out, acc, e1, e3, e2⟩

theorem mcCurrent_total (hS : TotalMh S D) {cur : ℕ} (ht : cur < D.t.length) {part : List P} (h2 : part.length = M)
    {ptraj : Option (List (SStep P))} {pc : Option (List ℕ)} (hpc : ValidAnc M ptraj pc) :
    ∃ out, mcCurrent S part ptraj pc D cur = .ok out ∧ out.length = M := by
  cases hpt : ptraj with
  | none =>
    obtain ⟨out, e1, e2⟩ := hS.condInitial part D.t[cur]
    exact ⟨out, by simp only [mcCurrent, getIdx_of_lt ht, ok_bind, e1], e2.trans h2⟩
  | some pt =>
    obtain ⟨a, prev, ancs, rfl, g1, g2, g3⟩ := hpc.2 pt hpt
    obtain ⟨old, ho⟩ := fancy_ok (a := prev.pa.part) (ind := a) (fun i hi => (g3 i hi).1)
    obtain ⟨pi, hpi⟩ := fancy_ok (a := ancs) (ind := a) (fun i hi => (g3 i hi).2)
    obtain ⟨out, e1, e2⟩ := hS.condPredict old pt.dropLast pi part (List.range a.length) (cur - 1)
    exact ⟨out, by simp only [mcCurrent, getLast_ok.mpr g1, ok_bind, ho, g2, hpi, e1], e2.trans h2⟩

theorem mcPrev_total (hS : TotalMh S D) {cur : ℕ} (ht : cur < D.t.length) {part : List P} (h2 : part.length = M)
    {ptraj : Option (List (SStep P))} {pc : Option (List ℕ)} (hpc : ValidAnc M ptraj pc) :
    ∃ out, mcPrev S part ptraj pc D cur = .ok out ∧ out.length = M := by
  cases hpt : ptraj with
  | none =>
    have h0 : 0 < D.t.length := by omega
    obtain ⟨out, e1, e2⟩ := hS.x0 part D.t[0]
    exact ⟨out, by simp only [mcPrev, getIdx_of_lt h0, ok_bind, e1], e2.trans h2⟩
  | some pt =>
    obtain ⟨a, prev, ancs, rfl, g1, g2, g3⟩ := hpc.2 pt hpt
    obtain ⟨old, ho⟩ := fancy_ok (a := prev.pa.part) (ind := a) (fun i hi => (g3 i hi).1)
    obtain ⟨pi, hpi⟩ := fancy_ok (a := ancs) (ind := a) (fun i hi => (g3 i hi).2)
    obtain ⟨out, e1, e2⟩ := hS.single old pt.dropLast pi part (List.range part.length) (cur - 1)
    exact ⟨out, by simp only [mcPrev, getLast_ok.mpr g1, ok_bind, ho, g2, hpi, e1], e2.trans h2⟩

/-- A step of either kind succeeds; the reduced one needs a measurement or a future. -/
theorem mcStep_total (hS : TotalMh S D) {cur : ℕ} (hy : cur < D.y.length) (ht : cur < D.t.length) {part : List P}
    (h2 : part.length = M) {ptraj fut : Option (List (SStep P))} {pp pc : Option (List ℕ)} {find : List ℕ}
    (hf : find.length = M) (hpp : ValidAnc M ptraj pp) (hpc : ValidAnc M ptraj pc) (reduced : Bool)
    (hred : reduced = true → (D.y[cur]? ≠ some .none ∨ fut ≠ none) ∧
      (ptraj = none → ∃ f0 fs, fut = some (f0 :: fs) ∧ f0.pa.part.length = M)) (d : McDraws Ω) :
    ∃ out acc, mcStep S part ptraj pp pc fut find D cur reduced d = .ok (out, acc) ∧ out.length = M ∧ acc.length = M := by
  have tl : ∀ {l : List ℝ}, l.length = M → tlen M (some l) := by
    intro l h l' e; cases e; exact h
  have tn : tlen M none := by intro l e; cases e
  obtain ⟨part', c1, c2⟩ := mcCurrent_total hS ht h2 hpc
  cases reduced with
  | true =>
    obtain ⟨hinfo, hstart⟩ := hred rfl
    have hx : ∃ xprop, mcProposeReduced S ptraj pp fut D cur d.ω = .ok xprop ∧ xprop.length = M := by
      cases hpt : ptraj with
      | none =>
        obtain ⟨f0, fs, rfl, hl⟩ := hstart hpt
        obtain ⟨out, e1, e2⟩ := hS.initial f0.pa.part.length d.ω
        exact ⟨out, by simp only [mcProposeReduced, getIdx, List.getElem?_cons_zero, ok_bind, e1], e2.trans hl⟩
      | some pt =>
        obtain ⟨a, prev, ancs, rfl, g1, g2, g3⟩ := hpp.2 pt hpt
        obtain ⟨old, ho⟩ := fancy_ok (a := prev.pa.part) (ind := a) (fun i hi => (g3 i hi).1)
        obtain ⟨v, hv⟩ := hS.noise pt a (D.u.take cur) (D.t.take cur) d.ω
        obtain ⟨out, e1, e2⟩ := hS.update old pt cur a v
        refine ⟨out, by simp only [mcProposeReduced, hv, ok_bind, getLast_ok.mpr g1, ho, SData.take, e1], ?_⟩
        have hal : a.length = M := hpp.1
        rw [e2, (fancy_spec.mp ho).1, hal]
    obtain ⟨xprop, e1, e2⟩ := hx
    obtain ⟨out, acc, g1, g2, g3⟩ := mcAccept_total hS hy e2 c2 (ptraj := ptraj) (fut := fut) (pp := pp) (pc := pc) find
      (pP := none) (pC := none) (qP := none) (qC := none) d.u tn tn tn tn (Or.inr (Or.inr hinfo))
    exact ⟨out, acc, by simp only [mcStep, c1, ok_bind, if_true, e1]; exact g1, g2, g3⟩
  | false =>
    obtain ⟨xprop, e1, e2⟩ := hS.propose ptraj pp fut find cur d.ω
    have e2 := e2.trans hf
    obtain ⟨q1, e3, e4⟩ := hS.proposal xprop ptraj pp fut find cur
    obtain ⟨q2, e5, e6⟩ := hS.proposal part' ptraj pc fut find cur
    obtain ⟨p1, e7, e8⟩ := mcPrev_total hS ht e2 hpp
    obtain ⟨p2, e9, e10⟩ := mcPrev_total hS ht c2 hpc
    obtain ⟨out, acc, g1, g2, g3⟩ := mcAccept_total hS hy e2 c2 (ptraj := ptraj) (fut := fut) (pp := pp) (pc := pc) find
      d.u (tl e8) (tl e10) (tl (e4.trans e2)) (tl (e6.trans c2)) (Or.inl (by simp))
    exact ⟨out, acc, by
      simp only [mcStep, c1, ok_bind, Bool.false_eq_true, if_false, e1, e3, e5, e7, e9]; exact g1, g2, g3⟩

/-! ### `mhbp` -/

/-- C34 (defect): for a run of a single step 'mhbp' never works: `UnboundLocalError`, for every model, number of
iterations and draw. -/
theorem C34_mhbp_single_step (st : Step P) (hs : GoodStep N st) (hN : 0 < N) (M R : ℕ)
    (S : SmoothCallbacks P U Y V Ω) (D : SData U Y) {r0 : ℝ} (hr : Unit01 r0) (draws : ℕ → MhbpDraws Ω) :
    performMhbp S [st] M R D r0 draws = .error .unboundLocalError := by
  obtain ⟨ind, h1, -, h2, h3⟩ := drawEnd_ok hs hN M hr
  obtain ⟨part, hp⟩ := fancy_ok (a := st.pa.part) (ind := ind) (by rw [hs.pa.part_len]; exact h3)
  have : getLast [st] = .ok st := rfl
  simp only [performMhbp, this, ok_bind, h1, List.length_singleton, mhbpLoop]
  simp [getIdx, hp, ok_bind]

/-- The draws of `mhbp` are values `numpy.random.rand` can return. -/
def Spec.GoodMhbpDraws (draws : ℕ → MhbpDraws Ω) : Prop := ∀ t i, Unit01 ((draws t).r i)

theorem toS_getLast {pt : List (Step P)} {t : ℕ} (h : t < pt.length) :
    ((pt.take (t + 1)).map Step.toS).getLast? = some (pt[t]).toS := by
  rw [List.getLast?_map, List.getLast?_take, if_neg (by omega)]
  simp [h]

theorem mhbpInner_ok (hS : TotalMh S D) {t : ℕ} (hy : t < D.y.length) (ht : t < D.t.length)
    {ptraj fut : Option (List (SStep P))} {tmp : Option (List ℝ)} {d : MhbpDraws Ω} (hd : ∀ i, Unit01 (d.r i))
    (hok : ∀ a : List ℕ, a.length = M → (∀ i ∈ a, i < N) → ValidAnc M ptraj (some a))
    (htmp : ∀ w, tmp = some w → Weights w ∧ w.length = N)
    (is : List ℕ) {pnew : List P} {anc : List ℕ} {panc : Option (List ℕ)} (h1 : pnew.length = M) (h2 : anc.length = M)
    (h3 : ∀ i ∈ anc, i < N) (h4 : ∀ a, panc = some a → a.length = M ∧ ∀ i ∈ a, i < N)
    (h5 : tmp = none → is ≠ [] → panc ≠ none) :
    ∃ pnew' anc' panc', mhbpInner S ptraj fut M D t tmp d is (pnew, anc, panc) = .ok (pnew', anc', panc') ∧
      pnew'.length = M ∧ anc'.length = M ∧ (∀ i ∈ anc', i < N) ∧
      (∀ a, panc' = some a → a.length = M ∧ ∀ i ∈ a, i < N) ∧ (is ≠ [] ∨ panc ≠ none → panc' ≠ none) := by
  induction is generalizing pnew anc panc with
  | nil => exact ⟨pnew, anc, panc, rfl, h1, h2, h3, h4, by simp⟩
  | cons i is ih =>
    have hp : ∃ p, mhbpPropose tmp panc M (d.r i) = .ok p ∧ p.length = M ∧ ∀ k ∈ p, k < N := by
      cases tmp with
      | some w =>
        obtain ⟨hw, hwl⟩ := htmp w rfl
        obtain ⟨p, e1, e2, e3⟩ := C01_sample_length_range hw M (hd i)
        exact ⟨p, e1, e2, by rwa [hwl] at e3⟩
      | none =>
        cases panc with
        | none => exact absurd rfl (h5 rfl (by simp))
        | some p => exact ⟨p, rfl, h4 p rfl⟩
    obtain ⟨p, e1, e2, e3⟩ := hp
    obtain ⟨out, acc, g1, g2, g3⟩ := mcStep_total hS hy ht h1 (find := List.range M) (by simp) (hok p e2 e3)
      (hok anc h2 h3) (fut := fut) false (by simp) (d.mc i)
    set anc' := List.zipWith (fun (b : Bool) (p : ℕ × ℕ) => if b then p.1 else p.2) acc (p.zip anc) with hanc'
    have hal : anc'.length = M := by simp [hanc', g3, e2, h2]
    have hav : ∀ k ∈ anc', k < N := by
      intro k hk
      obtain ⟨j, hj, rfl⟩ := List.getElem_of_mem hk
      simp only [hanc', List.getElem_zipWith, List.getElem_zip]
      split
      · exact e3 _ (List.getElem_mem _)
      · exact h3 _ (List.getElem_mem _)
    obtain ⟨pn, an, pa, k1, k2, k3, k4, k5, k6⟩ := ih g2 hal hav (panc := some p)
      (fun a ha => by cases ha; exact ⟨e2, e3⟩) (by simp)
    refine ⟨pn, an, pa, ?_, k2, k3, k4, k5, fun _ => k6 (Or.inr (by simp))⟩
    simp only [mhbpInner, e1, ok_bind, g1]
    exact k1

theorem mhbpLoop_ok (hS : TotalMh S D) {pt : List (Step P)} (hpt : GoodRun N pt) (hM : 0 < M) (R : ℕ)
    (hy : pt.length ≤ D.y.length) (ht : pt.length ≤ D.t.length)
    {draws : ℕ → MhbpDraws Ω} (hd : GoodMhbpDraws draws) (n : ℕ) (hn : n ≤ pt.length) (h2 : n = pt.length → 2 ≤ n)
    {cind : List ℕ} {anc panc : Option (List ℕ)} {futs : List (SStep P)} (h1 : cind.length = M)
    (h3 : ∀ i ∈ cind, i < N) (h4 : n < pt.length → anc = some cind)
    (h5 : ∀ a, panc = some a → a.length = M ∧ ∀ i ∈ a, i < N) (h6 : n < pt.length → 0 < R → panc ≠ none)
    (hf : n + futs.length = pt.length) (hfw : ∀ s ∈ futs, s.pa.WF M ∧ s.ancestors = none) :
    ∃ traj, mhbpLoop S pt M R D draws n cind anc panc futs = .ok traj ∧ traj.length = pt.length ∧
      ∀ s ∈ traj, s.pa.WF M ∧ s.ancestors = none := by
  induction n generalizing cind anc panc futs with
  | zero => exact ⟨futs, rfl, by omega, hfw⟩
  | succ t ih =>
    have htl : t < pt.length := by omega
    have hs := hpt.steps pt[t] (List.getElem_mem _)
    obtain ⟨pnew, hp⟩ := fancy_ok (a := pt[t].pa.part) (ind := cind) (by rw [hs.pa.part_len]; exact h3)
    have hpl : pnew.length = M := (fancy_spec.mp hp).1.trans h1
    set fut := if t + 1 < pt.length then some futs else none with hfut
    -- the state at the start of the proposal loop
    have finish : ∀ (a : List ℕ) (tmp : Option (List ℝ)) (ptraj : Option (List (SStep P))),
        a.length = M → (∀ i ∈ a, i < N) → (∀ w, tmp = some w → Weights w ∧ w.length = N) →
        (∀ a : List ℕ, a.length = M → (∀ i ∈ a, i < N) → ValidAnc M ptraj (some a)) →
        (tmp = none → 0 < R → panc ≠ none) →
        ∃ traj, (do
          let (pnew, anc, panc) ← mhbpInner S ptraj fut M D t tmp (draws t) (List.range R) (pnew, a, panc)
          let fp ← S.sampleSmooth pnew ptraj anc fut (some (List.range M)) D t (draws t).ω
          let pa ← PA.new fp none
          mhbpLoop S pt M R D draws t anc (some anc) panc (⟨pa, none⟩ :: futs)) = .ok traj ∧
          traj.length = pt.length ∧ ∀ s ∈ traj, s.pa.WF M ∧ s.ancestors = none := by
      intro a tmp ptraj ha1 ha2 htmp hok htn
      obtain ⟨pn, an, pc, k1, k2, k3, k4, k5, k6⟩ := mhbpInner_ok hS (t := t) (by omega) (by omega) (fut := fut) (hd t) hok htmp
        (List.range R) hpl ha1 ha2 h5 (fun h hr => htn h (by
          rcases Nat.eq_zero_or_pos R with h0 | h0
          · subst h0; simp at hr
          · exact h0))
      obtain ⟨fp, l1, l2⟩ := hS.sample pn ptraj an fut (some (List.range M)) t (draws t).ω
      obtain ⟨pa, m1, m2, -⟩ := PA.new_none_wf (l2.trans k2) hM
      obtain ⟨traj, q1, q2, q3⟩ := ih (by omega) (fun h => by omega) k3 k4 (anc := some an) (panc := pc)
        (futs := ⟨pa, none⟩ :: futs) (fun _ => rfl) k5
        (fun _ hR => k6 (Or.inl (by intro e; have := congrArg List.length e; simp at this; omega)))
        (by simp only [List.length_cons]; omega)
        (by
          intro s hs
          rcases List.mem_cons.mp hs with rfl | hs
          · exact ⟨m2, rfl⟩
          · exact hfw s hs)
      exact ⟨traj, by simp only [k1, ok_bind, l1, m1]; exact q1, q2, q3⟩
    simp only [mhbpLoop, getIdx_of_lt htl, ok_bind, hp, ← hfut]
    by_cases h0 : 0 < t
    · have htl' : t - 1 < pt.length := by omega
      have hs' := hpt.steps pt[t - 1] (List.getElem_mem _)
      obtain ⟨a, ha⟩ := fancy_ok (a := pt[t].ancestors) (ind := cind) (by rw [hs.anc_len]; exact h3)
      have hne := hs'.pa.w_ne hpt.pos
      have hpast : ∀ a : List ℕ, a.length = M → (∀ i ∈ a, i < N) →
          ValidAnc M (some ((pt.take t).map Step.toS)) (some a) := by
        intro a h1 h2
        refine ⟨h1, fun q hq => ?_⟩
        cases hq
        refine ⟨a, (pt[t - 1]).toS, pt[t - 1].ancestors, rfl, ?_, rfl, fun i hi => ?_⟩
        · have := toS_getLast htl'
          rwa [Nat.sub_add_cancel (by omega)] at this
        · have := h2 i hi
          exact ⟨by rw [Step.toS, hs'.pa.part_len]; exact this, by rw [hs'.anc_len]; exact this⟩
      simp only [h0, if_true, ha, ok_bind, getIdx_of_lt htl', maxNormalised_eq hne, pure_eq_ok]
      exact finish a _ _ ((fancy_spec.mp ha).1.trans h1) (fun i hi => hs.anc_lt i (fancy_mem ha i hi))
        (fun w hw => by cases hw; exact ⟨normWeights_weights hne, by rw [normWeights_length, hs'.pa.w_len]⟩) hpast
        (fun h => by cases h)
    · have : t = 0 := by omega
      subst this
      have hlt : 0 + 1 < pt.length := by
        by_contra hc
        have := h2 (by omega)
        omega
      rw [h4 hlt]
      simp only [lt_irrefl, if_false, pure_eq_ok, ok_bind]
      exact finish cind none none h1 h3 (fun w hw => by cases hw)
        (fun a h1 h2 => ⟨h1, fun q hq => by cases hq⟩) (fun _ hR => h6 hlt hR)

/-- C34: for every run of at least two steps, every model that answers its callbacks, every number of iterations and every
draw 'mhbp' succeeds and returns one step with `M` trajectories per time.  The returned steps carry no ancestors. -/
theorem C34_mhbp_runs (hS : TotalMh S D) {pt : List (Step P)} (hpt : GoodRun N pt) (h2 : 2 ≤ pt.length) (hM : 0 < M)
    (R : ℕ) (hy : pt.length ≤ D.y.length) (ht : pt.length ≤ D.t.length) {r0 : ℝ} (hr : Unit01 r0)
    {draws : ℕ → MhbpDraws Ω} (hd : GoodMhbpDraws draws) :
    ∃ traj, performMhbp S pt M R D r0 draws = .ok traj ∧ traj.length = pt.length ∧
      ∀ s ∈ traj, s.pa.WF M ∧ s.ancestors = none := by
  obtain ⟨T, st, hT, hst, hlast, hs⟩ := lastStep hpt
  obtain ⟨ind, h1, -, h3, h4⟩ := drawEnd_ok hs hpt.pos M hr
  obtain ⟨traj, e1, e2, e3⟩ := mhbpLoop_ok hS hpt hM R hy ht hd pt.length le_rfl (fun _ => h2) (cind := ind) (anc := none)
    (panc := none) (futs := []) h3 h4 (fun h => absurd h (lt_irrefl _)) (by simp) (fun h => absurd h (lt_irrefl _))
    (by simp) (by simp)
  exact ⟨traj, by simp only [performMhbp, hlast, ok_bind, h1]; exact e1, e2, e3⟩

/-! ### `mhips` -/

/-- The shape every MHIPS pass keeps: `M` equally weighted trajectories with identity ancestors. -/
def Spec.Paths (M : ℕ) (traj : List (SStep P)) : Prop :=
  ∀ s ∈ traj, s.pa.WF M ∧ s.ancestors = some (List.range M)

/-- C34 (defect): an MHIPS pass over a single step raises `IndexError`, for every model and draw. -/
theorem C34_mhips_single_step (s : SStep P) (M : ℕ) (S : SmoothCallbacks P U Y V Ω) (D : SData U Y) (reduced : Bool)
    (d : PassDraws Ω) : mhipsPass S [s] M D reduced d = .error .indexError := by
  have : getLast [s] = .ok s := rfl
  simp only [mhipsPass, this, ok_bind, List.length_singleton, Nat.sub_self, List.take_zero, mcStep, mcCurrent]
  rfl

theorem validAnc_paths {traj : List (SStep P)} (h : Paths M traj) {i : ℕ} (hi : i < traj.length) :
    ValidAnc M (some (traj.take (i + 1))) (some (List.range M)) := by
  refine ⟨by simp [ancOf], fun pt hpt => ?_⟩
  cases hpt
  have hm := h traj[i] (List.getElem_mem _)
  refine ⟨List.range M, traj[i], List.range M, rfl, ?_, hm.2, fun k hk => ?_⟩
  · rw [List.getLast?_take, if_neg (by omega)]
    simp [hi]
  · have := List.mem_range.mp hk
    exact ⟨by rw [hm.1.part_len]; exact this, by simpa using this⟩

theorem mhipsLoop_ok (hS : TotalMh S D) {traj : List (SStep P)} (h : Paths M traj) (hM : 0 < M)
    (hy : traj.length ≤ D.y.length) (ht : traj.length ≤ D.t.length) (reduced : Bool) (d : PassDraws Ω) (n : ℕ)
    (hn : n < traj.length) {fut : List (SStep P)} (hf : Paths M fut) :
    ∃ out, mhipsLoop S traj M D reduced d n fut = .ok out ∧ out.length = n + fut.length ∧ Paths M out := by
  induction n generalizing fut with
  | zero => exact ⟨fut, rfl, by omega, hf⟩
  | succ i ih =>
    have hm := h traj[i + 1] (List.getElem_mem _)
    obtain ⟨out, acc, e1, e2, -⟩ := mcStep_total hS (cur := i + 1) (by omega) (by omega) hm.1.part_len (find := List.range M)
      (by simp) (validAnc_paths h (i := i) (by omega)) (validAnc_paths h (i := i) (by omega)) (fut := some fut) reduced
      (fun _ => ⟨Or.inr (by simp), fun h => by cases h⟩) (d.mc (i + 1))
    obtain ⟨tmp, l1, l2⟩ := hS.sample out (some (traj.take (i + 1))) (List.range M) (some fut) (some (List.range M)) (i + 1)
      (d.ω (i + 1))
    obtain ⟨pa, m1, m2, -⟩ := PA.new_none_wf (l2.trans e2) hM
    obtain ⟨o, q1, q2, q3⟩ := ih (by omega) (fut := ⟨pa, some (List.range M)⟩ :: fut) (by
      intro s hs
      rcases List.mem_cons.mp hs with rfl | hs
      · exact ⟨m2, rfl⟩
      · exact hf s hs)
    refine ⟨o, ?_, by simp only [List.length_cons] at q2; omega, q3⟩
    simp only [mhipsLoop, getIdx_of_lt hn, ok_bind, e1, l1, m1]
    exact q1

/-- C34: for trajectories of at least two steps a pass of 'mhips' (and of 'mhips_reduced', if the last step has a
measurement) succeeds and keeps the number of steps and of trajectories. -/
theorem C34_mhips_pass (hS : TotalMh S D) {traj : List (SStep P)} (h : Paths M traj) (h2 : 2 ≤ traj.length) (hM : 0 < M)
    (hy : traj.length ≤ D.y.length) (ht : traj.length ≤ D.t.length) (reduced : Bool)
    (hred : reduced = true → D.y[traj.length - 1]? ≠ some .none) (d : PassDraws Ω) :
    ∃ out, mhipsPass S traj M D reduced d = .ok out ∧ out.length = traj.length ∧ Paths M out := by
  have hl : getLast traj = .ok traj[traj.length - 1] := by
    rw [getLast_ok, List.getLast?_eq_getElem?, List.getElem?_eq_getElem (by omega)]
  have hml := h traj[traj.length - 1] (List.getElem_mem _)
  have hva := validAnc_paths h (i := traj.length - 2) (by omega)
  rw [show traj.length - 2 + 1 = traj.length - 1 by omega] at hva
  obtain ⟨o1, acc, e1, e2, -⟩ := mcStep_total hS (cur := traj.length - 1) (by omega) (by omega) hml.1.part_len
    (find := List.range M) (by simp) hva hva (fut := none) reduced
    (fun hr => ⟨Or.inl (hred hr), fun h => by cases h⟩) (d.mc (traj.length - 1))
  obtain ⟨tmp, l1, l2⟩ := hS.sample o1 (some (traj.take (traj.length - 1))) (List.range M) none (some (List.range M))
    (traj.length - 1) (d.ω (traj.length - 1))
  obtain ⟨pa, m1, m2, -⟩ := PA.new_none_wf (l2.trans e2) hM
  obtain ⟨fut, q1, q2, q3⟩ := mhipsLoop_ok hS h hM hy ht reduced d (traj.length - 2) (by omega)
    (fut := [⟨pa, some (List.range M)⟩]) (by
      intro s hs
      simp only [List.mem_singleton] at hs
      subst hs
      exact ⟨m2, rfl⟩)
  have h0 : 0 < traj.length := by omega
  have hm0 := h traj[0] (List.getElem_mem _)
  obtain ⟨f0, fs, rfl⟩ : ∃ f0 fs, fut = f0 :: fs := by
    cases fut with
    | nil => simp at q2
    | cons f0 fs => exact ⟨f0, fs, rfl⟩
  obtain ⟨o2, acc2, g1, g2, -⟩ := mcStep_total hS (cur := 0) (by omega) (by omega) hm0.1.part_len (find := List.range M)
    (by simp) (ptraj := none) (pp := none) (pc := none) ⟨by simp [ancOf], fun _ h => by cases h⟩
    ⟨by simp [ancOf], fun _ h => by cases h⟩ (fut := some (f0 :: fs)) reduced
    (fun _ => ⟨Or.inr (by simp), fun _ => ⟨f0, fs, rfl, (q3 f0 (by simp)).1.part_len⟩⟩) (d.mc 0)
  obtain ⟨tmp2, l3, l4⟩ := hS.sample o2 none (List.range M) (some (f0 :: fs)) (some (List.range M)) 0 (d.ω 0)
  obtain ⟨pa2, m3, m4, -⟩ := PA.new_none_wf (l4.trans g2) hM
  refine ⟨⟨pa2, some (List.range M)⟩ :: f0 :: fs, ?_, ?_, ?_⟩
  · simp only [mhipsPass, hl, ok_bind, e1, l1, m1, q1, getIdx_of_lt h0, g1, l3, m3]
    rfl
  · simp only [List.length_cons, List.length_nil] at q2 ⊢
    omega
  · intro s hs
    rcases List.mem_cons.mp hs with rfl | hs
    · exact ⟨m4, rfl⟩
    · exact q3 s hs

end PyPE

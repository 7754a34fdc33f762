import Verif.Traj.Props
import Verif.Filter.Lemmas

/-!
# Lifting one-step facts about a filter to every run of a `ParticleTrajectory`
-/

namespace PyPE
open Spec

variable {P U Y V Ω : Type}

/-- `F` is safe for `N` particles with step invariant `I` (indexed by time) for up to `K` stored steps, for
measurements satisfying `Q`: every operation succeeds from good steps and produces a good step. -/
structure StepSafe (F : FilterOps P U Y V Ω) (N K : ℕ) (Q : Slot Y → Prop) (I : ℕ → Step P → Prop) : Prop where
  create : F.usingPfy = false ∨ 0 < K → ∀ ω, ∃ part pa, F.create N ω = .ok part ∧ PA.new part none = .ok pa ∧
    I 0 ⟨pa, List.range N⟩
  forward : ∀ tr (yv : List (Slot Y)) (uv : List (Slot U)) tv cur (d : Draws Ω) last y,
    tr.length = cur + 1 → tr.getLast? = some last → (∀ k st, tr[k]? = some st → I k st) →
    cur + 1 < K → yv[cur+1]? = some y → Q y → cur < uv.length → tv[cur]? = some cur →
    tv[cur+1]? = some (cur+1) → yv ≠ [] → Unit01 d.r → Unit01 d.r2 →
    ∃ pa fl anc, F.forward tr yv uv tv cur d = .ok (pa, fl, anc) ∧ I (cur+1) ⟨pa, anc⟩
  measure : F.usingPfy = false → ∀ tr (yv : List (Slot Y)) (uv : List (Slot U)) tv cur last,
    tr.length = cur + 1 → tr.getLast? = some last → (∀ k st, tr[k]? = some st → I k st) →
    ∃ pa, F.measure tr last.ancestors last.pa uv yv tv cur = .ok pa ∧ I cur ⟨pa, last.ancestors⟩
  measureNew : F.usingPfy = true → ∀ (yv : List (Slot Y)) tv cur ω, cur < K → cur < yv.length →
    tv[cur]? = some cur → ∃ pa, F.measureNew yv tv cur ω = .ok pa ∧ I cur ⟨pa, List.range N⟩

/-- The draws of an operation are uniform draws and its measurement satisfies `Q`. -/
def Op.Ok (Q : Slot Y → Prop) : Op U Y Ω → Prop
  | .forward _ y _ d => Q y ∧ Unit01 d.r ∧ Unit01 d.r2
  | .measure _ _ => True

theorem log_mono (pfy : Bool) (ops : List (Op U Y Ω)) (l : Spec.Log U Y) :
    l.ys.length ≤ (ops.foldl (Spec.Log.step pfy) l).ys.length := by
  induction ops generalizing l with
  | nil => simp
  | cons op ops ih =>
    refine le_trans ?_ (ih _)
    cases op with
    | forward u y ω0 d => simp only [Spec.Log.step, Spec.Log.forward]; split_ifs with h <;> simp [h]
    | measure y ω =>
      simp only [Spec.Log.step, Spec.Log.measure]
      split_ifs with h
      · simp [h]
      · simp
      · have := List.length_pos_iff.mpr h
        simp; omega

theorem step_safe {F : FilterOps P U Y V Ω} {N K : ℕ} {Q : Slot Y → Prop} {I : ℕ → Step P → Prop}
    (hF : StepSafe F N K Q I) {s : PT P U Y} {l : Spec.Log U Y} (h : s.Rep l) (hN : s.N = N)
    (hI : ∀ k st, s.traj[k]? = some st → I k st) {op : Op U Y Ω} (hop : op.Ok Q)
    (hK : (l.step F.usingPfy op).ys.length ≤ K) :
    ∃ s' b, s.step F op = (s', .ok b) ∧ s'.N = N ∧ (∀ k st, s'.traj[k]? = some st → I k st) ∧
      (∀ u y ω0 d, op = .forward u y ω0 d → ∃ b', b = some b') := by
  have happ : ∀ (tr : List (Step P)) (st : Step P), (∀ k st, tr[k]? = some st → I k st) →
      I tr.length st → ∀ k st', (tr ++ [st])[k]? = some st' → I k st' := by
    intro tr st h1 h2 k st' hk
    by_cases hlt : k < tr.length
    · rw [List.getElem?_append_left hlt] at hk; exact h1 k st' hk
    · rw [List.getElem?_append_right (by omega)] at hk
      have : k = tr.length := by
        have := lt_of_getElem?_some hk; simp at this; omega
      subst this
      simp at hk; rw [← hk]; exact h2
  have hens : ∀ (s : PT P U Y) (l : Spec.Log U Y), s.Rep l → s.N = N → (F.usingPfy = false ∨ 0 < K) →
      (∀ k st, s.traj[k]? = some st → I k st) → ∀ ω,
      ∃ s' l', s.ensureInit F ω = (s', .ok ()) ∧ s'.Rep l' ∧ l'.ys ≠ [] ∧ s'.N = N ∧
        (∀ k st, s'.traj[k]? = some st → I k st) ∧
        l'.ys.length = max 1 l.ys.length := by
    intro s l h hN hK hI ω
    rcases s.ensureInit_cases F ω with ⟨h1, h2⟩ | ⟨h1, e, h2, h3⟩ | ⟨h1, part, pa, hc, hp, h2⟩
    · refine ⟨s, l, h2, h, ?_, hN, hI, ?_⟩
      · intro hc; have := h.len; rw [hc] at this; exact h1 (List.length_eq_zero_iff.mp this)
      · have := h.len; have := List.length_pos_iff.mpr h1; omega
    · exfalso
      obtain ⟨part, pa, hc, hp, -⟩ := hF.create hK ω
      unfold PT.ensureInit at h2
      simp [h1, hN, hc, hp] at h2
    · have hl : l.ys = [] := by
        have := h.len; rw [h1] at this; exact List.length_eq_zero_iff.mp this.symm
      refine ⟨_, ⟨[], [.none]⟩, h2, (h.ensureInit h2).1 hl, by simp, hN, ?_, by simp [hl]⟩
      obtain ⟨part', pa', hc', hp', hI0⟩ := hF.create hK ω
      rw [hN] at hc
      rw [hc] at hc'; cases hc'
      rw [hp] at hp'; cases hp'
      intro k st hk
      cases k with
      | zero => simp at hk; rw [← hk, hN]; exact hI0
      | succ k => simp at hk
  cases op with
  | forward u y ω0 d =>
    obtain ⟨hQ, hr, hr2⟩ := hop
    have hlen2 : max 1 l.ys.length + 1 ≤ K := by
      simp only [Spec.Log.step, Spec.Log.forward] at hK
      split_ifs at hK with hl
      · simp [hl] at hK ⊢; omega
      · have := List.length_pos_iff.mpr hl
        simp at hK; omega
    obtain ⟨s1, l1, he, hr1, hne1, hN1, hI1, hlen1⟩ := hens s l h hN (Or.inr (by omega)) hI ω0
    have hpos : 0 < l1.ys.length := List.length_pos_iff.mpr hne1
    have hi1 : 1 ≤ s1.ind1 := by rw [hr1.ind]; omega
    have hst1 : s1.traj ≠ [] := by
      intro hc; have := hr1.len; rw [hc] at this; simp at this; omega
    obtain ⟨last, hl⟩ := Option.ne_none_iff_exists'.mp (mt List.getLast?_eq_none_iff.mp hst1)
    obtain ⟨hg, e1, e2, e3, e4⟩ := PT.growForward_inv hr1.inv hi1
    have hcur : s1.ind1 - 1 + 1 = s1.ind1 := by omega
    obtain ⟨pa, fl, anc, hfw, hIn⟩ := hF.forward s1.traj (s1.beforeForward u y).yvec
      (s1.beforeForward u y).uvec (s1.beforeForward u y).tvec (s1.ind1 - 1) d last y
      (by rw [hr1.len, hcur, hr1.ind]) hl hI1 (by rw [hcur, hr1.ind]; omega)
      (by rw [hcur]; simp only [PT.beforeForward]; rw [List.getElem?_set_self]; rw [hg.ylen]; omega)
      hQ
      (by have := (PT.beforeForward_inv hr1.inv hi1 u y).ulen_ge
          have hT : (s1.beforeForward u y).T = s1.growForward.T := rfl
          omega)
      (by
        have hk : s1.ind1 - 1 < l1.ys.length := by rw [hr1.ind]; omega
        have := hr1.ts (s1.ind1 - 1) hk
        simp only [PT.beforeForward]
        rw [List.getElem?_set_ne (by omega), ((PT.grow_getElem? hr1.inv).1 (by omega) ?_).2, this]
        have := lt_of_getElem?_some this
        rwa [hr1.inv.tlen] at this)
      (by rw [hcur]; simp only [PT.beforeForward]; rw [List.getElem?_set_self]; rw [hg.tlen]; omega)
      (by
        have := (PT.beforeForward_inv hr1.inv hi1 u y).ylen
        intro hc; rw [hc] at this; simp at this; omega)
      hr hr2
    have hlen : s1.traj.length = s1.ind1 - 1 + 1 := by rw [hr1.len, hcur, hr1.ind]
    refine ⟨{ s1.beforeForward u y with traj := s1.traj ++ [⟨pa, anc⟩] }, some fl, ?_, ?_, ?_, ?_⟩
    · unfold PT.step
      simp only
      rw [PT.forward_eq h.inv, he]
      simp only [hfw]
    · simp only [PT.beforeForward]; rw [e2, hN1]
    · exact happ s1.traj _ hI1 (by rw [hlen]; exact hIn)
    · intro _ _ _ _ _; exact ⟨fl, rfl⟩
  | measure y ω =>
    cases hp : F.usingPfy with
    | true =>
      obtain ⟨hg, e1, e2, e3, e4⟩ := PT.growMeasure_inv h.inv
      have hb := PT.beforeMeasurePfy_inv h.inv y
      have hlt : s.ind1 < K := by
        simp only [Spec.Log.step, Spec.Log.measure, hp] at hK
        rw [h.ind]
        split_ifs at hK with hl
        · simp [hl] at hK ⊢; omega
        · simp at hK; omega
      obtain ⟨pa, hm, hIn⟩ := hF.measureNew hp (s.beforeMeasurePfy y).yvec (s.beforeMeasurePfy y).tvec
        s.ind1 ω hlt (by rw [hb.ylen]; simp only [PT.beforeMeasurePfy]; omega)
        (by simp only [PT.beforeMeasurePfy]; rw [List.getElem?_set_self]; rw [hg.tlen]; omega)
      refine ⟨{ s.beforeMeasurePfy y with traj := s.traj ++ [⟨pa, List.range s.N⟩] }, none, ?_, ?_, ?_,
        by simp⟩
      · unfold PT.step
        simp only
        rw [PT.measure_pfy_eq hp h.inv]
        simp only [hm]
      · simp only [PT.beforeMeasurePfy]; rw [e2, hN]
      · exact happ s.traj _ hI (by rw [h.len, ← h.ind, hN]; exact hIn)
    | false =>
      obtain ⟨hg, e1, e2, e3, e4⟩ := PT.growMeasure_inv h.inv
      obtain ⟨s1, l1, he, hr1, hne1, hN1, hI1, hlen1⟩ :=
        hens s.growMeasure l h.growMeasure (by rw [e2, hN]) (Or.inl hp) (by rw [e3]; exact hI) ω
      have hpos : 0 < l1.ys.length := List.length_pos_iff.mpr hne1
      have hi1 : 1 ≤ s1.ind1 := by rw [hr1.ind]; omega
      have hst1 : s1.traj ≠ [] := by
        intro hc; have := hr1.len; rw [hc] at this; simp at this; omega
      obtain ⟨last, hl⟩ := Option.ne_none_iff_exists'.mp (mt List.getLast?_eq_none_iff.mp hst1)
      have hlen : s1.traj.length = s1.ind1 - 1 + 1 := by rw [hr1.len, hr1.ind]; omega
      obtain ⟨pa, hm, hIn⟩ := hF.measure hp s1.traj (s1.beforeMeasure y).yvec (s1.beforeMeasure y).uvec
        (s1.beforeMeasure y).tvec (s1.ind1 - 1) last hlen hl hI1
      refine ⟨{ s1.beforeMeasure y with traj := s1.traj.dropLast ++ [⟨pa, last.ancestors⟩] }, none, ?_, hN1, ?_,
        by simp⟩
      · unfold PT.step
        simp only
        rw [PT.measure_eq hp h.inv, he]
        simp only [getLast_ok.mpr hl, hm]
      · apply happ
        · intro k st hk
          rw [List.getElem?_dropLast] at hk
          split_ifs at hk
          exact hI1 k st hk
        · rw [List.length_dropLast, hlen]; exact hIn

/-- Every run of a safe filter succeeds and every stored step satisfies the invariant. -/
theorem run_safe {F : FilterOps P U Y V Ω} {N K : ℕ} {Q : Slot Y → Prop} {I : ℕ → Step P → Prop}
    (hF : StepSafe F N K Q I) (ops : List (Op U Y Ω)) {s : PT P U Y} {l : Spec.Log U Y} (h : s.Rep l)
    (hN : s.N = N) (hI : ∀ k st, s.traj[k]? = some st → I k st) (hops : ∀ op ∈ ops, op.Ok Q)
    (hK : (ops.foldl (Spec.Log.step F.usingPfy) l).ys.length ≤ K) :
    ∃ s' bs, s.run F ops = (s', .ok bs) ∧ (∀ k st, s'.traj[k]? = some st → I k st) ∧ s'.N = N := by
  induction ops generalizing s l with
  | nil => exact ⟨s, [], rfl, hI, hN⟩
  | cons op ops ih =>
    obtain ⟨s1, b, h1, h2, h3, -⟩ := step_safe hF h hN hI (hops op (by simp))
      (le_trans (log_mono _ ops _) hK)
    obtain ⟨s2, bs, h4, h5, h6⟩ := ih (PT.step_rep h h1) h2 h3 (fun o ho => hops o (by simp [ho])) hK
    refine ⟨s2, b :: bs, ?_, h5, h6⟩
    unfold PT.run
    rw [h1]; simp only; rw [h4]

/-- Every run of a safe filter from a new trajectory. -/
theorem run_safe_init {F : FilterOps P U Y V Ω} {N K : ℕ} {Q : Slot Y → Prop} {I : ℕ → Step P → Prop}
    (hF : StepSafe F N K Q I) {T : Option ℕ} {s0 : PT P U Y} (h0 : PT.init N T 0 = .ok s0)
    (ops : List (Op U Y Ω)) (hops : ∀ op ∈ ops, op.Ok Q)
    (hK : (Spec.log F.usingPfy ops).ys.length ≤ K) :
    ∃ s bs, s0.run F ops = (s, .ok bs) ∧ s.traj.length = (Spec.log F.usingPfy ops).ys.length ∧
      ∀ k st, s.traj[k]? = some st → I k st := by
  have hr := PT.init_rep h0
  have hN0 : s0.N = N := by
    unfold PT.init at h0
    simp only [ne_eq, not_true_eq_false, if_false] at h0
    split at h0
    · cases h0
    · cases h0; rfl
    · cases h0; rfl
  have ht : s0.traj = [] := by
    have := hr.len; exact List.length_eq_zero_iff.mp (by simpa using this)
  obtain ⟨s, bs, h1, h2, -⟩ := run_safe hF ops hr hN0 (by rw [ht]; simp) hops hK
  exact ⟨s, bs, h1, (PT.run_rep ops hr h1).len, h2⟩

end PyPE

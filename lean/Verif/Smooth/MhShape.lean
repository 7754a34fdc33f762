import Verif.Smooth.Shape
import Verif.Smooth.MhRun
import Verif.Smooth.BpUnbiased

/-!
# The shape of what the Metropolis-Hastings smoothers return

Whatever the draws are: if MHIPS or mhbp returns on a run of at least two steps, the result has a step for every filter step and `num_traj` particles in each.
-/

namespace PyPE
open Real Spec

variable {P U Y V Ω : Type} {S : SmoothCallbacks P U Y V Ω} {D : SData U Y}

/-- The hooks of the smoother that could change a particle, as `FFBSi`-type models without Rao-Blackwellisation have them: they return it as it is. -/
structure Spec.PlainMh (S : SmoothCallbacks P U Y V Ω) : Prop where
  cond : ∀ a b c future e D n, S.condPredict a b c future e D n = .ok future
  init : ∀ part t, S.condInitial part t = .ok part
  meas : ∀ part pt D ind q, S.measure part pt D ind = .ok q → q.1 = part
  smooth : ∀ part a b c e D n ω, S.sampleSmooth part a b c e D n ω = .ok part

theorem mcCurrent_eq (hS : PlainMh S) {part part' : List P} {ptraj : Option (List (SStep P))} {pc : Option (List ℕ)} {cur : ℕ}
    (h : mcCurrent S part ptraj pc D cur = .ok part') : part' = part := by
  unfold mcCurrent at h
  split at h
  · obtain ⟨prev, -, h⟩ := bind_eq_ok.mp h
    obtain ⟨old, -, h⟩ := bind_eq_ok.mp h
    split at h
    · cases h
    · obtain ⟨pi, -, h⟩ := bind_eq_ok.mp h
      rw [hS.cond] at h
      exact (Except.ok.inj h).symm
  · cases h
  · obtain ⟨t, -, h⟩ := bind_eq_ok.mp h
    rw [hS.init] at h
    exact (Except.ok.inj h).symm

theorem mcMeasure_eq (hS : PlainMh S) {xprop part : List P} {ptraj : Option (List (SStep P))} {pp pc : Option (List ℕ)} {cur : ℕ} {y : Slot Y}
    {r : List P × Term × List P × Term} (h : mcMeasure S xprop part ptraj pp pc D cur y = .ok r) : r.1 = xprop ∧ r.2.2.1 = part := by
  unfold mcMeasure at h
  split at h
  · cases h; exact ⟨rfl, rfl⟩
  · obtain ⟨⟨a, b⟩, h1, h⟩ := bind_eq_ok.mp h
    obtain ⟨⟨c, d⟩, h2, h⟩ := bind_eq_ok.mp h
    cases h
    exact ⟨hS.meas _ _ _ _ _ h1, hS.meas _ _ _ _ _ h2⟩

theorem mcAccept_len (hS : PlainMh S) {xprop part : List P} {ptraj fut : Option (List (SStep P))} {pp pc : Option (List ℕ)} {find : List ℕ} {cur : ℕ}
    {t1 t2 t3 t4 : Term} {u : ℕ → ℝ} {r : List P × List Bool} (h : mcAccept S xprop part ptraj pp pc fut find D cur t1 t2 t3 t4 u = .ok r) :
    r.1.length = part.length ∧ r.2.length = part.length := by
  unfold mcAccept at h
  obtain ⟨y, -, h⟩ := bind_eq_ok.mp h
  obtain ⟨⟨xp, a1, cp, a2⟩, hm, h⟩ := bind_eq_ok.mp h
  obtain ⟨e1, e2⟩ := mcMeasure_eq hS hm
  dsimp only at e1 e2
  dsimp only at h
  obtain ⟨⟨b1, b2⟩, -, h⟩ := bind_eq_ok.mp h
  dsimp only at h
  obtain ⟨_, -, h⟩ := bind_eq_ok.mp h
  obtain ⟨_, -, h⟩ := bind_eq_ok.mp h
  obtain ⟨_, -, h⟩ := bind_eq_ok.mp h
  obtain ⟨_, -, h⟩ := bind_eq_ok.mp h
  obtain ⟨_, -, h⟩ := bind_eq_ok.mp h
  obtain ⟨_, -, h⟩ := bind_eq_ok.mp h
  obtain ⟨ratio, -, h⟩ := bind_eq_ok.mp h
  cases ratio with
  | none => cases h
  | some ratio =>
    obtain ⟨out, h1, h⟩ := bind_eq_ok.mp h
    cases h
    unfold maskSet at h1
    split at h1
    · rename_i hl
      cases h1
      refine ⟨?_, by rw [← e2]; exact hl.1⟩
      rw [List.length_zipWith, List.length_zip, ← hl.2, ← e2, ← hl.1, min_self, min_self]
    · cases h1

theorem mcStep_len (hS : PlainMh S) {part : List P} {ptraj fut : Option (List (SStep P))} {pp pc : Option (List ℕ)} {find : List ℕ} {cur : ℕ} {reduced : Bool}
    {d : McDraws Ω} {r : List P × List Bool} (h : mcStep S part ptraj pp pc fut find D cur reduced d = .ok r) :
    r.1.length = part.length ∧ r.2.length = part.length := by
  unfold mcStep at h
  obtain ⟨part', h1, h⟩ := bind_eq_ok.mp h
  rw [← mcCurrent_eq hS h1]
  split at h
  · obtain ⟨_, -, h⟩ := bind_eq_ok.mp h
    exact mcAccept_len hS h
  · obtain ⟨_, -, h⟩ := bind_eq_ok.mp h
    obtain ⟨_, -, h⟩ := bind_eq_ok.mp h
    obtain ⟨_, -, h⟩ := bind_eq_ok.mp h
    obtain ⟨_, -, h⟩ := bind_eq_ok.mp h
    obtain ⟨_, -, h⟩ := bind_eq_ok.mp h
    exact mcAccept_len hS h

theorem mhipsLoop_shape (hS : PlainMh S) {traj : List (SStep P)} {M m : ℕ} {reduced : Bool} {d : PassDraws Ω} (ht : ∀ s ∈ traj, s.pa.part.length = m) {n : ℕ}
    {fut out : List (SStep P)} {T : ℕ} (hf : Shape fut T m) (h : mhipsLoop S traj M D reduced d n fut = .ok out) : Shape out (n + T) m := by
  induction n generalizing fut T with
  | zero => cases h; simpa using hf
  | succ n ih =>
    unfold mhipsLoop at h
    obtain ⟨st, h1, h⟩ := bind_eq_ok.mp h
    obtain ⟨⟨part, acc⟩, h2, h⟩ := bind_eq_ok.mp h
    dsimp only at h
    rw [hS.smooth, ok_bind] at h
    obtain ⟨pa, h3, h⟩ := bind_eq_ok.mp h
    have hst := ht st (List.mem_of_getElem? (getIdx_ok.mp h1))
    have := ih (T := T + 1) ⟨by simp [hf.1], fun s hs => by
      rcases List.mem_cons.mp hs with rfl | hs
      · rw [PA.new_part h3]; exact (mcStep_len hS h2).1.trans hst
      · exact hf.2 s hs⟩ h
    rwa [show n + (T + 1) = n + 1 + T by omega] at this

theorem mhipsPass_shape (hS : PlainMh S) {traj out : List (SStep P)} {M m T : ℕ} {reduced : Bool} {d : PassDraws Ω} (ht : Shape traj T m) (hT : 2 ≤ T)
    (h : mhipsPass S traj M D reduced d = .ok out) : Shape out T m := by
  unfold mhipsPass at h
  obtain ⟨last, h1, h⟩ := bind_eq_ok.mp h
  obtain ⟨⟨part, acc⟩, h2, h⟩ := bind_eq_ok.mp h
  dsimp only at h
  rw [hS.smooth, ok_bind] at h
  obtain ⟨pa, h3, h⟩ := bind_eq_ok.mp h
  obtain ⟨fut, h4, h⟩ := bind_eq_ok.mp h
  obtain ⟨fst, h5, h⟩ := bind_eq_ok.mp h
  obtain ⟨⟨part', acc'⟩, h6, h⟩ := bind_eq_ok.mp h
  dsimp only at h
  rw [hS.smooth, ok_bind] at h
  obtain ⟨pa', h7, h⟩ := bind_eq_ok.mp h
  cases h
  have hl := ht.2 last (List.mem_of_getLast? (getLast_ok.mp h1))
  have hf := ht.2 fst (List.mem_of_getElem? (getIdx_ok.mp h5))
  have := mhipsLoop_shape hS ht.2 (T := 1) ⟨rfl, fun s hs => by
    obtain rfl := List.mem_singleton.mp hs
    rw [PA.new_part h3]; exact (mcStep_len hS h2).1.trans hl⟩ h4
  refine ⟨by rw [List.length_cons, this.1, ht.1]; omega, fun s hs => ?_⟩
  rcases List.mem_cons.mp hs with rfl | hs
  · rw [PA.new_part h7]; exact (mcStep_len hS h6).1.trans hf
  · exact this.2 s hs

theorem mhipsPasses_shape (hS : PlainMh S) (hpre : ∀ t, applyHook S.preMhips t = .ok t) {M m T : ℕ} {reduced : Bool} (hT : 2 ≤ T) (ds : List (PassDraws Ω))
    {traj out : List (SStep P)} (ht : Shape traj T m) (h : mhipsPasses S M D reduced ds traj = .ok out) : Shape out T m := by
  induction ds generalizing traj with
  | nil => cases h; exact ht
  | cons d ds ih =>
    unfold mhipsPasses at h
    rw [hpre, ok_bind] at h
    obtain ⟨t', h1, h⟩ := bind_eq_ok.mp h
    exact ih (mhipsPass_shape hS ht hT h1) h

/-- MHIPS returns a step for every filter step and `M` particles in each. -/
theorem mhips_shape (hS : PlainMh S) (hps : NoPostprocessing S) (hpre : ∀ t, applyHook S.preMhips t = .ok t) {method : String}
    (hm : method = "mhips" ∨ method = "mhips_reduced") {user : Option SOpts} {R : ℕ} (hR : passes method user = .ok R) {pt : List (Step P)} (hT : 2 ≤ pt.length)
    {M : ℕ} {d : AllDraws Ω} {fuel : ℕ} {traj : List (SStep P)} (h : performSmoothing S pt M D method user d fuel = .ok (some traj)) :
    Shape traj pt.length M := by
  rw [mhips_run hps hm hR] at h
  obtain ⟨t, h1, h⟩ := bind_eq_ok.mp h
  obtain ⟨t', h2, h⟩ := bind_eq_ok.mp h
  obtain rfl := Option.some.inj (Except.ok.inj h)
  exact mhipsPasses_shape hS hpre hT _ (performAncestorsInt_shape (fun _ _ _ _ _ _ _ => hS.smooth _ _ _ _ _ _ _ _) h1) h2

theorem mhbpInner_len (hS : PlainMh S) {ptraj fut : Option (List (SStep P))} {M : ℕ} {t : ℕ} {tmp : Option (List ℝ)} {d : MhbpDraws Ω} (is : List ℕ)
    {pnew : List P} {anc : List ℕ} {panc : Option (List ℕ)} {r : List P × List ℕ × Option (List ℕ)} (hp : pnew.length = M)
    (h : mhbpInner S ptraj fut M D t tmp d is (pnew, anc, panc) = .ok r) :
    r.1.length = M ∧ (tmp.isSome → anc.length = M → r.2.1.length = M) := by
  induction is generalizing pnew anc panc with
  | nil => cases h; exact ⟨hp, fun _ h => h⟩
  | cons i is ih =>
    unfold mhbpInner at h
    obtain ⟨p, h1, h⟩ := bind_eq_ok.mp h
    obtain ⟨⟨pn, acc⟩, h2, h⟩ := bind_eq_ok.mp h
    obtain ⟨l1, l2⟩ := mcStep_len hS h2
    obtain ⟨e1, e2⟩ := ih (l1.trans hp) h
    refine ⟨e1, fun hs ha => e2 hs ?_⟩
    obtain ⟨w, rfl⟩ := Option.isSome_iff_exists.mp hs
    have hpl : p.length = M := sample_len (r := d.r i) h1
    rw [List.length_zipWith, List.length_zip, hpl, ha, show acc.length = M from l2.trans hp, min_self, min_self]

theorem mhbpLoop_shape (hS : PlainMh S) {pt : List (Step P)} {M R : ℕ} {draws : ℕ → MhbpDraws Ω} {t : ℕ} {cind : List ℕ} {anc panc : Option (List ℕ)}
    {futs out : List (SStep P)} {T : ℕ} (hc : cind.length = M) (hf : Shape futs T M) (h : mhbpLoop S pt M R D draws t cind anc panc futs = .ok out) :
    Shape out (t + T) M := by
  induction t generalizing cind anc panc futs T with
  | zero => cases h; simpa using hf
  | succ t ih =>
    unfold mhbpLoop at h
    obtain ⟨st, h1, h⟩ := bind_eq_ok.mp h
    obtain ⟨pnew, h2, h⟩ := bind_eq_ok.mp h
    obtain ⟨⟨a, tmp, ptraj⟩, h3, h⟩ := bind_eq_ok.mp h
    have ha : 0 < t → tmp.isSome ∧ ∀ a', a = some a' → a'.length = M := by
      intro ht
      rw [if_pos ht] at h3
      obtain ⟨a0, g1, h3⟩ := bind_eq_ok.mp h3
      obtain ⟨prev, -, h3⟩ := bind_eq_ok.mp h3
      obtain ⟨w, -, h3⟩ := bind_eq_ok.mp h3
      cases h3
      exact ⟨rfl, fun a' e => by cases e; rw [fancy_len g1, hc]⟩
    cases a with
    | none => cases h
    | some a =>
      obtain ⟨⟨pn, a2, p2⟩, h4, h⟩ := bind_eq_ok.mp h
      obtain ⟨e1, e2⟩ := mhbpInner_len hS _ ((fancy_len h2).trans hc) h4
      dsimp only at h
      rw [hS.smooth, ok_bind] at h
      obtain ⟨pa, h5, h⟩ := bind_eq_ok.mp h
      have hsh : Shape (⟨pa, none⟩ :: futs) (T + 1) M := ⟨by simp [hf.1], fun s hs => by
        rcases List.mem_cons.mp hs with rfl | hs
        · rw [PA.new_part h5]; exact e1
        · exact hf.2 s hs⟩
      rcases Nat.eq_zero_or_pos t with rfl | ht
      · cases h
        simpa [add_comm] using hsh
      · obtain ⟨ha1, ha2⟩ := ha ht
        have := ih (e2 ha1 (ha2 a rfl)) hsh h
        rwa [show t + (T + 1) = t + 1 + T by omega] at this

/-- mhbp returns a step for every filter step and `M` particles in each. -/
theorem mhbp_shape (hS : PlainMh S) (hps : NoPostprocessing S) {user : Option SOpts} {R : ℕ} (hR : (choose user (·.R) (.int 30)).range = .ok R)
    {pt : List (Step P)} {M : ℕ} {d : AllDraws Ω} {fuel : ℕ} {traj : List (SStep P)} (h : performSmoothing S pt M D "mhbp" user d fuel = .ok (some traj)) :
    Shape traj pt.length M := by
  rw [mhbp_run hps hR] at h
  obtain ⟨t, h1, h⟩ := bind_eq_ok.mp h
  obtain rfl := Option.some.inj (Except.ok.inj h)
  unfold performMhbp at h1
  obtain ⟨last, -, h1⟩ := bind_eq_ok.mp h1
  obtain ⟨cind, h2, h1⟩ := bind_eq_ok.mp h1
  have := mhbpLoop_shape hS (T := 0) (drawEnd_len h2) ⟨rfl, fun s hs => by simp at hs⟩ h1
  simpa using this

end PyPE

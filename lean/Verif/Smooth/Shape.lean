import Verif.Smooth.Model
import Verif.Smooth.Ffbsi

/-!
# The shape of what a smoother returns

Whatever the draws are: if backward simulation or the ancestor smoother returns, the result has a step for every filter step and `num_traj` particles in
each.
-/

namespace PyPE
open Real Spec

variable {P U Y V Ω : Type} {S : SmoothCallbacks P U Y V Ω} {D : SData U Y}

/-- A step for each of `T` times, with `m` particles each. -/
def Spec.Shape (traj : List (SStep P)) (T m : ℕ) : Prop := traj.length = T ∧ ∀ s ∈ traj, s.pa.part.length = m

theorem sample_len {w : List ℝ} {n : ℕ} {r : ℝ} {idx : List ℕ} (h : sample w n r = .ok idx) : idx.length = n := by
  unfold sample at h
  obtain ⟨tot, -, h⟩ := bind_eq_ok.mp h
  split at h
  · obtain rfl := Except.ok.inj h; simp
  · obtain rfl := Except.ok.inj h; simp [stratGrid_length]

theorem fancy_len {α : Type} {a b : List α} {ind : List ℕ} (h : fancy a ind = .ok b) : b.length = ind.length := (fancy_spec.mp h).1

theorem PA.new_part {part : List P} {w : Option (List ℝ)} {pa : PA P} (h : PA.new part w = .ok pa) : pa.part = part := by
  unfold PA.new at h
  split at h
  · obtain rfl := Except.ok.inj h; rfl
  · split at h
    · cases h
    · obtain rfl := Except.ok.inj h; rfl

theorem finished_len {r : List (Option ℕ)} {ind : List ℕ} (h : finished r = .ok ind) : ind.length = r.length := (mapM_ok_iff.mp h).1

theorem scatter_len {α : Type} (a : List α) (ind : List ℕ) (b : List α) : (scatter a ind b).length = a.length := by
  unfold scatter
  induction ind.zip b generalizing a with
  | nil => rfl
  | cons p l ih => rw [List.foldl_cons, ih, List.length_set]

theorem bsiFull_len {pa : PA P} {ptraj : List (SStep P)} {pind : List ℕ} {fut : List (SStep P)} {find : List ℕ} {D : SData U Y} {cur : ℕ} {rs : ℕ → ℝ}
    {ind : List ℕ} (h : bsiFull S pa ptraj pind fut find D cur rs = .ok ind) : ind.length = find.length := by
  have := (mapM_ok_iff.mp h).1
  simpa using this

theorem rsRound_len {pa : PA P} {ptraj : List (SStep P)} {pind : List ℕ} {fut : List (SStep P)} {D : SData U Y} {cur : ℕ} {weights : List ℝ} {maxpdf : ℝ}
    {a : Attempt} {todo : List ℕ} {res : List (Option ℕ)} {r : List (Option ℕ) × List ℕ}
    (h : rsRound S pa ptraj pind fut D cur weights maxpdf a todo res = .ok r) : r.1.length = res.length := by
  unfold rsRound at h
  obtain ⟨s, -, h⟩ := bind_eq_ok.mp h
  obtain ⟨part, -, h⟩ := bind_eq_ok.mp h
  obtain ⟨pi, -, h⟩ := bind_eq_ok.mp h
  obtain ⟨pn, -, h⟩ := bind_eq_ok.mp h
  split at h
  · obtain rfl := Except.ok.inj h; exact scatter_len _ _ _
  · cases h

theorem rsLoop_len {pa : PA P} {ptraj : List (SStep P)} {pind : List ℕ} {fut : List (SStep P)} {D : SData U Y} {cur : ℕ} {weights : List ℝ} {maxpdf : ℝ}
    {as : List Attempt} {todo : List ℕ} {res : List (Option ℕ)} {r : List (Option ℕ) × List ℕ}
    (h : rsLoop S pa ptraj pind fut D cur weights maxpdf as todo res = .ok r) : r.1.length = res.length := by
  induction as generalizing todo res with
  | nil => obtain rfl := Except.ok.inj h; rfl
  | cons a as ih =>
    unfold rsLoop at h
    obtain ⟨⟨res', todo'⟩, h1, h⟩ := bind_eq_ok.mp h
    have e := rsRound_len h1
    dsimp only at h e
    split at h
    · obtain rfl := Except.ok.inj h; exact e
    · rw [ih h, e]

theorem rsFallback_len {pa : PA P} {ptraj : List (SStep P)} {pind : List ℕ} {fut : List (SStep P)} {D : SData U Y} {cur : ℕ} {full : ℕ → ℝ}
    {todo : List ℕ} {res r : List (Option ℕ)} (h : rsFallback S pa ptraj pind fut D cur full todo res = .ok r) : r.length = res.length := by
  unfold rsFallback at h
  obtain ⟨b, -, h⟩ := bind_eq_ok.mp h
  obtain rfl := Except.ok.inj h
  exact scatter_len _ _ _

theorem rsasLoop_len {pa : PA P} {ptraj : List (SStep P)} {pind : List ℕ} {fut : List (SStep P)} {D : SData U Y} {cur : ℕ} {weights : List ℝ} {maxpdf : ℝ}
    {o : RsasOpts} {attempts : ℕ → Attempt} {fuel k : ℕ} {todo : List ℕ} {res : List (Option ℕ)} {pk Pk : ℝ} {r : List (Option ℕ) × List ℕ}
    (h : rsasLoop S pa ptraj pind fut D cur weights maxpdf o attempts fuel k todo res pk Pk = .ok (some r)) : r.1.length = res.length := by
  induction fuel generalizing k todo res pk Pk with
  | zero => cases h
  | succ fuel ih =>
    unfold rsasLoop at h
    obtain ⟨⟨res', todo'⟩, h1, h⟩ := bind_eq_ok.mp h
    have e := rsRound_len h1
    dsimp only at h e
    split at h
    · obtain rfl := Option.some.inj (Except.ok.inj h); exact e
    · split at h
      · obtain rfl := Option.some.inj (Except.ok.inj h); exact e
      · rw [ih h, e]

theorem mcmcRound_len {pa : PA P} {ptraj : List (SStep P)} {pind : List ℕ} {fut : List (SStep P)} {find : List ℕ} {D : SData U Y} {cur : ℕ} {weights : List ℝ}
    {a : Attempt} {s r : List ℕ × List ℝ} (h : mcmcRound S pa ptraj pind fut find D cur weights a s = .ok r) : r.1.length = s.1.length := by
  unfold mcmcRound at h
  obtain ⟨q, hq, h⟩ := bind_eq_ok.mp h
  obtain ⟨part, -, h⟩ := bind_eq_ok.mp h
  obtain ⟨pi, -, h⟩ := bind_eq_ok.mp h
  obtain ⟨pprop, -, h⟩ := bind_eq_ok.mp h
  obtain ⟨diff, -, h⟩ := bind_eq_ok.mp h
  split at h
  · rename_i hl
    obtain rfl := Except.ok.inj h
    have := sample_len hq
    simp [hl.1, hl.2, this, Shuffle.app_length]
  · cases h

theorem bsiPick_len {m : BsiMethod} {st : Step P} {ptraj fut : List (SStep P)} {find : List ℕ} {D : SData U Y} {cur : ℕ} {anc : List ℕ} {d : BsiDraws Ω}
    {fuel : ℕ} {ind : List ℕ} (hanc : anc.length = find.length) (h : bsiPick S m st ptraj fut find D cur anc d fuel = .ok (some ind)) : ind.length = find.length := by
  unfold bsiPick at h
  cases m with
  | full =>
    obtain ⟨i, h1, h⟩ := bind_eq_ok.mp h
    obtain rfl := Option.some.inj (Except.ok.inj h)
    exact bsiFull_len h1
  | mcmc R =>
    obtain ⟨i, h1, h⟩ := bind_eq_ok.mp h
    obtain rfl := Option.some.inj (Except.ok.inj h)
    unfold bsiMcmc at h1
    obtain ⟨w, -, h1⟩ := bind_eq_ok.mp h1
    obtain ⟨part, -, h1⟩ := bind_eq_ok.mp h1
    obtain ⟨pi, -, h1⟩ := bind_eq_ok.mp h1
    obtain ⟨pc, -, h1⟩ := bind_eq_ok.mp h1
    obtain ⟨s, hs, h1⟩ := bind_eq_ok.mp h1
    obtain rfl := Except.ok.inj h1
    have key : ∀ (as : List Attempt) (s s' : List ℕ × List ℝ),
        as.foldlM (fun s a => mcmcRound S st.pa ptraj st.ancestors fut find D cur w a s) s = .ok s' → s'.1.length = s.1.length := by
      intro as
      induction as with
      | nil => intro s s' h; obtain rfl := Except.ok.inj h; rfl
      | cons a as ih =>
        intro s s' h
        rw [List.foldlM_cons] at h
        obtain ⟨s1, h1, h⟩ := bind_eq_ok.mp h
        rw [ih _ _ h, mcmcRound_len h1]
    rw [key _ _ _ hs, hanc]
  | rs k mp =>
    obtain ⟨mx, -, h⟩ := bind_eq_ok.mp h
    obtain ⟨r, h1, h⟩ := bind_eq_ok.mp h
    obtain ⟨i, h2, h⟩ := bind_eq_ok.mp h
    obtain rfl := Option.some.inj (Except.ok.inj h)
    rw [finished_len h2]
    unfold bsiRs at h1
    obtain ⟨w, -, h1⟩ := bind_eq_ok.mp h1
    obtain ⟨⟨res, todo⟩, h3, h1⟩ := bind_eq_ok.mp h1
    have e := rsLoop_len h3
    rw [List.length_replicate] at e
    dsimp only at h1 e
    split at h1
    · obtain rfl := Except.ok.inj h1; exact e
    · rw [rsFallback_len h1, e]
  | rsas o mp =>
    obtain ⟨mx, -, h⟩ := bind_eq_ok.mp h
    obtain ⟨r, h1, h⟩ := bind_eq_ok.mp h
    cases r with
    | none => cases h
    | some r =>
      obtain ⟨i, h2, h⟩ := bind_eq_ok.mp h
      obtain rfl := Option.some.inj (Except.ok.inj h)
      rw [finished_len h2]
      unfold bsiRsas at h1
      obtain ⟨w, -, h1⟩ := bind_eq_ok.mp h1
      obtain ⟨r', h3, h1⟩ := bind_eq_ok.mp h1
      cases r' with
      | none => cases h1
      | some r' =>
        obtain ⟨res, todo⟩ := r'
        have e := rsasLoop_len h3
        rw [List.length_replicate] at e
        dsimp only at h1 e
        split at h1
        · obtain rfl := Option.some.inj (Except.ok.inj h1); exact e
        · obtain ⟨r2, h4, h1⟩ := bind_eq_ok.mp h1
          obtain rfl := Option.some.inj (Except.ok.inj h1)
          rw [rsFallback_len h4, e]

theorem bsiLoop_shape (hpl : PlainSmooth S D) {m : BsiMethod} {pt : List (Step P)} {M : ℕ} {draws : ℕ → BsiDraws Ω} {fuel n : ℕ} {anc : List ℕ}
    {fut traj : List (SStep P)} {T : ℕ} (hanc : anc.length = M) (hf : Shape fut T M) (h : bsiLoop S m pt M D draws fuel n anc fut = .ok (some traj)) :
    Shape traj (n + T) M := by
  induction n generalizing anc fut T with
  | zero => obtain rfl := Option.some.inj (Except.ok.inj h); simpa using hf
  | succ n ih =>
    unfold bsiLoop at h
    obtain ⟨st, -, h⟩ := bind_eq_ok.mp h
    obtain ⟨r, h1, h⟩ := bind_eq_ok.mp h
    cases r with
    | none => cases h
    | some ind =>
      obtain ⟨a, h2, h⟩ := bind_eq_ok.mp h
      obtain ⟨part, h3, h⟩ := bind_eq_ok.mp h
      rw [hpl, ok_bind] at h
      obtain ⟨pa, h4, h⟩ := bind_eq_ok.mp h
      have hi : ind.length = M := by have := bsiPick_len (by simpa using hanc) h1; simpa using this
      have := ih (T := T + 1) (by rw [fancy_len h2, hi]) ⟨by simp [hf.1], by
        intro s hs
        rcases List.mem_cons.mp hs with rfl | hs
        · show pa.part.length = M
          rw [PA.new_part h4, fancy_len h3, hi]
        · exact hf.2 s hs⟩ h
      rwa [show n + 1 + T = n + (T + 1) by omega]

theorem ancLoop_shape (hpl : PlainSmooth S D) {pt : List (Step P)} {M : ℕ} {ω : ℕ → Ω} {n : ℕ} {ind : List ℕ}
    {fut traj : List (SStep P)} {T : ℕ} (hi : ind.length = M) (hf : Shape fut T M) (h : ancLoop S pt M D ω n ind fut = .ok traj) :
    Shape traj (n + T) M := by
  induction n generalizing ind fut T with
  | zero => obtain rfl := Except.ok.inj h; simpa using hf
  | succ n ih =>
    unfold ancLoop at h
    obtain ⟨st, -, h⟩ := bind_eq_ok.mp h
    obtain ⟨a, h2, h⟩ := bind_eq_ok.mp h
    obtain ⟨part, h3, h⟩ := bind_eq_ok.mp h
    rw [hpl, ok_bind] at h
    obtain ⟨pa, h4, h⟩ := bind_eq_ok.mp h
    have := ih (T := T + 1) (by rw [fancy_len h2, hi]) ⟨by simp [hf.1], by
      intro s hs
      rcases List.mem_cons.mp hs with rfl | hs
      · show pa.part.length = M
        rw [PA.new_part h4, fancy_len h3, hi]
      · exact hf.2 s hs⟩ h
    rwa [show n + 1 + T = n + (T + 1) by omega]

theorem drawEnd_len {last : Step P} {M : ℕ} {r : ℝ} {ind : List ℕ} (h : drawEnd last M r = .ok ind) : ind.length = M := by
  unfold drawEnd at h
  obtain ⟨w, -, h⟩ := bind_eq_ok.mp h
  exact sample_len h

theorem length_pos_of_getLast {α : Type} {l : List α} {x : α} (h : getLast l = .ok x) : 0 < l.length := by
  cases l with
  | nil => cases h
  | cons a l => simp

theorem performBsi_shape (hpl : PlainSmooth S D) {opts : PyM BsiMethod} {pt : List (Step P)} {M : ℕ} {d : SmoothDraws Ω} {fuel : ℕ} {traj : List (SStep P)}
    (h : performBsi S opts pt M D d fuel = .ok (some traj)) : Shape traj pt.length M := by
  unfold performBsi at h
  obtain ⟨last, h0, h⟩ := bind_eq_ok.mp h
  obtain ⟨ind, h1, h⟩ := bind_eq_ok.mp h
  obtain ⟨a, h2, h⟩ := bind_eq_ok.mp h
  obtain ⟨part, h3, h⟩ := bind_eq_ok.mp h
  rw [hpl, ok_bind] at h
  obtain ⟨pa, h4, h⟩ := bind_eq_ok.mp h
  obtain ⟨m, -, h⟩ := bind_eq_ok.mp h
  have hpos := length_pos_of_getLast h0
  have hi := drawEnd_len h1
  have := bsiLoop_shape (T := 1) hpl (by rw [fancy_len h2, hi]) ⟨rfl, by
    intro s hs
    obtain rfl := List.mem_singleton.mp hs
    show pa.part.length = M
    rw [PA.new_part h4, fancy_len h3, hi]⟩ h
  rwa [show pt.length - 1 + 1 = pt.length by omega] at this

theorem performAncestorsInt_shape (hpl : PlainSmooth S D) {pt : List (Step P)} {M : ℕ} {d : SmoothDraws Ω} {traj : List (SStep P)}
    (h : performAncestorsInt S pt M D d = .ok traj) : Shape traj pt.length M := by
  unfold performAncestorsInt at h
  obtain ⟨last, h0, h⟩ := bind_eq_ok.mp h
  obtain ⟨ind, h1, h⟩ := bind_eq_ok.mp h
  unfold calculateAncestors at h
  obtain ⟨last', -, h⟩ := bind_eq_ok.mp h
  obtain ⟨a, h2, h⟩ := bind_eq_ok.mp h
  obtain ⟨part, h3, h⟩ := bind_eq_ok.mp h
  rw [hpl, ok_bind] at h
  obtain ⟨pa, h4, h⟩ := bind_eq_ok.mp h
  have hpos := length_pos_of_getLast h0
  have hi := drawEnd_len h1
  rw [hi] at h
  have := ancLoop_shape (T := 1) hpl (by rw [fancy_len h2, hi]) ⟨rfl, by
    intro s hs
    obtain rfl := List.mem_singleton.mp hs
    show pa.part.length = M
    rw [PA.new_part h4, fancy_len h3, hi]⟩ h
  rwa [show pt.length - 1 + 1 = pt.length by omega] at this

/-- The methods of backward simulation and the ancestor smoother. -/
def Spec.PlainMethod (method : String) : Prop := method = "full" ∨ method = "mcmc" ∨ method = "rs" ∨ method = "rsas" ∨ method = "ancestor"

/-- Whatever is drawn: a smoother that returns gives a step for every filter step and `num_traj` particles in each. -/
theorem smoothing_shape (hpl : PlainSmooth S D) (hps : NoPostprocessing S) {method : String} (hm : PlainMethod method) {pt : List (Step P)} {M : ℕ}
    {user : Option SOpts} {d : AllDraws Ω} {fuel : ℕ} {traj : List (SStep P)}
    (h : performSmoothing S pt M D method user d fuel = .ok (some traj)) : Shape traj pt.length M := by
  unfold performSmoothing at h
  obtain ⟨o, -, h⟩ := bind_eq_ok.mp h
  unfold smoothTrajectory at h
  obtain ⟨r, h1, h⟩ := bind_eq_ok.mp h
  cases r with
  | none => cases h
  | some t =>
    obtain ⟨t', h2, h⟩ := bind_eq_ok.mp h
    rw [hps] at h2
    obtain rfl := Except.ok.inj h2
    obtain rfl := Option.some.inj (Except.ok.inj h)
    split at h1
    · exact performBsi_shape hpl h1
    · rename_i hne
      have hanc : method = "ancestor" := by
        rcases hm with h | h | h | h | h
        · exact absurd (.inl h) hne
        · exact absurd (.inr (.inl h)) hne
        · exact absurd (.inr (.inr (.inl h))) hne
        · exact absurd (.inr (.inr (.inr h))) hne
        · exact h
      rw [if_pos hanc] at h1
      obtain ⟨t, h3, h1⟩ := bind_eq_ok.mp h1
      obtain ⟨t2, h4, h1⟩ := bind_eq_ok.mp h1
      rw [hps] at h4
      obtain rfl := Except.ok.inj h4
      obtain rfl := Option.some.inj (Except.ok.inj h1)
      exact performAncestorsInt_shape hpl h3

end PyPE

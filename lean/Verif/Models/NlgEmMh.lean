import Verif.Param.EmMh
import Verif.Models.NlgEmRounds
import Verif.Models.NlgMhbp

/-!
# C116 for nonlinear Gaussian models with the Metropolis-Hastings smoothers
-/

namespace PyPE
open Real Spec MeasureTheory ProbabilityTheory Matrix
open scoped ENNReal

variable {n m : ℕ} {U V : Type}

/-- C116 for `NonlinearGaussianInitialGaussian`, `ParamEstInterface` and `ParamEstBaseNumeric` with the smoothers 'mhips', 'mhips_reduced' and (one trajectory)
'mhbp', which use the model's own `propose_smooth`, `logp_proposal`, `logp_xnext` and `eval_logp_x0`, all with the parameters of the run. -/
theorem C116_nonlinear_gaussian_mh {H H' : NlgHooks n m (Slot U) ℕ} {o o' : NlgObj n m} {F F' : ℕ → Slot U → (Fin n → ℝ) → Fin n → ℝ}
    {Q Q' : ℕ → Slot U → (Fin n → ℝ) → Matrix (Fin n) (Fin n) ℝ} {G G' : ℕ → (Fin n → ℝ) → Fin m → ℝ}
    {R R' : ℕ → (Fin n → ℝ) → Matrix (Fin m) (Fin m) ℝ} (hD : Spec.NlgDescribes H o F Q G R) (hD' : Spec.NlgDescribes H' o' F' Q' G' R')
    (hone : Spec.TransExact H Q)
    (hone' : Spec.TransExact H' Q') {o0 o0' : NlgX0 n} (hP : o0.P0.PosDef) (hP' : o0'.P0.PosDef)
    (h0 : o0.P0 ≠ 0) (h0' : o0'.P0 ≠ 0) (hdiag : ∀ i j, i ≠ j → o0.P0 i j = 0) {N : ℕ} (hN : 0 < N)
    {M M' : ℕ → Slot U → Kernel (Fin n → ℝ) (Fin n → ℝ)} (hM : GaussDensities F Q G R M) (hM' : GaussDensities F' Q' G' R' M')
    {rest : Callbacks (Fin n → ℝ) U (Fin m → ℝ) (List (Fin n → ℝ)) (ℕ → Fin n → ℝ)} {res : ℝ} {name : String}
    {opts : FilterOptions (Fin n → ℝ)} (hn : parseFilter name = .ok .pf) {Fl : FilterOps (Fin n → ℝ) U (Fin m → ℝ) _ _}
    (hF : mkFilter ((nlgStream H o o0).toCallbacks rest) N res name opts = .ok Fl) {T : Option ℕ} {s0 : PT (Fin n → ℝ) U (Fin m → ℝ)}
    (hs : PT.init N T 0 = .ok s0) (srest : SmoothCallbacks (Fin n → ℝ) U (Fin m → ℝ) (List (Fin n → ℝ)) (ℕ → Fin n → ℝ))
    {k : ℕ} (hk : 0 < k) (user : Option SOpts) (d : AllDraws (ℕ → Fin n → ℝ)) (fuel : ℕ)
    (first : Option (Fin m → ℝ)) (qs : List (Slot U × (Fin m → ℝ))) (hne : qs ≠ []) {c : ℝ}
    (hc : ∀ xs, completeLog (fun x => logNormal o0.P0 (x - o0.x0)) (nlgTrans F Q) (nlgLoglik G R) (first.map .obj) (asSlots qs) xs ≤ c)
    (hc' : ∀ xs, completeLog (fun x => logNormal o0'.P0 (x - o0'.x0)) (nlgTrans F' Q') (nlgLoglik G' R') (first.map .obj) (asSlots qs) xs ≤ c) :
    let L := smoothingE (gauss o0.x0 o0.P0) M (nlgLoglik G R) (first.map .obj) (asSlots qs) fun _ => 1
    let L' := smoothingE (gauss o0'.x0 o0'.P0) M' (nlgLoglik G' R') (first.map .obj) (asSlots qs) fun _ => 1
    let obj := objectiveBy (stream n) s0 Fl (first.map .obj) (asSlots qs)
    let S := ffbsi (nlgLogpXnext H o) ((nlgStream H o o0).toSmooth (nlgSmooth H o o0 srest))
    (∀ method Rp, method = "mhips" ∨ method = "mhips_reduced" → passes method user = .ok Rp →
      let mhips := mhipsE S (stream n) k method Rp user d fuel
      L + obj mhips (nlgEvalY H o) (nlgLogpXnext H o) (nlgEvalX0 o0) c ≤ L' + obj mhips (nlgEvalY H' o') (nlgLogpXnext H' o') (nlgEvalX0 o0') c) ∧
    (∀ Rp, (choose user (·.R) (.int 30)).range = .ok Rp →
      let mhbp := mhbpE S (stream n) Rp user d fuel
      L + obj mhbp (nlgEvalY H o) (nlgLogpXnext H o) (nlgEvalX0 o0) c ≤ L' + obj mhbp (nlgEvalY H' o') (nlgLogpXnext H' o') (nlgEvalX0 o0') c) := by
  intro L L' obj S
  have hfirst : ∀ y ∈ first.map Slot.obj, IsObj y ∧ y ≠ .none := by
    intro y hy
    obtain ⟨v, -, rfl⟩ := Option.mem_map.mp hy
    exact ⟨⟨v, rfl⟩, by simp⟩
  have hne' : asSlots qs ≠ [] := fun e => hne (List.map_eq_nil_iff.mp e)
  have hsmp := nlgStream_samples hD hP h0 hdiag hM.law hM.lik N
  have hden' := nlg_densities (nlg_posDef hD') hP' hM'.law hM'.trans
  refine ⟨fun method Rp hme hR => ?_, fun Rp hR => ?_⟩
  · exact C116_em_gain_mhips hN hk hsmp (nlgMhips_model hD hone hP h0 hdiag hM.law hM.lik hM.trans srest k) hn hF hs hden' hM'.lik hfirst (asSlots_isObj qs) hne'
      (nlg_mhipsMethod hD hone hP h0 hdiag hM.trans srest k _ _ (hme.imp_right fun h => ⟨h, fun q hq e => by
        obtain ⟨v, hv⟩ := asSlots_isObj qs q (List.mem_of_getLast? hq)
        rw [hv] at e; cases e⟩)) hR d fuel (nlg_logTerms hD hone hP h0) (nlg_logTerms hD' hone' hP' h0') hc hc'
  · exact C116_em_gain_mhbp hN hsmp (nlgMhips_model hD hone hP h0 hdiag hM.law hM.lik hM.trans srest 1) hn hF hs hden' hM'.lik hfirst (asSlots_isObj qs) hne'
      ⟨_, nlg_proposalDensity hD hP hM.trans _, fun D hR => nlg_backProposal hD hone hP h0 hdiag srest hR⟩ hR d fuel
      (nlg_logTerms hD hone hP h0) (nlg_logTerms hD' hone' hP' h0') hc hc'

/-! ### A concrete case -/

/-- C116 on the model of `nlgLikToy`: 25 particles, default options: 30 passes of 'mhips' on 3 trajectories, 30 iterations of 'mhbp'; the parameter is the process noise
variance. -/
example {q q' : ℝ} (hq : 0 < q) (hq' : 0 < q') (rest : Callbacks (Fin 2 → ℝ) ℝ (Fin 2 → ℝ) (List (Fin 2 → ℝ)) (ℕ → Fin 2 → ℝ))
    (qs : List (Slot ℝ × (Fin 2 → ℝ))) (hne : qs ≠ []) (srest : SmoothCallbacks (Fin 2 → ℝ) ℝ (Fin 2 → ℝ) (List (Fin 2 → ℝ)) (ℕ → Fin 2 → ℝ))
    (d : AllDraws (ℕ → Fin 2 → ℝ)) :
    ∃ (o o' : NlgObj 2 2) (Fl : _) (s0 : PT (Fin 2 → ℝ) ℝ (Fin 2 → ℝ)) (c : ℝ), nlgInit none none (some (q • 1)) (some 1) = .ok o ∧
      nlgInit none none (some (q' • 1)) (some 1) = .ok o' ∧
      mkFilter ((nlgStream nlgLikToy o ⟨0, 1⟩).toCallbacks rest) 25 (2/3) "PF" .none = .ok Fl ∧ PT.init 25 none 0 = .ok s0 ∧
      ∀ smooth, (smooth = mhipsE (ffbsi (nlgLogpXnext nlgLikToy o) ((nlgStream nlgLikToy o ⟨0, 1⟩).toSmooth (nlgSmooth nlgLikToy o ⟨0, 1⟩ srest))) (stream 2) 3 "mhips" 30 none d 0 ∨
        smooth = mhbpE (ffbsi (nlgLogpXnext nlgLikToy o) ((nlgStream nlgLikToy o ⟨0, 1⟩).toSmooth (nlgSmooth nlgLikToy o ⟨0, 1⟩ srest))) (stream 2) 30 none d 0) →
      smoothingE (gauss 0 1) (fun _ _ => gaussKernel (fun x => (1/2 : ℝ) • x) (by fun_prop) (q • 1)) (nlgLoglik (fun _ x => x) fun _ _ => 1) none (asSlots qs) (fun _ => 1) +
          objectiveBy (stream 2) s0 Fl none (asSlots qs) smooth (nlgEvalY nlgLikToy o) (nlgLogpXnext nlgLikToy o) (nlgEvalX0 ⟨0, 1⟩) c ≤
        smoothingE (gauss 0 1) (fun _ _ => gaussKernel (fun x => (1/2 : ℝ) • x) (by fun_prop) (q' • 1)) (nlgLoglik (fun _ x => x) fun _ _ => 1) none (asSlots qs) (fun _ => 1) +
          objectiveBy (stream 2) s0 Fl none (asSlots qs) smooth (nlgEvalY nlgLikToy o') (nlgLogpXnext nlgLikToy o') (nlgEvalX0 ⟨0, 1⟩) c := by
  obtain ⟨o, ho, hD⟩ := nlgLikToy_set hq
  obtain ⟨o', ho', hD'⟩ := nlgLikToy_set hq'
  have h1 : (1 : Matrix (Fin 2) (Fin 2) ℝ) ≠ 0 := by
    intro h
    have := congrFun (congrFun h 0) 0
    simp at this
  have hn : parseFilter "PF" = .ok .pf := by
    have : "PF".toLower = "pf" := by decide +kernel
    simp [parseFilter, this]
  obtain ⟨c, hc⟩ := nlg_completeLog_bounded (U := ℝ) (F := fun _ _ x => (1/2 : ℝ) • x) (PosDef.one.smul hq) (G := fun _ x => x) (R := (1 : Matrix (Fin 2) (Fin 2) ℝ))
    PosDef.one (P0 := (1 : Matrix (Fin 2) (Fin 2) ℝ)) PosDef.one 0 none (asSlots qs)
  obtain ⟨c', hc'⟩ := nlg_completeLog_bounded (U := ℝ) (F := fun _ _ x => (1/2 : ℝ) • x) (PosDef.one.smul hq') (G := fun _ x => x) (R := (1 : Matrix (Fin 2) (Fin 2) ℝ))
    PosDef.one (P0 := (1 : Matrix (Fin 2) (Fin 2) ℝ)) PosDef.one 0 none (asSlots qs)
  refine ⟨o, o', _, _, max c c', ho, ho', mkFilter_pf _ _ _ hn FilterOptions.none, rfl, ?_⟩
  have h := C116_nonlinear_gaussian_mh hD hD' (.inl (by norm_num)) (.inl (by norm_num)) (o0 := ⟨0, 1⟩) (o0' := ⟨0, 1⟩) PosDef.one PosDef.one h1 h1
    (fun i j h => by simp [h]) (N := 25) (by norm_num) (half_densities hq) (half_densities hq') (rest := rest) (res := 2/3) hn (mkFilter_pf _ _ _ hn FilterOptions.none)
    (T := none) rfl srest (k := 3) (by norm_num) none d 0 none qs hne (fun xs => (hc xs).trans (le_max_left _ _)) (fun xs => (hc' xs).trans (le_max_right _ _))
  rintro smooth (rfl | rfl)
  · exact h.1 "mhips" 30 (.inl rfl) (by simp [passes, choose, PyNum.range])
  · exact h.2 30 rfl

end PyPE

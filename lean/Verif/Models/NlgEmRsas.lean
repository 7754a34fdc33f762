import Verif.Models.NlgEmRounds
import Verif.Param.EmMh

/-!
# C116 for `NonlinearGaussian` models with the smoother 'rsas'
-/

namespace PyPE
open Real Spec MeasureTheory ProbabilityTheory Matrix
open scoped ENNReal

variable {n m : ℕ} {U V : Type}

/-- C116 for `NonlinearGaussianInitialGaussian`, `ParamEstInterface` and `ParamEstBaseNumeric` with the adaptive rejection smoother 'rsas', as
`C116_nonlinear_gaussian_rounds`. The smoother has a random number of rounds: `B` bounds it for every run of the filter. -/
theorem C116_nonlinear_gaussian_rsas {H H' : NlgHooks n m (Slot U) ℕ} {o o' : NlgObj n m} {F F' : ℕ → Slot U → (Fin n → ℝ) → Fin n → ℝ}
    {Q Q' : ℕ → Slot U → (Fin n → ℝ) → Matrix (Fin n) (Fin n) ℝ} {G G' : ℕ → (Fin n → ℝ) → Fin m → ℝ}
    {R R' : ℕ → (Fin n → ℝ) → Matrix (Fin m) (Fin m) ℝ} (hD : Spec.NlgDescribes H o F Q G R) (hD' : Spec.NlgDescribes H' o' F' Q' G' R')
    (hone : Spec.TransExact H Q)
    (hone' : Spec.TransExact H' Q') {o0 o0' : NlgX0 n} (hP : o0.P0.PosDef) (hP' : o0'.P0.PosDef)
    (h0 : o0.P0 ≠ 0) (h0' : o0'.P0 ≠ 0) (hdiag : ∀ i j, i ≠ j → o0.P0 i j = 0) {N : ℕ} (hN : 0 < N)
    {M M' : ℕ → Slot U → Kernel (Fin n → ℝ) (Fin n → ℝ)} (hM : GaussDensities F Q G R M) (hM' : GaussDensities F' Q' G' R' M')
    {rest : Callbacks (Fin n → ℝ) U (Fin m → ℝ) (List (Fin n → ℝ)) (Fin N → Fin n → ℝ)} {res : ℝ} {name : String}
    {opts : FilterOptions (Fin n → ℝ)} (hn : parseFilter name = .ok .pf) {Fl : FilterOps (Fin n → ℝ) U (Fin m → ℝ) _ _}
    (hF : mkFilter ((nlgMarkov N H o o0).toCallbacks rest) N res name opts = .ok Fl) {T : Option ℕ} {s0 : PT (Fin n → ℝ) U (Fin m → ℝ)}
    (hs : PT.init N T 0 = .ok s0)
    {srest : SmoothCallbacks (Fin n → ℝ) U (Fin m → ℝ) (List (Fin n → ℝ)) (Fin N → Fin n → ℝ)} (hps : NoPostprocessing srest)
    {k : ℕ} (hk : 0 < k) {user : Option SOpts} (hmp : user.bind (·.maxpdf) = none) (hsw : (rsasParams user).sw ≠ 0) (hratio : 0 < (rsasParams user).ratio)
    (hP1 : 0 < (rsasParams user).P1 ∨ 0 ≤ (rsasParams user).P1 ∧ (rsasParams user).sv ≠ 0) (d : AllDraws (Fin N → Fin n → ℝ))
    (first : Option (Fin m → ℝ)) (qs : List (Slot U × (Fin m → ℝ))) (hne : first = none → qs ≠ []) {c : ℝ}
    (hc : ∀ xs, completeLog (fun x => logNormal o0.P0 (x - o0.x0)) (nlgTrans F Q) (nlgLoglik G R) (first.map .obj) (asSlots qs) xs ≤ c)
    (hc' : ∀ xs, completeLog (fun x => logNormal o0'.P0 (x - o0'.x0)) (nlgTrans F' Q') (nlgLoglik G' R') (first.map .obj) (asSlots qs) xs ≤ c) :
    ∃ B, ∀ fuel, B ≤ fuel →
      let L := smoothingE (gauss o0.x0 o0.P0) M (nlgLoglik G R) (first.map .obj) (asSlots qs) fun _ => 1
      let L' := smoothingE (gauss o0'.x0 o0'.P0) M' (nlgLoglik G' R') (first.map .obj) (asSlots qs) fun _ => 1
      let rsas := smoothRoundsE fuel (ffbsiRS (nlgLogpXnext H o) (nlgLogpXnextMax H o) srest) k "rsas" user d fuel
      let obj := objectiveBy (normals N n) s0 Fl (first.map .obj) (asSlots qs) rsas
      L + obj (nlgEvalY H o) (nlgLogpXnext H o) (nlgEvalX0 o0) c ≤ L' + obj (nlgEvalY H' o') (nlgLogpXnext H' o') (nlgEvalX0 o0') c := by
  have hsmp := nlg_samples hD o0 (N := N) (nlg_create_diag hP h0 hdiag N) hM.law hM.lik
  have hfirst : ∀ y ∈ first.map Slot.obj, IsObj y ∧ y ≠ .none := by
    intro y hy
    obtain ⟨v, -, rfl⟩ := Option.mem_map.mp hy
    exact ⟨⟨v, rfl⟩, by simp⟩
  have hne' : first.map Slot.obj = none → asSlots qs ≠ [] := by
    intro h
    rw [Option.map_eq_none_iff] at h
    exact fun e => hne h (List.map_eq_nil_iff.mp e)
  have hnone : ∀ q ∈ asSlots qs, q.2 = .none → ∀ (k : ℕ) (x : Fin n → ℝ), nlgLoglik G R k .none x = 0 := fun _ _ _ _ _ => rfl
  exact C116_em_gain_rsas hN hsmp hn hF (nlg_logDensity hD hone) (nlg_maxDensity hD hone) (nlg_densities (nlg_posDef hD) hP hM.law hM.trans)
    (nlg_densities (nlg_posDef hD') hP' hM'.law hM'.trans) hM'.lik hps hk hmp hsw hratio hP1 d hs hfirst hne' (asSlots_isObj qs) hnone
    (nlg_logTerms hD hone hP h0) (nlg_logTerms hD' hone' hP' h0') hc hc'

/-- C116 on the model of `nlgLikToy`: 25 particles, 'rsas' with default options; the parameter is the process noise variance. -/
example {q q' : ℝ} (hq : 0 < q) (hq' : 0 < q') (rest : Callbacks (Fin 2 → ℝ) ℝ (Fin 2 → ℝ) (List (Fin 2 → ℝ)) (Fin 25 → Fin 2 → ℝ))
    (qs : List (Slot ℝ × (Fin 2 → ℝ))) (hne : qs ≠ []) (srest : SmoothCallbacks (Fin 2 → ℝ) ℝ (Fin 2 → ℝ) (List (Fin 2 → ℝ)) (Fin 25 → Fin 2 → ℝ))
    (d : AllDraws (Fin 25 → Fin 2 → ℝ)) :
    ∃ (o o' : NlgObj 2 2) (Fl : _) (s0 : PT (Fin 2 → ℝ) ℝ (Fin 2 → ℝ)) (c : ℝ), nlgInit none none (some (q • 1)) (some 1) = .ok o ∧
      nlgInit none none (some (q' • 1)) (some 1) = .ok o' ∧
      mkFilter ((nlgMarkov 25 nlgLikToy o ⟨0, 1⟩).toCallbacks rest) 25 (2/3) "PF" .none = .ok Fl ∧ PT.init 25 none 0 = .ok s0 ∧
      ∃ B, ∀ fuel, B ≤ fuel →
      let smooth := smoothRoundsE fuel (ffbsiRS (nlgLogpXnext nlgLikToy o) (nlgLogpXnextMax nlgLikToy o) { srest with postSmoothing := none }) 3 "rsas" none d fuel
      smoothingE (gauss 0 1) (fun _ _ => gaussKernel (fun x => (1/2 : ℝ) • x) (by fun_prop) (q • 1)) (nlgLoglik (fun _ x => x) fun _ _ => 1) none (asSlots qs) (fun _ => 1) +
          objectiveBy (normals 25 2) s0 Fl none (asSlots qs) smooth (nlgEvalY nlgLikToy o) (nlgLogpXnext nlgLikToy o) (nlgEvalX0 ⟨0, 1⟩) c ≤
        smoothingE (gauss 0 1) (fun _ _ => gaussKernel (fun x => (1/2 : ℝ) • x) (by fun_prop) (q' • 1)) (nlgLoglik (fun _ x => x) fun _ _ => 1) none (asSlots qs) (fun _ => 1) +
          objectiveBy (normals 25 2) s0 Fl none (asSlots qs) smooth (nlgEvalY nlgLikToy o') (nlgLogpXnext nlgLikToy o') (nlgEvalX0 ⟨0, 1⟩) c := by
  obtain ⟨o, ho, hD⟩ := nlgLikToy_set hq
  obtain ⟨o', ho', hD'⟩ := nlgLikToy_set hq'
  have h1 : (1 : Matrix (Fin 2) (Fin 2) ℝ) ≠ 0 := by
    intro h
    have := congrFun (congrFun h 0) 0
    simp at this
  have hn : parseFilter "PF" = .ok .pf := by
    have : "PF".toLower = "pf" := by decide +kernel
    simp [parseFilter, this]
  obtain ⟨c, hc⟩ := nlg_completeLog_bounded (U := ℝ) (F := fun _ _ x => (1/2 : ℝ) • x) (PosDef.one.smul hq) (G := fun _ x => x) (R := (1 : Matrix (Fin 2) (Fin 2) ℝ))
    PosDef.one (P0 := (1 : Matrix (Fin 2) (Fin 2) ℝ)) PosDef.one 0 none (asSlots qs)
  obtain ⟨c', hc'⟩ := nlg_completeLog_bounded (U := ℝ) (F := fun _ _ x => (1/2 : ℝ) • x) (PosDef.one.smul hq') (G := fun _ x => x) (R := (1 : Matrix (Fin 2) (Fin 2) ℝ))
    PosDef.one (P0 := (1 : Matrix (Fin 2) (Fin 2) ℝ)) PosDef.one 0 none (asSlots qs)
  refine ⟨o, o', _, _, max c c', ho, ho', mkFilter_pf _ _ _ hn FilterOptions.none, rfl, ?_⟩
  exact C116_nonlinear_gaussian_rsas hD hD' (.inl (by norm_num)) (.inl (by norm_num)) (o0 := ⟨0, 1⟩) (o0' := ⟨0, 1⟩) PosDef.one PosDef.one h1 h1
    (fun i j h => by simp [h]) (N := 25) (by norm_num) (half_densities hq) (half_densities hq') (rest := rest) (res := 2/3) hn (mkFilter_pf _ _ _ hn FilterOptions.none)
    (T := none) rfl (srest := { srest with postSmoothing := none }) (fun _ => rfl) (k := 3) (by norm_num) (user := none) rfl (by norm_num [rsasParams, choose])
    (by norm_num [rsasParams, choose]) (by norm_num [rsasParams, choose]) d none qs (fun _ => hne) (fun xs => (hc xs).trans (le_max_left _ _))
    (fun xs => (hc' xs).trans (le_max_right _ _))

end PyPE

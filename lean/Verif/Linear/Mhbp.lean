import Verif.Linear.Smoothers
import Verif.Models.NlgMhbp

/-!
# C108 for the smoother 'mhbp'
-/

namespace PyPE
open Real Spec MeasureTheory ProbabilityTheory Matrix Filter
open scoped ENNReal

variable {n m : ℕ} {U V : Type}

/-- C108 for 'mhbp' with one trajectory, any number of iterations per time. -/
theorem C108_mhbp {H : NlgHooks n m (Slot U) ℕ} {o : NlgObj n m} {o0 : NlgX0 n} {L : LinearModel n m U} (hL : NlgIsLinear H o o0 L)
    (hone : Spec.TransExact H fun t u _ => L.Q t u)
    {rest : Callbacks (Fin n → ℝ) U (Fin m → ℝ) (List (Fin n → ℝ)) (ℕ → Fin n → ℝ)} {N : ℕ} (hN : 0 < N) {res : ℝ} {name : String}
    {op : FilterOptions (Fin n → ℝ)} (hn : parseFilter name = .ok .pf) {Fl : FilterOps (Fin n → ℝ) U (Fin m → ℝ) _ _}
    (hF : mkFilter ((nlgStream H o o0).toCallbacks rest) N res name op = .ok Fl) {T : Option ℕ} {s0 : PT (Fin n → ℝ) U (Fin m → ℝ)}
    (hs : PT.init N T 0 = .ok s0) (srest : SmoothCallbacks (Fin n → ℝ) U (Fin m → ℝ) (List (Fin n → ℝ)) (ℕ → Fin n → ℝ))
    {user : Option SOpts} {Rp : ℕ} (hR : (choose user (·.R) (.int 30)).range = .ok Rp)
    (d : AllDraws (ℕ → Fin n → ℝ)) (fuel : ℕ)
    (first : Option (Fin m → ℝ)) (pre post : List (Slot U × (Fin m → ℝ))) (hne : pre ++ post ≠ []) :
    ∃ z P l zs Ps zT PT ll, kfData o0.x0 o0.P0 (L.start first ++ L.data 0 pre) = .ok (z, P, l) ∧
      rtsData z P (L.data pre.length post) = .ok (zs, Ps) ∧
      kfData o0.x0 o0.P0 (L.start first ++ L.data 0 (pre ++ post)) = .ok (zT, PT, ll) ∧
      ∀ ψ : (Fin n → ℝ) → ℝ≥0∞, Measurable ψ →
        runE (stream n) Fl s0 (first.map .obj) (asSlots (pre ++ post))
          (runWeighted (mhbpE (ffbsi (nlgLogpXnext H o) ((nlgStream H o o0).toSmooth (nlgSmooth H o o0 srest))) (stream n) Rp user d fuel
            (pathMean (fun x => ψ (x.getD pre.length 0)) 1))) =
        ENNReal.ofReal (exp ll) * ∫⁻ x, ψ x ∂(gauss zs Ps) := by
  obtain ⟨z, P, l, zs, Ps, zT, PT, ll, e1, e2, e3, hv⟩ := linear_smoothed hL first pre post
  refine ⟨z, P, l, zs, Ps, zT, PT, ll, e1, e2, e3, fun ψ hψ => ?_⟩
  rw [← hv ψ hψ]
  have hQ' := fun t u => nlg_posDef hL.describes t u 0
  have hM := L.kernel_apply fun t u => (hQ' t u).posSemidef
  have hlm : ∀ t u, Measurable fun z : (Fin n → ℝ) × (Fin n → ℝ) => nlgTrans L.next (fun t u _ => L.Q t u) t u z.1 z.2 := by
    intro t u
    refine (continuous_logNormal (L.Q t u)).measurable.comp ?_
    have : Continuous fun z : (Fin n → ℝ) × (Fin n → ℝ) => z.2 - L.next t u z.1 := by
      unfold Spec.LinearModel.next
      fun_prop
    exact this.measurable
  have h := C122_nonlinear_gaussian hL.describes hone hL.posDef hL.nonzero hL.diag hM L.lik_measurable hlm (rest := rest) hN hn hF hs srest first (pre ++ post) hne hR d fuel
    (φ := fun x => ψ (x.getD pre.length 0)) (measurable_stateAt hψ _ _)
  have hseen : ∀ x, pathsE L.kernel L.lik (fun l => ψ (l.getD pre.length 0)) 0 (asSlots (pre ++ post)) [] x =
      pathsE L.kernel (seen L.lik) (fun l => ψ (l.getD pre.length 0)) 0 (asSlots (pre ++ post)) [] x := fun x =>
    pathsE_seen _ _ 0 _ (fun q hq e => absurd e (isObj_ne_none _ (asSlots_isObj _ q hq))) [] x
  simp only [hseen]
  cases first with
  | none =>
    simp only [Option.map_none, startWeight, ENNReal.ofReal_one, one_mul]
    exact h
  | some y => exact h

end PyPE

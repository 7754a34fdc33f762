import Verif.Models.NlgPaths
import Verif.Smooth.GibbsFull

/-!
# C96 for `NonlinearGaussian` models (nlg.py)
-/

namespace PyPE
open Real Spec MeasureTheory ProbabilityTheory Matrix
open scoped ENNReal

variable {n m : ℕ} {U V : Type}

/-- A reference trajectory with the states `xs`, as passed in `filter_options['cond_traj']`. -/
def Spec.reference {P : Type} (xs : List P) : List (Step P) := xs.map fun x => ⟨⟨[x], [0], 1, 0⟩, [0]⟩

theorem reference_state {P : Type} (xs : List P) (k : ℕ) (x : P) (h : xs[k]? = some x) : RefState (reference xs) k x := by
  unfold reference
  exact ⟨⟨⟨[x], [0], 1, 0⟩, [0]⟩, by rw [List.getElem?_map, h]; rfl, rfl⟩

theorem mkFilter_reference {P U Y V Ω : Type} (M : Callbacks P U Y V Ω) (N : ℕ) (res : ℝ) {name : String} {k : FilterKind}
    (hn : parseFilter name = .ok k) (hk : k = .cpf ∨ k = .cpfas) (xs : List P) :
    ∃ F, mkFilter M N res name (.dict (some (reference xs))) = .ok F := by
  unfold mkFilter
  rw [hn, ok_bind]
  rcases hk with rfl | rfl <;> exact ⟨_, rfl⟩

/-- C96 for `NonlinearGaussianInitialGaussian` with its own `logp_xnext`: particle Gibbs with `CPF` or `CPFAS`, two particles, and trajectories
drawn with `perform_smoothing(k, 'ancestor')` or `perform_smoothing(k, 'full')` leaves the smoothing law of `x_{t+1} ~ N(F(x_t), Q(x_t))`,
`y_t ~ N(G(x_t), R(x_t))` unchanged, with the initial law of C47. -/
theorem C96_nonlinear_gaussian {H : NlgHooks n m (Slot U) ℕ} {o : NlgObj n m} {F : ℕ → Slot U → (Fin n → ℝ) → Fin n → ℝ}
    {Q : ℕ → Slot U → (Fin n → ℝ) → Matrix (Fin n) (Fin n) ℝ} {G : ℕ → (Fin n → ℝ) → Fin m → ℝ}
    {R : ℕ → (Fin n → ℝ) → Matrix (Fin m) (Fin m) ℝ} (hD : Spec.NlgDescribes H o F Q G R)
    (hone : Spec.TransExact H Q) {o0 : NlgX0 n} (hP : o0.P0.PosDef) (h0 : o0.P0 ≠ 0)
    {M : ℕ → Slot U → Kernel (Fin n → ℝ) (Fin n → ℝ)} (hM : ∀ t u x, M t u x = Spec.gauss (F t u x) (Q t u x))
    (hmeas : ∀ t y, Measurable (nlgLoglik G R t y)) (hlm : ∀ t u, Measurable fun z : (Fin n → ℝ) × (Fin n → ℝ) => nlgTrans F Q t u z.1 z.2)
    {rest : Callbacks (Fin n → ℝ) U (Fin m → ℝ) (List (Fin n → ℝ)) (Fin 2 → Fin n → ℝ)} {res : ℝ} {name : String} {kind : FilterKind}
    (hkind : kind = .cpf ∨ kind = .cpfas) (hn : parseFilter name = .ok kind) {Fl : List (Fin n → ℝ) → FilterOps (Fin n → ℝ) U (Fin m → ℝ) _ _}
    (hF : ∀ xs, mkFilter ((nlgMarkov 2 H o o0).toCallbacks (ffbsiFilter (nlgLogpXnext H o) rest)) 2 res name (.dict (some (reference xs))) = .ok (Fl xs))
    {T : Option ℕ} {s0 : PT (Fin n → ℝ) U (Fin m → ℝ)} (hs : PT.init 2 T 0 = .ok s0)
    {srest : SmoothCallbacks (Fin n → ℝ) U (Fin m → ℝ) (List (Fin n → ℝ)) (Fin 2 → Fin n → ℝ)} (hps : NoPostprocessing srest)
    {k : ℕ} (hk : 0 < k) (user : Option SOpts) (d : AllDraws (Fin 2 → Fin n → ℝ)) (fuel : ℕ) {method : String}
    (hmethod : method = "ancestor" ∨ method = "full") (first : Option (Fin m → ℝ)) (qs : List (Slot U × Slot (Fin m → ℝ)))
    (hqs : ∀ q ∈ qs, q.2 ≠ .zero) (hne : first = none → qs ≠ [])
    {φ : List (Fin n → ℝ) → ℝ≥0∞} (hφ : Measurable fun x : Fin (qs.length + 1) → Fin n → ℝ => φ (List.ofFn x)) (iterations : ℕ) :
    ∃ S : Matrix (Fin n) (Fin n) ℝ, (Spec.gauss o0.x0 S = Spec.gauss o0.x0 o0.P0 ↔ ∀ i j, i ≠ j → o0.P0 i j = 0) ∧
      smoothingE (Spec.gauss o0.x0 S) M (nlgLoglik G R) (first.map .obj) qs
        ((fun φ => sweep (normals 2 n) s0 Fl (first.map .obj) qs
          (smoothE (ffbsi (nlgLogpXnext H o) srest) k method user d fuel (pathMean φ k)))^[iterations] φ) =
      smoothingE (Spec.gauss o0.x0 S) M (nlgLoglik G R) (first.map .obj) qs φ := by
  obtain ⟨c, hc, step, hm, hstep, hlaw⟩ := nlg_create_law o0 hP h0 2
  obtain ⟨S', -, ⟨step', hstep', hlaw'⟩, -, hdiag⟩ := C47_initial_law o0 hP h0 2
  have hss : step' = step := by
    funext w
    have := (hstep' w).symm.trans (hstep w)
    exact List.ofFn_injective (Except.ok.inj this)
  subst hss
  refine ⟨S', hdiag, ?_⟩
  have hsmp := nlg_samples hD o0 (N := 2) (μ0 := Spec.gauss o0.x0 S')
    ⟨fun i w => step' w i, fun i => ⟨measurable_pi_iff.mp hm i, map_eval_pi (fun _ => Spec.gauss o0.x0 S') hm hlaw' i⟩, hstep'⟩ hM hmeas
  have hgood : ∀ q ∈ qs, q.2 = .none ∨ IsObj q.2 := by
    intro q hq
    have := hqs q hq
    rcases h : q.2 with _ | _ | y
    · exact Or.inl rfl
    · exact absurd h this
    · exact Or.inr ⟨_, rfl⟩
  have hfirst : ∀ y ∈ first.map Slot.obj, IsObj y := by
    intro y hy
    obtain ⟨v, -, rfl⟩ := Option.mem_map.mp hy
    exact ⟨_, rfl⟩
  have hne' : first.map Slot.obj = none → qs ≠ [] := fun h => hne (by simpa using h)
  have hden : ∀ t u x, M t u x = volume.withDensity fun x' => ENNReal.ofReal (exp (nlgTrans F Q t u x x')) := by
    intro t u x
    rw [hM, gauss_density (nlg_posDef hD t u x)]
    rfl
  have hlog := nlg_logDensity hD hone
  rcases hkind with rfl | rfl
  · rcases hmethod with rfl | rfl
    · exact C96_cpf_invariant hsmp reference_state hn hF (S := ffbsi (nlgLogpXnext H o) srest) (fun D _ _ _ _ _ _ _ => rfl) hps hk user d fuel hs qs hgood
        _ hfirst hne' hφ iterations
    · exact C96_cpf_full_invariant hsmp hlog hlm hden reference_state hn hF hps hk user d fuel hs qs hgood _ hfirst hne' hφ iterations
  · rcases hmethod with rfl | rfl
    · exact C96_cpfas_invariant hsmp hlog hlm hden reference_state hn hF (S := ffbsi (nlgLogpXnext H o) srest) (fun D _ _ _ _ _ _ _ => rfl) hps hk user d
        fuel hs qs hgood _ hfirst hne' hφ iterations
    · exact C96_cpfas_full_invariant hsmp hlog hlm hden reference_state hn hF hps hk user d fuel hs qs hgood _ hfirst hne' hφ iterations

/-- C96 on the model of `nlgLikToy`: `x⁺ ~ N(x/2, I)`, `y ~ N(x, I)`, `CPFAS` with two particles and backward simulation of 3 trajectories. The
average of the squared norm of the first state over the trajectory after 10 iterations. -/
example (rest : Callbacks (Fin 2 → ℝ) ℝ (Fin 2 → ℝ) (List (Fin 2 → ℝ)) (Fin 2 → Fin 2 → ℝ)) (qs : List (Slot ℝ × Slot (Fin 2 → ℝ)))
    (hqs : ∀ q ∈ qs, q.2 ≠ .zero) (y0 : Fin 2 → ℝ)
    (srest : SmoothCallbacks (Fin 2 → ℝ) ℝ (Fin 2 → ℝ) (List (Fin 2 → ℝ)) (Fin 2 → Fin 2 → ℝ)) (d : AllDraws (Fin 2 → Fin 2 → ℝ)) :
    ∃ (o : NlgObj 2 2) (Fl : _) (s0 : PT (Fin 2 → ℝ) ℝ (Fin 2 → ℝ)), nlgInit none none (some 1) (some 1) = .ok o ∧
      (∀ xs, mkFilter ((nlgMarkov 2 nlgLikToy o ⟨0, 1⟩).toCallbacks (ffbsiFilter (nlgLogpXnext nlgLikToy o) rest)) 2 (2/3) "CPFAS"
        (.dict (some (reference xs))) = .ok (Fl xs)) ∧ PT.init 2 none 0 = .ok s0 ∧
      smoothingE (Spec.gauss 0 1) (fun _ _ => gaussKernel (fun x => (1/2 : ℝ) • x) (by fun_prop) 1) (nlgLoglik (fun _ x => x) (fun _ _ => 1)) (some (.obj y0)) qs
        ((fun φ => sweep (normals 2 2) s0 Fl (some (.obj y0)) qs
          (smoothE (ffbsi (nlgLogpXnext nlgLikToy o) { srest with postSmoothing := none }) 3 "full" none d 0 (pathMean φ 3)))^[10]
            fun l => ENNReal.ofReal ((l.getD 0 0) ⬝ᵥ (l.getD 0 0))) =
      smoothingE (Spec.gauss 0 1) (fun _ _ => gaussKernel (fun x => (1/2 : ℝ) • x) (by fun_prop) 1) (nlgLoglik (fun _ x => x) (fun _ _ => 1)) (some (.obj y0)) qs
        fun l => ENNReal.ofReal ((l.getD 0 0) ⬝ᵥ (l.getD 0 0)) := by
  obtain ⟨o, ho, -, -, h1, h2⟩ := C46_last_covariances (n := 2) (m := 2) none none (some 1) (some 1)
    (by rintro _ ⟨⟩; exact PosDef.one) (by rintro _ ⟨⟩; exact PosDef.one) [] (by simp)
  have hD : Spec.NlgDescribes nlgLikToy o (fun _ _ x => (1/2 : ℝ) • x) (fun _ _ _ => 1) (fun _ x => x) (fun _ _ => 1) :=
    ⟨fun _ _ _ => Or.inl rfl, fun _ _ _ => Or.inr ⟨rfl, 1, PosDef.one, h1 _ rfl, fun _ => rfl⟩, fun _ _ => Or.inl rfl,
      fun _ _ => Or.inr ⟨by norm_num, rfl, 1, PosDef.one, h2 _ rfl, fun _ => rfl⟩⟩
  have hn : parseFilter "CPFAS" = .ok .cpfas := by
    have e0 : "CPFAS".toLower = "cpfas" := by decide +kernel
    have e1 : ¬ ("cpfas" = "pf") := by decide +kernel
    have e2 : ¬ ("cpfas" = "apf") := by decide +kernel
    have e3 : ¬ ("cpfas" = "cpf") := by decide +kernel
    have e4 : ¬ ("cpfas" = "sir") := by decide +kernel
    have e5 : ¬ ("cpfas" = "csiras") := by decide +kernel
    simp [parseFilter, e0]
  choose Fl hFl using mkFilter_reference ((nlgMarkov 2 nlgLikToy o ⟨0, 1⟩).toCallbacks (ffbsiFilter (nlgLogpXnext nlgLikToy o) rest)) 2 (2/3) hn (Or.inr rfl)
  refine ⟨o, Fl, _, ho, hFl, rfl, ?_⟩
  have hφ : Measurable fun x : Fin (qs.length + 1) → Fin 2 → ℝ =>
      (fun l : List (Fin 2 → ℝ) => ENNReal.ofReal ((l.getD 0 0) ⬝ᵥ (l.getD 0 0))) (List.ofFn x) := by
    simp only [List.ofFn_succ, List.getD_cons_zero, dotProduct]
    fun_prop
  obtain ⟨S, hS, h⟩ := C96_nonlinear_gaussian hD (Or.inl (by norm_num)) (o0 := ⟨0, 1⟩) PosDef.one (by
      intro h; have := congrFun (congrFun h 0) 0; simp at this)
    (M := fun _ _ => gaussKernel (fun x => (1/2 : ℝ) • x) (by fun_prop) 1)
    (fun t u x => gaussKernel_apply _ PosDef.one.posSemidef x) (by
      intro t y
      cases y with
      | obj y => exact ((continuous_logNormal 1).measurable).comp (by fun_prop)
      | none => exact measurable_const
      | zero => exact measurable_const) (by
      intro t u
      exact ((continuous_logNormal 1).measurable).comp (by fun_prop)) (Or.inr rfl) hn hFl (T := none) rfl
    (srest := { srest with postSmoothing := none }) (fun _ => rfl) (k := 3) (by norm_num) none d 0 (Or.inr rfl) (some y0) qs hqs (by simp)
    (φ := fun l : List (Fin 2 → ℝ) => ENNReal.ofReal ((l.getD 0 0) ⬝ᵥ (l.getD 0 0))) hφ 10
  rw [hS.mpr (fun i j hij => by simp [hij])] at h
  exact h

end PyPE

import Verif.Param.EmAscent
import Verif.Models.NlgPaths
import Verif.Models.NlgScalar

/-!
# C116 for `NonlinearGaussian` models (nlg.py) that inherit the default terms of `ParamEstInterface`
-/

namespace PyPE
open Real Spec MeasureTheory ProbabilityTheory Matrix
open scoped ENNReal

variable {n m : ℕ} {U V : Type}

/-! ### The terms -/

/-- `eval_logp_y` of `ParamEstInterface` (interfaces.py:103-120) is `measure`, here that of `NonlinearGaussian`. A measurement that is not an array is not
modelled. -/
noncomputable def nlgEvalY (H : NlgHooks n m (Slot U) ℕ) (o : NlgObj n m) (xs : List (Fin n → ℝ)) (y : Slot (Fin m → ℝ)) (t : ℕ) : PyM (List ℝ) :=
  match y with
  | .obj y => nlgMeasure H o xs y t
  | _ => .error .typeError

/-- `eval_logp_x0` of `NonlinearGaussianInitialGaussian` (nlg.py:420-445) as a list of numbers. Simplification: a value `-inf`, which only a
deterministic initial state produces, is reported as an error. -/
noncomputable def nlgEvalX0 (o0 : NlgX0 n) (xs : List (Fin n → ℝ)) (_t : ℕ) : PyM (List ℝ) := do
  let l ← o0.evalLogpX0 xs
  l.mapM fun v => match v with
    | some r => .ok r
    | none => .error .valueError

/-- `eval_logp_xnext` (interfaces.py:83-101) is `logp_xnext` by default, so that the three terms are the log-densities of the Gaussian model. -/
theorem nlg_logTerms {H : NlgHooks n m (Slot U) ℕ} {o : NlgObj n m} {F : ℕ → Slot U → (Fin n → ℝ) → Fin n → ℝ}
    {Q : ℕ → Slot U → (Fin n → ℝ) → Matrix (Fin n) (Fin n) ℝ} {G : ℕ → (Fin n → ℝ) → Fin m → ℝ}
    {R : ℕ → (Fin n → ℝ) → Matrix (Fin m) (Fin m) ℝ} (hD : Spec.NlgDescribes H o F Q G R)
    (hone : Spec.TransExact H Q) {o0 : NlgX0 n} (hP : o0.P0.PosDef) (h0 : o0.P0 ≠ 0) :
    LogTerms (nlgEvalY H o) (nlgLogpXnext H o) (nlgEvalX0 o0) IsObj (fun x => logNormal o0.P0 (x - o0.x0)) (nlgTrans F Q) (nlgLoglik G R) where
  y xs y t hy _ := by
    obtain ⟨v, rfl⟩ := hy
    exact C46_measure H o xs v t (G t) (R t) (hD.out _ _) (hD.outCov _ _)
  x := nlg_logDensity hD hone
  x0 xs := by
    unfold nlgEvalX0
    rw [(C47_eval_logp_x0 o0 xs).1 hP h0, ok_bind]
    induction xs with
    | nil => rfl
    | cons x xs ih =>
      rw [List.map_cons, List.mapM_cons, ih]
      rfl

/-- The densities of the Gaussian model. -/
theorem nlg_densities {F : ℕ → Slot U → (Fin n → ℝ) → Fin n → ℝ}
    {Q : ℕ → Slot U → (Fin n → ℝ) → Matrix (Fin n) (Fin n) ℝ} (hQ : ∀ t u x, (Q t u x).PosDef) {o0 : NlgX0 n} (hP : o0.P0.PosDef)
    {M : ℕ → Slot U → Kernel (Fin n → ℝ) (Fin n → ℝ)} (hM : ∀ t u x, M t u x = Spec.gauss (F t u x) (Q t u x))
    (hmeas : ∀ t u, Measurable fun z : (Fin n → ℝ) × (Fin n → ℝ) => nlgTrans F Q t u z.1 z.2) :
    Densities volume (gauss o0.x0 o0.P0) M (fun x => logNormal o0.P0 (x - o0.x0)) (nlgTrans F Q) where
  start := (continuous_logNormal o0.P0).measurable.comp (by fun_prop)
  move := hmeas
  start_law := gauss_density hP _
  move_law t u x := by rw [hM, gauss_density (hQ t u x)]; rfl

/-- The covariances of the model after `set_params`, with what is needed to speak of its densities. -/
structure Spec.GaussDensities (F : ℕ → Slot U → (Fin n → ℝ) → Fin n → ℝ) (Q : ℕ → Slot U → (Fin n → ℝ) → Matrix (Fin n) (Fin n) ℝ)
    (G : ℕ → (Fin n → ℝ) → Fin m → ℝ) (R : ℕ → (Fin n → ℝ) → Matrix (Fin m) (Fin m) ℝ) (M : ℕ → Slot U → Kernel (Fin n → ℝ) (Fin n → ℝ)) : Prop where
  law : ∀ t u x, M t u x = gauss (F t u x) (Q t u x)
  trans : ∀ t u, Measurable fun z : (Fin n → ℝ) × (Fin n → ℝ) => nlgTrans F Q t u z.1 z.2
  lik : ∀ t y, Measurable (nlgLoglik G R t y)

/-- C116 for a model that derives from `NonlinearGaussianInitialGaussian`, `ParamEstInterface` and `ParamEstBaseNumeric`, with a diagonal `Px0` (C47 is why):
filter and smooth with the parameters `θ` (hooks `H`, attributes `o`, `o0`), then compute `fval` with the parameters `θ'` (hooks `H'`, attributes `o'`, `o0'`)
and with `θ`. The likelihood grows by at least as much as the expected objective falls; so if the latter falls, or stays the same, the likelihood does not fall. -/
theorem C116_nonlinear_gaussian {H H' : NlgHooks n m (Slot U) ℕ} {o o' : NlgObj n m} {F F' : ℕ → Slot U → (Fin n → ℝ) → Fin n → ℝ}
    {Q Q' : ℕ → Slot U → (Fin n → ℝ) → Matrix (Fin n) (Fin n) ℝ} {G G' : ℕ → (Fin n → ℝ) → Fin m → ℝ}
    {R R' : ℕ → (Fin n → ℝ) → Matrix (Fin m) (Fin m) ℝ} (hD : Spec.NlgDescribes H o F Q G R) (hD' : Spec.NlgDescribes H' o' F' Q' G' R')
    (hone : Spec.TransExact H Q)
    (hone' : Spec.TransExact H' Q') {o0 o0' : NlgX0 n} (hP : o0.P0.PosDef) (hP' : o0'.P0.PosDef)
    (h0 : o0.P0 ≠ 0) (h0' : o0'.P0 ≠ 0) (hdiag : ∀ i j, i ≠ j → o0.P0 i j = 0) {N : ℕ} (hN : 0 < N)
    {M M' : ℕ → Slot U → Kernel (Fin n → ℝ) (Fin n → ℝ)} (hM : GaussDensities F Q G R M) (hM' : GaussDensities F' Q' G' R' M')
    {rest : Callbacks (Fin n → ℝ) U (Fin m → ℝ) (List (Fin n → ℝ)) (Fin N → Fin n → ℝ)} {res : ℝ} {name : String}
    {opts : FilterOptions (Fin n → ℝ)} (hn : parseFilter name = .ok .pf) {Fl : FilterOps (Fin n → ℝ) U (Fin m → ℝ) _ _}
    (hF : mkFilter ((nlgMarkov N H o o0).toCallbacks rest) N res name opts = .ok Fl) {T : Option ℕ} {s0 : PT (Fin n → ℝ) U (Fin m → ℝ)}
    (hs : PT.init N T 0 = .ok s0)
    {srest : SmoothCallbacks (Fin n → ℝ) U (Fin m → ℝ) (List (Fin n → ℝ)) (Fin N → Fin n → ℝ)} (hps : NoPostprocessing srest)
    {k : ℕ} (hk : 0 < k) (user : Option SOpts) (d : AllDraws (Fin N → Fin n → ℝ)) (fuel : ℕ)
    {method : String} (hmethod : method = "ancestor" ∨ method = "full")
    (first : Option (Fin m → ℝ)) (qs : List (Slot U × (Fin m → ℝ))) (hne : first = none → qs ≠ []) {c : ℝ}
    (hc : ∀ xs, completeLog (fun x => logNormal o0.P0 (x - o0.x0)) (nlgTrans F Q) (nlgLoglik G R) (first.map .obj) (asSlots qs) xs ≤ c)
    (hc' : ∀ xs, completeLog (fun x => logNormal o0'.P0 (x - o0'.x0)) (nlgTrans F' Q') (nlgLoglik G' R') (first.map .obj) (asSlots qs) xs ≤ c) :
    let L := smoothingE (gauss o0.x0 o0.P0) M (nlgLoglik G R) (first.map .obj) (asSlots qs) fun _ => 1
    let L' := smoothingE (gauss o0'.x0 o0'.P0) M' (nlgLoglik G' R') (first.map .obj) (asSlots qs) fun _ => 1
    let obj := objectiveE (normals N n) s0 Fl (first.map .obj) (asSlots qs) (ffbsi (nlgLogpXnext H o) srest) k method user d fuel
    L + obj (nlgEvalY H o) (nlgLogpXnext H o) (nlgEvalX0 o0) c ≤ L' + obj (nlgEvalY H' o') (nlgLogpXnext H' o') (nlgEvalX0 o0') c ∧
      (obj (nlgEvalY H o) (nlgLogpXnext H o) (nlgEvalX0 o0) c ≠ ⊤ →
        obj (nlgEvalY H' o') (nlgLogpXnext H' o') (nlgEvalX0 o0') c ≤ obj (nlgEvalY H o) (nlgLogpXnext H o) (nlgEvalX0 o0) c → L ≤ L') := by
  intro L L' obj
  have hsmp := nlg_samples hD o0 (N := N) (nlg_create_diag hP h0 hdiag N) hM.law hM.lik
  have hfirst : ∀ y ∈ first.map Slot.obj, IsObj y ∧ y ≠ .none := by
    intro y hy
    obtain ⟨v, -, rfl⟩ := Option.mem_map.mp hy
    exact ⟨⟨v, rfl⟩, by simp⟩
  have hne' : first.map Slot.obj = none → asSlots qs ≠ [] := by
    intro h
    rw [Option.map_eq_none_iff] at h
    exact fun e => hne h (List.map_eq_nil_iff.mp e)
  have hnone : ∀ q ∈ asSlots qs, q.2 = .none → ∀ (k : ℕ) (x : Fin n → ℝ), nlgLoglik G R k .none x = 0 := fun _ _ _ _ _ => rfl
  have h := C116_em_gain hN hsmp hn hF (nlg_logDensity hD hone) (nlg_densities (nlg_posDef hD) hP hM.law hM.trans)
    (nlg_densities (nlg_posDef hD') hP' hM'.law hM'.trans) hM'.lik hps hk hmethod user d fuel hs hfirst hne' (asSlots_isObj qs) hnone
    (nlg_logTerms hD hone hP h0) (nlg_logTerms hD' hone' hP' h0') hc hc'
  exact ⟨h, fun hfin hle => (ENNReal.add_le_add_iff_right hfin).mp (h.trans (add_le_add le_rfl hle))⟩

/-! ### Constant covariances: the bound `c` exists -/

theorem seen_le {P Y : Type} {ly : ℕ → Slot Y → P → ℝ} {b : ℝ} (hb : 0 ≤ b) (h : ∀ t y x, ly t y x ≤ b) (t : ℕ) (y : Slot Y) (x : P) : seen ly t y x ≤ b := by
  unfold seen
  split
  · exact hb
  · exact h _ _ _

theorem pathLog_le {P Y : Type} {lx : ℕ → Slot U → P → P → ℝ} {ly : ℕ → Slot Y → P → ℝ} {a b : ℝ} (ha : 0 ≤ a) (hb : 0 ≤ b) (hx : ∀ t u x x', lx t u x x' ≤ a)
    (hy : ∀ t y x, ly t y x ≤ b) (k : ℕ) (qs : List (Slot U × Slot Y)) (xs : List P) : pathLog lx ly k qs xs ≤ qs.length * (a + b) := by
  induction qs generalizing k xs with
  | nil => simp [pathLog]
  | cons q qs ih =>
    have h0 : (0 : ℝ) ≤ ((q :: qs).length : ℕ) * (a + b) := by positivity
    rcases xs with _ | ⟨x, _ | ⟨x', xs⟩⟩
    · simpa [pathLog] using h0
    · simpa [pathLog] using h0
    · have h1 := ih (k+1) (x' :: xs)
      have h2 := hx k q.1 x x'
      have h3 := seen_le hb hy (k+1) q.2 x'
      simp only [pathLog, List.length_cons]
      push_cast
      linarith

/-- Bounded densities make the complete-data log-likelihood bounded. -/
theorem completeLog_le {P Y : Type} {l0 : P → ℝ} {lx : ℕ → Slot U → P → P → ℝ} {ly : ℕ → Slot Y → P → ℝ} {d a b : ℝ} (hd : 0 ≤ d) (ha : 0 ≤ a) (hb : 0 ≤ b)
    (h0 : ∀ x, l0 x ≤ d) (hx : ∀ t u x x', lx t u x x' ≤ a) (hy : ∀ t y x, ly t y x ≤ b) (first : Option (Slot Y)) (qs : List (Slot U × Slot Y))
    (xs : List P) : completeLog l0 lx ly first qs xs ≤ d + b + qs.length * (a + b) := by
  cases xs with
  | nil => simp only [completeLog]; positivity
  | cons x xs =>
    have h1 := pathLog_le ha hb hx hy 0 qs (x :: xs)
    have h2 : firstLik ly first x ≤ b := by
      cases first with
      | none => exact hb
      | some y => exact hy 0 y x
    have h3 := h0 x
    simp only [completeLog]
    linarith

/-- With constant covariances the complete-data log-likelihood of a Gaussian model is bounded. -/
theorem nlg_completeLog_bounded {F : ℕ → Slot U → (Fin n → ℝ) → Fin n → ℝ} {Q : Matrix (Fin n) (Fin n) ℝ} (hQ : Q.PosDef)
    {G : ℕ → (Fin n → ℝ) → Fin m → ℝ} {R : Matrix (Fin m) (Fin m) ℝ} (hR : R.PosDef) {P0 : Matrix (Fin n) (Fin n) ℝ} (hP : P0.PosDef) (x0 : Fin n → ℝ)
    (first : Option (Slot (Fin m → ℝ))) (qs : List (Slot U × Slot (Fin m → ℝ))) :
    ∃ c, ∀ xs, completeLog (fun x => logNormal P0 (x - x0)) (nlgTrans F fun _ _ _ => Q) (nlgLoglik G fun _ _ => R) first qs xs ≤ c := by
  refine ⟨_, completeLog_le (le_max_right (logNormal P0 0) 0) (le_max_right (logNormal Q 0) 0) (le_max_right (logNormal R 0) 0)
    (fun x => (logNormal_le hP _).trans (le_max_left _ _)) (fun t u x x' => (logNormal_le hQ _).trans (le_max_left _ _)) (fun t y x => ?_) first qs⟩
  cases y with
  | obj y => exact (logNormal_le hR _).trans (le_max_left _ _)
  | none => exact le_max_right _ _
  | zero => exact le_max_right _ _

/-! ### A concrete case -/

theorem nlgLikToy_set {q : ℝ} (hq : 0 < q) : ∃ o : NlgObj 2 2, nlgInit none none (some (q • 1)) (some 1) = .ok o ∧
    Spec.NlgDescribes nlgLikToy o (fun _ _ x => (1/2 : ℝ) • x) (fun _ _ _ => q • 1) (fun _ x => x) (fun _ _ => 1) := by
  have hq' : (q • (1 : Matrix (Fin 2) (Fin 2) ℝ)).PosDef := PosDef.one.smul hq
  obtain ⟨o, ho, -, -, h1, h2⟩ := C46_last_covariances (n := 2) (m := 2) none none (some (q • 1)) (some 1)
    (by rintro _ ⟨⟩; exact hq') (by rintro _ ⟨⟩; exact PosDef.one) [] (by simp)
  exact ⟨o, ho, fun _ _ _ => Or.inl rfl, fun _ _ _ => Or.inr ⟨rfl, _, hq', h1 _ rfl, fun _ => rfl⟩, fun _ _ => Or.inl rfl,
    fun _ _ => Or.inr ⟨by norm_num, rfl, 1, PosDef.one, h2 _ rfl, fun _ => rfl⟩⟩

theorem half_densities {q : ℝ} (hq : 0 < q) : GaussDensities (U := ℝ) (fun _ _ x => (1/2 : ℝ) • x) (fun _ _ _ => q • (1 : Matrix (Fin 2) (Fin 2) ℝ)) (fun _ x => x)
    (fun _ _ => (1 : Matrix (Fin 2) (Fin 2) ℝ)) (fun _ _ => gaussKernel (fun x => (1/2 : ℝ) • x) (by fun_prop) (q • 1)) where
  law t u x := gaussKernel_apply _ (PosDef.one.smul hq).posSemidef x
  trans t u := (continuous_logNormal _).measurable.comp (by fun_prop)
  lik t y := by
    cases y with
    | obj y => exact ((continuous_logNormal 1).measurable).comp (by fun_prop)
    | none => exact measurable_const
    | zero => exact measurable_const

/-- C116 on the model `x⁺ = x/2 + v`, `y = x + e` with two states, where the parameter is the variance `q` of `v`: 7 particles, threshold 2/3, 3 trajectories
from backward simulation, any data. -/
example {q q' : ℝ} (hq : 0 < q) (hq' : 0 < q') (rest : Callbacks (Fin 2 → ℝ) ℝ (Fin 2 → ℝ) (List (Fin 2 → ℝ)) (Fin 7 → Fin 2 → ℝ)) (y0 : Fin 2 → ℝ)
    (qs : List (Slot ℝ × (Fin 2 → ℝ))) (srest : SmoothCallbacks (Fin 2 → ℝ) ℝ (Fin 2 → ℝ) (List (Fin 2 → ℝ)) (Fin 7 → Fin 2 → ℝ))
    (d : AllDraws (Fin 7 → Fin 2 → ℝ)) :
    ∃ (o o' : NlgObj 2 2) (Fl : _) (s0 : PT (Fin 2 → ℝ) ℝ (Fin 2 → ℝ)) (c : ℝ), nlgInit none none (some (q • 1)) (some 1) = .ok o ∧
      nlgInit none none (some (q' • 1)) (some 1) = .ok o' ∧
      mkFilter ((nlgMarkov 7 nlgLikToy o ⟨0, 1⟩).toCallbacks rest) 7 (2/3) "PF" .none = .ok Fl ∧ PT.init 7 none 0 = .ok s0 ∧
      smoothingE (gauss 0 1) (fun _ _ => gaussKernel (fun x => (1/2 : ℝ) • x) (by fun_prop) (q • 1)) (nlgLoglik (fun _ x => x) fun _ _ => 1) (some (.obj y0)) (asSlots qs) (fun _ => 1) +
          objectiveE (normals 7 2) s0 Fl (some (.obj y0)) (asSlots qs) (ffbsi (nlgLogpXnext nlgLikToy o) { srest with postSmoothing := none }) 3 "full" none d 0
            (nlgEvalY nlgLikToy o) (nlgLogpXnext nlgLikToy o) (nlgEvalX0 ⟨0, 1⟩) c ≤
        smoothingE (gauss 0 1) (fun _ _ => gaussKernel (fun x => (1/2 : ℝ) • x) (by fun_prop) (q' • 1)) (nlgLoglik (fun _ x => x) fun _ _ => 1) (some (.obj y0)) (asSlots qs) (fun _ => 1) +
          objectiveE (normals 7 2) s0 Fl (some (.obj y0)) (asSlots qs) (ffbsi (nlgLogpXnext nlgLikToy o) { srest with postSmoothing := none }) 3 "full" none d 0
            (nlgEvalY nlgLikToy o') (nlgLogpXnext nlgLikToy o') (nlgEvalX0 ⟨0, 1⟩) c := by
  obtain ⟨o, ho, hD⟩ := nlgLikToy_set hq
  obtain ⟨o', ho', hD'⟩ := nlgLikToy_set hq'
  have h1 : (1 : Matrix (Fin 2) (Fin 2) ℝ) ≠ 0 := by
    intro h
    have := congrFun (congrFun h 0) 0
    simp at this
  have hn : parseFilter "PF" = .ok .pf := by
    have : "PF".toLower = "pf" := by decide +kernel
    simp [parseFilter, this]
  obtain ⟨c, hc⟩ := nlg_completeLog_bounded (U := ℝ) (F := fun _ _ x => (1/2 : ℝ) • x) (PosDef.one.smul hq) (G := fun _ x => x) (R := (1 : Matrix (Fin 2) (Fin 2) ℝ))
    PosDef.one (P0 := (1 : Matrix (Fin 2) (Fin 2) ℝ)) PosDef.one 0 (some (.obj y0)) (asSlots qs)
  obtain ⟨c', hc'⟩ := nlg_completeLog_bounded (U := ℝ) (F := fun _ _ x => (1/2 : ℝ) • x) (PosDef.one.smul hq') (G := fun _ x => x) (R := (1 : Matrix (Fin 2) (Fin 2) ℝ))
    PosDef.one (P0 := (1 : Matrix (Fin 2) (Fin 2) ℝ)) PosDef.one 0 (some (.obj y0)) (asSlots qs)
  refine ⟨o, o', _, _, max c c', ho, ho', mkFilter_pf _ _ _ hn FilterOptions.none, rfl, ?_⟩
  exact (C116_nonlinear_gaussian hD hD' (.inl (by norm_num)) (.inl (by norm_num)) (o0 := ⟨0, 1⟩) (o0' := ⟨0, 1⟩) PosDef.one PosDef.one h1 h1
    (fun i j h => by simp [h]) (by norm_num) (half_densities hq) (half_densities hq') hn (mkFilter_pf _ _ _ hn FilterOptions.none) (T := none) rfl (fun _ => rfl) (by norm_num) none d 0
    (.inr rfl) (some y0) qs (by simp) (fun xs => (hc xs).trans (le_max_left _ _)) (fun xs => (hc' xs).trans (le_max_right _ _))).1

end PyPE

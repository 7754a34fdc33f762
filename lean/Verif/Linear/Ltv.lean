import Verif.Linear.Claims
import Verif.Models.LtvRun

/-!
# C108: an LTV model and a nonlinear Gaussian model of the same linear system; concrete cases
-/

namespace PyPE
open Real Spec MeasureTheory ProbabilityTheory Matrix Filter
open scoped ENNReal

variable {n m : ℕ} {U : Type}

/-- The steps (latest first) with the values that were measured, in the order of time. -/
def Spec.recorded : (l : List (LinOp n m)) → Hist l → List (DataOp n)
  | [], _ => []
  | .move A f Q :: l, ys => recorded l ys ++ [.move A f Q]
  | .meas C h R :: l, ys => recorded l ys.2 ++ [.meas m C h R ys.1]

theorem kfRun_recorded (z0 : Fin n → ℝ) (P0 : Matrix (Fin n) (Fin n) ℝ) (l : List (LinOp n m)) (ys : Hist l) {z P ll}
    (h : kfRun z0 P0 l ys = .ok (z, P, ll)) : kfData z0 P0 (recorded l ys) = .ok (z, P, ll) := by
  induction l generalizing z P ll with
  | nil => exact h
  | cons op l ih =>
    cases op with
    | move A f Q =>
      rw [kfRun] at h
      obtain ⟨⟨z1, P1, l1⟩, h1, h2⟩ := bind_eq_ok.mp h
      cases h2
      have := kfData_append z0 P0 _ [.move A f Q] (ih ys h1) (z'' := (predictFull z1 P1 A f Q).1) (P'' := (predictFull z1 P1 A f Q).2) (ll' := 0) rfl
      rw [add_zero] at this
      exact this
    | meas C h' R =>
      rw [kfRun] at h
      obtain ⟨⟨z1, P1, l1⟩, h1, h2⟩ := bind_eq_ok.mp h
      obtain ⟨⟨z2, P2, dl⟩, h3, h4⟩ := bind_eq_ok.mp h2
      obtain ⟨rfl, rfl, rfl⟩ : z2 = z ∧ P2 = P ∧ l1 + dl = ll := by
        have h4' := Except.ok.inj h4
        simpa using h4'
      have h5 : kfData z1 P1 [.meas m C h' R ys.1] = .ok (z2, P2, dl) := by
        have h3' : measureFull ys.1 z1 P1 (some C) (some h') R = .ok (z2, P2, dl) := h3
        simp [kfData, h3']
      exact kfData_append z0 P0 _ [.meas m C h' R ys.1] (ih ys.2 h1) h5

/-- C108, two models of one system: an LTV model (with any number of particles) and a `NonlinearGaussianInitialGaussian` model that describe the same
linear system, given the same record of inputs and measurements. The bootstrap filter on the second, with any number of particles and any resampling
threshold, estimates without bias the likelihood that the first computes exactly, and the mean of the estimate times the weighted mean of `φ` is that
likelihood times the mean of `φ` under the normal law each LTV particle stores. -/
theorem C108_ltv_agrees {H : NlgHooks n m (Slot U) ℕ} {o : NlgObj n m} {o0 : NlgX0 n} {L : LinearModel n m U} (hL : NlgIsLinear H o o0 L)
    {N : ℕ} (hN : 0 < N) {rest : Callbacks (Fin n → ℝ) U (Fin m → ℝ) (List (Fin n → ℝ)) (Fin N → Fin n → ℝ)} {res : ℝ} {name : String}
    {opts : FilterOptions (Fin n → ℝ)} (hn : parseFilter name = .ok .pf) {Fl : FilterOps (Fin n → ℝ) U (Fin m → ℝ) _ _}
    (hF : mkFilter ((nlgMarkov N H o o0).toCallbacks rest) N res name opts = .ok Fl) {T : Option ℕ} {s0 : PT (Fin n → ℝ) U (Fin m → ℝ)}
    (hs : PT.init N T 0 = .ok s0) (first : Option (Fin m → ℝ)) (qs : List (Slot U × (Fin m → ℝ))) (hne : first = none → qs ≠ [])
    {U' T' : Type} {K : Ltv n m U' T' (Fin m → ℝ)} {kf : KF n m} {D : LtvSys n m U' T'} (hK : Describes K kf D)
    (hQ : ∀ u t, (D.Q u t).PosSemidef) (hR : ∀ t, (D.R t).PosDef) (hz : K.z0 = o0.x0) (hP : K.P0 = o0.P0)
    {ops : List (LtvOp U' T')} {ys : Hist (ops.map D.op)} (hrec : recorded (ops.map D.op) ys = L.start first ++ L.data 0 qs) (N' : ℕ) :
    ∃ z P ll kf' rows, ltvRun K kf N' D ops ys = .ok (kf', rows, List.replicate N' ll) ∧ rows.length = N' ∧ (∀ row ∈ rows, Stores row (z, P)) ∧
      runE (normals N n) Fl s0 (first.map .obj) (asSlots qs) (runEstimate 1) = ENNReal.ofReal (exp ll) ∧
      ∀ φ : (Fin n → ℝ) → ℝ≥0∞, Measurable φ → runE (normals N n) Fl s0 (first.map .obj) (asSlots qs) (runEstimate φ) =
        ENNReal.ofReal (exp ll) * ∫⁻ x, φ x ∂(gauss z P) := by
  obtain ⟨z, P, ll, h1, h2, h3⟩ := C108_filter_unbiased hL hN hn hF hs first qs hne
  obtain ⟨z', P', l', kf', rows, e1, -, e3, e4, -⟩ := ltvRun_eq K kf N' D hK (hP ▸ hL.posDef.posSemidef) hQ hR ops ys
  have e5 := kfRun_recorded K.z0 K.P0 _ _ e1
  rw [hrec, hz, hP, h1] at e5
  cases e5
  obtain ⟨g1, g2⟩ := (C44_get_states rows _).mp e4
  refine ⟨z, P, ll, kf', rows, e3, by simpa using g1.symm, fun row hrow => ?_, h2, h3⟩
  obtain ⟨k, hk, rfl⟩ := List.getElem_of_mem hrow
  obtain ⟨s, hs1, hs2⟩ := g2 k _ (List.getElem?_eq_getElem hk)
  rw [List.getElem?_replicate] at hs1
  split at hs1
  · cases hs1; exact hs2
  · cases hs1

/-! ### Concrete cases -/

/-- `x⁺ = x/2 + v`, `y = x + e` with two states and unit covariances. -/
noncomputable def halfModel : LinearModel 2 2 ℝ where
  A _ _ := (1/2 : ℝ) • (1 : Matrix (Fin 2) (Fin 2) ℝ)
  f _ _ := 0
  Q _ _ := 1
  C _ := 1
  h _ := 0
  R _ := 1

theorem halfModel_linear : ∃ o : NlgObj 2 2, nlgInit none none (some 1) (some 1) = .ok o ∧ NlgIsLinear nlgLikToy o ⟨0, 1⟩ halfModel := by
  obtain ⟨o, ho, -, -, h1, h2⟩ := C46_last_covariances (n := 2) (m := 2) none none (some 1) (some 1)
    (by rintro _ ⟨⟩; exact PosDef.one) (by rintro _ ⟨⟩; exact PosDef.one) [] (by simp)
  refine ⟨o, ho, ?_, PosDef.one, ?_, fun i j h => by simp [h]⟩
  · have hD : Spec.NlgDescribes nlgLikToy o (fun _ _ x => (1/2 : ℝ) • x) (fun _ _ _ => 1) (fun _ x => x) (fun _ _ => 1) :=
      ⟨fun _ _ _ => Or.inl rfl, fun _ _ _ => Or.inr ⟨rfl, 1, PosDef.one, h1 _ rfl, fun _ => rfl⟩, fun _ _ => Or.inl rfl,
        fun _ _ => Or.inr ⟨by norm_num, rfl, 1, PosDef.one, h2 _ rfl, fun _ => rfl⟩⟩
    have e1 : halfModel.next = fun _ _ x => (1/2 : ℝ) • x := by
      funext t u x
      simp [Spec.LinearModel.next, halfModel, Matrix.smul_mulVec, Matrix.one_mulVec]
    have e2 : halfModel.seen = fun _ x => x := by
      funext t x
      simp [Spec.LinearModel.seen, halfModel, Matrix.one_mulVec]
    rw [e1, e2]
    exact hD
  · intro h
    have := congrFun (congrFun h 0) 0
    simp at this

/-- C108 on this model: 7 particles, threshold 2/3, any record; the squared norm of the state at the time after `pre`, from 3 trajectories. -/
example (rest : Callbacks (Fin 2 → ℝ) ℝ (Fin 2 → ℝ) (List (Fin 2 → ℝ)) (Fin 7 → Fin 2 → ℝ)) (y0 : Fin 2 → ℝ)
    (pre post : List (Slot ℝ × (Fin 2 → ℝ))) (srest : SmoothCallbacks (Fin 2 → ℝ) ℝ (Fin 2 → ℝ) (List (Fin 2 → ℝ)) (Fin 7 → Fin 2 → ℝ))
    (d : AllDraws (Fin 7 → Fin 2 → ℝ)) :
    ∃ (o : NlgObj 2 2) (Fl : _) (s0 : PT (Fin 2 → ℝ) ℝ (Fin 2 → ℝ)) (z : Fin 2 → ℝ) (P : Matrix (Fin 2) (Fin 2) ℝ) (l : ℝ) (zs : Fin 2 → ℝ)
      (Ps : Matrix (Fin 2) (Fin 2) ℝ) (zT : Fin 2 → ℝ) (PT' : Matrix (Fin 2) (Fin 2) ℝ) (ll : ℝ), nlgInit none none (some 1) (some 1) = .ok o ∧
      mkFilter ((nlgMarkov 7 nlgLikToy o ⟨0, 1⟩).toCallbacks rest) 7 (2/3) "PF" .none = .ok Fl ∧ PT.init 7 none 0 = .ok s0 ∧
      kfData 0 1 (halfModel.start (some y0) ++ halfModel.data 0 pre) = .ok (z, P, l) ∧
      rtsData z P (halfModel.data pre.length post) = .ok (zs, Ps) ∧
      kfData 0 1 (halfModel.start (some y0) ++ halfModel.data 0 (pre ++ post)) = .ok (zT, PT', ll) ∧
      runE (normals 7 2) Fl s0 (some (.obj y0)) (asSlots (pre ++ post)) (runEstimate 1) = ENNReal.ofReal (exp ll) ∧
      runE (normals 7 2) Fl s0 (some (.obj y0)) (asSlots (pre ++ post))
        (runWeighted (smoothE (ffbsi (nlgLogpXnext nlgLikToy o) { srest with postSmoothing := none }) 3 "full" none d 0
          (pathMean (fun x => ENNReal.ofReal ((x.getD pre.length 0) ⬝ᵥ (x.getD pre.length 0))) 3))) =
        ENNReal.ofReal (exp ll) * ∫⁻ x, ENNReal.ofReal (x ⬝ᵥ x) ∂(gauss zs Ps) := by
  obtain ⟨o, ho, hL⟩ := halfModel_linear
  have hn : parseFilter "PF" = .ok .pf := by
    have : "PF".toLower = "pf" := by decide +kernel
    simp [parseFilter, this]
  obtain ⟨z, P, l, zs, Ps, zT, PT', ll, h1, h2, h3, h4⟩ := C108_smoother_unbiased hL (.inl (by norm_num)) (N := 7) (by norm_num)
    hn (mkFilter_pf _ 7 (2/3) hn .none) (T := none) rfl (srest := { srest with postSmoothing := none }) (fun _ => rfl) (k := 3) (by norm_num) none d 0
    (method := "full") (.inr rfl) (some y0) pre post (by simp) (rest := rest)
  obtain ⟨z', P', l', k1, k2, -⟩ := C108_filter_unbiased hL (N := 7) (by norm_num)
    hn (mkFilter_pf _ 7 (2/3) hn .none) (T := none) rfl (some y0) (pre ++ post) (by simp) (rest := rest)
  rw [h3] at k1
  cases k1
  exact ⟨o, _, _, z, P, l, zs, Ps, zT, PT', ll, ho, mkFilter_pf _ 7 (2/3) hn .none, rfl, h1, h2, h3, k2,
    h4 (fun x => ENNReal.ofReal (x ⬝ᵥ x)) (by fun_prop)⟩

/-- C108 in the limit on this model, started with `forward`, for any record of at least one step: the weighted mean of the first coordinate and the
weighted covariance. -/
example (rest : ∀ N, Callbacks (Fin 2 → ℝ) ℝ (Fin 2 → ℝ) (List (Fin 2 → ℝ)) (Fin N → Fin 2 → ℝ)) (qs : List (Slot ℝ × (Fin 2 → ℝ))) (hqs : qs ≠ []) :
    ∃ (o : NlgObj 2 2) (Fl : ∀ N, FilterOps (Fin 2 → ℝ) ℝ (Fin 2 → ℝ) _ (Fin N → Fin 2 → ℝ)) (s0 : ℕ → PT (Fin 2 → ℝ) ℝ (Fin 2 → ℝ))
      (z : Fin 2 → ℝ) (P : Matrix (Fin 2) (Fin 2) ℝ) (ll : ℝ),
      (∀ N, mkFilter ((nlgMarkov N nlgLikToy o ⟨0, 1⟩).toCallbacks (rest N)) N 0 "PF" .none = .ok (Fl N)) ∧
      kfData 0 1 (halfModel.data 0 qs) = .ok (z, P, ll) ∧
      Tendsto (fun N => runE (normals N 2) (Fl N) (s0 N) none (asSlots qs) (misses (fun traj _ => lastMean (fun x => x 0) traj) (z 0) (1/1000)))
        atTop (nhds 0) ∧
      Tendsto (fun N => runE (normals N 2) (Fl N) (s0 N) none (asSlots qs)
        (misses (fun traj _ => lastMean (fun x => (x 0 - z 0) * (x 1 - z 1)) traj) (P 0 1) (1/1000))) atTop (nhds 0) := by
  obtain ⟨o, ho, hL⟩ := halfModel_linear
  have hn : parseFilter "PF" = .ok .pf := by
    have : "PF".toLower = "pf" := by decide +kernel
    simp [parseFilter, this]
  have hs0 : ∀ N : ℕ, ∃ s : PT (Fin 2 → ℝ) ℝ (Fin 2 → ℝ), PT.init N none 0 = .ok s := fun N => ⟨_, rfl⟩
  choose s0 hs0 using hs0
  obtain ⟨z, P, ll, h1, h2⟩ := C108_filter_consistent hL (rest := rest) (res := 0) le_rfl hn (fun N _ => mkFilter_pf _ _ _ hn .none) (T := none)
    (fun N _ => hs0 N) none qs fun _ => hqs
  obtain ⟨-, k2, k3, -⟩ := h2 (1/1000) (by norm_num)
  exact ⟨o, _, s0, z, P, ll, fun N => mkFilter_pf _ _ _ hn .none, h1, k2 0, k3 0 1⟩

/-- The hypotheses of `C108_ltv_agrees`: an LTV model of the same system and the record of one step. -/
example (u : Slot ℝ) (y0 y1 : Fin 2 → ℝ) : ∃ (K : Ltv 2 2 ℝ ℕ (Fin 2 → ℝ)) (kf : KF 2 2) (D : LtvSys 2 2 ℝ ℕ) (ops : List (LtvOp ℝ ℕ))
    (ys : Hist (ops.map D.op)), Describes K kf D ∧ K.z0 = 0 ∧ K.P0 = 1 ∧ (∀ u t, (D.Q u t).PosSemidef) ∧ (∀ t, (D.R t).PosDef) ∧
      recorded (ops.map D.op) ys = halfModel.start (some y0) ++ halfModel.data 0 [(u, y1)] :=
  ⟨{ z0 := 0, P0 := 1, predDyn := fun _ _ => (none, none, none), measDyn := fun y _ => (y, none, none, none) },
    ltvInitKf (some ((1/2 : ℝ) • 1)) (some 1) (some 1) (some 1) none none,
    { A := fun _ _ => (1/2 : ℝ) • 1, f := fun _ _ => 0, Q := fun _ _ => 1, C := fun _ => 1, h := fun _ => 0, R := fun _ => 1 },
    [.measure 1, .update 0 0, .measure 0], (y1, y0, ()),
    { obs := fun _ _ => rfl
      A := .inr ⟨fun _ => rfl, fun _ => rfl⟩
      f := .inr ⟨fun _ => rfl, fun _ => rfl⟩
      Q := .inr ⟨fun _ => rfl, fun _ => rfl⟩
      C := .inr ⟨fun _ => rfl, fun _ => rfl⟩
      h := .inr ⟨fun _ => rfl, rfl, fun _ => rfl⟩
      R := .inr ⟨fun _ => rfl, fun _ => rfl⟩ }, rfl, rfl, fun _ _ => PosDef.one.posSemidef, fun _ => PosDef.one, rfl⟩

end PyPE

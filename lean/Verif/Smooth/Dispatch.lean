import Verif.Smooth.Mhbp
import Mathlib.Algebra.Order.Floor.Semifield

/-!
# C26, C37: options, dispatch and the post-processing hook
-/

namespace PyPE
open Real Spec

variable {P U Y V Ω : Type}

/-- The same model without the `post_smoothing` hook. -/
def Spec.withoutHook (S : SmoothCallbacks P U Y V Ω) : SmoothCallbacks P U Y V Ω := { S with postSmoothing := none }

set_option smartUnfolding false in
theorem performBsi_hook (S : SmoothCallbacks P U Y V Ω) (opts : PyM BsiMethod) (pt : List (Step P)) (M : ℕ)
    (D : SData U Y) (d : SmoothDraws Ω) (fuel : ℕ) :
    performBsi (withoutHook S) opts pt M D d fuel = performBsi S opts pt M D d fuel := rfl

set_option smartUnfolding false in
theorem performAncestorsInt_hook (S : SmoothCallbacks P U Y V Ω) (pt : List (Step P)) (M : ℕ)
    (D : SData U Y) (d : SmoothDraws Ω) :
    performAncestorsInt (withoutHook S) pt M D d = performAncestorsInt S pt M D d := rfl

set_option smartUnfolding false in
theorem mhipsPasses_hook (S : SmoothCallbacks P U Y V Ω) (M : ℕ) (D : SData U Y) (reduced : Bool)
    (ds : List (PassDraws Ω)) (traj : List (SStep P)) :
    mhipsPasses (withoutHook S) M D reduced ds traj = mhipsPasses S M D reduced ds traj := rfl

set_option smartUnfolding false in
theorem performMhbp_hook (S : SmoothCallbacks P U Y V Ω) (pt : List (Step P)) (M R : ℕ)
    (D : SData U Y) (r0 : ℝ) (d : ℕ → MhbpDraws Ω) :
    performMhbp (withoutHook S) pt M R D r0 d = performMhbp S pt M R D r0 d := rfl

/-- The method names the smoother knows (smoother.py:218-248). -/
def Spec.knownMethods : List String :=
  ["full", "mcmc", "rs", "rsas", "ancestor", "mhips", "mhips_reduced", "mhbp"]

/-- How often the hook is applied. -/
def Spec.hookCount (method : String) : ℕ := if method = "ancestor" ∨ method = "mhbp" then 2 else 1

/-- `f` applied `n` times in a row. -/
def Spec.applyTimes (f : List (SStep P) → PyM (List (SStep P))) : ℕ → List (SStep P) → PyM (List (SStep P))
  | 0, t => .ok t
  | n + 1, t => do
    let t ← f t
    applyTimes f n t

/-- C37: an unknown smoother name raises `ValueError`, for every string not among the eight names (the comparison is
case-sensitive), whatever the model, the run and the options. -/
theorem C37_unknown_method (S : SmoothCallbacks P U Y V Ω) (pt : List (Step P)) (M : ℕ) (D : SData U Y) {method : String}
    (h : method ∉ knownMethods) (o : Option SOpts) (d : AllDraws Ω) (fuel : ℕ) :
    smoothTrajectory S pt M D method o d fuel = .error .valueError ∧
    performSmoothing S pt M D method o d fuel = .error .valueError := by
  simp only [knownMethods, List.mem_cons, List.not_mem_nil, or_false, not_or] at h
  obtain ⟨h1, h2, h3, h4, h5, h6, h7, h8⟩ := h
  have key : ∀ o : Option SOpts, smoothTrajectory S pt M D method o d fuel = .error .valueError := by
    intro o
    simp only [smoothTrajectory, h1, h2, h3, h4, h5, h6, h7, h8, or_self, if_false]
    rfl
  refine ⟨key o, ?_⟩
  simp only [performSmoothing, defaultOptions, h2, h3, h4, h6, h8, or_self, if_false, pure_eq_ok, ok_bind, key]

/-- C37 (defect): the model's `post_smoothing` hook is applied to the result exactly once for 'full', 'mcmc', 'rs', 'rsas',
'mhips' and 'mhips_reduced', but twice for 'ancestor' and 'mhbp': the result is that of the same model without the hook,
followed by that many applications. -/
theorem C37_post_smoothing (S : SmoothCallbacks P U Y V Ω) {f : List (SStep P) → PyM (List (SStep P))}
    (hf : S.postSmoothing = some f) (pt : List (Step P)) (M : ℕ) (D : SData U Y) {method : String}
    (hm : method ∈ knownMethods) (o : Option SOpts) (d : AllDraws Ω) (fuel : ℕ) :
    smoothTrajectory S pt M D method o d fuel = (do
      match ← smoothTrajectory (withoutHook S) pt M D method o d fuel with
      | none => return none
      | some t => do
        let t ← applyTimes f (hookCount method) t
        return some t) := by
  have hbsi : ∀ m : String, m = "full" ∨ m = "mcmc" ∨ m = "rs" ∨ m = "rsas" → hookCount m = 1 → 
      smoothTrajectory S pt M D m o d fuel = (do
      match ← smoothTrajectory (withoutHook S) pt M D m o d fuel with
      | none => return none
      | some t => do
        let t ← applyTimes f (hookCount m) t
        return some t) := by
    intro m h1 h2
    simp only [smoothTrajectory, h1, if_true, performBsi_hook]
    cases performBsi S (bsiOptions m pt.length o) pt M D d.bsi fuel with
    | error e => rfl
    | ok r =>
      cases r with
      | none => rfl
      | some t =>
        have : (withoutHook S).postSmoothing = none := rfl
        simp only [ok_bind, applyHook, hf, this, h2, applyTimes, pure_eq_ok]
        cases f t <;> rfl
  have h0 : (withoutHook S).postSmoothing = none := rfl
  simp only [knownMethods, List.mem_cons, List.not_mem_nil, or_false] at hm
  rcases hm with rfl | rfl | rfl | rfl | rfl | rfl | rfl | rfl
  · exact hbsi _ (by simp) (by decide +kernel)
  · exact hbsi _ (by simp) (by decide +kernel)
  · exact hbsi _ (by simp) (by decide +kernel)
  · exact hbsi _ (by simp) (by decide +kernel)
  · have hc : hookCount "ancestor" = 2 := by decide +kernel
    have e : ¬ ("ancestor" = "full" ∨ "ancestor" = "mcmc" ∨ "ancestor" = "rs" ∨ "ancestor" = "rsas") := by decide +kernel
    simp only [smoothTrajectory, e, if_false, if_true, performAncestorsInt_hook, hf, h0, applyHook, hc, applyTimes]
    cases performAncestorsInt S pt M D d.bsi with
    | error e => rfl
    | ok t =>
      simp only [ok_bind, pure_eq_ok]
      cases f t with
      | error e => rfl
      | ok t =>
        simp only [ok_bind]
        cases f t <;> rfl
  · have hc : hookCount "mhips" = 1 := by decide +kernel
    have e : ¬ ("mhips" = "full" ∨ "mhips" = "mcmc" ∨ "mhips" = "rs" ∨ "mhips" = "rsas") := by decide +kernel
    have e2 : ¬ ("mhips" = "ancestor") := by decide +kernel
    simp only [smoothTrajectory, e, e2, if_false, true_or, if_true, performAncestorsInt_hook, mhipsPasses_hook, hf, h0,
      applyHook, hc, applyTimes]
    cases performAncestorsInt S pt M D d.bsi with
    | error e => rfl
    | ok t =>
      cases mhIterations o with
      | error e => rfl
      | ok R =>
        simp only [ok_bind, pure_eq_ok]
        cases mhipsPasses S M D (decide ("mhips" = "mhips_reduced")) ((List.range R).map d.pass) t with
        | error e => rfl
        | ok t =>
          simp only [ok_bind]
          cases f t <;> rfl
  · have hc : hookCount "mhips_reduced" = 1 := by decide +kernel
    have e : ¬ ("mhips_reduced" = "full" ∨ "mhips_reduced" = "mcmc" ∨ "mhips_reduced" = "rs" ∨
      "mhips_reduced" = "rsas") := by decide +kernel
    have e2 : ¬ ("mhips_reduced" = "ancestor") := by decide +kernel
    simp only [smoothTrajectory, e, e2, if_false, or_true, if_true, performAncestorsInt_hook, mhipsPasses_hook, hf, h0,
      applyHook, hc, applyTimes]
    cases performAncestorsInt S pt M D d.bsi with
    | error e => rfl
    | ok t =>
      cases mhIterations o with
      | error e => rfl
      | ok R =>
        simp only [ok_bind, pure_eq_ok]
        cases mhipsPasses S M D (decide True) ((List.range R).map d.pass) t with
        | error e => rfl
        | ok t =>
          simp only [ok_bind]
          cases f t <;> rfl
  · have hc : hookCount "mhbp" = 2 := by decide +kernel
    have e : ¬ ("mhbp" = "full" ∨ "mhbp" = "mcmc" ∨ "mhbp" = "rs" ∨ "mhbp" = "rsas") := by decide +kernel
    have e2 : ¬ ("mhbp" = "ancestor") := by decide +kernel
    have e3 : ¬ ("mhbp" = "mhips" ∨ "mhbp" = "mhips_reduced") := by decide +kernel
    simp only [smoothTrajectory, e, e2, e3, if_false, if_true, performMhbp_hook, hf, h0, applyHook, hc, applyTimes]
    cases mhIterations o with
    | error e => rfl
    | ok R =>
      simp only [ok_bind, pure_eq_ok]
      cases performMhbp S pt M R D d.bsi.r0 d.mhbp with
      | error e => rfl
      | ok t =>
        simp only [ok_bind]
        cases f t with
        | error e => rfl
        | ok t =>
          simp only [ok_bind]
          cases f t <;> rfl

/-! ### Options -/

/-- The user's value if there is one, otherwise the default. -/
def Spec.choose {α : Type} (user : Option SOpts) (key : SOpts → Option α) (default : α) : α :=
  (user.bind key).getD default

/-- C26 ('full'): no options are needed or used. -/
theorem C26_full (S : SmoothCallbacks P U Y V Ω) (pt : List (Step P)) (M : ℕ) (D : SData U Y) (user : Option SOpts)
    (d : AllDraws Ω) (fuel : ℕ) :
    performSmoothing S pt M D "full" user d fuel = smoothTrajectory S pt M D "full" none d fuel := by
  have e1 : ¬ ("full" = "rs") := by decide +kernel
  have e2 : ¬ ("full" = "rsas") := by decide +kernel
  have e3 : ¬ ("full" = "mcmc" ∨ "full" = "mhips" ∨ "full" = "mhbp") := by decide +kernel
  simp only [performSmoothing, defaultOptions, e1, e2, e3, if_false, pure_eq_ok, ok_bind, smoothTrajectory, true_or,
    if_true, bsiOptions]

/-- C26 ('mcmc'): 30 iterations unless the user gives `R`. -/
theorem C26_mcmc (S : SmoothCallbacks P U Y V Ω) (hS : S.postSmoothing = none) (pt : List (Step P)) (hT : 2 ≤ pt.length)
    (M : ℕ) (D : SData U Y) (user : Option SOpts) (d : AllDraws Ω) (fuel : ℕ) :
    performSmoothing S pt M D "mcmc" user d fuel = performBsi S
      (do let n ← (choose user (·.R) (.int 30)).range; return .mcmc n) pt M D d.bsi fuel := by
  have e1 : ¬ ("mcmc" = "rs") := by decide +kernel
  have e2 : ¬ ("mcmc" = "rsas") := by decide +kernel
  have e3 : ¬ ("mcmc" = "full") := by decide +kernel
  have hT' : ¬ pt.length ≤ 1 := by omega
  have key : ∀ o : SOpts, smoothTrajectory S pt M D "mcmc" (some o) d fuel = performBsi S
      (do let R ← look o.R; let n ← R.range; return .mcmc n) pt M D d.bsi fuel := by
    intro o
    simp only [smoothTrajectory, true_or, or_true, if_true, bsiOptions, e3, if_false, hT', hS, applyHook]
    cases performBsi S _ pt M D d.bsi fuel with
    | error e => rfl
    | ok r => cases r <;> rfl
  simp only [performSmoothing, defaultOptions, e1, e2, if_false, true_or, if_true, pure_eq_ok, ok_bind, key]
  congr 1
  cases user with
  | none => rfl
  | some u =>
    simp only [choose, Option.bind_some, SOpts.update]
    cases u.R <;> rfl

/-- C26 ('rs'): `int(N/10)` attempts and the bounds computed from `logp_xnext_max_full`, unless the user gives `R` or
`maxpdf`. `N` is the number of particles of the first step. -/
theorem C26_rs (S : SmoothCallbacks P U Y V Ω) (hS : S.postSmoothing = none) {pt : List (Step P)} (hT : 2 ≤ pt.length)
    (M : ℕ) (D : SData U Y) (user : Option SOpts) (d : AllDraws Ω) (fuel : ℕ) {c : List ℝ}
    (hc : maxCoeffs S pt D = .ok c) {st : Step P} (hst : pt[0]? = some st) :
    performSmoothing S pt M D "rs" user d fuel = performBsi S
      (.ok (.rs (choose user (fun u => u.R.map PyNum.intRange) (st.pa.w.length / 10))
        (choose user (·.maxpdf) c))) pt M D d.bsi fuel := by
  have e3 : ¬ ("rs" = "full") := by decide +kernel
  have e4 : ¬ ("rs" = "mcmc") := by decide +kernel
  have hT' : ¬ pt.length ≤ 1 := by omega
  have key : ∀ (o : SOpts) R m, o.R = some R → o.maxpdf = some m →
      smoothTrajectory S pt M D "rs" (some o) d fuel = performBsi S (.ok (.rs R.intRange m)) pt M D d.bsi fuel := by
    intro o R m h1 h2
    simp only [smoothTrajectory, true_or, or_true, if_true, bsiOptions, e3, e4, if_false, hT', hS, applyHook, h1, h2,
      look, ok_bind, pure_eq_ok]
    cases performBsi S _ pt M D d.bsi fuel with
    | error e => rfl
    | ok r => cases r <;> rfl
  have hfl : PyNum.intRange (.float ((st.pa.w.length : ℝ) / 10)) = st.pa.w.length / 10 := by
    have := Nat.floor_div_natCast ((st.pa.w.length : ℕ) : ℝ) 10
    simpa [PyNum.intRange] using this
  simp only [performSmoothing, defaultOptions, if_true, hc, getIdx_ok.mpr hst, pure_eq_ok, ok_bind]
  cases user with
  | none => rw [key _ _ _ rfl rfl, hfl]; rfl
  | some u =>
    cases hR : u.R with
    | none =>
      cases hm : u.maxpdf with
      | none =>
        rw [key _ (.float (st.pa.w.length / 10)) c (by simp [SOpts.update, hR]) (by simp [SOpts.update, hm]), hfl]
        simp [choose, hR, hm]
      | some m =>
        rw [key _ (.float (st.pa.w.length / 10)) m (by simp [SOpts.update, hR]) (by simp [SOpts.update, hm]), hfl]
        simp [choose, hR, hm]
    | some R =>
      cases hm : u.maxpdf with
      | none =>
        rw [key _ R c (by simp [SOpts.update, hR]) (by simp [SOpts.update, hm])]
        simp [choose, hR, hm]
      | some m =>
        rw [key _ R m (by simp [SOpts.update, hR]) (by simp [SOpts.update, hm])]
        simp [choose, hR, hm]

/-- C26 ('rsas'): every parameter of the stopping rule defaults to 1, the bounds are computed; each can be overridden
separately. -/
theorem C26_rsas (S : SmoothCallbacks P U Y V Ω) (hS : S.postSmoothing = none) {pt : List (Step P)} (hT : 2 ≤ pt.length)
    (M : ℕ) (D : SData U Y) (user : Option SOpts) (d : AllDraws Ω) (fuel : ℕ) {c : List ℝ}
    (hc : maxCoeffs S pt D = .ok c) :
    performSmoothing S pt M D "rsas" user d fuel = performBsi S
      (.ok (.rsas ⟨choose user (·.x1) 1, choose user (·.P1) 1, choose user (·.sv) 1, choose user (·.sw) 1,
        choose user (·.ratio) 1⟩ (choose user (·.maxpdf) c))) pt M D d.bsi fuel := by
  have e3 : ¬ ("rsas" = "full") := by decide +kernel
  have e4 : ¬ ("rsas" = "mcmc") := by decide +kernel
  have e5 : ¬ ("rsas" = "rs") := by decide +kernel
  have hT' : ¬ pt.length ≤ 1 := by omega
  have key : ∀ (o : SOpts) x1 P1 sv sw ratio m, o.x1 = some x1 → o.P1 = some P1 → o.sv = some sv → o.sw = some sw →
      o.ratio = some ratio → o.maxpdf = some m → smoothTrajectory S pt M D "rsas" (some o) d fuel =
        performBsi S (.ok (.rsas ⟨x1, P1, sv, sw, ratio⟩ m)) pt M D d.bsi fuel := by
    intro o x1 P1 sv sw ratio m h1 h2 h3 h4 h5 h6
    simp only [smoothTrajectory, or_true, if_true, bsiOptions, e3, e4, e5, if_false, hT', hS, applyHook, h1, h2, h3,
      h4, h5, h6, look, ok_bind, pure_eq_ok]
    cases performBsi S _ pt M D d.bsi fuel with
    | error e => rfl
    | ok r => cases r <;> rfl
  simp only [performSmoothing, defaultOptions, e5, if_false, if_true, hc, pure_eq_ok, ok_bind]
  cases user with
  | none => exact key _ 1 1 1 1 1 c rfl rfl rfl rfl rfl rfl
  | some u =>
    have hor : ∀ {α : Type} (o : Option α) (x : α), (o <|> some x) = some (o.getD x) := by
      intro α o x; cases o <;> rfl
    exact key _ _ _ _ _ _ _ (hor _ _) (hor _ _) (hor _ _) (hor _ _) (hor _ _) (hor _ _)

/-- C26 ('mhips', 'mhbp'): 30 iterations unless the user gives `R`; 'mhips_reduced' has no entry in the table of defaults
and runs 10. -/
theorem C26_mh_iterations (S : SmoothCallbacks P U Y V Ω) (pt : List (Step P)) (M : ℕ) (D : SData U Y)
    (user : Option SOpts) (d : AllDraws Ω) (fuel : ℕ) :
    (∀ m, m = "mhips" ∨ m = "mhbp" → ∃ o, performSmoothing S pt M D m user d fuel =
      smoothTrajectory S pt M D m (some o) d fuel ∧ mhIterations (some o) = (choose user (·.R) (.int 30)).range) ∧
    ∃ o, performSmoothing S pt M D "mhips_reduced" user d fuel =
      smoothTrajectory S pt M D "mhips_reduced" (some o) d fuel ∧
      mhIterations (some o) = (choose user (·.R) (.int 10)).range := by
  constructor
  · intro m hm
    have e1 : ¬ (m = "rs") := by rcases hm with rfl | rfl <;> decide +kernel
    have e2 : ¬ (m = "rsas") := by rcases hm with rfl | rfl <;> decide +kernel
    have e3 : m = "mcmc" ∨ m = "mhips" ∨ m = "mhbp" := Or.inr hm
    refine ⟨_, by simp only [performSmoothing, defaultOptions, e1, e2, e3, if_false, if_true, pure_eq_ok, ok_bind]; rfl, ?_⟩
    cases user with
    | none => rfl
    | some u =>
      simp only [choose, Option.bind_some, SOpts.update, mhIterations]
      cases u.R <;> rfl
  · have e1 : ¬ ("mhips_reduced" = "rs") := by decide +kernel
    have e2 : ¬ ("mhips_reduced" = "rsas") := by decide +kernel
    have e3 : ¬ ("mhips_reduced" = "mcmc" ∨ "mhips_reduced" = "mhips" ∨ "mhips_reduced" = "mhbp") := by decide +kernel
    refine ⟨_, by simp only [performSmoothing, defaultOptions, e1, e2, e3, if_false, pure_eq_ok, ok_bind]; rfl, ?_⟩
    cases user with
    | none => rfl
    | some u =>
      simp only [choose, Option.bind_some, SOpts.update, mhIterations]
      cases u.R <;> rfl

variable {S : SmoothCallbacks P U Y V Ω} {pt : List (Step P)} {D : SData U Y} {N M : ℕ}

theorem finished_some (l : List ℕ) : finished (l.map some) = .ok l := by
  induction l with
  | nil => rfl
  | cons a l ih =>
    have : finished ((a :: l).map some) = (do let x ← (.ok a : PyM ℕ); let xs ← finished (l.map some); return x :: xs) := by
      simp only [finished, List.map_cons, List.mapM_cons]
    rw [this, ih]; rfl

theorem bsiLoop_rs_zero (hpt : GoodRun N pt) (hsm : SamplesAll S D) (hden : HasDensity S pt D M) (hM : 0 < M)
    {mp : List ℝ} (hmp : pt.length ≤ mp.length + 1) {draws : ℕ → BsiDraws Ω} (hd : ∀ t, GoodDraws (draws t)) (fuel : ℕ)
    (n : ℕ) (hn : n < pt.length) {anc : List ℕ}
    {fut : List (SStep P)} (hf : SmoothedFrom S D M pt n fut) :
    bsiLoop S (.rs 0 mp) pt M D draws fuel n anc fut = bsiLoop S .full pt M D draws fuel n anc fut := by
  induction n generalizing anc fut with
  | zero => rfl
  | succ n ih =>
    have hn' : n < pt.length := by omega
    have hs := hpt.steps pt[n] (List.getElem_mem _)
    have hfl : ∀ s ∈ fut, s.pa.part.length = M := by
      intro s hs
      obtain ⟨k, hk, rfl⟩ := List.getElem_of_mem hs
      obtain ⟨st, s, -, e2, e3⟩ := hf.2 k hk
      rw [List.getElem?_eq_getElem hk, Option.some.injEq] at e2
      rw [e2]; exact e3.wf.part_len
    obtain ⟨L, hL⟩ := hden n pt[n] fut (List.getElem?_eq_getElem hn') (by have := hf.1; omega) hfl
    have hb : BackStep S pt[n].pa ((pt.take n).map Step.toS) pt[n].ancestors fut D n N M L :=
      ⟨hpt.pos, hs.pa, hs.anc_len, hL⟩
    have hcur : n < mp.length := by omega
    obtain ⟨ind, h1, h2⟩ := C30_rs_zero_attempts hb (le_refl M) mp[n] (hd n)
    obtain ⟨ind', h1', h3, h4, -⟩ := C29_bsi_full hb (find := List.range M) (fun j hj => List.mem_range.mp hj) (hd n).full
    rw [h1] at h1'
    cases h1'
    have hp1 : bsiPick S (.rs 0 mp) pt[n] ((pt.take n).map Step.toS) fut (List.range M) D n anc (draws n) fuel =
        .ok (some ind) := by
      simp only [bsiPick, getIdx_of_lt hcur, ok_bind, h2, finished_some]; rfl
    have hp2 : bsiPick S .full pt[n] ((pt.take n).map Step.toS) fut (List.range M) D n anc (draws n) fuel =
        .ok (some ind) := by
      simp only [bsiPick, ok_bind, h1]; rfl
    obtain ⟨anc', part, tmp, pa, e1, e2, e3, e4, e5, e6, e7, -, e8⟩ := smoothStep_ok hsm hM hs (by simpa using h3) h4
      (some ((pt.take n).map Step.toS)) (some fut) (some (List.range M)) n (draws n).ω
    simp only [bsiLoop, getIdx_of_lt hn', ok_bind, hp1, hp2, e1, e2, e3, e4]
    exact ih hn' (hf.cons (List.getElem?_eq_getElem hn') e8)

/-- C26 (defect): with fewer than ten particles the default rejection smoother makes no attempt at all and returns, for
the same random numbers, exactly what 'full' returns. -/
theorem C26_rs_small (hS : S.postSmoothing = none) (hpt : GoodRun N pt) (hT : 2 ≤ pt.length) (hN : N < 10)
    (hsm : SamplesAll S D) (hden : HasDensity S pt D M) (hM : 0 < M) {c : List ℝ}
    (hc : maxCoeffs S pt D = .ok c) {d : AllDraws Ω} (hd : GoodSmoothDraws d.bsi) (fuel : ℕ) :
    performSmoothing S pt M D "rs" none d fuel = performSmoothing S pt M D "full" none d fuel := by
  have h0 : 0 < pt.length := by omega
  rw [C26_rs S hS hT M D none d fuel hc (List.getElem?_eq_getElem h0), C26_full]
  have hs0 := hpt.steps pt[0] (List.getElem_mem _)
  have hn0 : pt[0].pa.w.length / 10 = 0 := by rw [hs0.pa.w_len]; omega
  have hcl : c.length = pt.length - 1 := by
    have := (mapM_ok_iff.mp hc).1
    simpa using this
  have e : smoothTrajectory S pt M D "full" none d fuel = performBsi S (.ok .full) pt M D d.bsi fuel := by
    simp only [smoothTrajectory, true_or, if_true, bsiOptions, hS, applyHook]
    cases performBsi S _ pt M D d.bsi fuel with
    | error e => rfl
    | ok r => cases r <;> rfl
  rw [e]
  simp only [choose, Option.bind_none, Option.getD_none, hn0]
  obtain ⟨T, st, hT1, hst, hlast, hs⟩ := lastStep hpt
  obtain ⟨ind, h1, -, h2, h3⟩ := drawEnd_ok hs hpt.pos M hd.r0
  obtain ⟨anc, part, tmp, pa, e1, e2, e3, e4, e5, e6, e7, -, e8⟩ := smoothStep_ok hsm hM hs h2 h3
    (some ((pt.take T).map Step.toS)) none none T d.bsi.ω0
  simp only [performBsi, hlast, ok_bind, h1, e1, e2, hT1, Nat.add_sub_cancel, e3, e4]
  exact bsiLoop_rs_zero hpt hsm hden hM (by omega) hd.step fuel T (by omega) (SmoothedFrom.last hT1 hst e8)

end PyPE

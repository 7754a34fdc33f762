import Verif.Smooth.Dispatch
import Verif.Filter.Toy

/-!
# A concrete model: the hypotheses of C26 and C28–C37 are met

`stoy` is the scalar model `x' = x/2 + v`, `y = x + e`, `x_0 ~ N(0,1)` with unit variances (unnormalised log
densities).  It proposes from its own dynamics.  `srun` is a stored run of two steps with two particles.
-/

namespace PyPE
open Real Spec

/-- State `j` of the first step of the future trajectories. -/
def futState (fut : List (SStep ℝ)) (j : ℕ) : ℝ := ((fut.head?.map (·.pa.part)).getD []).getD j 0

/-- The mean of the dynamics given the past trajectories and an ancestor index. -/
noncomputable def priorMean (ptraj : Option (List (SStep ℝ))) (a : ℕ) : ℝ :=
  ((((ptraj.bind (·.getLast?)).map (·.pa.part)).getD []).getD a 0) / 2

/-- Entry `k` of an optional index array (`0` if there is none). -/
def ancAt (anc : Option (List ℕ)) (k : ℕ) : ℕ := (anc.getD []).getD k 0

/-- `x' = x/2 + v`, `y = x + e`. -/
noncomputable def stoy : SmoothCallbacks ℝ ℝ ℝ (List ℝ) ℝ where
  sampleSmooth part _ _ _ _ _ _ _ := .ok part
  logpXnextFull part _ _ fut find _ _ := .ok (part.zipIdx.map fun xk => -(futState fut (find.getD xk.2 0) - xk.1 / 2) ^ 2 / 2)
  logpXnextMaxFull _ _ _ _ _ := .ok 0
  condPredict _ _ _ x _ _ _ := .ok x
  condInitial x _ := .ok x
  sampleNoise _ anc _ _ ω := .ok (anc.map fun _ => ω)
  update part _ _ _ v := .ok (part.zipIdx.map fun xk => xk.1 / 2 + v.getD xk.2 0)
  createInitial N ω := .ok ((List.range N).map fun i => ω + (i : ℝ))
  proposeSmooth ptraj anc _ find _ _ ω := .ok (find.zipIdx.map fun jk => priorMean ptraj (ancAt anc jk.2) + ω)
  logpProposal x ptraj anc _ _ _ _ := .ok (x.zipIdx.map fun xk => -(xk.1 - priorMean ptraj (ancAt anc xk.2)) ^ 2 / 2)
  logpXnextSingle old _ _ x _ _ _ := .ok (x.zipIdx.map fun xk => -(xk.1 - (old.getD xk.2 0) / 2) ^ 2 / 2)
  evalLogpX0 x _ := .ok (x.map fun x => -x ^ 2 / 2)
  measure x _ D _ := .ok (x, x.map fun x => -(x - (D.y.getLast?.map Slot.val).getD 0) ^ 2 / 2)
  postSmoothing := none
  preMhips := none

/-- Two steps, two particles each. -/
noncomputable def srun : List (Step ℝ) :=
  [⟨⟨[0, 4], [-1, -2], 2, 0⟩, [0, 1]⟩, ⟨⟨[1, 2], [0, -1], 2, 0⟩, [1, 0]⟩]

/-- Its data: measurements 1 and 2. -/
noncomputable def sdata : SData ℝ ℝ := ⟨[.none, .none], [.obj 1, .obj 2], [0, 1]⟩

theorem srun_good : GoodRun 2 srun := by
  refine ⟨by norm_num, by simp [srun], ?_⟩
  intro st h
  simp only [srun, List.mem_cons, List.not_mem_nil, or_false] at h
  rcases h with rfl | rfl
  · exact ⟨⟨rfl, rfl, rfl⟩, rfl, by decide⟩
  · exact ⟨⟨rfl, rfl, rfl⟩, rfl, by decide⟩

theorem stoy_plain (D : SData ℝ ℝ) : PlainSmooth stoy D := fun _ _ _ _ _ _ _ => rfl

theorem stoy_samples (D : SData ℝ ℝ) : SamplesAll stoy D := fun part _ _ _ _ _ _ => ⟨part, rfl, rfl⟩

theorem stoy_dens (pa : PA ℝ) (ptraj : List (SStep ℝ)) (pind : List ℕ) (fut : List (SStep ℝ)) (D : SData ℝ ℝ) (cur F : ℕ) :
    BackwardDensity stoy pa ptraj pind fut D cur F fun i j => -(futState fut j - (pa.part.getD i 0) / 2) ^ 2 / 2 := by
  intro ind fnd part pi hl _ hp _
  obtain ⟨h1, h2⟩ := fancy_spec.mp hp
  simp only [stoy, Except.ok.injEq]
  apply List.ext_getElem?
  intro k
  by_cases hk : k < ind.length
  · have hi : ind[k]? = some ind[k] := List.getElem?_eq_getElem hk
    have hj : fnd[k]? = some (fnd[k]'(by omega)) := List.getElem?_eq_getElem (by omega)
    obtain ⟨h3, h4⟩ := h2 k _ hi
    have hx : part[k]? = some (part[k]'(by omega)) := List.getElem?_eq_getElem (by omega)
    rw [hx] at h3
    simp [List.getElem?_zipWith, hi, hj, hx, List.getD_eq_getElem?_getD, h3]
  · rw [List.getElem?_eq_none (by simp; omega), List.getElem?_eq_none (by simp; omega)]

theorem stoy_hasDensity (pt : List (Step ℝ)) (D : SData ℝ ℝ) (M : ℕ) : HasDensity stoy pt D M :=
  fun _ _ _ _ _ _ => ⟨_, stoy_dens _ _ _ _ _ _ _⟩

theorem stoy_total (D : SData ℝ ℝ) : TotalMh stoy D where
  sample := stoy_samples D
  condPredict _ _ _ x _ _ := ⟨x, rfl, rfl⟩
  condInitial x _ := ⟨x, rfl, rfl⟩
  propose _ _ _ _ _ _ := ⟨_, rfl, by simp⟩
  proposal _ _ _ _ _ _ := ⟨_, rfl, by simp⟩
  single _ _ _ _ _ _ := ⟨_, rfl, by simp⟩
  x0 _ _ := ⟨_, rfl, by simp⟩
  measure _ _ _ _ := ⟨_, _, rfl, rfl, by simp⟩
  next _ _ _ _ _ _ := ⟨_, rfl, by simp⟩
  noise _ _ _ _ _ := ⟨_, rfl⟩
  update _ _ _ _ _ := ⟨_, rfl, by simp⟩
  initial _ _ := ⟨_, rfl, by simp⟩

/-- A backward step with three particles and two future trajectories: C29–C32 apply. -/
theorem stoy_backStep : BackStep stoy ⟨[1, 2, 3], [0, -1, -2], 3, 0⟩ [] [0, 0, 1] [⟨⟨[5, 7], [0, 0], 2, 0⟩, some [0, 1]⟩]
    sdata 0 3 2 (fun i j => -(([5, 7] : List ℝ).getD j 0 - (([1, 2, 3] : List ℝ).getD i 0) / 2) ^ 2 / 2) :=
  ⟨by norm_num, ⟨rfl, rfl, rfl⟩, rfl, stoy_dens _ _ _ _ _ _ _⟩

/-- Draws `numpy.random.rand` can return. -/
noncomputable def sdraws : BsiDraws ℝ := ⟨fun _ => ⟨1/2, fun _ => Equiv.refl _, fun _ => 1/3⟩, fun _ => 1/4, 0⟩

theorem sdraws_good : GoodDraws sdraws := ⟨fun _ => by norm_num [sdraws, Unit01], fun _ => by norm_num [sdraws, Unit01]⟩

/-- The bound 0 is valid for this density, as C30 and C31 need. -/
example : ∀ l < 3, ∀ j, -(([5, 7] : List ℝ).getD j 0 - (([1, 2, 3] : List ℝ).getD l 0) / 2) ^ 2 / 2 ≤ 0 := by
  intro l _ j
  have := sq_nonneg (([5, 7] : List ℝ).getD j 0 - (([1, 2, 3] : List ℝ).getD l 0) / 2)
  linarith

/-- C32 applies with starting ancestors 2 and 0. -/
example : ∃ ind, bsiMcmc stoy ⟨[1, 2, 3], [0, -1, -2], 3, 0⟩ [] [0, 0, 1]
    [⟨⟨[5, 7], [0, 0], 2, 0⟩, some [0, 1]⟩] [0, 1] sdata 0 5 [2, 0] sdraws = .ok ind ∧ ind.length = 2 := by
  obtain ⟨ind, h1, h2, -⟩ := C32_mcmc_valid stoy_backStep (find := [0, 1]) (anc := [2, 0]) (by decide) rfl (by decide) 5
    sdraws_good
  exact ⟨ind, h1, h2⟩

/-- The endless run of C31 is reachable: a positive density far below `maxpdf`, here with uniforms equal to 1/3. -/
example (fuel : ℕ) : bsiRsas stoy ⟨[1, 2, 3], [0, -1, -2], 3, 0⟩ [] [0, 0, 1]
    [⟨⟨[5, 7], [0, 0], 2, 0⟩, some [0, 1]⟩] [0, 1] sdata 0 20 ⟨1, 0, 0, 1, 1⟩ sdraws fuel = .ok none := by
  refine C31_rsas_may_loop stoy_backStep rfl rfl (by norm_num) sdraws_good (by simp) le_rfl ?_ fuel
  intro k p i j _ _ h
  simp only [accepts, sdraws] at h
  have h0 := sq_nonneg (([5, 7] : List ℝ).getD j 0 - (([1, 2, 3] : List ℝ).getD i 0) / 2)
  have h1 : exp (-(([5, 7] : List ℝ).getD j 0 - (([1, 2, 3] : List ℝ).getD i 0) / 2) ^ 2 / 2 - 20) ≤ exp (-20) :=
    exp_le_exp.mpr (by linarith)
  have h2 : exp (-20) ≤ 1 / 3 := by
    rw [exp_neg, one_div]
    apply inv_anti₀ (by norm_num)
    have := add_one_le_exp (20 : ℝ)
    linarith
  linarith

noncomputable def sall : SmoothDraws ℝ := ⟨1/2, 0, fun _ => sdraws⟩

theorem sall_good : GoodSmoothDraws sall := ⟨by norm_num [sall, Unit01], fun _ => sdraws_good⟩

/-- C33 for 'full', 'mcmc', 'rs' and 'rsas' with default options. -/
example (m : BsiMethod) (hm : m ∈ [.full, .mcmc 30, .rs 3 [0, 0], .rsas ⟨1, 1, 1, 1, 1⟩ [0, 0]]) :
    ∃ traj B, (∀ fuel, B ≤ fuel → performBsi stoy (.ok m) srun 3 sdata sall fuel = .ok (some traj)) ∧
      traj.length = 2 := by
  have hu : UsableMethod srun.length m := by
    simp only [List.mem_cons, List.not_mem_nil, or_false] at hm
    rcases hm with rfl | rfl | rfl | rfl
    · trivial
    · trivial
    · simp [UsableMethod, srun]
    · exact ⟨⟨by norm_num, by norm_num, by norm_num, Or.inl (by norm_num)⟩, by simp [srun]⟩
  obtain ⟨traj, B, h1, h2, -⟩ := C33_backward_simulation srun_good (stoy_samples sdata) (stoy_hasDensity _ _ 3)
    (by norm_num) hu sall_good
  exact ⟨traj, B, h1, h2⟩

/-- C28 on this run. -/
example : ∃ traj, performAncestorsInt stoy srun 3 sdata sall = .ok traj ∧ traj.length = 2 := by
  obtain ⟨traj, _, _, h1, h2, -⟩ := C28_ancestor_lineage (M := 3) srun_good (stoy_plain sdata) (by norm_num) sall_good.r0
  exact ⟨traj, h1, h2⟩

/-- C26 (fewer than ten particles) on this run. -/
example (d : AllDraws ℝ) (hd : d.bsi = sall) (fuel : ℕ) :
    performSmoothing stoy srun 3 sdata "rs" none d fuel = performSmoothing stoy srun 3 sdata "full" none d fuel := by
  refine C26_rs_small rfl srun_good (by simp [srun]) (by norm_num) (stoy_samples _) (stoy_hasDensity _ _ _) (by norm_num)
    (c := [0]) ?_ (by rw [hd]; exact sall_good) fuel
  rfl

/-! ### Metropolis-Hastings -/


theorem zipIdx_map_eq {α : Type} {l : List α} {f : α × ℕ → ℝ} {m : List ℝ} (hl : l.length = m.length)
    (h : ∀ k x, l[k]? = some x → m[k]? = some (f (x, k))) : l.zipIdx.map f = m := by
  apply List.ext_getElem?
  intro k
  by_cases hk : k < l.length
  · rw [h k _ (List.getElem?_eq_getElem hk)]
    simp [List.getElem?_eq_getElem hk]
  · rw [List.getElem?_eq_none (by simp; omega), List.getElem?_eq_none (by omega)]

/-- The density of the future under `stoy`. -/
noncomputable def stoyNext (fut : Option (List (SStep ℝ))) (j : ℕ) (x : ℝ) (_ : ℕ) : ℝ :=
  match fut with
  | none => 0
  | some f => -(futState f j - x / 2) ^ 2 / 2

theorem range_getD {M k : ℕ} (h : k < M) : (List.range M).getD k 0 = k := by
  simp [List.getD_eq_getElem?_getD, List.getElem?_range h]

theorem stoy_next (ptraj : Option (List (SStep ℝ))) (f : List (SStep ℝ)) {M : ℕ} (D : SData ℝ ℝ) (cur : ℕ) {x : List ℝ}
    {pind : Option (List ℕ)} (hx : x.length = M) (hp : (ancOf M pind).length = M) :
    stoy.logpXnextFull x ptraj pind f (List.range M) D cur = .ok (perTraj (stoyNext (some f)) x (ancOf M pind)) := by
  simp only [stoy, Except.ok.injEq]
  apply zipIdx_map_eq
  · simp [perTraj_length, hx, hp]
  · intro k v hv
    have hk : k < M := by rw [← hx]; exact lt_of_getElem?_some hv
    rw [perTraj_get _ hv (List.getElem?_eq_getElem (by omega)), range_getD hk]
    rfl

/-- The prior density under `stoy`. -/
noncomputable def stoyPrior (ptraj : Option (List (SStep ℝ))) (x : ℝ) (a : ℕ) : ℝ := -(x - priorMean ptraj a) ^ 2 / 2

/-- The likelihood under `stoy`. -/
noncomputable def stoyMeas (y : Slot ℝ) (x : ℝ) (_ : ℕ) : ℝ := if y = .none then 0 else -(x - y.val) ^ 2 / 2

theorem stoy_proposal {ptraj fut : Option (List (SStep ℝ))} {find : List ℕ} {M : ℕ} (D : SData ℝ ℝ) (cur : ℕ) {x : List ℝ}
    {pind : Option (List ℕ)} (hx : x.length = M) (hp : (ancOf M pind).length = M) :
    stoy.logpProposal x ptraj pind fut find D cur = .ok (perTraj (fun _ => stoyPrior ptraj) x (ancOf M pind)) := by
  simp only [stoy, Except.ok.injEq]
  apply zipIdx_map_eq
  · simp [perTraj_length, hx, hp]
  · intro k v hv
    have hk : k < M := by rw [← hx]; exact lt_of_getElem?_some hv
    rw [perTraj_get _ hv (List.getElem?_eq_getElem (by omega))]
    have : (ancOf M pind)[k]'(by omega) = ancAt pind k := by
      cases pind with
      | none => simp [ancOf, ancAt]
      | some a =>
        have : k < a.length := by simp only [ancOf, Option.getD_some] at hp; omega
        simp [ancOf, ancAt, List.getD_eq_getElem?_getD, this]
    rw [this]
    rfl

/-- `stoy` is a model as C35 and C36 need it, at time 0 … -/
theorem stoy_mh_start (fut : Option (List (SStep ℝ))) (M : ℕ) {D : SData ℝ ℝ} {y : Slot ℝ} (hy : D.y[0]? = some y)
    {t : ℕ} (ht : D.t[0]? = some t) :
    MhModel stoy none fut (List.range M) D 0 M (stoyPrior none) (stoyMeas y) (stoyNext fut) fun _ => stoyPrior none where
  past := by intro _ _ _ h; cases h
  start _ := ⟨t, t, ht, ht, fun x a hx ha => ⟨rfl, by
    simp only [stoy, Except.ok.injEq]
    apply List.ext_getElem?
    intro k
    by_cases hk : k < M
    · have h1 : x[k]? = some (x[k]'(by omega)) := List.getElem?_eq_getElem (by omega)
      have h2 : a[k]? = some (a[k]'(by omega)) := List.getElem?_eq_getElem (by omega)
      simp [List.getElem?_zipWith, h1, h2, stoyPrior, priorMean]
    · rw [List.getElem?_eq_none (by simp; omega), List.getElem?_eq_none (by simp; omega)]⟩⟩
  proposal x pind hx hp := stoy_proposal D 0 hx hp.1
  noMeas h x a := by rw [hy] at h; cases h; simp [stoyMeas]
  meas := ⟨y, hy, fun hn x pind hx hp => by
    have hl : (D.y.take (0 + 1)).getLast? = some y := by
      have : D.y ≠ [] := by rintro e; simp [e] at hy
      obtain ⟨u, ys, t'⟩ := D
      cases ys with
      | nil => simp at hy
      | cons b bs => simp only [List.getElem?_cons_zero, Option.some.injEq] at hy; subst hy; simp
    simp only [stoy, hl, Option.map_some, Option.getD_some, Except.ok.injEq, Prod.mk.injEq, true_and]
    apply List.ext_getElem?
    intro k
    by_cases hk : k < M
    · have h1 : x[k]? = some (x[k]'(by omega)) := List.getElem?_eq_getElem (by omega)
      have h2 : (ancOf M pind)[k]? = some ((ancOf M pind)[k]'(by have := hp.1; omega)) :=
        List.getElem?_eq_getElem (by have := hp.1; omega)
      simp [List.getElem?_zipWith, h1, h2, stoyMeas, hn]
    · rw [List.getElem?_eq_none (by simp; omega), List.getElem?_eq_none (by simp; omega)]⟩
  noFut h j x a := by subst h; rfl
  next f hf x pind hx hp := by subst hf; exact stoy_next _ _ _ _ hx hp.1

/-- … and at a later time. -/
theorem stoy_mh_later (pt : List (SStep ℝ)) (fut : Option (List (SStep ℝ))) (M cur : ℕ) {D : SData ℝ ℝ} {y : Slot ℝ}
    (hy : D.y[cur]? = some y) :
    MhModel stoy (some pt) fut (List.range M) D cur M (stoyPrior (some pt)) (stoyMeas y) (stoyNext fut)
      fun _ => stoyPrior (some pt) where
  past pt' prev ancs hpt hl ha x old a pi hx hal ho hpi := ⟨rfl, by
    cases hpt
    obtain ⟨h1, h2⟩ := fancy_spec.mp ho
    simp only [stoy, Except.ok.injEq]
    apply zipIdx_map_eq
    · simp; omega
    · intro k v hv
      have hk : k < M := by rw [← hx]; exact lt_of_getElem?_some hv
      have h3 : a[k]? = some (a[k]'(by omega)) := List.getElem?_eq_getElem (by omega)
      obtain ⟨h4, -⟩ := h2 k _ h3
      simp only [List.getElem?_zipWith, hv, h3, stoyPrior, priorMean, Option.bind_some, hl, Option.map_some,
        Option.getD_some, List.getD_eq_getElem?_getD, h4]⟩
  start h := by cases h
  proposal x pind hx hp := stoy_proposal D cur hx hp.1
  noMeas h x a := by rw [hy] at h; cases h; simp [stoyMeas]
  meas := ⟨y, hy, fun hn x pind hx hp => by
    have hl : (D.y.take (cur + 1)).getLast? = some y := by
      rw [List.getLast?_take, if_neg (by omega)]
      simp [hy]
    simp only [stoy, hl, Option.map_some, Option.getD_some, Except.ok.injEq, Prod.mk.injEq, true_and]
    apply List.ext_getElem?
    intro k
    by_cases hk : k < M
    · have h1 : x[k]? = some (x[k]'(by omega)) := List.getElem?_eq_getElem (by omega)
      have h2 : (ancOf M pind)[k]? = some ((ancOf M pind)[k]'(by have := hp.1; omega)) :=
        List.getElem?_eq_getElem (by have := hp.1; omega)
      simp [List.getElem?_zipWith, h1, h2, stoyMeas, hn]
    · rw [List.getElem?_eq_none (by simp; omega), List.getElem?_eq_none (by simp; omega)]⟩
  noFut h j x a := by subst h; rfl
  next f hf x pind hx hp := by subst hf; exact stoy_next _ _ _ _ hx hp.1

/-- Usable ancestors for the second step of `srun`. -/
theorem srun_anc {a : List ℕ} (h3 : a.length = 3) (h : ∀ i ∈ a, i < 2) :
    ValidAnc 3 (some ((srun.take 1).map Step.toS)) (some a) := by
  refine ⟨h3, fun pt hpt => ?_⟩
  cases hpt
  exact ⟨a, _, _, rfl, rfl, rfl, fun i hi => ⟨h i hi, h i hi⟩⟩

/-- C35: three trajectories with different futures at the second time. -/
example (d : McDraws ℝ) : ∃ out acc, mcStep stoy [1, 2, 1] (some ((srun.take 1).map Step.toS)) (some [1, 0, 1])
    (some [0, 1, 0]) (some [⟨⟨[5, 6, 7], [0, 0, 0], 3, 0⟩, some [0, 1, 2]⟩]) (List.range 3) sdata 1 false d =
    .ok (out, acc) ∧ acc.length = 3 := by
  obtain ⟨out, acc, h1, h2, -⟩ := C35_mc_step (stoy_mh_later ((srun.take 1).map Step.toS) (some _) 3 1 (D := sdata) (y := .obj 2) rfl)
    (srun_anc (a := [1, 0, 1]) rfl (by decide)) (srun_anc (a := [0, 1, 0]) rfl (by decide)) (part := [1, 2, 1]) rfl
    (xprop := [4 / 2 + d.ω, 0 / 2 + d.ω, 4 / 2 + d.ω]) rfl d rfl
  exact ⟨out, acc, h1, h2⟩

/-- C36: the reduced step at the second time, where the proposal is a prior draw. -/
example (d : McDraws ℝ) (fut : Option (List (SStep ℝ))) :
    mcStep stoy [1, 2, 1] (some ((srun.take 1).map Step.toS)) (some [1, 0, 1]) (some [0, 1, 0]) fut (List.range 3)
      sdata 1 true d =
    mcStep stoy [1, 2, 1] (some ((srun.take 1).map Step.toS)) (some [1, 0, 1]) (some [0, 1, 0]) fut (List.range 3)
      sdata 1 false d := by
  refine C36_reduced_eq_full (stoy_mh_later ((srun.take 1).map Step.toS) fut 3 1 (y := .obj 2) rfl)
    (srun_anc (a := [1, 0, 1]) rfl (by decide)) (srun_anc (a := [0, 1, 0]) rfl (by decide)) (part := [1, 2, 1]) rfl
    (xprop := [4 / 2 + d.ω, 0 / 2 + d.ω, 4 / 2 + d.ω]) rfl d rfl ?_ (Or.inl (by simp [sdata]))
  exact .later (prev := ⟨⟨[0, 4], [-1, -2], 2, 0⟩, some [0, 1]⟩) (old := [4, 0, 4]) (noise := [d.ω, d.ω, d.ω])
    rfl rfl rfl rfl

/-- C36 (defect): the last step without a measurement. -/
example (d : McDraws ℝ) : mcStep stoy [1, 2, 1] (some ((srun.take 1).map Step.toS)) (some [1, 0, 1]) (some [0, 1, 0]) none
    (List.range 3) ⟨[.none, .none], [.obj 1, .none], [0, 1]⟩ 1 true d = .error .typeError := by
  refine C36_reduced_no_information (stoy_mh_later ((srun.take 1).map Step.toS) none 3 1 (y := .none) rfl)
    (srun_anc (a := [0, 1, 0]) rfl (by decide)) (part := [1, 2, 1]) rfl
    (xprop := [4 / 2 + d.ω, 0 / 2 + d.ω, 4 / 2 + d.ω]) d ?_ rfl
  exact .later (prev := ⟨⟨[0, 4], [-1, -2], 2, 0⟩, some [0, 1]⟩) (old := [4, 0, 4]) (noise := [d.ω, d.ω, d.ω])
    rfl rfl rfl rfl

/-- C34: `mhbp` and `mhips` on `srun`. -/
example (draws : ℕ → MhbpDraws ℝ) (hd : GoodMhbpDraws draws) :
    ∃ traj, performMhbp stoy srun 3 30 sdata (1/2) draws = .ok traj ∧ traj.length = 2 := by
  obtain ⟨traj, h1, h2, -⟩ := C34_mhbp_runs (M := 3) (stoy_total sdata) srun_good (by simp [srun]) (by norm_num) 30
    (by simp [srun, sdata]) (by simp [srun, sdata]) (r0 := 1/2) (by norm_num [Unit01]) hd
  exact ⟨traj, h1, h2⟩

example (d : PassDraws ℝ) (reduced : Bool) : ∃ out, mhipsPass stoy [⟨⟨[1, 2], [0, 0], 2, 0⟩, some [0, 1]⟩,
    ⟨⟨[5, 6], [0, 0], 2, 0⟩, some [0, 1]⟩] 2 sdata reduced d = .ok out ∧ out.length = 2 := by
  obtain ⟨out, h1, h2, -⟩ := C34_mhips_pass (M := 2) (stoy_total sdata) (traj := [⟨⟨[1, 2], [0, 0], 2, 0⟩, some [0, 1]⟩,
    ⟨⟨[5, 6], [0, 0], 2, 0⟩, some [0, 1]⟩]) (by
      intro s h
      simp only [List.mem_cons, List.not_mem_nil, or_false] at h
      rcases h with rfl | rfl
      · exact ⟨⟨rfl, rfl, rfl⟩, rfl⟩
      · exact ⟨⟨rfl, rfl, rfl⟩, rfl⟩) (by simp) (by norm_num) (by simp [sdata]) (by simp [sdata]) reduced
      (by simp [sdata]) d
  exact ⟨out, h1, h2⟩

/-! ### A discrete model for the invariance statement of C35 -/

/-- A coin with `P(true) = 2/3`, observed through a channel that is right with probability 3/4; the proposal is a fair
coin (`ω` is its outcome). -/
noncomputable def coin : SmoothCallbacks Bool Unit Bool Unit Bool where
  sampleSmooth part _ _ _ _ _ _ _ := .ok part
  logpXnextFull part _ _ _ _ _ _ := .ok (part.map fun _ => 0)
  logpXnextMaxFull _ _ _ _ _ := .ok 0
  condPredict _ _ _ x _ _ _ := .ok x
  condInitial x _ := .ok x
  sampleNoise _ _ _ _ _ := .ok ()
  update part _ _ _ _ := .ok part
  createInitial N ω := .ok (List.replicate N ω)
  proposeSmooth _ _ _ find _ _ ω := .ok (find.map fun _ => ω)
  logpProposal x _ _ _ _ _ _ := .ok (x.map fun _ => Real.log (1 / 2))
  logpXnextSingle _ _ _ x _ _ _ := .ok (x.map fun _ => 0)
  evalLogpX0 x _ := .ok (x.map fun b => Real.log (if b then 2 / 3 else 1 / 3))
  measure x _ _ _ := .ok (x, x.map fun b => Real.log (if b then 3 / 4 else 1 / 4))
  postSmoothing := none
  preMhips := none

/-- C35 (invariance) for the coin: target probabilities 6/7 and 1/7 up to the factor 7/12. -/
example (w : Bool) :
    ∑ z, (exp (Real.log (if z then 2 / 3 else 1 / 3)) * exp (Real.log (if z then 3 / 4 else 1 / 4)) * exp 0) *
      mhKernel coin none none [0] ⟨[.none], [.obj true], [0]⟩ 0 (fun z => z) (fun _ => 0) (fun _ => exp (Real.log (1 / 2)))
        (fun z => z) z w =
    exp (Real.log (if w then 2 / 3 else 1 / 3)) * exp (Real.log (if w then 3 / 4 else 1 / 4)) * exp 0 := by
  have h1 : ∀ x : List Bool, x.length = 1 → ∃ b, x = [b] := fun x hx => List.length_eq_one_iff.mp hx
  refine C35_invariant (S := coin) (Z := Bool) (fun z => z) (fun _ => 0) (fun z => z) (ptraj := none) (fut := none) (find := [0])
    (D := ⟨[.none], [.obj true], [0]⟩) (cur := 0)
    (lp := fun b _ => Real.log (if b then 2 / 3 else 1 / 3)) (ly := fun b _ => Real.log (if b then 3 / 4 else 1 / 4))
    (ln := fun _ _ _ => 0) (lq := fun _ _ _ => Real.log (1 / 2)) ?_ ?_ (fun _ => rfl) ?_ w
  · refine ⟨by intro _ _ _ h; (cases h), fun _ => ⟨0, 0, rfl, rfl, fun x a hx ha => ⟨rfl, ?_⟩⟩, fun x pind hx hp => ?_,
      by simp, ⟨.obj true, rfl, fun _ x pind hx hp => ?_⟩, fun _ _ _ _ => rfl, by intro _ h; (cases h)⟩
    · obtain ⟨b, rfl⟩ := h1 x hx
      obtain ⟨c, rfl⟩ := List.length_eq_one_iff.mp ha
      rfl
    · obtain ⟨b, rfl⟩ := h1 x hx
      obtain ⟨c, hc⟩ := List.length_eq_one_iff.mp hp.1
      rw [hc]; rfl
    · obtain ⟨b, rfl⟩ := h1 x hx
      obtain ⟨c, hc⟩ := List.length_eq_one_iff.mp hp.1
      rw [hc]; rfl
  · intro z
    exact ⟨rfl, by intro _ h; cases h⟩
  · simp only [Fintype.sum_bool]
    rw [exp_log (by norm_num)]; norm_num

end PyPE

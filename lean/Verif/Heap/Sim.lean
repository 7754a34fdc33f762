import Verif.Heap.RefineCond

/-!
# C94: the value-level filters are what the in-place code computes

A `ParticleTrajectory` whose arrays are shared and updated in place returns the same results and raises the same exceptions
as the value-level model used in all other modules, and reading its steps gives the value-level state.
-/

namespace PyPE
open Real

variable {P U Y V Ω α β : Type} {C : HCallbacks P U Y V Ω} {M : Callbacks P U Y V Ω}

/-! ### Specification -/

/-- What a user sees when looking at a `ParticleTrajectory`. -/
def Spec.viewPT (h : Heap P) (s : HPT U Y) : PT P U Y :=
  ⟨s.uvec, s.yvec, s.tvec, s.T, s.ind1, s.N, s.traj.map (viewStep h)⟩

/-- What a user sees when looking at `filter_options`. -/
def Spec.viewOpts (h : Heap P) : FilterOptionsH → FilterOptions P
  | .none => .none
  | .dict c => .dict (c.map fun l => l.map (viewStep h))

/-- The steps of the conditional trajectory. -/
def Spec.condSteps : FilterOptionsH → List HStep
  | .none => []
  | .dict c => c.getD []

/-- The `ParticleTrajectory` and the conditional trajectory are in memory, and share no approximation. -/
structure Spec.InMemory (h : Heap P) (s : HPT U Y) (opts : FilterOptionsH) : Prop where
  stored : Stored h s.traj
  cond : ∀ st ∈ condSteps opts, Alloc h st
  apart : ∀ c ∈ condSteps opts, c.pa ∉ s.traj.map HStep.pa

/-! ### Filters -/

/-- On heap `h` the filter object `F` does what `G` does. -/
structure SimAt (h : Heap P) (F : FilterOpsH P U Y Ω) (G : FilterOps P U Y V Ω) : Prop where
  create : ∀ N ω, Ref h (F.create N ω) (G.create N ω) (fun a l h' => h'.part a = l)
  forward : ∀ tr yv uv tv cur d, AllocAll h tr → Ref h (F.forward tr yv uv tv cur d) (G.forward (tr.map (Spec.viewStep h)) yv uv tv cur d)
    (fun a b h' => a.2 = b.2 ∧ viewPA h' a.1 = b.1)
  measure : ∀ tr anc o uv yv tv cur, Spec.Alloc h ⟨o, anc⟩ → Ref h (F.measure tr anc o uv yv tv cur)
    (G.measure (tr.map (Spec.viewStep h)) anc (viewPA h o) uv yv tv cur) (fun _ b h' => viewPA h' o = b)
  measureNew : ∀ yv tv cur ω, Ref h (F.measureNew yv tv cur ω) (G.measureNew yv tv cur ω) (fun a b h' => viewPA h' a = b)
  pfy : F.usingPfy = G.usingPfy

theorem measure_sim (hI : Spec.Implements C M) (h : Heap P) (tr : List HStep) (anc : List ℕ) (o : ℕ) (uv : List (Slot U)) (yv : List (Slot Y)) (tv : List ℕ) (cur : ℕ)
    (ha : Spec.Alloc h ⟨o, anc⟩) : Ref h (measureH C tr anc o uv yv tv cur) (pfMeasure M (tr.map (Spec.viewStep h)) anc (viewPA h o) uv yv tv cur)
      (fun _ b h' => viewPA h' o = b) := measureH_ref hI ha.1 ha.2.2 ha.2.1 anc uv yv tv cur

theorem Ref.throw {h : Heap P} (e : PyErr) {R : α → β → Heap P → Prop} : Ref h (HM.throw e) (.error e : PyM β) R := ⟨h, rfl⟩

theorem condTraj_view (h : Heap P) (opts : FilterOptionsH) :
    (Spec.viewOpts h opts).condTraj = (opts.condTraj >>= fun c => pure (c.map (Spec.viewStep h))) ∧ ∀ c, opts.condTraj = .ok c → Spec.condSteps opts = c := by
  cases opts with
  | none => exact ⟨rfl, fun c hc => by cases hc⟩
  | dict c => cases c with
    | none => exact ⟨rfl, fun c hc => by cases hc⟩
    | some c => exact ⟨rfl, fun c hc => by cases hc; rfl⟩

theorem mkFilterH_sim (hI : Spec.Implements C M) {h : Heap P} {opts : FilterOptionsH} (ha : AllocAll h (Spec.condSteps opts)) (N : ℕ) (res : ℝ) (name : String) :
    (∀ F, mkFilterH C N res name opts = .ok F → ∃ G, mkFilter M N res name (Spec.viewOpts h opts) = .ok G ∧ SimAt h F G) ∧
    (∀ e, mkFilterH C N res name opts = .error e → mkFilter M N res name (Spec.viewOpts h opts) = .error e) := by
  obtain ⟨hv, hc⟩ := condTraj_view h opts
  unfold mkFilterH mkFilter
  rw [hv]
  cases hk : parseFilter name with
  | error e => exact ⟨fun F hF => (by cases hF), fun e' he => by cases he; rfl⟩
  | ok k =>
    simp only [ok_bind]
    cases k
    case pf => exact ⟨fun F hF => by cases hF; exact ⟨_, rfl, hI.create h, fun tr yv uv tv cur d ha => pfForwardH_ref hI ha res yv uv tv cur d, measure_sim hI h, fun _ _ _ _ => Ref.throw _, rfl⟩, fun e he => by cases he⟩
    case apf => exact ⟨fun F hF => by cases hF; exact ⟨_, rfl, hI.create h, fun tr yv uv tv cur d ha => apfForwardH_ref hI ha res yv uv tv cur d, measure_sim hI h, fun _ _ _ _ => Ref.throw _, rfl⟩, fun e he => by cases he⟩
    case sir => exact ⟨fun F hF => by cases hF; exact ⟨_, rfl, hI.create h, fun tr yv uv tv cur d _ => sirForwardH_ref hI res yv uv tv cur d, measure_sim hI h, fun _ _ _ _ => Ref.throw _, rfl⟩, fun e he => by cases he⟩
    case pfy => exact ⟨fun F hF => by cases hF; exact ⟨_, rfl, hI.create h, fun tr yv uv tv cur d ha => ffpropyForwardH_ref hI ha res N yv uv tv cur d, fun _ _ _ _ _ _ _ _ => Ref.throw _, fun yv tv cur ω => ffpropyMeasureH_ref hI N yv tv cur ω, rfl⟩, fun e he => by cases he⟩
    all_goals
      cases hct : opts.condTraj with
      | error e => exact ⟨fun F hF => (by cases hF), fun e' he => by cases he; rfl⟩
      | ok ct =>
        have hal : AllocAll h ct := by rw [← hc ct hct]; exact ha
        simp only [ok_bind]
        refine ⟨fun F hF => ?_, fun e he => by cases he⟩
        cases hF
        refine ⟨_, rfl, ?_⟩
        first
          | exact ⟨fun N ω => cpfInitialH_ref hI hal N ω, fun tr yv uv tv cur d ha => cpfyasForwardH_ref hI hal ha N yv uv tv cur d, fun _ _ _ _ _ _ _ _ => Ref.throw _, fun yv tv cur ω => cpfyasMeasureH_ref hI hal N yv tv cur ω, rfl⟩
          | exact ⟨fun N ω => cpfInitialH_ref hI hal N ω, fun tr yv uv tv cur d ha => cpfasForwardH_ref hI hal ha yv uv tv cur d, measure_sim hI h, fun _ _ _ _ => Ref.throw _, rfl⟩
          | exact ⟨fun N ω => cpfInitialH_ref hI hal N ω, fun tr yv uv tv cur d ha => cpfForwardH_ref hI hal ha yv uv tv cur d, measure_sim hI h, fun _ _ _ _ => Ref.throw _, rfl⟩
          | exact ⟨hI.create h, fun tr yv uv tv cur d ha => csirasForwardH_ref hI hal ha yv uv tv cur d, measure_sim hI h, fun _ _ _ _ => Ref.throw _, rfl⟩

/-! ### `ParticleTrajectory` -/

theorem viewPT_traj (h : Heap P) (s : HPT U Y) : (Spec.viewPT h s).traj = s.traj.map (Spec.viewStep h) := rfl

theorem viewPT_keep {h h' : Heap P} (s : HPT U Y) (hs : AllocAll h s.traj) (k : Keep h.next ∅ h h') : Spec.viewPT h' s = Spec.viewPT h s := by
  unfold Spec.viewPT
  rw [(hs.keep k).2]

theorem viewPT_snoc {h h' : Heap P} (s : HPT U Y) (hs : AllocAll h s.traj) (k : Keep h.next ∅ h h') (o : ℕ) (anc : List ℕ) :
    Spec.viewPT h' { s with traj := s.traj ++ [⟨o, anc⟩] } = { Spec.viewPT h s with traj := (Spec.viewPT h s).traj ++ [⟨viewPA h' o, anc⟩] } := by
  unfold Spec.viewPT
  simp only [List.map_append, (hs.keep k).2, List.map_cons, List.map_nil]
  rfl

theorem HPT.ensureInit_sim {F : FilterOpsH P U Y Ω} {G : FilterOps P U Y V Ω} (hF : Frames F) {h : Heap P} (hS : SimAt h F G) (s : HPT U Y) (ω : Ω)
    (hs : Spec.Stored h s.traj) :
    (Spec.viewPT h s).ensureInit G ω = (Spec.viewPT (s.ensureInit F ω h).2 (s.ensureInit F ω h).1.1, (s.ensureInit F ω h).1.2) := by
  unfold HPT.ensureInit PT.ensureInit
  rw [viewPT_traj, List.length_map]
  split_ifs with h0
  · have hR : Ref h (do let p ← F.create s.N ω; newH p none : HM P ℕ) (do let p ← G.create s.N ω; PA.new p none) (fun o b h' => viewPA h' o = b) := by
      refine Ref.bind (hS.create _ _) ?_
      rintro a _ h1 - rfl
      exact newH_refN h1 a
    have hk := (hF.create h.next s.N ω h le_rfl trivial).1
    simp only
    show (match G.create s.N ω with | .error e => _ | .ok p => _) = _
    cases hc : G.create s.N ω with
    | error e =>
      rw [hc] at hR
      obtain ⟨h', hx⟩ := hR
      rw [hx] at hk ⊢
      simp only
      congr 1
      exact (viewPT_keep { s with ind1 := 1 } hs.alloc hk).symm
    | ok p =>
      rw [hc, ok_bind] at hR
      simp only
      cases hn : PA.new p none with
      | error e =>
        rw [hn] at hR
        obtain ⟨h', hx⟩ := hR
        rw [hx] at hk ⊢
        simp only
        congr 1
        exact (viewPT_keep { s with ind1 := 1 } hs.alloc hk).symm
      | ok pa =>
        rw [hn] at hR
        obtain ⟨o, h', hx, hv⟩ := hR
        rw [hx] at hk ⊢
        simp only
        congr 1
        rw [← hv]
        exact (viewPT_snoc { s with ind1 := 1 } hs.alloc hk o _).symm
  · rfl

theorem viewPT_growForward (h : Heap P) (s : HPT U Y) : (Spec.viewPT h s).growForward = Spec.viewPT h s.growForward := by
  by_cases h0 : s.T ≤ s.ind1
  · unfold PT.growForward HPT.growForward
    rw [if_pos (show (Spec.viewPT h s).T ≤ (Spec.viewPT h s).ind1 from h0), if_pos h0]
    rfl
  · unfold PT.growForward HPT.growForward
    rw [if_neg (show ¬(Spec.viewPT h s).T ≤ (Spec.viewPT h s).ind1 from h0), if_neg h0]

theorem viewPT_growMeasure (h : Heap P) (s : HPT U Y) : (Spec.viewPT h s).growMeasure = Spec.viewPT h s.growMeasure := by
  by_cases h0 : s.T ≤ s.ind1
  · unfold PT.growMeasure HPT.growMeasure
    rw [if_pos (show (Spec.viewPT h s).T ≤ (Spec.viewPT h s).ind1 from h0), if_pos h0]
    rfl
  · unfold PT.growMeasure HPT.growMeasure
    rw [if_neg (show ¬(Spec.viewPT h s).T ≤ (Spec.viewPT h s).ind1 from h0), if_neg h0]

theorem HPT.growForward_traj (s : HPT U Y) : s.growForward.traj = s.traj := by unfold HPT.growForward; split_ifs <;> rfl
theorem HPT.growMeasure_traj (s : HPT U Y) : s.growMeasure.traj = s.traj := by unfold HPT.growMeasure; split_ifs <;> rfl


theorem HPT.forward_sim {F : FilterOpsH P U Y Ω} {G : FilterOps P U Y V Ω} (hF : Frames F) {h : Heap P}
    (hS : ∀ h', Keep h.next ∅ h h' → SimAt h' F G) (s : HPT U Y) (u : Slot U) (y : Slot Y) (ω0 : Ω) (d : Draws Ω) (hs : Spec.Stored h s.traj) :
    (Spec.viewPT h s).forward G u y ω0 d = (Spec.viewPT (s.forward F u y ω0 d h).2 (s.forward F u y ω0 d h).1.1, (s.forward F u y ω0 d h).1.2) := by
  have hi := s.ensureInit_sim hF (hS h (Keep.refl _ _ _)) ω0 hs
  have hok := (s.ensureInit_ok hF ω0 hs).1
  unfold HPT.forward PT.forward
  rw [hi]
  rcases hx : s.ensureInit F ω0 h with ⟨⟨s1, r⟩, h1⟩
  rw [hx] at hok
  cases r with
  | error e => rfl
  | ok _ =>
    simp only at hok ⊢
    rw [viewPT_growForward]
    have hg := s1.growForward_traj
    generalize s1.growForward = s2 at hg ⊢
    rw [← hg] at hok
    have hS1 := hS h1 hok.keep
    show (match setIdx s2.uvec (s2.ind1 - 1) u with | .error e => _ | .ok uv => _) = _
    cases setIdx s2.uvec (s2.ind1 - 1) u with
    | error e => rfl
    | ok uv =>
      simp only
      show (match setIdx s2.yvec s2.ind1 y with | .error e => _ | .ok uv => _) = _
      cases setIdx s2.yvec s2.ind1 y with
      | error e => rfl
      | ok yv =>
        simp only
        show (match setIdx s2.tvec s2.ind1 s2.ind1 with | .error e => _ | .ok uv => _) = _
        cases setIdx s2.tvec s2.ind1 s2.ind1 with
        | error e => rfl
        | ok tv =>
          simp only
          have hk := (hF.forward h1.next s2.traj yv uv tv (s2.ind1 - 1) d h1 le_rfl trivial).1
          have hR := hS1.forward s2.traj yv uv tv (s2.ind1 - 1) d hok.stored.alloc
          dsimp only [Spec.viewPT]
          cases hv : G.forward (s2.traj.map (Spec.viewStep h1)) yv uv tv (s2.ind1 - 1) d with
          | error e =>
            rw [hv] at hR
            obtain ⟨h', hx⟩ := hR
            rw [hx] at hk ⊢
            simp only
            congr 1
            exact (viewPT_keep ⟨uv, yv, tv, s2.T, s2.ind1 + 1, s2.N, s2.traj⟩ hok.stored.alloc hk).symm
          | ok q =>
            obtain ⟨pa, fl, anc⟩ := q
            rw [hv] at hR
            obtain ⟨⟨o, fl', anc'⟩, h', hx, h2, hv'⟩ := hR
            simp only [Prod.mk.injEq] at h2 hv'
            obtain ⟨rfl, rfl⟩ := h2
            subst hv'
            rw [hx] at hk ⊢
            simp only
            congr 1
            exact (viewPT_snoc ⟨uv, yv, tv, s2.T, s2.ind1 + 1, s2.N, s2.traj⟩ hok.stored.alloc hk o _).symm

theorem HPT.measure_sim {F : FilterOpsH P U Y Ω} {G : FilterOps P U Y V Ω} (hF : Frames F) {h : Heap P}
    (hS : ∀ h', Keep h.next ∅ h h' → SimAt h' F G) (s : HPT U Y) (y : Slot Y) (ω : Ω) (hs : Spec.Stored h s.traj) :
    ((Spec.viewPT h s).measure G y ω).2 = (s.measure F y ω h).1.2 ∧
    ∀ x, (s.measure F y ω h).1.2 = .ok x → ((Spec.viewPT h s).measure G y ω).1 = Spec.viewPT (s.measure F y ω h).2 (s.measure F y ω h).1.1 := by
  unfold HPT.measure PT.measure
  rw [viewPT_growMeasure]
  have hg := s.growMeasure_traj
  simp only
  generalize s.growMeasure = s1 at hg
  rw [← hg] at hs
  have hS0 := hS h (Keep.refl _ _ _)
  rw [hS0.pfy]
  split_ifs with hp
  · try dsimp only [Spec.viewPT]
    cases setIdx s1.yvec (s1.ind1 + 1 - 1) y with
    | error e => exact ⟨rfl, fun _ hx => by cases hx⟩
    | ok yv =>
      simp only
      try dsimp only [Spec.viewPT]
      cases setIdx s1.tvec (s1.ind1 + 1 - 1) (s1.ind1 + 1 - 1) with
      | error e => exact ⟨rfl, fun _ hx => by cases hx⟩
      | ok tv =>
        simp only
        have hk := (hF.measureNew h.next yv tv (s1.ind1 + 1 - 1) ω h le_rfl trivial).1
        have hR := hS0.measureNew yv tv (s1.ind1 + 1 - 1) ω
        try dsimp only [Spec.viewPT]
        cases hv : G.measureNew yv tv (s1.ind1 + 1 - 1) ω with
        | error e =>
          rw [hv] at hR
          obtain ⟨h', hx⟩ := hR
          rw [hx]
          exact ⟨rfl, fun _ hx => by cases hx⟩
        | ok pa =>
          rw [hv] at hR
          obtain ⟨o, h', hx, rfl⟩ := hR
          rw [hx] at hk ⊢
          refine ⟨rfl, fun _ _ => ?_⟩
          exact (viewPT_snoc ⟨s1.uvec, yv, tv, s1.T, s1.ind1 + 1, s1.N, s1.traj⟩ hs.alloc hk o _).symm
  · have hi := s1.ensureInit_sim hF hS0 ω hs
    have hok := (s1.ensureInit_ok hF ω hs).1
    rw [hi]
    rcases hx : s1.ensureInit F ω h with ⟨⟨s2, r⟩, h1⟩
    rw [hx] at hok
    cases r with
    | error e => exact ⟨rfl, fun _ hx => by cases hx⟩
    | ok _ =>
      simp only at hok ⊢
      have hS1 := hS h1 hok.keep
      try dsimp only [Spec.viewPT]
      cases setIdx s2.yvec (s2.ind1 - 1) y with
      | error e => exact ⟨rfl, fun _ hx => by cases hx⟩
      | ok yv =>
        simp only
        try dsimp only [Spec.viewPT]
        cases setIdx s2.tvec (s2.ind1 - 1) (s2.ind1 - 1) with
        | error e => exact ⟨rfl, fun _ hx => by cases hx⟩
        | ok tv =>
          simp only
          have hlast : getLast (s2.traj.map (Spec.viewStep h1)) = (getLast s2.traj).map (Spec.viewStep h1) := by
            unfold getLast
            rw [List.getLast?_map]
            cases s2.traj.getLast? <;> rfl
          try dsimp only [Spec.viewPT]
          rw [hlast]
          cases hl : getLast s2.traj with
          | error e => exact ⟨rfl, fun _ hx => by cases hx⟩
          | ok last =>
            simp only [Except.map]
            have hl' := getLast_ok.mp hl
            have hmem : last ∈ s2.traj := List.mem_of_getLast? hl'
            have hal := hok.stored.alloc last hmem
            have hR := hS1.measure s2.traj last.ancestors last.pa s2.uvec yv tv (s2.ind1 - 1) hal
            have hm := (hF.measure s2.traj last.ancestors last.pa s2.uvec yv tv (s2.ind1 - 1) h1 hal.1).keep
            try dsimp only [Spec.viewPT]
            rw [show (Spec.viewStep h1 last).ancestors = last.ancestors from rfl, show (Spec.viewStep h1 last).pa = viewPA h1 last.pa from rfl]
            cases hv : G.measure (s2.traj.map (Spec.viewStep h1)) last.ancestors (viewPA h1 last.pa) s2.uvec yv tv (s2.ind1 - 1) with
            | error e =>
              rw [hv] at hR
              obtain ⟨h', hx⟩ := hR
              rw [hx]
              exact ⟨rfl, fun _ hx => by cases hx⟩
            | ok pa =>
              rw [hv] at hR
              obtain ⟨_, h', hx, rfl⟩ := hR
              rw [hx] at hm ⊢
              refine ⟨rfl, fun _ _ => ?_⟩
              simp only at hm
              try unfold Spec.viewPT
              simp only
              have hne : s2.traj ≠ [] := by rintro hn; rw [hn] at hmem; cases hmem
              have hsplit : s2.traj = s2.traj.dropLast ++ [last] := by
                rw [List.getLast?_eq_some_getLast hne, Option.some.injEq] at hl'
                conv_lhs => rw [← List.dropLast_append_getLast hne, hl']
              have hnd := hok.stored.distinct
              rw [hsplit, List.map_append, List.nodup_append] at hnd
              congr 1
              conv_rhs => rw [hsplit]
              rw [List.map_append, ← List.map_dropLast]
              congr 1
              refine List.map_congr_left fun st hst => ?_
              refine (((hok.stored.alloc st (List.mem_of_mem_dropLast hst)).keep hm ?_).2).symm
              rw [Set.mem_singleton_iff]
              exact hnd.2.2 _ (List.mem_map_of_mem hst) _ (by simp)

/-! ### Whole runs -/

theorem Spec.InMemory.next {F : FilterOpsH P U Y Ω} (hF : Frames F) {h : Heap P} {s : HPT U Y} {opts : FilterOptionsH}
    (hm : Spec.InMemory h s opts) (op : Op U Y Ω) :
    Spec.InMemory (s.step F op h).2 (s.step F op h).1.1 opts ∧ Spec.viewOpts (s.step F op h).2 opts = Spec.viewOpts h opts := by
  have hstep : OpOK (lastOf s.traj) h s.traj (s.step F op h).2 (s.step F op h).1.1.traj := by
    cases op with
    | forward u y ω0 d =>
      have hk := s.forward_ok hF u y ω0 d hm.stored
      simp only [HPT.step]
      rcases hx : s.forward F u y ω0 d h with ⟨⟨s1, r⟩, h1⟩
      rw [hx] at hk
      cases r <;> exact ⟨⟨hk.keep.next_le, hk.keep.part, hk.keep.w, fun x hx _ => hk.keep.obj x hx (by simp)⟩, hk.stored, hk.pre, hk.new⟩
    | measure y ω =>
      have hk := s.measure_ok hF y ω hm.stored
      simp only [HPT.step]
      rcases hx : s.measure F y ω h with ⟨⟨s1, r⟩, h1⟩
      rw [hx] at hk
      cases r <;> exact hk
  have hcond : ∀ c ∈ Spec.condSteps opts, Spec.Alloc (s.step F op h).2 c ∧ Spec.viewStep (s.step F op h).2 c = Spec.viewStep h c := fun c hc =>
    (hm.cond c hc).keep hstep.keep (by
      rintro ⟨l, h1, h2⟩
      exact hm.apart c hc (by rw [← h2]; exact List.mem_map_of_mem (List.mem_of_getLast? h1)))
  refine ⟨⟨hstep.stored, fun c hc => (hcond c hc).1, fun c hc hmem => ?_⟩, ?_⟩
  · obtain ⟨st, hst, he⟩ := List.mem_map.mp hmem
    rcases hstep.new st hst with hh | hh
    · exact hm.apart c hc (by rw [← he]; exact List.mem_map_of_mem hh)
    · have := (hm.cond c hc).1; omega
  · cases opts with
    | none => rfl
    | dict o => cases o with
      | none => rfl
      | some ct =>
        simp only [Spec.viewOpts, Option.map_some]
        congr 2
        exact List.map_congr_left fun c hc => (hcond c hc).2

theorem simAt_keep (hI : Spec.Implements C M) {N : ℕ} {res : ℝ} {name : String} {opts : FilterOptionsH} {F : FilterOpsH P U Y Ω}
    (hF : mkFilterH C N res name opts = .ok F) {G : FilterOps P U Y V Ω} {h : Heap P} {s : HPT U Y} (hm : Spec.InMemory h s opts)
    (hG : mkFilter M N res name (Spec.viewOpts h opts) = .ok G) : ∀ h', Keep h.next ∅ h h' → SimAt h' F G := by
  intro h' k
  have ha' : AllocAll h' (Spec.condSteps opts) := fun c hc => ((hm.cond c hc).keep k (by simp)).1
  have hv : Spec.viewOpts h' opts = Spec.viewOpts h opts := by
    cases opts with
    | none => rfl
    | dict o => cases o with
      | none => rfl
      | some ct =>
        simp only [Spec.viewOpts, Option.map_some]
        congr 2
        exact List.map_congr_left fun c hc => ((hm.cond c hc).keep k (by simp)).2
  obtain ⟨G', hG', hs⟩ := (mkFilterH_sim hI ha' N res name).1 F hF
  rw [hv, hG] at hG'
  cases hG'
  exact hs

theorem HPT.run_sim (hI : Spec.Implements C M) {N : ℕ} {res : ℝ} {name : String} {opts : FilterOptionsH} {F : FilterOpsH P U Y Ω}
    (hF : mkFilterH C N res name opts = .ok F) {G : FilterOps P U Y V Ω} (ops : List (Op U Y Ω)) {h : Heap P} {s : HPT U Y} (hm : Spec.InMemory h s opts)
    (hG : mkFilter M N res name (Spec.viewOpts h opts) = .ok G) :
    ((Spec.viewPT h s).run G ops).2 = (s.run F ops h).1.2 ∧
    ∀ x, (s.run F ops h).1.2 = .ok x → ((Spec.viewPT h s).run G ops).1 = Spec.viewPT (s.run F ops h).2 (s.run F ops h).1.1 := by
  have hFr : Frames F := by
    obtain ⟨k, hk, -⟩ := bind_eq_ok.mp hF
    exact mkFilterH_frames hI.honest hk (fun _ => hI.gives) hF
  induction ops generalizing h s with
  | nil => exact ⟨rfl, fun _ _ => rfl⟩
  | cons op ops ih =>
    have hS := simAt_keep hI hF hm hG
    have hstep : ((Spec.viewPT h s).step G op).2 = (s.step F op h).1.2 ∧
        ∀ x, (s.step F op h).1.2 = .ok x → ((Spec.viewPT h s).step G op).1 = Spec.viewPT (s.step F op h).2 (s.step F op h).1.1 := by
      cases op with
      | forward u y ω0 d =>
        have := s.forward_sim hFr hS u y ω0 d hm.stored
        simp only [HPT.step, PT.step]
        rw [this]
        rcases s.forward F u y ω0 d h with ⟨⟨s1, r⟩, h1⟩
        cases r
        · exact ⟨rfl, fun _ hx => by cases hx⟩
        · exact ⟨rfl, fun _ _ => rfl⟩
      | measure y ω =>
        have := s.measure_sim hFr hS y ω hm.stored
        simp only [HPT.step, PT.step]
        rcases hx : s.measure F y ω h with ⟨⟨s1, r⟩, h1⟩
        rcases hy : (Spec.viewPT h s).measure G y ω with ⟨s1', r'⟩
        rw [hx, hy] at this
        obtain ⟨t1, t2⟩ := this
        simp only at t1 t2
        subst t1
        cases r'
        · exact ⟨rfl, fun _ hx => by cases hx⟩
        · exact ⟨rfl, fun _ _ => t2 _ rfl⟩
    obtain ⟨hm1, hv1⟩ := hm.next hFr op
    unfold HPT.run PT.run
    rcases hx : s.step F op h with ⟨⟨s1, r⟩, h1⟩
    rcases hy : (Spec.viewPT h s).step G op with ⟨s1', r'⟩
    rw [hx, hy] at hstep
    rw [hx] at hm1 hv1
    obtain ⟨t1, t2⟩ := hstep
    simp only at t1 t2 hm1 hv1
    subst t1
    cases r' with
    | error e => exact ⟨rfl, fun _ hx => by cases hx⟩
    | ok b =>
      simp only
      rw [t2 b rfl]
      obtain ⟨i1, i2⟩ := ih hm1 (by rw [hv1]; exact hG)
      rcases hx2 : s1.run F ops h1 with ⟨⟨s2, r2⟩, h2⟩
      rcases hy2 : (Spec.viewPT h1 s1).run G ops with ⟨s2', r2'⟩
      rw [hx2, hy2] at i1 i2
      simp only at i1 i2
      subst i1
      cases r2' with
      | error e => exact ⟨rfl, fun _ hx => by cases hx⟩
      | ok bs => exact ⟨rfl, fun _ _ => i2 _ rfl⟩

/-! ### The theorems -/

/-- The `ParticleTrajectory` object as its constructor leaves it: no steps. -/
def Spec.fresh (s : PT P U Y) : HPT U Y := ⟨s.uvec, s.yvec, s.tvec, s.T, s.ind1, s.N, []⟩

theorem Spec.fresh_inMemory {h : Heap P} {opts : FilterOptionsH} (hc : ∀ st ∈ Spec.condSteps opts, Spec.Alloc h st) (s : PT P U Y) :
    Spec.InMemory h (Spec.fresh s) opts :=
  ⟨⟨fun st hst => by simp [Spec.fresh] at hst, by simp [Spec.fresh]⟩, hc, fun c _ => by simp [Spec.fresh]⟩

/-- C94 (constructor): building a filter object succeeds or raises exactly as in the value-level model, for every name
and every `filter_options`. -/
theorem C94_constructor (hI : Spec.Implements C M) {h : Heap P} {opts : FilterOptionsH}
    (hc : ∀ st ∈ Spec.condSteps opts, Spec.Alloc h st) (N : ℕ) (res : ℝ) (name : String) :
    (∃ F G, mkFilterH C N res name opts = .ok F ∧ mkFilter M N res name (Spec.viewOpts h opts) = .ok G) ∨
    ∃ e, mkFilterH C N res name opts = .error e ∧ mkFilter M N res name (Spec.viewOpts h opts) = .error e := by
  obtain ⟨h1, h2⟩ := mkFilterH_sim hI hc N res name
  cases hF : mkFilterH C N res name opts with
  | error e => exact Or.inr ⟨e, rfl, h2 e hF⟩
  | ok F => obtain ⟨G, hG, -⟩ := h1 F hF; exact Or.inl ⟨F, G, rfl, hG⟩

/-- C94 (whole runs): from a new `ParticleTrajectory`, any sequence of calls returns the same flags or raises the same
exception as the value-level model; if no call raises, reading the object gives the value-level state. -/
theorem C94_run (hI : Spec.Implements C M) {N : ℕ} {res : ℝ} {name : String} {opts : FilterOptionsH} {h : Heap P}
    (hc : ∀ st ∈ Spec.condSteps opts, Spec.Alloc h st) {F : FilterOpsH P U Y Ω} (hF : mkFilterH C N res name opts = .ok F)
    {G : FilterOps P U Y V Ω} (hG : mkFilter M N res name (Spec.viewOpts h opts) = .ok G)
    {n : ℕ} {T : Option ℕ} {t0 : ℕ} {s0 : PT P U Y} (h0 : PT.init n T t0 = .ok s0) (ops : List (Op U Y Ω)) :
    (s0.run G ops).2 = ((Spec.fresh s0).run F ops h).1.2 ∧
    ∀ x, ((Spec.fresh s0).run F ops h).1.2 = .ok x →
      (s0.run G ops).1 = Spec.viewPT ((Spec.fresh s0).run F ops h).2 ((Spec.fresh s0).run F ops h).1.1 := by
  have hv : Spec.viewPT h (Spec.fresh s0) = s0 := by
    have ht : s0.traj = [] := by
      unfold PT.init at h0
      split_ifs at h0
      split at h0 <;> first | (cases h0; rfl) | cases h0
    cases s0
    simp only at ht
    subst ht
    rfl
  have := HPT.run_sim hI hF ops (Spec.fresh_inMemory hc s0) hG
  rw [hv] at this
  exact this

/-- C94 (continuing): the same from any state in memory, e.g. the one another run left. -/
theorem C94_continue (hI : Spec.Implements C M) {N : ℕ} {res : ℝ} {name : String} {opts : FilterOptionsH} {h : Heap P} {s : HPT U Y}
    (hm : Spec.InMemory h s opts) {F : FilterOpsH P U Y Ω} (hF : mkFilterH C N res name opts = .ok F)
    {G : FilterOps P U Y V Ω} (hG : mkFilter M N res name (Spec.viewOpts h opts) = .ok G) (ops : List (Op U Y Ω)) :
    ((Spec.viewPT h s).run G ops).2 = (s.run F ops h).1.2 ∧
    ∀ x, (s.run F ops h).1.2 = .ok x → ((Spec.viewPT h s).run G ops).1 = Spec.viewPT (s.run F ops h).2 (s.run F ops h).1.1 :=
  HPT.run_sim hI hF ops hm hG

/-- C94 (a `forward` that raises): the object then reads as the value-level model says, too. -/
theorem C94_forward (hI : Spec.Implements C M) {N : ℕ} {res : ℝ} {name : String} {opts : FilterOptionsH} {h : Heap P} {s : HPT U Y}
    (hm : Spec.InMemory h s opts) {F : FilterOpsH P U Y Ω} (hF : mkFilterH C N res name opts = .ok F)
    {G : FilterOps P U Y V Ω} (hG : mkFilter M N res name (Spec.viewOpts h opts) = .ok G) (u : Slot U) (y : Slot Y) (ω0 : Ω) (d : Draws Ω) :
    ((Spec.viewPT h s).forward G u y ω0 d).2 = (s.forward F u y ω0 d h).1.2 ∧
    ((Spec.viewPT h s).forward G u y ω0 d).1 = Spec.viewPT (s.forward F u y ω0 d h).2 (s.forward F u y ω0 d h).1.1 := by
  have hFr : Frames F := by
    obtain ⟨k, hk, -⟩ := bind_eq_ok.mp hF
    exact mkFilterH_frames hI.honest hk (fun _ => hI.gives) hF
  rw [HPT.forward_sim hFr (simAt_keep hI hF hm hG) s u y ω0 d hm.stored]
  exact ⟨rfl, rfl⟩

end PyPE

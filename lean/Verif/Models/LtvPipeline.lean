import Verif.Models.LtvSmoothRun

/-!
# C121: the particle filter, the smoothers and EM with a linear Gaussian (`LTV`) model are the Kalman filter, the Rauch-Tung-Striebel smoother and exact EM
-/

namespace PyPE
open Matrix Real Spec MeasureTheory
open scoped ENNReal

variable {n m : ℕ} {U V Ω : Type}

/-! ## Specification -/

/-- What is passed to the calls `forward` of a run over a record of `K` steps: the inputs `u 0, …, u (K-1)`, the measurements `y 1, …, y K`, and any draws that
`numpy.random.rand` can return. -/
structure Spec.CallsFor (u : ℕ → Slot U) (y : ℕ → Option (Fin m → ℝ)) (K : ℕ) (ds : List (Slot U × Slot (Fin m → ℝ) × Ω × Draws Ω)) : Prop where
  len : ds.length = K
  step : ∀ (i : ℕ) q, ds[i]? = some q → q.1 = u i ∧ q.2.1 = Spec.slotOf (y (i + 1)) ∧ Unit01 q.2.2.2.r ∧ Unit01 q.2.2.2.r2

/-- The law of the state at time `i` together with the measurements up to then, as a measure: its mass is their likelihood. -/
noncomputable def Spec.filteredAt (M : Ltv n m (Slot U) ℕ (Fin m → ℝ)) (D : Spec.LtvSys n m (Slot U) ℕ) (u : ℕ → Slot U) (y : ℕ → Option (Fin m → ℝ)) (i : ℕ) :
    Measure (Fin n → ℝ) := Spec.filtered (Spec.gauss M.z0 M.P0) (D.seenAt y id 0 ++ D.record u y id 0 i)

/-- The law of the state at time `i` together with all measurements up to time `K`. -/
noncomputable def Spec.smoothedAt (M : Ltv n m (Slot U) ℕ (Fin m → ℝ)) (D : Spec.LtvSys n m (Slot U) ℕ) (u : ℕ → Slot U) (y : ℕ → Option (Fin m → ℝ)) (K i : ℕ) :
    Measure (Fin n → ℝ) := Spec.smoothed (Spec.gauss M.z0 M.P0) (D.seenAt y id 0 ++ D.record u y id 0 i) (D.record u y id i (K - i))

/-- The record has a measurement at every time after the first, and is not empty. -/
structure Spec.Complete (y : ℕ → Option (Fin m → ℝ)) (K : ℕ) : Prop where
  later : ∀ i, 0 < i → i ≤ K → (y i).isSome
  ne : y 0 = none → 0 < K

/-! ## The filter -/

theorem record_good' {T : Type} {D : Spec.LtvSys n m U T} (hQ : ∀ u t, (D.Q u t).PosSemidef) (hR : ∀ t, (D.R t).PosDef) (u : ℕ → U)
    (y : ℕ → Option (Fin m → ℝ)) (tm : ℕ → T) (j k : ℕ) : ∀ op ∈ D.record u y tm j k, op.Good := by
  induction k generalizing j with
  | zero => intro op h; simp [Spec.LtvSys.record] at h
  | succ k ih =>
    intro op h
    rw [Spec.LtvSys.record, List.mem_cons, List.mem_append] at h
    rcases h with rfl | h | h
    · exact hQ _ _
    · exact (seenAt_good hR y tm _ op h).1
    · exact ih _ op h

/-- **C121** Run the particle filter with an `LTV` model, for any number `N > 0` of particles, any resampling threshold and any random draws. No call fails;
every particle stored for time `i` holds the mean and covariance of the exact filtering law at time `i`; all weights of a time are equal; and the likelihood
estimate read off the stored weights and flags is the exact likelihood of the measurements. So one particle does as well as a thousand. -/
theorem C121_filter {M : Ltv n m (Slot U) ℕ (Fin m → ℝ)} {kf : KF n m} {D : Spec.LtvSys n m (Slot U) ℕ} (hD : Spec.Describes M kf D)
    (hP0 : M.P0.PosSemidef) (hQ : ∀ u t, (D.Q u t).PosSemidef) (hR : ∀ t, (D.R t).PosDef) {u : ℕ → Slot U} {y : ℕ → Option (Fin m → ℝ)} {K : ℕ}
    (hy : Spec.Complete y K) {N : ℕ} (hN : 0 < N) (res : ℝ) {T : Option ℕ} {s0 : PT (List ℝ) U (Fin m → ℝ)} (h0 : PT.init N T 0 = .ok s0) (ω : Ω)
    {ds : List (Slot U × Slot (Fin m → ℝ) × Ω × Draws Ω)} (hds : Spec.CallsFor u y K ds) :
    ∃ s bs, s0.run (rbfOps (ltvMarkov M kf Ω) res) (history ((y 0).map fun y0 => (.obj y0, ω)) ds) = (s, .ok bs) ∧ s.traj.length = K + 1 ∧
      (∀ (i : ℕ) st, s.traj[i]? = some st → ∃ z P c wt, ltvGetStates n st.pa.part = .ok (List.replicate N (z, P)) ∧ st.pa.w = List.replicate N wt ∧
        P.PosSemidef ∧ Spec.filteredAt M D u y i = ENNReal.ofReal (exp c) • Spec.gauss z P) ∧
      ENNReal.ofReal (likEstimate s.traj (bs.filterMap id)) = Spec.filteredAt M D u y K Set.univ := by
  obtain ⟨kfb, rows, z, P, dl, b1, b2, b3, b4, -, b6⟩ := ltv_observe_step hD (Kept.rfl' M kf) hP0 (C44_initial M N).1 y id hR 0
  obtain ⟨kf1, F, zT, PT, ll, c1, c3, c4, c5, c6⟩ := ltv_forward hD hQ hR u y id K 0 (fun i h1 h2 => hy.later i h1 (by omega)) b2 b3 b6 dl
  have hall : ltvFilterAll M kf N u y id K = .ok (kf1, F, List.replicate N (dl + ll)) := by
    rw [ltvFilterAll, b1, ok_bind]; exact c1
  have hgood : ∀ i, ∀ op ∈ D.seenAt y id 0 ++ D.record u y id 0 i, op.Good := fun i op ho =>
    (List.mem_append.mp ho).elim (fun h => (seenAt_good hR y id 0 op h).1) (record_good' hQ hR u y id 0 i op)
  obtain ⟨s, bs, flags, r1, rfl, r2⟩ := ltv_run hD hN c5 hall res h0 ω ds hds.step hds.len hy.ne
  have hlen : s.traj.length = K + 1 := by
    have := congrArg List.length r2.parts
    simpa [c5] using this
  refine ⟨s, bs, r1, hlen, fun i st hi => ?_, ?_⟩
  · obtain ⟨-, p, hp⟩ := r2.good st (List.mem_of_getElem? hi)
    obtain ⟨wt, hwt⟩ := hp.w
    have hiK : i ≤ K := by have := lt_of_getElem?_some hi; omega
    obtain ⟨zi, Pi, li, g1, g2⟩ := c6 i hiK
    obtain ⟨z', P', l', f1, f2, f3⟩ := C71_filter_exact M.z0 M.P0 hP0 _ (hgood i)
    cases f1.symm.trans (kfData_append _ _ _ _ b4 g1)
    refine ⟨zi, Pi, _, wt, g2 _ ?_, hwt, f2, f3⟩
    have := congrArg (·[i]?) r2.parts
    simp only [List.getElem?_map, hi, Option.map_some, List.getElem?_take, if_pos (Nat.lt_succ_of_le hiK)] at this
    exact this.symm
  · obtain ⟨st, r, l, kf', kf1', -, -, -, e4, e5⟩ := r2.last
    rw [Nat.sub_self, ltvFilter] at e4
    simp only [Except.ok.injEq, Prod.mk.injEq] at e4
    have hl : l = dl + ll := (List.replicate_right_inj hN.ne').mp e4.2.2
    rw [e5, hl, Spec.filteredAt, filtered_mass hP0 _ (hgood K) (kfData_append _ _ _ _ b4 c3)]

/-! ## The smoothers -/

/-- The methods that work for an `LTV` model: 'full' and 'ancestor' with any options, 'mcmc' with the default ones. -/
def Spec.LtvMethod (method : String) (user : Option SOpts) : Prop := method = "full" ∨ method = "ancestor" ∨ method = "mcmc" ∧ user = none

theorem performSmoothing_of {P Y : Type} {S : SmoothCallbacks P U Y V Ω} {pt : List (Step P)} {D : SData U Y} {N Mt : ℕ} {J : ℕ → List (SStep P) → Prop}
    (hpt : GoodRun N pt) (hden : DensityKept S pt D Mt J) (hM : 0 < Mt) (hk : SmoothKeeps S pt D Mt J) (hps : NoPostprocessing S) {method : String}
    {user : Option SOpts} (hm : Spec.LtvMethod method user) {d : AllDraws Ω} (hd : GoodSmoothDraws d.bsi) :
    ∃ traj B, (∀ fuel, B ≤ fuel → performSmoothing S pt Mt D method user d fuel = .ok (some traj)) ∧ J 0 traj := by
  rcases hm with rfl | rfl | ⟨rfl, rfl⟩
  · obtain ⟨traj, B, h1, h2⟩ := bsi_track hpt hden hM hk (m := .full) trivial hd
    refine ⟨traj, B, fun fuel hf => ?_, h2⟩
    simp only [performSmoothing, defaultOptions, smoothTrajectory, bsiOptions]
    simp [h1 fuel hf, ok_bind, hps traj]
  · obtain ⟨traj, h1, h2⟩ := ancestors_track hpt hM hk hd.r0
    refine ⟨traj, 0, fun fuel hf => ?_, h2⟩
    simp only [performSmoothing, defaultOptions, smoothTrajectory]
    simp [h1, ok_bind, hps traj]
  · obtain ⟨R, hR⟩ : ∃ R, bsiOptions "mcmc" pt.length (some { R := some (.int 30) }) = .ok (.mcmc R) := by
      by_cases h : pt.length ≤ 1
      · exact ⟨0, by simp [bsiOptions, h]⟩
      · exact ⟨30, by simp [bsiOptions, h, look, PyNum.range]⟩
    obtain ⟨traj, B, h1, h2⟩ := bsi_track hpt hden hM hk (m := .mcmc R) trivial hd
    refine ⟨traj, B, fun fuel hf => ?_, h2⟩
    simp only [performSmoothing, defaultOptions, smoothTrajectory]
    simp [hR, h1 fuel hf, ok_bind, hps traj]

/-- What a run has recorded when it is over. -/
theorem ltv_recorded {M : Ltv n m (Slot U) ℕ (Fin m → ℝ)} {kf : KF n m} {u : ℕ → Slot U} {y : ℕ → Option (Fin m → ℝ)} {K : ℕ}
    (hy : Spec.Complete y K) {N : ℕ} {res : ℝ} {T : Option ℕ} {s0 s : PT (List ℝ) U (Fin m → ℝ)} (h0 : PT.init N T 0 = .ok s0) {ω : Ω}
    {ds : List (Slot U × Slot (Fin m → ℝ) × Ω × Draws Ω)} (hds : Spec.CallsFor u y K ds) {bs : List (Option Bool)}
    (h : s0.run (rbfOps (ltvMarkov M kf Ω) res) (history ((y 0).map fun y0 => (.obj y0, ω)) ds) = (s, .ok bs)) :
    (∀ i, i < K → s.uvec[i]? = some (u i)) ∧ (∀ i, i ≤ K → s.tvec[i]? = some i) ∧ ∀ i, i ≤ K → s.yvec[i]? = some (Spec.slotOf (y i)) := by
  have hr := run_recorded h0 ((y 0).map fun y0 => (.obj y0, ω)) rfl (fun hn => by
    rw [Option.map_eq_none_iff] at hn
    have := hy.ne hn
    rw [← hds.len] at this
    intro he
    rw [List.map_eq_nil_iff] at he
    rw [he] at this; simp at this) h
  have hq : ∀ i (hi : i < K), (ds.map fun q => (q.1, q.2.1))[i]? = some (u i, Spec.slotOf (y (i + 1))) := by
    intro i hi
    have hi' : i < ds.length := by rw [hds.len]; exact hi
    obtain ⟨e1, e2, -⟩ := hds.step i _ (List.getElem?_eq_getElem hi')
    rw [List.getElem?_map, List.getElem?_eq_getElem hi', Option.map_some, e1, e2]
  refine ⟨fun i hi => hr.us i _ (hq i hi), fun i hi => hr.ts i (by simpa [hds.len] using hi), fun i hi => ?_⟩
  cases i with
  | zero =>
    rw [hr.y0]
    cases y 0 <;> rfl
  | succ i => exact hr.ys i _ (hq i (by omega))

/-- The smoothing run in terms of the backward pass of C115. -/
theorem ltv_smooth_run {M : Ltv n m (Slot U) ℕ (Fin m → ℝ)} {kf : KF n m} {D : Spec.LtvSys n m (Slot U) ℕ} (hD : Spec.Describes M kf D)
    (hP0 : M.P0.PosSemidef) (hQ : ∀ u t, (D.Q u t).PosDef) (hR : ∀ t, (D.R t).PosDef) {u : ℕ → Slot U} {y : ℕ → Option (Fin m → ℝ)} {K : ℕ}
    (hinv : ∀ i, i < K → D.A (u i) i = D.A (u 0) 0 ∧ D.f (u i) i = D.f (u 0) 0 ∧ D.Q (u i) i = D.Q (u 0) 0)
    (hy : Spec.Complete y K) {N Mt : ℕ} (hN : 0 < N) (hMt : 0 < Mt) {res : ℝ} {T : Option ℕ} {s0 s : PT (List ℝ) U (Fin m → ℝ)} (h0 : PT.init N T 0 = .ok s0) {ω : Ω}
    {ds : List (Slot U × Slot (Fin m → ℝ) × Ω × Draws Ω)} (hds : Spec.CallsFor u y K ds) {bs : List (Option Bool)}
    (hrun : s0.run (rbfOps (ltvMarkov M kf Ω) res) (history ((y 0).map fun y0 => (.obj y0, ω)) ds) = (s, .ok bs))
    {rest : SmoothCallbacks (List ℝ) U (Fin m → ℝ) V Ω}
    (hps : NoPostprocessing rest) {method : String} {user : Option SOpts} (hm : Spec.LtvMethod method user) {d : AllDraws Ω} (hd : GoodSmoothDraws d.bsi) :
    ∃ traj B kf1 F L G kf3, ∃ st : ℕ → Est n × Matrix (Fin n) (Fin n) ℝ,
      (∀ fuel, B ≤ fuel → performSmoothing (ltvSmoothing M kf rest) s.traj Mt ⟨s.uvec, s.yvec, s.tvec⟩ method user d fuel = .ok (some traj)) ∧
      ltvFilterAll M kf N u y id K = .ok (kf1, F, List.replicate N L) ∧ Spec.Picks Mt G F ∧
      ltvBackward M s.uvec s.tvec kf1 G = .ok (kf3, traj.map fun s => s.pa.part) ∧ likEstimate s.traj (bs.filterMap id) = exp L ∧
      traj.length = K + 1 ∧ ∀ (i : ℕ) sti, traj[i]? = some sti → sti.pa.part.length = Mt ∧ sti.pa.w = List.replicate Mt (-Real.log Mt) ∧
        (∀ row ∈ sti.pa.part, Spec.StoresSmooth row (st i).1 (st i).2) ∧ (st i).1.2.PosSemidef ∧
        ∃ c, Spec.smoothedAt M D u y K i = ENNReal.ofReal (exp c) • Spec.gauss (st i).1.1 (st i).1.2 := by
  obtain ⟨q1, q2, -⟩ := ltv_recorded hy h0 hds hrun
  obtain ⟨kf1, F, L, g1, g2, g3, -, st, d1, d2⟩ := ltv_all hD hP0 hQ hR u y (ut := s.uvec) (tt := s.tvec) (N := N) hMt K hy.later q1 q2 hinv
  obtain ⟨s', bs', flags, r1, rfl, r2⟩ := ltv_run hD hN g3 g1 res h0 ω ds hds.step hds.len hy.ne
  have hsame := r1.symm.trans hrun
  simp only [Prod.mk.injEq, Except.ok.injEq] at hsame
  obtain ⟨rfl, rfl⟩ := hsame
  have hlik : likEstimate s'.traj (bs'.filterMap id) = exp L := by
    obtain ⟨st, r, l, kf', kf1', -, -, -, e4, e5⟩ := r2.last
    rw [Nat.sub_self, ltvFilter] at e4
    simp only [Except.ok.injEq, Prod.mk.injEq] at e4
    rw [e5, (List.replicate_right_inj hN.ne').mp e4.2.2]
  have hparts : s'.traj.map (fun st => st.pa.part) = F := by rw [r2.parts, List.take_of_length_le (by omega)]
  have hlen : s'.traj.length = K + 1 := by
    have := congrArg List.length hparts
    simpa [g3] using this
  have hpt : GoodRun N s'.traj := ⟨hN, by intro h; rw [h] at hlen; simp at hlen, fun st hst => (r2.good st hst).1⟩
  obtain ⟨traj, B, h1, h2⟩ := performSmoothing_of hpt (ltv_density (M := M) (kf := kf) (kf1 := kf1) (Mt := Mt) (D := ⟨s'.uvec, s'.yvec, s'.tvec⟩) hparts
      (fun i hi => lt_of_getElem?_some (q1 i (by omega))) (fun i hi => lt_of_getElem?_some (q2 i (by omega))) rest) hMt
    (ltv_smooth_keeps hD g2 hN hMt (fun G hG => by
      obtain ⟨kf3, S, e1, -, -, e4⟩ := d1 G kf1 hG g2
      refine ⟨kf3, S, e1, fun R hR => ?_⟩
      obtain ⟨i, hi, rfl⟩ := List.getElem_of_mem hR
      exact (e4 i _ (List.getElem?_eq_getElem hi)).1) hpt hparts rest) hps hm hd
  obtain ⟨f1, f2, G, kf3, f3, f4⟩ := h2
  refine ⟨traj, B, kf1, F, L, G, kf3, st, h1, g1, f3, f4, hlik, by omega, fun i sti hi => ?_⟩
  obtain ⟨w1, w2⟩ := f1 sti (List.mem_of_getElem? hi)
  obtain ⟨kf4, S, e1, -, -, e4⟩ := d1 G kf1 f3 g2
  cases f4.symm.trans e1
  obtain ⟨-, e5⟩ := e4 i sti.pa.part (by rw [List.getElem?_map, hi]; rfl)
  obtain ⟨-, p1, p2⟩ := d2 i (by have := lt_of_getElem?_some hi; omega)
  exact ⟨w1, w2, e5, p1, p2⟩

/-- **C121** Run the particle filter with an `LTV` model whose transition does not change over the record (C45: the smoother uses the inputs and time stamps of the
first time for all), then smooth with 'full', 'mcmc' or 'ancestor', for any numbers of particles and of trajectories, any threshold and any draws. Nothing fails;
there is one smoothed step per time, with equal weights; and every trajectory holds, at every time `i`, the mean and covariance of the exact smoothing law at time `i`. -/
theorem C121_smoother {M : Ltv n m (Slot U) ℕ (Fin m → ℝ)} {kf : KF n m} {D : Spec.LtvSys n m (Slot U) ℕ} (hD : Spec.Describes M kf D)
    (hP0 : M.P0.PosSemidef) (hQ : ∀ u t, (D.Q u t).PosDef) (hR : ∀ t, (D.R t).PosDef) {u : ℕ → Slot U} {y : ℕ → Option (Fin m → ℝ)} {K : ℕ}
    (hinv : ∀ i, i < K → D.A (u i) i = D.A (u 0) 0 ∧ D.f (u i) i = D.f (u 0) 0 ∧ D.Q (u i) i = D.Q (u 0) 0)
    (hy : Spec.Complete y K) {N Mt : ℕ} (hN : 0 < N) (hMt : 0 < Mt) (res : ℝ) {T : Option ℕ} {s0 : PT (List ℝ) U (Fin m → ℝ)} (h0 : PT.init N T 0 = .ok s0) (ω : Ω)
    {ds : List (Slot U × Slot (Fin m → ℝ) × Ω × Draws Ω)} (hds : Spec.CallsFor u y K ds) {rest : SmoothCallbacks (List ℝ) U (Fin m → ℝ) V Ω}
    (hps : NoPostprocessing rest) {method : String} {user : Option SOpts} (hm : Spec.LtvMethod method user) {d : AllDraws Ω} (hd : GoodSmoothDraws d.bsi) :
    ∃ s bs traj B, s0.run (rbfOps (ltvMarkov M kf Ω) res) (history ((y 0).map fun y0 => (.obj y0, ω)) ds) = (s, .ok bs) ∧
      (∀ fuel, B ≤ fuel → performSmoothing (ltvSmoothing M kf rest) s.traj Mt ⟨s.uvec, s.yvec, s.tvec⟩ method user d fuel = .ok (some traj)) ∧
      traj.length = K + 1 ∧ ∀ (i : ℕ) st, traj[i]? = some st → st.pa.part.length = Mt ∧ st.pa.w = List.replicate Mt (-Real.log Mt) ∧
        ∃ z P Ms c, (∀ row ∈ st.pa.part, Spec.StoresSmooth row (z, P) Ms) ∧ P.PosSemidef ∧
          Spec.smoothedAt M D u y K i = ENNReal.ofReal (exp c) • Spec.gauss z P := by
  obtain ⟨s, bs, hrun, -⟩ := C121_filter hD hP0 (fun u t => (hQ u t).posSemidef) hR hy hN res h0 ω hds
  obtain ⟨traj, B, -, -, -, -, -, st, h1, -, -, -, -, h2, h3⟩ := ltv_smooth_run hD hP0 hQ hR hinv hy hN hMt h0 hds hrun hps hm hd
  refine ⟨s, bs, traj, B, hrun, h1, h2, fun i sti hi => ?_⟩
  obtain ⟨w1, w2, w3, w4, c, w5⟩ := h3 i sti hi
  exact ⟨w1, w2, _, _, _, c, w3, w4, w5⟩

/-- **C121** One iteration of EM by the particle methods: run the filter with the parameters `θ` (model `M`), smooth, and evaluate the objective `fval` of `maximize` on the
smoothed trajectories at `θ` and at `θ'` (model `M'`). Then the decrease of the objective is at most the increase of the logarithm of the likelihood estimate, from the filter's run at
`θ` to a run at `θ'` — whatever the numbers of particles and trajectories, the thresholds and the draws. -/
theorem C121_em {M M' : Ltv n m (Slot U) ℕ (Fin m → ℝ)} {kf kf' : KF n m} {D D' : Spec.LtvSys n m (Slot U) ℕ} (hD : Spec.Describes M kf D)
    (hD' : Spec.Describes M' kf' D') (hP0 : M.P0.PosDef) (hP0' : M'.P0.PosDef) (hQ : ∀ u t, (D.Q u t).PosDef) (hR : ∀ t, (D.R t).PosDef)
    (hQ' : ∀ u t, (D'.Q u t).PosDef) (hR' : ∀ t, (D'.R t).PosDef) {u : ℕ → Slot U} {y : ℕ → Option (Fin m → ℝ)} {K : ℕ}
    (hinv : ∀ i, i < K → D.A (u i) i = D.A (u 0) 0 ∧ D.f (u i) i = D.f (u 0) 0 ∧ D.Q (u i) i = D.Q (u 0) 0)
    (hy : Spec.Complete y K) {N N' Mt : ℕ} (hN : 0 < N) (hN' : 0 < N') (hMt : 0 < Mt) (res res' : ℝ) {T T' : Option ℕ} {s0 s0' : PT (List ℝ) U (Fin m → ℝ)}
    (h0 : PT.init N T 0 = .ok s0) (h0' : PT.init N' T' 0 = .ok s0') (ω ω' : Ω) {ds ds' : List (Slot U × Slot (Fin m → ℝ) × Ω × Draws Ω)}
    (hds : Spec.CallsFor u y K ds) (hds' : Spec.CallsFor u y K ds') {rest : SmoothCallbacks (List ℝ) U (Fin m → ℝ) V Ω}
    (hps : NoPostprocessing rest) {method : String} {user : Option SOpts} (hm : Spec.LtvMethod method user) {d : AllDraws Ω} (hd : GoodSmoothDraws d.bsi)
    {yt : List (Option (Fin m → ℝ))} (hyt : ∀ i, i ≤ K → yt[i]? = some (y i)) :
    ∃ s bs s' bs' traj B, s0.run (rbfOps (ltvMarkov M kf Ω) res) (history ((y 0).map fun y0 => (.obj y0, ω)) ds) = (s, .ok bs) ∧
      s0'.run (rbfOps (ltvMarkov M' kf' Ω) res') (history ((y 0).map fun y0 => (.obj y0, ω')) ds') = (s', .ok bs') ∧
      (∀ fuel, B ≤ fuel → performSmoothing (ltvSmoothing M kf rest) s.traj Mt ⟨s.uvec, s.yvec, s.tvec⟩ method user d fuel = .ok (some traj)) ∧
      ∀ ey ex ey' ex', Spec.LtvEvals M kf ey ex → Spec.LtvEvals M' kf' ey' ex' →
        ∃ v v', fvalNumeric .py2 ey ex (fun rows _ => M.evalLogpX0 rows) (traj.map fun st => st.pa.part) yt s.uvec s.tvec = .ok v ∧
          fvalNumeric .py2 ey' ex' (fun rows _ => M'.evalLogpX0 rows) (traj.map fun st => st.pa.part) yt s.uvec s.tvec = .ok v' ∧
          v - v' ≤ Real.log (likEstimate s'.traj (bs'.filterMap id)) - Real.log (likEstimate s.traj (bs.filterMap id)) := by
  obtain ⟨s, bs, hrun, -⟩ := C121_filter hD hP0.posSemidef (fun u t => (hQ u t).posSemidef) hR hy hN res h0 ω hds
  obtain ⟨s', bs', hrun', -, -, hlik'⟩ := C121_filter hD' hP0'.posSemidef (fun u t => (hQ' u t).posSemidef) hR' hy hN' res' h0' ω' hds'
  obtain ⟨traj, B, kf1, F, L, G, kf3, -, h1, h2, h3, h4, h5, -, -⟩ := ltv_smooth_run hD hP0.posSemidef hQ hR hinv hy hN hMt h0 hds hrun hps hm hd
  obtain ⟨q1, q2, -⟩ := ltv_recorded hy h0 hds hrun
  refine ⟨s, bs, s', bs', traj, B, hrun, hrun', h1, fun ey ex ey' ex' he he' => ?_⟩
  obtain ⟨k1, F1, ll, k1', F1', ll', c1, c2, -, c4, c5⟩ := C115_ltv_em (tm := id) hD hD' hP0 hP0' hQ hR hQ' hR' K q1 q2 hyt hy.later hinv N hMt
  have hsame := Except.ok.inj (h2.symm.trans c1)
  simp only [Prod.mk.injEq] at hsame
  obtain ⟨rfl, rfl, hl⟩ := hsame
  have hL := (List.replicate_right_inj hN.ne').mp hl
  obtain ⟨kf2, S, e1, e2⟩ := c5 G h3
  cases h4.symm.trans e1
  obtain ⟨v, v', v1, v2, v3⟩ := e2 ey ex ey' ex' he he'
  refine ⟨v, v', v1, v2, ?_⟩
  have hlik : likEstimate s'.traj (bs'.filterMap id) = exp ll' := by
    rw [Spec.filteredAt, c4] at hlik'
    by_contra hne
    rcases le_or_gt (likEstimate s'.traj (bs'.filterMap id)) 0 with h | h
    · rw [ENNReal.ofReal_of_nonpos h] at hlik'
      exact absurd hlik'.symm (by simp [exp_pos])
    · exact hne ((ENNReal.ofReal_eq_ofReal_iff h.le (exp_pos _).le).mp hlik')
  rw [hlik, h5, Real.log_exp, Real.log_exp, hL]
  exact v3

end PyPE

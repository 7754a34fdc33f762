import Verif.Models.LtvPure
import Verif.Models.LtvEmStep
import Verif.Traj.Track
import Verif.Filter.RbFilter
import Verif.Smooth.Traj

/-!
# C121: the particle filter with a linear Gaussian (`LTV`) model

All particles of such a model are equal (they store the mean and covariance of the Kalman filter), so the resampling of the particle filter exchanges equal
particles and the run is deterministic but for the order of the indices. This file follows a whole run.
-/

namespace PyPE
open Matrix Real Spec MeasureTheory
open scoped ENNReal

variable {n m : ℕ} {U P Y V Ω : Type}

/-! ## The code -/

/-- The methods the filter calls on an `LTV` object (ltv.py:52-72, 235-249, 136-161, 184-210): `create_initial_estimate`, `sample_process_noise` (no noise is drawn), `update` and
`measure`. Simplification: the object's Kalman filter, which every call changes, is `kf` in every call; C121_update_stateless and C121_measure_stateless prove
that the calls made before do not matter. A missing measurement reaches `y - …` in kalman.py:155 and fails
(simplification: with neither `C` nor `h` the exception comes from `cho_solve` and may be of another type). -/
noncomputable def ltvMarkov (M : Ltv n m (Slot U) ℕ (Fin m → ℝ)) (kf : KF n m) (Ω : Type) : MarkovRb (List ℝ) U (Fin m → ℝ) Unit Ω where
  createInitial N _ := .ok (M.initial N)
  sampleProcessNoise _ _ _ _ := .ok ()
  update rows u t _ := (M.update kf rows u t).map Prod.snd
  measure rows y t :=
    match y with
    | .obj v => (M.measure kf rows v t).map Prod.snd
    | _ => .error .typeError

/-! ## Equal particles in a particle filter -/

theorem likProd_append {a b : Step P} : ∀ (tr : List (Step P)) (fl : List Bool) (f : Bool), tr.length = fl.length →
    likProd (tr ++ [a, b]) (fl ++ [f]) = likProd (tr ++ [a]) fl * likIncr a.pa b.pa f
  | [], [], f, _ => by simp [likProd]
  | [c], [g], f, _ => by simp [likProd]
  | c :: d :: tr, g :: fl, f, h => by
    have := likProd_append (a := a) (b := b) (d :: tr) fl f (by simpa using h)
    simp only [List.cons_append] at this ⊢
    rw [likProd, this, likProd, mul_assoc]

theorem likEstimate_append {a b : Step P} {tr : List (Step P)} {fl : List Bool} {f : Bool} (h : tr.length = fl.length) :
    likEstimate (tr ++ [a] ++ [b]) (fl ++ [f]) = likEstimate (tr ++ [a]) fl * likIncr a.pa b.pa f := by
  rw [List.append_assoc, show [a] ++ [b] = [a, b] from rfl]
  unfold likEstimate
  rw [likProd_append tr fl f h]
  cases tr <;> simp [mul_assoc]

/-- `N` equal particles with equal weights. -/
structure Equal (N : ℕ) (p : P) (pa : PA P) : Prop where
  part : pa.part = List.replicate N p
  w : ∃ c, pa.w = List.replicate N c
  num : pa.num = N

theorem Equal.wf {N : ℕ} {p : P} {pa : PA P} (h : Equal N p pa) : pa.WF N := by
  obtain ⟨c, hc⟩ := h.w
  exact ⟨by rw [h.part]; simp, by rw [hc]; simp, h.num⟩

theorem weightUpdate_equal {N : ℕ} (hN : 0 < N) {p : P} {pa : PA P} (h : Equal N p pa) (dl : ℝ) :
    ∃ pa', weightUpdate pa (List.replicate N dl) = .ok pa' ∧ Equal N p pa' ∧
      mass pa' = exp dl * mass pa := by
  obtain ⟨c, hc⟩ := h.w
  obtain ⟨pa', w', e1, e2, e3, e4, e5⟩ := weightUpdate_offset hN (pa := pa) (by rw [hc]; simp) (fun _ => dl)
  rw [show (List.ofFn fun _ : Fin N => dl) = List.replicate N dl from List.ofFn_const N dl] at e1
  have hw : ∀ i : Fin N, w' i = c + pa.w_offset + dl - pa'.w_offset := fun i => by
    have := e5 i
    rw [hc, List.getD_eq_getElem?_getD, List.getElem?_replicate, if_pos i.2, Option.getD_some] at this
    linarith
  have hr : List.ofFn w' = List.replicate N (c + pa.w_offset + dl - pa'.w_offset) := by
    rw [show w' = fun _ => c + pa.w_offset + dl - pa'.w_offset from funext hw]; exact List.ofFn_const _ _
  refine ⟨pa', e1, ⟨e2.trans h.part, ⟨_, e3.trans hr⟩, e4.trans h.num⟩, ?_⟩
  simp only [mass, e3, hr, hc, List.map_replicate, List.sum_replicate, smul_eq_mul, nsmul_eq_mul]
  rw [sub_add_cancel, exp_add]
  ring

/-- One step of the filter on equal particles: resampled or not, the particles stay equal and the likelihood estimate is multiplied by the value `measure` returned. -/
theorem rbf_equal_step {K : MarkovRb P U Y V Ω} {N : ℕ} (hN : 0 < N) {p p1 p2 : P} {dl : ℝ} {u : Slot U} {y : Slot Y} {k : ℕ}
    (hn : ∀ ω, ∃ v, K.sampleProcessNoise (List.replicate N p) u k ω = .ok v ∧ K.update (List.replicate N p) u k v = .ok (List.replicate N p1))
    (hm : K.measure (List.replicate N p1) y (k + 1) = .ok (List.replicate N p2, List.replicate N dl)) (res : ℝ) {tr : List (Step P)} {last : Step P}
    (hlast : tr.getLast? = some last) (he : Equal N p last.pa) {yv : List (Slot Y)} {uv : List (Slot U)} {tv : List ℕ} (hu : uv[k]? = some u)
    (hy : yv[k + 1]? = some y) (ht : tv[k]? = some k) (ht1 : tv[k + 1]? = some (k + 1)) {d : Draws Ω} (hr : Unit01 d.r) :
    ∃ pa b anc, rbfForward K res tr yv uv tv k d = .ok (pa, b, anc) ∧ Equal N p2 pa ∧ GoodStep N ⟨pa, anc⟩ ∧ likIncr last.pa pa b = exp dl := by
  obtain ⟨c, hc⟩ := he.w
  obtain ⟨pa0, hpa0⟩ : ∃ pa0 : PA P, pa0 = { part := last.pa.part, w := last.pa.w, num := last.pa.part.length, w_offset := 0 } := ⟨_, rfl⟩
  have h0 : Equal N p pa0 := by rw [hpa0]; exact ⟨he.part, ⟨c, hc⟩, by rw [he.part]; simp⟩
  obtain ⟨pa1, b, anc, r1, r2, r3, r4, -, r5, r6, r7⟩ := maybeResample_spec res h0.wf hN hr
  have hpart : pa1.part = List.replicate N p := by
    refine List.eq_replicate_iff.mpr ⟨r2.part_len, fun q hq => ?_⟩
    obtain ⟨i, hi, rfl⟩ := List.getElem_of_mem hq
    have hia : i < anc.length := by rw [r3, ← r2.part_len]; exact hi
    have := r7 i _ (List.getElem?_eq_getElem hia)
    rw [List.getElem?_eq_getElem hi, h0.part, List.getElem?_replicate, if_pos (r4 _ (List.getElem_mem hia))] at this
    exact Option.some.inj this
  have hw1 : ∃ c1, pa1.w = List.replicate N c1 ∧ pa1.w_offset = 0 ∧ (exp c1 * N = if b then 1 else exp c * N) := by
    cases b with
    | false =>
      obtain ⟨rfl, -⟩ := r5 rfl
      exact ⟨c, by rw [hpa0]; exact hc, by rw [hpa0], by simp⟩
    | true =>
      obtain ⟨m, -, -, -, q1, q2⟩ := resample_spec (r6 rfl)
      refine ⟨_, q1, q2, ?_⟩
      have : (0:ℝ) < N := by exact_mod_cast hN
      rw [exp_log (by positivity)]
      simp only [if_true]
      field_simp
  obtain ⟨c1, w1, w2, w3⟩ := hw1
  obtain ⟨v, v1, v2⟩ := hn d.ω
  have hfan : fancy last.pa.part anc = .ok (List.replicate N p) := by
    rw [he.part, fancy_spec]
    refine ⟨by simp [r3], fun j i hi => ?_⟩
    have hiN : i < N := r4 i (List.mem_of_getElem? hi)
    have hjN : j < N := by have := lt_of_getElem?_some hi; omega
    simp [hiN, hjN]
  obtain ⟨pa', f1, f2, f3⟩ := weightUpdate_equal hN (pa := { pa1 with part := List.replicate N p2 }) (p := p2) ⟨rfl, ⟨c1, w1⟩, r2.num_eq⟩ dl
  refine ⟨pa', b, anc, ?_, f2, ⟨f2.wf, r3, r4⟩, ?_⟩
  · unfold rbfForward
    rw [getLast_ok.mpr hlast]
    simp only [ok_bind, PA.new, ← hpa0, r1]
    unfold rbfUpdate
    simp only [getLast_ok.mpr hlast, ok_bind, hfan, getLast_take_succ hu, getLast_take_succ ht, v1, hpart, v2, pure_eq_ok]
    unfold rbfMeasure
    simp only [getLast_take_succ hy, getLast_take_succ ht1, ok_bind, hm, f1]
  · have hNr : (0:ℝ) < N := by exact_mod_cast hN
    rw [likIncr, f3, hc]
    simp only [mass, w1, w2, List.map_replicate, List.sum_replicate, nsmul_eq_mul, add_zero]
    rw [mul_comm (N:ℝ) (exp c1), w3]
    cases b with
    | true => simp
    | false =>
      simp only [Bool.false_eq_true, if_false]
      rw [mul_comm (N:ℝ)]
      exact mul_div_cancel_right₀ _ (by positivity)

/-! ## The filter run -/

/-- A measurement as it is passed to `measure` and `forward`. -/
def Spec.slotOf : Option (Fin m → ℝ) → Slot (Fin m → ℝ)
  | none => .none
  | some v => .obj v

/-- Where the run is after the measurement of time `k`: what it has stored is what the Kalman filter of all particles (`ltvFilter`) keeps, and its likelihood estimate
is the exponential of the sum of the log-likelihoods so far. -/
structure LtvAt (M : Ltv n m (Slot U) ℕ (Fin m → ℝ)) (kf : KF n m) (N : ℕ) (u : ℕ → Slot U) (y : ℕ → Option (Fin m → ℝ)) (K : ℕ) (kf1 : KF n m)
    (F : List (List (List ℝ))) (L : ℝ) (k : ℕ) (tr : List (Step (List ℝ))) (fl : List Bool) : Prop where
  parts : tr.map (fun st => st.pa.part) = F.take (k + 1)
  good : ∀ st ∈ tr, GoodStep N st ∧ ∃ p, Equal N p st.pa
  len : tr.length = fl.length + 1
  last : ∃ st r l kf' kf1', tr.getLast? = some st ∧ Equal N r st.pa ∧ Kept M kf kf' ∧
    ltvFilter M u y id kf' (List.replicate N r) (List.replicate N l) k (K - k) = .ok (kf1', F.drop k, List.replicate N L) ∧ likEstimate tr fl = exp l

theorem ltvFilter_head {M : Ltv n m (Slot U) ℕ (Fin m → ℝ)} {u : ℕ → Slot U} {y : ℕ → Option (Fin m → ℝ)} {tm : ℕ → ℕ} {kf kf1 : KF n m}
    {rows : List (List ℝ)} {ll L : List ℝ} {j k : ℕ} {F : List (List (List ℝ))} (h : ltvFilter M u y tm kf rows ll j k = .ok (kf1, F, L)) :
    F.head? = some rows := by
  cases k with
  | zero =>
    simp only [ltvFilter, Except.ok.injEq, Prod.mk.injEq] at h
    rw [← h.2.1]; rfl
  | succ k =>
    rw [ltvFilter] at h
    obtain ⟨⟨_, _⟩, -, h⟩ := bind_eq_ok.mp h
    obtain ⟨⟨_, _, _⟩, -, h⟩ := bind_eq_ok.mp h
    obtain ⟨⟨_, _, _⟩, -, h⟩ := bind_eq_ok.mp h
    simp only [pure_eq_ok, Except.ok.injEq, Prod.mk.injEq] at h
    rw [← h.2.1]; rfl

theorem map_snd_ok {α β : Type} {x : PyM (α × β)} {a : α} {b : β} (h : x = .ok (a, b)) : x.map Prod.snd = .ok b := by rw [h]; rfl

theorem ltv_track_step {M : Ltv n m (Slot U) ℕ (Fin m → ℝ)} {kf : KF n m} {D : Spec.LtvSys n m (Slot U) ℕ} (hD : Spec.Describes M kf D) {N : ℕ} (hN : 0 < N)
    {u : ℕ → Slot U} {y : ℕ → Option (Fin m → ℝ)} {K : ℕ} {kf1 : KF n m} {F : List (List (List ℝ))} (hF : F.length = K + 1) {L : ℝ} (res : ℝ) {k : ℕ}
    {tr : List (Step (List ℝ))} {fl : List Bool} (hk : k < K) (hI : LtvAt M kf N u y K kf1 F L k tr fl) {yv : List (Slot (Fin m → ℝ))} {uv : List (Slot U)}
    {tv : List ℕ} (hu : uv[k]? = some (u k)) (hy : yv[k + 1]? = some (Spec.slotOf (y (k + 1)))) (ht : tv[k]? = some k) (ht1 : tv[k + 1]? = some (k + 1))
    {d : Draws Ω} (hr : Unit01 d.r) :
    ∃ pa b anc, rbfForward (ltvMarkov M kf Ω) res tr yv uv tv k d = .ok (pa, b, anc) ∧ LtvAt M kf N u y K kf1 F L (k + 1) (tr ++ [⟨pa, anc⟩]) (fl ++ [b]) := by
  obtain ⟨h1, h2, h3, st, r, l, kf', kf1', e1, e2, e3, e4, e5⟩ := hI
  obtain ⟨j, hj⟩ : ∃ j, K - k = j + 1 := ⟨K - k - 1, by omega⟩
  rw [hj, ltvFilter] at e4
  obtain ⟨⟨kf2, next⟩, a1, e4⟩ := bind_eq_ok.mp e4
  obtain ⟨⟨kf3, next2, dl⟩, a2, e4⟩ := bind_eq_ok.mp e4
  obtain ⟨⟨kf4, later, ll⟩, a3, e4⟩ := bind_eq_ok.mp e4
  simp only [pure_eq_ok, Except.ok.injEq, Prod.mk.injEq] at e4
  obtain ⟨-, e4, rfl⟩ := e4
  have hd : F.drop (k + 1) = later := by
    have := congrArg List.tail e4
    rw [List.tail_drop] at this
    simpa using this.symm
  obtain ⟨p1, rfl⟩ := update_replicate hN a1
  cases hyk : y (k + 1) with
  | none => rw [hyk] at a2; cases a2
  | some v =>
    rw [hyk] at a2 hy
    have k2 := update_kept e3 a1
    have k3 := measure_kept k2 a2
    obtain ⟨⟨p2, rfl⟩, c, rfl⟩ := measure_replicate hN a2
    have u1 := (C121_update_stateless hD (Kept.rfl' M kf) e3 (List.replicate N r) (u k) k).trans (map_snd_ok a1)
    have m1 := (C121_measure_stateless hD (Kept.rfl' M kf) k2 (List.replicate N p1) v (k + 1)).trans (map_snd_ok a2)
    obtain ⟨pa, b, anc, f1, f2, f3, f4⟩ := rbf_equal_step (K := ltvMarkov M kf Ω) hN (p := r) (p1 := p1) (p2 := p2) (dl := c) (u := u k)
      (y := Spec.slotOf (some v)) (k := k) (fun _ => ⟨(), rfl, u1⟩) m1 res e1 e2 hu hy ht ht1 (d := d) hr
    refine ⟨pa, b, anc, f1, ?_, ?_, by simp [h3], ⟨⟨pa, anc⟩, p2, l + c, kf3, kf4, by simp, f2, k3, ?_, ?_⟩⟩
    · have hhead : F[k + 1]? = some (List.replicate N p2) := by
        have : later.head? = some (List.replicate N p2) := ltvFilter_head a3
        rw [← hd, List.head?_drop] at this
        exact this
      rw [List.map_append, h1, List.take_add_one (l := F) (i := k + 1), hhead]
      simp [f2.part]
    · intro s hs
      rcases List.mem_append.mp hs with hs | hs
      · exact h2 s hs
      · rw [List.mem_singleton.mp hs]
        exact ⟨f3, p2, f2⟩
    · rw [show K - (k + 1) = j by omega, hd, ← a3]
      congr 1
      rw [List.zipWith_replicate, min_self]
    · obtain ⟨tr0, htr⟩ : ∃ tr0, tr = tr0 ++ [st] := by
        obtain ⟨tr0, h⟩ := List.getLast?_eq_some_iff.mp e1
        exact ⟨tr0, h⟩
      subst htr
      rw [likEstimate_append (by simpa using h3), e5, f4, exp_add]

/-- **C121** Run the particle filter with an `LTV` model for any number `N > 0` of particles, any resampling threshold and any random draws, on a record that
has a measurement at every time after the first. No call fails; the particles stored at every time are those of the Kalman filter that every particle
carries, so `N` copies of one row; and the likelihood estimate read off the stored weights and flags is the exponential of the log-likelihood the Kalman filters computed. -/
theorem ltv_run {M : Ltv n m (Slot U) ℕ (Fin m → ℝ)} {kf : KF n m} {D : Spec.LtvSys n m (Slot U) ℕ} (hD : Spec.Describes M kf D) {N : ℕ} (hN : 0 < N)
    {u : ℕ → Slot U} {y : ℕ → Option (Fin m → ℝ)} {K : ℕ} {kf1 : KF n m} {F : List (List (List ℝ))} (hF : F.length = K + 1) {L : ℝ}
    (hall : ltvFilterAll M kf N u y id K = .ok (kf1, F, List.replicate N L)) (res : ℝ) {T : Option ℕ}
    {s0 : PT (List ℝ) U (Fin m → ℝ)} (h0 : PT.init N T 0 = .ok s0) (ω : Ω) (ds : List (Slot U × Slot (Fin m → ℝ) × Ω × Draws Ω))
    (hds : ∀ (i : ℕ) q, ds[i]? = some q → q.1 = u i ∧ q.2.1 = Spec.slotOf (y (i + 1)) ∧ Unit01 q.2.2.2.r ∧ Unit01 q.2.2.2.r2) (hK : ds.length = K)
    (hne : y 0 = none → 0 < K) :
    ∃ s bs flags, s0.run (rbfOps (ltvMarkov M kf Ω) res) (history ((y 0).map fun y0 => (.obj y0, ω)) ds) = (s, .ok bs) ∧ bs.filterMap id = flags ∧
      LtvAt M kf N u y K kf1 F L K s.traj flags := by
  have hNr : (0:ℝ) < N := by exact_mod_cast hN
  obtain ⟨pa0, hpa0⟩ : ∃ pa0 : PA (List ℝ), pa0 = { part := M.initial N, w := List.replicate N (-Real.log N), num := N, w_offset := 0 } := ⟨_, rfl⟩
  have hnew : PA.new (M.initial N) none = .ok pa0 := by
    rw [PA.new, hpa0]
    simp [Ltv.initial, hN.ne']
  have he0 : Equal N (packEst (M.z0, M.P0)) pa0 := by rw [hpa0]; exact ⟨rfl, ⟨_, rfl⟩, rfl⟩
  have hm0 : mass pa0 = 1 := by
    simp only [mass, hpa0, List.map_replicate, List.sum_replicate, nsmul_eq_mul, add_zero]
    rw [exp_neg, exp_log hNr, mul_inv_cancel₀ hNr.ne']
  rw [ltvFilterAll] at hall
  obtain ⟨⟨kfb, rows, ll⟩, b1, b2⟩ := bind_eq_ok.mp hall
  have hhead : F[0]? = some rows := by
    rw [← List.head?_eq_getElem?]
    exact ltvFilter_head b2
  have first : ∀ pa r l, Equal N r pa → rows = List.replicate N r → ll = List.replicate N l → Kept M kf kfb → mass pa = exp l →
      LtvAt M kf N u y K kf1 F L 0 [⟨pa, List.range N⟩] [] := by
    intro pa r l g1 g2 g3 g4 g5
    subst g2 g3
    refine ⟨?_, ?_, rfl, ⟨pa, List.range N⟩, r, l, kfb, kf1, rfl, g1, g4, ?_, ?_⟩
    · rw [List.take_add_one (l := F) (i := 0), hhead]
      simp [g1.part]
    · intro st hst
      rw [List.mem_singleton.mp hst]
      exact ⟨⟨g1.wf, by simp, fun i hi => List.mem_range.mp hi⟩, r, g1⟩
    · exact b2
    · simp [likEstimate, likProd, g5]
  have key := history_track (F := rbfOps (ltvMarkov M kf Ω) res) (K := K) (N := N) (u := u) (y := fun i => Spec.slotOf (y i)) (I := LtvAt M kf N u y K kf1 F L) rfl
    (first := (y 0).map .obj) (fun _ => ⟨M.initial N, pa0, rfl, hnew, ?_, ?_⟩)
    (fun k tr fl yv uv tv d hk hI _ hu hy ht ht1 hr _ => ltv_track_step hD hN hF res hk hI hu hy ht ht1 hr) h0 ω ds hds hK ?_
  · rw [Option.map_map] at key
    exact key
  · intro hf
    rw [Option.map_eq_none_iff] at hf
    rw [hf] at b1
    cases b1
    exact first pa0 _ 0 he0 rfl (by simp [Ltv.initial]) (Kept.rfl' M kf) (by rw [hm0, exp_zero])
  · intro y0 hf uv yv tv hy0 ht0
    obtain ⟨v, hv, rfl⟩ := Option.map_eq_some_iff.mp hf
    rw [hv] at b1
    obtain ⟨⟨r, rfl⟩, c, rfl⟩ := measure_replicate hN b1
    obtain ⟨pa', f1, f2, f3⟩ := weightUpdate_equal hN (pa := { pa0 with part := List.replicate N r }) (p := r) ⟨rfl, he0.w, he0.num⟩ c
    refine ⟨pa', ?_, first pa' r c f2 rfl rfl (measure_kept (Kept.rfl' M kf) b1) ?_⟩
    · show rbfMeasure (ltvMarkov M kf Ω) pa0 yv tv 0 = _
      have hm : (ltvMarkov M kf Ω).measure pa0.part (.obj v) 0 = .ok (List.replicate N r, List.replicate N c) := by
        rw [hpa0]; exact map_snd_ok b1
      unfold rbfMeasure
      simp only [getLast_take_succ hy0, getLast_take_succ ht0, ok_bind, hm, f1]
    · rw [f3, show mass { pa0 with part := List.replicate N r } = mass pa0 from rfl, hm0, mul_one]
  · intro hf h
    rw [Option.map_eq_none_iff] at hf
    have := hne hf
    rw [h] at hK; simp at hK; omega

end PyPE

import Verif.Models.LtvSim
import Verif.Smooth.Track
import Verif.Smooth.Ffbsi
import Verif.Smooth.MhRun

/-!
# C121: smoothing with a linear Gaussian (`LTV`) model

The whole pipeline: the particle filter, then a backward simulator or the method 'ancestor' with the model's `sample_smooth`.
-/

namespace PyPE
open Matrix Real Spec MeasureTheory
open scoped ENNReal

variable {n m : ℕ} {U P Y V Ω : Type}

/-! ## The code -/

/-- `future_trajs[0].pa.part`, if there are future trajectories (ltv.py:278-280). Simplification: for no particles at all the code does not look at them. -/
def futureRows : Option (List (SStep P)) → PyM (Option (List P))
  | none => .ok none
  | some [] => .error .indexError
  | some (s :: _) => .ok (some s.pa.part)

/-- The methods the smoothers call on an `LTV` object: `sample_smooth` (ltv.py:251-292) and `logp_xnext` (ltv.py:212-233) through `FFBSi` (interfaces.py:348-411).
Simplification: the object's Kalman filter is `kf` in every call; C121_sample_smooth_stateless proves that the calls made before do not matter. -/
noncomputable def ltvSmoothing (M : Ltv n m (Slot U) ℕ (Fin m → ℝ)) (kf : KF n m) (rest : SmoothCallbacks (List ℝ) U (Fin m → ℝ) V Ω) :
    SmoothCallbacks (List ℝ) U (Fin m → ℝ) V Ω :=
  { ffbsi (fun part _ _ _ => .ok (ltvLogpXnext part)) rest with
    sampleSmooth := fun part _ _ fut _ D _ _ => do
      let f ← futureRows fut
      (M.sampleSmooth kf part f D.u D.t).map Prod.snd }

/-! ## The backward pass -/

theorem ltvBackward_suffix {M : Ltv n m (Slot U) ℕ (Fin m → ℝ)} {ut : List (Slot U)} {tt : List ℕ} {kf kf' : KF n m} {G : List (List (List ℝ))}
    {S : List (List (List ℝ))} (pre : List (List (List ℝ))) (h : ltvBackward M ut tt kf (pre ++ G) = .ok (kf', S)) :
    ∃ kf'' S', ltvBackward M ut tt kf G = .ok (kf'', S') ∧ ∀ R ∈ S', R ∈ S := by
  induction pre generalizing kf' S with
  | nil => exact ⟨kf', S, h, fun _ h => h⟩
  | cons a pre ih =>
    rw [List.cons_append, ltvBackward] at h
    obtain ⟨⟨kf1, fut⟩, h1, h⟩ := bind_eq_ok.mp h
    obtain ⟨⟨kf2, res⟩, h2, h⟩ := bind_eq_ok.mp h
    simp only [pure_eq_ok, Except.ok.injEq, Prod.mk.injEq] at h
    obtain ⟨kf'', S', e1, e2⟩ := ih h1
    exact ⟨kf'', S', e1, fun R hR => by rw [← h.2]; exact List.mem_cons_of_mem _ (e2 R hR)⟩

theorem ltvBackward_kept {M : Ltv n m (Slot U) ℕ (Fin m → ℝ)} {ut : List (Slot U)} {tt : List ℕ} {kf0 kf kf' : KF n m} {G S : List (List (List ℝ))}
    (hk : Kept M kf0 kf) (h : ltvBackward M ut tt kf G = .ok (kf', S)) : Kept M kf0 kf' ∧ S.length = G.length := by
  induction G generalizing kf' S with
  | nil => cases h; exact ⟨hk, rfl⟩
  | cons a G ih =>
    rw [ltvBackward] at h
    obtain ⟨⟨kf1, fut⟩, h1, h⟩ := bind_eq_ok.mp h
    obtain ⟨⟨kf2, res⟩, h2, h⟩ := bind_eq_ok.mp h
    simp only [pure_eq_ok, Except.ok.injEq, Prod.mk.injEq] at h
    obtain ⟨i1, i2⟩ := ih h1
    exact ⟨h.1 ▸ sampleSmooth_kept i1 h2, by rw [← h.2]; simp [i2]⟩

/-- The smoothed steps from time `n` on. -/
def LtvBack (M : Ltv n m (Slot U) ℕ (Fin m → ℝ)) (kf1 : KF n m) (F : List (List (List ℝ))) (D : SData U (Fin m → ℝ)) (Mt : ℕ) (i : ℕ)
    (fut : List (SStep (List ℝ))) : Prop :=
  (∀ s ∈ fut, s.pa.part.length = Mt ∧ s.pa.w = List.replicate Mt (-Real.log Mt)) ∧ fut.length = F.length - i ∧
  ∃ G kf3, Spec.Picks Mt G (F.drop i) ∧ ltvBackward M D.u D.t kf1 G = .ok (kf3, fut.map fun s => s.pa.part)

theorem ltv_smooth_keeps {M : Ltv n m (Slot U) ℕ (Fin m → ℝ)} {kf kf1 : KF n m} {Dy : Spec.LtvSys n m (Slot U) ℕ} (hD : Spec.Describes M kf Dy)
    (hk1 : Kept M kf kf1) {N Mt : ℕ} (hN : 0 < N) (hMt : 0 < Mt) {F : List (List (List ℝ))} {D : SData U (Fin m → ℝ)}
    (hback : ∀ G, Spec.Picks Mt G F → ∃ kf3 S, ltvBackward M D.u D.t kf1 G = .ok (kf3, S) ∧ ∀ R ∈ S, R.length = Mt)
    {pt : List (Step (List ℝ))} (hpt : GoodRun N pt) (hF : pt.map (fun st => st.pa.part) = F) (rest : SmoothCallbacks (List ℝ) U (Fin m → ℝ) V Ω) :
    SmoothKeeps (ltvSmoothing M kf rest) pt D Mt (LtvBack M kf1 F D Mt) := by
  -- any choice of particles for the times from `i` on can be smoothed
  have hany : ∀ i G, Spec.Picks Mt G (F.drop i) → ∃ kf3 S, ltvBackward M D.u D.t kf1 G = .ok (kf3, S) ∧ ∀ R ∈ S, R.length = Mt := by
    intro i G hG
    have hpre : Spec.Picks Mt ((F.take i).map fun f => List.replicate Mt (f.headD [])) (F.take i) := by
      refine List.forall₂_map_left_iff.mpr (List.forall₂_same.mpr fun f hf => ⟨by simp, fun row hr => ?_⟩)
      rw [(List.mem_replicate.mp hr).2]
      have hfF := List.mem_of_mem_take hf
      rw [← hF] at hfF
      obtain ⟨st, hst, rfl⟩ := List.mem_map.mp hfF
      have hl := (hpt.steps st hst).pa.part_len
      cases hp : st.pa.part with
      | nil => rw [hp] at hl; simp at hl; omega
      | cons a l => simp
    obtain ⟨kf3, S, h1, h2⟩ := hback (((F.take i).map fun f => List.replicate Mt (f.headD [])) ++ G) (by
      have := List.rel_append hpre hG
      simp only [List.take_append_drop] at this
      exact this)
    obtain ⟨kf4, S', h3, h4⟩ := ltvBackward_suffix _ h1
    exact ⟨kf4, S', h3, fun R hR => h2 R (h4 R hR)⟩
  have hrow : ∀ i st, pt[i]? = some st → F.drop i = st.pa.part :: F.drop (i + 1) := by
    intro i st hst
    have h1 : F[i]? = some st.pa.part := by rw [← hF, List.getElem?_map, hst]; rfl
    obtain ⟨hi, h2⟩ := List.getElem?_eq_some_iff.mp h1
    rw [List.drop_eq_getElem_cons hi, h2]
  have hFl : F.length = pt.length := by rw [← hF]; simp
  have hwf : ∀ (out : List (List ℝ)) (pa : PA (List ℝ)), PA.new out none = .ok pa → out.length = Mt → pa.part.length = Mt ∧ pa.w = List.replicate Mt (-Real.log Mt) ∧ pa.part = out := by
    intro out pa hp hl
    obtain ⟨pa', h1, h2, h3, h4, -⟩ := PA.new_none_wf hl hMt
    cases h1.symm.trans hp
    exact ⟨h2.part_len, h4, h3⟩
  constructor
  · intro i st part ptraj anc fut ω hst hpl hpm ⟨hf1, hf2, G, kf3, hG, hb⟩ hi
    have hG' : Spec.Picks Mt (part :: G) (F.drop i) := by
      rw [hrow i st hst]
      exact List.Forall₂.cons ⟨hpl, hpm⟩ hG
    obtain ⟨kf4, S, h1, h2⟩ := hany i _ hG'
    have h1' := h1
    rw [ltvBackward, hb, ok_bind] at h1
    obtain ⟨⟨kf5, res⟩, h3, h1⟩ := bind_eq_ok.mp h1
    simp only [pure_eq_ok, Except.ok.injEq, Prod.mk.injEq] at h1
    obtain ⟨-, rfl⟩ := h1
    cases hfc : fut with
    | nil => rw [hfc] at hf2; simp at hf2; omega
    | cons s fut' =>
      rw [hfc] at h3
      have hst := (C121_sample_smooth_stateless hD (Kept.rfl' M kf) (ltvBackward_kept hk1 hb).1 part (some s.pa.part) D.u D.t).trans (map_snd_ok h3)
      have hres := h2 res (by simp)
      refine ⟨res, by simp only [ltvSmoothing, futureRows, ok_bind]; exact hst, hres, fun pa hpa => ?_⟩
      obtain ⟨g1, g2, g3⟩ := hwf _ _ hpa hres
      rw [← hfc]
      refine ⟨fun s' hs' => ?_, by simp [hf2]; omega, part :: G, kf4, hG', ?_⟩
      · rcases List.mem_cons.mp hs' with rfl | hs'
        · exact ⟨g1, g2⟩
        · exact hf1 s' hs'
      · rw [h1', List.map_cons, g3]
  · intro i st part ptraj anc ω hst hpl hpm hi
    have hG' : Spec.Picks Mt [part] (F.drop i) := by
      rw [hrow i st hst, List.drop_eq_nil_of_le (by omega)]
      exact List.Forall₂.cons ⟨hpl, hpm⟩ .nil
    obtain ⟨kf4, S, h1, h2⟩ := hany i _ hG'
    have h1' := h1
    rw [ltvBackward, ltvBackward, ok_bind] at h1
    obtain ⟨⟨kf5, res⟩, h3, h1⟩ := bind_eq_ok.mp h1
    simp only [pure_eq_ok, Except.ok.injEq, Prod.mk.injEq] at h1
    obtain ⟨-, rfl⟩ := h1
    have hst := (C121_sample_smooth_stateless hD (Kept.rfl' M kf) hk1 part none D.u D.t).trans (map_snd_ok h3)
    have hres := h2 res (by simp)
    refine ⟨res, by simp only [ltvSmoothing, futureRows, ok_bind]; exact hst, hres, fun pa hpa => ?_⟩
    obtain ⟨g1, g2, g3⟩ := hwf _ _ hpa hres
    refine ⟨fun s' hs' => ?_, by simp; omega, [part], kf4, hG', ?_⟩
    · rw [List.mem_singleton.mp hs']
      exact ⟨g1, g2⟩
    · rw [h1']
      simp [g3]

theorem ltv_density {M : Ltv n m (Slot U) ℕ (Fin m → ℝ)} {kf kf1 : KF n m} {Mt : ℕ} {F : List (List (List ℝ))} {D : SData U (Fin m → ℝ)}
    {pt : List (Step (List ℝ))} (hF : pt.map (fun st => st.pa.part) = F) (hu : ∀ i, i + 1 < pt.length → i < D.u.length) (ht : ∀ i, i < pt.length → i < D.t.length)
    (rest : SmoothCallbacks (List ℝ) U (Fin m → ℝ) V Ω) : DensityKept (ltvSmoothing M kf rest) pt D Mt (LtvBack M kf1 F D Mt) := by
  intro cur st fut hst ⟨hf1, hf2, _⟩ hc
  have hFl : F.length = pt.length := by rw [← hF]; simp
  refine ⟨fun _ _ => 0, fun ind fnd part pi hl hfnd hp hpi => ?_⟩
  have hne : 0 < fut.length := by omega
  obtain ⟨next, hnext⟩ := fancy_ok (a := fut[0].pa.part) (ind := fnd) (by rw [(hf1 _ (List.getElem_mem hne)).1]; exact hfnd)
  have hlen : part.length = ind.length := (fancy_spec.mp hp).1
  simp only [ltvSmoothing, ffbsi, getIdx_of_lt hne, ok_bind, hnext, getIdx_of_lt (hu cur hc), getIdx_of_lt (ht cur (by omega)), ltvLogpXnext]
  congr 1
  symm
  rw [hlen]
  refine List.eq_replicate_iff.mpr ⟨by simp [hl], fun x hx => ?_⟩
  obtain ⟨i, hi, rfl⟩ := List.getElem_of_mem hx
  simp

/-! ## The whole record -/

theorem ltv_all {M : Ltv n m (Slot U) ℕ (Fin m → ℝ)} {kf : KF n m} {D : Spec.LtvSys n m (Slot U) ℕ} (hD : Spec.Describes M kf D)
    (hP0 : M.P0.PosSemidef) (hQ : ∀ u t, (D.Q u t).PosDef) (hR : ∀ t, (D.R t).PosDef) (u : ℕ → Slot U) (y : ℕ → Option (Fin m → ℝ))
    {ut : List (Slot U)} {tt : List ℕ} {N Mt : ℕ} (hMt : 0 < Mt) (K : ℕ) (hy : ∀ i, 0 < i → i ≤ K → (y i).isSome)
    (hut : ∀ i, i < K → ut[i]? = some (u i)) (htt : ∀ i, i ≤ K → tt[i]? = some i)
    (hinv : ∀ i, i < K → D.A (u i) i = D.A (u 0) 0 ∧ D.f (u i) i = D.f (u 0) 0 ∧ D.Q (u i) i = D.Q (u 0) 0) :
    ∃ kf1 F L, ltvFilterAll M kf N u y id K = .ok (kf1, F, List.replicate N L) ∧ Kept M kf kf1 ∧ F.length = K + 1 ∧
      Spec.filtered (Spec.gauss M.z0 M.P0) (D.seenAt y id 0 ++ D.record u y id 0 K) Set.univ = ENNReal.ofReal (Real.exp L) ∧
      ∃ st : ℕ → Est n × Matrix (Fin n) (Fin n) ℝ,
        (∀ G kf2, Spec.Picks Mt G F → Kept M kf kf2 → ∃ kf3 S, ltvBackward M ut tt kf2 G = .ok (kf3, S) ∧ Kept M kf kf3 ∧
          S.length = K + 1 ∧ ∀ (i : ℕ) R, S[i]? = some R → R.length = Mt ∧ ∀ row ∈ R, Spec.StoresSmooth row (st i).1 (st i).2) ∧
        ∀ i, i ≤ K → (∃ zi Pi c, (∀ R, F[i]? = some R → ltvGetStates n R = .ok (List.replicate N (zi, Pi))) ∧ Pi.PosSemidef ∧
            Spec.filtered (Spec.gauss M.z0 M.P0) (D.seenAt y id 0 ++ D.record u y id 0 i) = ENNReal.ofReal (Real.exp c) • Spec.gauss zi Pi) ∧
          (st i).1.2.PosSemidef ∧ ∃ c, Spec.smoothed (Spec.gauss M.z0 M.P0) (D.seenAt y id 0 ++ D.record u y id 0 i) (D.record u y id i (K - i)) =
            ENNReal.ofReal (Real.exp c) • Spec.gauss (st i).1.1 (st i).1.2 := by
  obtain ⟨kfb, rows, z, P, dl, b1, b2, b3, b4, b5, b6⟩ :=
    ltv_observe_step hD (Kept.rfl' M kf) hP0 (C44_initial M N).1 y id hR 0
  have hinv' : ∀ i, 0 ≤ i → i < 0 + K → ∃ u0 ut' t0 tt', ut = u0 :: ut' ∧ tt = t0 :: tt' ∧ D.A (u i) (id i) = D.A u0 t0 ∧
      D.f (u i) (id i) = D.f u0 t0 ∧ D.Q (u i) (id i) = D.Q u0 t0 := by
    intro i _ hi
    have h1 := hut 0 (by omega)
    have h2 := htt 0 (by omega)
    obtain ⟨ut', rfl⟩ : ∃ ut', ut = u 0 :: ut' := by
      cases ut with
      | nil => simp at h1
      | cons a l => simp at h1; exact ⟨l, by rw [h1]⟩
    obtain ⟨tt', rfl⟩ : ∃ tt', tt = 0 :: tt' := by
      cases tt with
      | nil => simp at h2
      | cons a l => simp at h2; exact ⟨l, by rw [h2]⟩
    exact ⟨_, _, _, _, rfl, rfl, hinv i (by omega)⟩
  obtain ⟨kf1, F, zT, PT, ll, c1, c2, c3, c4, -, st, d1, d2, d3, d4, d5, d6⟩ :=
    ltv_suffix hD hP0 hQ hR u y id ut tt hMt K 0 (fun i h1 h2 => hy i h1 (by omega)) hinv' b2 b3 b6 dl
  have hs := seenAt_good hR y id 0
  have hr := fun j k => record_good hQ hR u y id j k
  have hsplit : ∀ i k j, D.record u y id j (i + k) = D.record u y id j i ++ D.record u y id (j + i) k := by
    intro i k
    induction i with
    | zero => intro j; simp [Spec.LtvSys.record]
    | succ i ih =>
      intro j
      rw [show i + 1 + k = (i + k) + 1 by omega]
      simp only [Spec.LtvSys.record, ih (j + 1), List.cons_append, List.append_assoc, show j + 1 + i = j + (i + 1) by omega]
  refine ⟨kf1, F, dl + ll, ?_, c2, c4, ?_, st, d1, fun i hi => ?_⟩
  · rw [ltvFilterAll]
    rw [b1, ok_bind]; exact c1
  · exact filtered_mass hP0 _ (fun op ho => ((List.mem_append.mp ho).elim (hs op) (hr 0 K op)).1) (kfData_append _ _ _ _ b4 c3)
  obtain ⟨zi, Pi, li, g1, g2, g3⟩ := d6 i hi
  have gk := kfData_append _ _ _ _ b4 g1
  have hgood : ∀ op ∈ D.seenAt y id 0 ++ D.record u y id 0 i, op.Good := fun op ho => ((List.mem_append.mp ho).elim (hs op) (hr 0 i op)).1
  obtain ⟨z', P', l', f1, f2, f3⟩ := C71_filter_exact M.z0 M.P0 hP0 _ hgood
  cases f1.symm.trans gk
  refine ⟨⟨zi, Pi, _, g2, f2, f3⟩, d3 i hi, ?_⟩
  obtain ⟨z1, P1, l1, q1, q2⟩ := C71_smoother_exact M.z0 M.P0 hP0 (D.seenAt y id 0 ++ D.record u y id 0 i) (D.record u y id i (K - i))
    (fun op ho => (List.mem_append.mp ho).elim (hgood op) fun h => (hr i (K - i) op h).1)
  cases q1.symm.trans gk
  rw [Nat.zero_add] at g3
  rcases q2 with q2 | ⟨zs, Ps, zT, PT, llT, q3, -, -, q5⟩
  · cases g3.symm.trans q2
  have f6 : (st i).1 = (zs, Ps) := Except.ok.inj (g3.symm.trans q3)
  exact ⟨llT, by rw [q5, f6]⟩

end PyPE

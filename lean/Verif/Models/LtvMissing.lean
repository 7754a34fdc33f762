import Verif.Models.LtvPipeline

/-!
# C121: a missing measurement stops the particle filter with an `LTV` model
-/

namespace PyPE
open Matrix Real Spec MeasureTheory
open scoped ENNReal

variable {n m : ℕ} {U P Y V Ω : Type}

/-- One step of the filter on equal particles whose `measure` fails: the error is the result. -/
theorem rbf_equal_error {K : MarkovRb P U Y V Ω} {N : ℕ} (hN : 0 < N) {p p1 : P} {e : PyErr} {u : Slot U} {y : Slot Y} {k : ℕ}
    (hn : ∀ ω, ∃ v, K.sampleProcessNoise (List.replicate N p) u k ω = .ok v ∧ K.update (List.replicate N p) u k v = .ok (List.replicate N p1))
    (hm : K.measure (List.replicate N p1) y (k + 1) = .error e) (res : ℝ) {tr : List (Step P)} {last : Step P}
    (hlast : tr.getLast? = some last) (he : Equal N p last.pa) {yv : List (Slot Y)} {uv : List (Slot U)} {tv : List ℕ} (hu : uv[k]? = some u)
    (hy : yv[k + 1]? = some y) (ht : tv[k]? = some k) (ht1 : tv[k + 1]? = some (k + 1)) {d : Draws Ω} (hr : Unit01 d.r) :
    rbfForward K res tr yv uv tv k d = .error e := by
  obtain ⟨c, hc⟩ := he.w
  obtain ⟨pa0, hpa0⟩ : ∃ pa0 : PA P, pa0 = { part := last.pa.part, w := last.pa.w, num := last.pa.part.length, w_offset := 0 } := ⟨_, rfl⟩
  have h0 : Equal N p pa0 := by rw [hpa0]; exact ⟨he.part, ⟨c, hc⟩, by rw [he.part]; simp⟩
  obtain ⟨pa1, b, anc, r1, r2, r3, r4, -, r5, r6, r7⟩ := maybeResample_spec res h0.wf hN hr
  have hpart : pa1.part = List.replicate N p := by
    refine List.eq_replicate_iff.mpr ⟨r2.part_len, fun q hq => ?_⟩
    obtain ⟨i, hi, rfl⟩ := List.getElem_of_mem hq
    have hia : i < anc.length := by rw [r3, ← r2.part_len]; exact hi
    have := r7 i _ (List.getElem?_eq_getElem hia)
    rw [List.getElem?_eq_getElem hi, h0.part, List.getElem?_replicate, if_pos (r4 _ (List.getElem_mem hia))] at this
    exact Option.some.inj this
  obtain ⟨v, v1, v2⟩ := hn d.ω
  have hfan : fancy last.pa.part anc = .ok (List.replicate N p) := by
    rw [he.part, fancy_spec]
    refine ⟨by simp [r3], fun j i hi => ?_⟩
    have hiN : i < N := r4 i (List.mem_of_getElem? hi)
    have hjN : j < N := by have := lt_of_getElem?_some hi; omega
    simp [hiN, hjN]
  unfold rbfForward
  rw [getLast_ok.mpr hlast]
  simp only [ok_bind, PA.new, ← hpa0, r1]
  unfold rbfUpdate
  simp only [getLast_ok.mpr hlast, ok_bind, hfan, getLast_take_succ hu, getLast_take_succ ht, v1, hpart, v2, pure_eq_ok]
  unfold rbfMeasure
  simp only [getLast_take_succ hy, getLast_take_succ ht1, ok_bind, hm]
  rfl

/-- **C121** The particle filter does not accept a missing measurement for an `LTV` model (defect: `measure` has no case for it): after any run over a complete record, `forward(u, None)`
raises an exception (`TypeError` where the model has a `C`), whatever the input, the number of particles and the random draws. The exception comes after the new input and measurement are recorded, so
nothing is appended to the trajectory. -/
theorem C121_missing {M : Ltv n m (Slot U) ℕ (Fin m → ℝ)} {kf : KF n m} {D : Spec.LtvSys n m (Slot U) ℕ} (hD : Spec.Describes M kf D)
    (hP0 : M.P0.PosSemidef) (hQ : ∀ u t, (D.Q u t).PosSemidef) (hR : ∀ t, (D.R t).PosDef) {u : ℕ → Slot U} {y : ℕ → Option (Fin m → ℝ)} {K : ℕ}
    (hy : Spec.Complete y K) {N : ℕ} (hN : 0 < N) (res : ℝ) {T : Option ℕ} {s0 : PT (List ℝ) U (Fin m → ℝ)} (h0 : PT.init N T 0 = .ok s0) (ω : Ω)
    {ds : List (Slot U × Slot (Fin m → ℝ) × Ω × Draws Ω)} (hds : Spec.CallsFor u y K ds) (u' : Slot U) (ω' : Ω) (d : Draws Ω) (hd : Unit01 d.r) :
    ∃ s bs s', s0.run (rbfOps (ltvMarkov M kf Ω) res) (history ((y 0).map fun y0 => (.obj y0, ω)) ds) = (s, .ok bs) ∧
      s.forward (rbfOps (ltvMarkov M kf Ω) res) u' .none ω' d = (s', .error .typeError) ∧ s'.traj = s.traj := by
  obtain ⟨s, bs, r1, hlen, hst, -⟩ := C121_filter hD hP0 hQ hR hy hN res h0 ω hds
  obtain ⟨kfb, rows, z, P, dl, b1, b2, b3, b4, -, b6⟩ := ltv_observe_step hD (Kept.rfl' M kf) hP0 (C44_initial M N).1 y id hR 0
  obtain ⟨kf1, F, zT, PK0, ll, c1, c3, c4, c5, c6⟩ := ltv_forward hD hQ hR u y id K 0 (fun i h1 h2 => hy.later i h1 (by omega)) b2 b3 b6 dl
  have hall : ltvFilterAll M kf N u y id K = .ok (kf1, F, List.replicate N (dl + ll)) := by
    rw [ltvFilterAll, b1, ok_bind]; exact c1
  obtain ⟨s2, bs2, flags, r1', rfl, r2⟩ := ltv_run hD hN c5 hall res h0 ω ds hds.step hds.len hy.ne
  rw [r1] at r1'
  cases r1'
  obtain ⟨st, r, l, kf', kf1', e1, e2, e3, -, -⟩ := r2.last
  have hstK : s.traj[K]? = some st := by
    rw [List.getLast?_eq_getElem?, hlen] at e1
    exact e1
  obtain ⟨zK, PK, cK, wt, g1, -⟩ := hst K st hstK
  rw [e2.part] at g1
  obtain ⟨kfa, next, a1, -, -⟩ := ltv_update_step hD (Kept.rfl' M kf) g1 u' K
  obtain ⟨p1, rfl⟩ := update_replicate hN a1
  have hr := PT.run_rep _ (PT.init_rep h0) r1
  obtain ⟨lg, hlg⟩ : ∃ lg, lg = (history ((y 0).map fun y0 => ((.obj y0 : Slot (Fin m → ℝ)), ω)) ds).foldl
      (Spec.Log.step (rbfOps (ltvMarkov M kf Ω) res).usingPfy) ⟨[], []⟩ := ⟨_, rfl⟩
  rw [← hlg] at hr
  have hk : lg.ys.length = K + 1 := by rw [← hr.len, hlen]
  have hne : lg.ys ≠ [] := by intro h; rw [h] at hk; simp at hk
  have hi : s.ind1 - 1 = K := by rw [hr.ind, hk]; rfl
  have he : s.ensureInit (rbfOps (ltvMarkov M kf Ω) res) ω' = (s, .ok ()) := by
    unfold PT.ensureInit
    rw [if_neg (by omega)]
  have hbr := hr.beforeForward hne u' .none ⟨[], [], 0, 0⟩ []
  have hul : lg.us.length = K := by rw [hr.us_len, hk]; rfl
  have hf : (rbfOps (ltvMarkov M kf Ω) res).forward s.traj (s.beforeForward u' .none).yvec (s.beforeForward u' .none).uvec
      (s.beforeForward u' .none).tvec K d = .error .typeError :=
    rbf_equal_error (K := ltvMarkov M kf Ω) hN (p := r) (p1 := p1) (u := u') (y := .none) (k := K) (fun _ => ⟨(), rfl, map_snd_ok a1⟩) rfl res e1 e2
      (hbr.us K u' (by simp [hul])) ((hbr.ys (K + 1) (by simp [hk])).trans (by simp [hk])) (hbr.ts K (by simp [hk])) (hbr.ts (K + 1) (by simp [hk])) hd
  refine ⟨s, bs, s.beforeForward u' .none, r1, ?_, (PT.growForward_inv hr.inv (by rw [hr.ind, hk]; omega)).2.2.2.1⟩
  simp only [PT.forward_eq hr.inv, he, hi, hf]

end PyPE

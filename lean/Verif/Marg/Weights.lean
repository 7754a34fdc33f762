import Verif.Marg.Claims

/-!
# The backward weights of the marginalised smoother
-/

namespace PyPE
open Matrix MeasureTheory ProbabilityTheory

variable {lxi lz ly : ℕ} {U T Y : Type}

/-- `p(xi_{t+1}, y_{t+1}, ..., xi_T, y_T | xi_t, y_{1:t})` for a particle `p` whose linear state is `N(p.2.1, p.2.2)`, where `f` is the likelihood
of what follows `xi_{t+1} = xi'`. -/
noncomputable def Spec.RbModel.partLik (M : Spec.RbModel lxi lz ly U T Y) (p : RbP lxi lz) (u : U) (t : T) (xi' : VecR lxi) (f : VecR lz → ℝ) : ℝ :=
  ∫ z, M.transXi p.1 u t xi' z * ∫ z', f z' ∂(M.transZ p.1 u t z) ∂(Spec.gauss p.2.1 p.2.2)

/-- `calc_prop3` for one particle. -/
theorem mgProp3One_ok {svd : MatR lz lz → MatR lz lz × VecR lz} (hs : Spec.SvdOk svd) (p : RbP lxi lz) (hP : p.2.2.PosSemidef)
    {Ω : MatR lz lz} (hO : Ω.PosSemidef) (Λ : VecR lz) :
    ∃ e L, mgProp3One svd p Ω Λ = .ok (e, L) ∧
      ∫ z, Spec.expQuad Ω Λ z ∂(Spec.gauss p.2.1 p.2.2) = Real.exp (-(1 / 2) * (Real.log |L.det| + e)) := by
  have hF := factorPsd_sq hs hP
  have hM := mt_posDef hO (factorPsd svd p.2.2)
  have hd := hM.det_pos.ne'
  refine ⟨_, _, by simp only [mgProp3One, npSolveV, if_neg hd, ok_bind]; rfl, ?_⟩
  have h := gauss_exp_quad hO Λ p.2.1 (factorPsd svd p.2.2)
  rw [hF] at h
  unfold Spec.expQuad
  rw [h, abs_of_pos hM.det_pos]

/-- `logp_xnext_full`, exactly. `f k` is the likelihood of the future after trajectory `k`, which the stored statistics describe with the factor
`c k`. -/
theorem mgLogpFull_ok {svd : MatR lz lz → MatR lz lz × VecR lz} (hs : Spec.SvdOk svd) {H : MlHooks 1 lz ly U T Y} {o : MlObj 1 lz ly}
    {M : Spec.RbModel 1 lz ly U T Y} (hD : Spec.RbDynamics H o M) (hG : M.Good) (parts : List (RbP 1 lz))
    (hP : ∀ p ∈ parts, p.2.2.PosSemidef) (fut : List (MgN 1 lz)) (find : List ℕ) (hlen : find.length = parts.length)
    (hfind : ∀ k ∈ find, k < fut.length) (f : ℕ → VecR lz → ℝ) (c : ℕ → ℝ) (hc : ∀ k, 0 < c k)
    (hf : ∀ k ∈ find, ∀ x, fut[k]? = some x → x.2.1.PosSemidef ∧ ∀ z, f k z = c k * Spec.expQuad x.2.1 x.2.2 z) (u : U) (t : T) :
    ∃ r, mgLogpFull svd H o parts fut find u t = .ok r ∧ r.length = parts.length ∧
      ∀ (i : ℕ) p, parts[i]? = some p → ∃ k x v, find[i]? = some k ∧ fut[k]? = some x ∧ r[i]? = some v ∧ 0 < M.partLik p u t x.1 (f k) ∧
        v = Real.log (M.partLik p u t x.1 (f k)) - Spec.mgExcess (M.Qz p.1 u t) (M.fz p.1 u t) x.2.1 x.2.2 +
          (1 / 2 * Real.log (2 * Real.pi) - Real.log (c k)) := by
  obtain ⟨next, hn⟩ := fancy_ok hfind
  obtain ⟨hnl, hni⟩ := fancy_spec.1 hn
  have hO : ∀ x ∈ next, x.2.1.PosSemidef := by
    intro x hx
    obtain ⟨j, hj⟩ := List.getElem?_of_mem hx
    have hjl : j < find.length := by rw [← hnl]; exact lt_of_getElem?_some hj
    have := (hni j find[j] (List.getElem?_eq_getElem hjl)).1
    exact (hf _ (List.getElem_mem hjl) x (this.trans hj)).1
  obtain ⟨q, hq, hql, hqi⟩ := mgProp1_ok hs hD hG parts next (hnl.trans hlen) hO u t
  have hpt : ∀ (i : ℕ) p, parts[i]? = some p → ∃ k x lZ Ω Λ e L, find[i]? = some k ∧ fut[k]? = some x ∧ q[i]? = some (lZ, Ω, Λ) ∧
      (do let p ← getIdx parts i; let w ← getIdx q i; mgProp3One svd p w.2.1 w.2.2 : PyM _) = .ok (e, L) ∧
      M.partLik p u t x.1 (f k) = c k * Real.exp (lZ + Spec.mgExcess (M.Qz p.1 u t) (M.fz p.1 u t) x.2.1 x.2.2 -
        1 / 2 * Real.log (2 * Real.pi) + -(1 / 2) * (Real.log |L.det| + e)) := by
    intro i p hp
    have hi : i < find.length := by rw [hlen]; exact lt_of_getElem?_some hp
    have hk := hni i find[i] (List.getElem?_eq_getElem hi)
    have hx : next[i]? = some fut[find[i]] := by rw [← hk.1]; exact List.getElem?_eq_getElem hk.2
    obtain ⟨lZ, Ω, Λ, h1, h2, h3⟩ := hqi i p _ hp hx
    obtain ⟨e, L, h4, h5⟩ := mgProp3One_ok hs p (hP p (List.mem_of_getElem? hp)) h2 Λ
    refine ⟨find[i], fut[find[i]], lZ, Ω, Λ, e, L, List.getElem?_eq_getElem hi, List.getElem?_eq_getElem hk.2, h1, ?_, ?_⟩
    · rw [getIdx_ok.2 hp, ok_bind, getIdx_ok.2 h1, ok_bind]; exact h4
    · have hc' := (hf find[i] (List.getElem_mem hi) _ (List.getElem?_eq_getElem hk.2)).2
      unfold Spec.RbModel.partLik
      simp only [hc']
      simp only [integral_const_mul, mul_left_comm _ (c find[i]), h3]
      rw [h5, ← Real.exp_add]
  choose! k X lZ Ω Λ e L hk hX hqv h3 hlik using hpt
  obtain ⟨r3, hr3, hr3l, hr3i⟩ := mapM_points parts _ (fun i p => (e i p, L i p)) h3
  obtain ⟨r, hr, hrl, hri⟩ := mapM_points parts (fun i => do
    let w ← getIdx q i
    let e ← getIdx r3 i
    return w.1 - 1 / 2 * (Real.log |e.2.det| + e.1)) (fun i p => lZ i p - 1 / 2 * (Real.log |(L i p).det| + e i p)) (by
      intro i p hp
      rw [getIdx_ok.2 (hqv i p hp), ok_bind, getIdx_ok.2 (hr3i i p hp), ok_bind]; rfl)
  refine ⟨r, ?_, hrl, fun i p hp => ⟨k i p, X i p, _, hk i p hp, hX i p hp, hri i p hp, ?_, ?_⟩⟩
  · simp only [mgLogpFull, hn, ok_bind, hq]
    rw [show mgProp3 svd parts q = .ok r3 from hr3, ok_bind]
    exact hr
  · rw [hlik i p hp]; exact mul_pos (hc _) (Real.exp_pos _)
  · rw [hlik i p hp, Real.log_mul (hc _).ne' (Real.exp_pos _).ne', Real.log_exp]
    ring

/-- **C85** `logp_xnext_full`: for every particle, the value returned is the logarithm of the likelihood of the whole future of the requested
trajectory given that particle, minus `m'(I + Qz Ω)⁻¹ Qz m` (a wrong sign in the code), up to a constant that depends on the trajectory only. -/
theorem C85_logp_xnext_full {svd : MatR lz lz → MatR lz lz × VecR lz} (hs : Spec.SvdOk svd) {H : MlHooks 1 lz ly U T Y} {o : MlObj 1 lz ly}
    {M : Spec.RbModel 1 lz ly U T Y} (hD : Spec.RbDynamics H o M) (hG : M.Good) (parts : List (RbP 1 lz))
    (hP : ∀ p ∈ parts, p.2.2.PosSemidef) (fut : List (MgN 1 lz)) (f : ℕ → VecR lz → ℝ)
    (hf : ∀ (k : ℕ) x, fut[k]? = some x → Spec.MgRepr (f k) x.2.1 x.2.2) (u : U) (t : T) :
    ∃ K : ℕ → ℝ, ∀ find : List ℕ, find.length = parts.length → (∀ k ∈ find, k < fut.length) →
      ∃ r, mgLogpFull svd H o parts fut find u t = .ok r ∧ r.length = parts.length ∧
        ∀ (i : ℕ) p, parts[i]? = some p → ∃ k x v, find[i]? = some k ∧ fut[k]? = some x ∧ r[i]? = some v ∧ 0 < M.partLik p u t x.1 (f k) ∧
          v = Real.log (M.partLik p u t x.1 (f k)) - Spec.mgExcess (M.Qz p.1 u t) (M.fz p.1 u t) x.2.1 x.2.2 + K k := by
  have hc : ∀ k : ℕ, ∃ c : ℝ, 0 < c ∧ ∀ x, fut[k]? = some x → x.2.1.PosSemidef ∧ ∀ z, f k z = c * Spec.expQuad x.2.1 x.2.2 z := by
    intro k
    cases hx : fut[k]? with
    | none => exact ⟨1, one_pos, fun x h => by simp at h⟩
    | some x =>
      obtain ⟨hp, c, hc, h⟩ := hf k x hx
      exact ⟨c, hc, fun x' h' => by cases h'; exact ⟨hp, h⟩⟩
  choose c hc hc' using hc
  exact ⟨fun k => 1 / 2 * Real.log (2 * Real.pi) - Real.log (c k), fun find hlen hfind =>
    mgLogpFull_ok hs hD hG parts hP fut find hlen hfind f c hc (fun k _ => hc' k) u t⟩

/-- **C85** When the mean and noise of the linear state (`fz`, `Qz`) are the same for all particles, the backward weights are exactly those of
the likelihood of the future: normalised, `exp(log w_i + logp_xnext_full_i)` is `w_i p(future_k | particle i) / Σ_j w_j p(future_k | particle j)`. -/
theorem C85_backward_weights {svd : MatR lz lz → MatR lz lz × VecR lz} (hs : Spec.SvdOk svd) {H : MlHooks 1 lz ly U T Y} {o : MlObj 1 lz ly}
    {M : Spec.RbModel 1 lz ly U T Y} (hD : Spec.RbDynamics H o M) (hG : M.Good) (parts : List (RbP 1 lz))
    (hP : ∀ p ∈ parts, p.2.2.PosSemidef) (fut : List (MgN 1 lz)) (k : ℕ) (x : MgN 1 lz) (hx : fut[k]? = some x) (f : VecR lz → ℝ)
    (hf : Spec.MgRepr f x.2.1 x.2.2) (u : U) (t : T) (fz : VecR lz) (Qz : MatR lz lz)
    (hcommon : ∀ p ∈ parts, M.fz p.1 u t = fz ∧ M.Qz p.1 u t = Qz) :
    ∃ r, mgLogpFull svd H o parts fut (List.replicate parts.length k) u t = .ok r ∧ r.length = parts.length ∧
      (∀ p ∈ parts, 0 < M.partLik p u t x.1 f) ∧
      ∀ w : List ℝ, w.length = parts.length → ∀ (i : ℕ) wi ri p, w[i]? = some wi → r[i]? = some ri → parts[i]? = some p →
        Real.exp (wi + ri) / (List.zipWith (fun a b => Real.exp (a + b)) w r).sum =
          Real.exp wi * M.partLik p u t x.1 f / (List.zipWith (fun a q => Real.exp a * M.partLik q u t x.1 f) w parts).sum := by
  obtain ⟨hps, c, hc, hc'⟩ := hf
  obtain ⟨r, hr, hrl, hri⟩ := mgLogpFull_ok hs hD hG parts hP fut (List.replicate parts.length k) (by simp)
    (fun j hj => by rw [List.eq_of_mem_replicate hj]; exact lt_of_getElem?_some hx) (fun _ => f) (fun _ => c) (fun _ => hc)
    (fun j hj y hy => by
      rw [List.eq_of_mem_replicate hj, hx] at hy
      cases hy
      exact ⟨hps, hc'⟩) u t
  have key : ∀ (i : ℕ) p, parts[i]? = some p → ∃ v, r[i]? = some v ∧ 0 < M.partLik p u t x.1 f ∧
      Real.exp v = M.partLik p u t x.1 f * Real.exp (-Spec.mgExcess Qz fz x.2.1 x.2.2 + (1 / 2 * Real.log (2 * Real.pi) - Real.log c)) := by
    intro i p hp
    obtain ⟨k', x', v, h1, h2, h3, h4, h5⟩ := hri i p hp
    have hk' : k' = k := List.eq_of_mem_replicate (List.mem_of_getElem? h1)
    subst hk'
    rw [hx] at h2
    cases h2
    obtain ⟨hfz, hQz⟩ := hcommon p (List.mem_of_getElem? hp)
    rw [hfz, hQz] at h5
    refine ⟨v, h3, h4, ?_⟩
    rw [h5, sub_add_eq_add_sub, add_sub_assoc, Real.exp_add, Real.exp_log h4]
    congr 2; ring
  generalize -Spec.mgExcess Qz fz x.2.1 x.2.2 + (1 / 2 * Real.log (2 * Real.pi) - Real.log c) = G at key
  refine ⟨r, hr, hrl, ?_, ?_⟩
  · intro p hp
    obtain ⟨i, hi⟩ := List.getElem?_of_mem hp
    obtain ⟨_, _, h, _⟩ := key i p hi
    exact h
  intro w hw i wi ri p hwi hri' hp
  have hsum : List.zipWith (fun a b => Real.exp (a + b)) w r =
      (List.zipWith (fun a q => Real.exp a * M.partLik q u t x.1 f) w parts).map fun v => v * Real.exp G := by
    apply List.ext_getElem?
    intro j
    by_cases hj : j < parts.length
    · have hjp := List.getElem?_eq_getElem hj
      obtain ⟨v, h1, h2, h3⟩ := key j _ hjp
      have hjw := List.getElem?_eq_getElem (l := w) (i := j) (by rw [hw]; exact hj)
      simp only [List.getElem?_zipWith, List.getElem?_map, hjw, h1, hjp]
      simp [Real.exp_add, h3, mul_assoc]
    · rw [List.getElem?_eq_none (by simp [hw, hrl]; omega), List.getElem?_eq_none (by simp [hw]; omega)]
  obtain ⟨v, h1, h2, h3⟩ := key i p hp
  rw [h1] at hri'
  cases hri'
  rw [hsum, List.sum_map_mul_right, List.map_id', Real.exp_add, h3, ← mul_assoc, mul_div_mul_right _ _ (Real.exp_pos G).ne']

/-- **C85** End to end: after any backward pass over the times `τs`, drawing the particle at the time before with the weights
`exp(log w_i + logp_xnext_full_i)` uses the probabilities `w_i p(xi_{t+1:T}, y_{t+1:T} | particle i)` (normalised), for the trajectory `k` being
extended. -/
theorem C85_end_to_end {svd : MatR lz lz → MatR lz lz × VecR lz} (hs : Spec.SvdOk svd) {raw : Y → VecR ly}
    {H : MlHooks 1 lz ly U T (Option Y)} {o : MlObj 1 lz ly} {M : Spec.RbModel 1 lz ly U T (Option Y)} (hD : Spec.MgDescribes raw H o M)
    (hG : M.Good) (τ : MgTime 1 lz U T Y) (τs : List (MgTime 1 lz U T Y)) (hL : Spec.MgLinked (τ :: τs)) (parts : List (RbP 1 lz))
    (hP : ∀ p ∈ parts, p.2.2.PosSemidef) (u : U) (t : T) (fz : VecR lz) (Qz : MatR lz lz)
    (hcommon : ∀ p ∈ parts, M.fz p.1 u t = fz ∧ M.Qz p.1 u t = Qz) (k : ℕ) (hk : k < τ.parts.length) :
    ∃ fut s rest r, mgBackward svd raw H o (τ :: τs) = .ok fut ∧ Spec.mgTraj (τ :: τs) k = some (s :: rest) ∧
      mgLogpFull svd H o parts fut (List.replicate parts.length k) u t = .ok r ∧ r.length = parts.length ∧
      (∀ p ∈ parts, 0 < M.partLik p u t s.xi (M.futLik (s :: rest))) ∧
      ∀ w : List ℝ, w.length = parts.length → ∀ (i : ℕ) wi ri p, w[i]? = some wi → r[i]? = some ri → parts[i]? = some p →
        Real.exp (wi + ri) / (List.zipWith (fun a b => Real.exp (a + b)) w r).sum =
          Real.exp wi * M.partLik p u t s.xi (M.futLik (s :: rest)) /
            (List.zipWith (fun a q => Real.exp a * M.partLik q u t s.xi (M.futLik (s :: rest))) w parts).sum := by
  obtain ⟨fut, h1, h2, h3⟩ := C84_backward_pass hs hD hG (τ :: τs) (by simp) hL
  obtain ⟨s, rest, Ω, Λ, h4, h5, h6⟩ := h3 k (by rw [h2 τ rfl]; exact hk)
  obtain ⟨r, h7, h8, h9, h10⟩ := C85_backward_weights hs hD.toRbDynamics hG parts hP fut k _ h5 _ h6 u t fz Qz hcommon
  exact ⟨fut, s, rest, r, h1, h4, h7, h8, h9, h10⟩

end PyPE

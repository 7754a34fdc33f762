import Verif.Smooth.Lemmas
import Verif.Sampling.Unbiased

/-!
# C29-C32 (deterministic parts): the four backward samplers return valid, fully written index arrays
-/

namespace PyPE
open Real Spec MeasureTheory
open scoped Classical

variable {P U Y V Ω : Type}

/-- One backward step of a smoother: a well-formed approximation of `N > 0` particles with their ancestors, and a
model whose density callback computes `L` for the `F` future trajectories. -/
structure Spec.BackStep (S : SmoothCallbacks P U Y V Ω) (pa : PA P) (ptraj : List (SStep P)) (pind : List ℕ)
    (fut : List (SStep P)) (D : SData U Y) (cur N F : ℕ) (L : ℕ → ℕ → ℝ) : Prop where
  pos : 0 < N
  wf : pa.WF N
  anc : pind.length = N
  dens : BackwardDensity S pa ptraj pind fut D cur F L

/-- The random draws of `sample` are values `numpy.random.rand` can return (the uniforms of the acceptance tests may be
arbitrary). -/
structure Spec.GoodDraws (d : BsiDraws Ω) : Prop where
  r : ∀ k, Unit01 (d.attempts k).r
  full : ∀ k, Unit01 (d.full k)

variable {S : SmoothCallbacks P U Y V Ω} {pa : PA P} {ptraj : List (SStep P)} {pind : List ℕ}
  {fut : List (SStep P)} {D : SData U Y} {cur N F : ℕ} {L : ℕ → ℕ → ℝ}

/-- C29: `bsi_full` succeeds, returns one valid index per requested trajectory, and entry `k` is exactly the draw
`sample` makes with its own uniform from the weights `w_i · p(future_{find[k]} | x_i)`. -/
theorem C29_bsi_full (h : BackStep S pa ptraj pind fut D cur N F L) {find : List ℕ}
    (hf : ∀ j ∈ find, j < F) {rs : ℕ → ℝ} (hr : ∀ k, Unit01 (rs k)) :
    ∃ res, bsiFull S pa ptraj pind fut find D cur rs = .ok res ∧ res.length = find.length ∧ (∀ i ∈ res, i < N) ∧
      ∀ k j : ℕ, find[k]? = some j →
        ∀ i, res[k]? = some i ↔ sample (backWeights pa.w L j) 1 (rs k) = .ok [i] := by
  obtain ⟨res, h1, h2, h3, h4⟩ := bsiFull_spec h.wf h.anc h.pos h.dens hf hr
  refine ⟨res, h1, h2, h3, fun k j hj i => ?_⟩
  obtain ⟨i', h5, h6⟩ := h4 k j hj
  rw [h5, h6]
  simp

/-- C29: whatever the other draws are, entry `k` of `bsi_full` is particle `i` with probability exactly
`w_i p(future_j | x_i) / Σ_l w_l p(future_j | x_l)`. -/
theorem C29_bsi_full_prob (h : BackStep S pa ptraj pind fut D cur N F L) {find : List ℕ}
    (hf : ∀ j ∈ find, j < F) {rs : ℕ → ℝ} (hr : ∀ k, Unit01 (rs k)) {k j : ℕ} (hj : find[k]? = some j) (i : ℕ) :
    ∫ r in (0:ℝ)..1, (if ∃ res, bsiFull S pa ptraj pind fut find D cur (Function.update rs k r) = .ok res ∧
        res[k]? = some i then (1:ℝ) else 0) = prob (backWeights pa.w L j) i := by
  rw [← C03_sample_one_prob (backWeights_weights (h.wf.w_ne h.pos) L j) i]
  apply intervalIntegral.integral_congr_ae
  filter_upwards [Measure.ae_ne volume (1:ℝ)] with r hr1 hr0
  rw [Set.uIoc_of_le zero_le_one] at hr0
  have hu : Unit01 r := ⟨hr0.1.le, lt_of_le_of_ne hr0.2 hr1⟩
  have hall : ∀ m, Unit01 (Function.update rs k r m) := by
    intro m
    by_cases hm : m = k
    · subst hm; simpa using hu
    · simpa [Function.update_of_ne hm] using hr m
  obtain ⟨res, h1, -, -, h4⟩ := C29_bsi_full h hf hall
  have := h4 k j hj i
  rw [Function.update_self] at this
  congr 1
  rw [eq_iff_iff, ← this, h1]
  constructor
  · rintro ⟨res', e, h⟩; cases e; exact h
  · intro h; exact ⟨res, rfl, h⟩

/-- Where an entry of the rejection samplers comes from: some attempt `k < K` proposed particle `i` for trajectory
`j` at some position and passed the test `log u < L i j - maxpdf`, or it is a draw of `bsi_full`. -/
def Spec.Provenance (w : List ℝ) (L : ℕ → ℕ → ℝ) (maxpdf : ℝ) (d : BsiDraws Ω) (K j i : ℕ) : Prop :=
  (∃ k < K, ∃ p, accepts L maxpdf (d.attempts k) p i j) ∨
  ∃ k, sample (backWeights w L j) 1 (d.full k) = .ok [i]

/-- Loop invariant of the rejection samplers: undecided entries are listed once in `todo`, all others hold a valid
index that passed a test. -/
structure RsInv (L : ℕ → ℕ → ℝ) (maxpdf : ℝ) (d : BsiDraws Ω) (N M K : ℕ) (res : List (Option ℕ)) (todo : List ℕ) :
    Prop where
  len : res.length = M
  nodup : todo.Nodup
  lt : ∀ x ∈ todo, x < M
  done : ∀ j < M, j ∉ todo → ∃ i, res[j]? = some (some i) ∧ i < N ∧
    ∃ k < K, ∃ p, accepts L maxpdf (d.attempts k) p i j

theorem RsInv.init (L : ℕ → ℕ → ℝ) (maxpdf : ℝ) (d : BsiDraws Ω) (N M : ℕ) :
    RsInv L maxpdf d N M 0 (List.replicate M none) (List.range M) :=
  ⟨by simp, List.nodup_range, fun x hx => List.mem_range.mp hx,
    fun j hj hn => absurd (List.mem_range.mpr hj) hn⟩

theorem RsInv.round (h : BackStep S pa ptraj pind fut D cur N F L) {maxpdf : ℝ} {d : BsiDraws Ω} (hd : GoodDraws d)
    {M K : ℕ} (hM : M ≤ F) {res : List (Option ℕ)} {todo : List ℕ} (hi : RsInv L maxpdf d N M K res todo) :
    ∃ res' todo', rsRound S pa ptraj pind fut D cur (normWeights pa.w) maxpdf (d.attempts K) todo res =
      .ok (res', todo') ∧ RsInv L maxpdf d N M (K + 1) res' todo' ∧ todo'.Sublist todo := by
  obtain ⟨q, res', todo', hq, hql, hqr, hok, hrl, hsub, hk, hout⟩ :=
    rsRound_spec h.wf h.anc h.pos h.dens maxpdf (d.attempts K) (hd.r K) hi.nodup
      (fun x hx => by rw [hi.len]; exact hi.lt x hx) (fun x hx => (hi.lt x hx).trans_le hM)
  refine ⟨res', todo', hok, ⟨by rw [hrl, hi.len], hi.nodup.sublist hsub, fun x hx => hi.lt x (hsub.subset hx), ?_⟩, hsub⟩
  intro j hj hn
  by_cases hjt : j ∈ todo
  · obtain ⟨k, hk0⟩ := List.mem_iff_getElem?.mp hjt
    have hkl : k < q.length := by rw [hql]; exact (List.getElem?_eq_some_iff.mp hk0).1
    have hget := Shuffle.app_get (d.attempts K).sh q k hkl
    obtain ⟨ha, hb⟩ := hk k j _ hk0 hget
    by_cases hac : accepts L maxpdf (d.attempts K) k q[(d.attempts K).sh q.length ⟨k, hkl⟩] j
    · exact ⟨_, (ha hac).1, hqr _ (List.getElem_mem _), K, Nat.lt_succ_self _, k, hac⟩
    · exact absurd (hb hac).2 hn
  · obtain ⟨i, h1, h2, k, h3, p, h4⟩ := hi.done j hj hjt
    exact ⟨i, by rw [hout j hjt]; exact h1, h2, k, by omega, p, h4⟩

theorem rsLoop_inv (h : BackStep S pa ptraj pind fut D cur N F L) {maxpdf : ℝ} {d : BsiDraws Ω} (hd : GoodDraws d)
    {M : ℕ} (hM : M ≤ F) (n K : ℕ) {res : List (Option ℕ)} {todo : List ℕ} (hi : RsInv L maxpdf d N M K res todo) :
    ∃ res' todo', rsLoop S pa ptraj pind fut D cur (normWeights pa.w) maxpdf
      ((List.range n).map fun k => d.attempts (K + k)) todo res = .ok (res', todo') ∧
      RsInv L maxpdf d N M (K + n) res' todo' := by
  induction n generalizing K res todo with
  | zero => exact ⟨res, todo, rfl, hi⟩
  | succ n ih =>
    obtain ⟨res', todo', hok, hi', -⟩ := hi.round h hd hM
    have hl : (List.range (n+1)).map (fun k => d.attempts (K + k)) =
        d.attempts K :: (List.range n).map fun k => d.attempts (K + 1 + k) := by
      rw [List.range_succ_eq_map, List.map_cons, List.map_map]
      congr 1
      apply List.map_congr_left
      intro k _
      simp only [Function.comp]; congr 1; omega
    rw [hl]
    simp only [rsLoop, hok, ok_bind]
    by_cases h0 : todo'.length = 0
    · rw [if_pos h0]
      have : todo' = [] := List.length_eq_zero_iff.mp h0
      subst this
      exact ⟨res', [], rfl, ⟨hi'.len, hi'.nodup, hi'.lt, fun j hj hn => by
        obtain ⟨i, h1, h2, k, h3, h4⟩ := hi'.done j hj hn
        exact ⟨i, h1, h2, k, by omega, h4⟩⟩⟩
    · rw [if_neg h0]
      have := ih (K + 1) hi'
      rwa [show K + 1 + n = K + (n + 1) by omega] at this

/-- The fall-back writes every undecided entry. -/
theorem rsFallback_spec (h : BackStep S pa ptraj pind fut D cur N F L) {full : ℕ → ℝ}
    (hd : ∀ k, Unit01 (full k)) {res : List (Option ℕ)} {todo : List ℕ} (hnd : todo.Nodup)
    (hlt : ∀ x ∈ todo, x < res.length) (htF : ∀ x ∈ todo, x < F) :
    ∃ res', rsFallback S pa ptraj pind fut D cur full todo res = .ok res' ∧ res'.length = res.length ∧
      (∀ x, x ∉ todo → res'[x]? = res[x]?) ∧
      (∀ k x : ℕ, todo[k]? = some x → ∃ i, res'[x]? = some (some i) ∧ i < N ∧
        sample (backWeights pa.w L x) 1 (full k) = .ok [i]) := by
  obtain ⟨b, h1, h2, h3, h4⟩ := bsiFull_spec h.wf h.anc h.pos h.dens htF hd
  have hA := roundArrays todo b (List.replicate todo.length true) res h2 (by simp) hnd hlt
  have hz : ((todo.zip b).zip (List.replicate todo.length true)).filter (·.2) =
      (todo.zip b).zip (List.replicate todo.length true) := by
    apply List.filter_eq_self.mpr
    rintro ⟨x, c⟩ hx
    have := List.of_mem_zip hx
    exact (List.mem_replicate.mp this.2).2
  have hz1 : (((todo.zip b).zip (List.replicate todo.length true)).map (·.1.1)) = todo := by
    have e : (fun x : (ℕ × ℕ) × Bool => x.1.1) = Prod.fst ∘ Prod.fst := rfl
    rw [e, ← List.map_map, List.map_fst_zip (by simp [h2]), List.map_fst_zip (by simp [h2])]
  have hz2 : (((todo.zip b).zip (List.replicate todo.length true)).map fun p => some p.1.2) = b.map some := by
    have e : (fun x : (ℕ × ℕ) × Bool => some x.1.2) = some ∘ Prod.snd ∘ Prod.fst := rfl
    rw [e, ← List.map_map, ← List.map_map, List.map_fst_zip (by simp [h2]), List.map_snd_zip (by simp [h2])]
  simp only [hz, hz1, hz2] at hA
  refine ⟨scatter res todo (b.map some), by simp only [rsFallback, h1, ok_bind]; rfl, hA.1, ?_, ?_⟩
  · intro x hx
    exact hA.2.2 x fun k hk => absurd (List.mem_of_getElem? hk) hx
  · intro k x hx
    obtain ⟨i, h5, h6⟩ := h4 k x hx
    have hkl := (List.getElem?_eq_some_iff.mp hx).1
    refine ⟨i, hA.2.1 k x i hx h5 (by simp [hkl]), h3 i (List.mem_of_getElem? h5), h6⟩

/-- The final array of a rejection sampler, whichever exit it took. -/
theorem rsFinish (h : BackStep S pa ptraj pind fut D cur N F L) {maxpdf : ℝ} {d : BsiDraws Ω}
    (hd : GoodDraws d) {M K : ℕ} (hM : M ≤ F) {res : List (Option ℕ)} {todo : List ℕ} (hi : RsInv L maxpdf d N M K res todo) :
    ∃ res', rsFallback S pa ptraj pind fut D cur d.full todo res = .ok res' ∧ res'.length = M ∧
      (∀ j < M, ∃ i, res'[j]? = some (some i) ∧ i < N ∧ Provenance pa.w L maxpdf d K j i) := by
  obtain ⟨res', h1, h2, h3, h4⟩ := rsFallback_spec h hd.full hi.nodup (res := res)
    (fun x hx => by rw [hi.len]; exact hi.lt x hx) (fun x hx => (hi.lt x hx).trans_le hM)
  refine ⟨res', h1, h2.trans hi.len, fun j hj => ?_⟩
  by_cases hjt : j ∈ todo
  · obtain ⟨k, hk⟩ := List.mem_iff_getElem?.mp hjt
    obtain ⟨i, h5, h6, h7⟩ := h4 k j hk
    exact ⟨i, h5, h6, Or.inr ⟨k, h7⟩⟩
  · obtain ⟨i, h5, h6, h7⟩ := hi.done j hj hjt
    exact ⟨i, by rw [h3 j hjt]; exact h5, h6, Or.inl h7⟩

/-- C30: for every attempt limit and every draw `bsi_rs` succeeds; every entry of the (initially uninitialised) result
is written, is a valid particle index, and either passed the rejection test or was drawn by `bsi_full`. -/
theorem C30_rs_every_entry (h : BackStep S pa ptraj pind fut D cur N F L) {find : List ℕ} (hf : find.length ≤ F)
    (maxpdf : ℝ) (maxIter : ℕ)
    {d : BsiDraws Ω} (hd : GoodDraws d) :
    ∃ res, bsiRs S pa ptraj pind fut find D cur maxpdf maxIter d = .ok res ∧ res.length = find.length ∧
      ∀ j < find.length, ∃ i, res[j]? = some (some i) ∧ i < N ∧ Provenance pa.w L maxpdf d maxIter j i := by
  obtain ⟨res, todo, h1, h2⟩ := rsLoop_inv h hd hf maxIter 0 (RsInv.init L maxpdf d N find.length)
  simp only [Nat.zero_add] at h1 h2
  simp only [bsiRs, maxNormalised_eq (h.wf.w_ne h.pos), ok_bind, h1]
  by_cases hc : todo.length = 0 ∧ 0 < maxIter
  · rw [if_pos hc]
    have : todo = [] := List.length_eq_zero_iff.mp hc.1
    subst this
    refine ⟨res, rfl, h2.len, fun j hj => ?_⟩
    obtain ⟨i, h5, h6, h7⟩ := h2.done j hj (by simp)
    exact ⟨i, h5, h6, Or.inl h7⟩
  · rw [if_neg hc]
    exact rsFinish h hd hf h2

/-- C30: with an attempt limit of 0 the rejection sampler is `bsi_full`. -/
theorem C30_rs_zero_attempts (h : BackStep S pa ptraj pind fut D cur N F L) {M : ℕ} (hM : M ≤ F) (maxpdf : ℝ)
    {d : BsiDraws Ω} (hd : GoodDraws d) :
    ∃ res, bsiFull S pa ptraj pind fut (List.range M) D cur d.full = .ok res ∧
      bsiRs S pa ptraj pind fut (List.range M) D cur maxpdf 0 d = .ok (res.map some) := by
  obtain ⟨b, h1, h2, h3, h4⟩ := bsiFull_spec h.wf h.anc h.pos h.dens (find := List.range M)
    (fun j hj => (List.mem_range.mp hj).trans_le hM) hd.full
  refine ⟨b, h1, ?_⟩
  obtain ⟨res', e1, e2, -, e4⟩ := rsFallback_spec h hd.full (List.nodup_range (n := M))
    (res := List.replicate M none) (by simp) (fun j hj => (List.mem_range.mp hj).trans_le hM)
  simp only [bsiRs, maxNormalised_eq (h.wf.w_ne h.pos), ok_bind, List.range_zero, List.map_nil, rsLoop,
    Nat.lt_irrefl, and_false, if_false, List.length_range]
  rw [e1]
  congr 1
  apply List.ext_getElem?
  intro j
  by_cases hj : j < M
  · obtain ⟨i, h5, -, h6⟩ := e4 j j (by simp [hj])
    obtain ⟨i', h7, h8⟩ := h4 j j (by simp [hj])
    rw [h6] at h8
    simp only [Except.ok.injEq, List.cons.injEq, and_true] at h8
    subst h8
    rw [h5, List.getElem?_map, h7]; rfl
  · simp only [List.length_replicate] at e2
    rw [List.getElem?_eq_none (by omega), List.getElem?_eq_none (by simp at h2; simp; omega)]

end PyPE

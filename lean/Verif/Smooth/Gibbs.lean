import Verif.Smooth.PathOps

/-!
# C96: conditional particle filters with two particles, as Markov kernels on trajectories

The abstract part: a recursion for the law of the trajectory drawn after a conditional filter run with two particles, and the proof that
it leaves the smoothing law invariant, because the two lineages are exchangeable.
-/

namespace PyPE
open Real Spec MeasureTheory ProbabilityTheory
open scoped ENNReal

variable {P U Y V Ω : Type}

/-! ### Integrating the reference trajectory -/

/-- The integral of `G` over the future of a path, with the likelihoods as weights. -/
noncomputable def refE [MeasurableSpace P] (M : ℕ → Slot U → Kernel P P) (ℓ : ℕ → Slot Y → P → ℝ) :
    ℕ → List (Slot U × Slot Y) → ((ℕ → P) → ℝ≥0∞) → (ℕ → P) → ℝ≥0∞
  | _, [], G, s => G s
  | k, q :: qs, G, s => ∫⁻ x', ENNReal.ofReal (exp (ℓ (k+1) q.2 x')) * refE M ℓ (k+1) qs G (Function.update s (k+1) x') ∂(M k q.1 (s k))

theorem pathG_refE [MeasurableSpace P] (M : ℕ → Slot U → Kernel P P) (ℓ : ℕ → Slot Y → P → ℝ) (φ : List P → ℝ≥0∞) (k : ℕ)
    (qs : List (Slot U × Slot Y)) (s : ℕ → P) :
    pathG M ℓ φ k qs s = refE M ℓ k qs (fun s => φ ((List.range (k + qs.length + 1)).map s)) s := by
  induction qs generalizing k s with
  | nil => rw [pathG_nil]; rfl
  | cons q qs ih =>
    rw [pathG_cons]
    simp only [refE, ih]
    rw [show k + (q :: qs).length + 1 = k + 1 + qs.length + 1 by simp only [List.length_cons]; omega]

theorem refE_congr [MeasurableSpace P] (M : ℕ → Slot U → Kernel P P) (ℓ : ℕ → Slot Y → P → ℝ) {G G' : (ℕ → P) → ℝ≥0∞} {k : ℕ}
    (qs : List (Slot U × Slot Y)) {s : ℕ → P} (h : ∀ s' : ℕ → P, (∀ i, i ≤ k → s' i = s i) → G s' = G' s') :
    refE M ℓ k qs G s = refE M ℓ k qs G' s := by
  induction qs generalizing k s with
  | nil => exact h s fun _ _ => rfl
  | cons q qs ih =>
    simp only [refE]
    refine lintegral_congr fun x' => ?_
    rw [ih]
    intro s' hs'
    refine h s' fun i hi => ?_
    rw [hs' i (by omega), Function.update_of_ne (by omega)]

theorem refE_measurable [MeasurableSpace P] {Z : Type} [MeasurableSpace Z] {M : ℕ → Slot U → Kernel P P} (hM : ∀ k u, IsMarkovKernel (M k u))
    {ℓ : ℕ → Slot Y → P → ℝ} (hℓ : ∀ k y, Measurable (ℓ k y)) {G : Z × (ℕ → P) → ℝ≥0∞} (hG : Measurable G) (k : ℕ)
    (qs : List (Slot U × Slot Y)) : Measurable fun z : Z × (ℕ → P) => refE M ℓ k qs (fun s => G (z.1, s)) z.2 := by
  induction qs generalizing k with
  | nil => exact hG
  | cons q qs ih =>
    haveI := hM k q.1
    simp only [refE]
    refine Measurable.lintegral_kernel_prod_right' (κ := (M k q.1).comap (fun z : Z × (ℕ → P) => z.2 k) ((measurable_pi_apply k).comp measurable_snd))
      (f := fun z => ENNReal.ofReal (exp (ℓ (k+1) q.2 z.2)) * refE M ℓ (k+1) qs (fun s => G (z.1.1, s)) (Function.update z.1.2 (k+1) z.2)) ?_
    refine ((measurable_exp.comp ((hℓ (k+1) q.2).comp measurable_snd)).ennreal_ofReal).mul ?_
    exact (ih (k+1)).comp (f := fun z : (Z × (ℕ → P)) × P => (z.1.1, Function.update z.1.2 (k+1) z.2))
      ((measurable_fst.comp measurable_fst).prodMk ((measurable_updateAt (k+1)).comp ((measurable_snd.comp measurable_fst).prodMk measurable_snd)))

theorem refE_measurable' [MeasurableSpace P] {M : ℕ → Slot U → Kernel P P} (hM : ∀ k u, IsMarkovKernel (M k u))
    {ℓ : ℕ → Slot Y → P → ℝ} (hℓ : ∀ k y, Measurable (ℓ k y)) {G : (ℕ → P) → ℝ≥0∞} (hG : Measurable G) (k : ℕ)
    (qs : List (Slot U × Slot Y)) : Measurable fun s => refE M ℓ k qs G s :=
  (refE_measurable (Z := Unit) hM hℓ (G := fun z => G z.2) (hG.comp measurable_snd) k qs).comp (measurable_prodMk_left (x := ()))

theorem refE_lintegral [MeasurableSpace P] {Z : Type} [MeasurableSpace Z] {M : ℕ → Slot U → Kernel P P} (hM : ∀ k u, IsMarkovKernel (M k u))
    {ℓ : ℕ → Slot Y → P → ℝ} (hℓ : ∀ k y, Measurable (ℓ k y)) {G : Z × (ℕ → P) → ℝ≥0∞} (hG : Measurable G) (m : Measure Z) [SFinite m] (k : ℕ)
    (qs : List (Slot U × Slot Y)) (s : ℕ → P) :
    refE M ℓ k qs (fun s => ∫⁻ z, G (z, s) ∂m) s = ∫⁻ z, refE M ℓ k qs (fun s => G (z, s)) s ∂m := by
  induction qs generalizing k s with
  | nil => rfl
  | cons q qs ih =>
    haveI := hM k q.1
    have hm := refE_measurable hM hℓ hG (k+1) qs
    have hm1 : Measurable fun z : P × Z => refE M ℓ (k+1) qs (fun s => G (z.2, s)) (Function.update s (k+1) z.1) :=
      hm.comp (f := fun z : P × Z => (z.2, Function.update s (k+1) z.1))
        (measurable_snd.prodMk ((measurable_updateAt (k+1)).comp (measurable_const.prodMk measurable_fst)))
    simp only [refE, ih]
    rw [← lintegral_lintegral_swap]
    · refine lintegral_congr fun x' => ?_
      exact (lintegral_const_mul _ (hm1.comp (measurable_prodMk_left (x := x')))).symm
    · exact ((measurable_exp.comp ((hℓ (k+1) q.2).comp measurable_fst)).ennreal_ofReal.mul hm1).aemeasurable

theorem refE_sum [MeasurableSpace P] {M : ℕ → Slot U → Kernel P P} (hM : ∀ k u, IsMarkovKernel (M k u))
    {ℓ : ℕ → Slot Y → P → ℝ} (hℓ : ∀ k y, Measurable (ℓ k y)) {ι : Type} [Fintype ι] {G : ι → (ℕ → P) → ℝ≥0∞} (hG : ∀ i, Measurable (G i))
    (c : ι → ℝ≥0∞) (k : ℕ) (qs : List (Slot U × Slot Y)) (s : ℕ → P) :
    refE M ℓ k qs (fun s => ∑ i, c i * G i s) s = ∑ i, c i * refE M ℓ k qs (G i) s := by
  induction qs generalizing k s with
  | nil => rfl
  | cons q qs ih =>
    have hm : ∀ i, Measurable fun x' => ENNReal.ofReal (exp (ℓ (k+1) q.2 x')) * refE M ℓ (k+1) qs (G i) (Function.update s (k+1) x') := fun i =>
      (measurable_exp.comp (hℓ (k+1) q.2)).ennreal_ofReal.mul
        ((refE_measurable' hM hℓ (hG i) (k+1) qs).comp ((measurable_updateAt (k+1)).comp measurable_prodMk_left))
    simp only [refE, ih, Finset.mul_sum]
    simp only [← lintegral_const_mul _ (hm _)]
    rw [← lintegral_finset_sum _ fun i _ => (hm i).const_mul _]
    refine lintegral_congr fun x' => Finset.sum_congr rfl fun i _ => ?_
    ring

/-! ### The recursion -/

/-- The weight of lineage `c` at time `k`, from the log-likelihood `l` of the last measurement. -/
noncomputable def wts (l : P → ℝ) (k : ℕ) (p : Fin 2 → ℕ → P) (c : Fin 2) : ℝ≥0∞ := ENNReal.ofReal (exp (l (p c k)) / ∑ j, exp (l (p j k)))

/-- One step: the first particle continues lineage `a` in `x`, the second one lineage `b` in `x'`. -/
def ext2 (p : Fin 2 → ℕ → P) (k : ℕ) (a b : Fin 2) (x x' : P) : Fin 2 → ℕ → P := fun c =>
  if c = 0 then Function.update (p a) (k+1) x else Function.update (p b) (k+1) x'

/-- The law of the trajectory drawn at the end, for the reference trajectory `s`; `B` chooses the ancestor of the reference particle. -/
noncomputable def gibbsE [MeasurableSpace P] (M : ℕ → Slot U → Kernel P P) (ℓ : ℕ → Slot Y → P → ℝ)
    (B : ℕ → Slot U → (P → ℝ) → (Fin 2 → ℕ → P) → P → Fin 2 → ℝ≥0∞) (φ : List P → ℝ≥0∞) :
    ℕ → (P → ℝ) → List (Slot U × Slot Y) → (Fin 2 → ℕ → P) → (ℕ → P) → ℝ≥0∞
  | k, l, [], p, _ => ∑ c, wts l k p c * φ ((List.range (k+1)).map (p c))
  | k, l, q :: qs, p, s => ∑ a, wts l k p a * ∑ b, B k q.1 l p (s (k+1)) b *
      ∫⁻ x, gibbsE M ℓ B φ (k+1) (ℓ (k+1) q.2) qs (ext2 p k a b x (s (k+1))) s ∂(M k q.1 (p a k))

/-- The same with the future of the reference trajectory integrated out. -/
noncomputable def gibbsR [MeasurableSpace P] (M : ℕ → Slot U → Kernel P P) (ℓ : ℕ → Slot Y → P → ℝ)
    (B : ℕ → Slot U → (P → ℝ) → (Fin 2 → ℕ → P) → P → Fin 2 → ℝ≥0∞) (φ : List P → ℝ≥0∞) :
    ℕ → (P → ℝ) → List (Slot U × Slot Y) → (Fin 2 → ℕ → P) → ℝ≥0∞
  | k, l, [], p => ∑ c, wts l k p c * φ ((List.range (k+1)).map (p c))
  | k, l, q :: qs, p => ∫⁻ x', ENNReal.ofReal (exp (ℓ (k+1) q.2 x')) * ∑ a, wts l k p a * ∑ b, B k q.1 l p x' b *
      ∫⁻ x, gibbsR M ℓ B φ (k+1) (ℓ (k+1) q.2) qs (ext2 p k a b x x') ∂(M k q.1 (p a k)) ∂(M k q.1 (p 1 k))

theorem measurable_ext2 [MeasurableSpace P] {Z : Type} [MeasurableSpace Z] {p : Z → Fin 2 → ℕ → P} {x x' : Z → P} (hp : Measurable p)
    (hx : Measurable x) (hx' : Measurable x') (k : ℕ) (a b : Fin 2) : Measurable fun z => ext2 (p z) k a b (x z) (x' z) := by
  refine measurable_pi_lambda _ fun c => ?_
  unfold ext2
  by_cases h : c = 0
  · simp only [h, if_true]
    exact (measurable_updateAt (k+1)).comp (((measurable_pi_apply a).comp hp).prodMk hx)
  · simp only [h, if_false]
    exact (measurable_updateAt (k+1)).comp (((measurable_pi_apply b).comp hp).prodMk hx')

theorem measurable_at [MeasurableSpace P] (c : Fin 2) (k : ℕ) : Measurable fun p : Fin 2 → ℕ → P => p c k :=
  (measurable_pi_apply k).comp (measurable_pi_apply c)

theorem wts_measurable [MeasurableSpace P] {l : P → ℝ} (hl : Measurable l) (k : ℕ) (c : Fin 2) :
    Measurable fun p : Fin 2 → ℕ → P => wts l k p c := by
  unfold wts
  refine Measurable.ennreal_ofReal (Measurable.div ?_ (Finset.measurable_sum _ fun j _ => ?_))
  · exact measurable_exp.comp (hl.comp (measurable_at c k))
  · exact measurable_exp.comp (hl.comp (measurable_at j k))

theorem range_path_measurable [MeasurableSpace P] {φ : List P → ℝ≥0∞} (hφ : ∀ n, Measurable fun x : Fin n → P => φ (List.ofFn x)) (n : ℕ) :
    Measurable fun s : ℕ → P => φ ((List.range n).map s) := by
  have : (fun s : ℕ → P => φ ((List.range n).map s)) = fun s => φ (List.ofFn fun i : Fin n => s i) := by
    funext s
    congr 1
    apply List.ext_getElem <;> simp
  rw [this]
  exact (hφ n).comp (measurable_pi_lambda _ fun i => measurable_pi_apply _)

theorem gibbsE_measurable [MeasurableSpace P] {M : ℕ → Slot U → Kernel P P} (hM : ∀ k u, IsMarkovKernel (M k u))
    {ℓ : ℕ → Slot Y → P → ℝ} (hℓ : ∀ k y, Measurable (ℓ k y)) {B : ℕ → Slot U → (P → ℝ) → (Fin 2 → ℕ → P) → P → Fin 2 → ℝ≥0∞}
    (hB : ∀ k u l b, Measurable l → Measurable fun z : (Fin 2 → ℕ → P) × P => B k u l z.1 z.2 b) {φ : List P → ℝ≥0∞}
    (hφ : ∀ n, Measurable fun x : Fin n → P => φ (List.ofFn x)) (k : ℕ) {l : P → ℝ} (hl : Measurable l) (qs : List (Slot U × Slot Y)) :
    Measurable fun z : (Fin 2 → ℕ → P) × (ℕ → P) => gibbsE M ℓ B φ k l qs z.1 z.2 := by
  induction qs generalizing k l with
  | nil =>
    simp only [gibbsE]
    refine Finset.measurable_sum _ fun c _ => ((wts_measurable hl k c).comp measurable_fst).mul ?_
    exact (range_path_measurable hφ (k+1)).comp ((measurable_pi_apply c).comp measurable_fst)
  | cons q qs ih =>
    haveI := hM k q.1
    simp only [gibbsE]
    refine Finset.measurable_sum _ fun a _ => ((wts_measurable hl k a).comp measurable_fst).mul (Finset.measurable_sum _ fun b _ => Measurable.mul ?_ ?_)
    · exact (hB k q.1 l b hl).comp (f := fun z : (Fin 2 → ℕ → P) × (ℕ → P) => (z.1, z.2 (k+1)))
        (measurable_fst.prodMk ((measurable_pi_apply (k+1)).comp measurable_snd))
    · refine Measurable.lintegral_kernel_prod_right' (κ := (M k q.1).comap (fun z : (Fin 2 → ℕ → P) × (ℕ → P) => z.1 a k)
        ((measurable_at a k).comp measurable_fst))
        (f := fun z => gibbsE M ℓ B φ (k+1) (ℓ (k+1) q.2) qs (ext2 z.1.1 k a b z.2 (z.1.2 (k+1))) z.1.2) ?_
      exact (ih (k+1) (hℓ (k+1) q.2)).comp (f := fun z : ((Fin 2 → ℕ → P) × (ℕ → P)) × P => (ext2 z.1.1 k a b z.2 (z.1.2 (k+1)), z.1.2))
        ((measurable_ext2 (p := fun z : ((Fin 2 → ℕ → P) × (ℕ → P)) × P => z.1.1) (x' := fun z => z.1.2 (k+1)) (measurable_fst.comp measurable_fst)
          measurable_snd ((measurable_pi_apply (k+1)).comp (measurable_snd.comp measurable_fst)) k a b).prodMk (measurable_snd.comp measurable_fst))

theorem ext2_one (p : Fin 2 → ℕ → P) (k : ℕ) (a b : Fin 2) (x x' : P) : ext2 p k a b x x' 1 (k+1) = x' := by
  simp [ext2]

/-- Integrating the reference trajectory out of the recursion. -/
theorem refE_gibbs [MeasurableSpace P] {M : ℕ → Slot U → Kernel P P} (hM : ∀ k u, IsMarkovKernel (M k u))
    {ℓ : ℕ → Slot Y → P → ℝ} (hℓ : ∀ k y, Measurable (ℓ k y)) {B : ℕ → Slot U → (P → ℝ) → (Fin 2 → ℕ → P) → P → Fin 2 → ℝ≥0∞}
    (hB : ∀ k u l b, Measurable l → Measurable fun z : (Fin 2 → ℕ → P) × P => B k u l z.1 z.2 b) {φ : List P → ℝ≥0∞}
    (hφ : ∀ n, Measurable fun x : Fin n → P => φ (List.ofFn x)) {k : ℕ} {l : P → ℝ} (hl : Measurable l) (qs : List (Slot U × Slot Y))
    {p : Fin 2 → ℕ → P} {s : ℕ → P} (hs : p 1 k = s k) :
    refE M ℓ k qs (fun s => gibbsE M ℓ B φ k l qs p s) s = gibbsR M ℓ B φ k l qs p := by
  induction qs generalizing k l p s with
  | nil => rfl
  | cons q qs ih =>
    simp only [refE, gibbsR]
    rw [hs]
    refine lintegral_congr fun x' => ?_
    congr 1
    have hm := gibbsE_measurable hM hℓ hB hφ (k+1) (hℓ (k+1) q.2) qs
    have hm1 : ∀ a b, Measurable fun z : P × (ℕ → P) => gibbsE M ℓ B φ (k+1) (ℓ (k+1) q.2) qs (ext2 p k a b z.1 x') z.2 := fun a b =>
      hm.comp (f := fun z : P × (ℕ → P) => (ext2 p k a b z.1 x', z.2)) ((measurable_ext2 measurable_const measurable_fst measurable_const k a b).prodMk measurable_snd)
    have hm2 : ∀ a b, Measurable fun s => ∫⁻ x, gibbsE M ℓ B φ (k+1) (ℓ (k+1) q.2) qs (ext2 p k a b x x') s ∂(M k q.1 (p a k)) := fun a b => by
      haveI := hM k q.1
      exact (hm1 a b).lintegral_prod_left'
    rw [refE_congr M ℓ (G' := fun s => ∑ ab : Fin 2 × Fin 2, (wts l k p ab.1 * B k q.1 l p x' ab.2) *
        ∫⁻ x, gibbsE M ℓ B φ (k+1) (ℓ (k+1) q.2) qs (ext2 p k ab.1 ab.2 x x') s ∂(M k q.1 (p ab.1 k))) qs ?_]
    · rw [refE_sum (ι := Fin 2 × Fin 2) hM hℓ (fun ab => hm2 ab.1 ab.2), Fintype.sum_prod_type]
      refine Finset.sum_congr rfl fun a _ => ?_
      rw [Finset.mul_sum]
      refine Finset.sum_congr rfl fun b _ => ?_
      rw [← mul_assoc]
      congr 1
      haveI := hM k q.1
      have := refE_lintegral hM hℓ (hm1 a b) (M k q.1 (p a k)) (k+1) qs (Function.update s (k+1) x')
      refine this.trans (lintegral_congr fun x => ?_)
      exact ih (p := ext2 p k a b x x') (s := Function.update s (k+1) x') (hℓ (k+1) q.2) (by rw [ext2_one, Function.update_self])
    · intro s' hs'
      have h1 : s' (k+1) = x' := by rw [hs' (k+1) le_rfl, Function.update_self]
      simp only [gibbsE, h1]
      rw [Fintype.sum_prod_type]
      refine Finset.sum_congr rfl fun a _ => ?_
      rw [Finset.mul_sum]
      exact Finset.sum_congr rfl fun b _ => by rw [mul_assoc]

theorem gibbsR_measurable [MeasurableSpace P] {M : ℕ → Slot U → Kernel P P} (hM : ∀ k u, IsMarkovKernel (M k u))
    {ℓ : ℕ → Slot Y → P → ℝ} (hℓ : ∀ k y, Measurable (ℓ k y)) {B : ℕ → Slot U → (P → ℝ) → (Fin 2 → ℕ → P) → P → Fin 2 → ℝ≥0∞}
    (hB : ∀ k u l b, Measurable l → Measurable fun z : (Fin 2 → ℕ → P) × P => B k u l z.1 z.2 b) {φ : List P → ℝ≥0∞}
    (hφ : ∀ n, Measurable fun x : Fin n → P => φ (List.ofFn x)) (k : ℕ) {l : P → ℝ} (hl : Measurable l) (qs : List (Slot U × Slot Y)) :
    Measurable fun p : Fin 2 → ℕ → P => gibbsR M ℓ B φ k l qs p := by
  have e : (fun p : Fin 2 → ℕ → P => gibbsR M ℓ B φ k l qs p) = fun p => refE M ℓ k qs (fun s => gibbsE M ℓ B φ k l qs p s) (p 1) :=
    funext fun p => (refE_gibbs hM hℓ hB hφ hl qs rfl).symm
  rw [e]
  exact (refE_measurable hM hℓ (gibbsE_measurable hM hℓ hB hφ k hl qs) k qs).comp (f := fun p : Fin 2 → ℕ → P => (p, p 1))
    (measurable_id.prodMk (measurable_pi_apply 1))

/-! ### Exchangeable pairs of lineages -/

/-- The two lineages exchanged. -/
def swap2 (p : Fin 2 → ℕ → P) : Fin 2 → ℕ → P := fun c => p c.rev

/-- An additive functional under which the two lineages are exchangeable. -/
structure SymF [MeasurableSpace P] (Δ : ((Fin 2 → ℕ → P) → ℝ≥0∞) → ℝ≥0∞) : Prop where
  add : ∀ F G, Measurable F → Measurable G → Δ (fun p => F p + G p) = Δ F + Δ G
  swap : ∀ F, Measurable F → Δ (fun p => F (swap2 p)) = Δ F

theorem swap2_measurable [MeasurableSpace P] : Measurable (swap2 : (Fin 2 → ℕ → P) → _) :=
  measurable_pi_lambda _ fun c => measurable_pi_apply c.rev

theorem SymF.two [MeasurableSpace P] {Δ : ((Fin 2 → ℕ → P) → ℝ≥0∞) → ℝ≥0∞} (hΔ : SymF Δ) {F : (Fin 2 → ℕ → P) → ℝ≥0∞} (hF : Measurable F) :
    Δ F + Δ F = Δ (fun p => F p + F (swap2 p)) := by
  rw [hΔ.add F (fun p => F (swap2 p)) hF (hF.comp swap2_measurable), hΔ.swap F hF]

theorem ennreal_half {a b : ℝ≥0∞} (h : a + a = b + b) : a = b := by
  rw [← two_mul, ← two_mul] at h
  exact (ENNReal.mul_right_inj (by norm_num) (by norm_num)).mp h

/-- The likelihood of the last measurement under lineage `c`. -/
noncomputable def glik (l : P → ℝ) (k : ℕ) (p : Fin 2 → ℕ → P) (c : Fin 2) : ℝ≥0∞ := ENNReal.ofReal (exp (l (p c k)))

theorem glik_measurable [MeasurableSpace P] {l : P → ℝ} (hl : Measurable l) (k : ℕ) (c : Fin 2) :
    Measurable fun p : Fin 2 → ℕ → P => glik l k p c := (measurable_exp.comp (hl.comp (measurable_at c k))).ennreal_ofReal

theorem wts_glik (l : P → ℝ) (k : ℕ) (p : Fin 2 → ℕ → P) (a b : Fin 2) : wts l k p a * glik l k p b = wts l k p b * glik l k p a := by
  unfold wts glik
  rw [← ENNReal.ofReal_mul (by positivity), ← ENNReal.ofReal_mul (by positivity)]
  congr 1; ring

theorem wts_sum (l : P → ℝ) (k : ℕ) (p : Fin 2 → ℕ → P) : ∑ a, wts l k p a = 1 := by
  unfold wts
  have hs : 0 < ∑ j, exp (l (p j k)) := Finset.sum_pos (fun _ _ => exp_pos _) Finset.univ_nonempty
  rw [← ENNReal.ofReal_sum_of_nonneg fun i _ => by positivity, ← Finset.sum_div, div_self hs.ne', ENNReal.ofReal_one]

theorem wts_swap (l : P → ℝ) (k : ℕ) (p : Fin 2 → ℕ → P) (a : Fin 2) : wts l k (swap2 p) a = wts l k p a.rev := by
  unfold wts swap2
  congr 2
  exact Equiv.sum_comp Fin.revPerm (fun j => exp (l (p j k)))

theorem glik_swap (l : P → ℝ) (k : ℕ) (p : Fin 2 → ℕ → P) (a : Fin 2) : glik l k (swap2 p) a = glik l k p a.rev := rfl

theorem sum_rev (f : Fin 2 → ℝ≥0∞) : ∑ a : Fin 2, f a.rev = ∑ a, f a := Equiv.sum_comp Fin.revPerm f

/-- Drawing one lineage by its weight, when the reference is weighted by its likelihood. -/
theorem sym_pick [MeasurableSpace P] {Δ : ((Fin 2 → ℕ → P) → ℝ≥0∞) → ℝ≥0∞} (hΔ : SymF Δ) {l : P → ℝ} (hl : Measurable l) (k : ℕ)
    {h : (ℕ → P) → ℝ≥0∞} (hh : Measurable h) :
    Δ (fun p => glik l k p 1 * ∑ c, wts l k p c * h (p c)) = Δ (fun p => glik l k p 1 * h (p 1)) := by
  have hm1 : Measurable fun p : Fin 2 → ℕ → P => glik l k p 1 * ∑ c, wts l k p c * h (p c) :=
    (glik_measurable hl k 1).mul (Finset.measurable_sum _ fun c _ => (wts_measurable hl k c).mul (hh.comp (measurable_pi_apply c)))
  have hm2 : Measurable fun p : Fin 2 → ℕ → P => glik l k p 1 * h (p 1) := (glik_measurable hl k 1).mul (hh.comp (measurable_pi_apply 1))
  apply ennreal_half
  rw [hΔ.two hm1, hΔ.two hm2]
  congr 1
  funext p
  simp only [glik_swap, wts_swap]
  rw [show ∑ c : Fin 2, wts l k p c.rev * h (swap2 p c) = ∑ c, wts l k p c * h (p c) from sum_rev fun c => wts l k p c * h (p c)]
  rw [Finset.mul_sum, Finset.mul_sum, ← Finset.sum_add_distrib]
  have e : ∀ c, glik l k p 1 * (wts l k p c * h (p c)) + glik l k p (1 : Fin 2).rev * (wts l k p c * h (p c)) = glik l k p c * h (p c) := by
    intro c
    calc _ = (wts l k p c * glik l k p 1 + wts l k p c * glik l k p 0) * h (p c) := by
            rw [show (1 : Fin 2).rev = 0 from rfl]; ring
      _ = ((wts l k p 1 + wts l k p 0) * glik l k p c) * h (p c) := by rw [wts_glik l k p c 1, wts_glik l k p c 0]; ring
      _ = _ := by rw [add_comm, ← Fin.sum_univ_two (f := wts l k p), wts_sum, one_mul]
  simp only [e]
  rw [Fin.sum_univ_two, add_comm]
  rfl

/-- The functional after one more step. -/
noncomputable def stepF [MeasurableSpace P] (κ : Kernel P P) (B : (Fin 2 → ℕ → P) → P → Fin 2 → ℝ≥0∞) (l : P → ℝ) (k : ℕ)
    (Δ : ((Fin 2 → ℕ → P) → ℝ≥0∞) → ℝ≥0∞) (F : (Fin 2 → ℕ → P) → ℝ≥0∞) : ℝ≥0∞ :=
  Δ fun p => glik l k p 1 * ∫⁻ x', ∑ a, wts l k p a * ∑ b, B p x' b * ∫⁻ x, F (ext2 p k a b x x') ∂(κ (p a k)) ∂(κ (p 1 k))

/-- What a rule for the ancestor of the reference particle has to satisfy. -/
def AncOk [MeasurableSpace P] (κ : Kernel P P) (B : (Fin 2 → ℕ → P) → P → Fin 2 → ℝ≥0∞) (l : P → ℝ) (k : ℕ) : Prop :=
  ∀ Δ, SymF Δ → SymF (stepF κ B l k Δ) ∧ ∀ h : (ℕ → P) → ℝ≥0∞, Measurable h →
    stepF κ B l k Δ (fun p => h (p 1)) = Δ fun p => glik l k p 1 * ∫⁻ x', h (Function.update (p 1) (k+1) x') ∂(κ (p 1 k))

/-- The drawn trajectory has the smoothing law. -/
theorem gibbs_invariant [MeasurableSpace P] {M : ℕ → Slot U → Kernel P P} (hM : ∀ k u, IsMarkovKernel (M k u))
    {ℓ : ℕ → Slot Y → P → ℝ} (hℓ : ∀ k y, Measurable (ℓ k y)) {B : ℕ → Slot U → (P → ℝ) → (Fin 2 → ℕ → P) → P → Fin 2 → ℝ≥0∞}
    (hB : ∀ k u l b, Measurable l → Measurable fun z : (Fin 2 → ℕ → P) × P => B k u l z.1 z.2 b)
    (hA : ∀ k u l, Measurable l → AncOk (M k u) (B k u l) l k) {φ : List P → ℝ≥0∞}
    (hφ : ∀ n, Measurable fun x : Fin n → P => φ (List.ofFn x)) {k : ℕ} {l : P → ℝ} (hl : Measurable l) (qs : List (Slot U × Slot Y))
    {Δ : ((Fin 2 → ℕ → P) → ℝ≥0∞) → ℝ≥0∞} (hΔ : SymF Δ) :
    Δ (fun p => glik l k p 1 * gibbsR M ℓ B φ k l qs p) = Δ (fun p => glik l k p 1 * pathG M ℓ φ k qs (p 1)) := by
  induction qs generalizing k l Δ with
  | nil =>
    simp only [gibbsR, pathG_nil]
    exact sym_pick hΔ hl k (range_path_measurable hφ (k+1))
  | cons q qs ih =>
    obtain ⟨h1, h2⟩ := hA k q.1 l hl Δ hΔ
    have hI := ih (k := k+1) (hℓ (k+1) q.2) h1
    have e1 : Δ (fun p => glik l k p 1 * gibbsR M ℓ B φ k l (q :: qs) p) = stepF (M k q.1) (B k q.1 l) l k Δ
        (fun p => glik (ℓ (k+1) q.2) (k+1) p 1 * gibbsR M ℓ B φ (k+1) (ℓ (k+1) q.2) qs p) := by
      unfold stepF
      congr 1
      funext p
      simp only [gibbsR]
      congr 1
      refine lintegral_congr fun x' => ?_
      rw [Finset.mul_sum]
      refine Finset.sum_congr rfl fun a _ => ?_
      rw [mul_left_comm, Finset.mul_sum]
      congr 1
      refine Finset.sum_congr rfl fun b _ => ?_
      rw [mul_left_comm]
      congr 1
      simp only [glik, ext2_one]
      exact (lintegral_const_mul _ ((gibbsR_measurable hM hℓ hB hφ (k+1) (hℓ (k+1) q.2) qs).comp
        (measurable_ext2 measurable_const measurable_id measurable_const k a b))).symm
    rw [e1, hI]
    have hm : Measurable fun s : ℕ → P => ENNReal.ofReal (exp (ℓ (k+1) q.2 (s (k+1)))) * pathG M ℓ φ (k+1) qs s :=
      ((measurable_exp.comp ((hℓ (k+1) q.2).comp (measurable_pi_apply (k+1)))).ennreal_ofReal).mul (pathG_measurable hM hℓ hφ (k+1) qs)
    refine (h2 _ hm).trans ?_
    congr 1
    funext p
    rw [pathG_cons]
    simp only [Function.update_self]

/-! ### The two rules -/

/-- `CPF`: the reference particle is its own ancestor (filter.py:539-578). -/
noncomputable def cpfAnc (_k : ℕ) (_u : Slot U) (_l : P → ℝ) (_p : Fin 2 → ℕ → P) (_x' : P) (b : Fin 2) : ℝ≥0∞ := if b = 1 then 1 else 0

/-- `CPFAS`: the ancestor of the reference particle is drawn by weight times transition density (filter.py:592-648). -/
noncomputable def cpfasAnc (lx : ℕ → Slot U → P → P → ℝ) (k : ℕ) (u : Slot U) (l : P → ℝ) (p : Fin 2 → ℕ → P) (x' : P) (b : Fin 2) : ℝ≥0∞ :=
  ENNReal.ofReal (exp (l (p b k)) * exp (lx k u (p b k) x') / ∑ j, exp (l (p j k)) * exp (lx k u (p j k) x'))

/-- Both particles move. -/
noncomputable def pairI [MeasurableSpace P] (κ : Kernel P P) (k : ℕ) (F : (Fin 2 → ℕ → P) → ℝ≥0∞) (p : Fin 2 → ℕ → P) (a b : Fin 2) : ℝ≥0∞ :=
  ∫⁻ x', ∫⁻ x, F (ext2 p k a b x x') ∂(κ (p a k)) ∂(κ (p b k))

theorem inner_measurable [MeasurableSpace P] {κ : Kernel P P} [IsMarkovKernel κ] (k : ℕ) {F : (Fin 2 → ℕ → P) → ℝ≥0∞} (hF : Measurable F) (a b : Fin 2) :
    Measurable fun z : (Fin 2 → ℕ → P) × P => ∫⁻ x, F (ext2 z.1 k a b x z.2) ∂(κ (z.1 a k)) := by
  refine Measurable.lintegral_kernel_prod_right' (κ := κ.comap (fun z : (Fin 2 → ℕ → P) × P => z.1 a k) ((measurable_at a k).comp measurable_fst))
    (f := fun z => F (ext2 z.1.1 k a b z.2 z.1.2)) ?_
  exact hF.comp (measurable_ext2 (p := fun z : ((Fin 2 → ℕ → P) × P) × P => z.1.1) (x' := fun z => z.1.2) (measurable_fst.comp measurable_fst)
    measurable_snd (measurable_snd.comp measurable_fst) k a b)

theorem kernel_at_measurable [MeasurableSpace P] {κ : Kernel P P} [IsMarkovKernel κ] (k : ℕ) (c : Fin 2) {f : (Fin 2 → ℕ → P) × P → ℝ≥0∞}
    (hf : Measurable f) : Measurable fun p : Fin 2 → ℕ → P => ∫⁻ x', f (p, x') ∂(κ (p c k)) :=
  Measurable.lintegral_kernel_prod_right' (κ := κ.comap (fun p : Fin 2 → ℕ → P => p c k) (measurable_at c k)) hf

theorem pairI_measurable [MeasurableSpace P] {κ : Kernel P P} [IsMarkovKernel κ] (k : ℕ) {F : (Fin 2 → ℕ → P) → ℝ≥0∞} (hF : Measurable F) (a b : Fin 2) :
    Measurable fun p => pairI κ k F p a b := kernel_at_measurable k b (inner_measurable k hF a b)

theorem ext2_swap (p : Fin 2 → ℕ → P) (k : ℕ) (a b : Fin 2) (x x' : P) : swap2 (ext2 p k a b x x') = ext2 p k b a x' x := by
  funext c
  fin_cases c <;> simp [swap2, ext2]

theorem ext2_of_swap (p : Fin 2 → ℕ → P) (k : ℕ) (a b : Fin 2) (x x' : P) : ext2 (swap2 p) k a b x x' = ext2 p k a.rev b.rev x x' := rfl

/-- Exchanging the particles after the move. -/
theorem pairI_swap [MeasurableSpace P] {κ : Kernel P P} [IsMarkovKernel κ] (k : ℕ) {F : (Fin 2 → ℕ → P) → ℝ≥0∞} (hF : Measurable F)
    (p : Fin 2 → ℕ → P) (a b : Fin 2) : pairI κ k (fun p => F (swap2 p)) p a b = pairI κ k F p b a := by
  unfold pairI
  simp only [ext2_swap]
  rw [lintegral_lintegral_swap]
  exact (hF.comp (measurable_ext2 (x := fun z : P × P => z.1) (x' := fun z : P × P => z.2) measurable_const measurable_fst measurable_snd k b a)).aemeasurable

theorem pairI_of_swap [MeasurableSpace P] {κ : Kernel P P} (k : ℕ) (F : (Fin 2 → ℕ → P) → ℝ≥0∞)
    (p : Fin 2 → ℕ → P) (a b : Fin 2) : pairI κ k F (swap2 p) a b = pairI κ k F p a.rev b.rev := rfl

theorem pairI_second [MeasurableSpace P] {κ : Kernel P P} [IsMarkovKernel κ] (k : ℕ) (h : (ℕ → P) → ℝ≥0∞) (p : Fin 2 → ℕ → P) (a b : Fin 2) :
    pairI κ k (fun p => h (p 1)) p a b = ∫⁻ x', h (Function.update (p b) (k+1) x') ∂(κ (p b k)) := by
  unfold pairI
  simp [ext2]

theorem pairI_add [MeasurableSpace P] {κ : Kernel P P} [IsMarkovKernel κ] (k : ℕ) {F G : (Fin 2 → ℕ → P) → ℝ≥0∞} (hF : Measurable F) 
    (p : Fin 2 → ℕ → P) (a b : Fin 2) : pairI κ k (fun p => F p + G p) p a b = pairI κ k F p a b + pairI κ k G p a b := by
  unfold pairI
  have h1 : ∀ x', Measurable fun x => F (ext2 p k a b x x') := fun x' => hF.comp (measurable_ext2 measurable_const measurable_id measurable_const k a b)
  simp only [lintegral_add_left (h1 _)]
  exact lintegral_add_left ((inner_measurable k hF a b).comp (measurable_prodMk_left (x := p))) _

theorem stepF_cpf [MeasurableSpace P] {κ : Kernel P P} [IsMarkovKernel κ] (l : P → ℝ) (k : ℕ) (u : Slot U)
    (Δ : ((Fin 2 → ℕ → P) → ℝ≥0∞) → ℝ≥0∞) {F : (Fin 2 → ℕ → P) → ℝ≥0∞} (hF : Measurable F) :
    stepF κ (cpfAnc k u l) l k Δ F = Δ fun p => glik l k p 1 * ∑ a, wts l k p a * pairI κ k F p a 1 := by
  unfold stepF
  congr 1
  funext p
  congr 1
  have hm : ∀ a : Fin 2, Measurable fun x' => ∫⁻ x, F (ext2 p k a 1 x x') ∂(κ (p a k)) := fun a =>
    (inner_measurable k hF a 1).comp (measurable_prodMk_left (x := p))
  have e : ∀ x', ∑ a, wts l k p a * ∑ b, cpfAnc k u l p x' b * ∫⁻ x, F (ext2 p k a b x x') ∂(κ (p a k)) =
      ∑ a, wts l k p a * ∫⁻ x, F (ext2 p k a 1 x x') ∂(κ (p a k)) := by
    intro x'
    refine Finset.sum_congr rfl fun a _ => ?_
    rw [Fin.sum_univ_two]
    simp [cpfAnc]
  simp only [e]
  rw [lintegral_finset_sum _ fun a _ => (hm a).const_mul _]
  exact Finset.sum_congr rfl fun a _ => lintegral_const_mul _ (hm a)

theorem cpf_ancOk [MeasurableSpace P] {κ : Kernel P P} [IsMarkovKernel κ] {l : P → ℝ} (hl : Measurable l) (k : ℕ) (u : Slot U) :
    AncOk κ (cpfAnc k u l) l k := by
  intro Δ hΔ
  have hmt : ∀ {F : (Fin 2 → ℕ → P) → ℝ≥0∞}, Measurable F → ∀ a b c : Fin 2, Measurable fun p => glik l k p 1 * (wts l k p c * pairI κ k F p a b) :=
    fun hF a b c => (glik_measurable hl k 1).mul ((wts_measurable hl k c).mul (pairI_measurable k hF a b))
  have hms : ∀ {F : (Fin 2 → ℕ → P) → ℝ≥0∞}, Measurable F → Measurable fun p => glik l k p 1 * ∑ a, wts l k p a * pairI κ k F p a 1 :=
    fun hF => (glik_measurable hl k 1).mul (Finset.measurable_sum _ fun a _ => (wts_measurable hl k a).mul (pairI_measurable k hF a 1))
  refine ⟨⟨?_, ?_⟩, ?_⟩
  · intro F G hF hG
    rw [stepF_cpf l k u Δ hF, stepF_cpf l k u Δ hG, stepF_cpf l k u Δ (F := fun p => F p + G p) (hF.add hG), ← hΔ.add _ _ (hms hF) (hms hG)]
    congr 1
    funext p
    simp only [pairI_add k hF]
    rw [← mul_add, ← Finset.sum_add_distrib]
    congr 1
    exact Finset.sum_congr rfl fun a _ => by rw [mul_add]
  · intro F hF
    rw [stepF_cpf l k u Δ hF, stepF_cpf l k u Δ (F := fun p => F (swap2 p)) (hF.comp swap2_measurable)]
    simp only [pairI_swap k hF, Fin.sum_univ_two, mul_add]
    rw [hΔ.add _ _ (hmt hF 1 0 0) (hmt hF 1 1 1), hΔ.add _ _ (hmt hF 0 1 0) (hmt hF 1 1 1), ← hΔ.swap _ (hmt hF 0 1 0)]
    congr 2
    funext p
    rw [glik_swap, wts_swap, pairI_of_swap]
    show _ = glik l k p 0 * (wts l k p 1 * pairI κ k F p 1 0)
    rw [← mul_assoc, ← mul_assoc, mul_comm (glik l k p 1), mul_comm (glik l k p 0), wts_glik]
  · intro h hh
    rw [stepF_cpf l k u Δ (F := fun p => h (p 1)) (hh.comp (measurable_pi_apply 1))]
    congr 1
    funext p
    simp only [pairI_second]
    rw [← Finset.sum_mul, wts_sum, one_mul]

theorem cpfAnc_measurable [MeasurableSpace P] (k : ℕ) (u : Slot U) (l : P → ℝ) (b : Fin 2) :
    Measurable fun z : (Fin 2 → ℕ → P) × P => cpfAnc k u l z.1 z.2 b := measurable_const

/-- The density of a step of lineage `c` to `x'`. -/
noncomputable def dens (lx : ℕ → Slot U → P → P → ℝ) (k : ℕ) (u : Slot U) (p : Fin 2 → ℕ → P) (c : Fin 2) (x' : P) : ℝ≥0∞ :=
  ENNReal.ofReal (exp (lx k u (p c k) x'))

theorem dens_measurable [MeasurableSpace P] {lx : ℕ → Slot U → P → P → ℝ} (hlx : ∀ k u, Measurable fun z : P × P => lx k u z.1 z.2) (k : ℕ) (u : Slot U)
    (c : Fin 2) : Measurable fun z : (Fin 2 → ℕ → P) × P => dens lx k u z.1 c z.2 :=
  (measurable_exp.comp ((hlx k u).comp (((measurable_at c k).comp measurable_fst).prodMk measurable_snd))).ennreal_ofReal

theorem cpfasAnc_measurable [MeasurableSpace P] {lx : ℕ → Slot U → P → P → ℝ} (hlx : ∀ k u, Measurable fun z : P × P => lx k u z.1 z.2) (k : ℕ) (u : Slot U)
    {l : P → ℝ} (hl : Measurable l) (b : Fin 2) : Measurable fun z : (Fin 2 → ℕ → P) × P => cpfasAnc lx k u l z.1 z.2 b := by
  have h1 : ∀ c, Measurable fun z : (Fin 2 → ℕ → P) × P => exp (l (z.1 c k)) * exp (lx k u (z.1 c k) z.2) := fun c =>
    (measurable_exp.comp (hl.comp ((measurable_at c k).comp measurable_fst))).mul
      (measurable_exp.comp ((hlx k u).comp (((measurable_at c k).comp measurable_fst).prodMk measurable_snd)))
  exact Measurable.ennreal_ofReal ((h1 b).div (Finset.measurable_sum _ fun c _ => h1 c))

theorem cpfasAnc_sum (lx : ℕ → Slot U → P → P → ℝ) (k : ℕ) (u : Slot U) (l : P → ℝ) (p : Fin 2 → ℕ → P) (x' : P) (b : Fin 2) :
    (∑ c, glik l k p c * dens lx k u p c x') * cpfasAnc lx k u l p x' b = glik l k p b * dens lx k u p b x' := by
  have hs : 0 < ∑ j, exp (l (p j k)) * exp (lx k u (p j k) x') := Finset.sum_pos (fun _ _ => by positivity) Finset.univ_nonempty
  unfold glik dens cpfasAnc
  simp only [← ENNReal.ofReal_mul (exp_pos _).le]
  rw [← ENNReal.ofReal_sum_of_nonneg fun i _ => by positivity, ← ENNReal.ofReal_mul hs.le, mul_div_cancel₀ _ hs.ne']

theorem cpfasAnc_swap (lx : ℕ → Slot U → P → P → ℝ) (k : ℕ) (u : Slot U) (l : P → ℝ) (p : Fin 2 → ℕ → P) (x' : P) (b : Fin 2) :
    cpfasAnc lx k u l (swap2 p) x' b = cpfasAnc lx k u l p x' b.rev := by
  unfold cpfasAnc swap2
  congr 2
  exact Equiv.sum_comp Fin.revPerm (fun j => exp (l (p j k)) * exp (lx k u (p j k) x'))

theorem stepF_cpfas [MeasurableSpace P] {κ : Kernel P P} [IsMarkovKernel κ] {lx : ℕ → Slot U → P → P → ℝ}
    (hlx : ∀ k u, Measurable fun z : P × P => lx k u z.1 z.2) {vol : Measure P} {k : ℕ} {u : Slot U}
    (hκ : ∀ x, κ x = vol.withDensity fun x' => ENNReal.ofReal (exp (lx k u x x'))) {l : P → ℝ} (hl : Measurable l)
    {Δ : ((Fin 2 → ℕ → P) → ℝ≥0∞) → ℝ≥0∞} (hΔ : SymF Δ) {F : (Fin 2 → ℕ → P) → ℝ≥0∞} (hF : Measurable F) :
    stepF κ (cpfasAnc lx k u l) l k Δ F + stepF κ (cpfasAnc lx k u l) l k Δ F =
      Δ fun p => ∑ a, ∑ b, (wts l k p a * glik l k p b) * pairI κ k F p a b := by
  -- one summand, as an integral over `vol`
  obtain ⟨T, hT⟩ : ∃ T : (Fin 2 → ℕ → P) → P → ℝ≥0∞, T = fun p x' => ∑ a, wts l k p a * ∑ b, cpfasAnc lx k u l p x' b *
    ∫⁻ x, F (ext2 p k a b x x') ∂(κ (p a k)) := ⟨_, rfl⟩
  have hst : stepF κ (cpfasAnc lx k u l) l k Δ F = Δ fun p => glik l k p 1 * ∫⁻ x', T p x' ∂(κ (p 1 k)) := by rw [hT, stepF]
  have hTm : Measurable fun z : (Fin 2 → ℕ → P) × P => T z.1 z.2 := by
    simp only [hT]
    refine Finset.measurable_sum _ fun a _ => ((wts_measurable hl k a).comp measurable_fst).mul (Finset.measurable_sum _ fun b _ => ?_)
    exact (cpfasAnc_measurable hlx k u hl b).mul (inner_measurable k hF a b)
  have hTp : ∀ p, Measurable (T p) := fun p => hTm.comp (measurable_prodMk_left (x := p))
  have hdp : ∀ p c, Measurable (dens lx k u p c) := fun p c => (dens_measurable hlx k u c).comp (measurable_prodMk_left (x := p))
  have hint : ∀ p c (f : P → ℝ≥0∞), Measurable f → ∫⁻ x', f x' ∂(κ (p c k)) = ∫⁻ x', dens lx k u p c x' * f x' ∂vol := by
    intro p c f hf
    rw [hκ]
    exact lintegral_withDensity_eq_lintegral_mul _ (hdp p c) hf
  have hTs : ∀ p x', T (swap2 p) x' = T p x' := by
    intro p x'
    simp only [hT, wts_swap, cpfasAnc_swap, ext2_of_swap]
    rw [← sum_rev fun a => wts l k p a * ∑ b, cpfasAnc lx k u l p x' b * ∫⁻ x, F (ext2 p k a b x x') ∂(κ (p a k))]
    refine Finset.sum_congr rfl fun a _ => ?_
    congr 1
    exact sum_rev fun b => cpfasAnc lx k u l p x' b * ∫⁻ x, F (ext2 p k a.rev b x x') ∂(κ (p a.rev k))
  have hm : Measurable fun p => glik l k p 1 * ∫⁻ x', T p x' ∂(κ (p 1 k)) := (glik_measurable hl k 1).mul (kernel_at_measurable k 1 hTm)
  rw [hst, hΔ.two (F := fun p => glik l k p 1 * ∫⁻ x', T p x' ∂(κ (p 1 k))) hm]
  congr 1
  funext p
  simp only [hTs, glik_swap]
  show glik l k p 1 * ∫⁻ x', T p x' ∂(κ (p 1 k)) + glik l k p 0 * ∫⁻ x', T p x' ∂(κ (p 0 k)) = _
  rw [add_comm, ← Fin.sum_univ_two (f := fun c => glik l k p c * ∫⁻ x', T p x' ∂(κ (p c k)))]
  have hK : ∀ a b : Fin 2, Measurable fun x' => ∫⁻ x, F (ext2 p k a b x x') ∂(κ (p a k)) := fun a b =>
    (inner_measurable k hF a b).comp (measurable_prodMk_left (x := p))
  have hdT : ∀ c, Measurable fun x' => dens lx k u p c x' * T p x' := fun c => (hdp p c).mul (hTp p)
  have hdK : ∀ a b, Measurable fun x' => dens lx k u p b x' * ∫⁻ x, F (ext2 p k a b x x') ∂(κ (p a k)) := fun a b => (hdp p b).mul (hK a b)
  simp only [hint p _ _ (hTp p), ← lintegral_const_mul _ (hdT _)]
  rw [← lintegral_finset_sum _ fun c _ => (hdT c).const_mul _]
  have e : ∀ x', ∑ c, glik l k p c * (dens lx k u p c x' * T p x') =
      ∑ a, ∑ b, (wts l k p a * glik l k p b) * (dens lx k u p b x' * ∫⁻ x, F (ext2 p k a b x x') ∂(κ (p a k))) := by
    intro x'
    simp only [← mul_assoc]
    rw [← Finset.sum_mul]
    simp only [hT, Finset.mul_sum]
    refine Finset.sum_congr rfl fun a _ => Finset.sum_congr rfl fun b _ => ?_
    have := cpfasAnc_sum lx k u l p x' b
    calc _ = wts l k p a * ((∑ c, glik l k p c * dens lx k u p c x') * cpfasAnc lx k u l p x' b) * ∫⁻ x, F (ext2 p k a b x x') ∂(κ (p a k)) := by ring
      _ = _ := by rw [this]; ring
  simp only [e]
  rw [lintegral_finset_sum _ fun a _ => Finset.measurable_sum _ fun b _ => (hdK a b).const_mul _]
  refine Finset.sum_congr rfl fun a _ => ?_
  rw [lintegral_finset_sum _ fun b _ => (hdK a b).const_mul _]
  refine Finset.sum_congr rfl fun b _ => ?_
  rw [pairI, hint p b _ (hK a b)]
  exact lintegral_const_mul _ (hdK a b)

theorem cpfas_ancOk [MeasurableSpace P] {κ : Kernel P P} [IsMarkovKernel κ] {lx : ℕ → Slot U → P → P → ℝ}
    (hlx : ∀ k u, Measurable fun z : P × P => lx k u z.1 z.2) {vol : Measure P} {k : ℕ} {u : Slot U}
    (hκ : ∀ x, κ x = vol.withDensity fun x' => ENNReal.ofReal (exp (lx k u x x'))) {l : P → ℝ} (hl : Measurable l) :
    AncOk κ (cpfasAnc lx k u l) l k := by
  intro Δ hΔ
  have hms : ∀ {F : (Fin 2 → ℕ → P) → ℝ≥0∞}, Measurable F → Measurable fun p => ∑ a, ∑ b, (wts l k p a * glik l k p b) * pairI κ k F p a b :=
    fun hF => Finset.measurable_sum _ fun a _ => Finset.measurable_sum _ fun b _ =>
      ((wts_measurable hl k a).mul (glik_measurable hl k b)).mul (pairI_measurable k hF a b)
  refine ⟨⟨?_, ?_⟩, ?_⟩
  · intro F G hF hG
    apply ennreal_half
    rw [stepF_cpfas hlx hκ hl hΔ (F := fun p => F p + G p) (hF.add hG), add_add_add_comm, stepF_cpfas hlx hκ hl hΔ hF, stepF_cpfas hlx hκ hl hΔ hG,
      ← hΔ.add _ _ (hms hF) (hms hG)]
    congr 1
    funext p
    simp only [pairI_add k hF, mul_add, Finset.sum_add_distrib]
  · intro F hF
    apply ennreal_half
    rw [stepF_cpfas hlx hκ hl hΔ hF, stepF_cpfas hlx hκ hl hΔ (F := fun p => F (swap2 p)) (hF.comp swap2_measurable)]
    congr 1
    funext p
    simp only [pairI_swap k hF]
    rw [Finset.sum_comm]
    refine Finset.sum_congr rfl fun a _ => Finset.sum_congr rfl fun b _ => ?_
    rw [wts_glik]
  · intro h hh
    have hm : Measurable fun p : Fin 2 → ℕ → P => ∫⁻ x', h (Function.update (p 1) (k+1) x') ∂(κ (p 1 k)) :=
      kernel_at_measurable k 1 (f := fun z => h (Function.update (z.1 1) (k+1) z.2))
        (hh.comp ((measurable_updateAt (k+1)).comp (f := fun z : (Fin 2 → ℕ → P) × P => (z.1 1, z.2))
          (((measurable_pi_apply 1).comp measurable_fst).prodMk measurable_snd)))
    apply ennreal_half
    rw [stepF_cpfas hlx hκ hl hΔ (F := fun p => h (p 1)) (hh.comp (measurable_pi_apply 1)),
      hΔ.two (F := fun p => glik l k p 1 * ∫⁻ x', h (Function.update (p 1) (k+1) x') ∂(κ (p 1 k))) ((glik_measurable hl k 1).mul hm)]
    congr 1
    funext p
    simp only [pairI_second]
    rw [Finset.sum_comm]
    have e : ∀ b : Fin 2, ∑ a, wts l k p a * glik l k p b * ∫⁻ x', h (Function.update (p b) (k+1) x') ∂(κ (p b k)) =
        glik l k p b * ∫⁻ x', h (Function.update (p b) (k+1) x') ∂(κ (p b k)) := by
      intro b
      rw [← Finset.sum_mul, ← Finset.sum_mul, wts_sum, one_mul]
    simp only [e]
    rw [Fin.sum_univ_two, add_comm]
    rfl

end PyPE

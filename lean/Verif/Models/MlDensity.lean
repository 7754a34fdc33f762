import Verif.Models.MlClaims

/-!
# C74, C75: transition densities and sampling of the linear states in the smoothers (mlnlg.py)
-/

open MeasureTheory ProbabilityTheory Matrix
namespace PyPE

variable {lxi lz ly : ℕ} {U T Y : Type}

/-! ## Specification -/

/-- Law of the stacked next state `(xi', z')` from a particle with nonlinear state `p.1` and linear state distributed as `N(p.2.1, p.2.2)`, when the process
noise is `N(0, [[Qxi, Qxiz], [Qxizᵀ, Qz]])`. -/
noncomputable def Spec.RbModel.nextLaw (M : Spec.RbModel lxi lz ly U T Y) (p : RbP lxi lz) (u : U) (t : T) : Measure (VecR (lxi + lz)) :=
  ((Spec.gauss p.2.1 p.2.2).prod (Spec.gauss 0 (stackQ (M.Qxi p.1 u t) (M.Qxiz p.1 u t) (M.Qz p.1 u t)))).map fun q =>
    vstackV (M.Axi p.1 u t *ᵥ q.1 + M.fxi p.1 u t) (M.Az p.1 u t *ᵥ q.1 + M.fz p.1 u t) + q.2

/-! ## Stacked matrices -/

theorem vstackM_mulVec {a b c : ℕ} (A : MatR a c) (B : MatR b c) (z : VecR c) : vstackM A B *ᵥ z = vstackV (A *ᵥ z) (B *ᵥ z) := by
  funext i
  simp only [vstackM, vstackV, mulVec, dotProduct, submatrix_apply, id]
  cases finSumFinEquiv.symm i <;> rfl

theorem vstackV_add {a b : ℕ} (f f' : VecR a) (g g' : VecR b) : vstackV (f + f') (g + g') = vstackV f g + vstackV f' g' := by
  funext i
  simp only [vstackV, Pi.add_apply]
  cases finSumFinEquiv.symm i <;> rfl

theorem mlStack_eq {X α β γ : Type} (g : α → β → γ) {xs : List X} {ha : Option (List α)} {oa : Option α} {va : X → α}
    {hb : Option (List β)} {ob : Option β} {vb : X → β} (h1 : Spec.Gives ha oa xs va) (h2 : Spec.Gives hb ob xs vb) (hne : xs ≠ []) :
    mlStack xs.length g (perPart xs.length ha oa) (perPart xs.length hb ob) = .ok (xs.map fun x => g (va x) (vb x)) := by
  have e1 := perPart_gives h1
  have e2 := perPart_gives h2
  obtain ⟨x0, hx0⟩ : ∃ x0, xs[0]? = some x0 := by
    cases xs with
    | nil => exact absurd rfl hne
    | cons a l => exact ⟨a, rfl⟩
  unfold mlStack
  by_cases hc : (perPart xs.length ha oa).2 = true ∧ (perPart xs.length hb ob).2 = true
  · rw [if_pos hc]
    obtain ⟨-, r1⟩ := perPart_identical hc.1
    obtain ⟨-, r2⟩ := perPart_identical hc.2
    rw [e1] at r1
    rw [e2] at r2
    simp only [e1, e2, getIdx_ok.2 (show (xs.map fun x => some (va x))[0]? = some (some (va x0)) by simp [hx0]),
      getIdx_ok.2 (show (xs.map fun x => some (vb x))[0]? = some (some (vb x0)) by simp [hx0]), ok_bind, both, pure_eq_ok, Except.ok.injEq]
    symm
    rw [List.eq_replicate_iff]
    refine ⟨by simp, fun b hb => ?_⟩
    obtain ⟨x, hx, rfl⟩ := List.mem_map.1 hb
    have a1 : ∀ x ∈ xs, some (va x) = oa := fun x hx => List.eq_of_mem_replicate (r1 ▸ List.mem_map.2 ⟨x, hx, rfl⟩)
    have a2 : ∀ x ∈ xs, some (vb x) = ob := fun x hx => List.eq_of_mem_replicate (r2 ▸ List.mem_map.2 ⟨x, hx, rfl⟩)
    rw [Option.some.inj ((a1 x hx).trans (a1 x0 (List.mem_of_getElem? hx0)).symm),
      Option.some.inj ((a2 x hx).trans (a2 x0 (List.mem_of_getElem? hx0)).symm)]
  · rw [if_neg hc, mapM_range_eq xs _ (fun x => .ok (g (va x) (vb x)))]
    · exact mapM_ok_map fun _ _ => rfl
    intro i x hx
    simp only [e1, e2, getIdx_ok.2 (show (xs.map fun x => some (va x))[i]? = some (some (va x)) by simp [hx]),
      getIdx_ok.2 (show (xs.map fun x => some (vb x))[i]? = some (some (vb x)) by simp [hx]), ok_bind, both]

theorem mlCrossStack_eq {H : MlHooks lxi lz ly U T Y} {o : MlObj lxi lz ly} {M : Spec.RbModel lxi lz ly U T Y} (hD : Spec.RbDescribes H o M)
    (xs : List (VecR lxi)) (u : U) (t : T) :
    (mlCrossStack H o xs u t).1 = xs.map (fun x => M.Qxiz x u t) ∧
    ((mlCrossStack H o xs u t).2 = true → ∃ X, ∀ x ∈ xs, M.Qxiz x u t = X) := by
  have h := hD.Qxiz xs u t
  unfold mlCrossStack
  cases hc : H.cross xs u t with
  | some l => rw [hc] at h; simp only [Spec.GivesOrZero] at h; simp [h]
  | none =>
    rw [hc] at h
    cases ho : o.Qxiz with
    | some X =>
      rw [ho] at h
      simp only [Spec.GivesOrZero] at h
      refine ⟨?_, fun _ => ⟨X, fun x hx => (h x hx).symm⟩⟩
      symm
      simp only
      rw [List.eq_replicate_iff]
      refine ⟨by simp, fun b hb => ?_⟩
      obtain ⟨x, hx, rfl⟩ := List.mem_map.1 hb
      exact (h x hx).symm
    | none =>
      rw [ho] at h
      simp only [Spec.GivesOrZero] at h
      refine ⟨?_, fun _ => ⟨0, h⟩⟩
      symm
      simp only
      rw [List.eq_replicate_iff]
      refine ⟨by simp, fun b hb => ?_⟩
      obtain ⟨x, hx, rfl⟩ := List.mem_map.1 hb
      exact h x hx

theorem mlStackQ_eq {H : MlHooks lxi lz ly U T Y} {o : MlObj lxi lz ly} {M : Spec.RbModel lxi lz ly U T Y} (hD : Spec.RbDescribes H o M)
    (xs : List (VecR lxi)) (hne : xs ≠ []) (u : U) (t : T) :
    mlStackQ xs.length (mlNonlin H o xs u t).Q (mlLin H o xs u t).Q (mlCrossStack H o xs u t) =
      .ok (xs.map fun x => stackQ (M.Qxi x u t) (M.Qxiz x u t) (M.Qz x u t)) := by
  have e1 := (mlNonlin_eq hD xs u t).2.2
  have e2 := (mlLin_eq hD xs u t).2.2
  obtain ⟨e3, e4⟩ := mlCrossStack_eq hD xs u t
  obtain ⟨x0, hx0⟩ : ∃ x0, xs[0]? = some x0 := by
    cases xs with
    | nil => exact absurd rfl hne
    | cons a l => exact ⟨a, rfl⟩
  unfold mlStackQ
  by_cases hc : (mlNonlin H o xs u t).Q.2 = true ∧ (mlLin H o xs u t).Q.2 = true ∧ (mlCrossStack H o xs u t).2 = true
  · rw [if_pos hc]
    obtain ⟨-, r1⟩ := perPart_identical hc.1
    obtain ⟨-, r2⟩ := perPart_identical hc.2.1
    obtain ⟨X, hX⟩ := e4 hc.2.2
    have r1' := e1.symm.trans r1
    have r2' := e2.symm.trans r2
    simp only [e1, e2, e3, getIdx_ok.2 (show (xs.map fun x => some (M.Qxi x u t))[0]? = some (some (M.Qxi x0 u t)) by simp [hx0]),
      getIdx_ok.2 (show (xs.map fun x => some (M.Qz x u t))[0]? = some (some (M.Qz x0 u t)) by simp [hx0]),
      getIdx_ok.2 (show (xs.map fun x => M.Qxiz x u t)[0]? = some (M.Qxiz x0 u t) by simp [hx0]), ok_bind, both, pure_eq_ok, Except.ok.injEq]
    symm
    rw [List.eq_replicate_iff]
    refine ⟨by simp, fun b hb => ?_⟩
    obtain ⟨x, hx, rfl⟩ := List.mem_map.1 hb
    have a1 : ∀ x ∈ xs, some (M.Qxi x u t) = o.Qxi := fun x hx => List.eq_of_mem_replicate (r1' ▸ List.mem_map.2 ⟨x, hx, rfl⟩)
    have a2 : ∀ x ∈ xs, some (M.Qz x u t) = o.kf.Q := fun x hx => List.eq_of_mem_replicate (r2' ▸ List.mem_map.2 ⟨x, hx, rfl⟩)
    have m0 := List.mem_of_getElem? hx0
    rw [Option.some.inj ((a1 x hx).trans (a1 x0 m0).symm), Option.some.inj ((a2 x hx).trans (a2 x0 m0).symm), hX x hx, hX x0 m0]
  · rw [if_neg hc, mapM_range_eq xs _ (fun x => .ok (stackQ (M.Qxi x u t) (M.Qxiz x u t) (M.Qz x u t)))]
    · exact mapM_ok_map fun _ _ => rfl
    intro i x hx
    simp only [e1, e2, e3, getIdx_ok.2 (show (xs.map fun x => some (M.Qxi x u t))[i]? = some (some (M.Qxi x u t)) by simp [hx]),
      getIdx_ok.2 (show (xs.map fun x => some (M.Qz x u t))[i]? = some (some (M.Qz x u t)) by simp [hx]),
      getIdx_ok.2 (show (xs.map fun x => M.Qxiz x u t)[i]? = some (M.Qxiz x u t) by simp [hx]), ok_bind, both]

/-- Stacked matrices of the next state. -/
def Spec.RbModel.stA (M : Spec.RbModel lxi lz ly U T Y) (x : VecR lxi) (u : U) (t : T) : MatR (lxi + lz) lz :=
  vstackM (M.Axi x u t) (M.Az x u t)
/-- Stacked offsets of the next state. -/
def Spec.RbModel.stF (M : Spec.RbModel lxi lz ly U T Y) (x : VecR lxi) (u : U) (t : T) : VecR (lxi + lz) :=
  vstackV (M.fxi x u t) (M.fz x u t)
/-- Covariance of the stacked noise. -/
def Spec.RbModel.stQ (M : Spec.RbModel lxi lz ly U T Y) (x : VecR lxi) (u : U) (t : T) : MatR (lxi + lz) (lxi + lz) :=
  stackQ (M.Qxi x u t) (M.Qxiz x u t) (M.Qz x u t)

theorem mlCalcAfQ_eq {H : MlHooks lxi lz ly U T Y} {o : MlObj lxi lz ly} {M : Spec.RbModel lxi lz ly U T Y} (hD : Spec.RbDescribes H o M)
    (xs : List (VecR lxi)) (hne : xs ≠ []) (u : U) (t : T) :
    ∃ b, mlCalcAfQ H o xs u t = .ok (xs.map (M.stA · u t), xs.map (M.stF · u t), xs.map (M.stQ · u t), b) := by
  have h1 := mlStack_eq vstackM (hD.Axi xs u t) (hD.Az xs u t) hne
  have h2 := mlStack_eq vstackV (hD.fxi xs u t) (hD.fz xs u t) hne
  have h3 := mlStackQ_eq hD xs hne u t
  refine ⟨(mlNonlin H o xs u t).Q.2 && (mlLin H o xs u t).Q.2 && (mlCrossStack H o xs u t).2, ?_⟩
  unfold mlCalcAfQ
  simp only [mlNonlin, mlLin] at h1 h2 h3 ⊢
  rw [h1, ok_bind, h2, ok_bind, h3, ok_bind]
  rfl

theorem nextLaw_eq (M : Spec.RbModel lxi lz ly U T Y) (p : RbP lxi lz) (hP : p.2.2.PosSemidef) (u : U) (t : T)
    (hQ : (M.stQ p.1 u t).PosSemidef) :
    M.nextLaw p u t = Spec.gauss (M.stF p.1 u t + M.stA p.1 u t *ᵥ p.2.1)
      (M.stA p.1 u t * p.2.2 * (M.stA p.1 u t)ᵀ + M.stQ p.1 u t) := by
  have := gauss_affine (μ := p.2.1) (ν := (0 : VecR (lxi + lz))) hP hQ (M.stF p.1 u t) (M.stA p.1 u t) (1 : MatR (lxi + lz) (lxi + lz))
  rw [Matrix.one_mul, transpose_one, Matrix.mul_one, mulVec_zero, add_zero] at this
  rw [← this]
  unfold Spec.RbModel.nextLaw
  congr 1
  funext q
  rw [one_mulVec, Spec.RbModel.stF, Spec.RbModel.stA, vstackM_mulVec, vstackV_add, add_comm (vstackV _ _) (vstackV _ _)]

theorem mapM_points {α β : Type} (l : List α) (F : ℕ → PyM β) (g : ℕ → α → β) (h : ∀ (i : ℕ) x, l[i]? = some x → F i = .ok (g i x)) :
    ∃ r, (List.range l.length).mapM F = .ok r ∧ r.length = l.length ∧ ∀ (i : ℕ) x, l[i]? = some x → r[i]? = some (g i x) := by
  have hex : ∀ k ∈ List.range l.length, ∃ y, F k = .ok y := by
    intro k hk
    rw [List.mem_range] at hk
    exact ⟨_, h k l[k] (List.getElem?_eq_getElem hk)⟩
  obtain ⟨r, hr⟩ := mapM_ok hex
  have hr' := mapM_ok_iff.1 hr
  refine ⟨r, hr, by simpa using hr'.1, fun i x hx => ?_⟩
  obtain ⟨y, hy, hy'⟩ := hr'.2 i i (by simp [lt_of_getElem?_some hx])
  rw [h i x hx] at hy'
  rw [hy, ← Except.ok.inj hy']

/-- `next_part` fits the particles: one entry for all, or one entry per particle; `x` is the one of particle `i`. -/
def Spec.NextOf {α : Type} (N : ℕ) (next : List α) (i : ℕ) (x : α) : Prop := (next = [x] ∨ next.length = N ∧ next[i]? = some x)

theorem repeatNext_nextOf {α : Type} {N : ℕ} {next : List α} {i : ℕ} (hi : i < N) {x : α} (h : Spec.NextOf N next i x) :
    (repeatNext N next)[i]? = some x := by
  rcases h with rfl | ⟨hl, hx⟩
  · simp only [repeatNext]
    split
    · simp [hi]
    · have : i = 0 := by omega
      simp [this]
  · unfold repeatNext
    split
    · rename_i a
      simp only [List.length_singleton] at hl
      rw [if_neg (by omega)]
      exact hx
    · exact hx

/-- **C74** `logp_xnext` returns for every particle the exact log density of the stacked next state given that particle. -/
theorem C74_logp_xnext {H : MlHooks lxi lz ly U T Y} {o : MlObj lxi lz ly} {M : Spec.RbModel lxi lz ly U T Y} (hD : Spec.RbDescribes H o M)
    (parts : List (RbP lxi lz)) (hne : parts ≠ []) (hP : ∀ p ∈ parts, p.2.2.PosSemidef) (u : U) (t : T)
    (hQ : ∀ x, (M.stQ x u t).PosDef) (next : List (VecR lxi × VecR lz)) (hn : next.length = 1 ∨ next.length = parts.length) :
    ∃ r, mlLogpXnext H o parts next u t = .ok r ∧ r.length = parts.length ∧ ∀ (i : ℕ) p, parts[i]? = some p →
      ∃ logp : VecR (lxi + lz) → ℝ, M.nextLaw p u t = volume.withDensity (fun x => ENNReal.ofReal (Real.exp (logp x))) ∧
        (∀ x, logp x = Spec.logNormal (M.stA p.1 u t * p.2.2 * (M.stA p.1 u t)ᵀ + M.stQ p.1 u t) (x - (M.stF p.1 u t + M.stA p.1 u t *ᵥ p.2.1))) ∧
        ∀ x, Spec.NextOf parts.length next i x → r[i]? = some (logp (vstackV x.1 x.2)) := by
  have hxne : xisOf parts ≠ [] := by simpa [xisOf] using hne
  obtain ⟨b, hb⟩ := mlCalcAfQ_eq hD (xisOf parts) hxne u t
  have hS : ∀ p ∈ parts, (M.stA p.1 u t * p.2.2 * (M.stA p.1 u t)ᵀ + M.stQ p.1 u t).PosDef := fun p hp =>
    Matrix.PosDef.posSemidef_add (posSemidef_conj (hP p hp) _) (hQ p.1)
  have hx : ∀ (i : ℕ) (p : RbP lxi lz), parts[i]? = some p → (xisOf parts)[i]? = some p.1 := fun i p hp => by rw [xisOf_getElem?, hp]; rfl
  have hnx : ∀ i < parts.length, ∃ x, Spec.NextOf parts.length next i x := by
    intro i hi
    rcases hn with hn | hn
    · obtain ⟨a, rfl⟩ := List.length_eq_one_iff.1 hn
      exact ⟨a, .inl rfl⟩
    · exact ⟨next[i], .inr ⟨hn, List.getElem?_eq_getElem (by omega)⟩⟩
  unfold mlLogpXnext
  rw [hb, ok_bind]
  have hpt : ∀ (i : ℕ) p, parts[i]? = some p → ∀ x, Spec.NextOf parts.length next i x → (do
      let p ← getIdx parts i
      let x ← getIdx (repeatNext parts.length next) i
      let A ← getIdx (xisOf parts |>.map (M.stA · u t)) i
      let f ← getIdx (xisOf parts |>.map (M.stF · u t)) i
      let Q ← getIdx (xisOf parts |>.map (M.stQ · u t)) i
      let c ← choFactor (A * p.2.2 * Aᵀ + Q)
      return lognormpdfCho (vstackV x.1 x.2 - (f + A *ᵥ p.2.1)) c : PyM ℝ) =
      .ok (Spec.logNormal (M.stA p.1 u t * p.2.2 * (M.stA p.1 u t)ᵀ + M.stQ p.1 u t)
        (vstackV x.1 x.2 - (M.stF p.1 u t + M.stA p.1 u t *ᵥ p.2.1))) := by
    intro i p hp x hx'
    obtain ⟨c, hc, -, h2, -⟩ := C42_helpers_agree _ (hS p (List.mem_of_getElem? hp))
    simp only [getIdx_ok.2 hp, getIdx_ok.2 (repeatNext_nextOf (lt_of_getElem?_some hp) hx'), ok_bind,
      getIdx_ok.2 (show ((xisOf parts).map (M.stA · u t))[i]? = some (M.stA p.1 u t) by simp [hx i p hp]),
      getIdx_ok.2 (show ((xisOf parts).map (M.stF · u t))[i]? = some (M.stF p.1 u t) by simp [hx i p hp]),
      getIdx_ok.2 (show ((xisOf parts).map (M.stQ · u t))[i]? = some (M.stQ p.1 u t) by simp [hx i p hp]), hc, h2]
    rfl
  choose! nx hnx using hnx
  obtain ⟨r, hr, hrl, hri⟩ := mapM_points parts (fun i => (do
      let p ← getIdx parts i
      let x ← getIdx (repeatNext parts.length next) i
      let A ← getIdx (xisOf parts |>.map (M.stA · u t)) i
      let f ← getIdx (xisOf parts |>.map (M.stF · u t)) i
      let Q ← getIdx (xisOf parts |>.map (M.stQ · u t)) i
      let c ← choFactor (A * p.2.2 * Aᵀ + Q)
      return lognormpdfCho (vstackV x.1 x.2 - (f + A *ᵥ p.2.1)) c : PyM ℝ))
    (fun i p => Spec.logNormal (M.stA p.1 u t * p.2.2 * (M.stA p.1 u t)ᵀ + M.stQ p.1 u t)
        (vstackV (nx i).1 (nx i).2 - (M.stF p.1 u t + M.stA p.1 u t *ᵥ p.2.1)))
    fun i p hp => hpt i p hp (nx i) (hnx i (lt_of_getElem?_some hp))
  refine ⟨r, hr, hrl, fun i p hp => ⟨_, ?_, fun x => rfl, fun x hx' => ?_⟩⟩
  · rw [nextLaw_eq M p (hP p (List.mem_of_getElem? hp)) u t (hQ p.1).posSemidef, gauss_density (hS p (List.mem_of_getElem? hp))]
  · rw [hri i p hp]
    have h1 := repeatNext_nextOf (lt_of_getElem?_some hp) hx'
    have h2 := repeatNext_nextOf (lt_of_getElem?_some hp) (hnx i (lt_of_getElem?_some hp))
    rw [h1] at h2
    rw [Option.some.inj h2]

/-- **C74** `logp_xnext_max` bounds every value `logp_xnext` can return for these particles, whatever the next states, and the bound is attained. -/
theorem C74_logp_xnext_max {H : MlHooks lxi lz ly U T Y} {o : MlObj lxi lz ly} {M : Spec.RbModel lxi lz ly U T Y} (hD : Spec.RbDescribes H o M)
    (parts : List (RbP lxi lz)) (hne : parts ≠ []) (hP : ∀ p ∈ parts, p.2.2.PosSemidef) (u : U) (t : T)
    (hQ : ∀ x, (M.stQ x u t).PosDef) :
    ∃ m, mlLogpXnextMax H o parts u t = .ok m ∧
      (∀ next r, (next.length = 1 ∨ next.length = parts.length) → mlLogpXnext H o parts next u t = .ok r → ∀ v ∈ r, v ≤ m) ∧
      ∃ next r, mlLogpXnext H o parts next u t = .ok r ∧ m ∈ r := by
  have hxne : xisOf parts ≠ [] := by simpa [xisOf] using hne
  obtain ⟨b, hb⟩ := mlCalcAfQ_eq hD (xisOf parts) hxne u t
  have hS : ∀ p ∈ parts, (M.stA p.1 u t * p.2.2 * (M.stA p.1 u t)ᵀ + M.stQ p.1 u t).PosDef := fun p hp =>
    Matrix.PosDef.posSemidef_add (posSemidef_conj (hP p hp) _) (hQ p.1)
  have hx : ∀ (i : ℕ) (p : RbP lxi lz), parts[i]? = some p → (xisOf parts)[i]? = some p.1 := fun i p hp => by rw [xisOf_getElem?, hp]; rfl
  obtain ⟨l, hl, hll, hli⟩ := mapM_points parts (fun i => (do
      let p ← getIdx parts i
      let A ← getIdx (xisOf parts |>.map (M.stA · u t)) i
      let Q ← getIdx (xisOf parts |>.map (M.stQ · u t)) i
      let c ← choFactor (Q + A * p.2.2 * Aᵀ)
      return -(1 / 2) * (((lxi + lz : ℕ) : ℝ) * l2pi + choLogDet c) : PyM ℝ))
    (fun i p => Spec.logNormal (M.stA p.1 u t * p.2.2 * (M.stA p.1 u t)ᵀ + M.stQ p.1 u t) 0) (by
      intro i p hp
      obtain ⟨c, hc, -⟩ := C42_helpers_agree _ (hS p (List.mem_of_getElem? hp))
      have hc' := hc
      rw [add_comm (M.stA p.1 u t * p.2.2 * (M.stA p.1 u t)ᵀ)] at hc'
      simp only [getIdx_ok.2 hp, ok_bind,
        getIdx_ok.2 (show ((xisOf parts).map (M.stA · u t))[i]? = some (M.stA p.1 u t) by simp [hx i p hp]),
        getIdx_ok.2 (show ((xisOf parts).map (M.stQ · u t))[i]? = some (M.stQ p.1 u t) by simp [hx i p hp]), hc']
      rw [← choMax_eq (hS p (List.mem_of_getElem? hp)) hc]
      rfl)
  have hlne : l ≠ [] := by
    intro h
    rw [h] at hll
    exact hne (List.length_eq_zero_iff.1 hll.symm)
  obtain ⟨m, hm⟩ := npMax_ok hlne
  obtain ⟨hm1, hm2⟩ := npMax_spec hm
  refine ⟨m, ?_, ?_, ?_⟩
  · unfold mlLogpXnextMax
    rw [hb, ok_bind]
    simp only
    rw [hl]
    exact hm
  · intro next r hn hr v hv
    obtain ⟨r', hr', hrl, hri⟩ := C74_logp_xnext hD parts hne hP u t hQ next hn
    cases hr.symm.trans hr'
    obtain ⟨i, hi⟩ := List.mem_iff_getElem?.1 hv
    have hilt : i < parts.length := hrl ▸ lt_of_getElem?_some hi
    obtain ⟨logp, -, e2, e3⟩ := hri i _ (List.getElem?_eq_getElem hilt)
    obtain ⟨x, hx'⟩ : ∃ x, Spec.NextOf parts.length next i x := by
      rcases hn with hn | hn
      · obtain ⟨a, rfl⟩ := List.length_eq_one_iff.1 hn
        exact ⟨a, .inl rfl⟩
      · exact ⟨next[i], .inr ⟨hn, List.getElem?_eq_getElem (by omega)⟩⟩
    have hv' := e3 x hx'
    rw [hi, Option.some.injEq, e2] at hv'
    rw [hv']
    refine (logNormal_le (hS _ (List.getElem_mem hilt)) _).trans (hm2 _ (List.mem_of_getElem? (hli i _ (List.getElem?_eq_getElem hilt))))
  · obtain ⟨i, hi⟩ := List.mem_iff_getElem?.1 hm1
    have hilt : i < parts.length := hll ▸ lt_of_getElem?_some hi
    set p := parts[i] with hp
    have hpi : parts[i]? = some p := List.getElem?_eq_getElem hilt
    obtain ⟨r, hr, hrl, hri⟩ := C74_logp_xnext hD parts hne hP u t hQ
      [(M.fxi p.1 u t + M.Axi p.1 u t *ᵥ p.2.1, M.fz p.1 u t + M.Az p.1 u t *ᵥ p.2.1)] (.inl rfl)
    refine ⟨_, r, hr, ?_⟩
    obtain ⟨logp, -, e2, e3⟩ := hri i p hpi
    have hv := e3 _ (.inl rfl)
    rw [e2, Spec.RbModel.stF, Spec.RbModel.stA, vstackM_mulVec, ← vstackV_add, sub_self] at hv
    have hi' := hli i p hpi
    rw [hi, Option.some.injEq] at hi'
    rw [hi']
    exact List.mem_of_getElem? hv

/-- **C74** `logp_xnext_singlestep` returns for every particle the exact log density of the next nonlinear state given that particle (`find[i]` selects the
future particle of particle `i`). -/
theorem C74_logp_singlestep {H : MlHooks lxi lz ly U T Y} {o : MlObj lxi lz ly} {M : Spec.RbModel lxi lz ly U T Y} (hD : Spec.RbDescribes H o M)
    (hG : M.Good) (parts : List (RbP lxi lz)) (hP : ∀ p ∈ parts, p.2.2.PosSemidef) (u : U) (t : T) (next : List (VecR lxi)) (find : List ℕ)
    (hf : find.length = parts.length) (hfi : ∀ k ∈ find, k < next.length) :
    ∃ r, mlLogpSingle H o parts next find u t = .ok r ∧ r.length = parts.length ∧ ∀ (i : ℕ) p, parts[i]? = some p →
      ∃ logp : VecR lxi → ℝ, (M.step p u t).map Prod.snd = volume.withDensity (fun x => ENNReal.ofReal (Real.exp (logp x))) ∧
        ∀ k x, find[i]? = some k → next[k]? = some x → r[i]? = some (logp x) := by
  obtain ⟨nx, hnx⟩ := fancy_ok hfi
  obtain ⟨hnl, hnk⟩ := fancy_spec.1 hnx
  obtain ⟨hA, hfx, hQ⟩ := mlNonlin_eq hD (xisOf parts) u t
  have hx : ∀ (i : ℕ) (p : RbP lxi lz), parts[i]? = some p → (xisOf parts)[i]? = some p.1 := fun i p hp => by rw [xisOf_getElem?, hp]; rfl
  have hS : ∀ p ∈ parts, (M.Axi p.1 u t * p.2.2 * (M.Axi p.1 u t)ᵀ + M.Qxi p.1 u t).PosDef := fun p hp =>
    Matrix.PosDef.posSemidef_add (posSemidef_conj (hP p hp) _) (hG.Qxi p.1 u t)
  unfold mlLogpSingle
  rw [hnx, ok_bind]
  simp only [hA, hfx, hQ]
  obtain ⟨r, hr, hrl, hri⟩ := mapM_points parts (fun i => (do
      let p ← getIdx parts i
      let x ← getIdx nx i
      let A ← getIdx (xisOf parts |>.map fun x => some (M.Axi x u t)) i
      let f ← getIdx (xisOf parts |>.map fun x => some (M.fxi x u t)) i
      let Q ← getIdx (xisOf parts |>.map fun x => some (M.Qxi x u t)) i
      mlXiLogpdf p x A f Q : PyM ℝ))
    (fun i p => Spec.logNormal (M.Axi p.1 u t * p.2.2 * (M.Axi p.1 u t)ᵀ + M.Qxi p.1 u t)
        (nx[i]?.getD 0 - (M.Axi p.1 u t *ᵥ p.2.1 + M.fxi p.1 u t))) (by
      intro i p hp
      obtain ⟨c, hc, -, h2, -⟩ := C42_helpers_agree _ (hS p (List.mem_of_getElem? hp))
      have hnxi : nx[i]? = some (nx[i]?.getD 0) := by
        rw [List.getElem?_eq_getElem (by rw [hnl, hf]; exact lt_of_getElem?_some hp)]; rfl
      rw [add_comm] at hc
      simp only [getIdx_ok.2 hp, getIdx_ok.2 hnxi, ok_bind, mlXiLogpdf,
        getIdx_ok.2 (show ((xisOf parts).map fun x => some (M.Axi x u t))[i]? = some (some (M.Axi p.1 u t)) by simp [hx i p hp]),
        getIdx_ok.2 (show ((xisOf parts).map fun x => some (M.fxi x u t))[i]? = some (some (M.fxi p.1 u t)) by simp [hx i p hp]),
        getIdx_ok.2 (show ((xisOf parts).map fun x => some (M.Qxi x u t))[i]? = some (some (M.Qxi p.1 u t)) by simp [hx i p hp]), hc, h2,
        pure_eq_ok, add_comm (M.fxi p.1 u t)])
  refine ⟨r, hr, hrl, fun i p hp => ⟨fun x => Spec.logNormal (M.Axi p.1 u t * p.2.2 * (M.Axi p.1 u t)ᵀ + M.Qxi p.1 u t)
    (x - (M.Axi p.1 u t *ᵥ p.2.1 + M.fxi p.1 u t)), ?_, fun k x hk hx' => ?_⟩⟩
  · have hPp := hP p (List.mem_of_getElem? hp)
    have hSp := hS p (List.mem_of_getElem? hp)
    have hK : p.2.2 * (M.Axi p.1 u t)ᵀ * (M.Axi p.1 u t * p.2.2 * (M.Axi p.1 u t)ᵀ + M.Qxi p.1 u t)⁻¹ *
        (M.Axi p.1 u t * p.2.2 * (M.Axi p.1 u t)ᵀ + M.Qxi p.1 u t) = p.2.2 * (M.Axi p.1 u t)ᵀ := by
      rw [Matrix.mul_assoc, nonsing_inv_mul _ hSp.det_pos.ne'.isUnit, Matrix.mul_one]
    have hcF : Measurable (M.condF p.1 u t) := Continuous.measurable (by unfold Spec.RbModel.condF; fun_prop)
    rw [step_eq M hG p hPp u t hK, ← gauss_density hSp]
    refine (normalGiven_cond ?_ ?_).1
    · exact hcF.add (Continuous.measurable (by fun_prop))
    · exact (posSemidef_conj (posterior_posSemidef hPp (hG.Qxi p.1 u t).posSemidef hK) _).add (hG.Qz p.1 u t)
  · rw [hri i p hp, ← (hnk i k hk).1, hx']
    rfl

/-- **C75** `sample_smooth` draws the linear state of every trajectory from its exact law given the particle, the next nonlinear and the next linear state of the
trajectory: the law of the linear state weighted with the densities of both is proportional to the normal law used for drawing. At the last time step
the particle's own law is used. -/
theorem C75_sample_smooth {H : MlHooks lxi lz ly U T Y} {o : MlObj lxi lz ly} {M : Spec.RbModel lxi lz ly U T Y} (hD : Spec.RbDescribes H o M)
    (hG : M.Good) (hQz : ∀ x u t, (M.Qz x u t).PosDef) (parts : List (RbP lxi lz)) (hP : ∀ p ∈ parts, p.2.2.PosSemidef)
    (fut : List (VecR lxi × VecR lz)) (find : List ℕ) (hf : find.length = parts.length) (hfi : ∀ k ∈ find, k < fut.length) (u : U) (t : T) :
    mlSampleSmooth H o parts none find u t = .ok parts ∧
    ∃ r, mlSampleSmooth H o parts (some fut) find u t = .ok r ∧ r.length = parts.length ∧ ∀ (i : ℕ) p k x, parts[i]? = some p →
      find[i]? = some k → fut[k]? = some x → ∃ z P ll, r[i]? = some (p.1, z, P) ∧ P.PosSemidef ∧
        Spec.filtered (Spec.gauss p.2.1 p.2.2)
          [.meas lxi (M.Axi p.1 u t) (M.fxi p.1 u t) (M.Qxi p.1 u t) x.1,
            .meas lz (M.condA p.1 u t) (M.condF p.1 u t x.1) (M.Qz p.1 u t) x.2] = ENNReal.ofReal (Real.exp ll) • Spec.gauss z P := by
  refine ⟨rfl, ?_⟩
  obtain ⟨nx, hnx⟩ := fancy_ok hfi
  obtain ⟨hnl, hnk⟩ := fancy_spec.1 hnx
  have hl : (nx.map fun p => p.1).length = parts.length := by simp [hnl, hf]
  obtain ⟨q, hq, hql, hqi⟩ := mlMeasXiNext_good hD hG parts hP (nx.map fun p => p.1) hl u t
  simp only [mlSampleSmooth, hnx, ok_bind, if_pos (show nx.length = parts.length by rw [hnl, hf]), mlCondDyn_eq hD hG parts _ hl u t, hq]
  have hone : ∀ (i : ℕ) p x, parts[i]? = some p → nx[i]? = some x → ∃ z P ll, (do
      let p ← getIdx q i
      let x ← getIdx nx i
      let d ← getIdx ((parts.zip (nx.map fun p => p.1)).map fun px =>
        (some (M.condA px.1.1 u t), some (M.condF px.1.1 u t px.2), some (M.Qz px.1.1 u t))) i
      let r ← measFullOpt x.2 p.2.1 p.2.2 d.1 d.2.1 d.2.2
      return (p.1, r.1, r.2.1) : PyM (RbP lxi lz)) = .ok (p.1, z, P) ∧ P.PosSemidef ∧
        Spec.filtered (Spec.gauss p.2.1 p.2.2)
          [.meas lxi (M.Axi p.1 u t) (M.fxi p.1 u t) (M.Qxi p.1 u t) x.1,
            .meas lz (M.condA p.1 u t) (M.condF p.1 u t x.1) (M.Qz p.1 u t) x.2] = ENNReal.ofReal (Real.exp ll) • Spec.gauss z P := by
    intro i p x hp hx
    have hx1 : (nx.map fun p => p.1)[i]? = some x.1 := by simp [hx]
    obtain ⟨z1, P1, dl, e1, e2, e3⟩ := hqi i p x.1 hp hx1
    obtain ⟨z2, P2, dl2, f1, f2, f3⟩ := measureFull_good x.2 z1 (M.condA p.1 u t) (M.condF p.1 u t x.1) e2 (hQz p.1 u t)
    obtain ⟨z, P, ll, g1, g2, g3⟩ := C71_filter_exact p.2.1 p.2.2 (hP p (List.mem_of_getElem? hp))
      [.meas lxi (M.Axi p.1 u t) (M.fxi p.1 u t) (M.Qxi p.1 u t) x.1,
        .meas lz (M.condA p.1 u t) (M.condF p.1 u t x.1) (M.Qz p.1 u t) x.2] (by
        intro op hop
        simp only [List.mem_cons, List.not_mem_nil, or_false] at hop
        rcases hop with rfl | rfl
        · exact hG.Qxi p.1 u t
        · exact hQz p.1 u t)
    simp only [kfData, e1, f1, ok_bind, pure_eq_ok, Except.ok.injEq, Prod.mk.injEq] at g1
    obtain ⟨rfl, rfl, -⟩ := g1
    refine ⟨z2, P2, ll, ?_, g2, g3⟩
    have hz : (parts.zip (nx.map fun p => p.1))[i]? = some (p, x.1) := by rw [List.getElem?_zip_eq_some]; exact ⟨hp, hx1⟩
    simp only [getIdx_ok.2 e3, getIdx_ok.2 hx, ok_bind, getIdx_ok.2 (show ((parts.zip (nx.map fun p => p.1)).map fun px =>
      (some (M.condA px.1.1 u t), some (M.condF px.1.1 u t px.2), some (M.Qz px.1.1 u t)))[i]? =
        some (some (M.condA p.1 u t), some (M.condF p.1 u t x.1), some (M.Qz p.1 u t)) by simp [hz]), measFullOpt, f1]
    rfl
  have hex : ∀ k ∈ List.range q.length, ∃ y, (do
      let p ← getIdx q k
      let x ← getIdx nx k
      let d ← getIdx ((parts.zip (nx.map fun p => p.1)).map fun px =>
        (some (M.condA px.1.1 u t), some (M.condF px.1.1 u t px.2), some (M.Qz px.1.1 u t))) k
      let r ← measFullOpt x.2 p.2.1 p.2.2 d.1 d.2.1 d.2.2
      return (p.1, r.1, r.2.1) : PyM (RbP lxi lz)) = .ok y := by
    intro k hk
    rw [List.mem_range, hql] at hk
    obtain ⟨z, P, ll, h1, -⟩ := hone k _ _ (List.getElem?_eq_getElem hk)
      (List.getElem?_eq_getElem (by rw [hnl, hf]; exact hk))
    exact ⟨_, h1⟩
  obtain ⟨r, hr⟩ := mapM_ok hex
  have hr' := mapM_ok_iff.1 hr
  refine ⟨r, hr, by simpa [hql] using hr'.1, fun i p k x hp hk hx => ?_⟩
  have hxi : nx[i]? = some x := by rw [← (hnk i k hk).1]; exact hx
  obtain ⟨z, P, ll, h1, h2, h3⟩ := hone i p x hp hxi
  obtain ⟨v, hv, hv'⟩ := hr'.2 i i (by simp [hql, lt_of_getElem?_some hp])
  rw [h1] at hv'
  exact ⟨z, P, ll, by rw [hv, ← Except.ok.inj hv'], h2, h3⟩

end PyPE

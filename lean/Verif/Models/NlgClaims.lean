import Verif.Models.Nlg
import Verif.Models.LtvGrad

/-!
# C46, C47, C48, C69: the nonlinear Gaussian model
-/

namespace PyPE
open Matrix MeasureTheory ProbabilityTheory

variable {n m : ℕ} {U T : Type}

/-! ## Specification -/

/-- The drift used for the particles is `F`: the hook returns it row by row, or the constant attribute is used. -/
def Spec.DriftIs {X V : Type} (parts : List X) (hook : Option (List V)) (attr : Option V) (F : X → V) : Prop :=
  hook = some (parts.map F) ∨ (hook = none ∧ ∃ v, attr = some v ∧ ∀ x, F x = v)

/-- The process noise covariance is `Q x`, given by the hook. -/
def Spec.CovHook {X : Type} {k : ℕ} (parts : List X) (hook : Option (List (Matrix (Fin k) (Fin k) ℝ)))
    (Q : X → Matrix (Fin k) (Fin k) ℝ) : Prop := hook = some (parts.map Q) ∧ ∀ x, (Q x).PosDef

/-- The object was last given the constant covariance `Q0` (by the constructor or `set_Q`). -/
def Spec.HasQ (o : NlgObj n m) (Q0 : Matrix (Fin n) (Fin n) ℝ) : Prop :=
  ∃ o' : NlgObj n m, (o'.setQ Q0).map NlgObj.qfac = .ok o.qfac

def Spec.HasR (o : NlgObj n m) (R0 : Matrix (Fin m) (Fin m) ℝ) : Prop :=
  ∃ o' : NlgObj n m, (o'.setR R0).map NlgObj.rfac = .ok o.rfac

/-! ## Attributes -/

theorem nlg_setQ_ok {o : NlgObj n m} {Q : Matrix (Fin n) (Fin n) ℝ} {o' : NlgObj n m} :
    o.setQ Q = .ok o' ↔ ∃ c, choFactor Q = .ok c ∧ o' = { o with qfac := some (c, -(1 / 2) * (n * l2pi + choLogDet c)) } := by
  unfold NlgObj.setQ nlgQfac
  cases h : choFactor Q with
  | error e => simp [bind, Except.bind]
  | ok c => simp [bind, Except.bind, pure, Except.pure, eq_comm]

theorem nlg_setR_ok {o : NlgObj n m} {R : Matrix (Fin m) (Fin m) ℝ} {o' : NlgObj n m} :
    o.setR R = .ok o' ↔ ∃ c, choFactor R = .ok c ∧ o' = { o with rfac := some c } := by
  unfold NlgObj.setR
  cases h : choFactor R with
  | error e => simp [bind, Except.bind]
  | ok c => simp [bind, Except.bind, pure, Except.pure, eq_comm]

theorem hasQ_iff {o : NlgObj n m} {Q : Matrix (Fin n) (Fin n) ℝ} :
    Spec.HasQ o Q ↔ ∃ c, choFactor Q = .ok c ∧ o.qfac = some (c, -(1 / 2) * (n * l2pi + choLogDet c)) := by
  unfold Spec.HasQ NlgObj.setQ nlgQfac
  cases h : choFactor Q with
  | error e => simp [bind, Except.bind, Except.map]
  | ok c =>
    simp only [bind, Except.bind, pure, Except.pure, Except.map, Except.ok.injEq, exists_eq_left']
    exact ⟨fun ⟨_, h⟩ => h.symm, fun h => ⟨o, h.symm⟩⟩

theorem hasR_iff {o : NlgObj n m} {R : Matrix (Fin m) (Fin m) ℝ} : Spec.HasR o R ↔ ∃ c, choFactor R = .ok c ∧ o.rfac = some c := by
  unfold Spec.HasR NlgObj.setR
  cases h : choFactor R with
  | error e => simp [bind, Except.bind, Except.map]
  | ok c =>
    simp only [bind, Except.bind, pure, Except.pure, Except.map, Except.ok.injEq, exists_eq_left']
    exact ⟨fun ⟨_, h⟩ => h.symm, fun h => ⟨o, h.symm⟩⟩

/-- One call that changes the constant covariances. -/
inductive Spec.NlgSet (n m : ℕ) where
  | Q (Q : Matrix (Fin n) (Fin n) ℝ)
  | R (R : Matrix (Fin m) (Fin m) ℝ)

/-- A sequence of `set_Q` / `set_R` calls; a call that raises leaves the object as it was. -/
noncomputable def Spec.nlgSets (o : NlgObj n m) : List (Spec.NlgSet n m) → NlgObj n m
  | [] => o
  | .Q Q :: l => Spec.nlgSets (match o.setQ Q with | .ok o' => o' | .error _ => o) l
  | .R R :: l => Spec.nlgSets (match o.setR R with | .ok o' => o' | .error _ => o) l

/-- The last positive definite `Q` given. -/
def Spec.lastQ (d : Option (Matrix (Fin n) (Fin n) ℝ)) : List (Spec.NlgSet n m) → Option (Matrix (Fin n) (Fin n) ℝ)
  | [] => d
  | .Q Q :: l => Spec.lastQ (some Q) l
  | .R _ :: l => Spec.lastQ d l

def Spec.lastR (d : Option (Matrix (Fin m) (Fin m) ℝ)) : List (Spec.NlgSet n m) → Option (Matrix (Fin m) (Fin m) ℝ)
  | [] => d
  | .R R :: l => Spec.lastR (some R) l
  | .Q _ :: l => Spec.lastR d l

theorem choFactor_posDef {k : ℕ} {S : Matrix (Fin k) (Fin k) ℝ} (hS : S.PosDef) : ∃ c, choFactor S = .ok c :=
  (choFactor_ok_iff S).mpr (by rw [symUpper_of_isSymm (PosDef.isSymm' hS)]; exact hS)

/-- **C46** The object always works with the last covariances it was given: after the constructor and any sequence of `set_Q` /
`set_R` calls with positive definite matrices. -/
theorem C46_last_covariances (f : Option (Fin n → ℝ)) (g : Option (Fin m → ℝ)) (Q : Option (Matrix (Fin n) (Fin n) ℝ))
    (R : Option (Matrix (Fin m) (Fin m) ℝ)) (hQ : ∀ Q' ∈ Q, Q'.PosDef) (hR : ∀ R' ∈ R, R'.PosDef) (l : List (Spec.NlgSet n m))
    (hl : ∀ s ∈ l, match s with | .Q Q => Q.PosDef | .R R => R.PosDef) :
    ∃ o, nlgInit f g Q R = .ok o ∧ (Spec.nlgSets o l).f = f ∧ (Spec.nlgSets o l).g = g ∧
      (∀ Q', Spec.lastQ Q l = some Q' → Spec.HasQ (Spec.nlgSets o l) Q') ∧
      (∀ R', Spec.lastR R l = some R' → Spec.HasR (Spec.nlgSets o l) R') := by
  have h0 : ∃ o, nlgInit f g Q R = .ok o ∧ o.f = f ∧ o.g = g ∧ (∀ Q' ∈ Q, Spec.HasQ o Q') ∧ (∀ R' ∈ R, Spec.HasR o R') := by
    unfold nlgInit
    rcases Q with _ | Q <;> rcases R with _ | R
    · exact ⟨_, rfl, rfl, rfl, by simp, by simp⟩
    · obtain ⟨c, hc⟩ := choFactor_posDef (hR R rfl)
      refine ⟨_, (nlg_setR_ok.mpr ⟨c, hc, rfl⟩), rfl, rfl, by simp, fun R' h => ?_⟩
      cases h; exact hasR_iff.mpr ⟨c, hc, rfl⟩
    · obtain ⟨c, hc⟩ := choFactor_posDef (hQ Q rfl)
      refine ⟨_, by simp only [nlg_setQ_ok.mpr ⟨c, hc, rfl⟩, ok_bind]; rfl, rfl, rfl, fun Q' h => ?_, by simp⟩
      cases h; exact hasQ_iff.mpr ⟨c, hc, rfl⟩
    · obtain ⟨c, hc⟩ := choFactor_posDef (hQ Q rfl)
      obtain ⟨c2, hc2⟩ := choFactor_posDef (hR R rfl)
      refine ⟨_, by simp only [nlg_setQ_ok.mpr ⟨c, hc, rfl⟩, ok_bind]; exact nlg_setR_ok.mpr ⟨c2, hc2, rfl⟩, rfl, rfl, fun Q' h => ?_,
        fun R' h => ?_⟩
      · cases h; exact hasQ_iff.mpr ⟨c, hc, rfl⟩
      · cases h; exact hasR_iff.mpr ⟨c2, hc2, rfl⟩
  obtain ⟨o, ho, h1, h2, h3, h4⟩ := h0
  refine ⟨o, ho, ?_⟩
  clear ho hQ hR
  induction l generalizing o Q R with
  | nil => exact ⟨h1, h2, h3, h4⟩
  | cons s l ih =>
    have hs := hl s List.mem_cons_self
    have hl' := fun s' h => hl s' (List.mem_cons_of_mem _ h)
    cases s with
    | Q Q1 =>
      obtain ⟨c, hc⟩ := choFactor_posDef hs
      have hq := nlg_setQ_ok (o := o).mpr ⟨c, hc, rfl⟩
      simp only [Spec.nlgSets, Spec.lastQ, Spec.lastR, hq]
      refine ih _ _ hl' _ h1 h2 (fun Q' h => ?_) (fun R' h => ?_)
      · cases h; exact hasQ_iff.mpr ⟨c, hc, rfl⟩
      · exact h4 R' h
    | R R1 =>
      obtain ⟨c, hc⟩ := choFactor_posDef hs
      have hq := nlg_setR_ok (o := o).mpr ⟨c, hc, rfl⟩
      simp only [Spec.nlgSets, Spec.lastQ, Spec.lastR, hq]
      refine ih _ _ hl' _ h1 h2 (fun Q' h => ?_) (fun R' h => ?_)
      · exact h3 Q' h
      · cases h; exact hasR_iff.mpr ⟨c, hc, rfl⟩

/-! ## Densities -/

theorem nlgConstLogpdf_ne {k : ℕ} (hk : k ≠ 1) {S c : Matrix (Fin k) (Fin k) ℝ} (hS : S.PosDef) (hc : choFactor S = .ok c)
    (diff : List (Fin k → ℝ)) : nlgConstLogpdf diff c = .ok (diff.map (Spec.logNormal S)) := by
  obtain ⟨c', hc', _, _, h, _⟩ := C42_helpers_agree S hS
  rw [hc] at hc'; cases hc'
  rw [nlgConstLogpdf, dif_neg hk, h]

theorem nlgVarLogpdf_ok {X : Type} {k : ℕ} (parts : List X) (S : X → Matrix (Fin k) (Fin k) ℝ) (hS : ∀ x, (S x).PosDef)
    (diff : List (Fin k → ℝ)) (hd : diff.length = parts.length) :
    nlgVarLogpdf parts.length diff (parts.map S) = .ok (List.zipWith (fun x d => Spec.logNormal (S x) d) parts diff) := by
  unfold nlgVarLogpdf
  rw [mapM_ok_iff]
  refine ⟨by simp [hd], fun i j hi => ?_⟩
  obtain ⟨hi1, rfl⟩ : i < parts.length ∧ i = j := by
    have := lt_of_getElem?_some hi
    simp at this
    rw [List.getElem?_range this] at hi
    exact ⟨this, by cases hi; rfl⟩
  obtain ⟨c, hc, _, h, _⟩ := C42_helpers_agree (S parts[i]) (hS _)
  refine ⟨Spec.logNormal (S parts[i]) diff[i], by simp [hi1, hd], ?_⟩
  rw [getIdx_ok.mpr (show (parts.map S)[i]? = some (S parts[i]) by simp [hi1]), ok_bind, nlgEachLogpdf, hc, ok_bind,
    getIdx_of_lt (by omega), ok_bind, pure_eq_ok, h]

/-- The differences `next_part - f`, one row per particle or one row for all. -/
theorem nlg_diff {X : Type} {parts : List X} {next : List (Fin n → ℝ)} {F : X → Fin n → ℝ} {f : List (Fin n → ℝ)}
    (hf : f = parts.map F ∨ (∃ v, f = [v] ∧ ∀ x, F x = v)) (hn : next.length = parts.length) :
    bcRows (· - ·) next f = .ok (List.zipWith (fun x x' => x' - F x) parts next) := by
  unfold bcRows
  rcases hf with rfl | ⟨v, rfl, hv⟩
  · rw [if_pos (by simpa using hn)]
    congr 1
    refine List.ext_getElem (by simp [hn]) fun i h1 h2 => ?_
    simp
  · by_cases h1 : next.length = 1
    · obtain ⟨a, rfl⟩ := List.length_eq_one_iff.mp h1
      simp at hn
      obtain ⟨b, rfl⟩ := List.length_eq_one_iff.mp hn.symm
      simp [hv]
    · rw [if_neg (by simpa using h1)]
      have : (fun (x : X) (x' : Fin n → ℝ) => x' - F x) = fun _ x' => x' - v := by funext x x'; rw [hv]
      rw [this]
      have h2 : next.map (fun x => x - v) = List.zipWith (fun _ x' => x' - v) parts next := by
        refine List.ext_getElem (by simp [hn]) fun i h1 h2 => ?_
        simp
      rcases next with _ | ⟨a, _ | ⟨b, l⟩⟩
      · simp at h2; simp
      · simp at h1
      · simp only [h2]

theorem nlgF_eq {H : NlgHooks n m U T} {o : NlgObj n m} {parts : List (Fin n → ℝ)} {u : U} {t : T} {F : (Fin n → ℝ) → Fin n → ℝ}
    (hF : Spec.DriftIs parts (H.calcF parts u t) o.f F) :
    ∃ f, nlgF H o parts u t = .ok f ∧ (f = parts.map F ∨ (∃ v, f = [v] ∧ ∀ x, F x = v)) := by
  unfold nlgF
  rcases hF with h | ⟨h, v, hv, hF⟩
  · exact ⟨_, by rw [h], .inl rfl⟩
  · exact ⟨_, by rw [h]; simp only [hv], .inr ⟨v, rfl, hF⟩⟩

theorem choFactor_scalar {q : ℝ} {c : Matrix (Fin 1) (Fin 1) ℝ} (hc : choFactor !![q] = .ok c) : triu c 0 0 = √q ∧ 0 < q := by
  have h := triu_choFactor hc
  have h1 := congrFun (congrFun h.eq 0) 0
  have h2 := h.pos 0
  simp [Matrix.mul_apply, symUpper] at h1
  exact ⟨by rw [← h1, Real.sqrt_mul_self h2.le], by rw [← h1]; positivity⟩

theorem nlgConstLogpdf_one {q : ℝ} {c : Matrix (Fin 1) (Fin 1) ℝ} (hc : choFactor !![q] = .ok c) (diff : List (Fin 1 → ℝ)) :
    nlgConstLogpdf diff c = .ok (diff.map fun d => Real.log (gaussianPDFReal 0 (√q).toNNReal (d 0))) := by
  obtain ⟨h1, h2⟩ := choFactor_scalar hc
  rw [nlgConstLogpdf, dif_pos rfl]
  show lognormpdfScalar (diff.map fun d => d 0) (triu c 0 0) = _
  rw [h1, (C42_scalar _ _).1 (Real.sqrt_pos.mpr h2), List.map_map]
  rfl

theorem gaussianPDFReal_shift (μ : ℝ) (v : NNReal) (x : ℝ) : gaussianPDFReal 0 v (x - μ) = gaussianPDFReal μ v x := by
  simp [gaussianPDFReal]

theorem nlgConstLogpdf_exact {k : ℕ} {S c : Matrix (Fin k) (Fin k) ℝ} (hk : k ≠ 1 ∨ S = 1) (hS : S.PosDef) (hc : choFactor S = .ok c)
    (diff : List (Fin k → ℝ)) : nlgConstLogpdf diff c = .ok (diff.map (Spec.logNormal S)) := by
  by_cases h1 : k = 1
  · subst h1
    rcases hk with h | rfl
    · exact absurd rfl h
    · have e : (1 : Matrix (Fin 1) (Fin 1) ℝ) = !![1] := by ext i j; fin_cases i; fin_cases j; rfl
      rw [e] at hc
      rw [nlgConstLogpdf_one hc]
      refine congrArg _ (List.map_congr_left fun d _ => ?_)
      rw [Real.sqrt_one, gaussianPDFReal, Real.log_mul (by simp; positivity) (Real.exp_pos _).ne', Real.log_exp, Real.log_inv, Real.log_sqrt (by positivity), Spec.logNormal]
      simp [dotProduct]
      ring
  · exact nlgConstLogpdf_ne h1 hS hc diff

/-- **C46** With a covariance per particle (`calc_Q`), or a constant one in dimension ≠ 1, `logp_xnext` is the log-density of
`N(f(x), Q(x))` at the next state. -/
theorem C46_logp_xnext (H : NlgHooks n m U T) (o : NlgObj n m) (parts next : List (Fin n → ℝ)) (u : U) (t : T)
    (F : (Fin n → ℝ) → Fin n → ℝ) (Q : (Fin n → ℝ) → Matrix (Fin n) (Fin n) ℝ)
    (hF : Spec.DriftIs parts (H.calcF parts u t) o.f F)
    (hQ : Spec.CovHook parts (H.calcQ parts u t) Q ∨
      ((n ≠ 1 ∨ ∀ x, Q x = 1) ∧ H.calcQ parts u t = none ∧ ∃ Q0, Q0.PosDef ∧ Spec.HasQ o Q0 ∧ ∀ x, Q x = Q0))
    (hn : next.length = parts.length) :
    nlgLogpXnext H o parts next u t = .ok (List.zipWith (fun x x' => Spec.logNormal (Q x) (x' - F x)) parts next) := by
  obtain ⟨f, hf1, hf2⟩ := nlgF_eq hF
  unfold nlgLogpXnext
  rw [hf1, ok_bind, nlg_diff hf2 hn, ok_bind]
  rcases hQ with ⟨hQ, hpos⟩ | ⟨hn1, hQ, Q0, hpos, hQ0, hQx⟩
  · simp only [hQ]
    rw [nlgVarLogpdf_ok parts Q hpos _ (by simp [hn])]
    congr 1
    refine List.ext_getElem (by simp) fun i h1 h2 => ?_
    simp
  · obtain ⟨c, hc, hoq⟩ := hasQ_iff.mp hQ0
    simp only [hQ, hoq, unwrap, ok_bind]
    rw [nlgConstLogpdf_exact (hn1.imp id fun h => (hQx 0).symm.trans (h 0)) hpos hc, List.map_zipWith]
    simp only [hQx]

/-- **C46** (Defect) With a constant covariance `q` in dimension one, `logp_xnext` is the log-density of the normal law with
variance `√q`. -/
theorem C46_logp_xnext_scalar (H : NlgHooks 1 m U T) (o : NlgObj 1 m) (parts next : List (Fin 1 → ℝ)) (u : U) (t : T)
    (F : (Fin 1 → ℝ) → Fin 1 → ℝ) (q : ℝ) (hF : Spec.DriftIs parts (H.calcF parts u t) o.f F)
    (hQ : H.calcQ parts u t = none) (ho : Spec.HasQ o !![q]) (hn : next.length = parts.length) :
    nlgLogpXnext H o parts next u t =
      .ok (List.zipWith (fun x x' => Real.log (gaussianPDFReal (F x 0) (√q).toNNReal (x' 0))) parts next) := by
  obtain ⟨f, hf1, hf2⟩ := nlgF_eq hF
  obtain ⟨c, hc, hoq⟩ := hasQ_iff.mp ho
  unfold nlgLogpXnext
  rw [hf1, ok_bind, nlg_diff hf2 hn, ok_bind]
  simp only [hQ, hoq, unwrap, ok_bind]
  rw [nlgConstLogpdf_one hc, List.map_zipWith]
  simp only [Pi.sub_apply, gaussianPDFReal_shift]

/-- **C46** (Defect) The value above is the log-density of the stated transition, variance `q`, for every next state only if `q = 1`. -/
theorem C46_scalar_wrong (q μ : ℝ) (hq : 0 < q) :
    (∀ x, Real.log (gaussianPDFReal μ (√q).toNNReal x) = Real.log (gaussianPDFReal μ q.toNNReal x)) ↔ q = 1 := by
  constructor
  · intro h
    have h := h μ
    have hs : 0 < √q := Real.sqrt_pos.mpr hq
    have e : ∀ v : ℝ, 0 < v → gaussianPDFReal μ v.toNNReal μ = (√(2 * Real.pi * v))⁻¹ := by
      intro v hv
      simp [gaussianPDFReal, Real.coe_toNNReal _ hv.le]
    rw [e _ hs, e _ hq, Real.log_inv, Real.log_inv, neg_inj] at h
    have h2 := Real.log_injOn_pos (by simp; positivity) (by simp; positivity) h
    have h3 := (Real.sqrt_inj (by positivity) (by positivity)).mp h2
    have h4 : √q = q := mul_left_cancel₀ (by positivity) h3
    have h5 := Real.sq_sqrt hq.le
    rw [h4] at h5
    nlinarith
  · rintro rfl x
    simp

theorem nlgG_eq {H : NlgHooks n m U T} {o : NlgObj n m} {parts : List (Fin n → ℝ)} {t : T} {G : (Fin n → ℝ) → Fin m → ℝ}
    (hG : Spec.DriftIs parts (H.calcG parts t) o.g G) : nlgG H o parts t = .ok (parts.map G) := by
  unfold nlgG
  rcases hG with h | ⟨h, v, hv, hG⟩
  · rw [h]; simp
  · rw [h]; simp only [hv]
    congr 1
    rw [eq_comm, List.eq_replicate_iff]
    exact ⟨by simp, fun b hb => by obtain ⟨x, _, rfl⟩ := List.mem_map.mp hb; exact hG x⟩

/-- **C46** With a covariance per particle (`calc_R`), or a constant one in dimension ≠ 1, `measure` is the log-density of
`N(g(x), R(x))` at the measurement. -/
theorem C46_measure (H : NlgHooks n m U T) (o : NlgObj n m) (parts : List (Fin n → ℝ)) (y : Fin m → ℝ) (t : T)
    (G : (Fin n → ℝ) → Fin m → ℝ) (R : (Fin n → ℝ) → Matrix (Fin m) (Fin m) ℝ)
    (hG : Spec.DriftIs parts (H.calcG parts t) o.g G)
    (hR : Spec.CovHook parts (H.calcR parts t) R ∨
      ((m ≠ 1 ∨ ∀ x, R x = 1) ∧ H.calcR parts t = none ∧ ∃ R0, R0.PosDef ∧ Spec.HasR o R0 ∧ ∀ x, R x = R0)) :
    nlgMeasure H o parts y t = .ok (parts.map fun x => Spec.logNormal (R x) (y - G x)) := by
  unfold nlgMeasure
  rw [nlgG_eq hG, ok_bind]
  rcases hR with ⟨hR, hpos⟩ | ⟨hn1, hR, R0, hpos, hR0, hRx⟩
  · simp only [hR]
    rw [nlgVarLogpdf_ok parts R hpos _ (by simp)]
    congr 1
    refine List.ext_getElem (by simp) fun i h1 h2 => ?_
    simp
  · obtain ⟨c, hc, hor⟩ := hasR_iff.mp hR0
    simp only [hR, hor, unwrap, ok_bind]
    rw [nlgConstLogpdf_exact (hn1.imp id fun h => (hRx 0).symm.trans (h 0)) hpos hc, List.map_map, List.map_map]
    simp only [hRx]; rfl

/-- **C46** (Defect) With a constant covariance `r` in dimension one, `measure` is the log-density of the normal law with variance
`√r`. -/
theorem C46_measure_scalar (H : NlgHooks n 1 U T) (o : NlgObj n 1) (parts : List (Fin n → ℝ)) (y : Fin 1 → ℝ) (t : T)
    (G : (Fin n → ℝ) → Fin 1 → ℝ) (r : ℝ) (hG : Spec.DriftIs parts (H.calcG parts t) o.g G)
    (hR : H.calcR parts t = none) (ho : Spec.HasR o !![r]) :
    nlgMeasure H o parts y t = .ok (parts.map fun x => Real.log (gaussianPDFReal (G x 0) (√r).toNNReal (y 0))) := by
  obtain ⟨c, hc, hor⟩ := hasR_iff.mp ho
  unfold nlgMeasure
  rw [nlgG_eq hG, ok_bind]
  simp only [hR, hor, unwrap, ok_bind]
  rw [nlgConstLogpdf_one hc, List.map_map, List.map_map]
  refine congrArg _ (List.map_congr_left fun x _ => ?_)
  simp only [Function.comp, Pi.sub_apply, gaussianPDFReal_shift]

/-! ## Sampling -/

theorem triu_of_isCho {k : ℕ} {S c : Matrix (Fin k) (Fin k) ℝ} (hS : S.PosDef) (hc : choFactor S = .ok c) : (triu c)ᵀ * triu c = S := by
  rw [(triu_choFactor hc).eq, symUpper_of_isSymm (PosDef.isSymm' hS)]

theorem gauss_of_factor {k : ℕ} {S c : Matrix (Fin k) (Fin k) ℝ} (hS : S.PosDef) (hc : choFactor S = .ok c) (μ : Fin k → ℝ) :
    (Spec.gauss 0 1).map (fun w => μ + (triu c)ᵀ *ᵥ w) = Spec.gauss μ S := by
  rw [gauss_affine_one PosSemidef.one, mulVec_zero, add_zero, Matrix.mul_one, transpose_transpose, triu_of_isCho hS hc]

theorem pi_gauss_map {N : ℕ} (μ : Fin N → Fin n → ℝ) (B S : Fin N → Matrix (Fin n) (Fin n) ℝ)
    (h : ∀ i, (Spec.gauss 0 1).map (fun w => μ i + B i *ᵥ w) = Spec.gauss (μ i) (S i)) :
    (Measure.pi fun _ : Fin N => Spec.gauss (0 : Fin n → ℝ) 1).map (fun w i => μ i + B i *ᵥ w i) =
      Measure.pi fun i => Spec.gauss (μ i) (S i) := by
  have hm : ∀ i, Measurable (fun w : Fin n → ℝ => μ i + B i *ᵥ w) := fun i => by
    apply Continuous.measurable; fun_prop
  haveI : ∀ i, SigmaFinite ((Spec.gauss (0 : Fin n → ℝ) 1).map (fun w => μ i + B i *ᵥ w)) := fun i => by rw [h]; infer_instance
  rw [Measure.pi_map_pi (f := fun i w => μ i + B i *ᵥ w) (fun i => (hm i).aemeasurable)]
  simp only [h]

theorem nlg_transition_law (H : NlgHooks n m U T) (o : NlgObj n m) (parts : List (Fin n → ℝ)) (u : U) (t : T)
    (F : (Fin n → ℝ) → Fin n → ℝ) (Q : (Fin n → ℝ) → Matrix (Fin n) (Fin n) ℝ)
    (hF : Spec.DriftIs parts (H.calcF parts u t) o.f F)
    (hQ : Spec.CovHook parts (H.calcQ parts u t) Q ∨
      (H.calcQ parts u t = none ∧ ∃ Q0, Q0.PosDef ∧ Spec.HasQ o Q0 ∧ ∀ x, Q x = Q0)) :
    ∃ step : (Fin parts.length → Fin n → ℝ) → Fin parts.length → Fin n → ℝ, Measurable step ∧
      (∀ w, (do let noise ← nlgNoise H o parts u t (List.ofFn w); nlgUpdate H o parts u t noise : PyM _) = .ok (List.ofFn (step w))) ∧
      (Measure.pi fun _ => Spec.gauss (0 : Fin n → ℝ) 1).map step = Measure.pi fun i => Spec.gauss (F parts[i]) (Q parts[i]) := by
  obtain ⟨f, hf1, hf2⟩ := nlgF_eq hF
  have key : ∃ c : Fin parts.length → Matrix (Fin n) (Fin n) ℝ, (∀ i : Fin parts.length, choFactor (Q parts[i]) = .ok (c i)) ∧ (∀ i : Fin parts.length, (Q parts[i]).PosDef) ∧
      ∀ w, nlgNoise H o parts u t (List.ofFn w) = .ok (List.ofFn fun i => (triu (c i))ᵀ *ᵥ w i) := by
    unfold nlgNoise
    rcases hQ with ⟨hQ, hpos⟩ | ⟨hQ, Q0, hpos, hQ0, hQx⟩
    · choose c hc using fun i : Fin parts.length => choFactor_posDef (hpos parts[i])
      refine ⟨c, hc, fun i => hpos _, fun w => ?_⟩
      simp only [hQ]
      rw [mapM_ok_iff]
      refine ⟨by simp, ?_⟩
      rintro i ⟨x, j⟩ hi
      have hi1 : i < parts.length := by have := lt_of_getElem?_some hi; simpa using this
      rw [List.getElem?_zipIdx] at hi
      simp [hi1] at hi
      obtain ⟨rfl, rfl⟩ := hi
      refine ⟨(triu (c ⟨i, hi1⟩))ᵀ *ᵥ w ⟨i, hi1⟩, by simp [hi1], ?_⟩
      rw [getIdx_ok.mpr (show (parts.map Q)[i]? = some (Q parts[i]) by simp [hi1]), ok_bind, nlgScale]
      have := hc ⟨i, hi1⟩
      simp only [Fin.getElem_fin] at this
      rw [this, ok_bind, pure_eq_ok]
    · obtain ⟨c, hc, hoq⟩ := hasQ_iff.mp hQ0
      refine ⟨fun _ => c, fun i => by rw [hQx, hc], fun i => by rw [hQx]; exact hpos, fun w => ?_⟩
      simp only [hQ, hoq, unwrap, ok_bind, pure_eq_ok, List.map_ofFn]; rfl
  obtain ⟨c, hc, hpos, hnoise⟩ := key
  refine ⟨fun w i => F parts[i] + (triu (c i))ᵀ *ᵥ w i, by apply Continuous.measurable; fun_prop, fun w => ?_, ?_⟩
  · rw [hnoise, ok_bind]
    unfold nlgUpdate
    have hadd : bcRows (· + ·) f (List.ofFn fun i => (triu (c i))ᵀ *ᵥ w i) =
        .ok (List.ofFn fun i => F parts[i] + (triu (c i))ᵀ *ᵥ w i) := by
      unfold bcRows
      rcases hf2 with rfl | ⟨v, rfl, hv⟩
      · rw [if_pos (by simp)]
        congr 1
        refine List.ext_getElem (by simp) fun i h1 h2 => ?_
        simp
      · by_cases h1 : parts.length = 1
        · rw [if_pos (by simp [h1])]
          congr 1
          refine List.ext_getElem (by simp [h1]) fun i h1 h2 => ?_
          simp at h1
          simp [hv, h1]
        · rw [if_neg (by simpa using fun h => h1 h.symm)]
          simp only [List.map_ofFn]
          congr 1
          simp only [hv]; rfl
    rw [hf1, ok_bind, hadd, ok_bind]
    unfold assignRows
    rw [if_pos (by simp)]
  · exact pi_gauss_map (fun i => F parts[i]) (fun i => (triu (c i))ᵀ) (fun i => Q parts[i])
      (fun i => gauss_of_factor (hpos i) (hc i) _)

/-- **C47** `update` with the noise of `sample_process_noise` draws the next states independently from `N(f(x), Q(x))`, in every
dimension, for constant and particle-dependent covariances. -/
theorem C47_transition_law (H : NlgHooks n m U T) (o : NlgObj n m) (parts : List (Fin n → ℝ)) (u : U) (t : T)
    (F : (Fin n → ℝ) → Fin n → ℝ) (Q : (Fin n → ℝ) → Matrix (Fin n) (Fin n) ℝ)
    (hF : Spec.DriftIs parts (H.calcF parts u t) o.f F)
    (hQ : Spec.CovHook parts (H.calcQ parts u t) Q ∨
      (H.calcQ parts u t = none ∧ ∃ Q0, Q0.PosDef ∧ Spec.HasQ o Q0 ∧ ∀ x, Q x = Q0)) :
    ∃ step : (Fin parts.length → Fin n → ℝ) → Fin parts.length → Fin n → ℝ,
      (∀ w, (do let noise ← nlgNoise H o parts u t (List.ofFn w); nlgUpdate H o parts u t noise : PyM _) = .ok (List.ofFn (step w))) ∧
      (Measure.pi fun _ => Spec.gauss (0 : Fin n → ℝ) 1).map step = Measure.pi fun i => Spec.gauss (F parts[i]) (Q parts[i]) := by
  obtain ⟨step, -, h⟩ := nlg_transition_law H o parts u t F Q hF hQ
  exact ⟨step, h⟩

/-- Independent draws for the initial particles: the mean is `x0`, the covariance `c cᵀ` with the raw array `c` of `cho_factor`. -/
theorem nlg_create_law (o : NlgX0 n) (hP : o.P0.PosDef) (h0 : o.P0 ≠ 0) (N : ℕ) :
    ∃ c, choFactor o.P0 = .ok c ∧ ∃ step : (Fin N → Fin n → ℝ) → Fin N → Fin n → ℝ, Measurable step ∧
      (∀ w, o.create N (List.ofFn w) = .ok (List.ofFn (step w))) ∧
      (Measure.pi fun _ => Spec.gauss (0 : Fin n → ℝ) 1).map step = Measure.pi fun _ => Spec.gauss o.x0 (c * cᵀ) := by
  obtain ⟨c, hc⟩ := choFactor_posDef hP
  refine ⟨c, hc, fun w i => o.x0 + c *ᵥ w i, by apply Continuous.measurable; fun_prop, fun w => ?_, ?_⟩
  · rw [NlgX0.create, if_pos h0, hc, ok_bind, pure_eq_ok, List.map_ofFn]; rfl
  · refine pi_gauss_map (fun _ => o.x0) (fun _ => c) (fun _ => c * cᵀ) fun _ => ?_
    rw [gauss_affine_one PosSemidef.one, mulVec_zero, add_zero, Matrix.mul_one]

theorem trace_raw_factor {S c : Matrix (Fin n) (Fin n) ℝ} (hS : S.PosDef) (hc : choFactor S = .ok c) :
    (c * cᵀ).trace = S.trace + ∑ i, ∑ j, if j < i then S i j ^ 2 else 0 := by
  have hlow : ∀ i j, c i j = triu c i j + if j < i then S i j else 0 := by
    intro i j
    unfold choFactor at hc
    split at hc
    · cases hc
      simp only [triu, Matrix.of_apply]
      by_cases h : i ≤ j
      · simp [h, not_lt.mpr h]
      · simp [h, not_le.mp h]
    · cases hc
  have h1 : (c * cᵀ).trace = ∑ i, ∑ j, c i j ^ 2 := by
    simp only [trace, diag_apply, Matrix.mul_apply, transpose_apply, sq]
  have h2 : S.trace = ∑ i, ∑ j, triu c i j ^ 2 := by
    conv_lhs => rw [← triu_of_isCho hS hc]
    simp only [trace, diag_apply, Matrix.mul_apply, transpose_apply, sq]
    exact Finset.sum_comm
  rw [h1, h2, ← Finset.sum_add_distrib]
  refine Finset.sum_congr rfl fun i _ => ?_
  rw [← Finset.sum_add_distrib]
  refine Finset.sum_congr rfl fun j _ => ?_
  rw [hlow i j]
  by_cases h : j < i
  · simp [h, triu, not_le.mpr h]
  · simp [h]

/-- **C47** (Defect) The initial particles are drawn independently from a normal law with mean `x0` whose total variance exceeds that of
`Px0` by the sum of the squared off-diagonal entries below the diagonal; the law is `N(x0, Px0)` exactly when `Px0` is diagonal. -/
theorem C47_initial_law (o : NlgX0 n) (hP : o.P0.PosDef) (h0 : o.P0 ≠ 0) (N : ℕ) :
    ∃ V : Matrix (Fin n) (Fin n) ℝ, V.PosSemidef ∧ (∃ step : (Fin N → Fin n → ℝ) → Fin N → Fin n → ℝ,
      (∀ w, o.create N (List.ofFn w) = .ok (List.ofFn (step w))) ∧
      (Measure.pi fun _ => Spec.gauss (0 : Fin n → ℝ) 1).map step = Measure.pi fun _ => Spec.gauss o.x0 V) ∧
      V.trace = o.P0.trace + (∑ i, ∑ j, if j < i then o.P0 i j ^ 2 else 0) ∧
      (Spec.gauss o.x0 V = Spec.gauss o.x0 o.P0 ↔ ∀ i j, i ≠ j → o.P0 i j = 0) := by
  obtain ⟨c, hc, step, -, hstep⟩ := nlg_create_law o hP h0 N
  have htr := trace_raw_factor hP hc
  have hV : (c * cᵀ).PosSemidef := by
    have := posSemidef_conj (PosSemidef.one (n := Fin n) (R := ℝ)) c
    rwa [Matrix.mul_one] at this
  refine ⟨c * cᵀ, hV, ⟨step, hstep⟩, htr, fun h => ?_, fun h => ?_⟩
  · have hVP : c * cᵀ = o.P0 := by
      ext i j
      rw [← gauss_cov (μ := o.x0) hV, h, gauss_cov hP.posSemidef]
    rw [hVP] at htr
    have hz : ∑ i, ∑ j, (if j < i then o.P0 i j ^ 2 else 0) = 0 := by linarith
    have hlow : ∀ i j, j < i → o.P0 i j = 0 := by
      intro i j hij
      rw [Finset.sum_eq_zero_iff_of_nonneg (fun i _ => Finset.sum_nonneg fun j _ => by split <;> positivity)] at hz
      have h1 := hz i (Finset.mem_univ _)
      rw [Finset.sum_eq_zero_iff_of_nonneg (fun j _ => by split <;> positivity)] at h1
      have h2 := h1 j (Finset.mem_univ _)
      rw [if_pos hij] at h2
      exact pow_eq_zero_iff (by norm_num) |>.mp h2
    intro i j hij
    rcases lt_or_gt_of_ne hij with h1 | h1
    · rw [← (PosDef.isSymm' hP).apply]; exact hlow _ _ h1
    · exact hlow _ _ h1
  · congr 1
    have hU : IsCho (Matrix.diagonal fun i => √(o.P0 i i)) o.P0 := by
      refine ⟨fun i j hij => by simp [Matrix.diagonal, hij.ne'], fun i => by simp [Real.sqrt_pos.mpr (hP.diag_pos)], ?_⟩
      ext i j
      by_cases hij : i = j
      · subst hij; simp [Real.mul_self_sqrt (hP.diag_pos (i := i)).le]
      · simp [hij, h i j hij]
    have htri : triu c = Matrix.diagonal fun i => √(o.P0 i i) := by
      have := triu_choFactor hc
      rw [symUpper_of_isSymm (PosDef.isSymm' hP)] at this
      exact this.unique hU
    have hcd : c = Matrix.diagonal fun i => √(o.P0 i i) := by
      ext i j
      by_cases hij : i ≤ j
      · rw [← htri]; simp [triu, hij]
      · have hc' := hc
        unfold choFactor at hc'
        split at hc'
        · cases hc'
          simp only [Matrix.of_apply, if_neg hij]
          rw [h i j (fun e => hij e.le), Matrix.diagonal_apply_ne _ (fun e => hij e.le)]
        · cases hc'
    have := hU.eq
    rw [hcd]
    simpa using this

/-- **C47** With `Px0 = 0` every initial particle is `x0`. -/
theorem C47_initial_fixed (o : NlgX0 n) (h0 : o.P0 = 0) (N : ℕ) (w : List (Fin n → ℝ)) : o.create N w = .ok (List.replicate N o.x0) := by
  rw [NlgX0.create, if_neg (by simpa using h0)]

/-- **C47** `eval_logp_x0` is the log-density of `N(x0, Px0)`, and for `Px0 = 0` it is `0` at `x0` and `-inf` elsewhere. -/
theorem C47_eval_logp_x0 (o : NlgX0 n) (parts : List (Fin n → ℝ)) :
    (o.P0.PosDef → o.P0 ≠ 0 → o.evalLogpX0 parts = .ok (parts.map fun x => WithBot.some (Spec.logNormal o.P0 (x - o.x0)))) ∧
    (o.P0 = 0 → ∃ l : List LogVal, o.evalLogpX0 parts = .ok l ∧ l.length = parts.length ∧
      ∀ (k : ℕ) (x : Fin n → ℝ), parts[k]? = some x → (x = o.x0 → l[k]? = some (WithBot.some 0)) ∧ (x ≠ o.x0 → l[k]? = some ⊥)) := by
  constructor
  · intro hP h0
    obtain ⟨c, hc, _, h, _⟩ := C42_helpers_agree o.P0 hP
    rw [NlgX0.evalLogpX0, if_neg h0, hc, ok_bind, pure_eq_ok]
    simp only [h]
  · intro h0
    refine ⟨_, by rw [NlgX0.evalLogpX0, if_pos h0], by simp, fun k x hk => ⟨fun hx => ?_, fun hx => ?_⟩⟩ <;>
      simp [List.getElem?_map, hk, hx]

/-! ## The bound used by rejection sampling -/

theorem logNormal_le {S : Matrix (Fin n) (Fin n) ℝ} (hS : S.PosDef) (e : Fin n → ℝ) : Spec.logNormal S e ≤ Spec.logNormal S 0 := by
  have h : 0 ≤ e ⬝ᵥ S⁻¹ *ᵥ e := by
    have := hS.inv.posSemidef.dotProduct_mulVec_nonneg e
    simpa using this
  unfold Spec.logNormal
  rw [zero_dotProduct]
  linarith

theorem choMax_eq {S c : Matrix (Fin n) (Fin n) ℝ} (hS : S.PosDef) (hc : choFactor S = .ok c) :
    -(1 / 2) * (n * l2pi + choLogDet c) = Spec.logNormal S 0 := by
  rw [choLogDet_eq hc, symUpper_of_isSymm (PosDef.isSymm' hS), Spec.logNormal, zero_dotProduct, l2pi]
  ring

/-- **C48** `logp_xnext_max` bounds every value `logp_xnext` can return for these particles, and the bound is attained
(covariance per particle, or constant in dimension ≠ 1). -/
theorem C48_bound (H : NlgHooks n m U T) (o : NlgObj n m) (parts : List (Fin n → ℝ)) (u : U) (t : T)
    (F : (Fin n → ℝ) → Fin n → ℝ) (Q : (Fin n → ℝ) → Matrix (Fin n) (Fin n) ℝ)
    (hF : Spec.DriftIs parts (H.calcF parts u t) o.f F)
    (hQ : Spec.CovHook parts (H.calcQ parts u t) Q ∨
      ((n ≠ 1 ∨ ∀ x, Q x = 1) ∧ H.calcQ parts u t = none ∧ ∃ Q0, Q0.PosDef ∧ Spec.HasQ o Q0 ∧ ∀ x, Q x = Q0)) (hne : parts ≠ []) :
    ∃ b, nlgLogpXnextMax H o parts u t = .ok b ∧
      (∀ next, next.length = parts.length → ∃ l, nlgLogpXnext H o parts next u t = .ok l ∧ ∀ v ∈ l, v ≤ b) ∧
      ∃ next l, next.length = parts.length ∧ nlgLogpXnext H o parts next u t = .ok l ∧ b ∈ l := by
  have hpos : ∀ x, (Q x).PosDef := by
    rcases hQ with ⟨_, h⟩ | ⟨_, _, Q0, h, _, hx⟩
    · exact h
    · intro x; rw [hx]; exact h
  have hb : ∃ b, nlgLogpXnextMax H o parts u t = .ok b ∧ (∀ x ∈ parts, Spec.logNormal (Q x) 0 ≤ b) ∧
      ∃ x ∈ parts, Spec.logNormal (Q x) 0 = b := by
    unfold nlgLogpXnextMax
    rcases hQ with ⟨hQ, _⟩ | ⟨_, hQ, Q0, hp, hQ0, hQx⟩
    · have hm : ((List.range parts.length).mapM fun i => do
          let Qi ← getIdx (parts.map Q) i
          nlgMaxOf Qi : PyM (List ℝ)) = .ok (parts.map fun x => Spec.logNormal (Q x) 0) := by
        rw [mapM_ok_iff]
        refine ⟨by simp, fun i j hi => ?_⟩
        obtain ⟨hi1, rfl⟩ : i < parts.length ∧ i = j := by
          have := lt_of_getElem?_some hi
          simp at this
          rw [List.getElem?_range this] at hi
          exact ⟨this, by cases hi; rfl⟩
        obtain ⟨c, hc⟩ := choFactor_posDef (hpos parts[i])
        refine ⟨Spec.logNormal (Q parts[i]) 0, by simp [hi1], ?_⟩
        rw [getIdx_ok.mpr (show (parts.map Q)[i]? = some (Q parts[i]) by simp [hi1]), ok_bind, nlgMaxOf, hc, ok_bind, pure_eq_ok,
          choMax_eq (hpos _) hc]
      obtain ⟨b, hb⟩ := npMax_ok (l := parts.map fun x => Spec.logNormal (Q x) 0) (by simpa using hne)
      obtain ⟨h1, h2⟩ := npMax_spec hb
      refine ⟨b, by simp only [hQ, hm, ok_bind, hb], fun x hx => h2 _ (List.mem_map_of_mem hx), ?_⟩
      obtain ⟨x, hx, hxb⟩ := List.mem_map.mp h1
      exact ⟨x, hx, hxb⟩
    · obtain ⟨c, hc, hoq⟩ := hasQ_iff.mp hQ0
      refine ⟨Spec.logNormal Q0 0, by simp only [hQ, hoq, unwrap, ok_bind, pure_eq_ok, choMax_eq hp hc], fun x _ => by rw [hQx], ?_⟩
      obtain ⟨x, hx⟩ := List.exists_mem_of_ne_nil _ hne
      exact ⟨x, hx, by rw [hQx]⟩
  obtain ⟨b, hb1, hb2, x, hx, hxb⟩ := hb
  refine ⟨b, hb1, fun next hn => ⟨_, C46_logp_xnext H o parts next u t F Q hF hQ hn, fun v hv => ?_⟩, parts.map F, _, by simp,
    C46_logp_xnext H o parts _ u t F Q hF hQ (by simp), ?_⟩
  · obtain ⟨i, hi, rfl⟩ := List.getElem_of_mem hv
    rw [List.getElem_zipWith]
    exact (logNormal_le (hpos _) _).trans (hb2 _ (List.getElem_mem _))
  · obtain ⟨i, hi, rfl⟩ := List.getElem_of_mem hx
    rw [← hxb]
    refine List.mem_iff_getElem.mpr ⟨i, by simpa using hi, ?_⟩
    simp

/-- **C48** (Defect) With a constant covariance `q` in dimension one the returned number bounds the values of `logp_xnext` exactly when
`q ≤ 1`. -/
theorem C48_bound_scalar (H : NlgHooks 1 m U T) (o : NlgObj 1 m) (parts : List (Fin 1 → ℝ)) (u : U) (t : T)
    (F : (Fin 1 → ℝ) → Fin 1 → ℝ) (q : ℝ) (hF : Spec.DriftIs parts (H.calcF parts u t) o.f F)
    (hQ : H.calcQ parts u t = none) (ho : Spec.HasQ o !![q]) (hne : parts ≠ []) :
    ∃ b, nlgLogpXnextMax H o parts u t = .ok b ∧
      ((∀ next, next.length = parts.length → ∃ l, nlgLogpXnext H o parts next u t = .ok l ∧ ∀ v ∈ l, v ≤ b) ↔ q ≤ 1) := by
  obtain ⟨c, hc, hoq⟩ := hasQ_iff.mp ho
  obtain ⟨-, hq⟩ := choFactor_scalar hc
  have hpd : (!![q] : Matrix (Fin 1) (Fin 1) ℝ).PosDef := by
    have h := (choFactor_ok_iff !![q]).mp ⟨c, hc⟩
    rwa [symUpper_of_isSymm (by ext i j; fin_cases i; fin_cases j; rfl)] at h
  have hs : 0 < √q := Real.sqrt_pos.mpr hq
  have h2 : (0 : ℝ) < 2 * Real.pi := by positivity
  have hval : ∀ (v μ x : ℝ), 0 < v → Real.log (gaussianPDFReal μ v.toNNReal x) =
      -(1 / 2) * (Real.log (2 * Real.pi) + Real.log v) - (x - μ) ^ 2 / (2 * v) := by
    intro v μ x hv
    rw [gaussianPDFReal, Real.coe_toNNReal _ hv.le, Real.log_mul (by positivity) (Real.exp_ne_zero _), Real.log_exp, Real.log_inv,
      Real.log_sqrt (by positivity), Real.log_mul h2.ne' hv.ne']
    field_simp
    ring
  have hlogs : Real.log (√q) = Real.log q / 2 := Real.log_sqrt hq.le
  refine ⟨-(1 / 2) * (Real.log (2 * Real.pi) + Real.log q), ?_, fun h => ?_, fun hq1 next hn => ?_⟩
  · unfold nlgLogpXnextMax
    simp only [hQ, hoq, unwrap, ok_bind, pure_eq_ok, choMax_eq hpd hc]
    simp [Spec.logNormal]; ring
  · obtain ⟨l, hl, hb⟩ := h (parts.map F) (by simp)
    rw [C46_logp_xnext_scalar H o parts _ u t F q hF hQ ho (by simp)] at hl
    cases hl
    obtain ⟨x, hx⟩ := List.exists_mem_of_ne_nil _ hne
    obtain ⟨i, hi, rfl⟩ := List.getElem_of_mem hx
    have := hb _ (List.mem_iff_getElem.mpr ⟨i, by simpa using hi, rfl⟩)
    rw [List.getElem_zipWith, hval _ _ _ hs, hlogs] at this
    simp at this
    have h3 : Real.log q ≤ 0 := by linarith
    by_contra hcon
    exact absurd (Real.log_pos (not_le.mp hcon)) (not_lt.mpr h3)
  · refine ⟨_, C46_logp_xnext_scalar H o parts next u t F q hF hQ ho hn, fun v hv => ?_⟩
    obtain ⟨i, hi, rfl⟩ := List.getElem_of_mem hv
    rw [List.getElem_zipWith, hval _ _ _ hs, hlogs]
    have h3 : Real.log q ≤ 0 := Real.log_nonpos hq.le hq1
    have h4 : ∀ a : ℝ, 0 ≤ a ^ 2 / (2 * √q) := fun a => by positivity
    have h5 := h4 ((next[i]'(by simp at hi; omega) : Fin 1 → ℝ) 0 - F (parts[i]'(by simp at hi; omega)) 0)
    linarith

/-! ## The proposal used by the MH smoothers -/

/-- **C69** `propose_smooth` draws the proposals independently, and `logp_proposal` returns the log-density of the drawn law
(covariance per particle, or constant in dimension ≠ 1). -/
theorem C69_proposal (H : NlgHooks n m U T) (o : NlgObj n m) (o0 : NlgX0 n) (prev : List (Fin n → ℝ)) (anc : List ℕ) (up : U) (tp : T)
    (pp : List (Fin n → ℝ)) (hpp : fancy prev anc = .ok pp) (F : (Fin n → ℝ) → Fin n → ℝ) (Q : (Fin n → ℝ) → Matrix (Fin n) (Fin n) ℝ)
    (hF : Spec.DriftIs pp (H.calcF pp up tp) o.f F)
    (hQ : Spec.CovHook pp (H.calcQ pp up tp) Q ∨
      ((n ≠ 1 ∨ ∀ x, Q x = 1) ∧ H.calcQ pp up tp = none ∧ ∃ Q0, Q0.PosDef ∧ Spec.HasQ o Q0 ∧ ∀ x, Q x = Q0)) :
    ∃ (step : (Fin pp.length → Fin n → ℝ) → Fin pp.length → Fin n → ℝ) (lp : Fin pp.length → (Fin n → ℝ) → ℝ),
      (∀ w, nlgProposeSmooth H o o0 (some prev) anc up tp (List.ofFn w) = .ok (List.ofFn (step w))) ∧
      (∀ X : Fin pp.length → Fin n → ℝ, nlgLogpProposal H o o0 (List.ofFn X) (some prev) anc up tp =
        .ok (List.ofFn fun i => WithBot.some (lp i (X i)))) ∧
      (Measure.pi fun _ => Spec.gauss (0 : Fin n → ℝ) 1).map step =
        Measure.pi fun i => volume.withDensity fun x => ENNReal.ofReal (Real.exp (lp i x)) := by
  have hpos : ∀ x, (Q x).PosDef := by
    rcases hQ with ⟨_, h⟩ | ⟨_, _, Q0, h, _, hx⟩
    · exact h
    · intro x; rw [hx]; exact h
  obtain ⟨step, h1, h2⟩ := C47_transition_law H o pp up tp F Q hF (hQ.imp_right fun h => h.2)
  refine ⟨step, fun i x => Spec.logNormal (Q pp[i]) (x - F pp[i]), fun w => ?_, fun X => ?_, ?_⟩
  · unfold nlgProposeSmooth
    simp only [hpp, ok_bind]
    exact h1 w
  · unfold nlgLogpProposal
    simp only [hpp, ok_bind, C46_logp_xnext H o pp (List.ofFn X) up tp F Q hF hQ (by simp), pure_eq_ok]
    congr 1
    refine List.ext_getElem (by simp) fun i h1 h2 => ?_
    simp
  · rw [h2]
    congr 1
    funext i
    rw [gauss_density (hpos _)]

/-- **C69** At the first time step the proposals come from `create_initial_estimate` and their log-density is `eval_logp_x0`; the two
agree when `Px0` is diagonal (and only then, C47). -/
theorem C69_initial_proposal (H : NlgHooks n m U T) (o : NlgObj n m) (o0 : NlgX0 n) (hP : o0.P0.PosDef) (h0 : o0.P0 ≠ 0)
    (hdiag : ∀ i j, i ≠ j → o0.P0 i j = 0) (anc : List ℕ) (up : U) (tp : T) (N : ℕ) :
    ∃ (step : (Fin N → Fin n → ℝ) → Fin N → Fin n → ℝ) (lp : (Fin n → ℝ) → ℝ),
      (∀ w, nlgProposeSmooth H o o0 none anc up tp (List.ofFn w) = .ok (List.ofFn (step w))) ∧
      (∀ X : Fin N → Fin n → ℝ, nlgLogpProposal H o o0 (List.ofFn X) none anc up tp = .ok (List.ofFn fun i => WithBot.some (lp (X i)))) ∧
      (Measure.pi fun _ => Spec.gauss (0 : Fin n → ℝ) 1).map step =
        Measure.pi fun _ => volume.withDensity fun x => ENNReal.ofReal (Real.exp (lp x)) := by
  obtain ⟨V, -, ⟨step, h1, h2⟩, -, h3⟩ := C47_initial_law o0 hP h0 N
  refine ⟨step, fun x => Spec.logNormal o0.P0 (x - o0.x0), fun w => ?_, fun X => ?_, ?_⟩
  · simp only [nlgProposeSmooth, List.length_ofFn]; exact h1 w
  · simp only [nlgLogpProposal, (C47_eval_logp_x0 o0 _).1 hP h0, List.map_ofFn]; rfl
  · rw [h2, h3.mpr hdiag, gauss_density hP]

/-- **C70** The first-stage weights of the auxiliary filter are the measurement log-densities at the noise-free prediction, time
`t + 1`. -/
theorem C70_first_stage (H : NlgHooks n m U T) (o : NlgObj n m) (parts : List (Fin n → ℝ)) (u : U) (y : Fin m → ℝ) (t tn : T)
    (F : (Fin n → ℝ) → Fin n → ℝ) (G : (Fin n → ℝ) → Fin m → ℝ) (R : (Fin n → ℝ) → Matrix (Fin m) (Fin m) ℝ)
    (hF : Spec.DriftIs parts (H.calcF parts u t) o.f F) (hG : Spec.DriftIs (parts.map F) (H.calcG (parts.map F) tn) o.g G)
    (hR : Spec.CovHook (parts.map F) (H.calcR (parts.map F) tn) R ∨
      ((m ≠ 1 ∨ ∀ x, R x = 1) ∧ H.calcR (parts.map F) tn = none ∧ ∃ R0, R0.PosDef ∧ Spec.HasR o R0 ∧ ∀ x, R x = R0)) :
    nlgFirstStage H o parts u y t tn = .ok (parts.map fun x => Spec.logNormal (R (F x)) (y - G (F x))) := by
  obtain ⟨f, hf1, hf2⟩ := nlgF_eq hF
  have hu : nlgUpdate H o parts u t (parts.map fun _ => 0) = .ok (parts.map F) := by
    unfold nlgUpdate
    have hadd : bcRows (· + ·) f (parts.map fun _ => (0 : Fin n → ℝ)) = .ok (parts.map F) := by
      unfold bcRows
      rcases hf2 with rfl | ⟨v, rfl, hv⟩
      · rw [if_pos (by simp)]
        congr 1
        refine List.ext_getElem (by simp) fun i h1 h2 => ?_
        simp
      · by_cases h1 : parts.length = 1
        · obtain ⟨a, rfl⟩ := List.length_eq_one_iff.mp h1
          simp [hv]
        · rw [if_neg (by simpa using fun h => h1 h.symm)]
          simp only [List.map_map]
          refine congrArg _ (List.map_congr_left fun x _ => ?_)
          simp [hv]
    rw [hf1, ok_bind, hadd, ok_bind]
    unfold assignRows
    rw [if_pos (by simp)]
  unfold nlgFirstStage
  rw [hu, ok_bind, C46_measure H o _ y tn G R hG hR, List.map_map]
  rfl

/-! ## A concrete case -/

/-- Two states, constant correlated noise, drift given by the hook. -/
example : ∃ o : NlgObj 2 2, nlgInit none (some 0) (some !![2, 1; 1, 2]) (some 1) = .ok o ∧ Spec.HasQ o !![2, 1; 1, 2] ∧ Spec.HasR o 1 ∧
    (!![2, 1; 1, 2] : Matrix (Fin 2) (Fin 2) ℝ).PosDef := by
  have hpd : (!![2, 1; 1, 2] : Matrix (Fin 2) (Fin 2) ℝ).PosDef := by
    rw [Matrix.posDef_iff_dotProduct_mulVec]
    refine ⟨by ext i j; fin_cases i <;> fin_cases j <;> simp, fun x hx => ?_⟩
    have h : ¬ (x 0 = 0 ∧ x 1 = 0) := fun h => hx (by ext i; fin_cases i <;> simp [h])
    simp [Matrix.mulVec, dotProduct, Fin.sum_univ_two, vecHead, vecTail]
    by_cases h0 : x 0 = 0
    · have h1 : x 1 ≠ 0 := fun h1 => h ⟨h0, h1⟩
      have := sq_pos_of_ne_zero h1
      rw [h0]; nlinarith
    · have := sq_pos_of_ne_zero h0
      nlinarith [sq_nonneg (x 0 + x 1), sq_nonneg (x 1)]
  obtain ⟨o, ho, -, -, h1, h2⟩ := C46_last_covariances (n := 2) (m := 2) none (some 0) (some !![2, 1; 1, 2]) (some 1)
    (by rintro _ ⟨⟩; exact hpd) (by rintro _ ⟨⟩; exact PosDef.one) [] (by simp)
  exact ⟨o, ho, h1 _ rfl, h2 _ rfl, hpd⟩

/-- A scalar random walk with variance 4, drift by hook: the hypotheses of the scalar theorems, on the side where the bound fails. -/
example : ∃ (H : NlgHooks 1 1 ℕ ℕ) (o : NlgObj 1 1), nlgInit none none (some !![4]) none = .ok o ∧ Spec.HasQ o !![4] ∧
    (∀ parts u t, Spec.DriftIs parts (H.calcF parts u t) o.f fun x => x + 1) ∧ ¬ (4 : ℝ) ≤ 1 := by
  have hpd : (!![4] : Matrix (Fin 1) (Fin 1) ℝ).PosDef := by
    rw [Matrix.posDef_iff_dotProduct_mulVec]
    refine ⟨by ext i j; fin_cases i; fin_cases j; rfl, fun x hx => ?_⟩
    have h0 : x 0 ≠ 0 := fun h => hx (by ext i; fin_cases i; simpa using h)
    have := sq_pos_of_ne_zero h0
    simp [Matrix.mulVec, dotProduct, vecHead]
    nlinarith
  obtain ⟨o, ho, h0, -, h1, -⟩ := C46_last_covariances (n := 1) (m := 1) none none (some !![4]) none
    (by rintro _ ⟨⟩; exact hpd) (by simp) [] (by simp)
  exact ⟨⟨fun p _ _ => some (p.map fun x => x + 1), fun _ _ _ => none, fun _ _ => none, fun _ _ => none⟩, o, ho, h1 _ rfl,
    fun _ _ _ => .inl rfl, by norm_num⟩

end PyPE

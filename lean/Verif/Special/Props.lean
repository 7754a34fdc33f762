import Verif.Special.Model
import Verif.Sampling.Props
import Mathlib.Tactic.Linarith
import Mathlib.Tactic.Ring

/-! # C20: what happens to weights when particles are impossible -/

namespace PyPE
open Real Flt

/-! ## Specification -/

/-- The (non-logarithmic) value of a log-weight: `exp`, and 0 for `-inf`. -/
noncomputable def Spec.densityOf : Flt → ℝ
  | .fin x => exp x
  | _ => 0

/-- Some particle has a finite old log-weight and a finite log-likelihood. -/
def Spec.SomePossible (w ll : List Flt) : Prop :=
  ∃ (i : ℕ) (x y : ℝ), w[i]? = some (fin x) ∧ ll[i]? = some (fin y)

/-! ## Lemmas -/

@[simp] theorem sub_nan (x : Flt) : sub x nan = nan := by cases x <;> rfl
@[simp] theorem nan_sub (x : Flt) : sub nan x = nan := by cases x <;> rfl
@[simp] theorem add_nan (x : Flt) : add x nan = nan := by cases x <;> rfl
@[simp] theorem nan_add (x : Flt) : add nan x = nan := by cases x <;> rfl
@[simp] theorem fmax_nan (x : Flt) : fmax x nan = nan := by cases x <;> rfl
@[simp] theorem nan_fmax (x : Flt) : fmax nan x = nan := by cases x <;> rfl

theorem foldl_fmax_nan (l : List Flt) : l.foldl fmax nan = nan := by
  induction l with
  | nil => rfl
  | cons x l ih => simpa using ih

theorem foldl_fmax_mem_nan {l : List Flt} (h : nan ∈ l) (a : Flt) : l.foldl fmax a = nan := by
  induction l generalizing a with
  | nil => cases h
  | cons x l ih =>
    rw [List.foldl_cons]
    rcases List.mem_cons.mp h with e | e
    · rw [← e, fmax_nan, foldl_fmax_nan]
    · exact ih e _

theorem fMax_nan {l : List Flt} (h : nan ∈ l) : fMax l = .ok nan := by
  cases l with
  | nil => cases h
  | cons x l =>
    show Except.ok _ = Except.ok _
    rcases List.mem_cons.mp h with e | e
    · rw [← e, foldl_fmax_nan]
    · rw [foldl_fmax_mem_nan e]

theorem fmax_cases {a b : Flt} (ha : a ≠ nan) (hb : b ≠ nan) :
    (fmax a b = a ∧ ¬ Flt.lt a b) ∨ (fmax a b = b ∧ ¬ Flt.lt b a) := by
  cases a <;> cases b <;> simp [fmax, Flt.lt] at ha hb ⊢
  exact le_total _ _

theorem not_lt_trans {a b c : Flt} (hb : b ≠ nan) (h1 : ¬ Flt.lt b a) (h2 : ¬ Flt.lt c b) :
    ¬ Flt.lt c a := by
  cases a <;> cases b <;> cases c <;> simp [Flt.lt] at hb h1 h2 ⊢
  linarith

theorem not_lt_self (a : Flt) : ¬ Flt.lt a a := by cases a <;> simp [Flt.lt]

theorem foldl_fmax_spec {l : List Flt} (h : nan ∉ l) {a : Flt} (ha : a ≠ nan) :
    l.foldl fmax a ∈ a :: l ∧ ∀ x ∈ a :: l, ¬ Flt.lt (l.foldl fmax a) x := by
  induction l generalizing a with
  | nil =>
    simp only [List.foldl_nil, List.mem_singleton, forall_eq, true_and]
    exact not_lt_self a
  | cons y l ih =>
    rw [List.mem_cons, not_or] at h
    rw [List.foldl_cons]
    have hy : y ≠ nan := Ne.symm h.1
    have hm : fmax a y ≠ nan := by
      rcases fmax_cases ha hy with e | e <;> rw [e.1] <;> assumption
    obtain ⟨h1, h2⟩ := ih h.2 hm
    have key : ¬ Flt.lt (l.foldl fmax (fmax a y)) a ∧ ¬ Flt.lt (l.foldl fmax (fmax a y)) y := by
      have h3 := h2 _ (List.mem_cons_self)
      rcases fmax_cases ha hy with ⟨e, g⟩ | ⟨e, g⟩
      · rw [e] at h3 ⊢; exact ⟨h3, not_lt_trans ha g h3⟩
      · rw [e] at h3 ⊢; exact ⟨not_lt_trans hy g h3, h3⟩
    refine ⟨?_, fun x hx => ?_⟩
    · rcases List.mem_cons.mp h1 with e | e
      · rw [e]
        rcases fmax_cases ha hy with g | g <;> rw [g.1] <;> simp
      · simp [e]
    · simp only [List.mem_cons] at hx
      rcases hx with rfl | rfl | hx
      · exact key.1
      · exact key.2
      · exact h2 x (List.mem_cons_of_mem _ hx)

theorem fMax_spec {l : List Flt} (hne : l ≠ []) (h : nan ∉ l) :
    ∃ m ∈ l, fMax l = .ok m ∧ ∀ x ∈ l, ¬ Flt.lt m x := by
  cases l with
  | nil => exact absurd rfl hne
  | cons a l =>
    rw [List.mem_cons, not_or] at h
    obtain ⟨h1, h2⟩ := foldl_fmax_spec h.2 (Ne.symm h.1)
    exact ⟨_, h1, rfl, h2⟩

theorem fMax_ok {l : List Flt} (hne : l ≠ []) : ∃ m, fMax l = .ok m := by
  cases l with
  | nil => exact absurd rfl hne
  | cons a l => exact ⟨_, rfl⟩

theorem zipAdd_get {w nw : List Flt} (i : ℕ) :
    (List.zipWith add w nw)[i]? = match w[i]?, nw[i]? with
      | some a, some b => some (add a b)
      | _, _ => none := by
  rw [List.getElem?_zipWith]
  cases w[i]? <;> cases nw[i]? <;> rfl

/-- What the weight update computes. -/
theorem fWeightUpdate_eq {pa : FW} {ll : List Flt} (hl : pa.w.length = ll.length) (hne : ll ≠ []) :
    ∃ m m', fMax ll = .ok m ∧ fMax (List.zipWith add pa.w (ll.map (sub · m))) = .ok m'
      ∧ fWeightUpdate pa ll = .ok
        { w := (List.zipWith add pa.w (ll.map (sub · m))).map (sub · m')
          w_offset := (pa.w_offset.add m).add m' } := by
  obtain ⟨m, hm⟩ := fMax_ok hne
  have hz : List.zipWith add pa.w (ll.map (sub · m)) ≠ [] := by
    intro h
    have := congrArg List.length h
    simp [hl] at this
    exact hne (by simpa using this)
  obtain ⟨m', hm'⟩ := fMax_ok hz
  refine ⟨m, m', hm, hm', ?_⟩
  unfold fWeightUpdate
  simp only [hm, ok_bind, List.length_map, hl, if_true, pure_eq_ok, hm']

theorem map_sub_nan (l : List Flt) : ∀ x ∈ l.map (sub · nan), x = nan := by
  simp

/-- The three outcomes of the update. -/
theorem fWeightUpdate_cases {pa : FW} {ll : List Flt} (hl : pa.w.length = ll.length) (hne : ll ≠ [])
    (hw : pinf ∉ pa.w) :
    ∃ out, fWeightUpdate pa ll = .ok out ∧ out.w.length = ll.length
      ∧ (((∀ x ∈ out.w, x = nan)
            ∧ (nan ∈ pa.w ∨ nan ∈ ll ∨ pinf ∈ ll ∨ ¬ Spec.SomePossible pa.w ll))
        ∨ (nan ∉ out.w ∧ nan ∉ pa.w ∧ nan ∉ ll ∧ pinf ∉ ll ∧ Spec.SomePossible pa.w ll
            ∧ ∃ c : ℝ, out.w_offset = pa.w_offset.add (fin c)
              ∧ (∀ (i : ℕ) (a b : Flt), pa.w[i]? = some a → ll[i]? = some b →
                  ∃ v, out.w[i]? = some v ∧ (v = ninf ∨ ∃ x ≤ 0, v = fin x)
                    ∧ Spec.densityOf v * exp c = Spec.densityOf a * Spec.densityOf b)
              ∧ fin 0 ∈ out.w)) := by
  obtain ⟨m, m', hm, hm', he⟩ := fWeightUpdate_eq hl hne
  refine ⟨_, he, by simp [hl], ?_⟩
  -- if the sum contains nan, everything is nan
  have allnan : nan ∈ List.zipWith add pa.w (ll.map (sub · m)) →
      ∀ x ∈ (List.zipWith add pa.w (ll.map (sub · m))).map (sub · m'), x = nan := by
    intro h
    rw [fMax_nan h] at hm'
    cases hm'
    exact map_sub_nan _
  have getw : ∀ i, i < ll.length → ∃ a, pa.w[i]? = some a := by
    intro i hi
    exact ⟨pa.w[i], List.getElem?_eq_getElem (by omega)⟩
  by_cases h1 : nan ∈ ll
  · left
    refine ⟨allnan ?_, Or.inr (Or.inl h1)⟩
    rw [fMax_nan h1] at hm; cases hm
    obtain ⟨i, hi, -⟩ := List.mem_iff_getElem.mp h1
    obtain ⟨a, ha⟩ := getw i hi
    refine List.mem_iff_getElem?.mpr ⟨i, ?_⟩
    rw [zipAdd_get, ha, List.getElem?_map, List.getElem?_eq_getElem hi]
    simp
  obtain ⟨m0, hm0, e, hmax⟩ := fMax_spec hne h1
  have e0 := hm.symm.trans e; cases e0
  by_cases h2 : pinf ∈ ll
  · left
    refine ⟨allnan ?_, Or.inr (Or.inr (Or.inl h2))⟩
    have : m = pinf := by
      have := hmax _ h2
      cases m <;> simp [Flt.lt] at this ⊢
      exact h1 hm0
    subst this
    obtain ⟨i, hi, hv⟩ := List.mem_iff_getElem.mp h2
    obtain ⟨a, ha⟩ := getw i hi
    refine List.mem_iff_getElem?.mpr ⟨i, ?_⟩
    rw [zipAdd_get, ha, List.getElem?_map, List.getElem?_eq_getElem hi, hv]
    cases a <;> simp [sub, neg, Flt.add]
  by_cases h3 : nan ∈ pa.w
  · left
    refine ⟨allnan ?_, Or.inl h3⟩
    obtain ⟨i, hi, hv⟩ := List.mem_iff_getElem.mp h3
    refine List.mem_iff_getElem?.mpr ⟨i, ?_⟩
    rw [zipAdd_get, List.getElem?_eq_getElem hi, hv, List.getElem?_map,
      List.getElem?_eq_getElem (by omega : i < ll.length)]
    simp
  by_cases h4 : m = ninf
  · left
    subst h4
    have hall : ∀ x ∈ ll, x = ninf := by
      intro x hx
      have := hmax x hx
      cases x with
      | fin x => simp [Flt.lt] at this
      | ninf => rfl
      | pinf => exact absurd hx h2
      | nan => exact absurd hx h1
    refine ⟨allnan ?_, Or.inr (Or.inr (Or.inr ?_))⟩
    · obtain ⟨i, hi, hv⟩ := List.mem_iff_getElem.mp hm0
      obtain ⟨a, ha⟩ := getw i hi
      refine List.mem_iff_getElem?.mpr ⟨i, ?_⟩
      rw [zipAdd_get, ha, List.getElem?_map, List.getElem?_eq_getElem hi, hv]
      cases a <;> simp [sub, neg, Flt.add]
    · rintro ⟨i, x, y, -, hy⟩
      have := hall _ (List.mem_of_getElem? hy)
      cases this
  -- the largest log-likelihood is a number
  obtain ⟨μ, rfl⟩ : ∃ μ, m = fin μ := by
    cases m with
    | fin x => exact ⟨x, rfl⟩
    | ninf => exact absurd rfl h4
    | pinf => exact absurd hm0 h2
    | nan => exact absurd hm0 h1
  -- entries of the sum
  have entry : ∀ (i : ℕ) (a b : Flt), pa.w[i]? = some a → ll[i]? = some b →
      (List.zipWith add pa.w (ll.map (sub · (fin μ))))[i]? = some (add a (sub b (fin μ))) := by
    intro i a b ha hb
    rw [zipAdd_get, ha, List.getElem?_map, hb]; rfl
  have shape : ∀ a b : Flt, a ∈ pa.w → b ∈ ll →
      (∃ x y, a = fin x ∧ b = fin y ∧ add a (sub b (fin μ)) = fin (x + y - μ))
      ∨ (add a (sub b (fin μ)) = ninf ∧ (a = ninf ∨ b = ninf)) := by
    intro a b ha hb
    cases a with
    | nan => exact absurd ha h3
    | pinf => exact absurd ha hw
    | fin x =>
      cases b with
      | nan => exact absurd hb h1
      | pinf => exact absurd hb h2
      | fin y => left; exact ⟨x, y, rfl, rfl, by simp [sub, neg, Flt.add]; ring⟩
      | ninf => right; exact ⟨rfl, Or.inr rfl⟩
    | ninf =>
      cases b with
      | nan => exact absurd hb h1
      | pinf => exact absurd hb h2
      | fin y => right; exact ⟨rfl, Or.inl rfl⟩
      | ninf => right; exact ⟨rfl, Or.inl rfl⟩
  have back : ∀ v ∈ List.zipWith add pa.w (ll.map (sub · (fin μ))), ∃ (i : ℕ) (a b : Flt), pa.w[i]? = some a
      ∧ ll[i]? = some b ∧ v = add a (sub b (fin μ)) := by
    intro v hv
    obtain ⟨i, hi, hv⟩ := List.mem_iff_getElem.mp hv
    simp only [List.length_zipWith, List.length_map, lt_min_iff] at hi
    refine ⟨i, pa.w[i], ll[i], List.getElem?_eq_getElem hi.1, List.getElem?_eq_getElem hi.2, ?_⟩
    rw [← hv]; simp
  have hznan : nan ∉ List.zipWith add pa.w (ll.map (sub · (fin μ))) := by
    intro h
    obtain ⟨i, a, b, ha, hb, hv⟩ := back _ h
    rcases shape a b (List.mem_of_getElem? ha) (List.mem_of_getElem? hb) with ⟨x, y, -, -, h⟩ | ⟨h, -⟩ <;>
      rw [h] at hv <;> cases hv
  have hzne : List.zipWith add pa.w (ll.map (sub · (fin μ))) ≠ [] := by
    intro h
    rw [h] at hm'
    cases hm'
  obtain ⟨m1, hm1, e1, hmax1⟩ := fMax_spec hzne hznan
  have e0 := hm'.symm.trans e1; cases e0
  by_cases h5 : Spec.SomePossible pa.w ll
  · right
    obtain ⟨i, x, y, hx, hy⟩ := h5
    obtain ⟨ν, rfl⟩ : ∃ ν, m' = fin ν := by
      obtain ⟨j, a, b, ha, hb, hv⟩ := back _ hm1
      rcases shape a b (List.mem_of_getElem? ha) (List.mem_of_getElem? hb) with ⟨x', y', -, -, h⟩ | ⟨h, -⟩
      · exact ⟨_, hv.trans h⟩
      · exfalso
        have h6 := hmax1 _ (List.mem_of_getElem? (entry i _ _ hx hy))
        rw [hv, h] at h6
        simp [sub, neg, Flt.add, Flt.lt] at h6
    have outEntry : ∀ (i : ℕ) (a b : Flt), pa.w[i]? = some a → ll[i]? = some b →
        ((List.zipWith add pa.w (ll.map (sub · (fin μ)))).map (sub · (fin ν)))[i]?
          = some (sub (add a (sub b (fin μ))) (fin ν)) := by
      intro i a b ha hb
      rw [List.getElem?_map, entry i a b ha hb]; rfl
    refine ⟨?_, h3, h1, h2, ⟨i, x, y, hx, hy⟩, μ + ν, ?_, ?_, ?_⟩
    · intro h
      obtain ⟨v, hv, hvn⟩ := List.mem_map.mp h
      obtain ⟨j, a, b, ha, hb, hv'⟩ := back _ hv
      rcases shape a b (List.mem_of_getElem? ha) (List.mem_of_getElem? hb) with ⟨x', y', -, -, h⟩ | ⟨h, -⟩ <;>
        rw [hv', h] at hvn <;> simp [sub, neg, Flt.add] at hvn
    · cases pa.w_offset <;> simp [Flt.add]; ring
    · intro j a b ha hb
      refine ⟨_, outEntry j a b ha hb, ?_⟩
      have h6 := hmax1 _ (List.mem_of_getElem? (entry j a b ha hb))
      rcases shape a b (List.mem_of_getElem? ha) (List.mem_of_getElem? hb) with ⟨x', y', rfl, rfl, h⟩ | ⟨h, h'⟩
      · rw [h] at h6 ⊢
        simp only [Flt.lt, not_lt] at h6
        refine ⟨Or.inr ⟨x' + y' - μ - ν, by linarith, ?_⟩, ?_⟩
        · simp [sub, neg, Flt.add]; ring
        · simp only [sub, neg, Flt.add, Spec.densityOf, ← exp_add]
          congr 1; ring
      · rw [h]
        refine ⟨Or.inl rfl, ?_⟩
        rcases h' with rfl | rfl <;> simp [sub, neg, Flt.add, Spec.densityOf]
    · exact List.mem_map.mpr ⟨fin ν, hm1, by simp [sub, neg, Flt.add]⟩
  · left
    refine ⟨?_, Or.inr (Or.inr (Or.inr h5))⟩
    have hall : ∀ v ∈ List.zipWith add pa.w (ll.map (sub · (fin μ))), v = ninf := by
      intro v hv
      obtain ⟨j, a, b, ha, hb, hv'⟩ := back _ hv
      rcases shape a b (List.mem_of_getElem? ha) (List.mem_of_getElem? hb) with ⟨x', y', rfl, rfl, h⟩ | ⟨h, -⟩
      · exact absurd ⟨j, x', y', ha, hb⟩ h5
      · rw [hv', h]
    have : m' = ninf := hall _ hm1
    subst this
    intro x hx
    obtain ⟨v, hv, rfl⟩ := List.mem_map.mp hx
    rw [hall v hv]; rfl

/-! ## C20: one measurement -/

/-- **C20**: for every vector of old log-weights without `+inf` (the only ones a filter can have,
`C20_run`) and every vector of log-likelihoods, `measure` does not raise and gives either only `nan`
weights or none; in the second case every weight is a number `≤ 0` or `-inf`, and one is 0. -/
theorem C20_all_or_none {pa : FW} {ll : List Flt} (hl : pa.w.length = ll.length) (hne : ll ≠ [])
    (hw : pinf ∉ pa.w) :
    ∃ out, fWeightUpdate pa ll = .ok out ∧ out.w.length = ll.length
      ∧ ((∀ x ∈ out.w, x = nan)
        ∨ ((∀ x ∈ out.w, x = ninf ∨ ∃ y ≤ 0, x = fin y) ∧ fin 0 ∈ out.w)) := by
  obtain ⟨out, h1, h2, h3⟩ := fWeightUpdate_cases hl hne hw
  refine ⟨out, h1, h2, ?_⟩
  rcases h3 with h | ⟨-, -, -, -, -, c, -, h4, h5⟩
  · exact Or.inl h.1
  · refine Or.inr ⟨fun x hx => ?_, h5⟩
    obtain ⟨i, hi, hv⟩ := List.mem_iff_getElem.mp hx
    obtain ⟨v, hv1, hv2, -⟩ := h4 i pa.w[i] ll[i] (List.getElem?_eq_getElem (by omega))
      (List.getElem?_eq_getElem (by omega))
    rw [List.getElem?_eq_getElem hi, Option.some.injEq, hv] at hv1
    rw [hv1]; exact hv2

/-- **C20**: the weights become `nan` exactly if one of the old weights or log-likelihoods is `nan`, a
log-likelihood is `+inf`, or no particle has both a finite old weight and a finite log-likelihood. In
particular, with log-likelihoods in `[-inf, ∞)` and sane old weights: iff every particle is impossible. -/
theorem C20_nan_iff {pa out : FW} {ll : List Flt} (hl : pa.w.length = ll.length) (hne : ll ≠ [])
    (hw : pinf ∉ pa.w) (h : fWeightUpdate pa ll = .ok out) :
    nan ∈ out.w ↔ nan ∈ pa.w ∨ nan ∈ ll ∨ pinf ∈ ll ∨ ¬ Spec.SomePossible pa.w ll := by
  obtain ⟨out', h1, h2, h3⟩ := fWeightUpdate_cases hl hne hw
  have := h1.symm.trans h; cases this
  rcases h3 with ⟨h4, h5⟩ | ⟨h4, h5, h6, h7, h8, -⟩
  · refine ⟨fun _ => h5, fun _ => ?_⟩
    obtain ⟨x, hx⟩ := List.exists_mem_of_ne_nil out.w (by
      intro h0; rw [h0] at h2; exact hne (List.length_eq_zero_iff.mp h2.symm))
    rwa [h4 x hx] at hx
  · exact ⟨fun h => absurd h h4, fun h => by
      rcases h with h | h | h | h
      · exact absurd h h5
      · exact absurd h h6
      · exact absurd h h7
      · exact absurd h8 h⟩

/-- **C20**: otherwise the update is Bayes' rule, impossible particles (`-inf`) having weight 0: the new
weight times `exp` of the change of the offset is the old weight times the likelihood, for every
particle. -/
theorem C20_bayes {pa out : FW} {ll : List Flt} (hl : pa.w.length = ll.length) (hne : ll ≠ [])
    (hw : pinf ∉ pa.w) (h : fWeightUpdate pa ll = .ok out) (hn : nan ∉ out.w) :
    ∃ c : ℝ, out.w_offset = pa.w_offset.add (fin c)
      ∧ ∀ (i : ℕ) (a b : Flt), pa.w[i]? = some a → ll[i]? = some b → ∃ v, out.w[i]? = some v
        ∧ Spec.densityOf v * exp c = Spec.densityOf a * Spec.densityOf b := by
  obtain ⟨out', h1, h2, h3⟩ := fWeightUpdate_cases hl hne hw
  have := h1.symm.trans h; cases this
  rcases h3 with ⟨h4, -⟩ | ⟨-, -, -, -, -, c, h4, h5, -⟩
  · exfalso
    obtain ⟨x, hx⟩ := List.exists_mem_of_ne_nil out.w (by
      intro h0; rw [h0] at h2; exact hne (List.length_eq_zero_iff.mp h2.symm))
    exact hn (by rwa [h4 x hx] at hx)
  · refine ⟨c, h4, fun i a b ha hb => ?_⟩
    obtain ⟨v, hv, -, hd⟩ := h5 i a b ha hb
    exact ⟨v, hv, hd⟩

end PyPE

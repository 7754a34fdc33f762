import Verif.Smooth.Model
import Verif.Filter.Cond

/-!
# Lemmas about one backward step of the smoothers
-/

namespace PyPE
open Real Spec

variable {P U Y V Ω : Type}

/-! ### Specification vocabulary -/

/-- The model's density callback computes `log p(future trajectory j | particle i) = L i j`, element by element: for
every list of particle indices and every list of indices of the `F` future trajectories of the same length. -/
def Spec.BackwardDensity (S : SmoothCallbacks P U Y V Ω) (pa : PA P) (ptraj : List (SStep P)) (pind : List ℕ)
    (fut : List (SStep P)) (D : SData U Y) (cur F : ℕ) (L : ℕ → ℕ → ℝ) : Prop :=
  ∀ (ind fnd : List ℕ) (part : List P) (pi : List ℕ), ind.length = fnd.length → (∀ j ∈ fnd, j < F) →
    fancy pa.part ind = .ok part → fancy pind ind = .ok pi →
    S.logpXnextFull part (some ptraj) (some pi) fut fnd D cur = .ok (List.zipWith L ind fnd)

/-- The unnormalised backward weights of trajectory `j`: `w_i · p(future_j | x_i)`. -/
noncomputable def Spec.backWeights (w : List ℝ) (L : ℕ → ℕ → ℝ) (j : ℕ) : List ℝ :=
  w.zipIdx.map fun wi => exp wi.1 * exp (L wi.2 j)

theorem backWeights_length (w : List ℝ) (L : ℕ → ℕ → ℝ) (j : ℕ) : (backWeights w L j).length = w.length := by
  simp [backWeights]

theorem backWeights_getD (w : List ℝ) (L : ℕ → ℕ → ℝ) (j : ℕ) {i : ℕ} (h : i < w.length) :
    (backWeights w L j).getD i 0 = exp w[i] * exp (L i j) := by
  simp [backWeights, List.getD_eq_getElem?_getD, h]

theorem backWeights_weights {w : List ℝ} (h : w ≠ []) (L : ℕ → ℕ → ℝ) (j : ℕ) : Weights (backWeights w L j) := by
  have hpos : ∀ x ∈ backWeights w L j, 0 < x := by
    intro x hx
    obtain ⟨a, -, rfl⟩ := List.mem_map.mp hx
    positivity
  refine ⟨fun x hx => (hpos x hx).le, List.sum_pos _ hpos ?_⟩
  intro h0
  have := backWeights_length w L j
  rw [h0] at this
  exact h (List.length_eq_zero_iff.mp this.symm)

/-! ### Elementary list facts -/

theorem Shuffle.app_length (s : Shuffle) (l : List ℕ) : (s.app l).length = l.length := by
  simp [Shuffle.app]

theorem Shuffle.app_get (s : Shuffle) (l : List ℕ) (k : ℕ) (h : k < l.length) :
    (s.app l)[k]? = some l[s l.length ⟨k, h⟩] := by
  simp [Shuffle.app, h]

theorem Shuffle.app_mem (s : Shuffle) (l : List ℕ) {x : ℕ} (h : x ∈ s.app l) : x ∈ l := by
  simp only [Shuffle.app, List.mem_ofFn] at h
  obtain ⟨k, rfl⟩ := h
  exact List.getElem_mem _

/-- The normalisation performed by all smoothers: exponentials of the log-weights divided by their sum. -/
theorem maxNormalised_eq {w : List ℝ} (h : w ≠ []) : maxNormalised w = .ok (normWeights w) := by
  obtain ⟨m, hm⟩ := npMax_ok h
  simp only [maxNormalised, hm, ok_bind, pure_eq_ok, expNormalised_eq]
  have := normWeights_shift w (-m)
  simp only [← sub_eq_add_neg] at this
  rw [this]

theorem normWeights_weights {w : List ℝ} (h : w ≠ []) : Weights (normWeights w) := by
  refine ⟨fun x hx => (normWeights_pos h x hx).le, ?_⟩
  rw [normWeights_sum h]; exact one_pos

theorem sample_normWeights (w : List ℝ) (hw : w ≠ []) (n : ℕ) (r : ℝ) :
    sample (normWeights w) n r = sample (w.map exp) n r := by
  have hs := sum_exp_pos hw
  have : normWeights w = (w.map exp).map ((w.map exp).sum⁻¹ * ·) := by
    simp only [normWeights, List.map_map]
    apply List.map_congr_left
    intro x _
    simp only [Function.comp]
    rw [div_eq_inv_mul]
  rw [this, C04_sample_scale_invariant _ _ _ (inv_pos.mpr hs)]

theorem mapM_ok_iff {α β : Type} {f : α → PyM β} {l : List α} {b : List β} :
    l.mapM f = .ok b ↔ b.length = l.length ∧ ∀ (k : ℕ) (x : α), l[k]? = some x → ∃ y, b[k]? = some y ∧ f x = .ok y := by
  induction l generalizing b with
  | nil =>
    simp only [List.mapM_nil, pure_eq_ok]
    constructor
    · rintro h; cases h; simp
    · rintro ⟨h, -⟩
      rw [List.length_nil, List.length_eq_zero_iff] at h; rw [h]
  | cons a l ih =>
    rw [List.mapM_cons]
    constructor
    · intro h
      obtain ⟨x, hx, h⟩ := bind_eq_ok.mp h
      obtain ⟨xs, hxs, h⟩ := bind_eq_ok.mp h
      cases h
      obtain ⟨hl, hk⟩ := ih.mp hxs
      refine ⟨by simp [hl], ?_⟩
      intro k j hj
      cases k with
      | zero =>
        simp only [List.getElem?_cons_zero, Option.some.injEq] at hj ⊢
        subst hj
        exact ⟨x, rfl, hx⟩
      | succ k => simpa using hk k j (by simpa using hj)
    · rintro ⟨hl, hk⟩
      cases b with
      | nil => simp at hl
      | cons x xs =>
        obtain ⟨y, hy, hf⟩ := hk 0 a (by simp)
        simp only [List.getElem?_cons_zero, Option.some.injEq] at hy
        subst hy
        have hxs : l.mapM f = .ok xs := ih.mpr ⟨by simpa using hl, fun k j hj => by
          have := hk (k+1) j (by simpa using hj); simpa using this⟩
        rw [hf, hxs]; rfl

theorem mapM_ok {α β : Type} {f : α → PyM β} {l : List α} (h : ∀ x ∈ l, ∃ y, f x = .ok y) :
    ∃ b, l.mapM f = .ok b := by
  induction l with
  | nil => exact ⟨[], rfl⟩
  | cons a l ih =>
    obtain ⟨y, hy⟩ := h a (by simp)
    obtain ⟨b, hb⟩ := ih fun x hx => h x (by simp [hx])
    exact ⟨y :: b, by rw [List.mapM_cons, hy, hb]; rfl⟩

/-! ### `bsi_full` -/

/-- What `bsi_full` needs: the densities of one future trajectory given all particles. -/
def FullDensity (S : SmoothCallbacks P U Y V Ω) (pa : PA P) (ptraj : List (SStep P)) (pind : List ℕ) (fut : List (SStep P)) (D : SData U Y)
    (cur N F : ℕ) (L : ℕ → ℕ → ℝ) : Prop :=
  ∀ j, j < F → S.logpXnextFull pa.part (some ptraj) (some pind) fut (List.replicate N j) D cur = .ok (List.zipWith L (List.range N) (List.replicate N j))

theorem BackwardDensity.full {S : SmoothCallbacks P U Y V Ω} {pa : PA P} {ptraj : List (SStep P)} {pind : List ℕ}
    {fut : List (SStep P)} {D : SData U Y} {cur N F : ℕ} {L : ℕ → ℕ → ℝ} (hL : BackwardDensity S pa ptraj pind fut D cur F L) (hpa : pa.WF N)
    (hpi : pind.length = N) : FullDensity S pa ptraj pind fut D cur N F L := fun j hj =>
  hL (List.range N) (List.replicate N j) pa.part pind (by simp)
    (fun x hx => by rw [(List.mem_replicate.mp hx).2]; exact hj)
    (by rw [← hpa.part_len]; exact fancy_range _) (by rw [← hpi]; exact fancy_range _)

/-- One entry of `bsi_full`: a draw from the backward weights. -/
theorem bsiFull_entry {S : SmoothCallbacks P U Y V Ω} {pa : PA P} {ptraj : List (SStep P)} {pind : List ℕ}
    {fut : List (SStep P)} {D : SData U Y} {cur N F : ℕ} {L : ℕ → ℕ → ℝ} (hpa : pa.WF N)
    (hN : 0 < N) (hL : FullDensity S pa ptraj pind fut D cur N F L) {j : ℕ} (hj : j < F) (r : ℝ) :
    (do
      let p_next ← S.logpXnextFull pa.part (some ptraj) (some pind) fut (List.replicate pa.w.length j) D cur
      let w ← npAdd pa.w p_next
      let w_norm ← maxNormalised w
      let s ← sample w_norm 1 r
      getIdx s 0 : PyM ℕ) = (do
      let s ← sample (backWeights pa.w L j) 1 r
      getIdx s 0) := by
  have h1 : S.logpXnextFull pa.part (some ptraj) (some pind) fut (List.replicate pa.w.length j) D cur =
      .ok (List.zipWith L (List.range N) (List.replicate pa.w.length j)) := by rw [hpa.w_len]; exact hL j hj
  have hwl := hpa.w_len
  rw [h1]
  simp only [ok_bind]
  rw [npAdd_ok (by simp [hwl])]
  simp only [ok_bind]
  have hne : List.zipWith (· + ·) pa.w (List.zipWith L (List.range N) (List.replicate pa.w.length j)) ≠ [] := by
    intro h
    have := congrArg List.length h
    simp [hwl] at this; omega
  rw [maxNormalised_eq hne]
  simp only [ok_bind]
  rw [sample_normWeights _ hne]
  congr 2
  apply List.ext_getElem?
  intro k
  by_cases hk : k < N
  · simp [backWeights, hwl, hk, exp_add]
  · simp [backWeights, hwl, hk]

/-- `bsi_full` is, entry by entry, one draw from the backward weights. -/
theorem bsiFull_all {S : SmoothCallbacks P U Y V Ω} {pa : PA P} {ptraj : List (SStep P)} {pind : List ℕ}
    {fut : List (SStep P)} {D : SData U Y} {cur N F : ℕ} {L : ℕ → ℕ → ℝ} (hpa : pa.WF N)
    (hN : 0 < N) (hL : FullDensity S pa ptraj pind fut D cur N F L) {find : List ℕ} (hf : ∀ j ∈ find, j < F)
    {rs : ℕ → ℝ} (hr : ∀ k, Unit01 (rs k)) :
    ∃ res, bsiFull S pa ptraj pind fut find D cur rs = .ok res ∧ res.length = find.length ∧
      (∀ i ∈ res, i < N) ∧
      ∀ k j : ℕ, find[k]? = some j → ∃ i, res[k]? = some i ∧ sample (backWeights pa.w L j) 1 (rs k) = .ok [i] := by
  have hne := hpa.w_ne hN
  have key : ∀ j k : ℕ, ∃ i, (do
      let s ← sample (backWeights pa.w L j) 1 (rs k)
      getIdx s 0 : PyM ℕ) = .ok i ∧ i < N ∧ sample (backWeights pa.w L j) 1 (rs k) = .ok [i] := by
    intro j k
    obtain ⟨idx, h, hl, hlt⟩ := C01_sample_length_range (backWeights_weights hne L j) 1 (hr k)
    obtain ⟨i, rfl⟩ := List.length_eq_one_iff.mp hl
    refine ⟨i, by rw [h]; rfl, ?_, h⟩
    have := hlt i (by simp)
    rwa [backWeights_length, hpa.w_len] at this
  have hok : ∃ res, bsiFull S pa ptraj pind fut find D cur rs = .ok res := by
    unfold bsiFull
    apply mapM_ok
    intro x hx
    obtain ⟨i, hi, -⟩ := key x.1 x.2
    exact ⟨i, by rw [bsiFull_entry hpa hN hL (hf _ (List.fst_mem_of_mem_zipIdx hx))]; exact hi⟩
  obtain ⟨res, hres⟩ := hok
  refine ⟨res, hres, ?_⟩
  unfold bsiFull at hres
  obtain ⟨hlen, hk⟩ := mapM_ok_iff.mp hres
  simp only [List.length_zipIdx] at hlen
  have hent : ∀ k j : ℕ, find[k]? = some j → ∃ i, res[k]? = some i ∧ i < N ∧
      sample (backWeights pa.w L j) 1 (rs k) = .ok [i] := by
    intro k j hj
    obtain ⟨y, hy, hg⟩ := hk k (j, k) (by rw [List.getElem?_zipIdx]; simp [hj])
    rw [bsiFull_entry hpa hN hL (hf _ (List.mem_of_getElem? hj))] at hg
    obtain ⟨i, hi, hlt, hs⟩ := key j k
    simp only at hg
    rw [hi] at hg
    cases hg
    exact ⟨_, hy, hlt, hs⟩
  refine ⟨hlen, ?_, fun k j hj => ?_⟩
  · intro i hi
    obtain ⟨k, hk1, rfl⟩ := List.getElem_of_mem hi
    obtain ⟨i', h1, h2, -⟩ := hent k (find[k]'(by omega)) (by simp)
    rw [List.getElem?_eq_getElem hk1] at h1
    cases h1; exact h2
  · obtain ⟨i, h1, -, h3⟩ := hent k j hj
    exact ⟨i, h1, h3⟩

/-- `bsi_full` is, entry by entry, one draw from the backward weights. -/
theorem bsiFull_spec {S : SmoothCallbacks P U Y V Ω} {pa : PA P} {ptraj : List (SStep P)} {pind : List ℕ}
    {fut : List (SStep P)} {D : SData U Y} {cur N F : ℕ} {L : ℕ → ℕ → ℝ} (hpa : pa.WF N) (hpi : pind.length = N)
    (hN : 0 < N) (hL : BackwardDensity S pa ptraj pind fut D cur F L) {find : List ℕ} (hf : ∀ j ∈ find, j < F)
    {rs : ℕ → ℝ} (hr : ∀ k, Unit01 (rs k)) :
    ∃ res, bsiFull S pa ptraj pind fut find D cur rs = .ok res ∧ res.length = find.length ∧
      (∀ i ∈ res, i < N) ∧
      ∀ k j : ℕ, find[k]? = some j → ∃ i, res[k]? = some i ∧ sample (backWeights pa.w L j) 1 (rs k) = .ok [i] :=
  bsiFull_all hpa hN (BackwardDensity.full hL hpa hpi) hf hr

/-! ### One round of rejection sampling -/

/-- What a round does to the arrays, for arbitrary proposals and acceptance bits. -/
theorem roundArrays (todo ind : List ℕ) (acc : List Bool) (res : List (Option ℕ)) (h1 : ind.length = todo.length)
    (h2 : acc.length = todo.length) (hnd : todo.Nodup) (hlt : ∀ x ∈ todo, x < res.length) :
    let A := ((todo.zip ind).zip acc).filter (·.2)
    let R := scatter res (A.map (·.1.1)) (A.map fun p => some p.1.2)
    R.length = res.length ∧
    (∀ k x i : ℕ, todo[k]? = some x → ind[k]? = some i → acc[k]? = some true → R[x]? = some (some i)) ∧
    (∀ x, (∀ k : ℕ, todo[k]? = some x → acc[k]? = some false) → R[x]? = res[x]?) := by
  induction todo generalizing ind acc res with
  | nil => simp [scatter]
  | cons x todo ih =>
    obtain ⟨i, ind, rfl⟩ : ∃ i is, ind = i :: is := by
      cases ind with
      | nil => simp at h1
      | cons i is => exact ⟨i, is, rfl⟩
    obtain ⟨b, acc, rfl⟩ : ∃ i is, acc = i :: is := by
      cases acc with
      | nil => simp at h2
      | cons i is => exact ⟨i, is, rfl⟩
    simp only [List.length_cons, Nat.add_right_cancel_iff] at h1 h2
    rw [List.nodup_cons] at hnd
    cases b with
    | false =>
      have := ih ind acc res h1 h2 hnd.2 (fun y hy => hlt y (by simp [hy]))
      simp only [List.zip_cons_cons, Bool.false_eq_true, not_false_eq_true, List.filter_cons_of_neg] at this ⊢
      refine ⟨this.1, ?_, ?_⟩
      · intro k y j hk hj hb
        cases k with
        | zero => simp at hb
        | succ k => exact this.2.1 k y j (by simpa using hk) (by simpa using hj) (by simpa using hb)
      · intro y hy
        exact this.2.2 y fun k hk => by simpa using hy (k+1) (by simpa using hk)
    | true =>
      have hx := hlt x (by simp)
      have := ih ind acc (res.set x (some i)) h1 h2 hnd.2 (fun y hy => by simpa using hlt y (by simp [hy]))
      simp only [List.zip_cons_cons, List.filter_cons_of_pos, List.map_cons, scatter, List.foldl_cons] at this ⊢
      refine ⟨by simpa using this.1, ?_, ?_⟩
      · intro k y j hk hj hb
        cases k with
        | zero =>
          simp only [List.getElem?_cons_zero, Option.some.injEq] at hk hj
          subst hk; subst hj
          rw [this.2.2 x fun k hk => absurd (List.mem_of_getElem? hk) hnd.1]
          simp [hx]
        | succ k => exact this.2.1 k y j (by simpa using hk) (by simpa using hj) (by simpa using hb)
      · intro y hy
        have hne : x ≠ y := by
          rintro rfl
          have := hy 0 (by simp)
          simp at this
        rw [this.2.2 y fun k hk => by simpa using hy (k+1) (by simpa using hk)]
        rw [List.getElem?_set_ne hne]

theorem rejected_spec (todo : List ℕ) (acc : List Bool) (h : acc.length = todo.length) :
    (((todo.zip acc).filter (fun p => !p.2)).map (·.1)).Sublist todo ∧
    ∀ x, x ∈ ((todo.zip acc).filter (fun p => !p.2)).map (·.1) ↔
      ∃ k : ℕ, todo[k]? = some x ∧ acc[k]? = some false := by
  constructor
  · have h1 : ((todo.zip acc).filter (fun p => !p.2)).Sublist (todo.zip acc) := List.filter_sublist
    have h2 := h1.map Prod.fst
    rwa [List.map_fst_zip (by omega)] at h2
  · intro x
    simp only [List.mem_map, List.mem_filter, Bool.not_eq_eq_eq_not, Bool.not_true, Prod.exists,
      exists_and_right, exists_eq_right]
    constructor
    · intro hm
      obtain ⟨k, hk⟩ := List.mem_iff_getElem?.mp hm
      rw [List.getElem?_zip_eq_some] at hk
      exact ⟨k, hk.1, hk.2⟩
    · rintro ⟨k, hk, hb⟩
      exact List.mem_iff_getElem?.mpr ⟨k, List.getElem?_zip_eq_some.mpr ⟨hk, hb⟩⟩

/-- The bit of entry `k` of an attempt: accept particle `i` for trajectory `j`? -/
def Spec.accepts (L : ℕ → ℕ → ℝ) (maxpdf : ℝ) (a : Attempt) (k i j : ℕ) : Prop :=
  a.u k < exp (L i j - maxpdf)

/-- What one round of rejection sampling does: with `q` the systematic sample and `ind` its random rearrangement,
entry `todo[k]` is decided to be `ind[k]` if the test accepts, and stays in `todo` otherwise. -/
theorem rsRound_spec {S : SmoothCallbacks P U Y V Ω} {pa : PA P} {ptraj : List (SStep P)} {pind : List ℕ}
    {fut : List (SStep P)} {D : SData U Y} {cur N F : ℕ} {L : ℕ → ℕ → ℝ} (hpa : pa.WF N) (hpi : pind.length = N)
    (hN : 0 < N) (hL : BackwardDensity S pa ptraj pind fut D cur F L) (maxpdf : ℝ) (a : Attempt)
    (hr : Unit01 a.r) {todo : List ℕ} {res : List (Option ℕ)} (hnd : todo.Nodup) (hlt : ∀ x ∈ todo, x < res.length)
    (htF : ∀ x ∈ todo, x < F) :
    ∃ q res' todo', sample (normWeights pa.w) todo.length a.r = .ok q ∧ q.length = todo.length ∧
      (∀ i ∈ q, i < N) ∧
      rsRound S pa ptraj pind fut D cur (normWeights pa.w) maxpdf a todo res = .ok (res', todo') ∧
      res'.length = res.length ∧ todo'.Sublist todo ∧
      (∀ k x i : ℕ, todo[k]? = some x → (a.sh.app q)[k]? = some i →
        (accepts L maxpdf a k i x → res'[x]? = some (some i) ∧ x ∉ todo') ∧
        (¬ accepts L maxpdf a k i x → res'[x]? = res[x]? ∧ x ∈ todo')) ∧
      (∀ x, x ∉ todo → res'[x]? = res[x]?) := by
  have hne := hpa.w_ne hN
  obtain ⟨q, hq, hql, hqr⟩ := C01_sample_length_range (normWeights_weights hne) todo.length hr
  rw [normWeights_length, hpa.w_len] at hqr
  set ind := a.sh.app q with hind
  have hil : ind.length = todo.length := by rw [hind, Shuffle.app_length, hql]
  have hir : ∀ i ∈ ind, i < N := fun i hi => hqr i (Shuffle.app_mem _ _ hi)
  obtain ⟨part, hpart⟩ := fancy_ok (a := pa.part) (ind := ind) (by rw [hpa.part_len]; exact hir)
  obtain ⟨pi, hpi'⟩ := fancy_ok (a := pind) (ind := ind) (by rw [hpi]; exact hir)
  have hcall := hL ind todo part pi hil htF hpart hpi'
  set pn := List.zipWith L ind todo with hpn
  have hpl : pn.length = todo.length := by simp [hpn, hil]
  set acc := pn.zipIdx.map fun pk => decide (a.u pk.2 < exp (pk.1 - maxpdf)) with hacc
  have hal : acc.length = todo.length := by simp [hacc, hpl]
  have haccget : ∀ k x i : ℕ, todo[k]? = some x → ind[k]? = some i →
      acc[k]? = some (decide (a.u k < exp (L i x - maxpdf))) := by
    intro k x i hx hi
    simp [hacc, hpn, hx, hi, List.getElem?_zipWith]
  have hA := roundArrays todo ind acc res hil hal hnd hlt
  have hR := rejected_spec todo acc hal
  refine ⟨q, _, _, hq, hql, hqr, ?_, hA.1, hR.1, ?_, ?_⟩
  · simp only [rsRound, hq, ok_bind, ← hind, hpart, hpi', hcall, hpl, if_true, ← hacc]
    rfl
  · intro k x i hx hi
    have hb := haccget k x i hx hi
    have huniq : ∀ k' : ℕ, todo[k']? = some x → k' = k := by
      intro k' hk'
      obtain ⟨hl1, e1⟩ := List.getElem?_eq_some_iff.mp hk'
      obtain ⟨hl2, e2⟩ := List.getElem?_eq_some_iff.mp hx
      exact (List.Nodup.getElem_inj_iff hnd).mp (e1.trans e2.symm)
    constructor
    · intro hac
      have hb' : acc[k]? = some true := by
        rw [hb]; congr 1; exact decide_eq_true (p := _ < _) hac
      refine ⟨hA.2.1 k x i hx hi hb', ?_⟩
      rw [hR.2]
      rintro ⟨k', hk', hf⟩
      rw [huniq k' hk', hb'] at hf
      simp at hf
    · intro hac
      have hb' : acc[k]? = some false := by
        rw [hb]; congr 1; exact decide_eq_false (p := _ < _) hac
      refine ⟨hA.2.2 x fun k' hk' => by rw [huniq k' hk']; exact hb', (hR.2 x).mpr ⟨k, hx, hb'⟩⟩
  · intro x hx
    exact hA.2.2 x fun k hk => absurd (List.mem_of_getElem? hk) hx

end PyPE

import Verif.Param.EmProps

/-!
# Weighted trajectories of SAEM / PSAEM (C55)
-/

namespace PyPE

namespace Spec

/-- Weighted sum `∑ⱼ wⱼ f(xⱼ)`. -/
noncomputable def wsum {X : Type} (f : X → ℝ) (w : List ℝ) (x : List X) : ℝ :=
  (List.zipWith (fun a b => a * f b) w x).sum

/-- The weights of stored trajectories form a probability vector without zeros. -/
def WeightsOk {X : Type} (w : List ℝ) (x : List X) : Prop :=
  w.length = x.length ∧ (∀ a ∈ w, 0 < a) ∧ w.sum = 1

end Spec

open Spec

theorem maskSelect_self {α : Type} (a : List α) (p : α → Bool) :
    maskSelect a (a.map p) = .ok (a.filter p) := by
  rw [maskSelect, if_pos (by simp)]
  congr 1
  induction a with
  | nil => rfl
  | cons x a ih =>
    simp only [List.map_cons, List.zip_cons_cons, List.filter_cons]
    cases hp : p x <;> simp [ih]

theorem maskSelect_other {α β : Type} (a : List α) (b : List β) (p : α → Bool) (h : a.length = b.length) :
    maskSelect b (a.map p) = .ok (((a.zip b).filter fun q => p q.1).map Prod.snd) := by
  rw [maskSelect, if_pos (by simp [h])]
  congr 1
  induction a generalizing b with
  | nil => simp
  | cons x a ih =>
    cases b with
    | nil => simp at h
    | cons y b =>
      simp only [List.map_cons, List.zip_cons_cons, List.filter_cons]
      have := ih b (by simpa using h)
      cases hp : p x <;> simp [this]

theorem filter_eq_zip {α β : Type} (a : List α) (b : List β) (p : α → Bool) (h : a.length = b.length) :
    a.filter p = ((a.zip b).filter fun q => p q.1).map Prod.fst := by
  induction a generalizing b with
  | nil => simp
  | cons x a ih =>
    cases b with
    | nil => simp at h
    | cons y b =>
      simp only [List.zip_cons_cons, List.filter_cons]
      have := ih b (by simpa using h)
      cases hp : p x <;> simp [this]

theorem wsum_filter_pos {X : Type} (f : X → ℝ) (w : List ℝ) (x : List X) (h : w.length = x.length)
    (hw : ∀ a ∈ w, 0 ≤ a) :
    wsum f (w.filter fun a => decide (0 < a)) (((w.zip x).filter fun q => decide (0 < q.1)).map Prod.snd) =
      wsum f w x := by
  induction w generalizing x with
  | nil => simp [wsum]
  | cons a w ih =>
    cases x with
    | nil => simp at h
    | cons b x =>
      have := ih x (by simpa using h) fun a ha => hw a (by simp [ha])
      simp only [wsum] at this
      simp only [wsum, List.zip_cons_cons, List.filter_cons]
      by_cases ha : 0 < a
      · simp [ha, this]
      · have : a = 0 := le_antisymm (not_lt.1 ha) (hw a (by simp))
        simp [*]

theorem sum_filter_pos (w : List ℝ) (hw : ∀ a ∈ w, 0 ≤ a) :
    (w.filter fun a => decide (0 < a)).sum = w.sum := by
  induction w with
  | nil => rfl
  | cons a w ih =>
    have := ih fun a ha => hw a (by simp [ha])
    simp only [List.filter_cons]
    by_cases ha : 0 < a
    · simp [ha, this]
    · have : a = 0 := le_antisymm (not_lt.1 ha) (hw a (by simp))
      simp [*]

theorem getD_mem_or {l : List ℝ} {k : ℕ} (h : k < l.length) : l.getD k 0 ∈ l := by
  rw [List.getD_eq_getElem?_getD, List.getElem?_eq_getElem h]
  exact List.getElem_mem h

/-- A percentile exists for a non-empty array and a percentage in range, and it is at most every upper
bound (and at least every lower bound) of the data. -/
theorem npPercentile_ok {a : List ℝ} {q : ℝ} (ha : a ≠ []) (h0 : 0 ≤ q) (h1 : q ≤ 100) :
    ∃ p, npPercentile a q = .ok p ∧ ∀ m, (∀ x ∈ a, x ≤ m) → p ≤ m := by
  have hl : 0 < a.length := List.length_pos_of_ne_nil ha
  rw [npPercentile, if_neg (by push Not; exact ⟨h0, h1⟩), if_neg ha]
  refine ⟨_, rfl, fun m hm => ?_⟩
  set n := a.length - 1 with hn
  set pos := q / 100 * (n : ℝ) with hpos
  have hp0 : 0 ≤ pos := by positivity
  have hpn : pos ≤ n := by
    rw [hpos]
    have : q / 100 ≤ 1 := by linarith
    nlinarith [Nat.cast_nonneg (α := ℝ) n]
  have hk : ⌊pos⌋₊ ≤ n := by
    have := Nat.floor_mono hpn
    simpa using this
  have hlen : (a.insertionSort (· ≤ ·)).length = a.length := List.length_insertionSort _ _
  have hlo : (a.insertionSort (· ≤ ·)).getD ⌊pos⌋₊ 0 ≤ m :=
    hm _ ((List.mem_insertionSort _).1 (getD_mem_or (by omega)))
  have hhi : (a.insertionSort (· ≤ ·)).getD (min (⌊pos⌋₊ + 1) n) 0 ≤ m :=
    hm _ ((List.mem_insertionSort _).1 (getD_mem_or (by omega)))
  have hf0 : 0 ≤ pos - ⌊pos⌋₊ := sub_nonneg.2 (Nat.floor_le hp0)
  have hf1 : pos - ⌊pos⌋₊ ≤ 1 := by linarith [Nat.lt_floor_add_one pos]
  nlinarith

theorem npPercentile_err {a : List ℝ} {q p : ℝ} (h : npPercentile a q = .ok p) :
    a ≠ [] ∧ 0 ≤ q ∧ q ≤ 100 := by
  rw [npPercentile] at h
  split_ifs at h with h1 h2
  push Not at h1
  exact ⟨h2, h1⟩

theorem discardThreshold_ok {w : List ℝ} {eps q t : ℝ} (h : discardThreshold w eps q = .ok t) :
    ∃ p, npPercentile w q = .ok p ∧ t ≤ eps ∧ (t ≤ 0 ∨ t < p) ∧ (0 ≤ eps → 0 ≤ t) ∧
      (eps ≤ 0 → t = eps) := by
  unfold discardThreshold at h
  rw [bind_eq_ok] at h
  obtain ⟨p, hp, h⟩ := h
  rw [bind_eq_ok] at h
  obtain ⟨wl, hwl, h⟩ := h
  rw [pure_eq_ok] at h
  cases h
  obtain ⟨hmem, hle⟩ := npMax_spec hwl
  have h0 : 0 ≤ wl := hle 0 (by simp)
  refine ⟨p, hp, min_le_left _ _, ?_, fun he => le_min he h0, fun he => min_eq_left (by linarith)⟩
  rw [List.mem_append, List.mem_filter, List.mem_singleton] at hmem
  rcases hmem with ⟨_, hlt⟩ | rfl
  · right
    have : wl < p := by simpa using hlt
    exact lt_of_le_of_lt (min_le_right _ _) this
  · left
    exact min_le_right _ _

theorem discardThreshold_exists {w : List ℝ} {eps q : ℝ} (hw : w ≠ []) (h0 : 0 ≤ q) (h1 : q ≤ 100) :
    ∃ t, discardThreshold w eps q = .ok t := by
  obtain ⟨p, hp, _⟩ := npPercentile_ok hw h0 h1
  obtain ⟨wl, hwl⟩ := npMax_ok (l := w.filter (fun x => decide (x < p)) ++ [0]) (by simp)
  exact ⟨min eps wl, by simp [discardThreshold, hp, hwl, ok_bind]⟩


theorem psPrune_eq {X : Type} {eps q t : ℝ} {mt : ℕ} {w : List ℝ} {x : List X} (hl : w.length = x.length)
    (ht : discardThreshold w eps q = .ok t) :
    psPrune eps q mt w x = .ok
      (normalise (keepLast mt (w.filter fun a => decide (t < a)).length (w.filter fun a => decide (t < a))),
        keepLast mt (w.filter fun a => decide (t < a)).length
          (((w.zip x).filter fun p => decide (t < p.1)).map Prod.snd)) := by
  simp only [psPrune, ht, ok_bind, maskSelect_self, maskSelect_other w x (fun a => decide (t < a)) hl]
  rfl

theorem sum_normalise {w : List ℝ} (h : w.sum ≠ 0) : (normalise w).sum = 1 := by
  have : normalise w = w.map (· * w.sum⁻¹) := by simp [normalise, div_eq_mul_inv]
  rw [this, List.sum_map_mul_right, List.map_id', mul_inv_cancel₀ h]

theorem sum_map_scale (c : ℝ) (l : List ℝ) : (l.map fun x => c * x).sum = c * l.sum := by
  induction l with
  | nil => simp
  | cons a l ih => simp [ih, mul_add]

theorem exists_max {w : List ℝ} (hw : ∀ a ∈ w, 0 ≤ a) (hs : 0 < w.sum) :
    ∃ m ∈ w, 0 < m ∧ ∀ a ∈ w, a ≤ m := by
  obtain ⟨m, hm⟩ := npMax_ok (l := w) (by rintro rfl; simp at hs)
  obtain ⟨h1, h2⟩ := npMax_spec hm
  refine ⟨m, h1, ?_, h2⟩
  by_contra hc
  have : ∀ l : List ℝ, (∀ a ∈ l, a ≤ 0) → l.sum ≤ 0 := by
    intro l
    induction l with
    | nil => simp
    | cons b l ih =>
      intro hb
      have := ih fun a ha => hb a (by simp [ha])
      have := hb b (by simp)
      simp
      linarith
  have := this w fun a ha => (h2 a ha).trans (not_lt.1 hc)
  linarith

theorem mem_keepLast {α : Type} {mt n : ℕ} {l : List α} {a : α} (h : a ∈ keepLast mt n l) : a ∈ l := by
  rw [keepLast] at h
  split_ifs at h
  · exact List.mem_of_mem_drop h
  · exact h

theorem keepLast_ne_nil {α : Type} {mt n : ℕ} {l : List α} (h : l ≠ []) : keepLast mt n l ≠ [] := by
  rw [keepLast]
  split_ifs with hc
  · have := List.length_pos_of_ne_nil h
    intro hd
    have := congrArg List.length hd
    simp at this
    omega
  · exact h

theorem length_keepLast {α β : Type} {mt n : ℕ} {l : List α} {l' : List β} (h : l.length = l'.length) :
    (keepLast mt n l).length = (keepLast mt n l').length := by
  rw [keepLast, keepLast]
  split_ifs <;> simp [h]

/-- **C55**: pruning non-negative weights of sum one (with `discard_eps ≥ 0`) leaves a probability vector
without zeros, aligned with the trajectories that are kept; at least one is kept, and at most `max_traj` if
that is positive. -/
theorem C55_prune_weights {X : Type} {eps q : ℝ} {mt : ℕ} {w w' : List ℝ} {x x' : List X}
    (hl : w.length = x.length) (hw : ∀ a ∈ w, 0 ≤ a) (hs : w.sum = 1) (he : 0 ≤ eps)
    (h : psPrune eps q mt w x = .ok (w', x')) :
    WeightsOk w' x' ∧ w' ≠ [] ∧ (0 < mt → w'.length ≤ mt) := by
  obtain ⟨t, ht⟩ : ∃ t, discardThreshold w eps q = .ok t := by
    unfold psPrune at h
    rw [bind_eq_ok] at h
    obtain ⟨t, ht, _⟩ := h
    exact ⟨t, ht⟩
  rw [psPrune_eq hl ht] at h
  simp only [Except.ok.injEq, Prod.mk.injEq] at h
  obtain ⟨rfl, rfl⟩ := h
  obtain ⟨p, hp, _, htp, ht0, _⟩ := discardThreshold_ok ht
  obtain ⟨hne, hq0, hq1⟩ := npPercentile_err hp
  obtain ⟨p', hp', hpm⟩ := npPercentile_ok hne hq0 hq1
  rw [hp] at hp'
  cases hp'
  obtain ⟨m, hm, hm0, hmax⟩ := exists_max hw (by rw [hs]; exact one_pos)
  have htm : t < m := by
    rcases htp with h | h
    · linarith
    · exact lt_of_lt_of_le h (hpm m hmax)
  set k := w.filter fun a => decide (t < a) with hk
  have hkne : k ≠ [] := by
    intro hc
    have : m ∈ k := by rw [hk, List.mem_filter]; exact ⟨hm, by simpa using htm⟩
    rw [hc] at this
    simp at this
  have hkpos : ∀ a ∈ keepLast mt k.length k, 0 < a := by
    intro a ha
    have := mem_keepLast ha
    rw [hk, List.mem_filter] at this
    have h2 : t < a := by simpa using this.2
    exact lt_of_le_of_lt (ht0 he) h2
  have hsum : 0 < (keepLast mt k.length k).sum := List.sum_pos _ hkpos (keepLast_ne_nil hkne)
  have hlen : k.length = (((w.zip x).filter fun p => decide (t < p.1)).map Prod.snd).length := by
    rw [hk, filter_eq_zip w x _ hl, List.length_map, List.length_map]
  refine ⟨⟨?_, ?_, sum_normalise hsum.ne'⟩, ?_, ?_⟩
  · rw [normalise, List.length_map]
    exact length_keepLast hlen
  · intro a ha
    rw [normalise, List.mem_map] at ha
    obtain ⟨b, hb, rfl⟩ := ha
    exact div_pos (hkpos b hb) hsum
  · intro hc
    have := keepLast_ne_nil (mt := mt) (n := k.length) hkne
    apply this
    have := congrArg List.length hc
    rw [normalise, List.length_map] at this
    exact List.length_eq_zero_iff.1 this
  · intro hmt
    rw [normalise, List.length_map, keepLast]
    split_ifs with hc
    · simp
      omega
    · push Not at hc
      exact hc hmt

/-- **C55**: what pruning discards, when the number of trajectories is not limited: a trajectory is
discarded iff its weight is at most the threshold; every discarded weight is at most `discard_eps`, and is
zero or smaller than the percentile. Any trajectory with the largest weight is kept. -/
theorem C55_prune_discards {X : Type} {eps q : ℝ} {w w' : List ℝ} {x x' : List X}
    (hl : w.length = x.length) (h : psPrune eps q 0 w x = .ok (w', x')) :
    ∃ t p, npPercentile w q = .ok p ∧ t ≤ eps ∧ (t ≤ 0 ∨ t < p) ∧
      x' = ((w.zip x).filter fun z => decide (t < z.1)).map Prod.snd ∧
      ∀ z ∈ w.zip x, 0 < z.1 → (∀ a ∈ w, a ≤ z.1) → z.2 ∈ x' := by
  obtain ⟨t, ht⟩ : ∃ t, discardThreshold w eps q = .ok t := by
    unfold psPrune at h
    rw [bind_eq_ok] at h
    obtain ⟨t, ht, _⟩ := h
    exact ⟨t, ht⟩
  rw [psPrune_eq hl ht] at h
  simp only [Except.ok.injEq, Prod.mk.injEq] at h
  obtain ⟨p, hp, h1, h2, _⟩ := discardThreshold_ok ht
  have hx : x' = ((w.zip x).filter fun z => decide (t < z.1)).map Prod.snd := by
    rw [← h.2]
    simp [keepLast]
  refine ⟨t, p, hp, h1, h2, hx, fun z hz hz0 hmax => ?_⟩
  obtain ⟨hne, hq0, hq1⟩ := npPercentile_err hp
  obtain ⟨p', hp', hpm⟩ := npPercentile_ok hne hq0 hq1
  rw [hp] at hp'
  cases hp'
  have htz : t < z.1 := by
    rcases h2 with h | h
    · linarith
    · exact lt_of_lt_of_le h (hpm z.1 hmax)
  rw [hx, List.mem_map]
  exact ⟨z, List.mem_filter.2 ⟨hz, by simpa using htz⟩, rfl⟩

/-- **C55**: with the default `discard_eps = 0` and no limit, pruning changes no weighted average. -/
theorem C55_prune_default {X : Type} {q : ℝ} {w w' : List ℝ} {x x' : List X}
    (hl : w.length = x.length) (hw : ∀ a ∈ w, 0 ≤ a) (hs : w.sum = 1)
    (h : psPrune 0 q 0 w x = .ok (w', x')) (f : X → ℝ) : wsum f w' x' = wsum f w x := by
  obtain ⟨t, ht⟩ : ∃ t, discardThreshold w 0 q = .ok t := by
    unfold psPrune at h
    rw [bind_eq_ok] at h
    obtain ⟨t, ht, _⟩ := h
    exact ⟨t, ht⟩
  rw [psPrune_eq hl ht] at h
  simp only [Except.ok.injEq, Prod.mk.injEq] at h
  obtain ⟨rfl, rfl⟩ := h
  obtain ⟨_, _, _, _, _, ht0⟩ := discardThreshold_ok ht
  obtain rfl : t = 0 := ht0 le_rfl
  have hn : normalise (w.filter fun a => decide (0 < a)) = w.filter fun a => decide (0 < a) := by
    rw [normalise, sum_filter_pos w hw, hs]
    simp
  simp only [keepLast, lt_irrefl, false_and, if_false, hn]
  exact wsum_filter_pos f w x hl hw

theorem wsum_append {X : Type} (f : X → ℝ) (w v : List ℝ) (x y : List X) (h : w.length = x.length) :
    wsum f (w ++ v) (x ++ y) = wsum f w x + wsum f v y := by
  simp [wsum, List.zipWith_append h]

theorem wsum_scale {X : Type} (f : X → ℝ) (c : ℝ) (w : List ℝ) (x : List X) :
    wsum f (w.map fun a => c * a) x = c * wsum f w x := by
  induction w generalizing x with
  | nil => simp [wsum]
  | cons a w ih =>
    cases x with
    | nil => simp [wsum]
    | cons b x =>
      have := ih x
      simp only [wsum] at this ⊢
      simp [this]
      ring

theorem sum_uniformW {n : ℕ} (h : 0 < n) : (uniformW n).sum = 1 := by
  rw [uniformW, List.sum_replicate, nsmul_eq_mul]
  have : (n : ℝ) ≠ 0 := by positivity
  field_simp

theorem wsum_uniformW {X : Type} (f : X → ℝ) (x : List X) :
    wsum f (uniformW x.length) x = (x.map f).sum / x.length := by
  have key : ∀ (c : ℝ) (x : List X), wsum f (List.replicate x.length c) x = c * (x.map f).sum := by
    intro c x
    induction x with
    | nil => simp [wsum]
    | cons b x ih =>
      simp only [wsum] at ih
      simp [wsum, List.replicate_succ, ih]
      ring
  rw [uniformW, key]
  ring

/-- The mixed weights are non-negative with sum one, aligned with the mixed trajectories. -/
theorem mix_ok {X : Type} {acc : Option (List ℝ × List X)} {α : ℝ} {v : List ℝ} {y : List X}
    (hacc : ∀ w x, acc = some (w, x) → WeightsOk w x) (h0 : 0 ≤ α) (h1 : α ≤ 1)
    (hl : v.length = y.length) (hv : ∀ a ∈ v, 0 ≤ a) (hs : v.sum = 1) :
    (mixWeights (acc.map Prod.fst) α v).length = (mixTrajs (acc.map Prod.snd) y).length ∧
      (∀ a ∈ mixWeights (acc.map Prod.fst) α v, 0 ≤ a) ∧ (mixWeights (acc.map Prod.fst) α v).sum = 1 := by
  cases acc with
  | none => exact ⟨hl, hv, hs⟩
  | some p =>
    obtain ⟨w, x⟩ := p
    obtain ⟨hwl, hwp, hws⟩ := hacc w x rfl
    refine ⟨by simp [mixWeights, mixTrajs, hwl, hl], ?_, ?_⟩
    · intro a ha
      simp only [mixWeights, Option.map_some, List.mem_append, List.mem_map] at ha
      rcases ha with ⟨b, hb, rfl⟩ | ⟨b, hb, rfl⟩
      · exact mul_nonneg (by linarith) (hwp b hb).le
      · exact mul_nonneg h0 (hv b hb)
    · simp only [mixWeights, Option.map_some, List.sum_append, sum_map_scale]
      rw [hws, hs]
      ring

/-- One step of the stochastic approximation. -/
noncomputable def saStep (α : ℝ) : Option ℝ → ℝ → ℝ
  | none, m => m
  | some S, m => (1 - α) * S + α * m

theorem wsum_mix {X : Type} {acc : Option (List ℝ × List X)} {α : ℝ} {v : List ℝ} {y : List X}
    (hacc : ∀ w x, acc = some (w, x) → WeightsOk w x) (f : X → ℝ) :
    wsum f (mixWeights (acc.map Prod.fst) α v) (mixTrajs (acc.map Prod.snd) y) =
      saStep α (acc.map fun a => wsum f a.1 a.2) (wsum f v y) := by
  cases acc with
  | none => rfl
  | some p =>
    obtain ⟨w, x⟩ := p
    obtain ⟨hwl, _⟩ := hacc w x rfl
    simp only [mixWeights, mixTrajs, Option.map_some, saStep]
    rw [wsum_append _ _ _ _ _ (by simpa using hwl), wsum_scale, wsum_scale]

end PyPE

import Verif.Examples.ParamScript

/-!
# C117: the objective of `test/manual/paramest/standard_nonlin_model.py`
-/

namespace PyPE
open Real Spec MeasureTheory ProbabilityTheory Matrix
open scoped ENNReal

variable {U V Ω : Type}

/-! ### The data vectors end with the run -/

/-- A trajectory created without `T` whose last call is a `forward`: the data vectors are exactly as long as the run. -/
theorem run_exact {P Y : Type} {F : FilterOps P U Y V Ω} {N : ℕ} {s0 s : PT P U Y} (h0 : PT.init N none 0 = .ok s0) (fs : Option (Slot Y × Ω))
    {qs : List (Slot U × Slot Y)} {ds : List (Slot U × Slot Y × Ω × Draws Ω)} (hds : (ds.map fun q => (q.1, q.2.1)) = qs) (hne : qs ≠ [])
    {bs : List (Option Bool)} (h : s0.run F (history fs ds) = (s, .ok bs)) :
    s.yvec = (fs.map (·.1)).getD .none :: qs.map (·.2) ∧ s.tvec = List.range (qs.length + 1) := by
  have hrec := run_recorded h0 fs hds (fun _ => hne) h
  have hrep := PT.run_rep _ (PT.init_rep h0) h
  have hdne : ds ≠ [] := fun e => hne (by rw [← hds, e]; rfl)
  have hl : ds.length = qs.length := by rw [← hds, List.length_map]
  rw [history_log _ _ _ (fun _ => hdne)] at hrep
  have hind : s.ind1 = qs.length + 1 := by rw [hrep.ind]; simp [hl]
  have hT : s.T = s.ind1 := by
    obtain ⟨ds', q, rfl⟩ := List.eq_nil_or_concat ds |>.resolve_left hdne
    have e : history fs (ds'.concat q) = history fs ds' ++ [Op.forward q.1 q.2.1 q.2.2.1 q.2.2.2] := by
      simp [history]
    rw [e] at h
    obtain ⟨s1, bs1, b, h1, h2⟩ := PT.run_concat _ _ h
    have r1 := PT.run_rep _ (PT.init_rep h0) h1
    have k1 := PT.run_room _ (PT.init_rep h0) h1
    obtain ⟨k2, k3, k4⟩ := PT.step_room r1 h2
    have k5 := k4 _ _ _ _ rfl
    have r2 := PT.step_rep r1 h2
    have hi : s1.ind1 + 1 ≤ s.ind1 := by
      rw [r1.ind, r2.ind]
      simp only [Spec.Log.step, Spec.Log.forward]
      split_ifs with hys <;> simp [hys]
    have hT0 : s0.T = 0 := by
      obtain rfl := Except.ok.inj h0
      rfl
    omega
  have hyl : s.yvec.length = qs.length + 1 := by rw [hrep.inv.ylen, hT, hind]; omega
  have htl : s.tvec.length = qs.length + 1 := by rw [hrep.inv.tlen, hT, hind]; omega
  constructor
  · apply List.ext_getElem?
    intro i
    rcases i with _ | i
    · exact hrec.y0
    · rw [List.getElem?_cons_succ, List.getElem?_map]
      rcases hq : qs[i]? with _ | q
      · rw [List.getElem?_eq_none_iff] at hq
        rw [List.getElem?_eq_none (by omega)]
        rfl
      · exact hrec.ys i q hq
  · apply List.ext_getElem?
    intro i
    by_cases hi : i < qs.length + 1
    · rw [hrec.ts i (by omega), List.getElem?_range hi]
    · rw [List.getElem?_eq_none (by omega), List.getElem?_eq_none (by simp; omega)]

/-! ### Lists -/

/-- **C117** Two arrays are combined along the first axis as NumPy does it: row by row if the lengths agree, a single row repeated for every row of the other
array, and a `ValueError` otherwise. -/
theorem C117_broadcast {α β : Type} (a : List α) (b : List β) :
    (a.length = b.length ∨ a.length = 1 ∨ b.length = 1 → ∃ c, npBroadcast a b = .ok c ∧ c.length = (if a.length = 1 then b.length else a.length) ∧
      ∀ (i : ℕ) p, c[i]? = some p → a[if a.length = 1 then 0 else i]? = some p.1 ∧ b[if b.length = 1 then 0 else i]? = some p.2) ∧
    (¬ (a.length = b.length ∨ a.length = 1 ∨ b.length = 1) → npBroadcast a b = .error .valueError) := by
  unfold npBroadcast
  by_cases h : a.length = b.length
  · rw [if_pos h]
    refine ⟨fun _ => ⟨_, rfl, by simp [h], fun i p hp => ?_⟩, fun hn => absurd (Or.inl h) hn⟩
    have hi : i < a.length := by have := lt_of_getElem?_some hp; simp at this; exact this.1
    have h0 : ∀ n : ℕ, n = a.length → (if n = 1 then 0 else i) = i := by
      intro n hn; split <;> omega
    rw [h0 _ rfl, h0 _ h.symm]
    rw [List.getElem?_zip_eq_some] at hp
    exact hp
  · rw [if_neg h]
    split
    · rename_i x
      refine ⟨fun _ => ⟨_, rfl, by simp, fun i p hp => ?_⟩, fun hn => absurd (Or.inr (Or.inl rfl)) hn⟩
      have hb : ¬ b.length = 1 := fun hb => h (by simp [hb])
      rw [if_neg hb]
      simp only [List.getElem?_map, Option.map_eq_some_iff] at hp
      obtain ⟨y, hy, rfl⟩ := hp
      exact ⟨rfl, hy⟩
    · rename_i y hx
      have ha : ¬ a.length = 1 := fun ha => h (by simp [ha])
      refine ⟨fun _ => ⟨_, rfl, by simp [ha], fun i p hp => ?_⟩, fun hn => absurd (Or.inr (Or.inr rfl)) hn⟩
      rw [if_neg ha]
      simp only [List.getElem?_map, Option.map_eq_some_iff] at hp
      obtain ⟨x, hx, rfl⟩ := hp
      exact ⟨hx, rfl⟩
    · rename_i h1 h2
      refine ⟨?_, fun _ => rfl⟩
      rintro (h' | h' | h')
      · exact absurd h' h
      · obtain ⟨x, rfl⟩ := List.length_eq_one_iff.mp h'
        exact absurd rfl (h1 x)
      · obtain ⟨y, rfl⟩ := List.length_eq_one_iff.mp h'
        exact absurd rfl (h2 y)

example : npBroadcast [1] [2, 3] = .ok [(1, 2), (1, 3)] := rfl

theorem npBroadcast_eq {α β : Type} {a : List α} {b : List β} (h : a.length = b.length) : npBroadcast a b = .ok (a.zip b) := if_pos h

theorem zip_ofFn {α β : Type} {n : ℕ} (f : Fin n → α) (g : Fin n → β) : (List.ofFn f).zip (List.ofFn g) = List.ofFn fun i => (f i, g i) :=
  zipWith_ofFn' Prod.mk f g

theorem sum_flatMap_ofFn {α : Type} {n : ℕ} (f : Fin n → α) (g : α → List ℝ) : ((List.ofFn f).flatMap g).sum = ∑ i, (g (f i)).sum := by
  rw [List.flatMap_def, List.sum_flatten, List.map_map, List.map_ofFn, List.sum_ofFn]
  rfl

theorem mapM_some {α : Type} (l : List α) : (l.map some).mapM id = some l := by
  induction l with
  | nil => rfl
  | cons a l ih => rw [List.map_cons, List.mapM_cons, ih]; rfl

theorem nanSum_some (l : List ℝ) : nanSum (l.map some) = some l.sum := by rw [nanSum, mapM_some]; rfl

theorem nanSum_none {l : List (Option ℝ)} (h : none ∈ l) : nanSum l = none := by
  have : l.mapM id = none := by
    induction l with
    | nil => simp at h
    | cons a l ih =>
      rw [List.mapM_cons]
      rcases a with _ | a
      · rfl
      · rw [ih (by simpa using h)]
        rfl
  rw [nanSum, this]
  rfl

/-! ### The value of the objective -/

section
variable {n m : ℕ} {o : StdObj} (x : Fin (n+1) → Fin m → ℝ)

/-- The array of smoothed estimates. -/
def stdRows : List (List (Fin 1 → ℝ)) := List.ofFn fun t => List.ofFn fun j _ => x t j

theorem stdRows_shape : estShape (stdRows x) = .ok m := estShape_ofFn (Nat.succ_pos n) fun t j _ => x t j

theorem stdYFull_eq (hr : 0 < o.r) (y : Fin (n+1) → ℝ) :
    stdYFull o (stdRows x) (List.ofFn fun t => Slot.obj fun _ => y t) =
      .ok (some ((∑ t, ∑ j, -(1 / 2) * (l2pi + Real.log o.r + (0.05 * x t j ^ 2 - y t) ^ 2 / o.r)) / m)) := by
  unfold stdYFull
  rw [stdRows_shape, ok_bind, npBroadcast_eq (by simp [stdRows]), ok_bind, nanLogpdf, if_neg (not_le.2 hr), ok_bind, List.map_ofFn, stdRows, zip_ofFn]
  have e : List.map (fun e : Option ℝ => e.map fun e => -(1 / 2) * (l2pi + Real.log o.r + e ^ 2 / o.r))
      ((List.ofFn fun t => (List.ofFn fun j (_ : Fin 1) => x t j, (stdNum ∘ fun t => Slot.obj fun _ => y t) t)).flatMap
        fun p => p.1.map fun x => p.2.map fun y => 0.05 * x 0 ^ 2 - y) =
      ((List.ofFn fun t => (List.ofFn fun j => -(1 / 2) * (l2pi + Real.log o.r + (0.05 * x t j ^ 2 - y t) ^ 2 / o.r))).flatMap id).map some := by
    rw [List.map_flatMap, List.map_flatMap, List.flatMap_def, List.flatMap_def, List.map_ofFn, List.map_ofFn]
    congr 2
    funext t
    simp only [Function.comp, List.map_ofFn, id]
    rfl
  rw [e, nanSum_some, sum_flatMap_ofFn]
  simp only [id, List.sum_ofFn]
  rfl

theorem stdXFull_eq (hq : 0 < o.q) :
    stdXFull o (stdRows x) (List.range (n+1)) =
      .ok ((∑ t : Fin n, ∑ j, -(1 / 2) * (l2pi + Real.log o.q + (x t.succ j - growth t (x t.castSucc j)) ^ 2 / o.q)) / m) := by
  have hrange : List.range (n+1) = List.ofFn fun t : Fin (n+1) => (t : ℕ) := by
    rw [← List.map_coe_finRange_eq_range, List.ofFn_eq_map]
  have h1 : (stdRows x).drop 1 = List.ofFn fun t : Fin n => List.ofFn fun j (_ : Fin 1) => x t.succ j := by
    rw [stdRows, List.ofFn_succ]; rfl
  have h2 : ((((stdRows x).zip (List.range (n+1))).map fun p => stdPredict p.1 p.2).take
      ((((stdRows x).zip (List.range (n+1))).map fun p => stdPredict p.1 p.2).length - 1)) =
      List.ofFn fun t : Fin n => List.ofFn fun j (_ : Fin 1) => growth t (x t.castSucc j) := by
    rw [hrange, stdRows, zip_ofFn, List.map_ofFn, List.length_ofFn, Nat.add_sub_cancel, List.ofFn_succ', List.concat_eq_append, List.take_left' (by simp)]
    congr 1
    funext t
    simp only [Function.comp, stdPredict, List.map_ofFn]
    rfl
  unfold stdXFull
  rw [stdRows_shape, ok_bind, npBroadcast_eq (by simp [stdRows]), ok_bind]
  simp only []
  rw [h1, h2, npBroadcast_eq (by simp), ok_bind, lognormpdfScalar, if_neg (not_le.2 hq), ok_bind, zip_ofFn, List.map_flatMap, sum_flatMap_ofFn]
  refine congrArg (fun z => Except.ok (z / (m : ℝ))) (Finset.sum_congr rfl fun t _ => ?_)
  rw [zipWith_ofFn', List.map_ofFn, List.sum_ofFn]
  rfl

theorem stdRows_of {traj : List (SStep (Fin 1 → ℝ))} (h : (traj.map fun s => s.pa.part) = stdRows x) :
    smoothedEstimates traj = .ok (stdRows x) ∧ ∃ s0, getIdx traj 0 = .ok s0 ∧ s0.pa.part = List.ofFn fun j _ => x 0 j := by
  have hlen : ∀ s ∈ traj, s.pa.part.length = m := by
    intro s hs
    have : s.pa.part ∈ stdRows x := h ▸ List.mem_map.mpr ⟨s, hs, rfl⟩
    obtain ⟨t, ht⟩ := (List.mem_ofFn' _ _).mp this
    rw [← ht]; simp
  cases traj with
  | nil => simp [stdRows] at h
  | cons s0 ts =>
    refine ⟨?_, s0, rfl, ?_⟩
    · rw [← h]
      exact ((C95_get_smoothed_estimates (s0 :: ts)).2 s0 rfl).1 fun s hs => by rw [hlen s hs, hlen s0 (by simp)]
    · rw [stdRows, List.ofFn_succ, List.map_cons] at h
      exact (List.cons.inj h).1

/-- C117: the value of the objective in closed form, for trajectories `x t j` (`n+1` times, `m` trajectories) and measurements `y t` at all times. -/
theorem C117_closed_form (hp : 0 < o.p0) (hq : 0 < o.q) (hr : 0 < o.r) {traj : List (SStep (Fin 1 → ℝ))}
    (hx : (traj.map fun s => s.pa.part) = List.ofFn fun t => List.ofFn fun j _ => x t j) (y : Fin (n+1) → ℝ) {D : SData U (Fin 1 → ℝ)}
    (hy : D.y = List.ofFn fun t => Slot.obj fun _ => y t) (ht : D.t = List.range (n+1)) :
    stdFval o D traj = .ok (some (((∑ j, (Real.log (2 * π) + Real.log o.p0 + x 0 j ^ 2 / o.p0)) +
      (∑ t, ∑ j, (Real.log (2 * π) + Real.log o.r + (y t - x t j ^ 2 / 20) ^ 2 / o.r)) +
      ∑ t : Fin n, ∑ j, (Real.log (2 * π) + Real.log o.q + (x t.succ j - growth t (x t.castSucc j)) ^ 2 / o.q)) / (2 * m))) := by
  obtain ⟨h1, s0, h2, h3⟩ := stdRows_of x hx
  unfold stdFval
  rw [h1, ok_bind, hy, stdYFull_eq x hr y, ok_bind, ht, stdXFull_eq x hq, ok_bind, h2, ok_bind, getIdx_of_lt (by simp), ok_bind, stdEvalX0, h3, lognormpdfScalar,
    if_neg (not_le.2 hp), ok_bind, List.map_ofFn, List.map_ofFn]
  have e : ∀ t j, (0.05 * x t j ^ 2 - y t) ^ 2 = (y t - x t j ^ 2 / 20) ^ 2 := fun t j => by ring
  simp only [npMean, List.sum_ofFn, List.length_ofFn, Function.comp, l2pi, ← Finset.mul_sum, e]
  refine congrArg Except.ok (congrArg some ?_)
  ring

end

end PyPE

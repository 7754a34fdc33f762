import Verif.Sampling.Variation
import Verif.Models.NlgApf
import Verif.Consistency.Claims

/-!
# C111: the order of the particles decides whether resampling errors vanish

For the mean of a function over the particles one resampling is exact up to the variation of the function along the particle order divided by `N`
(`C111_resample`). For particles in an unfavourable order the error does not vanish: a model that meets all assumptions of C89, so that every
estimate is unbiased, but whose filtered mean after one resampling misses the exact one by `1/8` with probability one, for every even number of
particles (`C111_never_close`).
-/

namespace PyPE
open Real Spec MeasureTheory ProbabilityTheory
open scoped ENNReal

variable {P U Y V Ω : Type}

/-- The mean of `φ` over a list of particles. -/
noncomputable def Spec.plainMean (φ : P → ℝ) (l : List P) : ℝ := (l.map φ).sum / l.length

/-- The weighted mean of `φ` under an approximation. -/
noncomputable def Spec.paMean (φ : P → ℝ) (pa : PA P) : ℝ := (List.zipWith (fun p x => p * φ x) (normWeights pa.w) pa.part).sum

/-- C111: `ParticleApproximation.resample`, with any number `n > 0` of new particles and every draw: the plain mean of `φ` over the new particles
differs from the weighted mean over the old ones by at most the sum of the jumps of `φ` between neighbouring particles, divided by `n`. -/
theorem C111_resample {pa pa' : PA P} {N n : ℕ} (hn : 0 < n) {x : Fin N → P} {w : Fin N → ℝ} (hx : pa.part = List.ofFn x) (hw : pa.w = List.ofFn w)
    (hN : 0 < N) {r : ℝ} (hr : Unit01 r) {anc : List ℕ} (h : pa.resample n r = .ok (pa', anc)) (φ : P → ℝ) :
    |plainMean φ pa'.part - paMean φ pa| ≤ (∑ i : Fin (N - 1), |φ (x ⟨i + 1, by omega⟩) - φ (x ⟨i, by omega⟩)|) / n := by
  obtain ⟨m, hm, hs, hf, -, -⟩ := resample_spec h
  have hne : pa.w ≠ [] := by rw [hw]; intro h; have := congrArg List.length h; simp at this; omega
  have hW := weights_exp_sub hne m
  obtain ⟨idx', h', hlen, hrange⟩ := C01_sample_length_range hW n hr
  obtain rfl := Except.ok.inj (hs.symm.trans h')
  have hL : (pa.w.map fun x => exp (x - m)).length = N := by rw [hw]; simp
  rw [hL] at hrange
  set f : ℕ → ℝ := fun i => if h : i < N then φ (x ⟨i, h⟩) else 0 with hfdef
  have hmap : pa'.part.map φ = anc.map f := by
    rw [hx, fancy_spec] at hf
    apply List.ext_getElem
    · simp [hf.1]
    · intro i h1 h2
      have hi : i < anc.length := by simpa using h2
      obtain ⟨e1, e2⟩ := hf.2 i anc[i] (List.getElem?_eq_getElem hi)
      have hlt : anc[i] < N := hrange _ (List.getElem_mem _)
      have h3 : i < pa'.part.length := by simpa using h1
      rw [List.getElem?_eq_getElem h3, List.getElem?_ofFn, dif_pos hlt] at e1
      rw [List.getElem_map, List.getElem_map]
      show _ = dite _ _ _
      rw [dif_pos hlt]
      rw [Option.some.inj e1]
  have hplen : pa'.part.length = n := by rw [← hlen, ← fancy_spec.mp hf |>.1]
  have e1 : plainMean φ pa'.part = (anc.map f).sum / n := by
    unfold plainMean; rw [hmap, hplen]
  have e2 : paMean φ pa = ∑ i ∈ Finset.range (pa.w.map fun x => exp (x - m)).length, prob (pa.w.map fun x => exp (x - m)) i * f i := by
    rw [hL, ← Fin.sum_univ_eq_sum_range (fun i => prob (pa.w.map fun x => exp (x - m)) i * f i)]
    unfold paMean
    rw [hx, hw]
    unfold normWeights
    rw [List.map_ofFn (g := fun x => exp x / _), zipWith_ofFn', List.sum_ofFn]
    refine Finset.sum_congr rfl fun i _ => ?_
    simp only [hfdef, i.2, dif_pos]
    congr 1
    unfold prob
    rw [sum_exp_sub]
    simp only [List.getD_eq_getElem?_getD, List.getElem?_map, List.getElem?_ofFn, i.2, dif_pos, Option.map_some, Option.getD_some, Function.comp_apply]
    rw [sub_eq_add_neg, exp_add, mul_comm (exp (w i)), mul_div_mul_left _ _ (exp_pos _).ne']
  have e3 : variation f N = ∑ i : Fin (N - 1), |φ (x ⟨i + 1, by omega⟩) - φ (x ⟨i, by omega⟩)| := by
    unfold variation
    rw [← Fin.sum_univ_eq_sum_range (fun i => |f (i+1) - f i|)]
    refine Finset.sum_congr rfl fun i _ => ?_
    have h1 : (i:ℕ) < N := by omega
    have h2 : (i:ℕ) + 1 < N := by omega
    simp only [hfdef, h1, h2, dif_pos]
  have := C111_variation hW hn hr hs f
  rwa [e1, e2, ← e3, ← hL]

/-! ### Particles in an unfavourable order -/

/-- Log-likelihood of the measurements of the example: `true` is seven times as likely when the state is `true`, everything else says nothing. -/
noncomputable def sevenToOne (y : Slot Bool) (x : Bool) : ℝ :=
  match y with
  | .obj true => if x then Real.log 7 else 0
  | _ => 0

/-- A model whose state is a fair coin that never moves. Its initial particles alternate, `ω, !ω, ω, !ω, ...` with one fair coin `ω`, so that every
single particle has the right law and the particles together are balanced exactly. -/
noncomputable def pairCoin (N : ℕ) : MarkovModel Bool Unit Bool Unit Bool where
  createInitial _ ω := .ok (List.ofFn fun i : Fin N => if (i : ℕ) % 2 = 0 then ω else !ω)
  sampleProcessNoise _ _ _ _ := .ok ()
  update part _ _ _ := .ok part
  measure part y _ := .ok (part.map (sevenToOne y))

theorem pairCoin_samples (N : ℕ) : Spec.Samples (pairCoin N) (fun _ => True) fairCoin N fairCoin (fun _ (_ : Slot Unit) => Kernel.id) (fun _ y => sevenToOne y) where
  create := by
    refine ⟨fun i ω => if (i : ℕ) % 2 = 0 then ω else !ω, fun i => ⟨measurable_of_finite _, ?_⟩, fun ω => rfl⟩
    refine Measure.ext fun t ht => ?_
    rw [← lintegral_indicator_one ht, ← lintegral_indicator_one ht, lintegral_map (measurable_of_finite _) (measurable_of_finite _), lintegral_fairCoin,
      lintegral_fairCoin]
    by_cases h : (i : ℕ) % 2 = 0
    · simp [h]
    · simp [h, add_comm]
  move x u k := ⟨fun i _ => x i, fun i => ⟨measurable_const, by
    rw [Measure.map_const, Kernel.id_apply, measure_univ, one_smul]⟩, fun _ => ⟨(), rfl, rfl⟩⟩
  measure x y k _ := by
    show Except.ok ((List.ofFn x).map (sevenToOne y)) = _
    rw [List.map_ofFn]; rfl
  meas _ _ := measurable_of_finite _

/-- The alternating particles. -/
def alt (ω : Bool) (i : ℕ) : Bool := if i % 2 = 0 then ω else !ω

theorem alt_sum (ω : Bool) (g : Bool → ℝ) (k : ℕ) :
    ∑ i ∈ Finset.range (2 * k), g (alt ω i) = k * (g true + g false) ∧
      ∑ i ∈ Finset.range (2 * k + 1), g (alt ω i) = k * (g true + g false) + g ω := by
  have h : ∀ k, ∑ i ∈ Finset.range (2 * k), g (alt ω i) = k * (g true + g false) := by
    intro k
    induction k with
    | zero => simp
    | succ k ih =>
      rw [Nat.mul_succ, Finset.sum_range_succ, Finset.sum_range_succ, ih]
      have h1 : alt ω (2 * k) = ω := by simp [alt]
      have h2 : alt ω (2 * k + 1) = !ω := by simp [alt, Nat.add_mod]
      rw [h1, h2]
      push_cast
      cases ω <;> simp <;> ring
  refine ⟨h k, ?_⟩
  rw [Finset.sum_range_succ, h]
  simp [alt]

theorem take_ofFn_sum {N : ℕ} (f : ℕ → ℝ) {k : ℕ} (hk : k ≤ N) : ((List.ofFn fun i : Fin N => f i).take k).sum = ∑ i ∈ Finset.range k, f i := by
  have : (List.ofFn fun i : Fin N => f i).take k = List.ofFn fun i : Fin k => f i := by
    apply List.ext_getElem
    · simp [hk]
    · intro i h1 h2; simp
  rw [this, List.sum_ofFn, Fin.sum_univ_eq_sum_range]

/-- Which particles systematic sampling takes from alternating ones. -/
theorem sample_alt {m : ℕ} (ω : Bool) {v : Bool → ℝ} (hv : ∀ b, 0 < v b) {r : ℝ} (h0 : 0 < r) (h1 : r < 1)
    (hr : ∀ e : ℕ, e < 2 → 2 * v ω ≠ (e + r) * (v true + v false)) {idx : List ℕ}
    (h : sample (List.ofFn fun i : Fin (2 * m) => v (alt ω i)) (2 * m) r = .ok idx) :
    idx.map (alt ω) = List.ofFn fun i : Fin (2 * m) => if 2 * v ω < (((i : ℕ) % 2 : ℕ) + r) * (v true + v false) then !ω else ω := by
  rcases Nat.eq_zero_or_pos m with rfl | hm
  · have : (List.ofFn fun i : Fin (2 * 0) => v (alt ω i)) = [] := by simp
    rw [this] at h
    exact absurd h (by rw [(C01_sample_empty [] _ _).1.mpr rfl]; simp)
  have hs : 0 < v true + v false := add_pos (hv _) (hv _)
  have hm' : (0:ℝ) < m := by exact_mod_cast hm
  have hsum : (List.ofFn fun i : Fin (2 * m) => v (alt ω i)).sum = m * (v true + v false) := by
    rw [List.sum_ofFn, Fin.sum_univ_eq_sum_range (fun i => v (alt ω i)), (alt_sum ω v m).1]
  have hW : Weights (List.ofFn fun i : Fin (2 * m) => v (alt ω i)) := by
    refine ⟨fun x hx => ?_, by rw [hsum]; positivity⟩
    obtain ⟨i, rfl⟩ := List.mem_ofFn.mp hx
    exact (hv _).le
  obtain ⟨idx', h', hlen, hrange⟩ := C01_sample_length_range hW (2 * m) (⟨h0.le, h1⟩ : Unit01 r)
  obtain rfl := Except.ok.inj (h.symm.trans h')
  apply List.ext_getElem
  · simp [hlen]
  intro i hi _
  have hi' : i < 2 * m := by simpa [hlen] using hi
  obtain ⟨j, hj, c1, c2⟩ := C04_sample_inverse_cdf hW (2 * m) (⟨h0.le, h1⟩ : Unit01 r) h i hi'
  have hij : i < idx.length := by rw [hlen]; exact hi'
  rw [List.getElem?_eq_getElem hij] at hj
  have hj' := Option.some.inj hj
  have hjlt : j < 2 * m := by
    have := hrange _ (List.getElem_mem hij)
    rw [hj'] at this
    simpa using this
  rw [List.getElem_map, hj', List.getElem_ofFn]
  rw [hsum, take_ofFn_sum (fun i => v (alt ω i)) hjlt.le] at c1
  rw [hsum, take_ofFn_sum (fun i => v (alt ω i)) (by omega : j + 1 ≤ 2 * m)] at c2
  have hd : (0:ℝ) < ((2 * m : ℕ) : ℝ) := by push_cast; positivity
  rw [div_le_div_iff₀ (by positivity) hd] at c1
  rw [div_le_div_iff₀ hd (by positivity)] at c2
  push_cast at c1 c2
  have hvw : v ω ≤ v true + v false := by cases ω <;> simp [(hv _).le]
  have hv0 := hv ω
  have hdm : (i:ℝ) = 2 * ((i / 2 : ℕ) : ℝ) + ((i % 2 : ℕ) : ℝ) := by exact_mod_cast (Nat.div_add_mod i 2).symm
  have hrr := hr (i % 2) (Nat.mod_lt _ (by norm_num))
  obtain ⟨k, hk⟩ : ∃ k, j = 2 * k ∨ j = 2 * k + 1 := ⟨j / 2, by omega⟩
  have key : ∀ S₁ S₂ : ℝ, S₁ * (2 * m) ≤ (i + r) * (m * (v true + v false)) → (i + r) * (m * (v true + v false)) ≤ S₂ * (2 * m) →
      2 * S₁ ≤ (i + r) * (v true + v false) ∧ (i + r) * (v true + v false) ≤ 2 * S₂ := by
    intro S₁ S₂ a b
    constructor
    · refine le_of_mul_le_mul_right ?_ hm'; nlinarith
    · refine le_of_mul_le_mul_right ?_ hm'; nlinarith
  obtain ⟨d1, d2⟩ := key _ _ c1 c2
  have hki : (2 * k : ℝ) * (v true + v false) ≤ (i + r) * (v true + v false) ∧ (i + r) * (v true + v false) ≤ (2 * k + 2) * (v true + v false) := by
    rcases hk with rfl | rfl
    · rw [(alt_sum ω v k).1] at d1
      rw [(alt_sum ω v k).2] at d2
      constructor <;> nlinarith
    · rw [(alt_sum ω v k).2] at d1
      rw [show 2 * k + 1 + 1 = 2 * (k + 1) by ring, (alt_sum ω v (k+1)).1] at d2
      push_cast at d2
      constructor <;> nlinarith
  have e1 : (2 * k : ℝ) ≤ i + r := le_of_mul_le_mul_right hki.1 hs
  have e2 : (i + r : ℝ) ≤ 2 * k + 2 := le_of_mul_le_mul_right hki.2 hs
  have e3 : 2 * k < i + 1 := by exact_mod_cast (by linarith : (2 * k : ℝ) < i + 1)
  have e4 : i < 2 * k + 2 := by exact_mod_cast (by linarith : (i : ℝ) < 2 * k + 2)
  have hik : i / 2 = k := by omega
  rw [hik] at hdm
  rw [hdm] at d1 d2
  rcases hk with rfl | rfl
  · rw [(alt_sum ω v k).1] at d1
    rw [(alt_sum ω v k).2] at d2
    have : ¬ 2 * v ω < (((i % 2 : ℕ) : ℝ) + r) * (v true + v false) := by
      rw [not_lt]; nlinarith
    simp [alt, this]
  · rw [(alt_sum ω v k).2] at d1
    have : 2 * v ω < (((i % 2 : ℕ) : ℝ) + r) * (v true + v false) := by
      refine lt_of_le_of_ne ?_ hrr
      nlinarith
    simp [alt, this, Nat.add_mod]

/-- `1` for `true`, `0` for `false`. -/
def Spec.headsUp (b : Bool) : ℝ := if b then 1 else 0

theorem mod_sum (h : ℕ → ℝ) (m : ℕ) : ∑ i ∈ Finset.range (2 * m), h (i % 2) = m * (h 0 + h 1) := by
  have := (alt_sum true (fun b => if b then h 0 else h 1) m).1
  simp only [if_true, Bool.false_eq_true, if_false] at this
  rw [← this]
  refine Finset.sum_congr rfl fun i _ => ?_
  rcases Nat.mod_two_eq_zero_or_one i with e | e <;> simp [alt, e]

/-- The odds of the two sides. -/
def odds (b : Bool) : ℝ := if b then 7 else 1

theorem exp_seven (b : Bool) : exp (sevenToOne (.obj true) b) = odds b := by
  cases b <;> simp [sevenToOne, odds, exp_log]

theorem alt_ess {m : ℕ} (hm : 0 < m) (ω : Bool) (c : ℝ) :
    ess (List.ofFn fun i : Fin (2 * m) => c + sevenToOne (.obj true) (alt ω i)) = 32 / 25 * m := by
  have hm' : (0:ℝ) < m := by exact_mod_cast hm
  have hS : ((List.ofFn fun i : Fin (2 * m) => c + sevenToOne (.obj true) (alt ω i)).map exp).sum = exp c * (8 * m) := by
    rw [List.map_ofFn, List.sum_ofFn]
    simp only [Function.comp_apply, exp_add, exp_seven]
    rw [← Finset.mul_sum, Fin.sum_univ_eq_sum_range (fun i => odds (alt ω i)), (alt_sum ω odds m).1]
    simp only [odds, if_true, Bool.false_eq_true, if_false]
    ring
  unfold ess normWeights
  rw [hS, List.map_map, List.map_ofFn, List.sum_ofFn]
  simp only [Function.comp_apply, exp_add, exp_seven]
  rw [Fin.sum_univ_eq_sum_range (fun i => (exp c * odds (alt ω i) / (exp c * (8 * m))) ^ 2), (alt_sum ω (fun b => (exp c * odds b / (exp c * (8 * m))) ^ 2) m).1]
  have := (exp_pos c).ne'
  simp only [odds, if_true, Bool.false_eq_true, if_false]
  field_simp
  norm_num

theorem lastMean_const {N : ℕ} (φ : P → ℝ) {tr : List (Step P)} {st : Step P} (h : tr.getLast? = some st) {x : Fin N → P} (hx : st.pa.part = List.ofFn x)
    {c : ℝ} (hw : st.pa.w = List.ofFn fun _ : Fin N => c) : lastMean φ tr = (∑ i, φ (x i)) / N := by
  unfold lastMean
  rw [h]
  simp only
  unfold normWeights
  rw [hx, hw, List.map_ofFn (g := fun x => exp x / _), zipWith_ofFn', List.sum_ofFn, List.map_ofFn, List.sum_ofFn]
  simp only [Function.comp_apply]
  rw [← Finset.mul_sum]
  simp only [Finset.sum_const, Finset.card_univ, Fintype.card_fin, nsmul_eq_mul]
  have := (exp_pos c).ne'
  rcases Nat.eq_zero_or_pos N with rfl | hN
  · simp
  · have : (N:ℝ) ≠ 0 := by exact_mod_cast hN.ne'
    field_simp

/-- The run `measure(true), forward(u, false)` on that model: for all draws but three values of the uniform the mean over the particles is `1` or `1/2`. -/
theorem pairCoin_run {m : ℕ} (hm : 0 < m) {res : ℝ} (hres : 16 / 25 < res) (rest : Callbacks Bool Unit Bool Unit Bool) {T : Option ℕ} {s0 : PT Bool Unit Bool}
    (h0 : PT.init (2 * m) T 0 = .ok s0) (u : Slot Unit) (ω ω0 : Bool) (d : Draws Bool) (hr0 : 0 < d.r) (hr1 : d.r < 1) (hr2 : d.r ≠ 1 / 4) (hr3 : d.r ≠ 3 / 4) :
    ∃ s bs, s0.run (pfOps ((pairCoin (2 * m)).toCallbacks rest) res) (history (some (.obj true, ω)) [(u, .obj false, ω0, d)]) = (s, .ok bs) ∧
      (lastMean headsUp s.traj = 1 ∨ lastMean headsUp s.traj = 1 / 2) := by
  have hN : 0 < 2 * m := by omega
  have hm' : (0:ℝ) < m := by exact_mod_cast hm
  obtain ⟨F, hF⟩ : ∃ F, F = pfOps ((pairCoin (2 * m)).toCallbacks rest) res := ⟨_, rfl⟩
  rw [← hF]
  have hK := pairCoin_samples (2 * m)
  have hrep0 := PT.init_rep h0
  obtain ⟨hsN, htr⟩ := init_N h0
  obtain ⟨hg, g1, g2, g3, g4⟩ := PT.growMeasure_inv hrep0.inv
  have hc : F.create (2 * m) ω = .ok (List.ofFn fun i : Fin (2 * m) => alt ω i) := by rw [hF]; rfl
  have he := ensureInit_create (s := s0.growMeasure) hN (g2.trans hsN) (by rw [← htr]; assumption) hc
  set sI : PT Bool Unit Bool := { s0.growMeasure with ind1 := 1, traj := [⟨⟨List.ofFn fun i : Fin (2 * m) => alt ω i, List.replicate (2 * m) (-Real.log (2 * m : ℕ)), 2 * m, 0⟩,
      List.range (2 * m)⟩] } with hsI
  have hrepI : sI.Rep ⟨[], [.none]⟩ := (hrep0.growMeasure.ensureInit he).1 rfl
  have hy0 : 0 < sI.yvec.length := lt_of_getElem?_some (hrepI.ys 0 (by simp))
  have ht0 : 0 < sI.tvec.length := lt_of_getElem?_some (hrepI.ts 0 (by simp))
  obtain ⟨pa, w, f1, f2, f3, fn, f4⟩ := weightUpdate_offset (pa := ⟨List.ofFn fun i : Fin (2 * m) => alt ω i, List.replicate (2 * m) (-Real.log (2 * m : ℕ)), 2 * m, 0⟩) hN (by simp)
    (fun i : Fin (2 * m) => sevenToOne (.obj true) (alt ω i))
  have hw : w = fun i : Fin (2 * m) => (-Real.log (2 * m : ℕ) - pa.w_offset) + sevenToOne (.obj true) (alt ω i) := by
    funext i
    have := f4 i
    simp only [List.getD_eq_getElem?_getD, List.getElem?_replicate, i.2, if_true, Option.getD_some] at this
    linarith
  have hmF : F.measure sI.traj (List.range (2 * m)) ⟨List.ofFn fun i : Fin (2 * m) => alt ω i, List.replicate (2 * m) (-Real.log (2 * m : ℕ)), 2 * m, 0⟩
      (sI.beforeMeasure (.obj true)).uvec (sI.beforeMeasure (.obj true)).yvec (sI.beforeMeasure (.obj true)).tvec 0 = .ok pa := by
    rw [hF]
    show pfMeasure ((pairCoin (2 * m)).toCallbacks rest) _ _ _ _ _ _ 0 = _
    unfold pfMeasure
    have hy : (sI.beforeMeasure (.obj true)).yvec[0]? = some (.obj true) := by
      simp only [PT.beforeMeasure, hsI]; exact List.getElem?_set_self hy0
    have ht : (sI.beforeMeasure (.obj true)).tvec[0]? = some 0 := by
      simp only [PT.beforeMeasure, hsI]; exact List.getElem?_set_self ht0
    simp only [MarkovModel.toCallbacks, getLast_take_succ hy, getLast_take_succ ht, ok_bind, hK.measure _ _ _ trivial, f1]
  have hmeas : s0.measure F (.obj true) ω = ({ sI.beforeMeasure (.obj true) with traj := [⟨pa, List.range (2 * m)⟩] }, .ok ()) := by
    rw [PT.measure_eq (by rw [hF]; rfl) hrep0.inv, he]
    have hgl : getLast sI.traj = .ok ⟨⟨List.ofFn fun i : Fin (2 * m) => alt ω i, List.replicate (2 * m) (-Real.log (2 * m : ℕ)), 2 * m, 0⟩, List.range (2 * m)⟩ := rfl
    simp only [hgl]
    have hind : sI.ind1 - 1 = 0 := rfl
    rw [hind, hmF]
    rfl
  have hrep1 := PT.measure_rep hrep0 hmeas
  set s1 : PT Bool Unit Bool := { sI.beforeMeasure (.obj true) with traj := [⟨pa, List.range (2 * m)⟩] } with hs1
  have hpart : pa.part = List.ofFn fun i : Fin (2 * m) => alt ω i := f2
  have hwl : pa.w.length = 2 * m := by rw [f3]; simp
  -- the resampling
  have hWF : PA.WF (⟨pa.part, pa.w, pa.part.length, 0⟩ : PA Bool) (2 * m) := by
    obtain ⟨q, q1, q2, -⟩ := PA.new_some_wf (N := 2 * m) (part := pa.part) (w := pa.w) (by rw [hpart]; simp) hwl
    cases q1
    exact q2
  obtain ⟨pa1, flag, anc, k1, k2, k3, k4, k5, -, k7, k8⟩ := maybeResample_spec res hWF hN (⟨hr0.le, hr1⟩ : Unit01 d.r)
  have hflag : flag = true := by
    rw [k5]
    refine ⟨by linarith, ?_⟩
    show ess pa.w < _
    rw [f3, hw, alt_ess hm]
    push_cast
    nlinarith
  have hrs := k7 hflag
  obtain ⟨mx, q1, q2, q3, q4, q5⟩ := resample_spec hrs
  have hmap : (pa.w.map fun x => exp (x - mx)) = List.ofFn fun i : Fin (2 * m) => exp (-Real.log (2 * m : ℕ) - pa.w_offset - mx) * odds (alt ω i) := by
    rw [f3, hw, List.map_ofFn]
    congr 1
    funext i
    simp only [Function.comp_apply, ← exp_seven, ← exp_add]
    congr 1
    ring
  rw [show (⟨pa.part, pa.w, pa.part.length, 0⟩ : PA Bool).w = pa.w from rfl, hmap] at q2
  obtain ⟨K, hKd⟩ : ∃ K, K = exp (-Real.log (2 * m : ℕ) - pa.w_offset - mx) := ⟨_, rfl⟩
  have hKp : 0 < K := by rw [hKd]; exact exp_pos _
  rw [← hKd] at q2
  have hsamp := sample_alt ω (v := fun b => K * odds b) (fun b => by cases b <;> simp [odds, hKp]) hr0 hr1 (by
    intro e he heq
    have : 2 * odds ω = (e + d.r) * (odds true + odds false) := by
      refine mul_left_cancel₀ hKp.ne' ?_
      linarith
    interval_cases e <;> cases ω <;> simp [odds] at this
    · exact hr2 (by linarith)
    · linarith
    · linarith
    · exact hr3 (by linarith)) q2
  obtain ⟨z, hz⟩ : ∃ z : ℕ → Bool, z = fun e => if 2 * odds ω < ((e : ℕ) + d.r) * (odds true + odds false) then !ω else ω := ⟨_, rfl⟩
  have hpa1 : pa1.part = List.ofFn fun i : Fin (2 * m) => z ((i : ℕ) % 2) := by
    have e1 : pa1.part = anc.map (alt ω) := by
      have q3' : fancy (List.ofFn fun i : Fin (2 * m) => alt ω i) anc = .ok pa1.part := by rw [← hpart]; exact q3
      rw [fancy_spec] at q3'
      apply List.ext_getElem
      · simp [q3'.1]
      · intro i i1 i2
        have hi : i < anc.length := by simpa using i2
        obtain ⟨e1, e2⟩ := q3'.2 i anc[i] (List.getElem?_eq_getElem hi)
        have hlt : anc[i] < 2 * m := k4 _ (List.getElem_mem _)
        rw [List.getElem?_eq_getElem i1, List.getElem?_ofFn, dif_pos hlt] at e1
        rw [List.getElem_map]
        exact (Option.some.inj e1).symm
    rw [e1, hsamp]
    congr 1
    funext i
    rw [hz]
    have : 2 * (K * odds ω) < (((i : ℕ) % 2 : ℕ) + d.r) * (K * odds true + K * odds false) ↔ 2 * odds ω < (((i : ℕ) % 2 : ℕ) + d.r) * (odds true + odds false) := by
      rw [← mul_lt_mul_iff_right₀ hKp (b := 2 * odds ω)]
      ring_nf
    simp only [this]
  have hpw : pa1.w = List.replicate (2 * m) (Real.log (1 / ((2 * m : ℕ) : ℝ))) := q4
  obtain ⟨pa2, w2, l1, l2, l3, ln, l4⟩ := weightUpdate_offset (pa := pa1) hN (by rw [hpw]; simp) (fun i : Fin (2 * m) => sevenToOne (.obj false) (z ((i : ℕ) % 2)))
  have hw2 : w2 = fun _ => Real.log (1 / ((2 * m : ℕ) : ℝ)) - pa2.w_offset := by
    funext i
    have := l4 i
    rw [hpw, q5] at this
    simp only [List.getD_eq_getElem?_getD, List.getElem?_replicate, i.2, if_true, Option.getD_some, sevenToOne] at this
    linarith
  have hys : s1.ind1 = 1 := rfl
  obtain ⟨b1, b2, b3, b4⟩ := hrep1.forward_bufs (by intro h; have := hrep1.len; rw [h] at this; simp [hs1] at this) u (.obj false)
  simp only [hys, Nat.sub_self] at b1 b2 b3 b4
  have hfw : F.forward s1.traj (s1.beforeForward u (.obj false)).yvec (s1.beforeForward u (.obj false)).uvec (s1.beforeForward u (.obj false)).tvec 0 d =
      .ok (pa2, flag, anc) := by
    rw [hF]
    have hlast : s1.traj.getLast? = some ⟨pa, List.range (2 * m)⟩ := rfl
    show pfForward ((pairCoin (2 * m)).toCallbacks rest) res _ _ _ _ 0 d = _
    unfold pfForward
    rw [getLast_ok.mpr hlast]
    simp only [ok_bind, PA.new, k1]
    unfold pfUpdate
    have hfan : fancy pa.part anc = .ok pa1.part := q3
    have hpa2 : ({ pa1 with part := pa1.part } : PA Bool) = pa1 := rfl
    simp only [MarkovModel.toCallbacks, getLast_ok.mpr hlast, ok_bind, hfan, getLast_take_succ b1, getLast_take_succ b4, pairCoin, pure_eq_ok]
    unfold pfMeasure
    have hm2 : pa1.part.map (sevenToOne (.obj false)) = List.ofFn fun i : Fin (2 * m) => sevenToOne (.obj false) (z ((i : ℕ) % 2)) := by
      rw [hpa1, List.map_ofFn]; rfl
    simp only [getLast_take_succ b2, getLast_take_succ b3, ok_bind, hm2, l1]
  have hf : s1.forward F u (.obj false) ω0 d = ({ s1.beforeForward u (.obj false) with traj := s1.traj ++ [⟨pa2, anc⟩] }, .ok flag) := by
    rw [PT.forward_eq hrep1.inv]
    have he1 : s1.ensureInit F ω0 = (s1, .ok ()) := by
      unfold PT.ensureInit
      rw [if_neg (by rw [hs1]; simp)]
    rw [he1]
    simp only [hys, Nat.sub_self, hfw]
  refine ⟨{ s1.beforeForward u (.obj false) with traj := s1.traj ++ [⟨pa2, anc⟩] }, [none, some flag], ?_, ?_⟩
  · have hh : history (some (.obj true, ω)) [(u, .obj false, ω0, d)] = [Op.measure (.obj true) ω, Op.forward u (.obj false) ω0 d] := rfl
    rw [hh]
    simp only [PT.run, PT.step, hmeas, hf]
  · show lastMean headsUp (s1.traj ++ [⟨pa2, anc⟩]) = 1 ∨ lastMean headsUp (s1.traj ++ [⟨pa2, anc⟩]) = 1 / 2
    have hlm : lastMean headsUp (s1.traj ++ [⟨pa2, anc⟩]) = (∑ i : Fin (2 * m), headsUp (z ((i : ℕ) % 2))) / (2 * m : ℕ) :=
      lastMean_const headsUp (st := ⟨pa2, anc⟩) (by simp) (l2.trans hpa1) (by rw [l3, hw2])
    rw [hlm]
    rw [Fin.sum_univ_eq_sum_range (fun i => headsUp (z (i % 2))), mod_sum (fun e => headsUp (z e))]
    have hzz : headsUp (z 0) + headsUp (z 1) = 2 ∨ headsUp (z 0) + headsUp (z 1) = 1 := by
      rw [hz]
      cases ω
      · have h1 : (2:ℝ) < (1 + d.r) * (7 + 1) := by nlinarith
        by_cases h2 : (2:ℝ) < d.r * (7 + 1)
        · left; simp [odds, headsUp, h1, h2]; norm_num
        · right; simp [odds, headsUp, h1, h2]
      · have h1 : ¬ (2 * 7:ℝ) < d.r * (7 + 1) := by nlinarith
        by_cases h2 : (2 * 7:ℝ) < (1 + d.r) * (7 + 1)
        · right; simp [odds, headsUp, h1, h2]
        · left; simp [odds, headsUp, h1, h2]; norm_num
    rcases hzz with h | h
    · left; rw [h]; push_cast; field_simp
    · right; rw [h]; push_cast; field_simp


/-- C111 (Defect): systematic resampling is sensitive to the order of the particles. On the model above, which samples every particle from the right
law (so that C89 holds: the estimates are unbiased), the probability of `true` given the measurement is `7/8`; but with any even number of particles
and the usual resampling threshold (any above `0.64`) the mean over the particles after one resampling misses it by `1/8` with probability one. -/
theorem C111_never_close {m : ℕ} (hm : 0 < m) {res : ℝ} (hres : 16 / 25 < res) {rest : Callbacks Bool Unit Bool Unit Bool} {name : String}
    {o : FilterOptions Bool} (hn : parseFilter name = .ok .pf) {F : FilterOps Bool Unit Bool Unit Bool}
    (hF : mkFilter ((pairCoin (2 * m)).toCallbacks rest) (2 * m) res name o = .ok F) {T : Option ℕ} {s0 : PT Bool Unit Bool}
    (h0 : PT.init (2 * m) T 0 = .ok s0) (u : Slot Unit) :
    Spec.Samples (pairCoin (2 * m)) (fun _ => True) fairCoin (2 * m) fairCoin (fun _ (_ : Slot Unit) => Kernel.id) (fun _ y => sevenToOne y) ∧
    exactMean fairCoin (fun _ (_ : Slot Unit) => Kernel.id) (fun _ y => sevenToOne y) (some (.obj true)) [(u, .obj false)] headsUp = 7 / 8 ∧
    runE fairCoin F s0 (some (.obj true)) [(u, .obj false)] (misses (fun tr _ => lastMean headsUp tr) (7 / 8) (1 / 8)) = 1 := by
  refine ⟨pairCoin_samples _, ?_, ?_⟩
  · have hv : ∀ φ : Bool → ℝ≥0∞, exactValue fairCoin (fun _ (_ : Slot Unit) => Kernel.id) (fun _ y => sevenToOne y) (some (.obj true)) [(u, .obj false)] φ =
        ENNReal.ofReal (1 / 2) * (ENNReal.ofReal 7 * φ true + φ false) := by
      intro φ
      unfold exactValue
      rw [lintegral_fairCoin]
      simp only [startWeight, exp_seven, pathE, Kernel.id_apply]
      rw [lintegral_dirac' _ (measurable_of_finite _), lintegral_dirac' _ (measurable_of_finite _)]
      simp [sevenToOne, odds]
    unfold exactMean
    simp only [hv, headsUp, if_true, Bool.false_eq_true, if_false, ENNReal.ofReal_one, ENNReal.ofReal_zero, mul_one, add_zero, mul_zero, neg_zero]
    rw [ENNReal.ofReal_of_nonpos (by norm_num : (-1:ℝ) ≤ 0)]
    simp only [ENNReal.toReal_mul, ENNReal.toReal_add ENNReal.ofReal_ne_top ENNReal.one_ne_top,
      ENNReal.toReal_ofReal (show (0:ℝ) ≤ 7 by norm_num), ENNReal.toReal_ofReal (show (0:ℝ) ≤ 1 / 2 by norm_num)]
    norm_num
  · rw [mkFilter_pf _ _ res hn o] at hF
    obtain rfl := (Except.ok.inj hF).symm
    have hcase : ∀ (ω ω0 : Bool) (d : Draws Bool), 0 < d.r → d.r < 1 → d.r ≠ 1 / 4 → d.r ≠ 3 / 4 →
        misses (fun tr _ => lastMean headsUp tr) (7 / 8) (1 / 8)
          (s0.run (pfOps ((pairCoin (2 * m)).toCallbacks rest) res) (history (some (.obj true, ω)) [(u, .obj false, ω0, d)])) = 1 := by
      intro ω ω0 d a b c e
      obtain ⟨s, bs, h1, h2⟩ := pairCoin_run hm hres rest h0 u ω ω0 d a b c e
      rw [h1]
      show (if |lastMean headsUp s.traj - 7 / 8| < 1 / 8 then (0 : ℝ≥0∞) else 1) = 1
      rw [if_neg]
      rcases h2 with h2 | h2 <;> rw [h2] <;> norm_num
    have hae : ∀ᵐ r ∂unif, 0 < r ∧ r < 1 ∧ r ≠ 1 / 4 ∧ r ≠ 3 / 4 := by
      have h1 : ∀ᵐ r ∂unif, r ≠ 1 / 4 := by
        unfold unif
        exact ae_restrict_of_ae (Measure.ae_ne volume _)
      have h2 : ∀ᵐ r ∂unif, r ≠ 3 / 4 := by
        unfold unif
        exact ae_restrict_of_ae (Measure.ae_ne volume _)
      filter_upwards [unif_ae, h1, h2] with r a b c
      exact ⟨a.1, a.2, b, c⟩
    show ∫⁻ ω, stepsE fairCoin _ _ ∂fairCoin = 1
    have hin : ∀ ω ω0 : Bool, ∫⁻ r, ∫⁻ r2, ∫⁻ ω', misses (fun tr _ => lastMean headsUp tr) (7 / 8) (1 / 8)
          (s0.run (pfOps ((pairCoin (2 * m)).toCallbacks rest) res) (history (some (.obj true, ω)) [(u, .obj false, ω0, ⟨r, r2, ω'⟩)])) ∂fairCoin ∂unif ∂unif = 1 := by
      intro ω ω0
      rw [lintegral_congr_ae (g := fun _ => (1 : ℝ≥0∞))]
      · simp
      · filter_upwards [hae] with r hr
        simp only [fun r2 ω' => hcase ω ω0 ⟨r, r2, ω'⟩ hr.1 hr.2.1 hr.2.2.1 hr.2.2.2, lintegral_const, measure_univ, mul_one]
    simp only [stepsE, hin, lintegral_const, measure_univ, mul_one]

/-- Callbacks that the bootstrap filter does not use. -/
def coinRest' : Callbacks Bool Unit Bool Unit Bool where
  createInitial _ _ := .error .attributeError
  sampleNoise _ _ _ _ _ := .error .attributeError
  update _ _ _ _ _ _ _ := .error .attributeError
  measure _ _ _ _ _ _ := .error .attributeError
  evalFirstStage _ _ _ _ := .error .attributeError
  logpXnextSingle _ _ _ _ _ _ _ _ _ := .error .attributeError
  proposeFromY _ _ _ _ := .error .attributeError
  qsample _ _ _ _ _ := .error .attributeError
  logpQ _ _ _ _ _ := .error .attributeError
  logpXnext _ _ _ _ := .error .attributeError
  sirMeasure _ _ _ := .error .attributeError

/-- The hypotheses are met for every even number of particles with the default threshold 0.67 of `Simulator.simulate` and the default filter. -/
example (m : ℕ) (hm : 0 < m) : ∃ (F : FilterOps Bool Unit Bool Unit Bool) (s0 : PT Bool Unit Bool),
    mkFilter ((pairCoin (2 * m)).toCallbacks coinRest') (2 * m) 0.67 "PF" .none = .ok F ∧ PT.init (2 * m) none 0 = .ok s0 ∧
    runE fairCoin F s0 (some (.obj true)) [(.none, .obj false)] (misses (fun tr _ => lastMean headsUp tr) (7 / 8) (1 / 8)) = 1 := by
  have hn : parseFilter "PF" = .ok .pf := by decide +kernel
  have h1 : mkFilter ((pairCoin (2 * m)).toCallbacks coinRest') (2 * m) 0.67 "PF" .none = .ok _ := mkFilter_pf _ _ _ hn _
  exact ⟨_, _, h1, rfl, (C111_never_close hm (by norm_num) hn h1 (T := none) rfl .none).2.2⟩

/-- Resampling three particles at 1, 2, 5 with equal weights, to three new ones: the new mean is within 4/3 of the old one, 8/3. -/
example (r : ℝ) (hr : Unit01 r) : ∃ pa' anc, PA.resample (⟨[1, 2, 5], [0, 0, 0], 3, 0⟩ : PA ℝ) 3 r = .ok (pa', anc) ∧ |plainMean id pa'.part - 8 / 3| ≤ 4 / 3 := by
  have hx : ([1, 2, 5] : List ℝ) = List.ofFn ![1, 2, 5] := by simp
  have hw : ([0, 0, 0] : List ℝ) = List.ofFn ![0, 0, 0] := by simp
  obtain ⟨q, q1, q2, -⟩ := PA.new_some_wf (N := 3) (part := ([1, 2, 5] : List ℝ)) (w := [0, 0, 0]) rfl rfl
  obtain ⟨pa', flag, anc, -, -, -, -, h5, -, h7, -⟩ := maybeResample_spec (1 + 1) (pa := (⟨[1, 2, 5], [0, 0, 0], 3, 0⟩ : PA ℝ)) (by cases q1; exact q2) (by norm_num : 0 < 3) hr
  have hf : flag = true := by
    rw [h5]
    refine ⟨by norm_num, ?_⟩
    simp [ess, normWeights]
    norm_num
  refine ⟨pa', anc, h7 hf, ?_⟩
  have := C111_resample (by norm_num : 0 < 3) (pa := (⟨[1, 2, 5], [0, 0, 0], 3, 0⟩ : PA ℝ)) hx hw (by norm_num) hr (h7 hf) id
  have e : paMean id (⟨[1, 2, 5], [0, 0, 0], 3, 0⟩ : PA ℝ) = 8 / 3 := by
    simp [paMean, normWeights]; norm_num
  rw [e] at this
  refine this.trans (le_of_eq ?_)
  simp [Fin.sum_univ_two]
  norm_num

end PyPE

import Verif.Models.NlgGibbs

/-!
# C96 (defect): particle Gibbs with three particles does not leave the smoothing law invariant

The filter resamples the free particles systematically; that is not the resampling step conditioned on the reference trajectory.
-/

namespace PyPE
open Real Spec MeasureTheory ProbabilityTheory
open scoped ENNReal

theorem sample_two_of_three {c r : ℝ} (hc : 0 < c) (h0 : 0 < r) (h1 : r < 1) (a b : ℕ)
    (h : (a = 0 ∧ b = 1 ∧ r < 1/3) ∨ (a = 0 ∧ b = 2 ∧ 1/3 < r ∧ r < 2/3) ∨ (a = 1 ∧ b = 2 ∧ 2/3 < r)) :
    sample (List.replicate 3 c) 2 r = .ok [a, b] := by
  have hsum : (List.replicate 3 c).sum = 3 * c := by simp; ring
  have hw : Weights (List.replicate 3 c) :=
    ⟨fun x hx => by rw [List.eq_of_mem_replicate hx]; exact hc.le, by rw [hsum]; positivity⟩
  obtain ⟨idx, hidx, hl, hr⟩ := C01_sample_length_range hw 2 (r := r) ⟨h0.le, h1⟩
  rw [hidx]
  obtain ⟨i, j, rfl⟩ : ∃ i j, idx = [i, j] := List.length_eq_two.mp hl
  have hi3 : i < 3 := by simpa using hr i (by simp)
  have hj3 : j < 3 := by simpa using hr j (by simp)
  obtain ⟨i', hi, h2, h3⟩ := C04_sample_inverse_cdf hw 2 ⟨h0.le, h1⟩ hidx 0 (by norm_num)
  obtain ⟨j', hj, h4, h5⟩ := C04_sample_inverse_cdf hw 2 ⟨h0.le, h1⟩ hidx 1 (by norm_num)
  obtain rfl : i = i' := by simpa using hi
  obtain rfl : j = j' := by simpa using hj
  rw [hsum, List.take_replicate, List.sum_replicate, nsmul_eq_mul, mul_div_mul_right _ _ hc.ne'] at h2 h3 h4 h5
  rw [min_eq_left (by omega)] at h2 h3 h4 h5
  push_cast at h2 h3 h4 h5
  have e2 : (i : ℝ) ≤ 3 * r / 2 := by linarith
  have e3 : 3 * r / 2 ≤ (i : ℝ) + 1 := by linarith
  have e4 : (j : ℝ) ≤ 3 * (1 + r) / 2 := by linarith
  have e5 : 3 * (1 + r) / 2 ≤ (j : ℝ) + 1 := by linarith
  congr 1
  interval_cases i <;> interval_cases j <;> norm_num at e2 e3 e4 e5 <;> rcases h with ⟨rfl, rfl, h⟩ | ⟨rfl, rfl, h, h'⟩ | ⟨rfl, rfl, h⟩ <;>
    first | rfl | (exfalso; linarith)

/-- Integrating over the uniform of that draw. -/
theorem lintegral_thirds {G : ℝ → ℝ≥0∞} {g1 g2 g3 : ℝ≥0∞} (h1 : ∀ r, 0 < r → r < 1/3 → G r = g1) (h2 : ∀ r, 1/3 < r → r < 2/3 → G r = g2)
    (h3 : ∀ r, 2/3 < r → r < 1 → G r = g3) : ∫⁻ r, G r ∂unif = (g1 + g2 + g3) * ENNReal.ofReal (1/3) := by
  have part : ∀ (a b : ℝ) (g : ℝ≥0∞), b - a = 1/3 → (∀ r, a < r → r < b → G r = g) → ∫⁻ r in Set.Ioc a b, G r = g * ENNReal.ofReal (1/3) := by
    intro a b g hab hg
    rw [← Measure.restrict_congr_set Ioo_ae_eq_Ioc, setLIntegral_congr_fun measurableSet_Ioo (fun r hr => hg r hr.1 hr.2), setLIntegral_const,
      Real.volume_Ioo, hab]
  have hU : Set.Ioc (0:ℝ) 1 = Set.Ioc 0 (1/3) ∪ (Set.Ioc (1/3) (2/3) ∪ Set.Ioc (2/3) 1) := by
    rw [Set.Ioc_union_Ioc_eq_Ioc (by norm_num) (by norm_num), Set.Ioc_union_Ioc_eq_Ioc (by norm_num) (by norm_num)]
  show ∫⁻ r in Set.Ioc (0:ℝ) 1, G r = _
  rw [hU, lintegral_union (by measurability) ?_, lintegral_union (by measurability) ?_, part _ _ g1 (by norm_num) h1, part _ _ g2 (by norm_num) h2,
    part _ _ g3 (by norm_num) h3]
  · ring
  · rw [Set.disjoint_left]; rintro x ⟨-, hx⟩ ⟨hx', -⟩; linarith
  · rw [Set.Ioc_union_Ioc_eq_Ioc (by norm_num) (by norm_num), Set.disjoint_left]; rintro x ⟨-, hx⟩ ⟨hx', -⟩; linarith

/-- Three fair coins. -/
noncomputable def coins : Measure (Bool × Bool × Bool) := ENNReal.ofReal (1/8) • Measure.count

/-- One fair coin. -/
noncomputable def fairCoin : Measure Bool := ENNReal.ofReal (1/2) • Measure.count

/-- Likelihood of the measurement: state `false` is twice as likely as `true`. -/
noncomputable def coinLik (b : Bool) : ℝ := if b then 0 else Real.log 2

/-- A model with two states, an initial state drawn by a fair coin, independently for every particle, and `x_{t+1} = x_t`. -/
noncomputable def coinModel : MarkovModel Bool Unit Unit Unit (Bool × Bool × Bool) where
  createInitial := fun _ ω => .ok [ω.1, ω.2.1, ω.2.2]
  sampleProcessNoise := fun _ _ _ _ => .ok ()
  update := fun part _ _ _ => .ok part
  measure := fun part _ _ => .ok (part.map coinLik)

theorem lintegral_coins (f : Bool × Bool × Bool → ℝ≥0∞) : ∫⁻ ω, f ω ∂coins = ENNReal.ofReal (1/8) * ∑ a, ∑ b, ∑ c, f (a, b, c) := by
  rw [coins, lintegral_smul_measure, lintegral_count, tsum_fintype, Fintype.sum_prod_type]
  simp only [Fintype.sum_prod_type, smul_eq_mul]

theorem lintegral_fairCoin (f : Bool → ℝ≥0∞) : ∫⁻ b, f b ∂fairCoin = ENNReal.ofReal (1/2) * (f true + f false) := by
  rw [fairCoin, lintegral_smul_measure, lintegral_count, tsum_fintype, Fintype.sum_bool, smul_eq_mul]

instance : IsProbabilityMeasure coins := ⟨by
  rw [← MeasureTheory.lintegral_one, lintegral_coins]
  simp only [Fintype.sum_bool]
  rw [show (1:ℝ≥0∞) + 1 + (1 + 1) + (1 + 1 + (1 + 1)) = ENNReal.ofReal 8 by norm_num, ← ENNReal.ofReal_mul (by norm_num)]
  norm_num⟩

/-- The share of weight of the particles with state `true`. -/
noncomputable def share (x : Fin 3 → Bool) : ℝ := (∑ i, if x i then (1:ℝ) else 0) / ∑ i, if x i then (1:ℝ) else 2

theorem share_eq (x y z : Bool) : share ![x, y, z] =
    ((if x then (1:ℝ) else 0) + (if y then 1 else 0) + (if z then 1 else 0)) / ((if x then (1:ℝ) else 2) + (if y then 1 else 2) + (if z then 1 else 2)) := by
  unfold share
  rw [Fin.sum_univ_three, Fin.sum_univ_three]
  rfl

theorem exp_coinLik (b : Bool) : exp (coinLik b) = if b then (1:ℝ) else 2 := by
  cases b
  · simp [coinLik, exp_log]
  · simp [coinLik]

theorem fancy_three {α : Type} (x : Fin 3 → α) (f : Fin 3 → Fin 3) :
    fancy (List.ofFn x) (List.ofFn fun i => (f i : ℕ)) = .ok (List.ofFn fun i => x (f i)) := by
  rw [fancy_spec]
  refine ⟨by simp, fun i a hi => ?_⟩
  obtain ⟨h1, h2⟩ := List.getElem?_eq_some_iff.mp hi
  subst h2
  simp only [List.length_ofFn] at h1
  simp only [List.getElem_ofFn, List.getElem?_ofFn, h1, dif_pos, (f ⟨i, h1⟩).2, List.length_ofFn, and_self]

/-- The value of one iteration, given the draws. -/
theorem coin_value {rest : Callbacks Bool Unit Unit Unit (Bool × Bool × Bool)} {res : ℝ} {F : FilterOps Bool Unit Unit Unit (Bool × Bool × Bool)} {c : Bool}
    (hF : mkFilter (coinModel.toCallbacks rest) 3 res "CPF" (.dict (some (reference [c, c]))) = .ok F)
    {S : SmoothCallbacks Bool Unit Unit Unit (Bool × Bool × Bool)} (hS : ∀ D, PlainSmooth S D) (hps : NoPostprocessing S) {m : ℕ} (hm : 0 < m)
    (user : Option SOpts) (d : AllDraws (Bool × Bool × Bool)) (fuel : ℕ) {T : Option ℕ} {s0 : PT Bool Unit Unit} (h0 : PT.init 3 T 0 = .ok s0)
    {ω0 ω : Bool × Bool × Bool} {r r2 : ℝ} (hr0 : 0 < r) (hr1 : r < 1) {a b : Fin 3} (hab : sample (List.replicate 3 (3:ℝ)⁻¹) 2 r = .ok [(a : ℕ), (b : ℕ)]) :
    runValue (smoothE S m "ancestor" user d fuel (pathMean (fun l => if l.head? = some true then 1 else 0) m))
      (s0.run F (history none [(.none, .obj (), ω0, ⟨r, r2, ω⟩)])) =
      ENNReal.ofReal (share fun i => ![ω0.1, ω0.2.1, c] (![a, b, 2] i)) := by
  have hn : parseFilter "CPF" = .ok .cpf := by
    have e0 : "CPF".toLower = "cpf" := by decide +kernel
    have e1 : ¬ ("cpf" = "pf") := by decide +kernel
    have e2 : ¬ ("cpf" = "apf") := by decide +kernel
    simp [parseFilter, e0]
  have hF' := mkFilter_cond hn hF
  have hrep0 := PT.init_rep h0
  obtain ⟨hsN, htr⟩ := init_N h0
  have hc : F.create 3 ω0 = .ok (List.ofFn ![ω0.1, ω0.2.1, c]) := by
    rw [hF']
    simp [cpfInitial, MarkovModel.toCallbacks, coinModel, reference, getIdx, setLast]
  have he := ensureInit_create (s := s0) (by norm_num : 0 < 3) hsN htr hc
  set s1 : PT Bool Unit Unit := { s0 with ind1 := 1, traj := [⟨⟨List.ofFn ![ω0.1, ω0.2.1, c], List.replicate 3 (-Real.log (3:ℕ)), 3, 0⟩,
      List.range 3⟩] } with hs1
  have hrep1 : s1.Rep ⟨([] : List (Slot Unit)).map some, [.none]⟩ := (hrep0.ensureInit he).1 rfl
  obtain ⟨b1, b2, b3, b4⟩ := hrep1.forward_bufs (by simp) (.none : Slot Unit) (.obj () : Slot Unit)
  have hind : s1.ind1 = 1 := rfl
  simp only [hind, Nat.sub_self] at b1 b2 b3 b4
  set x : Fin 3 → Bool := fun i => ![ω0.1, ω0.2.1, c] (![a, b, 2] i) with hx
  obtain ⟨pa, w', f1, f2, f3, fn, f4⟩ := weightUpdate_offset (pa := (⟨List.ofFn x, List.replicate 3 (-Real.log (3:ℕ)), 3, 0⟩ : PA Bool)) (by norm_num : 0 < 3) (by simp)
      (fun i => coinLik (x i))
  have hfw : F.forward s1.traj (s1.beforeForward .none (.obj ())).yvec (s1.beforeForward .none (.obj ())).uvec (s1.beforeForward .none (.obj ())).tvec 0 ⟨r, r2, ω⟩ =
      .ok (pa, true, List.ofFn fun i => ((![a, b, 2] i : Fin 3) : ℕ)) := by
    rw [hF']
    have hs : sample (expNormalised (List.replicate 3 (-Real.log (3:ℕ)))) 2 r = .ok [(a : ℕ), (b : ℕ)] := by
      rw [expNormalised_eq, sample_normWeights _ (by simp), List.map_replicate, exp_neg, exp_log (by norm_num)]
      exact_mod_cast hab
    have hfan := fancy_three ![ω0.1, ω0.2.1, c] ![a, b, 2]
    have hanc : [(a : ℕ), (b : ℕ)] ++ [3 - 1] = List.ofFn fun i => ((![a, b, 2] i : Fin 3) : ℕ) := by simp [List.ofFn_succ]
    have hnew : PA.new (List.ofFn x) none = .ok ⟨List.ofFn x, List.replicate 3 (-Real.log (3:ℕ)), 3, 0⟩ := by
      simp only [PA.new, List.length_ofFn]
      rw [if_neg (by norm_num)]
    have hset : setLast (List.ofFn x) c = .ok (List.ofFn x) := by
      simp [setLast, List.ofFn_succ, hx]
    have hmap : (List.ofFn x).map coinLik = List.ofFn fun i => coinLik (x i) := by rw [List.map_ofFn]; rfl
    have hc1 : getIdx (reference [c, c]) (0+1) = .ok ⟨⟨[c], [0], 1, 0⟩, [0]⟩ := rfl
    show cpfForward _ _ _ _ _ _ _ _ = _
    unfold cpfForward
    have t0 : getIdx s1.traj 0 = .ok ⟨⟨List.ofFn ![ω0.1, ω0.2.1, c], List.replicate 3 (-Real.log (3:ℕ)), 3, 0⟩, List.range 3⟩ := rfl
    have t1 : getLast s1.traj = .ok ⟨⟨List.ofFn ![ω0.1, ω0.2.1, c], List.replicate 3 (-Real.log (3:ℕ)), 3, 0⟩, List.range 3⟩ := rfl
    simp only [t0, t1, ok_bind, List.length_ofFn, show (3 - 1 : ℕ) = 2 from rfl, hs]
    rw [show [(a : ℕ), (b : ℕ)] ++ [2] = _ from hanc, hfan]
    simp only [ok_bind]
    rw [show (List.ofFn fun i => ![ω0.1, ω0.2.1, c] (![a, b, 2] i)) = List.ofFn x from rfl, hnew]
    simp only [ok_bind, pfUpdate, MarkovModel.toCallbacks, coinModel, t1, hfan, getLast_take_succ b1, getLast_take_succ b4, pure_eq_ok, hc1,
      show getIdx [c] 0 = .ok c from rfl, hset, condMeasure, getIdx_ok.mpr b2, pfMeasure, getLast_take_succ b2, getLast_take_succ b3, hmap, f1]
  have hf : s1.forward F .none (.obj ()) ω0 ⟨r, r2, ω⟩ =
      ({ s1.beforeForward .none (.obj ()) with traj := s1.traj ++ [⟨pa, List.ofFn fun i => ((![a, b, 2] i : Fin 3) : ℕ)⟩] }, .ok true) := by
    rw [PT.forward_eq hrep1.inv]
    have he : s1.ensureInit F ω0 = (s1, .ok ()) := by
      unfold PT.ensureInit
      rw [if_neg (by simp [hs1])]
    rw [he]
    simp only [hind, Nat.sub_self, hfw]
  set s2 : PT Bool Unit Unit := { s1.beforeForward .none (.obj ()) with traj := s1.traj ++ [⟨pa, List.ofFn fun i => ((![a, b, 2] i : Fin 3) : ℕ)⟩] } with hs2
  have hrun : s0.run F (history none [(.none, .obj (), ω0, ⟨r, r2, ω⟩)]) = (s2, .ok [some true]) := by
    simp only [history, List.nil_append, List.map_cons, List.map_nil, PT.run, PT.step, forward_ensureInit he (by rw [hs1]; simp) .none (.obj ()) _, hf]
  rw [hrun]
  simp only [runValue]
  have hg0 : GoodStep 3 (⟨⟨List.ofFn ![ω0.1, ω0.2.1, c], List.replicate 3 (-Real.log (3:ℕ)), 3, 0⟩, List.range 3⟩ : Step Bool) :=
    goodStep_ofFn (w := fun _ => -Real.log (3:ℕ)) (f := id) rfl (by rw [List.ofFn_const]) rfl (by rfl)
  have hg1 : GoodStep 3 (⟨pa, List.ofFn fun i => ((![a, b, 2] i : Fin 3) : ℕ)⟩ : Step Bool) := goodStep_ofFn f2 f3 fn rfl
  rw [smoothE_ancestor hS hps hm user d fuel _ (by norm_num : 0 < 3) false (K := 1) (s := s2) (by simp [hs2, hs1]) (by
    intro st hst
    simp only [hs2, hs1, List.cons_append, List.nil_append, List.mem_cons, List.not_mem_nil, or_false] at hst
    rcases hst with rfl | rfl
    · exact hg0
    · exact hg1) (last := ⟨pa, _⟩) (by simp [hs2]; rfl) f3 []]
  have hcop : ∀ i : Fin 3, copE (U := Unit) 3 false s2.traj [] (fun s => (fun l : List Bool => if l.head? = some true then (1 : ℝ≥0∞) else 0)
      ((List.range (1 + 1)).map s)) i = if x i then 1 else 0 := by
    intro i
    unfold copE
    have i1 : s2.traj[1]? = some ⟨pa, List.ofFn fun i => ((![a, b, 2] i : Fin 3) : ℕ)⟩ := rfl
    have i0 : s2.traj[0]? = some ⟨⟨List.ofFn ![ω0.1, ω0.2.1, c], List.replicate 3 (-Real.log (3:ℕ)), 3, 0⟩, List.range 3⟩ := rfl
    show cop false s2.traj 1 i _ _ = _
    simp only [cop]
    rw [ancAt_eq i1 rfl i, partAt_eq false i0 rfl (![a, b, 2] i)]
    simp [List.range_succ, hx]
  have hwx : ∀ i, exp (w' i) = exp (coinLik (x i)) * exp (-Real.log (3:ℕ) - pa.w_offset) := by
    intro i
    rw [← exp_add]
    congr 1
    have := f4 i
    rw [show (List.replicate 3 (-Real.log (3:ℕ))).getD (i:ℕ) 0 = -Real.log (3:ℕ) by
      rw [List.getD_eq_getElem?_getD, List.getElem?_replicate_of_lt i.2, Option.getD_some]] at this
    linarith
  have hE := exp_pos (-Real.log (3:ℕ) - pa.w_offset)
  simp only [hcop, hwx, exp_coinLik]
  rw [share, Finset.sum_div, ENNReal.ofReal_sum_of_nonneg (fun i _ => by positivity)]
  refine Finset.sum_congr rfl fun i _ => ?_
  rw [← Finset.sum_mul, mul_div_mul_right _ _ hE.ne']
  cases x i <;> simp

/-- The model samples the chain of fair coins with `x_{t+1} = x_t`, so C96 applies to it with two particles. -/
theorem coin_samples : Spec.Samples coinModel (fun _ => True) coins 3 fairCoin (fun _ (_ : Slot Unit) => Kernel.id) (fun _ (_ : Slot Unit) => coinLik) where
  create := by
    refine ⟨fun i ω => ![ω.1, ω.2.1, ω.2.2] i, fun i => ⟨measurable_of_finite _, ?_⟩, fun ω => rfl⟩
    refine Measure.ext fun t ht => ?_
    rw [← lintegral_indicator_one ht, ← lintegral_indicator_one ht, lintegral_map (measurable_of_finite _) (measurable_of_finite _), lintegral_coins,
      lintegral_fairCoin]
    obtain ⟨p, hp⟩ : ∃ p, p = t.indicator (1 : Bool → ℝ≥0∞) true := ⟨_, rfl⟩
    obtain ⟨q, hq⟩ : ∃ q, q = t.indicator (1 : Bool → ℝ≥0∞) false := ⟨_, rfl⟩
    have h8 : ENNReal.ofReal (1/2) = ENNReal.ofReal (1/8) * 4 := by
      rw [show (4 : ℝ≥0∞) = ENNReal.ofReal 4 by norm_num, ← ENNReal.ofReal_mul (by norm_num)]; norm_num
    rw [h8]
    fin_cases i <;> simp [← hp, ← hq] <;> ring
  move := by
    intro x u k
    refine ⟨fun i _ => x i, fun i => ⟨measurable_const, ?_⟩, fun ω => ⟨(), rfl, rfl⟩⟩
    rw [Measure.map_const, measure_univ, one_smul, Kernel.id_apply]
  measure := by
    intro x y k _
    simp [coinModel, List.map_ofFn, Function.comp_def]
  meas := fun _ _ => measurable_of_finite _

/-- C96 (defect): with three particles the smoothing law is not invariant. Particles start independently in `true` or `false` with probability 1/2
and never move; one measurement, at time 1, is twice as likely in state `false`. The (unnormalised) smoothing law gives the state `true` weight
1/2; if the reference trajectory of `CPF` has that law, the trajectory drawn afterwards has weight 29/60 there, for every number of trajectories
drawn. -/
theorem C96_three_particles (rest : Callbacks Bool Unit Unit Unit (Bool × Bool × Bool)) {res : ℝ}
    {F : List Bool → FilterOps Bool Unit Unit Unit (Bool × Bool × Bool)}
    (hF : ∀ xs, mkFilter (coinModel.toCallbacks rest) 3 res "CPF" (.dict (some (reference xs))) = .ok (F xs))
    {S : SmoothCallbacks Bool Unit Unit Unit (Bool × Bool × Bool)} (hS : ∀ D, PlainSmooth S D) (hps : NoPostprocessing S) {m : ℕ} (hm : 0 < m)
    (user : Option SOpts) (d : AllDraws (Bool × Bool × Bool)) (fuel : ℕ) {T : Option ℕ} {s0 : PT Bool Unit Unit} (h0 : PT.init 3 T 0 = .ok s0) :
    let φ : List Bool → ℝ≥0∞ := fun l => if l.head? = some true then 1 else 0
    let L := smoothingE fairCoin (fun _ (_ : Slot Unit) => Kernel.id) (fun _ (_ : Slot Unit) => coinLik) none [(.none, .obj ())]
    L φ = ENNReal.ofReal (1/2) ∧
    L (sweep coins s0 F none [(.none, .obj ())] (smoothE S m "ancestor" user d fuel (pathMean φ m))) = ENNReal.ofReal (29/60) ∧
    L (sweep coins s0 F none [(.none, .obj ())] (smoothE S m "ancestor" user d fuel (pathMean φ m))) ≠ L φ := by
  have hL : ∀ ψ : List Bool → ℝ≥0∞, smoothingE fairCoin (fun _ (_ : Slot Unit) => Kernel.id) (fun _ (_ : Slot Unit) => coinLik) none [(.none, .obj ())] ψ =
      ENNReal.ofReal (1/2) * (ψ [true, true] + 2 * ψ [false, false]) := by
    intro ψ
    simp only [smoothingE, pathsE, Kernel.id_apply, lintegral_dirac, lintegral_fairCoin, seen, exp_coinLik]
    simp
  intro φ L
  have h1 : L φ = ENNReal.ofReal (1/2) := by
    rw [show L φ = _ from hL φ]
    simp [φ]
  have h2 : L (sweep coins s0 F none [(.none, .obj ())] (smoothE S m "ancestor" user d fuel (pathMean φ m))) = ENNReal.ofReal (29/60) := by
    rw [show L _ = _ from hL _]
    have hsw : ∀ c, sweep coins s0 F none [(.none, .obj ())] (smoothE S m "ancestor" user d fuel (pathMean φ m)) [c, c] =
        ENNReal.ofReal (1/8 * ∑ x : Bool, ∑ y : Bool, ∑ _z : Bool, (share ![x, y, c] + share ![x, c, c] + share ![y, c, c]) * (1/3)) := by
      intro c
      have hsh : ∀ x, 0 ≤ share x := fun x => div_nonneg (Finset.sum_nonneg fun i _ => by split <;> norm_num) (Finset.sum_nonneg fun i _ => by split <;> norm_num)
      simp only [sweep, stepsE]
      have inner : ∀ ω0 : Bool × Bool × Bool, ∫⁻ r, ∫⁻ r2, ∫⁻ ω, runValue (smoothE S m "ancestor" user d fuel (pathMean φ m))
          (s0.run (F [c, c]) (history none [(.none, .obj (), ω0, ⟨r, r2, ω⟩)])) ∂coins ∂unif ∂unif =
          ENNReal.ofReal ((share ![ω0.1, ω0.2.1, c] + share ![ω0.1, c, c] + share ![ω0.2.1, c, c]) * (1/3)) := by
        intro ω0
        have hv : ∀ r (a b : Fin 3), 0 < r → r < 1 → sample (List.replicate 3 (3:ℝ)⁻¹) 2 r = .ok [(a : ℕ), (b : ℕ)] → ∫⁻ r2, ∫⁻ ω,
            runValue (smoothE S m "ancestor" user d fuel (pathMean φ m))
              (s0.run (F [c, c]) (history none [(.none, .obj (), ω0, ⟨r, r2, ω⟩)])) ∂coins ∂unif =
            ENNReal.ofReal (share fun i => ![ω0.1, ω0.2.1, c] (![a, b, 2] i)) := by
          intro r a b hr0 hr1 hab
          rw [lintegral_congr fun r2 => lintegral_congr fun ω => coin_value (hF [c, c]) hS hps hm user d fuel h0 (r2 := r2) (ω := ω) hr0 hr1 hab]
          simp
        rw [lintegral_thirds (fun r hr hr' => hv r 0 1 hr (by linarith) (sample_two_of_three (by norm_num) hr (by linarith) 0 1 (Or.inl ⟨rfl, rfl, hr'⟩)))
          (fun r hr hr' => hv r 0 2 (by linarith) (by linarith) (sample_two_of_three (by norm_num) (by linarith) (by linarith) 0 2 (Or.inr (Or.inl ⟨rfl, rfl, hr, hr'⟩))))
          (fun r hr hr' => hv r 1 2 (by linarith) (by linarith) (sample_two_of_three (by norm_num) (by linarith) (by linarith) 1 2 (Or.inr (Or.inr ⟨rfl, rfl, hr⟩)))),
          ← ENNReal.ofReal_add (hsh _) (hsh _), ← ENNReal.ofReal_add (add_nonneg (hsh _) (hsh _)) (hsh _),
          ← ENNReal.ofReal_mul (add_nonneg (add_nonneg (hsh _) (hsh _)) (hsh _))]
        congr 5 <;> (congr 1; funext i; fin_cases i <;> rfl)
      rw [lintegral_congr inner, lintegral_coins, ENNReal.ofReal_mul (by norm_num)]
      congr 1
      have hp : ∀ x y c : Bool, 0 ≤ (share ![x, y, c] + share ![x, c, c] + share ![y, c, c]) * (1/3) := fun x y c =>
        mul_nonneg (add_nonneg (add_nonneg (hsh _) (hsh _)) (hsh _)) (by norm_num)
      rw [ENNReal.ofReal_sum_of_nonneg (fun x _ => Finset.sum_nonneg fun y _ => Finset.sum_nonneg fun z _ => hp x y c)]
      refine Finset.sum_congr rfl fun x _ => ?_
      rw [ENNReal.ofReal_sum_of_nonneg (fun y _ => Finset.sum_nonneg fun z _ => hp x y c)]
      refine Finset.sum_congr rfl fun y _ => ?_
      rw [ENNReal.ofReal_sum_of_nonneg (fun z _ => hp x y c)]
    rw [hsw, hsw, show (2 : ℝ≥0∞) = ENNReal.ofReal 2 by norm_num, ← ENNReal.ofReal_mul (by norm_num), ← ENNReal.ofReal_add, ← ENNReal.ofReal_mul (by norm_num)]
    · congr 1
      simp only [share_eq, Fintype.sum_bool]
      norm_num
    · simp only [share_eq, Fintype.sum_bool]
      norm_num
    · simp only [share_eq, Fintype.sum_bool]
      norm_num
  refine ⟨h1, h2, ?_⟩
  rw [h1, h2, Ne, ENNReal.ofReal_eq_ofReal_iff (by norm_num) (by norm_num)]
  norm_num

/-- C96 (defect): such a filter exists, with two trajectories drawn. -/
example (rest : Callbacks Bool Unit Unit Unit (Bool × Bool × Bool)) (lx : List Bool → List Bool → Slot Unit → ℕ → PyM (List ℝ))
    (srest : SmoothCallbacks Bool Unit Unit Unit (Bool × Bool × Bool)) (d : AllDraws (Bool × Bool × Bool)) :
    ∃ F s0, (∀ xs, mkFilter (coinModel.toCallbacks rest) 3 (2/3) "CPF" (.dict (some (reference xs))) = .ok (F xs)) ∧ PT.init 3 none 0 = .ok s0 ∧
      smoothingE fairCoin (fun _ (_ : Slot Unit) => Kernel.id) (fun _ (_ : Slot Unit) => coinLik) none [(.none, .obj ())]
        (sweep coins s0 F none [(.none, .obj ())] (smoothE (ffbsi lx { srest with postSmoothing := none }) 2 "ancestor" none d 0
          (pathMean (fun l : List Bool => if l.head? = some true then 1 else 0) 2))) ≠
      smoothingE fairCoin (fun _ (_ : Slot Unit) => Kernel.id) (fun _ (_ : Slot Unit) => coinLik) none [(.none, .obj ())]
        (fun l : List Bool => if l.head? = some true then 1 else 0) := by
  choose F hF using mkFilter_reference (coinModel.toCallbacks rest) 3 (2/3) (name := "CPF") (k := .cpf) (by
    have e0 : "CPF".toLower = "cpf" := by decide +kernel
    have e1 : ¬ ("cpf" = "pf") := by decide +kernel
    have e2 : ¬ ("cpf" = "apf") := by decide +kernel
    simp [parseFilter, e0]) (Or.inl rfl)
  refine ⟨F, _, hF, rfl, ?_⟩
  exact (C96_three_particles rest hF (S := ffbsi lx { srest with postSmoothing := none }) (fun D _ _ _ _ _ _ _ => rfl) (fun _ => rfl) (m := 2) (by norm_num) none d 0
    (T := none) rfl).2.2

end PyPE

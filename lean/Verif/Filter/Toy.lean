import Verif.Filter.Markov
import Verif.Heap.Sim

/-!
# A concrete model: the hypotheses of C10–C19 and C63 are met

`toy` is the scalar model `x' = x/2 + u + v`, `y = x + e` with `v`, `e` of unit variance (unnormalised
log-densities).  Every example below instantiates a theorem on a run with two particles or more.
-/

namespace PyPE
open Real Spec

/-- A measurement or input slot as a number (`None` and the filler count as 0). -/
def Slot.val : Slot ℝ → ℝ
  | .obj a => a
  | _ => 0

/-- `x' = x/2 + u + v`, `y = x + e`. The entropy `ω` fixes the draws. -/
noncomputable def toy : Callbacks ℝ ℝ ℝ (List ℝ) ℝ where
  createInitial N ω := .ok ((List.range N).map fun i => ω + (i : ℝ))
  sampleNoise _ anc _ _ ω := .ok (anc.map fun i => ω * (i : ℝ))
  update part _ ut _ _ _ v := .ok (part.zipIdx.map fun xi =>
    xi.1 / 2 + (ut.getLast?.map Slot.val).getD 0 + v.getD xi.2 0)
  measure part _ _ yt _ _ := .ok (part.map fun x => -(x - (yt.getLast?.map Slot.val).getD 0) ^ 2 / 2)
  evalFirstStage part u y _ := .ok (part.map fun x => -(x / 2 + u.val - y.val) ^ 2 / 4)
  logpXnextSingle part _ _ fut find ut _ _ c := .ok (List.zipWith (fun x i =>
    -((fut.getD i 0) - x / 2 - (ut.getD c .none).val) ^ 2 / 2) part find)
  proposeFromY N y _ ω := .ok ((List.range N).map fun i => y.val + ω * (i : ℝ))
  qsample part u y _ ω := .ok (part.map fun x => (x / 2 + u.val + y.val) / 2 + ω)
  logpQ part nxt u y _ := .ok (part.zipIdx.map fun xi =>
    -((nxt.getD xi.2 0) - (xi.1 / 2 + u.val + y.val) / 2) ^ 2)
  logpXnext part nxt u _ := .ok (part.zipIdx.map fun xi => -((nxt.getD xi.2 0) - xi.1 / 2 - u.val) ^ 2 / 2)
  sirMeasure part y _ := .ok (part.map fun x => -(x - y.val) ^ 2 / 2)

theorem toy_full (N : ℕ) : FullContract toy N where
  noise _ _ _ _ _ := ⟨_, rfl⟩
  update _ _ _ _ _ _ _ h := ⟨_, rfl, by simp [h]⟩
  measure _ _ _ _ _ _ h := ⟨_, rfl, by simp [h]⟩
  create _ := ⟨_, rfl, by simp⟩
  first _ _ _ _ h := ⟨_, rfl, by simp [h]⟩
  single _ _ _ _ _ _ _ _ _ h h' := ⟨_, rfl, by simp [h, h']⟩
  propose _ _ _ := ⟨_, rfl, by simp⟩
  qsample _ _ _ _ _ h := ⟨_, rfl, by simp [h]⟩
  logpQ _ _ _ _ _ h := ⟨_, rfl, by simp [h]⟩
  logpXnext _ _ _ _ h := ⟨_, rfl, by simp [h]⟩
  sirMeasure _ _ _ h := ⟨_, rfl, by simp [h]⟩

theorem parse_pf : parseFilter "pf" = .ok .pf := by
  rw [C25_parse, show "pf".toLower = "pf" by decide +kernel]; simp [Spec.filterNames]
theorem parse_apf : parseFilter "apf" = .ok .apf := by
  rw [C25_parse, show "apf".toLower = "apf" by decide +kernel]; simp [Spec.filterNames]
theorem parse_pfy : parseFilter "pfy" = .ok .pfy := by
  rw [C25_parse, show "pfy".toLower = "pfy" by decide +kernel]; simp [Spec.filterNames]
theorem parse_cpfyas : parseFilter "cpfyas" = .ok .cpfyas := by
  rw [C25_parse, show "cpfyas".toLower = "cpfyas" by decide +kernel]; simp [Spec.filterNames]
theorem parse_cpfas : parseFilter "cpfas" = .ok .cpfas := by
  rw [C25_parse, show "cpfas".toLower = "cpfas" by decide +kernel]; simp [Spec.filterNames]
theorem parse_cpf : parseFilter "cpf" = .ok .cpf := by
  rw [C25_parse, show "cpf".toLower = "cpf" by decide +kernel]; simp [Spec.filterNames]
theorem parse_sir : parseFilter "sir" = .ok .sir := by
  rw [C25_parse, show "sir".toLower = "sir" by decide +kernel]; simp [Spec.filterNames]
theorem parse_csiras : parseFilter "csiras" = .ok .csiras := by
  rw [C25_parse, show "csiras".toLower = "csiras" by decide +kernel]; simp [Spec.filterNames]

/-- A reference trajectory of two time steps. -/
noncomputable def toyRef : List (Step ℝ) :=
  [⟨⟨[7], [0], 1, 0⟩, [0]⟩, ⟨⟨[8], [0], 1, 0⟩, [0]⟩]

theorem toyRef_single : ∀ t < 2, ∃ x, RefSingle toyRef t x := by
  intro t ht
  interval_cases t
  · exact ⟨7, _, rfl, rfl⟩
  · exact ⟨8, _, rfl, rfl⟩

theorem toyRef_state : ∀ t < 2, ∃ x, RefState toyRef t x :=
  fun t ht => (toyRef_single t ht).imp fun _ h => refSingle_state h

/-- `measure(1)` then `forward(u=1, y=2)`. -/
noncomputable def toyOps : List (Op ℝ ℝ ℝ) :=
  [.measure (.obj 1) 0, .forward (.obj 1) (.obj 2) 0 ⟨1/2, 1/3, 1⟩]

theorem toyOps_ok : ∀ op ∈ toyOps, op.Ok (fun y => y ≠ .none) := by
  intro op h
  simp only [toyOps, List.mem_cons, List.not_mem_nil, or_false] at h
  rcases h with rfl | rfl
  · simp [Op.Ok]
  · simp [Op.Ok, Unit01]; norm_num

theorem toyOps_ok' : ∀ op ∈ toyOps, op.Ok (fun _ => True) := by
  intro op h
  simp only [toyOps, List.mem_cons, List.not_mem_nil, or_false] at h
  rcases h with rfl | rfl
  · simp [Op.Ok]
  · simp [Op.Ok, Unit01]; norm_num

theorem toyOps_len (b : Bool) : (Spec.log b toyOps).ys.length = 2 := by
  cases b <;> rfl

/-- C12 applies to every filter name, with five particles. -/
example (name : String) (k : FilterKind) (hk : parseFilter name = .ok k) (F) 
    (hF : mkFilter toy 5 (2/3) name (.dict (some toyRef)) = .ok F) (s0 : PT ℝ ℝ ℝ)
    (h0 : PT.init 5 none 0 = .ok s0) :
    ∃ s bs, s0.run F toyOps = (s, .ok bs) ∧ ∀ st ∈ s.traj, GoodStep 5 st := by
  refine C12_every_run_total (toy_full 5) (by norm_num) hk hF h0 toyOps toyOps_ok ⟨fun _ y h => h, ?_, ?_⟩
  · intro _; rw [toyOps_len]; exact toyRef_state
  · intro _; rw [toyOps_len]; exact toyRef_single

/-- ... and the names are accepted and the objects are built. -/
example : (∀ name ∈ ["pf", "apf", "pfy", "cpfyas", "cpfas", "cpf", "sir", "csiras"],
    ∃ F, mkFilter toy 5 (2/3) name (.dict (some toyRef)) = .ok F) ∧
    ∃ s0 : PT ℝ ℝ ℝ, PT.init 5 none 0 = .ok s0 := by
  refine ⟨?_, _, rfl⟩
  intro name h
  simp only [List.mem_cons, List.not_mem_nil, or_false] at h
  rcases h with rfl | rfl | rfl | rfl | rfl | rfl | rfl | rfl <;>
    simp [mkFilter, parse_pf, parse_apf, parse_pfy, parse_cpfyas, parse_cpfas, parse_cpf, parse_sir, parse_csiras, ok_bind,
      FilterOptions.condTraj, pure_eq_ok]

/-- C15 and C16 on that run: the reference states 7 and 8 sit in the last particle. -/
example (F) (hF : mkFilter toy 5 (2/3) "cpf" (.dict (some toyRef)) = .ok F) (s0 : PT ℝ ℝ ℝ)
    (h0 : PT.init 5 none 0 = .ok s0) : ∃ s bs, s0.run F toyOps = (s, .ok bs) ∧ s.traj.length = 2 ∧
      (∀ st, s.traj[1]? = some st → st.pa.part[4]? = some 8) ∧
      ancestorAt s.traj 1 1 4 = some 4 := by
  obtain ⟨s, bs, h1, h2, h3, h4⟩ := C15_cpf_run (toy_full 5) (by norm_num) parse_cpf hF h0 toyOps toyOps_ok'
    (by rw [toyOps_len]; exact toyRef_state)
  rw [toyOps_len] at h2
  exact ⟨s, bs, h1, h2, fun st hst => h3 1 st 8 hst ⟨_, rfl, rfl⟩, h4 1 (by omega) 1 le_rfl⟩

example (F) (hF : mkFilter toy 5 (2/3) "cpfas" (.dict (some toyRef)) = .ok F) (s0 : PT ℝ ℝ ℝ)
    (h0 : PT.init 5 none 0 = .ok s0) : ∃ s bs, s0.run F toyOps = (s, .ok bs) ∧
      (∀ st, s.traj[1]? = some st → st.pa.part[4]? = some 8) := by
  obtain ⟨s, bs, h1, h2, h3⟩ := C16_run (toy_full 5) (by norm_num) parse_cpfas (Or.inl rfl) hF h0 toyOps toyOps_ok'
    (by rw [toyOps_len]; exact toyRef_single)
  exact ⟨s, bs, h1, fun st hst => (h3 1 st 8 (by simp) hst ⟨_, rfl, rfl⟩).1⟩

/-- The violation of C16 by CSIRAS is reached: the initial particles are 0,1,2,3,4, the reference is 7. -/
example (F) (hF : mkFilter toy 5 (2/3) "csiras" (.dict (some toyRef)) = .ok F) (s0 : PT ℝ ℝ ℝ)
    (h0 : PT.init 5 none 0 = .ok s0) : ∃ s b, s0.step F (.measure (.obj 1) 0) = (s, .ok b) ∧
      ∃ st, s.traj[0]? = some st ∧ (7 : ℝ) ∉ st.pa.part := by
  obtain ⟨s, bs, h1, -⟩ := C12_every_run_total (k := .csiras) (toy_full 5) (by norm_num) parse_csiras hF h0
    [.measure (.obj 1) 0] (Q := fun _ => True) (by simp [Op.Ok])
    ⟨by simp, fun _ t ht => toyRef_state t (by
      have : (Spec.log F.usingPfy [Op.measure (Slot.obj (1:ℝ)) (0:ℝ)] : Spec.Log ℝ ℝ).ys.length = 1 := by
        cases F.usingPfy <;> rfl
      omega), by simp⟩
  unfold PT.run at h1
  rcases hs : s0.step F (.measure (.obj 1) 0) with ⟨s1, r⟩
  rw [hs] at h1
  cases r with
  | error e => cases h1
  | ok b =>
    refine ⟨s1, b, rfl, ?_⟩
    refine C16_csiras_initial_violation parse_csiras hF h0 hs (part := _) rfl ?_
    norm_num [List.range_succ, List.range_zero]

/-! ### C63 and C13 on a Markov model -/

/-- The same scalar model written against the Markov interface. -/
noncomputable def toyMarkov : MarkovModel ℝ ℝ ℝ (List ℝ) ℝ where
  createInitial N ω := .ok ((List.range N).map fun i => ω + (i : ℝ))
  sampleProcessNoise part _ _ ω := .ok (part.map fun _ => ω)
  update part u _ v := .ok (part.zipIdx.map fun xi => xi.1 / 2 + u.val + v.getD xi.2 0)
  measure part y _ := .ok (part.map fun x => -(x - y.val) ^ 2 / 2)

theorem toyMarkov_keeps (N : ℕ) : Spec.KeepsN toyMarkov N where
  create ω part h := by cases h; simp
  update part u t v part' h h' := by cases h'; simp [h]

theorem getLast_single {α : Type} (a : α) : getLast [a] = .ok a := rfl

/-- A run of the bootstrap filter with two particles, `measure(1)` then `forward(1, 2)`, that succeeds with
resampling disabled. -/
theorem toyMarkov_run : ∃ s0 s, PT.init 2 none 0 = .ok s0 ∧
    s0.run (markovPf toyMarkov toy 0) (history (some (.obj 1, 0)) [(.obj 1, .obj 2, 0, ⟨1/2, 1/2, 1⟩)]) =
      (s, .ok [none, some false]) ∧ s.traj.length = 2 := by
  refine ⟨_, (PT.run _ _ _).1, rfl, Prod.ext rfl ?_, ?_⟩ <;>
  simp [history, PT.run, PT.step, PT.measure, PT.growMeasure, markovPf, pfOps, MarkovModel.toCallbacks, PT.ensureInit,
      npResize, setIdx, PA.new, getLast, PT.forward, PT.growForward, getIdx, toyMarkov, pfMeasure, weightUpdate, npMax,
      npAdd, List.range_succ, pfForward, maybeResample, pfUpdate, fancy, ok_bind, pure_eq_ok, List.replicate]

/-- C13 on that run: the weight of particle 1 after two measurements. -/
example : ∃ (s : PT ℝ ℝ ℝ) (L : ℕ → ℕ → ℝ) (st : Step ℝ), s.traj[1]? = some st ∧
    (normWeights st.pa.w)[1]? = some ((∏ j ∈ Finset.range 2, exp (L j 1)) /
          ∑ m ∈ Finset.range 2, ∏ j ∈ Finset.range 2, exp (L j m)) := by
  obtain ⟨s0, s, h0, hrun, hl⟩ := toyMarkov_run
  obtain ⟨L, -, h⟩ := C13_sequential_importance_weights (toyMarkov_keeps 2) le_rfl h0 _ _ hrun
  exact ⟨s, L, s.traj[1], List.getElem?_eq_getElem (by omega),
    (h 1 _ (List.getElem?_eq_getElem (by omega)) 1 (by norm_num)).2⟩

/-! ### C14, C94: models working on references -/

/-- The heap of a program that has not allocated anything. -/
def emptyHeap : Heap ℝ := ⟨0, fun _ => [], fun _ => [], fun _ => ⟨0, 0, 0, 0⟩⟩

/-- C14: every filter name the constructor accepts gives an object satisfying the hypotheses, for every model
(`ofCallbacks_implements`), in particular `toy`; the object of the constructor is in memory. -/
example {name : String} {F : FilterOpsH ℝ ℝ ℝ ℝ} (hF : mkFilterH (ofCallbacks toy) 2 (1/2) name .none = .ok F) :
    Spec.Built (ofCallbacks toy) 2 (1/2) name .none F :=
  ⟨(ofCallbacks_implements toy).honest, hF, fun _ _ _ => (ofCallbacks_implements toy).gives⟩

/-- C94: the bootstrap filter on `toy`, started from an empty heap, run on references: the second step reads as the
value-level model says. -/
example : ∃ F G s0, mkFilterH (ofCallbacks toy) 2 0 "pf" .none = .ok F ∧ mkFilter toy 2 0 "pf" .none = .ok G ∧
    PT.init 2 none 0 = .ok s0 ∧ (s0.run G toyOps).2 = ((Spec.fresh s0).run F toyOps emptyHeap).1.2 := by
  refine ⟨_, _, _, by simp [mkFilterH, parse_pf, ok_bind]; rfl, by simp [mkFilter, parse_pf, ok_bind]; rfl, rfl, ?_⟩
  exact (C94_run (ofCallbacks_implements toy) (N := 2) (res := 0) (name := "pf") (h := emptyHeap) (opts := .none) (by simp [Spec.condSteps]) (by simp [mkFilterH, parse_pf, ok_bind])
    (by simp [mkFilter, parse_pf, Spec.viewOpts, ok_bind]) (n := 2) (T := none) (t0 := 0) rfl toyOps).1

/-- A heap holding the conditional trajectory `toyRef`. -/
def refHeap : Heap ℝ := ⟨2, fun a => if a = 0 then [7] else [8], fun _ => [0], fun o => ⟨o, o, 1, 0⟩⟩

/-- C94: with the reference trajectory in memory the conditional filters meet the hypotheses, too. -/
example (res : ℝ) : (∀ st ∈ Spec.condSteps (.dict (some [⟨0, [0]⟩, ⟨1, [0]⟩])), Spec.Alloc refHeap st) ∧
    Spec.viewOpts refHeap (.dict (some [⟨0, [0]⟩, ⟨1, [0]⟩])) = .dict (some toyRef) ∧
    ∃ F, mkFilterH (ofCallbacks toy) 3 res "cpfas" (.dict (some [⟨0, [0]⟩, ⟨1, [0]⟩])) = .ok F := by
  refine ⟨?_, ?_, ?_⟩
  · simp [Spec.condSteps, Spec.Alloc, refHeap]
  · simp [Spec.viewOpts, Spec.viewStep, refHeap, toyRef]
  · simp [mkFilterH, parse_cpfas, ok_bind, FilterOptionsH.condTraj, pure_eq_ok]

/-- A measurement model with a mistake: three log-likelihoods, whatever the number of particles. -/
noncomputable def threeWeights : Callbacks ℝ ℝ ℝ (List ℝ) ℝ := { toy with measure := fun _ _ _ _ _ _ => .ok [0, 1, 2] }

/-- One stored step of two particles. -/
noncomputable def twoHeap : Heap ℝ := ⟨1, fun _ => [5, 6], fun _ => [0, 0], fun _ => ⟨0, 0, 2, 0⟩⟩

/-- C14 (defect, measure that raises): `measure` raises `ValueError`, and `w_offset` of the stored step has changed from 0
to 2 although its weights have not; `C14_measure_error` cannot be improved to "nothing changes". -/
theorem C14_measure_error_offset : ∃ (F : FilterOpsH ℝ ℝ ℝ ℝ) (s : HPT ℝ ℝ) (st : HStep), Spec.Built (ofCallbacks threeWeights) 2 0 "pf" .none F ∧
    Spec.Stored twoHeap s.traj ∧ s.traj = [st] ∧ (s.measure F (.obj 1) 0 twoHeap).1.2 = .error .valueError ∧
    (Spec.viewStep twoHeap st).pa = ⟨[5, 6], [0, 0], 2, 0⟩ ∧
    (Spec.viewStep (s.measure F (.obj 1) 0 twoHeap).2 st).pa = ⟨[5, 6], [0, 0], 2, 2⟩ := by
  refine ⟨_, ⟨[], [], [], 0, 1, 2, [⟨0, [0, 1]⟩]⟩, ⟨0, [0, 1]⟩, ⟨(ofCallbacks_implements _).honest, by simp [mkFilterH, parse_pf, ok_bind]; rfl, fun _ _ _ => (ofCallbacks_implements _).gives⟩, ?_, rfl, ?_⟩
  · exact ⟨by simp [Spec.Alloc, twoHeap], by simp⟩
  · have hupd : weightUpdateH 0 1 ⟨2, twoHeap.part, Function.update twoHeap.w 1 [0, 1, 2], twoHeap.obj⟩ =
        (.error .valueError, ⟨2, twoHeap.part, Function.update twoHeap.w 1 [-2, -1, 0], Function.update twoHeap.obj 0 ⟨0, 0, 2, 2⟩⟩) := by
      simp only [weightUpdateH, HM.bind_run, HM.readW, HM.readObj, HM.writeObj, HM.writeW, HM.lift]
      simp [npMax, npAdd, twoHeap]
      norm_num
    have hm : ∀ tr anc uv yv tv cur, measureH (ofCallbacks threeWeights) tr anc 0 uv yv tv cur twoHeap =
        (.error .valueError, ⟨2, twoHeap.part, Function.update twoHeap.w 1 [-2, -1, 0], Function.update twoHeap.obj 0 ⟨0, 0, 2, 2⟩⟩) := by
      intro tr anc uv yv tv cur
      have : ∀ p, (ofCallbacks threeWeights).measure p tr uv (yv.take (cur + 1)) (tv.take (cur + 1)) anc = HM.allocW [0, 1, 2] := fun _ => rfl
      unfold measureH
      simp only [HM.bind_run, HM.readObj, this, HM.allocW]
      exact hupd
    have : HPT.measure (P := ℝ) (Ω := ℝ) ⟨(ofCallbacks threeWeights).createInitial, pfForwardH (ofCallbacks threeWeights) 0, measureH (ofCallbacks threeWeights), fun _ _ _ _ => HM.throw .typeError, false⟩
        ⟨[], [], [], 0, 1, 2, [⟨0, [0, 1]⟩]⟩
        (.obj 1 : Slot ℝ) 0 twoHeap = ((⟨[.zero, .zero], [.obj 1, .zero], [0, 0], 2, 1, 2, [⟨0, [0, 1]⟩]⟩, .error .valueError),
        ⟨2, twoHeap.part, Function.update twoHeap.w 1 [-2, -1, 0], Function.update twoHeap.obj 0 ⟨0, 0, 2, 2⟩⟩) := by
      simp [HPT.measure, HPT.growMeasure, npResize, HPT.ensureInit, setIdx, getLast, hm]
    rw [this]
    refine ⟨rfl, rfl, ?_⟩
    simp [Spec.viewStep, twoHeap]

/-! ### C19: preallocated buffers -/

/-- C19 (violation): with preallocated buffers (`T = k ≥ 3`) the second step of the
proposal-from-measurement filter proposes from the *last cell of the buffer*, which is `None` with time `k-1`,
instead of the measurement `y` passed to the call at time `1`. -/
theorem C19_preallocated_violation {P U Y V Ω : Type} {M : Callbacks P U Y V Ω} {N : ℕ} {res : ℝ}
    {name : String} (hk : parseFilter name = .ok .pfy) {o : FilterOptions P}
    {F : FilterOps P U Y V Ω} (hF : mkFilter M N res name o = .ok F)
    {k : ℕ} (hk3 : 3 ≤ k) {s0 s s' : PT P U Y} (h0 : PT.init N (some k) 0 = .ok s0) {y0 : Slot Y} {ω : Ω}
    {r : Option Bool} (hm : s0.step F (.measure y0 ω) = (s, .ok r))
    {u : Slot U} {y : Slot Y} {ω0 : Ω} {d : Draws Ω} {b : Bool}
    (hf : s.forward F u y ω0 d = (s', .ok b)) :
    ∃ st n, s'.traj[1]? = some st ∧ M.proposeFromY n .none (k - 1) d.ω = .ok st.pa.part := by
  rw [mkFilter_uncond hk (by simp [Spec.Conditional]) []] at hF
  have hF' := mkFilter_cond hk hF
  have hp : F.usingPfy = true := by rw [hF']
  have hfw : F.forward = ffpropyForward M res N := by rw [hF']
  have hinv := PT.init_inv h0
  have hrep := PT.step_rep (PT.init_rep h0) hm
  obtain ⟨k, rfl⟩ : ∃ j, k = j + 3 := ⟨k - 3, by omega⟩
  have hs0 : s0 = ⟨List.replicate (k+3) .none, List.replicate (k+3) .none, List.range (k+3), k+3, 0, N, []⟩ := by
    unfold PT.init at h0; simpa using h0.symm
  unfold PT.step at hm
  simp only at hm
  rw [PT.measure_pfy_eq hp hinv] at hm
  simp only at hm
  split at hm
  · rename_i heq
    split at heq
    · cases heq
    · rename_i pa hpa
      cases heq; cases hm
      rw [PT.forward_eq hrep.inv] at hf
      subst hs0
      simp only [PT.ensureInit, List.nil_append, List.length_singleton, Nat.one_ne_zero, if_false] at hf
      simp only [PT.beforeMeasurePfy, PT.growMeasure, Nat.not_le.mpr (Nat.succ_pos _), if_false,
        PT.beforeForward, PT.growForward] at hf
      simp only [show ¬ (k + 3 ≤ 0 + 1) by omega, if_false] at hf
      split at hf
      · cases hf
      · rename_i pa' rs anc hfo
        cases hf
        rw [hfw] at hfo
        unfold ffpropyForward at hfo
        obtain ⟨last, -, hfo⟩ := bind_eq_ok.mp hfo
        obtain ⟨pa0, -, hfo⟩ := bind_eq_ok.mp hfo
        obtain ⟨⟨pa1, f1, a1⟩, -, hfo⟩ := bind_eq_ok.mp hfo
        rw [getLast_ok.mpr (show _ = some Slot.none by
              rw [List.getLast?_eq_getElem?]; simp),
            getLast_ok.mpr (show _ = some (k + 2) by
              rw [List.getLast?_eq_getElem?]; simp)] at hfo
        simp only [ok_bind] at hfo
        obtain ⟨q, hq, hfo⟩ := bind_eq_ok.mp hfo
        obtain ⟨tc, -, hfo⟩ := bind_eq_ok.mp hfo
        obtain ⟨pp, -, hfo⟩ := bind_eq_ok.mp hfo
        obtain ⟨pi, -, hfo⟩ := bind_eq_ok.mp hfo
        obtain ⟨wn, -, hfo⟩ := bind_eq_ok.mp hfo
        obtain ⟨pa2, hw, hfo⟩ := bind_eq_ok.mp hfo
        simp only [pure_eq_ok, Except.ok.injEq, Prod.mk.injEq] at hfo
        obtain ⟨rfl, -, -⟩ := hfo
        refine ⟨⟨pa2, anc⟩, pa1.part.length, rfl, ?_⟩
        simp only
        rw [(weightUpdate_spec hw).1]; exact hq
  · cases hm

/-! ### C11 for the auxiliary filter -/

/-- C11 (apf): the auxiliary filter resamples iff `res ≠ 0` and the effective sample size of the weights
*including the first-stage weights* is below `res·N`; otherwise the ancestors are `0, …, N-1`. -/
theorem C11_apf_resample_iff {P U Y V Ω : Type} {M : Callbacks P U Y V Ω} {res : ℝ} {tr : List (Step P)} {last : Step P}
    (hlast : tr.getLast? = some last)
    {yv : List (Slot Y)} {uv : List (Slot U)} {tv : List ℕ} {cur : ℕ} {d : Draws Ω} {pa : PA P}
    {flag : Bool} {anc : List ℕ} (h : apfForward M res tr yv uv tv cur d = .ok (pa, flag, anc)) :
    ∃ y u t l1, yv[cur+1]? = some y ∧ y ≠ .none ∧ uv[cur]? = some u ∧ tv[cur]? = some t ∧
      M.evalFirstStage last.pa.part u y t = .ok l1 ∧
      (flag = true ↔ res ≠ 0 ∧
        ess (List.zipWith (· + ·) last.pa.w l1) < res * last.pa.part.length) ∧
      (flag = false → anc = List.range last.pa.part.length) := by
  unfold apfForward at h
  obtain ⟨last', hl', h⟩ := bind_eq_ok.mp h
  obtain rfl : last = last' := by rw [getLast_ok, hlast] at hl'; exact Option.some.inj hl'
  obtain ⟨pa0, h0, h⟩ := bind_eq_ok.mp h
  simp only [PA.new, Except.ok.injEq] at h0
  subst h0
  obtain ⟨y, hy, h⟩ := bind_eq_ok.mp h
  obtain ⟨⟨pa1, l1⟩, h1, h⟩ := bind_eq_ok.mp h
  obtain ⟨⟨pa2, flag', anc2, l2⟩, h2, h⟩ := bind_eq_ok.mp h
  obtain ⟨pa3, -, h⟩ := bind_eq_ok.mp h
  obtain ⟨pa4, -, h⟩ := bind_eq_ok.mp h
  have hyy := getIdx_ok.mp hy
  have key : ∀ {y : Slot Y}, y ≠ .none → (do
          let u ← getIdx uv cur
          let t ← getIdx tv cur
          let l1w ← M.evalFirstStage last.pa.part u y t
          let w ← npAdd last.pa.w l1w
          let m ← npMax w
          pure (({ part := last.pa.part, w := w.map (· - m), num := last.pa.part.length, w_offset := 0 } : PA P),
            some l1w)) = Except.ok (ε := PyErr) (pa1, l1) →
      ∃ u t l, uv[cur]? = some u ∧ tv[cur]? = some t ∧ M.evalFirstStage last.pa.part u y t = .ok l ∧ l1 = some l ∧
        pa1.num = last.pa.part.length ∧ pa1.w ≠ [] ∧ ess pa1.w = ess (List.zipWith (· + ·) last.pa.w l) := by
    intro y _ hh
    obtain ⟨u, hu, hh⟩ := bind_eq_ok.mp hh
    obtain ⟨t, ht, hh⟩ := bind_eq_ok.mp hh
    obtain ⟨l, hl, hh⟩ := bind_eq_ok.mp hh
    obtain ⟨w, hw, hh⟩ := bind_eq_ok.mp hh
    obtain ⟨m, hm, hh⟩ := bind_eq_ok.mp hh
    simp only [pure_eq_ok, Except.ok.injEq, Prod.mk.injEq] at hh
    obtain ⟨rfl, rfl⟩ := hh
    have hwz : w = List.zipWith (· + ·) last.pa.w l := by
      unfold npAdd at hw; split at hw
      · exact (Except.ok.inj hw).symm
      · cases hw
    have hwne : w ≠ [] := by rintro rfl; simp [npMax] at hm
    refine ⟨u, t, l, getIdx_ok.mp hu, getIdx_ok.mp ht, hl, rfl, rfl, by simpa using hwne, ?_⟩
    rw [← hwz]
    simp only [sub_eq_add_neg]
    simp only [Spec.ess, normWeights_shift]
  cases hy0 : y with
  | none =>
    rw [hy0] at h1
    simp only [pure_eq_ok, Except.ok.injEq, Prod.mk.injEq] at h1
    obtain ⟨-, rfl⟩ := h1
    exfalso
    have hn : l2 = none := by
      clear h
      by_cases hr : res ≠ 0
      · simp only [hr, ne_eq, not_false_eq_true, if_true] at h2
        obtain ⟨neff, -, h2⟩ := bind_eq_ok.mp h2
        by_cases hlt : neff < res * pa1.num
        · simp only [hlt, if_true] at h2
          obtain ⟨⟨q, a⟩, -, h2⟩ := bind_eq_ok.mp h2
          simp at h2
        · simp only [hlt, if_false, pure_eq_ok, Except.ok.injEq, Prod.mk.injEq] at h2
          exact h2.2.2.2.symm
      · simp only [hr, if_false, pure_eq_ok, Except.ok.injEq, Prod.mk.injEq] at h2
        exact h2.2.2.2.symm
    subst hn; simp at h
  | _ =>
    have hyn : y ≠ .none := by rw [hy0]; simp
    have h1' : ∃ u t l, uv[cur]? = some u ∧ tv[cur]? = some t ∧ M.evalFirstStage last.pa.part u y t = .ok l ∧ l1 = some l ∧
        pa1.num = last.pa.part.length ∧ pa1.w ≠ [] ∧ ess pa1.w = ess (List.zipWith (· + ·) last.pa.w l) := by
      refine key hyn ?_
      rw [hy0] at h1 ⊢
      exact h1
    obtain ⟨u, t, l, hu, ht, hl, rfl, hnum, hwne, hess⟩ := h1'
    refine ⟨y, u, t, l, hyy, hyn, hu, ht, hl, ?_⟩
    rw [← hess, ← hnum]
    have hfl : flag' = flag ∧ anc2 = anc := by
      cases l2 with
      | none => simp at h
      | some l' =>
        simp only at h
        obtain ⟨w5, -, h⟩ := bind_eq_ok.mp h
        obtain ⟨m5, -, h⟩ := bind_eq_ok.mp h
        simp only [pure_eq_ok, Except.ok.injEq, Prod.mk.injEq] at h
        exact h.2
    obtain ⟨rfl, rfl⟩ := hfl
    by_cases hr : res ≠ 0
    · simp only [hr, ne_eq, not_false_eq_true, if_true, calcNeff_eq hwne, ok_bind] at h2
      by_cases hlt : ess pa1.w < res * pa1.num
      · simp only [hlt, if_true] at h2
        obtain ⟨⟨q, a⟩, -, h2⟩ := bind_eq_ok.mp h2
        simp only at h2
        obtain ⟨l', -, h2⟩ := bind_eq_ok.mp h2
        simp only [pure_eq_ok, Except.ok.injEq, Prod.mk.injEq] at h2
        simp [hr, hlt, ← h2.2.1]
      · simp only [hlt, if_false, pure_eq_ok, Except.ok.injEq, Prod.mk.injEq] at h2
        simp [hlt, ← h2.2.1, h2.2.2.1.symm]
    · simp only [hr, if_false, pure_eq_ok, Except.ok.injEq, Prod.mk.injEq] at h2
      simp [hr, ← h2.2.1, h2.2.2.1.symm]

end PyPE

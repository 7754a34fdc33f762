import Verif.Param.Model
import Mathlib.Analysis.PSeries
import Mathlib.Analysis.SpecialFunctions.Pow.Asymptotics
import Mathlib.Tactic

/-!
# The EM driver: schedule (C53) and step sizes (C54)
-/

namespace PyPE

theorem Traced.call_ok {C α β : Type} {x : PyM α} {c : α → List C} {k : α → Traced C β}
    {tr : List C} {b : β} :
    Traced.call x c k = (tr, .ok b) ↔
      ∃ a, x = .ok a ∧ ∃ tr', k a = (tr', .ok b) ∧ tr = c a ++ tr' := by
  cases x with
  | error e => simp [Traced.call]
  | ok a =>
    simp only [Traced.call, Prod.mk.injEq]
    constructor
    · rintro ⟨h1, h2⟩
      exact ⟨a, rfl, (k a).1, by rw [← h2], h1.symm⟩
    · rintro ⟨a', h, tr', hk, rfl⟩
      cases h
      simp [hk]

namespace Spec

/-- The entry a schedule prescribes for iteration `i`: the number itself, or the `i`-th entry, the last
one being repeated. -/
def entry : Sched → ℕ → ℕ
  | .scalar n, _ => n
  | .array l, i => l.getD (min i (l.length - 1)) 0

/-- A schedule that prescribes something: an array has at least one entry. -/
def SchedOk : Sched → Prop
  | .scalar _ => True
  | .array l => l ≠ []

/-- What iteration `i` of EM should do, when the estimate before it is `θ` and after it `θ'`. -/
def emBlock {Θ : Type} (cs cb : Bool) (np nt : Sched) (i : ℕ) (θ θ' : Θ) : List (EmCall Θ) :=
  [.setParams θ, .simulate (entry np i) (entry nt i)] ++ (if cs then [.callbackSim] else []) ++
    [.maximize θ'] ++ (if cb then [.callback θ' i] else [])

/-- The calls of `n` iterations of EM, `est i` being the estimate before iteration `i`. -/
def emTrace {Θ : Type} (cs cb : Bool) (np nt : Sched) (est : ℕ → Θ) (n : ℕ) : List (EmCall Θ) :=
  (List.range n).flatMap fun i => emBlock cs cb np nt i (est i) (est (i + 1))

/-- The simulations in a list of calls. -/
def simulations {Θ : Type} (tr : List (EmCall Θ)) : List (ℕ × ℕ) :=
  tr.filterMap fun c => match c with
    | .simulate a b => some (a, b)
    | _ => none

/-- The values returned by the M-steps in a list of calls. -/
def mSteps {Θ : Type} (tr : List (EmCall Θ)) : List Θ :=
  tr.filterMap fun c => match c with
    | .maximize r => some r
    | _ => none

/-- The parameters installed in the model, in order. -/
def installed {Θ : Type} (tr : List (EmCall Θ)) : List Θ :=
  tr.filterMap fun c => match c with
    | .setParams r => some r
    | _ => none

end Spec

open Spec

theorem pick_eq {s : Sched} (h : SchedOk s) (i : ℕ) : s.pick i = .ok (entry s i) := by
  cases s with
  | scalar n => rfl
  | array l =>
    have hl : 0 < l.length := List.length_pos_of_ne_nil h
    simp only [Sched.pick, entry]
    split_ifs with hi
    · rw [min_eq_left (by omega), getIdx_of_lt hi, List.getD_eq_getElem?_getD, List.getElem?_eq_getElem hi, Option.getD_some]
    · rw [min_eq_right (by omega), List.getD_eq_getElem?_getD, List.getElem?_eq_getElem (show l.length - 1 < l.length by omega), Option.getD_some]
      simp [getLast, List.getLast?_eq_getElem?, List.getElem?_eq_getElem (show l.length - 1 < l.length by omega)]

theorem pick_ok {s : Sched} {i n : ℕ} (h : s.pick i = .ok n) : SchedOk s ∧ n = entry s i := by
  have hs : SchedOk s := by
    cases s with
    | scalar n => trivial
    | array l =>
      rintro rfl
      simp [Sched.pick, getLast] at h
  refine ⟨hs, ?_⟩
  rw [pick_eq hs] at h
  cases h
  rfl

section EM
variable {W Θ : Type} {H : EmHooks W Θ} {np nt : Sched}

theorem emIter_ok {i : ℕ} {θ θ' : Θ} {w w' : W} {tr : List (EmCall Θ)}
    (h : emIter H np nt i θ w = (tr, .ok (θ', w'))) :
    SchedOk np ∧ SchedOk nt ∧
      tr = emBlock H.callbackSim.isSome H.callback.isSome np nt i θ θ' := by
  unfold emIter at h
  simp only [Traced.call_ok] at h
  obtain ⟨w1, _, t1, ⟨n1, hn1, t2, ⟨n2, hn2, t3, ⟨w2, _, t4, ⟨w3, _, t5, ⟨⟨θ'', w4⟩, _, t6, ⟨w5, _, t7, h7, rfl⟩,
    rfl⟩, rfl⟩, rfl⟩, rfl⟩, rfl⟩, rfl⟩ := h
  simp only [Prod.mk.injEq, Except.ok.injEq] at h7
  obtain ⟨rfl, rfl, _⟩ := h7
  obtain ⟨a, rfl⟩ := pick_ok hn1
  obtain ⟨b, rfl⟩ := pick_ok hn2
  refine ⟨a, b, ?_⟩
  cases hc : H.callbackSim <;> cases hb : H.callback <;> simp [emBlock, optRecord]

theorem emLoop_ok {n : ℕ} : ∀ {s : ℕ} {θ θ' : Θ} {w w' : W} {tr : List (EmCall Θ)},
    emLoop H np nt (List.range' s n) θ w = (tr, .ok (θ', w')) →
    ∃ est : ℕ → Θ, est s = θ ∧ est (s + n) = θ' ∧
      tr = (List.range' s n).flatMap fun i =>
        emBlock H.callbackSim.isSome H.callback.isSome np nt i (est i) (est (i + 1)) := by
  induction n with
  | zero =>
    intro s θ θ' w w' tr h
    simp only [List.range'_zero, emLoop, Prod.mk.injEq, Except.ok.injEq] at h
    obtain ⟨rfl, rfl, rfl⟩ := h
    exact ⟨fun _ => θ, rfl, rfl, rfl⟩
  | succ n ih =>
    intro s θ θ' w w' tr h
    rw [List.range'_succ] at h ⊢
    simp only [emLoop] at h
    split at h
    · cases h
    · rename_i tr1 θ1 w1 h1
      simp only [Prod.mk.injEq] at h
      obtain ⟨htr, h2⟩ := h
      obtain ⟨est, e0, e1, e2⟩ := ih (s := s + 1) (tr := (emLoop H np nt (List.range' (s + 1) n) θ1 w1).1)
        (by rw [← h2])
      refine ⟨fun i => if i ≤ s then θ else est i, by simp, ?_, ?_⟩
      · beta_reduce
        rw [if_neg (by omega), ← e1]
        congr 1
        omega
      · rw [← htr, e2, (emIter_ok h1).2.2, List.flatMap_cons]
        congr 1
        · simp [e0]
        · refine List.flatMap_congr fun i hi => ?_
          rw [List.mem_range'_1] at hi
          beta_reduce
          rw [if_neg (by omega), if_neg (by omega)]

/-- **C53**: when EM completes (no callback or model operation raised), it made exactly the calls of
`max_iter` iterations: with `est 0 = param0`, iteration `i` installs `est i`, simulates with the `i`-th
entries of the schedules (the last entry repeated), runs the M-step, whose result is `est (i + 1)`, and
reports it with `cur_iter = i`; the value returned is the last estimate, with `-inf`. -/
theorem C53_schedule {v : PyVersion} {param0 θ : Θ} {max_iter : ℕ} {w w' : W} {q : Option ℝ}
    {tr : List (EmCall Θ)}
    (h : emMaximize v H param0 np nt max_iter w = (tr, .ok ((θ, q), w'))) :
    q = none ∧ ∃ est : ℕ → Θ, est 0 = param0 ∧ est max_iter = θ ∧
      tr = emTrace H.callbackSim.isSome H.callback.isSome np nt est max_iter := by
  unfold emMaximize at h
  rw [Traced.call_ok] at h
  obtain ⟨is, his, tr', h, rfl⟩ := h
  have his : is = List.range' 0 max_iter := by
    cases v with
    | py2 => simp only [xrange, Except.ok.injEq] at his; rw [← his, List.range_eq_range']
    | py3 => cases his
  subst his
  split at h
  · cases h
  · rename_i tr1 θ1 w1 h1
    simp only [Prod.mk.injEq, Except.ok.injEq] at h
    obtain ⟨rfl, ⟨rfl, rfl⟩, rfl⟩ := h
    obtain ⟨est, e0, e1, e2⟩ := emLoop_ok h1
    refine ⟨rfl, est, e0, by simpa using e1, ?_⟩
    rw [e2, emTrace, List.range_eq_range']

theorem simulations_emTrace (cs cb : Bool) (est : ℕ → Θ) (n : ℕ) :
    simulations (emTrace cs cb np nt est n) = (List.range n).map fun i => (entry np i, entry nt i) := by
  rw [simulations, emTrace, List.filterMap_flatMap, List.map_eq_flatMap]
  refine List.flatMap_congr fun i _ => ?_
  cases cs <;> cases cb <;> rfl

theorem mSteps_emTrace (cs cb : Bool) (est : ℕ → Θ) (n : ℕ) :
    mSteps (emTrace cs cb np nt est n) = (List.range n).map fun i => est (i + 1) := by
  rw [mSteps, emTrace, List.filterMap_flatMap, List.map_eq_flatMap]
  refine List.flatMap_congr fun i _ => ?_
  cases cs <;> cases cb <;> rfl

theorem installed_emTrace (cs cb : Bool) (est : ℕ → Θ) (n : ℕ) :
    installed (emTrace cs cb np nt est n) = (List.range n).map est := by
  rw [installed, emTrace, List.filterMap_flatMap, List.map_eq_flatMap]
  refine List.flatMap_congr fun i _ => ?_
  cases cs <;> cases cb <;> rfl

/-- **C53**: a completed run performed exactly `max_iter` simulations, with the prescribed numbers of
particles and trajectories, and `max_iter` M-steps. -/
theorem C53_counts {v : PyVersion} {param0 : Θ} {max_iter : ℕ} {w : W} {r : (Θ × Option ℝ) × W}
    {tr : List (EmCall Θ)} (h : emMaximize v H param0 np nt max_iter w = (tr, .ok r)) :
    simulations tr = (List.range max_iter).map (fun i => (entry np i, entry nt i)) ∧
      (mSteps tr).length = max_iter := by
  obtain ⟨⟨θ, q⟩, w'⟩ := r
  obtain ⟨_, est, _, _, rfl⟩ := C53_schedule h
  refine ⟨simulations_emTrace .., ?_⟩
  rw [mSteps_emTrace]
  simp

/-- **C53**: the returned estimate is the result of the last M-step, and it is never installed in the
model by the driver: the last parameters installed are those the last M-step started from (`est
(max_iter - 1)`), so the model is left with another parameter vector than the one returned. -/
theorem C53_final_estimate {v : PyVersion} {param0 θ : Θ} {n : ℕ} {w w' : W} {q : Option ℝ}
    {tr : List (EmCall Θ)}
    (h : emMaximize v H param0 np nt (n + 1) w = (tr, .ok ((θ, q), w'))) :
    (mSteps tr).getLast? = some θ ∧ (installed tr).length = n + 1 ∧
      (installed tr).getLast? = some ((param0 :: mSteps tr).getD n θ) := by
  obtain ⟨_, est, h0, h1, rfl⟩ := C53_schedule h
  rw [mSteps_emTrace, installed_emTrace]
  refine ⟨by simp [List.range_succ, h1], by simp, ?_⟩
  cases n with
  | zero => simp [List.range_succ, h0]
  | succ n => simp [List.range_succ]

theorem emLoop_total (hset : ∀ θ w, ∃ w', H.setParams θ w = .ok w')
    (hsim : ∀ a b w, ∃ w', H.simulate a b w = .ok w') (hmax : ∀ w, ∃ r, H.maximize w = .ok r)
    (hcs : ∀ f, H.callbackSim = some f → ∀ w, ∃ w', f w = .ok w')
    (hcb : ∀ f, H.callback = some f → ∀ θ i w, ∃ w', f θ i w = .ok w')
    (h1 : SchedOk np) (h2 : SchedOk nt) :
    ∀ (is : List ℕ) (θ : Θ) (w : W), ∃ tr r, emLoop H np nt is θ w = (tr, .ok r) := by
  intro is
  induction is with
  | nil => exact fun θ w => ⟨_, _, rfl⟩
  | cons i is ih =>
    intro θ w
    obtain ⟨w1, e1⟩ := hset θ w
    obtain ⟨w2, e2⟩ := hsim (entry np i) (entry nt i) w1
    obtain ⟨w3, e3⟩ : ∃ w3, optCall H.callbackSim w2 = .ok w3 := by
      cases hc : H.callbackSim with
      | none => exact ⟨w2, rfl⟩
      | some f => exact hcs f hc w2
    obtain ⟨⟨θ', w4⟩, e4⟩ := hmax w3
    obtain ⟨w5, e5⟩ : ∃ w5, optCall (H.callback.map fun f => f θ' i) w4 = .ok w5 := by
      cases hc : H.callback with
      | none => exact ⟨w4, rfl⟩
      | some f => exact hcb f hc θ' i w4
    obtain ⟨tr, r, e6⟩ := ih θ' w5
    have : ∃ t, emIter H np nt i θ w = (t, .ok (θ', w5)) := by
      simp only [emIter, e1, pick_eq h1, pick_eq h2, Traced.call, e2, e3, e4, e5]
      exact ⟨_, rfl⟩
    obtain ⟨t, ht⟩ := this
    simp only [emLoop, ht, e6]
    exact ⟨_, _, rfl⟩

/-- **C53**: under Python 2, if nothing raises and the schedules are not empty arrays, EM completes. -/
theorem C53_completes (hset : ∀ θ w, ∃ w', H.setParams θ w = .ok w')
    (hsim : ∀ a b w, ∃ w', H.simulate a b w = .ok w') (hmax : ∀ w, ∃ r, H.maximize w = .ok r)
    (hcs : ∀ f, H.callbackSim = some f → ∀ w, ∃ w', f w = .ok w')
    (hcb : ∀ f, H.callback = some f → ∀ θ i w, ∃ w', f θ i w = .ok w')
    (h1 : SchedOk np) (h2 : SchedOk nt) (param0 : Θ) (max_iter : ℕ) (w : W) :
    ∃ tr r, emMaximize .py2 H param0 np nt max_iter w = (tr, .ok r) := by
  obtain ⟨tr, r, h⟩ := emLoop_total hset hsim hmax hcs hcb h1 h2 (List.range max_iter) param0 w
  simp only [emMaximize, xrange, Traced.call, h]
  exact ⟨_, _, rfl⟩

/-- **C53**: an empty schedule array raises `IndexError` in the first iteration, before any simulation. -/
theorem C53_empty_schedule {param0 : Θ} {w w1 : W} (hset : H.setParams param0 w = .ok w1) (n : ℕ) :
    emMaximize .py2 H param0 (.array []) nt (n + 1) w = ([.setParams param0], .error .indexError) := by
  simp [emMaximize, xrange, Traced.call, List.range_succ_eq_map, emLoop, emIter, hset, Sched.pick, getLast]

/-- **C53**: under Python 3 (no `xrange`) EM raises `NameError` before doing anything. -/
theorem C53_python3 (param0 : Θ) (max_iter : ℕ) (w : W) :
    emMaximize .py3 H param0 np nt max_iter w = ([], .error .nameError) := rfl

end EM

/-- A world for the examples: parameters are numbers, the M-step adds the number of particles that were
simulated to the installed parameter. -/
def emToy : EmHooks (ℕ × ℕ) ℕ where
  setParams := fun θ w => .ok (θ, w.2)
  simulate := fun a _ w => .ok (w.1, a)
  maximize := fun w => .ok (w.1 + w.2, w)
  callbackSim := none
  callback := some fun _ _ w => .ok w

/-- Non-vacuity of C53: schedule `[10, 20]` with three iterations. -/
example : emMaximize .py2 emToy 1 (.array [10, 20]) (.scalar 5) 3 (0, 0) =
    ([.setParams 1, .simulate 10 5, .maximize 11, .callback 11 0,
      .setParams 11, .simulate 20 5, .maximize 31, .callback 31 1,
      .setParams 31, .simulate 20 5, .maximize 51, .callback 51 2], .ok ((51, none), (31, 20))) := by
  simp [emMaximize, xrange, Traced.call, List.range_succ, emLoop, emIter, Sched.pick, getLast, getIdx, emToy, optCall,
    optRecord]

/-! ## Step sizes -/

theorem alphaGen_add (n : ℕ) : alphaGen (n + 101) = ((n : ℝ) + 1) ^ (-0.51 : ℝ) := by
  rw [alphaGen, if_neg (by omega), show n + 101 - 100 = n + 1 by omega]
  push_cast
  rfl

/-- **C54**: the step sizes lie in `(0, 1]`. -/
theorem C54_range (it : ℕ) : 0 < alphaGen it ∧ alphaGen it ≤ 1 := by
  rw [alphaGen]
  split_ifs with h
  · simp
  · have h1 : (1 : ℝ) ≤ ((it - 100 : ℕ) : ℝ) := by exact_mod_cast (by omega : 1 ≤ it - 100)
    exact ⟨Real.rpow_pos_of_pos (by linarith) _, Real.rpow_le_one_of_one_le_of_nonpos h1 (by norm_num)⟩

/-- **C54**: the step size is 1 exactly up to iteration 101. -/
theorem C54_one_iff (it : ℕ) : alphaGen it = 1 ↔ it ≤ 101 := by
  constructor
  · intro h
    by_contra hc
    rw [alphaGen, if_neg (by omega)] at h
    have h1 : (1 : ℝ) < ((it - 100 : ℕ) : ℝ) := by exact_mod_cast (by omega : 1 < it - 100)
    have := Real.rpow_lt_one_of_one_lt_of_neg h1 (show (-0.51 : ℝ) < 0 by norm_num)
    linarith
  · intro h
    rw [alphaGen]
    split_ifs with h'
    · rfl
    · have : it = 101 := by omega
      subst this
      norm_num

/-- **C54**: the step sizes never increase. -/
theorem C54_antitone : Antitone alphaGen := by
  intro a b hab
  by_cases ha : a ≤ 100
  · rw [show alphaGen a = 1 by rw [alphaGen, if_pos ha]]
    exact (C54_range b).2
  · rw [alphaGen, alphaGen, if_neg ha, if_neg (by omega)]
    have h1 : (0 : ℝ) < ((a - 100 : ℕ) : ℝ) := by exact_mod_cast (by omega : 0 < a - 100)
    refine Real.rpow_le_rpow_of_nonpos h1 ?_ (by norm_num)
    exact_mod_cast (by omega : a - 100 ≤ b - 100)

/-- **C54** (Robbins-Monro): the step sizes sum to infinity. -/
theorem C54_sum_diverges : ¬ Summable alphaGen := by
  intro h
  rw [← summable_nat_add_iff 101] at h
  simp only [alphaGen_add] at h
  have : Summable fun n : ℕ => ((n : ℝ)) ^ (-0.51 : ℝ) := by
    rw [← summable_nat_add_iff 1]
    simpa using h
  rw [Real.summable_nat_rpow] at this
  norm_num at this

/-- **C54** (Robbins-Monro): the squares of the step sizes have a finite sum. -/
theorem C54_squares_converge : Summable fun it => alphaGen it ^ 2 := by
  rw [← summable_nat_add_iff 101]
  simp only [alphaGen_add]
  have : Summable fun n : ℕ => ((n : ℝ)) ^ (-1.02 : ℝ) := by
    rw [Real.summable_nat_rpow]
    norm_num
  rw [← summable_nat_add_iff 1] at this
  refine this.congr fun n => ?_
  push_cast
  rw [← Real.rpow_natCast, ← Real.rpow_mul (by positivity)]
  norm_num

end PyPE

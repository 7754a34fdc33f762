import Verif.Filter.Runs
import Mathlib.Algebra.BigOperators.Intervals

/-!
# Models implementing the Markov interface `ParticleFiltering` (interfaces.py:234-290)

The adapters `sample_process_noise_full`, `update_full` and `measure_full` pick the data of the current
step out of the buffers.  C63: `forward`/`measure` call the model with the data of the right time.
C13: sequential importance sampling.
-/

namespace PyPE
open Real Spec

variable {P U Y V Ω : Type}

/-- The abstract methods of `ParticleFiltering` (interfaces.py:252-290) and `create_initial_estimate`
(interfaces.py:126-135). -/
structure MarkovModel (P U Y V Ω : Type) where
  createInitial : ℕ → Ω → PyM (List P)
  sampleProcessNoise : List P → Slot U → ℕ → Ω → PyM V
  update : List P → Slot U → ℕ → V → PyM (List P)
  measure : List P → Slot Y → ℕ → PyM (List ℝ)

/-- `ParticleFiltering` (interfaces.py:242-250): `sample_process_noise_full`, `update_full`,
`measure_full`. The callbacks of the other interfaces are inherited from `rest`. -/
def MarkovModel.toCallbacks (K : MarkovModel P U Y V Ω) (rest : Callbacks P U Y V Ω) :
    Callbacks P U Y V Ω :=
  { rest with
    createInitial := K.createInitial
    sampleNoise := fun ptraj ancestors ut tt ω => do
      let st ← getLast ptraj
      let part ← fancy st.pa.part ancestors
      let u ← getLast ut
      let t ← getLast tt
      K.sampleProcessNoise part u t ω
    update := fun particles _ uvec _ tvec _ noise => do
      let u ← getLast uvec
      let t ← getLast tvec
      K.update particles u t noise
    measure := fun particles _ _ yvec tvec _ => do
      let y ← getLast yvec
      let t ← getLast tvec
      K.measure particles y t }

/-- The bootstrap filter for a Markov model, as `mkFilter` builds it (`C25`). -/
noncomputable def markovPf (K : MarkovModel P U Y V Ω) (rest : Callbacks P U Y V Ω) (res : ℝ) :
    FilterOps P U Y V Ω := pfOps (K.toCallbacks rest) res

theorem getLast_take_succ {α : Type} {l : List α} {k : ℕ} {x : α} (h : l[k]? = some x) :
    getLast (l.take (k+1)) = .ok x := by
  have hk : k < l.length := lt_of_getElem?_some h
  rw [getLast_ok, List.getLast?_eq_getElem?, List.length_take, Nat.min_eq_left hk]
  show (l.take (k+1))[k]? = some x
  rw [List.getElem?_take_of_lt (by omega), h]

/-- Everything `ParticleFilter.forward` does for a Markov model, in terms of the model's own methods. -/
theorem markov_pfForward {K : MarkovModel P U Y V Ω} {rest : Callbacks P U Y V Ω} {res : ℝ}
    {tr : List (Step P)} {last : Step P} (hlast : tr.getLast? = some last)
    {yv : List (Slot Y)} {uv : List (Slot U)} {tv : List ℕ} {k : ℕ} {u : Slot U} {y : Slot Y}
    (hu : uv[k]? = some u) (hy : yv[k+1]? = some y) (ht : tv[k]? = some k) (ht1 : tv[k+1]? = some (k+1))
    {d : Draws Ω} {pa : PA P} {flag : Bool} {anc : List ℕ}
    (h : pfForward (K.toCallbacks rest) res tr yv uv tv k d = .ok (pa, flag, anc)) :
    ∃ pa1 parents v l,
      maybeResample res ⟨last.pa.part, last.pa.w, last.pa.part.length, 0⟩ d.r = .ok (pa1, flag, anc) ∧
      fancy last.pa.part anc = .ok parents ∧
      K.sampleProcessNoise parents u k d.ω = .ok v ∧
      K.update pa1.part u k v = .ok pa.part ∧
      K.measure pa.part y (k+1) = .ok l ∧
      l.length = pa1.w.length ∧ pa.w.length = pa1.w.length ∧ pa.num = pa1.num ∧
      ∃ c, pa.w = List.zipWith (fun a b => a + b - c) pa1.w l := by
  unfold pfForward at h
  rw [getLast_ok.mpr hlast] at h
  simp only [ok_bind, PA.new] at h
  obtain ⟨⟨pa1, f1, a1⟩, hm, h⟩ := bind_eq_ok.mp h
  obtain ⟨pa2, hup, h⟩ := bind_eq_ok.mp h
  obtain ⟨pa3, hms, h⟩ := bind_eq_ok.mp h
  simp only [pure_eq_ok, Except.ok.injEq, Prod.mk.injEq] at h
  obtain ⟨rfl, rfl, rfl⟩ := h
  unfold pfUpdate at hup
  obtain ⟨v, hv, hup⟩ := bind_eq_ok.mp hup
  obtain ⟨part, hpart, hup⟩ := bind_eq_ok.mp hup
  simp only [pure_eq_ok, Except.ok.injEq] at hup
  subst hup
  simp only [MarkovModel.toCallbacks] at hv hpart
  rw [getLast_ok.mpr hlast] at hv
  simp only [ok_bind] at hv
  obtain ⟨parents, hp, hv⟩ := bind_eq_ok.mp hv
  rw [getLast_take_succ hu, getLast_take_succ ht] at hv hpart
  simp only [ok_bind] at hv hpart
  unfold pfMeasure at hms
  obtain ⟨l, hl, hms⟩ := bind_eq_ok.mp hms
  simp only [MarkovModel.toCallbacks] at hl
  rw [getLast_take_succ hy, getLast_take_succ ht1] at hl
  simp only [ok_bind] at hl
  obtain ⟨e1, e2, e3, e4, -, c, -, e5⟩ := weightUpdate_spec hms
  refine ⟨pa1, parents, v, l, hm, hp, hv, ?_, ?_, e3, e4, e2, c, e5⟩
  · rw [e1]; exact hpart
  · rw [e1]; exact hl

theorem maybeResample_none {res : ℝ} (hres : res ≤ 0) (pa : PA P) (r : ℝ) :
    maybeResample res pa r = .ok (pa, false, List.range pa.num) := by
  unfold maybeResample
  rw [if_neg (not_lt.mpr hres)]; rfl

/-- Buffer contents just before the filter's `forward` runs. -/
theorem PT.Rep.forward_bufs {s : PT P U Y} {l : Spec.Log U Y} (h : s.Rep l) (hne : l.ys ≠ [])
    (u : Slot U) (y : Slot Y) :
    let b := s.beforeForward u y
    b.uvec[s.ind1 - 1]? = some u ∧ b.yvec[s.ind1]? = some y ∧ b.tvec[s.ind1]? = some s.ind1 ∧
    b.tvec[s.ind1 - 1]? = some (s.ind1 - 1) := by
  have h1 : 1 ≤ s.ind1 := by
    rw [h.ind]; exact List.length_pos_iff.mpr hne
  obtain ⟨hg, e1, -⟩ := PT.growForward_inv h.inv h1
  have hlt : s.ind1 < s.growForward.T := by
    unfold PT.growForward; split
    · simp
    · omega
  have hu : s.ind1 - 1 < s.growForward.uvec.length := by have := hg.ulen_ge; omega
  have hy : s.ind1 < s.growForward.yvec.length := by rw [hg.ylen]; omega
  have ht : s.ind1 < s.growForward.tvec.length := by rw [hg.tlen]; omega
  have hts := h.ts (s.ind1 - 1) (by rw [h.ind] at *; omega)
  refine ⟨?_, ?_, ?_, ?_⟩
  · simp only [PT.beforeForward]; rw [List.getElem?_set_self hu]
  · simp only [PT.beforeForward]; rw [List.getElem?_set_self hy]
  · simp only [PT.beforeForward]; rw [List.getElem?_set_self ht]
  · simp only [PT.beforeForward]
    rw [List.getElem?_set_ne (by omega)]
    unfold PT.growForward
    split
    · simp only
      rw [npResize_getElem? _ (lt_of_getElem?_some hts) (by omega), hts]
    · exact hts

/-- What one successful `forward(u, y)` on a bootstrap-filter trajectory does: `s1` is the state after the
lazy creation of time 0. -/
theorem markov_forward {K : MarkovModel P U Y V Ω} {rest : Callbacks P U Y V Ω} {res : ℝ}
    {s s' : PT P U Y} {l : Spec.Log U Y} (h : s.Rep l) {u : Slot U} {y : Slot Y} {ω0 : Ω} {d : Draws Ω}
    {b : Bool} (hf : s.forward (markovPf K rest res) u y ω0 d = (s', .ok b)) :
    ∃ s1 k last pa anc, s.ensureInit (markovPf K rest res) ω0 = (s1, .ok ()) ∧
      s1.traj.getLast? = some last ∧ s1.traj.length = k + 1 ∧ s'.traj = s1.traj ++ [⟨pa, anc⟩] ∧
      ∃ pa1 parents v l,
      maybeResample res ⟨last.pa.part, last.pa.w, last.pa.part.length, 0⟩ d.r = .ok (pa1, b, anc) ∧
      fancy last.pa.part anc = .ok parents ∧
      K.sampleProcessNoise parents u k d.ω = .ok v ∧
      K.update pa1.part u k v = .ok pa.part ∧
      K.measure pa.part y (k+1) = .ok l ∧
      l.length = pa1.w.length ∧ pa.w.length = pa1.w.length ∧ pa.num = pa1.num ∧
      ∃ c, pa.w = List.zipWith (fun a b => a + b - c) pa1.w l := by
  rw [PT.forward_eq h.inv] at hf
  rcases he : s.ensureInit (markovPf K rest res) ω0 with ⟨s1, r⟩
  rw [he] at hf
  cases r with
  | error e => cases hf
  | ok _ =>
    obtain ⟨l1, hr1, hl1⟩ : ∃ l1 : Spec.Log U Y, s1.Rep l1 ∧ l1.ys ≠ [] := by
      obtain ⟨h1, h2⟩ := h.ensureInit he
      by_cases hl : l.ys = []
      · exact ⟨_, h1 hl, by simp⟩
      · exact ⟨l, by rw [h2 hl]; exact h, hl⟩
    simp only at hf
    split at hf
    · cases hf
    · rename_i pa rs anc hfw
      cases hf
      have hpos : 0 < l1.ys.length := List.length_pos_iff.mpr hl1
      have hne : s1.traj ≠ [] := by intro hc; have := hr1.len; rw [hc] at this; simp at this; omega
      obtain ⟨last, hlast⟩ := Option.ne_none_iff_exists'.mp (mt List.getLast?_eq_none_iff.mp hne)
      have hk : s1.ind1 = s1.ind1 - 1 + 1 := by have := hr1.ind; omega
      obtain ⟨b1, b2, b3, b4⟩ := hr1.forward_bufs hl1 u y
      rw [hk] at b2 b3
      refine ⟨s1, s1.ind1 - 1, last, pa, anc, rfl, hlast, by rw [← hk, hr1.len, hr1.ind], rfl, ?_⟩
      exact markov_pfForward hlast b1 b2 b4 b3 hfw

/-! ### C63: one step of the bootstrap filter -/

/-- C63: after any successful history, a successful `forward(u, y)` of the bootstrap filter on a Markov
model appends one step `k+1` that is obtained from step `k` exactly as the algorithm prescribes:
the model samples the process noise for the selected ancestors, the input `u` and time `k`; it propagates
those ancestors with `u`, time `k` and that noise; the likelihoods are evaluated for the new particles at
measurement `y` and time `k+1`.  Without resampling the weights are the Bayes update of the previous ones;
with resampling they are proportional to the likelihoods alone. -/
theorem C63_bootstrap_step {K : MarkovModel P U Y V Ω} {rest : Callbacks P U Y V Ω} {res : ℝ}
    {N : ℕ} {T : Option ℕ} {s0 s s' : PT P U Y} (h0 : PT.init N T 0 = .ok s0) {ops : List (Op U Y Ω)}
    {bs : List (Option Bool)} (hrun : s0.run (markovPf K rest res) ops = (s, .ok bs))
    {u : Slot U} {y : Slot Y} {ω0 : Ω} {d : Draws Ω} {resampled : Bool}
    (hf : s.forward (markovPf K rest res) u y ω0 d = (s', .ok resampled)) :
    ∃ k old new parents noise lik, s'.traj.length = k + 2 ∧ s'.traj[k]? = some old ∧
      s'.traj[k+1]? = some new ∧
      fancy old.pa.part new.ancestors = .ok parents ∧
      K.sampleProcessNoise parents u k d.ω = .ok noise ∧
      K.update parents u k noise = .ok new.pa.part ∧
      K.measure new.pa.part y (k+1) = .ok lik ∧
      (resampled = false → new.ancestors = List.range old.pa.part.length ∧
        normWeights new.pa.w = bayes (normWeights old.pa.w) (lik.map exp)) ∧
      (resampled = true → normWeights new.pa.w = normWeights lik) := by
  obtain ⟨s1, k, last, pa, anc, he, hlast, hlen, htr, pa1, parents, v, l, hm, hp, hv, hu, hl, e1, e2, e3, c, e4⟩ :=
    markov_forward (PT.run_rep ops (PT.init_rep h0) hrun) hf
  have hk : s1.traj[k]? = some last := getLast_of_idx hlen hlast
  have hne : last.pa.w ≠ [] := by
    intro hc
    unfold maybeResample at hm
    split_ifs at hm
    · rw [hc] at hm; cases hm
    · cases hm
      rw [hc] at e1
      simp only [hc, List.zipWith_nil_left] at e4
      have hl0 : l = [] := List.length_eq_zero_iff.mp e1
      subst hl0
      have := hf
      rw [PT.forward_eq (PT.run_rep ops (PT.init_rep h0) hrun).inv, he] at this
      simp only at this
      split at this
      · cases this
      · rename_i hfw
        exact pfForward_w_ne hlast hfw hc
  have hflag := maybeResample_flag (pa := ⟨last.pa.part, last.pa.w, last.pa.part.length, 0⟩) hne hm
  have hpar : pa1.part = parents := by
    unfold maybeResample at hm
    split_ifs at hm with hres
    · obtain ⟨neff, -, hm⟩ := bind_eq_ok.mp hm
      split_ifs at hm
      · obtain ⟨⟨p2, a2⟩, hr, hm⟩ := bind_eq_ok.mp hm
        cases hm
        unfold PA.resample at hr
        obtain ⟨m, -, hr⟩ := bind_eq_ok.mp hr
        obtain ⟨ni, -, hr⟩ := bind_eq_ok.mp hr
        obtain ⟨np, hnp, hr⟩ := bind_eq_ok.mp hr
        cases hr
        simp only at hnp ⊢
        rw [hp] at hnp; cases hnp; rfl
      · cases hm
        have := fancy_range last.pa.part
        simp only at hp
        rw [this] at hp; cases hp; rfl
    · cases hm
      have := fancy_range last.pa.part
      simp only at hp
      rw [this] at hp; cases hp; rfl
  refine ⟨k, last, ⟨pa, anc⟩, parents, v, l, by rw [htr]; simp [hlen], ?_, ?_, hp, hv, by rw [← hpar]; exact hu, hl, ?_, ?_⟩
  · rw [htr, List.getElem?_append_left (by omega), hk]
  · rw [htr, List.getElem?_append_right (by omega), hlen]; simp
  · intro hb
    obtain ⟨h1, h2⟩ := hflag.2 hb
    refine ⟨h2, ?_⟩
    simp only
    rw [e4, normWeights_zipWith, h1, normWeights_add hne]
  · intro hb
    subst hb
    simp only
    rw [e4, normWeights_zipWith]
    unfold maybeResample at hm
    split_ifs at hm
    · obtain ⟨neff, -, hm⟩ := bind_eq_ok.mp hm
      split_ifs at hm
      · obtain ⟨⟨p2, a2⟩, hr, hm⟩ := bind_eq_ok.mp hm
        cases hm
        unfold PA.resample at hr
        obtain ⟨m, -, hr⟩ := bind_eq_ok.mp hr
        obtain ⟨ni, -, hr⟩ := bind_eq_ok.mp hr
        obtain ⟨np, -, hr⟩ := bind_eq_ok.mp hr
        cases hr
        simp only [List.length_replicate] at e1 ⊢
        have : List.zipWith (· + ·) (List.replicate last.pa.part.length (Real.log (1 / (last.pa.part.length : ℝ)))) l =
            l.map (· + Real.log (1 / (last.pa.part.length : ℝ))) := by
          apply List.ext_getElem
          · simp [e1]
          · intro i h1 h2; simp [add_comm]
        rw [this, normWeights_shift]
      · cases hm
    · cases hm

/-! ### C13: sequential importance sampling -/

/-- A history as `Simulator.simulate` produces it: optionally a measurement at time 0, then forward
steps. -/
def Spec.history (first : Option (Slot Y × Ω)) (steps : List (Slot U × Slot Y × Ω × Draws Ω)) :
    List (Op U Y Ω) :=
  (match first with | none => [] | some (y, ω) => [.measure y ω]) ++
    steps.map fun q => .forward q.1 q.2.1 q.2.2.1 q.2.2.2

/-- The model returns as many particles as it is given. -/
structure Spec.KeepsN (K : MarkovModel P U Y V Ω) (N : ℕ) : Prop where
  create : ∀ ω part, K.createInitial N ω = .ok part → part.length = N
  update : ∀ part u t v part', part.length = N → K.update part u t v = .ok part' → part'.length = N

/-- `L j i` is the log-likelihood the model assigns to the measurement of time `j` for particle `i` of
stored step `j`; time 0 contributes nothing when it has no measurement (`m0 = false`). -/
def Spec.PathLoglik (K : MarkovModel P U Y V Ω) (N : ℕ) (m0 : Bool) (traj : List (Step P))
    (ys : List (Slot Y)) (L : ℕ → ℕ → ℝ) : Prop :=
  ∀ j st, traj[j]? = some st →
    (m0 = false ∧ j = 0 ∧ ∀ i < N, L 0 i = 0) ∨
    ((m0 = true ∨ 0 < j) ∧ ∃ y l, ys[j]? = some y ∧ K.measure st.pa.part y j = .ok l ∧ l.length = N ∧
      ∀ i < N, l[i]? = some (L j i))

/-- Internal invariant of `C13`. -/
structure SISInv (K : MarkovModel P U Y V Ω) (N : ℕ) (m0 : Bool) (s : PT P U Y) (lg : Spec.Log U Y)
    (L : ℕ → ℕ → ℝ) : Prop where
  rep : s.Rep lg
  ne : lg.ys ≠ []
  lik : Spec.PathLoglik K N m0 s.traj lg.ys L
  steps : ∀ (k : ℕ) st, s.traj[k]? = some st → st.ancestors = List.range N ∧ st.pa.part.length = N ∧
    st.pa.w.length = N ∧ ∃ c, ∀ i < N, st.pa.w[i]? = some (∑ j ∈ Finset.range (k+1), L j i + c)

/-- The invariant step: appending one un-resampled step. -/
theorem sis_append {K : MarkovModel P U Y V Ω} {N : ℕ} {m0 : Bool} {s1 s' : PT P U Y}
    {lg lg' : Spec.Log U Y} {L : ℕ → ℕ → ℝ} (h : SISInv K N m0 s1 lg L) (hrep' : s'.Rep lg')
    {y : Slot Y} (hys : lg'.ys = lg.ys ++ [y]) {pa : PA P} {anc : List ℕ}
    (htr : s'.traj = s1.traj ++ [⟨pa, anc⟩]) {last : Step P} (hlast : s1.traj.getLast? = some last)
    (hanc : anc = List.range N) {l : List ℝ} (hpl : pa.part.length = N)
    (hl : K.measure pa.part y s1.traj.length = .ok l) (hll : l.length = N) {c : ℝ}
    (hw : pa.w = List.zipWith (fun a b => a + b - c) last.pa.w l) :
    ∃ L', SISInv K N m0 s' lg' L' := by
  have hlen : s1.traj.length = lg.ys.length := h.rep.len
  have hn : 0 < lg.ys.length := List.length_pos_iff.mpr h.ne
  set n := s1.traj.length with hndef
  have hidx : s1.traj[n-1]? = some last := by rw [List.getLast?_eq_getElem?] at hlast; exact hlast
  obtain ⟨-, -, hwl, c0, hc0⟩ := h.steps _ _ hidx
  have hwN : pa.w.length = N := by rw [hw]; simp [hwl, hll]
  refine ⟨Function.update L n (fun i => l.getD i 0), hrep', by rw [hys]; simp, ?_, ?_⟩
  · intro j st hj
    rw [htr] at hj
    by_cases hjn : j < n
    · rw [List.getElem?_append_left hjn] at hj
      have hne : j ≠ n := by omega
      rcases h.lik j st hj with ⟨h1, rfl, h3⟩ | ⟨h1, y', l', h2, h3, h4, h5⟩
      · left; refine ⟨h1, rfl, ?_⟩
        rw [Function.update_of_ne hne]; exact h3
      · right
        refine ⟨h1, y', l', ?_, h3, h4, ?_⟩
        · rw [hys, List.getElem?_append_left (by omega), h2]
        · rw [Function.update_of_ne hne]; exact h5
    · have hjn' : j = n := by
        have := lt_of_getElem?_some hj
        simp only [List.length_append, List.length_singleton] at this; omega
      subst hjn'
      rw [List.getElem?_append_right (le_refl _)] at hj
      simp only [← hndef, Nat.sub_self, List.getElem?_cons_zero, Option.some.injEq] at hj
      subst hj
      right
      refine ⟨Or.inr (by omega), y, l, ?_, hl, hll, ?_⟩
      · rw [hys, hlen, List.getElem?_append_right (le_refl _)]; simp
      · intro i hi
        rw [Function.update_self, List.getD_eq_getElem?_getD, List.getElem?_eq_getElem (by omega)]; rfl
  · intro k st hk
    rw [htr] at hk
    by_cases hkn : k < n
    · rw [List.getElem?_append_left hkn] at hk
      obtain ⟨h1, h2, h3, c', h4⟩ := h.steps k st hk
      refine ⟨h1, h2, h3, c', fun i hi => ?_⟩
      rw [h4 i hi]
      congr 2
      apply Finset.sum_congr rfl
      intro j hj
      rw [Function.update_of_ne]
      have := Finset.mem_range.mp hj; omega
    · have hkn' : k = n := by
        have := lt_of_getElem?_some hk
        simp only [List.length_append, List.length_singleton] at this; omega
      subst hkn'
      rw [List.getElem?_append_right (le_refl _)] at hk
      simp only [← hndef, Nat.sub_self, List.getElem?_cons_zero, Option.some.injEq] at hk
      subst hk
      refine ⟨hanc, hpl, hwN, c0 - c, fun i hi => ?_⟩
      simp only
      rw [hw, List.getElem?_zipWith, hc0 i hi, List.getElem?_eq_getElem (by omega)]
      simp only [Option.some.injEq]
      rw [Finset.sum_range_succ _ n, Function.update_self]
      have e : ∑ j ∈ Finset.range n, Function.update L n (fun i => l.getD i 0) j i =
          ∑ j ∈ Finset.range (n - 1 + 1), L j i := by
        rw [show n - 1 + 1 = n by omega]
        apply Finset.sum_congr rfl
        intro j hj
        rw [Function.update_of_ne]
        have := Finset.mem_range.mp hj; omega
      rw [e, List.getD_eq_getElem?_getD, List.getElem?_eq_getElem (by omega)]
      simp only [Option.getD_some]; ring

theorem ensureInit_pos {F : FilterOps P U Y V Ω} {s s1 : PT P U Y} {ω : Ω} (h : s.traj = [])
    (he : s.ensureInit F ω = (s1, .ok ())) :
    ∃ part pa, F.create s.N ω = .ok part ∧ PA.new part none = .ok pa ∧
      s1 = { s with ind1 := 1, traj := [⟨pa, List.range s.N⟩] } := by
  rcases s.ensureInit_cases F ω with ⟨h1, h2⟩ | ⟨h1, e, h2, -⟩ | ⟨h1, part, pa, h3, h4, h2⟩
  · exact absurd h h1
  · rw [h2] at he; cases he
  · rw [h2] at he; cases he; exact ⟨part, pa, h3, h4, rfl⟩

theorem ensureInit_started {F : FilterOps P U Y V Ω} {s s1 : PT P U Y} {ω : Ω} (h : s.traj ≠ [])
    (he : s.ensureInit F ω = (s1, .ok ())) : s1 = s := by
  rcases s.ensureInit_cases F ω with ⟨h1, h2⟩ | ⟨h1, e, h2, -⟩ | ⟨h1, part, pa, h3, h4, h2⟩
  · rw [h2] at he; cases he; rfl
  · exact absurd h1 h
  · exact absurd h1 h

/-- The invariant right after the lazy creation of time 0. -/
theorem sis_init {K : MarkovModel P U Y V Ω} {N : ℕ} (hK : Spec.KeepsN K N) {rest : Callbacks P U Y V Ω}
    {res : ℝ} {s s1 : PT P U Y} {lg : Spec.Log U Y} (h : s.Rep lg) (hl : lg.ys = []) (hN : s.N = N) {ω : Ω}
    (he : s.ensureInit (markovPf K rest res) ω = (s1, .ok ())) :
    SISInv K N false s1 ⟨[], [.none]⟩ (fun _ _ => 0) ∧ ∃ pa, s1.traj = [⟨pa, List.range N⟩] ∧
      pa.part.length = N ∧ pa.w = List.replicate N (-Real.log N) := by
  have hrep := (h.ensureInit he).1 hl
  have htr : s.traj = [] := by
    have := h.len; rw [hl] at this; exact List.length_eq_zero_iff.mp this
  obtain ⟨part, pa, h1, h2, rfl⟩ := ensureInit_pos htr he
  have hpl : part.length = N := hK.create ω part (by rw [hN] at h1; exact h1)
  have hpa : pa.part = part ∧ pa.w = List.replicate N (-Real.log N) := by
    unfold PA.new at h2
    simp only at h2
    split_ifs at h2
    cases h2; exact ⟨rfl, by simp only; rw [hpl]⟩
  refine ⟨⟨hrep, by simp, ?_, ?_⟩, pa, by simp only [hN], by rw [hpa.1, hpl], hpa.2⟩
  · intro j st hj
    have := lt_of_getElem?_some hj
    simp only [List.length_singleton, Nat.lt_one_iff] at this
    exact Or.inl ⟨rfl, this, fun _ _ => rfl⟩
  · intro k st hk
    have := lt_of_getElem?_some hk
    simp only [List.length_singleton, Nat.lt_one_iff] at this
    subst this
    simp only [List.getElem?_cons_zero, Option.some.injEq] at hk
    subst hk
    refine ⟨by simp [hN], by simp only; rw [hpa.1, hpl], by simp only; rw [hpa.2]; simp, -Real.log N, fun i hi => ?_⟩
    simp only
    rw [hpa.2, List.getElem?_replicate_of_lt hi]; simp

theorem sis_forward {K : MarkovModel P U Y V Ω} {N : ℕ} (hK : Spec.KeepsN K N)
    {rest : Callbacks P U Y V Ω} {res : ℝ} (hres : res ≤ 0) {m0 : Bool} {s s' : PT P U Y} {lg : Spec.Log U Y}
    (h : s.Rep lg) (hcase : (lg.ys = [] ∧ s.N = N ∧ m0 = false) ∨ ∃ L, SISInv K N m0 s lg L)
    {u : Slot U} {y : Slot Y} {ω0 : Ω} {d : Draws Ω}
    {b : Bool} (hf : s.forward (markovPf K rest res) u y ω0 d = (s', .ok b)) :
    ∃ L', SISInv K N m0 s' (lg.forward u y) L' := by
  obtain ⟨s1, k, last, pa, anc, he, hlast, hlen, htr, pa1, parents, v, l, hm, hp, hv, hu, hl, e1, e2, e3, c, e4⟩ :=
    markov_forward h hf
  have hrep' := PT.forward_rep h hf
  rw [maybeResample_none hres] at hm
  simp only [Except.ok.injEq, Prod.mk.injEq] at hm
  obtain ⟨rfl, -, rfl⟩ := hm
  rw [← hlen] at hl
  rcases hcase with ⟨hle, hN, rfl⟩ | ⟨L, hL⟩
  · obtain ⟨hinv, pa0, h1, h2, h3⟩ := sis_init hK h hle hN he
    rw [h1] at hlast
    simp only [List.getLast?_singleton, Option.some.injEq] at hlast
    subst hlast
    simp only at *
    exact sis_append hinv hrep' (by simp [Spec.Log.forward, hle]) htr (by rw [h1]; rfl) (by simp [h2])
      (hK.update _ _ _ _ _ h2 hu) hl (by rw [e1, h3]; simp) e4
  · have hne : s.traj ≠ [] := by
      intro hc; have := h.len; rw [hc] at this; exact hL.ne (List.length_eq_zero_iff.mp this.symm)
    obtain rfl := ensureInit_started hne he
    have hk : s1.traj[k]? = some last := getLast_of_idx hlen hlast
    obtain ⟨-, g1, g2, -⟩ := hL.steps k last hk
    exact sis_append hL hrep' (by simp [Spec.Log.forward, hL.ne]) htr hlast (by rw [g1])
      (hK.update _ _ _ _ _ g1 hu) hl (by rw [e1, g2]) e4

theorem sis_measure {K : MarkovModel P U Y V Ω} {N : ℕ} (hK : Spec.KeepsN K N)
    {rest : Callbacks P U Y V Ω} {res : ℝ} {s s' : PT P U Y} {lg : Spec.Log U Y}
    (h : s.Rep lg) (hle : lg.ys = []) (hN : s.N = N) {y : Slot Y} {ω : Ω}
    (hf : s.measure (markovPf K rest res) y ω = (s', .ok ())) :
    ∃ L', SISInv K N true s' (lg.measure false y) L' := by
  have hrep' : s'.Rep (lg.measure false y) := PT.measure_rep h hf
  obtain ⟨hg, g1, g2, g3, g4⟩ := PT.growMeasure_inv h.inv
  rw [PT.measure_eq (F := markovPf K rest res) rfl h.inv] at hf
  rcases he : s.growMeasure.ensureInit (markovPf K rest res) ω with ⟨s1, r⟩
  rw [he] at hf
  cases r with
  | error e => cases hf
  | ok _ =>
    obtain ⟨hinv, pa0, h1, h2, h3⟩ := sis_init hK h.growMeasure hle (by rw [g2, hN]) he
    simp only at hf
    rw [h1] at hf
    simp only [getLast, List.getLast?_singleton] at hf
    split at hf
    · cases hf
    · rename_i pa hm
      cases hf
      have hind : s1.ind1 = 1 := hinv.rep.ind
      have hy0 : 0 < s1.yvec.length := lt_of_getElem?_some (hinv.rep.ys 0 (by simp))
      have ht0 : 0 < s1.tvec.length := lt_of_getElem?_some (hinv.rep.ts 0 (by simp))
      have hm' : pfMeasure (K.toCallbacks rest) [⟨pa0, List.range N⟩] (List.range N) pa0
        (s1.beforeMeasure y).uvec (s1.beforeMeasure y).yvec (s1.beforeMeasure y).tvec (s1.ind1 - 1) = .ok pa := hm
      unfold pfMeasure at hm'
      obtain ⟨l, hl, hms⟩ := bind_eq_ok.mp hm'
      simp only [MarkovModel.toCallbacks, PT.beforeMeasure, hind, Nat.sub_self] at hl
      rw [getLast_take_succ (List.getElem?_set_self hy0), getLast_take_succ (List.getElem?_set_self ht0)] at hl
      simp only [ok_bind] at hl
      obtain ⟨e1, e2, e3, e4, -, c, -, e5⟩ := weightUpdate_spec hms
      have hlN : l.length = N := by rw [e3, h3]; simp
      simp only [Spec.Log.measure, hle, if_true] at hrep' ⊢
      refine ⟨fun _ i => l.getD i 0, hrep', by simp, ?_, ?_⟩
      · intro j st hj
        have := lt_of_getElem?_some hj
        simp only [List.dropLast_singleton, List.nil_append, List.length_singleton, Nat.lt_one_iff] at this
        subst this
        simp only [List.dropLast_singleton, List.nil_append, List.getElem?_cons_zero, Option.some.injEq] at hj
        subst hj
        refine Or.inr ⟨Or.inl rfl, y, l, rfl, by simp only; rw [e1]; exact hl, hlN, fun i hi => ?_⟩
        simp only
        rw [List.getD_eq_getElem?_getD, List.getElem?_eq_getElem (by omega)]; rfl
      · intro k st hk
        have := lt_of_getElem?_some hk
        simp only [List.dropLast_singleton, List.nil_append, List.length_singleton, Nat.lt_one_iff] at this
        subst this
        simp only [List.dropLast_singleton, List.nil_append, List.getElem?_cons_zero, Option.some.injEq] at hk
        subst hk
        refine ⟨rfl, by simp only; rw [e1, h2], by simp only; rw [e4, h3]; simp, -Real.log N - c, fun i hi => ?_⟩
        simp only
        rw [e5, List.getElem?_zipWith, h3, List.getElem?_replicate_of_lt hi, List.getElem?_eq_getElem (by omega)]
        simp only [zero_add, Finset.sum_range_one, Option.some.injEq]
        rw [List.getD_eq_getElem?_getD, List.getElem?_eq_getElem (by omega)]
        simp only [Option.getD_some]; ring

theorem sis_steps {K : MarkovModel P U Y V Ω} {N : ℕ} (hK : Spec.KeepsN K N)
    {rest : Callbacks P U Y V Ω} {res : ℝ} (hres : res ≤ 0) {m0 : Bool}
    (steps : List (Slot U × Slot Y × Ω × Draws Ω)) {s s' : PT P U Y} {lg : Spec.Log U Y}
    (h : s.Rep lg) (hcase : (lg.ys = [] ∧ s.N = N ∧ m0 = false) ∨ ∃ L, SISInv K N m0 s lg L)
    {bs : List (Option Bool)}
    (hrun : s.run (markovPf K rest res) (steps.map fun q => .forward q.1 q.2.1 q.2.2.1 q.2.2.2) = (s', .ok bs)) :
    (s' = s ∧ steps = []) ∨ ∃ L', SISInv K N m0 s' ((steps.map fun q => Op.forward q.1 q.2.1 q.2.2.1 q.2.2.2).foldl
      (Spec.Log.step false) lg) L' := by
  induction steps generalizing s lg bs with
  | nil => cases hrun; exact Or.inl ⟨rfl, rfl⟩
  | cons q steps ih =>
    right
    simp only [List.map_cons, PT.run] at hrun
    rcases hst : s.step (markovPf K rest res) (.forward q.1 q.2.1 q.2.2.1 q.2.2.2) with ⟨s1, r⟩
    rw [hst] at hrun
    cases r with
    | error e => cases hrun
    | ok b =>
      simp only at hrun
      have hf : ∃ b', s.forward (markovPf K rest res) q.1 q.2.1 q.2.2.1 q.2.2.2 = (s1, .ok b') := by
        unfold PT.step at hst
        simp only at hst
        split at hst
        · rename_i s2 b2 heq; cases hst; exact ⟨b2, heq⟩
        · cases hst
      obtain ⟨b', hf⟩ := hf
      have hnext := sis_forward hK hres h hcase hf
      have hrep1 := PT.forward_rep h hf
      rcases hr : s1.run (markovPf K rest res) (steps.map fun q => .forward q.1 q.2.1 q.2.2.1 q.2.2.2) with ⟨s2, r2⟩
      rw [hr] at hrun
      cases r2 with
      | error e => cases hrun
      | ok bs' =>
        cases hrun
        simp only [List.map_cons, List.foldl_cons, Spec.Log.step]
        rcases ih hrep1 (Or.inr hnext) hr with ⟨rfl, rfl⟩ | h'
        · simpa using hnext
        · exact h'

/-- C13: with resampling disabled (`res ≤ 0`), after any number of steps of the bootstrap filter on a
Markov model, particle `i` of every stored step descends from particle `i` of the previous one, and its
normalised weight at time `k` is the product over times `0..k` of the likelihoods of the measurements
along that path, divided by the sum of these products over all particles. -/
theorem C13_sequential_importance_weights {K : MarkovModel P U Y V Ω} {N : ℕ} (hK : Spec.KeepsN K N)
    {rest : Callbacks P U Y V Ω} {res : ℝ} (hres : res ≤ 0) {T : Option ℕ} {s0 s : PT P U Y}
    (h0 : PT.init N T 0 = .ok s0) (first : Option (Slot Y × Ω))
    (steps : List (Slot U × Slot Y × Ω × Draws Ω)) {bs : List (Option Bool)}
    (hrun : s0.run (markovPf K rest res) (history first steps) = (s, .ok bs)) :
    ∃ L : ℕ → ℕ → ℝ,
      PathLoglik K N first.isSome s.traj (Spec.log false (history first steps)).ys L ∧
      ∀ (k : ℕ) (st : Step P), s.traj[k]? = some st → ∀ i < N,
        st.ancestors[i]? = some i ∧
        (normWeights st.pa.w)[i]? = some ((∏ j ∈ Finset.range (k+1), exp (L j i)) /
          ∑ m ∈ Finset.range N, ∏ j ∈ Finset.range (k+1), exp (L j m)) := by
  have hrep0 := PT.init_rep h0
  have hN0 : s0.N = N := by
    unfold PT.init at h0
    simp only [ne_eq, not_true_eq_false, if_false] at h0
    split at h0
    · cases h0
    · cases h0; rfl
    · cases h0; rfl
  have key : s.traj = [] ∨ ∃ lg L, lg.ys = (Spec.log false (history first steps)).ys ∧
      SISInv K N first.isSome s lg L := by
    unfold Spec.log
    cases first with
    | none =>
      simp only [history, List.nil_append] at hrun ⊢
      rcases sis_steps hK hres steps hrep0 (Or.inl ⟨rfl, hN0, rfl⟩) hrun with ⟨rfl, rfl⟩ | ⟨L, hL⟩
      · left; have := hrep0.len; exact List.length_eq_zero_iff.mp this
      · exact Or.inr ⟨_, L, rfl, hL⟩
    | some p =>
      obtain ⟨y, ω⟩ := p
      right
      simp only [history, List.cons_append, List.nil_append] at hrun ⊢
      simp only [PT.run] at hrun
      rcases hst : s0.step (markovPf K rest res) (.measure y ω) with ⟨s1, r⟩
      rw [hst] at hrun
      cases r with
      | error e => cases hrun
      | ok b =>
        simp only at hrun
        have hf : s0.measure (markovPf K rest res) y ω = (s1, .ok ()) := by
          unfold PT.step at hst
          simp only at hst
          split at hst
          · rename_i s2 heq; cases hst; exact heq
          · cases hst
        obtain ⟨L, hL⟩ := sis_measure hK hrep0 rfl hN0 hf
        rcases hr : s1.run (markovPf K rest res) (steps.map fun q => .forward q.1 q.2.1 q.2.2.1 q.2.2.2) with ⟨s2, r2⟩
        rw [hr] at hrun
        cases r2 with
        | error e => cases hrun
        | ok bs' =>
          cases hrun
          simp only [List.foldl_cons, Spec.Log.step]
          rcases sis_steps hK hres steps hL.rep (Or.inr ⟨L, hL⟩) hr with ⟨rfl, rfl⟩ | ⟨L', hL'⟩
          · exact ⟨_, L, rfl, hL⟩
          · exact ⟨_, L', rfl, hL'⟩
  rcases key with hnil | ⟨lg, L, hlg, hL⟩
  · refine ⟨fun _ _ => 0, ?_, ?_⟩
    · intro j st hj; rw [hnil] at hj; simp at hj
    · intro k st hk; rw [hnil] at hk; simp at hk
  · refine ⟨L, by rw [← hlg]; exact hL.lik, fun k st hk i hi => ?_⟩
    obtain ⟨h1, -, h3, c, h4⟩ := hL.steps k st hk
    refine ⟨by rw [h1, List.getElem?_range hi], ?_⟩
    have hw : st.pa.w = (List.range N).map fun i => ∑ j ∈ Finset.range (k+1), L j i + c := by
      apply List.ext_getElem?
      intro m
      by_cases hm : m < N
      · rw [h4 m hm, List.getElem?_map, List.getElem?_range hm]; rfl
      · rw [List.getElem?_eq_none (by omega), List.getElem?_eq_none (by simp; omega)]
    unfold normWeights
    rw [hw]
    simp only [List.map_map, List.getElem?_map, List.getElem?_range hi, Option.map_some, Function.comp_def]
    have hexp : ∀ m, exp (∑ j ∈ Finset.range (k+1), L j m + c) =
        (∏ j ∈ Finset.range (k+1), exp (L j m)) * exp c := by
      intro m; rw [exp_add, exp_sum]
    simp only [hexp]
    have hsum : ((List.range N).map fun m => (∏ j ∈ Finset.range (k+1), exp (L j m)) * exp c).sum =
        (∑ m ∈ Finset.range N, ∏ j ∈ Finset.range (k+1), exp (L j m)) * exp c := by
      rw [Finset.sum_mul]; rfl
    rw [hsum, mul_div_mul_right _ _ (exp_pos c).ne']

end PyPE

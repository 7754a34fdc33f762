import Verif.Traj.Model
import Verif.PyLemmas
import Mathlib.Tactic.SplitIfs

/-! Helper lemmas for `ParticleTrajectory`: the buffer invariant. -/

namespace PyPE

variable {P U Y V Ω : Type}

@[simp] theorem npResize_length {α : Type} (l : List α) (n : ℕ) (x : α) :
    (npResize l n x).length = n := by
  simp [npResize]; omega

theorem npResize_getElem? {α : Type} {l : List α} {n i : ℕ} (x : α) (h : i < l.length) (hn : i < n) :
    (npResize l n x)[i]? = l[i]? := by
  unfold npResize
  rw [List.getElem?_append_left (by simp; omega), List.getElem?_take, if_pos hn]

theorem setIdx_ok {α : Type} {l : List α} {i : ℕ} (h : i < l.length) (x : α) :
    setIdx l i x = .ok (l.set i x) := by simp [setIdx, h]

/-- The invariant of the buffers of a `ParticleTrajectory`. -/
structure PT.Inv (s : PT P U Y) : Prop where
  ylen : s.yvec.length = max s.T 1
  tlen : s.tvec.length = max s.T 1
  ulen_le : s.uvec.length ≤ max s.T 1
  ulen_ge : s.T ≤ s.uvec.length + 1
  ulen_pos : 1 ≤ s.uvec.length
  started : s.traj ≠ [] → 1 ≤ s.ind1

theorem PT.init_inv {N : ℕ} {T : Option ℕ} {t0 : ℕ} {s : PT P U Y} (h : PT.init N T t0 = .ok s) :
    s.Inv := by
  unfold PT.init at h
  split_ifs at h
  split at h
  · cases h
  · rename_i k hk
    have : 1 ≤ k := by rcases k with _ | k; · exact absurd rfl hk
                       · omega
    cases h; constructor <;> simp <;> omega
  · cases h; constructor <;> simp

theorem PT.growForward_inv {s : PT P U Y} (h : s.Inv) (h1 : 1 ≤ s.ind1) :
    s.growForward.Inv ∧ s.growForward.ind1 = s.ind1 ∧ s.growForward.N = s.N ∧
      s.growForward.traj = s.traj ∧ s.ind1 < s.growForward.T := by
  unfold PT.growForward
  split_ifs with hT
  · refine ⟨?_, rfl, rfl, rfl, by simp⟩
    constructor <;> simp <;> omega
  · exact ⟨h, rfl, rfl, rfl, by omega⟩

theorem PT.growMeasure_inv {s : PT P U Y} (h : s.Inv) :
    s.growMeasure.Inv ∧ s.growMeasure.ind1 = s.ind1 ∧ s.growMeasure.N = s.N ∧
      s.growMeasure.traj = s.traj ∧ s.ind1 < s.growMeasure.T := by
  unfold PT.growMeasure
  split_ifs with hT
  · refine ⟨?_, rfl, rfl, rfl, by simp⟩
    constructor <;> simp
    exact fun hne => h.started hne
  · exact ⟨h, rfl, rfl, rfl, by omega⟩

/-- `ensureInit` only touches `ind1` and `traj`. -/
theorem PT.ensureInit_cases (F : FilterOps P U Y V Ω) (s : PT P U Y) (ω : Ω) :
    (s.traj ≠ [] ∧ s.ensureInit F ω = (s, .ok ())) ∨
    (s.traj = [] ∧ ∃ e, s.ensureInit F ω = ({ s with ind1 := 1 }, .error e) ∧
      (F.create s.N ω = .error e ∨ e = .valueError)) ∨
    (s.traj = [] ∧ ∃ part pa, F.create s.N ω = .ok part ∧ PA.new part none = .ok pa ∧
      s.ensureInit F ω = ({ s with ind1 := 1, traj := [⟨pa, List.range s.N⟩] }, .ok ())) := by
  unfold PT.ensureInit
  by_cases h : s.traj = []
  · right
    simp only [h, List.length_nil, if_true, List.nil_append, true_and, true_and]
    cases hc : F.create s.N ω with
    | error e => left; exact ⟨e, by simp, Or.inl rfl⟩
    | ok part =>
      cases hp : PA.new part none with
      | error e =>
        left
        refine ⟨e, by simp [hp], Or.inr ?_⟩
        unfold PA.new at hp
        simp only at hp
        split_ifs at hp
        cases hp; rfl
      | ok pa => right; exact ⟨part, pa, rfl, hp, by simp [hp]⟩
  · left
    have : s.traj.length ≠ 0 := by simpa using h
    simp [h]

theorem PT.ensureInit_inv {F : FilterOps P U Y V Ω} {s : PT P U Y} (h : s.Inv) (ω : Ω) :
    (s.ensureInit F ω).1.Inv ∧ ((s.ensureInit F ω).2 = .ok () → (s.ensureInit F ω).1.traj ≠ []) := by
  rcases s.ensureInit_cases F ω with ⟨h1, h2⟩ | ⟨h1, e, h2, -⟩ | ⟨h1, part, pa, -, -, h2⟩
  · rw [h2]; exact ⟨h, fun _ => h1⟩
  · rw [h2]
    exact ⟨⟨h.ylen, h.tlen, h.ulen_le, h.ulen_ge, h.ulen_pos, by simp⟩, by simp⟩
  · rw [h2]
    exact ⟨⟨h.ylen, h.tlen, h.ulen_le, h.ulen_ge, h.ulen_pos, by simp⟩, by simp⟩

/-- The state just before `pf.forward` is called. -/
def PT.beforeForward (s : PT P U Y) (u : Slot U) (y : Slot Y) : PT P U Y :=
  { s.growForward with
    uvec := s.growForward.uvec.set (s.ind1 - 1) u
    yvec := s.growForward.yvec.set s.ind1 y
    tvec := s.growForward.tvec.set s.ind1 s.ind1
    ind1 := s.ind1 + 1 }

theorem PT.beforeForward_inv {s : PT P U Y} (h : s.Inv) (h1 : 1 ≤ s.ind1) (u : Slot U) (y : Slot Y) :
    (s.beforeForward u y).Inv := by
  obtain ⟨hg, -⟩ := PT.growForward_inv h h1
  exact ⟨by simpa [PT.beforeForward] using hg.ylen, by simpa [PT.beforeForward] using hg.tlen,
    by simpa [PT.beforeForward] using hg.ulen_le, by simpa [PT.beforeForward] using hg.ulen_ge,
    by simpa [PT.beforeForward] using hg.ulen_pos, by simp [PT.beforeForward]⟩

/-- In a state satisfying the invariant all buffer writes of `forward` succeed. -/
theorem PT.forward_eq {F : FilterOps P U Y V Ω} {s : PT P U Y} (h : s.Inv) (u : Slot U) (y : Slot Y)
    (ω0 : Ω) (d : Draws Ω) :
    s.forward F u y ω0 d =
      match s.ensureInit F ω0 with
      | (s, .error e) => (s, .error e)
      | (s, .ok ()) =>
        let b := s.beforeForward u y
        match F.forward s.traj b.yvec b.uvec b.tvec (s.ind1 - 1) d with
        | .error e => (b, .error e)
        | .ok (pa, resampled, anc) => ({ b with traj := s.traj ++ [⟨pa, anc⟩] }, .ok resampled) := by
  unfold PT.forward
  obtain ⟨hi, hne⟩ := PT.ensureInit_inv (F := F) h ω0
  rcases he : s.ensureInit F ω0 with ⟨s', r⟩
  rw [he] at hi hne
  dsimp only at hi hne
  cases r with
  | error e => rfl
  | ok _ =>
    have h1 : 1 ≤ s'.ind1 := hi.started (hne rfl)
    obtain ⟨hg, e1, e2, e3, e4⟩ := PT.growForward_inv hi h1
    have hu : s'.ind1 - 1 < s'.growForward.uvec.length := by have := hg.ulen_ge; omega
    have hy : s'.ind1 < s'.growForward.yvec.length := by rw [hg.ylen]; omega
    have ht : s'.ind1 < s'.growForward.tvec.length := by rw [hg.tlen]; omega
    simp only [e1, setIdx_ok hu, setIdx_ok hy, setIdx_ok ht, e3, PT.beforeForward]
    rcases F.forward s'.traj (s'.growForward.yvec.set s'.ind1 y) (s'.growForward.uvec.set (s'.ind1 - 1) u)
      (s'.growForward.tvec.set s'.ind1 s'.ind1) (s'.ind1 - 1) d with e | ⟨pa, rs, anc⟩ <;> rfl

/-- The state just before `pf.measure(pa=None, inplace=False)` is called (pfy, cpfyas). -/
def PT.beforeMeasurePfy (s : PT P U Y) (y : Slot Y) : PT P U Y :=
  { s.growMeasure with
    yvec := s.growMeasure.yvec.set s.ind1 y
    tvec := s.growMeasure.tvec.set s.ind1 s.ind1
    ind1 := s.ind1 + 1 }

/-- The state just before `pf.measure(..., inplace=True)` is called. -/
def PT.beforeMeasure (s : PT P U Y) (y : Slot Y) : PT P U Y :=
  { s with
    yvec := s.yvec.set (s.ind1 - 1) y
    tvec := s.tvec.set (s.ind1 - 1) (s.ind1 - 1) }

theorem PT.beforeMeasurePfy_inv {s : PT P U Y} (h : s.Inv) (y : Slot Y) :
    (s.beforeMeasurePfy y).Inv := by
  obtain ⟨hg, -⟩ := PT.growMeasure_inv h
  exact ⟨by simpa [PT.beforeMeasurePfy] using hg.ylen, by simpa [PT.beforeMeasurePfy] using hg.tlen,
    by simpa [PT.beforeMeasurePfy] using hg.ulen_le, by simpa [PT.beforeMeasurePfy] using hg.ulen_ge,
    by simpa [PT.beforeMeasurePfy] using hg.ulen_pos, by simp [PT.beforeMeasurePfy]⟩

theorem PT.beforeMeasure_inv {s : PT P U Y} (h : s.Inv) (y : Slot Y) :
    (s.beforeMeasure y).Inv :=
  ⟨by simpa [PT.beforeMeasure] using h.ylen, by simpa [PT.beforeMeasure] using h.tlen,
    by simpa [PT.beforeMeasure] using h.ulen_le, by simpa [PT.beforeMeasure] using h.ulen_ge,
    by simpa [PT.beforeMeasure] using h.ulen_pos, by simpa [PT.beforeMeasure] using h.started⟩

/-- In a state satisfying the invariant all buffer writes of `measure` (pfy branch) succeed. -/
theorem PT.measure_pfy_eq {F : FilterOps P U Y V Ω} (hF : F.usingPfy = true) {s : PT P U Y} (h : s.Inv)
    (y : Slot Y) (ω : Ω) :
    s.measure F y ω =
      let b := s.beforeMeasurePfy y
      match F.measureNew b.yvec b.tvec s.ind1 ω with
      | .error e => (b, .error e)
      | .ok pa => ({ b with traj := s.traj ++ [⟨pa, List.range s.N⟩] }, .ok ()) := by
  obtain ⟨hg, e1, e2, e3, e4⟩ := PT.growMeasure_inv h
  have hy : s.ind1 < s.growMeasure.yvec.length := by rw [hg.ylen]; omega
  have ht : s.ind1 < s.growMeasure.tvec.length := by rw [hg.tlen]; omega
  unfold PT.measure
  simp only [hF, if_true, e1, Nat.add_sub_cancel, setIdx_ok hy, setIdx_ok ht, e2, e3, PT.beforeMeasurePfy]
  rcases F.measureNew (s.growMeasure.yvec.set s.ind1 y) (s.growMeasure.tvec.set s.ind1 s.ind1) s.ind1 ω
    with e | pa <;> rfl

/-- In a state satisfying the invariant all buffer writes of `measure` succeed. -/
theorem PT.measure_eq {F : FilterOps P U Y V Ω} (hF : F.usingPfy = false) {s : PT P U Y} (h : s.Inv)
    (y : Slot Y) (ω : Ω) :
    s.measure F y ω =
      match s.growMeasure.ensureInit F ω with
      | (s, .error e) => (s, .error e)
      | (s, .ok ()) =>
        let b := s.beforeMeasure y
        match getLast s.traj with
        | .error e => (b, .error e)
        | .ok last =>
          match F.measure s.traj last.ancestors last.pa b.uvec b.yvec b.tvec (s.ind1 - 1) with
          | .error e => (b, .error e)
          | .ok pa => ({ b with traj := s.traj.dropLast ++ [⟨pa, last.ancestors⟩] }, .ok ()) := by
  obtain ⟨hg, e1, e2, e3, e4⟩ := PT.growMeasure_inv h
  have hcase := s.growMeasure.ensureInit_cases F ω
  obtain ⟨hi, hne⟩ := PT.ensureInit_inv (F := F) hg ω
  unfold PT.measure
  simp only [hF]
  rcases he : s.growMeasure.ensureInit F ω with ⟨s', r⟩
  rw [he] at hi hne hcase
  dsimp only at hi hne
  cases r with
  | error e => simp
  | ok _ =>
    have h1 : 1 ≤ s'.ind1 := hi.started (hne rfl)
    have hT : s'.T = s.growMeasure.T ∧ s'.ind1 ≤ s.ind1 + 1 := by
      rcases hcase with ⟨-, h2⟩ | ⟨-, e, h2, -⟩ | ⟨-, part, pa, -, -, h2⟩
      · simp only [Prod.mk.injEq] at h2; rw [h2.1]; exact ⟨rfl, by omega⟩
      · simp at h2
      · simp only [Prod.mk.injEq] at h2; rw [h2.1]; simp
    have hy : s'.ind1 - 1 < s'.yvec.length := by rw [hi.ylen]; omega
    have ht : s'.ind1 - 1 < s'.tvec.length := by rw [hi.tlen]; omega
    simp only [Bool.false_eq_true, if_false, setIdx_ok hy, setIdx_ok ht, PT.beforeMeasure]
    rcases getLast s'.traj with e | last
    · rfl
    · simp only
      rcases F.measure s'.traj last.ancestors last.pa s'.uvec (s'.yvec.set (s'.ind1 - 1) y)
        (s'.tvec.set (s'.ind1 - 1) (s'.ind1 - 1)) (s'.ind1 - 1) with e | pa <;> rfl

theorem PT.forward_inv {F : FilterOps P U Y V Ω} {s : PT P U Y} (h : s.Inv) (u : Slot U) (y : Slot Y)
    (ω0 : Ω) (d : Draws Ω) : (s.forward F u y ω0 d).1.Inv := by
  rw [PT.forward_eq h]
  obtain ⟨hi, hne⟩ := PT.ensureInit_inv (F := F) h ω0
  rcases he : s.ensureInit F ω0 with ⟨s', r⟩
  rw [he] at hi hne
  dsimp only at hi hne
  cases r with
  | error e => exact hi
  | ok _ =>
    have hb := PT.beforeForward_inv hi (hi.started (hne rfl)) u y
    simp only
    split
    · exact hb
    · exact ⟨hb.ylen, hb.tlen, hb.ulen_le, hb.ulen_ge, hb.ulen_pos, by simp [PT.beforeForward]⟩

theorem PT.measure_inv {F : FilterOps P U Y V Ω} {s : PT P U Y} (h : s.Inv) (y : Slot Y) (ω : Ω) :
    (s.measure F y ω).1.Inv := by
  cases hF : F.usingPfy with
  | true =>
    rw [PT.measure_pfy_eq hF h]
    have hb := PT.beforeMeasurePfy_inv h y
    simp only
    split
    · exact hb
    · exact ⟨hb.ylen, hb.tlen, hb.ulen_le, hb.ulen_ge, hb.ulen_pos, by simp [PT.beforeMeasurePfy]⟩
  | false =>
    rw [PT.measure_eq hF h]
    obtain ⟨hi, hne⟩ := PT.ensureInit_inv (F := F) (PT.growMeasure_inv h).1 ω
    rcases he : s.growMeasure.ensureInit F ω with ⟨s', r⟩
    rw [he] at hi hne
    dsimp only at hi hne
    cases r with
    | error e => exact hi
    | ok _ =>
      have hb := PT.beforeMeasure_inv hi y
      have h1 := hi.started (hne rfl)
      simp only
      split
      · exact hb
      · split
        · exact hb
        · exact ⟨hb.ylen, hb.tlen, hb.ulen_le, hb.ulen_ge, hb.ulen_pos, fun _ => h1⟩

theorem PT.step_inv {F : FilterOps P U Y V Ω} {s : PT P U Y} (h : s.Inv) (op : Op U Y Ω) :
    (s.step F op).1.Inv := by
  cases op with
  | forward u y ω0 d =>
    have := PT.forward_inv (F := F) h u y ω0 d
    unfold PT.step
    rcases hf : s.forward F u y ω0 d with ⟨s', r⟩
    rw [hf] at this
    cases r <;> simpa [hf] using this
  | measure y ω =>
    have := PT.measure_inv (F := F) h y ω
    unfold PT.step
    rcases hf : s.measure F y ω with ⟨s', r⟩
    rw [hf] at this
    cases r <;> simpa [hf] using this

theorem PT.runCatch_inv {F : FilterOps P U Y V Ω} (ops : List (Op U Y Ω)) {s : PT P U Y} (h : s.Inv) :
    (s.runCatch F ops).Inv := by
  induction ops generalizing s with
  | nil => exact h
  | cons op ops ih => exact ih (PT.step_inv h op)

end PyPE

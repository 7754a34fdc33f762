import Verif.Traj.Lemmas

/-!
# Properties of `ParticleTrajectory` (filter.py:825-1001): C21, C22, C25
-/

namespace PyPE

variable {P U Y V Ω : Type}

/-! ### Specification: what the user's calls say the data is -/

/-- The data a user has supplied: `ys[k]` the measurement of time `k`, `us[k]` the input that takes
time `k` to `k+1` (`none` where the user supplied no input). -/
structure Spec.Log (U Y : Type) where
  us : List (Option (Slot U))
  ys : List (Slot Y)

/-- `forward(u, y)`: the input `u` leads to a new time with measurement `y`; the very first call also
creates time 0, which has no measurement. -/
def Spec.Log.forward (l : Spec.Log U Y) (u : Slot U) (y : Slot Y) : Spec.Log U Y :=
  if l.ys = [] then ⟨[some u], [.none, y]⟩ else ⟨l.us ++ [some u], l.ys ++ [y]⟩

/-- `measure(y)`: the first call creates time 0; later calls replace the measurement of the current time
— except for the filters that propose from the measurement (pfy, cpfyas), where it starts a new time. -/
def Spec.Log.measure (pfy : Bool) (l : Spec.Log U Y) (y : Slot Y) : Spec.Log U Y :=
  if l.ys = [] then ⟨[], [y]⟩
  else if pfy then ⟨l.us ++ [none], l.ys ++ [y]⟩
  else ⟨l.us, l.ys.dropLast ++ [y]⟩

def Spec.Log.step (pfy : Bool) (l : Spec.Log U Y) : Op U Y Ω → Spec.Log U Y
  | .forward u y _ _ => l.forward u y
  | .measure y _ => l.measure pfy y

/-- The data after a history of calls. -/
def Spec.log (pfy : Bool) (ops : List (Op U Y Ω)) : Spec.Log U Y :=
  ops.foldl (Spec.Log.step pfy) ⟨[], []⟩

/-! ### C21: buffers -/

/-- A filter whose own code never raises `IndexError`. -/
structure NoIndexError (F : FilterOps P U Y V Ω) : Prop where
  create : ∀ N ω, F.create N ω ≠ .error .indexError
  forward : ∀ tr y u t c d, F.forward tr y u t c d ≠ .error .indexError
  measure : ∀ tr a pa u y t c, F.measure tr a pa u y t c ≠ .error .indexError
  measureNew : ∀ y t c ω, F.measureNew y t c ω ≠ .error .indexError

/-- C21: in every state reachable by any sequence of `forward`/`measure` calls — including calls that
failed in the filter or the model and whose exception the caller caught — no call raises `IndexError`
from the trajectory's own `u`/`y`/`t` buffers, with or without a preallocated length. -/
theorem C21_no_index_error {F : FilterOps P U Y V Ω} (hF : NoIndexError F) {N : ℕ} {T : Option ℕ}
    {s0 : PT P U Y} (h0 : PT.init N T 0 = .ok s0) (ops : List (Op U Y Ω)) (op : Op U Y Ω) :
    ((s0.runCatch F ops).step F op).2 ≠ .error .indexError := by
  have h := PT.runCatch_inv (F := F) ops (PT.init_inv h0)
  generalize s0.runCatch F ops = s at h
  have hens : ∀ (s : PT P U Y) ω, (s.ensureInit F ω).2 ≠ .error .indexError := by
    intro s ω he
    rcases s.ensureInit_cases F ω with ⟨-, h2⟩ | ⟨-, e, h2, h3⟩ | ⟨-, part, pa, -, -, h2⟩
    · rw [h2] at he; cases he
    · rw [h2] at he
      simp only [Except.error.injEq] at he
      subst he
      rcases h3 with h3 | h3
      · exact hF.create _ _ h3
      · cases h3
    · rw [h2] at he; cases he
  cases op with
  | forward u y ω0 d =>
    have key : (s.forward F u y ω0 d).2 ≠ .error .indexError := by
      rw [PT.forward_eq h]
      have := hens s ω0
      rcases he : s.ensureInit F ω0 with ⟨s', r⟩
      rw [he] at this
      cases r with
      | error e => simpa using this
      | ok _ =>
        simp only
        split
        · rename_i e hf
          intro hc
          simp only [Except.error.injEq] at hc
          subst hc
          exact hF.forward _ _ _ _ _ _ hf
        · simp
    intro hc
    unfold PT.step at hc
    dsimp only at hc
    rcases hf : s.forward F u y ω0 d with ⟨s', r⟩
    rw [hf] at key hc
    dsimp only at key
    cases r with
    | error e => simp only [Except.error.injEq] at hc; exact key (by rw [hc])
    | ok b => simp only at hc; cases hc
  | measure y ω =>
    have key : (s.measure F y ω).2 ≠ .error .indexError := by
      cases hp : F.usingPfy with
      | true =>
        rw [PT.measure_pfy_eq hp h]
        simp only
        split
        · rename_i e hf
          intro hc
          simp only [Except.error.injEq] at hc
          subst hc
          exact hF.measureNew _ _ _ _ hf
        · simp
      | false =>
        rw [PT.measure_eq hp h]
        have := hens s.growMeasure ω
        obtain ⟨-, hne⟩ := PT.ensureInit_inv (F := F) (PT.growMeasure_inv h).1 ω
        rcases he : s.growMeasure.ensureInit F ω with ⟨s', r⟩
        rw [he] at this hne
        cases r with
        | error e => simpa using this
        | ok _ =>
          simp only
          obtain ⟨last, hl⟩ := Option.ne_none_iff_exists'.mp
            (mt List.getLast?_eq_none_iff.mp (hne rfl))
          rw [getLast_ok.mpr hl]
          simp only
          split
          · rename_i e hf
            intro hc
            simp only [Except.error.injEq] at hc
            subst hc
            exact hF.measure _ _ _ _ _ _ _ hf
          · simp
    intro hc
    unfold PT.step at hc
    dsimp only at hc
    rcases hf : s.measure F y ω with ⟨s', r⟩
    rw [hf] at key hc
    dsimp only at key
    cases r with
    | error e => simp only [Except.error.injEq] at hc; exact key (by rw [hc])
    | ok b => simp only at hc; cases hc

/-! ### C21: contents -/

/-- The representation invariant: the buffers hold the user's data. -/
structure PT.Rep (s : PT P U Y) (l : Spec.Log U Y) : Prop where
  inv : s.Inv
  len : s.traj.length = l.ys.length
  ind : s.ind1 = l.ys.length
  ys : ∀ k < l.ys.length, s.yvec[k]? = l.ys[k]?
  ts : ∀ k < l.ys.length, s.tvec[k]? = some k
  us_len : l.us.length = l.ys.length - 1
  us : ∀ (k : ℕ) (u : Slot U), l.us[k]? = some (some u) → s.uvec[k]? = some u
  y0 : l.ys = [] → s.yvec[0]? = some .none
  t0 : l.ys = [] → s.tvec[0]? = some 0

theorem PT.init_rep {N : ℕ} {T : Option ℕ} {s : PT P U Y} (h : PT.init N T 0 = .ok s) :
    s.Rep ⟨[], []⟩ := by
  have hi := PT.init_inv h
  unfold PT.init at h
  simp only [ne_eq, not_true_eq_false, if_false] at h
  split at h
  · cases h
  · rename_i k hk
    have : 1 ≤ k := by rcases k with _ | k; · exact absurd rfl hk
                       · omega
    cases h
    refine ⟨hi, rfl, rfl, by simp, by simp, rfl, by simp, fun _ => ?_, fun _ => ?_⟩
    · rw [List.getElem?_replicate, if_pos (by omega)]
    · rw [List.getElem?_range (by omega)]
  · cases h; exact ⟨hi, rfl, rfl, by simp, by simp, rfl, by simp, by simp, by simp⟩

theorem PT.grow_getElem? {s : PT P U Y} (h : s.Inv) {k : ℕ} :
    (k ≤ s.ind1 → k < max s.T 1 → s.growForward.yvec[k]? = s.yvec[k]? ∧
      s.growForward.tvec[k]? = s.tvec[k]?) ∧
    (k ≤ s.ind1 → k < max s.T 1 → s.growMeasure.yvec[k]? = s.yvec[k]? ∧
      s.growMeasure.tvec[k]? = s.tvec[k]?) ∧
    (k + 1 ≤ s.ind1 → k < s.uvec.length → s.growForward.uvec[k]? = s.uvec[k]? ∧
      s.growMeasure.uvec[k]? = s.uvec[k]?) := by
  unfold PT.growForward PT.growMeasure
  refine ⟨?_, ?_, ?_⟩
  · intro h1 h2
    split_ifs
    · exact ⟨npResize_getElem? _ (by rw [h.ylen]; omega) (by omega),
        npResize_getElem? _ (by rw [h.tlen]; omega) (by omega)⟩
    · exact ⟨rfl, rfl⟩
  · intro h1 h2
    split_ifs
    · exact ⟨npResize_getElem? _ (by rw [h.ylen]; omega) (by omega),
        npResize_getElem? _ (by rw [h.tlen]; omega) (by omega)⟩
    · exact ⟨rfl, rfl⟩
  · intro h1 h2
    split_ifs
    · exact ⟨npResize_getElem? _ h2 (by omega), npResize_getElem? _ h2 (by omega)⟩
    · exact ⟨rfl, rfl⟩

theorem lt_of_getElem?_some {α : Type} {l : List α} {k : ℕ} {x : α} (h : l[k]? = some x) :
    k < l.length := (List.getElem?_eq_some_iff.mp h).1

/-- `beforeForward` records the data of a started trajectory. -/
theorem PT.Rep.beforeForward {s : PT P U Y} {l : Spec.Log U Y} (h : s.Rep l) (hne : l.ys ≠ [])
    (u : Slot U) (y : Slot Y) (pa : PA P) (anc : List ℕ) :
    PT.Rep { s.beforeForward u y with traj := s.traj ++ [⟨pa, anc⟩] }
      ⟨l.us ++ [some u], l.ys ++ [y]⟩ := by
  have hpos : 0 < l.ys.length := List.length_pos_iff.mpr hne
  have h1 : 1 ≤ s.ind1 := by rw [h.ind]; omega
  have hb := PT.beforeForward_inv h.inv h1 u y
  obtain ⟨hg, e1, e2, e3, e4⟩ := PT.growForward_inv h.inv h1
  have hTy : ∀ k < l.ys.length, k < max s.T 1 := by
    intro k hk
    have h3 := h.ys k hk
    rw [List.getElem?_eq_getElem hk] at h3
    have := lt_of_getElem?_some h3
    rw [h.inv.ylen] at this; exact this
  refine ⟨⟨hb.ylen, hb.tlen, hb.ulen_le, hb.ulen_ge, hb.ulen_pos, by simp [PT.beforeForward]⟩,
    by simp [h.len], by simp [PT.beforeForward, h.ind], ?_, ?_, ?_, ?_, by simp, by simp⟩
  · intro k hk
    simp only [List.length_append, List.length_singleton] at hk
    simp only [PT.beforeForward, List.getElem?_set, h.ind]
    split_ifs with hk1 hk2
    · subst hk1; simp
    · exact absurd (by rw [hg.ylen]; rw [h.ind] at e4; omega) hk2
    · have hk' : k < l.ys.length := by omega
      rw [((PT.grow_getElem? h.inv).1 (by rw [h.ind]; omega) (hTy k hk')).1, h.ys k hk',
        List.getElem?_append_left hk']
  · intro k hk
    simp only [List.length_append, List.length_singleton] at hk
    simp only [PT.beforeForward, List.getElem?_set, h.ind]
    split_ifs with hk1 hk2
    · subst hk1; simp
    · exact absurd (by rw [hg.tlen]; rw [h.ind] at e4; omega) hk2
    · have hk' : k < l.ys.length := by omega
      rw [((PT.grow_getElem? h.inv).1 (by rw [h.ind]; omega) (hTy k hk')).2, h.ts k hk']
  · simp [h.us_len]; omega
  · intro k v hv
    have hk := lt_of_getElem?_some hv
    simp only [List.length_append, List.length_singleton] at hk
    simp only [PT.beforeForward, List.getElem?_set, h.ind]
    split_ifs with hk1 hk2
    · rw [List.getElem?_append_right (by rw [h.us_len]; omega)] at hv
      have : k - l.us.length = 0 := by rw [h.us_len]; omega
      rw [this] at hv; simpa using hv
    · exfalso
      have := hg.ulen_ge
      rw [h.ind] at e4; omega
    · have hk' : k < l.us.length := by rw [h.us_len] at *; omega
      rw [List.getElem?_append_left hk'] at hv
      have := h.us k v hv
      rw [((PT.grow_getElem? h.inv).2.2 (by rw [h.ind]; rw [h.us_len] at hk'; omega)
        (lt_of_getElem?_some this)).1, this]

/-- Creating the first step. -/
theorem PT.Rep.ensureInit {F : FilterOps P U Y V Ω} {s s' : PT P U Y} {l : Spec.Log U Y} (h : s.Rep l)
    {ω : Ω} (he : s.ensureInit F ω = (s', .ok ())) :
    (l.ys = [] → s'.Rep ⟨[], [.none]⟩) ∧ (l.ys ≠ [] → s' = s) := by
  rcases s.ensureInit_cases F ω with ⟨h1, h2⟩ | ⟨h1, e, h2, -⟩ | ⟨h1, part, pa, -, -, h2⟩
  · rw [h2] at he; cases he
    refine ⟨fun hl => absurd ?_ h1, fun _ => rfl⟩
    have := h.len; rw [hl] at this; exact List.length_eq_zero_iff.mp this
  · rw [h2] at he; cases he
  · rw [h2] at he; cases he
    have hl : l.ys = [] := by
      have := h.len; rw [h1] at this; exact List.length_eq_zero_iff.mp this.symm
    refine ⟨fun _ => ⟨⟨h.inv.ylen, h.inv.tlen, h.inv.ulen_le, h.inv.ulen_ge, h.inv.ulen_pos, by simp⟩,
      rfl, rfl, ?_, ?_, rfl, by simp, by simp, by simp⟩, fun hn => absurd hl hn⟩
    · intro k hk
      simp only [List.length_singleton, Nat.lt_one_iff] at hk
      subst hk; rw [h.y0 hl]; rfl
    · intro k hk
      simp only [List.length_singleton, Nat.lt_one_iff] at hk
      subst hk; exact h.t0 hl

theorem PT.Rep.growMeasure {s : PT P U Y} {l : Spec.Log U Y} (h : s.Rep l) : s.growMeasure.Rep l := by
  obtain ⟨hg, e1, e2, e3, e4⟩ := PT.growMeasure_inv h.inv
  have hTy : ∀ k < l.ys.length, k < max s.T 1 := by
    intro k hk
    have h3 := h.ys k hk
    rw [List.getElem?_eq_getElem hk] at h3
    have := lt_of_getElem?_some h3
    rw [h.inv.ylen] at this; exact this
  refine ⟨hg, by rw [e3, h.len], by rw [e1, h.ind], ?_, ?_, h.us_len, ?_, ?_, ?_⟩
  · intro k hk
    rw [((PT.grow_getElem? h.inv).2.1 (by rw [h.ind]; omega) (hTy k hk)).1, h.ys k hk]
  · intro k hk
    rw [((PT.grow_getElem? h.inv).2.1 (by rw [h.ind]; omega) (hTy k hk)).2, h.ts k hk]
  · intro k v hv
    have := h.us k v hv
    have hk := lt_of_getElem?_some hv
    rw [h.us_len] at hk
    rw [((PT.grow_getElem? h.inv).2.2 (by rw [h.ind]; omega) (lt_of_getElem?_some this)).2, this]
  · intro hl; rw [((PT.grow_getElem? h.inv).2.1 (by omega) (by omega)).1, h.y0 hl]
  · intro hl; rw [((PT.grow_getElem? h.inv).2.1 (by omega) (by omega)).2, h.t0 hl]

/-- `beforeMeasure` replaces the last measurement. -/
theorem PT.Rep.beforeMeasure {s : PT P U Y} {l : Spec.Log U Y} (h : s.Rep l) (hne : l.ys ≠ [])
    (y : Slot Y) (st : Step P) :
    PT.Rep { s.beforeMeasure y with traj := s.traj.dropLast ++ [st] } ⟨l.us, l.ys.dropLast ++ [y]⟩ := by
  have hpos : 0 < l.ys.length := List.length_pos_iff.mpr hne
  have hb := PT.beforeMeasure_inv h.inv y
  have hlen : ∀ k < l.ys.length, k < s.yvec.length ∧ k < s.tvec.length := by
    intro k hk
    have h3 := h.ys k hk
    rw [List.getElem?_eq_getElem hk] at h3
    exact ⟨lt_of_getElem?_some h3, lt_of_getElem?_some (h.ts k hk)⟩
  refine ⟨⟨hb.ylen, hb.tlen, hb.ulen_le, hb.ulen_ge, hb.ulen_pos, fun _ => ?_⟩,
    by simp [h.len], by simp [PT.beforeMeasure, h.ind]; omega, ?_, ?_, by simp [h.us_len], h.us,
    by simp, by simp⟩
  · simp only [PT.beforeMeasure]; rw [h.ind]; omega
  · intro k hk
    have hk' : k < l.ys.length := by simp at hk; omega
    simp only [PT.beforeMeasure, List.getElem?_set, h.ind]
    split_ifs with hk1 hk2
    · subst hk1
      rw [List.getElem?_append_right (by simp)]
      simp
    · exact absurd (hlen _ (by omega)).1 hk2
    · rw [h.ys k hk', List.getElem?_append_left (by simp; omega), List.getElem?_dropLast, if_pos (by omega)]
  · intro k hk
    have hk' : k < l.ys.length := by simp at hk; omega
    simp only [PT.beforeMeasure, List.getElem?_set, h.ind]
    split_ifs with hk1 hk2
    · subst hk1; rfl
    · exact absurd (hlen _ (by omega)).2 hk2
    · exact h.ts k hk'

/-- `beforeMeasurePfy` starts a new time. -/
theorem PT.Rep.beforeMeasurePfy {s : PT P U Y} {l : Spec.Log U Y} (h : s.Rep l)
    (y : Slot Y) (st : Step P) :
    PT.Rep { s.beforeMeasurePfy y with traj := s.traj ++ [st] } (l.measure true y) := by
  have hb := PT.beforeMeasurePfy_inv h.inv y
  have hg := h.growMeasure
  obtain ⟨-, e1, e2, e3, e4⟩ := PT.growMeasure_inv h.inv
  have hys : (l.measure true y).ys = l.ys ++ [y] := by
    unfold Spec.Log.measure; simp only [if_true]; split_ifs with h1
    · rw [h1]; rfl
    · rfl
  have hus : ∀ (k : ℕ) (v : Slot U), (l.measure true y).us[k]? = some (some v) → l.us[k]? = some (some v) := by
    intro k v
    unfold Spec.Log.measure; simp only [if_true]; split_ifs with h1
    · simp
    · intro hv
      by_cases hk : k < l.us.length
      · rwa [List.getElem?_append_left hk] at hv
      · rw [List.getElem?_append_right (by omega)] at hv
        rcases hkk : k - l.us.length with _ | j
        · rw [hkk] at hv; simp at hv
        · rw [hkk] at hv; simp at hv
  refine ⟨⟨hb.ylen, hb.tlen, hb.ulen_le, hb.ulen_ge, hb.ulen_pos, by simp [PT.beforeMeasurePfy]⟩,
    by simp [h.len, hys], by simp [PT.beforeMeasurePfy, h.ind, hys], ?_, ?_, ?_, ?_, by simp [hys], by simp [hys]⟩
  · intro k hk
    rw [hys] at hk ⊢
    simp only [List.length_append, List.length_singleton] at hk
    simp only [PT.beforeMeasurePfy, List.getElem?_set, h.ind]
    split_ifs with hk1 hk2
    · subst hk1; simp
    · exact absurd (by rw [hg.inv.ylen]; rw [h.ind] at e4; omega) hk2
    · have hk' : k < l.ys.length := by omega
      rw [hg.ys k hk', List.getElem?_append_left hk']
  · intro k hk
    rw [hys] at hk
    simp only [List.length_append, List.length_singleton] at hk
    simp only [PT.beforeMeasurePfy, List.getElem?_set, h.ind]
    split_ifs with hk1 hk2
    · subst hk1; simp
    · exact absurd (by rw [hg.inv.tlen]; rw [h.ind] at e4; omega) hk2
    · exact hg.ts k (by omega)
  · rw [hys]
    unfold Spec.Log.measure; simp only [if_true]; split_ifs with h1
    · simp [h1]
    · have : 0 < l.ys.length := List.length_pos_iff.mpr h1
      simp [h.us_len]; omega
  · intro k v hv
    exact hg.us k v (hus k v hv)

theorem PT.forward_rep {F : FilterOps P U Y V Ω} {s s' : PT P U Y} {l : Spec.Log U Y} (h : s.Rep l)
    {u : Slot U} {y : Slot Y} {ω0 : Ω} {d : Draws Ω} {b : Bool}
    (hf : s.forward F u y ω0 d = (s', .ok b)) : s'.Rep (l.forward u y) := by
  rw [PT.forward_eq h.inv] at hf
  rcases he : s.ensureInit F ω0 with ⟨s1, r⟩
  rw [he] at hf
  cases r with
  | error e => cases hf
  | ok _ =>
    obtain ⟨h1, h2⟩ := h.ensureInit he
    simp only at hf
    split at hf
    · cases hf
    · rename_i pa rs anc _
      cases hf
      unfold Spec.Log.forward
      split_ifs with hl
      · exact (h1 hl).beforeForward (by simp) u y pa anc
      · obtain rfl := h2 hl
        exact h.beforeForward hl u y pa anc

theorem PT.measure_rep {F : FilterOps P U Y V Ω} {s s' : PT P U Y} {l : Spec.Log U Y} (h : s.Rep l)
    {y : Slot Y} {ω : Ω} (hf : s.measure F y ω = (s', .ok ())) : s'.Rep (l.measure F.usingPfy y) := by
  cases hp : F.usingPfy with
  | true =>
    rw [PT.measure_pfy_eq hp h.inv] at hf
    simp only at hf
    split at hf
    · cases hf
    · cases hf; exact h.beforeMeasurePfy y _
  | false =>
    rw [PT.measure_eq hp h.inv] at hf
    rcases he : s.growMeasure.ensureInit F ω with ⟨s1, r⟩
    rw [he] at hf
    cases r with
    | error e => cases hf
    | ok _ =>
      obtain ⟨h1, h2⟩ := h.growMeasure.ensureInit he
      simp only at hf
      split at hf
      · cases hf
      · split at hf
        · cases hf
        · cases hf
          unfold Spec.Log.measure
          simp only [Bool.false_eq_true, if_false]
          split_ifs with hl
          · exact (h1 hl).beforeMeasure (by simp) y _
          · have := h2 hl
            subst this
            exact h.growMeasure.beforeMeasure hl y _

theorem PT.step_rep {F : FilterOps P U Y V Ω} {s s' : PT P U Y} {l : Spec.Log U Y} (h : s.Rep l)
    {op : Op U Y Ω} {b : Option Bool} (hf : s.step F op = (s', .ok b)) :
    s'.Rep (l.step F.usingPfy op) := by
  cases op with
  | forward u y ω0 d =>
    unfold PT.step at hf
    rcases hg : s.forward F u y ω0 d with ⟨s1, r⟩
    simp only [hg] at hf
    cases r with
    | error e => cases hf
    | ok b => cases hf; exact PT.forward_rep h hg
  | measure y ω =>
    unfold PT.step at hf
    rcases hg : s.measure F y ω with ⟨s1, r⟩
    simp only [hg] at hf
    cases r with
    | error e => cases hf
    | ok b => cases hf; exact PT.measure_rep h hg

theorem PT.run_rep {F : FilterOps P U Y V Ω} (ops : List (Op U Y Ω)) {s s' : PT P U Y}
    {l : Spec.Log U Y} (h : s.Rep l) {bs : List (Option Bool)} (hf : s.run F ops = (s', .ok bs)) :
    s'.Rep (ops.foldl (Spec.Log.step F.usingPfy) l) := by
  induction ops generalizing s l bs with
  | nil => cases hf; exact h
  | cons op ops ih =>
    unfold PT.run at hf
    rcases hs : s.step F op with ⟨s1, r⟩
    simp only [hs] at hf
    cases r with
    | error e => cases hf
    | ok b =>
      simp only at hf
      rcases hr : PT.run F s1 ops with ⟨s2, r2⟩
      simp only [hr] at hf
      cases r2 with
      | error e => cases hf
      | ok bs' => cases hf; exact ih (PT.step_rep h hs) hr

/-- C21: after any successful history of `forward`/`measure` calls, with or without a preallocated
length, for any filter and model: there is one stored step per time, `t[k] = k`, `y[k]` is the
measurement the user supplied for time `k` and `u[k]` the input the user supplied between `k` and
`k+1` — exactly the log of the user's calls. -/
theorem C21_contents {F : FilterOps P U Y V Ω} {N : ℕ} {T : Option ℕ} {s0 s : PT P U Y}
    (h0 : PT.init N T 0 = .ok s0) (ops : List (Op U Y Ω)) {bs : List (Option Bool)}
    (hrun : s0.run F ops = (s, .ok bs)) :
    let l := Spec.log F.usingPfy ops
    s.traj.length = l.ys.length ∧
    (∀ k < l.ys.length, s.tvec[k]? = some k ∧ s.yvec[k]? = l.ys[k]?) ∧
    (∀ (k : ℕ) (u : Slot U), l.us[k]? = some (some u) → s.uvec[k]? = some u) := by
  have h := PT.run_rep ops (PT.init_rep h0) hrun
  exact ⟨h.len, fun k hk => ⟨h.ts k hk, h.ys k hk⟩, h.us⟩

/-- C21: for the filters other than pfy/cpfyas, every successful history of at least one call leaves
exactly one more step than it had `forward` calls. -/
theorem C21_length {F : FilterOps P U Y V Ω} (hF : F.usingPfy = false) {N : ℕ} {T : Option ℕ}
    {s0 s : PT P U Y} (h0 : PT.init N T 0 = .ok s0) (ops : List (Op U Y Ω)) (hne : ops ≠ [])
    {bs : List (Option Bool)} (hrun : s0.run F ops = (s, .ok bs)) :
    s.traj.length = ops.countP (fun op => match op with | .forward .. => true | .measure .. => false) + 1 := by
  have h := (C21_contents h0 ops hrun).1
  rw [h, hF]
  unfold Spec.log
  have key : ∀ (ops : List (Op U Y Ω)) (l : Spec.Log U Y), l.ys ≠ [] →
      (ops.foldl (Spec.Log.step false) l).ys.length =
      l.ys.length + ops.countP (fun op => match op with | .forward .. => true | .measure .. => false) := by
    intro ops
    induction ops with
    | nil => intro l _; simp
    | cons op ops ih =>
      intro l hl
      have hpos : 0 < l.ys.length := List.length_pos_iff.mpr hl
      rw [List.foldl_cons, ih _ (by cases op <;> simp [Spec.Log.step, Spec.Log.forward, Spec.Log.measure, hl]),
        List.countP_cons]
      cases op <;> simp [Spec.Log.step, Spec.Log.forward, Spec.Log.measure, hl] <;> omega
  cases ops with
  | nil => exact absurd rfl hne
  | cons op ops =>
    rw [List.foldl_cons, key _ _ (by cases op <;> simp [Spec.Log.step, Spec.Log.forward, Spec.Log.measure]),
      List.countP_cons]
    cases op <;> simp [Spec.Log.step, Spec.Log.forward, Spec.Log.measure] <;> omega

/-- A filter that does nothing, to run concrete histories. -/
noncomputable def idleFilter (pfy : Bool) : FilterOps ℕ ℕ ℕ Unit Unit where
  create N _ := .ok (List.replicate N 0)
  forward tr _ _ _ _ _ := do let l ← getLast tr; return (l.pa, false, l.ancestors)
  measure _ _ pa _ _ _ _ := .ok pa
  measureNew _ _ _ _ := PA.new [0] none
  usingPfy := pfy

/-- Non-vacuity: a three-call history without preallocation runs to completion and its log is the
expected one. -/
example : ∃ s0 s bs, PT.init 1 none 0 = .ok s0 ∧
    s0.run (idleFilter false) [.measure (.obj 7) (), .forward (.obj 1) (.obj 8) () ⟨0, 0, ()⟩,
      .forward .none .none () ⟨0, 0, ()⟩] = (s, .ok bs) ∧
    (Spec.log (U := ℕ) (Y := ℕ) false [.measure (.obj 7) (), .forward (.obj 1) (.obj 8) () ⟨0, 0, ()⟩,
      .forward .none .none () ⟨0, 0, ()⟩]) = ⟨[some (.obj 1), some .none], [.obj 7, .obj 8, .none]⟩ :=
  ⟨_, _, _, rfl, rfl, rfl⟩

/-! ### C22: failing steps -/

theorem Spec.log_ne_nil (pfy : Bool) {ops : List (Op U Y Ω)} (hne : ops ≠ []) :
    (Spec.log pfy ops).ys ≠ [] := by
  have key : ∀ (ops : List (Op U Y Ω)) (l : Spec.Log U Y), l.ys ≠ [] →
      (ops.foldl (Spec.Log.step pfy) l).ys ≠ [] := by
    intro ops
    induction ops with
    | nil => intro l h; exact h
    | cons op ops ih =>
      intro l h
      apply ih
      cases op
      · simp [Spec.Log.step, Spec.Log.forward, h]
      · simp only [Spec.Log.step, Spec.Log.measure, h, if_false]; split_ifs <;> simp
  cases ops with
  | nil => exact absurd rfl hne
  | cons op ops =>
    refine key ops _ ?_
    cases op <;> simp [Spec.Log.step, Spec.Log.forward, Spec.Log.measure]

theorem PT.failed_forward {F : FilterOps P U Y V Ω} {s s' : PT P U Y} {l : Spec.Log U Y}
    (h : s.Rep l) (hne : l.ys ≠ []) {u : Slot U} {y : Slot Y} {ω0 : Ω} {d : Draws Ω} {e : PyErr}
    (hf : s.forward F u y ω0 d = (s', .error e)) :
    s' = { s.beforeForward u y with traj := s.traj } ∧ s.traj ≠ [] ∧ 1 ≤ s.ind1 := by
  have hpos : 0 < l.ys.length := List.length_pos_iff.mpr hne
  have h1 : 1 ≤ s.ind1 := by rw [h.ind]; omega
  rw [PT.forward_eq h.inv] at hf
  have htr : s.traj ≠ [] := by
    intro hc; have := h.len; rw [hc] at this; simp at this; omega
  rcases s.ensureInit_cases F ω0 with ⟨h1', h2⟩ | ⟨h1', -⟩ | ⟨h1', -⟩
  · rw [h2] at hf
    simp only at hf
    split at hf
    · cases hf
      obtain ⟨hg, e1, e2, e3, e4⟩ := PT.growForward_inv h.inv h1
      exact ⟨by simp only [PT.beforeForward, e3], htr, h1⟩
    · cases hf
  · exact absurd h1' htr
  · exact absurd h1' htr

/-- C22: what a `forward()` that fails in the filter or the model leaves behind, after any successful
non-empty history: the stored steps and `N` are untouched, but the time index has advanced by one, and the
supplied `u`, `y` and the time stamp are already in the buffers. -/
theorem C22_failed_forward_state {F : FilterOps P U Y V Ω} {N : ℕ} {T : Option ℕ}
    {s0 s s' : PT P U Y} (h0 : PT.init N T 0 = .ok s0) {ops : List (Op U Y Ω)} (hne : ops ≠ [])
    {bs : List (Option Bool)} (hrun : s0.run F ops = (s, .ok bs))
    {u : Slot U} {y : Slot Y} {ω0 : Ω} {d : Draws Ω} {e : PyErr}
    (hf : s.forward F u y ω0 d = (s', .error e)) :
    s'.traj = s.traj ∧ s'.N = s.N ∧ s'.ind1 = s.ind1 + 1 ∧
    s'.yvec[s.ind1]? = some y ∧ s'.tvec[s.ind1]? = some s.ind1 ∧ s'.uvec[s.ind1 - 1]? = some u := by
  have h := PT.run_rep ops (PT.init_rep h0) hrun
  obtain ⟨rfl, htr, h1⟩ := PT.failed_forward h (Spec.log_ne_nil _ hne) hf
  obtain ⟨hg, e1, e2, e3, e4⟩ := PT.growForward_inv h.inv h1
  refine ⟨rfl, by simp [PT.beforeForward, e2], rfl, ?_, ?_, ?_⟩
  · simp only [PT.beforeForward]; rw [List.getElem?_set_self]; rw [hg.ylen]; omega
  · simp only [PT.beforeForward]; rw [List.getElem?_set_self]; rw [hg.tlen]; omega
  · simp only [PT.beforeForward]; rw [List.getElem?_set_self]
    have := hg.ulen_ge; omega

/-- C22: a failed `forward()` after a successful history never leaves the trajectory as it was. -/
theorem C22_failed_forward_changes_state {F : FilterOps P U Y V Ω} {N : ℕ} {T : Option ℕ}
    {s0 s s' : PT P U Y} (h0 : PT.init N T 0 = .ok s0) {ops : List (Op U Y Ω)} (hne : ops ≠ [])
    {bs : List (Option Bool)} (hrun : s0.run F ops = (s, .ok bs))
    {u : Slot U} {y : Slot Y} {ω0 : Ω} {d : Draws Ω} {e : PyErr}
    (hf : s.forward F u y ω0 d = (s', .error e)) : s' ≠ s := by
  intro hc
  have := (C22_failed_forward_state h0 hne hrun hf).2.2.1
  rw [hc] at this; omega

/-- C22: after any successful history, if a `forward(u, y)` fails and the caller retries with
`forward(u', y')` successfully, the new step is stored at position `n = len(traj)` while the buffers hold
the *failed* measurement at position `n` and the retried one at `n+1`. -/
theorem C22_retry_misaligns {F : FilterOps P U Y V Ω} {N : ℕ} {T : Option ℕ}
    {s0 s s' s'' : PT P U Y} (h0 : PT.init N T 0 = .ok s0) {ops : List (Op U Y Ω)} (hne : ops ≠ [])
    {bs : List (Option Bool)} (hrun : s0.run F ops = (s, .ok bs))
    {u u' : Slot U} {y y' : Slot Y} {ω0 ω0' : Ω} {d d' : Draws Ω} {e : PyErr} {b : Bool}
    (hf : s.forward F u y ω0 d = (s', .error e)) (hr : s'.forward F u' y' ω0' d' = (s'', .ok b)) :
    s''.traj.length = s.traj.length + 1 ∧ s''.yvec[s.traj.length]? = some y ∧
    s''.yvec[s.traj.length + 1]? = some y' := by
  have h := PT.run_rep ops (PT.init_rep h0) hrun
  have hinv' : s'.Inv := by have := PT.forward_inv (F := F) h.inv u y ω0 d; rwa [hf] at this
  obtain ⟨hst, htr, h1⟩ := PT.failed_forward h (Spec.log_ne_nil _ hne) hf
  have hst' := C22_failed_forward_state h0 hne hrun hf
  have hlen : s.traj.length = s.ind1 := by rw [h.len, h.ind]
  rw [PT.forward_eq hinv'] at hr
  have htr' : s'.traj ≠ [] := by rw [hst'.1]; exact htr
  rcases s'.ensureInit_cases F ω0' with ⟨h1', h2⟩ | ⟨h1', -⟩ | ⟨h1', -⟩
  · rw [h2] at hr
    simp only at hr
    split at hr
    · cases hr
    · cases hr
      have hi1 : 1 ≤ s'.ind1 := by rw [hst'.2.2.1]; omega
      obtain ⟨hg, e1, e2, e3, e4⟩ := PT.growForward_inv hinv' hi1
      refine ⟨by simp [hst'.1], ?_, ?_⟩
      · simp only [PT.beforeForward]
        rw [List.getElem?_set_ne (by rw [hst'.2.2.1]; omega), hlen,
          ((PT.grow_getElem? hinv').1 (by rw [hst'.2.2.1]; omega) ?_).1, hst'.2.2.2.1]
        have := lt_of_getElem?_some hst'.2.2.2.1
        rwa [hinv'.ylen] at this
      · simp only [PT.beforeForward]
        rw [hlen, ← hst'.2.2.1, List.getElem?_set_self]
        rw [hg.ylen]; omega
  · exact absurd h1' htr'
  · exact absurd h1' htr'

/-- A filter whose `forward` fails once, when it is given the measurement `0`. -/
noncomputable def faultyFilter : FilterOps ℕ ℕ ℕ Unit Unit where
  create N _ := .ok (List.replicate N 0)
  forward tr yv _ _ c _ := do
    let y ← getIdx yv (c + 1)
    match y with
    | .obj 0 => .error .valueError
    | _ => let l ← getLast tr; return (l.pa, false, l.ancestors)
  measure _ _ pa _ _ _ _ := .ok pa
  measureNew _ _ _ _ := PA.new [0] none
  usingPfy := false

/-- C22 is false of the code: there is a history in which a step fails, the caller catches the
exception and retries with good data, and afterwards the measurement of the last stored step is not at
the position of that step: the trajectory has 2 steps, while the retried measurement sits at index 2
and index 1 still holds the measurement that failed. -/
theorem C22_retry_misaligns_counterexample :
    ∃ (s0 s : PT ℕ ℕ ℕ), PT.init 1 none 0 = .ok s0 ∧
      s = s0.runCatch faultyFilter [.measure (.obj 5) (), .forward .none (.obj 0) () ⟨0, 0, ()⟩,
        .forward .none (.obj 6) () ⟨0, 0, ()⟩] ∧
      s.traj.length = 2 ∧ s.yvec = [.obj 5, .obj 0, .obj 6] := by
  refine ⟨_, _, rfl, rfl, ?_, ?_⟩
  · simp [PT.runCatch, PT.step, PT.measure, PT.growMeasure, faultyFilter, PT.ensureInit, npResize, setIdx,
      PA.new, getLast, PT.forward, PT.growForward, getIdx]
  · simp [PT.runCatch, PT.step, PT.measure, PT.growMeasure, faultyFilter, PT.ensureInit, npResize, setIdx,
      PA.new, getLast, PT.forward, PT.growForward, getIdx]

/-! ### C25: construction -/

/-- The documented filter names. -/
def Spec.filterNames : List (String × FilterKind) :=
  [("pf", .pf), ("apf", .apf), ("pfy", .pfy), ("cpfyas", .cpfyas), ("cpfas", .cpfas), ("cpf", .cpf),
   ("sir", .sir), ("csiras", .csiras)]

/-- C25: a name selects a filter iff its lower-case form is one of the eight documented names (and then
the one documented under that name); every other string raises `ValueError`. -/
theorem C25_parse (name : String) (k : FilterKind) :
    parseFilter name = .ok k ↔ (name.toLower, k) ∈ Spec.filterNames := by
  unfold parseFilter Spec.filterNames
  generalize name.toLower = n
  split_ifs <;> simp_all [eq_comm]

theorem C25_unknown_name (name : String) (h : ∀ k, (name.toLower, k) ∉ Spec.filterNames) :
    parseFilter name = .error .valueError := by
  cases hp : parseFilter name with
  | ok k => exact absurd ((C25_parse name k).mp hp) (h k)
  | error e =>
    unfold parseFilter at hp
    split_ifs at hp
    cases hp; rfl

/-- C25: case-insensitivity. -/
theorem C25_case_insensitive (a b : String) (h : a.toLower = b.toLower) :
    parseFilter a = parseFilter b := by
  unfold parseFilter; rw [h]

/-- The filters that condition on a given trajectory. -/
def Spec.Conditional (k : FilterKind) : Prop := k = .cpf ∨ k = .cpfas ∨ k = .cpfyas ∨ k = .csiras

/-- C25: a conditional filter is built iff `filter_options['cond_traj']` is given; with
`filter_options=None` — what `Simulator` passes by default — construction raises `TypeError`, with the
key missing `KeyError`. Unconditional filters ignore the options. -/
theorem C25_cond_traj (M : Callbacks P U Y V Ω) (N : ℕ) (res : ℝ) {name : String} {k : FilterKind}
    (hk : parseFilter name = .ok k) (o : FilterOptions P) :
    (Spec.Conditional k → mkFilter M N res name .none = .error .typeError ∧
      mkFilter M N res name (.dict Option.none) = .error .keyError ∧
      ∀ c, ∃ F, mkFilter M N res name (.dict (some c)) = .ok F) ∧
    (¬ Spec.Conditional k → ∃ F, mkFilter M N res name o = .ok F ∧
      mkFilter M N res name .none = .ok F) := by
  unfold mkFilter
  simp only [hk, ok_bind]
  unfold Spec.Conditional
  cases k <;> simp [FilterOptions.condTraj]

/-- C25: an unknown name raises `ValueError` whatever the options. -/
theorem C25_unknown_name_construct (M : Callbacks P U Y V Ω) (N : ℕ) (res : ℝ) {name : String}
    (h : ∀ k, (name.toLower, k) ∉ Spec.filterNames) (o : FilterOptions P) :
    mkFilter M N res name o = .error .valueError := by
  unfold mkFilter
  rw [C25_unknown_name name h]; rfl

/-- C25: exactly the two filters pfy and cpfyas put `ParticleTrajectory.measure` in the mode that starts a
new step. -/
theorem C25_using_pfy {M : Callbacks P U Y V Ω} {N : ℕ} {res : ℝ} {name : String} {k : FilterKind}
    (hk : parseFilter name = .ok k) {o : FilterOptions P} {F : FilterOps P U Y V Ω}
    (h : mkFilter M N res name o = .ok F) : F.usingPfy = true ↔ k = .pfy ∨ k = .cpfyas := by
  unfold mkFilter at h
  simp only [hk, ok_bind] at h
  cases k
  case pf | apf | pfy | sir =>
    simp only [pure_eq_ok, Except.ok.injEq] at h
    subst h; simp
  all_goals
    obtain ⟨c, -, h⟩ := bind_eq_ok.mp h
    simp only [pure_eq_ok, Except.ok.injEq] at h
    subst h; simp

/-- C25: `t0 ≠ 0` fails the assertion, an explicit `T = 0` raises `IndexError`, everything else is
accepted. -/
theorem C25_init (N : ℕ) (T : Option ℕ) (t0 : ℕ) :
    (t0 ≠ 0 → (PT.init N T t0 : PyM (PT P U Y)) = .error .assertionError) ∧
    (T = some 0 → (PT.init N T 0 : PyM (PT P U Y)) = .error .indexError) ∧
    (T ≠ some 0 → ∃ s : PT P U Y, PT.init N T 0 = .ok s ∧ s.N = N ∧ s.traj = []) := by
  refine ⟨fun h => by simp [PT.init, h], fun h => by simp [PT.init, h], fun h => ?_⟩
  rcases T with _ | _ | k
  · exact ⟨_, rfl, rfl, rfl⟩
  · exact absurd rfl h
  · exact ⟨_, rfl, rfl, rfl⟩

/-- C25 (also the fate of `spawn`): `spawn()` raises in every state: `IndexError` before the first step, `AttributeError` afterwards. -/
theorem C25_spawn_always_raises (s : PT P U Y) :
    (s.traj = [] → s.spawn = .error .indexError) ∧ (s.traj ≠ [] → s.spawn = .error .attributeError) := by
  unfold PT.spawn
  refine ⟨fun h => by simp [h], fun h => ?_⟩
  rw [if_neg (by simpa using h)]

example : parseFilter "CPFas" = .ok .cpfas := by
  rw [C25_parse]
  have : "CPFas".toLower = "cpfas" := by decide +kernel
  rw [this]; simp [Spec.filterNames]

example : ∀ k, ("bootstrap".toLower, k) ∉ Spec.filterNames := by
  have : "bootstrap".toLower = "bootstrap" := by decide +kernel
  intro k; rw [this]; simp [Spec.filterNames]

end PyPE

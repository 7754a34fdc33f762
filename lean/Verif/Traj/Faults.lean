import Verif.Filter.Toy

/-!
# C21, C22: histories in which the model raises

`runCatch` is a history in which the caller catches every exception and goes on.  For the bootstrap filter over a model
whose callbacks may raise (anything but `IndexError`) at any call, no call of the history raises `IndexError`, and every
stored step holds `N` particles and `N` weights.
-/

namespace PyPE
open Real Spec
variable {P U Y V Ω : Type}

/-- A result that is an error other than `IndexError`, or a value with the property `Q`. -/
def Spec.OkOr {α : Type} (x : PyM α) (Q : α → Prop) : Prop :=
  match x with
  | .error e => e ≠ .indexError
  | .ok a => Q a

theorem OkOr.ok {α : Type} {x : PyM α} {Q : α → Prop} (h : Spec.OkOr x Q) {a : α} (e : x = .ok a) : Q a := by
  rw [e] at h; exact h

theorem OkOr.err {α : Type} {x : PyM α} {Q : α → Prop} (h : Spec.OkOr x Q) {e : PyErr} (he : x = .error e) : e ≠ .indexError := by
  rw [he] at h; exact h

theorem OkOr.bind {α β : Type} {x : PyM α} {Q : α → Prop} {f : α → PyM β} {R : β → Prop} (h : Spec.OkOr x Q)
    (hf : ∀ a, Q a → Spec.OkOr (f a) R) : Spec.OkOr (x >>= f) R := by
  cases x with
  | error e => exact h
  | ok a => exact hf a h

theorem OkOr.of_ok {α : Type} {x : PyM α} {Q : α → Prop} {a : α} (e : x = .ok a) (h : Q a) : Spec.OkOr x Q := by
  rw [e]; exact h

/-- A model with `N` particles whose callbacks may raise at any call, though not `IndexError`, and return arrays of the
right length when they do not raise. -/
structure Spec.MayRaise (M : Callbacks P U Y V Ω) (N : ℕ) : Prop where
  create : ∀ ω, Spec.OkOr (M.createInitial N ω) fun p => p.length = N
  noise : ∀ tr anc u t ω, Spec.OkOr (M.sampleNoise tr anc u t ω) fun _ => True
  update : ∀ part tr u y t anc v, part.length = N → Spec.OkOr (M.update part tr u y t anc v) fun p => p.length = N
  measure : ∀ part tr u y t anc, part.length = N → Spec.OkOr (M.measure part tr u y t anc) fun w => w.length = N
  first : ∀ part u y t, part.length = N → Spec.OkOr (M.evalFirstStage part u y t) fun w => w.length = N
  qsample : ∀ part u y t ω, part.length = N → Spec.OkOr (M.qsample part u y t ω) fun p => p.length = N
  logpQ : ∀ part nxt u y t, part.length = N → Spec.OkOr (M.logpQ part nxt u y t) fun w => w.length = N
  logpXnext : ∀ part nxt u t, part.length = N → Spec.OkOr (M.logpXnext part nxt u t) fun w => w.length = N
  sirMeasure : ∀ part y t, part.length = N → Spec.OkOr (M.sirMeasure part y t) fun w => w.length = N

theorem npAdd_okOr (a b : List ℝ) : Spec.OkOr (npAdd a b) fun c => c.length = a.length ∧ a.length = b.length := by
  unfold npAdd
  split_ifs with h
  · exact ⟨by simp [h], h⟩
  · simp [Spec.OkOr]

theorem npSub_okOr (a b : List ℝ) : Spec.OkOr (npSub a b) fun c => c.length = a.length ∧ a.length = b.length := by
  unfold npSub
  split_ifs with h
  · exact ⟨by simp [h], h⟩
  · simp [Spec.OkOr]

theorem npMax_okOr (a : List ℝ) : Spec.OkOr (npMax a) fun _ => True := by
  cases a <;> simp [npMax, Spec.OkOr]

theorem getIdx_okOr {α : Type} {a : List α} {i : ℕ} (h : i < a.length) : Spec.OkOr (getIdx a i) fun _ => True :=
  OkOr.of_ok (getIdx_of_lt h) trivial

theorem weightUpdate_okOr {pa : PA P} {N : ℕ} (h : pa.WF N) (nw : List ℝ) :
    Spec.OkOr (weightUpdate pa nw) fun p => p.WF N := by
  unfold weightUpdate
  refine OkOr.bind (npMax_okOr _) fun m _ => ?_
  refine OkOr.bind (npAdd_okOr _ _) fun w hw => ?_
  refine OkOr.bind (npMax_okOr _) fun m' _ => ?_
  exact ⟨h.part_len, by simp [hw.1, h.w_len], h.num_eq⟩

theorem pfMeasure_okOr {M : Callbacks P U Y V Ω} {N : ℕ} (hM : Spec.MayRaise M N) (tr : List (Step P)) (anc : List ℕ)
    {pa : PA P} (h : pa.WF N) (u : List (Slot U)) (y : List (Slot Y)) (t : List ℕ) (c : ℕ) :
    Spec.OkOr (pfMeasure M tr anc pa u y t c) fun p => p.WF N :=
  OkOr.bind (hM.measure _ _ _ _ _ _ h.part_len) fun nw _ => weightUpdate_okOr h nw

theorem pfUpdate_okOr {M : Callbacks P U Y V Ω} {N : ℕ} (hM : Spec.MayRaise M N) (tr : List (Step P)) (anc : List ℕ)
    {pa : PA P} (h : pa.WF N) (u : List (Slot U)) (y : List (Slot Y)) (t : List ℕ) (c : ℕ) (ω : Ω) :
    Spec.OkOr (pfUpdate M tr anc u y t c pa ω) fun p => p.WF N :=
  OkOr.bind (hM.noise _ _ _ _ _) fun v _ => OkOr.bind (hM.update _ _ _ _ _ _ v h.part_len) fun p hp =>
    ⟨hp, h.w_len, h.num_eq⟩

theorem getLast_okOr {N : ℕ} {tr : List (Step P)} (hne : tr ≠ []) (hg : ∀ st ∈ tr, Spec.GoodStep N st) :
    Spec.OkOr (getLast tr) fun st => Spec.GoodStep N st := by
  obtain ⟨last, hl⟩ := Option.ne_none_iff_exists'.mp (mt List.getLast?_eq_none_iff.mp hne)
  exact OkOr.of_ok (getLast_ok.mpr hl) (hg _ (List.mem_of_getLast? hl))

theorem paNew_okOr {N : ℕ} {st : Step P} (h : Spec.GoodStep N st) :
    Spec.OkOr (PA.new st.pa.part (some st.pa.w)) fun pa => pa.WF N :=
  ⟨h.pa.part_len, h.pa.w_len, h.pa.part_len⟩

theorem maybeResample_okOr (res : ℝ) {pa : PA P} {N : ℕ} (h : pa.WF N) (hN : 0 < N) {r : ℝ} (hr : Unit01 r) :
    Spec.OkOr (maybeResample res pa r) fun x => x.1.WF N ∧ x.2.2.length = N ∧ ∀ a ∈ x.2.2, a < N := by
  obtain ⟨pa', flag, anc, h1, h2, h3, h4, -⟩ := maybeResample_spec res h hN hr
  exact OkOr.of_ok h1 ⟨h2, h3, h4⟩

/-- The stored step a filter step would give is well formed. -/
def Spec.NewStep (N : ℕ) (r : PA P × Bool × List ℕ) : Prop := Spec.GoodStep N ⟨r.1, r.2.2⟩

theorem pfForward_okOr {M : Callbacks P U Y V Ω} {N : ℕ} (hM : Spec.MayRaise M N) (hN : 0 < N) (res : ℝ) {tr : List (Step P)}
    (hne : tr ≠ []) (hg : ∀ st ∈ tr, Spec.GoodStep N st) (y : List (Slot Y)) (u : List (Slot U)) (t : List ℕ) (c : ℕ) (d : Draws Ω)
    (hd : Unit01 d.r) : Spec.OkOr (pfForward M res tr y u t c d) (Spec.NewStep N) := by
  unfold pfForward
  refine OkOr.bind (getLast_okOr hne hg) fun last hl => OkOr.bind (paNew_okOr hl) fun pa hpa =>
    OkOr.bind (maybeResample_okOr res hpa hN hd) fun x hx => ?_
  obtain ⟨pa, flag, anc⟩ := x
  obtain ⟨h1, h2, h3⟩ := hx
  exact OkOr.bind (pfUpdate_okOr hM tr anc h1 u y t c d.ω) fun pa1 k1 =>
    OkOr.bind (pfMeasure_okOr hM tr anc k1 u y t (c + 1)) fun pa2 k2 => ⟨k2, h2, h3⟩

theorem sirForward_okOr {M : Callbacks P U Y V Ω} {N : ℕ} (hM : Spec.MayRaise M N) (hN : 0 < N) (res : ℝ) {tr : List (Step P)}
    (hne : tr ≠ []) (hg : ∀ st ∈ tr, Spec.GoodStep N st) {y : List (Slot Y)} {u : List (Slot U)} {t : List ℕ} {c : ℕ} (d : Draws Ω)
    (hd : Unit01 d.r) (hu : c < u.length) (hy : c + 1 < y.length) (ht : c + 1 < t.length) :
    Spec.OkOr (sirForward M res tr y u t c d) (Spec.NewStep N) := by
  unfold sirForward
  refine OkOr.bind (getLast_okOr hne hg) fun last hl => OkOr.bind (paNew_okOr hl) fun pa hpa =>
    OkOr.bind (maybeResample_okOr res hpa hN hd) fun x hx => ?_
  obtain ⟨pa, flag, anc⟩ := x
  obtain ⟨h1, h2, h3⟩ := hx
  refine OkOr.bind (getIdx_okOr hu) fun u _ => OkOr.bind (getIdx_okOr hy) fun y _ => OkOr.bind (getIdx_okOr (by omega)) fun t0 _ =>
    OkOr.bind (hM.qsample _ _ _ _ _ h1.part_len) fun pn hp => OkOr.bind (hM.logpQ _ _ _ _ _ h1.part_len) fun qw _ =>
    OkOr.bind (hM.logpXnext _ _ _ _ h1.part_len) fun nw _ => OkOr.bind (getIdx_okOr ht) fun t1 _ =>
    OkOr.bind (hM.sirMeasure _ _ _ hp) fun yw _ => OkOr.bind (npAdd_okOr _ _) fun s _ => OkOr.bind (npSub_okOr _ _) fun w _ =>
    OkOr.bind (weightUpdate_okOr h1 w) fun pa2 k => ⟨⟨hp, k.w_len, k.num_eq⟩, h2, h3⟩

theorem apfForward_okOr {M : Callbacks P U Y V Ω} {N : ℕ} (hM : Spec.MayRaise M N) (hN : 0 < N) (res : ℝ) {tr : List (Step P)}
    (hne : tr ≠ []) (hg : ∀ st ∈ tr, Spec.GoodStep N st) {y : List (Slot Y)} {u : List (Slot U)} {t : List ℕ} {c : ℕ} (d : Draws Ω)
    (hd : Unit01 d.r) (hu : c < u.length) (hy : c + 1 < y.length) (ht : c + 1 < t.length) :
    Spec.OkOr (apfForward M res tr y u t c d) (Spec.NewStep N) := by
  unfold apfForward
  refine OkOr.bind (getLast_okOr hne hg) fun last hl => OkOr.bind (paNew_okOr hl) fun pa hpa =>
    OkOr.bind (getIdx_okOr hy) fun y0 _ => ?_
  refine OkOr.bind (Q := fun x => x.1.WF N ∧ ∀ l, x.2 = some l → l.length = N) ?_ fun x hx => ?_
  · cases y0 with
    | none => exact ⟨hpa, by simp⟩
    | zero =>
      exact OkOr.bind (getIdx_okOr hu) fun u _ => OkOr.bind (getIdx_okOr (by omega)) fun t0 _ =>
        OkOr.bind (hM.first _ _ _ _ hpa.part_len) fun l hl => OkOr.bind (npAdd_okOr _ _) fun w hw =>
        OkOr.bind (npMax_okOr _) fun m _ => ⟨⟨hpa.part_len, by simp [hw.1, hpa.w_len], hpa.num_eq⟩, by
          intro l' e; cases e; exact hl⟩
    | obj v =>
      exact OkOr.bind (getIdx_okOr hu) fun u _ => OkOr.bind (getIdx_okOr (by omega)) fun t0 _ =>
        OkOr.bind (hM.first _ _ _ _ hpa.part_len) fun l hl => OkOr.bind (npAdd_okOr _ _) fun w hw =>
        OkOr.bind (npMax_okOr _) fun m _ => ⟨⟨hpa.part_len, by simp [hw.1, hpa.w_len], hpa.num_eq⟩, by
          intro l' e; cases e; exact hl⟩
  obtain ⟨pa, l1w⟩ := x
  obtain ⟨hpa, hl1⟩ := hx
  dsimp only at hpa hl1 ⊢
  refine OkOr.bind (Q := fun x => x.1.WF N ∧ x.2.2.1.length = N ∧ ∀ a ∈ x.2.2.1, a < N) ?_ fun x hx => ?_
  · have hid : pa.WF N ∧ (List.range pa.num).length = N ∧ ∀ a ∈ List.range pa.num, a < N := by
      refine ⟨hpa, by simp [hpa.num_eq], fun a ha => ?_⟩
      rw [List.mem_range, hpa.num_eq] at ha; exact ha
    split_ifs
    · refine OkOr.bind (Q := fun _ => True) (OkOr.bind (npMax_okOr _) fun m _ => trivial) fun neff _ => ?_
      split_ifs
      · obtain ⟨pa', anc, h1, h2, h3, h4⟩ : ∃ pa' anc, pa.resample pa.num d.r = .ok (pa', anc) ∧ pa'.WF N ∧ anc.length = N ∧ ∀ a ∈ anc, a < N := by
          obtain ⟨pa', anc, h1, h2, h3, h4, h5, -, -, h6, -⟩ := C07_resample pa (hpa.w_ne hN) (by rw [hpa.part_len, hpa.w_len]) N hN hd
          rw [hpa.num_eq]
          exact ⟨pa', anc, h1, ⟨h4, by rw [h6]; simp, h5⟩, h2, by rw [hpa.part_len] at h3; exact h3⟩
        rw [h1, ok_bind]
        dsimp only
        cases l1w with
        | none => simp [Spec.OkOr]
        | some l =>
          obtain ⟨l', hl'⟩ := fancy_ok (a := l) (ind := anc) (fun a ha => by rw [hl1 l rfl]; exact h4 a ha)
          exact OkOr.bind (OkOr.of_ok (Q := fun _ => True) hl' trivial) fun _ _ => ⟨h2, h3, h4⟩
      · exact hid
    · exact hid
  obtain ⟨pa, flag, anc, l1w'⟩ := x
  obtain ⟨h1, h2, h3⟩ := hx
  refine OkOr.bind (pfUpdate_okOr hM tr anc h1 u y t c d.ω) fun pa1 k1 =>
    OkOr.bind (pfMeasure_okOr hM tr anc k1 u y t (c + 1)) fun pa2 k2 => ?_
  cases l1w' with
  | none => simp [Spec.OkOr]
  | some l =>
    exact OkOr.bind (npSub_okOr _ _) fun w hw => OkOr.bind (npMax_okOr _) fun m _ =>
      ⟨⟨k2.part_len, by simp [hw.1, k2.w_len], k2.num_eq⟩, h2, h3⟩

/-- A filter object whose calls may raise, though not `IndexError` when the arguments are those of a consistent trajectory. -/
structure Spec.FilterMayRaise (F : FilterOps P U Y V Ω) (N : ℕ) : Prop where
  pfy : F.usingPfy = false
  create : ∀ ω, Spec.OkOr (F.create N ω) fun p => p.length = N
  forward : ∀ (tr : List (Step P)) (y : List (Slot Y)) (u : List (Slot U)) (t : List ℕ) (c : ℕ) (d : Draws Ω), tr ≠ [] → (∀ st ∈ tr, Spec.GoodStep N st) →
    Unit01 d.r → c < u.length → c + 1 < y.length → c + 1 < t.length → Spec.OkOr (F.forward tr y u t c d) (Spec.NewStep N)
  measure : ∀ tr anc (pa : PA P) u y t c, pa.WF N → Spec.OkOr (F.measure tr anc pa u y t c) fun p => p.WF N

/-- What holds between the calls of a history with failures. -/
structure Spec.Consistent (N : ℕ) (s : PT P U Y) : Prop where
  inv : s.Inv
  num : s.N = N
  good : ∀ st ∈ s.traj, Spec.GoodStep N st

theorem ensureInit_fault {F : FilterOps P U Y V Ω} {N : ℕ} (hF : Spec.FilterMayRaise F N) (hN : 0 < N) {s : PT P U Y} (h : Spec.Consistent N s) (ω : Ω) :
    Spec.Consistent N (s.ensureInit F ω).1 ∧ (s.ensureInit F ω).2 ≠ .error .indexError := by
  refine ⟨⟨(PT.ensureInit_inv h.inv ω).1, ?_, ?_⟩, ?_⟩
  · rcases s.ensureInit_cases F ω with ⟨-, h2⟩ | ⟨-, e, h2, -⟩ | ⟨-, part, pa, -, -, h2⟩ <;> rw [h2] <;> exact h.num
  · rcases s.ensureInit_cases F ω with ⟨-, h2⟩ | ⟨h1, e, h2, -⟩ | ⟨-, part, pa, h3, h4, h2⟩
    · rw [h2]; exact h.good
    · rw [h2]; exact h.good
    · rw [h2]
      have hl : part.length = N := OkOr.ok (hF.create ω) (h.num ▸ h3)
      intro st hst
      rw [List.mem_singleton] at hst
      subst hst
      have hp : pa = ⟨part, List.replicate part.length (-log (part.length : ℝ)), part.length, 0⟩ := by
        unfold PA.new at h4
        dsimp only at h4
        rw [if_neg (by omega)] at h4
        exact (Except.ok.inj h4).symm
      refine ⟨⟨?_, ?_, ?_⟩, by simp [h.num], fun a ha => ?_⟩
      · rw [hp]; exact hl
      · rw [hp]; simp [hl]
      · rw [hp]; exact hl
      · dsimp only at ha; rw [List.mem_range, h.num] at ha; exact ha
  · rcases s.ensureInit_cases F ω with ⟨-, h2⟩ | ⟨-, e, h2, h3⟩ | ⟨-, part, pa, -, -, h2⟩ <;> rw [h2]
    · simp
    · rcases h3 with h3 | h3
      · have := OkOr.err (hF.create ω) (h.num ▸ h3)
        simpa using this
      · subst h3; simp
    · simp

theorem step_fault {F : FilterOps P U Y V Ω} {N : ℕ} (hF : Spec.FilterMayRaise F N) (hN : 0 < N) {s : PT P U Y} (h : Spec.Consistent N s) {op : Op U Y Ω}
    (hop : op.Ok fun _ => True) : Spec.Consistent N (s.step F op).1 ∧ (s.step F op).2 ≠ .error .indexError := by
  cases op with
  | forward u y ω0 d =>
    have key : Spec.Consistent N (s.forward F u y ω0 d).1 ∧ (s.forward F u y ω0 d).2 ≠ .error .indexError := by
      obtain ⟨h1, h2⟩ := ensureInit_fault hF hN h ω0
      obtain ⟨-, hne⟩ := PT.ensureInit_inv (F := F) h.inv ω0
      have hi := PT.forward_inv (F := F) h.inv u y ω0 d
      rw [PT.forward_eq h.inv] at hi ⊢
      rcases he : s.ensureInit F ω0 with ⟨s', r⟩
      rw [he] at h1 h2 hne hi
      dsimp only at h1 h2 hne hi
      cases r with
      | error e => exact ⟨h1, by simpa using h2⟩
      | ok _ =>
        have h01 := h1.inv.started (hne rfl)
        obtain ⟨hg, e1, e2, e3, e4⟩ := PT.growForward_inv h1.inv h01
        have hu : s'.ind1 - 1 < (s'.beforeForward u y).uvec.length := by
          have := hg.ulen_ge; simp only [PT.beforeForward, List.length_set]; omega
        have hy : s'.ind1 - 1 + 1 < (s'.beforeForward u y).yvec.length := by
          simp only [PT.beforeForward, List.length_set]; rw [hg.ylen]; omega
        have ht : s'.ind1 - 1 + 1 < (s'.beforeForward u y).tvec.length := by
          simp only [PT.beforeForward, List.length_set]; rw [hg.tlen]; omega
        have hf := hF.forward s'.traj _ _ _ _ d (hne rfl) h1.good hop.2.1 hu hy ht
        dsimp only at hi ⊢
        rcases hfw : F.forward s'.traj (s'.beforeForward u y).yvec (s'.beforeForward u y).uvec (s'.beforeForward u y).tvec (s'.ind1 - 1) d with e | ⟨pa, rs, anc⟩
        · rw [hfw] at hi
          refine ⟨⟨hi, ?_, ?_⟩, by simpa using OkOr.err hf hfw⟩
          · simp only [PT.beforeForward]; rw [e2, h1.num]
          · simp only [PT.beforeForward]; rw [e3]; exact h1.good
        · rw [hfw] at hi
          refine ⟨⟨hi, ?_, ?_⟩, by simp⟩
          · simp only [PT.beforeForward]; rw [e2, h1.num]
          · intro st hst
            rcases List.mem_append.mp hst with hst | hst
            · exact h1.good st hst
            · rw [List.mem_singleton] at hst
              subst hst
              exact OkOr.ok hf hfw
    unfold PT.step
    dsimp only
    rcases hf : s.forward F u y ω0 d with ⟨s', r⟩
    rw [hf] at key
    cases r with
    | error e => exact ⟨key.1, by simpa using key.2⟩
    | ok b => exact ⟨key.1, by simp⟩
  | measure y ω =>
    have key : Spec.Consistent N (s.measure F y ω).1 ∧ (s.measure F y ω).2 ≠ .error .indexError := by
      obtain ⟨g1, g2, g3, g4, g5⟩ := PT.growMeasure_inv h.inv
      have hgc : Spec.Consistent N s.growMeasure := ⟨g1, by rw [g3, h.num], by rw [g4]; exact h.good⟩
      obtain ⟨h1, h2⟩ := ensureInit_fault hF hN hgc ω
      obtain ⟨-, hne⟩ := PT.ensureInit_inv (F := F) g1 ω
      have hi := (PT.measure_inv (F := F) h.inv y ω)
      rw [PT.measure_eq hF.pfy h.inv] at hi ⊢
      rcases he : s.growMeasure.ensureInit F ω with ⟨s', r⟩
      rw [he] at h1 h2 hne hi
      dsimp only at h1 h2 hne hi
      cases r with
      | error e => exact ⟨h1, by simpa using h2⟩
      | ok _ =>
        obtain ⟨last, hl⟩ := Option.ne_none_iff_exists'.mp (mt List.getLast?_eq_none_iff.mp (hne rfl))
        dsimp only at hi ⊢
        rw [getLast_ok.mpr hl] at hi ⊢
        dsimp only at hi ⊢
        have hlg := h1.good last (List.mem_of_getLast? hl)
        have hf := hF.measure s'.traj last.ancestors last.pa (s'.beforeMeasure y).uvec (s'.beforeMeasure y).yvec (s'.beforeMeasure y).tvec (s'.ind1 - 1) hlg.pa
        rcases hfw : F.measure s'.traj last.ancestors last.pa (s'.beforeMeasure y).uvec (s'.beforeMeasure y).yvec (s'.beforeMeasure y).tvec (s'.ind1 - 1) with e | pa
        · rw [hfw] at hi
          exact ⟨⟨hi, h1.num, h1.good⟩, by simpa using OkOr.err hf hfw⟩
        · rw [hfw] at hi
          refine ⟨⟨hi, h1.num, ?_⟩, by simp⟩
          intro st hst
          rcases List.mem_append.mp hst with hst | hst
          · exact h1.good st (List.dropLast_subset _ hst)
          · rw [List.mem_singleton] at hst
            subst hst
            exact ⟨OkOr.ok hf hfw, hlg.anc_len, hlg.anc_lt⟩
    unfold PT.step
    dsimp only
    rcases hf : s.measure F y ω with ⟨s', r⟩
    rw [hf] at key
    cases r with
    | error e => exact ⟨key.1, by simpa using key.2⟩
    | ok b => exact ⟨key.1, by simp⟩

theorem runCatch_fault {F : FilterOps P U Y V Ω} {N : ℕ} (hF : Spec.FilterMayRaise F N) (hN : 0 < N) (ops : List (Op U Y Ω)) {s : PT P U Y} (h : Spec.Consistent N s)
    (hop : ∀ op ∈ ops, op.Ok fun _ => True) : Spec.Consistent N (s.runCatch F ops) := by
  induction ops generalizing s with
  | nil => exact h
  | cons op ops ih =>
    exact ih (step_fault hF hN h (hop _ List.mem_cons_self)).1 fun o ho => hop o (List.mem_cons_of_mem _ ho)

/-- C21 with failures: a bootstrap, auxiliary or SIR filter object over a model whose callbacks may raise (anything but `IndexError`) at any
call.  After every history of calls whose exceptions the caller caught, no further call raises `IndexError`, and every stored step holds `N` particles, `N` weights
and `N` ancestors below `N`. -/
theorem C21_faults {M : Callbacks P U Y V Ω} {N : ℕ} (hM : Spec.MayRaise M N) (hN : 0 < N) {res : ℝ} {name : String} {opts : FilterOptions P}
    {k : FilterKind} (hk : parseFilter name = .ok k) (hk3 : k = .pf ∨ k = .apf ∨ k = .sir) {F : FilterOps P U Y V Ω} (hF : mkFilter M N res name opts = .ok F)
    {T : Option ℕ} {s0 : PT P U Y} (h0 : PT.init N T 0 = .ok s0) (ops : List (Op U Y Ω)) (hops : ∀ op ∈ ops, op.Ok fun _ => True) (op : Op U Y Ω)
    (hop : op.Ok fun _ => True) :
    ((s0.runCatch F ops).step F op).2 ≠ .error .indexError ∧
    ∀ st ∈ (s0.runCatch F ops).traj, st.pa.part.length = N ∧ st.pa.w.length = N ∧ st.ancestors.length = N ∧ ∀ a ∈ st.ancestors, a < N := by
  have hs0 : Spec.Consistent N s0 := by
    refine ⟨PT.init_inv h0, ?_, ?_⟩
    · unfold PT.init at h0
      split_ifs at h0
      split at h0 <;> cases h0 <;> rfl
    · unfold PT.init at h0
      split_ifs at h0
      split at h0 <;> cases h0 <;> simp
  have hFm : Spec.FilterMayRaise F N := by
    unfold mkFilter at hF
    rw [hk, ok_bind] at hF
    rcases hk3 with rfl | rfl | rfl
    · cases hF
      exact ⟨rfl, hM.create, fun tr y u t c d hne hg hd _ _ _ => pfForward_okOr hM hN res hne hg y u t c d hd,
        fun tr anc pa u y t c h => pfMeasure_okOr hM tr anc h u y t c⟩
    · cases hF
      exact ⟨rfl, hM.create, fun tr y u t c d hne hg hd hu hy ht => apfForward_okOr hM hN res hne hg d hd hu hy ht,
        fun tr anc pa u y t c h => pfMeasure_okOr hM tr anc h u y t c⟩
    · cases hF
      exact ⟨rfl, hM.create, fun tr y u t c d hne hg hd hu hy ht => sirForward_okOr hM hN res hne hg d hd hu hy ht,
        fun tr anc pa u y t c h => pfMeasure_okOr hM tr anc h u y t c⟩
  have hc := runCatch_fault hFm hN ops hs0 hops
  exact ⟨(step_fault hFm hN hc hop).2, fun st hst => ⟨(hc.good st hst).pa.part_len, (hc.good st hst).pa.w_len, (hc.good st hst).anc_len, (hc.good st hst).anc_lt⟩⟩

/-- `toy` with a measurement callback that raises `ValueError` for a missing measurement and a transition that raises `AssertionError` for a missing input. -/
noncomputable def moodyToy : Callbacks ℝ ℝ ℝ (List ℝ) ℝ := { toy with
  measure := fun part tr u y t anc => if y.getLast? = some .none then .error .valueError else toy.measure part tr u y t anc
  update := fun part tr u y t anc v => if u.getLast? = some .none then .error .assertionError else toy.update part tr u y t anc v }

theorem moodyToy_mayRaise (N : ℕ) : Spec.MayRaise moodyToy N where
  create _ := by simp [moodyToy, toy, Spec.OkOr]
  noise _ _ _ _ _ := trivial
  update _ _ u _ _ _ _ h := by
    by_cases hu : u.getLast? = some Slot.none <;> simp [moodyToy, hu, Spec.OkOr, toy, h]
  measure _ _ _ y _ _ h := by
    by_cases hy : y.getLast? = some Slot.none <;> simp [moodyToy, hy, Spec.OkOr, toy, h]
  first _ _ _ _ h := by simp [moodyToy, toy, Spec.OkOr, h]
  qsample _ _ _ _ _ h := by simp [moodyToy, toy, Spec.OkOr, h]
  logpQ _ _ _ _ _ h := by simp [moodyToy, toy, Spec.OkOr, h]
  logpXnext _ _ _ _ h := by simp [moodyToy, toy, Spec.OkOr, h]
  sirMeasure _ _ _ h := by simp [moodyToy, toy, Spec.OkOr, h]

/-- A history with a measurement that is missing, a step without input and a good step, for the three filters. -/
example : ∀ name ∈ ["pf", "apf", "sir"], ∃ F s0, mkFilter moodyToy 5 (2/3) name .none = .ok F ∧ PT.init 5 (some 2) 0 = .ok s0 ∧
    ((s0.runCatch F [.measure .none 0, .forward .none (.obj 2) 0 ⟨1/2, 1/3, 1⟩, .forward (.obj 1) (.obj 2) 0 ⟨1/2, 1/3, 1⟩]).step F
      (.forward (.obj 1) .none 0 ⟨1/2, 1/3, 1⟩)).2 ≠ .error .indexError := by
  have hd : Unit01 (1/2 : ℝ) ∧ Unit01 (1/3 : ℝ) := by constructor <;> simp only [Unit01] <;> norm_num
  have hops : ∀ op ∈ ([.measure .none 0, .forward .none (.obj 2) 0 ⟨1/2, 1/3, 1⟩, .forward (.obj 1) (.obj 2) 0 ⟨1/2, 1/3, 1⟩] : List (Op ℝ ℝ ℝ)),
      op.Ok fun _ => True := by
    intro op h
    simp only [List.mem_cons, List.not_mem_nil, or_false] at h
    rcases h with rfl | rfl | rfl
    · trivial
    · exact ⟨trivial, hd⟩
    · exact ⟨trivial, hd⟩
  intro name h
  simp only [List.mem_cons, List.not_mem_nil, or_false] at h
  rcases h with rfl | rfl | rfl
  · obtain ⟨F, hF⟩ : ∃ F, mkFilter moodyToy 5 (2/3) "pf" .none = .ok F := by simp [mkFilter, parse_pf, ok_bind, pure_eq_ok]
    exact ⟨_, _, hF, rfl, (C21_faults (moodyToy_mayRaise 5) (by norm_num) parse_pf (.inl rfl) hF (T := some 2) rfl _ hops (.forward (.obj 1) .none 0 ⟨1/2, 1/3, 1⟩) ⟨trivial, hd⟩).1⟩
  · obtain ⟨F, hF⟩ : ∃ F, mkFilter moodyToy 5 (2/3) "apf" .none = .ok F := by simp [mkFilter, parse_apf, ok_bind, pure_eq_ok]
    exact ⟨_, _, hF, rfl, (C21_faults (moodyToy_mayRaise 5) (by norm_num) parse_apf (.inr (.inl rfl)) hF (T := some 2) rfl _ hops (.forward (.obj 1) .none 0 ⟨1/2, 1/3, 1⟩) ⟨trivial, hd⟩).1⟩
  · obtain ⟨F, hF⟩ : ∃ F, mkFilter moodyToy 5 (2/3) "sir" .none = .ok F := by simp [mkFilter, parse_sir, ok_bind, pure_eq_ok]
    exact ⟨_, _, hF, rfl, (C21_faults (moodyToy_mayRaise 5) (by norm_num) parse_sir (.inr (.inr rfl)) hF (T := some 2) rfl _ hops (.forward (.obj 1) .none 0 ⟨1/2, 1/3, 1⟩) ⟨trivial, hd⟩).1⟩

/-- The first of these calls does raise. -/
example : ∃ F s0, mkFilter moodyToy 5 (2/3) "pf" .none = .ok F ∧ PT.init 5 (some 2) 0 = .ok s0 ∧ (s0.step F (.measure .none 0)).2 = .error .valueError := by
  have hF : mkFilter moodyToy 5 (2/3) "pf" .none =
      .ok ⟨moodyToy.createInitial, pfForward moodyToy (2/3), pfMeasure moodyToy, fun _ _ _ _ => .error .typeError, false⟩ := by simp only [mkFilter, parse_pf, ok_bind]; rfl
  refine ⟨_, _, hF, rfl, ?_⟩
  simp [PT.step, PT.measure, PT.growMeasure, PT.ensureInit, moodyToy, toy, PA.new, setIdx, getLast, pfMeasure, bind, Except.bind]

end PyPE

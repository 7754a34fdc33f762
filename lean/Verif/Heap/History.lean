import Verif.Heap.Props

/-!
# C14: stored history is never changed by later steps

The theorems, for every filter name and every sequence of `forward`/`measure` calls.
-/

namespace PyPE
open Real

variable {P U Y V Ω α β : Type}

/-- The approximation of a stored step exists in memory, with its arrays. -/
def Spec.Alloc (h : Heap P) (st : HStep) : Prop :=
  st.pa < h.next ∧ (h.obj st.pa).part < h.next ∧ (h.obj st.pa).w < h.next

/-- The steps stored in a trajectory exist in memory and are different objects. -/
structure Spec.Stored (h : Heap P) (traj : List HStep) : Prop where
  alloc : ∀ st ∈ traj, Alloc h st
  distinct : (traj.map HStep.pa).Nodup

/-- `st` is not the newest step of `traj`. -/
def Spec.NotLast (traj : List HStep) (st : HStep) : Prop := ∀ l, traj.getLast? = some l → l.pa ≠ st.pa

theorem Spec.Alloc.keep {h h' : Heap P} {E : Set ℕ} (k : Keep h.next E h h') {st : HStep} (hs : Spec.Alloc h st)
    (hE : st.pa ∉ E) : Spec.Alloc h' st ∧ Spec.viewStep h' st = Spec.viewStep h st := by
  obtain ⟨h1, h2, h3⟩ := hs
  have := k.next_le
  unfold Spec.viewStep Spec.Alloc
  rw [k.obj _ h1 hE, k.part _ h2, k.w _ h3]
  exact ⟨by omega, rfl⟩

theorem Spec.Stored.keep {h h' : Heap P} (k : Keep h.next ∅ h h') {tr : List HStep} (hs : Spec.Stored h tr) : Spec.Stored h' tr :=
  ⟨fun st hst => ((hs.alloc st hst).keep k (by simp)).1, hs.distinct⟩

theorem Spec.Stored.snoc {h : Heap P} {n : ℕ} {tr : List HStep} (hs : Spec.Stored h tr) {o : ℕ} {anc : List ℕ}
    (hlt : ∀ st ∈ tr, st.pa < n) (ho : NewObj n o h) : Spec.Stored h (tr ++ [⟨o, anc⟩]) := by
  refine ⟨fun st hst => ?_, ?_⟩
  · rcases List.mem_append.mp hst with hst | hst
    · exact hs.alloc st hst
    · rw [List.mem_singleton.mp hst]; exact ⟨ho.2.1, ho.2.2.1, ho.2.2.2⟩
  · rw [List.map_append, List.nodup_append]
    refine ⟨hs.distinct, by simp, ?_⟩
    intro a ha b hb
    simp only [List.map_cons, List.map_nil, List.mem_singleton] at hb
    obtain ⟨st, hst, rfl⟩ := List.mem_map.mp ha
    have := hlt st hst
    have := ho.1
    omega

/-! ### `measure` -/

theorem npAdd_empty {a b s : List ℝ} {m : ℝ} (ha : npMax b = .ok m) (hs : npAdd a b = .ok s) : ∃ m', npMax s = .ok m' := by
  unfold npAdd at hs
  split_ifs at hs with hl
  cases Except.ok.inj hs
  cases b with
  | nil => cases ha
  | cons y ys => cases a with
    | nil => simp at hl
    | cons x xs => exact ⟨_, rfl⟩

/-- What an in-place measurement update may do to the heap: it replaces the weight array and the offset of
one object; if it raises, the weights are not touched. -/
structure MeasOK (h : Heap P) (o : ℕ) (r : PyM Unit × Heap P) : Prop where
  keep : Keep h.next {o} h r.2
  part : (r.2.obj o).part = (h.obj o).part
  num : (r.2.obj o).num = (h.obj o).num
  w : (r.2.obj o).w = (h.obj o).w ∨ h.next ≤ (r.2.obj o).w ∧ (r.2.obj o).w < r.2.next
  err : ∀ e, r.1 = .error e → (r.2.obj o).w = (h.obj o).w

theorem MeasOK.ext {h h1 : Heap P} {o : ℕ} {r : PyM Unit × Heap P} (he : Ext h h1) (ho : o < h.next) (m : MeasOK h1 o r) : MeasOK h o r := by
  obtain ⟨e1, e2⟩ := he
  obtain ⟨k, p, n, w, er⟩ := m
  have e3 := (e2 o ho).1
  rw [e3] at p n w er
  refine ⟨⟨e1.trans k.next_le, fun a ha => (k.part a (by omega)).trans (e2 a ha).2.2, fun a ha => (k.w a (by omega)).trans (e2 a ha).2.1,
    fun a ha he => (k.obj a (by omega) he).trans (e2 a ha).1⟩, p, n, w.imp id fun hh => ⟨by omega, hh.2⟩, er⟩

theorem weightUpdateH_meas {h : Heap P} {o nw : ℕ} {n : ℕ} (hn : n ≤ h.next) (ho : o < n) (hnw : n ≤ nw) :
    ∀ r, weightUpdateH o nw h = r → Keep n {o} h r.2 ∧ (r.2.obj o).part = (h.obj o).part ∧ (r.2.obj o).num = (h.obj o).num ∧
      ((r.2.obj o).w = (h.obj o).w ∨ n ≤ (r.2.obj o).w ∧ (r.2.obj o).w < r.2.next) ∧
      ∀ e, r.1 = .error e → (r.2.obj o).w = (h.obj o).w := by
  rintro r rfl
  have hT := (weightUpdateH_triE (P := P) (n := n) (o := o) hnw h hn trivial).1
  refine ⟨hT, ?_⟩
  unfold weightUpdateH
  simp only [HM.bind_run, HM.readW, HM.readObj, HM.writeObj, HM.writeW, HM.lift]
  rcases hm : npMax (h.w nw) with e | m
  · exact ⟨rfl, rfl, Or.inl rfl, fun _ _ => rfl⟩
  simp only [Function.update_self]
  generalize hW : Function.update h.w nw ((h.w nw).map (· - m)) (h.obj o).w = W
  rcases hs : npAdd W ((h.w nw).map (· - m)) with e | s
  · simp
  obtain ⟨m', hm'⟩ : ∃ m', npMax s = .ok m' := by
    obtain ⟨m2, hm2⟩ : ∃ m2, npMax ((h.w nw).map (· - m)) = .ok m2 := by
      cases hl : h.w nw with
      | nil => rw [hl] at hm; cases hm
      | cons x xs => exact ⟨_, rfl⟩
    exact npAdd_empty hm2 hs
  simp only [HM.allocW, hm', Function.update_self]
  exact ⟨trivial, trivial, Or.inr ⟨hn, by simp⟩, fun e he => by cases he⟩

theorem measureH_meas {C : HCallbacks P U Y V Ω} (hC : Spec.Honest C) (tr : List HStep) (anc : List ℕ) {o : ℕ}
    (uv : List (Slot U)) (yv : List (Slot Y)) (tv : List ℕ) (cur : ℕ) (h : Heap P) (ho : o < h.next) :
    MeasOK h o (measureH C tr anc o uv yv tv cur h) := by
  unfold measureH
  rw [HM.bind_run]
  simp only [HM.readObj]
  rw [HM.bind_run]
  set x := C.measure (h.obj o).part tr uv (yv.take (cur + 1)) (tv.take (cur + 1)) anc with hx
  have hq : Spec.Quiet ∅ x := (hC.measure _ _ _ _ _ _).1
  have hr : Spec.ReturnsNew x := (hC.measure _ _ _ _ _ _).2
  have he := hq.ext h
  have hn := hr h
  rcases hxh : x h with ⟨r, h1⟩
  rw [hxh] at he hn
  cases r with
  | error e =>
    obtain ⟨e1, e2⟩ := he
    simp only at e1 e2 ⊢
    refine ⟨⟨e1, fun a ha => (e2 a ha).2.2, fun a ha => (e2 a ha).2.1, fun a ha _ => (e2 a ha).1⟩, ?_, ?_, Or.inl ?_, fun _ _ => ?_⟩ <;>
      rw [(e2 o ho).1]
  | ok nw =>
    simp only at he hn ⊢
    obtain ⟨e1, e2⟩ := he
    obtain ⟨k, p, n, w, er⟩ := weightUpdateH_meas (P := P) e1 ho (hn nw rfl).1 _ rfl
    rw [(e2 o ho).1] at p n w er
    exact ⟨⟨e1.trans k.next_le, fun a ha => (k.part a ha).trans (e2 a ha).2.2, fun a ha => (k.w a ha).trans (e2 a ha).2.1,
      fun a ha he => (k.obj a ha he).trans (e2 a ha).1⟩, p, n, w, er⟩

/-- The frame properties of a filter object. -/
structure Frames (F : FilterOpsH P U Y Ω) : Prop where
  create : ∀ n N ω, Tri n ∅ (fun _ => True) (do let p ← F.create N ω; newH p none : HM P ℕ) (fun o h => NewObj n o h)
  forward : ∀ n tr yv uv tv cur d, Tri n ∅ (fun _ => True) (F.forward tr yv uv tv cur d) (fun v h => NewObj n v.1 h)
  measure : ∀ tr anc o uv yv tv cur (h : Heap P), o < h.next → MeasOK h o (F.measure tr anc o uv yv tv cur h)
  measureNew : ∀ n yv tv cur ω, Tri n ∅ (fun _ => True) (F.measureNew yv tv cur ω) (fun o h => NewObj n o h)

theorem throw_meas (e : PyErr) (h : Heap P) (o : ℕ) : MeasOK h o (HM.throw e h) :=
  ⟨Keep.refl _ _ _, rfl, rfl, Or.inl rfl, fun _ _ => rfl⟩

theorem create_tri {C : HCallbacks P U Y V Ω} (hC : Spec.Honest C) (n N : ℕ) (ω : Ω) :
    Tri n ∅ (fun _ => True) (do let p ← C.createInitial N ω; newH p none : HM P ℕ) (fun o h => NewObj n o h) :=
  Tri.bind (Tri.stay (hC.create _ _) stable_true) fun _ => Tri.conseq (newH_tri _ _) (fun _ h => h) fun _ _ h => h.new

theorem cpfCreate_tri {C : HCallbacks P U Y V Ω} (hC : Spec.Honest C) (hG : Spec.GivesAway C) (ct : List HStep) (n N : ℕ) (ω : Ω) :
    Tri n ∅ (fun _ => True) (do let p ← cpfInitialH C ct N ω; newH p none : HM P ℕ) (fun o h => NewObj n o h) :=
  Tri.bind (cpfInitialH_tri hC hG n ct N ω) fun _ => Tri.conseq (newH_tri _ _) (fun _ h => h) fun _ _ h => h.new

theorem mkFilterH_frames {C : HCallbacks P U Y V Ω} (hC : Spec.Honest C) {name : String} {k : FilterKind} (hk : parseFilter name = .ok k)
    (hG : Spec.isConditional k → Spec.GivesAway C) {N : ℕ} {res : ℝ} {opts : FilterOptionsH} {F : FilterOpsH P U Y Ω}
    (hF : mkFilterH C N res name opts = .ok F) : Frames F := by
  unfold mkFilterH at hF
  rw [hk, ok_bind] at hF
  cases k
  case pf => cases hF; exact ⟨create_tri hC, fun n => pfForwardH_tri hC n res, fun tr anc o uv yv tv cur => measureH_meas hC tr anc uv yv tv cur, fun _ _ _ _ _ => Tri.throw⟩
  case apf => cases hF; exact ⟨create_tri hC, fun n => apfForwardH_tri hC n res, fun tr anc o uv yv tv cur => measureH_meas hC tr anc uv yv tv cur, fun _ _ _ _ _ => Tri.throw⟩
  case sir => cases hF; exact ⟨create_tri hC, fun n => sirForwardH_tri hC n res, fun tr anc o uv yv tv cur => measureH_meas hC tr anc uv yv tv cur, fun _ _ _ _ _ => Tri.throw⟩
  case pfy => cases hF; exact ⟨create_tri hC, fun n => ffpropyForwardH_tri hC n res N, fun _ _ o _ _ _ _ h _ => throw_meas _ h o, fun n => ffpropyMeasureH_tri hC n N⟩
  all_goals
    have hG := hG trivial
    obtain ⟨c, hc, hF⟩ := bind_eq_ok.mp hF
    cases hF
  case cpfyas => exact ⟨cpfCreate_tri hC hG c, fun n => cpfyasForwardH_tri hC hG n N c, fun _ _ o _ _ _ _ h _ => throw_meas _ h o, fun n => cpfyasMeasureH_tri hC hG n N c⟩
  case cpfas => exact ⟨cpfCreate_tri hC hG c, fun n => cpfasForwardH_tri hC n c, fun tr anc o uv yv tv cur => measureH_meas hC tr anc uv yv tv cur, fun _ _ _ _ _ => Tri.throw⟩
  case cpf => exact ⟨cpfCreate_tri hC hG c, fun n => cpfForwardH_tri hC n c, fun tr anc o uv yv tv cur => measureH_meas hC tr anc uv yv tv cur, fun _ _ _ _ _ => Tri.throw⟩
  case csiras => exact ⟨create_tri hC, fun n => csirasForwardH_tri hC hG n c, fun tr anc o uv yv tv cur => measureH_meas hC tr anc uv yv tv cur, fun _ _ _ _ _ => Tri.throw⟩


/-! ### `ParticleTrajectory` -/

/-- What one method call may do: `E` lists the objects it may have changed. -/
structure OpOK (E : Set ℕ) (h : Heap P) (tr : List HStep) (h' : Heap P) (tr' : List HStep) : Prop where
  keep : Keep h.next E h h'
  stored : Spec.Stored h' tr'
  pre : tr <+: tr'
  new : ∀ st ∈ tr', st ∈ tr ∨ h.next ≤ st.pa

theorem OpOK.of_keep {h h' : Heap P} {tr : List HStep} (hs : Spec.Stored h tr) (k : Keep h.next ∅ h h') : OpOK ∅ h tr h' tr :=
  ⟨k, hs.keep k, List.prefix_rfl, fun _ h => Or.inl h⟩

theorem OpOK.trans {h h1 h2 : Heap P} {tr tr1 tr2 : List HStep} (a : OpOK ∅ h tr h1 tr1) (b : OpOK ∅ h1 tr1 h2 tr2) : OpOK ∅ h tr h2 tr2 := by
  have hle := a.keep.next_le
  refine ⟨⟨hle.trans b.keep.next_le, fun x hx => (b.keep.part x (by omega)).trans (a.keep.part x hx),
    fun x hx => (b.keep.w x (by omega)).trans (a.keep.w x hx), fun x hx he => (b.keep.obj x (by omega) he).trans (a.keep.obj x hx he)⟩,
    b.stored, a.pre.trans b.pre, fun st hst => ?_⟩
  rcases b.new st hst with h | h
  · exact a.new st h
  · exact Or.inr (by omega)

/-- Append a step made by a filter. -/
theorem OpOK.append {n : ℕ} {h : Heap P} {tr : List HStep} (hs : Spec.Stored h tr) (hn : n = h.next) {x : HM P α} {f : α → ℕ}
    (ht : Tri n ∅ (fun _ => True) x (fun v h => NewObj n (f v) h)) :
    OpOK ∅ h tr (x h).2 tr ∧ ∀ v (anc : List ℕ), (x h).1 = .ok v → OpOK ∅ h tr (x h).2 (tr ++ [⟨f v, anc⟩]) := by
  subst hn
  obtain ⟨k, q⟩ := ht h le_rfl trivial
  refine ⟨OpOK.of_keep hs k, fun v anc hv => ⟨k, (hs.keep k).snoc (fun st hst => (hs.alloc st hst).1) (q v hv), List.prefix_append _ _, fun st hst => ?_⟩⟩
  rcases List.mem_append.mp hst with hst | hst
  · exact Or.inl hst
  · rw [List.mem_singleton.mp hst]; exact Or.inr (q v hv).1

theorem HPT.ensureInit_ok {F : FilterOpsH P U Y Ω} (hF : Frames F) (s : HPT U Y) (ω : Ω) {h : Heap P} (hs : Spec.Stored h s.traj) :
    OpOK ∅ h s.traj (s.ensureInit F ω h).2 (s.ensureInit F ω h).1.1.traj ∧ (s.traj ≠ [] → s.ensureInit F ω h = ((s, .ok ()), h)) := by
  unfold HPT.ensureInit
  split_ifs with h0
  · simp only
    have := OpOK.append hs rfl (hF.create h.next s.N ω) (f := id)
    set x : HM P ℕ := (do let p ← F.create s.N ω; newH p none) with hx
    refine ⟨?_, fun hne => absurd (List.length_eq_zero_iff.mp h0) hne⟩
    rcases hxh : x h with ⟨r, h1⟩
    rw [hxh] at this
    cases r with
    | error e => exact this.1
    | ok o => exact this.2 o _ rfl
  · exact ⟨OpOK.of_keep hs (Keep.refl _ _ _), fun _ => rfl⟩

theorem HPT.forward_ok {F : FilterOpsH P U Y Ω} (hF : Frames F) (s : HPT U Y) (u : Slot U) (y : Slot Y) (ω0 : Ω) (d : Draws Ω)
    {h : Heap P} (hs : Spec.Stored h s.traj) :
    OpOK ∅ h s.traj (s.forward F u y ω0 d h).2 (s.forward F u y ω0 d h).1.1.traj := by
  have hi := (s.ensureInit_ok hF ω0 hs).1
  unfold HPT.forward
  rcases hxi : s.ensureInit F ω0 h with ⟨⟨s1, r⟩, h1⟩
  rw [hxi] at hi
  cases r with
  | error e => exact hi
  | ok _ =>
    simp only at hi ⊢
    have hg : s1.growForward.traj = s1.traj := by unfold HPT.growForward; split_ifs <;> rfl
    generalize s1.growForward = s2 at hg
    rw [← hg] at hi
    cases setIdx s2.uvec (s2.ind1 - 1) u with
    | error e => exact hi
    | ok uv =>
      simp only
      cases setIdx s2.yvec s2.ind1 y with
      | error e => exact hi
      | ok yv =>
        simp only
        cases setIdx s2.tvec s2.ind1 s2.ind1 with
        | error e => exact hi
        | ok tv =>
          simp only
          have := OpOK.append hi.stored rfl (hF.forward h1.next s2.traj yv uv tv (s2.ind1 - 1) d) (f := fun v : ℕ × Bool × List ℕ => v.1)
          rcases hxh : F.forward s2.traj yv uv tv (s2.ind1 - 1) d h1 with ⟨r, h3⟩
          rw [hxh] at this
          cases r with
          | error e => exact hi.trans this.1
          | ok v =>
            obtain ⟨o, fl, anc⟩ := v
            exact hi.trans (this.2 _ anc rfl)

/-- The step whose approximation `measure` updates. -/
def lastOf (tr : List HStep) : Set ℕ := {a | ∃ l, tr.getLast? = some l ∧ l.pa = a}

theorem HPT.measure_ok {F : FilterOpsH P U Y Ω} (hF : Frames F) (s : HPT U Y) (y : Slot Y) (ω : Ω)
    {h : Heap P} (hs : Spec.Stored h s.traj) :
    OpOK (lastOf s.traj) h s.traj (s.measure F y ω h).2 (s.measure F y ω h).1.1.traj := by
  unfold HPT.measure
  have hg : s.growMeasure.traj = s.traj := by unfold HPT.growMeasure; split_ifs <;> rfl
  simp only
  generalize s.growMeasure = s1 at hg
  rw [← hg] at hs ⊢
  have weak : ∀ {h' tr'}, OpOK ∅ h s1.traj h' tr' → OpOK (lastOf s1.traj) h s1.traj h' tr' := fun a =>
    ⟨⟨a.keep.next_le, a.keep.part, a.keep.w, fun x hx _ => a.keep.obj x hx (by simp)⟩, a.stored, a.pre, a.new⟩
  have h0 : OpOK (lastOf s1.traj) h s1.traj h s1.traj := weak (OpOK.of_keep hs (Keep.refl _ _ _))
  split_ifs with hp
  · cases setIdx s1.yvec (s1.ind1 + 1 - 1) y with
    | error e => exact h0
    | ok yv =>
      simp only
      cases setIdx s1.tvec (s1.ind1 + 1 - 1) (s1.ind1 + 1 - 1) with
      | error e => exact h0
      | ok tv =>
        simp only
        have := OpOK.append hs rfl (hF.measureNew h.next yv tv (s1.ind1 + 1 - 1) ω) (f := id)
        rcases hxh : F.measureNew yv tv (s1.ind1 + 1 - 1) ω h with ⟨r, h3⟩
        rw [hxh] at this
        cases r with
        | error e => exact weak this.1
        | ok v => exact weak (this.2 v _ rfl)
  · obtain ⟨hi, hst⟩ := s1.ensureInit_ok hF ω hs
    rcases hxi : s1.ensureInit F ω h with ⟨⟨s2, r⟩, h1⟩
    rw [hxi] at hi hst
    cases r with
    | error e => exact weak hi
    | ok _ =>
      simp only at hi ⊢
      cases setIdx s2.yvec (s2.ind1 - 1) y with
      | error e => exact weak hi
      | ok yv =>
        simp only
        cases setIdx s2.tvec (s2.ind1 - 1) (s2.ind1 - 1) with
        | error e => exact weak hi
        | ok tv =>
          simp only
          cases hl : getLast s2.traj with
          | error e => exact weak hi
          | ok last =>
            simp only
            have hl' := getLast_ok.mp hl
            have hmem : last ∈ s2.traj := List.mem_of_getLast? hl'
            have hal := hi.stored.alloc last hmem
            have hm := hF.measure s2.traj last.ancestors last.pa s2.uvec yv tv (s2.ind1 - 1) h1 hal.1
            have key : ∀ r : PyM Unit × Heap P, MeasOK h1 last.pa r → OpOK (lastOf s1.traj) h s1.traj r.2 s2.traj := by
              rintro r ⟨k, p, n, w, er⟩
              have hkn := k.next_le
              have hin := hi.keep.next_le
              have hlast : last.pa < h.next → last.pa ∈ lastOf s1.traj := by
                intro hlt
                by_cases hne : s1.traj = []
                · rcases hi.new last hmem with hh | hh
                  · rw [hne] at hh; cases hh
                  · omega
                · have := hst hne
                  cases this
                  exact ⟨last, hl', rfl⟩
              refine ⟨⟨hin.trans hkn, fun a ha => (k.part a (by omega)).trans (hi.keep.part a ha),
                fun a ha => (k.w a (by omega)).trans (hi.keep.w a ha), fun a ha he => ?_⟩, ⟨fun st hst' => ?_, hi.stored.distinct⟩, hi.pre, hi.new⟩
              · have hne : a ≠ last.pa := by rintro rfl; exact he (hlast ha)
                exact (k.obj a (by omega) (by simpa using hne)).trans (hi.keep.obj a ha (by simp))
              · by_cases hpa : st.pa = last.pa
                · unfold Spec.Alloc
                  rw [hpa, p]
                  obtain ⟨a1, a2, a3⟩ := hal
                  refine ⟨by omega, by omega, ?_⟩
                  rcases w with w | w
                  · rw [w]; omega
                  · omega
                · exact ((hi.stored.alloc st hst').keep k (by simpa using hpa)).1
            rcases hxh : F.measure s2.traj last.ancestors last.pa s2.uvec yv tv (s2.ind1 - 1) h1 with ⟨r, h3⟩
            rw [hxh] at hm
            cases r with
            | error e => exact key _ hm
            | ok v => exact key _ hm


/-! ### The theorems -/

/-- A filter object built by the constructor for a model that follows the interface; the conditional filters
write into arrays the model returns, so for them these must be new. -/
structure Spec.Built (C : HCallbacks P U Y V Ω) (N : ℕ) (res : ℝ) (name : String) (opts : FilterOptionsH)
    (F : FilterOpsH P U Y Ω) : Prop where
  honest : Honest C
  built : mkFilterH C N res name opts = .ok F
  gives : ∀ k, parseFilter name = .ok k → isConditional k → GivesAway C

theorem Spec.Built.frames {C : HCallbacks P U Y V Ω} {N : ℕ} {res : ℝ} {name : String} {opts : FilterOptionsH}
    {F : FilterOpsH P U Y Ω} (hB : Spec.Built C N res name opts F) : Frames F := by
  obtain ⟨k, hk, -⟩ := bind_eq_ok.mp hB.built
  exact mkFilterH_frames hB.honest hk (hB.gives k hk) hB.built

/-- C14 (forward): whatever happens in `forward` — including an exception raised anywhere in the filter or in the
model — every approximation in memory (every stored step, the conditional trajectory, …) reads the same
afterwards. -/
theorem C14_forward_preserves_history {C : HCallbacks P U Y V Ω} {N : ℕ} {res : ℝ} {name : String} {opts : FilterOptionsH}
    {F : FilterOpsH P U Y Ω} (hB : Spec.Built C N res name opts F) {h : Heap P} {s : HPT U Y} (hs : Spec.Stored h s.traj)
    (u : Slot U) (y : Slot Y) (ω0 : Ω) (d : Draws Ω) {st : HStep} (hst : Spec.Alloc h st) :
    Spec.viewStep (s.forward F u y ω0 d h).2 st = Spec.viewStep h st :=
  (hst.keep (s.forward_ok hB.frames u y ω0 d hs).keep (by simp)).2

/-- C14 (forward): the steps stored before stay stored, at the same positions; new steps are new objects. -/
theorem C14_forward_appends {C : HCallbacks P U Y V Ω} {N : ℕ} {res : ℝ} {name : String} {opts : FilterOptionsH}
    {F : FilterOpsH P U Y Ω} (hB : Spec.Built C N res name opts F) {h : Heap P} {s : HPT U Y} (hs : Spec.Stored h s.traj)
    (u : Slot U) (y : Slot Y) (ω0 : Ω) (d : Draws Ω) :
    Spec.Stored (s.forward F u y ω0 d h).2 (s.forward F u y ω0 d h).1.1.traj ∧
    s.traj <+: (s.forward F u y ω0 d h).1.1.traj ∧
    ∀ st ∈ (s.forward F u y ω0 d h).1.1.traj, st ∈ s.traj ∨ h.next ≤ st.pa :=
  ⟨(s.forward_ok hB.frames u y ω0 d hs).stored, (s.forward_ok hB.frames u y ω0 d hs).pre, (s.forward_ok hB.frames u y ω0 d hs).new⟩

/-- C14 (measure): whatever happens, `measure` changes no approximation in memory except the one of the newest
step. -/
theorem C14_measure_changes_only_last {C : HCallbacks P U Y V Ω} {N : ℕ} {res : ℝ} {name : String} {opts : FilterOptionsH}
    {F : FilterOpsH P U Y Ω} (hB : Spec.Built C N res name opts F) {h : Heap P} {s : HPT U Y} (hs : Spec.Stored h s.traj)
    (y : Slot Y) (ω : Ω) {st : HStep} (hst : Spec.Alloc h st) (hl : Spec.NotLast s.traj st) :
    Spec.viewStep (s.measure F y ω h).2 st = Spec.viewStep h st :=
  (hst.keep (s.measure_ok hB.frames y ω hs).keep (by rintro ⟨l, h1, h2⟩; exact hl l h1 h2)).2

/-- C14 (measure): the steps stored before stay stored, at the same positions; new steps are new objects. -/
theorem C14_measure_stored {C : HCallbacks P U Y V Ω} {N : ℕ} {res : ℝ} {name : String} {opts : FilterOptionsH}
    {F : FilterOpsH P U Y Ω} (hB : Spec.Built C N res name opts F) {h : Heap P} {s : HPT U Y} (hs : Spec.Stored h s.traj)
    (y : Slot Y) (ω : Ω) :
    Spec.Stored (s.measure F y ω h).2 (s.measure F y ω h).1.1.traj ∧
    s.traj <+: (s.measure F y ω h).1.1.traj ∧
    ∀ st ∈ (s.measure F y ω h).1.1.traj, st ∈ s.traj ∨ h.next ≤ st.pa :=
  ⟨(s.measure_ok hB.frames y ω hs).stored, (s.measure_ok hB.frames y ω hs).pre, (s.measure_ok hB.frames y ω hs).new⟩

/-- C14 (measure that raises): the newest step keeps its particles, weights and ancestors; only its `w_offset`
may have changed. -/
theorem C14_measure_error {C : HCallbacks P U Y V Ω} {N : ℕ} {res : ℝ} {name : String} {opts : FilterOptionsH}
    {F : FilterOpsH P U Y Ω} (hB : Spec.Built C N res name opts F) {h : Heap P} {s : HPT U Y} (hs : Spec.Stored h s.traj)
    (y : Slot Y) (ω : Ω) {e : PyErr} (he : (s.measure F y ω h).1.2 = .error e) {st : HStep} (hst : st ∈ s.traj) :
    ∃ x : ℝ, Spec.viewStep (s.measure F y ω h).2 st =
      { Spec.viewStep h st with pa := { (Spec.viewStep h st).pa with w_offset := x } } := by
  have hal := hs.alloc st hst
  have same : ∀ {h' : Heap P}, Keep h.next ∅ h h' → ∃ x : ℝ, Spec.viewStep h' st =
      { Spec.viewStep h st with pa := { (Spec.viewStep h st).pa with w_offset := x } } := fun k => ⟨_, (hal.keep k (by simp)).2⟩
  have hF := hB.frames
  revert he
  unfold HPT.measure
  have hg : s.growMeasure.traj = s.traj := by unfold HPT.growMeasure; split_ifs <;> rfl
  simp only
  generalize s.growMeasure = s1 at hg
  rw [← hg] at hs hst
  split_ifs with hp
  · cases setIdx s1.yvec (s1.ind1 + 1 - 1) y with
    | error e => exact fun _ => same (Keep.refl _ _ _)
    | ok yv =>
      simp only
      cases setIdx s1.tvec (s1.ind1 + 1 - 1) (s1.ind1 + 1 - 1) with
      | error e => exact fun _ => same (Keep.refl _ _ _)
      | ok tv =>
        simp only
        have := OpOK.append hs rfl (hF.measureNew h.next yv tv (s1.ind1 + 1 - 1) ω) (f := id)
        rcases hxh : F.measureNew yv tv (s1.ind1 + 1 - 1) ω h with ⟨r, h3⟩
        rw [hxh] at this
        cases r with
        | error e => exact fun _ => same this.1.keep
        | ok v => intro he; cases he
  · have hne : s1.traj ≠ [] := by rintro hn; rw [hn] at hst; cases hst
    rw [(s1.ensureInit_ok hF ω hs).2 hne]
    simp only
    cases setIdx s1.yvec (s1.ind1 - 1) y with
    | error e => exact fun _ => same (Keep.refl _ _ _)
    | ok yv =>
      simp only
      cases setIdx s1.tvec (s1.ind1 - 1) (s1.ind1 - 1) with
      | error e => exact fun _ => same (Keep.refl _ _ _)
      | ok tv =>
        simp only
        cases hl : getLast s1.traj with
        | error e => exact fun _ => same (Keep.refl _ _ _)
        | ok last =>
          simp only
          have hmem : last ∈ s1.traj := List.mem_of_getLast? (getLast_ok.mp hl)
          have hm := hF.measure s1.traj last.ancestors last.pa s1.uvec yv tv (s1.ind1 - 1) h (hs.alloc last hmem).1
          rcases hxh : F.measure s1.traj last.ancestors last.pa s1.uvec yv tv (s1.ind1 - 1) h with ⟨r, h3⟩
          rw [hxh] at hm
          cases r with
          | ok v => intro he; cases he
          | error e =>
            intro _
            simp only
            obtain ⟨k, p, n, w, er⟩ := hm
            by_cases hpa : st.pa = last.pa
            · refine ⟨(h3.obj st.pa).off, ?_⟩
              unfold Spec.viewStep
              have er := er e rfl
              simp only at p n er k
              rw [hpa, p, n, er, k.part _ (hs.alloc last hmem).2.1, k.w _ (hs.alloc last hmem).2.2]
            · exact ⟨_, (hal.keep k (by simpa using hpa)).2⟩

/-- C14 (whole histories): run any sequence of `forward` and `measure` calls, with every exception caught by the caller.
Every approximation in memory that is not the newest step of the trajectory (all earlier steps, the conditional
trajectory, other trajectories) reads the same afterwards, and the stored steps are still at their positions. If the
sequence contains only `forward` calls, this is true of the newest step too. -/
theorem C14_history_immutable {C : HCallbacks P U Y V Ω} {N : ℕ} {res : ℝ} {name : String} {opts : FilterOptionsH}
    {F : FilterOpsH P U Y Ω} (hB : Spec.Built C N res name opts F) {h : Heap P} {s : HPT U Y} (hs : Spec.Stored h s.traj)
    (ops : List (Op U Y Ω)) :
    Spec.Stored (s.runCatch F ops h).2 (s.runCatch F ops h).1.traj ∧ s.traj <+: (s.runCatch F ops h).1.traj ∧
    ∀ st, Spec.Alloc h st → (Spec.NotLast s.traj st ∨ ∀ op ∈ ops, ∃ u y ω0 d, op = .forward u y ω0 d) →
      Spec.viewStep (s.runCatch F ops h).2 st = Spec.viewStep h st := by
  induction ops generalizing h s with
  | nil => exact ⟨hs, List.prefix_rfl, fun _ _ _ => rfl⟩
  | cons op ops ih =>
    have hr : s.runCatch F (op :: ops) h = (s.step F op h).1.1.runCatch F ops (s.step F op h).2 := rfl
    rw [hr]
    have hstep : Spec.Stored (s.step F op h).2 (s.step F op h).1.1.traj ∧ s.traj <+: (s.step F op h).1.1.traj ∧
        (∀ st ∈ (s.step F op h).1.1.traj, st ∈ s.traj ∨ h.next ≤ st.pa) ∧
        ∀ st, Spec.Alloc h st → (Spec.NotLast s.traj st ∨ ∃ u y ω0 d, op = .forward u y ω0 d) →
          Spec.Alloc (s.step F op h).2 st ∧ Spec.viewStep (s.step F op h).2 st = Spec.viewStep h st := by
      cases op with
      | forward u y ω0 d =>
        have hk := s.forward_ok hB.frames u y ω0 d hs
        simp only [HPT.step]
        rcases hx : s.forward F u y ω0 d h with ⟨⟨s1, r⟩, h1⟩
        rw [hx] at hk
        cases r <;> exact ⟨hk.stored, hk.pre, hk.new, fun st hst _ => hst.keep hk.keep (by simp)⟩
      | measure y ω =>
        have hk := s.measure_ok hB.frames y ω hs
        simp only [HPT.step]
        rcases hx : s.measure F y ω h with ⟨⟨s1, r⟩, h1⟩
        rw [hx] at hk
        cases r <;> refine ⟨hk.stored, hk.pre, hk.new, fun st hst hl => hst.keep hk.keep ?_⟩
        all_goals
          rintro ⟨l, h1, h2⟩
          rcases hl with hl | ⟨_, _, _, _, hl⟩
          · exact hl l h1 h2
          · cases hl
    obtain ⟨q1, q2, q3, q4⟩ := hstep
    obtain ⟨i1, i2, i3⟩ := ih q1
    refine ⟨i1, q2.trans i2, fun st hst hc => ?_⟩
    obtain ⟨a1, a2⟩ := q4 st hst (hc.imp id fun hh => hh op (by simp))
    refine (i3 st a1 ?_).trans a2
    rcases hc with hc | hc
    · left
      intro l hl hpa
      rcases q3 l (List.mem_of_getLast? hl) with hm | hm
      · obtain ⟨ext, hext⟩ := q2
        have hnd := q1.distinct
        rw [← hext] at hl hnd
        rcases List.eq_nil_or_concat ext with rfl | ⟨es, x, rfl⟩
        · rw [List.append_nil] at hl; exact hc l hl hpa
        · rw [List.concat_eq_append, ← List.append_assoc, List.getLast?_concat] at hl
          cases hl
          rw [List.map_append, List.nodup_append] at hnd
          exact hnd.2.2 _ (List.mem_map_of_mem hm) _ (List.mem_map_of_mem (by simp)) rfl
      · have := hst.1; omega
    · exact Or.inr fun op' hop => hc op' (List.mem_cons_of_mem _ hop)

end PyPE

import Verif.Heap.Refine

/-!
# The heap model refines the value model (C94): the filters
-/

namespace PyPE
open Real

variable {P U Y V Ω α β : Type}

theorem Keep.ext {h h' : Heap P} (k : Keep h.next ∅ h h') : Ext h h' :=
  ⟨k.next_le, fun a ha => ⟨k.obj a ha (by simp), k.w a ha, k.part a ha⟩⟩

theorem Ext.keep {h h' : Heap P} {n : ℕ} {E : Set ℕ} (e : Ext h h') (hn : n ≤ h.next) : Keep n E h h' :=
  ⟨e.1, fun a ha => (e.2 a (by omega)).2.2, fun a ha => (e.2 a (by omega)).2.1, fun a ha _ => (e.2 a (by omega)).1⟩

theorem Ext.trans {h h1 h2 : Heap P} (a : Ext h h1) (b : Ext h1 h2) : Ext h h2 :=
  ⟨a.1.trans b.1, fun x hx => by
    have := a.1
    have b' := b.2 x (by omega)
    rw [b'.1, b'.2.1, b'.2.2]; exact a.2 x hx⟩

/-- The steps exist in memory. -/
def AllocAll (h : Heap P) (tr : List HStep) : Prop := ∀ st ∈ tr, Spec.Alloc h st

theorem AllocAll.keep {h0 h : Heap P} {tr : List HStep} (ha : AllocAll h0 tr) (k : Keep h0.next ∅ h0 h) :
    AllocAll h tr ∧ tr.map (Spec.viewStep h) = tr.map (Spec.viewStep h0) :=
  ⟨fun st hst => ((ha st hst).keep k (by simp)).1, List.map_congr_left fun st hst => ((ha st hst).keep k (by simp)).2⟩

/-- Reading a stored step later gives what it gave before. -/
theorem Spec.Alloc.reads {h0 h : Heap P} {st : HStep} (ha : Spec.Alloc h0 st) (k : Keep h0.next ∅ h0 h) :
    h.obj st.pa = h0.obj st.pa ∧ h.part (h0.obj st.pa).part = h0.part (h0.obj st.pa).part ∧
    h.w (h0.obj st.pa).w = h0.w (h0.obj st.pa).w :=
  ⟨k.obj _ ha.1 (by simp), k.part _ ha.2.1, k.w _ ha.2.2⟩

theorem Ext.viewPA {h h' : Heap P} {n o : ℕ} (e : Ext h h') (f : FreshObj n o h) : FreshObj n o h' ∧ viewPA h' o = viewPA h o := by
  refine ⟨stable_fresh n o _ _ e f, ?_⟩
  obtain ⟨f1, f2, f3, f4, f5, f6⟩ := f
  unfold PyPE.viewPA
  rw [(e.2 o f2).1, (e.2 _ f4).2.2, (e.2 _ f6).2.1]

theorem Ref.getLast {h : Heap P} (tr : List HStep) (g : Heap P) :
    Ref h (HM.lift (PyPE.getLast tr)) (PyPE.getLast (tr.map (Spec.viewStep g))) (fun a b h' => a ∈ tr ∧ b = Spec.viewStep g a ∧ h' = h) := by
  unfold PyPE.getLast
  rw [List.getLast?_map]
  cases hl : tr.getLast? with
  | none => exact ⟨h, rfl⟩
  | some st => exact ⟨st, h, rfl, List.mem_of_getLast? hl, rfl, rfl⟩

theorem Ref.getIdx {h : Heap P} (tr : List HStep) (g : Heap P) (k : ℕ) :
    Ref h (HM.lift (PyPE.getIdx tr k)) (PyPE.getIdx (tr.map (Spec.viewStep g)) k) (fun a b h' => a ∈ tr ∧ b = Spec.viewStep g a ∧ h' = h) := by
  unfold PyPE.getIdx
  rw [List.getElem?_map]
  cases hl : tr[k]? with
  | none => exact ⟨h, rfl⟩
  | some st => exact ⟨st, h, rfl, List.mem_of_getElem? hl, rfl, rfl⟩

/-- A lifted computation in both. -/
theorem Ref.both {α' β' : Type} {h : Heap P} {x : PyM α} {f : α → HM P α'} {g : α → PyM β'} {S : α' → β' → Heap P → Prop}
    (hf : ∀ a, x = .ok a → Ref h (f a) (g a) S) : Ref h (HM.lift x >>= f) (x >>= g) S := by
  refine Ref.bind (Ref.lift _) ?_
  rintro a _ h' - ⟨rfl, hx, rfl⟩
  exact hf a hx

theorem Ref.ofPure {h : Heap P} {x : HM P α} {v : PyM β} {S : α → β → Heap P → Prop} (hx : Ref h x (v >>= Pure.pure) S) : Ref h x v S := by
  rw [bind_pure] at hx; exact hx

theorem Ref.bothLast {α' β' : Type} {h : Heap P} (g : Heap P) {tr : List HStep} {f : HStep → HM P α'} {k : Step P → PyM β'} {S : α' → β' → Heap P → Prop}
    (hf : ∀ st ∈ tr, Ref h (f st) (k (Spec.viewStep g st)) S) :
    Ref h (HM.lift (PyPE.getLast tr) >>= f) (PyPE.getLast (tr.map (Spec.viewStep g)) >>= k) S := by
  refine Ref.bind (Ref.getLast tr g) ?_
  rintro a b h' - ⟨h1, rfl, rfl⟩
  exact hf a h1

theorem Ref.bothIdx {α' β' : Type} {h : Heap P} (g : Heap P) {tr : List HStep} {i : ℕ} {f : HStep → HM P α'} {k : Step P → PyM β'} {S : α' → β' → Heap P → Prop}
    (hf : ∀ st ∈ tr, Ref h (f st) (k (Spec.viewStep g st)) S) :
    Ref h (HM.lift (PyPE.getIdx tr i) >>= f) (PyPE.getIdx (tr.map (Spec.viewStep g)) i >>= k) S := by
  refine Ref.bind (Ref.getIdx tr g i) ?_
  rintro a b h' - ⟨h1, rfl, rfl⟩
  exact hf a h1

theorem newH_refN (h : Heap P) (p : ℕ) : Ref h (newH p none) (PA.new (h.part p) none) (fun o pa h' => viewPA h' o = pa) := by
  unfold newH PA.new
  simp only
  refine Ref.read (x := HM.readPart p) rfl ?_
  refine Ref.allocPart ?_
  split_ifs with h0
  · exact ⟨_, rfl⟩
  · refine Ref.allocW ?_
    refine ⟨_, _, rfl, ?_⟩
    simp only [viewPA, Function.update_self]

/-- A new object, with everything known about it. -/
theorem newH_own (h : Heap P) (p w : ℕ) {n : ℕ} (hn : n ≤ h.next) : Ref h (newH p (some w)) (PA.new (h.part p) (some (h.w w)))
    (fun o pa h' => viewPA h' o = pa ∧ FreshObj n o h' ∧ Ext h h') :=
  ((newH_ref h p w).tri (newH_tri (n := h.next) (A := fun _ => True) p (some w)) le_rfl trivial).conseq fun _ _ _ _ _ hR =>
    ⟨hR.1, ⟨hn.trans hR.2.1.1, hR.2.1.2.1, hn.trans hR.2.1.2.2.1, hR.2.1.2.2.2.1, hn.trans hR.2.1.2.2.2.2.1, hR.2.1.2.2.2.2.2⟩, hR.2.2.ext⟩

theorem newH_ownN (h : Heap P) (p : ℕ) {n : ℕ} (hn : n ≤ h.next) : Ref h (newH p none) (PA.new (h.part p) none)
    (fun o pa h' => viewPA h' o = pa ∧ FreshObj n o h' ∧ Ext h h') :=
  ((newH_refN h p).tri (newH_tri (n := h.next) (A := fun _ => True) p none) le_rfl trivial).conseq fun _ _ _ _ _ hR =>
    ⟨hR.1, ⟨hn.trans hR.2.1.1, hR.2.1.2.1, hn.trans hR.2.1.2.2.1, hR.2.1.2.2.2.1, hn.trans hR.2.1.2.2.2.2.1, hR.2.1.2.2.2.2.2⟩, hR.2.2.ext⟩

variable {C : HCallbacks P U Y V Ω} {M : Callbacks P U Y V Ω}

theorem resampleH_ref (hI : Spec.Implements C M) (h : Heap P) (o N : ℕ) (r : ℝ) :
    Ref h (resampleH C o N r) ((viewPA h o).resample N r) (fun anc b h' => anc = b.2 ∧ viewPA h' o = b.1) := by
  unfold resampleH PA.resample
  refine Ref.read rfl ?_
  refine Ref.read rfl ?_
  refine Ref.both fun m _ => Ref.both fun ind _ => ?_
  refine Ref.bind (hI.copyInd _ _ _) ?_
  rintro a l h2 - rfl
  refine Ref.allocW ?_
  refine Ref.writeObj ?_
  refine Ref.pure ⟨rfl, ?_⟩
  simp only [viewPA, Function.update_self]

theorem maybeResampleH_ref (hI : Spec.Implements C M) (h : Heap P) (res : ℝ) (o : ℕ) (r : ℝ) :
    Ref h (maybeResampleH C res o r) (maybeResample res (viewPA h o) r)
      (fun a b h' => a = (b.2.1, b.2.2) ∧ viewPA h' o = b.1) := by
  unfold maybeResampleH maybeResample
  refine Ref.read rfl ?_
  split_ifs with h1
  · refine Ref.read rfl ?_
    refine Ref.both fun m _ => ?_
    split_ifs with h2 h3 h4
    · refine Ref.bind (resampleH_ref hI _ _ _ _) ?_
      rintro anc ⟨pa', anc'⟩ h2 - ⟨rfl, hv⟩
      exact Ref.pure ⟨rfl, hv⟩
    · exact absurd h2 h3
    · exact absurd h4 h2
    · exact Ref.pure ⟨rfl, rfl⟩
  · exact Ref.pure ⟨rfl, rfl⟩

theorem updateH_ref (hI : Spec.Implements C M) {h : Heap P} {n o : ℕ} (hf : FreshObj n o h) {tr : List HStep} (ha : AllocAll h tr)
    (anc : List ℕ) (uv : List (Slot U)) (yv : List (Slot Y)) (tv : List ℕ) (cur : ℕ) (ω : Ω) :
    Ref h (updateH C tr anc uv yv tv cur o ω) (pfUpdate M (tr.map (Spec.viewStep h)) anc uv yv tv cur (viewPA h o) ω)
      (fun _ pa h' => viewPA h' o = pa) := by
  unfold updateH pfUpdate
  refine Ref.bind ((hI.noise _ _ _ _ _ _).ext (hI.honest.noise _ _ _ _ _)) ?_
  rintro v _ h1 - ⟨rfl, he⟩
  obtain ⟨hf1, hv1⟩ := he.viewPA hf
  obtain ⟨ha1, hs1⟩ := ha.keep (he.keep le_rfl)
  rw [← hv1, ← hs1]
  refine Ref.read rfl ?_
  have hu := hI.update h1 (h1.obj o).part tr (uv.take (cur + 1)) (yv.take (cur + 1)) (tv.take (cur + 1)) anc v
  have hq := hI.honest.update (h1.obj o).part tr (uv.take (cur + 1)) (yv.take (cur + 1)) (tv.take (cur + 1)) anc v h1
  show Ref h1 _ (M.update (h1.part (h1.obj o).part) _ _ _ _ _ _ >>= _) _
  cases hv : M.update (h1.part (h1.obj o).part) (tr.map (Spec.viewStep h1)) (uv.take (cur+1)) (yv.take (cur+1)) (tv.take (cur+1)) anc v with
  | error e => rw [hv] at hu; exact hu
  | ok l =>
    rw [hv] at hu
    obtain ⟨a, h2, hx, hp⟩ := hu
    refine ⟨a, h2, hx, ?_⟩
    rw [hx] at hq
    obtain ⟨f1, f2, f3, f4, f5, f6⟩ := hf1
    simp only at hq
    unfold viewPA
    rw [(hq.2 o f2).1, hp, (hq.2 _ f6).2.1]

theorem measureH_ref (hI : Spec.Implements C M) {h : Heap P} {o : ℕ} (ho : o < h.next) (ho' : (h.obj o).w < h.next) (hop : (h.obj o).part < h.next)
    {tr : List HStep} (anc : List ℕ) (uv : List (Slot U)) (yv : List (Slot Y)) (tv : List ℕ) (cur : ℕ) :
    Ref h (measureH C tr anc o uv yv tv cur) (pfMeasure M (tr.map (Spec.viewStep h)) anc (viewPA h o) uv yv tv cur)
      (fun _ pa h' => viewPA h' o = pa) := by
  unfold measureH pfMeasure
  refine Ref.read rfl ?_
  refine Ref.bind ((hI.measure _ _ _ _ _ _ _).extN (hI.honest.measure _ _ _ _ _ _).1 (hI.honest.measure _ _ _ _ _ _).2) ?_
  rintro nw l h1 - ⟨rfl, ⟨h2, h3⟩, e1, e2⟩
  have hv : viewPA h1 o = viewPA h o := by
    unfold viewPA
    rw [(e2 o ho).1, (e2 _ hop).2.2, (e2 _ ho').2.1]
  rw [← hv]
  exact weightUpdateH_ref h1 o nw (by rw [(e2 o ho).1]; omega) h3

theorem pfForwardH_ref (hI : Spec.Implements C M) {h : Heap P} {tr : List HStep} (ha : AllocAll h tr) (res : ℝ)
    (yv : List (Slot Y)) (uv : List (Slot U)) (tv : List ℕ) (cur : ℕ) (d : Draws Ω) :
    Ref h (pfForwardH C res tr yv uv tv cur d) (pfForward M res (tr.map (Spec.viewStep h)) yv uv tv cur d)
      (fun a b h' => a.2 = b.2 ∧ viewPA h' a.1 = b.1) := by
  unfold pfForwardH pfForward
  refine Ref.bothLast h fun last hmem => ?_
  refine Ref.read rfl ?_
  refine Ref.bind (newH_own _ _ _ le_rfl) ?_
  rintro o _ h1 - ⟨rfl, f1, e1⟩
  have k1 := e1.keep (E := ∅) (le_refl h.next)
  refine Ref.bind ((maybeResampleH_ref hI _ _ _ _).tri (maybeResampleH_tri hI.honest _ _) k1.next_le f1) ?_
  rintro _ ⟨pa2, flag, anc⟩ h2 - ⟨⟨rfl, rfl⟩, f2, k2⟩
  have k2 := k1.trans k2
  dsimp only
  rw [← (ha.keep k2).2]
  refine Ref.bind ((updateH_ref hI f2 (ha.keep k2).1 anc uv yv tv cur d.ω).tri (updateH_tri hI.honest tr anc uv yv tv cur d.ω) k2.next_le f2) ?_
  rintro _ _ h3 - ⟨rfl, f3, k3⟩
  have k3 := k2.trans k3
  rw [(ha.keep k2).2, ← (ha.keep k3).2]
  refine Ref.bind (measureH_ref hI f3.2.1 f3.2.2.2.2.2 f3.2.2.2.1 anc uv yv tv (cur + 1)) ?_
  rintro _ _ h4 - rfl
  exact Ref.pure ⟨rfl, rfl⟩


theorem sirForwardH_ref (hI : Spec.Implements C M) {h : Heap P} {tr : List HStep} (res : ℝ)
    (yv : List (Slot Y)) (uv : List (Slot U)) (tv : List ℕ) (cur : ℕ) (d : Draws Ω) :
    Ref h (sirForwardH C res tr yv uv tv cur d) (sirForward M res (tr.map (Spec.viewStep h)) yv uv tv cur d)
      (fun a b h' => a.2 = b.2 ∧ viewPA h' a.1 = b.1) := by
  unfold sirForwardH sirForward
  refine Ref.bothLast h fun last hmem => ?_
  refine Ref.read rfl ?_
  refine Ref.bind (newH_own _ _ _ le_rfl) ?_
  rintro o _ h1 - ⟨rfl, f1, e1⟩
  refine Ref.bind ((maybeResampleH_ref hI _ _ _ _).tri (maybeResampleH_tri hI.honest _ _) e1.1 f1) ?_
  rintro _ ⟨pa2, flag, anc⟩ h2 - ⟨⟨rfl, rfl⟩, f2, -⟩
  dsimp only
  refine Ref.read rfl ?_
  refine Ref.both fun u _ => Ref.both fun y _ => Ref.both fun t _ => ?_
  refine Ref.bind ((hI.qsample _ _ _ _ _ _).extA (hI.honest.qsample _ _ _ _ _).1 (hI.honest.qsample _ _ _ _ _).2) ?_
  rintro pn _ h3 - ⟨rfl, a3, e3⟩
  obtain ⟨f3, v3⟩ := e3.viewPA f2
  rw [← v3, ← (e3.2 o f2.2.1).1]
  refine Ref.bind ((hI.logpQ _ _ _ _ _ _).extA (hI.honest.logpQ _ _ _ _ _) (hI.qAlloc _ _ _ _ _)) ?_
  rintro qw _ h4 - ⟨rfl, a4, e4⟩
  obtain ⟨f4, v4⟩ := e4.viewPA f3
  rw [← v4, ← (e4.2 o f3.2.1).1, ← (e4.2 _ a3).2.2]
  refine Ref.bind ((hI.logpXnext _ _ _ _ _).extA (hI.honest.logpXnext _ _ _ _) (hI.nextAlloc _ _ _ _)) ?_
  rintro nw _ h5 - ⟨rfl, a5, e5⟩
  obtain ⟨f5, v5⟩ := e5.viewPA f4
  have a3' : pn < h4.next := lt_of_lt_of_le a3 e4.1
  rw [← v5, ← (e5.2 _ a3').2.2, ← (e5.2 _ a4).2.1]
  refine Ref.both fun t1 _ => ?_
  refine Ref.bind ((hI.sirMeasure _ _ _ _).extA (hI.honest.sirMeasure _ _ _) (hI.sirAlloc _ _ _)) ?_
  rintro yw _ h6 - ⟨rfl, a6, e6⟩
  obtain ⟨f6, v6⟩ := e6.viewPA f5
  have a3'' : pn < h5.next := lt_of_lt_of_le a3' e5.1
  rw [← v6, ← (e6.2 _ a3'').2.2, ← (e6.2 _ (lt_of_lt_of_le a4 e5.1)).2.1, ← (e6.2 _ a5).2.1]
  refine Ref.read rfl ?_
  refine Ref.read rfl ?_
  refine Ref.read rfl ?_
  refine Ref.both fun s _ => Ref.both fun s2 _ => ?_
  refine Ref.allocW ?_
  set g : Heap P := { h6 with next := h6.next + 1, w := Function.update h6.w h6.next s2 } with hg
  have e7 : Ext h6 g := ⟨Nat.le_succ _, fun a ha => ⟨rfl, Function.update_of_ne (by omega) _ _, rfl⟩⟩
  obtain ⟨f7, v7⟩ := e7.viewPA f6
  have hw : g.w h6.next = s2 := by simp [hg]
  have hl : h6.next < g.next := Nat.lt_succ_self _
  have hne : (g.obj o).w ≠ h6.next := by
    have : (g.obj o).w = (h6.obj o).w := rfl
    rw [this]; exact (ne_of_lt f6.2.2.2.2.2)
  have hp : g.part pn = h6.part pn := rfl
  have a7 : pn < g.next := by have := e6.1; have := e7.1; omega
  rw [← v7, ← hp]
  have hr := weightUpdateH_ref g o h6.next hne hl
  rw [hw] at hr
  refine Ref.bind (hr.tri (weightUpdateH_triE (P := P) (n := h6.next) (o := o) le_rfl) e7.1 trivial) ?_
  rintro _ _ h8 - ⟨rfl, -, k8⟩
  refine Ref.read (x := HM.readObj o) rfl ?_
  refine Ref.writeObj ?_
  refine Ref.pure ⟨rfl, ?_⟩
  have : h8.part pn = g.part pn := k8.part _ (lt_of_lt_of_le a3'' e6.1)
  simp only [viewPA, Function.update_self, this]


/-! ### The auxiliary particle filter -/

noncomputable def apfFirstV (M : Callbacks P U Y V Ω) (uvec : List (Slot U)) (tvec : List ℕ) (cur : ℕ) (pa : PA P) :
    Slot Y → PyM (PA P × Option (List ℝ))
  | .none => pure (pa, none)
  | y => do
    let u ← getIdx uvec cur
    let t ← getIdx tvec cur
    let l1w ← M.evalFirstStage pa.part u y t
    let w ← npAdd pa.w l1w
    let m ← npMax w
    pure ({ pa with w := w.map (· - m) }, some l1w)

noncomputable def apfResampleV (res r : ℝ) (pa : PA P) (l1w : Option (List ℝ)) : PyM (PA P × Bool × List ℕ × Option (List ℝ)) :=
  if res ≠ 0 then do
    let neff ← calcNeff pa.w
    if neff < res * pa.num then do
      let (pa', anc) ← pa.resample pa.num r
      match l1w with
      | none => .error .unboundLocalError
      | some l => do
        let l' ← fancy l anc
        pure (pa', true, anc, some l')
    else pure (pa, false, List.range pa.num, l1w)
  else (pure (pa, false, List.range pa.num, l1w) : PyM (PA P × Bool × List ℕ × Option (List ℝ)))

noncomputable def apfSecondV (pa : PA P) : Option (List ℝ) → PyM (PA P)
  | none => .error .unboundLocalError
  | some l => do
    let w ← npSub pa.w l
    let m ← npMax w
    return { pa with w := w.map (· - m) }

theorem apfForward_eq (M : Callbacks P U Y V Ω) (res : ℝ) (traj : List (Step P))
    (yvec : List (Slot Y)) (uvec : List (Slot U)) (tvec : List ℕ) (cur : ℕ) (d : Draws Ω) :
    apfForward M res traj yvec uvec tvec cur d = (do
      let last ← getLast traj
      let pa ← PA.new last.pa.part (some last.pa.w)
      let y ← getIdx yvec (cur + 1)
      let q ← apfFirstV M uvec tvec cur pa y
      let v ← apfResampleV res d.r q.1 q.2
      let pa ← pfUpdate M traj v.2.2.1 uvec yvec tvec cur v.1 d.ω
      let pa ← pfMeasure M traj v.2.2.1 pa uvec yvec tvec (cur + 1)
      let pa ← apfSecondV pa v.2.2.2
      return (pa, v.2.1, v.2.2.1)) := by
  unfold apfForward
  refine bind_congr fun last => bind_congr fun pa => bind_congr fun y => bind_congr fun q => bind_congr fun v => ?_
  refine bind_congr fun pa => bind_congr fun pa => ?_
  obtain ⟨pa', fl, anc, l⟩ := v
  cases l with
  | none => rfl
  | some l =>
    simp only [apfSecondV]
    cases npSub pa.w l with
    | error e => rfl
    | ok w => simp only [ok_bind]; cases npMax w <;> rfl

/-- The stored first-stage weights. -/
def L1 (h : Heap P) : Option ℕ → Option (List ℝ) → Prop
  | none, none => True
  | some a, some l => a < h.next ∧ h.w a = l
  | _, _ => False

theorem L1.keep {h h' : Heap P} {a : Option ℕ} {l : Option (List ℝ)} (hl : L1 h a l) (hn : h.next ≤ h'.next)
    (hw : ∀ a < h.next, h'.w a = h.w a) : L1 h' a l := by
  cases a <;> cases l <;> simp only [L1] at hl ⊢
  exact ⟨by omega, by rw [hw _ hl.1]; exact hl.2⟩

theorem apfFirstH_ref (hI : Spec.Implements C M) {h : Heap P} {n o : ℕ} (hf : FreshObj n o h) (uv : List (Slot U)) (tv : List ℕ) (cur : ℕ) (y : Slot Y) :
    Ref h (apfFirstH C uv tv cur o y) (apfFirstV M uv tv cur (viewPA h o) y) (fun a b h' => viewPA h' o = b.1 ∧ L1 h' a b.2) := by
  have main : ∀ y : Slot Y, Ref h (do
      let u ← HM.lift (getIdx uv cur)
      let t ← HM.lift (getIdx tv cur)
      let pa ← HM.readObj o
      let l1 ← C.evalFirstStage pa.part u y t
      let w ← HM.readW pa.w
      let l ← HM.readW l1
      let w1 ← HM.lift (npAdd w l)
      HM.writeW pa.w w1
      let m ← HM.lift (npMax w1)
      HM.writeW pa.w (w1.map (· - m))
      pure (some l1)) (do
      let u ← getIdx uv cur
      let t ← getIdx tv cur
      let l1w ← M.evalFirstStage (viewPA h o).part u y t
      let w ← npAdd (viewPA h o).w l1w
      let m ← npMax w
      pure ({ viewPA h o with w := w.map (· - m) }, some l1w)) (fun a b h' => viewPA h' o = b.1 ∧ L1 h' a b.2) := by
    intro y
    refine Ref.both fun u _ => Ref.both fun t _ => ?_
    refine Ref.read (x := HM.readObj o) rfl ?_
    refine Ref.bind ((hI.first _ _ _ _ _).extN (hI.honest.first _ _ _ _) (hI.firstNew _ _ _ _)) ?_
    rintro l1 _ h1 - ⟨rfl, ⟨a1, a2⟩, e1⟩
    obtain ⟨f1, v1⟩ := e1.viewPA hf
    rw [← v1, ← (e1.2 o hf.2.1).1]
    have hne : (h1.obj o).w ≠ l1 := by rw [(e1.2 o hf.2.1).1]; have := hf.2.2.2.2.2; omega
    refine Ref.read (x := HM.readW _) rfl ?_
    refine Ref.read (x := HM.readW _) rfl ?_
    refine Ref.both fun w1 _ => Ref.writeW ?_
    refine Ref.both fun m _ => Ref.writeW ?_
    refine Ref.pure ⟨?_, a2, ?_⟩
    · simp only [viewPA, Function.update_self]
    · simp only [Function.update_of_ne hne.symm]
  cases y with
  | none => exact Ref.pure ⟨rfl, trivial⟩
  | zero => exact main .zero
  | obj x => exact main (.obj x)

theorem resampleH_triE (hC : Spec.Honest C) {n o : ℕ} (N : ℕ) (r : ℝ) :
    Tri n {o} (fun _ => True) (resampleH C o N r) (fun _ _ => True) := by
  unfold resampleH
  refine Tri.bind (Tri.rd _) fun pa => Tri.bind (Tri.rdW _) fun w => Tri.bind (Tri.liftS _) fun m => Tri.bind (Tri.liftS _) fun ind => ?_
  refine Tri.bind (Tri.stay (hC.copyInd _ _).1 stable_true) fun np => ?_
  refine Tri.bind (B := fun _ _ => True) (Tri.allocW fun _ _ _ => trivial) fun nw => ?_
  exact Tri.bind (B := fun _ _ => True) (Tri.writeObj (fun _ _ => Or.inr rfl) fun _ _ _ => trivial) fun _ => Tri.pure fun _ h => h

theorem apfResampleH_ref (hI : Spec.Implements C M) {h : Heap P} {n o : ℕ} (hn : n ≤ h.next) (hf : FreshObj n o h) (res r : ℝ) {a : Option ℕ} {l : Option (List ℝ)} (hl : L1 h a l) :
    Ref h (apfResampleH C res o r a) (apfResampleV res r (viewPA h o) l)
      (fun v b h' => (v.1 = b.2.1 ∧ v.2.1 = b.2.2.1) ∧ viewPA h' o = b.1 ∧ L1 h' v.2.2 b.2.2.2) := by
  unfold apfResampleH apfResampleV
  refine Ref.read (x := HM.readObj o) rfl ?_
  split_ifs with h1
  · refine Ref.read (x := HM.readW _) rfl ?_
    refine Ref.both fun m _ => ?_
    split_ifs with h2 h3 h4
    · refine Ref.bind ((resampleH_ref hI _ _ _ _).tri (resampleH_triE hI.honest (n := h.next) _ _) le_rfl trivial |>.tri (resampleH_tri hI.honest (n := n) (o := o) _ _) hn hf) ?_
      rintro anc ⟨pa', anc'⟩ h2 - ⟨⟨⟨rfl, rfl⟩, -, k⟩, f2, -⟩
      have hl2 := hl.keep k.next_le k.w
      dsimp only
      cases a with
      | none => cases l with
        | none => exact ⟨_, rfl⟩
        | some l => cases hl
      | some a => cases l with
        | none => cases hl
        | some l =>
          obtain ⟨l1, l2⟩ := hl2
          refine Ref.read (x := HM.readW _) rfl ?_
          rw [l2]
          refine Ref.both fun l' _ => Ref.allocW ?_
          refine Ref.pure ⟨⟨rfl, rfl⟩, ?_, ?_⟩
          · unfold viewPA
            simp only
            rw [Function.update_of_ne (ne_of_lt f2.2.2.2.2.2)]
          · exact ⟨Nat.lt_succ_self _, by simp⟩
    · exact absurd h2 h3
    · exact absurd h4 h2
    · exact Ref.pure ⟨⟨rfl, rfl⟩, rfl, hl⟩
  · exact Ref.pure ⟨⟨rfl, rfl⟩, rfl, hl⟩


theorem apfSecondH_ref {h : Heap P} {o : ℕ} {a : Option ℕ} {l : Option (List ℝ)} (hl : L1 h a l) :
    Ref h (apfSecondH o a) (apfSecondV (viewPA h o) l) (fun _ b h' => viewPA h' o = b) := by
  cases a with
  | none => cases l with
    | none => exact ⟨_, rfl⟩
    | some l => cases hl
  | some a => cases l with
    | none => cases hl
    | some l =>
      obtain ⟨l1, l2⟩ := hl
      unfold apfSecondH apfSecondV
      refine Ref.read (x := HM.readObj _) rfl ?_
      refine Ref.read (x := HM.readW _) rfl ?_
      refine Ref.read (x := HM.readW _) rfl ?_
      rw [l2]
      refine Ref.both fun w2 _ => Ref.writeW ?_
      refine Ref.both fun m _ => ?_
      refine ⟨(), _, rfl, ?_⟩
      simp only [viewPA, Function.update_self]

/-- `update_full` leaves all weight arrays alone. -/
theorem updateH_w (hC : Spec.Honest C) (tr : List HStep) (anc : List ℕ)
    (uv : List (Slot U)) (yv : List (Slot Y)) (tv : List ℕ) (cur o : ℕ) (ω : Ω) (h : Heap P) :
    h.next ≤ (updateH C tr anc uv yv tv cur o ω h).2.next ∧ ∀ a < h.next, (updateH C tr anc uv yv tv cur o ω h).2.w a = h.w a := by
  unfold updateH
  rw [HM.bind_run]
  have h1 := hC.noise tr anc (uv.take (cur + 1)) (tv.take (cur + 1)) ω h
  rcases hx : C.sampleNoise tr anc (uv.take (cur + 1)) (tv.take (cur + 1)) ω h with ⟨r, h2⟩
  rw [hx] at h1
  cases r with
  | error e => exact ⟨h1.1, fun a ha => (h1.2 a ha).2.1⟩
  | ok v =>
    simp only [HM.bind_run, HM.readObj] at h1 ⊢
    have h3 := hC.update (h2.obj o).part tr (uv.take (cur + 1)) (yv.take (cur + 1)) (tv.take (cur + 1)) anc v h2
    exact ⟨h1.1.trans h3.1, fun a ha => ((h3.2 a (by omega)).2.1).trans (h1.2 a ha).2.1⟩

theorem apfForwardH_ref (hI : Spec.Implements C M) {h : Heap P} {tr : List HStep} (ha : AllocAll h tr) (res : ℝ)
    (yv : List (Slot Y)) (uv : List (Slot U)) (tv : List ℕ) (cur : ℕ) (d : Draws Ω) :
    Ref h (apfForwardH C res tr yv uv tv cur d) (apfForward M res (tr.map (Spec.viewStep h)) yv uv tv cur d)
      (fun a b h' => a.2 = b.2 ∧ viewPA h' a.1 = b.1) := by
  rw [apfForward_eq]
  unfold apfForwardH
  refine Ref.bothLast h fun last hmem => ?_
  refine Ref.read rfl ?_
  refine Ref.bind (newH_own _ _ _ le_rfl) ?_
  rintro o _ h1 - ⟨rfl, f1, e1⟩
  have k1 := e1.keep (E := ∅) (le_refl h.next)
  refine Ref.both fun y _ => ?_
  refine Ref.bind ((apfFirstH_ref hI f1 uv tv cur y).tri (apfFirstH_tri hI.honest uv tv cur y) k1.next_le f1) ?_
  rintro a ⟨pa1, l⟩ h2 - ⟨⟨rfl, hl2⟩, f2, k2⟩
  have k2 := k1.trans k2
  refine Ref.bind ((apfResampleH_ref hI k2.next_le f2 res d.r hl2).tri (apfResampleH_tri hI.honest res d.r a) k2.next_le f2) ?_
  rintro ⟨fl, anc, a'⟩ ⟨pa3, fl', anc', l'⟩ h3 - ⟨⟨⟨hfl, hanc⟩, hv3, hl3⟩, f3, k3⟩
  simp only at hfl hanc hv3 hl3
  subst hfl hanc hv3
  have k3 := k2.trans k3
  dsimp only
  rw [← (ha.keep k3).2]
  refine Ref.bind ((updateH_ref hI f3 (ha.keep k3).1 anc uv yv tv cur d.ω).tri (updateH_tri hI.honest tr anc uv yv tv cur d.ω) k3.next_le f3) ?_
  rintro _ _ h4 hx4 ⟨rfl, f4, k4⟩
  have k4 := k3.trans k4
  have w4 := updateH_w hI.honest tr anc uv yv tv cur o d.ω h3
  rw [hx4] at w4
  have hl4 := hl3.keep w4.1 w4.2
  rw [(ha.keep k3).2, ← (ha.keep k4).2]
  refine Ref.bind (measureH_ref hI f4.2.1 f4.2.2.2.2.2 f4.2.2.2.1 anc uv yv tv (cur + 1)) ?_
  rintro _ _ h5 hx5 rfl
  have m5 := (measureH_meas hI.honest tr anc uv yv tv (cur + 1) h4 f4.2.1).keep
  rw [hx5] at m5
  have hl5 := hl4.keep m5.next_le m5.w
  refine Ref.bind (apfSecondH_ref hl5) ?_
  rintro _ _ h6 - rfl
  exact Ref.pure ⟨rfl, rfl⟩

end PyPE

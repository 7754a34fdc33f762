import Verif.Heap.RefineFilters

/-!
# The heap model refines the value model (C94): conditional filters and the filters that propose from `y`
-/

namespace PyPE
open Real

variable {P U Y V Ω α β : Type} {C : HCallbacks P U Y V Ω} {M : Callbacks P U Y V Ω}

theorem Ref.bind2 {α' β' γ : Type} {h : Heap P} {x : HM P α} {v : PyM γ} {w : γ → PyM β} {R : α → β → Heap P → Prop}
    {f : α → HM P α'} {g : β → PyM β'} {S : α' → β' → Heap P → Prop}
    (hx : Ref h x (v >>= w) R) (hf : ∀ a b h', x h = (.ok a, h') → R a b h' → Ref h' (f a) (g b) S) :
    Ref h (x >>= f) (v >>= fun c => w c >>= g) S := by
  rw [← bind_assoc]; exact hx.bind hf

theorem condPartH_ref {h0 h : Heap P} {ct : List HStep} (ha : AllocAll h0 ct) (k : Keep h0.next ∅ h0 h) (i : ℕ) :
    Ref h (condPartH ct i) (getIdx (ct.map (Spec.viewStep h0)) i)
      (fun a b h' => h = h' ∧ a < h0.next ∧ b.pa.part = h0.part a) := by
  unfold condPartH
  refine Ref.ofPure ?_
  refine Ref.bothIdx h0 fun c hc => ?_
  refine Ref.read (x := HM.readObj _) rfl ?_
  obtain ⟨r1, r2, r3⟩ := (ha c hc).reads k
  rw [r1]
  exact Ref.pure ⟨rfl, (ha c hc).2.1, rfl⟩

theorem setRefH_ref (h : Heap P) (a c : ℕ) :
    Ref h (setRefH a c) (do let x ← getIdx (h.part c) 0; setLast (h.part a) x)
      (fun _ l h' => h' = { h with part := Function.update h.part a l }) := by
  unfold setRefH
  refine Ref.read (x := HM.readPart _) rfl ?_
  refine Ref.both fun x _ => ?_
  refine Ref.read (x := HM.readPart _) rfl ?_
  refine Ref.ofPure ?_
  refine Ref.both fun l _ => ?_
  exact ⟨(), _, rfl, rfl⟩

theorem setRefFromH_ref (h : Heap P) (a c : ℕ) :
    Ref h (setRefFromH a c) (setLastFrom (h.part a) (h.part c))
      (fun _ l h' => h' = { h with part := Function.update h.part a l }) := by
  unfold setRefFromH
  refine Ref.read (x := HM.readPart _) rfl ?_
  refine Ref.read (x := HM.readPart _) rfl ?_
  refine Ref.ofPure ?_
  refine Ref.both fun l _ => ?_
  exact ⟨(), _, rfl, rfl⟩

theorem condMeasureH_ref (hI : Spec.Implements C M) {h : Heap P} {o : ℕ} (ho : o < h.next) (ho' : (h.obj o).w < h.next) (hop : (h.obj o).part < h.next)
    {tr : List HStep} (anc : List ℕ) (uv : List (Slot U)) (yv : List (Slot Y)) (tv : List ℕ) (cur : ℕ) :
    Ref h (condMeasureH C tr anc o uv yv tv cur) (condMeasure M (tr.map (Spec.viewStep h)) anc (viewPA h o) uv yv tv cur)
      (fun _ pa h' => viewPA h' o = pa) := by
  unfold condMeasureH condMeasure
  refine Ref.both fun y _ => ?_
  cases y with
  | none => exact Ref.pure rfl
  | zero => exact measureH_ref hI ho ho' hop anc uv yv tv cur
  | obj x => exact measureH_ref hI ho ho' hop anc uv yv tv cur

/-- The end shared by `CPF` and `CPFAS`. -/
theorem condTail_ref (hI : Spec.Implements C M) {h0 h : Heap P} {o c : ℕ} (hf : FreshObj h0.next o h) (k : Keep h0.next ∅ h0 h) (hc : c < h0.next)
    {tr : List HStep} (ha : AllocAll h0 tr) (anc : List ℕ) (uv : List (Slot U)) (yv : List (Slot Y)) (tv : List ℕ) (cur : ℕ) :
    Ref h (do
      let pa ← HM.readObj o
      setRefH pa.part c
      condMeasureH C tr anc o uv yv tv cur
      return (o, true, anc)) (do
      let x ← getIdx (h0.part c) 0
      let part ← setLast (viewPA h o).part x
      let pa ← condMeasure M (tr.map (Spec.viewStep h0)) anc { viewPA h o with part := part } uv yv tv cur
      return (pa, true, anc)) (fun a b h' => a.2 = b.2 ∧ viewPA h' a.1 = b.1) := by
  refine Ref.read (x := HM.readObj _) rfl ?_
  have hr := setRefH_ref h (h.obj o).part c
  rw [k.part c hc] at hr
  refine Ref.bind2 hr ?_
  rintro _ l h1 - rfl
  set h1 : Heap P := { h with part := Function.update h.part (h.obj o).part l } with hh1
  have hv : viewPA h1 o = { viewPA h o with part := l } := by simp only [viewPA, hh1, Function.update_self]
  have k1 : Keep h0.next ∅ h0 h1 := ⟨k.next_le, fun a ha => by
    have := hf.2.2.1
    rw [hh1]
    simp only
    rw [Function.update_of_ne (by omega)]; exact k.part a ha, k.w, k.obj⟩
  rw [← hv, ← (ha.keep k1).2]
  refine Ref.bind (condMeasureH_ref hI (h := h1) hf.2.1 hf.2.2.2.2.2 hf.2.2.2.1 anc uv yv tv cur) ?_
  rintro _ _ h2 - rfl
  exact Ref.pure ⟨rfl, rfl⟩

theorem cpfInitialH_ref (hI : Spec.Implements C M) {h : Heap P} {ct : List HStep} (ha : AllocAll h ct) (N : ℕ) (ω : Ω) :
    Ref h (cpfInitialH C ct N ω) (cpfInitial M (ct.map (Spec.viewStep h)) N ω) (fun a l h' => h'.part a = l) := by
  unfold cpfInitialH cpfInitial
  refine Ref.bind ((hI.create _ _ _).extN (hI.honest.create _ _) (hI.gives.create _ _)) ?_
  rintro a _ h1 - ⟨rfl, ⟨a1, a2⟩, e1⟩
  refine Ref.bind (condPartH_ref ha (e1.keep le_rfl) 0) ?_
  rintro c b h1 - ⟨rfl, hc, hb⟩
  rw [hb, ← (e1.2 c hc).2.2]
  have := Ref.bind2 (g := pure) (f := fun _ => (pure a : HM P ℕ)) (S := fun a l h' => h'.part a = l) (setRefH_ref h1 a c) (by
    rintro _ l h2 - rfl
    exact Ref.pure (by simp))
  simpa only [bind_pure] using this

theorem cpfForwardH_ref (hI : Spec.Implements C M) {h : Heap P} {ct tr : List HStep} (hc : AllocAll h ct) (ha : AllocAll h tr)
    (yv : List (Slot Y)) (uv : List (Slot U)) (tv : List ℕ) (cur : ℕ) (d : Draws Ω) :
    Ref h (cpfForwardH C ct tr yv uv tv cur d) (cpfForward M (ct.map (Spec.viewStep h)) (tr.map (Spec.viewStep h)) yv uv tv cur d)
      (fun a b h' => a.2 = b.2 ∧ viewPA h' a.1 = b.1) := by
  unfold cpfForwardH cpfForward
  refine Ref.bothIdx h fun tc hmem => ?_
  refine Ref.read (x := HM.readObj _) rfl ?_
  refine Ref.read (x := HM.readPart _) rfl ?_
  refine Ref.bothLast h fun last hlast => ?_
  refine Ref.read (x := HM.readObj _) rfl ?_
  refine Ref.read (x := HM.readW _) rfl ?_
  refine Ref.both fun anc0 _ => ?_
  refine Ref.bind ((hI.copyInd _ _ _).ext (hI.honest.copyInd _ _).1) ?_
  rintro np _ h1 - ⟨rfl, e1⟩
  refine Ref.bind (newH_ownN _ _ e1.1) ?_
  rintro o _ h2 - ⟨rfl, f2, e2⟩
  have k2 := (e1.trans e2).keep (E := ∅) (le_refl h.next)
  rw [← (ha.keep k2).2]
  refine Ref.bind ((updateH_ref hI f2 (ha.keep k2).1 _ uv yv tv cur d.ω).tri (updateH_tri hI.honest tr _ uv yv tv cur d.ω) k2.next_le f2) ?_
  rintro _ _ h3 - ⟨rfl, f3, k3⟩
  have k3 := k2.trans k3
  rw [(ha.keep k2).2]
  refine Ref.bind (condPartH_ref hc k3 (cur + 1)) ?_
  rintro c b h3 - ⟨rfl, hcn, hb⟩
  rw [hb]
  exact condTail_ref hI f3 k3 hcn ha _ uv yv tv (cur + 1)

theorem indexPartH_ref (h : Heap P) (p : ℕ) (idx : List ℕ) :
    Ref h (indexPartH p idx) (fancy (h.part p) idx) (fun a l h' => h'.part a = l ∧ (h.next ≤ a ∧ a < h'.next) ∧ Ext h h') := by
  have : Ref h (indexPartH p idx) (fancy (h.part p) idx) (fun a l h' => h'.part a = l) := by
    unfold Ref
    rw [indexPartH_eq]
    cases fancy (h.part p) idx with
    | error e => exact ⟨h, rfl⟩
    | ok l => exact ⟨_, _, rfl, by simp⟩
  exact this.extN (indexPartH_quiet _ _) (indexPartH_new _ _)

theorem condAncestorH_ref (h : Heap P) (wt w N : ℕ) (r : ℝ) :
    Ref h (condAncestorH wt w N r) (do let wpind ← fancy (h.w w) (List.range N); condAncestor (h.w wt) wpind r)
      (fun a b h' => a = b ∧ h = h') := by
  unfold condAncestorH
  refine Ref.read (x := HM.readW _) rfl ?_
  refine Ref.both fun wp _ => ?_
  refine Ref.read (x := HM.readW _) rfl ?_
  exact (Ref.lift _).conseq fun a b h' _ _ hR => ⟨hR.1, hR.2.2.symm⟩

theorem cpfasForwardH_ref (hI : Spec.Implements C M) {h : Heap P} {ct tr : List HStep} (hc : AllocAll h ct) (ha : AllocAll h tr)
    (yv : List (Slot Y)) (uv : List (Slot U)) (tv : List ℕ) (cur : ℕ) (d : Draws Ω) :
    Ref h (cpfasForwardH C ct tr yv uv tv cur d) (cpfasForward M (ct.map (Spec.viewStep h)) (tr.map (Spec.viewStep h)) yv uv tv cur d)
      (fun a b h' => a.2 = b.2 ∧ viewPA h' a.1 = b.1) := by
  unfold cpfasForwardH cpfasForward
  refine Ref.bothLast h fun last hlast => ?_
  refine Ref.read (x := HM.readObj _) rfl ?_
  refine Ref.read (x := HM.readPart _) rfl ?_
  refine Ref.read (x := HM.readW _) rfl ?_
  refine Ref.both fun anc0 _ => ?_
  refine Ref.bothIdx h fun tc hmem => ?_
  refine Ref.read (x := HM.readObj _) rfl ?_
  refine Ref.bind (indexPartH_ref h _ _) ?_
  rintro cp _ h1 - ⟨rfl, ⟨c1, c2⟩, e1⟩
  refine Ref.both fun pind _ => ?_
  refine Ref.bind (condPartH_ref hc (e1.keep le_rfl) (cur + 1)) ?_
  rintro c b h1 - ⟨rfl, hcn, hb⟩
  rw [hb, ← List.map_take, ← (AllocAll.keep (fun st hst => ha st (List.mem_of_mem_take hst)) (e1.keep le_rfl)).2, ← (e1.2 c hcn).2.2]
  refine Ref.bind ((hI.single _ _ _ _ _ _ _ _ _ _).extN (hI.honest.single _ _ _ _ _ _ _ _ _).1 (hI.honest.single _ _ _ _ _ _ _ _ _).2) ?_
  rintro wt _ h2 - ⟨rfl, ⟨d1, d2⟩, e2⟩
  have k2 := (e1.trans e2).keep (E := ∅) (le_refl h.next)
  obtain ⟨r1, r2, r3⟩ := (ha last hlast).reads k2
  have hw : (Spec.viewStep h last).pa.w = h2.w (h.obj last.pa).w := r3.symm
  have hp : (Spec.viewStep h last).pa.part = h2.part (h.obj last.pa).part := r2.symm
  rw [hw]
  refine Ref.bind2 (condAncestorH_ref h2 wt _ _ _) ?_
  rintro ci _ h2 - ⟨rfl, rfl⟩
  rename_i h2
  rw [hp]
  refine Ref.bind ((hI.copyInd _ _ _).ext (hI.honest.copyInd _ _).1) ?_
  rintro np _ h3 - ⟨rfl, e3⟩
  refine Ref.bind (newH_ownN (n := h.next) _ _ (k2.next_le.trans e3.1)) ?_
  rintro o _ h4 - ⟨rfl, f4, e4⟩
  have k4 := (((e1.trans e2).trans e3).trans e4).keep (E := ∅) (le_refl h.next)
  rw [← (ha.keep k4).2]
  refine Ref.bind ((updateH_ref hI f4 (ha.keep k4).1 _ uv yv tv cur d.ω).tri (updateH_tri hI.honest tr _ uv yv tv cur d.ω) k4.next_le f4) ?_
  rintro _ _ h5 - ⟨rfl, f5, k5⟩
  have k5 := k4.trans k5
  rw [(ha.keep k4).2]
  have hcc : h1.part c = h.part c := (e1.2 c hcn).2.2
  rw [hcc]
  exact condTail_ref hI f5 k5 hcn ha _ uv yv tv (cur + 1)


theorem csirasForwardH_ref (hI : Spec.Implements C M) {h : Heap P} {ct tr : List HStep} (hc : AllocAll h ct) (ha : AllocAll h tr)
    (yv : List (Slot Y)) (uv : List (Slot U)) (tv : List ℕ) (cur : ℕ) (d : Draws Ω) :
    Ref h (csirasForwardH C ct tr yv uv tv cur d) (csirasForward M (ct.map (Spec.viewStep h)) (tr.map (Spec.viewStep h)) yv uv tv cur d)
      (fun a b h' => a.2 = b.2 ∧ viewPA h' a.1 = b.1) := by
  unfold csirasForwardH csirasForward
  refine Ref.bothLast h fun last hlast => ?_
  refine Ref.read (x := HM.readObj _) rfl ?_
  refine Ref.read (x := HM.readPart _) rfl ?_
  refine Ref.read (x := HM.readW _) rfl ?_
  refine Ref.both fun anc0 _ => ?_
  refine Ref.bothIdx h fun tc hmem => ?_
  refine Ref.read (x := HM.readObj _) rfl ?_
  refine Ref.bind (condPartH_ref hc (Keep.refl _ _ h) (cur + 1)) ?_
  rintro c b _ - ⟨rfl, hcn, hb⟩
  rw [hb]
  refine Ref.bind (indexPartH_ref h _ _) ?_
  rintro cp _ h1 - ⟨rfl, ⟨c1, c2⟩, e1⟩
  refine Ref.both fun u _ => Ref.both fun t _ => ?_
  have htc : (Spec.viewStep h tc).pa.part = h1.part (h.obj tc.pa).part := (e1.2 _ (ha tc hmem).2.1).2.2.symm
  rw [htc]
  refine Ref.bind ((hI.logpXnext _ _ _ _ _).extA (hI.honest.logpXnext _ _ _ _) (hI.nextAlloc _ _ _ _)) ?_
  rintro wt _ h2 - ⟨rfl, d2, e2⟩
  have e12 := e1.trans e2
  have k2 := e12.keep (E := ∅) (le_refl h.next)
  obtain ⟨r1, r2, r3⟩ := (ha last hlast).reads k2
  have hw : (Spec.viewStep h last).pa.w = h2.w (h.obj last.pa).w := r3.symm
  have hp : (Spec.viewStep h last).pa.part = h2.part (h.obj last.pa).part := r2.symm
  rw [hw]
  refine Ref.bind2 (condAncestorH_ref h2 wt _ _ _) ?_
  rintro ci _ _ - ⟨rfl, rfl⟩
  rw [hp]
  refine Ref.bind ((hI.copyInd _ _ _).ext (hI.honest.copyInd _ _).1) ?_
  rintro np _ h3 - ⟨rfl, e3⟩
  refine Ref.bind (newH_ownN (n := h.next) _ _ (k2.next_le.trans e3.1)) ?_
  rintro o _ h4 - ⟨rfl, f4, e4⟩
  have e14 := (e12.trans e3).trans e4
  refine Ref.read (x := HM.readObj _) rfl ?_
  refine Ref.both fun y _ => ?_
  refine Ref.bind ((hI.qsample _ _ _ _ _ _).extN (hI.honest.qsample _ _ _ _ _).1 (hI.gives.qsample _ _ _ _ _)) ?_
  rintro pn _ h5 - ⟨rfl, ⟨p1, p2⟩, e5⟩
  obtain ⟨f5, v5⟩ := e5.viewPA f4
  have ho5 := (e5.2 o f4.2.1).1
  rw [← v5, ← ho5]
  have hc5 : h.part c = h5.part c := (((e14.trans e5).2 c hcn).2.2).symm
  rw [hc5]
  refine Ref.bind2 (setRefH_ref h5 pn c) ?_
  rintro _ l h6 - rfl
  have hpne : (h5.obj o).part ≠ pn := by rw [ho5]; have := f4.2.2.2.1; omega
  set h6 : Heap P := { h5 with part := Function.update h5.part pn l } with hh6
  have v6 : viewPA h6 o = viewPA h5 o := by
    unfold viewPA
    simp only [hh6]
    rw [Function.update_of_ne hpne]
  have f6 : FreshObj h.next o h6 := f5
  have o6 : h5.obj o = h6.obj o := rfl
  have hl : h6.part pn = l := by simp [hh6]
  rw [← v6, o6, ← hl]
  have a6 : pn < h6.next := p2
  refine Ref.bind ((hI.logpQ _ _ _ _ _ _).extA (hI.honest.logpQ _ _ _ _ _) (hI.qAlloc _ _ _ _ _)) ?_
  rintro qw _ h7 - ⟨rfl, a7, e7⟩
  obtain ⟨f7, v7⟩ := e7.viewPA f6
  rw [← v7, ← (e7.2 o f6.2.1).1, ← (e7.2 _ a6).2.2]
  have a6' := lt_of_lt_of_le a6 e7.1
  refine Ref.bind ((hI.logpXnext _ _ _ _ _).extA (hI.honest.logpXnext _ _ _ _) (hI.nextAlloc _ _ _ _)) ?_
  rintro nw _ h8 - ⟨rfl, a8, e8⟩
  obtain ⟨f8, v8⟩ := e8.viewPA f7
  rw [← v8, ← (e8.2 o f7.2.1).1, ← (e8.2 _ a6').2.2, ← (e8.2 _ a7).2.1]
  have a6'' := lt_of_lt_of_le a6' e8.1
  refine Ref.both fun t1 _ => ?_
  refine Ref.bind ((hI.sirMeasure _ _ _ _).extA (hI.honest.sirMeasure _ _ _) (hI.sirAlloc _ _ _)) ?_
  rintro yw _ h9 - ⟨rfl, a9, e9⟩
  obtain ⟨f9, v9⟩ := e9.viewPA f8
  rw [← v9, ← (e9.2 o f8.2.1).1, ← (e9.2 _ a6'').2.2, ← (e9.2 _ (lt_of_lt_of_le a7 e8.1)).2.1, ← (e9.2 _ a8).2.1]
  refine Ref.read (x := HM.readW _) rfl ?_
  refine Ref.read (x := HM.readW _) rfl ?_
  refine Ref.read (x := HM.readW _) rfl ?_
  refine Ref.both fun s _ => Ref.both fun s2 _ => ?_
  refine Ref.allocW ?_
  refine Ref.writeObj ?_
  refine Ref.read (x := HM.readPart _) rfl ?_
  refine Ref.writePart ?_
  refine Ref.pure ⟨rfl, ?_⟩
  simp only [viewPA, Function.update_self]

theorem weightUpdateH_part (h : Heap P) (o nw : ℕ) : (weightUpdateH o nw h).2.part = h.part := by
  unfold weightUpdateH
  simp only [HM.bind_run, HM.readW, HM.readObj, HM.writeObj, HM.writeW, HM.lift]
  rcases npMax (h.w nw) with e | m
  · rfl
  simp only [Function.update_self]
  rcases npAdd (Function.update h.w nw ((h.w nw).map (· - m)) (h.obj o).w) ((h.w nw).map (· - m)) with e | s
  · rfl
  simp only [HM.allocW]
  rcases npMax s with e | m'
  · rfl
  · rfl

theorem ffpropyForwardH_ref (hI : Spec.Implements C M) {h : Heap P} {tr : List HStep} (ha : AllocAll h tr) (res : ℝ) (N : ℕ)
    (yv : List (Slot Y)) (uv : List (Slot U)) (tv : List ℕ) (cur : ℕ) (d : Draws Ω) :
    Ref h (ffpropyForwardH C res N tr yv uv tv cur d) (ffpropyForward M res N (tr.map (Spec.viewStep h)) yv uv tv cur d)
      (fun a b h' => a.2 = b.2 ∧ viewPA h' a.1 = b.1) := by
  unfold ffpropyForwardH ffpropyForward
  refine Ref.bothLast h fun last hlast => ?_
  refine Ref.read (x := HM.readObj _) rfl ?_
  refine Ref.bind (newH_own _ _ _ le_rfl) ?_
  rintro o _ h1 - ⟨rfl, f1, e1⟩
  have k1 := e1.keep (E := ∅) (le_refl h.next)
  refine Ref.bind ((maybeResampleH_ref hI _ _ _ _).tri (maybeResampleH_tri hI.honest _ _) e1.1 f1) ?_
  rintro _ ⟨pa2, flag, anc⟩ h2 - ⟨⟨rfl, rfl⟩, f2, k2⟩
  have k2 := k1.trans k2
  dsimp only
  refine Ref.read (x := HM.readObj _) rfl ?_
  refine Ref.read (x := HM.readPart _) rfl ?_
  refine Ref.both fun y _ => Ref.both fun t _ => ?_
  refine Ref.bind ((hI.propose _ _ _ _ _).extA (hI.honest.propose _ _ _ _).1 (hI.honest.propose _ _ _ _).2) ?_
  rintro pn _ h3 - ⟨rfl, a3, e3⟩
  obtain ⟨f3, v3⟩ := e3.viewPA f2
  have k3 := k2.trans (e3.keep (E := ∅) k2.next_le)
  rw [← v3]
  refine Ref.bothIdx h fun tc hmem => ?_
  refine Ref.read (x := HM.readObj _) rfl ?_
  obtain ⟨r1, r2, r3⟩ := (ha tc hmem).reads k3
  rw [r1]
  have htc : (Spec.viewStep h tc).pa.part = h3.part (h.obj tc.pa).part := r2.symm
  rw [htc]
  refine Ref.bind (indexPartH_ref h3 _ _) ?_
  rintro part _ h4 - ⟨rfl, ⟨c1, c2⟩, e4⟩
  obtain ⟨f4, v4⟩ := e4.viewPA f3
  have k4 := k3.trans (e4.keep (E := ∅) k3.next_le)
  rw [← v4, ← (e4.2 _ a3).2.2]
  refine Ref.both fun pind _ => ?_
  rw [← List.map_take, ← (AllocAll.keep (fun st hst => ha st (List.mem_of_mem_take hst)) k4).2]
  refine Ref.bind ((hI.single _ _ _ _ _ _ _ _ _ _).extN (hI.honest.single _ _ _ _ _ _ _ _ _).1 (hI.honest.single _ _ _ _ _ _ _ _ _).2) ?_
  rintro wn _ h5 - ⟨rfl, ⟨d1, d2⟩, e5⟩
  obtain ⟨f5, v5⟩ := e5.viewPA f4
  rw [← v5, ← (e5.2 _ (lt_of_lt_of_le a3 e4.1)).2.2]
  refine Ref.read (x := HM.readObj _) rfl ?_
  refine Ref.writeObj ?_
  set h6 : Heap P := { h5 with obj := Function.update h5.obj o { h5.obj o with part := pn } } with hh6
  have v6 : viewPA h6 o = { viewPA h5 o with part := h5.part pn } := by simp only [viewPA, hh6, Function.update_self]
  have hw6 : h5.w wn = h6.w wn := rfl
  rw [← v6, hw6]
  have hne : (h6.obj o).w ≠ wn := by
    have : (h6.obj o).w = (h5.obj o).w := by simp only [hh6, Function.update_self]
    rw [this, (e5.2 o f4.2.1).1]
    have := f4.2.2.2.2.2
    omega
  refine Ref.bind (weightUpdateH_ref h6 o wn hne d2) ?_
  rintro _ _ h7 - rfl
  exact Ref.pure ⟨rfl, rfl⟩

theorem ffpropyMeasureH_ref (hI : Spec.Implements C M) {h : Heap P} (N : ℕ)
    (yv : List (Slot Y)) (tv : List ℕ) (cur : ℕ) (ω : Ω) :
    Ref h (ffpropyMeasureH C N yv tv cur ω) (ffpropyMeasure M N yv tv cur ω) (fun a b h' => viewPA h' a = b) := by
  unfold ffpropyMeasureH ffpropyMeasure
  refine Ref.both fun y _ => Ref.both fun t _ => ?_
  refine Ref.bind (hI.propose _ _ _ _ _) ?_
  rintro pn _ h3 - rfl
  exact newH_refN h3 pn

theorem cpfyasForwardH_ref (hI : Spec.Implements C M) {h : Heap P} {ct tr : List HStep} (hc : AllocAll h ct) (ha : AllocAll h tr) (N : ℕ)
    (yv : List (Slot Y)) (uv : List (Slot U)) (tv : List ℕ) (cur : ℕ) (d : Draws Ω) :
    Ref h (cpfyasForwardH C N ct tr yv uv tv cur d) (cpfyasForward M N (ct.map (Spec.viewStep h)) (tr.map (Spec.viewStep h)) yv uv tv cur d)
      (fun a b h' => a.2 = b.2 ∧ viewPA h' a.1 = b.1) := by
  unfold cpfyasForwardH cpfyasForward
  have htake := fun {h' : Heap P} (k : Keep h.next ∅ h h') => (AllocAll.keep (tr := tr.take cur) (fun st hst => ha st (List.mem_of_mem_take hst)) k).2
  refine Ref.bothIdx h fun tc hmem => ?_
  refine Ref.read (x := HM.readObj _) rfl ?_
  refine Ref.read (x := HM.readW _) rfl ?_
  refine Ref.both fun anc0 _ => ?_
  refine Ref.bind (indexPartH_ref h _ _) ?_
  rintro cp _ h1 - ⟨rfl, ⟨c1, c2⟩, e1⟩
  refine Ref.both fun pind _ => ?_
  refine Ref.bind (condPartH_ref hc (e1.keep le_rfl) (cur + 1)) ?_
  rintro c b _ - ⟨rfl, hcn, hb⟩
  rw [hb, ← List.map_take, ← htake (e1.keep le_rfl), ← (e1.2 c hcn).2.2]
  refine Ref.bind ((hI.single _ _ _ _ _ _ _ _ _ _).ext (hI.honest.single _ _ _ _ _ _ _ _ _).1) ?_
  rintro wt _ h2 - ⟨rfl, e2⟩
  have e12 := e1.trans e2
  have k2 := e12.keep (E := ∅) (le_refl h.next)
  obtain ⟨r1, r2, r3⟩ := (ha tc hmem).reads k2
  have hw : (Spec.viewStep h tc).pa.w = h2.w (h.obj tc.pa).w := r3.symm
  rw [hw]
  refine Ref.bind2 (condAncestorH_ref h2 wt _ _ _) ?_
  rintro ci _ _ - ⟨rfl, rfl⟩
  refine Ref.both fun y _ => Ref.both fun t1 _ => ?_
  refine Ref.bind ((hI.propose _ _ _ _ _).extN (hI.honest.propose _ _ _ _).1 (hI.gives.propose _ _ _ _)) ?_
  rintro pn _ h3 - ⟨rfl, ⟨p1, p2⟩, e3⟩
  have e13 := e12.trans e3
  have hc3 : h1.part c = h3.part c := by
    rw [(e1.2 c hcn).2.2, (e13.2 c hcn).2.2]
  rw [hc3]
  refine Ref.bind (setRefFromH_ref h3 pn c) ?_
  rintro _ l h4 - rfl
  set h4 : Heap P := { h3 with part := Function.update h3.part pn l } with hh4
  have k4 : Keep h.next ∅ h h4 := ⟨e13.1, fun a ha => by
    have := e12.1
    simp only [hh4]
    rw [Function.update_of_ne (by omega)]; exact (e13.2 a ha).2.2, fun a ha => (e13.2 a ha).2.1, fun a ha _ => (e13.2 a ha).1⟩
  have hl : l = h4.part pn := by simp [hh4]
  rw [hl]
  refine Ref.bothLast h fun last hlast => ?_
  refine Ref.read (x := HM.readObj _) rfl ?_
  obtain ⟨s1, s2, s3⟩ := (ha last hlast).reads k4
  rw [s1]
  have hp : (Spec.viewStep h last).pa.part = h4.part (h.obj last.pa).part := s2.symm
  rw [hp]
  refine Ref.bind (indexPartH_ref h4 _ _) ?_
  rintro part _ h5 - ⟨rfl, -, e5⟩
  refine Ref.both fun pind' _ => ?_
  have k5 := k4.trans (e5.keep (E := ∅) k4.next_le)
  have a4 : pn < h4.next := p2
  have a5 : pn < h5.next := lt_of_lt_of_le a4 e5.1
  rw [htake (e1.keep le_rfl), ← htake k5, ← (e5.2 pn a4).2.2]
  refine Ref.bind ((hI.single _ _ _ _ _ _ _ _ _ _).extN (hI.honest.single _ _ _ _ _ _ _ _ _).1 (hI.honest.single _ _ _ _ _ _ _ _ _).2) ?_
  rintro wn _ h6 - ⟨rfl, ⟨d1, d2⟩, e6⟩
  rw [← (e6.2 pn a5).2.2]
  refine Ref.read (x := HM.readW _) rfl ?_
  refine Ref.both fun m _ => ?_
  refine Ref.writeW ?_
  set h7 : Heap P := { h6 with w := Function.update h6.w wn ((h6.w wn).map (· - m)) } with hh7
  have hw7 : (h6.w wn).map (· - m) = h7.w wn := by simp [hh7]
  have hp7 : h6.part pn = h7.part pn := rfl
  rw [hw7, hp7]
  refine Ref.bind (newH_ref h7 pn wn) ?_
  rintro o _ h8 - rfl
  refine Ref.read (x := HM.readObj _) rfl ?_
  refine Ref.writeObj ?_
  refine Ref.pure ⟨rfl, ?_⟩
  simp only [viewPA, Function.update_self]

theorem cpfyasMeasureH_ref (hI : Spec.Implements C M) {h : Heap P} {ct : List HStep} (hc : AllocAll h ct) (N : ℕ)
    (yv : List (Slot Y)) (tv : List ℕ) (cur : ℕ) (ω : Ω) :
    Ref h (cpfyasMeasureH C N ct yv tv cur ω) (cpfyasMeasure M N (ct.map (Spec.viewStep h)) yv tv cur ω) (fun a b h' => viewPA h' a = b) := by
  unfold cpfyasMeasureH cpfyasMeasure
  refine Ref.both fun y _ => Ref.both fun t _ => ?_
  refine Ref.bind ((hI.propose _ _ _ _ _).ext (hI.honest.propose _ _ _ _).1) ?_
  rintro pn _ h3 - ⟨rfl, e3⟩
  refine Ref.bind (condPartH_ref hc (e3.keep le_rfl) cur) ?_
  rintro c b _ - ⟨rfl, hcn, hb⟩
  rw [hb, ← (e3.2 c hcn).2.2]
  refine Ref.bind (setRefFromH_ref h3 pn c) ?_
  rintro _ l h4 - rfl
  have := newH_refN { h3 with part := Function.update h3.part pn l } pn
  simp only [Function.update_self] at this
  exact this

end PyPE

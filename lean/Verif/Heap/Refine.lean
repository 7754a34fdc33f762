import Verif.Heap.History
import Verif.Filter.Lemmas

/-!
# The heap model refines the value model (C94)

Everywhere else a filter is a function on values. Here: for a model that computes the same values on references
(`Spec.Implements`; `ofCallbacks M` is one), the heap versions of all eight filters and of
`ParticleTrajectory.{forward,measure}` compute exactly what the value-level versions compute.
-/

namespace PyPE
open Real

variable {P U Y V Ω α β : Type}

/-! ### Specification -/

/-- `x` run on `h` behaves as the value-level computation `v`: same exception, or results related by `R`. -/
def Ref (h : Heap P) (x : HM P α) (v : PyM β) (R : α → β → Heap P → Prop) : Prop :=
  match v with
  | .ok b => ∃ a h', x h = (.ok a, h') ∧ R a b h'
  | .error e => ∃ h', x h = (.error e, h')

/-- The reference-passing model `C` computes the values of `M`, and follows the interface: it returns new arrays and
writes only to the particle array given to `update_full`. -/
structure Spec.Implements (C : HCallbacks P U Y V Ω) (M : Callbacks P U Y V Ω) : Prop where
  honest : Honest C
  gives : GivesAway C
  firstNew : ∀ p u y t, ReturnsNew (C.evalFirstStage p u y t)
  qAlloc : ∀ p q u y t, ReturnsAllocated (C.logpQ p q u y t)
  nextAlloc : ∀ p q u t, ReturnsAllocated (C.logpXnext p q u t)
  sirAlloc : ∀ p y t, ReturnsAllocated (C.sirMeasure p y t)
  create : ∀ h N ω, Ref h (C.createInitial N ω) (M.createInitial N ω) (fun a l h' => h'.part a = l)
  noise : ∀ h tr a u t ω, Ref h (C.sampleNoise tr a u t ω) (M.sampleNoise (tr.map (viewStep h)) a u t ω) (fun v v' _ => v = v')
  update : ∀ h p tr u y t a v, Ref h (C.update p tr u y t a v) (M.update (h.part p) (tr.map (viewStep h)) u y t a v)
    (fun _ l h' => h'.part p = l)
  measure : ∀ h p tr u y t a, Ref h (C.measure p tr u y t a) (M.measure (h.part p) (tr.map (viewStep h)) u y t a) (fun a l h' => h'.w a = l)
  copyInd : ∀ h p a, Ref h (C.copyInd p a) (fancy (h.part p) a) (fun a l h' => h'.part a = l)
  first : ∀ h p u y t, Ref h (C.evalFirstStage p u y t) (M.evalFirstStage (h.part p) u y t) (fun a l h' => h'.w a = l)
  qsample : ∀ h p u y t ω, Ref h (C.qsample p u y t ω) (M.qsample (h.part p) u y t ω) (fun a l h' => h'.part a = l)
  logpQ : ∀ h p q u y t, Ref h (C.logpQ p q u y t) (M.logpQ (h.part p) (h.part q) u y t) (fun a l h' => h'.w a = l)
  logpXnext : ∀ h p q u t, Ref h (C.logpXnext p q u t) (M.logpXnext (h.part p) (h.part q) u t) (fun a l h' => h'.w a = l)
  sirMeasure : ∀ h p y t, Ref h (C.sirMeasure p y t) (M.sirMeasure (h.part p) y t) (fun a l h' => h'.w a = l)
  single : ∀ h p tr i f g u y t k, Ref h (C.logpXnextSingle p tr i f g u y t k)
    (M.logpXnextSingle (h.part p) (tr.map (viewStep h)) i (h.part f) g u y t k) (fun a l h' => h'.w a = l)
  propose : ∀ h N y t ω, Ref h (C.proposeFromY N y t ω) (M.proposeFromY N y t ω) (fun a l h' => h'.part a = l)

/-! ### Every model has a by-reference implementation -/

/-- Return a freshly allocated particle array. -/
def retPart (x : PyM (List P)) : HM P ℕ := fun h =>
  match x with | .ok l => HM.allocPart l h | .error e => (.error e, h)
/-- Return a freshly allocated weight array. -/
def retW (x : PyM (List ℝ)) : HM P ℕ := fun h =>
  match x with | .ok l => HM.allocW l h | .error e => (.error e, h)

/-- The model `M`, working on references. -/
def ofCallbacks (M : Callbacks P U Y V Ω) : HCallbacks P U Y V Ω where
  createInitial N ω := retPart (M.createInitial N ω)
  sampleNoise tr a u t ω := fun h => (M.sampleNoise (tr.map (Spec.viewStep h)) a u t ω, h)
  update p tr u y t a v := fun h => match M.update (h.part p) (tr.map (Spec.viewStep h)) u y t a v with
    | .ok l => (.ok (), { h with part := Function.update h.part p l })
    | .error e => (.error e, h)
  measure p tr u y t a := fun h => retW (M.measure (h.part p) (tr.map (Spec.viewStep h)) u y t a) h
  copyInd p a := fun h => retPart (fancy (h.part p) a) h
  evalFirstStage p u y t := fun h => retW (M.evalFirstStage (h.part p) u y t) h
  qsample p u y t ω := fun h => retPart (M.qsample (h.part p) u y t ω) h
  logpQ p q u y t := fun h => retW (M.logpQ (h.part p) (h.part q) u y t) h
  logpXnext p q u t := fun h => retW (M.logpXnext (h.part p) (h.part q) u t) h
  sirMeasure p y t := fun h => retW (M.sirMeasure (h.part p) y t) h
  logpXnextSingle p tr i f g u y t k := fun h => retW (M.logpXnextSingle (h.part p) (tr.map (Spec.viewStep h)) i (h.part f) g u y t k) h
  proposeFromY N y t ω := retPart (M.proposeFromY N y t ω)

theorem retW_quiet (f : Heap P → PyM (List ℝ)) : Spec.Quiet ∅ (fun h => retW (f h) h : HM P ℕ) := by
  intro h
  simp only [retW]
  cases f h with
  | error e => simp
  | ok l =>
    simp only [HM.allocW]
    refine ⟨Nat.le_succ _, fun a ha => ?_⟩
    have : a ≠ h.next := by omega
    simp [Function.update_of_ne this]

theorem retPart_quiet (f : Heap P → PyM (List P)) : Spec.Quiet ∅ (fun h => retPart (f h) h : HM P ℕ) := by
  intro h
  simp only [retPart]
  cases f h with
  | error e => simp
  | ok l =>
    simp only [HM.allocPart]
    refine ⟨Nat.le_succ _, fun a ha => ?_⟩
    have : a ≠ h.next := by omega
    simp [Function.update_of_ne this]

theorem retW_new (f : Heap P → PyM (List ℝ)) : Spec.ReturnsNew (fun h => retW (f h) h : HM P ℕ) := by
  intro h v hv
  simp only [retW] at hv ⊢
  cases hf : f h with
  | error e => rw [hf] at hv; cases hv
  | ok l =>
    rw [hf] at hv
    simp only [HM.allocW, Except.ok.injEq] at hv ⊢
    omega

theorem retPart_new (f : Heap P → PyM (List P)) : Spec.ReturnsNew (fun h => retPart (f h) h : HM P ℕ) := by
  intro h v hv
  simp only [retPart] at hv ⊢
  cases hf : f h with
  | error e => rw [hf] at hv; cases hv
  | ok l =>
    rw [hf] at hv
    simp only [HM.allocPart, Except.ok.injEq] at hv ⊢
    omega

/-- Non-vacuity: every value-level model is honest when implemented on references
the way the interface documents it. -/
theorem ofCallbacks_honest (M : Callbacks P U Y V Ω) : Spec.Honest (ofCallbacks M) where
  create N ω := retPart_quiet fun _ => M.createInitial N ω
  noise tr a u t ω := fun h => ⟨le_rfl, fun _ _ => ⟨rfl, rfl, fun _ => rfl⟩⟩
  update p tr u y t a v := by
    intro h
    simp only [ofCallbacks]
    cases M.update (h.part p) (tr.map (Spec.viewStep h)) u y t a v with
    | error e => simp
    | ok l =>
      refine ⟨le_rfl, fun b _ => ⟨rfl, rfl, fun hb => Function.update_of_ne (by simpa using hb) _ _⟩⟩
  measure p tr u y t a := ⟨retW_quiet fun h => M.measure (h.part p) (tr.map (Spec.viewStep h)) u y t a,
    retW_new fun h => M.measure (h.part p) (tr.map (Spec.viewStep h)) u y t a⟩
  copyInd p a := ⟨retPart_quiet fun h => fancy (h.part p) a, retPart_new fun h => fancy (h.part p) a⟩
  first p u y t := retW_quiet fun h => M.evalFirstStage (h.part p) u y t
  qsample p u y t ω := ⟨retPart_quiet fun h => M.qsample (h.part p) u y t ω, fun h v hv =>
    (retPart_new (fun h => M.qsample (h.part p) u y t ω) h v hv).2⟩
  logpQ p q u y t := retW_quiet fun h => M.logpQ (h.part p) (h.part q) u y t
  logpXnext p q u t := retW_quiet fun h => M.logpXnext (h.part p) (h.part q) u t
  sirMeasure p y t := retW_quiet fun h => M.sirMeasure (h.part p) y t
  single p tr i f g u y t k := ⟨retW_quiet fun h => M.logpXnextSingle (h.part p) (tr.map (Spec.viewStep h)) i (h.part f) g u y t k,
    retW_new fun h => M.logpXnextSingle (h.part p) (tr.map (Spec.viewStep h)) i (h.part f) g u y t k⟩
  propose N y t ω := ⟨retPart_quiet fun _ => M.proposeFromY N y t ω, fun h v hv => (retPart_new (fun _ => M.proposeFromY N y t ω) h v hv).2⟩

theorem retW_ref (f : Heap P → PyM (List ℝ)) (h : Heap P) : Ref h (fun h => retW (f h) h) (f h) (fun a l h' => h'.w a = l) := by
  unfold Ref
  cases hf : f h with
  | error e => exact ⟨h, by simp only [retW, hf]⟩
  | ok l => exact ⟨h.next, _, by simp only [retW, hf]; rfl, by simp⟩

theorem retPart_ref (f : Heap P → PyM (List P)) (h : Heap P) : Ref h (fun h => retPart (f h) h) (f h) (fun a l h' => h'.part a = l) := by
  unfold Ref
  cases hf : f h with
  | error e => exact ⟨h, by simp only [retPart, hf]⟩
  | ok l => exact ⟨h.next, _, by simp only [retPart, hf]; rfl, by simp⟩

/-- Every value-level model has such an implementation. -/
theorem ofCallbacks_implements (M : Callbacks P U Y V Ω) : Spec.Implements (ofCallbacks M) M where
  honest := ofCallbacks_honest M
  gives := ⟨fun N ω => retPart_new fun _ => M.createInitial N ω, fun p u y t ω => retPart_new fun h => M.qsample (h.part p) u y t ω,
    fun N y t ω => retPart_new fun _ => M.proposeFromY N y t ω⟩
  firstNew p u y t := retW_new fun h => M.evalFirstStage (h.part p) u y t
  qAlloc p q u y t := fun h v hv => (retW_new (fun h => M.logpQ (h.part p) (h.part q) u y t) h v hv).2
  nextAlloc p q u t := fun h v hv => (retW_new (fun h => M.logpXnext (h.part p) (h.part q) u t) h v hv).2
  sirAlloc p y t := fun h v hv => (retW_new (fun h => M.sirMeasure (h.part p) y t) h v hv).2
  create h N ω := retPart_ref (fun _ => M.createInitial N ω) h
  noise h tr a u t ω := by
    show Ref h (fun h => (M.sampleNoise (tr.map (Spec.viewStep h)) a u t ω, h)) _ _
    unfold Ref
    cases hv : M.sampleNoise (tr.map (Spec.viewStep h)) a u t ω with
    | error e => exact ⟨h, by simp only [hv]⟩
    | ok v => exact ⟨v, h, by simp only [hv], rfl⟩
  update h p tr u y t a v := by
    unfold Ref
    simp only [ofCallbacks]
    cases hv : M.update (h.part p) (tr.map (Spec.viewStep h)) u y t a v with
    | error e => exact ⟨h, rfl⟩
    | ok l => exact ⟨(), _, rfl, by simp⟩
  measure h p tr u y t a := retW_ref (fun h => M.measure (h.part p) (tr.map (Spec.viewStep h)) u y t a) h
  copyInd h p a := retPart_ref (fun h => fancy (h.part p) a) h
  first h p u y t := retW_ref (fun h => M.evalFirstStage (h.part p) u y t) h
  qsample h p u y t ω := retPart_ref (fun h => M.qsample (h.part p) u y t ω) h
  logpQ h p q u y t := retW_ref (fun h => M.logpQ (h.part p) (h.part q) u y t) h
  logpXnext h p q u t := retW_ref (fun h => M.logpXnext (h.part p) (h.part q) u t) h
  sirMeasure h p y t := retW_ref (fun h => M.sirMeasure (h.part p) y t) h
  single h p tr i f g u y t k := retW_ref (fun h => M.logpXnextSingle (h.part p) (tr.map (Spec.viewStep h)) i (h.part f) g u y t k) h
  propose h N y t ω := retPart_ref (fun _ => M.proposeFromY N y t ω) h

/-- What a user sees when looking at a `ParticleApproximation` object. -/
def viewPA (h : Heap P) (o : ℕ) : PA P :=
  ⟨h.part (h.obj o).part, h.w (h.obj o).w, (h.obj o).num, (h.obj o).off⟩

/-! ### Refinement calculus -/

theorem Ref.bind {α' β' : Type} {h : Heap P} {x : HM P α} {v : PyM β} {R : α → β → Heap P → Prop}
    {f : α → HM P α'} {g : β → PyM β'} {S : α' → β' → Heap P → Prop}
    (hx : Ref h x v R) (hf : ∀ a b h', x h = (.ok a, h') → R a b h' → Ref h' (f a) (g b) S) :
    Ref h (x >>= f) (v >>= g) S := by
  cases v with
  | error e =>
    obtain ⟨h', he⟩ := hx
    refine ⟨h', ?_⟩
    rw [HM.bind_run, he]
  | ok b =>
    obtain ⟨a, h', he, hR⟩ := hx
    have h2 := hf a b h' he hR
    rw [ok_bind]
    unfold Ref at h2 ⊢
    have e : (x >>= f) h = f a h' := by rw [HM.bind_run, he]
    cases hg : g b with
    | error e' => rw [hg] at h2; obtain ⟨h'', he''⟩ := h2; exact ⟨h'', e.trans he''⟩
    | ok b' => rw [hg] at h2; obtain ⟨a', h'', he'', hS⟩ := h2; exact ⟨a', h'', e.trans he'', hS⟩

theorem Ref.pure {h : Heap P} {a : α} {b : β} {R : α → β → Heap P → Prop} (hR : R a b h) :
    Ref h (Pure.pure a) (Pure.pure b : PyM β) R := ⟨a, h, rfl, hR⟩

theorem Ref.lift {h : Heap P} (x : PyM α) : Ref h (HM.lift x) x (fun a b h' => a = b ∧ x = .ok b ∧ h' = h) := by
  cases x with
  | error e => exact ⟨h, rfl⟩
  | ok b => exact ⟨b, h, rfl, rfl, rfl, rfl⟩

/-- A heap read in front does not change the meaning. -/
theorem Ref.read {h : Heap P} {x : HM P α} {a : α} (hx : x h = (.ok a, h)) {α' β' : Type} {f : α → HM P α'}
    {v : PyM β'} {S : α' → β' → Heap P → Prop} (hf : Ref h (f a) v S) : Ref h (x >>= f) v S := by
  have e : (x >>= f) h = f a h := by rw [HM.bind_run, hx]
  unfold Ref at hf ⊢
  cases v with
  | error e' => obtain ⟨h'', he⟩ := hf; exact ⟨h'', e.trans he⟩
  | ok b => obtain ⟨a', h'', he, hS⟩ := hf; exact ⟨a', h'', e.trans he, hS⟩

/-- A heap write in front does not change the meaning. -/
theorem Ref.write {h h' : Heap P} {x : HM P α} {a : α} (hx : x h = (.ok a, h')) {α' β' : Type} {f : α → HM P α'}
    {v : PyM β'} {S : α' → β' → Heap P → Prop} (hf : Ref h' (f a) v S) : Ref h (x >>= f) v S := by
  have e : (x >>= f) h = f a h' := by rw [HM.bind_run, hx]
  unfold Ref at hf ⊢
  cases v with
  | error e' => obtain ⟨h'', he⟩ := hf; exact ⟨h'', e.trans he⟩
  | ok b => obtain ⟨a', h'', he, hS⟩ := hf; exact ⟨a', h'', e.trans he, hS⟩

theorem Ref.writeObj {h : Heap P} {o : ℕ} {ob : HPA} {α' β' : Type} {f : Unit → HM P α'}
    {v : PyM β'} {S : α' → β' → Heap P → Prop}
    (hf : Ref { h with obj := Function.update h.obj o ob } (f ()) v S) : Ref h (HM.writeObj o ob >>= f) v S :=
  Ref.write (x := HM.writeObj o ob) rfl hf

theorem Ref.writeW {h : Heap P} {o : ℕ} {l : List ℝ} {α' β' : Type} {f : Unit → HM P α'}
    {v : PyM β'} {S : α' → β' → Heap P → Prop}
    (hf : Ref { h with w := Function.update h.w o l } (f ()) v S) : Ref h (HM.writeW o l >>= f) v S :=
  Ref.write (x := HM.writeW o l) rfl hf

theorem Ref.allocW {h : Heap P} {l : List ℝ} {α' β' : Type} {f : ℕ → HM P α'}
    {v : PyM β'} {S : α' → β' → Heap P → Prop}
    (hf : Ref { h with next := h.next + 1, w := Function.update h.w h.next l } (f h.next) v S) :
    Ref h (HM.allocW l >>= f) v S :=
  Ref.write (x := HM.allocW l) rfl hf

theorem Ref.conseq {h : Heap P} {x : HM P α} {v : PyM β} {R S : α → β → Heap P → Prop} (hx : Ref h x v R)
    (hi : ∀ a b h', x h = (.ok a, h') → v = .ok b → R a b h' → S a b h') : Ref h x v S := by
  cases v with
  | error e => exact hx
  | ok b => obtain ⟨a, h', he, hR⟩ := hx; exact ⟨a, h', he, hi a b h' he rfl hR⟩

theorem Ref.allocPart {h : Heap P} {l : List P} {α' β' : Type} {f : ℕ → HM P α'}
    {v : PyM β'} {S : α' → β' → Heap P → Prop}
    (hf : Ref { h with next := h.next + 1, part := Function.update h.part h.next l } (f h.next) v S) :
    Ref h (HM.allocPart l >>= f) v S :=
  Ref.write (x := HM.allocPart l) rfl hf

theorem Ref.writePart {h : Heap P} {o : ℕ} {l : List P} {α' β' : Type} {f : Unit → HM P α'}
    {v : PyM β'} {S : α' → β' → Heap P → Prop}
    (hf : Ref { h with part := Function.update h.part o l } (f ()) v S) : Ref h (HM.writePart o l >>= f) v S :=
  Ref.write (x := HM.writePart o l) rfl hf

/-- A call into the model that writes to no existing array. -/
theorem Ref.ext {h : Heap P} {x : HM P α} {v : PyM β} {R : α → β → Heap P → Prop} (hx : Ref h x v R) (hq : Spec.Quiet ∅ x) :
    Ref h x v (fun a b h' => R a b h' ∧ Ext h h') :=
  hx.conseq fun a b h' he _ hR => ⟨hR, by have := hq.ext h; rw [he] at this; exact this⟩

theorem Ref.extA {h : Heap P} {x : HM P ℕ} {v : PyM β} {R : ℕ → β → Heap P → Prop} (hx : Ref h x v R) (hq : Spec.Quiet ∅ x)
    (hr : Spec.ReturnsAllocated x) : Ref h x v (fun a b h' => R a b h' ∧ a < h'.next ∧ Ext h h') :=
  (hx.ext hq).conseq fun a b h' he _ hR => ⟨hR.1, by have := hr h a (by rw [he]); rw [he] at this; exact this, hR.2⟩

theorem Ref.extN {h : Heap P} {x : HM P ℕ} {v : PyM β} {R : ℕ → β → Heap P → Prop} (hx : Ref h x v R) (hq : Spec.Quiet ∅ x)
    (hr : Spec.ReturnsNew x) : Ref h x v (fun a b h' => R a b h' ∧ (h.next ≤ a ∧ a < h'.next) ∧ Ext h h') :=
  (hx.ext hq).conseq fun a b h' he _ hR => ⟨hR.1, by have := hr h a (by rw [he]); rw [he] at this; exact this, hR.2⟩

/-- Combine with a frame lemma. -/
theorem Ref.tri {h : Heap P} {n : ℕ} {E : Set ℕ} {A : Heap P → Prop} {x : HM P α} {v : PyM β} {R : α → β → Heap P → Prop}
    {B : α → Heap P → Prop} (hx : Ref h x v R) (ht : Tri n E A x B) (hn : n ≤ h.next) (hA : A h) :
    Ref h x v (fun a b h' => R a b h' ∧ B a h' ∧ Keep n E h h') :=
  hx.conseq fun a b h' he _ hR => by
    obtain ⟨k, q⟩ := ht h hn hA
    rw [he] at k q
    exact ⟨hR, q a rfl, k⟩

theorem newH_ref (h : Heap P) (p w : ℕ) :
    Ref h (newH p (some w)) (PA.new (h.part p) (some (h.w w)))
      (fun o pa h' => viewPA h' o = pa) := by
  refine ⟨h.next + 2, _, rfl, ?_⟩
  simp only [viewPA, Function.update_self]

theorem weightUpdateH_ref (h : Heap P) (o nw : ℕ) (hne : (h.obj o).w ≠ nw) (hnw : nw < h.next) :
    Ref h (weightUpdateH o nw) (weightUpdate (viewPA h o) (h.w nw))
      (fun _ pa h' => viewPA h' o = pa) := by
  unfold weightUpdateH weightUpdate
  refine Ref.read rfl ?_
  refine Ref.bind (Ref.lift _) ?_
  rintro m _ h' - ⟨rfl, -, rfl⟩
  refine Ref.read rfl ?_
  refine Ref.writeObj ?_
  refine Ref.writeW ?_
  refine Ref.read rfl ?_
  refine Ref.read rfl ?_
  refine Ref.read rfl ?_
  simp only [Function.update_self, Function.update_of_ne hne]
  show Ref _ _ (npAdd (h'.w (h'.obj o).w) ((h'.w nw).map (· - m)) >>= _) _
  refine Ref.bind (Ref.lift _) ?_
  rintro s _ h2 - ⟨rfl, -, rfl⟩
  refine Ref.allocW ?_
  refine Ref.writeObj ?_
  refine Ref.bind (Ref.lift _) ?_
  rintro m' _ h3 - ⟨rfl, -, rfl⟩
  refine Ref.writeObj ?_
  refine ⟨(), _, rfl, ?_⟩
  simp only [viewPA, Function.update_self]


end PyPE

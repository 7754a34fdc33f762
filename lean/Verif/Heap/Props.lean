import Verif.Heap.Model
import Verif.PyLemmas

/-!
# C14: stored history is never changed by later steps
-/

namespace PyPE
open Real

variable {P U Y V Ω α β : Type}

/-! ### Specification -/

/-- What a user sees when looking at a stored step. -/
def Spec.viewStep (h : Heap P) (st : HStep) : Step P :=
  ⟨⟨h.part (h.obj st.pa).part, h.w (h.obj st.pa).w, (h.obj st.pa).num, (h.obj st.pa).off⟩, st.ancestors⟩

/-- A well-behaved call into the user model: it writes only to the particle arrays in `W` and to memory it
allocates itself. -/
def Spec.Quiet (W : Set ℕ) (x : HM P α) : Prop := ∀ h, h.next ≤ (x h).2.next ∧
  ∀ a < h.next, (x h).2.obj a = h.obj a ∧ (x h).2.w a = h.w a ∧ (a ∉ W → (x h).2.part a = h.part a)

/-- The array returned was allocated by the call. -/
def Spec.ReturnsNew (x : HM P ℕ) : Prop := ∀ h v, (x h).1 = .ok v → h.next ≤ v ∧ v < (x h).2.next

/-- The array returned exists. -/
def Spec.ReturnsAllocated (x : HM P ℕ) : Prop := ∀ h v, (x h).1 = .ok v → v < (x h).2.next

/-- A model that follows the interface: `update_full` writes only the particle array it is given, the
other methods write to no existing array; `measure_full`, `copy_ind` and
`logp_xnext_singlestep` return new arrays. -/
structure Spec.Honest (C : HCallbacks P U Y V Ω) : Prop where
  create : ∀ N ω, Quiet ∅ (C.createInitial N ω)
  noise : ∀ tr a u t ω, Quiet ∅ (C.sampleNoise tr a u t ω)
  update : ∀ p tr u y t a v, Quiet {p} (C.update p tr u y t a v)
  measure : ∀ p tr u y t a, Quiet ∅ (C.measure p tr u y t a) ∧ ReturnsNew (C.measure p tr u y t a)
  copyInd : ∀ p a, Quiet ∅ (C.copyInd p a) ∧ ReturnsNew (C.copyInd p a)
  first : ∀ p u y t, Quiet ∅ (C.evalFirstStage p u y t)
  qsample : ∀ p u y t ω, Quiet ∅ (C.qsample p u y t ω) ∧ ReturnsAllocated (C.qsample p u y t ω)
  logpQ : ∀ p q u y t, Quiet ∅ (C.logpQ p q u y t)
  logpXnext : ∀ p q u t, Quiet ∅ (C.logpXnext p q u t)
  sirMeasure : ∀ p y t, Quiet ∅ (C.sirMeasure p y t)
  single : ∀ p tr i f g u y t k, Quiet ∅ (C.logpXnextSingle p tr i f g u y t k) ∧ ReturnsNew (C.logpXnextSingle p tr i f g u y t k)
  propose : ∀ N y t ω, Quiet ∅ (C.proposeFromY N y t ω) ∧ ReturnsAllocated (C.proposeFromY N y t ω)

/-- `create_initial_estimate`, `qsample` and `propose_from_y` return new arrays. The conditional filters write into them. -/
structure Spec.GivesAway (C : HCallbacks P U Y V Ω) : Prop where
  create : ∀ N ω, ReturnsNew (C.createInitial N ω)
  qsample : ∀ p u y t ω, ReturnsNew (C.qsample p u y t ω)
  propose : ∀ N y t ω, ReturnsNew (C.proposeFromY N y t ω)

/-- The filters that condition on a trajectory. -/
def Spec.isConditional : FilterKind → Prop
  | .cpf | .cpfas | .cpfyas | .csiras => True
  | _ => False

/-! ### Frame calculus -/

structure Keep (n : ℕ) (E : Set ℕ) (h h' : Heap P) : Prop where
  next_le : h.next ≤ h'.next
  part : ∀ a < n, h'.part a = h.part a
  w : ∀ a < n, h'.w a = h.w a
  obj : ∀ a < n, a ∉ E → h'.obj a = h.obj a

theorem Keep.refl (n : ℕ) (E : Set ℕ) (h : Heap P) : Keep n E h h := ⟨le_refl _, fun _ _ => rfl, fun _ _ => rfl, fun _ _ _ => rfl⟩

theorem Keep.trans {n : ℕ} {E : Set ℕ} {h h1 h2 : Heap P} (a : Keep n E h h1) (b : Keep n E h1 h2) : Keep n E h h2 :=
  ⟨a.next_le.trans b.next_le, fun x hx => (b.part x hx).trans (a.part x hx),
   fun x hx => (b.w x hx).trans (a.w x hx), fun x hx he => (b.obj x hx he).trans (a.obj x hx he)⟩

theorem HM.bind_run (x : HM P α) (f : α → HM P β) (h : Heap P) :
    (x >>= f : HM P β) h = match x h with
      | (.ok v, h') => f v h'
      | (.error e, h') => (.error e, h') := rfl

/-- `x`, started with precondition `A`, leaves everything below `n` unchanged (even if it raises) and
establishes `B` when it returns. -/
def Tri (n : ℕ) (E : Set ℕ) (A : Heap P → Prop) (x : HM P α) (B : α → Heap P → Prop) : Prop :=
  ∀ h, n ≤ h.next → A h → Keep n E h (x h).2 ∧ ∀ v, (x h).1 = .ok v → B v (x h).2

theorem Tri.bind {n : ℕ} {E : Set ℕ} {A : Heap P → Prop} {x : HM P α} {B : α → Heap P → Prop} {f : α → HM P β}
    {C : β → Heap P → Prop} (hx : Tri n E A x B) (hf : ∀ v, Tri n E (B v) (f v) C) : Tri n E A (x >>= f) C := by
  intro h hn hA
  obtain ⟨k1, q1⟩ := hx h hn hA
  have hb := HM.bind_run x f h
  rcases hr : x h with ⟨r, h'⟩
  rw [hr] at k1 q1 hb
  cases r with
  | error e =>
    simp only at hb
    rw [hb]; exact ⟨k1, fun v hv => by cases hv⟩
  | ok v =>
    simp only at hb
    rw [hb]
    obtain ⟨k2, q2⟩ := hf v h' (hn.trans k1.next_le) (q1 v rfl)
    exact ⟨k1.trans k2, q2⟩

theorem Tri.conseq {n : ℕ} {E : Set ℕ} {A A' : Heap P → Prop} {x : HM P α} {B B' : α → Heap P → Prop}
    (h : Tri n E A x B) (ha : ∀ h, A' h → A h) (hb : ∀ v h, B v h → B' v h) : Tri n E A' x B' :=
  fun hp hn hA => ⟨(h hp hn (ha hp hA)).1, fun v hv => hb v _ ((h hp hn (ha hp hA)).2 v hv)⟩

theorem Tri.assume {n : ℕ} {E : Set ℕ} {φ : Prop} {x : HM P α} {B : α → Heap P → Prop}
    (h : φ → Tri n E (fun _ => True) x B) : Tri n E (fun _ => φ) x B :=
  fun hp hn hφ => h hφ hp hn trivial

theorem Tri.pure {n : ℕ} {E : Set ℕ} {A : Heap P → Prop} {v : α} {B : α → Heap P → Prop} (h : ∀ hp, A hp → B v hp) :
    Tri n E A (Pure.pure v : HM P α) B :=
  fun hp _ hA => ⟨Keep.refl _ _ _, fun _ hv => by cases hv; exact h hp hA⟩

theorem Tri.throw {n : ℕ} {E : Set ℕ} {A : Heap P → Prop} {e : PyErr} {B : α → Heap P → Prop} :
    Tri n E A (HM.throw e : HM P α) B := fun _ _ _ => ⟨Keep.refl _ _ _, fun _ hv => by cases hv⟩

theorem Tri.lift {n : ℕ} {E : Set ℕ} {A : Heap P → Prop} {x : PyM α} {B : α → Heap P → Prop}
    (h : ∀ v hp, x = .ok v → A hp → B v hp) : Tri n E A (HM.lift x : HM P α) B :=
  fun hp _ hA => ⟨Keep.refl _ _ _, fun v hv => h v hp hv hA⟩

theorem Tri.readW {n : ℕ} {E : Set ℕ} {A : Heap P → Prop} {a : ℕ} : Tri n E A (HM.readW a) (fun v h => A h ∧ h.w a = v) :=
  fun _ _ hA => ⟨Keep.refl _ _ _, fun v hv => by cases hv; exact ⟨hA, rfl⟩⟩
theorem Tri.readPart {n : ℕ} {E : Set ℕ} {A : Heap P → Prop} {a : ℕ} :
    Tri n E A (HM.readPart a) (fun v h => A h ∧ h.part a = v) :=
  fun _ _ hA => ⟨Keep.refl _ _ _, fun v hv => by cases hv; exact ⟨hA, rfl⟩⟩
theorem Tri.readObj {n : ℕ} {E : Set ℕ} {A : Heap P → Prop} {a : ℕ} :
    Tri n E A (HM.readObj a) (fun v h => A h ∧ h.obj a = v) :=
  fun _ _ hA => ⟨Keep.refl _ _ _, fun v hv => by cases hv; exact ⟨hA, rfl⟩⟩

/-- Object `o` was created after time `n`, and so were its arrays. -/
def FreshObj (n o : ℕ) (h : Heap P) : Prop :=
  n ≤ o ∧ o < h.next ∧ n ≤ (h.obj o).part ∧ (h.obj o).part < h.next ∧ n ≤ (h.obj o).w ∧ (h.obj o).w < h.next

/-- Object `o` was created after time `n`; its arrays exist. -/
def NewObj (n o : ℕ) (h : Heap P) : Prop :=
  n ≤ o ∧ o < h.next ∧ (h.obj o).part < h.next ∧ (h.obj o).w < h.next

theorem FreshObj.new {n o : ℕ} {h : Heap P} (f : FreshObj n o h) : NewObj n o h :=
  ⟨f.1, f.2.1, f.2.2.2.1, f.2.2.2.2.2⟩

theorem Tri.allocW {n : ℕ} {E : Set ℕ} {A : Heap P → Prop} {l : List ℝ} {B : ℕ → Heap P → Prop}
    (h : ∀ hp : Heap P, n ≤ hp.next → A hp →
      B hp.next { hp with next := hp.next + 1, w := Function.update hp.w hp.next l }) :
    Tri n E A (HM.allocW l) B := fun hp hn hA =>
  ⟨⟨Nat.le_succ _, fun _ _ => rfl, fun a ha => Function.update_of_ne (by omega) _ _, fun _ _ _ => rfl⟩,
   fun v hv => by cases hv; exact h hp hn hA⟩

theorem Tri.allocPart {n : ℕ} {E : Set ℕ} {A : Heap P → Prop} {l : List P} {B : ℕ → Heap P → Prop}
    (h : ∀ hp : Heap P, n ≤ hp.next → A hp →
      B hp.next { hp with next := hp.next + 1, part := Function.update hp.part hp.next l }) :
    Tri n E A (HM.allocPart l) B := fun hp hn hA =>
  ⟨⟨Nat.le_succ _, fun a ha => Function.update_of_ne (by omega) _ _, fun _ _ => rfl, fun _ _ _ => rfl⟩,
   fun v hv => by cases hv; exact h hp hn hA⟩

theorem Tri.allocObj {n : ℕ} {E : Set ℕ} {A : Heap P → Prop} {o : HPA} {B : ℕ → Heap P → Prop}
    (h : ∀ hp : Heap P, n ≤ hp.next → A hp →
      B hp.next { hp with next := hp.next + 1, obj := Function.update hp.obj hp.next o }) :
    Tri n E A (HM.allocObj o) B := fun hp hn hA =>
  ⟨⟨Nat.le_succ _, fun _ _ => rfl, fun _ _ => rfl, fun a ha _ => Function.update_of_ne (by omega) _ _⟩,
   fun v hv => by cases hv; exact h hp hn hA⟩

theorem Tri.writeW {n : ℕ} {E : Set ℕ} {A : Heap P → Prop} {a : ℕ} {l : List ℝ} {B : Unit → Heap P → Prop}
    (ha : ∀ hp, A hp → n ≤ a)
    (h : ∀ hp : Heap P, n ≤ hp.next → A hp → B () { hp with w := Function.update hp.w a l }) :
    Tri n E A (HM.writeW a l) B := fun hp hn hA =>
  ⟨⟨le_refl _, fun _ _ => rfl, fun b hb => Function.update_of_ne (by have := ha hp hA; omega) _ _, fun _ _ _ => rfl⟩,
   fun v hv => by cases hv; exact h hp hn hA⟩

theorem Tri.writePart {n : ℕ} {E : Set ℕ} {A : Heap P → Prop} {a : ℕ} {l : List P} {B : Unit → Heap P → Prop}
    (ha : ∀ hp, A hp → n ≤ a)
    (h : ∀ hp : Heap P, n ≤ hp.next → A hp → B () { hp with part := Function.update hp.part a l }) :
    Tri n E A (HM.writePart a l) B := fun hp hn hA =>
  ⟨⟨le_refl _, fun b hb => Function.update_of_ne (by have := ha hp hA; omega) _ _, fun _ _ => rfl, fun _ _ _ => rfl⟩,
   fun v hv => by cases hv; exact h hp hn hA⟩

theorem Tri.writeObj {n : ℕ} {E : Set ℕ} {A : Heap P → Prop} {a : ℕ} {o : HPA} {B : Unit → Heap P → Prop}
    (ha : ∀ hp, A hp → n ≤ a ∨ a ∈ E)
    (h : ∀ hp : Heap P, n ≤ hp.next → A hp → B () { hp with obj := Function.update hp.obj a o }) :
    Tri n E A (HM.writeObj a o) B := fun hp hn hA =>
  ⟨⟨le_refl _, fun _ _ => rfl, fun _ _ => rfl, fun b hb he => Function.update_of_ne (by
      rintro rfl
      rcases ha hp hA with h | h
      · omega
      · exact he h) _ _⟩,
   fun v hv => by cases hv; exact h hp hn hA⟩

/-- A call into the model keeps what the caller knows about its own object. -/
theorem Tri.quiet {n o : ℕ} {E : Set ℕ} {A : Heap P → Prop} {W : Set ℕ} {x : HM P α} (hx : Spec.Quiet W x)
    (hW : ∀ hp, A hp → ∀ a ∈ W, n ≤ a) (hA : ∀ hp, A hp → FreshObj n o hp) :
    Tri n E A x (fun _ h => FreshObj n o h) := by
  intro hp hn ha
  obtain ⟨h1, h2⟩ := hx hp
  refine ⟨⟨h1, fun a hlt => (h2 a (by omega)).2.2 (fun hw => ?_), fun a hlt => (h2 a (by omega)).2.1,
    fun a hlt _ => (h2 a (by omega)).1⟩, fun v _ => ?_⟩
  · have := hW hp ha a hw; omega
  · obtain ⟨f1, f2, f3, f4, f5, f6⟩ := hA hp ha
    have e := (h2 o f2).1
    unfold FreshObj
    rw [e]; exact ⟨f1, by omega, f3, by omega, f5, by omega⟩

theorem Tri.quietNew {n o : ℕ} {E : Set ℕ} {A : Heap P → Prop} {W : Set ℕ} {x : HM P ℕ} (hx : Spec.Quiet W x)
    (hr : Spec.ReturnsNew x)
    (hW : ∀ hp, A hp → ∀ a ∈ W, n ≤ a) (hA : ∀ hp, A hp → FreshObj n o hp) :
    Tri n E A x (fun v h => FreshObj n o h ∧ n ≤ v ∧ v < h.next) := by
  intro hp hn ha
  obtain ⟨k, q⟩ := Tri.quiet hx hW hA hp hn ha
  refine ⟨k, fun v hv => ⟨q v hv, ?_⟩⟩
  obtain ⟨h1, h2⟩ := hr hp v hv
  exact ⟨hn.trans h1, h2⟩

theorem Tri.quietAlloc {n o : ℕ} {E : Set ℕ} {A : Heap P → Prop} {W : Set ℕ} {x : HM P ℕ} (hx : Spec.Quiet W x)
    (hr : Spec.ReturnsAllocated x)
    (hW : ∀ hp, A hp → ∀ a ∈ W, n ≤ a) (hA : ∀ hp, A hp → FreshObj n o hp) :
    Tri n E A x (fun v h => FreshObj n o h ∧ v < h.next) := by
  intro hp hn ha
  obtain ⟨k, q⟩ := Tri.quiet hx hW hA hp hn ha
  exact ⟨k, fun v hv => ⟨q v hv, hr hp v hv⟩⟩

/-! ### The modelled functions -/

theorem newH_tri {n : ℕ} {A : Heap P → Prop} (p : ℕ) (w : Option ℕ) :
    Tri n ∅ A (newH p w) (fun o h => FreshObj n o h) := by
  unfold newH
  refine Tri.bind Tri.readPart fun pl => ?_
  refine Tri.bind (B := fun a h => n ≤ a ∧ a < h.next) (Tri.allocPart fun hp hn _ => ⟨hn, by simp⟩) fun a => ?_
  cases w with
  | some w =>
    refine Tri.bind Tri.readW fun lw => ?_
    refine Tri.bind (B := fun b h => (n ≤ a ∧ a < h.next) ∧ n ≤ b ∧ b < h.next)
      (Tri.allocW fun hp hn hA => ⟨⟨hA.1.1, by have := hA.1.2; simp only; omega⟩, hn, by simp⟩) fun b => ?_
    refine Tri.allocObj fun hp hn hA => ?_
    unfold FreshObj
    simp only [Function.update_self]
    omega
  | none =>
    simp only
    split_ifs
    · exact Tri.throw
    · refine Tri.bind (B := fun b h => (n ≤ a ∧ a < h.next) ∧ n ≤ b ∧ b < h.next)
        (Tri.allocW fun hp hn hA => ⟨⟨hA.1, by have := hA.2; simp only; omega⟩, hn, by simp⟩) fun b => ?_
      refine Tri.allocObj fun hp hn hA => ?_
      unfold FreshObj
      simp only [Function.update_self]
      omega

theorem resampleH_tri {C : HCallbacks P U Y V Ω} (hC : Spec.Honest C) {n o : ℕ} (N : ℕ) (r : ℝ) :
    Tri n ∅ (FreshObj n o) (resampleH C o N r) (fun _ h => FreshObj n o h) := by
  unfold resampleH
  refine Tri.bind Tri.readObj fun pa => Tri.bind Tri.readW fun w => ?_
  refine Tri.bind (B := fun _ h => FreshObj n o h) (Tri.lift fun _ _ _ h => h.1.1) fun m => ?_
  refine Tri.bind (B := fun _ h => FreshObj n o h) (Tri.lift fun _ _ _ h => h) fun ind => ?_
  refine Tri.bind (Tri.quietNew (hC.copyInd _ _).1 (hC.copyInd _ _).2 (by simp) (fun _ h => h)) fun np => ?_
  refine Tri.bind (B := fun b h => (FreshObj n o h ∧ n ≤ np ∧ np < h.next) ∧ n ≤ b ∧ b < h.next)
    (Tri.allocW fun hp hn hA => ?_) fun nw => ?_
  · obtain ⟨⟨f1, f2, f3, f4, f5, f6⟩, g1, g2⟩ := hA
    unfold FreshObj
    simp only
    omega
  refine Tri.bind (B := fun _ h => FreshObj n o h) (Tri.writeObj (fun _ h => Or.inl h.1.1.1) fun hp hn hA => ?_) fun _ => ?_
  · obtain ⟨⟨⟨f1, f2, f3, f4, f5, f6⟩, g1, g2⟩, g3, g4⟩ := hA
    unfold FreshObj
    simp only [Function.update_self]
    omega
  · exact Tri.pure fun _ h => h

theorem weightUpdateH_tri {n o nw : ℕ} (hnw : n ≤ nw) :
    Tri n ∅ (fun h : Heap P => FreshObj n o h) (weightUpdateH o nw) (fun _ h => FreshObj n o h) := by
  unfold weightUpdateH
  refine Tri.bind Tri.readW fun l => ?_
  refine Tri.bind (B := fun _ h => FreshObj n o h) (Tri.lift fun _ _ _ h => h.1) fun m => ?_
  refine Tri.bind Tri.readObj fun pa => ?_
  refine Tri.bind (B := fun _ h => FreshObj n o h) (Tri.writeObj (fun _ h => Or.inl h.1.1) fun hp hn hA => ?_) fun _ => ?_
  · obtain ⟨⟨f1, f2, f3, f4, f5, f6⟩, rfl⟩ := hA
    unfold FreshObj; simp only [Function.update_self]; omega
  refine Tri.bind (B := fun _ h => FreshObj n o h) (Tri.writeW (fun _ _ => hnw) fun hp hn hA => hA) fun _ => ?_
  refine Tri.bind Tri.readObj fun pa => ?_
  refine Tri.bind (B := fun _ h => FreshObj n o h ∧ h.obj o = pa) (Tri.conseq Tri.readW (fun _ h => h) (fun _ _ h => h.1)) fun w => ?_
  refine Tri.bind (B := fun _ h => FreshObj n o h ∧ h.obj o = pa) (Tri.conseq Tri.readW (fun _ h => h) (fun _ _ h => h.1)) fun l => ?_
  refine Tri.bind (B := fun _ h => FreshObj n o h ∧ h.obj o = pa) (Tri.lift fun _ _ _ h => h) fun s => ?_
  refine Tri.bind (B := fun a h => (FreshObj n o h ∧ h.obj o = pa) ∧ n ≤ a ∧ a < h.next) (Tri.allocW fun hp hn hA => ?_) fun a => ?_
  · obtain ⟨⟨f1, f2, f3, f4, f5, f6⟩, g⟩ := hA
    unfold FreshObj; simp only; exact ⟨⟨by omega, g⟩, by omega⟩
  refine Tri.bind (B := fun _ h => FreshObj n o h ∧ (n ≤ pa.part ∧ pa.part < h.next) ∧ n ≤ a ∧ a < h.next)
    (Tri.writeObj (fun _ h => Or.inl h.1.1.1) fun hp hn hA => ?_) fun _ => ?_
  · obtain ⟨⟨⟨f1, f2, f3, f4, f5, f6⟩, rfl⟩, g1, g2⟩ := hA
    unfold FreshObj; simp only [Function.update_self]; omega
  refine Tri.bind (B := fun _ h => FreshObj n o h ∧ (n ≤ pa.part ∧ pa.part < h.next) ∧ n ≤ a ∧ a < h.next)
    (Tri.lift fun _ _ _ h => h) fun m' => ?_
  refine Tri.bind (B := fun _ h => FreshObj n o h ∧ n ≤ a) (Tri.writeObj (fun _ h => Or.inl h.1.1) fun hp hn hA => ?_) fun _ => ?_
  · obtain ⟨⟨f1, f2, f3, f4, f5, f6⟩, ⟨g1, g2⟩, g3, g4⟩ := hA
    unfold FreshObj; simp only [Function.update_self]; omega
  exact Tri.writeW (fun _ h => h.2) fun hp hn hA => hA.1

theorem updateH_tri {C : HCallbacks P U Y V Ω} (hC : Spec.Honest C) {n o : ℕ} (tr : List HStep) (anc : List ℕ)
    (uv : List (Slot U)) (yv : List (Slot Y)) (tv : List ℕ) (cur : ℕ) (ω : Ω) :
    Tri n ∅ (FreshObj n o) (updateH C tr anc uv yv tv cur o ω) (fun _ h => FreshObj n o h) := by
  unfold updateH
  refine Tri.bind (Tri.quiet (hC.noise _ _ _ _ _) (by simp) (fun _ h => h)) fun v => ?_
  refine Tri.bind Tri.readObj fun pa => ?_
  refine Tri.quiet (hC.update _ _ _ _ _ _ _) ?_ (fun _ h => h.1)
  rintro hp ⟨⟨f1, f2, f3, f4, f5, f6⟩, rfl⟩ a ha
  rw [Set.mem_singleton_iff] at ha; omega

theorem measureH_tri {C : HCallbacks P U Y V Ω} (hC : Spec.Honest C) {n o : ℕ} (tr : List HStep) (anc : List ℕ)
    (uv : List (Slot U)) (yv : List (Slot Y)) (tv : List ℕ) (cur : ℕ) :
    Tri n ∅ (FreshObj n o) (measureH C tr anc o uv yv tv cur) (fun _ h => FreshObj n o h) := by
  unfold measureH
  refine Tri.bind Tri.readObj fun pa => ?_
  refine Tri.bind (Tri.quietNew (hC.measure _ _ _ _ _ _).1 (hC.measure _ _ _ _ _ _).2 (by simp) (fun _ h => h.1)) fun nw => ?_
  intro hp hn hA
  exact weightUpdateH_tri hA.2.1 hp hn hA.1

theorem maybeResampleH_tri {C : HCallbacks P U Y V Ω} (hC : Spec.Honest C) {n o : ℕ} (res r : ℝ) :
    Tri n ∅ (FreshObj n o) (maybeResampleH C res o r) (fun _ h => FreshObj n o h) := by
  unfold maybeResampleH
  refine Tri.bind (B := fun _ h => FreshObj n o h) (Tri.conseq Tri.readObj (fun _ h => h) fun _ _ h => h.1) fun pa => ?_
  split_ifs
  · refine Tri.bind (B := fun _ h => FreshObj n o h) (Tri.conseq Tri.readW (fun _ h => h) fun _ _ h => h.1) fun w => ?_
    refine Tri.bind (B := fun _ h => FreshObj n o h) (Tri.lift fun _ _ _ h => h) fun ne => ?_
    split_ifs
    · exact Tri.bind (resampleH_tri hC _ _) fun _ => Tri.pure fun _ h => h
    · exact Tri.pure fun _ h => h
  · exact Tri.pure fun _ h => h

theorem pfForwardH_tri {C : HCallbacks P U Y V Ω} (hC : Spec.Honest C) (n : ℕ) (res : ℝ) (tr : List HStep)
    (yv : List (Slot Y)) (uv : List (Slot U)) (tv : List ℕ) (cur : ℕ) (d : Draws Ω) :
    Tri n ∅ (fun _ => True) (pfForwardH C res tr yv uv tv cur d) (fun v h => NewObj n v.1 h) := by
  unfold pfForwardH
  refine Tri.bind (B := fun _ _ => True) (Tri.lift fun _ _ _ h => h) fun last => ?_
  refine Tri.bind Tri.readObj fun lpa => Tri.bind (newH_tri _ _) fun o => ?_
  refine Tri.bind (maybeResampleH_tri hC _ _) fun v => ?_
  exact Tri.bind (updateH_tri hC _ _ _ _ _ _ _) fun _ => Tri.bind (measureH_tri hC _ _ _ _ _ _) fun _ =>
    Tri.pure fun _ h => h.new

theorem sirForwardH_tri {C : HCallbacks P U Y V Ω} (hC : Spec.Honest C) (n : ℕ) (res : ℝ) (tr : List HStep)
    (yv : List (Slot Y)) (uv : List (Slot U)) (tv : List ℕ) (cur : ℕ) (d : Draws Ω) :
    Tri n ∅ (fun _ => True) (sirForwardH C res tr yv uv tv cur d) (fun v h => NewObj n v.1 h) := by
  unfold sirForwardH
  refine Tri.bind (B := fun _ _ => True) (Tri.lift fun _ _ _ h => h) fun last => ?_
  refine Tri.bind Tri.readObj fun lpa => Tri.bind (newH_tri _ _) fun o => ?_
  refine Tri.bind (maybeResampleH_tri hC _ _) fun v => ?_
  refine Tri.bind (B := fun _ h => FreshObj n o h) (Tri.conseq Tri.readObj (fun _ h => h) fun _ _ h => h.1) fun pa => ?_
  refine Tri.bind (B := fun _ h => FreshObj n o h) (Tri.lift fun _ _ _ h => h) fun u => ?_
  refine Tri.bind (B := fun _ h => FreshObj n o h) (Tri.lift fun _ _ _ h => h) fun y => ?_
  refine Tri.bind (B := fun _ h => FreshObj n o h) (Tri.lift fun _ _ _ h => h) fun t => ?_
  refine Tri.bind (Tri.quietAlloc (hC.qsample _ _ _ _ _).1 (hC.qsample _ _ _ _ _).2 (by simp) (fun _ h => h)) fun pn => ?_
  have hq : ∀ {β : Type} {x : HM P β}, Spec.Quiet ∅ x →
      Tri n ∅ (fun h => FreshObj n o h ∧ pn < h.next) x (fun _ h => FreshObj n o h ∧ pn < h.next) := by
    intro β x hx hp hn hA
    obtain ⟨k, q⟩ := Tri.quiet (A := fun h => FreshObj n o h ∧ pn < h.next) hx (by simp) (fun _ h => h.1) hp hn hA
    exact ⟨k, fun v hv => ⟨q v hv, lt_of_lt_of_le hA.2 k.next_le⟩⟩
  refine Tri.bind (hq (hC.logpQ _ _ _ _ _)) fun qw => Tri.bind (hq (hC.logpXnext _ _ _ _)) fun nw => ?_
  refine Tri.bind (B := fun _ h => FreshObj n o h ∧ pn < h.next) (Tri.lift fun _ _ _ h => h) fun t1 => ?_
  refine Tri.bind (hq (hC.sirMeasure _ _ _)) fun yw => ?_
  refine Tri.bind (B := fun _ h => FreshObj n o h ∧ pn < h.next) (Tri.conseq Tri.readW (fun _ h => h) fun _ _ h => h.1) fun yw => ?_
  refine Tri.bind (B := fun _ h => FreshObj n o h ∧ pn < h.next) (Tri.conseq Tri.readW (fun _ h => h) fun _ _ h => h.1) fun nw => ?_
  refine Tri.bind (B := fun _ h => FreshObj n o h ∧ pn < h.next) (Tri.conseq Tri.readW (fun _ h => h) fun _ _ h => h.1) fun qw => ?_
  refine Tri.bind (B := fun _ h => FreshObj n o h ∧ pn < h.next) (Tri.lift fun _ _ _ h => h) fun s => ?_
  refine Tri.bind (B := fun _ h => FreshObj n o h ∧ pn < h.next) (Tri.lift fun _ _ _ h => h) fun s => ?_
  refine Tri.bind (B := fun a h => (FreshObj n o h ∧ pn < h.next) ∧ n ≤ a) (Tri.allocW fun hp hn hA => ?_) fun a => ?_
  · obtain ⟨⟨f1, f2, f3, f4, f5, f6⟩, g⟩ := hA
    unfold FreshObj; simp only; omega
  refine Tri.bind (B := fun _ h => FreshObj n o h ∧ pn < h.next) ?_ fun _ => ?_
  · intro hp hn hA
    obtain ⟨k, q⟩ := weightUpdateH_tri hA.2 hp hn hA.1.1
    exact ⟨k, fun v hv => ⟨q v hv, lt_of_lt_of_le hA.1.2 k.next_le⟩⟩
  refine Tri.bind Tri.readObj fun pa => ?_
  refine Tri.bind (B := fun _ h => NewObj n o h) (Tri.writeObj (fun _ h => Or.inl h.1.1.1) fun hp hn hA => ?_) fun _ => Tri.pure fun _ h => h
  obtain ⟨⟨⟨f1, f2, f3, f4, f5, f6⟩, g⟩, rfl⟩ := hA
  unfold NewObj; simp only [Function.update_self]; omega

/-! ### The remaining filters -/

/-- `h'` is `h` with more memory. -/
def Ext (h h' : Heap P) : Prop := h.next ≤ h'.next ∧ ∀ a < h.next, h'.obj a = h.obj a ∧ h'.w a = h.w a ∧ h'.part a = h.part a

def StableP (A : Heap P → Prop) : Prop := ∀ h h', Ext h h' → A h → A h'

theorem stable_true : StableP (fun _ : Heap P => True) := fun _ _ _ _ => trivial

theorem stable_fresh (n o : ℕ) : StableP (FreshObj (P := P) n o) := by
  rintro h h' ⟨hn, he⟩ ⟨f1, f2, f3, f4, f5, f6⟩
  unfold FreshObj
  rw [(he o f2).1]
  exact ⟨f1, by omega, f3, by omega, f5, by omega⟩

theorem stable_new (n o : ℕ) : StableP (NewObj (P := P) n o) := by
  rintro h h' ⟨hn, he⟩ ⟨f1, f2, f3, f4⟩
  unfold NewObj
  rw [(he o f2).1]
  exact ⟨f1, by omega, by omega, by omega⟩

theorem stable_alloc (a : ℕ) : StableP (fun h : Heap P => a < h.next) := fun _ _ h ha => lt_of_lt_of_le ha h.1

theorem StableP.and {A B : Heap P → Prop} (ha : StableP A) (hb : StableP B) : StableP fun h => A h ∧ B h :=
  fun h h' he hab => ⟨ha h h' he hab.1, hb h h' he hab.2⟩

theorem Spec.Quiet.ext {x : HM P α} (hx : Spec.Quiet ∅ x) (h : Heap P) : Ext h (x h).2 :=
  ⟨(hx h).1, fun a ha => ⟨((hx h).2 a ha).1, ((hx h).2 a ha).2.1, ((hx h).2 a ha).2.2 (by simp)⟩⟩

theorem Tri.stay {n : ℕ} {E : Set ℕ} {A : Heap P → Prop} {x : HM P α} (hx : Spec.Quiet ∅ x) (hA : StableP A) :
    Tri n E A x (fun _ h => A h) := by
  intro h hn ha
  obtain ⟨e1, e2⟩ := hx.ext h
  exact ⟨⟨e1, fun a ha => (e2 a (by omega)).2.2, fun a ha => (e2 a (by omega)).2.1, fun a ha _ => (e2 a (by omega)).1⟩,
    fun _ _ => hA _ _ (hx.ext h) ha⟩

theorem Tri.stayNew {n : ℕ} {E : Set ℕ} {A : Heap P → Prop} {x : HM P ℕ} (hx : Spec.Quiet ∅ x) (hr : Spec.ReturnsNew x) (hA : StableP A) :
    Tri n E A x (fun v h => A h ∧ n ≤ v ∧ v < h.next) := by
  intro h hn ha
  obtain ⟨k, q⟩ := Tri.stay (n := n) (E := E) hx hA h hn ha
  exact ⟨k, fun v hv => ⟨q v hv, hn.trans (hr h v hv).1, (hr h v hv).2⟩⟩

theorem Tri.liftS {n : ℕ} {E : Set ℕ} {A : Heap P → Prop} (x : PyM α) : Tri n E A (HM.lift x) (fun _ h => A h) :=
  Tri.lift fun _ _ _ h => h

theorem Tri.rd {n : ℕ} {E : Set ℕ} {A : Heap P → Prop} (a : ℕ) : Tri n E A (HM.readObj a) (fun _ h => A h) :=
  Tri.conseq Tri.readObj (fun _ h => h) fun _ _ h => h.1

theorem Tri.rdW {n : ℕ} {E : Set ℕ} {A : Heap P → Prop} (a : ℕ) : Tri n E A (HM.readW a) (fun _ h => A h) :=
  Tri.conseq Tri.readW (fun _ h => h) fun _ _ h => h.1

theorem Tri.rdP {n : ℕ} {E : Set ℕ} {A : Heap P → Prop} (a : ℕ) : Tri n E A (HM.readPart a) (fun _ h => A h) :=
  Tri.conseq Tri.readPart (fun _ h => h) fun _ _ h => h.1

/-- Read the object `o` the filter is building. -/
theorem Tri.rdOwn {n : ℕ} {E : Set ℕ} {A : Heap P → Prop} {o : ℕ} (hA : ∀ h, A h → FreshObj n o h) :
    Tri n E A (HM.readObj o) (fun pa h => A h ∧ n ≤ pa.part ∧ n ≤ pa.w ∧ h.obj o = pa) :=
  Tri.conseq Tri.readObj (fun _ h => h) (by
    rintro v h ⟨hf, rfl⟩; exact ⟨hf, (hA h hf).2.2.1, (hA h hf).2.2.2.2.1, rfl⟩)

theorem Tri.bindP {n : ℕ} {E : Set ℕ} {A : Heap P → Prop} {φ : α → Prop} {x : HM P α} {B : α → Heap P → Prop} {D : β → Heap P → Prop} {f : α → HM P β}
    (hx : Tri n E A x (fun v h => B v h ∧ φ v)) (hf : ∀ v, φ v → Tri n E (B v) (f v) D) : Tri n E A (x >>= f) D := by
  refine Tri.bind hx fun v => ?_
  intro h hn hA
  exact hf v hA.2 h hn hA.1

theorem condPartH_quiet (ct : List HStep) (k : ℕ) : Spec.Quiet ∅ (condPartH ct k : HM P ℕ) := by
  intro h
  unfold condPartH
  simp only [HM.bind_run, HM.lift]
  cases getIdx ct k <;> exact ⟨le_rfl, fun _ _ => ⟨rfl, rfl, fun _ => rfl⟩⟩

theorem condAncestorH_quiet (wt w N : ℕ) (r : ℝ) : Spec.Quiet ∅ (condAncestorH wt w N r : HM P ℕ) := by
  intro h
  unfold condAncestorH
  simp only [HM.bind_run, HM.lift, HM.readW]
  cases fancy (h.w w) (List.range N) <;> exact ⟨le_rfl, fun _ _ => ⟨rfl, rfl, fun _ => rfl⟩⟩

theorem indexPartH_eq (p : ℕ) (idx : List ℕ) (h : Heap P) : indexPartH p idx h = match fancy (h.part p) idx with
    | .ok l => (.ok h.next, { h with next := h.next + 1, part := Function.update h.part h.next l })
    | .error e => (.error e, h) := by
  unfold indexPartH
  simp only [HM.bind_run, HM.lift, HM.readPart]
  cases fancy (h.part p) idx <;> rfl

theorem indexPartH_quiet (p : ℕ) (idx : List ℕ) : Spec.Quiet ∅ (indexPartH p idx : HM P ℕ) := by
  intro h
  rw [indexPartH_eq]
  cases fancy (h.part p) idx with
  | error e => exact ⟨le_rfl, fun _ _ => ⟨rfl, rfl, fun _ => rfl⟩⟩
  | ok l => exact ⟨Nat.le_succ _, fun a ha => ⟨rfl, rfl, fun _ => Function.update_of_ne (by omega) _ _⟩⟩

theorem indexPartH_new (p : ℕ) (idx : List ℕ) : Spec.ReturnsNew (indexPartH p idx : HM P ℕ) := by
  intro h v hv
  rw [indexPartH_eq] at hv ⊢
  cases hf : fancy (h.part p) idx with
  | error e => rw [hf] at hv; cases hv
  | ok l => rw [hf] at hv; cases hv; simp

/-- Writing particles does not affect `A`. -/
def PartFree (A : Heap P → Prop) : Prop := ∀ h a l, A h → A { h with part := Function.update h.part a l }

theorem setRefH_tri {n : ℕ} {A : Heap P → Prop} (hA : PartFree A) {a : ℕ} (c : ℕ) (hn : n ≤ a) :
    Tri n ∅ A (setRefH a c) (fun _ h => A h) := by
  unfold setRefH
  refine Tri.bind (Tri.rdP _) fun cp => Tri.bind (Tri.liftS _) fun x => Tri.bind (Tri.rdP _) fun p => Tri.bind (Tri.liftS _) fun p' => ?_
  exact Tri.writePart (fun _ _ => hn) fun h _ ha => hA h a p' ha

theorem setRefFromH_tri {n : ℕ} {A : Heap P → Prop} (hA : PartFree A) {a : ℕ} (c : ℕ) (hn : n ≤ a) :
    Tri n ∅ A (setRefFromH a c) (fun _ h => A h) := by
  unfold setRefFromH
  refine Tri.bind (Tri.rdP _) fun cp => Tri.bind (Tri.rdP _) fun p => Tri.bind (Tri.liftS _) fun p' => ?_
  exact Tri.writePart (fun _ _ => hn) fun h _ ha => hA h a p' ha

theorem apfFirstH_tri {C : HCallbacks P U Y V Ω} (hC : Spec.Honest C) {n o : ℕ} (uv : List (Slot U)) (tv : List ℕ) (cur : ℕ) (y : Slot Y) :
    Tri n ∅ (FreshObj n o) (apfFirstH C uv tv cur o y) (fun _ h => FreshObj n o h) := by
  unfold apfFirstH
  split
  · exact Tri.pure fun _ h => h
  · refine Tri.bind (Tri.liftS _) fun u => Tri.bind (Tri.liftS _) fun t => ?_
    refine Tri.bindP (φ := fun pa => n ≤ pa.w) (B := fun _ h => FreshObj n o h)
      (Tri.conseq (Tri.rdOwn fun _ h => h) (fun _ h => h) fun _ _ h => ⟨h.1, h.2.2.1⟩) fun pa hpa => ?_
    refine Tri.bind (Tri.stay (hC.first _ _ _ _) (stable_fresh n o)) fun l1 => ?_
    refine Tri.bind (Tri.rdW _) fun w => Tri.bind (Tri.rdW _) fun l => Tri.bind (Tri.liftS _) fun w1 => ?_
    refine Tri.bind (B := fun _ h => FreshObj n o h) (Tri.writeW (fun _ _ => hpa) fun _ _ h => h) fun _ => ?_
    refine Tri.bind (Tri.liftS _) fun m => ?_
    refine Tri.bind (B := fun _ h => FreshObj n o h) (Tri.writeW (fun _ _ => hpa) fun _ _ h => h) fun _ => Tri.pure fun _ h => h

theorem apfResampleH_tri {C : HCallbacks P U Y V Ω} (hC : Spec.Honest C) {n o : ℕ} (res r : ℝ) (l1 : Option ℕ) :
    Tri n ∅ (FreshObj n o) (apfResampleH C res o r l1) (fun _ h => FreshObj n o h) := by
  unfold apfResampleH
  refine Tri.bind (Tri.rd _) fun pa => ?_
  split_ifs
  · refine Tri.bind (Tri.rdW _) fun w => Tri.bind (Tri.liftS _) fun ne => ?_
    split_ifs
    · refine Tri.bind (resampleH_tri hC _ _) fun anc => ?_
      cases l1 with
      | none => exact Tri.throw
      | some a =>
        refine Tri.bind (Tri.rdW _) fun l => Tri.bind (Tri.liftS _) fun l' => ?_
        refine Tri.bind (B := fun _ h => FreshObj n o h) (Tri.allocW fun hp hn hA => ?_) fun a' => Tri.pure fun _ h => h
        obtain ⟨f1, f2, f3, f4, f5, f6⟩ := hA
        unfold FreshObj; simp only; omega
    · exact Tri.pure fun _ h => h
  · exact Tri.pure fun _ h => h

theorem apfSecondH_tri {n o : ℕ} (l1 : Option ℕ) : Tri n ∅ (FreshObj (P := P) n o) (apfSecondH o l1) (fun _ h => FreshObj n o h) := by
  cases l1 with
  | none => exact Tri.throw
  | some a =>
    unfold apfSecondH
    refine Tri.bindP (φ := fun pa => n ≤ pa.w) (B := fun _ h => FreshObj n o h)
      (Tri.conseq (Tri.rdOwn fun _ h => h) (fun _ h => h) fun _ _ h => ⟨h.1, h.2.2.1⟩) fun pa hpa => ?_
    refine Tri.bind (Tri.rdW _) fun w => Tri.bind (Tri.rdW _) fun l => Tri.bind (Tri.liftS _) fun w1 => ?_
    refine Tri.bind (B := fun _ h => FreshObj n o h) (Tri.writeW (fun _ _ => hpa) fun _ _ h => h) fun _ => ?_
    refine Tri.bind (Tri.liftS _) fun m => ?_
    exact Tri.writeW (fun _ _ => hpa) fun _ _ h => h

theorem apfForwardH_tri {C : HCallbacks P U Y V Ω} (hC : Spec.Honest C) (n : ℕ) (res : ℝ) (tr : List HStep)
    (yv : List (Slot Y)) (uv : List (Slot U)) (tv : List ℕ) (cur : ℕ) (d : Draws Ω) :
    Tri n ∅ (fun _ => True) (apfForwardH C res tr yv uv tv cur d) (fun v h => NewObj n v.1 h) := by
  unfold apfForwardH
  refine Tri.bind (Tri.liftS _) fun last => Tri.bind (Tri.rd _) fun lpa => Tri.bind (newH_tri _ _) fun o => ?_
  refine Tri.bind (Tri.liftS _) fun y => Tri.bind (apfFirstH_tri hC _ _ _ _) fun l1 => Tri.bind (apfResampleH_tri hC _ _ _) fun v => ?_
  refine Tri.bind (updateH_tri hC _ _ _ _ _ _ _) fun _ => Tri.bind (measureH_tri hC _ _ _ _ _ _) fun _ => ?_
  exact Tri.bind (apfSecondH_tri _) fun _ => Tri.pure fun _ h => h.new

theorem condMeasureH_tri {C : HCallbacks P U Y V Ω} (hC : Spec.Honest C) {n o : ℕ} (tr : List HStep) (anc : List ℕ)
    (uv : List (Slot U)) (yv : List (Slot Y)) (tv : List ℕ) (cur : ℕ) :
    Tri n ∅ (FreshObj n o) (condMeasureH C tr anc o uv yv tv cur) (fun _ h => FreshObj n o h) := by
  unfold condMeasureH
  refine Tri.bind (Tri.liftS _) fun y => ?_
  cases y
  · exact Tri.pure fun _ h => h
  · exact measureH_tri hC _ _ _ _ _ _
  · exact measureH_tri hC _ _ _ _ _ _

theorem partFree_fresh (n o : ℕ) : PartFree (FreshObj (P := P) n o) := fun _ _ _ h => h

theorem cpfInitialH_tri {C : HCallbacks P U Y V Ω} (hC : Spec.Honest C) (hG : Spec.GivesAway C) (n : ℕ) (ct : List HStep) (N : ℕ) (ω : Ω) :
    Tri n ∅ (fun _ => True) (cpfInitialH C ct N ω) (fun a h => n ≤ a ∧ a < h.next) := by
  unfold cpfInitialH
  refine Tri.bind (Tri.conseq (Tri.stayNew (hC.create _ _) (hG.create _ _) stable_true) (fun _ h => h) fun _ _ h => h.2) fun a => ?_
  refine Tri.bindP (φ := fun _ => n ≤ a) (B := fun _ h => a < h.next) ?_ fun c hn => ?_
  · intro h hn ha
    obtain ⟨k, q⟩ := Tri.stay (condPartH_quiet ct 0) (stable_alloc a) h hn ha.2
    exact ⟨k, fun v hv => ⟨q v hv, ha.1⟩⟩
  · exact Tri.bind (setRefH_tri (fun _ _ _ h => h) c hn) fun _ => Tri.pure fun _ h => ⟨hn, h⟩

/-- The end shared by the conditional filters `CPF` and `CPFAS`. -/
theorem condTail_tri {C : HCallbacks P U Y V Ω} (hC : Spec.Honest C) {n o : ℕ} (c : ℕ) (tr : List HStep) (anc : List ℕ)
    (uv : List (Slot U)) (yv : List (Slot Y)) (tv : List ℕ) (cur : ℕ) :
    Tri n ∅ (FreshObj n o) (do
      let pa ← HM.readObj o
      setRefH pa.part c
      condMeasureH C tr anc o uv yv tv cur
      return (o, true, anc)) (fun v h => NewObj n v.1 h) := by
  refine Tri.bindP (φ := fun pa => n ≤ pa.part) (B := fun _ h => FreshObj n o h)
    (Tri.conseq (Tri.rdOwn fun _ h => h) (fun _ h => h) fun _ _ h => ⟨h.1, h.2.1⟩) fun pa hpa => ?_
  exact Tri.bind (setRefH_tri (partFree_fresh n o) c hpa) fun _ => Tri.bind (condMeasureH_tri hC _ _ _ _ _ _) fun _ => Tri.pure fun _ h => h.new

theorem cpfForwardH_tri {C : HCallbacks P U Y V Ω} (hC : Spec.Honest C) (n : ℕ) (ct : List HStep) (tr : List HStep)
    (yv : List (Slot Y)) (uv : List (Slot U)) (tv : List ℕ) (cur : ℕ) (d : Draws Ω) :
    Tri n ∅ (fun _ => True) (cpfForwardH C ct tr yv uv tv cur d) (fun v h => NewObj n v.1 h) := by
  unfold cpfForwardH
  refine Tri.bind (Tri.liftS _) fun tc => Tri.bind (Tri.rd _) fun tpa => Tri.bind (Tri.rdP _) fun tp => ?_
  refine Tri.bind (Tri.liftS _) fun last => Tri.bind (Tri.rd _) fun lpa => Tri.bind (Tri.rdW _) fun w => Tri.bind (Tri.liftS _) fun anc0 => ?_
  refine Tri.bind (Tri.stay (hC.copyInd _ _).1 stable_true) fun np => Tri.bind (newH_tri _ _) fun o => ?_
  refine Tri.bind (updateH_tri hC _ _ _ _ _ _ _) fun _ => Tri.bind (Tri.stay (condPartH_quiet _ _) (stable_fresh n o)) fun c => ?_
  exact condTail_tri hC c _ _ _ _ _ _

theorem cpfasForwardH_tri {C : HCallbacks P U Y V Ω} (hC : Spec.Honest C) (n : ℕ) (ct : List HStep) (tr : List HStep)
    (yv : List (Slot Y)) (uv : List (Slot U)) (tv : List ℕ) (cur : ℕ) (d : Draws Ω) :
    Tri n ∅ (fun _ => True) (cpfasForwardH C ct tr yv uv tv cur d) (fun v h => NewObj n v.1 h) := by
  unfold cpfasForwardH
  refine Tri.bind (Tri.liftS _) fun last => Tri.bind (Tri.rd _) fun lpa => Tri.bind (Tri.rdP _) fun lp => Tri.bind (Tri.rdW _) fun w => ?_
  refine Tri.bind (Tri.liftS _) fun anc0 => Tri.bind (Tri.liftS _) fun tc => Tri.bind (Tri.rd _) fun tpa => ?_
  refine Tri.bind (Tri.stay (indexPartH_quiet _ _) stable_true) fun cp => Tri.bind (Tri.liftS _) fun pind => ?_
  refine Tri.bind (Tri.stay (condPartH_quiet _ _) stable_true) fun c => ?_
  refine Tri.bind (Tri.stay (hC.single _ _ _ _ _ _ _ _ _).1 stable_true) fun wt => ?_
  refine Tri.bind (Tri.stay (condAncestorH_quiet _ _ _ _) stable_true) fun ci => ?_
  refine Tri.bind (Tri.stay (hC.copyInd _ _).1 stable_true) fun np => Tri.bind (newH_tri _ _) fun o => ?_
  refine Tri.bind (updateH_tri hC _ _ _ _ _ _ _) fun _ => ?_
  exact condTail_tri hC c _ _ _ _ _ _

theorem csirasForwardH_tri {C : HCallbacks P U Y V Ω} (hC : Spec.Honest C) (hG : Spec.GivesAway C) (n : ℕ) (ct : List HStep) (tr : List HStep)
    (yv : List (Slot Y)) (uv : List (Slot U)) (tv : List ℕ) (cur : ℕ) (d : Draws Ω) :
    Tri n ∅ (fun _ => True) (csirasForwardH C ct tr yv uv tv cur d) (fun v h => NewObj n v.1 h) := by
  unfold csirasForwardH
  refine Tri.bind (Tri.liftS _) fun last => Tri.bind (Tri.rd _) fun lpa => Tri.bind (Tri.rdP _) fun lp => Tri.bind (Tri.rdW _) fun w => ?_
  refine Tri.bind (Tri.liftS _) fun anc0 => Tri.bind (Tri.liftS _) fun tc => Tri.bind (Tri.rd _) fun tpa => ?_
  refine Tri.bind (Tri.stay (condPartH_quiet _ _) stable_true) fun c => Tri.bind (Tri.stay (indexPartH_quiet _ _) stable_true) fun cp => ?_
  refine Tri.bind (Tri.liftS _) fun u => Tri.bind (Tri.liftS _) fun t => ?_
  refine Tri.bind (Tri.stay (hC.logpXnext _ _ _ _) stable_true) fun wt => ?_
  refine Tri.bind (Tri.stay (condAncestorH_quiet _ _ _ _) stable_true) fun ci => ?_
  refine Tri.bind (Tri.stay (hC.copyInd _ _).1 stable_true) fun np => Tri.bind (newH_tri _ _) fun o => ?_
  refine Tri.bindP (φ := fun pa => n ≤ pa.part) (B := fun pa h => FreshObj n o h ∧ pa.part < h.next)
    (Tri.conseq (Tri.rdOwn fun _ h => h) (fun _ h => h) fun _ h hh => ⟨⟨hh.1, by rw [← hh.2.2.2]; exact hh.1.2.2.2.1⟩, hh.2.1⟩) fun pa hpa => ?_
  refine Tri.bind (Tri.liftS _) fun y => ?_
  have hst := (stable_fresh (P := P) n o).and (stable_alloc pa.part)
  refine Tri.bindP (φ := fun pn => n ≤ pn) (B := fun _ h => FreshObj n o h ∧ pa.part < h.next)
    (Tri.conseq (Tri.stayNew (hC.qsample _ _ _ _ _).1 (hG.qsample _ _ _ _ _) hst) (fun _ h => h) fun _ _ h => ⟨h.1, h.2.1⟩) fun pn hpn => ?_
  refine Tri.bind (setRefH_tri (fun _ _ _ h => h) c hpn) fun _ => ?_
  refine Tri.bind (Tri.stay (hC.logpQ _ _ _ _ _) hst) fun qw => Tri.bind (Tri.stay (hC.logpXnext _ _ _ _) hst) fun nw => ?_
  refine Tri.bind (Tri.liftS _) fun t1 => Tri.bind (Tri.stay (hC.sirMeasure _ _ _) hst) fun yw => ?_
  refine Tri.bind (Tri.rdW _) fun yw => Tri.bind (Tri.rdW _) fun nw => Tri.bind (Tri.rdW _) fun qw => ?_
  refine Tri.bind (Tri.liftS _) fun s => Tri.bind (Tri.liftS _) fun s => ?_
  refine Tri.bind (B := fun a h => (FreshObj n o h ∧ pa.part < h.next) ∧ n ≤ a ∧ a < h.next) (Tri.allocW fun hp hn hA => ?_) fun a => ?_
  · obtain ⟨⟨f1, f2, f3, f4, f5, f6⟩, g⟩ := hA
    unfold FreshObj; simp only; omega
  refine Tri.bind (B := fun _ h => FreshObj n o h) (Tri.writeObj (fun _ h => Or.inl h.1.1.1) fun hp hn hA => ?_) fun _ => ?_
  · obtain ⟨⟨⟨f1, f2, f3, f4, f5, f6⟩, g⟩, g1, g2⟩ := hA
    unfold FreshObj; simp only [Function.update_self]; omega
  refine Tri.bind (Tri.rdP _) fun l => ?_
  exact Tri.bind (B := fun _ h => FreshObj n o h) (Tri.writePart (fun _ _ => hpa) fun _ _ h => h) fun _ => Tri.pure fun _ h => h.new

/-- `weightUpdateH` on an object whose particle array need not be its own. -/
theorem weightUpdateH_triN {n o nw : ℕ} (hnw : n ≤ nw) :
    Tri n ∅ (fun h : Heap P => NewObj n o h) (weightUpdateH o nw) (fun _ h => NewObj n o h) := by
  unfold weightUpdateH
  refine Tri.bind (Tri.rdW _) fun l => Tri.bind (Tri.liftS _) fun m => Tri.bind Tri.readObj fun pa => ?_
  refine Tri.bind (B := fun _ h => NewObj n o h) (Tri.writeObj (fun _ h => Or.inl h.1.1) fun hp hn hA => ?_) fun _ => ?_
  · obtain ⟨⟨f1, f2, f3, f4⟩, rfl⟩ := hA
    unfold NewObj; simp only [Function.update_self]; omega
  refine Tri.bind (B := fun _ h => NewObj n o h) (Tri.writeW (fun _ _ => hnw) fun hp hn hA => hA) fun _ => ?_
  refine Tri.bind Tri.readObj fun pa => ?_
  refine Tri.bind (Tri.rdW _) fun w => Tri.bind (Tri.rdW _) fun l => Tri.bind (Tri.liftS _) fun s => ?_
  refine Tri.bind (B := fun a h => (NewObj n o h ∧ pa.part < h.next) ∧ n ≤ a ∧ a < h.next) (Tri.allocW fun hp hn hA => ?_) fun a => ?_
  · obtain ⟨⟨f1, f2, f3, f4⟩, rfl⟩ := hA
    unfold NewObj; simp only; omega
  refine Tri.bind (B := fun _ h => (NewObj n o h ∧ pa.part < h.next) ∧ n ≤ a ∧ a < h.next)
    (Tri.writeObj (fun _ h => Or.inl h.1.1.1) fun hp hn hA => ?_) fun _ => ?_
  · obtain ⟨⟨⟨f1, f2, f3, f4⟩, f5⟩, g1, g2⟩ := hA
    unfold NewObj; simp only [Function.update_self]; omega
  refine Tri.bind (Tri.liftS _) fun m' => ?_
  refine Tri.bind (B := fun _ h => NewObj n o h ∧ n ≤ a) (Tri.writeObj (fun _ h => Or.inl h.1.1.1) fun hp hn hA => ?_) fun _ => ?_
  · obtain ⟨⟨⟨f1, f2, f3, f4⟩, f5⟩, g1, g2⟩ := hA
    unfold NewObj; simp only [Function.update_self]; omega
  exact Tri.writeW (fun _ h => h.2) fun hp hn hA => hA.1

theorem ffpropyForwardH_tri {C : HCallbacks P U Y V Ω} (hC : Spec.Honest C) (n : ℕ) (res : ℝ) (N : ℕ) (tr : List HStep)
    (yv : List (Slot Y)) (uv : List (Slot U)) (tv : List ℕ) (cur : ℕ) (d : Draws Ω) :
    Tri n ∅ (fun _ => True) (ffpropyForwardH C res N tr yv uv tv cur d) (fun v h => NewObj n v.1 h) := by
  unfold ffpropyForwardH
  refine Tri.bind (Tri.liftS _) fun last => Tri.bind (Tri.rd _) fun lpa => Tri.bind (newH_tri _ _) fun o => ?_
  refine Tri.bind (maybeResampleH_tri hC _ _) fun v => Tri.bind (Tri.rd _) fun pa => Tri.bind (Tri.rdP _) fun p => ?_
  refine Tri.bind (Tri.liftS _) fun y => Tri.bind (Tri.liftS _) fun t => ?_
  refine Tri.bind (Tri.quietAlloc (hC.propose _ _ _ _).1 (hC.propose _ _ _ _).2 (by simp) (fun _ h => h)) fun pn => ?_
  have hst := (stable_fresh (P := P) n o).and (stable_alloc pn)
  refine Tri.bind (Tri.liftS _) fun tc => Tri.bind (Tri.rd _) fun tpa => Tri.bind (Tri.stay (indexPartH_quiet _ _) hst) fun part => ?_
  refine Tri.bind (Tri.liftS _) fun pind => ?_
  refine Tri.bindP (φ := fun wn => n ≤ wn) (B := fun _ h => FreshObj n o h ∧ pn < h.next)
    (Tri.conseq (Tri.stayNew (hC.single _ _ _ _ _ _ _ _ _).1 (hC.single _ _ _ _ _ _ _ _ _).2 hst) (fun _ h => h) fun _ _ h => ⟨h.1, h.2.1⟩) fun wn hwn => ?_
  refine Tri.bind Tri.readObj fun pa => ?_
  refine Tri.bind (B := fun _ h => NewObj n o h) (Tri.writeObj (fun _ h => Or.inl h.1.1.1) fun hp hn hA => ?_) fun _ => ?_
  · obtain ⟨⟨⟨f1, f2, f3, f4, f5, f6⟩, g⟩, rfl⟩ := hA
    unfold NewObj; simp only [Function.update_self]; omega
  exact Tri.bind (weightUpdateH_triN hwn) fun _ => Tri.pure fun _ h => h

theorem ffpropyMeasureH_tri {C : HCallbacks P U Y V Ω} (hC : Spec.Honest C) (n : ℕ) (N : ℕ) (yv : List (Slot Y)) (tv : List ℕ) (cur : ℕ) (ω : Ω) :
    Tri n ∅ (fun _ => True) (ffpropyMeasureH C N yv tv cur ω) (fun v h => NewObj n v h) := by
  unfold ffpropyMeasureH
  refine Tri.bind (Tri.liftS _) fun y => Tri.bind (Tri.liftS _) fun t => Tri.bind (Tri.stay (hC.propose _ _ _ _).1 stable_true) fun p => ?_
  exact Tri.conseq (newH_tri _ _) (fun _ h => h) fun _ _ h => h.new

theorem cpfyasForwardH_tri {C : HCallbacks P U Y V Ω} (hC : Spec.Honest C) (hG : Spec.GivesAway C) (n : ℕ) (N : ℕ) (ct : List HStep) (tr : List HStep)
    (yv : List (Slot Y)) (uv : List (Slot U)) (tv : List ℕ) (cur : ℕ) (d : Draws Ω) :
    Tri n ∅ (fun _ => True) (cpfyasForwardH C N ct tr yv uv tv cur d) (fun v h => NewObj n v.1 h) := by
  unfold cpfyasForwardH
  refine Tri.bind (Tri.liftS _) fun tc => Tri.bind (Tri.rd _) fun tpa => Tri.bind (Tri.rdW _) fun w => Tri.bind (Tri.liftS _) fun anc0 => ?_
  refine Tri.bind (Tri.stay (indexPartH_quiet _ _) stable_true) fun cp => Tri.bind (Tri.liftS _) fun pind => ?_
  refine Tri.bind (Tri.stay (condPartH_quiet _ _) stable_true) fun c => ?_
  refine Tri.bind (Tri.stay (hC.single _ _ _ _ _ _ _ _ _).1 stable_true) fun wt => ?_
  refine Tri.bind (Tri.stay (condAncestorH_quiet _ _ _ _) stable_true) fun ci => ?_
  refine Tri.bind (Tri.liftS _) fun y => Tri.bind (Tri.liftS _) fun t1 => ?_
  refine Tri.bindP (φ := fun pn => n ≤ pn) (B := fun _ _ => True)
    (Tri.conseq (Tri.stayNew (hC.propose _ _ _ _).1 (hG.propose _ _ _ _) stable_true) (fun _ h => h) fun _ _ h => ⟨h.1, h.2.1⟩) fun pn hpn => ?_
  refine Tri.bind (setRefFromH_tri (fun _ _ _ h => h) c hpn) fun _ => Tri.bind (Tri.liftS _) fun last => Tri.bind (Tri.rd _) fun lpa => ?_
  refine Tri.bind (Tri.stay (indexPartH_quiet _ _) stable_true) fun part => Tri.bind (Tri.liftS _) fun pind' => ?_
  refine Tri.bindP (φ := fun wn => n ≤ wn) (B := fun _ _ => True)
    (Tri.conseq (Tri.stayNew (hC.single _ _ _ _ _ _ _ _ _).1 (hC.single _ _ _ _ _ _ _ _ _).2 stable_true) (fun _ h => h) fun _ _ h => ⟨h.1, h.2.1⟩) fun wn hwn => ?_
  refine Tri.bind (Tri.rdW _) fun l => Tri.bind (Tri.liftS _) fun m => ?_
  refine Tri.bind (B := fun _ _ => True) (Tri.writeW (fun _ _ => hwn) fun _ _ _ => trivial) fun _ => Tri.bind (newH_tri _ _) fun o => ?_
  refine Tri.bind Tri.readObj fun pa => ?_
  refine Tri.bind (B := fun _ h => NewObj n o h) (Tri.writeObj (fun _ h => Or.inl h.1.1) fun hp hn hA => ?_) fun _ => Tri.pure fun _ h => h
  obtain ⟨⟨f1, f2, f3, f4, f5, f6⟩, rfl⟩ := hA
  unfold NewObj; simp only [Function.update_self]; omega

theorem cpfyasMeasureH_tri {C : HCallbacks P U Y V Ω} (hC : Spec.Honest C) (hG : Spec.GivesAway C) (n : ℕ) (N : ℕ) (ct : List HStep)
    (yv : List (Slot Y)) (tv : List ℕ) (cur : ℕ) (ω : Ω) :
    Tri n ∅ (fun _ => True) (cpfyasMeasureH C N ct yv tv cur ω) (fun v h => NewObj n v h) := by
  unfold cpfyasMeasureH
  refine Tri.bind (Tri.liftS _) fun y => Tri.bind (Tri.liftS _) fun t => ?_
  refine Tri.bindP (φ := fun pn => n ≤ pn) (B := fun _ _ => True)
    (Tri.conseq (Tri.stayNew (hC.propose _ _ _ _).1 (hG.propose _ _ _ _) stable_true) (fun _ h => h) fun _ _ h => ⟨h.1, h.2.1⟩) fun pn hpn => ?_
  refine Tri.bind (Tri.stay (condPartH_quiet _ _) stable_true) fun c => Tri.bind (setRefFromH_tri (fun _ _ _ h => h) c hpn) fun _ => ?_
  exact Tri.conseq (newH_tri _ _) (fun _ h => h) fun _ _ h => h.new

theorem weightUpdateH_triE {n o nw : ℕ} (hnw : n ≤ nw) :
    Tri n {o} (fun _ : Heap P => True) (weightUpdateH o nw) (fun _ _ => True) := by
  unfold weightUpdateH
  refine Tri.bind Tri.readW fun l => ?_
  refine Tri.bind (B := fun _ _ => True) (Tri.lift fun _ _ _ _ => trivial) fun m => ?_
  refine Tri.bind Tri.readObj fun pa => ?_
  refine Tri.bind (B := fun _ _ => True) (Tri.writeObj (fun _ _ => Or.inr rfl) fun _ _ _ => trivial) fun _ => ?_
  refine Tri.bind (B := fun _ _ => True) (Tri.writeW (fun _ _ => hnw) fun _ _ _ => trivial) fun _ => ?_
  refine Tri.bind Tri.readObj fun pa => Tri.bind Tri.readW fun w => Tri.bind Tri.readW fun l => ?_
  refine Tri.bind (B := fun _ _ => True) (Tri.lift fun _ _ _ _ => trivial) fun s => ?_
  refine Tri.bind (B := fun a _ => n ≤ a) (Tri.allocW fun hp hn _ => hn) fun a => ?_
  refine Tri.bind (B := fun _ _ => n ≤ a) (Tri.writeObj (fun _ _ => Or.inr rfl) fun _ _ h => h) fun _ => ?_
  refine Tri.bind (B := fun _ _ => n ≤ a) (Tri.lift fun _ _ _ h => h) fun m' => ?_
  refine Tri.bind (B := fun _ _ => n ≤ a) (Tri.writeObj (fun _ _ => Or.inr rfl) fun _ _ h => h) fun _ => ?_
  exact Tri.writeW (fun _ h => h) fun _ _ _ => trivial

theorem Tri.quietE {n : ℕ} {E : Set ℕ} {x : HM P ℕ} (hx : Spec.Quiet ∅ x) (hr : Spec.ReturnsNew x) :
    Tri n E (fun _ => True) x (fun v _ => n ≤ v) := by
  intro hp hn _
  obtain ⟨h1, h2⟩ := hx hp
  exact ⟨⟨h1, fun a ha => (h2 a (by omega)).2.2 (by simp), fun a ha => (h2 a (by omega)).2.1,
    fun a ha _ => (h2 a (by omega)).1⟩, fun v hv => hn.trans (hr hp v hv).1⟩

theorem measureH_triE {C : HCallbacks P U Y V Ω} (hC : Spec.Honest C) {n o : ℕ} (tr : List HStep) (anc : List ℕ)
    (uv : List (Slot U)) (yv : List (Slot Y)) (tv : List ℕ) (cur : ℕ) :
    Tri n {o} (fun _ => True) (measureH C tr anc o uv yv tv cur) (fun _ _ => True) := by
  unfold measureH
  refine Tri.bind Tri.readObj fun pa => ?_
  refine Tri.bind (Tri.conseq (Tri.quietE (hC.measure _ _ _ _ _ _).1 (hC.measure _ _ _ _ _ _).2)
    (fun _ _ => trivial) fun _ _ h => h) fun nw => ?_
  intro hp hn hA
  exact weightUpdateH_triE hA hp hn trivial

end PyPE

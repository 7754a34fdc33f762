import Verif.Models.MlEm
import Verif.Models.MlComputeClaims

/-!
# The loops of `mlnlg_compute.py` / `cmlnlg_compute.pyx`, with their buffers

`compute_l2_grad_f` and `compute_l2_grad_A` are nested loops over indices that write element by element into buffers allocated by the
caller. The compiled version switches bounds checking off (`@cython.boundscheck(False)`, cmlnlg_compute.pyx:28, 65), so an access outside a
buffer is not an exception there but undefined behaviour.
-/

namespace PyPE
open Matrix

/-- A `numpy` array of doubles: its shape and its entries. -/
structure NdArr where
  shape : List ℕ
  val : List ℕ → ℝ

/-- `idx` is inside the array. -/
def NdArr.In (a : NdArr) (idx : List ℕ) : Prop := List.Forall₂ (· < ·) idx a.shape

instance (a : NdArr) (idx : List ℕ) : Decidable (a.In idx) := by unfold NdArr.In; infer_instance

/-- `a[i, j, …]` with non-negative indices: `IndexError` outside the array. -/
def NdArr.get (a : NdArr) (idx : List ℕ) : PyM ℝ := if a.In idx then .ok (a.val idx) else .error .indexError

/-- `a[i, j, …] = x`. -/
def NdArr.set (a : NdArr) (idx : List ℕ) (x : ℝ) : PyM NdArr :=
  if a.In idx then .ok { a with val := fun i => if i = idx then x else a.val i } else .error .indexError

/-- `a[i, j, …] += x`. -/
def NdArr.addAt (a : NdArr) (idx : List ℕ) (x : ℝ) : PyM NdArr := do
  let v ← a.get idx
  a.set idx (v + x)

/-- `numpy.zeros(shape)`. -/
def NdArr.zeros (shape : List ℕ) : NdArr := ⟨shape, fun _ => 0⟩

/-- `for i in range(n): body`. -/
def forRange {σ : Type} (n : ℕ) (body : ℕ → σ → PyM σ) (s : σ) : PyM σ := (List.range n).foldlM (fun s i => body i s) s

/-- The buffers the loops write to: `out`, `tmp1` and `tmp2` (three different arrays, mlnlg.py:807-809). -/
structure LoopBufs where
  out : NdArr
  tmp1 : NdArr
  tmp2 : NdArr

/-- `out[idx] += x`. -/
def LoopBufs.addOut (s : LoopBufs) (idx : List ℕ) (x : ℝ) : PyM LoopBufs := do
  let o ← s.out.addAt idx x
  return { s with out := o }

/-- `tmp1[idx] = x`. -/
def LoopBufs.set1 (s : LoopBufs) (idx : List ℕ) (x : ℝ) : PyM LoopBufs := do
  let o ← s.tmp1.set idx x
  return { s with tmp1 := o }

/-- `tmp1[idx] += x`. -/
def LoopBufs.add1 (s : LoopBufs) (idx : List ℕ) (x : ℝ) : PyM LoopBufs := do
  let o ← s.tmp1.addAt idx x
  return { s with tmp1 := o }

/-- `tmp2[idx] = x`. -/
def LoopBufs.set2 (s : LoopBufs) (idx : List ℕ) (x : ℝ) : PyM LoopBufs := do
  let o ← s.tmp2.set idx x
  return { s with tmp2 := o }

/-- `tmp2[idx] += x`. -/
def LoopBufs.add2 (s : LoopBufs) (idx : List ℕ) (x : ℝ) : PyM LoopBufs := do
  let o ← s.tmp2.addAt idx x
  return { s with tmp2 := o }

/-- `compute_l2_grad_f(N, lenp, dim, out, perr, f_grad, tmp)` (mlnlg_compute.py:27-38, cmlnlg_compute.pyx:28-44); `tmp` is `tmp1`. -/
def loopL2GradF (N lenp dim : ℕ) (perr fGrad : NdArr) : LoopBufs → PyM LoopBufs :=
  forRange N fun i => forRange lenp fun j s => do
    let s ← forRange dim (fun k => forRange dim fun l s => do
      let a ← fGrad.get [i, j, k, 0]
      let b ← perr.get [i, l, 0]
      s.set1 [k, l] (a * b)) s
    forRange dim (fun k => forRange dim fun l s => do
      let a ← s.tmp1.get [k, l]
      let b ← s.tmp1.get [l, k]
      s.addOut [i, j, k, l] (-a - b)) s

/-- The body of the loops over particles and parameters in `compute_l2_grad_A` (mlnlg_compute.py:48-96, cmlnlg_compute.pyx:83-133); `dim - lxi` is
a difference of non-negative integers. -/
def loopL2GradABody (dim lxi : ℕ) (perr zl Pl M A AGrad : NdArr) (i j : ℕ) (s : LoopBufs) : PyM LoopBufs := do
  let s ← forRange dim (fun k s => do
    let s ← s.set2 [k, 0] 0
    forRange (dim - lxi) (fun m s => do
      let a ← AGrad.get [i, j, k, m]
      let b ← zl.get [i, m, 0]
      s.add2 [k, 0] (a * b)) s) s
  let s ← forRange dim (fun k => forRange dim fun l s => do
    let a ← s.tmp2.get [k, 0]
    let b ← perr.get [i, l, 0]
    s.set1 [k, l] (a * b)) s
  let s ← forRange dim (fun k => forRange dim fun l s => do
    let a ← s.tmp1.get [k, l]
    let b ← s.tmp1.get [l, k]
    s.addOut [i, j, k, l] (-a - b)) s
  let s ← forRange dim (fun k => forRange (dim - lxi) fun l s => do
    let s ← s.set2 [k, l] 0
    forRange (dim - lxi) (fun m s => do
      let a ← AGrad.get [i, j, k, m]
      let b ← Pl.get [i, m, l]
      s.add2 [k, l] (a * b)) s) s
  let s ← forRange dim (fun k => forRange dim fun l s => do
    let s ← s.set1 [k, l] 0
    forRange (dim - lxi) (fun m s => do
      let a ← s.tmp2.get [k, m]
      let b ← A.get [i, l, m]
      s.add1 [k, l] (a * b)) s) s
  let s ← forRange dim (fun k => forRange dim fun l s => do
    let a ← s.tmp1.get [k, l]
    let b ← s.tmp1.get [l, k]
    s.addOut [i, j, k, l] (a + b)) s
  let s ← forRange dim (fun k => forRange (dim - lxi) fun l s => do
    let s ← s.set2 [k, l] 0
    forRange (dim - lxi) (fun m s => do
      let a ← AGrad.get [i, j, k, m]
      let b ← M.get [i, m, l]
      s.add2 [k, l] (a * b)) s) s
  forRange dim (fun k => forRange (dim - lxi) fun l s => do
    let a ← s.tmp2.get [k, l]
    let s ← s.addOut [i, j, k, lxi + l] (-a)
    let a ← s.tmp2.get [k, l]
    s.addOut [i, j, lxi + l, k] (-a)) s

/-- `compute_l2_grad_A(N, lenp, dim, out, perr, lxi, Pn, zl, Pl, M, A, A_grad, tmp1, tmp2)` (mlnlg_compute.py:41-102, cmlnlg_compute.pyx:65-133);
`Pn` is not used. -/
def loopL2GradA (N lenp dim lxi : ℕ) (perr zl Pl M A AGrad : NdArr) : LoopBufs → PyM LoopBufs :=
  forRange N fun i => forRange lenp fun j s => loopL2GradABody dim lxi perr zl Pl M A AGrad i j s

/-- `if (grad is not None): prog(grad)` (mlnlg.py:810, 813). -/
def ifGiven (g : Option NdArr) (prog : NdArr → LoopBufs → PyM LoopBufs) (s : LoopBufs) : PyM LoopBufs :=
  match g with
  | none => .ok s
  | some g => prog g s

/-- The gradient part of `calc_l2_grad` (mlnlg.py:797-816): fresh zero buffers, then the loops for the gradients that are given. -/
def loopL2Grad (N lenp lxi lz : ℕ) (perr zl Pl M A : NdArr) (fGrad AGrad : Option NdArr) : PyM NdArr := do
  let s ← ifGiven fGrad (loopL2GradF N lenp (lxi + lz) perr)
    ⟨.zeros [N, lenp, lxi + lz, lxi + lz], .zeros [lxi + lz, lxi + lz], .zeros [lxi + lz, lz]⟩
  let s ← ifGiven AGrad (loopL2GradA N lenp (lxi + lz) lxi perr zl Pl M A) s
  return s.out

/-! ### Loops -/

theorem forRange_inv {σ : Type} (I : ℕ → σ → Prop) {n : ℕ} {body : ℕ → σ → PyM σ}
    (hstep : ∀ i < n, ∀ s, I i s → ∃ s', body i s = .ok s' ∧ I (i + 1) s') {s : σ} (h0 : I 0 s) :
    ∃ s', forRange n body s = .ok s' ∧ I n s' := by
  unfold forRange
  induction n with
  | zero => exact ⟨s, by simp [pure_eq_ok], h0⟩
  | succ n ih =>
    obtain ⟨s1, h1, h2⟩ := ih (fun i hi => hstep i (by omega))
    obtain ⟨s2, h3, h4⟩ := hstep n (by omega) s1 h2
    refine ⟨s2, ?_, h4⟩
    rw [List.range_succ, List.foldlM_append, h1, ok_bind]
    simp [h3, ok_bind, pure_eq_ok]

theorem NdArr.In_iff (a : NdArr) (idx : List ℕ) : a.In idx ↔ List.Forall₂ (· < ·) idx a.shape := Iff.rfl

theorem NdArr.get_ok {a : NdArr} {idx : List ℕ} (h : a.In idx) : a.get idx = .ok (a.val idx) := if_pos h

/-- The state of the buffers: `out` holds `o`; `tmp1` holds `g1` on `S1`, `tmp2` holds `g2` on `S2`. -/
structure At (so s1 s2 : List ℕ) (o : List ℕ → ℝ) (S1 : Set (List ℕ)) (g1 : List ℕ → ℝ) (S2 : Set (List ℕ)) (g2 : List ℕ → ℝ) (s : LoopBufs) : Prop where
  sh : s.out.shape = so ∧ s.tmp1.shape = s1 ∧ s.tmp2.shape = s2
  out : s.out.val = o
  t1 : ∀ i ∈ S1, s.tmp1.val i = g1 i
  t2 : ∀ i ∈ S2, s.tmp2.val i = g2 i

variable {so s1 s2 : List ℕ} {o : List ℕ → ℝ} {S1 S2 : Set (List ℕ)} {g1 g2 : List ℕ → ℝ} {s : LoopBufs}

theorem At.mono (h : At so s1 s2 o S1 g1 S2 g2 s) {S1' S2' : Set (List ℕ)} (h1 : S1' ⊆ S1) (h2 : S2' ⊆ S2) :
    At so s1 s2 o S1' g1 S2' g2 s := ⟨h.sh, h.out, fun i hi => h.t1 i (h1 hi), fun i hi => h.t2 i (h2 hi)⟩

theorem At.forget1 (h : At so s1 s2 o S1 g1 S2 g2 s) (g : List ℕ → ℝ) : At so s1 s2 o ∅ g S2 g2 s :=
  ⟨h.sh, h.out, fun i hi => absurd hi (Set.notMem_empty i), h.t2⟩

theorem At.forget2 (h : At so s1 s2 o S1 g1 S2 g2 s) (g : List ℕ → ℝ) : At so s1 s2 o S1 g1 ∅ g s :=
  ⟨h.sh, h.out, h.t1, fun i hi => absurd hi (Set.notMem_empty i)⟩

theorem At.get1 (h : At so s1 s2 o S1 g1 S2 g2 s) {idx : List ℕ} (hi : List.Forall₂ (· < ·) idx s1) (hS : idx ∈ S1) :
    s.tmp1.get idx = .ok (g1 idx) := by
  rw [NdArr.get_ok (by unfold NdArr.In; rw [h.sh.2.1]; exact hi), h.t1 idx hS]

theorem At.get2 (h : At so s1 s2 o S1 g1 S2 g2 s) {idx : List ℕ} (hi : List.Forall₂ (· < ·) idx s2) (hS : idx ∈ S2) :
    s.tmp2.get idx = .ok (g2 idx) := by
  rw [NdArr.get_ok (by unfold NdArr.In; rw [h.sh.2.2]; exact hi), h.t2 idx hS]

/-- The unit array of an entry. -/
def unitAt (idx : List ℕ) (x : ℝ) : List ℕ → ℝ := fun i => if i = idx then x else 0

theorem At.addOut (h : At so s1 s2 o S1 g1 S2 g2 s) {idx : List ℕ} (hi : List.Forall₂ (· < ·) idx so) (x : ℝ) :
    ∃ s', s.addOut idx x = .ok s' ∧ At so s1 s2 (o + unitAt idx x) S1 g1 S2 g2 s' := by
  have hin : s.out.In idx := by unfold NdArr.In; rw [h.sh.1]; exact hi
  refine ⟨⟨⟨s.out.shape, fun i => if i = idx then s.out.val idx + x else s.out.val i⟩, s.tmp1, s.tmp2⟩, ?_, h.sh, ?_, h.t1, h.t2⟩
  · simp only [LoopBufs.addOut, NdArr.addAt, NdArr.get, NdArr.set, if_pos hin, ok_bind, pure_eq_ok]
  · funext i
    show (if i = idx then s.out.val idx + x else s.out.val i) = _
    rw [h.out]
    by_cases hi' : i = idx
    · simp [unitAt, hi']
    · simp [unitAt, hi']

theorem At.set1 (h : At so s1 s2 o S1 g1 S2 g2 s) {idx : List ℕ} (hi : List.Forall₂ (· < ·) idx s1) {x : ℝ} (hx : x = g1 idx) :
    ∃ s', s.set1 idx x = .ok s' ∧ At so s1 s2 o (insert idx S1) g1 S2 g2 s' := by
  have hin : s.tmp1.In idx := by unfold NdArr.In; rw [h.sh.2.1]; exact hi
  refine ⟨⟨s.out, ⟨s.tmp1.shape, fun i => if i = idx then x else s.tmp1.val i⟩, s.tmp2⟩, ?_, h.sh, h.out, ?_, h.t2⟩
  · simp only [LoopBufs.set1, NdArr.set, if_pos hin, ok_bind, pure_eq_ok]
  · intro i hi'
    show (if i = idx then x else s.tmp1.val i) = _
    split
    · next he => rw [he, hx]
    · next he => exact h.t1 i (by simpa [he] using hi')

/-- `tmp1[idx] = 0; for m in range(n): tmp1[idx] += a_m`. -/
theorem At.sum1 (h : At so s1 s2 o S1 g1 S2 g2 s) {idx : List ℕ} (hi : List.Forall₂ (· < ·) idx s1) (n : ℕ) (a : ℕ → ℝ)
    (ha : g1 idx = ∑ m ∈ Finset.range n, a m) (body : ℕ → LoopBufs → PyM LoopBufs)
    (hb : ∀ m < n, ∀ s, At so s1 s2 o (S1 \ {idx}) g1 S2 g2 s → body m s = s.add1 idx (a m)) :
    ∃ s', (do let s ← s.set1 idx 0; forRange n body s) = .ok s' ∧ At so s1 s2 o (insert idx S1) g1 S2 g2 s' := by
  have hin : ∀ {s : LoopBufs}, s.tmp1.shape = s1 → s.tmp1.In idx := fun he => by unfold NdArr.In; rw [he]; exact hi
  have h0 : s.set1 idx 0 = .ok ⟨s.out, ⟨s.tmp1.shape, fun i => if i = idx then 0 else s.tmp1.val i⟩, s.tmp2⟩ := by
    simp only [LoopBufs.set1, NdArr.set, if_pos (hin h.sh.2.1), ok_bind, pure_eq_ok]
  rw [h0, ok_bind]
  obtain ⟨s', hs1, hs2, hs3⟩ := forRange_inv (I := fun m s => At so s1 s2 o (S1 \ {idx}) g1 S2 g2 s ∧ s.tmp1.val idx = ∑ m ∈ Finset.range m, a m)
    (n := n) (body := body) (s := ⟨s.out, ⟨s.tmp1.shape, fun i => if i = idx then 0 else s.tmp1.val i⟩, s.tmp2⟩) (by
      rintro m hm t ⟨ht, hv⟩
      rw [hb m hm t ht]
      refine ⟨⟨t.out, ⟨t.tmp1.shape, fun i => if i = idx then t.tmp1.val idx + a m else t.tmp1.val i⟩, t.tmp2⟩, ?_, ⟨ht.sh, ht.out, ?_, ht.t2⟩, ?_⟩
      · simp only [LoopBufs.add1, NdArr.addAt, NdArr.get, NdArr.set, if_pos (hin ht.sh.2.1), ok_bind, pure_eq_ok]
      · intro i hi'
        show (if i = idx then _ else _) = _
        rw [if_neg (by simpa using hi'.2)]
        exact ht.t1 i hi'
      · show (if idx = idx then _ else _) = _
        rw [if_pos rfl, hv, Finset.sum_range_succ]) ⟨⟨h.sh, h.out, by
          intro i hi'
          show (if i = idx then _ else _) = _
          rw [if_neg (by simpa using hi'.2)]
          exact h.t1 i hi'.1, h.t2⟩, by simp⟩
  refine ⟨s', hs1, hs2.sh, hs2.out, ?_, hs2.t2⟩
  intro i hi'
  by_cases he : i = idx
  · rw [he, hs3, ha]
  · exact hs2.t1 i ⟨by simpa [he] using hi', by simpa using he⟩

/-- `tmp2[idx] = 0; for m in range(n): tmp2[idx] += a_m`. -/
theorem At.sum2 (h : At so s1 s2 o S1 g1 S2 g2 s) {idx : List ℕ} (hi : List.Forall₂ (· < ·) idx s2) (n : ℕ) (a : ℕ → ℝ)
    (ha : g2 idx = ∑ m ∈ Finset.range n, a m) (body : ℕ → LoopBufs → PyM LoopBufs)
    (hb : ∀ m < n, ∀ s, At so s1 s2 o S1 g1 (S2 \ {idx}) g2 s → body m s = s.add2 idx (a m)) :
    ∃ s', (do let s ← s.set2 idx 0; forRange n body s) = .ok s' ∧ At so s1 s2 o S1 g1 (insert idx S2) g2 s' := by
  have hin : ∀ {s : LoopBufs}, s.tmp2.shape = s2 → s.tmp2.In idx := fun he => by unfold NdArr.In; rw [he]; exact hi
  have h0 : s.set2 idx 0 = .ok ⟨s.out, s.tmp1, ⟨s.tmp2.shape, fun i => if i = idx then 0 else s.tmp2.val i⟩⟩ := by
    simp only [LoopBufs.set2, NdArr.set, if_pos (hin h.sh.2.2), ok_bind, pure_eq_ok]
  rw [h0, ok_bind]
  obtain ⟨s', hs1, hs2, hs3⟩ := forRange_inv (I := fun m s => At so s1 s2 o S1 g1 (S2 \ {idx}) g2 s ∧ s.tmp2.val idx = ∑ m ∈ Finset.range m, a m)
    (n := n) (body := body) (s := ⟨s.out, s.tmp1, ⟨s.tmp2.shape, fun i => if i = idx then 0 else s.tmp2.val i⟩⟩) (by
      rintro m hm t ⟨ht, hv⟩
      rw [hb m hm t ht]
      refine ⟨⟨t.out, t.tmp1, ⟨t.tmp2.shape, fun i => if i = idx then t.tmp2.val idx + a m else t.tmp2.val i⟩⟩, ?_, ⟨ht.sh, ht.out, ht.t1, ?_⟩, ?_⟩
      · simp only [LoopBufs.add2, NdArr.addAt, NdArr.get, NdArr.set, if_pos (hin ht.sh.2.2), ok_bind, pure_eq_ok]
      · intro i hi'
        show (if i = idx then _ else _) = _
        rw [if_neg (by simpa using hi'.2)]
        exact ht.t2 i hi'
      · show (if idx = idx then _ else _) = _
        rw [if_pos rfl, hv, Finset.sum_range_succ]) ⟨⟨h.sh, h.out, h.t1, by
          intro i hi'
          show (if i = idx then _ else _) = _
          rw [if_neg (by simpa using hi'.2)]
          exact h.t2 i hi'.1⟩, by simp⟩
  refine ⟨s', hs1, hs2.sh, hs2.out, hs2.t1, ?_⟩
  intro i hi'
  by_cases he : i = idx
  · rw [he, hs3, ha]
  · exact hs2.t2 i ⟨by simpa [he] using hi', by simpa using he⟩

/-- A loop that adds to `out`. -/
theorem At.loopOut (h : At so s1 s2 o S1 g1 S2 g2 s) (n : ℕ) (D : ℕ → List ℕ → ℝ) (body : ℕ → LoopBufs → PyM LoopBufs)
    (hb : ∀ i < n, ∀ o s, At so s1 s2 o S1 g1 S2 g2 s → ∃ s', body i s = .ok s' ∧ At so s1 s2 (o + D i) S1 g1 S2 g2 s') :
    ∃ s', forRange n body s = .ok s' ∧ At so s1 s2 (o + ∑ i ∈ Finset.range n, D i) S1 g1 S2 g2 s' := by
  refine forRange_inv (I := fun i s => At so s1 s2 (o + ∑ i ∈ Finset.range i, D i) S1 g1 S2 g2 s) ?_ (by simpa using h)
  intro i hi t ht
  obtain ⟨s', h1, h2⟩ := hb i hi _ t ht
  exact ⟨s', h1, by rwa [Finset.sum_range_succ, ← add_assoc]⟩

/-- A loop that fills `tmp1`. -/
theorem At.loop1 (h : At so s1 s2 o S1 g1 S2 g2 s) (n : ℕ) (D : ℕ → Set (List ℕ)) (body : ℕ → LoopBufs → PyM LoopBufs)
    (hb : ∀ i < n, ∀ S s, At so s1 s2 o S g1 S2 g2 s → ∃ s', body i s = .ok s' ∧ At so s1 s2 o (S ∪ D i) g1 S2 g2 s') :
    ∃ s', forRange n body s = .ok s' ∧ At so s1 s2 o (S1 ∪ {x | ∃ i < n, x ∈ D i}) g1 S2 g2 s' := by
  refine forRange_inv (I := fun n s => At so s1 s2 o (S1 ∪ {x | ∃ i < n, x ∈ D i}) g1 S2 g2 s) ?_ (by simpa using h)
  intro i hi t ht
  obtain ⟨s', h1, h2⟩ := hb i hi _ t ht
  refine ⟨s', h1, h2.mono ?_ subset_rfl⟩
  rintro x (hx | ⟨j, hj, hx⟩)
  · exact Or.inl (Or.inl hx)
  · rcases Nat.lt_succ_iff_lt_or_eq.mp hj with hj | rfl
    · exact Or.inl (Or.inr ⟨j, hj, hx⟩)
    · exact Or.inr hx

/-- A loop that fills `tmp2`. -/
theorem At.loop2 (h : At so s1 s2 o S1 g1 S2 g2 s) (n : ℕ) (D : ℕ → Set (List ℕ)) (body : ℕ → LoopBufs → PyM LoopBufs)
    (hb : ∀ i < n, ∀ S s, At so s1 s2 o S1 g1 S g2 s → ∃ s', body i s = .ok s' ∧ At so s1 s2 o S1 g1 (S ∪ D i) g2 s') :
    ∃ s', forRange n body s = .ok s' ∧ At so s1 s2 o S1 g1 (S2 ∪ {x | ∃ i < n, x ∈ D i}) g2 s' := by
  refine forRange_inv (I := fun n s => At so s1 s2 o S1 g1 (S2 ∪ {x | ∃ i < n, x ∈ D i}) g2 s) ?_ (by simpa using h)
  intro i hi t ht
  obtain ⟨s', h1, h2⟩ := hb i hi _ t ht
  refine ⟨s', h1, h2.mono subset_rfl ?_⟩
  rintro x (hx | ⟨j, hj, hx⟩)
  · exact Or.inl (Or.inl hx)
  · rcases Nat.lt_succ_iff_lt_or_eq.mp hj with hj | rfl
    · exact Or.inl (Or.inr ⟨j, hj, hx⟩)
    · exact Or.inr hx

/-! ### The two programs -/

/-- A nested loop `for k: for l: tmp1[k, l] = …`. -/
theorem At.fill1 (h : At so s1 s2 o S1 g1 S2 g2 s) (K L : ℕ) (g : List ℕ → ℝ) (body : ℕ → ℕ → LoopBufs → PyM LoopBufs)
    (hb : ∀ k < K, ∀ l < L, ∀ S s, At so s1 s2 o S g S2 g2 s → ∃ s', body k l s = .ok s' ∧ At so s1 s2 o (insert [k, l] S) g S2 g2 s') :
    ∃ s', forRange K (fun k => forRange L (body k)) s = .ok s' ∧
      At so s1 s2 o {x | ∃ k < K, ∃ l < L, x = [k, l]} g S2 g2 s' := by
  obtain ⟨s', h1, h2⟩ := (h.forget1 g).loop1 K (fun k => {x | ∃ l < L, x = [k, l]}) (fun k => forRange L (body k)) (by
    intro k hk S t ht
    obtain ⟨t', h1, h2⟩ := ht.loop1 L (fun l => {[k, l]}) (body k) (by
      intro l hl S t ht
      obtain ⟨t', h1, h2⟩ := hb k hk l hl S t ht
      exact ⟨t', h1, h2.mono (by rintro x (hx | hx); exacts [Or.inr hx, Or.inl hx]) subset_rfl⟩)
    refine ⟨t', h1, h2.mono ?_ subset_rfl⟩
    rintro x (hx | ⟨l, hl, rfl⟩)
    · exact Or.inl hx
    · exact Or.inr ⟨l, hl, rfl⟩)
  refine ⟨s', h1, h2.mono ?_ subset_rfl⟩
  rintro x ⟨k, hk, l, hl, rfl⟩
  exact Or.inr ⟨k, hk, l, hl, rfl⟩

/-- A nested loop `for k: for l: tmp2[k, l] = …`. -/
theorem At.fill2 (h : At so s1 s2 o S1 g1 S2 g2 s) (K L : ℕ) (g : List ℕ → ℝ) (body : ℕ → ℕ → LoopBufs → PyM LoopBufs)
    (hb : ∀ k < K, ∀ l < L, ∀ S s, At so s1 s2 o S1 g1 S g s → ∃ s', body k l s = .ok s' ∧ At so s1 s2 o S1 g1 (insert [k, l] S) g s') :
    ∃ s', forRange K (fun k => forRange L (body k)) s = .ok s' ∧
      At so s1 s2 o S1 g1 {x | ∃ k < K, ∃ l < L, x = [k, l]} g s' := by
  obtain ⟨s', h1, h2⟩ := (h.forget2 g).loop2 K (fun k => {x | ∃ l < L, x = [k, l]}) (fun k => forRange L (body k)) (by
    intro k hk S t ht
    obtain ⟨t', h1, h2⟩ := ht.loop2 L (fun l => {[k, l]}) (body k) (by
      intro l hl S t ht
      obtain ⟨t', h1, h2⟩ := hb k hk l hl S t ht
      exact ⟨t', h1, h2.mono subset_rfl (by rintro x (hx | hx); exacts [Or.inr hx, Or.inl hx])⟩)
    refine ⟨t', h1, h2.mono subset_rfl ?_⟩
    rintro x (hx | ⟨l, hl, rfl⟩)
    · exact Or.inl hx
    · exact Or.inr ⟨l, hl, rfl⟩)
  refine ⟨s', h1, h2.mono subset_rfl ?_⟩
  rintro x ⟨k, hk, l, hl, rfl⟩
  exact Or.inr ⟨k, hk, l, hl, rfl⟩

/-- A nested loop that adds to `out`. -/
theorem At.addTo (h : At so s1 s2 o S1 g1 S2 g2 s) (K L : ℕ) (D : ℕ → ℕ → List ℕ → ℝ) (body : ℕ → ℕ → LoopBufs → PyM LoopBufs)
    (hb : ∀ k < K, ∀ l < L, ∀ o s, At so s1 s2 o S1 g1 S2 g2 s → ∃ s', body k l s = .ok s' ∧ At so s1 s2 (o + D k l) S1 g1 S2 g2 s') :
    ∃ s', forRange K (fun k => forRange L (body k)) s = .ok s' ∧
      At so s1 s2 (o + ∑ k ∈ Finset.range K, ∑ l ∈ Finset.range L, D k l) S1 g1 S2 g2 s' :=
  h.loopOut K _ _ fun k hk _ _ ht => ht.loopOut L _ _ fun l hl _ _ ht => hb k hk l hl _ _ ht

theorem lt2 {a b c d : ℕ} (h1 : a < c) (h2 : b < d) : List.Forall₂ (· < ·) [a, b] [c, d] := by simp [h1, h2]

theorem lt3 {a b a' b' c c' : ℕ} (h1 : a < a') (h2 : b < b') (h3 : c < c') : List.Forall₂ (· < ·) [a, b, c] [a', b', c'] := by
  simp [h1, h2, h3]

theorem lt4 {a b a' b' c c' d d' : ℕ} (h1 : a < a') (h2 : b < b') (h3 : c < c') (h4 : d < d') :
    List.Forall₂ (· < ·) [a, b, c, d] [a', b', c', d'] := by
  simp [h1, h2, h3, h4]

theorem NdArr.get_of {a : NdArr} {sh idx : List ℕ} (hs : a.shape = sh) (h : List.Forall₂ (· < ·) idx sh) : a.get idx = .ok (a.val idx) :=
  NdArr.get_ok (by unfold NdArr.In; rw [hs]; exact h)

/-- What `compute_l2_grad_f` adds for one particle and parameter. -/
def deltaF (d : ℕ) (perr fGrad : NdArr) (i j : ℕ) : List ℕ → ℝ := ∑ k ∈ Finset.range d, ∑ l ∈ Finset.range d,
  unitAt [i, j, k, l] (-(fGrad.val [i, j, k, 0] * perr.val [i, l, 0]) - fGrad.val [i, j, l, 0] * perr.val [i, k, 0])

theorem loopL2GradF_at {N p d : ℕ} {perr fGrad : NdArr} (he : perr.shape = [N, d, 1]) (hf : fGrad.shape = [N, p, d, 1])
    (h : At [N, p, d, d] [d, d] s2 o ∅ g1 ∅ g2 s) :
    ∃ s', loopL2GradF N p d perr fGrad s = .ok s' ∧
      At [N, p, d, d] [d, d] s2 (o + ∑ i ∈ Finset.range N, ∑ j ∈ Finset.range p, deltaF d perr fGrad i j) ∅ g1 ∅ g2 s' := by
  refine h.addTo N p (deltaF d perr fGrad) _ ?_
  intro i hi j hj o t ht
  obtain ⟨t1, h1, h2⟩ := ht.fill1 d d (fun x => fGrad.val [i, j, x.getD 0 0, 0] * perr.val [i, x.getD 1 0, 0])
    (fun k l s => do
      let a ← fGrad.get [i, j, k, 0]
      let b ← perr.get [i, l, 0]
      s.set1 [k, l] (a * b)) (by
      intro k hk l hl S t ht
      rw [NdArr.get_of hf (lt4 hi hj hk one_pos), ok_bind, NdArr.get_of he (lt3 hi hl one_pos), ok_bind]
      exact ht.set1 (lt2 hk hl) rfl)
  obtain ⟨t2, h3, h4⟩ := h2.addTo d d (fun k l => unitAt [i, j, k, l]
      (-(fGrad.val [i, j, k, 0] * perr.val [i, l, 0]) - fGrad.val [i, j, l, 0] * perr.val [i, k, 0]))
    (fun k l s => do
      let a ← s.tmp1.get [k, l]
      let b ← s.tmp1.get [l, k]
      s.addOut [i, j, k, l] (-a - b)) (by
      intro k hk l hl o t ht
      rw [ht.get1 (lt2 hk hl) ⟨k, hk, l, hl, rfl⟩, ok_bind, ht.get1 (lt2 hl hk) ⟨l, hl, k, hk, rfl⟩, ok_bind]
      exact ht.addOut (lt4 hi hj hk hl) _)
  exact ⟨t2, by rw [h1, ok_bind, h3], h4.forget1 g1⟩

/-- What `compute_l2_grad_A` adds for one particle and parameter. -/
def deltaA (lxi lz : ℕ) (perr zl Pl M A AGrad : NdArr) (i j : ℕ) : List ℕ → ℝ :=
  (∑ k ∈ Finset.range (lxi + lz), ∑ l ∈ Finset.range (lxi + lz), unitAt [i, j, k, l]
    (-((∑ m ∈ Finset.range lz, AGrad.val [i, j, k, m] * zl.val [i, m, 0]) * perr.val [i, l, 0]) -
      (∑ m ∈ Finset.range lz, AGrad.val [i, j, l, m] * zl.val [i, m, 0]) * perr.val [i, k, 0])) +
  (∑ k ∈ Finset.range (lxi + lz), ∑ l ∈ Finset.range (lxi + lz), unitAt [i, j, k, l]
    ((∑ m ∈ Finset.range lz, (∑ q ∈ Finset.range lz, AGrad.val [i, j, k, q] * Pl.val [i, q, m]) * A.val [i, l, m]) +
      ∑ m ∈ Finset.range lz, (∑ q ∈ Finset.range lz, AGrad.val [i, j, l, q] * Pl.val [i, q, m]) * A.val [i, k, m])) +
  ∑ k ∈ Finset.range (lxi + lz), ∑ l ∈ Finset.range lz,
    (unitAt [i, j, k, lxi + l] (-∑ m ∈ Finset.range lz, AGrad.val [i, j, k, m] * M.val [i, m, l]) +
      unitAt [i, j, lxi + l, k] (-∑ m ∈ Finset.range lz, AGrad.val [i, j, k, m] * M.val [i, m, l]))

theorem loopL2GradA_at {N p lxi lz : ℕ} (hz : 0 < lz) {perr zl Pl M A AGrad : NdArr} (he : perr.shape = [N, lxi + lz, 1])
    (hzl : zl.shape = [N, lz, 1]) (hPl : Pl.shape = [N, lz, lz]) (hM : M.shape = [N, lz, lz]) (hA : A.shape = [N, lxi + lz, lz])
    (hG : AGrad.shape = [N, p, lxi + lz, lz])
    (h : At [N, p, lxi + lz, lxi + lz] [lxi + lz, lxi + lz] [lxi + lz, lz] o ∅ g1 ∅ g2 s) :
    ∃ s', loopL2GradA N p (lxi + lz) lxi perr zl Pl M A AGrad s = .ok s' ∧
      At [N, p, lxi + lz, lxi + lz] [lxi + lz, lxi + lz] [lxi + lz, lz]
        (o + ∑ i ∈ Finset.range N, ∑ j ∈ Finset.range p, deltaA lxi lz perr zl Pl M A AGrad i j) ∅ g1 ∅ g2 s' := by
  refine h.addTo N p (deltaA lxi lz perr zl Pl M A AGrad) _ ?_
  intro i hi j hj o t ht
  have hsub : lxi + lz - lxi = lz := by omega
  unfold loopL2GradABody
  simp only [hsub]
  -- tmp2[:, 0] = A_grad z
  obtain ⟨t1, h1, h1'⟩ := (ht.forget2 fun x => ∑ m ∈ Finset.range lz, AGrad.val [i, j, x.getD 0 0, m] * zl.val [i, m, 0]).loop2
    (lxi + lz) (fun k => {[k, 0]}) (fun k s => do
    let s ← s.set2 [k, 0] 0
    forRange lz (fun m s => do
      let a ← AGrad.get [i, j, k, m]
      let b ← zl.get [i, m, 0]
      s.add2 [k, 0] (a * b)) s) (by
      intro k hk S t ht
      obtain ⟨t', e1, e2⟩ := ht.sum2 (idx := [k, 0]) (lt2 hk hz) lz _ rfl (fun m s => do
        let a ← AGrad.get [i, j, k, m]
        let b ← zl.get [i, m, 0]
        s.add2 [k, 0] (a * b)) (by
          intro m hm t ht
          rw [NdArr.get_of hG (lt4 hi hj hk hm), ok_bind, NdArr.get_of hzl (lt3 hi hm one_pos), ok_bind]
          rfl)
      exact ⟨t', e1, e2.mono subset_rfl (by rintro x (hx | hx); exacts [Or.inr hx, Or.inl hx])⟩)
  rw [h1, ok_bind]
  -- tmp1 = tmp2[:, 0] perr'
  obtain ⟨t2, h2, h2'⟩ := h1'.fill1 (lxi + lz) (lxi + lz)
    (fun x => (∑ m ∈ Finset.range lz, AGrad.val [i, j, x.getD 0 0, m] * zl.val [i, m, 0]) * perr.val [i, x.getD 1 0, 0])
    (fun k l s => do
      let a ← s.tmp2.get [k, 0]
      let b ← perr.get [i, l, 0]
      s.set1 [k, l] (a * b)) (by
      intro k hk l hl S t ht
      rw [ht.get2 (lt2 hk hz) (Or.inr ⟨k, hk, rfl⟩), ok_bind, NdArr.get_of he (lt3 hi hl one_pos), ok_bind]
      exact ht.set1 (lt2 hk hl) rfl)
  rw [h2, ok_bind]
  obtain ⟨t3, h3, h3'⟩ := h2'.addTo (lxi + lz) (lxi + lz) (fun k l => unitAt [i, j, k, l]
      (-((∑ m ∈ Finset.range lz, AGrad.val [i, j, k, m] * zl.val [i, m, 0]) * perr.val [i, l, 0]) -
      (∑ m ∈ Finset.range lz, AGrad.val [i, j, l, m] * zl.val [i, m, 0]) * perr.val [i, k, 0]))
    (fun k l s => do
      let a ← s.tmp1.get [k, l]
      let b ← s.tmp1.get [l, k]
      s.addOut [i, j, k, l] (-a - b)) (by
      intro k hk l hl o t ht
      rw [ht.get1 (lt2 hk hl) ⟨k, hk, l, hl, rfl⟩, ok_bind, ht.get1 (lt2 hl hk) ⟨l, hl, k, hk, rfl⟩, ok_bind]
      exact ht.addOut (lt4 hi hj hk hl) _)
  rw [h3, ok_bind]
  -- tmp2 = A_grad P
  obtain ⟨t4, h4, h4'⟩ := h3'.fill2 (lxi + lz) lz
    (fun x => ∑ m ∈ Finset.range lz, AGrad.val [i, j, x.getD 0 0, m] * Pl.val [i, m, x.getD 1 0])
    (fun k l s => do
      let s ← s.set2 [k, l] 0
      forRange lz (fun m s => do
        let a ← AGrad.get [i, j, k, m]
        let b ← Pl.get [i, m, l]
        s.add2 [k, l] (a * b)) s) (by
      intro k hk l hl S t ht
      exact ht.sum2 (idx := [k, l]) (lt2 hk hl) lz _ rfl _ (by
          intro m hm t ht
          rw [NdArr.get_of hG (lt4 hi hj hk hm), ok_bind, NdArr.get_of hPl (lt3 hi hm hl), ok_bind]
          rfl))
  rw [h4, ok_bind]
  -- tmp1 = tmp2 A'
  obtain ⟨t5, h5, h5'⟩ := h4'.fill1 (lxi + lz) (lxi + lz)
    (fun x => ∑ m ∈ Finset.range lz, (∑ q ∈ Finset.range lz, AGrad.val [i, j, x.getD 0 0, q] * Pl.val [i, q, m]) * A.val [i, x.getD 1 0, m])
    (fun k l s => do
      let s ← s.set1 [k, l] 0
      forRange lz (fun m s => do
        let a ← s.tmp2.get [k, m]
        let b ← A.get [i, l, m]
        s.add1 [k, l] (a * b)) s) (by
      intro k hk l hl S t ht
      exact ht.sum1 (idx := [k, l]) (lt2 hk hl) lz _ rfl _ (by
          intro m hm t ht
          rw [ht.get2 (lt2 hk hm) ⟨k, hk, m, hm, rfl⟩, ok_bind, NdArr.get_of hA (lt3 hi hl hm), ok_bind]
          rfl))
  rw [h5, ok_bind]
  obtain ⟨t6, h6, h6'⟩ := h5'.addTo (lxi + lz) (lxi + lz) (fun k l => unitAt [i, j, k, l]
      ((∑ m ∈ Finset.range lz, (∑ q ∈ Finset.range lz, AGrad.val [i, j, k, q] * Pl.val [i, q, m]) * A.val [i, l, m]) +
      ∑ m ∈ Finset.range lz, (∑ q ∈ Finset.range lz, AGrad.val [i, j, l, q] * Pl.val [i, q, m]) * A.val [i, k, m]))
    (fun k l s => do
      let a ← s.tmp1.get [k, l]
      let b ← s.tmp1.get [l, k]
      s.addOut [i, j, k, l] (a + b)) (by
      intro k hk l hl o t ht
      rw [ht.get1 (lt2 hk hl) ⟨k, hk, l, hl, rfl⟩, ok_bind, ht.get1 (lt2 hl hk) ⟨l, hl, k, hk, rfl⟩, ok_bind]
      exact ht.addOut (lt4 hi hj hk hl) _)
  rw [h6, ok_bind]
  -- tmp2 = A_grad M
  obtain ⟨t7, h7, h7'⟩ := h6'.fill2 (lxi + lz) lz
    (fun x => ∑ m ∈ Finset.range lz, AGrad.val [i, j, x.getD 0 0, m] * M.val [i, m, x.getD 1 0])
    (fun k l s => do
      let s ← s.set2 [k, l] 0
      forRange lz (fun m s => do
        let a ← AGrad.get [i, j, k, m]
        let b ← M.get [i, m, l]
        s.add2 [k, l] (a * b)) s) (by
      intro k hk l hl S t ht
      exact ht.sum2 (idx := [k, l]) (lt2 hk hl) lz _ rfl _ (by
          intro m hm t ht
          rw [NdArr.get_of hG (lt4 hi hj hk hm), ok_bind, NdArr.get_of hM (lt3 hi hm hl), ok_bind]
          rfl))
  rw [h7, ok_bind]
  obtain ⟨t8, h8, h8'⟩ := h7'.addTo (lxi + lz) lz (fun k l =>
      unitAt [i, j, k, lxi + l] (-∑ m ∈ Finset.range lz, AGrad.val [i, j, k, m] * M.val [i, m, l]) +
      unitAt [i, j, lxi + l, k] (-∑ m ∈ Finset.range lz, AGrad.val [i, j, k, m] * M.val [i, m, l]))
    (fun k l s => do
      let a ← s.tmp2.get [k, l]
      let s ← s.addOut [i, j, k, lxi + l] (-a)
      let a ← s.tmp2.get [k, l]
      s.addOut [i, j, lxi + l, k] (-a)) (by
      intro k hk l hl o t ht
      rw [ht.get2 (lt2 hk hl) ⟨k, hk, l, hl, rfl⟩, ok_bind]
      obtain ⟨t', e1, e2⟩ := ht.addOut (idx := [i, j, k, lxi + l]) (lt4 hi hj hk (by omega))
        (-∑ m ∈ Finset.range lz, AGrad.val [i, j, k, m] * M.val [i, m, l])
      obtain ⟨t'', e3, e4⟩ := e2.addOut (idx := [i, j, lxi + l, k]) (lt4 hi hj (by omega) hk)
        (-∑ m ∈ Finset.range lz, AGrad.val [i, j, k, m] * M.val [i, m, l])
      refine ⟨t'', ?_, by rw [← add_assoc]; exact e4⟩
      change (t.addOut [i, j, k, lxi + l] (-∑ m ∈ Finset.range lz, AGrad.val [i, j, k, m] * M.val [i, m, l]) >>= fun s => _) = _
      rw [e1, ok_bind]
      rw [e2.get2 (lt2 hk hl) ⟨k, hk, l, hl, rfl⟩, ok_bind]
      exact e3)
  refine ⟨t8, h8, ?_⟩
  have h9 := (h8'.forget1 g1).forget2 g2
  unfold deltaA
  simpa only [add_assoc] using h9

/-! ### Specification and claims -/

/-- The array `a` has shape `(N, b, c)` and holds `f`. -/
def Spec.Holds3 {N b c : ℕ} (a : NdArr) (f : Fin N → Fin b → Fin c → ℝ) : Prop :=
  a.shape = [N, b, c] ∧ ∀ (i : Fin N) (j : Fin b) (k : Fin c), a.val [(i : ℕ), (j : ℕ), (k : ℕ)] = f i j k

/-- The array `a` has shape `(N, p, b, c)` and holds `f`. -/
def Spec.Holds4 {N p b c : ℕ} (a : NdArr) (f : Fin N → Fin p → Fin b → Fin c → ℝ) : Prop :=
  a.shape = [N, p, b, c] ∧ ∀ (i : Fin N) (j : Fin p) (k : Fin b) (l : Fin c), a.val [(i : ℕ), (j : ℕ), (k : ℕ), (l : ℕ)] = f i j k l

/-- The buffers have the shapes `calc_l2_grad` allocates (mlnlg.py:807-809) and `out` holds `f`; the scratch buffers hold anything. -/
structure Spec.LoopBufsHold {N p d z : ℕ} (s : LoopBufs) (f : Fin N → Fin p → Matrix (Fin d) (Fin d) ℝ) : Prop where
  out : Spec.Holds4 s.out f
  tmp1 : s.tmp1.shape = [d, d]
  tmp2 : s.tmp2.shape = [d, z]

/-- `T` placed under the columns of the linear states: `(0 | T)`. -/
def Spec.underZ {lxi lz : ℕ} (T : Matrix (Fin (lxi + lz)) (Fin lz) ℝ) : Matrix (Fin (lxi + lz)) (Fin (lxi + lz)) ℝ :=
  .of fun k => Fin.append (fun _ => 0) (T k)

theorem underZ_eq {lxi lz : ℕ} (T : Matrix (Fin (lxi + lz)) (Fin lz) ℝ) : Spec.underZ T = T * selZ lxi lz := by
  ext k l
  rw [mul_selZ]
  refine Fin.addCases (fun i => ?_) (fun b => ?_) l <;> simp [Spec.underZ]

theorem unit_grid (i j i0 j0 k0 l0 K L : ℕ) (h : ℕ → ℕ → ℝ) :
    (∑ k ∈ Finset.range K, ∑ l ∈ Finset.range L, unitAt [i, j, k, l] (h k l)) [i0, j0, k0, l0] =
      if i = i0 ∧ j = j0 ∧ k0 < K ∧ l0 < L then h k0 l0 else 0 := by
  simp only [Finset.sum_apply, unitAt, List.cons.injEq, and_true]
  by_cases hi : i = i0
  · by_cases hj : j = j0
    · subst hi hj
      simp only [true_and]
      rw [Finset.sum_congr rfl fun k _ => show (∑ l ∈ Finset.range L, if k0 = k ∧ l0 = l then h k l else 0) =
        if k0 = k then (if l0 < L then h k0 l0 else 0) else 0 from by
          by_cases hk : k0 = k
          · subst hk; simp [Finset.sum_ite_eq]
          · simp [hk]]
      rw [Finset.sum_ite_eq]
      by_cases h1 : k0 < K <;> by_cases h2 : l0 < L <;> simp [h1, h2]
    · simp [hj, Ne.symm hj]
  · simp [hi, Ne.symm hi]

theorem grid_pick (N p i0 j0 : ℕ) (hi : i0 < N) (hj : j0 < p) (D : ℕ → ℕ → List ℕ → ℝ) (x : List ℕ) (v : ℝ)
    (h : ∀ i j, D i j x = if i = i0 ∧ j = j0 then v else 0) :
    (∑ i ∈ Finset.range N, ∑ j ∈ Finset.range p, D i j) x = v := by
  simp only [Finset.sum_apply, h]
  rw [Finset.sum_eq_single i0 (by intro i _ hne; simp [hne]) (by simp [hi]), Finset.sum_eq_single j0 (by intro i _ hne; simp [hne]) (by simp [hj])]
  simp

variable {N p lxi lz : ℕ}

/-- C90: `compute_l2_grad_f` stays inside its arrays and subtracts `f' e^T + e f'^T` from every block of `out`, whatever the scratch buffer
contains. -/
theorem C90_grad_f {d z : ℕ} {s : LoopBufs} {perr fGrad : NdArr} {out : Fin N → Fin p → Matrix (Fin d) (Fin d) ℝ} {e : Fin N → Fin d → ℝ}
    {df : Fin N → Fin p → Fin d → ℝ} (hs : Spec.LoopBufsHold (z := z) s out) (he : Spec.Holds3 (c := 1) perr fun i k _ => e i k)
    (hf : Spec.Holds4 (c := 1) fGrad fun i j k _ => df i j k) :
    ∃ s', loopL2GradF N p d perr fGrad s = .ok s' ∧
      Spec.LoopBufsHold (z := z) s' fun i j => out i j - vecMulVec (df i j) (e i) - vecMulVec (e i) (df i j) := by
  obtain ⟨s', h1, h2⟩ := loopL2GradF_at (s2 := [d, z]) (g1 := 0) (g2 := 0) (s := s) (o := s.out.val) he.1 hf.1
    ⟨⟨hs.out.1, hs.tmp1, hs.tmp2⟩, rfl, by simp, by simp⟩
  refine ⟨s', h1, ⟨h2.sh.1, fun i j k l => ?_⟩, h2.sh.2.1, h2.sh.2.2⟩
  rw [h2.out, Pi.add_apply, hs.out.2, grid_pick N p i j i.2 j.2 _ _ (-(df i j k * e i l) - df i j l * e i k)]
  · simp only [Matrix.sub_apply, vecMulVec_apply]; ring
  · intro i' j'
    unfold deltaF
    rw [unit_grid]
    by_cases hc : i' = i ∧ j' = j
    · obtain ⟨rfl, rfl⟩ := hc
      have e1 := fun k => hf.2 i j k 0
      have e2 := fun k => he.2 i k 0
      simp only [Fin.val_zero] at e1 e2
      simp [e1, e2]
    · rw [if_neg hc, if_neg (fun h => hc ⟨h.1, h.2.1⟩)]

theorem unit_right (i j i0 j0 k0 : ℕ) (hk : k0 < lxi + lz) (l0 : Fin (lxi + lz)) (T : ℕ → ℕ → ℝ) :
    (∑ k ∈ Finset.range (lxi + lz), ∑ l ∈ Finset.range lz, unitAt [i, j, k, lxi + l] (T k l)) [i0, j0, k0, (l0 : ℕ)] =
      if i = i0 ∧ j = j0 then Fin.append (fun _ : Fin lxi => 0) (fun b : Fin lz => T k0 b) l0 else 0 := by
  simp only [Finset.sum_apply, unitAt, List.cons.injEq, and_true]
  by_cases hc : i = i0 ∧ j = j0
  · obtain ⟨rfl, rfl⟩ := hc
    simp only [true_and, if_true]
    rw [Finset.sum_eq_single k0 (by intro k _ hne; simp [Ne.symm hne]) (by simp [hk])]
    simp only [true_and]
    refine Fin.addCases (fun a => ?_) (fun b => ?_) l0
    · rw [Fin.append_left]
      refine Finset.sum_eq_zero fun l _ => if_neg ?_
      have := a.2
      simp only [Fin.val_castAdd]; omega
    · rw [Fin.append_right, Finset.sum_eq_single (b : ℕ)]
      · simp
      · intro l _ hne; rw [if_neg]; simp only [Fin.val_natAdd]; omega
      · simp
  · rw [if_neg hc]
    refine Finset.sum_eq_zero fun k _ => Finset.sum_eq_zero fun l _ => if_neg ?_
    rintro ⟨h1, h2, -⟩; exact hc ⟨h1.symm, h2.symm⟩

theorem unit_down (i j i0 j0 l0 : ℕ) (hl : l0 < lxi + lz) (k0 : Fin (lxi + lz)) (T : ℕ → ℕ → ℝ) :
    (∑ k ∈ Finset.range (lxi + lz), ∑ l ∈ Finset.range lz, unitAt [i, j, lxi + l, k] (T k l)) [i0, j0, (k0 : ℕ), l0] =
      if i = i0 ∧ j = j0 then Fin.append (fun _ : Fin lxi => 0) (fun b : Fin lz => T l0 b) k0 else 0 := by
  rw [← unit_right i j i0 j0 l0 hl k0 T]
  simp only [Finset.sum_apply, unitAt, List.cons.injEq, and_true]
  refine Finset.sum_congr rfl fun k _ => Finset.sum_congr rfl fun l _ => ?_
  congr 1
  simp only [eq_iff_iff]
  tauto

/-- C90: `compute_l2_grad_A` stays inside its arrays and adds to every block of `out`
`-(A'z e^T + e (A'z)^T) + A'P A^T + (A'P A^T)^T - (0 | A'M) - (0 | A'M)^T`, whatever the scratch buffers contain. -/
theorem C90_grad_A (hz : 0 < lz) {s : LoopBufs} {perr zl Pl M A AGrad : NdArr} {out : Fin N → Fin p → Matrix (Fin (lxi + lz)) (Fin (lxi + lz)) ℝ}
    {e : Fin N → Fin (lxi + lz) → ℝ} {z : Fin N → Fin lz → ℝ} {P Mv : Fin N → Matrix (Fin lz) (Fin lz) ℝ}
    {Av : Fin N → Matrix (Fin (lxi + lz)) (Fin lz) ℝ} {dA : Fin N → Fin p → Matrix (Fin (lxi + lz)) (Fin lz) ℝ}
    (hs : Spec.LoopBufsHold (z := lz) s out) (he : Spec.Holds3 (c := 1) perr fun i k _ => e i k)
    (hzl : Spec.Holds3 (c := 1) zl fun i k _ => z i k) (hP : Spec.Holds3 Pl P) (hM : Spec.Holds3 M Mv) (hA : Spec.Holds3 A Av)
    (hG : Spec.Holds4 AGrad dA) :
    ∃ s', loopL2GradA N p (lxi + lz) lxi perr zl Pl M A AGrad s = .ok s' ∧
      Spec.LoopBufsHold (z := lz) s' fun i j => out i j - vecMulVec (dA i j *ᵥ z i) (e i) - vecMulVec (e i) (dA i j *ᵥ z i)
        + dA i j * P i * (Av i)ᵀ + (dA i j * P i * (Av i)ᵀ)ᵀ - Spec.underZ (dA i j * Mv i) - (Spec.underZ (dA i j * Mv i))ᵀ := by
  obtain ⟨s', h1, h2⟩ := loopL2GradA_at hz (g1 := 0) (g2 := 0) (s := s) (o := s.out.val) he.1 hzl.1 hP.1 hM.1 hA.1 hG.1
    ⟨⟨hs.out.1, hs.tmp1, hs.tmp2⟩, rfl, by simp, by simp⟩
  refine ⟨s', h1, ⟨h2.sh.1, fun i j k l => ?_⟩, h2.sh.2.1, h2.sh.2.2⟩
  have e1 : ∀ i j k m, AGrad.val [(i : Fin N), (j : Fin p), (k : Fin (lxi + lz)), (m : Fin lz)] = dA i j k m := hG.2
  have e2 := fun (i : Fin N) k => he.2 i k 0
  have e3 := fun (i : Fin N) m => hzl.2 i m 0
  simp only [Fin.val_zero] at e2 e3
  have c1 : ∀ k : Fin (lxi + lz), ∑ m ∈ Finset.range lz, AGrad.val [(i : ℕ), (j : ℕ), (k : ℕ), m] * zl.val [(i : ℕ), m, 0] = (dA i j *ᵥ z i) k := by
    intro k
    rw [Finset.sum_range]
    simp only [e1, e3]; rfl
  have c2 : ∀ (k : Fin (lxi + lz)) (B : NdArr) (Bv : Fin N → Matrix (Fin lz) (Fin lz) ℝ) (_ : Spec.Holds3 B Bv) (l : Fin lz),
      ∑ m ∈ Finset.range lz, AGrad.val [(i : ℕ), (j : ℕ), (k : ℕ), m] * B.val [(i : ℕ), m, (l : ℕ)] = (dA i j * Bv i) k l := by
    intro k B Bv hB l
    rw [Finset.sum_range, Matrix.mul_apply]
    simp only [e1, hB.2]
  have c3 : ∀ k l : Fin (lxi + lz), ∑ m ∈ Finset.range lz, (∑ q ∈ Finset.range lz, AGrad.val [(i : ℕ), (j : ℕ), (k : ℕ), q] * Pl.val [(i : ℕ), q, m]) *
      A.val [(i : ℕ), (l : ℕ), m] = (dA i j * P i * (Av i)ᵀ) k l := by
    intro k l
    rw [Finset.sum_range, Matrix.mul_apply]
    refine Finset.sum_congr rfl fun m _ => ?_
    rw [c2 k Pl P hP m, hA.2, transpose_apply]
  rw [h2.out, Pi.add_apply, hs.out.2, grid_pick N p i j i.2 j.2 _ _
    ((-((dA i j *ᵥ z i) k * e i l) - (dA i j *ᵥ z i) l * e i k) + ((dA i j * P i * (Av i)ᵀ) k l + (dA i j * P i * (Av i)ᵀ) l k) +
      (-(Spec.underZ (dA i j * Mv i)) k l - (Spec.underZ (dA i j * Mv i)) l k))]
  · simp only [Matrix.sub_apply, Matrix.add_apply, vecMulVec_apply, transpose_apply]; ring
  · intro i' j'
    unfold deltaA
    simp only [Finset.sum_add_distrib]
    simp only [Pi.add_apply]
    rw [unit_grid, unit_grid, unit_right _ _ _ _ _ k.2, unit_down _ _ _ _ _ l.2]
    by_cases hc : i' = i ∧ j' = j
    · obtain ⟨rfl, rfl⟩ := hc
      have c4 : ∀ k l : Fin (lxi + lz), Fin.append (fun _ : Fin lxi => (0 : ℝ)) (fun b : Fin lz => -∑ m ∈ Finset.range lz,
          AGrad.val [(i : ℕ), (j : ℕ), (k : ℕ), m] * M.val [(i : ℕ), m, (b : ℕ)]) l = -(Spec.underZ (dA i j * Mv i)) k l := by
        intro k l
        simp only [c2 k M Mv hM, Spec.underZ, of_apply]
        refine Fin.addCases (fun a => ?_) (fun b => ?_) l <;> simp
      simp only [true_and, k.2, l.2, and_self, if_true, c1, c3, e2, c4]
      ring
    · have h0 : ¬ (i' = i ∧ j' = j ∧ (k : ℕ) < lxi + lz ∧ (l : ℕ) < lxi + lz) := fun h => hc ⟨h.1, h.2.1⟩
      rw [if_neg hc, if_neg hc, if_neg hc, if_neg h0, if_neg h0]
      simp

theorem computeL2GradF_mat {d : ℕ} (out : Fin N → Fin p → Matrix (Fin d) (Fin d) ℝ) (e : Fin N → Fin d → ℝ) (df : Fin N → Fin p → Fin d → ℝ) :
    computeL2GradF out e df = fun i j => out i j - vecMulVec (df i j) (e i) - vecMulVec (e i) (df i j) := by
  funext i j
  ext k l
  simp only [computeL2GradF, of_apply, Matrix.sub_apply, vecMulVec_apply]
  ring

theorem computeL2GradA_mat (out : Fin N → Fin p → Matrix (Fin (lxi + lz)) (Fin (lxi + lz)) ℝ) (e : Fin N → Fin (lxi + lz) → ℝ)
    (z : Fin N → Fin lz → ℝ) (P M : Fin N → Matrix (Fin lz) (Fin lz) ℝ) (A : Fin N → Matrix (Fin (lxi + lz)) (Fin lz) ℝ)
    (dA : Fin N → Fin p → Matrix (Fin (lxi + lz)) (Fin lz) ℝ) :
    computeL2GradA out e z P M A dA = fun i j => out i j - vecMulVec (dA i j *ᵥ z i) (e i) - vecMulVec (e i) (dA i j *ᵥ z i)
        + dA i j * P i * (A i)ᵀ + (dA i j * P i * (A i)ᵀ)ᵀ - Spec.underZ (dA i j * M i) - (Spec.underZ (dA i j * M i))ᵀ := by
  funext i j
  have e1 : ∀ B : Matrix (Fin lz) (Fin lz) ℝ, (Matrix.of fun k l => ∑ m, dA i j k m * B m l) = dA i j * B := fun B => by
    ext k l; simp [Matrix.mul_apply]
  have e2 : (Matrix.of fun k l => ∑ m, (dA i j * P i) k m * A i l m) = dA i j * P i * (A i)ᵀ := by
    ext k l; simp [Matrix.mul_apply]
  have e3 : ∀ k, ∑ m, dA i j k m * z i m = (dA i j *ᵥ z i) k := fun k => by simp [mulVec, dotProduct]
  unfold computeL2GradA
  rw [subBlocks_eq]
  simp only [e1, e2, e3, underZ_eq]
  congr 2
  ext k l
  simp only [of_apply, Matrix.sub_apply, Matrix.add_apply, vecMulVec_apply, transpose_apply]
  ring

/-- An optional gradient argument: missing means zero. -/
def Spec.OptHolds4 {N p b c : ℕ} (a : Option NdArr) (f : Fin N → Fin p → Fin b → Fin c → ℝ) : Prop :=
  match a with
  | none => f = 0
  | some a => Spec.Holds4 a f

theorem loopL2Grad_eq {perr zl Pl M A : NdArr} {fGrad AGrad : Option NdArr}
    {e : Fin N → Fin (lxi + lz) → ℝ} {z : Fin N → Fin lz → ℝ} {P Mv : Fin N → Matrix (Fin lz) (Fin lz) ℝ}
    {Av : Fin N → Matrix (Fin (lxi + lz)) (Fin lz) ℝ} {df : Fin N → Fin p → Fin (lxi + lz) → ℝ}
    {dA : Fin N → Fin p → Matrix (Fin (lxi + lz)) (Fin lz) ℝ} (hz : AGrad.isSome → 0 < lz)
    (he : Spec.Holds3 (c := 1) perr fun i k _ => e i k)
    (hzl : Spec.Holds3 (c := 1) zl fun i k _ => z i k) (hP : Spec.Holds3 Pl P) (hM : Spec.Holds3 M Mv) (hA : Spec.Holds3 A Av)
    (hF : Spec.OptHolds4 (c := 1) fGrad fun i j k _ => df i j k) (hG : Spec.OptHolds4 AGrad dA) :
    ∃ out, loopL2Grad N p lxi lz perr zl Pl M A fGrad AGrad = .ok out ∧
      Spec.Holds4 out (computeL2GradA (computeL2GradF (fun _ _ => 0) e df) e z P Mv Av dA) := by
  have h0 : Spec.LoopBufsHold (z := lz) (⟨.zeros [N, p, lxi + lz, lxi + lz], .zeros [lxi + lz, lxi + lz], .zeros [lxi + lz, lz]⟩ : LoopBufs)
      (fun (_ : Fin N) (_ : Fin p) => (0 : Matrix (Fin (lxi + lz)) (Fin (lxi + lz)) ℝ)) :=
    ⟨⟨rfl, fun _ _ _ _ => rfl⟩, rfl, rfl⟩
  unfold loopL2Grad
  have h1 : ∃ s1, ifGiven fGrad (loopL2GradF N p (lxi + lz) perr)
      ⟨.zeros [N, p, lxi + lz, lxi + lz], .zeros [lxi + lz, lxi + lz], .zeros [lxi + lz, lz]⟩ = .ok s1 ∧
      Spec.LoopBufsHold (z := lz) s1 (computeL2GradF (fun _ _ => 0) e df) := by
    cases fGrad with
    | none =>
      refine ⟨_, rfl, ?_⟩
      have hdf : df = 0 := by
        funext i j k
        exact congrFun (congrFun (congrFun (congrFun hF i) j) k) 0
      rw [computeL2GradF_mat, hdf]
      simpa using h0
    | some g =>
      rw [computeL2GradF_mat]
      exact C90_grad_f h0 he hF
  obtain ⟨s1, h1, h1'⟩ := h1
  simp only [h1, ok_bind]
  cases AGrad with
  | none =>
    refine ⟨s1.out, rfl, ?_⟩
    have hdA : dA = 0 := hG
    rw [computeL2GradA_mat, hdA]
    have hu : Spec.underZ (0 : Matrix (Fin (lxi + lz)) (Fin lz) ℝ) = 0 := by rw [underZ_eq, Matrix.zero_mul]
    simpa [hu] using h1'.out
  | some g =>
    obtain ⟨s2, h2, h2'⟩ := C90_grad_A (hz rfl) h1' he hzl hP hM hA hG
    refine ⟨s2.out, by rw [ifGiven, h2]; rfl, ?_⟩
    rw [computeL2GradA_mat]
    exact h2'.out

/-- C90: the array `calc_l2_grad` returns holds, for every particle, parameter and entry, the derivative of the expected squared
prediction error that `calc_l2` returns (`C51_l2_is_second_moment`) along that parameter; no access leaves a buffer. -/
theorem C90_gradient (params : Fin p → ℝ) (xn : Fin N → Fin (lxi + lz) → ℝ) (z : Fin N → Fin lz → ℝ)
    (Pn P Mv : Fin N → Matrix (Fin lz) (Fin lz) ℝ) (f : (Fin p → ℝ) → Fin N → Fin (lxi + lz) → ℝ)
    (Av : (Fin p → ℝ) → Fin N → Matrix (Fin (lxi + lz)) (Fin lz) ℝ) (df : Fin N → Fin p → Fin (lxi + lz) → ℝ)
    (dA : Fin N → Fin p → Matrix (Fin (lxi + lz)) (Fin lz) ℝ) (hsymm : ∀ i, (P i).IsSymm)
    (hf' : ∀ i j, Spec.VecDerivAt (fun t => f (Function.update params j t) i) (df i j) (params j))
    (hA' : ∀ i j, Spec.MatDerivAt (fun t => Av (Function.update params j t) i) (dA i j) (params j))
    {perr zl Pl M A : NdArr} {fGrad AGrad : Option NdArr} (hz : AGrad.isSome → 0 < lz)
    (he : Spec.Holds3 (c := 1) perr fun i k _ => (xn i - f params i - Av params i *ᵥ z i) k)
    (hzl : Spec.Holds3 (c := 1) zl fun i k _ => z i k) (hP : Spec.Holds3 Pl P) (hM : Spec.Holds3 M Mv) (hA : Spec.Holds3 A (Av params))
    (hF : Spec.OptHolds4 (c := 1) fGrad fun i j k _ => df i j k) (hG : Spec.OptHolds4 AGrad dA) :
    ∃ out, loopL2Grad N p lxi lz perr zl Pl M A fGrad AGrad = .ok out ∧ out.shape = [N, p, lxi + lz, lxi + lz] ∧
      ∀ (i : Fin N) (j : Fin p) (k l : Fin (lxi + lz)),
        HasDerivAt (fun t => computeL2 (computePredErr xn (f (Function.update params j t)) (Av (Function.update params j t)) z) Pn
          (Av (Function.update params j t)) P Mv i k l) (out.val [(i : ℕ), (j : ℕ), (k : ℕ), (l : ℕ)]) (params j) := by
  obtain ⟨out, h1, h2, h3⟩ := loopL2Grad_eq hz he hzl hP hM hA hF hG
  refine ⟨out, h1, h2, fun i j k l => ?_⟩
  rw [h3]
  exact C51_l2_gradient params xn z Pn P Mv f Av df dA i j (hsymm i) (hf' i j) (hA' i j) k l

/-- C90: the model used for the EM gradients (C83) reads exactly what the loops leave in the buffer. -/
theorem C90_refines (rows : Fin N → RbS lxi lz) (nxt : Fin N → RbP lxi lz) (f : Fin N → Fin (lxi + lz) → ℝ)
    (Av : Fin N → Matrix (Fin (lxi + lz)) (Fin lz) ℝ) (df : Option (Fin N → Fin p → Fin (lxi + lz) → ℝ))
    (dA : Option (Fin N → Fin p → Matrix (Fin (lxi + lz)) (Fin lz) ℝ)) {perr zl Pl M A : NdArr} {fGrad AGrad : Option NdArr}
    (hz : AGrad.isSome → 0 < lz)
    (he : Spec.Holds3 (c := 1) perr fun i k _ => (vstackV (nxt i).1 (nxt i).2.1 - f i - Av i *ᵥ (rows i).1.2.1) k)
    (hzl : Spec.Holds3 (c := 1) zl fun i k _ => (rows i).1.2.1 k) (hP : Spec.Holds3 Pl fun i => (rows i).1.2.2)
    (hM : Spec.Holds3 M fun i => (rows i).2) (hA : Spec.Holds3 A Av)
    (hF : Option.Rel (fun a g => Spec.Holds4 (c := 1) a fun i j k _ => g i j k) fGrad df)
    (hG : Option.Rel (fun a (g : Fin N → Fin p → Matrix (Fin (lxi + lz)) (Fin lz) ℝ) => Spec.Holds4 a g) AGrad dA) :
    ∃ out, loopL2Grad N p lxi lz perr zl Pl M A fGrad AGrad = .ok out ∧
      Spec.Holds4 out fun i j k l => mlL2Grad (rows i) (nxt i) (Av i) (f i) (df.map fun g => g i) (dA.map fun g => g i) j k l := by
  obtain ⟨out, h1, h2, h3⟩ := loopL2Grad_eq (df := df.getD 0) (dA := dA.getD 0) (fGrad := fGrad) (AGrad := AGrad) hz he hzl hP hM hA
    (by
      cases hF with
      | none => rfl
      | some h => exact h)
    (by
      cases hG with
      | none => rfl
      | some h => exact h)
  refine ⟨out, h1, h2, fun i j k l => ?_⟩
  rw [h3]
  have hu : Spec.underZ (0 : Matrix (Fin (lxi + lz)) (Fin lz) ℝ) = 0 := by rw [underZ_eq, Matrix.zero_mul]
  unfold mlL2Grad
  cases df <;> cases dA <;>
    simp [computeL2GradF_mat, computeL2GradA_mat, computePredErr, hu]

/-- C90: without linear states and with a gradient of `A` the loops address column 0 of a buffer that has none: `IndexError`, and in the
compiled version a write outside the buffer. -/
theorem C90_no_linear_states (hN : 0 < N) (hp : 0 < p) (hx : 0 < lxi) (perr zl Pl M A : NdArr) (g : NdArr) :
    loopL2Grad N p lxi 0 perr zl Pl M A none (some g) = .error .indexError := by
  obtain ⟨N, rfl⟩ := Nat.exists_eq_succ_of_ne_zero hN.ne'
  obtain ⟨p, rfl⟩ := Nat.exists_eq_succ_of_ne_zero hp.ne'
  obtain ⟨x, rfl⟩ := Nat.exists_eq_succ_of_ne_zero hx.ne'
  have hcons : ∀ {σ : Type} (n : ℕ) (body : ℕ → σ → PyM σ) (s : σ), body 0 s = .error .indexError →
      forRange (n + 1) body s = .error .indexError := by
    intro σ n body s h
    unfold forRange
    rw [List.range_succ_eq_map, List.foldlM_cons, h]; rfl
  unfold loopL2Grad
  rw [ifGiven, ok_bind, ifGiven]
  rw [show loopL2GradA (N + 1) (p + 1) (x + 1 + 0) (x + 1) perr zl Pl M A g _ = .error .indexError from ?_]
  · rfl
  unfold loopL2GradA
  apply hcons
  apply hcons
  unfold loopL2GradABody
  rw [show forRange (x + 1 + 0) _ _ = .error .indexError from ?_]
  · rfl
  apply hcons
  have : ¬ (NdArr.zeros [x + 1 + 0, 0]).In [0, 0] := by unfold NdArr.In NdArr.zeros; simp
  simp only [LoopBufs.set2, NdArr.set, if_neg this]; rfl

/-! ### A concrete case -/

/-- An array holding given values. -/
def arr3 {N b c : ℕ} (f : Fin N → Fin b → Fin c → ℝ) : NdArr where
  shape := [N, b, c]
  val idx := if h : idx.getD 0 0 < N ∧ idx.getD 1 0 < b ∧ idx.getD 2 0 < c then f ⟨_, h.1⟩ ⟨_, h.2.1⟩ ⟨_, h.2.2⟩ else 0

/-- An array holding given values. -/
def arr4 {N p b c : ℕ} (f : Fin N → Fin p → Fin b → Fin c → ℝ) : NdArr where
  shape := [N, p, b, c]
  val idx := if h : idx.getD 0 0 < N ∧ idx.getD 1 0 < p ∧ idx.getD 2 0 < b ∧ idx.getD 3 0 < c then
    f ⟨_, h.1⟩ ⟨_, h.2.1⟩ ⟨_, h.2.2.1⟩ ⟨_, h.2.2.2⟩ else 0

theorem arr3_holds {N b c : ℕ} (f : Fin N → Fin b → Fin c → ℝ) : Spec.Holds3 (arr3 f) f := ⟨rfl, fun i j k => by simp [arr3]⟩

theorem arr4_holds {N p b c : ℕ} (f : Fin N → Fin p → Fin b → Fin c → ℝ) : Spec.Holds4 (arr4 f) f := ⟨rfl, fun i j k l => by simp [arr4]⟩

/-- `f = (θ, 0)`. -/
def l2ToyF (t : ℝ) : Fin (1 + 1) → ℝ := ![t, 0]

/-- `A = (θ, 1)^T`. -/
def l2ToyA (t : ℝ) : Matrix (Fin (1 + 1)) (Fin 1) ℝ := !![t; 1]

/-- The derivative of `A`. -/
def l2ToyDA : Matrix (Fin (1 + 1)) (Fin 1) ℝ := !![1; 0]

/-- C90 on two particles with one nonlinear and one linear state: the loops return the derivative of the expected squared prediction error
at `θ = 3`. -/
example (xn : Fin 2 → Fin (1 + 1) → ℝ) (z : Fin 2 → Fin 1 → ℝ) (Pn P Mv : Fin 2 → Matrix (Fin 1) (Fin 1) ℝ) :
    ∃ out, loopL2Grad 2 1 1 1 (arr3 fun i k (_ : Fin 1) => (xn i - l2ToyF 3 - l2ToyA 3 *ᵥ z i) k)
        (arr3 fun i k (_ : Fin 1) => z i k) (arr3 P) (arr3 Mv) (arr3 fun (_ : Fin 2) => l2ToyA 3)
        (some (arr4 fun (_ : Fin 2) (_ : Fin 1) k (_ : Fin 1) => l2ToyF 1 k)) (some (arr4 fun (_ : Fin 2) (_ : Fin 1) => l2ToyDA)) = .ok out ∧
      out.shape = [2, 1, 2, 2] ∧
      ∀ (i : Fin 2) (k l : Fin (1 + 1)), HasDerivAt (fun t : ℝ => computeL2 (computePredErr xn (fun _ => l2ToyF t) (fun _ => l2ToyA t) z) Pn
        (fun _ => l2ToyA t) P Mv i k l) (out.val [(i : ℕ), 0, (k : ℕ), (l : ℕ)]) 3 := by
  obtain ⟨out, h1, h2, h3⟩ := C90_gradient (N := 2) (p := 1) (lxi := 1) (lz := 1) (fun _ => 3) xn z Pn P Mv (fun θ _ => l2ToyF (θ 0))
    (fun θ _ => l2ToyA (θ 0)) (fun _ _ => l2ToyF 1) (fun _ _ => l2ToyDA) (fun i => by ext a b; rw [Subsingleton.elim a b, transpose_apply])
    (by
      intro i j k
      obtain rfl := Subsingleton.elim j 0
      simp only [Function.update_self]
      refine Fin.cases ?_ (fun k => ?_) k
      · simpa [l2ToyF] using hasDerivAt_id' (3 : ℝ)
      · simpa [l2ToyF] using hasDerivAt_const (3 : ℝ) (0 : ℝ))
    (by
      intro i j k l
      obtain rfl := Subsingleton.elim j 0
      simp only [Function.update_self]
      refine Fin.cases ?_ (fun k => ?_) k
      · simpa [l2ToyA, l2ToyDA] using hasDerivAt_id' (3 : ℝ)
      · simpa [l2ToyA, l2ToyDA] using hasDerivAt_const (3 : ℝ) (1 : ℝ))
    (AGrad := some (arr4 fun (_ : Fin 2) (_ : Fin 1) => l2ToyDA)) (fun _ => one_pos)
    (arr3_holds fun i k (_ : Fin 1) => (xn i - l2ToyF 3 - l2ToyA 3 *ᵥ z i) k)
    (arr3_holds fun i k (_ : Fin 1) => z i k) (arr3_holds P) (arr3_holds Mv) (arr3_holds fun (_ : Fin 2) => l2ToyA 3)
    (fGrad := some (arr4 fun (_ : Fin 2) (_ : Fin 1) k (_ : Fin 1) => l2ToyF 1 k))
    (arr4_holds _) (arr4_holds _)
  refine ⟨out, h1, h2, fun i k l => ?_⟩
  have := h3 i 0 k l
  simp only [Function.update_self] at this
  exact this

end PyPE

import Verif.Smooth.Traj
import Verif.Smooth.Chance

/-!
# C35, C36: the Metropolis-Hastings step (`mc_step`)
-/

namespace PyPE
open Real Spec MeasureTheory

variable {P U Y V Ω : Type}

/-! ### The arithmetic of the ratio -/

/-- Entry `j` of a term; the scalar `0.0` is broadcast. -/
def tval (t : Term) (j : ℕ) : ℝ := match t with
  | none => 0
  | some l => l.getD j 0

/-- An array term has length `M`. -/
def tlen (M : ℕ) (t : Term) : Prop := ∀ l, t = some l → l.length = M

theorem Term.sub_ok {M : ℕ} {a b : Term} (ha : tlen M a) (hb : tlen M b) :
    ∃ c, Term.sub a b = .ok c ∧ tlen M c ∧ (c = none ↔ a = none ∧ b = none) ∧
      ∀ j, j < M → tval c j = tval a j - tval b j := by
  cases a with
  | none =>
    cases b with
    | none => exact ⟨none, rfl, by simp [tlen], by simp, by simp [tval]⟩
    | some b =>
      have := hb b rfl
      refine ⟨some (b.map (0 - ·)), rfl, by simp [tlen, this], by simp, fun j hj => ?_⟩
      simp [tval, List.getD_eq_getElem?_getD, this, hj]
  | some a =>
    have h1 := ha a rfl
    cases b with
    | none => exact ⟨some a, rfl, by simp [tlen, h1], by simp, fun j hj => by simp [tval]⟩
    | some b =>
      have h2 := hb b rfl
      refine ⟨some (List.zipWith (· - ·) a b), ?_, by simp [tlen, h1, h2], by simp, fun j hj => ?_⟩
      · simp only [Term.sub]; rw [npSub_ok (by omega)]; rfl
      · simp [tval, List.getD_eq_getElem?_getD, h1, h2, hj]

theorem Term.add_ok {M : ℕ} {a b : Term} (ha : tlen M a) (hb : tlen M b) :
    ∃ c, Term.add a b = .ok c ∧ tlen M c ∧ (c = none ↔ a = none ∧ b = none) ∧
      ∀ j, j < M → tval c j = tval a j + tval b j := by
  cases a with
  | none =>
    cases b with
    | none => exact ⟨none, rfl, by simp [tlen], by simp, by simp [tval]⟩
    | some b => exact ⟨some b, rfl, hb, by simp, fun j hj => by simp [tval]⟩
  | some a =>
    have h1 := ha a rfl
    cases b with
    | none => exact ⟨some a, rfl, by simp [tlen, h1], by simp, fun j hj => by simp [tval]⟩
    | some b =>
      have h2 := hb b rfl
      refine ⟨some (List.zipWith (· + ·) a b), ?_, by simp [tlen, h1, h2], by simp, fun j hj => ?_⟩
      · simp only [Term.add]; rw [npAdd_ok (by omega)]; rfl
      · simp [tval, List.getD_eq_getElem?_getD, h1, h2, hj]

theorem maskSet_ok {acc : List Bool} {x y : List P} {M : ℕ} (ha : acc.length = M) (hx : x.length = M)
    (hy : y.length = M) : ∃ out, maskSet acc x y = .ok out ∧ out.length = M ∧
      ∀ (j : ℕ) b, acc[j]? = some b → out[j]? = if b then y[j]? else x[j]? := by
  refine ⟨_, by simp only [maskSet, ha, hx, hy, and_self, if_true]; rfl, by simp [ha, hx, hy], fun j b hb => ?_⟩
  have hj : j < M := by rw [← ha]; exact (List.getElem?_eq_some_iff.mp hb).1
  have e1 : x[j]? = some (x[j]'(by omega)) := List.getElem?_eq_getElem _
  have e2 : y[j]? = some (y[j]'(by omega)) := List.getElem?_eq_getElem _
  have e3 : (y.zip x)[j]? = some (y[j]'(by omega), x[j]'(by omega)) := by
    rw [List.getElem?_zip_eq_some]; exact ⟨e2, e1⟩
  rw [List.getElem?_zipWith, hb, e3]
  cases b <;> simp [hx, hy, hj]

/-- The measurement part and the future part of the ratio, in the four combinations. -/
theorem mcAccept_spec {S : SmoothCallbacks P U Y V Ω} {xprop part : List P}
    {ptraj : Option (List (SStep P))} {pp pc : Option (List ℕ)} {fut : Option (List (SStep P))} {find : List ℕ}
    {D : SData U Y} {cur M : ℕ} {pP pC qP qC : Term} (u : ℕ → ℝ)
    (hpP : tlen M pP) (hpC : tlen M pC) (hqP : tlen M qP) (hqC : tlen M qC) 
    {xpy cpy : List P} (hxp : xpy.length = M) (hpart : cpy.length = M)
    {y : Slot Y} (hy : D.y[cur]? = some y) {yP yC nP nC : Term}
    (hyP : tlen M yP) (hyC : tlen M yC) (hnP : tlen M nP) (hnC : tlen M nC)
    (hyn : y = .none → xpy = xprop ∧ cpy = part ∧ yP = none ∧ yC = none)
    (hys : y ≠ .none → ∃ lp lc, S.measure xprop ptraj (D.take (cur + 1)) pp = .ok (xpy, lp) ∧
      S.measure part ptraj (D.take (cur + 1)) pc = .ok (cpy, lc) ∧ yP = some lp ∧ yC = some lc)
    (hfn : fut = none → nP = none ∧ nC = none)
    (hfs : ∀ f, fut = some f → ∃ lp lc, S.logpXnextFull xpy ptraj pp f find D cur = .ok lp ∧
      S.logpXnextFull cpy ptraj pc f find D cur = .ok lc ∧ nP = some lp ∧ nC = some lc)
    (hsome : pP ≠ none ∨ yP ≠ none ∨ nP ≠ none ∨ qP ≠ none) :
    ∃ out acc, mcAccept S xprop part ptraj pp pc fut find D cur pP pC qP qC u = .ok (out, acc) ∧
      acc.length = M ∧ out.length = M ∧
      ∀ j, j < M → acc[j]? = some (decide (u j < exp ((tval pP j - tval pC j) + (tval yP j - tval yC j) +
        (tval nP j - tval nC j) + (tval qC j - tval qP j)))) ∧
        ∀ b, acc[j]? = some b → out[j]? = if b then xpy[j]? else cpy[j]? := by
  obtain ⟨t1, a1, l1, z1, v1⟩ := Term.sub_ok hpP hpC
  obtain ⟨t2, a2, l2, z2, v2⟩ := Term.sub_ok hyP hyC
  obtain ⟨t3, a3, l3, z3, v3⟩ := Term.sub_ok hnP hnC
  obtain ⟨t4, a4, l4, z4, v4⟩ := Term.sub_ok hqC hqP
  obtain ⟨s1, b1, m1, y1, w1⟩ := Term.add_ok l1 l2
  obtain ⟨s2, b2, m2, y2, w2⟩ := Term.add_ok m1 l3
  obtain ⟨s3, b3, m3, y3, w3⟩ := Term.add_ok m2 l4
  have hs3 : s3 ≠ none := by
    intro h
    obtain ⟨h2, h4⟩ := y3.mp h
    obtain ⟨h1, h3⟩ := y2.mp h2
    obtain ⟨h0, h2'⟩ := y1.mp h1
    rcases hsome with h | h | h | h
    · exact h (z1.mp h0).1
    · exact h (z2.mp h2').1
    · exact h (z3.mp h3).1
    · exact h (z4.mp h4).2
  obtain ⟨ratio, rfl⟩ := Option.ne_none_iff_exists'.mp hs3
  have hrl := m3 ratio rfl
  set acc := ratio.zipIdx.map fun rk => decide (u rk.2 < exp rk.1) with hacc
  have hal : acc.length = M := by simp [hacc, hrl]
  obtain ⟨out, ho, hol, hoj⟩ := maskSet_ok hal hpart hxp
  refine ⟨out, acc, ?_, hal, hol, fun j hj => ⟨?_, hoj j⟩⟩
  · have e1 : mcMeasure S xprop part ptraj pp pc D cur y = .ok (xpy, yP, cpy, yC) := by
      cases y with
      | none => obtain ⟨rfl, rfl, rfl, rfl⟩ := hyn rfl; rfl
      | zero =>
        obtain ⟨lp, lc, e1, e2, rfl, rfl⟩ := hys (by simp)
        simp only [mcMeasure, e1, e2, ok_bind]; rfl
      | obj a =>
        obtain ⟨lp, lc, e1, e2, rfl, rfl⟩ := hys (by simp)
        simp only [mcMeasure, e1, e2, ok_bind]; rfl
    have e2 : mcFuture S xpy cpy ptraj pp pc fut find D cur = .ok (nP, nC) := by
      cases fut with
      | none => obtain ⟨rfl, rfl⟩ := hfn rfl; rfl
      | some f =>
        obtain ⟨lp, lc, e1, e2, rfl, rfl⟩ := hfs f rfl
        simp only [mcFuture, e1, e2, ok_bind]; rfl
    simp only [mcAccept, getIdx_ok.mpr hy, ok_bind, e1, e2, a1, a2, a3, a4, b1, b2, b3, ← hacc, ho]
    rfl
  · have hv : ratio.getD j 0 = (tval pP j - tval pC j) + (tval yP j - tval yC j) +
        (tval nP j - tval nC j) + (tval qC j - tval qP j) := by
      have := w3 j hj
      rw [w2 j hj, w1 j hj, v1 j hj, v2 j hj, v3 j hj, v4 j hj] at this
      exact this
    rw [← hv]
    simp [hacc, hrl, hj, List.getD_eq_getElem?_getD]

/-! ### The contract of a model, and the specification of the step -/

/-- The ancestor of each trajectory; at time 0 there is none (written as `0`). -/
def Spec.ancOf (M : ℕ) (pind : Option (List ℕ)) : List ℕ := pind.getD (List.replicate M 0)

/-- Usable ancestor indices: `M` of them, and when there is a past they are given and point to stored particles. -/
def Spec.ValidAnc (M : ℕ) (ptraj : Option (List (SStep P))) (pind : Option (List ℕ)) : Prop :=
  (ancOf M pind).length = M ∧
  ∀ pt, ptraj = some pt → ∃ a prev ancs, pind = some a ∧ pt.getLast? = some prev ∧ prev.ancestors = some ancs ∧
    ∀ i ∈ a, i < prev.pa.part.length ∧ i < ancs.length

/-- `f j x_j a_j` for every trajectory `j`. -/
def Spec.perTraj (f : ℕ → P → ℕ → ℝ) (x : List P) (a : List ℕ) : List ℝ := (x.zip a).zipIdx.map fun q => f q.2 q.1.1 q.1.2

theorem perTraj_get (f : ℕ → P → ℕ → ℝ) {x : List P} {a : List ℕ} {j : ℕ} {v : P} {i : ℕ} (hx : x[j]? = some v)
    (ha : a[j]? = some i) : (perTraj f x a)[j]? = some (f j v i) := by
  have : (x.zip a)[j]? = some (v, i) := by simp [List.zip, List.getElem?_zipWith, hx, ha]
  simp [perTraj, this]

theorem perTraj_length (f : ℕ → P → ℕ → ℝ) (x : List P) (a : List ℕ) :
    (perTraj f x a).length = min x.length a.length := by simp [perTraj]

/-- A model without Rao-Blackwellised part whose callbacks compute, for a particle `x` with ancestor `a`, the logarithms
of the transition density (or initial density) `lp x a`, the likelihood `ly x a` of the current measurement (`0` if
there is none), the density `ln j x a` of future trajectory `j` (`0` at the end) and, for trajectory `j`, the proposal density
`lq j x a`. -/
structure Spec.MhModel (S : SmoothCallbacks P U Y V Ω) (ptraj fut : Option (List (SStep P))) (find : List ℕ)
    (D : SData U Y) (cur M : ℕ) (lp ly : P → ℕ → ℝ) (ln lq : ℕ → P → ℕ → ℝ) : Prop where
  past : ∀ pt prev ancs, ptraj = some pt → pt.getLast? = some prev → prev.ancestors = some ancs →
    ∀ (x old : List P) (a pi : List ℕ), x.length = M → a.length = M → fancy prev.pa.part a = .ok old →
      fancy ancs a = .ok pi →
      S.condPredict old pt.dropLast pi x (List.range M) D (cur - 1) = .ok x ∧
      S.logpXnextSingle old pt.dropLast pi x (List.range M) D (cur - 1) = .ok (List.zipWith lp x a)
  start : ptraj = none → ∃ tc t0, D.t[cur]? = some tc ∧ D.t[0]? = some t0 ∧ ∀ (x : List P) (a : List ℕ),
    x.length = M → a.length = M → S.condInitial x tc = .ok x ∧ S.evalLogpX0 x t0 = .ok (List.zipWith lp x a)
  proposal : ∀ (x : List P) pind, x.length = M → ValidAnc M ptraj pind →
    S.logpProposal x ptraj pind fut find D cur = .ok (perTraj lq x (ancOf M pind))
  noMeas : D.y[cur]? = some .none → ∀ x a, ly x a = 0
  meas : ∃ y, D.y[cur]? = some y ∧ (y ≠ .none → ∀ (x : List P) pind, x.length = M → ValidAnc M ptraj pind →
    S.measure x ptraj ⟨D.u.take (cur + 1), D.y.take (cur + 1), D.t.take (cur + 1)⟩ pind = .ok (x, List.zipWith ly x (ancOf M pind)))
  noFut : fut = none → ∀ j x a, ln j x a = 0
  next : ∀ f, fut = some f → ∀ (x : List P) pind, x.length = M → ValidAnc M ptraj pind →
    S.logpXnextFull x ptraj pind f find D cur = .ok (perTraj ln x (ancOf M pind))

/-- The Metropolis-Hastings ratio: target density times reverse proposal, over the same with the roles exchanged. -/
noncomputable def Spec.mhRatio (lp ly ln lq : P → ℕ → ℝ) (x : P) (a : ℕ) (x' : P) (a' : ℕ) : ℝ :=
  (exp (lp x' a') * exp (ly x' a') * exp (ln x' a') * exp (lq x a)) /
  (exp (lp x a) * exp (ly x a) * exp (ln x a) * exp (lq x' a'))

theorem mhRatio_eq (lp ly ln lq : P → ℕ → ℝ) (x : P) (a : ℕ) (x' : P) (a' : ℕ) :
    mhRatio lp ly ln lq x a x' a' = exp ((lp x' a' - lp x a) + (ly x' a' - ly x a) + (ln x' a' - ln x a) +
      (lq x a - lq x' a')) := by
  rw [mhRatio, div_eq_iff (by positivity)]
  simp only [← exp_add]
  congr 1; ring

variable {S : SmoothCallbacks P U Y V Ω} {ptraj fut : Option (List (SStep P))} {find : List ℕ}
  {D : SData U Y} {cur M : ℕ} {lp ly : P → ℕ → ℝ} {ln lq : ℕ → P → ℕ → ℝ}

theorem mcCurrent_ok (h : MhModel S ptraj fut find D cur M lp ly ln lq) {pind : Option (List ℕ)}
    (hp : ValidAnc M ptraj pind) {x : List P} (hx : x.length = M) : mcCurrent S x ptraj pind D cur = .ok x := by
  cases hpt : ptraj with
  | none =>
    obtain ⟨tc, t0, h1, -, h2⟩ := h.start hpt
    simp only [mcCurrent, getIdx_ok.mpr h1, ok_bind]
    exact (h2 x _ hx hp.1).1
  | some pt =>
    obtain ⟨a, prev, ancs, rfl, h1, h2, h3⟩ := hp.2 pt hpt
    have hal : a.length = M := hp.1
    obtain ⟨old, ho⟩ := fancy_ok (a := prev.pa.part) (ind := a) (fun i hi => (h3 i hi).1)
    obtain ⟨pi, hpi⟩ := fancy_ok (a := ancs) (ind := a) (fun i hi => (h3 i hi).2)
    simp only [mcCurrent, getLast_ok.mpr h1, ok_bind, ho, h2, hpi, hal]
    exact (h.past pt prev ancs hpt h1 h2 x old a pi hx hal ho hpi).1

theorem mcPrev_ok (h : MhModel S ptraj fut find D cur M lp ly ln lq) {pind : Option (List ℕ)}
    (hp : ValidAnc M ptraj pind) {x : List P} (hx : x.length = M) :
    mcPrev S x ptraj pind D cur = .ok (List.zipWith lp x (ancOf M pind)) := by
  cases hpt : ptraj with
  | none =>
    obtain ⟨tc, t0, -, h1, h2⟩ := h.start hpt
    simp only [mcPrev, getIdx_ok.mpr h1, ok_bind]
    exact (h2 x _ hx hp.1).2
  | some pt =>
    obtain ⟨a, prev, ancs, rfl, h1, h2, h3⟩ := hp.2 pt hpt
    have hal : a.length = M := hp.1
    obtain ⟨old, ho⟩ := fancy_ok (a := prev.pa.part) (ind := a) (fun i hi => (h3 i hi).1)
    obtain ⟨pi, hpi⟩ := fancy_ok (a := ancs) (ind := a) (fun i hi => (h3 i hi).2)
    simp only [mcPrev, getLast_ok.mpr h1, ok_bind, ho, h2, hpi, hx]
    exact (h.past pt prev ancs hpt h1 h2 x old a pi hx hal ho hpi).2

theorem mcAccept_model (h : MhModel S ptraj fut find D cur M lp ly ln lq) {pp pc : Option (List ℕ)}
    (hpp : ValidAnc M ptraj pp) (hpc : ValidAnc M ptraj pc) {xprop part : List P} (hxp : xprop.length = M)
    (hpart : part.length = M) (u : ℕ → ℝ) {pP pC qP qC : Term} (hpP : tlen M pP) (hpC : tlen M pC) (hqP : tlen M qP)
    (hqC : tlen M qC) (hs : pP ≠ none ∨ qP ≠ none ∨ D.y[cur]? ≠ some .none ∨ fut ≠ none) :
    ∃ out acc, mcAccept S xprop part ptraj pp pc fut find D cur pP pC qP qC u = .ok (out, acc) ∧
      acc.length = M ∧ out.length = M ∧
      ∀ (j : ℕ) x a x' a', part[j]? = some x → (ancOf M pc)[j]? = some a → xprop[j]? = some x' →
        (ancOf M pp)[j]? = some a' →
        acc[j]? = some (decide (u j < exp ((tval pP j - tval pC j) + (ly x' a' - ly x a) + (ln j x' a' - ln j x a) +
          (tval qC j - tval qP j)))) ∧ ∀ b, acc[j]? = some b → out[j]? = some (if b then x' else x) := by
  obtain ⟨y, hy, hmeas⟩ := h.meas
  have hzl : ∀ (f : P → ℕ → ℝ) {x : List P} {p : Option (List ℕ)}, x.length = M → ValidAnc M ptraj p →
      (List.zipWith f x (ancOf M p)).length = M := by
    intro f x p h1 h2; simp [h1, h2.1]
  have hzl' : ∀ (f : ℕ → P → ℕ → ℝ) {x : List P} {p : Option (List ℕ)}, x.length = M → ValidAnc M ptraj p →
      (perTraj f x (ancOf M p)).length = M := by
    intro f x p h1 h2; simp [perTraj_length, h1, h2.1]
  have hy' : ∃ yP yC : Term, tlen M yP ∧ tlen M yC ∧ (y = .none → yP = none ∧ yC = none) ∧
      (y ≠ .none → yP = some (List.zipWith ly xprop (ancOf M pp)) ∧ yC = some (List.zipWith ly part (ancOf M pc))) := by
    by_cases hyn : y = .none
    · exact ⟨none, none, by simp [tlen], by simp [tlen], fun _ => ⟨rfl, rfl⟩, fun h => absurd hyn h⟩
    · refine ⟨some _, some _, ?_, ?_, fun h => absurd h hyn, fun _ => ⟨rfl, rfl⟩⟩
      · intro l hl; cases hl; exact hzl ly hxp hpp
      · intro l hl; cases hl; exact hzl ly hpart hpc
  have hn' : ∃ nP nC : Term, tlen M nP ∧ tlen M nC ∧ (fut = none → nP = none ∧ nC = none) ∧
      (fut ≠ none → nP = some (perTraj ln xprop (ancOf M pp)) ∧ nC = some (perTraj ln part (ancOf M pc))) := by
    by_cases hf : fut = none
    · exact ⟨none, none, by simp [tlen], by simp [tlen], fun _ => ⟨rfl, rfl⟩, fun h => absurd hf h⟩
    · refine ⟨some _, some _, ?_, ?_, fun h => absurd h hf, fun _ => ⟨rfl, rfl⟩⟩
      · intro l hl; cases hl; exact hzl' ln hxp hpp
      · intro l hl; cases hl; exact hzl' ln hpart hpc
  obtain ⟨yP, yC, q1, q2, q3, q4⟩ := hy'
  obtain ⟨nP, nC, p1, p2, p3, p4⟩ := hn'
  obtain ⟨out, acc, e1, e2, e3, e4⟩ := mcAccept_spec (S := S) (ptraj := ptraj) (pp := pp) (pc := pc) (find := find) u hpP
    hpC hqP hqC hxp hpart hy q1 q2 p1 p2 (fun h => ⟨rfl, rfl, q3 h⟩)
    (fun hn => ⟨_, _, hmeas hn xprop pp hxp hpp, hmeas hn part pc hpart hpc, q4 hn⟩) p3
    (fun f hf => ⟨_, _, h.next f hf xprop pp hxp hpp, h.next f hf part pc hpart hpc, p4 (by simp [hf])⟩)
    (by
      rcases hs with hs | hs | hs | hs
      · exact Or.inl hs
      · exact Or.inr (Or.inr (Or.inr hs))
      · right; left
        have : y ≠ .none := fun e => hs (by rw [hy, e])
        rw [(q4 this).1]; simp
      · right; right; left
        rw [(p4 hs).1]; simp)
  refine ⟨out, acc, e1, e2, e3, fun j x a x' a' hx ha hx' ha' => ?_⟩
  have hj : j < M := by rw [← hpart]; exact (List.getElem?_eq_some_iff.mp hx).1
  obtain ⟨h1, h2⟩ := e4 j hj
  have hyv : tval yP j = ly x' a' ∧ tval yC j = ly x a := by
    by_cases hyn : y = .none
    · obtain ⟨rfl, rfl⟩ := q3 hyn
      rw [h.noMeas (by rw [hy, hyn]), h.noMeas (by rw [hy, hyn])]
      exact ⟨rfl, rfl⟩
    · obtain ⟨rfl, rfl⟩ := q4 hyn
      simp [tval, List.getD_eq_getElem?_getD, List.getElem?_zipWith, hx, ha, hx', ha']
  have hnv : tval nP j = ln j x' a' ∧ tval nC j = ln j x a := by
    by_cases hf : fut = none
    · obtain ⟨rfl, rfl⟩ := p3 hf
      rw [h.noFut hf, h.noFut hf]
      exact ⟨rfl, rfl⟩
    · obtain ⟨rfl, rfl⟩ := p4 hf
      simp [tval, List.getD_eq_getElem?_getD, perTraj_get _ hx ha, perTraj_get _ hx' ha']
  rw [hyv.1, hyv.2, hnv.1, hnv.2] at h1
  refine ⟨h1, fun b hb => ?_⟩
  rw [h2 b hb, hx, hx']
  cases b <;> rfl

/-- C35: one `mc_step` replaces, for every trajectory `j` separately, the state `x` (with ancestor `a`) by the proposed
`x'` (with ancestor `a'`) exactly when its uniform is below the Metropolis-Hastings ratio. -/
theorem C35_mc_step (h : MhModel S ptraj fut find D cur M lp ly ln lq) {pp pc : Option (List ℕ)}
    (hpp : ValidAnc M ptraj pp) (hpc : ValidAnc M ptraj pc) {part xprop : List P} (hpart : part.length = M)
    (hxp : xprop.length = M) (d : McDraws Ω) (hprop : S.proposeSmooth ptraj pp fut find D cur d.ω = .ok xprop) :
    ∃ out acc, mcStep S part ptraj pp pc fut find D cur false d = .ok (out, acc) ∧ acc.length = M ∧ out.length = M ∧
      ∀ (j : ℕ) x a x' a', part[j]? = some x → (ancOf M pc)[j]? = some a → xprop[j]? = some x' →
        (ancOf M pp)[j]? = some a' →
        (d.u j < mhRatio lp ly (ln j) (lq j) x a x' a' → acc[j]? = some true ∧ out[j]? = some x') ∧
        (¬ d.u j < mhRatio lp ly (ln j) (lq j) x a x' a' → acc[j]? = some false ∧ out[j]? = some x) := by
  have hz : ∀ (f : P → ℕ → ℝ) {x : List P} {p : Option (List ℕ)}, x.length = M → ValidAnc M ptraj p →
      tlen M (some (List.zipWith f x (ancOf M p))) := by
    intro f x p h1 h2 l hl; cases hl; simp [h1, h2.1]
  have hz' : ∀ (f : ℕ → P → ℕ → ℝ) {x : List P} {p : Option (List ℕ)}, x.length = M → ValidAnc M ptraj p →
      tlen M (some (perTraj f x (ancOf M p))) := by
    intro f x p h1 h2 l hl; cases hl; simp [perTraj_length, h1, h2.1]
  obtain ⟨out, acc, e1, e2, e3, e4⟩ := mcAccept_model h hpp hpc hxp hpart d.u (hz lp hxp hpp) (hz lp hpart hpc)
    (hz' lq hxp hpp) (hz' lq hpart hpc) (Or.inl (by simp))
  refine ⟨out, acc, ?_, e2, e3, fun j x a x' a' hx ha hx' ha' => ?_⟩
  · simp only [mcStep, mcCurrent_ok h hpc hpart, hprop, h.proposal _ _ hxp hpp, h.proposal _ _ hpart hpc,
      mcPrev_ok h hpp hxp, mcPrev_ok h hpc hpart, ok_bind, Bool.false_eq_true, if_false]
    exact e1
  · obtain ⟨h1, h2⟩ := e4 j x a x' a' hx ha hx' ha'
    have hv : exp ((tval (some (List.zipWith lp xprop (ancOf M pp))) j - tval (some (List.zipWith lp part (ancOf M pc))) j)
        + (ly x' a' - ly x a) + (ln j x' a' - ln j x a) + (tval (some (perTraj lq part (ancOf M pc))) j -
          tval (some (perTraj lq xprop (ancOf M pp))) j)) = mhRatio lp ly (ln j) (lq j) x a x' a' := by
      rw [mhRatio_eq]
      simp [tval, List.getD_eq_getElem?_getD, List.getElem?_zipWith, hx, ha, hx', ha', perTraj_get _ hx ha,
        perTraj_get _ hx' ha']
    rw [hv] at h1
    constructor
    · intro hu
      have h3 : acc[j]? = some true := by rw [h1, decide_eq_true hu]
      exact ⟨h3, by simpa using h2 _ h3⟩
    · intro hu
      have h3 : acc[j]? = some false := by rw [h1, decide_eq_false hu]
      exact ⟨h3, by simpa using h2 _ h3⟩

open scoped Classical in
/-- The probability that `mc_step` accepts for trajectory `j`, over its own uniform. -/
noncomputable def Spec.acceptProb (S : SmoothCallbacks P U Y V Ω) (part : List P) (ptraj : Option (List (SStep P)))
    (pp pc : Option (List ℕ)) (fut : Option (List (SStep P))) (find : List ℕ) (D : SData U Y) (cur : ℕ) (d : McDraws Ω)
    (j : ℕ) : ℝ :=
  ∫ r, (if ∃ out acc, mcStep S part ptraj pp pc fut find D cur false ⟨d.ω, Function.update d.u j r⟩ = .ok (out, acc) ∧
    acc[j]? = some true then (1:ℝ) else 0) ∂unif

theorem integral_unif_lt_min (c a b : ℝ) (hc : 0 ≤ c) :
    ∫ r, (if r < c then a else b) ∂unif = min 1 c * a + (1 - min 1 c) * b := by
  rw [← integral_unif_lt (le_min zero_le_one hc) (min_le_left _ _) a b]
  apply integral_congr_ae
  filter_upwards [unif_ae] with r hr
  have : r < c ↔ r < min 1 c := by
    rw [lt_min_iff]; exact ⟨fun h => ⟨hr.2, h⟩, fun h => h.2⟩
  simp only [this]

/-- C35: the acceptance probability is `min(1, ratio)`, whatever the other trajectories do. -/
theorem C35_accept_prob (h : MhModel S ptraj fut find D cur M lp ly ln lq) {pp pc : Option (List ℕ)}
    (hpp : ValidAnc M ptraj pp) (hpc : ValidAnc M ptraj pc) {part xprop : List P} (hpart : part.length = M)
    (hxp : xprop.length = M) (d : McDraws Ω) (hprop : S.proposeSmooth ptraj pp fut find D cur d.ω = .ok xprop)
    {j : ℕ} {x x' : P} {a a' : ℕ} (hx : part[j]? = some x) (ha : (ancOf M pc)[j]? = some a)
    (hx' : xprop[j]? = some x') (ha' : (ancOf M pp)[j]? = some a') :
    acceptProb S part ptraj pp pc fut find D cur d j = min 1 (mhRatio lp ly (ln j) (lq j) x a x' a') := by
  have hpos : 0 ≤ mhRatio lp ly (ln j) (lq j) x a x' a' := by unfold mhRatio; positivity
  have := integral_unif_lt_min (mhRatio lp ly (ln j) (lq j) x a x' a') 1 0 hpos
  rw [mul_one, mul_zero, add_zero] at this
  rw [← this, acceptProb]
  congr 1
  funext r
  obtain ⟨out, acc, e1, -, -, e4⟩ := C35_mc_step h hpp hpc hpart hxp ⟨d.ω, Function.update d.u j r⟩ hprop
  obtain ⟨h1, h2⟩ := e4 j x a x' a' hx ha hx' ha'
  simp only [Function.update_self] at h1 h2
  by_cases hr : r < mhRatio lp ly (ln j) (lq j) x a x' a'
  · rw [if_pos hr, if_pos ⟨out, acc, e1, (h1 hr).1⟩]
  · rw [if_neg hr, if_neg]
    rintro ⟨out', acc', e, h3⟩
    rw [e1] at e
    cases e
    rw [(h2 hr).1] at h3
    cases h3

/-- C35 (detailed balance): a step from `(x,a)` that proposes `(x',a')` and a step from `(x',a')` that proposes `(x,a)`
carry the same flow of probability with respect to the target `p(x|past) p(y|x) p(future|x)`. -/
theorem C35_detailed_balance (h : MhModel S ptraj fut find D cur M lp ly ln lq) {pp pc pp' pc' : Option (List ℕ)}
    (hpp : ValidAnc M ptraj pp) (hpc : ValidAnc M ptraj pc) (hpp' : ValidAnc M ptraj pp') (hpc' : ValidAnc M ptraj pc')
    {part xprop part' xprop' : List P} (h1 : part.length = M) (h2 : xprop.length = M) (h3 : part'.length = M)
    (h4 : xprop'.length = M) (d d' : McDraws Ω) (hprop : S.proposeSmooth ptraj pp fut find D cur d.ω = .ok xprop)
    (hprop' : S.proposeSmooth ptraj pp' fut find D cur d'.ω = .ok xprop') {j : ℕ} {x x' : P} {a a' : ℕ}
    (hx : part[j]? = some x) (ha : (ancOf M pc)[j]? = some a) (hx' : xprop[j]? = some x')
    (ha' : (ancOf M pp)[j]? = some a') (gx : part'[j]? = some x') (ga : (ancOf M pc')[j]? = some a')
    (gx' : xprop'[j]? = some x) (ga' : (ancOf M pp')[j]? = some a) :
    (exp (lp x a) * exp (ly x a) * exp (ln j x a)) * exp (lq j x' a') *
      acceptProb S part ptraj pp pc fut find D cur d j =
    (exp (lp x' a') * exp (ly x' a') * exp (ln j x' a')) * exp (lq j x a) *
      acceptProb S part' ptraj pp' pc' fut find D cur d' j := by
  rw [C35_accept_prob h hpp hpc h1 h2 d hprop hx ha hx' ha', C35_accept_prob h hpp' hpc' h3 h4 d' hprop' gx ga gx' ga']
  unfold mhRatio
  have e1 := exp_pos (lp x a)
  have e2 := exp_pos (ly x a)
  have e3 := exp_pos (ln j x a)
  have e4 := exp_pos (lq j x a)
  have f1 := exp_pos (lp x' a')
  have f2 := exp_pos (ly x' a')
  have f3 := exp_pos (ln j x' a')
  have f4 := exp_pos (lq j x' a')
  rw [mul_min_of_nonneg _ _ (by positivity), mul_min_of_nonneg _ _ (by positivity)]
  rw [mul_one, mul_one, mul_div_cancel₀ _ (by positivity), mul_div_cancel₀ _ (by positivity), min_comm]

open scoped Classical in
/-- One `mc_step` for a single trajectory as a Markov kernel on finitely many states `z`, each a particle `xs z` with
ancestor `as z`: `z'` is proposed with its proposal probability, then the code decides with a fresh uniform. -/
noncomputable def Spec.mhKernel {Z : Type} [Fintype Z] (S : SmoothCallbacks P U Y V Ω) (ptraj : Option (List (SStep P)))
    (fut : Option (List (SStep P))) (find : List ℕ) (D : SData U Y) (cur : ℕ) (xs : Z → P) (as : Z → ℕ) (q : Z → ℝ)
    (prop : Z → Ω) (z w : Z) : ℝ :=
  ∑ z', q z' * ∫ r, (if (if ∃ out, mcStep S [xs z] ptraj (some [as z']) (some [as z]) fut find D cur false
    ⟨prop z', fun _ => r⟩ = .ok (out, [true]) then z' else z) = w then (1:ℝ) else 0) ∂unif

/-- C35 (invariance): if the model proposes state `z'` with probability `exp (lq z')`, the step leaves the target
distribution invariant. -/
theorem C35_invariant {Z : Type} [Fintype Z] (xs : Z → P) (as : Z → ℕ) (prop : Z → Ω)
    (h : MhModel S ptraj fut find D cur 1 lp ly ln lq) (hv : ∀ z, ValidAnc 1 ptraj (some [as z]))
    (hprop : ∀ z, S.proposeSmooth ptraj (some [as z]) fut find D cur (prop z) = .ok [xs z])
    (hq : ∑ z, exp (lq 0 (xs z) (as z)) = 1) (w : Z) :
    ∑ z, (exp (lp (xs z) (as z)) * exp (ly (xs z) (as z)) * exp (ln 0 (xs z) (as z))) *
      mhKernel S ptraj fut find D cur xs as (fun z => exp (lq 0 (xs z) (as z))) prop z w =
    exp (lp (xs w) (as w)) * exp (ly (xs w) (as w)) * exp (ln 0 (xs w) (as w)) := by
  classical
  set t : Z → ℝ := fun z => exp (lp (xs z) (as z)) * exp (ly (xs z) (as z)) * exp (ln 0 (xs z) (as z)) with ht
  set q : Z → ℝ := fun z => exp (lq 0 (xs z) (as z)) with hqd
  set A : Z → Z → ℝ := fun z z' => min 1 (mhRatio lp ly (ln 0) (lq 0) (xs z) (as z) (xs z') (as z')) with hA
  have hbal : ∀ z z', t z * q z' * A z z' = t z' * q z * A z' z := by
    intro z z'
    have := C35_detailed_balance h (hv z') (hv z) (hv z) (hv z') (part := [xs z]) (xprop := [xs z']) (part' := [xs z'])
      (xprop' := [xs z]) rfl rfl rfl rfl ⟨prop z', fun _ => 0⟩ ⟨prop z, fun _ => 0⟩ (hprop z') (hprop z) (j := 0)
      rfl (a := as z) rfl rfl (a' := as z') rfl rfl rfl rfl rfl
    rw [C35_accept_prob h (hv z') (hv z) (part := [xs z]) (xprop := [xs z']) rfl rfl _ (hprop z') (j := 0) rfl (a := as z)
        rfl rfl (a' := as z') rfl,
      C35_accept_prob h (hv z) (hv z') (part := [xs z']) (xprop := [xs z]) rfl rfl _ (hprop z) (j := 0) rfl (a := as z')
        rfl rfl (a' := as z) rfl] at this
    exact this
  have hK : ∀ z, mhKernel S ptraj fut find D cur xs as q prop z w =
      q w * A z w + (if z = w then ∑ z', q z' * (1 - A z z') else 0) := by
    intro z
    have hint : ∀ z', (∫ r, (if (if ∃ out, mcStep S [xs z] ptraj (some [as z']) (some [as z]) fut find D cur false
        ⟨prop z', fun _ => r⟩ = .ok (out, [true]) then z' else z) = w then (1:ℝ) else 0) ∂unif) =
        A z z' * (if z' = w then 1 else 0) + (1 - A z z') * (if z = w then 1 else 0) := by
      intro z'
      have hpos : 0 ≤ mhRatio lp ly (ln 0) (lq 0) (xs z) (as z) (xs z') (as z') := by unfold mhRatio; positivity
      rw [← integral_unif_lt_min _ _ _ hpos]
      congr 1
      funext r
      obtain ⟨out, acc, e1, e2, -, e4⟩ := C35_mc_step h (hv z') (hv z) (part := [xs z]) (xprop := [xs z']) rfl rfl
        ⟨prop z', fun _ => r⟩ (hprop z')
      obtain ⟨h1, h2⟩ := e4 0 (xs z) (as z) (xs z') (as z') rfl rfl rfl rfl
      obtain ⟨b, rfl⟩ := List.length_eq_one_iff.mp e2
      simp only [List.getElem?_cons_zero, Option.some.injEq] at h1 h2
      by_cases hr : r < mhRatio lp ly (ln 0) (lq 0) (xs z) (as z) (xs z') (as z')
      · rw [if_pos (⟨out, by rw [e1, (h1 hr).1]⟩ : ∃ out, _), if_pos hr]
      · rw [if_neg (c := ∃ out, _), if_neg hr]
        rintro ⟨out', e⟩
        rw [e1, (h2 hr).1] at e
        simp at e
    simp only [mhKernel, hint, mul_add, Finset.sum_add_distrib]
    congr 1
    · rw [Finset.sum_eq_single w]
      · simp
      · intro z' _ hne; simp [hne]
      · simp
    · by_cases hzw : z = w
      · simp [hzw]
      · simp [hzw]
  calc ∑ z, t z * mhKernel S ptraj fut find D cur xs as q prop z w
      = ∑ z, (t w * q z * A w z) + t w * ∑ z', q z' * (1 - A w z') := by
        simp only [hK, mul_add, Finset.sum_add_distrib]
        congr 1
        · apply Finset.sum_congr rfl
          intro z _
          rw [← mul_assoc, hbal]
        · rw [Finset.sum_eq_single w]
          · simp
          · intro z _ hne; simp [hne]
          · simp
    _ = t w * ∑ z, q z := by
        rw [Finset.mul_sum, Finset.mul_sum, ← Finset.sum_add_distrib]
        apply Finset.sum_congr rfl
        intro z _
        ring
    _ = t w := by rw [hq, mul_one]

/-! ### The reduced step -/

/-- `xprop` is what the model returns when it simulates one step of its own dynamics (or its initial distribution). -/
inductive Spec.PriorDraw (S : SmoothCallbacks P U Y V Ω) (D : SData U Y) (cur : ℕ) (ω : Ω) (xprop : List P) :
    Option (List (SStep P)) → Option (List (SStep P)) → Option (List ℕ) → Prop
  | later {pt : List (SStep P)} {prev : SStep P} {fut : Option (List (SStep P))} {a : List ℕ} {old : List P} {noise : V} :
    pt.getLast? = some prev → fancy prev.pa.part a = .ok old →
    S.sampleNoise pt a (D.u.take cur) (D.t.take cur) ω = .ok noise →
    S.update old pt ⟨D.u.take cur, D.y.take cur, D.t.take cur⟩ a noise = .ok xprop → PriorDraw S D cur ω xprop (some pt) fut (some a)
  | start {f0 : SStep P} {fs : List (SStep P)} {a : Option (List ℕ)} :
    S.createInitial f0.pa.part.length ω = .ok xprop → PriorDraw S D cur ω xprop none (some (f0 :: fs)) a

theorem PriorDraw.eq {xprop : List P} {ω : Ω} {pp : Option (List ℕ)} (h : PriorDraw S D cur ω xprop ptraj fut pp) :
    mcProposeReduced S ptraj pp fut D cur ω = .ok xprop := by
  cases h with
  | later h1 h2 h3 h4 => simp only [mcProposeReduced, h3, ok_bind, getLast_ok.mpr h1, h2, SData.take, h4]
  | start h => simp only [mcProposeReduced, getIdx, List.getElem?_cons_zero, ok_bind, h]

/-- C36: for a model that proposes from its own dynamics (`lq = lp`, same proposed particles) the reduced step and the
full step give the same result, provided there is a measurement or a future trajectory. -/
theorem C36_reduced_eq_full (h : MhModel S ptraj fut find D cur M lp ly ln fun _ => lp) {pp pc : Option (List ℕ)}
    (hpp : ValidAnc M ptraj pp) (hpc : ValidAnc M ptraj pc) {part xprop : List P} (hpart : part.length = M)
    (hxp : xprop.length = M) (d : McDraws Ω) (hprop : S.proposeSmooth ptraj pp fut find D cur d.ω = .ok xprop)
    (hprior : PriorDraw S D cur d.ω xprop ptraj fut pp) (hinfo : D.y[cur]? ≠ some .none ∨ fut ≠ none) :
    mcStep S part ptraj pp pc fut find D cur true d = mcStep S part ptraj pp pc fut find D cur false d := by
  obtain ⟨out, acc, e1, e2, e3, e4⟩ := C35_mc_step h hpp hpc hpart hxp d hprop
  obtain ⟨out', acc', g1, g2, g3, g4⟩ := mcAccept_model h hpp hpc hxp hpart d.u (pP := none) (pC := none) (qP := none)
    (qC := none) (by simp [tlen]) (by simp [tlen]) (by simp [tlen]) (by simp [tlen]) (Or.inr (Or.inr hinfo))
  have hl : mcStep S part ptraj pp pc fut find D cur true d = .ok (out', acc') := by
    simp only [mcStep, mcCurrent_ok h hpc hpart, ok_bind, if_true, PriorDraw.eq hprior]
    exact g1
  rw [hl, e1]
  have key : ∀ j, j < M → acc'[j]? = acc[j]? ∧ out'[j]? = out[j]? := by
    intro j hj
    obtain ⟨x, hx⟩ : ∃ x, part[j]? = some x := ⟨_, List.getElem?_eq_getElem (by omega)⟩
    obtain ⟨x', hx'⟩ : ∃ x, xprop[j]? = some x := ⟨_, List.getElem?_eq_getElem (by omega)⟩
    obtain ⟨a, ha⟩ : ∃ x, (ancOf M pc)[j]? = some x := ⟨_, List.getElem?_eq_getElem (by rw [hpc.1]; exact hj)⟩
    obtain ⟨a', ha'⟩ : ∃ x, (ancOf M pp)[j]? = some x := ⟨_, List.getElem?_eq_getElem (by rw [hpp.1]; exact hj)⟩
    obtain ⟨h1, h2⟩ := g4 j x a x' a' hx ha hx' ha'
    obtain ⟨k1, k2⟩ := e4 j x a x' a' hx ha hx' ha'
    have hv : exp ((tval none j - tval none j) + (ly x' a' - ly x a) + (ln j x' a' - ln j x a) + (tval none j - tval none j)) =
        mhRatio lp ly (ln j) lp x a x' a' := by
      rw [mhRatio_eq]; congr 1; simp only [tval]; ring
    rw [hv] at h1
    by_cases hu : d.u j < mhRatio lp ly (ln j) lp x a x' a'
    · rw [decide_eq_true hu] at h1
      rw [h1, (k1 hu).1, (k1 hu).2, h2 _ h1]
      exact ⟨rfl, rfl⟩
    · rw [decide_eq_false hu] at h1
      rw [h1, (k2 hu).1, (k2 hu).2, h2 _ h1]
      exact ⟨rfl, rfl⟩
  congr 2
  · apply List.ext_getElem?
    intro j
    by_cases hj : j < M
    · exact (key j hj).2
    · rw [List.getElem?_eq_none (by omega), List.getElem?_eq_none (by omega)]
  · apply List.ext_getElem?
    intro j
    by_cases hj : j < M
    · exact (key j hj).1
    · rw [List.getElem?_eq_none (by omega), List.getElem?_eq_none (by omega)]

/-- C36 (defect): without a measurement and without a future the ratio is the number `0.0` and `len(ratio)` raises
`TypeError`, whatever the model proposes. -/
theorem C36_reduced_no_information (h : MhModel S ptraj none find D cur M lp ly ln lq) {pp pc : Option (List ℕ)}
    (hpc : ValidAnc M ptraj pc) {part xprop : List P} (hpart : part.length = M)
    (d : McDraws Ω) (hprior : PriorDraw S D cur d.ω xprop ptraj none pp) (hy : D.y[cur]? = some .none) :
    mcStep S part ptraj pp pc none find D cur true d = .error .typeError := by
  simp only [mcStep, mcCurrent_ok h hpc hpart, ok_bind, if_true, PriorDraw.eq hprior, mcAccept, getIdx_ok.mpr hy]
  rfl

end PyPE

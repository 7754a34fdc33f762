import Verif.Smooth.Bsi
import Mathlib.Tactic.FieldSimp
import Mathlib.Tactic.Positivity
import Mathlib.Algebra.Order.Archimedean.Basic

/-!
# C31: the adaptive rejection sampler terminates
-/

namespace PyPE
open Real Spec
open scoped Classical

variable {P U Y V Ω : Type}

/-- Options with which `bsi_rsas` terminates: real measurement noise, a positive cost ratio, and a Kalman filter that is
not certain of its initial acceptance rate for ever. -/
structure Spec.GoodOpts (o : RsasOpts) : Prop where
  sw : o.sw ≠ 0
  ratio : 0 < o.ratio
  P1 : 0 ≤ o.P1
  uncertain : 0 < o.P1 ∨ o.sv ≠ 0

/-- The variances the stopping rule can reach. -/
def okVar (o : RsasOpts) (Pk : ℝ) : Prop := 0 < Pk ∨ (0 ≤ Pk ∧ o.sv ≠ 0)

theorem intDiv_zero (v : PyVersion) (m : ℝ) : intDiv v 0 m = 0 := by cases v <;> simp [intDiv]

/-- As long as something was rejected, the integer division of Python 2 gives zero. -/
theorem intDiv_py2 {m a : ℕ} (h : a < m) : intDiv .py2 (a : ℝ) m = 0 := by
  have : ⌊(a : ℝ) / m⌋ = 0 := by
    rw [Int.floor_eq_zero_iff]
    have hm : (0 : ℝ) < m := by exact_mod_cast (by omega : 0 < m)
    exact ⟨by positivity, by rw [div_lt_one hm]; exact_mod_cast h⟩
  simp [intDiv, this]

theorem intDiv_lt_one (v : PyVersion) {m a : ℕ} (h : a < m) : intDiv v (a : ℝ) m < 1 := by
  cases v with
  | py2 => rw [intDiv_py2 h]; norm_num
  | py3 =>
    have hm : (0 : ℝ) < m := by exact_mod_cast (by omega : 0 < m)
    show (a : ℝ) / m < 1
    rw [div_lt_one hm]; exact_mod_cast h

/-- The Kalman update after a round without acceptance (the same in both interpreters). -/
noncomputable def zeroStep (o : RsasOpts) (m : ℕ) (s : ℝ × ℝ) : ℝ × ℝ := rsasUpdate .py3 o m 0 s.1 s.2

theorem zeroStep_any (v : PyVersion) (o : RsasOpts) (m : ℕ) (s : ℝ × ℝ) : rsasUpdate v o m 0 s.1 s.2 = zeroStep o m s := by
  simp only [zeroStep, rsasUpdate, intDiv_zero]

theorem zeroStep_eq {o : RsasOpts} (hsw : o.sw ≠ 0) (m : ℕ) (s : ℝ × ℝ) (hP : 0 ≤ s.2) :
    zeroStep o m s = (s.1 * (o.sw * o.sw) / ((m:ℝ) * m * s.2 + o.sw * o.sw),
      s.2 * (o.sw * o.sw) / ((m:ℝ) * m * s.2 + o.sw * o.sw) + o.sv * o.sv) := by
  have h2 : 0 < o.sw * o.sw := mul_self_pos.mpr hsw
  have h3 : 0 < (m:ℝ) * m * s.2 + o.sw * o.sw := by positivity
  unfold zeroStep rsasUpdate
  ext
  · simp only [intDiv, zero_div, sub_zero, one_mul, zero_sub]
    field_simp
    ring
  · simp only [intDiv, zero_div, sub_zero, one_mul, one_pow]
    field_simp
    ring

theorem okVar.update (v : PyVersion) {o : RsasOpts} (hsw : o.sw ≠ 0) {Pk : ℝ} (h : okVar o Pk) {m a : ℕ} (ha : a < m) (pk : ℝ) :
    0 < (rsasUpdate v o m a pk Pk).2 := by
  have h2 : 0 < o.sw * o.sw := mul_self_pos.mpr hsw
  have hP : 0 ≤ Pk := by rcases h with h | h; exacts [h.le, h.1]
  have hm : (0:ℝ) < m := by exact_mod_cast (by omega : 0 < m)
  have h3 : 0 < (m:ℝ) * m * Pk + o.sw * o.sw := by positivity
  have e : (rsasUpdate v o m a pk Pk).2 =
      (1 - intDiv v a m) ^ 2 * (Pk * (o.sw * o.sw) / ((m:ℝ) * m * Pk + o.sw * o.sw)) + o.sv * o.sv := by
    unfold rsasUpdate
    simp only
    congr 2
    field_simp
    ring
  rw [e]
  have hne : 0 < 1 - intDiv v a m := by
    rw [sub_pos]; exact intDiv_lt_one v ha
  rcases h with h | ⟨-, h⟩
  · have : 0 ≤ o.sv * o.sv := mul_self_nonneg _
    positivity
  · have : 0 < o.sv * o.sv := mul_self_pos.mpr h
    positivity

/-- Without acceptances the tracked acceptance rate goes to zero: it falls below every positive threshold. -/
theorem zeroStep_reaches {o : RsasOpts} (hsw : o.sw ≠ 0) {m : ℕ} (hm : 0 < m) {s : ℝ × ℝ} (hs : 0 < s.2)
    {c : ℝ} (hc : 0 < c) : ∃ t, 1 ≤ t ∧ ((zeroStep o m)^[t] s).1 < c := by
  have h2 : 0 < o.sw * o.sw := mul_self_pos.mpr hsw
  have hmm : (0:ℝ) < m := by exact_mod_cast hm
  set a : ℝ := (m:ℝ) * m / (o.sw * o.sw) with ha
  have hapos : 0 < a := by positivity
  have inv : ∀ n : ℕ, 0 < ((zeroStep o m)^[n] s).2 ∧ ∃ Q : ℝ, 1 + n * (a * s.2) ≤ Q ∧
      ((zeroStep o m)^[n] s).1 * Q = s.1 ∧ s.2 ≤ Q * ((zeroStep o m)^[n] s).2 := by
    intro n
    induction n with
    | zero => exact ⟨hs, 1, by simp, by simp, by simp⟩
    | succ n ih =>
      obtain ⟨hP, Q, hQ, hp, hPQ⟩ := ih
      set x := (zeroStep o m)^[n] s with hx
      rw [Function.iterate_succ_apply', ← hx, zeroStep_eq hsw m x hP.le]
      have h3 : 0 < (m:ℝ) * m * x.2 + o.sw * o.sw := by positivity
      have hQ1 : 0 < Q := by
        have : 0 ≤ (n:ℝ) * (a * s.2) := by positivity
        linarith
      have e : 1 + a * x.2 = ((m:ℝ) * m * x.2 + o.sw * o.sw) / (o.sw * o.sw) := by
        rw [ha]; field_simp
        ring
      have hsv : 0 ≤ o.sv * o.sv := mul_self_nonneg _
      refine ⟨by positivity, Q * (1 + a * x.2), ?_, ?_, ?_⟩
      · push_cast
        have : a * s.2 ≤ a * (Q * x.2) := mul_le_mul_of_nonneg_left hPQ hapos.le
        nlinarith
      · rw [← hp, e]; field_simp
      · have e2 : Q * (1 + a * x.2) * (x.2 * (o.sw * o.sw) / ((m:ℝ) * m * x.2 + o.sw * o.sw)) = Q * x.2 := by
          rw [e]; field_simp
        have h5 : 0 ≤ Q * (1 + a * x.2) * (o.sv * o.sv) := by positivity
        calc s.2 ≤ Q * x.2 := hPQ
          _ ≤ Q * x.2 + Q * (1 + a * x.2) * (o.sv * o.sv) := by linarith
          _ = _ := by rw [mul_add (Q * (1 + a * x.2)), e2]
  obtain ⟨n, hn⟩ := exists_nat_gt (|s.1| / (c * (a * s.2)))
  have hpos : 0 < c * (a * s.2) := by positivity
  rw [div_lt_iff₀ hpos] at hn
  refine ⟨n + 1, by omega, ?_⟩
  obtain ⟨-, Q, hQ, hp, -⟩ := inv (n+1)
  by_contra hge
  push Not at hge
  have hQ0 : 0 < Q := by
    have : 0 ≤ ((n + 1 : ℕ):ℝ) * (a * s.2) := by positivity
    linarith
  have h6 : c * Q ≤ s.1 := by rw [← hp]; exact mul_le_mul_of_nonneg_right hge hQ0.le
  have h7 : c * (1 + ((n + 1 : ℕ):ℝ) * (a * s.2)) ≤ c * Q := mul_le_mul_of_nonneg_left hQ hc.le
  push_cast at h7
  have h8 := le_abs_self s.1
  nlinarith [hpos]

/-- More fuel changes nothing once the loop has finished. -/
theorem rsasLoop_mono {S : SmoothCallbacks P U Y V Ω} {pa : PA P} {ptraj : List (SStep P)} {pind : List ℕ}
    {fut : List (SStep P)} {D : SData U Y} {cur : ℕ} {w : List ℝ} {maxpdf : ℝ} {o : RsasOpts} {at_ : ℕ → Attempt}
    {fuel : ℕ} {k : ℕ} {todo : List ℕ} {res : List (Option ℕ)} {pk Pk : ℝ} {x : List (Option ℕ) × List ℕ}
    (h : rsasLoop S pa ptraj pind fut D cur w maxpdf o at_ fuel k todo res pk Pk = .ok (some x)) {fuel' : ℕ}
    (hle : fuel ≤ fuel') :
    rsasLoop S pa ptraj pind fut D cur w maxpdf o at_ fuel' k todo res pk Pk = .ok (some x) := by
  induction fuel generalizing fuel' k todo res pk Pk with
  | zero => simp [rsasLoop] at h
  | succ n ih =>
    obtain ⟨n', rfl⟩ : ∃ n', fuel' = n' + 1 := ⟨fuel' - 1, by omega⟩
    simp only [rsasLoop] at h ⊢
    obtain ⟨⟨r, t⟩, h1, h2⟩ := bind_eq_ok.mp h
    rw [h1]
    simp only [ok_bind] at h2 ⊢
    split_ifs at h2 ⊢ with c1 c2
    · exact h2
    · exact h2
    · exact ih h2 (by omega)

/-- The state in which the loop stands: invariant of the arrays and `B` rounds suffice. -/
def Stops (o : RsasOpts) (N M : ℕ) (Ω : Type) (m : ℕ) (s : ℝ × ℝ) (B : ℕ) : Prop :=
  ∀ (P U Y V : Type) (S : SmoothCallbacks P U Y V Ω) (pa : PA P) (ptraj : List (SStep P)) (pind : List ℕ)
    (fut : List (SStep P)) (D : SData U Y) (cur : ℕ) (L : ℕ → ℕ → ℝ), BackStep S pa ptraj pind fut D cur N M L →
    ∀ (maxpdf : ℝ) (d : BsiDraws Ω), GoodDraws d → ∀ (K : ℕ) (res : List (Option ℕ)) (todo : List ℕ),
      todo.length = m → RsInv L maxpdf d N M K res todo →
      ∃ x, rsasLoop S pa ptraj pind fut D cur (normWeights pa.w) maxpdf o d.attempts B K todo res s.1 s.2 =
        .ok (some x) ∧ ∃ K', RsInv L maxpdf d N M K' x.1 x.2

theorem Stops.mono {o : RsasOpts} {N M m : ℕ} {s : ℝ × ℝ} {B B' : ℕ} (h : Stops o N M Ω m s B) (hle : B ≤ B') :
    Stops o N M Ω m s B' := by
  intro P U Y V S pa ptraj pind fut D cur L hb maxpdf d hd K res todo ht hi
  obtain ⟨x, hx, hK⟩ := h P U Y V S pa ptraj pind fut D cur L hb maxpdf d hd K res todo ht hi
  exact ⟨x, rsasLoop_mono hx hle, hK⟩

/-- One round, given bounds for everything that can follow. -/
theorem Stops.step {o : RsasOpts} {N M m : ℕ} {s : ℝ × ℝ} {B : ℕ}
    (h : ∀ (v : PyVersion) m', m' ≤ m → m' ≠ 0 → (rsasUpdate v o m ((m:ℝ) - m') s.1 s.2).1 < o.ratio / N ∨
      Stops o N M Ω m' (rsasUpdate v o m ((m:ℝ) - m') s.1 s.2) B) : Stops o N M Ω m s (B + 1) := by
  intro P U Y V S pa ptraj pind fut D cur L hb maxpdf d hd K res todo ht hi
  obtain ⟨res', todo', hok, hi', hsub⟩ := hi.round hb hd le_rfl
  simp only [rsasLoop, hok, ok_bind]
  by_cases h0 : todo'.length = 0
  · rw [if_pos h0]
    have : todo' = [] := List.length_eq_zero_iff.mp h0
    subst this
    exact ⟨_, rfl, K + 1, hi'⟩
  · rw [if_neg h0, ht, hb.wf.num_eq]
    have hle : todo'.length ≤ m := by rw [← ht]; exact hsub.length_le
    by_cases hc : (rsasUpdate S.py o m ((m:ℝ) - todo'.length) s.1 s.2).1 < o.ratio / N
    · rw [if_pos hc]; exact ⟨_, rfl, K + 1, hi'⟩
    · rw [if_neg hc]
      rcases h S.py todo'.length hle h0 with h' | h'
      · exact absurd h' hc
      · exact h' P U Y V S pa ptraj pind fut D cur L hb maxpdf d hd (K + 1) res' todo' rfl hi'

theorem stops_exists {o : RsasOpts} (hsw : o.sw ≠ 0) (hratio : 0 < o.ratio) {N : ℕ} (hN : 0 < N) (M : ℕ) (m : ℕ) :
    ∀ s : ℝ × ℝ, okVar o s.2 → ∃ B, Stops o N M Ω m s B := by
  induction m using Nat.strong_induction_on with
  | _ m ih =>
    have hcpos : 0 < o.ratio / N := by
      have : (0:ℝ) < N := by exact_mod_cast hN
      positivity
    -- a common bound for everything that follows an acceptance
    have hless : ∀ s : ℝ × ℝ, okVar o s.2 → ∃ B, ∀ v : PyVersion, ∀ m' < m, m' ≠ 0 →
        Stops o N M Ω m' (rsasUpdate v o m ((m:ℝ) - m') s.1 s.2) B := by
      intro s hs
      have hex : ∀ (v : PyVersion) (m' : ℕ), ∃ B, m' < m → m' ≠ 0 → Stops o N M Ω m' (rsasUpdate v o m ((m:ℝ) - m') s.1 s.2) B := by
        intro v m'
        by_cases hm' : m' < m ∧ m' ≠ 0
        · have e : ((m:ℝ) - m') = ((m - m' : ℕ) : ℝ) := by rw [Nat.cast_sub hm'.1.le]
          obtain ⟨B, hB⟩ := ih m' hm'.1 (rsasUpdate v o m ((m:ℝ) - m') s.1 s.2)
            (Or.inl (by rw [e]; exact hs.update v hsw (by omega) _))
          exact ⟨B, fun _ _ => hB⟩
        · exact ⟨0, fun h1 h2 => absurd ⟨h1, h2⟩ hm'⟩
      choose f hf using hex
      refine ⟨∑ m' ∈ Finset.range m, (f .py2 m' + f .py3 m'), fun v m' h1 h2 => (hf v m' h1 h2).mono ?_⟩
      refine le_trans ?_ (Finset.single_le_sum (f := fun m' => f .py2 m' + f .py3 m') (fun i _ => Nat.zero_le _) (Finset.mem_range.mpr h1))
      cases v
      · exact Nat.le_add_right _ _
      · exact Nat.le_add_left _ _
    -- number of further rounds without acceptance
    have hrun : ∀ t : ℕ, ∀ s : ℝ × ℝ, okVar o s.2 → ((zeroStep o m)^[t + 1] s).1 < o.ratio / N → 
        ∃ B, Stops o N M Ω m s B := by
      intro t
      induction t with
      | zero =>
        intro s hs hlt
        obtain ⟨B, hB⟩ := hless s hs
        refine ⟨B + 1, Stops.step fun v m' hle h0 => ?_⟩
        rcases Nat.lt_or_ge m' m with hm' | hm'
        · exact Or.inr (hB v m' hm' h0)
        · have : m' = m := le_antisymm hle hm'
          subst this
          left
          rw [sub_self, zeroStep_any]
          exact hlt
      | succ t iht =>
        intro s hs hlt
        obtain ⟨B, hB⟩ := hless s hs
        by_cases hm0 : m = 0
        · refine ⟨B + 1, Stops.step fun v m' hle h0 => ?_⟩
          omega
        have hs' : okVar o (zeroStep o m s).2 := by
          left
          have := hs.update .py3 hsw (m := m) (a := 0) (by omega) s.1
          rw [Nat.cast_zero] at this
          exact this
        obtain ⟨B', hB'⟩ := iht (zeroStep o m s) hs' (by rw [← Function.iterate_succ_apply]; exact hlt)
        refine ⟨B + B' + 1, Stops.step fun v m' hle h0 => ?_⟩
        rcases Nat.lt_or_ge m' m with hm' | hm'
        · exact Or.inr ((hB v m' hm' h0).mono (by omega))
        · have : m' = m := le_antisymm hle hm'
          subst this
          right
          rw [sub_self, zeroStep_any]
          exact hB'.mono (by omega)
    intro s hs
    by_cases hm0 : m = 0
    · obtain ⟨B, hB⟩ := hless s hs
      exact ⟨B + 1, Stops.step fun v m' hle h0 => by omega⟩
    · have hs' : 0 < (zeroStep o m s).2 := by
        have := hs.update .py3 hsw (m := m) (a := 0) (by omega) s.1
        rw [Nat.cast_zero] at this
        exact this
      obtain ⟨t, ht, hlt⟩ := zeroStep_reaches hsw (Nat.pos_of_ne_zero hm0) hs' hcpos
      refine hrun t s hs ?_
      rw [Function.iterate_succ_apply]
      exact hlt

/-- C31: with usable options `bsi_rsas` terminates for every random stream, even within a number of rounds that only
depends on the options, the number of particles and the number of trajectories; every entry of the result is
written, valid, and passed a rejection test or was drawn by `bsi_full`. -/
theorem C31_rsas_terminates {o : RsasOpts} (ho : GoodOpts o) {N : ℕ} (hN : 0 < N) (M : ℕ) :
    ∃ B, ∀ (P U Y V : Type) (S : SmoothCallbacks P U Y V Ω) (pa : PA P) (ptraj : List (SStep P)) (pind : List ℕ)
      (fut : List (SStep P)) (D : SData U Y) (cur : ℕ) (L : ℕ → ℕ → ℝ), BackStep S pa ptraj pind fut D cur N M L →
      ∀ (maxpdf : ℝ) (d : BsiDraws Ω), GoodDraws d → ∀ find : List ℕ, find.length = M → 
      ∃ res, (∀ fuel, B ≤ fuel → bsiRsas S pa ptraj pind fut find D cur maxpdf o d fuel = .ok (some res)) ∧
        res.length = M ∧
        ∀ j < M, ∃ i, res[j]? = some (some i) ∧ i < N ∧ ∃ K, Provenance pa.w L maxpdf d K j i := by
  have hv : okVar o o.P1 := by
    rcases ho.uncertain with h | h
    · exact Or.inl h
    · exact Or.inr ⟨ho.P1, h⟩
  obtain ⟨B, hB⟩ := stops_exists (Ω := Ω) ho.sw ho.ratio hN M M (o.x1, o.P1) hv
  refine ⟨B, ?_⟩
  intro P U Y V S pa ptraj pind fut D cur L hb maxpdf d hd find hf
  obtain ⟨⟨res, todo⟩, hx, K', hi⟩ := hB P U Y V S pa ptraj pind fut D cur L hb maxpdf d hd 0
    (List.replicate M none) (List.range M) (by simp) (RsInv.init L maxpdf d N M)
  simp only at hx hi
  by_cases h0 : todo.length = 0
  · refine ⟨res, fun fuel hle => ?_, hi.len, fun j hj => ?_⟩
    · simp only [bsiRsas, maxNormalised_eq (hb.wf.w_ne hb.pos), ok_bind, hf, rsasLoop_mono hx hle, h0, if_true]
      rfl
    · have : todo = [] := List.length_eq_zero_iff.mp h0
      subst this
      obtain ⟨i, h5, h6, h7⟩ := hi.done j hj (by simp)
      exact ⟨i, h5, h6, K', Or.inl h7⟩
  · obtain ⟨res', e1, e2, e3⟩ := rsFinish hb hd le_rfl hi
    refine ⟨res', fun fuel hle => ?_, e2, fun j hj => ?_⟩
    · simp only [bsiRsas, maxNormalised_eq (hb.wf.w_ne hb.pos), ok_bind, hf, rsasLoop_mono hx hle, h0, if_false, e1]
      rfl
    · obtain ⟨i, h5, h6, h7⟩ := e3 j hj
      exact ⟨i, h5, h6, K', h7⟩

/-- The documented default options (filter.py:1036-1042) are usable. -/
example : GoodOpts ⟨1, 1, 1, 1, 1⟩ := ⟨by norm_num, by norm_num, by norm_num, Or.inl (by norm_num)⟩

/-- C31 (defect): with `P1 = 0` and `sv = 0` the stopping rule never learns.  If no attempt ever accepts, `bsi_rsas`
runs for ever (it is still running after any number of rounds). -/
theorem C31_rsas_may_loop {S : SmoothCallbacks P U Y V Ω} {pa : PA P} {ptraj : List (SStep P)} {pind : List ℕ}
    {fut : List (SStep P)} {D : SData U Y} {cur N F : ℕ} {L : ℕ → ℕ → ℝ} (h : BackStep S pa ptraj pind fut D cur N F L)
    {o : RsasOpts} (hP : o.P1 = 0) (hsv : o.sv = 0) (hx : o.ratio / N ≤ o.x1) {maxpdf : ℝ} {d : BsiDraws Ω}
    (hd : GoodDraws d) {find : List ℕ} (hM : find ≠ []) (hF : find.length ≤ F)
    (hrej : ∀ k p i j, i < N → j < find.length → ¬ accepts L maxpdf (d.attempts k) p i j) (fuel : ℕ) :
    bsiRsas S pa ptraj pind fut find D cur maxpdf o d fuel = .ok none := by
  have loop : ∀ (fuel K : ℕ) (res : List (Option ℕ)) (todo : List ℕ), todo ≠ [] →
      RsInv L maxpdf d N find.length K res todo →
      rsasLoop S pa ptraj pind fut D cur (normWeights pa.w) maxpdf o d.attempts fuel K todo res o.x1 0 = .ok none := by
    intro fuel
    induction fuel with
    | zero => intros; rfl
    | succ n ih =>
      intro K res todo hne hi
      obtain ⟨res', todo', hok, hi', hsub⟩ := hi.round h hd hF
      -- nothing was accepted
      have hall : ∀ x ∈ todo, x ∈ todo' := by
        intro x hx
        by_contra hn
        obtain ⟨i, h1, h2, k, h3, p, h4⟩ := hi'.done x (hi.lt x hx) hn
        exact hrej k p i x h2 (hi.lt x hx) h4
      have hlen : todo'.length = todo.length :=
        le_antisymm hsub.length_le (List.Subperm.length_le (hi.nodup.subperm fun x hx => hall x hx))
      have hn0 : todo'.length ≠ 0 := by
        rw [hlen]; exact fun h => hne (List.length_eq_zero_iff.mp h)
      have hp : rsasUpdate S.py o todo.length ((todo.length : ℝ) - todo'.length) o.x1 0 = (o.x1, 0) := by
        rw [hlen, sub_self]
        simp [rsasUpdate, hsv, intDiv_zero]
      simp only [rsasLoop, hok, ok_bind]
      rw [if_neg hn0, hp, h.wf.num_eq, if_neg (not_lt.mpr hx)]
      exact ih (K + 1) res' todo' (fun e => hn0 (by rw [e]; rfl)) hi'
  have := loop fuel 0 (List.replicate find.length none) (List.range find.length)
    (fun e => hM (List.length_eq_zero_iff.mp (by simpa using congrArg List.length e))) (RsInv.init L maxpdf d N _)
  simp only [bsiRsas, maxNormalised_eq (h.wf.w_ne h.pos), ok_bind, hP, this]
  rfl

end PyPE

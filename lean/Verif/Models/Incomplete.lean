import Verif.Models.Hier
import Verif.Models.Ltv
import Verif.Models.LtvStore
import Verif.Marg.Model

/-!
# C102: incomplete models

Matrices that neither the callbacks nor the constructor supply stay `None`; arrays the callbacks return may have the wrong length. The calls below succeed
exactly when everything they need is there.
-/

namespace PyPE
open Matrix

variable {lxi lz ly n m : ℕ} {U T Y Noise : Type}

/-- A matrix for particle `i`: the callback returned a list with an entry for it, or returned `None` and the model object has a matrix of its own. -/
def Spec.Given {α : Type} (hook : Option (List α)) (own : Option α) (i : ℕ) : Prop :=
  (∃ l, hook = some l ∧ i < l.length) ∨ (hook = none ∧ own ≠ none)

theorem given_iff {α : Type} {hook : Option (List α)} {own : Option α} {N i : ℕ} (hi : i < N) :
    Spec.Given hook own i ↔ ∃ a, (perPart N hook own).1[i]? = some (some a) := by
  unfold Spec.Given perPart
  cases hook with
  | some l =>
    simp only [Option.some.injEq, exists_eq_left', reduceCtorEq, false_and, or_false, List.getElem?_map]
    constructor
    · intro h; exact ⟨l[i], by simp [h]⟩
    · rintro ⟨a, ha⟩
      by_contra hc
      rw [List.getElem?_eq_none (by omega)] at ha
      cases ha
  | none =>
    simp only [reduceCtorEq, false_and, exists_false, true_and, false_or, List.getElem?_replicate, hi, if_true]
    cases own <;> simp

theorem mapM_range_ok {β : Type} {f : ℕ → PyM β} {n : ℕ} : (∃ l, (List.range n).mapM f = .ok l) ↔ ∀ i < n, ∃ b, f i = .ok b := by
  constructor
  · rintro ⟨l, h⟩ i hi
    by_contra hc
    push Not at hc
    induction n generalizing l with
    | zero => omega
    | succ k ih =>
      rw [List.range_succ, List.mapM_append] at h
      obtain ⟨a, h1, h2⟩ := bind_eq_ok.1 h
      obtain ⟨b, h3, -⟩ := bind_eq_ok.1 h2
      rcases Nat.lt_succ_iff_lt_or_eq.1 hi with h | rfl
      · exact ih _ h1 h
      · rw [List.mapM_cons] at h3
        obtain ⟨c, h5, -⟩ := bind_eq_ok.1 h3
        exact hc _ h5
  · intro h
    exact mapM_ok fun i hi => h i (List.mem_range.1 hi)

theorem mapM_range_first {β : Type} {f : ℕ → PyM β} {e : PyErr} {n : ℕ} (hn : 0 < n) (h : f 0 = .error e) : (List.range n).mapM f = .error e := by
  obtain ⟨k, rfl⟩ : ∃ k, n = k + 1 := ⟨n - 1, by omega⟩
  rw [List.range_succ_eq_map, List.mapM_cons, h]
  rfl

/-! ### Kalman filter -/

/-- C102: `KalmanFilter.predict` returns exactly when `A`, `f_k` and `Q` are set; a missing `A` is an `AttributeError`, otherwise a `TypeError`. -/
theorem C102_kalman_predict (s : KF n m) (z : Fin n → ℝ) (P : Matrix (Fin n) (Fin n) ℝ) :
    (∀ r, s.predict z P = .ok r ↔ ∃ A f Q, s.A = some A ∧ s.fk = some f ∧ s.Q = some Q ∧ r = (f + A *ᵥ z, A * P * Aᵀ + Q)) ∧
    (s.predict z P = .error .attributeError ↔ s.A = none) ∧
    (s.predict z P = .error .typeError ↔ s.A ≠ none ∧ (s.fk = none ∨ s.Q = none)) := by
  unfold KF.predict
  cases s.A <;> cases s.fk <;> cases s.Q <;> simp [predictFull, eq_comm]

/-- C102: `KalmanFilter.measure` with a measurement matrix but no measurement noise is a `TypeError`. -/
theorem C102_kalman_measure (s : KF n m) (y : Fin m → ℝ) (z : Fin n → ℝ) (P : Matrix (Fin n) (Fin n) ℝ) (hC : s.C ≠ none) (hR : s.R = none) :
    s.measure y z P = .error .typeError := by
  unfold KF.measure
  rw [hR]

/-- C102: `KalmanSmoother.smooth` with the matrices of the model: `AttributeError` without `A`, `TypeError` without `f_k` or `Q`, `LinAlgError` when the
predicted covariance is singular, and a result otherwise. -/
theorem C102_kalman_smooth (s : KF n m) (e en : Est n) :
    (s.A = none → s.smoothOwn e en = .error .attributeError) ∧
    (s.A ≠ none → s.fk = none ∨ s.Q = none → s.smoothOwn e en = .error .typeError) ∧
    (∀ A f Q, s.A = some A → s.fk = some f → s.Q = some Q →
      ((A * e.2 * Aᵀ + Q).det = 0 → s.smoothOwn e en = .error .linAlgError) ∧
      ((A * e.2 * Aᵀ + Q).det ≠ 0 → ∃ r, s.smoothOwn e en = .ok r)) := by
  unfold KF.smoothOwn
  refine ⟨fun h => by rw [h], fun h1 h2 => ?_, fun A f Q h1 h2 h3 => ?_⟩
  · cases hA : s.A
    · exact absurd hA h1
    · rcases h2 with h2 | h2
      · rw [h2]
      · rw [h2]; cases s.fk <;> rfl
  · rw [h1, h2, h3]
    simp only [kalmanSmooth, predictFull]
    constructor
    · intro h
      simp [h]
    · intro h
      simp [h]

/-! ### Mixed linear/nonlinear Gaussian models -/

theorem getIdx_some {α : Type} {l : List α} {i : ℕ} {a : α} (h : l[i]? = some a) : getIdx l i = .ok a := by
  unfold getIdx; rw [h]

/-- C102: `sample_process_noise` gets a covariance for every particle exactly when `Axi` and `Qxi` are given for every particle. -/
theorem C102_noise_covariance (H : MlHooks lxi lz ly U T Y) (o : MlObj lxi lz ly) (parts : List (RbP lxi lz)) (u : U) (t : T) :
    (∃ S, mlNoiseCov H o parts u t = .ok S) ↔
      ∀ i < parts.length, Spec.Given (H.nonlin (xisOf parts) u t).1 o.Axi i ∧ Spec.Given (H.nonlin (xisOf parts) u t).2.2 o.Qxi i := by
  unfold mlNoiseCov
  simp only [mapM_range_ok]
  refine forall₂_congr fun i hi => ?_
  have hN : (xisOf parts).length = parts.length := by simp [xisOf]
  rw [given_iff hi, given_iff hi]
  simp only [mlNonlin, hN]
  constructor
  · rintro ⟨b, h⟩
    obtain ⟨p, -, h⟩ := bind_eq_ok.1 h
    obtain ⟨Q, hQ, h⟩ := bind_eq_ok.1 h
    obtain ⟨A, hA, h⟩ := bind_eq_ok.1 h
    cases A <;> cases Q <;> simp only [reduceCtorEq] at h
    exact ⟨⟨_, getIdx_ok.1 hA⟩, ⟨_, getIdx_ok.1 hQ⟩⟩
  · rintro ⟨⟨A, hA⟩, ⟨Q, hQ⟩⟩
    rw [getIdx_some hA, getIdx_some hQ, getIdx_of_lt hi]
    exact ⟨_, rfl⟩

/-- C102: which exception `sample_process_noise` raises when the model has no `Axi`, or `Axi` but no `Qxi`. -/
theorem C102_noise_exception (H : MlHooks lxi lz ly U T Y) (o : MlObj lxi lz ly) (parts : List (RbP lxi lz)) (u : U) (t : T) (hN : parts ≠ [])
    (hQ : (H.nonlin (xisOf parts) u t).2.2 = none) :
    ((H.nonlin (xisOf parts) u t).1 = none → o.Axi = none → mlNoiseCov H o parts u t = .error .attributeError) ∧
    (Spec.Given (H.nonlin (xisOf parts) u t).1 o.Axi 0 → o.Qxi = none → mlNoiseCov H o parts u t = .error .typeError) := by
  have hpos := List.length_pos_of_ne_nil hN
  have hl : (xisOf parts).length = parts.length := by simp [xisOf]
  unfold mlNoiseCov
  constructor
  · intro h1 h2
    refine mapM_range_first hpos ?_
    simp only [mlNonlin, hl, h1, h2, hQ, perPart]
    rw [getIdx_of_lt hpos, getIdx_some (a := o.Qxi) (by simp [hpos]), getIdx_some (a := none) (by simp [hpos])]
    cases o.Qxi <;> rfl
  · intro h1 h2
    refine mapM_range_first hpos ?_
    obtain ⟨A, hA⟩ := (given_iff hpos).1 h1
    simp only [mlNonlin, hl, h2, hQ]
    rw [getIdx_of_lt hpos, getIdx_some hA, getIdx_some (a := none) (by simp [hpos, perPart])]
    rfl

/-- C102: the prediction of the nonlinear states succeeds exactly when `Axi` and `fxi` are given for every particle (and there is one nonlinear state). -/
theorem C102_predict_nonlinear (H : MlHooks lxi lz ly U T Y) (o : MlObj lxi lz ly) (parts : List (RbP lxi lz)) (u : U) (t : T) :
    (∃ S, mlPredXi H o parts u t = .ok S) ↔
      ∀ i < parts.length, lxi = 1 ∧ Spec.Given (H.nonlin (xisOf parts) u t).1 o.Axi i ∧ Spec.Given (H.nonlin (xisOf parts) u t).2.1 (some o.fxi) i := by
  unfold mlPredXi
  simp only [mapM_range_ok]
  refine forall₂_congr fun i hi => ?_
  have hN : (xisOf parts).length = parts.length := by simp [xisOf]
  rw [given_iff hi, given_iff hi]
  simp only [mlNonlin, hN]
  constructor
  · rintro ⟨b, h⟩
    obtain ⟨p, -, h⟩ := bind_eq_ok.1 h
    obtain ⟨A, hA, h⟩ := bind_eq_ok.1 h
    obtain ⟨f, hf, h⟩ := bind_eq_ok.1 h
    cases A <;> cases f <;> simp only [reduceCtorEq] at h
    split_ifs at h with h1
    exact ⟨h1, ⟨_, getIdx_ok.1 hA⟩, ⟨_, getIdx_ok.1 hf⟩⟩
  · rintro ⟨h1, ⟨A, hA⟩, ⟨f, hf⟩⟩
    rw [getIdx_some hA, getIdx_some hf, getIdx_of_lt hi]
    simp only [ok_bind, if_pos h1]
    exact ⟨_, rfl⟩

/-- C102: without `Axi` the prediction of the nonlinear states is an `AttributeError`. -/
theorem C102_predict_exception (H : MlHooks lxi lz ly U T Y) (o : MlObj lxi lz ly) (parts : List (RbP lxi lz)) (u : U) (t : T) (hN : parts ≠ [])
    (h1 : (H.nonlin (xisOf parts) u t).1 = none) (h2 : o.Axi = none) (h3 : (H.nonlin (xisOf parts) u t).2.1 = none) :
    mlPredXi H o parts u t = .error .attributeError := by
  have hpos := List.length_pos_of_ne_nil hN
  have hl : (xisOf parts).length = parts.length := by simp [xisOf]
  unfold mlPredXi
  refine mapM_range_first hpos ?_
  simp only [mlNonlin, hl, h1, h2, h3, perPart]
  rw [getIdx_of_lt hpos, getIdx_some (a := none) (by simp [hpos]), getIdx_some (a := some o.fxi) (by simp [hpos])]
  rfl

/-- C102: noise for another number of particles is a `ValueError`. -/
theorem C102_noise_length (H : MlHooks lxi lz ly U T Y) (o : MlObj lxi lz ly) (parts : List (RbP lxi lz)) (noise : List (VecR lxi)) (u : U) (t : T)
    {xp : List (VecR lxi)} (h : mlPredXi H o parts u t = .ok xp) :
    (noise.length ≠ parts.length → mlCalcXiNext H o parts noise u t = .error .valueError) ∧
    (noise.length = parts.length → mlCalcXiNext H o parts noise u t = .ok (List.zipWith (· + ·) xp noise)) := by
  have hl : xp.length = parts.length := by
    unfold mlPredXi at h
    simpa using (mapM_ok_iff.1 h).1
  unfold mlCalcXiNext
  rw [h, ← hl]
  exact ⟨fun h => if_neg h, fun h => if_pos h⟩

/-- C102: `cond_predict` with more next states than particles is a `ValueError` once the particles themselves went through. -/
theorem C102_cond_predict_length (H : MlHooks lxi lz ly U T Y) (o : MlObj lxi lz ly) (parts : List (RbP lxi lz)) (xiN : List (VecR lxi)) (u : U) (t : T)
    (h : xiN.length ≠ parts.length) {p' : List (RbP lxi lz)} (h1 : mlMeasXiNext H o parts xiN u t = .ok p')
    {d : List (Option (MatR lz lz) × Option (VecR lz) × Option (MatR lz lz))} (h2 : mlCondDyn H o p' xiN u t = .ok d) :
    mlCondPredict H o parts xiN u t = .error .valueError := by
  have hl : p'.length = parts.length := by
    unfold mlMeasXiNext at h1
    simpa using (mapM_ok_iff.1 h1).1
  unfold mlCondPredict
  rw [h1, ok_bind, h2, ok_bind, if_neg (by omega)]

/-- C102: `sample_smooth` needs one continuation per particle: an index that is out of range is an `IndexError`, another number of them a `ValueError`. -/
theorem C102_sample_smooth_length (H : MlHooks lxi lz ly U T Y) (o : MlObj lxi lz ly) (parts : List (RbP lxi lz)) (fut : List (VecR lxi × VecR lz))
    (find : List ℕ) (u : U) (t : T) :
    ((∃ i ∈ find, fut.length ≤ i) → mlSampleSmooth H o parts (some fut) find u t = .error .indexError) ∧
    ((∀ i ∈ find, i < fut.length) → find.length ≠ parts.length → mlSampleSmooth H o parts (some fut) find u t = .error .valueError) := by
  unfold mlSampleSmooth
  constructor
  · rintro ⟨i, hi, hf⟩
    rcases hb : fancy fut find with e | b
    · obtain ⟨rfl, -⟩ := fancy_error hb
      simp only [hb]
      rfl
    · obtain ⟨k, hk⟩ := List.getElem?_of_mem hi
      have := ((fancy_spec.1 hb).2 k i hk).2
      omega
  · intro h1 h2
    obtain ⟨b, hb⟩ := fancy_ok h1
    have := (fancy_spec.1 hb).1
    simp only [hb, ok_bind]
    rw [if_neg (by omega)]

/-- C102: the forward pass over a smoothed trajectory needs one initial law per trajectory. -/
theorem C102_initial_length (H : MlHooks lxi lz ly U T Y) (o : MlObj lxi lz ly) (init : List (VecR lxi) → List (VecR lz × MatR lz lz))
    (s : StStep lxi U T Y) (rest : List (StStep lxi U T Y)) (h : (init s.xi).length ≠ s.xi.length) : mlPreMhips H o init s rest = .error .valueError :=
  if_neg h

/-! ### Hierarchical models -/

/-- C102: the conditional prediction of a hierarchical model succeeds exactly when there is one next state per particle and `Az`, `fz`, `Qz` are given. -/
theorem C102_hierarchical_predict (H : HiHooks lxi lz ly U T Y Noise) (kf : KF lz ly) (parts : List (RbP lxi lz)) (xiN : List (VecR lxi)) (u : U) (t : T) :
    (∃ r, hiCondPredict H kf parts xiN u t = .ok r) ↔ xiN.length = parts.length ∧ ∀ i < parts.length,
      Spec.Given (H.lin (xisOf parts) u t).1 kf.A i ∧ Spec.Given (H.lin (xisOf parts) u t).2.1 kf.fk i ∧ Spec.Given (H.lin (xisOf parts) u t).2.2 kf.Q i := by
  unfold hiCondPredict
  split_ifs with hl
  · simp only [mapM_range_ok, hl, true_and]
    refine forall₂_congr fun i hi => ?_
    have hN : (xisOf parts).length = parts.length := by simp [xisOf]
    rw [given_iff hi, given_iff hi, given_iff hi]
    simp only [hiLin, hiDyn, hN]
    constructor
    · rintro ⟨b, h⟩
      obtain ⟨p, -, h⟩ := bind_eq_ok.1 h
      obtain ⟨d, hd, h⟩ := bind_eq_ok.1 h
      obtain ⟨A, hA, hd⟩ := bind_eq_ok.1 hd
      obtain ⟨f, hf, hd⟩ := bind_eq_ok.1 hd
      obtain ⟨Q, hQ, hd⟩ := bind_eq_ok.1 hd
      obtain ⟨x, -, h⟩ := bind_eq_ok.1 h
      obtain ⟨r, hr, -⟩ := bind_eq_ok.1 h
      cases hd
      cases A <;> cases f <;> cases Q <;> simp only [predOpt, reduceCtorEq] at hr
      exact ⟨⟨_, getIdx_ok.1 hA⟩, ⟨_, getIdx_ok.1 hf⟩, ⟨_, getIdx_ok.1 hQ⟩⟩
    · rintro ⟨⟨A, hA⟩, ⟨f, hf⟩, ⟨Q, hQ⟩⟩
      rw [getIdx_some hA, getIdx_some hf, getIdx_some hQ, getIdx_of_lt hi, getIdx_of_lt (by omega)]
      exact ⟨_, rfl⟩
  · simp [hl]

/-- C102: which exceptions the conditional prediction raises. -/
theorem C102_hierarchical_exceptions (H : HiHooks lxi lz ly U T Y Noise) (kf : KF lz ly) (parts : List (RbP lxi lz)) (xiN : List (VecR lxi)) (u : U) (t : T)
    (hN : parts ≠ []) (hl : H.lin (xisOf parts) u t = (none, none, none)) :
    (xiN.length ≠ parts.length → hiCondPredict H kf parts xiN u t = .error .valueError) ∧
    (xiN.length = parts.length → kf.A = none → hiCondPredict H kf parts xiN u t = .error .attributeError) ∧
    (xiN.length = parts.length → kf.A ≠ none → kf.fk = none ∨ kf.Q = none → hiCondPredict H kf parts xiN u t = .error .typeError) := by
  have hpos := List.length_pos_of_ne_nil hN
  have hx : (xisOf parts).length = parts.length := by simp [xisOf]
  unfold hiCondPredict
  refine ⟨fun h => if_neg h, fun h hA => ?_, fun h hA hf => ?_⟩ <;> rw [if_pos h] <;> refine mapM_range_first hpos ?_ <;>
    simp only [hiLin, hl, perPart, hx, hiDyn] <;>
    rw [getIdx_of_lt hpos, getIdx_some (a := kf.A) (by simp [hpos]), getIdx_some (a := kf.fk) (by simp [hpos]), getIdx_some (a := kf.Q) (by simp [hpos]),
      getIdx_of_lt (by omega)]
  · rw [hA]; rfl
  · rcases hA' : kf.A with _ | A
    · exact absurd hA' hA
    · rcases hf with hf | hf <;> rw [hf] <;> [skip; cases kf.fk] <;> rfl

/-- C102: `measure` of a hierarchical model returns only if `measure_nonlin` gave one value per particle and `C`, `h`, `R` are given for every particle. -/
theorem C102_hierarchical_measure (H : HiHooks lxi lz ly U T Y Noise) (kf : KF lz ly) (parts : List (RbP lxi lz)) (y : Y) (t : T)
    {r : List (RbP lxi lz) × List ℝ} (h : hiMeasure H kf parts y t = .ok r) :
    (H.measNonlin parts y t).length = parts.length ∧ r.1.length = parts.length ∧ r.2.length = parts.length ∧ ∀ i < parts.length,
      Spec.Given (H.meas (xisOf parts) y t).2.1 kf.C i ∧ Spec.Given (H.meas (xisOf parts) y t).2.2.1 kf.hk i ∧
      Spec.Given (H.meas (xisOf parts) y t).2.2.2 kf.R i := by
  have key : ∀ {α : Type} {hook : Option (List α)} {own : Option α} {l : List α} {N i : ℕ} {a : α}, hiRepeat N hook own = .ok l → getIdx l i = .ok a →
      Spec.Given hook own i := by
    intro α hook own l N i a h1 h2
    have hi := lt_of_getElem?_some (getIdx_ok.1 h2)
    unfold hiRepeat at h1
    split at h1
    · cases h1; exact .inl ⟨_, rfl, hi⟩
    · cases h1; exact .inr ⟨rfl, by simp⟩
    · cases h1
  unfold hiMeasure at h
  obtain ⟨C, hC, h⟩ := bind_eq_ok.1 h
  obtain ⟨hh, hhh, h⟩ := bind_eq_ok.1 h
  obtain ⟨R, hR, h⟩ := bind_eq_ok.1 h
  split_ifs at h with hl
  obtain ⟨res, hres, h⟩ := bind_eq_ok.1 h
  cases h
  have hlen := (mapM_ok_iff.1 hres).1
  rw [List.length_range] at hlen
  refine ⟨hl, by simp [hlen], by simp [hlen, hl], fun i hi => ?_⟩
  obtain ⟨b, hb⟩ := mapM_range_ok.1 ⟨_, hres⟩ i hi
  obtain ⟨p, -, hb⟩ := bind_eq_ok.1 hb
  obtain ⟨c, h1, hb⟩ := bind_eq_ok.1 hb
  obtain ⟨x, h2, hb⟩ := bind_eq_ok.1 hb
  obtain ⟨z, h3, hb⟩ := bind_eq_ok.1 hb
  exact ⟨key hC h1, key hhh h2, key hR h3⟩

/-! ### Measurements -/

/-- C102: a mixed model without measurement noise `R` raises `AttributeError` in `measure`, with and without a measurement matrix. -/
theorem C102_measure_noise (parts : List (RbP lxi lz)) (y : VecR ly) (d : Dyns ly lz) (hR : d.Q.1[0]? = some none) :
    mlMeasLoop parts y d = .error .attributeError ∧ ((∀ h ∈ d.f.1, h ≠ none) → mlMeasNoC parts y d = .error .attributeError) ∧
    ((∃ h ∈ d.f.1, h = none) → mlMeasNoC parts y d = .error .typeError) := by
  unfold mlMeasLoop mlMeasNoC
  rw [getIdx_some hR]
  refine ⟨rfl, fun h => ?_, ?_⟩
  · have : ∃ l, allSome d.f.1 = .ok l := mapM_ok fun x hx => by
      cases x with
      | none => exact absurd rfl (h _ hx)
      | some a => exact ⟨a, rfl⟩
    obtain ⟨l, hl⟩ := this
    rw [hl]
    rfl
  · rintro ⟨h, hm, rfl⟩
    have : allSome d.f.1 = .error .typeError := by
      refine mapM_error_of (fun x _ => ?_) fun hc => ?_
      · cases x with
        | none => exact .inl rfl
        | some a => exact .inr ⟨a, rfl⟩
      · obtain ⟨a, ha⟩ := hc _ hm
        cases ha
    rw [this]
    rfl

/-- C102: what the backward information filter of the marginalised model does with the measurement model of one particle: nothing without measurement and
measurement matrix; `UnboundLocalError` for a measurement without matrix; `TypeError` without `R` or (given a measurement) without `h`; `LinAlgError` for a
singular `R`; a result otherwise. -/
theorem C102_marginal_measurement (w : MatR lz lz × VecR lz) (C : Option (MatR ly lz)) (h : Option (VecR ly)) (R : Option (MatR ly ly)) (y : Option (VecR ly)) :
    (C = none → y = none → mgMeasOne w C h R y = .ok w) ∧
    (C = none → y ≠ none → mgMeasOne w C h R y = .error .unboundLocalError) ∧
    (C ≠ none → R = none → mgMeasOne w C h R y = .error .typeError) ∧
    (C ≠ none → ∀ R', R = some R' → R'.det = 0 → mgMeasOne w C h R y = .error .linAlgError) ∧
    (C ≠ none → ∀ R', R = some R' → R'.det ≠ 0 → y ≠ none → h = none → mgMeasOne w C h R y = .error .typeError) ∧
    (C ≠ none → ∀ R', R = some R' → R'.det ≠ 0 → (y = none ∨ h ≠ none) → ∃ r, mgMeasOne w C h R y = .ok r) := by
  refine ⟨?_, ?_, ?_, ?_, ?_, ?_⟩
  · rintro rfl rfl; rfl
  · rintro rfl hy; cases y; exacts [absurd rfl hy, rfl]
  · rintro hC rfl; cases C; exacts [absurd rfl hC, rfl]
  · rintro hC R' rfl hd
    cases C; · exact absurd rfl hC
    simp only [mgMeasOne, npSolveM, hd, if_true, ok_bind]; rfl
  · rintro hC R' rfl hd hy rfl
    cases C; · exact absurd rfl hC
    cases y; · exact absurd rfl hy
    simp only [mgMeasOne, npSolveM, hd, if_false, ok_bind]
  · rintro hC R' rfl hd hy
    cases C; · exact absurd rfl hC
    cases y <;> cases h <;> first | (simp only [mgMeasOne, npSolveM, hd, if_false, ok_bind]; exact ⟨_, rfl⟩) | simp at hy

/-- C102: the backward information filter needs one future statistic per particle. -/
theorem C102_marginal_length (svd : MatR lz lz → MatR lz lz × VecR lz) (H : MlHooks lxi lz ly U T Y) (o : MlObj lxi lz ly)
    (parts : List (RbP lxi lz)) (next : List (MgN lxi lz)) (u : U) (t : T) (h : next.length ≠ parts.length) :
    mgProp1 svd H o parts next u t = .error .valueError :=
  if_neg h

/-- The hypotheses can be met: a Kalman filter with `A` and `Q` but without `C` and `R`. -/
example : ∃ s : KF 1 1, s = KF.new (some !![2]) none (some !![1]) none none none ∧ s.predict ![1] !![1] = .ok (![2], !![5]) := by
  refine ⟨_, rfl, ?_⟩
  simp only [KF.new, KF.setDynamics, KF.predict, predictFull]
  congr 1
  refine Prod.ext ?_ ?_
  · ext i; fin_cases i; simp [Matrix.mulVec, dotProduct]
  · ext i j; fin_cases i; fin_cases j; simp [Matrix.mul_apply, Matrix.add_apply, Matrix.vecMul, dotProduct]; norm_num

example : (KF.new (n := 1) (m := 1) none none (some !![1]) none none none).predict ![1] !![1] = .error .attributeError :=
  (C102_kalman_predict _ _ _).2.1.2 rfl

example : (KF.new (n := 1) (m := 1) (some !![1]) none none none none none).predict ![1] !![1] = .error .typeError :=
  (C102_kalman_predict _ _ _).2.2.2 ⟨by simp [KF.new, KF.setDynamics], .inr rfl⟩

end PyPE

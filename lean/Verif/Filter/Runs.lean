import Verif.Filter.Cond
import Verif.Sim.Props

/-!
# Run-level theorems for every filter: C12 (totality), C15, C16, C19

`s0.run F ops` executes any history `ops` of `forward`/`measure` calls on a new `ParticleTrajectory` whose
filter object `F` was built by name (`mkFilter`).
-/

namespace PyPE
open Real Spec

variable {P U Y V Ω : Type}

/-! ### Building the filters -/

theorem mkFilter_cond {M : Callbacks P U Y V Ω} {N : ℕ} {res : ℝ} {name : String} {ctraj : List (Step P)}
    {F : FilterOps P U Y V Ω} {k : FilterKind} (hk : parseFilter name = .ok k)
    (h : mkFilter M N res name (.dict (some ctraj)) = .ok F) :
    F = (match k with
      | .pf => ⟨M.createInitial, pfForward M res, pfMeasure M, fun _ _ _ _ => .error .typeError, false⟩
      | .apf => ⟨M.createInitial, apfForward M res, pfMeasure M, fun _ _ _ _ => .error .typeError, false⟩
      | .pfy => ⟨M.createInitial, ffpropyForward M res N, fun _ _ _ _ _ _ _ => .error .assertionError,
          ffpropyMeasure M N, true⟩
      | .cpfyas => ⟨cpfInitial M ctraj, cpfyasForward M N ctraj, fun _ _ _ _ _ _ _ => .error .assertionError,
          cpfyasMeasure M N ctraj, true⟩
      | .cpfas => ⟨cpfInitial M ctraj, cpfasForward M ctraj, pfMeasure M, fun _ _ _ _ => .error .typeError, false⟩
      | .cpf => ⟨cpfInitial M ctraj, cpfForward M ctraj, pfMeasure M, fun _ _ _ _ => .error .typeError, false⟩
      | .sir => ⟨M.createInitial, sirForward M res, pfMeasure M, fun _ _ _ _ => .error .typeError, false⟩
      | .csiras => ⟨M.createInitial, csirasForward M ctraj, pfMeasure M, fun _ _ _ _ => .error .typeError, false⟩) := by
  unfold mkFilter at h
  simp only [hk, ok_bind] at h
  cases k <;> simp [FilterOptions.condTraj] at h <;> exact h.symm

/-- The unconditional filters do not look at the options. -/
theorem mkFilter_uncond {M : Callbacks P U Y V Ω} {N : ℕ} {res : ℝ} {name : String} {o : FilterOptions P}
    {k : FilterKind} (hk : parseFilter name = .ok k) (hc : ¬ Spec.Conditional k) (c : List (Step P)) :
    mkFilter M N res name o = mkFilter M N res name (.dict (some c)) := by
  unfold mkFilter
  simp only [hk, ok_bind]
  unfold Spec.Conditional at hc
  cases k <;> simp_all

/-! ### Shared -/

theorem measure_good {M : Callbacks P U Y V Ω} {N : ℕ} (hM : FilterContract M N) (hN : 0 < N)
    {tr : List (Step P)} {last : Step P} (h : GoodStep N last) (uv : List (Slot U)) (yv : List (Slot Y))
    (tv : List ℕ) (cur : ℕ) :
    ∃ pa, pfMeasure M tr last.ancestors last.pa uv yv tv cur = .ok pa ∧ GoodStep N ⟨pa, last.ancestors⟩ ∧
      pa.part = last.pa.part := by
  obtain ⟨l, pa, -, -, hm, hw, hwf⟩ := pfMeasure_ok hM hN tr last.ancestors h.pa uv yv tv cur
  exact ⟨pa, hm, ⟨hwf, h.anc_len, h.anc_lt⟩, (weightUpdate_spec hw).1⟩

theorem create_good {M : Callbacks P U Y V Ω} {N : ℕ} (hM : FullContract M N) (hN : 0 < N) (ω : Ω) :
    ∃ part pa, M.createInitial N ω = .ok part ∧ PA.new part none = .ok pa ∧
      GoodStep N ⟨pa, List.range N⟩ := by
  obtain ⟨p, hp, hl⟩ := hM.create ω
  obtain ⟨pa, h1, h2, -⟩ := PA.new_none_wf hl hN
  exact ⟨p, pa, hp, h1, h2, by simp, by simp⟩

theorem cpfInitial_good {M : Callbacks P U Y V Ω} {N : ℕ} (hM : FullContract M N) (hN : 0 < N)
    {ctraj : List (Step P)} {x : P} (hx : RefState ctraj 0 x) (ω : Ω) :
    ∃ part pa, cpfInitial M ctraj N ω = .ok part ∧ PA.new part none = .ok pa ∧
      GoodStep N ⟨pa, List.range N⟩ ∧ pa.part[N-1]? = some x := by
  obtain ⟨p, hp, hl⟩ := hM.create ω
  obtain ⟨c, hc, hcx⟩ := hx
  obtain ⟨p', h1, h2, h3, -⟩ := setLast_ok hl hN x
  obtain ⟨pa, h4, h5, h6, -⟩ := PA.new_none_wf h2 hN
  refine ⟨p', pa, ?_, h4, ⟨h5, by simp, by simp⟩, by rw [h6]; exact h3⟩
  unfold cpfInitial
  simp only [hp, ok_bind, getIdx_ok.mpr hc, getIdx_ok.mpr hcx, h1]

/-! ### One-step totality of the remaining filters -/

theorem sirForward_total {M : Callbacks P U Y V Ω} {N : ℕ} (hM : FullContract M N) (hN : 0 < N) (res : ℝ)
    {tr : List (Step P)} {last : Step P} (hlast : tr.getLast? = some last) (hwf : last.pa.WF N)
    {yv : List (Slot Y)} {uv : List (Slot U)} {tv : List ℕ} {cur : ℕ} (hy : cur + 1 < yv.length)
    (hu : cur < uv.length) (ht : cur + 1 < tv.length) (d : Draws Ω) (hd : Unit01 d.r) :
    ∃ pa flag anc, sirForward M res tr yv uv tv cur d = .ok (pa, flag, anc) ∧ GoodStep N ⟨pa, anc⟩ := by
  obtain ⟨pa0, h0, hwf0, -, -, -⟩ := PA.new_some_wf hwf.part_len hwf.w_len
  obtain ⟨pa1, flag, anc, h1, hwf1, hal, har, -, -, -, -⟩ := maybeResample_spec res hwf0 hN hd
  obtain ⟨q, hq, hql⟩ := hM.qsample pa1.part uv[cur] yv[cur+1] (tv[cur]'(by omega)) d.ω hwf1.part_len
  obtain ⟨qw, hqw, hqwl⟩ := hM.logpQ pa1.part q uv[cur] yv[cur+1] (tv[cur]'(by omega)) hwf1.part_len
  obtain ⟨nw, hnw, hnwl⟩ := hM.logpXnext pa1.part q uv[cur] (tv[cur]'(by omega)) hwf1.part_len
  obtain ⟨yw, hyw, hywl⟩ := hM.sirMeasure q yv[cur+1] tv[cur+1] hql
  obtain ⟨pa2, h2⟩ := weightUpdate_ok pa1 (List.zipWith (· - ·) (List.zipWith (· + ·) yw nw) qw)
    (hwf1.w_ne hN) (by simp [hywl, hnwl, hqwl, hwf1.w_len])
  obtain ⟨e1, e2, -, e4, -⟩ := weightUpdate_spec h2
  refine ⟨{ pa2 with part := q }, flag, anc, ?_, ⟨hql, by rw [e4, hwf1.w_len], by rw [e2, hwf1.num_eq]⟩,
    hal, har⟩
  unfold sirForward
  simp only [getLast_ok.mpr hlast, ok_bind, h0, h1, getIdx_of_lt hu, getIdx_of_lt hy,
    getIdx_of_lt (show cur < tv.length by omega), getIdx_of_lt ht, hq, hqw, hnw, hyw,
    npAdd_ok (hywl.trans hnwl.symm), pure_eq_ok]
  rw [npSub_ok (by simp [hywl, hnwl, hqwl])]
  simp only [ok_bind, h2]

/-- One step of the proposal-from-measurement filter: it succeeds, and the particles are those the model
proposes for the *last slot* of the buffers. -/
theorem ffpropyForward_total {M : Callbacks P U Y V Ω} {N : ℕ} (hM : FullContract M N) (hN : 0 < N) (res : ℝ)
    {tr : List (Step P)} {last : Step P} {cur : ℕ} (hlen : tr.length = cur + 1)
    (hlast : tr.getLast? = some last) (hwf : GoodStep N last)
    {yv : List (Slot Y)} (uv : List (Slot U)) {tv : List ℕ} {y : Slot Y} {t : ℕ}
    (hy : yv.getLast? = some y) (ht : tv.getLast? = some t) (d : Draws Ω) (hd : Unit01 d.r) :
    ∃ pa flag anc, ffpropyForward M res N tr yv uv tv cur d = .ok (pa, flag, anc) ∧ GoodStep N ⟨pa, anc⟩ ∧
      M.proposeFromY N y t d.ω = .ok pa.part := by
  obtain ⟨pa0, h0, hwf0, -, -, -⟩ := PA.new_some_wf hwf.pa.part_len hwf.pa.w_len
  obtain ⟨pa1, flag, anc, h1, hwf1, hal, har, -, -, -, -⟩ := maybeResample_spec res hwf0 hN hd
  obtain ⟨q, hq, hql⟩ := hM.propose y t d.ω
  obtain ⟨p, hp⟩ := fancy_ok (a := last.pa.part) (ind := anc) (by rwa [hwf.pa.part_len])
  obtain ⟨pi, hpi⟩ := fancy_ok (a := last.ancestors) (ind := anc) (by rwa [hwf.anc_len])
  obtain ⟨wn, hwn, hwnl⟩ := hM.single p (tr.take cur) pi q (List.range N) uv yv tv cur
    (by rw [(fancy_spec.mp hp).1, hal]) (by simp)
  obtain ⟨pa2, h2⟩ := weightUpdate_ok { pa1 with part := q } wn (hwf1.w_ne hN) (by rw [hwnl, hwf1.w_len])
  obtain ⟨e1, e2, -, e4, -⟩ := weightUpdate_spec h2
  refine ⟨pa2, flag, anc, ?_, ⟨⟨by rw [e1]; exact hql, by rw [e4]; exact hwf1.w_len, by rw [e2]; exact hwf1.num_eq⟩,
    hal, har⟩, by rw [e1]; exact hq⟩
  unfold ffpropyForward
  simp only [getLast_ok.mpr hlast, ok_bind, h0, h1, getLast_ok.mpr hy, getLast_ok.mpr ht, hwf1.part_len, hq,
    getIdx_ok.mpr (getLast_of_idx hlen hlast), hp, hpi, hwn, h2, pure_eq_ok]

theorem apfForward_total {M : Callbacks P U Y V Ω} {N : ℕ} (hM : FullContract M N) (hN : 0 < N) (res : ℝ)
    {tr : List (Step P)} {last : Step P} (hlast : tr.getLast? = some last) (hwf : last.pa.WF N)
    {yv : List (Slot Y)} {uv : List (Slot U)} {tv : List ℕ} {cur : ℕ} {y : Slot Y}
    (hy : yv[cur+1]? = some y) (hyn : y ≠ .none)
    (hu : cur < uv.length) (ht : cur < tv.length) (d : Draws Ω) (hd : Unit01 d.r) :
    ∃ pa flag anc, apfForward M res tr yv uv tv cur d = .ok (pa, flag, anc) ∧ GoodStep N ⟨pa, anc⟩ := by
  obtain ⟨pa0, h0, hwf0, hpart0, hw0, -⟩ := PA.new_some_wf hwf.part_len hwf.w_len
  obtain ⟨l1, hl1, hl1l⟩ := hM.first pa0.part uv[cur] y tv[cur] hwf0.part_len
  have hzne : List.zipWith (· + ·) pa0.w l1 ≠ [] := by
    intro h; have := congrArg List.length h
    simp [hl1l, hwf0.w_len] at this; omega
  obtain ⟨m, hm⟩ := npMax_ok hzne
  set pa1 : PA P := { pa0 with w := (List.zipWith (· + ·) pa0.w l1).map (· - m) } with hpa1
  have hwf1 : pa1.WF N := ⟨hwf0.part_len, by simp [hpa1, hwf0.w_len, hl1l], hwf0.num_eq⟩
  have hst2 : ∃ pa2 flag anc l2, (if res ≠ 0 then do
      let neff ← calcNeff pa1.w
      if neff < res * pa1.num then do
        let (pa', anc) ← pa1.resample pa1.num d.r
        match some l1 with
        | none => .error .unboundLocalError
        | some l => do
          let l' ← fancy l anc
          pure (pa', true, anc, some l')
      else pure (pa1, false, List.range pa1.num, some l1)
    else (pure (pa1, false, List.range pa1.num, some l1) : PyM (PA P × Bool × List ℕ × Option (List ℝ)))) =
      .ok (pa2, flag, anc, some l2) ∧ pa2.WF N ∧ anc.length = N ∧ (∀ a ∈ anc, a < N) ∧ l2.length = N := by
    by_cases hres : res ≠ 0
    · simp only [hres, ne_eq, not_false_eq_true, if_true, calcNeff_eq (hwf1.w_ne hN), ok_bind]
      by_cases hlt : ess pa1.w < res * pa1.num
      · obtain ⟨pa', anc, hs, h2, h3, h4, h5, h6, h7, h8, h9, h10⟩ :=
          C07_resample pa1 (hwf1.w_ne hN) (by rw [hwf1.part_len, hwf1.w_len]) N hN hd
        rw [hwf1.part_len] at h3
        obtain ⟨l', hl'⟩ := fancy_ok (a := l1) (ind := anc) (by rwa [hl1l])
        refine ⟨pa', true, anc, l', ?_, ⟨h4, by rw [h8]; simp, h5⟩, h2, h3, by rw [(fancy_spec.mp hl').1, h2]⟩
        rw [if_pos hlt]
        simp only [hwf1.num_eq, hs, ok_bind, hl', pure_eq_ok]
      · refine ⟨pa1, false, List.range pa1.num, l1, by rw [if_neg hlt]; rfl, hwf1, by simp [hwf1.num_eq],
          by simp [hwf1.num_eq], hl1l⟩
    · refine ⟨pa1, false, List.range pa1.num, l1, by simp only [hres, if_false, pure_eq_ok], hwf1,
        by simp [hwf1.num_eq], by simp [hwf1.num_eq], hl1l⟩
  obtain ⟨pa2, flag, anc, l2, h2, hwf2, hal, har, hl2⟩ := hst2
  obtain ⟨pa3, h3, hwf3, -, -⟩ := pfUpdate_ok hM.toFilterContract tr anc uv yv tv cur hwf2 d.ω
  obtain ⟨l, pa4, -, -, h4, -, hwf4⟩ := pfMeasure_ok hM.toFilterContract hN tr anc hwf3 uv yv tv (cur+1)
  have hsne : List.zipWith (· - ·) pa4.w l2 ≠ [] := by
    intro h; have := congrArg List.length h
    simp [hl2, hwf4.w_len] at this; omega
  obtain ⟨m2, hm2⟩ := npMax_ok hsne
  refine ⟨{ pa4 with w := (List.zipWith (· - ·) pa4.w l2).map (· - m2) }, flag, anc, ?_,
    ⟨hwf4.part_len, by simp [hwf4.w_len, hl2], hwf4.num_eq⟩, hal, har⟩
  unfold apfForward
  simp only [getLast_ok.mpr hlast, ok_bind, h0, getIdx_ok.mpr hy]
  simp only [getIdx_of_lt hu, getIdx_of_lt ht, ok_bind, hl1,
    npAdd_ok (hwf0.w_len.trans hl1l.symm), hm, pure_eq_ok]
  simp only [pure_eq_ok] at h2
  erw [h2]
  simp only [ok_bind, h3, h4, npSub_ok (hwf4.w_len.trans hl2.symm), hm2]

/-! ### C12: no run of any filter raises -/

/-- What a filter needs beyond the callback contract: the auxiliary filter needs every measurement to be
present (C17), the conditional filters a reference state for every time (a single particle per time for
cpfyas). -/
structure Spec.RunReq (k : FilterKind) (ctraj : List (Step P)) (K : ℕ) (Q : Slot Y → Prop) : Prop where
  apf : k = .apf → ∀ y, Q y → y ≠ .none
  ref : k = .cpf ∨ k = .cpfas ∨ k = .csiras → ∀ t < K, ∃ x, RefState ctraj t x
  single : k = .cpfyas → ∀ t < K, ∃ x, RefSingle ctraj t x

/-- Which reference facts hold of the stored step at time `t`. -/
def Spec.RefFact (k : FilterKind) (ctraj : List (Step P)) (N t : ℕ) (st : Step P) : Prop :=
  (k = .cpf ∨ k = .cpfas ∨ k = .cpfyas ∨ (k = .csiras ∧ 0 < t) →
    ∀ x, RefState ctraj t x → st.pa.part[N-1]? = some x) ∧
  (k = .cpf → st.ancestors[N-1]? = some (N-1))

theorem refSingle_state {ctraj : List (Step P)} {t : ℕ} {x : P} (h : RefSingle ctraj t x) :
    RefState ctraj t x := by
  obtain ⟨c, h1, h2⟩ := h
  exact ⟨c, h1, by rw [h2]; rfl⟩

theorem refState_unique {ctraj : List (Step P)} {t : ℕ} {x y : P} (h : RefState ctraj t x)
    (h' : RefState ctraj t y) : x = y := by
  obtain ⟨c, h1, h2⟩ := h
  obtain ⟨c', h1', h2'⟩ := h'
  rw [h1] at h1'; cases h1'
  rw [h2] at h2'; cases h2'; rfl

theorem stepSafe_all {M : Callbacks P U Y V Ω} {N K : ℕ} (hM : FullContract M N) (hN : 0 < N) {res : ℝ}
    {name : String} {k : FilterKind} (hk : parseFilter name = .ok k) {ctraj : List (Step P)}
    {F : FilterOps P U Y V Ω} (hF : mkFilter M N res name (.dict (some ctraj)) = .ok F)
    {Q : Slot Y → Prop} (hreq : RunReq k ctraj K Q) (hK : 0 < K) :
    StepSafe F N K Q (fun t st => GoodStep N st ∧ RefFact k ctraj N t st) := by
  have hF := mkFilter_cond hk hF
  have hrange : (List.range N)[N-1]? = some (N-1) := List.getElem?_range (by omega)
  cases k
  case pf =>
    subst hF
    refine ⟨fun _ ω => ?_, ?_, fun _ => ?_, by simp⟩
    · obtain ⟨part, pa, h1, h2, h3⟩ := create_good hM hN ω
      exact ⟨part, pa, h1, h2, h3, by simp [RefFact]⟩
    · intro tr yv uv tv cur d last y h1 h2 h3 h4 h5 h6 h7 h8 h9 h10 h11 h12
      obtain ⟨pa, fl, anc, e1, e2, e3, e4, -, e5, e6⟩ := C12_pf_forward_total hM.toFilterContract hN res h2
        (h3 cur last (getLast_of_idx h1 h2)).1.pa yv uv tv cur d h11
      exact ⟨pa, fl, anc, e1, ⟨⟨e2, e3, e4⟩, e5, e6⟩, by simp [RefFact]⟩
    · intro tr yv uv tv cur last h1 h2 h3
      obtain ⟨pa, e1, e2, -⟩ := measure_good hM.toFilterContract hN (tr := tr)
        (h3 cur last (getLast_of_idx h1 h2)).1 uv yv tv cur
      exact ⟨pa, e1, e2, by simp [RefFact]⟩
  case apf =>
    subst hF
    refine ⟨fun _ ω => ?_, ?_, fun _ => ?_, by simp⟩
    · obtain ⟨part, pa, h1, h2, h3⟩ := create_good hM hN ω
      exact ⟨part, pa, h1, h2, h3, by simp [RefFact]⟩
    · intro tr yv uv tv cur d last y h1 h2 h3 h4 h5 h6 h7 h8 h9 h10 h11 h12
      obtain ⟨pa, fl, anc, e1, e2⟩ := apfForward_total hM hN res h2
        (h3 cur last (getLast_of_idx h1 h2)).1.pa h5 (hreq.apf rfl y h6) h7 (lt_of_getElem?_some h8) d h11
      exact ⟨pa, fl, anc, e1, e2, by simp [RefFact]⟩
    · intro tr yv uv tv cur last h1 h2 h3
      obtain ⟨pa, e1, e2, -⟩ := measure_good hM.toFilterContract hN (tr := tr)
        (h3 cur last (getLast_of_idx h1 h2)).1 uv yv tv cur
      exact ⟨pa, e1, e2, by simp [RefFact]⟩
  case pfy =>
    subst hF
    refine ⟨fun _ ω => ?_, ?_, by simp, fun _ => ?_⟩
    · obtain ⟨part, pa, h1, h2, h3⟩ := create_good hM hN ω
      exact ⟨part, pa, h1, h2, h3, by simp [RefFact]⟩
    · intro tr yv uv tv cur d last y h1 h2 h3 h4 h5 h6 h7 h8 h9 h10 h11 h12
      obtain ⟨y', hy'⟩ := Option.ne_none_iff_exists'.mp (mt List.getLast?_eq_none_iff.mp h10)
      have htne : tv ≠ [] := by rintro rfl; simp at h8
      obtain ⟨t', ht'⟩ := Option.ne_none_iff_exists'.mp (mt List.getLast?_eq_none_iff.mp htne)
      obtain ⟨pa, fl, anc, e1, e2, -⟩ := ffpropyForward_total hM hN res h1 h2
        (h3 cur last (getLast_of_idx h1 h2)).1 uv hy' ht' d h11
      exact ⟨pa, fl, anc, e1, e2, by simp [RefFact]⟩
    · intro yv tv cur ω h1 h2 h3
      obtain ⟨p, hp, hl⟩ := hM.propose yv[cur] cur ω
      obtain ⟨pa, e1, e2, -⟩ := PA.new_none_wf hl hN
      refine ⟨pa, ?_, ⟨e2, by simp, by simp⟩, by simp [RefFact]⟩
      unfold ffpropyMeasure
      simp only [getIdx_of_lt h2, getIdx_ok.mpr h3, ok_bind, hp, e1]
  case cpfyas =>
    subst hF
    refine ⟨fun _ ω => ?_, ?_, by simp, fun _ => ?_⟩
    · obtain ⟨x, hx⟩ := hreq.single rfl 0 hK
      obtain ⟨part, pa, h1, h2, h3, h4⟩ := cpfInitial_good hM hN (refSingle_state hx) ω
      exact ⟨part, pa, h1, h2, h3, fun _ x' hx' => by rw [h4, refState_unique (refSingle_state hx) hx'], by simp⟩
    · intro tr yv uv tv cur d last y h1 h2 h3 h4 h5 h6 h7 h8 h9 h10 h11 h12
      obtain ⟨x, hx⟩ := hreq.single rfl (cur+1) h4
      obtain ⟨pa, anc, e1, e2, e3, -⟩ := C16_cpfyas_step hM hN h1 h2
        (h3 cur last (getLast_of_idx h1 h2)).1 hx (lt_of_getElem?_some h5) uv (lt_of_getElem?_some h9) d h11 h12
      exact ⟨pa, true, anc, e1, e2,
        fun _ x' hx' => by simp only; rw [e3, refState_unique (refSingle_state hx) hx'], by simp⟩
    · intro yv tv cur ω h1 h2 h3
      obtain ⟨x, hx⟩ := hreq.single rfl cur h1
      obtain ⟨p, hp, hl⟩ := hM.propose yv[cur] cur ω
      obtain ⟨p', hp', hl', hx', -⟩ := setLast_ok hl hN x
      obtain ⟨pa, e1, e2, e3, -⟩ := PA.new_none_wf hl' hN
      refine ⟨pa, ?_, ⟨e2, by simp, by simp⟩, fun _ x' hxx => ?_, by simp⟩
      · obtain ⟨c, hc, hcx⟩ := hx
        have e4 : setLastFrom p c.pa.part = .ok p' := by rw [hcx]; exact hp'
        unfold cpfyasMeasure
        simp only [getIdx_of_lt h2, getIdx_ok.mpr h3, ok_bind, hp, getIdx_ok.mpr hc, e4, e1]
      · simp only
        rw [e3, hx', refState_unique (refSingle_state hx) hxx]
  case cpfas =>
    subst hF
    refine ⟨fun _ ω => ?_, ?_, fun _ => ?_, by simp⟩
    · obtain ⟨x, hx⟩ := hreq.ref (by simp) 0 hK
      obtain ⟨part, pa, h1, h2, h3, h4⟩ := cpfInitial_good hM hN hx ω
      exact ⟨part, pa, h1, h2, h3, fun _ x' hx' => by rw [h4, refState_unique hx hx'], by simp⟩
    · intro tr yv uv tv cur d last y h1 h2 h3 h4 h5 h6 h7 h8 h9 h10 h11 h12
      obtain ⟨x, hx⟩ := hreq.ref (by simp) (cur+1) h4
      obtain ⟨pa, anc, e1, e2, e3, -⟩ := C16_cpfas_step hM hN h1 h2
        (h3 cur last (getLast_of_idx h1 h2)).1 hx (lt_of_getElem?_some h5) uv tv d h11 h12
      exact ⟨pa, true, anc, e1, e2, fun _ x' hx' => by simp only; rw [e3, refState_unique hx hx'], by simp⟩
    · intro tr yv uv tv cur last h1 h2 h3
      have hg := h3 cur last (getLast_of_idx h1 h2)
      obtain ⟨pa, e1, e2, e3⟩ := measure_good hM.toFilterContract hN (tr := tr) hg.1 uv yv tv cur
      exact ⟨pa, e1, e2, fun hh x hx => by simp only; rw [e3]; exact hg.2.1 hh x hx, by simp⟩
  case cpf =>
    subst hF
    refine ⟨fun _ ω => ?_, ?_, fun _ => ?_, by simp⟩
    · obtain ⟨x, hx⟩ := hreq.ref (by simp) 0 hK
      obtain ⟨part, pa, h1, h2, h3, h4⟩ := cpfInitial_good hM hN hx ω
      exact ⟨part, pa, h1, h2, h3, fun _ x' hx' => by rw [h4, refState_unique hx hx'], fun _ => hrange⟩
    · intro tr yv uv tv cur d last y h1 h2 h3 h4 h5 h6 h7 h8 h9 h10 h11 h12
      obtain ⟨x, hx⟩ := hreq.ref (by simp) (cur+1) h4
      obtain ⟨pa, anc, e1, e2, e3, e4, -⟩ := C15_cpf_step hM.toFilterContract hN h1 h2
        (h3 cur last (getLast_of_idx h1 h2)).1.pa hx (lt_of_getElem?_some h5) uv tv d h11
      exact ⟨pa, true, anc, e1, e2, fun _ x' hx' => by simp only; rw [e3, refState_unique hx hx'], fun _ => e4⟩
    · intro tr yv uv tv cur last h1 h2 h3
      have hg := h3 cur last (getLast_of_idx h1 h2)
      obtain ⟨pa, e1, e2, e3⟩ := measure_good hM.toFilterContract hN (tr := tr) hg.1 uv yv tv cur
      exact ⟨pa, e1, e2, fun hh x hx => by simp only; rw [e3]; exact hg.2.1 hh x hx, fun hh => hg.2.2 hh⟩
  case sir =>
    subst hF
    refine ⟨fun _ ω => ?_, ?_, fun _ => ?_, by simp⟩
    · obtain ⟨part, pa, h1, h2, h3⟩ := create_good hM hN ω
      exact ⟨part, pa, h1, h2, h3, by simp [RefFact]⟩
    · intro tr yv uv tv cur d last y h1 h2 h3 h4 h5 h6 h7 h8 h9 h10 h11 h12
      obtain ⟨pa, fl, anc, e1, e2⟩ := sirForward_total hM hN res h2
        (h3 cur last (getLast_of_idx h1 h2)).1.pa (lt_of_getElem?_some h5) h7 (lt_of_getElem?_some h9) d h11
      exact ⟨pa, fl, anc, e1, e2, by simp [RefFact]⟩
    · intro tr yv uv tv cur last h1 h2 h3
      obtain ⟨pa, e1, e2, -⟩ := measure_good hM.toFilterContract hN (tr := tr)
        (h3 cur last (getLast_of_idx h1 h2)).1 uv yv tv cur
      exact ⟨pa, e1, e2, by simp [RefFact]⟩
  case csiras =>
    subst hF
    refine ⟨fun _ ω => ?_, ?_, fun _ => ?_, by simp⟩
    · obtain ⟨part, pa, h1, h2, h3⟩ := create_good hM hN ω
      exact ⟨part, pa, h1, h2, h3, by simp [RefFact]⟩
    · intro tr yv uv tv cur d last y h1 h2 h3 h4 h5 h6 h7 h8 h9 h10 h11 h12
      obtain ⟨x, hx⟩ := hreq.ref (by simp) (cur+1) h4
      obtain ⟨pa, anc, e1, e2, e3, -⟩ := C16_csiras_step hM hN h1 h2
        (h3 cur last (getLast_of_idx h1 h2)).1 hx (lt_of_getElem?_some h5) h7 (lt_of_getElem?_some h9) d h11 h12
      exact ⟨pa, true, anc, e1, e2, fun _ x' hx' => by simp only; rw [e3, refState_unique hx hx'], by simp⟩
    · intro tr yv uv tv cur last h1 h2 h3
      have hg := h3 cur last (getLast_of_idx h1 h2)
      obtain ⟨pa, e1, e2, e3⟩ := measure_good hM.toFilterContract hN (tr := tr) hg.1 uv yv tv cur
      exact ⟨pa, e1, e2, fun hh x hx => by simp only; rw [e3]; exact hg.2.1 hh x hx, by simp⟩

/-- Master statement: every run of every filter. -/
theorem run_all {M : Callbacks P U Y V Ω} {N : ℕ} (hM : FullContract M N) (hN : 0 < N) {res : ℝ}
    {name : String} {k : FilterKind} (hk : parseFilter name = .ok k) {ctraj : List (Step P)}
    {F : FilterOps P U Y V Ω} (hF : mkFilter M N res name (.dict (some ctraj)) = .ok F)
    {T : Option ℕ} {s0 : PT P U Y} (h0 : PT.init N T 0 = .ok s0) (ops : List (Op U Y Ω))
    {Q : Slot Y → Prop} (hops : ∀ op ∈ ops, op.Ok Q)
    (hreq : RunReq k ctraj (Spec.log F.usingPfy ops).ys.length Q) :
    ∃ s bs, s0.run F ops = (s, .ok bs) ∧ s.traj.length = (Spec.log F.usingPfy ops).ys.length ∧
      ∀ t st, s.traj[t]? = some st → GoodStep N st ∧ RefFact k ctraj N t st := by
  by_cases hne : ops = []
  · subst hne
    refine ⟨s0, [], rfl, ?_, ?_⟩
    · exact (PT.init_rep h0).len
    · have := (PT.init_rep h0).len
      have : s0.traj = [] := List.length_eq_zero_iff.mp (by simpa using this)
      rw [this]; simp
  · have hpos := List.length_pos_iff.mpr (Spec.log_ne_nil F.usingPfy hne)
    exact run_safe_init (stepSafe_all hM hN hk hF hreq hpos) h0 ops hops le_rfl

/-- C12: for every filter, every history of `forward`/`measure` calls on a new trajectory (with or without
preallocation), every data, every uniform draw: if the callbacks return arrays of `N` rows — and
the auxiliary filter gets no missing measurement, the conditional filters a reference state for every
time — no call raises, and every stored step has `N` particles, `N` log-weights and `N` ancestor
indices below `N`. -/
theorem C12_every_run_total {M : Callbacks P U Y V Ω} {N : ℕ} (hM : FullContract M N) (hN : 0 < N) {res : ℝ}
    {name : String} {k : FilterKind} (hk : parseFilter name = .ok k) {ctraj : List (Step P)}
    {F : FilterOps P U Y V Ω} (hF : mkFilter M N res name (.dict (some ctraj)) = .ok F)
    {T : Option ℕ} {s0 : PT P U Y} (h0 : PT.init N T 0 = .ok s0) (ops : List (Op U Y Ω))
    {Q : Slot Y → Prop} (hops : ∀ op ∈ ops, op.Ok Q)
    (hreq : RunReq k ctraj (Spec.log F.usingPfy ops).ys.length Q) :
    ∃ s bs, s0.run F ops = (s, .ok bs) ∧ ∀ st ∈ s.traj, GoodStep N st := by
  obtain ⟨s, bs, h1, -, h2⟩ := run_all hM hN hk hF h0 ops hops hreq
  refine ⟨s, bs, h1, fun st hst => ?_⟩
  obtain ⟨t, ht, rfl⟩ := List.getElem_of_mem hst
  exact (h2 t _ (List.getElem?_eq_getElem ht)).1

/-- C12 for the filters that need no reference trajectory (`pf`, `apf`, `sir`, `pfy`), whatever the options are: given no options, or options
without a reference trajectory, every run of such a filter over a model that keeps its contract is total and stores steps of `N` particles. -/
theorem C12_unconditional_run_total {M : Callbacks P U Y V Ω} {N : ℕ} (hM : FullContract M N) (hN : 0 < N) {res : ℝ}
    {name : String} {k : FilterKind} (hk : parseFilter name = .ok k) (hk4 : k = .pf ∨ k = .apf ∨ k = .sir ∨ k = .pfy)
    {opts : FilterOptions P} {F : FilterOps P U Y V Ω} (hF : mkFilter M N res name opts = .ok F)
    {T : Option ℕ} {s0 : PT P U Y} (h0 : PT.init N T 0 = .ok s0) (ops : List (Op U Y Ω))
    {Q : Slot Y → Prop} (hops : ∀ op ∈ ops, op.Ok Q) (hQ : k = .apf → ∀ y, Q y → y ≠ .none) :
    ∃ s bs, s0.run F ops = (s, .ok bs) ∧ ∀ st ∈ s.traj, GoodStep N st := by
  have hF' : mkFilter M N res name (.dict (some [])) = .ok F := by
    unfold mkFilter at hF ⊢
    rw [hk, ok_bind] at hF ⊢
    rcases hk4 with rfl | rfl | rfl | rfl <;> exact hF
  refine C12_every_run_total hM hN hk hF' h0 ops hops ⟨hQ, ?_, ?_⟩
  · intro h; rcases hk4 with rfl | rfl | rfl | rfl <;> simp at h
  · intro h; rcases hk4 with rfl | rfl | rfl | rfl <;> simp at h

/-! ### C15 -/

/-- Follow the stored ancestor indices of particle `i` at time `t` for `s` steps back. -/
def Spec.ancestorAt (traj : List (Step P)) : ℕ → ℕ → ℕ → Option ℕ
  | _, 0, i => some i
  | t, s + 1, i => (traj[t]?.bind fun st => st.ancestors[i]?).bind fun j => Spec.ancestorAt traj (t - 1) s j

/-- C15: after any run of the conditional particle filter, the last particle of every time is the
reference state of that time, and tracing the last particle of any time back along the stored ancestors
stays on the last particle — so it visits exactly the reference trajectory. -/
theorem C15_cpf_run {M : Callbacks P U Y V Ω} {N : ℕ} (hM : FullContract M N) (hN : 0 < N) {res : ℝ}
    {name : String} (hk : parseFilter name = .ok .cpf) {ctraj : List (Step P)}
    {F : FilterOps P U Y V Ω} (hF : mkFilter M N res name (.dict (some ctraj)) = .ok F)
    {T : Option ℕ} {s0 : PT P U Y} (h0 : PT.init N T 0 = .ok s0) (ops : List (Op U Y Ω))
    (hops : ∀ op ∈ ops, op.Ok (fun _ => True))
    (href : ∀ t < (Spec.log F.usingPfy ops).ys.length, ∃ x, RefState ctraj t x) :
    ∃ s bs, s0.run F ops = (s, .ok bs) ∧ s.traj.length = (Spec.log F.usingPfy ops).ys.length ∧
      (∀ t st x, s.traj[t]? = some st → RefState ctraj t x → st.pa.part[N-1]? = some x) ∧
      (∀ t < s.traj.length, ∀ n ≤ t, ancestorAt s.traj t n (N-1) = some (N-1)) := by
  obtain ⟨s, bs, h1, hl, h2⟩ := run_all hM hN hk hF h0 ops hops ⟨by simp, fun _ => href, by simp⟩
  refine ⟨s, bs, h1, hl, fun t st x hst hx => (h2 t st hst).2.1 (by simp) x hx, ?_⟩
  intro t ht n
  induction n generalizing t with
  | zero => intro _; rfl
  | succ n ih =>
    intro hn
    have hst := List.getElem?_eq_getElem ht
    have := (h2 t _ hst).2.2 rfl
    simp only [ancestorAt, hst, Option.bind_some, this]
    exact ih (t - 1) (by omega) (by omega)

/-! ### C16 -/

/-- C16: after any run of CPFAS or CPFYAS the last particle of every time is the reference state; for
CSIRAS this holds for every time except the initial one. -/
theorem C16_run {M : Callbacks P U Y V Ω} {N : ℕ} (hM : FullContract M N) (hN : 0 < N) {res : ℝ}
    {name : String} {k : FilterKind} (hk : parseFilter name = .ok k)
    (hkk : k = .cpfas ∨ k = .cpfyas ∨ k = .csiras) {ctraj : List (Step P)}
    {F : FilterOps P U Y V Ω} (hF : mkFilter M N res name (.dict (some ctraj)) = .ok F)
    {T : Option ℕ} {s0 : PT P U Y} (h0 : PT.init N T 0 = .ok s0) (ops : List (Op U Y Ω))
    (hops : ∀ op ∈ ops, op.Ok (fun _ => True))
    (href : ∀ t < (Spec.log F.usingPfy ops).ys.length, ∃ x, RefSingle ctraj t x) :
    ∃ s bs, s0.run F ops = (s, .ok bs) ∧ s.traj.length = (Spec.log F.usingPfy ops).ys.length ∧
      ∀ t st x, (k = .csiras → 0 < t) → s.traj[t]? = some st → RefState ctraj t x →
        st.pa.part[N-1]? = some x ∧ ∀ a ∈ st.ancestors, a < N := by
  obtain ⟨s, bs, h1, hl, h2⟩ := run_all hM hN hk hF h0 ops hops
    ⟨by rcases hkk with rfl | rfl | rfl <;> simp,
     fun _ t ht => (href t ht).imp fun _ h => refSingle_state h, fun _ => href⟩
  refine ⟨s, bs, h1, hl, fun t st x ht hst hx => ⟨(h2 t st hst).2.1 ?_ x hx, (h2 t st hst).1.anc_lt⟩⟩
  rcases hkk with rfl | rfl | rfl
  · simp
  · simp
  · simp only [reduceCtorEq, false_or, true_and]; exact ht rfl

/-- C16 (violation): CSIRAS takes its initial particles from the model without inserting the reference
state, so for every model whose initial particles differ from the reference state at time 0 the stored
step 0 does not contain it. -/
theorem C16_csiras_initial_violation {M : Callbacks P U Y V Ω} {N : ℕ} {res : ℝ}
    {name : String} (hk : parseFilter name = .ok .csiras) {ctraj : List (Step P)}
    {F : FilterOps P U Y V Ω} (hF : mkFilter M N res name (.dict (some ctraj)) = .ok F)
    {T : Option ℕ} {s0 s : PT P U Y} (h0 : PT.init N T 0 = .ok s0) {y : Slot Y} {ω : Ω} {b : Option Bool}
    (hs : s0.step F (.measure y ω) = (s, .ok b)) {part : List P} (hp : M.createInitial N ω = .ok part)
    {x : P} (hx : x ∉ part) :
    ∃ st, s.traj[0]? = some st ∧ x ∉ st.pa.part := by
  have hF' := mkFilter_cond hk hF
  have hN0 : s0.N = N ∧ s0.traj = [] := by
    unfold PT.init at h0
    simp only [ne_eq, not_true_eq_false, if_false] at h0
    split at h0
    · cases h0
    · cases h0; exact ⟨rfl, rfl⟩
    · cases h0; exact ⟨rfl, rfl⟩
  have hinv := PT.init_inv h0
  obtain ⟨hg, e1, e2, e3, e4⟩ := PT.growMeasure_inv hinv
  unfold PT.step at hs
  simp only at hs
  have hpfy : F.usingPfy = false := by rw [hF']
  rw [PT.measure_eq hpfy hinv] at hs
  rcases s0.growMeasure.ensureInit_cases F ω with ⟨h1, -⟩ | ⟨-, e, h2, -⟩ | ⟨h1, part', pa, hc, hp', h2⟩
  · exact absurd (by rw [e3, hN0.2]) h1
  · rw [h2] at hs; simp at hs
  · rw [h2] at hs
    have hcr : F.create = M.createInitial := by rw [hF']
    rw [hcr, e2, hN0.1, hp] at hc
    cases hc
    have hpa : pa.part = part := by
      unfold PA.new at hp'; simp only at hp'; split_ifs at hp'; cases hp'; rfl
    simp only [getLast, List.getLast?_singleton] at hs
    split at hs
    · rename_i heq
      split at heq
      · cases heq
      · rename_i pa2 hm
        cases heq; cases hs
        refine ⟨⟨pa2, _⟩, rfl, ?_⟩
        have hmm : F.measure = pfMeasure M := by rw [hF']
        rw [hmm] at hm
        unfold pfMeasure at hm
        obtain ⟨nw, -, hm⟩ := bind_eq_ok.mp hm
        rw [(weightUpdate_spec hm).1, hpa]; exact hx
    · rename_i heq
      split at heq
      · cases heq; cases hs
      · cases heq

/-! ### C19: proposals from the current measurement -/

/-- Invariant of a pfy/cpfyas trajectory without preallocation: the buffers end at the current time. -/
theorem pfy_tight {F : FilterOps P U Y V Ω} (hp : F.usingPfy = true) (ops : List (Op U Y Ω))
    {s s' : PT P U Y} {l : Spec.Log U Y} (h : s.Rep l) (hT : s.T = s.ind1) {bs : List (Option Bool)}
    (hrun : s.run F ops = (s', .ok bs)) : s'.T = s'.ind1 := by
  induction ops generalizing s l bs with
  | nil => cases hrun; exact hT
  | cons op ops ih =>
    unfold PT.run at hrun
    rcases hs : s.step F op with ⟨s1, r⟩
    rw [hs] at hrun
    cases r with
    | error e => cases hrun
    | ok b =>
      simp only at hrun
      rcases hr : PT.run F s1 ops with ⟨s2, r2⟩
      rw [hr] at hrun
      cases r2 with
      | error e => cases hrun
      | ok bs' =>
        cases hrun
        refine ih (PT.step_rep h hs) ?_ hr
        cases op with
        | forward u y ω0 d =>
          unfold PT.step at hs
          simp only at hs
          rw [PT.forward_eq h.inv] at hs
          rcases s.ensureInit_cases F ω0 with ⟨h1, h2⟩ | ⟨h1, e, h2, -⟩ | ⟨h1, part, pa, -, -, h2⟩
          · rw [h2] at hs
            simp only at hs
            split at hs
            · rename_i heq; split at heq
              · cases heq
              · cases heq; cases hs
                simp [PT.beforeForward, PT.growForward, hT]
            · cases hs
          · rw [h2] at hs; simp at hs
          · rw [h2] at hs
            have hind : s.ind1 = 0 := by
              rw [h.ind, ← h.len, h1]; rfl
            simp only at hs
            split at hs
            · rename_i heq; split at heq
              · cases heq
              · cases heq; cases hs
                simp [PT.beforeForward, PT.growForward, hT, hind]
            · cases hs
        | measure y ω =>
          unfold PT.step at hs
          simp only at hs
          rw [PT.measure_pfy_eq hp h.inv] at hs
          simp only at hs
          split at hs
          · rename_i heq; split at heq
            · cases heq
            · cases heq; cases hs
              simp [PT.beforeMeasurePfy, PT.growMeasure, hT]
          · cases hs

/-- C19, proved for trajectories without preallocation (`T=None`, which is what `Simulator` uses): after any
history, `forward(u, y)` of the proposal-from-measurement filter stores exactly the particles the model
proposes for the measurement `y` passed to this call and for the time of the new step. -/
theorem C19_uses_current_measurement {M : Callbacks P U Y V Ω} {N : ℕ} {res : ℝ}
    {name : String} (hk : parseFilter name = .ok .pfy) {o : FilterOptions P}
    {F : FilterOps P U Y V Ω} (hF : mkFilter M N res name o = .ok F)
    {s0 s s' : PT P U Y} (h0 : PT.init N none 0 = .ok s0) {ops : List (Op U Y Ω)}
    {bs : List (Option Bool)} (hrun : s0.run F ops = (s, .ok bs))
    {u : Slot U} {y : Slot Y} {ω0 : Ω} {d : Draws Ω} {b : Bool}
    (hf : s.forward F u y ω0 d = (s', .ok b)) :
    ∃ st n, s'.traj.getLast? = some st ∧ M.proposeFromY n y (s'.traj.length - 1) d.ω = .ok st.pa.part := by
  rw [mkFilter_uncond hk (by simp [Spec.Conditional]) []] at hF
  have hF' := mkFilter_cond hk hF
  have hp : F.usingPfy = true := by rw [hF']
  have h := PT.run_rep ops (PT.init_rep h0) hrun
  have ht := pfy_tight hp ops (PT.init_rep h0) (by simp [PT.init] at h0; rw [← h0]) hrun
  have hrep' := PT.forward_rep h hf
  rw [PT.forward_eq h.inv] at hf
  have hfw : F.forward = ffpropyForward M res N := by rw [hF']
  have key : ∀ s1 : PT P U Y, s1.Inv → 1 ≤ s1.ind1 → s1.T ≤ s1.ind1 → 
      (let b := s1.beforeForward u y
        match F.forward s1.traj b.yvec b.uvec b.tvec (s1.ind1 - 1) d with
        | .error e => (b, (.error e : PyM Bool))
        | .ok (pa, resampled, anc) => ({ b with traj := s1.traj ++ [⟨pa, anc⟩] }, .ok resampled)) = (s', .ok b) →
      ∃ st n, s'.traj.getLast? = some st ∧ s'.ind1 = s1.ind1 + 1 ∧
        M.proposeFromY n y s1.ind1 d.ω = .ok st.pa.part := by
    intro s1 hi h1 hT hh
    have hylast : (s1.beforeForward u y).yvec.getLast? = some y := by
      rw [List.getLast?_eq_getElem?]
      simp only [PT.beforeForward, PT.growForward, if_pos hT, List.length_set, npResize_length,
        Nat.add_sub_cancel]
      rw [List.getElem?_set_self (by simp)]
    have htlast : (s1.beforeForward u y).tvec.getLast? = some s1.ind1 := by
      rw [List.getLast?_eq_getElem?]
      simp only [PT.beforeForward, PT.growForward, if_pos hT, List.length_set, npResize_length,
        Nat.add_sub_cancel]
      rw [List.getElem?_set_self (by simp)]
    simp only at hh
    split at hh
    · cases hh
    · rename_i pa rs anc hfo
      cases hh
      rw [hfw] at hfo
      unfold ffpropyForward at hfo
      obtain ⟨last, -, hfo⟩ := bind_eq_ok.mp hfo
      obtain ⟨pa0, -, hfo⟩ := bind_eq_ok.mp hfo
      obtain ⟨⟨pa1, f1, a1⟩, -, hfo⟩ := bind_eq_ok.mp hfo
      rw [getLast_ok.mpr hylast, getLast_ok.mpr htlast] at hfo
      simp only [ok_bind] at hfo
      obtain ⟨q, hq, hfo⟩ := bind_eq_ok.mp hfo
      obtain ⟨tc, -, hfo⟩ := bind_eq_ok.mp hfo
      obtain ⟨pp, -, hfo⟩ := bind_eq_ok.mp hfo
      obtain ⟨pi, -, hfo⟩ := bind_eq_ok.mp hfo
      obtain ⟨wn, -, hfo⟩ := bind_eq_ok.mp hfo
      obtain ⟨pa2, hw, hfo⟩ := bind_eq_ok.mp hfo
      simp only [pure_eq_ok, Except.ok.injEq, Prod.mk.injEq] at hfo
      obtain ⟨rfl, -, -⟩ := hfo
      refine ⟨⟨pa2, anc⟩, pa1.part.length, by simp, rfl, ?_⟩
      simp only
      rw [(weightUpdate_spec hw).1]; exact hq
  have hlen : s'.traj.length = s'.ind1 := by rw [hrep'.len, hrep'.ind]
  rcases s.ensureInit_cases F ω0 with ⟨h1, h2⟩ | ⟨h1, e, h2, -⟩ | ⟨h1, part, pa, -, -, h2⟩
  · rw [h2] at hf
    obtain ⟨st, n, e1, e2, e3⟩ := key s h.inv (h.inv.started h1) (by omega) hf
    exact ⟨st, n, e1, by rw [hlen, e2]; exact e3⟩
  · rw [h2] at hf; simp at hf
  · rw [h2] at hf
    have hind : s.ind1 = 0 := by rw [h.ind, ← h.len, h1]; rfl
    obtain ⟨st, n, e1, e2, e3⟩ := key { s with ind1 := 1, traj := [⟨pa, List.range s.N⟩] }
      ⟨h.inv.ylen, h.inv.tlen, h.inv.ulen_le, h.inv.ulen_ge, h.inv.ulen_pos, by simp⟩ (by simp)
      (by simp only; omega) hf
    exact ⟨st, n, e1, by rw [hlen, e2]; exact e3⟩

end PyPE

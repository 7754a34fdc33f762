import Verif.Traj.Run
import Verif.Filter.Likelihood

/-!
# Following a run step by step

An induction principle for histories of the form `measure(y_0); forward(u_0, y_1); forward(u_1, y_2); …` whose inputs and measurements are known.
-/

namespace PyPE
open Spec

variable {P U Y V Ω : Type} {F : FilterOps P U Y V Ω} {u : ℕ → Slot U} {y : ℕ → Slot Y} {K : ℕ} {I : ℕ → List (Step P) → List Bool → Prop}

/-- The calls `forward(u_k, y_(k+1)), …`, one after the other. -/
theorem forwards_track (hstep : ∀ k tr fl yv uv tv (d : Draws Ω), k < K → I k tr fl → tr.length = k + 1 → uv[k]? = some (u k) →
      yv[k + 1]? = some (y (k + 1)) → tv[k]? = some k → tv[k + 1]? = some (k + 1) → Unit01 d.r → Unit01 d.r2 →
      ∃ pa b anc, F.forward tr yv uv tv k d = .ok (pa, b, anc) ∧ I (k + 1) (tr ++ [⟨pa, anc⟩]) (fl ++ [b]))
    (ds : List (Slot U × Slot Y × Ω × Draws Ω)) {k : ℕ} {s : PT P U Y} {lg : Spec.Log U Y} {fl : List Bool} (hr : s.Rep lg)
    (hk : lg.ys.length = k + 1) (hI : I k s.traj fl)
    (hds : ∀ (i : ℕ) q, ds[i]? = some q → q.1 = u (k + i) ∧ q.2.1 = y (k + i + 1) ∧ Unit01 q.2.2.2.r ∧ Unit01 q.2.2.2.r2) (hK : k + ds.length ≤ K) :
    ∃ s' bs, s.run F (ds.map fun q => .forward q.1 q.2.1 q.2.2.1 q.2.2.2) = (s', .ok (bs.map some)) ∧ I (k + ds.length) s'.traj (fl ++ bs) := by
  induction ds generalizing k s lg fl with
  | nil => exact ⟨s, [], rfl, by simpa using hI⟩
  | cons q ds ih =>
    obtain ⟨uq, yq, ω0, d⟩ := q
    obtain ⟨rfl, rfl, hr1, hr2⟩ := hds 0 _ rfl
    simp only [add_zero] at *
    have hne : lg.ys ≠ [] := by intro h; rw [h] at hk; simp at hk
    have htl : s.traj.length = k + 1 := by rw [hr.len, hk]
    have hi : s.ind1 - 1 = k := by rw [hr.ind, hk]; rfl
    have he : s.ensureInit F ω0 = (s, .ok ()) := by
      unfold PT.ensureInit
      rw [if_neg (by omega)]
    have hbr := fun pa anc => hr.beforeForward hne (u k) (y (k + 1)) pa anc
    have hul : lg.us.length = k := by rw [hr.us_len, hk]; rfl
    obtain ⟨pa, b, anc, hf, hI'⟩ := hstep k s.traj fl (s.beforeForward (u k) (y (k + 1))).yvec (s.beforeForward (u k) (y (k + 1))).uvec
      (s.beforeForward (u k) (y (k + 1))).tvec d (by simp at hK; omega) hI htl
      ((hbr ⟨[], [], 0, 0⟩ []).us k (u k) (by simp [hul]))
      (((hbr ⟨[], [], 0, 0⟩ []).ys (k + 1) (by simp [hk])).trans (by simp [hk]))
      ((hbr ⟨[], [], 0, 0⟩ []).ts k (by simp [hk])) ((hbr ⟨[], [], 0, 0⟩ []).ts (k + 1) (by simp [hk])) hr1 hr2
    have hfw : s.step F (.forward (u k) (y (k + 1)) ω0 d) = ({ s.beforeForward (u k) (y (k + 1)) with traj := s.traj ++ [⟨pa, anc⟩] }, .ok (some b)) := by
      simp only [PT.step, PT.forward_eq hr.inv, he, hi, hf]
    obtain ⟨s', bs, e1, e2⟩ := ih (hbr pa anc) (by simp [hk]) (fl := fl ++ [b]) hI' (fun i q hq => by
      have := hds (i + 1) q (by simpa using hq)
      rwa [show k + (i + 1) = k + 1 + i by omega] at this) (by simp at hK; omega)
    refine ⟨s', b :: bs, ?_, ?_⟩
    · rw [List.map_cons, PT.run, hfw]
      simp only [e1]
      rfl
    · rw [List.length_cons, show k + (ds.length + 1) = k + 1 + ds.length by omega]
      simpa using e2

/-- A whole history, with or without a measurement at time 0. -/
theorem history_track {N : ℕ} (hpfy : F.usingPfy = false) {first : Option (Slot Y)}
    (hstart : ∀ ω, ∃ part pa, F.create N ω = .ok part ∧ PA.new part none = .ok pa ∧ (first = none → I 0 [⟨pa, List.range N⟩] []) ∧
      ∀ y0, first = some y0 → ∀ uv yv tv, yv[0]? = some y0 → tv[0]? = some 0 →
        ∃ pa', F.measure [⟨pa, List.range N⟩] (List.range N) pa uv yv tv 0 = .ok pa' ∧ I 0 [⟨pa', List.range N⟩] [])
    (hstep : ∀ k tr fl yv uv tv (d : Draws Ω), k < K → I k tr fl → tr.length = k + 1 → uv[k]? = some (u k) →
      yv[k + 1]? = some (y (k + 1)) → tv[k]? = some k → tv[k + 1]? = some (k + 1) → Unit01 d.r → Unit01 d.r2 →
      ∃ pa b anc, F.forward tr yv uv tv k d = .ok (pa, b, anc) ∧ I (k + 1) (tr ++ [⟨pa, anc⟩]) (fl ++ [b]))
    {T : Option ℕ} {s0 : PT P U Y} (h0 : PT.init N T 0 = .ok s0) (ω : Ω) (ds : List (Slot U × Slot Y × Ω × Draws Ω))
    (hds : ∀ (i : ℕ) q, ds[i]? = some q → q.1 = u i ∧ q.2.1 = y (i + 1) ∧ Unit01 q.2.2.2.r ∧ Unit01 q.2.2.2.r2) (hK : ds.length = K)
    (hne : first = none → ds ≠ []) :
    ∃ s bs flags, s0.run F (history (first.map fun y0 => (y0, ω)) ds) = (s, .ok bs) ∧ bs.filterMap id = flags ∧ I K s.traj flags := by
  have hrep0 := PT.init_rep h0
  obtain ⟨hsN, htr⟩ := init_N h0
  have hids : ∀ bs : List Bool, (bs.map some).filterMap id = bs := fun bs => by
    rw [List.filterMap_map]; simp
  cases hfirst : first with
  | some y0 =>
    obtain ⟨part, pa, hc, hp, -, hm⟩ := hstart ω
    obtain ⟨hg, g1, g2, g3, g4⟩ := PT.growMeasure_inv hrep0.inv
    have he : s0.growMeasure.ensureInit F ω = ({ s0.growMeasure with ind1 := 1, traj := [⟨pa, List.range N⟩] }, .ok ()) := by
      unfold PT.ensureInit
      rw [g3, htr]
      simp only [List.length_nil, if_true, g2, hsN, hc, hp]
      rfl
    obtain ⟨sI, hsI⟩ : ∃ sI : PT P U Y, sI = { s0.growMeasure with ind1 := 1, traj := [⟨pa, List.range N⟩] } := ⟨_, rfl⟩
    rw [← hsI] at he
    have hrepI : sI.Rep ⟨[], [.none]⟩ := (hrep0.growMeasure.ensureInit he).1 rfl
    have hy0 : 0 < sI.yvec.length := lt_of_getElem?_some (hrepI.ys 0 (by simp))
    have ht0 : 0 < sI.tvec.length := lt_of_getElem?_some (hrepI.ts 0 (by simp))
    have hind : sI.ind1 - 1 = 0 := by simp [hsI]
    have htrI : sI.traj = [⟨pa, List.range N⟩] := by rw [hsI]
    obtain ⟨pa', f1, f2⟩ := hm y0 hfirst (sI.beforeMeasure y0).uvec (sI.beforeMeasure y0).yvec (sI.beforeMeasure y0).tvec
      (by simp only [PT.beforeMeasure, hind]; exact List.getElem?_set_self hy0)
      (by simp only [PT.beforeMeasure, hind]; exact List.getElem?_set_self ht0)
    have hmeas : s0.measure F y0 ω = ({ sI.beforeMeasure y0 with traj := [⟨pa', List.range N⟩] }, .ok ()) := by
      rw [PT.measure_eq hpfy hrep0.inv, he]
      simp only [htrI, show getLast [(⟨pa, List.range N⟩ : Step P)] = .ok ⟨pa, List.range N⟩ from rfl, hind, f1]
      rfl
    have hrep1 := PT.measure_rep hrep0 hmeas
    obtain ⟨s', bs, e1, e2⟩ := forwards_track hstep ds (k := 0) (fl := []) hrep1 (by simp [Spec.Log.measure, hpfy]) f2
      (fun i q hq => by simpa using hds i q hq) (by omega)
    refine ⟨s', none :: bs.map some, bs, ?_, ?_, ?_⟩
    · show s0.run F (.measure y0 ω :: ds.map fun q => Op.forward q.1 q.2.1 q.2.2.1 q.2.2.2) = _
      rw [PT.run]
      simp only [PT.step, hmeas, e1]
    · rw [List.filterMap_cons_none (f := id) (a := (none : Option Bool)) rfl, hids]
    · simpa [hK] using e2
  | none =>
    cases ds with
    | nil => exact absurd rfl (hne hfirst)
    | cons q ds =>
      obtain ⟨part, pa, hc, hp, hI0, -⟩ := hstart q.2.2.1
      have he : s0.ensureInit F q.2.2.1 = ({ s0 with ind1 := 1, traj := [⟨pa, List.range N⟩] }, .ok ()) := by
        unfold PT.ensureInit
        rw [htr]
        simp only [List.length_nil, if_true, hsN, hc, hp]
        rfl
      have hrepI := (hrep0.ensureInit he).1 rfl
      obtain ⟨s', bs, e1, e2⟩ := forwards_track hstep (q :: ds) (k := 0) (fl := []) hrepI rfl (hI0 hfirst)
        (fun i q hq => by simpa using hds i q hq) (by omega)
      refine ⟨s', bs.map some, bs, ?_, hids bs, by simpa [hK] using e2⟩
      show s0.run F ((q :: ds).map fun q => Op.forward q.1 q.2.1 q.2.2.1 q.2.2.2) = _
      rw [← e1, List.map_cons, PT.run, PT.run]
      simp only [PT.step, forward_ensureInit he (by simp)]

end PyPE

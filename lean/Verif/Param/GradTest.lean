import Verif.Param.Gradient

/-!
# `paramest/gradienttest.py`: tabulating the EM terms and their gradients along one parameter
-/

namespace PyPE
open Spec

variable {p : ℕ} {W : Type}

/-- The operations `GradientTest.test` uses on the rest of the world `W`: `self.simulate` (with its default filter and smoother),
`self.model.set_params`, and the evaluations of the model on `self.straj`. Gradients have one entry per parameter. The evaluations do not
change the world. -/
structure GtHooks (p : ℕ) (W : Type) where
  simulate : ℕ → ℕ → W → PyM W
  setModel : (Fin p → ℝ) → W → PyM W
  logpY : W → PyM ℝ
  logpXnext : W → PyM ℝ
  logpX0 : W → PyM (List ℝ)
  gradY : W → PyM (ℝ × (Fin p → ℝ))
  gradXnext : W → PyM (ℝ × (Fin p → ℝ))
  gradX0 : W → PyM (List ℝ × (Fin p → ℝ))

/-- `GradPlot` (gradienttest.py:10-14): the parameter values, the tabulated values and, if there are gradients, one component of them. -/
structure GradPlot where
  params : List ℝ
  vals : List ℝ
  diff : Option (List ℝ)

/-- The `GradientTest` object: `self.params` (`None` until `set_params`, simulator.py:30), the three plots (absent until a test has
completed a step) and the rest. -/
structure GtState (p : ℕ) (W : Type) where
  params : Option (Fin p → ℝ)
  plots : Option (GradPlot × GradPlot × GradPlot)
  world : W

/-- One row of the tables. -/
structure GtRow (p : ℕ) where
  y : ℝ
  xn : ℝ
  x0 : ℝ
  gy : Fin p → ℝ
  gxn : Fin p → ℝ
  gx0 : Fin p → ℝ

/-- `tmp = numpy.copy(self.params); tmp[param_id] = val` (gradienttest.py:43-44), for a non-negative `param_id`. A copy of `None` is a
0-dimensional array: `IndexError`. -/
def gtParams (params : Option (Fin p → ℝ)) (id : ℕ) (val : ℝ) : PyM (Fin p → ℝ) :=
  match params with
  | none => .error .indexError
  | some θ => if h : id < p then .ok (Function.update θ ⟨id, h⟩ val) else .error .indexError

/-- The gradients of one step (gradienttest.py:56-69). `numpy.mean(tmp2)` is a scalar: assigning it to a row of `grad_logpx0` fills the whole row. -/
noncomputable def gtGrads (H : GtHooks p W) (w : W) : PyM ((Fin p → ℝ) × (Fin p → ℝ) × (Fin p → ℝ)) := do
  let gy ← H.gradY w
  let gxn ← H.gradXnext w
  let tmp ← H.gradX0 w
  return (gy.2, gxn.2, fun _ => npMean (List.ofFn tmp.2))

/-- The gradients of one step if they were asked for, zeros otherwise. -/
noncomputable def gtMaybeGrads (H : GtHooks p W) (analytic : Bool) (w : W) : PyM ((Fin p → ℝ) × (Fin p → ℝ) × (Fin p → ℝ)) :=
  if analytic then gtGrads H w else .ok (0, 0, 0)

/-- One iteration of the loop (gradienttest.py:42-69). -/
noncomputable def gtStep (H : GtHooks p W) (id : ℕ) (analytic : Bool) (s : GtState p W) (val : ℝ) : PyM (GtRow p × GtState p W) := do
  let tmp ← gtParams s.params id val
  let w ← H.setModel tmp s.world
  let y ← H.logpY w
  let xn ← H.logpXnext w
  let x0 ← H.logpX0 w
  let g ← gtMaybeGrads H analytic w
  return (⟨y, xn, npMean x0, g.1, g.2.1, g.2.2⟩, { s with params := some tmp, world := w })

/-- The whole loop: the rows and the state after the last step. -/
noncomputable def gtLoop (H : GtHooks p W) (id : ℕ) (analytic : Bool) : List ℝ → GtState p W → PyM (List (GtRow p) × GtState p W)
  | [], s => .ok ([], s)
  | v :: vs, s => do
    let r ← gtStep H id analytic s v
    let rs ← gtLoop H id analytic vs r.2
    return (r.1 :: rs.1, rs.2)

/-- Column `param_id` of a table of gradients. -/
def gtColumn (id : ℕ) (g : GtRow p → Fin p → ℝ) (rows : List (GtRow p)) : List ℝ :=
  rows.map fun r => if h : id < p then g r ⟨id, h⟩ else 0

/-- The three plots (gradienttest.py:70-76); they refer to the tables, so the ones of the last iteration show all rows. -/
def gtPlots (id : ℕ) (analytic : Bool) (vals : List ℝ) (rows : List (GtRow p)) : GradPlot × GradPlot × GradPlot :=
  let diff := fun g => if analytic then some (gtColumn id g rows) else none
  (⟨vals, rows.map (·.y), diff GtRow.gy⟩, ⟨vals, rows.map (·.xn), diff GtRow.gxn⟩, ⟨vals, rows.map (·.x0), diff GtRow.gx0⟩)

/-- `len(self.params)` (gradienttest.py:39-41), only with `analytic_grad`. -/
def gtLen (analytic : Bool) (params : Option (Fin p → ℝ)) : PyM Unit :=
  if analytic && params.isNone then .error .typeError else .ok ()

/-- `GradientTest.test(param_id, param_vals, num, nums, analytic_grad)` (gradienttest.py:32-77). -/
noncomputable def gtTest (H : GtHooks p W) (id : ℕ) (vals : List ℝ) (num nums : ℕ) (analytic : Bool) (s : GtState p W) : PyM (GtState p W) := do
  let w ← H.simulate num nums s.world
  gtLen analytic s.params
  let r ← gtLoop H id analytic vals { s with world := w }
  return { r.2 with plots := if vals = [] then s.plots else some (gtPlots id analytic vals r.1) }

/-! ### Specification and claims -/

/-- The model behind the hooks: after the run `simulate` and `set_params(θ)` - however often the parameters were set before - the terms and
gradients are functions of `θ` alone. -/
structure Spec.GtModel (H : GtHooks p W) (num nums : ℕ) (w0 : W) (vy vx v0 : (Fin p → ℝ) → ℝ) (gy gx g0 : (Fin p → ℝ) → Fin p → ℝ) : Prop where
  run : ∃ (w : W) (at' : (Fin p → ℝ) → W), H.simulate num nums w0 = .ok w ∧ (∀ θ, H.setModel θ w = .ok (at' θ)) ∧
    (∀ θ θ', H.setModel θ' (at' θ) = .ok (at' θ')) ∧
    ∀ θ, H.logpY (at' θ) = .ok (vy θ) ∧ H.logpXnext (at' θ) = .ok (vx θ) ∧ (∃ l, H.logpX0 (at' θ) = .ok l ∧ l ≠ [] ∧ v0 θ = l.sum / l.length) ∧
      (∃ v, H.gradY (at' θ) = .ok (v, gy θ)) ∧ (∃ v, H.gradXnext (at' θ) = .ok (v, gx θ)) ∧ ∃ v, H.gradX0 (at' θ) = .ok (v, g0 θ)

theorem gtLoop_rows {H : GtHooks p W} {vy vx v0 : (Fin p → ℝ) → ℝ} {gy gx g0 : (Fin p → ℝ) → Fin p → ℝ} {at' : (Fin p → ℝ) → W}
    (hset : ∀ θ θ', H.setModel θ' (at' θ) = .ok (at' θ'))
    (hev : ∀ θ, H.logpY (at' θ) = .ok (vy θ) ∧ H.logpXnext (at' θ) = .ok (vx θ) ∧ (∃ l, H.logpX0 (at' θ) = .ok l ∧ l ≠ [] ∧ v0 θ = l.sum / l.length) ∧
      (∃ v, H.gradY (at' θ) = .ok (v, gy θ)) ∧ (∃ v, H.gradXnext (at' θ) = .ok (v, gx θ)) ∧ ∃ v, H.gradX0 (at' θ) = .ok (v, g0 θ))
    (analytic : Bool) (k : Fin p) :
    ∀ (vals : List ℝ) (s : GtState p W) (θ : Fin p → ℝ) (_ : s.params = some θ) (_ : ∀ θ, H.setModel θ s.world = .ok (at' θ)),
      ∃ s', gtLoop H k analytic vals s = .ok (vals.map fun v => let θ' := Function.update θ k v
          ⟨vy θ', vx θ', v0 θ', if analytic then gy θ' else 0, if analytic then gx θ' else 0,
            if analytic then fun _ => (∑ l, g0 θ' l) / p else 0⟩, s') ∧
        s'.params = some (match vals.getLast? with | none => θ | some v => Function.update θ k v) ∧ s'.plots = s.plots := by
  intro vals
  induction vals with
  | nil => exact fun s θ hs _ => ⟨s, rfl, hs, rfl⟩
  | cons v vs ih =>
    intro s θ hs hw
    obtain ⟨hy, hx, ⟨l, hl, hl0, hl1⟩, ⟨a, ha⟩, ⟨b, hb⟩, c, hc⟩ := hev (Function.update θ k v)
    obtain ⟨s', h1, h2, h3⟩ := ih { s with params := some (Function.update θ k v), world := at' (Function.update θ k v) } _ rfl (hset _)
    have hg : gtMaybeGrads H analytic (at' (Function.update θ k v)) = .ok (if analytic then gy (Function.update θ k v) else 0,
        if analytic then gx (Function.update θ k v) else 0,
        if analytic then fun _ => (∑ l, g0 (Function.update θ k v) l) / p else 0) := by
      cases analytic
      · rfl
      · simp [gtMaybeGrads, gtGrads, ha, hb, hc, ok_bind, npMean, pure_eq_ok, List.sum_ofFn]
    have hstep : gtStep H k analytic s v = .ok (⟨vy (Function.update θ k v), vx (Function.update θ k v), v0 (Function.update θ k v),
        if analytic then gy (Function.update θ k v) else 0, if analytic then gx (Function.update θ k v) else 0,
        if analytic then fun _ => (∑ l, g0 (Function.update θ k v) l) / p else 0⟩,
        { s with params := some (Function.update θ k v), world := at' (Function.update θ k v) }) := by
      simp only [gtStep, gtParams, hs, k.2, dif_pos, Fin.eta, ok_bind, hw, hy, hx, hl, hg, pure_eq_ok, npMean, hl1]
    refine ⟨s', ?_, ?_, h3⟩
    · rw [gtLoop, hstep, ok_bind, h1, ok_bind]
      simp only [Function.update_idem, List.map_cons, pure_eq_ok]
    · rw [h2]
      cases vs with
      | nil => rfl
      | cons a vs =>
        rw [List.getLast?_cons_cons]
        cases hgl : (a :: vs).getLast? with
        | none => simp at hgl
        | some x => simp only [Function.update_idem]

/-- C91: the test smooths once, with the parameters the object had, and tabulates every term at exactly the parameter vector in which
component `k` is replaced by the tested value - values tested before leave no trace. The slopes are component `k` of the analytic
gradients of the measurement and transition terms, but the mean over all components of the gradient of the initial term. The object is
left with the last tested value. -/
theorem C91_tables {H : GtHooks p W} {num nums : ℕ} {s : GtState p W} {vy vx v0 : (Fin p → ℝ) → ℝ} {gy gx g0 : (Fin p → ℝ) → Fin p → ℝ}
    (hM : Spec.GtModel H num nums s.world vy vx v0 gy gx g0) {θ : Fin p → ℝ} (hs : s.params = some θ) (k : Fin p) (vals : List ℝ) (analytic : Bool) :
    ∃ s', gtTest H k vals num nums analytic s = .ok s' ∧
      s'.params = some (match vals.getLast? with | none => θ | some v => Function.update θ k v) ∧
      (vals = [] → s'.plots = s.plots) ∧
      (vals ≠ [] → s'.plots = some
        (⟨vals, vals.map fun v => vy (Function.update θ k v), if analytic then some (vals.map fun v => gy (Function.update θ k v) k) else none⟩,
          ⟨vals, vals.map fun v => vx (Function.update θ k v), if analytic then some (vals.map fun v => gx (Function.update θ k v) k) else none⟩,
          ⟨vals, vals.map fun v => v0 (Function.update θ k v),
            if analytic then some (vals.map fun v => (∑ l, g0 (Function.update θ k v) l) / p) else none⟩)) := by
  obtain ⟨w, at', hw, hset, hset', hev⟩ := hM.run
  obtain ⟨s', h1, h2, h3⟩ := gtLoop_rows hset' hev analytic k vals { s with world := w } θ hs hset
  generalize hrows : (vals.map fun v => _ : List (GtRow p)) = rows at h1
  have hr : gtTest H k vals num nums analytic s =
      .ok { s' with plots := if vals = [] then s.plots else some (gtPlots k analytic vals rows) } := by
    rw [gtTest, hw, ok_bind, show gtLen analytic s.params = .ok () from by simp [gtLen, hs], ok_bind, h1, ok_bind]
    rfl
  refine ⟨_, hr, h2, fun hv => if_pos hv, fun hv => (if_neg hv).trans ?_⟩
  subst hrows
  simp only [gtPlots, gtColumn, List.map_map]
  cases analytic <;> simp [Function.comp_def]

/-- C91: where the analytic gradients are right, the plotted slopes of the measurement and transition terms are the derivatives of the
plotted curves; the slope of the initial term is right exactly when the tested component of its gradient equals the mean over all
components - always when there is one parameter. (Defect: with several parameters the comparison of the initial term is wrong in general.) -/
theorem C91_slopes {vy v0 : (Fin p → ℝ) → ℝ} {gy g0 : (Fin p → ℝ) → Fin p → ℝ} (hy : ∀ θ, IsGradAt vy (gy θ) θ)
    (h0 : ∀ θ, IsGradAt v0 (g0 θ) θ) (θ : Fin p → ℝ) (k : Fin p) (v : ℝ) :
    HasDerivAt (fun t => vy (Function.update θ k t)) (gy (Function.update θ k v) k) v ∧
    (HasDerivAt (fun t => v0 (Function.update θ k t)) ((∑ l, g0 (Function.update θ k v) l) / p) v ↔
      g0 (Function.update θ k v) k = (∑ l, g0 (Function.update θ k v) l) / p) ∧
    (p = 1 → HasDerivAt (fun t => v0 (Function.update θ k t)) ((∑ l, g0 (Function.update θ k v) l) / p) v) := by
  have h : ∀ {f : (Fin p → ℝ) → ℝ} {g : (Fin p → ℝ) → Fin p → ℝ}, (∀ θ, IsGradAt f (g θ) θ) →
      HasDerivAt (fun t => f (Function.update θ k t)) (g (Function.update θ k v) k) v := by
    intro f g hf
    have := hf (Function.update θ k v) k
    simpa only [Function.update_idem, Function.update_self] using this
  refine ⟨h hy, ⟨fun h' => (h h0).unique h', fun h' => h' ▸ h h0⟩, ?_⟩
  rintro rfl
  have : (∑ l, g0 (Function.update θ k v) l) / ((1 : ℕ) : ℝ) = g0 (Function.update θ k v) k := by
    rw [Fin.sum_univ_one, Subsingleton.elim k 0]; simp
  rw [this]; exact h h0

/-- C91: a test before any `set_params`, or of a parameter that does not exist, raises after the simulation. -/
theorem C91_errors {H : GtHooks p W} {num nums id : ℕ} {s : GtState p W} {w : W} (hw : H.simulate num nums s.world = .ok w)
    (v : ℝ) (vs : List ℝ) :
    (s.params = none → gtTest H id (v :: vs) num nums true s = .error .typeError ∧
      gtTest H id (v :: vs) num nums false s = .error .indexError) ∧
    (s.params.isSome → p ≤ id → ∀ analytic, gtTest H id (v :: vs) num nums analytic s = .error .indexError) := by
  refine ⟨fun hn => ⟨?_, ?_⟩, fun hn hid analytic => ?_⟩
  · rw [gtTest, hw, ok_bind, hn]; rfl
  · rw [gtTest, hw, ok_bind, hn, show gtLen false (none : Option (Fin p → ℝ)) = .ok () from rfl, ok_bind, gtLoop, gtStep]
    rfl
  · obtain ⟨θ, hθ⟩ := Option.isSome_iff_exists.mp hn
    rw [gtTest, hw, ok_bind, hθ, show gtLen analytic (some θ) = .ok () from by simp [gtLen], ok_bind, gtLoop, gtStep, gtParams, dif_neg (by omega)]
    rfl

/-! ### A concrete case -/

/-- A world that only holds the parameters in force: `log p(y) = -(θ₀² + θ₁²)`, `log p(x⁺|x) = θ₀ θ₁`, `log p(x₀) = 3 θ₀`. -/
noncomputable def gtToy : GtHooks 2 (Fin 2 → ℝ) where
  simulate _ _ w := .ok w
  setModel θ _ := .ok θ
  logpY θ := .ok (-(θ 0 ^ 2 + θ 1 ^ 2))
  logpXnext θ := .ok (θ 0 * θ 1)
  logpX0 θ := .ok [2 * θ 0, 4 * θ 0]
  gradY θ := .ok (0, ![-(2 * θ 0), -(2 * θ 1)])
  gradXnext θ := .ok (0, ![θ 1, θ 0])
  gradX0 θ := .ok ([], ![3, 0])

theorem gtToy_model (w : Fin 2 → ℝ) : Spec.GtModel gtToy 10 5 w (fun θ => -(θ 0 ^ 2 + θ 1 ^ 2)) (fun θ => θ 0 * θ 1) (fun θ => 3 * θ 0)
    (fun θ => ![-(2 * θ 0), -(2 * θ 1)]) (fun θ => ![θ 1, θ 0]) (fun _ => ![3, 0]) :=
  ⟨w, fun θ => θ, rfl, fun _ => rfl, fun _ _ => rfl, fun θ => ⟨rfl, rfl, ⟨_, rfl, by simp, by simp; ring⟩, ⟨_, rfl⟩, ⟨_, rfl⟩, ⟨_, rfl⟩⟩⟩

/-- Testing the second parameter at 1 and 5, starting from `(7, 8)`: the slope plotted for the initial term is 3/2, its derivative is 0. -/
example : ∃ s', gtTest gtToy 1 [1, 5] 10 5 true ⟨some ![7, 8], none, 0⟩ = .ok s' ∧ s'.params = some (Function.update ![7, 8] 1 5) ∧
    ∃ a b, s'.plots = some (a, b, ⟨[1, 5], [21, 21], some [3/2, 3/2]⟩) ∧ a.vals = [-50, -74] ∧ b.diff = some [7, 7] := by
  obtain ⟨s', h1, h2, -, h3⟩ := C91_tables (s := ⟨some ![7, 8], none, 0⟩) (gtToy_model 0) rfl 1 [1, 5] true
  refine ⟨s', h1, h2, ⟨[1, 5], [-50, -74], some [-2, -10]⟩, ⟨[1, 5], [7, 35], some [7, 7]⟩, (h3 (by simp)).trans ?_, rfl, rfl⟩
  norm_num [Function.update, Fin.sum_univ_two]

end PyPE

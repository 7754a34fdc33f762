import Verif.Param.Model

/-!
# The recorded calls of the EM drivers are the calls the model and the callbacks receive

The drivers of `Param/Model.lean` return a record of the calls they make. Here the simulator, the model and the callbacks keep a log of their
own: every one appends what it was called with. The log at the end is the record.
-/

namespace PyPE
variable {W Θ X C : Type}

/-- A call which keeps a log: runs `f` and appends `c` of the result. -/
def Spec.logged {L α : Type} (f : W → PyM (α × W)) (c : α → L) (w : W × List L) : PyM (α × W × List L) :=
  (f w.1).map fun r => (r.1, r.2, w.2 ++ [c r.1])

/-- The same for an operation without a result. -/
def Spec.logged' {L : Type} (f : W → PyM W) (c : L) (w : W × List L) : PyM (W × List L) := (f w.1).map fun r => (r, w.2 ++ [c])

/-- A simulator, a model and callbacks which log their calls. -/
def EmHooks.logging (H : EmHooks W Θ) : EmHooks (W × List (EmCall Θ)) Θ where
  setParams θ := Spec.logged' (H.setParams θ) (.setParams θ)
  simulate n m := Spec.logged' (H.simulate n m) (.simulate n m)
  maximize := Spec.logged H.maximize .maximize
  callbackSim := H.callbackSim.map fun f => Spec.logged' f .callbackSim
  callback := H.callback.map fun f θ i => Spec.logged' (f θ i) (.callback θ i)

/-- The same for SAEM. -/
def SaHooks.logging (H : SaHooks W Θ X) : SaHooks (W × List (SaCall Θ X Unit)) Θ X where
  setParams θ := Spec.logged' (H.setParams θ) (.setParams θ)
  simulate n m := Spec.logged' (H.simulate n m) (.simulate n m none)
  traj w := H.traj w.1
  maximizeWeighted x l := Spec.logged (H.maximizeWeighted x l) (.maximizeWeighted x l)
  callbackSim := H.callbackSim.map fun f => Spec.logged' f .callbackSim
  callback := H.callback.map fun f θ i => Spec.logged' (f θ i) (.callback θ i)

/-- The same for PSAEM. -/
def PsHooks.logging (H : PsHooks W Θ X C) : PsHooks (W × List (SaCall Θ X C)) Θ X C where
  setParams θ := Spec.logged' (H.setParams θ) (.setParams θ)
  simulate n m o := Spec.logged' (H.simulate n m o) (.simulate n m o.cond)
  smoothed w := H.smoothed w.1
  finalWeights w := H.finalWeights w.1
  straj w := H.straj w.1
  maximizeWeighted x l := Spec.logged (H.maximizeWeighted x l) (.maximizeWeighted x l)
  callbackSim := H.callbackSim.map fun f => Spec.logged' f .callbackSim

/-- The calls received by the simulator, the model and the callbacks (as opposed to what the driver does itself). -/
def SaCall.external : SaCall Θ X C → Bool
  | .newTrajs _ _ => false
  | .setCond _ => false
  | _ => true

theorem external_callback (θ : Θ) (i : ℕ) : (SaCall.callback θ i : SaCall Θ X C).external = true := rfl

theorem Traced.call_fail {L α β : Type} (e : PyErr) (c : α → List L) (k : α → Traced L β) :
    Traced.call (.error e) c k = ([], .error e) := rfl

theorem Traced.call_run {L α β : Type} (a : α) (c : α → List L) (k : α → Traced L β) :
    Traced.call (.ok a) c k = (c a ++ (k a).1, (k a).2) := rfl

/-- How a logging run relates to a plain one: same record, and the selected part of the record is appended to the log. -/
def Spec.withLog {L α β : Type} (F : α → List L → β) (p : L → Bool) (l : List L) (r : Traced L α) : Traced L β :=
  (r.1, r.2.map fun a => F a (l ++ r.1.filter p))

section
variable {L α β γ : Type} {F : α → List L → β} {p : L → Bool}

theorem call_pure {x : PyM γ} {cs : γ → List L} (hc : ∀ a, (cs a).filter p = []) {k : γ → Traced L α} {k' : γ → Traced L β} {l : List L}
    (hk : ∀ a, k' a = Spec.withLog F p l (k a)) : Traced.call x cs k' = Spec.withLog F p l (Traced.call x cs k) := by
  cases x with
  | error e => rfl
  | ok a => simp [Traced.call_run, Spec.withLog, hk, hc]

theorem call_logged' {f : W → PyM W} {c : L} (hc : p c = true) {k : W → Traced L α} {k' : W × List L → Traced L β} {w : W} {l : List L}
    (hk : ∀ w l, k' (w, l) = Spec.withLog F p l (k w)) :
    Traced.call (Spec.logged' f c (w, l)) (fun _ => [c]) k' = Spec.withLog F p l (Traced.call (f w) (fun _ => [c]) k) := by
  unfold Spec.logged'
  cases hf : f w with
  | error e => simp [hf, Except.map, Traced.call_fail, Spec.withLog]
  | ok a => simp [hf, Except.map, Traced.call_run, Spec.withLog, hk, hc]

theorem call_logged {f : W → PyM (γ × W)} {c : γ → L} (hc : ∀ a, p (c a) = true) {k : γ × W → Traced L α} {k' : γ × W × List L → Traced L β}
    {w : W} {l : List L} (hk : ∀ a w l, k' (a, w, l) = Spec.withLog F p l (k (a, w))) :
    Traced.call (Spec.logged f c (w, l)) (fun r => [c r.1]) k' = Spec.withLog F p l (Traced.call (f w) (fun r => [c r.1]) k) := by
  unfold Spec.logged
  cases hf : f w with
  | error e => simp [hf, Except.map, Traced.call_fail, Spec.withLog]
  | ok a => simp [hf, Except.map, Traced.call_run, Spec.withLog, hk, hc]

theorem call_optLogged {A : Type} {g : Option A} {f : A → W → PyM W} {g' : Option A} {f' : A → W × List L → PyM (W × List L)} {c : L}
    (hc : p c = true) (hg : g' = g) (hf : ∀ a, f' a = Spec.logged' (f a) c)
    {k : W → Traced L α} {k' : W × List L → Traced L β} {w : W} {l : List L} (hk : ∀ w l, k' (w, l) = Spec.withLog F p l (k w)) :
    Traced.call (optCall (g'.map f') (w, l)) (fun _ => optRecord g' c) k' =
      Spec.withLog F p l (Traced.call (optCall (g.map f) w) (fun _ => optRecord g c) k) := by
  subst hg
  cases g' with
  | none => simp [optCall, optRecord, Traced.call_run, Spec.withLog, hk]
  | some a =>
    simp only [optCall, optRecord, Option.map_some, hf]
    exact call_logged' hc hk

theorem withLog_ok (a : α) (l : List L) (b : β) (h : F a l = b) : (([], .ok b) : Traced L β) = Spec.withLog F p l ([], .ok a) := by
  subst h; simp [Spec.withLog, Except.map]
end

theorem optRecord_map {A B L : Type} (g : Option A) (f : A → B) (c : L) : optRecord (g.map f) c = optRecord g c := by cases g <;> rfl

theorem emIter_logging (H : EmHooks W Θ) (np nt : Sched) (i : ℕ) (θ : Θ) (w : W) (l : List (EmCall Θ)) :
    emIter H.logging np nt i θ (w, l) = Spec.withLog (fun r l => (r.1, r.2, l)) (fun _ => true) l (emIter H np nt i θ w) := by
  unfold emIter
  refine call_logged' rfl fun w l => call_pure (fun _ => rfl) fun n => call_pure (fun _ => rfl) fun m => call_logged' rfl fun w l => ?_
  simp only [EmHooks.logging, optRecord_map, Option.map_map]
  have hid : H.callbackSim = H.callbackSim.map id := by simp
  conv_rhs => rw [hid]
  rw [optRecord_map]
  refine call_optLogged rfl rfl (fun _ => rfl) fun w l => call_logged (fun _ => rfl) fun θ' w l => ?_
  exact call_optLogged rfl rfl (fun _ => rfl) fun w l => withLog_ok _ _ _ rfl

theorem emLoop_logging (H : EmHooks W Θ) (np nt : Sched) (is : List ℕ) (θ : Θ) (w : W) (l : List (EmCall Θ)) :
    emLoop H.logging np nt is θ (w, l) = Spec.withLog (fun r l => (r.1, r.2, l)) (fun _ => true) l (emLoop H np nt is θ w) := by
  induction is generalizing θ w l with
  | nil => simp [emLoop, Spec.withLog, Except.map]
  | cons i is ih =>
    rw [emLoop, emLoop, emIter_logging]
    rcases h : emIter H np nt i θ w with ⟨tr, e | ⟨θ', w'⟩⟩
    · simp [Spec.withLog, Except.map]
    · simp [Spec.withLog, Except.map, ih]

/-- **C53** The record of the calls is faithful: a simulator, model and callbacks that log every call they receive, with its arguments, end up
with exactly the recorded calls in their log (and otherwise nothing changes). -/
theorem C53_calls_received (v : PyVersion) (H : EmHooks W Θ) (param0 : Θ) (np nt : Sched) (max_iter : ℕ) (w : W) :
    emMaximize v H.logging param0 np nt max_iter (w, []) =
      ((emMaximize v H param0 np nt max_iter w).1,
        (emMaximize v H param0 np nt max_iter w).2.map fun r => (r.1, r.2, (emMaximize v H param0 np nt max_iter w).1)) := by
  unfold emMaximize
  cases v with
  | py3 => rfl
  | py2 =>
    simp only [xrange, Traced.call_run, emLoop_logging]
    rcases h : emLoop H np nt (List.range max_iter) param0 w with ⟨tr, e | ⟨θ', w'⟩⟩ <;> simp [Spec.withLog, Except.map]

theorem saIter_logging (H : SaHooks W Θ X) (alpha : ℕ → ℝ) (np nt : Sched) (i : ℕ) (acc : Option (List ℝ × List X)) (θ : Θ) (w : W)
    (l : List (SaCall Θ X Unit)) :
    saIter H.logging alpha np nt i acc θ (w, l) =
      Spec.withLog (fun r l => (r.1, r.2.1, r.2.2, l)) SaCall.external l (saIter H alpha np nt i acc θ w) := by
  unfold saIter
  refine call_logged' rfl fun w l => call_pure (fun _ => rfl) fun n => call_pure (fun _ => rfl) fun m => call_logged' rfl fun w l =>
    call_pure (fun _ => rfl) fun x => ?_
  simp only [SaHooks.logging, optRecord_map, Option.map_map]
  have hid : H.callbackSim = H.callbackSim.map id := by simp
  conv_rhs => rw [hid]
  rw [optRecord_map]
  refine call_optLogged rfl rfl (fun _ => rfl) fun w l => call_pure (fun _ => rfl) fun _ => call_pure (fun _ => rfl) fun _ =>
    call_pure (fun _ => rfl) fun _ => call_logged (fun _ => rfl) fun θ' w l => ?_
  exact call_optLogged rfl rfl (fun _ => rfl) fun w l => withLog_ok _ _ _ rfl

theorem saLoop_logging (H : SaHooks W Θ X) (alpha : ℕ → ℝ) (np nt : Sched) (is : List ℕ) (acc : Option (List ℝ × List X)) (θ : Θ) (w : W)
    (l : List (SaCall Θ X Unit)) :
    saLoop H.logging alpha np nt is acc θ (w, l) =
      Spec.withLog (fun r l => (r.1, r.2, l)) SaCall.external l (saLoop H alpha np nt is acc θ w) := by
  induction is generalizing acc θ w l with
  | nil => simp [saLoop, Spec.withLog, Except.map]
  | cons i is ih =>
    rw [saLoop, saLoop, saIter_logging]
    rcases h : saIter H alpha np nt i acc θ w with ⟨tr, e | ⟨acc', θ', w'⟩⟩
    · simp [Spec.withLog, Except.map]
    · simp [Spec.withLog, Except.map, ih]

/-- **C55** The same for SAEM. -/
theorem C55_calls_received (v : PyVersion) (H : SaHooks W Θ X) (alpha : ℕ → ℝ) (param0 : Θ) (np nt : Sched) (max_iter : ℕ) (w : W) :
    saMaximize v H.logging alpha param0 np nt max_iter (w, []) =
      ((saMaximize v H alpha param0 np nt max_iter w).1, (saMaximize v H alpha param0 np nt max_iter w).2.map fun r =>
        (r.1, r.2, (saMaximize v H alpha param0 np nt max_iter w).1.filter SaCall.external)) := by
  unfold saMaximize
  cases v with
  | py3 => rfl
  | py2 =>
    simp only [xrange, Traced.call_run, saLoop_logging]
    rcases h : saLoop H alpha np nt (List.range max_iter) none param0 w with ⟨tr, e | ⟨θ', w'⟩⟩ <;> simp [Spec.withLog, Except.map]

/-- A state with a log. -/
def PsState.log (s : PsState W Θ X C) (l : List (SaCall Θ X C)) : PsState (W × List (SaCall Θ X C)) Θ X C :=
  { θ := s.θ, acc := s.acc, opts := s.opts, w := (s.w, l) }

theorem psIter_logging (H : PsHooks W Θ X C) (o : PsOpts) (garbage : ℕ → ℕ → X) (i : ℕ) (s : PsState W Θ X C) (l : List (SaCall Θ X C)) :
    psIter H.logging o garbage i (s.log l) = Spec.withLog PsState.log SaCall.external l (psIter H o garbage i s) := by
  unfold psIter
  refine call_logged' rfl fun w l => call_logged' rfl fun w l => ?_
  have hnew : psNew H.logging o.raoblackwell (garbage i) (w, l) = psNew H o.raoblackwell (garbage i) w := rfl
  rw [hnew]
  refine call_pure (fun _ => rfl) fun new => call_pure (fun _ => rfl) fun c => call_pure (fun _ => rfl) fun opts => ?_
  simp only [PsHooks.logging, optRecord_map]
  have hid : H.callbackSim = H.callbackSim.map id := by simp
  conv_rhs => rw [hid]
  rw [optRecord_map]
  exact call_optLogged rfl rfl (fun _ => rfl) fun w l => call_pure (fun _ => rfl) fun acc => call_logged (fun _ => rfl) fun θ' w l =>
    withLog_ok _ _ _ rfl

/-- A callback of PSAEM that logs its calls. -/
def Spec.cbLogging (cb : Θ → ℕ → W → PyM (Bool × W)) : Θ → ℕ → W × List (SaCall Θ X C) → PyM (Bool × W × List (SaCall Θ X C)) :=
  fun θ i => Spec.logged (cb θ i) fun _ => .callback θ i

theorem psLoop_logging (H : PsHooks W Θ X C) (o : PsOpts) (garbage : ℕ → ℕ → X) (cb : Θ → ℕ → W → PyM (Bool × W)) (fuel i : ℕ)
    (s : PsState W Θ X C) (l : List (SaCall Θ X C)) :
    psLoop H.logging o garbage (Spec.cbLogging cb) fuel i (s.log l) =
      ((psLoop H o garbage cb fuel i s).1, (psLoop H o garbage cb fuel i s).2.map fun r => r.map fun s' =>
        s'.log (l ++ (psLoop H o garbage cb fuel i s).1.filter SaCall.external)) := by
  induction fuel generalizing i s l with
  | zero => simp [psLoop]
  | succ n ih =>
    rw [psLoop, psLoop, psIter_logging]
    rcases h : psIter H o garbage (i + 1) s with ⟨tr, e | s'⟩
    · simp [Spec.withLog, Except.map]
    · simp only [Spec.withLog, Except.map, Spec.cbLogging, Spec.logged, PsState.log]
      rcases h' : cb s'.θ (i + 1) s'.w with e | ⟨b, w'⟩
      · simp [Except.map]
      · cases b with
        | true => simp [Except.map, List.filter_cons, external_callback]
        | false =>
          have := ih (i + 1) { s' with w := w' } (l ++ tr.filter SaCall.external ++ [.callback s'.θ (i + 1)])
          simp only [PsState.log, Spec.cbLogging, Spec.logged] at this
          simp only
          rw [this]
          simp only [List.filter_append, List.filter_cons, external_callback, List.filter_nil, if_true, List.append_assoc, PsState.log]
          rfl

/-- **C56** The same for PSAEM (with a callback; the default callback only counts). -/
theorem C56_calls_received (H : PsHooks W Θ X C) (o : PsOpts) (garbage : ℕ → ℕ → X) (cb : Θ → ℕ → W → PyM (Bool × W)) (max_iter : ℕ)
    (param0 : Θ) (opts : FilterOpts C) (w : W) (fuel : ℕ) :
    psMaximize H.logging o garbage (some (Spec.cbLogging cb)) max_iter param0 opts (w, []) fuel =
      ((psMaximize H o garbage (some cb) max_iter param0 opts w fuel).1,
        (psMaximize H o garbage (some cb) max_iter param0 opts w fuel).2.map fun r => r.map fun s' =>
          s'.log ((psMaximize H o garbage (some cb) max_iter param0 opts w fuel).1.filter SaCall.external)) := by
  have := psLoop_logging H o garbage cb fuel 0 { θ := param0, acc := none, opts := opts, w := w } []
  simpa [psMaximize, PsState.log] using this

/-- A state with a log. -/
def Ps2State.log (s : Ps2State W Θ X C) (l : List (SaCall Θ X C)) : Ps2State (W × List (SaCall Θ X C)) Θ X C :=
  { θ := s.θ, buf := s.buf, trajs := s.trajs, datalen := s.datalen, opts := s.opts, w := (s.w, l) }

theorem ps2Iter_logging (H : PsHooks W Θ X C) (o : PsOpts) (callback : Option (Θ → ℕ → W → PyM W)) (i : ℕ) (s : Ps2State W Θ X C)
    (l : List (SaCall Θ X C)) :
    ps2Iter H.logging o (callback.map fun f θ i => Spec.logged' (f θ i) (.callback θ i)) i (s.log l) =
      Spec.withLog Ps2State.log SaCall.external l (ps2Iter H o callback i s) := by
  unfold ps2Iter
  refine call_logged' rfl fun w l => call_logged' rfl fun w l => ?_
  refine call_pure (fun _ => rfl) fun new => call_pure (fun _ => rfl) fun c => call_pure (fun _ => rfl) fun opts => ?_
  simp only [PsHooks.logging, optRecord_map, Option.map_map]
  have hid : H.callbackSim = H.callbackSim.map id := by simp
  conv_rhs => rw [hid]
  rw [optRecord_map]
  refine call_optLogged rfl rfl (fun _ => rfl) fun w l => call_pure (fun _ => rfl) fun acc => call_logged (fun _ => rfl) fun θ' w l => ?_
  exact call_optLogged rfl rfl (fun _ => rfl) fun w l => withLog_ok _ _ _ rfl

theorem ps2Loop_logging (H : PsHooks W Θ X C) (o : PsOpts) (callback : Option (Θ → ℕ → W → PyM W)) (is : List ℕ) (s : Ps2State W Θ X C)
    (l : List (SaCall Θ X C)) :
    ps2Loop H.logging o (callback.map fun f θ i => Spec.logged' (f θ i) (.callback θ i)) is (s.log l) =
      Spec.withLog Ps2State.log SaCall.external l (ps2Loop H o callback is s) := by
  induction is generalizing s l with
  | nil => simp [ps2Loop, Spec.withLog, Except.map]
  | cons i is ih =>
    rw [ps2Loop, ps2Loop, ps2Iter_logging]
    rcases h : ps2Iter H o callback i s with ⟨tr, e | s'⟩
    · simp [Spec.withLog, Except.map]
    · simp only [Spec.withLog, Except.map, ih]
      simp

/-- **C80** The same for PSAEM2. -/
theorem C80_calls_received (v : PyVersion) (H : PsHooks W Θ X C) (o : PsOpts) (callback : Option (Θ → ℕ → W → PyM W)) (empty : ℕ → ℝ)
    (max_iter : ℕ) (param0 : Θ) (opts : FilterOpts C) (w : W) :
    ps2Maximize v H.logging o (callback.map fun f θ i => Spec.logged' (f θ i) (.callback θ i)) empty max_iter param0 opts (w, []) =
      ((ps2Maximize v H o callback empty max_iter param0 opts w).1,
        (ps2Maximize v H o callback empty max_iter param0 opts w).2.map fun s' =>
          s'.log ((ps2Maximize v H o callback empty max_iter param0 opts w).1.filter SaCall.external)) := by
  unfold ps2Maximize
  cases v with
  | py3 => rfl
  | py2 =>
    simp only [xrange, Traced.call_run]
    have := ps2Loop_logging H o callback (List.range max_iter)
      { θ := param0, buf := (List.range (max_iter * o.num_part)).map empty, trajs := none, datalen := 0, opts := opts, w := w } []
    simp only [Ps2State.log, Spec.withLog] at this
    rw [this]
    simp [Ps2State.log]

end PyPE

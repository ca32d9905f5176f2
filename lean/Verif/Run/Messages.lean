import Verif.Run.Failures

/-!
# Messages during optimisation (C74)

Source: `paramz/optimization/verbose_optimization.py:37-231`, `paramz/model.py:110-116, 225-282`,
`paramz/core/parameter_core.py:99-134`.

The display is modelled as used outside a notebook. What is printed is the numbers shown (evaluation, objective,
gradient), not their layout; run times are C51.
-/

set_option linter.unusedSectionVars false

namespace Paramz.Run.Messages

variable {σ X F G : Type}

/-- A model. `before x`: `m.optimizer_array = x` up to the callbacks of priority 0 of the model itself: the values are
set, everything below the model is updated, observers of higher priority are called. `after`: the rest of the
notification, with `m.parameters_changed()` (priority -100, parameterized.py:118). Both may raise and leave a state
behind. `objective`: `m.objective_function()`; `gradient`: `m._transform_gradients(m.objective_function_gradients())`;
both leave the model alone. That the model's own update comes after the display is `display_before_update`
(`Verif.Notify.Display`). -/
structure Machine (σ X F G : Type) where
  before : X → σ → σ × Option Exc
  after : σ → σ × Option Exc
  objective : σ → Except Exc F
  gradient : σ → Except Exc G

/-- A `VerboseOptimization` (verbose_optimization.py:43-118): `started`: has `__enter__` set `self.start`?
`lines`: what it has printed. -/
structure Vo (F G : Type) where
  id : Nat
  started : Bool
  fnow : Option F
  grad : Option G
  iteration : Nat
  lines : List (Nat × Option F × Option G)
  deriving DecidableEq

/-- The model, `_fail_count`, `obj_grads`, the displays registered as observers of the model with priority 0, in
order, the number of draws made from `np.random` so far, and a number for the next display. -/
structure World (σ F G : Type) where
  m : σ
  fail : Nat
  objGrads : Option G
  vos : List (Vo F G)
  rand : Nat
  next : Nat

/-- `AttributeError`: `self.start` is missing. -/
def attributeError : Exc := .other 0

/-- `print_out` (verbose_optimization.py:120-183): prints one line, and draws a random number (line 172). -/
def Vo.printOut (v : Vo F G) : Vo F G := { v with lines := v.lines ++ [(v.iteration, v.fnow, v.grad)] }

/-- `print_status` (verbose_optimization.py:185-203) on the state `s`: the display, the number of random draws, and
the exception raised. `due`: is it time to print in this evaluation? (line 191, clock) -/
def Vo.status (M : Machine σ X F G) (due : Nat → Bool) (g : Option G) (s : σ) (v : Vo F G) :
    Vo F G × Nat × Option Exc :=
  match M.objective s with
  | .error e => (v, 0, some e)
  | .ok f =>
    let v1 : Vo F G := { v with fnow := some f, grad := g }
    if !v1.started then (v1, 0, some attributeError)
    else if due v1.iteration then
      ({ v1.printOut with iteration := v1.iteration + 1 }, 1, none)
    else ({ v1 with iteration := v1.iteration + 1 }, 0, none)

/-- The displays are called in order; an exception ends the round (observable.py:89-96). -/
def serve (M : Machine σ X F G) (due : Nat → Bool) (g : Option G) (s : σ) :
    List (Vo F G) → List (Vo F G) × Nat × Option Exc
  | [] => ([], 0, none)
  | v :: vs =>
    let r := v.status M due g s
    match r.2.2 with
    | some e => (r.1 :: vs, r.2.1, some e)
    | none =>
      let r' := serve M due g s vs
      (r.1 :: r'.1, r.2.1 + r'.2.1, r'.2.2)

/-- `m.optimizer_array = x` (parameter_core.py:94-134), and the exception it ends with. -/
def set (M : Machine σ X F G) (due : Nat → Bool) (x : X) (w : World σ F G) : World σ F G × Option Exc :=
  let b := M.before x w.m
  match b.2 with
  | some e => ({ w with m := b.1 }, some e)
  | none =>
    let r := serve M due w.objGrads b.1 w.vos
    match r.2.2 with
    | some e => ({ w with m := b.1, vos := r.1, rand := w.rand + r.2.1 }, some e)
    | none =>
      let a := M.after b.1
      ({ w with m := a.1, vos := r.1, rand := w.rand + r.2.1 }, a.2)

/-- What the optimiser asks: `_objective(x)`, `_grads(x)`, `_objective_grads(x)` (model.py:225-282). -/
inductive Query (X : Type)
  | objective (x : X)
  | grads (x : X)
  | both (x : X)

def Query.point : Query X → X
  | .objective x => x
  | .grads x => x
  | .both x => x

/-- The evaluation as seen by the handlers of model.py:225-282, after `optimizer_array = x` gave `w1` and `e`. -/
def Query.call (M : Machine σ X F G) (s : σ) (e : Option Exc) : Query X → Call F G
  | .objective _ => .objective (match e with
    | some e => .error e
    | none => M.objective s)
  | .grads _ => .grads (match e with
    | some e => .error e
    | none => M.gradient s) (M.gradient s)
  | .both _ => .both (match e with
    | some e => .error e
    | none => match M.objective s, M.gradient s with
      | .ok f, .ok g => .ok (f, g)
      | .error e, _ => .error e
      | .ok _, .error e => .error e) (M.gradient s)

/-- `self.obj_grads` after an evaluation (clipping not shown). -/
def gradsAfter (old : Option G) : Res F G → Option G
  | .grads g => some g
  | .both _ g => some g
  | .clipped g => some g
  | .infClipped g => some g
  | _ => old

/-- One evaluation (model.py:225-282): failures are handled as in C45. -/
def evaluate (M : Machine σ X F G) (due : Nat → Bool) (w : World σ F G) (q : Query X) : World σ F G × Res F G :=
  let r := set M due q.point w
  let a := step r.1.fail (q.call M r.1.m r.2)
  ({ r.1 with fail := a.1, objGrads := gradsAfter r.1.objGrads a.2 }, a.2)

/-- An optimiser: it ends with `x_opt`, or with an exception of its own (a keyboard interrupt, say), or asks something
and goes on according to the answer. -/
inductive Prog (X F G : Type)
  | done (x : X)
  | raise (e : Exc)
  | ask (q : Query X) (k : Res F G → Prog X F G)

/-- `opt.run(...)` (model.py:111). Exceptions of the evaluations are not caught by the optimisers. -/
def run (M : Machine σ X F G) (due : Nat → Bool) : Prog X F G → World σ F G → World σ F G × Except Exc X
  | .done x, w => (w, .ok x)
  | .raise e, w => (w, .error e)
  | .ask q k, w =>
    let r := evaluate M due w q
    match r.2 with
    | .raised e => (r.1, .error e)
    | a => run M due (k a) r.1

/-- `self.optimizer_array = opt.x_opt` (model.py:113). -/
def finish (M : Machine σ X F G) (due : Nat → Bool) (w : World σ F G) : Except Exc X → World σ F G × Except Exc X
  | .error e => (w, .error e)
  | .ok x =>
    let r := set M due x w
    match r.2 with
    | some e => (r.1, .error e)
    | none => (r.1, .ok x)

/-- The display that was registered last, gone from the observers: `remove_observer(self)` (verbose_optimization.py:214). -/
def removeVo (i : Nat) (l : List (Vo F G)) : List (Vo F G) := l.filter (fun v => decide (v.id ≠ i))

/-- `m.optimize(messages=...)` from the `with` on (model.py:110-116): the world, the result and what was printed.
The constructor registers the display (verbose_optimization.py:54) and then evaluates the objective (58, 110);
`__enter__` starts the clock; `__exit__` removes the display whether there was an exception or not (209-215), and
prints once more. -/
def optimize (M : Machine σ X F G) (due : Nat → Bool) (messages : Bool) (p : Prog X F G) (w : World σ F G) :
    World σ F G × Except Exc X × List (Nat × Option F × Option G) :=
  if messages then
    match M.objective w.m with
    | .error e => ({ w with vos := w.vos ++ [⟨w.next, false, none, none, 0, []⟩], next := w.next + 1 }, .error e, [])
    | .ok f =>
      let r := run M due p
        { w with vos := w.vos ++ [⟨w.next, true, some f, w.objGrads, 0, []⟩], next := w.next + 1 }
      let out := (r.1.vos.find? (fun v => decide (v.id = w.next))).elim [] (fun v => v.printOut.lines)
      let z := finish M due { r.1 with vos := removeVo w.next r.1.vos, rand := r.1.rand + 1 } r.2
      (z.1, z.2, out)
  else
    let r := run M due p w
    let z := finish M due r.1 r.2
    (z.1, z.2, [])

/-! ### What should be shown -/

/-- What happens in one evaluation (see `rounds`). -/
def round (M : Machine σ X F G) (due : Nat → Bool) (q : Query X) (w : World σ F G) : List (σ × σ × σ × Option G) :=
  match (M.before q.point w.m).2 with
  | some _ => []
  | none => [(w.m, (M.before q.point w.m).1, (evaluate M due w q).1.m, w.objGrads)]

/-- What happens in a run without displays, evaluation by evaluation: the model before it, the model when its own update
is still to come, the model after it, and the last gradient. Evaluations that raise before that are left out. -/
def rounds (M : Machine σ X F G) (due : Nat → Bool) : Prog X F G → World σ F G → List (σ × σ × σ × Option G)
  | .done _, _ => []
  | .raise _, _ => []
  | .ask q k, w =>
    let r := evaluate M due w q
    round M due q w ++ match r.2 with
      | .raised _ => []
      | a => rounds M due (k a) r.1

/-- The parts of the world other than the display and the random numbers. -/
def World.core (w : World σ F G) : σ × Nat × Option G := (w.m, w.fail, w.objGrads)

/-- The objective can be computed also while the update of the model itself is still to come. -/
def Calm (M : Machine σ X F G) : Prop := ∀ x s s1, M.before x s = (s1, none) → ∃ f, M.objective s1 = .ok f

/-! ### Proofs -/

theorem serve_ids (M : Machine σ X F G) (due : Nat → Bool) (g : Option G) (s : σ) :
    ∀ vs : List (Vo F G), (serve M due g s vs).1.map (fun v => (v.id, v.started)) = vs.map (fun v => (v.id, v.started))
  | [] => rfl
  | v :: vs => by
    have h0 : (v.status M due g s).1.id = v.id ∧ (v.status M due g s).1.started = v.started := by
      unfold Vo.status
      cases M.objective s with
      | error e => exact ⟨rfl, rfl⟩
      | ok f => simp only []; split <;> [exact ⟨rfl, rfl⟩; split <;> exact ⟨rfl, rfl⟩]
    simp only [serve]
    cases h : (v.status M due g s).2.2 with
    | some e => simp only [List.map_cons, h0.1, h0.2]
    | none => simp only [List.map_cons, h0.1, h0.2, serve_ids M due g s vs]

theorem set_ids (M : Machine σ X F G) (due : Nat → Bool) (x : X) (w : World σ F G) :
    (set M due x w).1.vos.map (fun v => (v.id, v.started)) = w.vos.map (fun v => (v.id, v.started)) ∧
      (set M due x w).1.next = w.next := by
  have hs := serve_ids M due w.objGrads (M.before x w.m).1 w.vos
  simp only [set]
  split
  · exact ⟨rfl, rfl⟩
  · split
    · exact ⟨hs, rfl⟩
    · exact ⟨hs, rfl⟩

theorem evaluate_ids (M : Machine σ X F G) (due : Nat → Bool) (w : World σ F G) (q : Query X) :
    (evaluate M due w q).1.vos.map (fun v => (v.id, v.started)) = w.vos.map (fun v => (v.id, v.started)) ∧
      (evaluate M due w q).1.next = w.next := set_ids M due q.point w

theorem run_ids (M : Machine σ X F G) (due : Nat → Bool) : ∀ (p : Prog X F G) (w : World σ F G),
    (run M due p w).1.vos.map (fun v => (v.id, v.started)) = w.vos.map (fun v => (v.id, v.started)) ∧
      (run M due p w).1.next = w.next
  | .done _, _ => ⟨rfl, rfl⟩
  | .raise _, _ => ⟨rfl, rfl⟩
  | .ask q k, w => by
    have he := evaluate_ids M due w q
    simp only [run]
    split
    · exact he
    · exact ⟨(run_ids M due _ _).1.trans he.1, (run_ids M due _ _).2.trans he.2⟩

theorem finish_ids (M : Machine σ X F G) (due : Nat → Bool) (w : World σ F G) (r : Except Exc X) :
    (finish M due w r).1.vos.map (fun v => (v.id, v.started)) = w.vos.map (fun v => (v.id, v.started)) ∧
      (finish M due w r).1.next = w.next := by
  cases r with
  | error e => exact ⟨rfl, rfl⟩
  | ok x =>
    simp only [finish]
    split <;> exact set_ids M due x w

theorem filter_map_ids (i : Nat) : ∀ (l l' : List (Vo F G)),
    l.map (fun v => (v.id, v.started)) = l'.map (fun v => (v.id, v.started)) →
    (removeVo i l).map (fun v => (v.id, v.started)) = (removeVo i l').map (fun v => (v.id, v.started)) := by
  intro l l' h
  unfold removeVo
  have : ∀ l : List (Vo F G), (l.filter (fun v => decide (v.id ≠ i))).map (fun v => (v.id, v.started)) =
      (l.map (fun v => (v.id, v.started))).filter (fun a => decide (a.1 ≠ i)) := by
    intro l; rw [List.filter_map]; rfl
  rw [this, this, h]

/-- Displays have numbers below the next one. -/
def World.Ok (w : World σ F G) : Prop := ∀ v ∈ w.vos, v.id < w.next

theorem removeVo_all {i : Nat} {l : List (Vo F G)} (h : ∀ v ∈ l, v.id < i) : removeVo i l = l := by
  unfold removeVo
  exact List.filter_eq_self.mpr fun v hv => decide_eq_true (Nat.ne_of_lt (h v hv))

/-- C74: when `optimize` has got as far as starting the optimiser, then afterwards the model has the displays it had
before — whatever the optimiser did, and whether the run ended normally, with an exception of an evaluation, of the
optimiser or of the final assignment. -/
theorem display_removed (M : Machine σ X F G) (due : Nat → Bool) (messages : Bool) (p : Prog X F G) (w : World σ F G)
    (ok : w.Ok) (h : messages = true → ∃ f, M.objective w.m = .ok f) :
    (optimize M due messages p w).1.vos.map (fun v => (v.id, v.started)) =
      w.vos.map (fun v => (v.id, v.started)) := by
  cases messages with
  | false =>
    simp only [optimize, Bool.false_eq_true, if_false]
    exact (finish_ids M due _ _).1.trans (run_ids M due p w).1
  | true =>
    obtain ⟨f, hf⟩ := h rfl
    simp only [optimize, if_true, hf]
    rw [(finish_ids M due _ _).1]
    rw [filter_map_ids w.next _ _ (run_ids M due p _).1]
    simp only []
    unfold removeVo
    rw [List.filter_append]
    have : List.filter (fun v => decide (v.id ≠ w.next)) [(⟨w.next, true, some f, w.objGrads, 0, []⟩ : Vo F G)] = [] := by
      simp
    rw [this, List.append_nil]
    exact congrArg _ (removeVo_all ok)

/-- The two worlds agree but for displays and random numbers. -/
theorem set_core (M : Machine σ X F G) (due : Nat → Bool) (calm : Calm M) (x : X) {w w' : World σ F G}
    (h : w.core = w'.core) (hs : ∀ v ∈ w.vos, v.started = true) (hs' : ∀ v ∈ w'.vos, v.started = true) :
    (set M due x w).1.core = (set M due x w').1.core ∧ (set M due x w).2 = (set M due x w').2 := by
  have served : ∀ (g : Option G) (s1 : σ), (∃ f, M.objective s1 = .ok f) → ∀ vs : List (Vo F G),
      (∀ v ∈ vs, v.started = true) → (serve M due g s1 vs).2.2 = none := by
    intro g s1 hf vs
    obtain ⟨f, hf⟩ := hf
    induction vs with
    | nil => intro _; rfl
    | cons v vs ih =>
      intro hst
      have h0 : (v.status M due g s1).2.2 = none := by
        simp only [Vo.status, hf]
        rw [hst v (by simp)]
        simp only [Bool.not_true, Bool.false_eq_true, if_false]
        split <;> rfl
      simp only [serve, h0]
      exact ih fun u hu => hst u (by simp [hu])
  simp only [World.core, Prod.mk.injEq] at h
  obtain ⟨h1, h2, h3⟩ := h
  simp only [set, World.core, ← h1]
  cases hb : (M.before x w.m).2 with
  | some e => simp only [h2, h3, and_self]
  | none =>
    have hf := calm x w.m _ (show M.before x w.m = ((M.before x w.m).1, none) by rw [← hb])
    simp only [served _ _ hf _ hs, served _ _ hf _ hs', h2, h3, and_self]

theorem set_started (M : Machine σ X F G) (due : Nat → Bool) (x : X) {w : World σ F G}
    (hs : ∀ v ∈ w.vos, v.started = true) : ∀ v ∈ (set M due x w).1.vos, v.started = true := by
  intro v hv
  have : (v.id, v.started) ∈ w.vos.map (fun v => (v.id, v.started)) := by
    rw [← (set_ids M due x w).1]; exact List.mem_map_of_mem hv
  obtain ⟨u, hu, he⟩ := List.mem_map.mp this
  rw [← (Prod.mk.inj he).2]; exact hs u hu

theorem evaluate_core (M : Machine σ X F G) (due : Nat → Bool) (calm : Calm M) (q : Query X) {w w' : World σ F G}
    (h : w.core = w'.core) (hs : ∀ v ∈ w.vos, v.started = true) (hs' : ∀ v ∈ w'.vos, v.started = true) :
    (evaluate M due w q).1.core = (evaluate M due w' q).1.core ∧ (evaluate M due w q).2 = (evaluate M due w' q).2 := by
  obtain ⟨h1, h2⟩ := set_core M due calm q.point h hs hs'
  simp only [World.core, Prod.mk.injEq] at h1
  obtain ⟨a, b, c⟩ := h1
  simp only [evaluate, World.core, h2, a, b, c, and_self]

theorem run_core (M : Machine σ X F G) (due : Nat → Bool) (calm : Calm M) : ∀ (p : Prog X F G) {w w' : World σ F G},
    w.core = w'.core → (∀ v ∈ w.vos, v.started = true) → (∀ v ∈ w'.vos, v.started = true) →
    (run M due p w).1.core = (run M due p w').1.core ∧ (run M due p w).2 = (run M due p w').2
  | .done _, _, _, h, _, _ => ⟨h, rfl⟩
  | .raise _, _, _, h, _, _ => ⟨h, rfl⟩
  | .ask q k, w, w', h, hs, hs' => by
    obtain ⟨h1, h2⟩ := evaluate_core M due calm q h hs hs'
    have hs1 : ∀ v ∈ (evaluate M due w q).1.vos, v.started = true := set_started M due q.point hs
    have hs1' : ∀ v ∈ (evaluate M due w' q).1.vos, v.started = true := set_started M due q.point hs'
    simp only [run, h2]
    split
    · exact ⟨h1, rfl⟩
    · exact run_core M due calm _ h1 hs1 hs1'

theorem run_started (M : Machine σ X F G) (due : Nat → Bool) (p : Prog X F G) {w : World σ F G}
    (hs : ∀ v ∈ w.vos, v.started = true) : ∀ v ∈ (run M due p w).1.vos, v.started = true := by
  intro v hv
  have : (v.id, v.started) ∈ w.vos.map (fun v => (v.id, v.started)) := by
    rw [← (run_ids M due p w).1]; exact List.mem_map_of_mem hv
  obtain ⟨u, hu, he⟩ := List.mem_map.mp this
  rw [← (Prod.mk.inj he).2]; exact hs u hu

theorem finish_core (M : Machine σ X F G) (due : Nat → Bool) (calm : Calm M) (r : Except Exc X) {w w' : World σ F G}
    (h : w.core = w'.core) (hs : ∀ v ∈ w.vos, v.started = true) (hs' : ∀ v ∈ w'.vos, v.started = true) :
    (finish M due w r).1.core = (finish M due w' r).1.core ∧ (finish M due w r).2 = (finish M due w' r).2 := by
  cases r with
  | error e => exact ⟨h, rfl⟩
  | ok x =>
    obtain ⟨h1, h2⟩ := set_core M due calm x h hs hs'
    simp only [finish, h2]
    split <;> exact ⟨h1, rfl⟩

/-- C74 (partial): `optimize(messages=True)` and `optimize(messages=False)` leave the same model behind, with the same
count of failures and the same last gradient, and give the same result or the same exception — for every optimiser, if the
objective can be computed at the beginning and also in the middle of an update. -/
theorem messages_same_partial (M : Machine σ X F G) (due due' : Nat → Bool) (calm : Calm M) (p : Prog X F G) (w : World σ F G)
    (hv : w.vos = []) {f : F} (hf : M.objective w.m = .ok f) :
    (optimize M due true p w).1.m = (optimize M due' false p w).1.m ∧
    (optimize M due true p w).1.fail = (optimize M due' false p w).1.fail ∧
    (optimize M due true p w).1.objGrads = (optimize M due' false p w).1.objGrads ∧
    (optimize M due true p w).1.vos = [] ∧ (optimize M due' false p w).1.vos = [] ∧
    (optimize M due true p w).2.1 = (optimize M due' false p w).2.1 := by
  have ok : w.Ok := fun v hv' => by rw [hv] at hv'; cases hv'
  have e1 := display_removed M due true p w ok (fun _ => ⟨f, hf⟩)
  have e2 := display_removed M due' false p w ok (by intro h; cases h)
  rw [hv] at e1 e2
  have e1 : (optimize M due true p w).1.vos = [] := List.map_eq_nil_iff.mp e1
  have e2 : (optimize M due' false p w).1.vos = [] := List.map_eq_nil_iff.mp e2
  -- without displays the clock does not matter
  have hdue : ∀ (x : X) (u : World σ F G), u.vos = [] → set M due' x u = set M due x u ∧ (set M due x u).1.vos = [] := by
    intro x u hu
    simp only [set, hu, serve]
    refine ⟨trivial, ?_⟩
    split <;> first | exact hu | rfl
  have hrun : ∀ (p : Prog X F G) (u : World σ F G), u.vos = [] →
      run M due' p u = run M due p u ∧ (run M due p u).1.vos = [] := by
    intro p
    induction p with
    | done x => intro u hu; exact ⟨rfl, hu⟩
    | raise e => intro u hu; exact ⟨rfl, hu⟩
    | ask q k ih =>
      intro u hu
      obtain ⟨a, b⟩ := hdue q.point u hu
      have hev : evaluate M due' u q = evaluate M due u q := by simp only [evaluate, a]
      have hvo : (evaluate M due u q).1.vos = [] := b
      simp only [run, hev]
      split
      · exact ⟨rfl, hvo⟩
      · exact ih _ _ hvo
  have hfin : ∀ (r : Except Exc X) (u : World σ F G), u.vos = [] → finish M due' u r = finish M due u r := by
    intro r u hu
    cases r with
    | error e => rfl
    | ok x => simp only [finish, (hdue x u hu).1]
  have key : (optimize M due true p w).1.core = (optimize M due' false p w).1.core ∧
      (optimize M due true p w).2.1 = (optimize M due' false p w).2.1 := by
    simp only [optimize, if_true, hf, Bool.false_eq_true, if_false]
    rw [(hrun p w hv).1, hfin _ _ (hrun p w hv).2]
    have hs : ∀ v ∈ w.vos ++ [(⟨w.next, true, some f, w.objGrads, 0, []⟩ : Vo F G)], v.started = true := by
      rw [hv]; simp
    have hs' : ∀ v ∈ w.vos, v.started = true := by rw [hv]; simp
    obtain ⟨c1, c2⟩ := run_core M due calm p (w := { w with
      vos := w.vos ++ [⟨w.next, true, some f, w.objGrads, 0, []⟩], next := w.next + 1 }) (w' := w) rfl hs hs'
    rw [c2]
    refine finish_core M due calm _ c1 ?_ (run_started M due p hs')
    intro v hv'
    exact run_started M due p (w := { w with
      vos := w.vos ++ [⟨w.next, true, some f, w.objGrads, 0, []⟩], next := w.next + 1 }) hs v (List.mem_filter.mp hv').1
  have k1 := key.1
  simp only [World.core, Prod.mk.injEq] at k1
  exact ⟨k1.1, k1.2.1, k1.2.2, e1, e2, key.2⟩

/-! ### What is shown -/

/-- What a display with the clock `due` prints for evaluations numbered from `i`: the number, the objective of the model
while its own update is still to come, and the gradient before the evaluation. -/
def shown (M : Machine σ X F G) (due : Nat → Bool) (i : Nat) (l : List (σ × σ × σ × Option G)) :
    List (Nat × Option F × Option G) :=
  (l.zipIdx i).filterMap (fun a =>
    if due a.2 then some (a.2, (M.objective a.1.2.1).toOption, a.1.2.2.2) else none)

/-- The numbers a display holds after these evaluations. -/
def held (M : Machine σ X F G) (f : Option F) (g : Option G) (l : List (σ × σ × σ × Option G)) : Option F × Option G :=
  match l.getLast? with
  | none => (f, g)
  | some a => ((M.objective a.2.1).toOption, a.2.2.2)

theorem set_one (M : Machine σ X F G) (due : Nat → Bool) (calm : Calm M) (x : X) (w : World σ F G) (v : Vo F G)
    (hv : w.vos = [v]) (hs : v.started = true) :
    ((M.before x w.m).2 ≠ none ∧ (set M due x w).1.vos = [v] ∧ (set M due x w).1.rand = w.rand) ∨
    ((M.before x w.m).2 = none ∧
      (set M due x w).1.rand = w.rand + (if due v.iteration then 1 else 0) ∧
      (set M due x w).1.vos = [⟨v.id, true, (M.objective (M.before x w.m).1).toOption, w.objGrads, v.iteration + 1,
        v.lines ++ (if due v.iteration then
          [(v.iteration, (M.objective (M.before x w.m).1).toOption, w.objGrads)] else [])⟩]) := by
  cases hb : (M.before x w.m).2 with
  | some e => exact .inl ⟨by simp, by simp only [set, hb, hv], by simp only [set, hb]⟩
  | none =>
    right
    obtain ⟨f, hf⟩ := calm x w.m _ (show M.before x w.m = ((M.before x w.m).1, none) by rw [← hb])
    cases hd : due v.iteration <;>
      simp [set, hb, hv, serve, Vo.status, hf, hs, hd, Vo.printOut, Except.toOption]

theorem run_shown (M : Machine σ X F G) (due due' : Nat → Bool) (calm : Calm M) : ∀ (p : Prog X F G) (w u : World σ F G)
    (v : Vo F G), w.core = u.core → u.vos = [] → w.vos = [v] → v.started = true →
    (run M due p w).1.vos = [⟨v.id, true, (held M v.fnow v.grad (rounds M due' p u)).1,
      (held M v.fnow v.grad (rounds M due' p u)).2, v.iteration + (rounds M due' p u).length,
      v.lines ++ shown M due v.iteration (rounds M due' p u)⟩] ∧
    (run M due p w).1.rand = w.rand + (shown M due v.iteration (rounds M due' p u)).length := by
  intro p
  induction p with
  | done x =>
    intro w u v _ _ hv hs
    obtain ⟨a, b, c, d, e, f⟩ := v
    simp only [] at hs
    subst hs
    simp [run, rounds, shown, held, hv]
  | raise e =>
    intro w u v _ _ hv hs
    obtain ⟨a, b, c, d, e, f⟩ := v
    simp only [] at hs
    subst hs
    simp [run, rounds, shown, held, hv]
  | ask q k ih =>
    intro w u v hc hu hv hs
    have hdue : evaluate M due' u q = evaluate M due u q ∧ (evaluate M due u q).1.vos = [] := by
      have : set M due' q.point u = set M due q.point u ∧ (set M due q.point u).1.vos = [] := by
        simp only [set, hu, serve]
        refine ⟨trivial, ?_⟩
        split <;> first | exact hu | rfl
      exact ⟨by simp only [evaluate, this.1], this.2⟩
    obtain ⟨c1, c2⟩ := evaluate_core M due calm q hc (by rw [hv]; simpa using hs) (by rw [hu]; simp)
    have hm : u.m = w.m ∧ u.objGrads = w.objGrads := by
      simp only [World.core, Prod.mk.injEq] at hc; exact ⟨hc.1.symm, hc.2.2.symm⟩
    have hone := set_one M due calm q.point w v hv hs
    -- the display after this evaluation
    obtain ⟨v1, h1, h2, h3, h4⟩ : ∃ v1 : Vo F G, (evaluate M due w q).1.vos = [v1] ∧ v1.started = true ∧ v1.id = v.id ∧
        ((v1.fnow, v1.grad) = held M v.fnow v.grad (round M due' q u) ∧
          v1.iteration = v.iteration + (round M due' q u).length ∧
          v1.lines = v.lines ++ shown M due v.iteration (round M due' q u) ∧
          (evaluate M due w q).1.rand = w.rand + (shown M due v.iteration (round M due' q u)).length) := by
      rcases hone with ⟨a, b, c⟩ | ⟨a, b, c⟩
      · refine ⟨v, b, hs, rfl, ?_⟩
        obtain ⟨e, he⟩ := Option.ne_none_iff_exists'.mp a
        have : round M due' q u = [] := by simp only [round, hm.1, he]
        rw [this]
        exact ⟨rfl, rfl, by simp [shown], by simp only [shown, List.zipIdx_nil, List.filterMap_nil, List.length_nil, Nat.add_zero]; exact c⟩
      · refine ⟨_, c, rfl, rfl, ?_⟩
        have : round M due' q u = [(w.m, (M.before q.point w.m).1, (evaluate M due' u q).1.m, w.objGrads)] := by
          simp only [round, hm.1, hm.2, a]
        rw [this]
        refine ⟨rfl, rfl, ?_, ?_⟩
        · cases hd : due v.iteration <;> simp [shown, hd]
        · refine b.trans ?_
          cases hd : due v.iteration <;> simp [shown, hd]
    have glue : ∀ r l : List (σ × σ × σ × Option G),
        shown M due v.iteration (r ++ l) = shown M due v.iteration r ++ shown M due (v.iteration + r.length) l := by
      intro r l
      simp only [shown, List.zipIdx_append, List.filterMap_append]
    have glueH : ∀ r l : List (σ × σ × σ × Option G), held M v.fnow v.grad (r ++ l) =
        held M (held M v.fnow v.grad r).1 (held M v.fnow v.grad r).2 l := by
      intro r l
      unfold held
      rw [List.getLast?_append]
      cases l.getLast? <;> rfl
    obtain ⟨k1, k2, k3, k4⟩ := h4
    cases hr : (evaluate M due u q).2 with
    | raised e =>
      have : (run M due (.ask q k) w).1 = (evaluate M due w q).1 := by simp only [run, c2, hr]
      rw [this]
      have hrd : rounds M due' (.ask q k) u = round M due' q u := by
        simp only [rounds, hdue.1, hr, List.append_nil]
      rw [hrd, ← k1, h1, ← k2, ← k3]
      refine ⟨?_, k4⟩
      obtain ⟨a, b, c, d, e, f⟩ := v1
      simp only [] at h2 h3
      rw [h2, h3]
    | _ =>
      all_goals
        have hrun : (run M due (.ask q k) w).1 = (run M due (k (evaluate M due u q).2) (evaluate M due w q).1).1 := by
          simp only [run, c2, hr]
        have hrd : rounds M due' (.ask q k) u = round M due' q u ++
            rounds M due' (k (evaluate M due u q).2) (evaluate M due u q).1 := by
          simp only [rounds, hdue.1, hr]
        obtain ⟨g1, g2⟩ := ih (evaluate M due u q).2 _ (evaluate M due u q).1 v1 c1 hdue.2 h1 h2
        rw [hrun, g1, g2, hrd, glue, glueH, ← k1]
        simp only [k2, k3, k4, h3, List.length_append, List.append_assoc, Nat.add_assoc, and_self]

/-- C74: what `optimize(messages=True)` prints, if no display was there before and the objective can be computed at the
beginning and in the middle of an update: for every evaluation in which the clock says so its number, the objective of the
model before its own update, and the gradient before the evaluation; and at the end the number of evaluations with the last such
numbers. The evaluations are those of the run without messages. So many random numbers have been drawn. -/
theorem printed (M : Machine σ X F G) (due : Nat → Bool) (calm : Calm M) (p : Prog X F G) (w : World σ F G)
    (hv : w.vos = []) {f : F} (hf : M.objective w.m = .ok f) :
    (optimize M due true p w).2.2 = shown M due 0 (rounds M due p w) ++
      [((rounds M due p w).length, held M (some f) w.objGrads (rounds M due p w))] ∧
    (optimize M due true p w).1.rand = w.rand + (optimize M due true p w).2.2.length ∧
    (optimize M due false p w).2.2 = [] ∧ (optimize M due false p w).1.rand = w.rand := by
  have hset : ∀ (x : X) (u : World σ F G), u.vos = [] →
      (set M due x u).1.rand = u.rand ∧ (set M due x u).1.vos = [] := by
    intro x u hu
    simp only [set, hu, serve]
    split
    · exact ⟨rfl, rfl⟩
    · exact ⟨rfl, rfl⟩
  have hfin : ∀ (r : Except Exc X) (u : World σ F G), u.vos = [] → (finish M due u r).1.rand = u.rand := by
    intro r u hu
    cases r with
    | error e => rfl
    | ok x => simp only [finish]; split <;> exact (hset x u hu).1
  obtain ⟨a, b⟩ := run_shown M due due calm p
    { w with vos := w.vos ++ [⟨w.next, true, some f, w.objGrads, 0, []⟩], next := w.next + 1 } w
    ⟨w.next, true, some f, w.objGrads, 0, []⟩ rfl hv (by rw [hv]; rfl) rfl
  have hout : (optimize M due true p w).2.2 = shown M due 0 (rounds M due p w) ++
      [((rounds M due p w).length, held M (some f) w.objGrads (rounds M due p w))] := by
    simp only [optimize, if_true, hf, a, List.find?_cons, decide_true, Option.elim, Vo.printOut, List.nil_append,
      Nat.zero_add, Prod.eta]
  refine ⟨hout, ?_, by simp only [optimize, Bool.false_eq_true, if_false], ?_⟩
  · rw [hout]
    simp only [optimize, if_true, hf]
    rw [hfin _ _ (by rw [a]; simp [removeVo])]
    simp only [b, List.length_append, List.length_singleton, Nat.add_assoc]
  · have hrun : ∀ (p : Prog X F G) (u : World σ F G), u.vos = [] →
        (run M due p u).1.rand = u.rand ∧ (run M due p u).1.vos = [] := by
      intro p
      induction p with
      | done x => intro u hu; exact ⟨rfl, hu⟩
      | raise e => intro u hu; exact ⟨rfl, hu⟩
      | ask q k ih =>
        intro u hu
        have hr : (evaluate M due u q).1.rand = u.rand := (hset q.point u hu).1
        have hvo : (evaluate M due u q).1.vos = [] := (hset q.point u hu).2
        simp only [run]
        split
        · exact ⟨hr, hvo⟩
        · exact ⟨(ih _ _ hvo).1.trans hr, (ih _ _ hvo).2⟩
    simp only [optimize, Bool.false_eq_true, if_false]
    rw [hfin _ _ (hrun p w hv).2, (hrun p w hv).1]

theorem set_vos_nil (M : Machine σ X F G) (due : Nat → Bool) (x : X) {u : World σ F G} (hu : u.vos = []) :
    (set M due x u).1.vos = [] ∧ ((M.before x u.m).2 = none → (set M due x u).1.m = (M.after (M.before x u.m).1).1) := by
  refine ⟨?_, fun hb => ?_⟩
  · simp only [set, hu, serve]
    split <;> rfl
  · simp only [set, hu, serve, hb]

/-- What the entries of `rounds` are. -/
theorem mem_rounds (M : Machine σ X F G) (due : Nat → Bool) : ∀ (p : Prog X F G) (u : World σ F G), u.vos = [] →
    ∀ a ∈ rounds M due p u, ∃ x, M.before x a.1 = (a.2.1, none) ∧ a.2.2.1 = (M.after a.2.1).1 := by
  intro p
  induction p with
  | done x => intro u _ a ha; cases ha
  | raise e => intro u _ a ha; cases ha
  | ask q k ih =>
    intro u hu a ha
    have hr : ∀ a ∈ round M due q u, ∃ x, M.before x a.1 = (a.2.1, none) ∧ a.2.2.1 = (M.after a.2.1).1 := by
      intro a ha
      unfold round at ha
      cases hb : (M.before q.point u.m).2 with
      | some e => rw [hb] at ha; cases ha
      | none =>
        rw [hb] at ha
        simp only [List.mem_singleton] at ha
        subst ha
        exact ⟨q.point, by rw [← hb], (set_vos_nil M due q.point hu).2 hb⟩
    simp only [rounds, List.mem_append] at ha
    rcases ha with ha | ha
    · exact hr a ha
    · revert ha
      split
      · intro ha; cases ha
      · intro ha; exact ih _ _ (show (evaluate M due u q).1.vos = [] from (set_vos_nil M due q.point hu).1) a ha

/-- The objective is computed from the values themselves: the model's own update does not matter. -/
def Direct (M : Machine σ X F G) : Prop := ∀ x s s1, M.before x s = (s1, none) → M.objective (M.after s1).1 = M.objective s1

/-- The objective was computed by the model's own update (as in `RidgeRegression`, ridge_regression.py): until then it is
the old one. -/
def Stored (M : Machine σ X F G) : Prop := ∀ x s s1, M.before x s = (s1, none) → M.objective s1 = M.objective s

theorem mem_shown {M : Machine σ X F G} {due : Nat → Bool} {l : List (σ × σ × σ × Option G)} {i : Nat}
    {f : Option F} {g : Option G} : (i, f, g) ∈ shown M due 0 l ↔
      due i = true ∧ ∃ s m s', l[i]? = some (s, m, s', g) ∧ f = (M.objective m).toOption := by
  unfold shown
  rw [List.mem_filterMap]
  constructor
  · rintro ⟨⟨⟨s, m, s', g'⟩, j⟩, hm, he⟩
    have hm := List.mem_zipIdx_iff_getElem?.mp hm
    simp only [] at hm he
    split at he
    · rename_i hd
      simp only [Option.some.injEq, Prod.mk.injEq] at he
      obtain ⟨rfl, rfl, rfl⟩ := he
      exact ⟨hd, s, m, s', hm, rfl⟩
    · cases he
  · rintro ⟨hd, s, m, s', hl, rfl⟩
    refine ⟨((s, m, s', g), i), List.mem_zipIdx_iff_getElem?.mpr hl, ?_⟩
    simp only [hd, if_true]

/-- C74 (partial): if the objective is computed from the values themselves, every line printed during the run shows the
number of an evaluation with the objective at the point evaluated. -/
theorem printed_current_partial (M : Machine σ X F G) (due : Nat → Bool) (calm : Calm M) (direct : Direct M) (p : Prog X F G)
    (w : World σ F G) (hv : w.vos = []) {f : F} (hf : M.objective w.m = .ok f) {i : Nat} {fi : Option F} {gi : Option G}
    (h : (i, fi, gi) ∈ (optimize M due true p w).2.2.dropLast) :
    ∃ s m s', (rounds M due p w)[i]? = some (s, m, s', gi) ∧ fi = (M.objective s').toOption := by
  rw [(printed M due calm p w hv hf).1, List.dropLast_concat] at h
  obtain ⟨-, s, m, s', hl, rfl⟩ := mem_shown.mp h
  obtain ⟨x, h1, h2⟩ := mem_rounds M due p w hv _ (List.mem_of_getElem? hl)
  refine ⟨s, m, s', hl, ?_⟩
  simp only [] at h1 h2
  rw [h2, direct x s m h1]

/-- C74: if the objective is computed by `parameters_changed` of the model, every line shows the objective *before* the
evaluation it counts: of the point evaluated before, or of the start. -/
theorem printed_lags (M : Machine σ X F G) (due : Nat → Bool) (calm : Calm M) (stored : Stored M) (p : Prog X F G)
    (w : World σ F G) (hv : w.vos = []) {f : F} (hf : M.objective w.m = .ok f) {i : Nat} {fi : Option F} {gi : Option G}
    (h : (i, fi, gi) ∈ (optimize M due true p w).2.2.dropLast) :
    ∃ s m s', (rounds M due p w)[i]? = some (s, m, s', gi) ∧ fi = (M.objective s).toOption := by
  rw [(printed M due calm p w hv hf).1, List.dropLast_concat] at h
  obtain ⟨-, s, m, s', hl, rfl⟩ := mem_shown.mp h
  obtain ⟨x, h1, h2⟩ := mem_rounds M due p w hv _ (List.mem_of_getElem? hl)
  refine ⟨s, m, s', hl, ?_⟩
  simp only [] at h1 h2
  rw [stored x s m h1]

/-- Does it ask for the gradient? -/
def Query.asksGradient : Query X → Bool
  | .objective _ => false
  | _ => true

/-- C74: the gradient shown (the last one) is the gradient of the model as it was after the last evaluation that asked for one,
also if that evaluation failed and was tolerated. -/
theorem last_gradient (M : Machine σ X F G) (due : Nat → Bool) (w : World σ F G) (q : Query X)
    (h : ∀ e, (evaluate M due w q).2 ≠ .raised e) :
    (evaluate M due w q).1.objGrads =
      if q.asksGradient then (M.gradient (evaluate M due w q).1.m).toOption else w.objGrads := by
  have hset : (set M due q.point w).1.objGrads = w.objGrads := by
    simp only [set]
    split
    · rfl
    · split <;> rfl
  revert h
  simp only [evaluate, hset]
  generalize (set M due q.point w).1.m = s
  generalize (set M due q.point w).1.fail = c
  generalize (set M due q.point w).2 = e
  cases q with
  | objective x =>
    intro _
    rw [show (Query.objective x).asksGradient = false from rfl, if_neg (by simp)]
    simp only [Query.call, step, objective]
    repeat' split
    all_goals rfl
  | grads x =>
    intro h
    rw [show (Query.grads x).asksGradient = true from rfl, if_pos rfl]
    cases hg : M.gradient s with
    | ok g =>
      cases e with
      | none => simp only [Query.call, step, grads, hg]; rfl
      | some e =>
        simp only [Query.call, step, grads, hg] at h ⊢
        split
        · split
          · rename_i h1 h2; exact absurd (h e) (by simp [h1, h2])
          · rfl
        · rename_i h1; exact absurd (h e) (by simp [h1])
    | error e' =>
      exfalso
      simp only [Query.call, step, grads, hg] at h
      revert h
      cases e with
      | none => simp only []; repeat' split
                all_goals (intro h; exact h _ rfl)
      | some e => simp only []; repeat' split
                  all_goals (intro h; exact h _ rfl)
  | both x =>
    intro h
    rw [show (Query.both x).asksGradient = true from rfl, if_pos rfl]
    cases hg : M.gradient s with
    | ok g =>
      cases e with
      | none =>
        cases hf : M.objective s with
        | ok f => simp only [Query.call, step, objectiveGrads, hg, hf]; rfl
        | error e =>
          simp only [Query.call, step, objectiveGrads, hg, hf] at h ⊢
          split
          · split
            · rename_i h1 h2; exact absurd (h e) (by simp [h1, h2])
            · rfl
          · rename_i h1; exact absurd (h e) (by simp [h1])
      | some e =>
        simp only [Query.call, step, objectiveGrads, hg] at h ⊢
        split
        · split
          · rename_i h1 h2; exact absurd (h e) (by simp [h1, h2])
          · rfl
        · rename_i h1; exact absurd (h e) (by simp [h1])
    | error e' =>
      exfalso
      simp only [Query.call, step, objectiveGrads, hg] at h
      revert h
      cases e with
      | none =>
        cases hf : M.objective s with
        | ok f => simp only []; repeat' split
                  all_goals (intro h; exact h _ rfl)
        | error e => simp only []; repeat' split
                     all_goals (intro h; exact h _ rfl)
      | some e => simp only []; repeat' split
                  all_goals (intro h; exact h _ rfl)

/-! ### A display that was never started -/

theorem serve_unstarted (M : Machine σ X F G) (due : Nat → Bool) (g : Option G) (s : σ) : ∀ vs : List (Vo F G),
    (∃ v ∈ vs, v.started = false) → (serve M due g s vs).2.2 ≠ none
  | [], h => by obtain ⟨v, hv, -⟩ := h; cases hv
  | v :: vs, h => by
    simp only [serve]
    cases hr : (v.status M due g s).2.2 with
    | some e => simp
    | none =>
      simp only []
      refine serve_unstarted M due g s vs ?_
      obtain ⟨u, hu, hs⟩ := h
      rcases List.mem_cons.mp hu with rfl | hu
      · exfalso
        unfold Vo.status at hr
        cases hf : M.objective s with
        | error e => rw [hf] at hr; cases hr
        | ok f => rw [hf] at hr; simp [hs] at hr
      · exact ⟨u, hu, hs⟩

/-- Assignments to the model. -/
def sets (M : Machine σ X F G) (due : Nat → Bool) (w : World σ F G) (xs : List X) : World σ F G :=
  xs.foldl (fun w x => (set M due x w).1) w

/-- C74: if the objective cannot be computed when `optimize(messages=True)` is called, the exception is passed on, but the
model is out of order from then on: however it is changed, the change raises, and the model's own `parameters_changed` is
not called. -/
theorem failed_start_breaks (M : Machine σ X F G) (due : Nat → Bool) (p : Prog X F G) (w : World σ F G) {e : Exc}
    (he : M.objective w.m = .error e) :
    (optimize M due true p w).2.1 = .error e ∧
    ∀ (xs : List X) (x : X), let w' := sets M due (optimize M due true p w).1 xs
      (set M due x w').2 ≠ none ∧ (set M due x w').1.m = (M.before x w'.m).1 := by
  refine ⟨by simp only [optimize, if_true, he], ?_⟩
  have key : ∀ (u : World σ F G), (∃ v ∈ u.vos, v.started = false) → ∀ x, (∃ v ∈ (set M due x u).1.vos, v.started = false) ∧
      (set M due x u).2 ≠ none ∧ (set M due x u).1.m = (M.before x u.m).1 := by
    intro u hu x
    refine ⟨?_, ?_⟩
    · obtain ⟨v, hv, hs⟩ := hu
      have : (v.id, v.started) ∈ (set M due x u).1.vos.map (fun v => (v.id, v.started)) := by
        rw [(set_ids M due x u).1]; exact List.mem_map_of_mem hv
      obtain ⟨v', hv', h'⟩ := List.mem_map.mp this
      exact ⟨v', hv', (Prod.mk.inj h').2.trans hs⟩
    · simp only [set]
      split
      · simp
      · obtain ⟨e, h⟩ := Option.ne_none_iff_exists'.mp (serve_unstarted M due u.objGrads (M.before x u.m).1 u.vos hu)
        rw [h]; simp
  have start : ∃ v ∈ (optimize M due true p w).1.vos, v.started = false := by
    simp only [optimize, if_true, he]
    exact ⟨_, List.mem_append_right _ (List.mem_singleton.mpr rfl), rfl⟩
  intro xs x
  have : ∃ v ∈ (sets M due (optimize M due true p w).1 xs).vos, v.started = false := by
    generalize (optimize M due true p w).1 = u at start
    induction xs generalizing u with
    | nil => exact start
    | cons y ys ih => exact ih _ (key u start y).1
  exact (key _ this x).2

/-! ### Random restarts -/

/-- The points reached by `optimize_restarts(n, messages=...)` (model.py:118-190): from the second run on the model is first
set to numbers drawn from `np.random` (`randomize`, parameter_core.py:228-250; one draw here). -/
def restarts (M : Machine σ X F G) (due : Nat → Bool) (messages : Bool) (stream : Nat → X) (p : σ → Prog X F G) :
    Nat → Nat → World σ F G → List (Option X)
  | 0, _, _ => []
  | n + 1, i, w =>
    let w1 := if i = 0 then w else { (set M due (stream w.rand) w).1 with rand := (set M due (stream w.rand) w).1.rand + 1 }
    let r := optimize M due messages (p w1.m) w1
    r.2.1.toOption :: restarts M due messages stream p n (i + 1) r.1

/-! ### Examples -/

/-- A model with a value, an objective stored by `parameters_changed` and a gradient: `(x - 3)²`. -/
def demo : Machine (Int × Int) Int Int Int where
  before x s := ((x, s.2), none)
  after s := ((s.1, (s.1 - 3) * (s.1 - 3)), none)
  objective s := .ok s.2
  gradient s := .ok (2 * (s.1 - 3))

/-- The same, the objective computed when asked for. -/
def demo' : Machine Int Int Int Int where
  before x _ := (x, none)
  after s := (s, none)
  objective s := .ok ((s - 3) * (s - 3))
  gradient s := .ok (2 * (s - 3))

/-- As `demo'`, but the objective cannot be computed at zero. -/
def demo0 : Machine Int Int Int Int where
  before x _ := (x, none)
  after s := (s + 100, none)
  objective s := if s = 0 then .error .zeroDivision else .ok (100 / s)
  gradient s := .ok s

/-- As `demo0`, but `parameters_changed` makes sure that the objective can be computed. -/
def demo1 : Machine (Int × Bool) Int Int Int where
  before x _ := ((x, false), none)
  after s := ((s.1, true), none)
  objective s := if s.2 then .ok s.1 else .error .value
  gradient s := .ok s.1

theorem demo_calm : Calm demo := by
  intro x s s1 h
  exact ⟨s1.2, rfl⟩

theorem demo_stored : Stored demo := by
  intro x s s1 h
  simp only [demo, Prod.mk.injEq] at h
  obtain ⟨rfl, -⟩ := h
  rfl

theorem demo'_calm : Calm demo' := fun _ _ s1 _ => ⟨(s1 - 3) * (s1 - 3), rfl⟩

theorem demo'_direct : Direct demo' := fun _ _ _ _ => rfl

/-- An optimiser that tries two points and takes the better one, by the answers. -/
def demoProg (a b : Int) : Prog Int Int Int :=
  .ask (.both a) fun r => .ask (.both b) fun r' => match r, r' with
    | .both f _, .both f' _ => .done (if f ≤ f' then a else b)
    | _, _ => .raise .value

def demoW : World (Int × Int) Int Int := ⟨(0, 9), 0, none, [], 7, 0⟩

def demoW' : World Int Int Int := ⟨0, 0, none, [], 7, 0⟩

/-- A run that ends at the better point. -/
example : (optimize demo (fun _ => true) true (demoProg 1 2) demoW).2.1.toOption = some 2 ∧
    (optimize demo (fun _ => true) true (demoProg 1 2) demoW).1.m = (2, 1) ∧
    (optimize demo (fun _ => true) true (demoProg 1 2) demoW).1.vos = [] := by decide +kernel

example : (optimize demo (fun _ => true) true (demoProg 1 2) demoW).1.m =
    (optimize demo (fun _ => true) false (demoProg 1 2) demoW).1.m :=
  (messages_same_partial demo _ _ demo_calm (demoProg 1 2) demoW rfl (f := 9) rfl).1

/-- C74 fails: the points evaluated are 1 and 2 with objectives 4 and 1; shown are 9 (the start) and 4, and in the end 4
again although the model is at 1. Also the gradients are those of the evaluation before. -/
theorem printed_fails : (optimize demo (fun _ => true) true (demoProg 1 2) demoW).2.2 =
    [(0, some 9, none), (1, some 4, some (-4)), (2, some 4, some (-4))] ∧
    (rounds demo (fun _ => true) (demoProg 1 2) demoW).map (fun a => (demo.objective a.2.2.1).toOption) =
      [some 4, some 1] := by decide +kernel

/-- With the objective computed when asked for, the objectives are right and the gradients late. -/
theorem printed_gradient_fails : (optimize demo' (fun _ => true) true (demoProg 1 2) demoW').2.2 =
    [(0, some 4, none), (1, some 1, some (-4)), (2, some 1, some (-4))] := by decide +kernel

/-- C74 fails: a model whose objective cannot be computed before its own update. Without messages the run ends at the better
point; with messages no evaluation succeeds. -/
theorem messages_same_fails :
    (optimize demo1 (fun _ => true) false (demoProg 1 2) ⟨(0, true), 0, none, [], 0, 0⟩).2.1.toOption = some 1 ∧
    (optimize demo1 (fun _ => true) true (demoProg 1 2) ⟨(0, true), 0, none, [], 0, 0⟩).2.1.toOption = none ∧
    (optimize demo1 (fun _ => true) true (demoProg 1 2) ⟨(0, true), 0, none, [], 0, 0⟩).1.fail = 2 := by decide +kernel

/-- C74 fails: `optimize(messages=True)` at zero raises; the model is then set to 5, which raises `AttributeError`, and
`parameters_changed` (which adds 100) is not called. -/
theorem failed_start_fails :
    (optimize demo0 (fun _ => true) true (demoProg 1 2) ⟨0, 0, none, [], 0, 0⟩).2.1.toOption = none ∧
    (set demo0 (fun _ => true) 5 (optimize demo0 (fun _ => true) true (demoProg 1 2) ⟨0, 0, none, [], 0, 0⟩).1).2 =
      some attributeError ∧
    (set demo0 (fun _ => true) 5 (optimize demo0 (fun _ => true) true (demoProg 1 2) ⟨0, 0, none, [], 0, 0⟩).1).1.m = 5 ∧
    (set demo0 (fun _ => true) 5 ⟨0, 0, none, [], 0, 0⟩).1.m = 105 := by decide +kernel

/-- C74 fails: random restarts with the same seed go elsewhere when messages are shown (and where depends on the clock),
since every line printed uses up a random number. The stream is 0, 1, 2, ...; the optimiser stays where it is. -/
theorem messages_restarts_fails :
    restarts demo' (fun _ => true) false (fun n => n) (fun s => .ask (.both s) fun _ => .done s) 3 0 ⟨0, 0, none, [], 0, 0⟩ =
      [some 0, some 0, some 1] ∧
    restarts demo' (fun _ => true) true (fun n => n) (fun s => .ask (.both s) fun _ => .done s) 3 0 ⟨0, 0, none, [], 0, 0⟩ =
      [some 0, some 2, some 5] ∧
    restarts demo' (fun _ => false) true (fun n => n) (fun s => .ask (.both s) fun _ => .done s) 3 0 ⟨0, 0, none, [], 0, 0⟩ =
      [some 0, some 1, some 3] := by decide +kernel

end Paramz.Run.Messages

import Verif.Mem.Loaded
import Verif.Run.Failures

/-!
# C91: evaluations that raise

Source: `paramz/model.py:51-52, 65-116, 206-282`, `paramz/core/parameter_core.py:66-152`. As in `Verif.Mem.Twins`, but
`parameters_changed` and `objective_function` may raise, `_fail_count` counts (`Verif.Run.Failures`), and the gradient
array, which is transformed in place, is kept from one evaluation to the next.
-/

set_option linter.unusedSectionVars false

namespace Paramz.Memory

open Hier (Id Graph Heap Con upd upd_same upd_ne)
open Hier.Graph (Skel Sized At Anc)
open Opt (Ops flattened)
open Run (Exc Res)

/-! ### Model -/

/-- A model's own code. `pc v d`: `parameters_changed` with values `v` when the gradient array holds `d`: what the array
holds afterwards, and the exception that is raised, if any. `F`: `objective_function`. `clip`: `np.clip` with the bounds
of `_grads` (`false`) and of `_objective_grads` (`true`), element by element. `objective_function_gradients` is the
default (model.py:206-223), which does not raise. -/
structure Own (V W : Type) where
  F : List V → Except Exc W
  pc : List V → List V → List V × Option Exc
  clip : Bool → V → V

/-- The gradient array has one entry per element. -/
def Own.Sized {V W : Type} (u : Own V W) : Prop := ∀ v d, (u.pc v d).1.length = v.length

/-- A model with `_fail_count` and its gradient array. -/
structure Bench (V T : Type) where
  st : State V T
  count : Nat
  grad : List V

/-- What an optimiser gets that is not an exception: what was returned, whether gradients that were returned without
being clipped are the model's own array, and what that array holds now. -/
structure Reply (V W : Type) where
  res : Res W (List V)
  own : Bool
  array : List V
deriving DecidableEq

/-- An optimiser: it asks and goes on depending on the reply. None of them handles exceptions, which end the run. -/
inductive FProg (V W : Type)
  | done (x : List V)
  | ask (c : Query V) (k : Reply V W → FProg V W)

/-- It asks only for points with `n` entries, and finds one. -/
def FProg.Fits {V W : Type} (n : Nat) : FProg V W → Prop
  | .done x => x.length = n
  | .ask c k => c.point.length = n ∧ ∀ a, (k a).Fits n

/-- Was an exception raised? -/
def raisedOf {V W : Type} : Res W (List V) → Option Exc
  | .raised e => some e
  | _ => none

namespace Bench

variable {V T W : Type} [DecidableEq T] (spoil : Nat → Nat → V)

/-- The gradient array once `q` has been handled: `_transform_gradients` has written into it unless the exception came
before. -/
def arrayAfter (o : Ops V T) (s : State V T) (r : Id) (d : List V) (res : Res W (List V)) : Query V → List V
  | .objective _ => d
  | _ => match raisedOf res with
    | some _ => d
    | none => ((s.optState r none).transformGradients o d).1

/-- The outcome of the `try` block and of the handler (model.py:236-245, 260-268, 272-281), once the values are `s` and
`parameters_changed` has left `d` in the array and raised `e`. -/
def handle (o : Ops V T) (u : Own V W) (count : Nat) (s : State V T) (r : Id) (d : List V) (e : Option Exc) :
    Query V → Nat × Res W (List V)
  | .objective _ => Run.objective count (match e with
    | some e => .error e
    | none => u.F (s.values r))
  | .grads _ => Run.grads count (match e with
    | some e => .error e
    | none => .ok ((s.optState r none).transformGradients o d).2)
    (.ok (((s.optState r none).transformGradients o d).2.map (u.clip false)))
  | .both _ => Run.objectiveGrads count (match e with
    | some e => .error e
    | none => (u.F (s.values r)).map (fun v => (v, ((s.optState r none).transformGradients o d).2)))
    (.ok (((s.optState r none).transformGradients o d).2.map (u.clip true)))

/-- `_objective(x)`, `_grads(x)` or `_objective_grads(x)` (model.py:225-282). -/
def evaluate (o : Ops V T) (u : Own V W) (r : Id) (b : Bench V T) (q : Query V) : Bench V T × Res W (List V) :=
  let s := b.st.setArray spoil o r q.point
  let d := u.pc (s.values r) b.grad
  let a := handle o u b.count s r d.1 d.2 q
  (⟨s, a.1, arrayAfter o s r d.1 a.2 q⟩, a.2)

/-- `opt.run(start, ...)` and `self.optimizer_array = opt.x_opt` (model.py:110-113), which is not tried a second time:
the model afterwards, what was asked and returned, and `x_opt` or the exception. -/
def run (o : Ops V T) (u : Own V W) (r : Id) :
    FProg V W → Bench V T → Bench V T × List (Query V × Res W (List V)) × Except Exc (List V)
  | .done x, b =>
    let s := b.st.setArray spoil o r x
    let d := u.pc (s.values r) b.grad
    (⟨s, b.count, d.1⟩, [], match d.2 with
      | some e => .error e
      | none => .ok x)
  | .ask q k, b =>
    let a := evaluate spoil o u r b q
    match raisedOf a.2 with
    | some e => (a.1, [(q, a.2)], .error e)
    | none =>
      let z := run o u r (k ⟨a.2, !(a.1.st.optState r none).hasFixes, a.1.grad⟩) a.1
      (z.1, (q, a.2) :: z.2.1, z.2.2)

/-- `r.optimize()` (model.py:65-116); `copy`, `junk` as in `State.optimize`. -/
def optimize (o : Ops V T) (u : Own V W) (copy : Option (List V)) (junk : List V) (p : List V → FProg V W) (r : Id)
    (b : Bench V T) : Bench V T × Option (List (Query V × Res W (List V)) × Except Exc (List V)) :=
  if b.st.heap.isFixed r || decide (b.st.heap.size r = 0) then (b, none)
  else
    let e := run spoil o u r (p (b.st.readArray o r copy junk)) b
    (e.1, some e.2)

/-! ### Simulation -/

variable {spoil}

/-- A relation of states in which `r` of the one behaves like `r'` of the other. -/
structure Sim (spoil : Nat → Nat → V) (o : Ops V T) (n : Nat) (r r' : Id) (R : State V T → State V T → Prop) : Prop where
  values : ∀ {s s'}, R s s' → s'.values r' = s.values r
  fixes : ∀ {s s'}, R s s' → (s'.optState r' none).hasFixes = (s.optState r none).hasFixes
  grads : ∀ {s s'} {d : List V}, R s s' → d.length = s.heap.size r →
    (s'.optState r' none).transformGradients o d = (s.optState r none).transformGradients o d
  set : ∀ {s s'} {p : List V}, R s s' → p.length = n → R (s.setArray spoil o r p) (s'.setArray spoil o r' p)

/-- The gradient arrays are the same, or `parameters_changed` does not look at what is in them. -/
def SameGrad (u : Own V W) (d d' : List V) : Prop := d' = d ∨ ∀ v, u.pc v d' = u.pc v d

theorem SameGrad.pc {u : Own V W} {d d' : List V} (h : SameGrad u d d') (v : List V) : u.pc v d' = u.pc v d := by
  rcases h with rfl | h
  · rfl
  · exact h v

variable {o : Ops V T} {u : Own V W} {n : Nat} {r r' : Id} {R : State V T → State V T → Prop}

theorem handle_sim (S : Sim spoil o n r r' R) {s s' : State V T} (h : R s s') (count : Nat) {d : List V}
    (hd : d.length = s.heap.size r) (e : Option Exc) (q : Query V) :
    handle o u count s' r' d e q = handle o u count s r d e q := by
  have h1 := S.values h
  have h2 := S.grads h hd
  cases q <;> simp only [handle, h1, h2]

theorem evaluate_sim (S : Sim spoil o n r r' R) (hu : u.Sized) {b b' : Bench V T} (h : R b.st b'.st)
    (hc : b'.count = b.count) (hg : SameGrad u b.grad b'.grad) {q : Query V} (hq : q.point.length = n) :
    (evaluate spoil o u r' b' q).2 = (evaluate spoil o u r b q).2 ∧
    (evaluate spoil o u r' b' q).1.count = (evaluate spoil o u r b q).1.count ∧
    (evaluate spoil o u r' b' q).1.grad = (evaluate spoil o u r b q).1.grad ∧
    R (evaluate spoil o u r b q).1.st (evaluate spoil o u r' b' q).1.st := by
  have hs := S.set h hq
  have hv := S.values hs
  have hpc := hg.pc ((b.st.setArray spoil o r q.point).values r)
  have hlen : (u.pc ((b.st.setArray spoil o r q.point).values r) b.grad).1.length =
      (b.st.setArray spoil o r q.point).heap.size r := by rw [hu, State.values_length]
  have hh := handle_sim (u := u) S hs b.count hlen (u.pc ((b.st.setArray spoil o r q.point).values r) b.grad).2 q
  simp only [evaluate]
  rw [hv, hpc, hc, hh]
  refine ⟨rfl, rfl, ?_, hs⟩
  cases q <;> simp only [arrayAfter, S.grads hs hlen]

theorem run_sim (S : Sim spoil o n r r' R) (hu : u.Sized) : ∀ (p : FProg V W) {b b' : Bench V T}, R b.st b'.st →
    b'.count = b.count → SameGrad u b.grad b'.grad → p.Fits n →
    (run spoil o u r' p b').2 = (run spoil o u r p b).2 ∧
    (run spoil o u r' p b').1.count = (run spoil o u r p b).1.count ∧
    (run spoil o u r' p b').1.grad = (run spoil o u r p b).1.grad ∧
    R (run spoil o u r p b).1.st (run spoil o u r' p b').1.st
  | .done x, b, b', h, hc, hg, hp => by
    have hs := S.set h hp
    simp only [run]
    rw [S.values hs, hg.pc]
    exact ⟨rfl, hc, rfl, hs⟩
  | .ask q k, b, b', h, hc, hg, hp => by
    obtain ⟨e1, e2, e3, e4⟩ := evaluate_sim S hu h hc hg hp.1
    simp only [run]
    rw [e1, S.fixes e4, e3]
    cases hr : raisedOf (evaluate spoil o u r b q).2 with
    | some e => exact ⟨rfl, e2, e3, e4⟩
    | none =>
      obtain ⟨f1, f2, f3, f4⟩ := run_sim S hu (k ⟨(evaluate spoil o u r b q).2,
        !((evaluate spoil o u r b q).1.st.optState r none).hasFixes, (evaluate spoil o u r b q).1.grad⟩) e4 e2 (.inl e3)
        (hp.2 _)
      exact ⟨by rw [f1], f2, f3, f4⟩

/-! ### The relations -/

/-- Equal `Param`s in the same order. -/
theorem twins_sim (n : Nat) (r r' : Id) : Sim spoil o n r r' (fun s s' => State.Path spoil s ∧ State.Path spoil s' ∧ s.Model r ∧
    s'.Model r' ∧ State.Twins s s' r r' ∧ s.freeCount r = n) where
  values := fun ⟨h, h', m, m', t, _⟩ => t.values h h' m m'
  fixes := fun {s s'} ⟨h, h', m, m', t, _⟩ => by
    unfold Opt.State.hasFixes
    rw [show (s'.optState r' none).cons .fixed = (s.optState r none).cons .fixed from t.cons h h' m m' .fixed]
  grads := fun ⟨h, h', m, m', t, _⟩ hd => t.gradients h h' m m' hd
  set := fun ⟨h, h', m, m', t, e⟩ hp => by
    have w := State.setArray_within (o := o) h m (hp.trans e.symm)
    have w' := State.setArray_within (o := o) h' m' ((hp.trans e.symm).trans t.freeCount.symm)
    exact ⟨w.path, w'.path, w.model m, w'.model m', t.setArray h h' m m' (hp.trans e.symm), (w.freeCount r).trans e⟩

/-- States in which the model looks the same. -/
theorem mirror_sim (n : Nat) (r : Id) : Sim spoil o n r r (fun s s' => State.Mirror s' s r) where
  values := fun M => M.values
  fixes := fun M => M.hasFixes
  grads := fun M hd => M.gradients o hd
  set := fun M _ => M.setArray o _

/-! ### What is kept -/

theorem run_within {o : Ops V T} {u : Own V W} {r : Id} : ∀ (p : FProg V W) {b : Bench V T}, State.Path spoil b.st →
    b.st.Model r → p.Fits (b.st.freeCount r) → State.Within spoil b.st (run spoil o u r p b).1.st r
  | .done x, b, h, m, hp => State.setArray_within h m hp
  | .ask q k, b, h, m, hp => by
    have h1 : State.Within spoil b.st (evaluate spoil o u r b q).1.st r := State.setArray_within (o := o) h m hp.1
    simp only [run]
    cases hr : raisedOf (evaluate spoil o u r b q).2 with
    | some e => exact h1
    | none =>
      refine h1.trans (run_within (k _) h1.path (h1.model m) ?_)
      rw [h1.freeCount]
      exact hp.2 _

theorem optimize_keeps {o : Ops V T} {u : Own V W} {b : Bench V T} (h : State.Path spoil b.st) {r : Id} (m : b.st.Model r)
    {p : List V → FProg V W} (hp : ∀ x, x.length = b.st.freeCount r → (p x).Fits (b.st.freeCount r))
    (copy : Option (List V)) (junk : List V) : State.Within spoil b.st (b.optimize spoil o u copy junk p r).1.st r := by
  simp only [optimize]
  split
  · exact .refl h r
  · exact run_within _ h m (hp _ (State.readArray_length h m copy junk))

/-- **C91.** However many evaluations raise, and whether or not the run ends with an exception, optimising a model
changes no hierarchy, no constraint, no fixed element of the model and no `Param` of other models. -/
theorem failing_within {o : Ops V T} {u : Own V W} {b : Bench V T} (h : State.Path spoil b.st) {r : Id} (m : b.st.Model r)
    {p : List V → FProg V W} (hp : ∀ x, x.length = b.st.freeCount r → (p x).Fits (b.st.freeCount r))
    (copy : Option (List V)) (junk : List V) :
    (b.optimize spoil o u copy junk p r).1.st.heap = b.st.heap ∧
    (∀ y i, Anc b.st.heap.toGraph r y → b.st.heap.leaf y = true → i ∈ b.st.heap.constraints y .fixed →
      (b.optimize spoil o u copy junk p r).1.st.mem.read y i = b.st.mem.read y i) ∧
    ∀ y, y < b.st.heap.next → b.st.heap.leaf y = true → ¬ Anc b.st.heap.toGraph r y → ∀ i, i < b.st.heap.size y →
      (b.optimize spoil o u copy junk p r).1.st.mem.read y i = b.st.mem.read y i := by
  have w := h.reach.heap.wf
  have key := optimize_keeps (o := o) (u := u) h m hp copy junk
  exact ⟨key.heap, fun y i ha hl hi =>
    key.fixed y i (((Print.flattened_inOrder w.skel w.sized r).all y).mpr ⟨ha, hl⟩) hi, key.others⟩

/-! ### Two models -/

/-- **C91.** Two models with equal `Param`s in the same order, with the same number of failures so far, whose gradient
arrays are the same (or are not looked at by `parameters_changed`): the same is asked, the same is returned, including
infinite objectives, clipped gradients and exceptions; both runs end with the same point or the same exception; and
afterwards the `Param`s, the number of failures and the gradients are equal again. Missing for the full claim: what
`tired_start_fails`, `other_gradient_fails` and `stale_start_fails` show. -/
theorem failing_alike_partial {o : Ops V T} {u : Own V W} (hu : u.Sized) {b b' : Bench V T} (h : State.Path spoil b.st)
    (h' : State.Path spoil b'.st) {r r' : Id} (m : b.st.Model r) (m' : b'.st.Model r')
    (t : List.Forall₂ (State.Equal b.st b'.st) (flattened b.st.heap.toGraph r) (flattened b'.st.heap.toGraph r'))
    (hc : b'.count = b.count) (hg : b'.grad = b.grad ∨ ∀ v, u.pc v b'.grad = u.pc v b.grad)
    {p : List V → FProg V W} (hp : ∀ x, x.length = b.st.freeCount r → (p x).Fits (b.st.freeCount r))
    (copy copy' : Option (List V)) (junk junk' : List V) :
    (b'.optimize spoil o u copy' junk' p r').2 = (b.optimize spoil o u copy junk p r).2 ∧
    (b'.optimize spoil o u copy' junk' p r').1.count = (b.optimize spoil o u copy junk p r).1.count ∧
    ((b.optimize spoil o u copy junk p r).2 ≠ none →
      (b'.optimize spoil o u copy' junk' p r').1.grad = (b.optimize spoil o u copy junk p r).1.grad) ∧
    List.Forall₂ (State.Equal (b.optimize spoil o u copy junk p r).1.st (b'.optimize spoil o u copy' junk' p r').1.st)
      (flattened b.st.heap.toGraph r) (flattened b'.st.heap.toGraph r') := by
  have t : State.Twins b.st b'.st r r' := t
  have hw := optimize_keeps (o := o) (u := u) h m hp copy junk
  have hw' := optimize_keeps (o := o) (u := u) h' m' (p := p) (by rw [t.freeCount]; exact hp) copy' junk'
  have key : (b'.optimize spoil o u copy' junk' p r').2 = (b.optimize spoil o u copy junk p r).2 ∧
      (b'.optimize spoil o u copy' junk' p r').1.count = (b.optimize spoil o u copy junk p r).1.count ∧
      ((b.optimize spoil o u copy junk p r).2 ≠ none →
        (b'.optimize spoil o u copy' junk' p r').1.grad = (b.optimize spoil o u copy junk p r).1.grad) ∧
      State.Twins (b.optimize spoil o u copy junk p r).1.st (b'.optimize spoil o u copy' junk' p r').1.st r r' := by
    simp only [optimize]
    rw [t.fixed h h' m m', t.size h h', t.read (o := o) h h' m m' copy copy' junk junk']
    split
    · exact ⟨rfl, hc, fun h => absurd rfl h, t⟩
    · obtain ⟨e1, e2, e3, e4⟩ := run_sim (twins_sim (spoil := spoil) (o := o) (b.st.freeCount r) r r') hu
        (p (b.st.readArray o r copy junk)) ⟨h, h', m, m', t, rfl⟩ hc hg (hp _ (State.readArray_length h m copy junk))
      exact ⟨by rw [e1], e2, fun _ => e3, e4.2.2.2.2.1⟩
  refine ⟨key.1, key.2.1, key.2.2.1, ?_⟩
  have k2 := key.2.2.2
  unfold State.Twins at k2
  rw [hw.heap, hw'.heap] at k2
  exact k2

/-- **C91.** The same for a copy, whose gradient array is whatever `parameters_changed` has made of it
(`__setstate__`, parameterized.py:344-350); `_fail_count` is copied (pickleable.py:104-128). -/
theorem failing_copy_alike_partial {o : Ops V T} {u : Own V W} (hu : u.Sized) {b : Bench V T} (h : State.Path spoil b.st)
    {x : Id} (m : b.st.Model x) (ok : b.st.heap.CopyOK x) (d : List V)
    (hg : d = b.grad ∨ ∀ v, u.pc v d = u.pc v b.grad)
    {p : List V → FProg V W} (hp : ∀ z, z.length = b.st.freeCount x → (p z).Fits (b.st.freeCount x))
    (copy copy' : Option (List V)) (junk junk' : List V) :
    let c : Bench V T := ⟨(b.st.copy spoil x).1, b.count, d⟩
    (c.optimize spoil o u copy' junk' p (b.st.heap.copyOf x x)).2 = (b.optimize spoil o u copy junk p x).2 ∧
    ∀ y, Anc b.st.heap.toGraph x y → b.st.heap.leaf y = true → ∀ i, i < b.st.heap.size y →
      (c.optimize spoil o u copy' junk' p (b.st.heap.copyOf x x)).1.st.mem.read (b.st.heap.copyOf x y) i =
        (b.optimize spoil o u copy junk p x).1.st.mem.read y i := by
  intro c
  have w := h.reach.heap.wf
  have hc : State.Path spoil c.st := .copy h ok (.inr m.done)
  obtain ⟨e1, -, -, e2⟩ := failing_alike_partial (o := o) hu (b := b) (b' := c) h hc m (State.copy_model h m ok)
    (State.copy_twins h ok) rfl hg hp copy copy' junk junk'
  refine ⟨e1, fun y ha hl i hi => ?_⟩
  rw [show flattened c.st.heap.toGraph (b.st.heap.copyOf x x) =
    (flattened b.st.heap.toGraph x).map (b.st.heap.copyOf x) from State.flattened_copy h ok,
    List.forall₂_map_right_iff, List.forall₂_same] at e2
  refine (e2 y (((Print.flattened_inOrder w.skel w.sized x).all y).mpr ⟨ha, hl⟩)).read i ?_
  rw [(optimize_keeps (o := o) (u := u) h m hp copy junk).heap]
  exact hi

theorem optimize_arr {o : Ops V T} {u : Own V W} {r : Id} (p : List V → FProg V W) (b : Bench V T)
    (copy : Option (List V)) (junk : List V) :
    (b.optimize spoil o u copy junk p r).1.st.mem.arr = b.st.mem.arr := by
  have key : ∀ (p : FProg V W) (b : Bench V T), (run spoil o u r p b).1.st.mem.arr = b.st.mem.arr := by
    intro p
    induction p with
    | done x => exact fun b => (State.setArray_arr o b.st r x).2
    | ask q k ih =>
      intro b
      have h1 : (evaluate spoil o u r b q).1.st.mem.arr = b.st.mem.arr := (State.setArray_arr o b.st r q.point).2
      simp only [run]
      cases raisedOf (evaluate spoil o u r b q).2 with
      | some e => exact h1
      | none => exact (ih _ _).trans h1
  simp only [optimize]
  split
  · rfl
  · exact key _ b

/-- **C91.** The same for a model that was saved and loaded. -/
theorem failing_load_alike_partial {o : Ops V T} {u : Own V W} (hu : u.Sized) {b : Bench V T} {t : State V T}
    (h : State.Path spoil b.st) {x r : Id} (m : b.st.Model x) {refs : Id → List Id} (hr : b.st.heap.Refs refs) {own : Id → Bool}
    (hl : b.st.load spoil own refs x = some (t, r)) (d : List V)
    (hg : d = b.grad ∨ ∀ v, u.pc v d = u.pc v b.grad)
    {p : List V → FProg V W} (hp : ∀ z, z.length = b.st.freeCount x → (p z).Fits (b.st.freeCount x))
    (copy copy' : Option (List V)) (junk junk' : List V) :
    let c : Bench V T := ⟨t, b.count, d⟩
    (c.optimize spoil o u copy' junk' p r).2 = (b.optimize spoil o u copy junk p x).2 ∧
    ∀ y, Anc b.st.heap.toGraph x y → b.st.heap.leaf y = true → ∀ i, i < b.st.heap.size y →
      (c.optimize spoil o u copy' junk' p r).1.st.mem.read (b.st.heap.copyOf x y) i =
        (b.optimize spoil o u copy junk p x).1.st.mem.read y i := by
  intro c
  obtain ⟨t', e, L⟩ := State.load_loadMem (spoil := spoil) h.reach.heap.wf h.reach.linked h.reach.bounded hr m.lt m.root own
  rw [hl] at e
  cases e
  rw [← Heap.copyOf_self b.st.heap x]
  have ok := State.rootOK m
  have w := h.reach.heap.wf
  have sk := w.skel
  have hh := (State.copy_heap spoil b.st x).1
  have hc : State.Path spoil (b.st.copy spoil x).1 := .copy h ok (.inr m.done)
  have M := State.load_mirror h m L
  have tw := State.copy_twins h ok
  let b2 : Bench V T := ⟨(b.st.copy spoil x).1, b.count, d⟩
  obtain ⟨k1, k2⟩ := failing_copy_alike_partial (o := o) hu h m ok d hg hp copy none junk []
  have key : (c.optimize spoil o u copy' junk' p (b.st.heap.copyOf x x)).2 =
      (b2.optimize spoil o u none [] p (b.st.heap.copyOf x x)).2 ∧
      State.Mirror (c.optimize spoil o u copy' junk' p (b.st.heap.copyOf x x)).1.st
        (b2.optimize spoil o u none [] p (b.st.heap.copyOf x x)).1.st (b.st.heap.copyOf x x) := by
    simp only [optimize]
    rw [show c.st.heap.isFixed (b.st.heap.copyOf x x) = b2.st.heap.isFixed (b.st.heap.copyOf x x) from
        M.isFixed hc.reach.heap.wf.skel,
      show c.st.heap.size (b.st.heap.copyOf x x) = b2.st.heap.size (b.st.heap.copyOf x x) from M.size,
      show c.st.readArray o (b.st.heap.copyOf x x) copy' junk' = b2.st.readArray o (b.st.heap.copyOf x x) none [] from
        M.readArray o none copy' [] junk']
    split
    · exact ⟨rfl, M⟩
    · obtain ⟨e1, -, -, e4⟩ := run_sim (mirror_sim (spoil := spoil) (o := o) (b.st.freeCount x) (b.st.heap.copyOf x x)) hu
        (p (b2.st.readArray o (b.st.heap.copyOf x x) none [])) (b := b2) (b' := c) M rfl (.inl rfl)
        (hp _ (by
          rw [← tw.freeCount]
          exact State.readArray_length hc (State.copy_model h m ok) none []))
      exact ⟨by rw [e1], e4⟩
  refine ⟨key.1.trans k1, fun y ha hy i hi => ?_⟩
  rw [← k2 y ha hy i hi]
  obtain ⟨-, ct⟩ := Heap.copy_shape h.reach.heap ok
  obtain ⟨k, hk⟩ := sk.exists_at ha
  have hwin := hk.window sk w.sized
  have e3 : b.st.heap.toGraph.size y = b.st.heap.size y := rfl
  have e4 : b.st.heap.toGraph.size x = b.st.heap.size x := rfl
  have a1 := optimize_arr (spoil := spoil) (o := o) (u := u) (r := b.st.heap.copyOf x x) p c copy' junk'
  obtain ⟨z, q, hb⟩ := L.calm x .refl
  have c1 := hb y k hk (by omega)
  have c2 := hb x 0 .refl (by omega)
  rw [show t.mem.arr = c.st.mem.arr from rfl, ← a1] at c1 c2
  have kp := optimize_keeps (o := o) (u := u) (b := b2) hc (State.copy_model h m ok) (p := p)
    (by rw [show b2.st.freeCount _ = _ from tw.freeCount]; exact hp) none []
  have mc := kp.model (State.copy_model h m ok)
  have hat : At (b2.optimize spoil o u none [] p (b.st.heap.copyOf x x)).1.st.heap.toGraph
      (b.st.heap.copyOf x x) (b.st.heap.copyOf x y) k := by
    rw [kp.heap, ← M.graph, L.heap.graph]
    exact Heap.raw_at sk hk
  have hsz : b2.st.heap = (b.st.heap.copy x).1 := hh
  have r1 := State.read_same kp.path.reach mc.lt mc.done hat (j := i) (by
    rw [kp.heap, hsz, ct.size y ha]; exact hi)
  have r2 := key.2.read (k + i) (by rw [kp.heap, hsz, ct.size x .refl]; omega)
  rw [show (Bench.optimize spoil o u none [] p (b.st.heap.copyOf x x) ⟨(b.st.copy spoil x).1, b.count, d⟩) =
    b2.optimize spoil o u none [] p (b.st.heap.copyOf x x) from rfl, r1, ← r2, Mem.read_eq c1, Mem.read_eq c2]
  congr 1
  simp only [Nat.add_zero]
  omega

/-! ### Examples and counterexamples -/

/-- As `State.plusOps`, with gradients that are multiplied by `t`. -/
def timesOps : Ops Nat Nat := { State.plusOps with gradfactor := fun t _ d => d * t }

/-- Below 260 all is well and the gradient is 3 everywhere; from there on `parameters_changed` raises and leaves the
gradient array alone. -/
def touchy : Own Nat Nat where
  F v := .ok v.sum
  pc v d := if v.sum < 260 then (v.map (fun _ => 3), none)
    else (List.zipWith (fun a _ => a) (d ++ List.replicate v.length 0) v, some .value)
  clip _ d := min d 1000

theorem touchy_sized : touchy.Sized := by
  intro v d
  simp only [touchy]
  split <;> simp

/-- Asks for the gradients at a point that may be too far, then for the objective at the start, and finds the start. -/
def farFirst (x : List Nat) : FProg Nat Nat :=
  .ask (.both (x.map (· + 2))) (fun _ => .ask (.objective x) (fun _ => .done x))

theorem farFirst_fits (x : List Nat) : (farFirst x).Fits x.length :=
  ⟨by simp [Query.point], fun _ => ⟨rfl, fun _ => rfl⟩⟩

/-- Asks eleven times at a point that is too far. -/
def stubborn (x : List Nat) : Nat → FProg Nat Nat
  | 0 => .done x
  | n + 1 => .ask (.objective (x.map (· + 2))) (fun _ => stubborn x n)

/-- The model `seen` after `parameters_changed`. -/
def touchySeen : Bench Nat Nat := ⟨State.seen, 0, [3, 3, 3, 3, 3, 3, 3, 3]⟩

/-- One failure is tolerated; the copy does the same. -/
example : (∀ x, x.length = State.seen.freeCount 0 → (farFirst x).Fits (State.seen.freeCount 0)) ∧
    (touchySeen.optimize State.demoSpoil timesOps touchy none [] farFirst 0).2 =
      some ([(.both [12, 6, 32, 34, 42, 44, 45], .infClipped [3, 21, 3, 3, 3, 24, 24]),
        (.objective [10, 4, 30, 32, 40, 42, 43], .objective 255)], .ok [10, 4, 30, 32, 40, 42, 43]) ∧
    (Bench.optimize State.demoSpoil timesOps touchy none [] farFirst (State.seen.heap.copyOf 0 0)
      ⟨(State.seen.copy State.demoSpoil 0).1, 0, [3, 3, 3, 3, 3, 3, 3, 3]⟩).2 =
      some ([(.both [12, 6, 32, 34, 42, 44, 45], .infClipped [3, 21, 3, 3, 3, 24, 24]),
        (.objective [10, 4, 30, 32, 40, 42, 43], .objective 255)], .ok [10, 4, 30, 32, 40, 42, 43]) :=
  ⟨fun x hx => hx ▸ farFirst_fits x, by decide +kernel, by decide +kernel⟩

theorem stubborn_fits (x : List Nat) : ∀ n, (stubborn x n).Fits x.length
  | 0 => rfl
  | n + 1 => ⟨by simp [Query.point], fun _ => stubborn_fits x n⟩

/-- After a run that ended with an exception. -/
def worn : Bench Nat Nat := (touchySeen.optimize State.demoSpoil timesOps touchy none [] (fun x => stubborn x 11) 0).1

/-- `worn`, set back to the values before that run. -/
def setBack : Bench Nat Nat := ⟨worn.st.setArray State.demoSpoil timesOps 0 [10, 4, 30, 32, 40, 42, 43], worn.count,
  (touchy.pc (State.seen.values 0) worn.grad).1⟩

theorem setBack_heap : setBack.st.heap = State.seen.heap := by
  have h1 : worn.st.heap = State.seen.heap := (failing_within (o := timesOps) (u := touchy) (b := touchySeen)
    State.seen_path State.seen_model (p := fun x => stubborn x 11) (fun x hx => by
      have hx : x.length = touchySeen.st.freeCount 0 := hx
      rw [← hx]
      exact stubborn_fits x 11) none []).1
  rw [← h1]
  exact State.setArray_heap _ _ _ _

/-- The eleventh failure in a row ends a run with the exception, and `_fail_count` stays where it is: optimising the
model again raises at the first failure, while an equal model that has not failed before carries on. -/
theorem tired_start_fails :
    setBack.st.values 0 = touchySeen.st.values 0 ∧ setBack.st.heap = touchySeen.st.heap ∧
    setBack.grad = touchySeen.grad ∧
    (setBack.optimize State.demoSpoil timesOps touchy none [] farFirst 0).2.map (fun z => z.2) = some (.error .value) ∧
    (touchySeen.optimize State.demoSpoil timesOps touchy none [] farFirst 0).2.map (fun z => z.2) =
      some (.ok [10, 4, 30, 32, 40, 42, 43]) :=
  ⟨by decide +kernel, setBack_heap, by decide +kernel, by decide +kernel, by decide +kernel⟩

/-- After `_grads` at its own point, which is how `checkgrad` ends (model.py:330), the gradient array of a model is
transformed, and transformed again when the next evaluation raises before the gradient has been set. A copy made now
starts with the gradient itself: the two are given different gradients. -/
theorem other_gradient_fails :
    let b := (evaluate State.demoSpoil timesOps touchy 0 touchySeen (.grads [10, 4, 30, 32, 40, 42, 43])).1
    let c : Bench Nat Nat := ⟨(b.st.copy State.demoSpoil 0).1, b.count, (touchy.pc (b.st.values 0) []).1⟩
    b.st.values 0 = State.seen.values 0 ∧ c.st.values (b.st.heap.copyOf 0 0) = b.st.values 0 ∧
    (b.optimize State.demoSpoil timesOps touchy none [] farFirst 0).2.map (·.1.head?) =
      some (some (.both [12, 6, 32, 34, 42, 44, 45], .infClipped [3, 147, 3, 3, 3, 192, 192])) ∧
    (c.optimize State.demoSpoil timesOps touchy none [] farFirst (b.st.heap.copyOf 0 0)).2.map (·.1.head?) =
      some (some (.both [12, 6, 32, 34, 42, 44, 45], .infClipped [3, 21, 3, 3, 3, 24, 24])) :=
  ⟨by decide +kernel, by decide +kernel, by decide +kernel, by decide +kernel⟩

end Bench

end Paramz.Memory

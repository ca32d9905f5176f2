import Verif.Opt.WatchProps
import Verif.Run.Failures

/-!
# Watching an optimisation in which evaluations fail (C92)

Source: `paramz/model.py:44-116, 225-282`, `paramz/core/parameter_core.py:95-124, 502-508`, and what `Verif.Opt.Watch`
models.
-/

set_option linter.unusedSectionVars false

namespace Paramz.Opt

open Hier (Con Id)

variable {V T W : Type} [DecidableEq T]

/-! ### Model -/

/-- What the model's own code does at some values. `early`: `parameters_changed` raises. `late`: `objective_function`
raises. The exception is one of those that are caught (`LinAlgError`, `ZeroDivisionError`, `ValueError`, model.py:240, 264,
275), or not. -/
inductive Fate
  | fine
  | early (caught : Bool)
  | late (caught : Bool)
deriving DecidableEq

/-- The user's model. -/
structure Code (V W : Type) where
  /-- The gradients that `parameters_changed` leaves, when it does not raise. -/
  grad : List V → List V
  /-- The gradients that it leaves when it raises, given the values and the gradients before. -/
  left : List V → List V → List V
  /-- The objective. -/
  value : List V → W
  fate : List V → Fate
  /-- `np.inf`. -/
  inf : W
  /-- `np.clip(..., -1e100, 1e100)` (model.py:244) and `np.clip(..., -1e10, 1e10)` (model.py:280). -/
  clip : Call V → List V → List V

/-- The exception of an evaluation: the objective is not computed by `_grads` (model.py:225-246). -/
def Fate.hits : Fate → Call V → Option Bool
  | .fine, _ => none
  | .early b, _ => some b
  | .late b, c => if c.wantsValue then some b else none

/-- The setter of `optimizer_array` (parameter_core.py:95-124): the values are stored and the copy counts as out of date
before `parameters_changed` is called, which may raise. -/
def State.arrive (o : Ops V T) (u : Code V W) (s : State V T) (p : List V) : State V T :=
  match u.fate (s.setVals o p) with
  | .early _ => { s with vals := s.setVals o p, fresh := false, grad := u.left (s.setVals o p) s.grad }
  | _ => s.setOpt o u.grad p

/-- One evaluation (model.py:225-282), `k` is `_fail_count`, of which `max` are allowed. `none`: the exception is passed
on. Simplified: `objective_function_gradients`, which is called again after a failure, does not raise (it returns the
gradient array, model.py:206-223). -/
def State.attempt (o : Ops V T) (u : Code V W) (junk : List V) (max : Nat) (b : Bool) (s : State V T) (k : Nat)
    (c : Call V) : State V T × Nat × Option (Shown V W) :=
  let s1 := (s.arrive o u c.point).look o junk b
  let r := s1.optGrad o
  match (u.fate s1.vals).hits c with
  | none =>
    let v := if c.wantsValue then some (u.value s1.vals) else none
    if c.wantsGrads then (r.1, 0, some ⟨v, r.2, r.1.grad⟩) else (s1, 0, some ⟨v, [], s1.grad⟩)
  | some caught =>
    if !caught || decide (max ≤ k) then (s1, k, none)
    else
      let v := if c.wantsValue then some u.inf else none
      if c.wantsGrads then (r.1, k + 1, some ⟨v, u.clip c r.2, r.1.grad⟩) else (s1, k + 1, some ⟨v, [], s1.grad⟩)

/-- What can be seen of an optimisation: the evaluations with what they gave (`none`: an exception that ends the
optimisation), `x_opt` if there is one, whether `optimize()` raises, and the values at the end. -/
structure Course (V W : Type) where
  evals : List (Call V × Option (Shown V W))
  xopt : Option (List V)
  raised : Bool
  vals : List V

/-- One more evaluation in front. -/
def Course.after (e : Call V × Option (Shown V W)) (r : Course V W) : Course V W := { r with evals := e :: r.evals }

/-- The rest of the optimisation. `w n` tells whether someone reads at the `n`-th evaluation. At the end `x_opt` is stored
(model.py:113), which can raise in `parameters_changed`; the objective is not computed there. -/
def State.follow (o : Ops V T) (u : Code V W) (junk : List V) (max : Nat) (w : Nat → Bool) :
    Plan V W → Nat → Nat → State V T → List V → Course V W
  | .done x, _, _, s, own =>
    let s1 := s.arrive o u (x.getD (s.held own))
    ⟨[], some (x.getD (s.held own)), ((u.fate s1.vals).hits (.grads (x.getD (s.held own)))).isSome, s1.vals⟩
  | .put l k, n, f, s, own => State.follow o u junk max w k n f (s.scribble l) (if s.hasFixes then l else own)
  | .ask c k, n, f, s, own =>
    let r := s.attempt o u junk max (w n) f c
    match r.2.2 with
    | none => ⟨[(c, none)], none, true, r.1.vals⟩
    | some a => (State.follow o u junk max w (k ⟨a, r.1.held own⟩) (n + 1) r.2.1 r.1 own).after (c, some a)

/-- `optimize()` (model.py:65-116) of a model whose updates are on; `none` if there is nothing to optimise. -/
def State.endeavour (o : Ops V T) (u : Code V W) (junk : List V) (max f : Nat) (w : Nat → Bool)
    (p : List V → Plan V W) (s : State V T) : Option (Course V W) :=
  if s.heap.isFixed s.root || decide (s.size = 0) then none
  else
    let r := s.readOpt o junk
    some (State.follow o u junk max w (p r.2) 0 f r.1 r.2)

/-! ### Lemmas -/

section

variable (o : Ops V T) (u : Code V W) (junk : List V) (max : Nat)

/-- Whether or not `parameters_changed` raises, everything but the gradients is as after the setter. -/
theorem arrive_eq (s : State V T) (p : List V) : ∃ d, s.arrive o u p = { s.setOpt o u.grad p with grad := d } := by
  unfold State.arrive
  split
  · refine ⟨u.left (s.setVals o p) s.grad, ?_⟩
    unfold State.setOpt State.notify
    dsimp only
    split <;> rfl
  · exact ⟨_, rfl⟩

theorem akin_arrive {s : State V T} (r : Ready s) (p : List V) : Akin s (s.arrive o u p) := by
  have a := akin_setOpt o u.grad r p
  obtain ⟨d, e⟩ := arrive_eq o u s p
  rw [e]
  exact ⟨a.heap, a.root, a.on, a.ready.keep rfl rfl rfl, a.fixed⟩

theorem Alias.arrive {s s' : State V T} (h : Alias s s') (p : List V) : Alias (s.arrive o u p) (s'.arrive o u p) := by
  have hv := h.setVals o p
  unfold State.arrive
  rw [hv]
  split
  · exact .of h.heap h.root rfl (by rw [h.grad]) h.on
  · exact h.setOpt o u.grad p

theorem attempt_alias (b b' : Bool) {s s' : State V T} (r : Ready s) (r' : Ready s') (h : Alias s s') (k : Nat) (c : Call V) :
    Alias (s.attempt o u junk max b k c).1 (s'.attempt o u junk max b' k c).1 ∧
      (s'.attempt o u junk max b' k c).2 = (s.attempt o u junk max b k c).2 := by
  have h1 : Alias ((s.arrive o u c.point).look o junk b) ((s'.arrive o u c.point).look o junk b') :=
    ((Alias.look o junk b (akin_arrive o u r _).ready).symm.trans (h.arrive o u c.point)).trans
      (Alias.look o junk b' (akin_arrive o u r' _).ready)
  have h2 := h1.optGrad o
  unfold State.attempt
  dsimp only
  rw [h1.vals]
  split
  · split
    · exact ⟨h2.1, by rw [h2.2, h2.1.grad]⟩
    · exact ⟨h1, by rw [h1.grad]⟩
  · split
    · exact ⟨h1, rfl⟩
    · split
      · exact ⟨h2.1, by rw [h2.2, h2.1.grad]⟩
      · exact ⟨h1, by rw [h1.grad]⟩

/-- The model after an evaluation: as it was told of the point, but for the gradients. -/
theorem attempt_state (b : Bool) (s : State V T) (k : Nat) (c : Call V) :
    (s.attempt o u junk max b k c).1 = (s.arrive o u c.point).look o junk b ∨
      (s.attempt o u junk max b k c).1 = (((s.arrive o u c.point).look o junk b).optGrad o).1 := by
  unfold State.attempt
  dsimp only
  split
  · split
    · exact .inr rfl
    · exact .inl rfl
  · split
    · exact .inl rfl
    · split
      · exact .inr rfl
      · exact .inl rfl

theorem akin_attempt (b : Bool) {s : State V T} (r : Ready s) (k : Nat) (c : Call V) :
    Akin s (s.attempt o u junk max b k c).1 := by
  have h1 := akin_arrive o u r c.point
  have h2 := h1.trans (akin_look o junk b h1.ready)
  rcases attempt_state o u junk max b s k c with e | e
  · rw [e]; exact h2
  · rw [e]; exact h2.trans (akin_optGrad o h2.ready)

/-- An evaluation where the optimiser stands leaves `x_init` as it is, watched or not. -/
theorem attempt_keeps (b : Bool) {s : State V T} (r : Ready s) (hf : s.hasFixes = false) (k : Nat) {c : Call V}
    (hc : s.copy = some c.point) (hr : RoundTrips o s c.point) :
    (s.attempt o u junk max b k c).1.copy = some c.point := by
  have key : ((s.arrive o u c.point).look o junk b).copy = some c.point := by
    have hf' : (s.setOpt o u.grad c.point).hasFixes = false := by
      unfold State.hasFixes at hf ⊢; rw [(akin_setOpt o u.grad r _).cons]; exact hf
    obtain ⟨d, e⟩ := arrive_eq o u s c.point
    rw [e]
    cases b with
    | false =>
      show (s.setOpt o u.grad c.point).copy = _
      unfold State.setOpt
      rw [notify_copy]
      exact hc
    | true =>
      have h := set_then_read o u.grad (junk := junk) r hr.1 hr.2
      show (State.readOpt o junk { s.setOpt o u.grad c.point with grad := d }).1.copy = _
      have hf'' : ({ s.setOpt o u.grad c.point with grad := d } : State V T).hasFixes = false := hf'
      simp only [State.readOpt, hf'] at h
      simp only [State.readOpt, hf'']
      exact congrArg some h
  rcases attempt_state o u junk max b s k c with e | e
  · rw [e]; exact key
  · rw [e]; exact key

theorem akin_fixes {s s' : State V T} (h : Akin s s') : s'.hasFixes = s.hasFixes := by
  unfold State.hasFixes; rw [h.cons]

variable (w w' : Nat → Bool)

theorem follow_fixes (p : Plan V W) : ∀ (n f : Nat) {s s' : State V T} (own : List V), Ready s → Ready s' → Alias s s' →
      s.hasFixes = true → State.follow o u junk max w' p n f s' own = State.follow o u junk max w p n f s own := by
  induction p with
  | done x =>
    intro n f s s' own r r' h hf
    simp only [State.follow]
    rw [held_fixes hf, held_fixes (h.hasFixes.trans hf), (h.arrive o u _).vals]
  | put l k ih =>
    intro n f s s' own r r' h hf
    simp only [State.follow]
    rw [if_pos hf, if_pos (h.hasFixes.trans hf)]
    refine ih n f _ (scribble_ready r l) (scribble_ready r' l) ((Alias.scribble l).symm.trans (h.trans (Alias.scribble l))) ?_
    rw [(Alias.scribble l).hasFixes]; exact hf
  | ask c k ih =>
    intro n f s s' own r r' h hf
    obtain ⟨h1, h2⟩ := attempt_alias o u junk max (w n) (w' n) r r' h f c
    have b1 := akin_attempt o u junk max (w n) r f c
    have b2 := akin_attempt o u junk max (w' n) r' f c
    have f1 := (akin_fixes b1).trans hf
    simp only [State.follow]
    rw [held_fixes f1, held_fixes (h1.hasFixes.trans f1), h2]
    split
    · rw [h1.vals]
    · exact congrArg (Course.after _) (ih _ (n + 1) _ own b1.ready b2.ready h1 f1)

theorem follow_blind {p : Plan V W} (hp : Blind p) : ∀ (n f : Nat) {s s' : State V T} (own own' : List V), Ready s → Ready s' →
      Alias s s' → State.follow o u junk max w' p n f s' own' = State.follow o u junk max w p n f s own := by
  induction hp with
  | done x =>
    intro n f s s' own own' r r' h
    simp only [State.follow, Option.getD_some]
    rw [(h.arrive o u _).vals]
  | ask hk hb ih =>
    intro n f s s' own own' r r' h
    rename_i c k
    obtain ⟨h1, h2⟩ := attempt_alias o u junk max (w n) (w' n) r r' h f c
    have b1 := akin_attempt o u junk max (w n) r f c
    have b2 := akin_attempt o u junk max (w' n) r' f c
    simp only [State.follow]
    rw [h2]
    split
    · rw [h1.vals]
    · rename_i a _
      rw [hk a ((s'.attempt o u junk max (w' n) f c).1.held own') ((s.attempt o u junk max (w n) f c).1.held own)]
      exact congrArg (Course.after _) (ih _ (n + 1) _ own own' b1.ready b2.ready h1)

theorem follow_inPlace {s0 : State V T} (hf : s0.hasFixes = false) {x : List V} {p : Plan V W}
    (hp : InPlace (RoundTrips o s0) x p) :
    ∀ (n f : Nat) {s s' : State V T} (own own' : List V), Akin s0 s → Akin s0 s' → Alias s s' → s.copy = some x →
      s'.copy = some x → State.follow o u junk max w' p n f s' own' = State.follow o u junk max w p n f s own := by
  have fixes : ∀ {s : State V T}, Akin s0 s → s.hasFixes = false := fun h => (akin_fixes h).trans hf
  induction hp with
  | done x =>
    intro n f s s' own own' a a' h hc hc'
    simp only [State.follow, Option.getD_none]
    rw [held_free (fixes a), held_free (fixes a'), hc, hc', (h.arrive o u _).vals]
  | put hk ih =>
    intro n f s s' own own' a a' h hc hc'
    rename_i x l k
    simp only [State.follow]
    have e : ∀ {s : State V T}, s.hasFixes = false → (s.scribble l).copy = some l := fun h => by
      unfold State.scribble; rw [if_neg (by simp [h])]
    exact ih n f _ _ (a.trans (akin_scribble a.ready l)) (a'.trans (akin_scribble a'.ready l))
      ((Alias.scribble l).symm.trans (h.trans (Alias.scribble l))) (e (fixes a)) (e (fixes a'))
  | ask hc hx hk ih =>
    intro n f s s' own own' a a' h hs hs'
    rename_i x c k
    subst hc
    obtain ⟨h1, h2⟩ := attempt_alias o u junk max (w n) (w' n) a.ready a'.ready h f c
    have k1 := attempt_keeps o u junk max (w n) a.ready (fixes a) f hs (hx.akin a)
    have k2 := attempt_keeps o u junk max (w' n) a'.ready (fixes a') f hs' (hx.akin a')
    have b1 := a.trans (akin_attempt o u junk max (w n) a.ready f c)
    have b2 := a'.trans (akin_attempt o u junk max (w' n) a'.ready f c)
    simp only [State.follow]
    rw [h2]
    split
    · rw [h1.vals]
    · rw [held_free (fixes b1), held_free (fixes b2), k1, k2]
      exact congrArg (Course.after _) (ih _ (n + 1) _ own own' b1 b2 h1 k1 k2)

end

/-! ### C92 -/

/-- C92, also when evaluations fail: with an element fixed, an optimisation takes the same course whether or not it is
watched, whatever the optimiser: the same points are evaluated with the same results, the same evaluations fail, the
optimisation is given up at the same evaluation if at all, and `x_opt` and the values at the end are the same. -/
theorem watching_failures_with_fixes (o : Ops V T) (u : Code V W) (junk : List V) (max f : Nat) (w : Nat → Bool)
    (p : List V → Plan V W) {s : State V T} (r : Ready s) (hf : s.cons .fixed ≠ []) :
    s.endeavour o u junk max f w p = s.endeavour o u junk max f (fun _ => false) p := by
  unfold State.endeavour
  split
  · rfl
  · have a := akin_read o r junk
    refine congrArg some (follow_fixes o u junk max _ w _ 0 f _ a.ready a.ready (.refl _) ?_)
    rw [akin_fixes a]
    exact decide_eq_true hf

/-- C92 (partial), also when evaluations fail: an optimisation takes the same course whether or not it is watched, if the
optimiser copies its start and leaves it alone, or if it works in its start and evaluates only where it stands, at points
that are read back as they were set (C31). Missing: any other optimiser when nothing is fixed, see `watching_scg_fails`. -/
theorem watching_failures_partial (o : Ops V T) (u : Code V W) (junk : List V) (max f : Nat) (w : Nat → Bool)
    (p : List V → Plan V W) {s : State V T} (r : Ready s)
    (h : (∀ x, Blind (p x)) ∨ ∀ x, x.length = (free s).length → InPlace (RoundTrips o s) x (p x)) (hc : Coherent o s) :
    s.endeavour o u junk max f w p = s.endeavour o u junk max f (fun _ => false) p := by
  by_cases hf : s.cons .fixed = []
  · unfold State.endeavour
    split
    · rfl
    · have a := akin_read o r junk
      have hf1 : s.hasFixes = false := decide_eq_false (fun h => h hf)
      refine congrArg some ?_
      rcases h with hb | hi
      · exact follow_blind o u junk max _ w (hb _) 0 f _ _ a.ready a.ready (.refl _)
      · have hl : (s.readOpt o junk).2.length = (free s).length := by
          rw [(readOpt_lists r hc junk).1, ← free_length r.toHeld]
        exact follow_inPlace o u junk max _ w hf1 (hi _ hl) 0 f _ _ a a (.refl _) (read_copy o junk hf1) (read_copy o junk hf1)
  · exact watching_failures_with_fixes o u junk max f w p r hf

/-! ### The same evaluations as in C45 -/

/-- What happens in an evaluation at the values `v`, in the terms of C45; `d` are the gradients in optimiser space. -/
def Code.asCall (u : Code V W) (v d : List V) (c : Call V) : Run.Call W (List V) :=
  let out {α : Type} (a : α) : Except Run.Exc α := match (u.fate v).hits c with
    | none => .ok a
    | some true => .error .linAlg
    | some false => .error (.other 0)
  match c with
  | .objective _ => .objective (out (u.value v))
  | .grads _ => .grads (out d) (.ok d)
  | .both _ => .both (out (u.value v, d)) (.ok d)

/-- The objective and the gradients that the optimiser gets. -/
def Code.gives (u : Code V W) (c : Call V) : Run.Res W (List V) → Option (Option W × List V)
  | .objective v => some (some v, [])
  | .grads d => some (none, d)
  | .both v d => some (some v, d)
  | .infinite => some (some u.inf, [])
  | .clipped d => some (none, u.clip c d)
  | .infClipped d => some (some u.inf, u.clip c d)
  | .raised _ => none

/-- An evaluation gives what it gives according to C45, and counts failures as there, for the values that the point leads
to and the gradients of the model. -/
theorem attempt_as_call (o : Ops V T) (u : Code V W) (junk : List V) (b : Bool) {s : State V T} (r : Ready s) (k : Nat)
    (c : Call V) :
    let v := s.setVals o c.point
    let d := ((s.arrive o u c.point).optGrad o).2
    let e := s.attempt o u junk Run.allowed b k c
    let p := Run.step k (u.asCall v d c)
    e.2.1 = p.1 ∧ e.2.2.map (fun a => (a.value, a.grads)) = u.gives c p.2 := by
  have hl := Alias.look o junk b (akin_arrive o u r c.point).ready
  have hv : ((s.arrive o u c.point).look o junk b).vals = s.setVals o c.point := by
    rw [hl.vals]
    unfold State.arrive
    split
    · rfl
    · unfold State.setOpt State.notify
      split <;> rfl
  have hd := (hl.optGrad o).2
  intro v d e p
  have hv : ((s.arrive o u c.point).look o junk b).vals = v := hv
  have hd : (((s.arrive o u c.point).look o junk b).optGrad o).2 = d := hd
  simp only [e, p, State.attempt, Code.asCall, hv, hd]
  cases c with
  | objective x =>
    cases hh : (u.fate v).hits (.objective x) with
    | none => simp [Run.step, Run.objective, Call.wantsValue, Call.wantsGrads, Code.gives]
    | some q =>
      cases q <;> by_cases hk : Run.allowed ≤ k <;>
        simp [Run.step, Run.objective, Call.wantsValue, Call.wantsGrads, Code.gives, Run.Exc.numerical, hk]
  | grads x =>
    cases hh : (u.fate v).hits (.grads x) with
    | none => simp [Run.step, Run.grads, Call.wantsValue, Call.wantsGrads, Code.gives]
    | some q =>
      cases q <;> by_cases hk : Run.allowed ≤ k <;>
        simp [Run.step, Run.grads, Call.wantsValue, Call.wantsGrads, Code.gives, Run.Exc.numerical, hk]
  | both x =>
    cases hh : (u.fate v).hits (.both x) with
    | none => simp [Run.step, Run.objectiveGrads, Call.wantsValue, Call.wantsGrads, Code.gives]
    | some q =>
      cases q <;> by_cases hk : Run.allowed ≤ k <;>
        simp [Run.step, Run.objectiveGrads, Call.wantsValue, Call.wantsGrads, Code.gives,
          Run.Exc.numerical, hk]

/-! ### Examples -/

/-- `2 v²`, which cannot be evaluated at 1/2 (an exception that is caught) and at -1 (one that is not). The objective
cannot be computed at 2. -/
def roughCode : Code ℚ ℚ where
  grad := bowlG
  left _ d := d
  value := bowlF
  fate v := if v = [1 / 2] then .early true else if v = [-1] then .early false else if v = [2] then .late true else .fine
  inf := 1000000
  clip _ d := d

example (w : Nat → Bool) (max f : Nat) : bowl.endeavour shiftOps roughCode [] max f w (descent 3) =
    bowl.endeavour shiftOps roughCode [] max f (fun _ => false) (descent 3) :=
  watching_failures_partial _ _ _ _ _ w _ bowl_ready (.inr (descent_inPlace 3)) (coherent_of_stale rfl)

/-- The second evaluation fails: the gradients of the first are used again. -/
example : (bowl.endeavour shiftOps roughCode [] 10 0 (fun n => decide (n = 1)) (descent 3)).map
    (fun e => (e.evals.map (fun a => (a.1.point, a.2.map (·.grads))), e.xopt, e.raised, e.vals)) =
      some ([([1], some [4]), ([1 / 2], some [4]), ([0], some [0])], some [0], false, [0]) := by
  decide +kernel

/-- No failure is allowed any more: `optimize()` raises, and leaves the model where it failed. -/
example : (bowl.endeavour shiftOps roughCode [] 10 10 (fun _ => true) (descentCopy 3)).map
    (fun e => (e.evals.map (fun a => (a.1.point, a.2.map (·.grads))), e.xopt, e.raised, e.vals)) =
      some ([([1], some [4]), ([1 / 2], some [4]), ([0], some [0])], some [0], false, [0]) ∧
    (bowl.endeavour shiftOps roughCode [] 0 0 (fun _ => true) (descentCopy 3)).map
    (fun e => (e.evals.map (fun a => (a.1.point, a.2.map (·.grads))), e.xopt, e.raised, e.vals)) =
      some ([([1], some [4]), ([1 / 2], none)], none, true, [1 / 2]) := by
  refine ⟨?_, ?_⟩ <;> decide +kernel

/-- C92: Asking for gradients does not compute the objective: where the objective raises, everything is as with code whose
objective does not raise; the count of failures starts again at 0. -/
theorem gradients_without_objective (o : Ops V T) (u : Code V W) (junk : List V) (max : Nat) (b : Bool) (s : State V T)
    (k : Nat) (x : List V) :
    s.attempt o u junk max b k (.grads x) =
      s.attempt o { u with fate := fun v => match u.fate v with | .late _ => .fine | f => f } junk max b k (.grads x) := by
  have ha : s.arrive o u x =
      s.arrive o { u with fate := fun v => match u.fate v with | .late _ => .fine | f => f } x := by
    unfold State.arrive
    dsimp only
    cases u.fate (s.setVals o x) <;> rfl
  unfold State.attempt
  dsimp only [Call.point]
  rw [← ha]
  generalize (s.arrive o u x).look o junk b = s1
  cases u.fate s1.vals <;> rfl

/-- An optimiser that asks for everything. -/
def prober (_ : List ℚ) : Plan ℚ ℚ :=
  .ask (.both [2]) fun _ => .ask (.grads [2]) fun _ => .ask (.objective [1 / 2]) fun _ => .ask (.objective [3]) fun _ =>
    .ask (.objective [-1]) fun _ => .done (some [7])

/-- Objectives: infinite where they cannot be computed, gradients are not affected (`_grads`), exceptions of other kinds end
the optimisation, and so does `x_opt` where `parameters_changed` raises. -/
example :
    let e := bowl.endeavour shiftOps roughCode [] 10 0 (fun _ => true) prober
    e.map (fun e => e.evals.map (fun a => a.2.map (·.value))) =
      some [some (some 1000000), some none, some (some 1000000), some (some 18), none] ∧
    e.map (fun e => e.evals.map (fun a => a.2.map (·.grads))) = some [some [8], some [8], some [], some [], none] ∧
    e.map (fun e => (e.xopt, e.raised, e.vals)) = some (none, true, [-1]) ∧
    (bowl.endeavour shiftOps roughCode [] 10 0 (fun _ => true) (fun _ => .done (some [1 / 2]))).map
    (fun e => (e.xopt, e.raised, e.vals)) = some (some [1 / 2], true, [1 / 2]) := by
  refine ⟨?_, ?_, ?_, ?_⟩ <;> decide +kernel

end Paramz.Opt

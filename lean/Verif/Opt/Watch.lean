import Verif.Opt.Optimize

/-!
# Code that reads while a model is optimised (C92): model and lemmas

Source: `paramz/model.py:44-116, 225-282`, `paramz/core/parameter_core.py:66-124, 502-508`,
`paramz/parameterized.py:352-370`, `paramz/optimization/scg.py:44-174`,
`paramz/optimization/optimization.py:222-355`.

`optimize()` hands the optimiser `self.optimizer_array`. Without fixes this is the stored copy of the model
itself, and every later read of `optimizer_array` refreshes it in place. A read can come from
`parameters_changed`, from an observer of the model, or from `m.copy()` called there.

Failed evaluations are left out (C45), and so are records and messages.
-/

set_option linter.unusedSectionVars false

namespace Paramz.Opt

open Hier (Con Id)

variable {V T W : Type} [DecidableEq T]

/-! ### Model -/

/-- What the optimiser gets from one evaluation, and what it can see of the model's gradient array. -/
structure Shown (V W : Type) where
  /-- The objective (model.py:248-282). -/
  value : Option W
  /-- The gradients (model.py:225-246, 271-282). -/
  grads : List V
  /-- The gradient array of the model. -/
  array : List V

/-- What an optimiser knows after an evaluation: what it was shown, and the contents of the array `x_init`. -/
structure Seen (V W : Type) where
  shown : Shown V W
  start : List V

/-- An optimiser at work (`opt.run(start, ...)`, model.py:111): it ends with `x_opt` (`none` is the array `x_init`
itself), writes into `x_init`, or evaluates. -/
inductive Plan (V W : Type)
  | done (x : Option (List V))
  | put (l : List V) (k : Plan V W)
  | ask (c : Call V) (k : Seen V W → Plan V W)

/-- The point of an evaluation. -/
def Call.point : Call V → List V
  | .objective x => x
  | .grads x => x
  | .both x => x

/-- The gradients are wanted (model.py:225-282). -/
def Call.wantsGrads : Call V → Bool
  | .objective _ => false
  | .grads _ => true
  | .both _ => true

/-- The objective is wanted (model.py:225-282). -/
def Call.wantsValue : Call V → Bool
  | .objective _ => true
  | .grads _ => false
  | .both _ => true

/-- Someone reads `m.optimizer_array`, or does not (parameter_core.py:66-93). -/
def State.look (o : Ops V T) (junk : List V) (b : Bool) (s : State V T) : State V T :=
  if b then (s.readOpt o junk).1 else s

/-- One evaluation (model.py:225-282); `b` tells whether someone reads `m.optimizer_array` when the model is told
of the new point. -/
def State.eval (o : Ops V T) (g : List V → List V) (F : List V → W) (junk : List V) (b : Bool) (s : State V T)
    (c : Call V) : State V T × Shown V W :=
  let s1 := (s.setOpt o g c.point).look o junk b
  let r := s1.optGrad o
  let v := if c.wantsValue then some (F s1.vals) else none
  if c.wantsGrads then (r.1, ⟨v, r.2, r.1.grad⟩) else (s1, ⟨v, [], s1.grad⟩)

/-- The contents of `x_init`: with fixes it is an array of its own (parameter_core.py:90-92), without fixes it is
the stored copy of the model (parameter_core.py:93). -/
def State.held (s : State V T) (own : List V) : List V := if s.hasFixes then own else s.copy.getD []

/-- What can be seen of an optimisation: the evaluations with what they gave, `x_opt`, and the values at the end. -/
structure Outcome (V W : Type) where
  evals : List (Call V × Shown V W)
  xopt : List V
  vals : List V

/-- One more evaluation in front. -/
def Outcome.after (e : Call V × Shown V W) (r : Outcome V W) : Outcome V W := { r with evals := e :: r.evals }

/-- The rest of the optimisation. `w n` tells whether someone reads at the `n`-th evaluation. -/
def State.play (o : Ops V T) (g : List V → List V) (F : List V → W) (junk : List V) (w : Nat → Bool) :
    Plan V W → Nat → State V T → List V → Outcome V W
  | .done x, _, s, own => ⟨[], x.getD (s.held own), (s.setOpt o g (x.getD (s.held own))).vals⟩
  | .put l k, n, s, own => State.play o g F junk w k n (s.scribble l) (if s.hasFixes then l else own)
  | .ask c k, n, s, own =>
    let r := s.eval o g F junk (w n) c
    (State.play o g F junk w (k ⟨r.2, r.1.held own⟩) (n + 1) r.1 own).after (c, r.2)

/-- `optimize()` (model.py:65-116); `none` if there is nothing to optimise. -/
def State.optimise (o : Ops V T) (g : List V → List V) (F : List V → W) (junk : List V) (w : Nat → Bool)
    (p : List V → Plan V W) (s : State V T) : Option (Outcome V W) :=
  if s.heap.isFixed s.root || decide (s.size = 0) then none
  else
    let r := (s.begin g).readOpt o junk
    some (State.play o g F junk w (p r.2) 0 r.1 r.2)

/-! ### Kinds of optimisers -/

/-- The optimiser never looks at `x_init` again, does not write into it and returns an array of its own. -/
inductive Blind : Plan V W → Prop
  | done (x : List V) : Blind (.done (some x))
  | ask {c : Call V} {k : Seen V W → Plan V W} (h : ∀ a l l', k ⟨a, l⟩ = k ⟨a, l'⟩) (hk : ∀ a, Blind (k a)) :
      Blind (.ask c k)

/-- The optimiser works in `x_init` itself and evaluates only where it stands, as far as `x_init` still holds what
it left there. `R` restricts the points. -/
inductive InPlace (R : List V → Prop) : List V → Plan V W → Prop
  | done (x : List V) : InPlace R x (.done none)
  | put {x l : List V} {k : Plan V W} (hk : InPlace R l k) : InPlace R x (.put l k)
  | ask {x : List V} {c : Call V} {k : Seen V W → Plan V W} (hc : c.point = x) (hx : R x)
      (hk : ∀ a, InPlace R x (k ⟨a, x⟩)) : InPlace R x (.ask c k)

/-! ### Lemmas -/

/-- The states agree on everything but the stored copy. -/
def Alias (s s' : State V T) : Prop := s' = { s with copy := s'.copy, fresh := s'.fresh }

theorem Alias.refl (s : State V T) : Alias s s := rfl

theorem Alias.of {s s' : State V T} (h1 : s'.heap = s.heap) (h2 : s'.root = s.root) (h3 : s'.vals = s.vals)
    (h4 : s'.grad = s.grad) (h5 : s'.on = s.on) : Alias s s' := by
  obtain ⟨a, b, c, d, e, f, i⟩ := s
  obtain ⟨a', b', c', d', e', f', i'⟩ := s'
  simp only at h1 h2 h3 h4 h5
  subst h1 h2 h3 h4 h5
  rfl

theorem Alias.heap {s s' : State V T} (h : Alias s s') : s'.heap = s.heap := by
  rw [show s' = _ from h]

theorem Alias.root {s s' : State V T} (h : Alias s s') : s'.root = s.root := by
  rw [show s' = _ from h]

theorem Alias.vals {s s' : State V T} (h : Alias s s') : s'.vals = s.vals := by
  rw [show s' = _ from h]

theorem Alias.grad {s s' : State V T} (h : Alias s s') : s'.grad = s.grad := by
  rw [show s' = _ from h]

theorem Alias.on {s s' : State V T} (h : Alias s s') : s'.on = s.on := by
  rw [show s' = _ from h]

theorem Alias.cons {s s' : State V T} (h : Alias s s') (c : Con T) : s'.cons c = s.cons c := by
  unfold State.cons; rw [h.heap, h.root]

theorem Alias.hasFixes {s s' : State V T} (h : Alias s s') : s'.hasFixes = s.hasFixes := by
  unfold State.hasFixes; rw [h.cons]

theorem Alias.trans {s s' s'' : State V T} (h : Alias s s') (h' : Alias s' s'') : Alias s s'' :=
  .of (h'.heap.trans h.heap) (h'.root.trans h.root) (h'.vals.trans h.vals) (h'.grad.trans h.grad) (h'.on.trans h.on)

theorem Alias.symm {s s' : State V T} (h : Alias s s') : Alias s' s :=
  .of h.heap.symm h.root.symm h.vals.symm h.grad.symm h.on.symm

theorem Alias.setVals (o : Ops V T) {s s' : State V T} (h : Alias s s') (p : List V) :
    s'.setVals o p = s.setVals o p := by
  rw [show s' = _ from h]; rfl

theorem Alias.setOpt (o : Ops V T) (g : List V → List V) {s s' : State V T} (h : Alias s s') (p : List V) :
    Alias (s.setOpt o g p) (s'.setOpt o g p) := by
  have hv := h.setVals o p
  unfold State.setOpt State.notify
  simp only [h.on, hv]
  split
  · exact .of h.heap h.root rfl rfl rfl
  · exact .of h.heap h.root rfl h.grad rfl

theorem Alias.look (o : Ops V T) (junk : List V) (b : Bool) {s : State V T} (r : Ready s) :
    Alias s (s.look o junk b) := by
  unfold State.look
  split
  · rw [readOpt_state r]; exact .of rfl rfl rfl rfl rfl
  · exact .refl s

theorem Alias.optGrad (o : Ops V T) {s s' : State V T} (h : Alias s s') :
    Alias (s.optGrad o).1 (s'.optGrad o).1 ∧ (s'.optGrad o).2 = (s.optGrad o).2 := by
  rw [show s' = _ from h]
  exact ⟨.of rfl rfl rfl rfl rfl, rfl⟩

theorem Alias.scribble {s : State V T} (l : List V) : Alias s (s.scribble l) := by
  unfold State.scribble
  split
  · exact .refl s
  · exact .of rfl rfl rfl rfl rfl

theorem look_ready (o : Ops V T) (junk : List V) (b : Bool) {s : State V T} (r : Ready s) :
    Ready (s.look o junk b) := by
  unfold State.look
  split
  · exact readOpt_ready o r junk
  · exact r

theorem scribble_ready {s : State V T} (r : Ready s) (l : List V) : Ready (s.scribble l) := by
  unfold State.scribble
  split
  · exact r
  · exact r.keep rfl rfl rfl

theorem eval_ready (o : Ops V T) (g : List V → List V) (F : List V → W) (junk : List V) (b : Bool) {s : State V T}
    (r : Ready s) (c : Call V) : Ready (s.eval o g F junk b c).1 := by
  have r1 := look_ready o junk b (setOpt_ready o g r c.point)
  unfold State.eval
  dsimp only
  split
  · exact (akin_optGrad o r1).ready
  · exact r1

/-- Reading makes no difference to an evaluation but for the stored copy. -/
theorem eval_alias (o : Ops V T) (g : List V → List V) (F : List V → W) (junk : List V) (b b' : Bool)
    {s s' : State V T} (r : Ready s) (r' : Ready s') (h : Alias s s') (c : Call V) :
    Alias (s.eval o g F junk b c).1 (s'.eval o g F junk b' c).1 ∧
      (s'.eval o g F junk b' c).2 = (s.eval o g F junk b c).2 := by
  have h1 : Alias ((s.setOpt o g c.point).look o junk b) ((s'.setOpt o g c.point).look o junk b') :=
    ((Alias.look o junk b (setOpt_ready o g r _)).symm.trans (h.setOpt o g c.point)).trans
      (Alias.look o junk b' (setOpt_ready o g r' _))
  have h2 := h1.optGrad o
  unfold State.eval
  dsimp only
  rw [h1.vals]
  split
  · exact ⟨h2.1, by rw [h2.2, h2.1.grad]⟩
  · exact ⟨h1, by rw [h1.grad]⟩

theorem eval_fixes (o : Ops V T) (g : List V → List V) (F : List V → W) (junk : List V) (b : Bool) {s : State V T}
    (r : Ready s) (c : Call V) : (s.eval o g F junk b c).1.hasFixes = s.hasFixes := by
  have h1 := (Alias.look o junk b (setOpt_ready o g r c.point)).hasFixes
  have h2 : (s.setOpt o g c.point).hasFixes = s.hasFixes := by
    unfold State.hasFixes; rw [(akin_setOpt o g r _).cons]
  unfold State.eval
  dsimp only
  split
  · exact h1.trans h2
  · exact h1.trans h2

theorem held_fixes {s : State V T} (hf : s.hasFixes = true) (own : List V) : s.held own = own := by
  unfold State.held; rw [if_pos hf]

theorem held_free {s : State V T} (hf : s.hasFixes = false) (own : List V) : s.held own = s.copy.getD [] := by
  unfold State.held; rw [if_neg (by simp [hf])]

/-- An evaluation that nobody watches leaves the stored copy alone. -/
theorem eval_copy (o : Ops V T) (g : List V → List V) (F : List V → W) (junk : List V) (s : State V T) (c : Call V) :
    (s.eval o g F junk false c).1.copy = s.copy := by
  have h : ((s.setOpt o g c.point).look o junk false).copy = s.copy := by
    show (s.setOpt o g c.point).copy = _
    unfold State.setOpt
    rw [notify_copy]
  unfold State.eval
  dsimp only
  split
  · exact h
  · exact h

/-- A read after an evaluation leaves in the stored copy what a read returns. -/
theorem eval_copy_watched (o : Ops V T) (g : List V → List V) (F : List V → W) (junk : List V) {s : State V T}
    (r : Ready s) (hf : s.hasFixes = false) (c : Call V) :
    (s.eval o g F junk true c).1.copy = some ((s.setOpt o g c.point).readOpt o junk).2 := by
  have hf' : (s.setOpt o g c.point).hasFixes = false := by
    unfold State.hasFixes at hf ⊢; rw [(akin_setOpt o g r _).cons]; exact hf
  have h : ((s.setOpt o g c.point).look o junk true).copy = some ((s.setOpt o g c.point).readOpt o junk).2 := by
    show ((s.setOpt o g c.point).readOpt o junk).1.copy = _
    simp only [State.readOpt, hf']
    rfl
  unfold State.eval
  dsimp only
  split
  · exact h
  · exact h

/-! ### SCG -/

section SCG

variable {K : Type} [Field K] [LinearOrder K]

/-- `np.dot` of two vectors. -/
def dotOf (a b : List K) : K := (List.zipWith (· * ·) a b).sum

/-- `x + c * d`. -/
def stepOf (x : List K) (c : K) (d : List K) : List K := List.zipWith (fun a b => a + c * b) x d

/-- The local variables of SCG (scg.py:67-84). An array is `none` if it is not SCG's own but `x_init`, or the
gradient array of the model. -/
structure Locals (K : Type) where
  x : Option (List K)
  fold : K
  gradnew : Option (List K)
  gradold : Option (List K)
  d : List K
  success : Bool
  nsuccess : Nat
  beta : K
  mu : K
  kappa : K
  theta : K

/-- Settings, and what the machine computes for `np.sqrt`. -/
structure Settings (K : Type) where
  sqrt : K → K
  xtol : K
  ftol : K
  gtol : K
  /-- The gradients are the array of the model: there are no fixes (parameter_core.py:143-152). -/
  shared : Bool

/-- An array given back by `_grads`. -/
def Settings.ref (p : Settings K) (l : List K) : Option (List K) := if p.shared then none else some l

/-- The end of a pass through the loop (scg.py:152-168): scale and search direction. -/
def Locals.turn (st : Locals K) (a : Seen K K) (Delta : K) : Locals K :=
  let b1 := if Delta < 1 / 4 then min (4 * st.beta) (10 ^ 15) else st.beta
  let b2 := if 3 / 4 < Delta then max (b1 / 4) (1 / 10 ^ 15) else b1
  let gn := st.gradnew.getD a.shown.array
  if st.nsuccess = (st.x.getD a.start).length then { st with beta := 1, nsuccess := 0, d := gn.map (- ·) }
  else if st.success then
    let Gamma := dotOf (stepOf (st.gradold.getD a.shown.array) (-1) gn) gn / st.mu
    { st with beta := b2, d := stepOf (gn.map (- ·)) Gamma st.d }
  else { st with beta := b2 }

/-- The second half of a pass through the loop (scg.py:104-168). A division by zero gives 0 here. -/
def scgStep (p : Settings K) (k : Locals K → Seen K K → Plan K K) (st : Locals K) (now : Seen K K) : Plan K K :=
  let delta0 := st.theta + st.beta * st.kappa
  let delta := if delta0 ≤ 0 then st.beta * st.kappa else delta0
  let beta := if delta0 ≤ 0 then st.beta - st.theta / st.kappa else st.beta
  let alpha := - st.mu / delta
  let xnew := stepOf (st.x.getD now.start) alpha st.d
  .ask (.objective xnew) fun a =>
    let fnew := a.shown.value.getD 0
    let Delta := 2 * (fnew - st.fold) / (alpha * st.mu)
    if 0 ≤ Delta then
      let st := { st with x := some xnew, success := true, nsuccess := st.nsuccess + 1, beta := beta }
      if |fnew - st.fold| < p.ftol then .done st.x
      else if (st.d.map fun e => |alpha * e|).foldl max 0 < p.xtol then .done st.x
      else .ask (.grads xnew) fun a =>
        let st := { st with gradold := st.gradnew, gradnew := p.ref a.shown.grads, fold := fnew }
        if dotOf a.shown.grads a.shown.grads ≤ p.gtol then .done st.x
        else k (st.turn a Delta) a
    else k (({ st with success := false, beta := beta } : Locals K).turn a Delta) a

/-- The loop (scg.py:88-172). -/
def scgLoop (p : Settings K) : Nat → Locals K → Seen K K → Plan K K
  | 0, st, _ => .done st.x
  | n + 1, st, now =>
    if st.success then
      let gn := st.gradnew.getD now.shown.array
      let d := if 0 ≤ dotOf st.d gn then gn.map (- ·) else st.d
      let kappa := dotOf d d
      let sigma := 1 / 10 ^ 7 / p.sqrt kappa
      .ask (.grads (stepOf (st.x.getD now.start) sigma d)) fun a =>
        let theta := dotOf d (stepOf a.shown.grads (-1) (st.gradnew.getD a.shown.array)) / sigma
        scgStep p (scgLoop p n)
          { st with d := d, mu := dotOf d gn, kappa := kappa, theta := theta } a
    else scgStep p (scgLoop p n) st now

/-- `SCG(f, gradf, x, maxiters)` (scg.py:44-174), as called by `opt_SCG` (optimization.py:222-244). `x` stays the
array `x_init` until a step is taken (scg.py:116). Evaluation counts and the status are left out. -/
def scgPlan (p : Settings K) (maxiters : Nat) (start : List K) : Plan K K :=
  .ask (.objective start) fun a =>
    .ask (.grads a.start) fun b =>
      scgLoop p maxiters
        ⟨none, a.shown.value.getD 0, p.ref b.shown.grads, some b.shown.grads, b.shown.grads.map (- ·), true, 0, 1,
          0, 0, 0⟩ b

end SCG

end Paramz.Opt

import Verif.Opt.Props
import Verif.Notify.Told

/-!
# Model of `optimizer_array` of every object of a hierarchy

Source: `paramz/core/parameter_core.py:66-152, 228-250, 352-367, 502-508`, `paramz/parameterized.py:311-330`,
`paramz/core/constrainable.py:52-165`, `paramz/core/updateable.py:42-79`.

`Verif.Opt.Model` follows the model itself (the root). Every object below it has its own `optimizer_array`: its
values are a window of the memory of the root (`Verif.Mem`), its constraints are seen through its view
(`Verif.Hier`), but copy, flag and mask are its own. What tells an object that its copy is out of date is the
round of `Verif.Notify`.
-/

namespace Paramz.Opt

open IndexOps (Arr)
open Hier (Heap Con Id upd)
open Hier.Heap (Target)
open Notify (changedOf)

variable {V T : Type}

/-- `vals` is the `param_array` of `root`, `copies x` the `_optimizer_copy_` and `fresh x` the
`_optimizer_copy_transformed` of object `x`, `on` the update switch (one for the whole hierarchy:
updateable.py:50-57, `Verif.Notify`). Gradients are left out. -/
structure Whole (V T : Type) where
  heap : Heap T
  root : Id
  vals : List V
  copies : Id → Option (List V)
  fresh : Id → Bool
  on : Bool

variable [DecidableEq T]

namespace Whole

/-- Where the window of `x` starts: `_offset_for` (indexable.py:127-139), the slices of `_connect_parameters`
(parameterized.py:240-262). -/
def start (w : Whole V T) (x : Id) : Nat := w.heap.toGraph.offsetFor w.root x

/-- The object `x` on its own: `x.param_array` is its window (for a `Param`: the `Param` itself, raveled;
param.py:123-128). -/
def object (w : Whole V T) (x : Id) : State V T where
  heap := w.heap
  root := x
  vals := (w.vals.drop (w.start x)).take (w.heap.size x)
  grad := []
  copy := w.copies x
  fresh := w.fresh x
  on := w.on

/-- `b` written into the window that starts at `n`. -/
def splice (a : List V) (n : Nat) (b : List V) : List V := a.take n ++ b ++ a.drop (n + b.length)

/-- The observers: those the library registers. (Observers of the user have no access to the copies.) -/
def net (w : Whole V T) : Notify.State T := ⟨w.heap, fun _ => w.on, Notify.std w.heap⟩

/-- Every `_parameters_changed_notification` marks the copy of its object (parameter_core.py:502-508).
`parameters_changed` is taken to leave the parameters alone. -/
def tell (w : Whole V T) (calls : List Notify.Call) : Whole V T :=
  { w with fresh := fun y => if y ∈ changedOf calls then false else w.fresh y }

/-- Reading `x.optimizer_array` (parameter_core.py:66-93). -/
def read (o : Ops V T) (w : Whole V T) (x : Id) (junk : List V) : Whole V T × List V :=
  let r := (w.object x).readOpt o junk
  ({ w with heap := r.1.heap, copies := upd w.copies x r.1.copy, fresh := upd w.fresh x r.1.fresh }, r.2)

/-- The values after `x.optimizer_array = p` and before the update (parameter_core.py:103-123). -/
def put (o : Ops V T) (w : Whole V T) (x : Id) (p : List V) : Whole V T :=
  { w with
    vals := splice w.vals (w.start x) ((w.object x).setVals o p)
    fresh := upd w.fresh x false }

/-- `x.optimizer_array = p` (parameter_core.py:95-124). -/
def set (o : Ops V T) (w : Whole V T) (x : Id) (p : List V) : Whole V T :=
  let w1 := w.put o x p
  w1.tell (w1.net.triggerUpdate x true)

/-- `x.update_model(b)` (updateable.py:42-61). -/
def updateModel (w : Whole V T) (x : Id) (b : Bool) : Whole V T :=
  let w1 := { w with on := b }
  w1.tell (w1.net.triggerUpdate x true)

/-- `x.randomize()` (parameter_core.py:228-250) with the values drawn. -/
def randomize (o : Ops V T) (w : Whole V T) (x : Id) (draws : List V) : Whole V T :=
  let w1 := (w.updateModel x false).set o x draws
  let a := (w1.object x).vals
  let unfix := Heap.maskOf (w1.heap.size x) (w1.heap.constraints x .fixed)
  let w2 := { w1 with vals := splice w1.vals (w1.start x) (assign a unfix (select a unfix)) }
  w2.updateModel x w.on

/-- `x[...] = vs`, where `ind` are the raveled indices in `x`: `Parameterized.__setitem__` triggers an update
(parameterized.py:325-330), `ObsAr.__setitem__` notifies (observable_array.py:117-119). -/
def write (w : Whole V T) (x : Id) (ind : Arr) (vs : List V) : Whole V T :=
  let w1 := { w with vals := Opt.put w.vals (ind.map (· + w.start x)) vs }
  w1.tell (if w.heap.leaf x then w1.net.notify x none else w1.net.triggerUpdate x true)

/-- Values and constraints after `x.constrain(t)` (constrainable.py:147-154, `shared` as in `State.constrain`). -/
def constrained (o : Ops V T) (w : Whole V T) (x : Target) (shared : Bool) (t : T) : Whole V T :=
  let ind := (x.index w.heap).map (· + w.start x.obj)
  { w with
    vals := if shared then Opt.put w.vals ind ((pick w.vals ind).map (o.init t)) else w.vals
    heap := w.heap.constrain x (.tr t) }

/-- `x.constrain(c)` (constrainable.py:138-156): the assignment of the initial
values notifies on a `Param` or a part of it; then the constraint, then an update. -/
def constrain (o : Ops V T) (w : Whole V T) (x : Target) (shared : Bool) : Con T → Whole V T
  | .fixed =>
    let w1 := { w with heap := w.heap.constrain x .fixed }
    w1.tell (w1.net.notify x.obj none)
  | .tr t =>
    let w1 := w.constrained o x shared t
    (w1.tell (if w.heap.leaf x.obj then w.net.notify x.obj none else [])).tell
      (w1.net.triggerUpdate x.obj true)

/-- `x.unconstrain(*ts)` (constrainable.py:158-165): no notification. -/
def unconstrain (w : Whole V T) (x : Target) (ts : List (Con T)) : Whole V T :=
  { w with heap := w.heap.unconstrain x ts }

/-- `x.fix()` (constrainable.py:52-69). -/
def fix (w : Whole V T) (x : Target) : Whole V T :=
  let w1 := { w with heap := w.heap.fix x }
  w1.tell (w1.net.notify x.obj none)

/-- `x.unfix()` (constrainable.py:71-83): no notification. -/
def unfix (w : Whole V T) (x : Target) : Whole V T := { w with heap := w.heap.unfix x }

/-- `x.unfixed_param_array` of a node (parameter_core.py:352-367). Of a `Param`, which has no `_param_array_`, it
is an error or `None`. -/
def unfixed (w : Whole V T) (x : Id) : List V :=
  if w.heap.constraints x .fixed ≠ [] then
    select (w.object x).vals (Heap.maskOf (w.heap.size x) (w.heap.constraints x .fixed))
  else (w.object x).vals

end Whole

/-- One call on any object of the hierarchy. -/
inductive Act (V T : Type)
  | read (x : Id) (junk : List V)
  | set (x : Id) (p : List V)
  | randomize (x : Id) (draws : List V)
  | updateModel (x : Id) (b : Bool)
  | write (x : Id) (ind : Arr) (vs : List V)
  | constrain (x : Target) (shared : Bool) (c : Con T)
  | unconstrain (x : Target) (ts : List (Con T))
  | fix (x : Target)
  | unfix (x : Target)

/-- Its effect. -/
def Act.exec (o : Ops V T) (w : Whole V T) : Act V T → Whole V T
  | .read x junk => (w.read o x junk).1
  | .set x p => w.set o x p
  | .randomize x draws => w.randomize o x draws
  | .updateModel x b => w.updateModel x b
  | .write x ind vs => w.write x ind vs
  | .constrain x sh c => w.constrain o x sh c
  | .unconstrain x ts => w.unconstrain x ts
  | .fix x => w.fix x
  | .unfix x => w.unfix x

/-! ### Specification -/

/-- The root is the initialised root of a hierarchy built by calls of the user, with one value per element. -/
structure Sound (w : Whole V T) : Prop where
  reach : Hier.Heap.Reach w.heap
  lt : w.root < w.heap.next
  root : w.heap.parent w.root = none
  node : w.heap.leaf w.root = false
  inInit : w.heap.inInit w.root = false
  inited : w.heap.inited w.root = some true
  vals : w.vals.length = w.heap.size w.root

/-- `x` belongs to the hierarchy of the root. -/
def Whole.Has (w : Whole V T) (x : Id) : Prop := Hier.Graph.Anc w.heap.toGraph w.root x

/-- The elements of the model that belong to `x`. -/
def Whole.Window (w : Whole V T) (x : Id) (j : Nat) : Prop := w.start x ≤ j ∧ j < w.start x + w.heap.size x

/-- Calls are made on objects of the hierarchy that are not being constructed; indices are in range. -/
def Act.OK (w : Whole V T) : Act V T → Prop
  | .read x _ => w.Has x
  | .set x _ => w.Has x ∧ w.heap.inInit x = false
  | .randomize x _ => w.Has x ∧ w.heap.inInit x = false
  | .updateModel x _ => w.Has x ∧ w.heap.inInit x = false
  | .write x ind _ => w.Has x ∧ w.heap.inInit x = false ∧ ∀ i ∈ ind, i < w.heap.size x
  | .constrain x _ _ => w.Has x.obj ∧ x.OK w.heap ∧ w.heap.inInit x.obj = false
  | .unconstrain x _ => w.Has x.obj ∧ x.OK w.heap
  | .fix x => w.Has x.obj ∧ x.OK w.heap
  | .unfix x => w.Has x.obj ∧ x.OK w.heap

/-- A history of such calls. -/
inductive Runs (o : Ops V T) : Whole V T → Whole V T → Prop
  | nil (w) : Runs o w w
  | snoc {w w'} (h : Runs o w w') (a : Act V T) (ha : a.OK w') : Runs o w (a.exec o w')

end Paramz.Opt

import Verif.Hier.Model

/-!
# Model of the optimiser's view of a model

Source: `paramz/core/parameter_core.py:66-152, 228-250`, `paramz/core/indexable.py:164-184`,
`paramz/core/constrainable.py:52-165`, `paramz/core/observable_array.py`.

The object is the root of a hierarchy (a `Model`). Its constraints and masks are those of
`Verif.Hier.Model`; in addition there are the values (`param_array`, one array for the whole hierarchy,
see `Verif.Mem`), the gradient, the cached copy in optimiser space and the update switch. Values are of
an arbitrary type `V`, transformations are known by the four functions the code calls.
numpy arrays are lists; multi-dimensional parameters appear raveled.
-/

namespace Paramz.Opt

open IndexOps (Arr)
open Hier (Heap Con Id upd)
open Hier.Heap (Target)

variable {V T : Type}

/-- The methods of a transformation (transformations.py:36-103), applied element by element. -/
structure Ops (V T : Type) where
  f : T → V → V
  finv : T → V → V
  gradfactor : T → V → V → V
  init : T → V → V

/-! ### numpy -/

/-- `a[ind]` for an integer array. An index out of range would be an `IndexError`; indices of
constraints are below the size. -/
def pick (a : List V) (ind : Arr) : List V := ind.filterMap (fun i => a[i]?)

/-- `np.put(a, ind, vs)` with as many values as indices. -/
def put (a : List V) (ind : Arr) (vs : List V) : List V :=
  (ind.zip vs).foldl (fun a e => a.set e.1 e.2) a

/-- `a[m]` for a boolean array. -/
def select : List V → List Bool → List V
  | v :: a, b :: m => if b then v :: select a m else select a m
  | _, _ => []

/-- `a.flat[m] = p` from the `k`-th value of `p` on. A flat iterator starts again at the beginning of `p`
when `p` is too short and does nothing when `p` is empty. -/
def assignFrom (p : List V) : Nat → List V → List Bool → List V
  | k, v :: a, b :: m =>
    if b then (p[k % p.length]?).getD v :: assignFrom p (k + 1) a m else v :: assignFrom p k a m
  | _, a, _ => a

/-- `a.flat[m] = p`. -/
def assign (a : List V) (m : List Bool) (p : List V) : List V := assignFrom p 0 a m

/-! ### The state -/

/-- `vals` is `param_array`, `grad` is `gradient`, `copy` is `_optimizer_copy_`, `fresh` is
`_optimizer_copy_transformed`, `on` is `_update_on` (the same for all objects of the hierarchy, see
`Verif.Notify`). -/
structure State (V T : Type) where
  heap : Heap T
  root : Id
  vals : List V
  grad : List V
  copy : Option (List V)
  fresh : Bool
  on : Bool

variable [DecidableEq T]

namespace State

/-- `self.size`. -/
def size (s : State V T) : Nat := s.heap.size s.root

/-- `self.constraints[c]`. (Reading a missing key of the `defaultdict` inserts an empty entry, which
nothing shows.) -/
def cons (s : State V T) (c : Con T) : Arr := s.heap.constraints s.root c

/-- `self.constraints.items()`. -/
def items (s : State V T) : List (Con T × Arr) :=
  (s.heap.iop s.root).2.items (s.heap.dicts (s.heap.iop s.root).1)

/-- `_has_fixes` (constrainable.py:119-120). -/
def hasFixes (s : State V T) : Bool := decide (s.cons .fixed ≠ [])

/-- `_size_transformed` (parameter_core.py:136-141). -/
def sizeTransformed (s : State V T) : Nat := s.size - (s.cons .fixed).length

/-- `self._ensure_fixes()` (constrainable.py:85-91). -/
def ensureFixes (s : State V T) : State V T :=
  { s with heap := { s.heap with
      fixes := upd s.heap.fixes s.root (some (s.heap.ensureFixes s.root)) } }

end State

/-! ### `optimizer_array` -/

/-- `[np.put(copy, ind, c.finv(src[ind])) for c, ind in items if c != __fixed__]`
(parameter_core.py:87). -/
def finvAll (o : Ops V T) (its : List (Con T × Arr)) (src a : List V) : List V :=
  its.foldl (fun a e => match e.1 with
    | .fixed => a
    | .tr t => put a e.2 ((pick src e.2).map (o.finv t))) a

/-- The indices of one constraint that are written: all of them, or `ind[f[ind]]`
(parameter_core.py:111, 117). -/
def written (m : Option (List Bool)) (ind : Arr) : Arr :=
  match m with
  | none => ind
  | some m => ind.filter (fun i => m.getD i true)

/-- `[np.put(a, ind, c.f(a.flat[ind])) for c, ind in items if c != __fixed__]`
(parameter_core.py:111-114, 117-120). -/
def fAll (o : Ops V T) (m : Option (List Bool)) (its : List (Con T × Arr)) (a : List V) : List V :=
  its.foldl (fun a e => match e.1 with
    | .fixed => a
    | .tr t => put a (written m e.2) ((pick a (written m e.2)).map (o.f t))) a

/-- `[np.put(g, i, c.gradfactor(self.param_array[i], g[i])) for c, i in items if c != __fixed__]`
(parameter_core.py:150). -/
def gradAll (o : Ops V T) (its : List (Con T × Arr)) (vals g : List V) : List V :=
  its.foldl (fun g e => match e.1 with
    | .fixed => g
    | .tr t => put g e.2 (List.zipWith (o.gradfactor t) (pick vals e.2) (pick g e.2))) g

namespace State

/-- The array the getter works on (parameter_core.py:80-81): the stored copy, or `np.empty(self.size)`,
whose contents are `junk`, if there is none of the right size. -/
def buffer (s : State V T) (junk : List V) : List V :=
  match s.copy with
  | some c => if c.length = s.size then c else junk
  | none => junk

/-- The getter of `optimizer_array` (parameter_core.py:66-93). Without fixes the returned array is the
stored copy itself, see `scribble`. -/
def readOpt (o : Ops V T) (junk : List V) (s : State V T) : State V T × List V :=
  let c := if s.fresh then s.buffer junk else finvAll o s.items s.vals s.vals
  let s1 := { s with copy := some c, fresh := true }
  if s.hasFixes then (s1.ensureFixes, select c (s1.heap.ensureFixes s1.root)) else (s1, c)

/-- `_parameters_changed_notification` of the root (parameter_core.py:502-508), reached by a notification
of any object of the hierarchy when updates are on (observable.py:83-93). The user's
`parameters_changed` is taken to set the gradient to `gradOf vals` and to leave the parameters alone. -/
def notify (gradOf : List V → List V) (s : State V T) : State V T :=
  if s.on then { s with fresh := false, grad := gradOf s.vals } else s

/-- The mask used by the setter (parameter_core.py:103-108): made from the constraints if the object has a parent,
the stored `_fixes_` (which may be `None`) otherwise. -/
def setterMask (s : State V T) : Option (List Bool) :=
  if s.heap.parent s.root ≠ none ∧ s.cons .fixed ≠ [] then some (Hier.Heap.maskOf s.size (s.cons .fixed))
  else if s.hasFixes then s.heap.fixes s.root else none

/-- `param_array` after the assignments of the setter (parameter_core.py:109-120). -/
def setVals (o : Ops V T) (s : State V T) (p : List V) : List V :=
  fAll o s.setterMask s.items
    (assign s.vals (s.setterMask.getD (List.replicate s.vals.length true)) p)

/-- The setter of `optimizer_array` (parameter_core.py:95-124). -/
def setOpt (o : Ops V T) (gradOf : List V → List V) (s : State V T) (p : List V) : State V T :=
  ({ s with vals := s.setVals o p, fresh := false } : State V T).notify gradOf

/-- `_transform_gradients(g)` (parameter_core.py:143-152): the array `g` after the call, and the returned
array. -/
def transformGradients (o : Ops V T) (s : State V T) (g : List V) : List V × List V :=
  let g' := gradAll o s.items s.vals g
  (g', if s.hasFixes then select g' ((s.heap.fixes s.root).getD []) else g')

/-- `self._transform_gradients(self.objective_function_gradients())` (model.py:237, 274): the default
`objective_function_gradients` (model.py:206-223) returns the gradient array itself. -/
def optGrad (o : Ops V T) (s : State V T) : State V T × List V :=
  let r := s.transformGradients o s.grad
  ({ s with grad := r.1 }, r.2)

/-- `(~fixes).cumsum()`: the number of fixed elements up to and including each element. -/
def cumFixed : Nat → List Bool → List Nat
  | _, [] => []
  | k, b :: m => (k + if b then 0 else 1) :: cumFixed (k + if b then 0 else 1) m

/-- `_raveled_index_for(param)` (indexable.py:150-162). -/
def raveledFor (s : State V T) (x : Target) : Arr :=
  (x.index s.heap).map (· + s.heap.toGraph.offsetFor s.root x.obj)

/-- `_raveled_index_for_transformed(param)` (indexable.py:164-184). -/
def raveledForTransformed (s : State V T) (x : Target) : Arr :=
  if s.hasFixes then
    let fixes := (s.heap.fixes s.root).getD []
    let transformed := List.zipWith (· - ·) (List.range s.size) (cumFixed 0 fixes)
    pick transformed ((s.raveledFor x).filter (fun i => fixes.getD i true))
  else s.raveledFor x

/-! ### Other calls -/

/-- `x[...] = vs` on an object or a part of it: `ObsAr.__setitem__` (observable_array.py:117-119) and
`Parameterized.__setitem__` (parameterized.py:311-330); both notify up to the root. -/
def write (gradOf : List V → List V) (s : State V T) (x : Target) (vs : List V) : State V T :=
  ({ s with vals := put s.vals (s.raveledFor x) vs } : State V T).notify gradOf

/-- `x.constrain(c)` (constrainable.py:138-156). A part obtained with an integer or boolean index array
is a copy, so `self.param_array[...] = transform.initialize(..)` does not reach the model
(`shared = false`). The notification from that assignment comes before the final one and leaves the same
state. -/
def constrain (o : Ops V T) (gradOf : List V → List V) (s : State V T) (x : Target) (shared : Bool) :
    Con T → State V T
  | .fixed => ({ s with heap := s.heap.constrain x .fixed } : State V T).notify gradOf
  | .tr t =>
    ({ s with
        vals := if shared then put s.vals (s.raveledFor x) ((pick s.vals (s.raveledFor x)).map (o.init t))
          else s.vals
        heap := s.heap.constrain x (.tr t) } : State V T).notify gradOf

/-- `x.unconstrain(*ts)` (constrainable.py:158-165): no notification. -/
def unconstrain (s : State V T) (x : Target) (ts : List (Con T)) : State V T :=
  { s with heap := s.heap.unconstrain x ts }

/-- `x.fix()` (constrainable.py:52-69). -/
def fix (gradOf : List V → List V) (s : State V T) (x : Target) : State V T :=
  ({ s with heap := s.heap.fix x } : State V T).notify gradOf

/-- `x.unfix()` (constrainable.py:71-83): no notification. -/
def unfix (s : State V T) (x : Target) : State V T := { s with heap := s.heap.unfix x }

/-- `update_model(b)` (updateable.py:42-61, 69-79): set the switch everywhere and trigger an update, which
does nothing when updates are off. -/
def updateModel (gradOf : List V → List V) (s : State V T) (b : Bool) : State V T :=
  ({ s with on := b } : State V T).notify gradOf

/-- `randomize()` (parameter_core.py:228-250) with the values drawn by the generator. -/
def randomize (o : Ops V T) (gradOf : List V → List V) (s : State V T) (draws : List V) : State V T :=
  let s1 := (s.updateModel gradOf false).setOpt o gradOf draws
  let x := s1.vals
  let unfix := Hier.Heap.maskOf s1.size (s1.cons .fixed)
  let s2 := { s1 with vals := assign s1.vals unfix (select x unfix) }
  s2.updateModel gradOf s.on

/-- Any call that changes the structure of the hierarchy, leaving heap `h` and values `vs`: linking and
unlinking do not notify (parameterized.py:128-226). -/
def restructure (s : State V T) (h : Heap T) (vs g : List V) : State V T :=
  { s with heap := h, vals := vs, grad := g }

/-- The user writes `vs` into the array returned by the last read. Without fixes that array is the
stored copy (parameter_core.py:93). -/
def scribble (s : State V T) (vs : List V) : State V T :=
  if s.hasFixes then s else { s with copy := some vs }

end State

/-! ### Histories -/

/-- One call. `read` carries what uninitialised memory would contain, `randomize` what the generator
draws, `constrain` whether the target shares memory with the model. -/
inductive Ev (V T : Type)
  | read (junk : List V)
  | set (p : List V)
  | write (x : Target) (vs : List V)
  | constrain (x : Target) (shared : Bool) (c : Con T)
  | unconstrain (x : Target) (ts : List (Con T))
  | fix (x : Target)
  | unfix (x : Target)
  | updateModel (b : Bool)
  | optGrad
  | randomize (draws : List V)

/-- Effect of one call. -/
def exec (o : Ops V T) (gradOf : List V → List V) (s : State V T) : Ev V T → State V T
  | .read junk => (s.readOpt o junk).1
  | .set p => s.setOpt o gradOf p
  | .write x vs => s.write gradOf x vs
  | .constrain x sh c => s.constrain o gradOf x sh c
  | .unconstrain x ts => s.unconstrain x ts
  | .fix x => s.fix gradOf x
  | .unfix x => s.unfix x
  | .updateModel b => s.updateModel gradOf b
  | .optGrad => (s.optGrad o).1
  | .randomize draws => s.randomize o gradOf draws

end Paramz.Opt

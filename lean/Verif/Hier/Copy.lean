import Verif.Hier.Model

/-!
# Model of `copy`

Source: `paramz/core/pickleable.py:69-128`, `paramz/parameterized.py:344-361`, `paramz/param.py:201-209`,
`paramz/core/index_operations.py:183-185, 310-312`.

A copy makes new objects for the copied object and everything below it, numbered after all existing
objects, in the order of `subtree`. Modelled as in `Verif.Hier.Model`: pointers, sizes, constraints,
masks, construction flags and marks. Not modelled here: values (`Verif.Mem`), observers and the update
`_trigger_params_changed` (pickleable.py:94), names, caches, and attributes that users add themselves.
The entries of `memo` for the gradient, the mask and the arrays (pickleable.py:90-91,
parameterized.py:355-356) keep `deepcopy` from copying these arrays; the attributes holding them are
also left out by `__getstate__` (pickleable.py:105-112).
-/

namespace Paramz.Hier

open IndexOps (Arr Dict Iop)

/-- The `i`-th number, if the numbers from `n` on are given to the members of `L` in turn. -/
def pick (L : List Id) (n i : Nat) : Option Id := if i < n then none else L[i - n]?

namespace Heap

variable {T : Type} [DecidableEq T]

/-- The number of the copy of `y` when `x` is copied. -/
def copyOf (h : Heap T) (x y : Id) : Id := h.next + (h.toGraph.subtree x).idxOf y

/-- An attribute after copying: `old` for what existed before, `new` for the copies. -/
def lift {α : Type} (h : Heap T) (x : Id) (old new : Id → α) : Id → α := fun i =>
  match pick (h.toGraph.subtree x) h.next i with
  | none => old i
  | some y => new y

/-- What `traverse_parents(parents.append)` does (pickleable.py:86): the objects met (`trace`) and the
marks it leaves. The objects met are then replaced by `None` in the copy (pickleable.py:87-88). -/
def copySearch (h : Heap T) (x : Id) : Trav :=
  h.toGraph.traverseParents (fun _ _ => false) ⟨h.visited, [], false⟩ x

/-- The new objects as `deepcopy` makes them (pickleable.py:97-118, param.py:204-209), before any
`_connect_parameters`. Every index operations object, also a view, becomes a `ParameterIndexOperations`
of its own with the same entries (index_operations.py:183-185, 310-312); there is no mask; the copied
object has no parent (the parent is replaced by `None`). -/
def rawCopy (h : Heap T) (x : Id) : Heap T :=
  let L := h.toGraph.subtree x
  { h with
    next := h.next + L.length
    leaf := h.lift x h.leaf h.leaf
    parent := h.lift x h.parent (fun y => if y = x then none else (h.parent y).map (h.copyOf x))
    pidx := h.lift x h.pidx h.pidx
    kids := h.lift x h.kids (fun y => (h.kids y).map (h.copyOf x))
    size := h.lift x h.size h.size
    iop := h.lift x h.iop (fun y => (h.nextDict + L.idxOf y, .base))
    dicts := fun d => match pick L h.nextDict d with
      | none => h.dicts d
      | some y => (h.iop y).2.copy (h.dicts (h.iop y).1)
    nextDict := h.nextDict + L.length
    fixes := h.lift x h.fixes (fun _ => none)
    inInit := h.lift x h.inInit h.inInit
    inited := h.lift x h.inited h.inited
    visited := h.lift x h.visited h.visited }

/-- `_connect_parameters(); _connect_fixes(); _notify_parent_change()`. -/
def reconnect (h : Heap T) (x : Id) : Heap T := ((h.connect x).connectFixes x).notifyParentChange x

/-- `__setstate__` of the new objects (parameterized.py:344-350; a `Param` has none of its own that
matters here, param.py:208). The state of an object is copied before it is set, so those of its
children are set first. -/
def setstateF : Nat → Heap T → Id → Heap T
  | 0, h, _ => h
  | n + 1, h, x =>
    let h1 := (h.kids x).foldl (fun h c => setstateF n h c) h
    if h.leaf x then h1 else h1.reconnect x

/-- `Pickleable.copy` (pickleable.py:69-95). -/
def copyBody (h : Heap T) (x : Id) : Heap T :=
  let h1 := { h with visited := (h.copySearch x).marks }
  let h2 := h1.rawCopy x
  h2.setstateF h2.toGraph.fuel (h1.copyOf x x)

/-- What reading `optimizer_array` does to the object (parameter_core.py:79-97): the mask is made if
there are fixed elements. -/
def readOptimizerArray (h : Heap T) (x : Id) : Heap T :=
  if h.constraints x .fixed = [] then h
  else { h with fixes := upd h.fixes x (some (h.ensureFixes x)) }

/-- `x.copy()` of a `Param` (param.py:201-202) and of a `Parameterized` (parameterized.py:352-361), and
the number of the copy. -/
def copy (h : Heap T) (x : Id) : Heap T × Id :=
  if h.leaf x then (h.copyBody x, h.copyOf x x)
  else (((h.readOptimizerArray x).copyBody x).reconnect (h.copyOf x x), h.copyOf x x)

end Heap

end Paramz.Hier

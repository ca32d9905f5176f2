import Verif.Hier.Copy

/-!
# Model of `pickle` and `load`

Source: `paramz/core/pickleable.py:44-63, 104-128`, `paramz/parameterized.py:344-350`,
`paramz/core/observable_array.py:109-115`, `paramz/core/index_operations.py:212-218`,
`paramz/core/indexable.py:55-70`, `paramz/__init__.py:44-78`.

`pickle` writes an object by first naming it (the memo), then writing its state, and then the
instruction to set the state; objects met again are referred to by the memo. Loading follows the same
order. What is loaded is therefore everything that can be reached from the pickled object by `_parent_`
and `parameters`, and the states are set in the order in which the search leaves the objects.

Modelled as in `Verif.Hier.Copy`: pointers, sizes, constraints, masks, construction flags and marks.
Not modelled: names, observers (left out by `__getstate__`), caches (the same; a `Cacher` kept in an
attribute makes `pickle` raise `PickleError`, caching.py:228-229), `parameters_changed`, which is code
of the user, and attributes that users add themselves.
-/

namespace Paramz.Hier

open IndexOps (Arr Dict Iop)

/-- The search of `pickle` from `y`: the memo, and the objects whose states have been written, in
order. `refs` lists the objects in the attributes of an object. -/
def visitF (refs : Id → List Id) : Nat → List Id × List Id → Id → List Id × List Id
  | 0, s, _ => s
  | n + 1, s, y =>
    if y ∈ s.1 then s
    else
      let r := (refs y).foldl (visitF refs n) (y :: s.1, s.2)
      (r.1, r.2 ++ [y])

namespace Heap

variable {T : Type} [DecidableEq T]

/-- `refs` lists what `__getstate__` keeps of the objects (pickleable.py:104-118): the children, as
members of `parameters` and as attributes of their own, and the parent. The order in which the
attributes of an object are written is not fixed here, nor how often an object occurs. -/
def Refs (h : Heap T) (refs : Id → List Id) : Prop :=
  ∀ y z, z ∈ refs y ↔ z ∈ h.kids y ∨ h.parent y = some z

/-- The order in which the states are written, and later set, when `x` is pickled. -/
def buildOrder (h : Heap T) (refs : Id → List Id) (x : Id) : List Id :=
  (visitF refs h.toGraph.fuel ([], []) x).2

/-- The new objects of the hierarchy with root `r`, once their attributes are set, before any
`_connect_parameters`. The index operations of the root are written once and all views, also those of
views, refer to the new dictionary (index_operations.py:212-218; that all objects of a hierarchy use the
dictionary of the root is `WF.view`). There is no mask (pickleable.py:110). As in `rawCopy` a number is
used up for every object, although there is one new dictionary only. -/
def rawLoad (h : Heap T) (r : Id) : Heap T :=
  { h.rawCopy r with
    iop := h.lift r h.iop (fun y => (h.nextDict, (h.iop y).2))
    dicts := fun d => if d = h.nextDict then h.dicts (h.iop r).1 else h.dicts d }

/-- `__setstate__` of the object made for `y` (parameterized.py:344-350; a `Param` is not connected),
given the objects whose states are set. If one of the children is not among them, connecting it raises
`AttributeError`: it has no name yet (parameterized.py:273, parameter_core.py:446). -/
def buildOne (h : Heap T) (r : Id) (s : Heap T × List Id) (y : Id) : Option (Heap T × List Id) :=
  if h.leaf y then some (s.1, y :: s.2)
  else if ∀ c ∈ h.kids y, c ∈ s.2 then some (s.1.reconnect (h.copyOf r y), y :: s.2)
  else none

/-- Setting the states in the order `L`. -/
def buildAll (h : Heap T) (r : Id) : List Id → Heap T × List Id → Option (Heap T × List Id)
  | [], s => some s
  | y :: L, s => match h.buildOne r s y with
    | none => none
    | some s => h.buildAll r L s

/-- `x.pickle(f)` followed by `paramz.load(f)` (`__init__.py:44-78`): the new state and the number of
the loaded object, `none` if loading raises. -/
def load (h : Heap T) (refs : Id → List Id) (x : Id) : Option (Heap T × Id) :=
  let r := h.toGraph.highest x
  (h.buildAll r (h.buildOrder refs x) (h.rawLoad r, [])).map fun s => (s.1, h.copyOf r x)

end Heap

end Paramz.Hier

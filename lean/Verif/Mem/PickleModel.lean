import Verif.Mem.CopyModel
import Verif.Hier.Pickle

/-!
# Model of `pickle` and `load`: memory

Source: `paramz/core/pickleable.py:44-63, 104-128`, `paramz/core/observable_array.py:109-115`,
`paramz/parameterized.py:344-350`, `paramz/__init__.py:44-78`. The steps are those of
`Verif.Hier.Pickle`, now with the arrays.
-/

namespace Paramz.Memory

open Hier (Id Graph Heap upd pick)

namespace Mem

variable {V : Type}

/-- The arrays of the new objects once their attributes are set: a `Param` has the elements that were
written (observable_array.py:109-115), a `Parameterized` has no array (pickleable.py:105). numpy lets an
array that it reads from a file own its memory or not, depending on its size; `own` says of which
`Param`s it does. -/
def rawLoad (own : Id → Bool) (g : Graph) (m : Mem V) (x : Id) : Mem V :=
  { m.rawCopy g x with
    owns := fun i => match pick (g.subtree x) g.next i with
      | none => m.owns i
      | some y => g.leaf y && own y }

end Mem

namespace State

variable {V T : Type} [DecidableEq T] (spoil : Nat → Nat → V)

/-- `__setstate__` of the object made for `y`, as `Heap.buildOne`, with memory. -/
def buildOne (h : Heap T) (r : Id) (s : State V T × List Id) (y : Id) : Option (State V T × List Id) :=
  if h.leaf y then some (s.1, y :: s.2)
  else if ∀ c ∈ h.kids y, c ∈ s.2 then some (s.1.reconnect spoil (h.copyOf r y), y :: s.2)
  else none

@[inherit_doc Heap.buildAll]
def buildAll (h : Heap T) (r : Id) : List Id → State V T × List Id → Option (State V T × List Id)
  | [], s => some s
  | y :: L, s => match buildOne spoil h r s y with
    | none => none
    | some s => buildAll h r L s

/-- `x.pickle(f)` followed by `paramz.load(f)`, as `Heap.load`, with memory. -/
def load (own : Id → Bool) (s : State V T) (refs : Id → List Id) (x : Id) : Option (State V T × Id) :=
  let r := s.heap.toGraph.highest x
  (buildAll spoil s.heap r (s.heap.buildOrder refs x)
    (⟨s.heap.rawLoad r, s.mem.rawLoad own s.heap.toGraph r⟩, [])).map
      fun a => (a.1, s.heap.copyOf r x)

end State

end Paramz.Memory

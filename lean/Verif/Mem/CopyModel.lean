import Verif.Mem.Model
import Verif.Hier.Copy

/-!
# Model of `copy`: memory

Source: `paramz/core/pickleable.py:69-128`, `paramz/parameterized.py:344-361`, `paramz/param.py:201-209`.

The steps are those of `Verif.Hier.Copy`, now with the arrays. Gradients are
left out of the copy (pickleable.py:106). `_trigger_params_changed` (pickleable.py:94) and `parameters_changed`
(parameterized.py:349) run code of the user, which is not modelled: it is assumed to write to no
parameter.
-/

namespace Paramz.Memory

open Hier (Id Graph Heap upd pick)

namespace Mem

variable {V : Type}

/-- The arrays of the new objects as `deepcopy` makes them: a `Param` is made from a copy of its elements
(param.py:205; the array is a view on that copy and does not own memory), a `Parameterized` has no array
(pickleable.py:105). Simplified: a number is used up also for objects that get no buffer. -/
def rawCopy (g : Graph) (m : Mem V) (x : Id) : Mem V :=
  let L := g.subtree x
  { m with
    arr := fun i => match pick L g.next i with
      | none => m.arr i
      | some y => if g.leaf y then some ⟨m.next + L.idxOf y, 0, g.size y⟩ else none
    owns := fun i => match pick L g.next i with
      | none => m.owns i
      | some _ => false
    cell := fun b i => match pick L m.next b with
      | none => m.cell b i
      | some y => if g.leaf y = true ∧ i < g.size y then m.read y i else m.cell b i
    next := m.next + L.length
    bad := m.bad || L.any fun y => g.leaf y && decide (0 < g.size y) && m.freed (m.view y).buf }

/-- The memory side of `__setstate__` of the new objects (parameterized.py:344-350), children first. -/
def setstateF (spoil : Nat → Nat → V) (g : Graph) : Nat → Mem V → Id → Mem V
  | 0, m, _ => m
  | n + 1, m, x =>
    let m1 := (g.kids x).foldl (fun m c => setstateF spoil g n m c) m
    if g.leaf x then m1 else m1.connect spoil g x

end Mem

namespace State

variable {V T : Type} [DecidableEq T] (spoil : Nat → Nat → V)

/-- `_connect_parameters(); _connect_fixes(); _notify_parent_change()` as `Heap.reconnect`, with
memory. -/
def reconnect (s : State V T) (x : Id) : State V T :=
  (s.connect spoil x).on fun h => (h.connectFixes x).notifyParentChange x

/-- `__setstate__` of the new objects (parameterized.py:344-350), children first, as
`Heap.setstateF`. -/
def setstateF : Nat → State V T → Id → State V T
  | 0, s, _ => s
  | n + 1, s, x =>
    let s1 := (s.heap.kids x).foldl (fun s c => setstateF n s c) s
    if s.heap.leaf x then s1 else s1.reconnect spoil x

/-- `Pickleable.copy` (pickleable.py:69-95) as `Heap.copyBody`, with memory. -/
def copyBody (s : State V T) (x : Id) : State V T :=
  let h1 := { s.heap with visited := (s.heap.copySearch x).marks }
  let s2 : State V T := { heap := h1.rawCopy x, mem := s.mem.rawCopy h1.toGraph x }
  s2.setstateF spoil s2.heap.toGraph.fuel (h1.copyOf x x)

/-- Reading `optimizer_array` and `param_array` (parameterized.py:355-356; parameter_core.py:79-97,
348-350): an object without an array of its size gets a new one. -/
def readArrays (s : State V T) (x : Id) : State V T :=
  { heap := s.heap.readOptimizerArray x, mem := s.mem.ensure s.heap.toGraph x }

/-- `x.copy()` of a `Param` (param.py:201-202) and of a `Parameterized` (parameterized.py:352-361), and
the number of the copy. -/
def copy (s : State V T) (x : Id) : State V T × Id :=
  if s.heap.leaf x then (s.copyBody spoil x, s.heap.copyOf x x)
  else (((s.readArrays x).copyBody spoil x).reconnect spoil (s.heap.copyOf x x), s.heap.copyOf x x)

end State

end Paramz.Memory

import Verif.Mem.PickleModel

/-!
# Model of the gradients of a hierarchy

Source: `paramz/parameterized.py:228-277`, `paramz/core/parameter_core.py:257-296, 430-438`,
`paramz/param.py:138-152`.

Every object has a second array, `_gradient_array_`. Wherever `_connect_parameters` and
`_propagate_param_grad` move `param_array`, the next statement moves `gradient_full` in the same way, so
the second array is modelled by a memory (`Mem`) of its own that goes through the steps of
`Verif.Mem.Model`. Here `arr x` is `x._gradient_array_`, and `read x i`/`write x i v` are `x.gradient[i]`
and `x.gradient[i] = v`. What differs from values:

* the gradient of a `Param` is made by `np.empty` and owns its memory (`newGrad`), while a `Param` does not
  own the memory of its values;
* whole gradients are assigned through the setters of the property `gradient` (`setGradient`).

Simplified: the gradient array of a `Param` is made with the `Param`; python makes it when it is first asked
for. Its contents are arbitrary until something is assigned. The arrays are allocated in the order of the
values'. Loading leaves out the gradients (pickleable.py:104-106), as copying does (`gcopy`); it is in `Verif.Mem.GradLoad`.
-/

namespace Paramz.Memory

open Hier (Id Graph Heap upd)

namespace Mem

variable {V : Type}

/-- The gradient array of a new `Param` with `n` elements (param.py:146-147): `np.empty` hands out memory
with arbitrary contents, which the array owns. -/
def newGrad (m : Mem V) (x : Id) (n : Nat) : Mem V :=
  { m with arr := upd m.arr x (some ⟨m.next, 0, n⟩), owns := upd m.owns x true, next := m.next + 1 }

/-- `a[:] = val` for the array `a` of `x`: element `i` becomes `f i`. -/
def fill (m : Mem V) (x : Id) (f : Nat → V) : Mem V :=
  { m with cell := fun b j =>
      if b = (m.view x).buf ∧ (m.view x).off ≤ j ∧ j < (m.view x).off + (m.view x).len
      then f (j - (m.view x).off) else m.cell b j }

end Mem

/-- What is assigned to a gradient: a number or an array. -/
inductive GVal (V : Type)
  | number (v : V)
  | array (l : List V)

/-- The elements `a[:] = val` writes to an array with `n` elements, if numpy can broadcast `val`. Simplified:
arrays have one dimension. -/
def GVal.elems {V : Type} (n : Nat) : GVal V → Option (List V)
  | .number v => some (List.replicate n v)
  | .array l =>
    if l.length = n then some l
    else match l with
      | [v] => some (List.replicate n v)
      | _ => none

inductive GErr
  | attributeError
  | valueError
  deriving DecidableEq, Repr

namespace State

variable {V T : Type} [DecidableEq T] (spoil : Nat → Nat → V)

/-- Effect of a call on the gradients. -/
def gexec (s : State V T) : Ev V T → State V T × Option Hier.Err
  | .heap (.newParam n) =>
    ({ heap := s.heap.newParam n, mem := s.mem.newGrad s.heap.next n }, none)
  | e => s.exec spoil e

/-- `x.gradient = val`: of a `Param` (param.py:150-152) and of a `Parameterized`
(parameter_core.py:436-438), which assigns to `_gradient_array_` as it is: it may not exist yet, or still
have the size the object had when it was last connected. -/
def setGradient (s : State V T) (x : Id) (val : GVal V) : State V T × Option GErr :=
  match s.mem.arr x with
  | none => (s, some .attributeError)
  | some v => match val.elems v.len with
    | none => (s, some .valueError)
    | some l => ({ s with mem := s.mem.fill x fun i => (l[i]?).getD (s.mem.read x i) }, none)

/-- The gradients of `Pickleable.copy` (pickleable.py:69-95, 104-106), step by step as `State.copyBody`. Gradients are
not copied: every new `Param` has a new array, which it owns, when it is connected (param.py:146-147). What `np.empty`
leaves in it is read by nobody before the copy is finished; `gcopy` puts arbitrary numbers there in the end, and it does
not matter that they are those of the original until then. -/
def gcopyBody (s : State V T) (x : Id) : State V T :=
  let h1 := { s.heap with visited := (s.heap.copySearch x).marks }
  let s2 : State V T := { heap := h1.rawCopy x, mem := s.mem.rawLoad (fun _ => true) h1.toGraph x }
  s2.setstateF spoil s2.heap.toGraph.fuel (h1.copyOf x x)

/-- The same once the copy has its arrays: of a `Param` (param.py:201-202), of a `Parameterized`
(parameterized.py:352-361). -/
def gcopied (s : State V T) (x : Id) : State V T :=
  if s.heap.leaf x then s.gcopyBody spoil x
  else ({ s with heap := s.heap.readOptimizerArray x }.gcopyBody spoil x).reconnect spoil (s.heap.copyOf x x)

/-- Effect of `x.copy()` on the gradients. `junk y`: what is in the gradient of the copy of the `Param` `y` afterwards:
what `np.empty` found in memory, or what `parameters_changed` (parameterized.py:349, pickleable.py:94) has put there. -/
def gcopy (s : State V T) (x : Id) (junk : Id → Nat → V) : State V T :=
  ((s.heap.toGraph.subtree x).filter (fun y => s.heap.leaf y && decide (0 < s.heap.size y))).foldl
    (fun r y => (r.setGradient (s.heap.copyOf x y) (.array ((List.range (s.heap.size y)).map (junk y)))).1)
    (s.gcopied spoil x)

/-- `x.gradient` as a list. -/
def gradient (s : State V T) (x : Id) : List V :=
  (List.range (s.heap.size x)).map (s.mem.read x)

end State

end Paramz.Memory

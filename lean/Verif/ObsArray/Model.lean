import Verif.Observer.Model
import Mathlib.Data.List.Basic

/-!
# Model of observable arrays and their parts

Source: `paramz/core/observable_array.py`, `paramz/core/observable.py:40-100`.

An array object is a numpy array with two attributes of its own, `observers` and `_update_on`. Indexing
makes a new array object which gets both attributes from the old one (`__array_finalize__`, lines 69-73):
the list of observers is the same object, the switch is copied. So the model has cells of memory, list
objects, and array objects that say which cells and which list they use. The elements of an array are
numbered in C order; a selection is the list of the positions selected (C43 relates indices of numpy to
positions).

Simplified: callbacks only look at the arrays and do not change them (C06-C08 treat lists of observers
that change during a round), observers stay alive, and no memory is released, so the array that python
makes and drops in `a[sel] += x` remains, unused.
-/

namespace Paramz.ObsArray

open Observer (Entry insPos insertAt matchesReq)

variable {V K : Type} [LinearOrder K]

/-- An array object: the cells of its elements, the list object `observers`, the switch `_update_on`. -/
structure Ar where
  cells : List Nat
  list : Nat
  on : Bool

/-- All array objects (those below `next`), the memory, and the list objects. -/
structure State (V K : Type) where
  arr : Nat → Ar
  next : Nat
  mem : Nat → V
  nextCell : Nat
  lists : Nat → List (Entry K)
  nextList : Nat

/-- One call of a callback: the registration, the array passed as first argument and as `which`
(observable.py:87-90), and the memory at that moment. -/
structure Call (V K : Type) where
  entry : Entry K
  arr : Nat
  mem : Nat → V

/-- The elements of an array. -/
def State.values (s : State V K) (a : Nat) : List V := (s.arr a).cells.map s.mem

/-- The registrations an array would notify. -/
def State.observers (s : State V K) (a : Nat) : List (Entry K) := s.lists (s.arr a).list

/-- `notify_observers()` (observable.py:85-90): the calls made. -/
def State.notify (s : State V K) (a : Nat) : List (Call V K) :=
  if (s.arr a).on then (s.observers a).map fun e => ⟨e, a, s.mem⟩ else []

/-- Add an array object. -/
def State.push (s : State V K) (r : Ar) : State V K :=
  { s with arr := fun i => if i = s.next then r else s.arr i, next := s.next + 1 }

/-- New memory with the given contents, from cell `nextCell` on. -/
def State.alloc (s : State V K) (vs : List V) : State V K :=
  { s with
    mem := fun i => if i < s.nextCell then s.mem i else (vs[i - s.nextCell]?).getD (s.mem i)
    nextCell := s.nextCell + vs.length }

/-- A new array object in new memory. -/
def State.fresh (s : State V K) (vs : List V) (list : Nat) (on : Bool) : State V K :=
  (s.alloc vs).push ⟨List.range' s.nextCell vs.length, list, on⟩

/-- A new list object, empty (`ObserverList()`). -/
def State.newList (s : State V K) : State V K :=
  { s with lists := fun i => if i = s.nextList then [] else s.lists i, nextList := s.nextList + 1 }

/-- Write some cells, one after the other. -/
def put (m : Nat → V) : List (Nat × V) → Nat → V
  | [] => m
  | p :: ps => put (fun i => if i = p.1 then p.2 else m i) ps

/-- The cells of the selected elements. -/
def Ar.pick (r : Ar) (sel : List Nat) : List Nat := sel.filterMap (r.cells[·]?)

/-- `a[sel] = vals` (observable_array.py:117-119): write, then notify. -/
def State.set (s : State V K) (a : Nat) (sel : List Nat) (vals : List V) :
    State V K × List (Call V K) :=
  let s' := { s with mem := put s.mem (((s.arr a).pick sel).zip vals) }
  (s', s'.notify a)

/-- `a += x` and the other in-place operators (observable_array.py:127-201): every element gets a value
computed from the old one, then notify. -/
def State.inplace (s : State V K) (a : Nat) (f : Nat → V → V) : State V K × List (Call V K) :=
  let s' := { s with mem := put s.mem ((s.arr a).cells.zip ((s.values a).mapIdx f)) }
  (s', s'.notify a)

/-- `a[sel]` with slices: an array object on the same memory (69-73). -/
def State.part (s : State V K) (a : Nat) (sel : List Nat) : State V K :=
  s.push { s.arr a with cells := (s.arr a).pick sel }

/-- `a[sel]` with lists or masks, also `a.flatten()`: an array object in new memory, which also gets the
attributes of `a` (69-73). -/
def State.take (s : State V K) (a : Nat) (sel : List Nat) : State V K :=
  s.fresh (((s.arr a).pick sel).map s.mem) (s.arr a).list (s.arr a).on

/-- What numpy makes of an index: a view, a copy, or a single number. -/
inductive Kind
  | view
  | fancy
  | item
  deriving DecidableEq

/-- What can be done with arrays. -/
inductive Op (V K : Type)
  /-- `ObsAr(data)` where numpy has to copy the data (56-67; observable.py:40-44) -/
  | new (vs : List V)
  /-- `ObsAr(x)` where `x` is a plain array of floats in the memory of `a` (for instance `a.values`):
  `np.require` does not copy (61) -/
  | share (a : Nat)
  /-- `ObsAr(a)`: the same object, `__init__` runs again (65-66) -/
  | again (a : Nat)
  | part (a : Nat) (sel : List Nat)
  | take (a : Nat) (sel : List Nat)
  /-- `a.copy()` (91-107): `observers` is left out, `_update_on` is copied (pickleable.py:104-128) -/
  | copy (a : Nat)
  | set (a : Nat) (sel : List Nat) (vals : List V)
  | inplace (a : Nat) (f : Nat → V → V)
  /-- `a[sel] += x`: python evaluates `t = a[sel]`, `t += x`, `a[sel] = t` -/
  | inplacePart (a : Nat) (k : Kind) (sel : List Nat) (f : Nat → V → V)
  /-- a write that goes past the array object, for instance `a.values[sel] = vals` (84-89) or
  `a.fill(v)` -/
  | raw (a : Nat) (sel : List Nat) (vals : List V)
  /-- `a.set_updates(on)` (observable.py:46-47) -/
  | setUpdates (a : Nat) (on : Bool)
  /-- `a.add_observer` (observable.py:49-54) -/
  | addObserver (a : Nat) (e : Entry K)
  /-- `a.remove_observer` (observable.py:56-73) -/
  | removeObserver (a : Nat) (o : Nat) (c : Option Nat)

/-- Change an array object. -/
def State.setArr (s : State V K) (a : Nat) (r : Ar) : State V K :=
  { s with arr := fun i => if i = a then r else s.arr i }

/-- Change a list object. -/
def State.setList (s : State V K) (l : Nat) (es : List (Entry K)) : State V K :=
  { s with lists := fun i => if i = l then es else s.lists i }

/-- `a[sel] += x`. -/
def State.inplacePart (s : State V K) (a : Nat) (k : Kind) (sel : List Nat) (f : Nat → V → V) :
    State V K × List (Call V K) :=
  match k with
  | .view =>
    let r := (s.part a sel).inplace s.next f
    let r' := r.1.set a sel (r.1.values s.next)
    (r'.1, r.2 ++ r'.2)
  | .fancy =>
    let r := (s.take a sel).inplace s.next f
    let r' := r.1.set a sel (r.1.values s.next)
    (r'.1, r.2 ++ r'.2)
  | .item => s.set a sel ((((s.arr a).pick sel).map s.mem).mapIdx f)

/-- One operation and the calls of callbacks it makes. A new array object has the number `next`. -/
def step (s : State V K) : Op V K → State V K × List (Call V K)
  | .new vs => (s.newList.fresh vs s.nextList true, [])
  | .share a => (s.newList.push ⟨(s.arr a).cells, s.nextList, true⟩, [])
  | .again a => (s.newList.setArr a { s.arr a with list := s.nextList, on := true }, [])
  | .part a sel => (s.part a sel, [])
  | .take a sel => (s.take a sel, [])
  | .copy a => (s.newList.fresh (s.values a) s.nextList (s.arr a).on, [])
  | .set a sel vals => s.set a sel vals
  | .inplace a f => s.inplace a f
  | .inplacePart a k sel f => s.inplacePart a k sel f
  | .raw a sel vals => ({ s with mem := put s.mem (((s.arr a).pick sel).zip vals) }, [])
  | .setUpdates a on => (s.setArr a { s.arr a with on := on }, [])
  | .addObserver a e =>
    (s.setList (s.arr a).list (insertAt (s.observers a) (insPos e.prio (s.observers a)) e), [])
  | .removeObserver a o c =>
    (s.setList (s.arr a).list ((s.observers a).filter fun e => !matchesReq o c e), [])

/-- The array an operation is applied to. -/
def Op.on? : Op V K → Option Nat
  | .new _ => none
  | .share a | .again a | .part a _ | .take a _ | .copy a | .set a _ _ | .inplace a _
  | .inplacePart a _ _ _ | .raw a _ _ | .setUpdates a _ | .addObserver a _ | .removeObserver a _ _ => some a

/-- The operation is applied to an array that exists. -/
def State.Exists (s : State V K) (o : Op V K) : Prop := ∀ a, o.on? = some a → a < s.next

/-- No arrays. -/
def State.empty (v : V) : State V K :=
  { arr := fun _ => ⟨[], 0, true⟩, next := 0, mem := fun _ => v, nextCell := 0, lists := fun _ => [],
    nextList := 0 }

/-- Operations that neither take memory past the observers nor make an array object anew: all but
`share`, `again` and `raw`. -/
def Op.Proper : Op V K → Prop
  | .share _ | .again _ | .raw _ _ _ => False
  | _ => True

/-- The states that proper operations lead to. -/
inductive Reach : State V K → Prop
  | empty (v : V) : Reach (.empty v)
  | step {s : State V K} {o : Op V K} (h : Reach s) (ho : o.Proper) (he : s.Exists o) :
      Reach (step s o).1

end Paramz.ObsArray

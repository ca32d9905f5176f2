import Verif.Notify.Model
import Verif.Hier.Props

/-!
# What an update should do

In terms of the shape of the hierarchy only.
-/

namespace Paramz.Notify

open Hier (Heap Id upd)
open Hier.Graph (Anc)

variable {T : Type} [DecidableEq T]

/-- The objects above `x`, nearest first. -/
inductive Above (g : Hier.Graph) : Id → List Id → Prop
  | root {x : Id} : g.parent x = none → Above g x []
  | up {x p : Id} {l : List Id} : g.parent x = some p → Above g p l → Above g x (p :: l)

/-- `y` is `x` or is reached from `x` going down through objects that are not fixed. -/
inductive Awake (h : Heap T) (x : Id) : Id → Prop
  | refl : Awake h x x
  | step {p c : Id} : Awake h x p → h.parent c = some p → h.isFixed c = false → Awake h x c

/-- The objects whose `parameters_changed` was called, in order. -/
def changedOf (l : List Call) : List Id :=
  l.filterMap (fun c => match c with | .changed x => some x | .user _ => none)

/-- The calls a user may make: good requests (`Hier.Heap.Admissible`) that do not raise, and observer and
update calls on existing objects; the writing calls are made on `Param`s. -/
def Admissible (s : State T) : Ev T → Prop
  | .hier e => s.heap.Admissible e ∧ (s.heap.exec e).2 = none
  | .addObserver x _ _ => x < s.heap.next
  | .removeObserver x _ => x < s.heap.next
  | .updateModel x _ => x < s.heap.next
  | .write x => x < s.heap.next ∧ s.heap.leaf x = true
  | .trigger x _ => x < s.heap.next

/-- States reached by a history of such calls. -/
inductive Reach : State T → Prop
  | empty : Reach empty
  | step {s : State T} {e : Ev T} : Reach s → Admissible s e → Reach (exec s e).1

end Paramz.Notify

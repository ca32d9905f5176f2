import Verif.Hier.Model
import Mathlib.Order.WithBot

/-!
# Model of notifications and updates in a hierarchy

Source: `paramz/core/observable.py:75-96`, `paramz/core/updateable.py:42-79`,
`paramz/core/parameter_core.py:126-134, 326-337, 502-529`, `paramz/parameterized.py:118, 171, 213`,
`paramz/core/observable_array.py:117-119`.

A run of the program is described by the calls it makes: `parameters_changed` of an object, or the
callback of an observer added by the user. The bodies of `parameters_changed` and of these callbacks are
taken to leave the hierarchy and the observer lists alone (for lists edited during a round see
`Verif.Observer`). Observers stay alive.
-/

namespace Paramz.Notify

open Hier (Heap Id upd)
open Hier.Heap (Target)

variable {T : Type} [DecidableEq T]

/-- Priorities: numbers, or `-np.inf`. -/
abbrev Prio := WithBot Int

/-- What is registered: `self._parameters_changed_notification` (parameterized.py:118),
`parent._pass_through_notify_observers` (parameterized.py:171) or a callback of the user. -/
inductive Callee
  | changed
  | pass (p : Id)
  | user (u : Nat)
  deriving DecidableEq, Repr

/-- A registration (lists_and_dicts.py:101). -/
structure Reg where
  prio : Prio
  callee : Callee
  deriving DecidableEq

/-- The hierarchy, `_update_on` and `observers` of every object. -/
structure State (T : Type) where
  heap : Heap T
  on : Id → Bool
  obs : Id → List Reg

/-- `ObserverList.add` (lists_and_dicts.py:91-101): before the first entry of smaller priority. -/
def addReg (r : Reg) : List Reg → List Reg
  | [] => [r]
  | e :: l => if e.prio < r.prio then r :: e :: l else e :: addReg r l

/-- `remove_observer(observer, callble)` (observable.py:56-73). -/
def removeReg (c : Callee) (l : List Reg) : List Reg := l.filter (fun e => decide (e.callee ≠ c))

/-- One call made by the program. -/
inductive Call
  | changed (x : Id)
  | user (u : Nat)
  deriving DecidableEq, Repr

/-- The registrations served in a round: all of them, or those before the first with
`priority <= min_priority` (observable.py:90-96). -/
def served (minp : Option Prio) (l : List Reg) : List Reg :=
  match minp with
  | none => l
  | some q => l.takeWhile (fun e => decide (q < e.prio))

namespace State

/-- `notify_observers` (observable.py:75-96), with `_parameters_changed_notification` and
`_pass_through_notify_observers` (parameter_core.py:502-510). -/
def notifyF : Nat → State T → Id → Option Prio → List Call
  | 0, _, _, _ => []
  | n + 1, s, x, minp =>
    if s.on x then
      (served minp (s.obs x)).flatMap (fun r => match r.callee with
        | .changed => [.changed x]
        | .pass p => notifyF n s p none
        | .user u => [.user u])
    else []

@[inherit_doc notifyF]
def notify (s : State T) (x : Id) (minp : Option Prio) : List Call :=
  notifyF s.heap.toGraph.fuel s x minp

/-- `_trigger_params_changed` (parameter_core.py:126-134). -/
def triggerF : Nat → State T → Id → Bool → List Call
  | 0, _, _, _ => []
  | n + 1, s, x, tp =>
    ((s.heap.kids x).filter (fun c => !s.heap.isFixed c)).flatMap (fun c => triggerF n s c false) ++
      s.notify x (if tp then none else some ⊥)

/-- `trigger_update` (updateable.py:69-79). -/
def triggerUpdate (s : State T) (x : Id) (tp : Bool) : List Call :=
  if !s.on x || s.heap.inInit x then [] else triggerF s.heap.toGraph.fuel s x tp

/-- `update_model(b)` (updateable.py:42-61). -/
def updateModel (s : State T) (x : Id) (b : Bool) : State T × List Call :=
  let l := (s.heap.toGraph.traverse (fun _ _ => false) ⟨s.heap.visited, [], false⟩
    (s.heap.toGraph.highest x)).trace
  let s1 : State T := { s with on := fun y => if y ∈ l then b else s.on y }
  (s1, s1.triggerUpdate x true)

/-- `x[...] = v` on a `Param` or on a part of it, which shares its observers
(observable_array.py:69-73, 117-119). -/
def write (s : State T) (x : Id) : List Call := s.notify x none

/-- Calls of `Verif.Hier`: what they do to the observers, and the calls they make.
`newParam`, `newNode`: `Observable.__init__` (observable.py:40-44) and parameterized.py:118.
`link`: parameterized.py:146 (through 213) and 171; if it raises, the lists are unchanged (bad
positions, which raise later, are not admissible).
`unlink`: parameterized.py:213.
`finishInit`, `init`: the final `trigger_update` (parameter_core.py:337).
`constrain`: the assignment (notifies on a `Param`) and `trigger_update` (constrainable.py:149-155);
`fix`: `notify_observers` (constrainable.py:67). -/
def hier (s : State T) (e : Hier.Heap.Ev T) : State T × List Call :=
  let r := s.heap.exec e
  let s1 : State T := { s with heap := r.1 }
  match e with
  | .newParam _ =>
    ({ s1 with on := upd s.on s.heap.next true, obs := upd s.obs s.heap.next [] }, [])
  | .newNode =>
    ({ s1 with
        on := upd s.on s.heap.next true
        obs := upd s.obs s.heap.next [⟨((-100 : Int) : Prio), .changed⟩] }, [])
  | .finishInit x i => (s1, if i then s1.triggerUpdate x true else [])
  | .init x => (s1, s1.triggerUpdate x true)
  | .link p x _ =>
    if r.2 ≠ none then (s1, [])
    else
      let l := match s.heap.parent x with
        | none => s.obs x
        | some q => removeReg (.pass q) (s.obs x)
      ({ s1 with obs := upd s.obs x (addReg ⟨⊥, .pass p⟩ l) }, [])
  | .unlink q x =>
    if r.2 ≠ none then (s1, [])
    else ({ s1 with obs := upd s.obs x (removeReg (.pass q) (s.obs x)) }, [])
  | .constrain x (.tr _) =>
    (s1, (if s.heap.leaf x.obj then s.notify x.obj none else []) ++ s1.triggerUpdate x.obj true)
  | .constrain x .fixed => (s1, s1.notify x.obj none)
  | .fix x => (s1, s1.notify x.obj none)
  | .unconstrain _ _ => (s1, [])
  | .unfix _ => (s1, [])

end State

/-- A call of the user. -/
inductive Ev (T : Type)
  | hier (e : Hier.Heap.Ev T)
  | addObserver (x : Id) (u : Nat) (p : Prio)
  | removeObserver (x : Id) (u : Nat)
  | updateModel (x : Id) (b : Bool)
  | write (x : Id)
  | trigger (x : Id) (tp : Bool)

/-- Effect of a call, and the calls it makes. -/
def exec (s : State T) : Ev T → State T × List Call
  | .hier e => s.hier e
  | .addObserver x u p => ({ s with obs := upd s.obs x (addReg ⟨p, .user u⟩ (s.obs x)) }, [])
  | .removeObserver x u => ({ s with obs := upd s.obs x (removeReg (.user u) (s.obs x)) }, [])
  | .updateModel x b => s.updateModel x b
  | .write x => (s, s.write x)
  | .trigger x tp => (s, s.triggerUpdate x tp)

/-- No objects. -/
def empty : State T := ⟨Heap.empty, fun _ => true, fun _ => []⟩

end Paramz.Notify

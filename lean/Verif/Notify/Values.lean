import Verif.Notify.Props

/-!
# Values of parameters and what observers have seen of them

The ways values are changed, with the notifications of `Verif.Notify.Model`. Source:
`paramz/core/observable_array.py:117-119`, `paramz/parameterized.py:312-333`,
`paramz/core/parameter_core.py:95-124, 228-250`, `paramz/core/constrainable.py:135-156`.

A callback `u` stands for a function registered with one object; when called it looks at the values (a
`Cacher` instead forgets its result and looks when it is used next; no value changes in between without
its own notification).
-/

namespace Paramz.Notify

open Hier (Heap Id upd)
open Hier.Graph (Anc)
open Hier.Heap (Target Hits)

variable {T : Type} [DecidableEq T] {V : Type}

/-- Hierarchy, element `k` of every `Param`, and what each callback saw when it last looked. -/
structure World (T V : Type) where
  s : State T
  val : Id → Nat → V
  known : Nat → Id → Nat → V

/-- A call of the user. Those that change values carry all the values afterwards (which of them may differ
from before: `Act.OK`).
`ev`: no values change.
`assign x`: `x[...] = v` for a `Param` or a part of it.
`assignAll m`: `m[...] = v` with a slice, tuple or array, for a node (parameterized.py:325-330).
`optimizer m`: `m.optimizer_array = v`.
`randomize m`.
`constrain x t`: `x.constrain(t)` where values outside the domain are moved (`t.initialize`). -/
inductive Act (T V : Type)
  | ev (e : Ev T)
  | assign (x : Id) (f : Id → Nat → V)
  | assignAll (m : Id) (f : Id → Nat → V)
  | optimizer (m : Id) (f : Id → Nat → V)
  | randomize (m : Id) (f : Id → Nat → V)
  | constrain (x : Target) (t : T) (f : Id → Nat → V)

/-- Values afterwards. -/
def Act.vals (v : Id → Nat → V) : Act T V → Id → Nat → V
  | .ev _ => v
  | .assign _ f => f
  | .assignAll _ f => f
  | .optimizer _ f => f
  | .randomize _ f => f
  | .constrain _ _ f => f

/-- `randomize` (parameter_core.py:228-250): updates off, set the optimiser's array, the old switch of `m`
for the whole hierarchy. -/
def randomizeCalls (s : State T) (m : Id) : State T × List Call :=
  let r := exec s (.updateModel m false)
  let q := exec r.1 (.trigger m true)
  let z := exec q.1 (.updateModel m (s.on m))
  (z.1, r.2 ++ q.2 ++ z.2)

/-- State of the hierarchy afterwards, and the calls made. In every case the values are written before the
first notification. `assignAll`: parameterized.py:326-330. `optimizer`: parameter_core.py:103-124 (writing
through `flat` and `np.put` does not notify). -/
def Act.exec (s : State T) : Act T V → State T × List Call
  | .ev e => Notify.exec s e
  | .assign x _ => Notify.exec s (.write x)
  | .assignAll m _ => Notify.exec s (.trigger m true)
  | .optimizer m _ => Notify.exec s (.trigger m true)
  | .randomize m _ => randomizeCalls s m
  | .constrain x t _ => Notify.exec s (.hier (.constrain x (.tr t)))

/-- The callback that looks at the values without being called: the one being registered. -/
def Act.registers : Act T V → Nat → Bool
  | .ev (.addObserver _ u _), v => decide (u = v)
  | _, _ => false

/-- One step. -/
def step (w : World T V) (a : Act T V) : World T V :=
  let r := a.exec w.s
  let v := a.vals w.val
  ⟨r.1, v, fun u => if .user u ∈ r.2 ∨ a.registers u = true then v else w.known u⟩

/-- The calls a user may make, and what they can change: an assignment the `Param` or the `Param`s below; the
optimiser's array elements that are not fixed (C29, C30); `constrain` the elements it is called on. A node
that is still in its constructor is not used to change values (`__setitem__` raises, parameterized.py:313). -/
def Act.OK (w : World T V) : Act T V → Prop
  | .ev e => Admissible w.s e
  | .assign x f => x < w.s.heap.next ∧ w.s.heap.leaf x = true ∧
      ∀ y k, f y k ≠ w.val y k → y = x ∧ k < w.s.heap.size x
  | .assignAll m f => m < w.s.heap.next ∧ w.s.heap.leaf m = false ∧ w.s.heap.inInit m = false ∧
      w.s.heap.inited m = true ∧
      ∀ y k, f y k ≠ w.val y k → Anc w.s.heap.toGraph m y ∧ w.s.heap.leaf y = true ∧ k < w.s.heap.size y
  | .optimizer m f => m < w.s.heap.next ∧ w.s.heap.inInit m = false ∧
      ∀ y k, f y k ≠ w.val y k → Anc w.s.heap.toGraph m y ∧ w.s.heap.leaf y = true ∧
        k < w.s.heap.size y ∧ k ∉ w.s.heap.constraints y .fixed
  | .randomize m f => m < w.s.heap.next ∧ w.s.heap.inInit m = false ∧
      ∀ y k, f y k ≠ w.val y k → Anc w.s.heap.toGraph m y ∧ w.s.heap.leaf y = true ∧
        k < w.s.heap.size y ∧ k ∉ w.s.heap.constraints y .fixed
  | .constrain x t f => Admissible w.s (.hier (.constrain x (.tr t))) ∧ w.s.heap.inInit x.obj = false ∧
      ∀ y k, f y k ≠ w.val y k → w.s.heap.leaf y = true ∧ k < w.s.heap.size y ∧ Hits w.s.heap x y k

/-- Worlds reached by a history. -/
inductive Hist : World T V → Prop
  | start (v : Id → Nat → V) (kn : Nat → Id → Nat → V) : Hist ⟨empty, v, kn⟩
  | step {w : World T V} {a : Act T V} : Hist w → a.OK w → Hist (step w a)

end Paramz.Notify

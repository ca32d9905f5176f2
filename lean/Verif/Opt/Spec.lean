import Verif.Opt.Model
import Verif.Hier.ConProps

/-!
# What the optimiser should see

Written in terms of the values, the constraints and the fixes of the model only.
-/

namespace Paramz.Opt

open IndexOps (Arr)
open Hier (Heap Con Id upd)
open Hier.Heap (Target Reach)

variable {V T : Type} [DecidableEq T]

/-- The object belongs to a hierarchy built by calls of the user, and its array has one entry per element. -/
structure Held (s : State V T) : Prop where
  reach : Reach s.heap
  lt : s.root < s.heap.next
  vals : s.vals.length = s.size

/-- The model is the initialised root of such a hierarchy. -/
structure Ready (s : State V T) : Prop extends Held s where
  root : s.heap.parent s.root = none
  node : s.heap.leaf s.root = false
  inInit : s.heap.inInit s.root = false
  inited : s.heap.inited s.root = some true

instance {s : State V T} : CoeOut (Ready s) (Held s) := ⟨Ready.toHeld⟩

/-- The elements that are not fixed, in order. -/
def free (s : State V T) : List Nat :=
  (List.range s.size).filter (fun i => decide (i ∉ s.cons .fixed))

/-- `w` is `v` sent through the function of the transformation carried by element `i`, or `v` itself if
there is none. -/
def Via (s : State V T) (g : T → V → V) (i : Nat) (v w : V) : Prop :=
  (∀ t, i ∈ s.cons (.tr t) → w = g t v) ∧ ((∀ t, i ∉ s.cons (.tr t)) → w = v)

/-- `out` lists, for every free element in order, its value in optimiser space. -/
def ListsFree (o : Ops V T) (s : State V T) (out : List V) : Prop :=
  out.length = s.size - (s.cons .fixed).length ∧ out.length = (free s).length ∧
  ∀ k i : Nat, (free s)[k]? = some i → ∃ v w, s.vals[i]? = some v ∧ out[k]? = some w ∧ Via s o.finv i v w

/-- `x` is an object of the hierarchy (or a part of one of its `Param`s). -/
def Within (s : State V T) (x : Target) : Prop :=
  x.OK s.heap ∧ Hier.Graph.Anc s.heap.toGraph s.root x.obj

/-- Calls are made on objects of the hierarchy. -/
def Admissible (s : State V T) : Ev V T → Prop
  | .write x _ => Within s x
  | .constrain x _ _ => Within s x
  | .unconstrain x _ => Within s x
  | .fix x => Within s x
  | .unfix x => Within s x
  | _ => True

/-- May a change of values or transformations have gone unannounced since the last announced one? A
change is announced to the model when updates are on; `unconstrain` announces nothing; setting
`optimizer_array` always counts as announced. -/
def unannounced (s : State V T) (b : Bool) : Ev V T → Bool
  | .set _ => false
  | .randomize _ => false
  | .write _ _ => !s.on
  | .constrain _ _ (.tr _) => !s.on
  | .constrain _ _ .fixed => !s.on && b
  | .fix _ => !s.on && b
  | .unconstrain _ ts => b || decide (ts ≠ [.fixed])
  | .updateModel u => !u && b
  | _ => b

/-- A history of calls from `s`, ending in `s'`; `b`, `b'` tell whether a change may be unannounced. -/
inductive History (o : Ops V T) (gradOf : List V → List V) : State V T → Bool → State V T → Bool → Prop
  | nil (s b) : History o gradOf s b s b
  | snoc {s b s' b'} (h : History o gradOf s b s' b') (e : Ev V T) (ha : Admissible s' e) :
      History o gradOf s b (exec o gradOf s' e) (unannounced s' b' e)

end Paramz.Opt

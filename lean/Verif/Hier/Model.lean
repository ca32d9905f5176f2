import Verif.IndexOps.Model
import Verif.Hier.Graph
import Verif.Hier.Traverse

/-!
# Model of linking, unlinking, constraining and fixing

Source: `paramz/parameterized.py`, `paramz/core/indexable.py`, `paramz/core/constrainable.py`,
`paramz/core/parameter_core.py`, `paramz/param.py`.

Modelled: the pointers between objects, sizes, the index operations named `constraints` of every object
(the dictionary it owns, or the chain of views through which it reaches its root's dictionary), the
`_fixes_` masks, the construction flags and the traversal marks. The loops
`for name, iop in self._index_operations.items()` treat every name alike; only the name `constraints`
is modelled here, `Verif.Hier.Families` has the others.
Not modelled here: values and gradients in memory (`Verif.Mem`), observers and updates
(`Verif.Notify`), names (`Verif.Names`).
-/

namespace Paramz.Hier

open IndexOps (Arr Dict Iop)

/-- A key of `constraints`: the marker `__fixed__` (transformations.py, `__fixed__ = "fixed"`) or a
transformation object. Transformations are compared by identity; see `Verif.Transform.Singleton`. -/
inductive Con (T : Type)
  | fixed
  | tr (t : T)
  deriving DecidableEq, Repr

/-- Exceptions raised by the calls below. -/
inductive Err
  | hierarchyError
  | indexError
  | attributeError
  deriving DecidableEq, Repr

/-- All objects. `iop x` is `x._index_operations['constraints']`: the number of the dictionary it
ends in and the chain of views in front of it (a view keeps the index operations object it was created
from and never changes it, index_operations.py:206-210, so the chain is a value). `dicts` are the
contents of the dictionaries. `fixes x` is `x._fixes_` (`true` = UNFIXED, `None` = `none`).
`inInit x` is `_in_init_`; `inited x` is `_model_initialized_` (`none`: attribute not set yet).
`visited x` is `__visited`. -/
structure Heap (T : Type) extends Graph where
  iop : Id → Nat × Iop
  dicts : Nat → Dict (Con T)
  nextDict : Nat
  fixes : Id → Option (List Bool)
  inInit : Id → Bool
  inited : Id → Option Bool
  visited : Id → Bool

namespace Heap

variable {T : Type} [DecidableEq T]

/-- No objects. -/
def empty : Heap T where
  next := 0
  leaf := fun _ => false
  parent := fun _ => none
  pidx := fun _ => 0
  kids := fun _ => []
  size := fun _ => 0
  iop := fun _ => (0, .base)
  dicts := fun _ => []
  nextDict := 0
  fixes := fun _ => none
  inInit := fun _ => false
  inited := fun _ => none
  visited := fun _ => false

/-- `x.constraints[t]` as read by the user. -/
def constraints (h : Heap T) (x : Id) (t : Con T) : Arr := (h.iop x).2.get (h.dicts (h.iop x).1) t

/-! ### Construction -/

/-- A new object with its own empty `ParameterIndexOperations` (indexable.py:44-56). -/
def newObj (h : Heap T) (leaf : Bool) (size : Nat) (inInit : Bool) : Heap T :=
  { h with
    next := h.next + 1
    leaf := upd h.leaf h.next leaf
    parent := upd h.parent h.next none
    kids := upd h.kids h.next []
    size := upd h.size h.next size
    iop := upd h.iop h.next (h.nextDict, .base)
    dicts := upd h.dicts h.nextDict []
    nextDict := h.nextDict + 1
    fixes := upd h.fixes h.next none
    inInit := upd h.inInit h.next inInit
    inited := upd h.inited h.next none
    visited := upd h.visited h.next false }

/-- `Param(name, array)` with `size` elements (param.py:85-98); a default constraint is a following
`constrain` call (constrainable.py:36-41). -/
def newParam (h : Heap T) (size : Nat) : Heap T := h.newObj true size false

/-- Entering the `__init__` of a `Parameterized` (parameterized.py:49-54, 115-123): `_in_init_` is set
and `_model_initialized_` does not exist yet. -/
def newNode (h : Heap T) : Heap T := h.newObj false 0 true

/-! ### Helpers -/

/-- `_parent_changed(parent)` (indexable.py:220-239): a new view on the index operations of `top`, no
mask, and the same for everything below, always with the same `top`. -/
def parentChangedF : Nat → Heap T → Id → Id → Heap T
  | 0, h, _, _ => h
  | n + 1, h, top, x =>
    (h.kids x).foldl (fun h c => parentChangedF n h top c)
      { h with
        iop := upd h.iop x
          ((h.iop top).1, .view (h.iop top).2 (h.toGraph.offsetFor top x) (h.size x))
        fixes := upd h.fixes x none }

/-- `_notify_parent_change` (parameter_core.py:524-529; a `Param` has no parameters). -/
def notifyParentChange (h : Heap T) (x : Id) : Heap T :=
  (h.kids x).foldl (fun h' c => parentChangedF h.toGraph.fuel h' x c) h

/-- The pointer part of `_connect_parameters` (parameterized.py:228-277) and of `_propagate_param_grad`
below it (parameter_core.py:270-296): the children get their parent and position again and everything
below counts as initialised. Memory and names are modelled elsewhere. -/
def connect (h : Heap T) (x : Id) : Heap T :=
  { h with
    inited := fun y => if y ∈ h.toGraph.subtree x then some true else h.inited y
    parent := fun c => if c ∈ h.kids x then some x else h.parent c
    pidx := fun c => if c ∈ h.kids x then (h.kids x).idxOf c else h.pidx c }

/-- `np.ones(n)` with the entries of `fixed` set to `FIXED` (= `False`). An index beyond `n` would be
an `IndexError`; it cannot occur in reachable states (`fixed` is below the size). -/
def maskOf (n : Nat) (fixed : Arr) : List Bool := (List.range n).map (fun i => decide (i ∉ fixed))

/-- `self._fixes_[index] = b`. -/
def setAll (m : List Bool) (index : Arr) (b : Bool) : List Bool :=
  (List.range m.length).map (fun i => if i ∈ index then b else m.getD i true)

/-- `_connect_fixes` (constrainable.py:106-114). Reading `constraints[__fixed__]` may insert an empty
entry, which the `del` takes out again. In the first branch `_ensure_fixes` only makes sure of an array
of the right length, all of which is then overwritten. -/
def connectFixes (h : Heap T) (x : Id) : Heap T :=
  let v := (h.iop x).2
  let d := (h.iop x).1
  let r := v.getItem (h.dicts d) .fixed
  if r.2 ≠ [] then
    { h with dicts := upd h.dicts d r.1, fixes := upd h.fixes x (some (maskOf (h.size x) r.2)) }
  else
    { h with
      dicts := upd h.dicts d (match v.delItem r.1 .fixed with | .ok d' => d' | .error _ => r.1)
      fixes := upd h.fixes x none }

/-- `_ensure_fixes`: of a `Parameterized` (constrainable.py:85-91) a missing mask is built from the
constraints, of a `Param` (param.py:184-185) it is all `UNFIXED`. (`self.constraints[__fixed__]` may
insert an empty entry; that is invisible and left out here.) -/
def ensureFixes (h : Heap T) (x : Id) : List Bool :=
  let fresh := if h.leaf x then maskOf (h.size x) [] else maskOf (h.size x) (h.constraints x .fixed)
  match h.fixes x with
  | none => fresh
  | some m => if m.length ≠ h.size x then fresh else m

/-- `_set_fixed` / `_set_unfixed` (constrainable.py:94-104) of root `r` for object `x`; `b` is `FIXED`
or `UNFIXED`. -/
def setMask (h : Heap T) (r x : Id) (index : Arr) (b : Bool) : Heap T :=
  let m := setAll (h.ensureFixes r) (index.map (· + h.toGraph.offsetFor r x)) b
  { h with fixes := upd h.fixes r (if m.all id then none else some m) }

/-! ### `link_parameter`, `unlink_parameter` -/

/-- `l[:i]` for a python integer `i`. -/
def sliceTo (l : List Id) (i : Int) : List Id :=
  if 0 ≤ i then l.take i.toNat else l.take (l.length - (-i).toNat)

/-- Size changes along the parent chain: `parent.size += n` (parameterized.py:173-176). -/
def addSizes (h : Heap T) (x : Id) (n : Nat) : Heap T :=
  (h.toGraph.upwards x).foldl (fun h y => { h with size := upd h.size y (h.size y + n) }) h

/-- `parent.size -= n` (parameterized.py:219-222). -/
def subSizes (h : Heap T) (x : Id) (n : Nat) : Heap T :=
  (h.toGraph.upwards x).foldl (fun h y => { h with size := upd h.size y (h.size y - n) }) h

/-- `_disconnect_parent` (indexable.py:110-125). -/
def disconnect (h : Heap T) (x : Id) : Heap T :=
  let d := (h.iop x).1
  let v := (h.iop x).2
  let h1 := { h with
    dicts := upd (upd h.dicts d (v.clear (h.dicts d))) h.nextDict (v.copy (h.dicts d))
    nextDict := h.nextDict + 1
    iop := upd h.iop x (h.nextDict, .base)
    parent := upd h.parent x none }
  (h1.connectFixes x).notifyParentChange x

/-- `unlink_parameter` (parameterized.py:195-226) for a child `x` of `q`. `_remove_parameter_name`
(parameter_core.py:482-488) ends in `_connect_parameters`. Observers are modelled elsewhere. -/
def unlinkChild (h : Heap T) (q x : Id) : Heap T :=
  let start := h.toGraph.sizeSum ((h.kids q).take (h.pidx x))
  let n := h.size x
  let h1 := { h with
    size := upd h.size q (h.size q - n)
    kids := upd h.kids q ((h.kids q).eraseIdx (h.pidx x)) }
  let h2 := h1.connect q
  let h3 := h2.disconnect x
  let d := (h3.iop q).1
  let h4 := { h3 with dicts := upd h3.dicts d ((h3.iop q).2.shiftLeft (h3.dicts d) start n) }
  let h5 := (h4.connect q).notifyParentChange q
  let h6 := match h5.parent q with
    | none => h5
    | some p => h5.subSizes p n
  let r := h6.toGraph.highest q
  ((h6.connect r).connectFixes r).notifyParentChange r

/-- `unlink_parameter` (parameterized.py:195-226): `HierarchyError` if `x` is not a child. -/
def unlink (h : Heap T) (q x : Id) : Heap T × Option Err :=
  if h.leaf q then (h, some .attributeError)
  else if x ∈ h.kids q then (h.unlinkChild q x, none)
  else (h, some .hierarchyError)

/-- The position at which `link_parameter(param, index)` inserts (parameterized.py:158, 160, 169):
the end, or where `list.insert` puts it. -/
def insertPos (l : List Id) : Option Int → Nat
  | none => l.length
  | some i => (sliceTo l i).length

/-- The `_parent_index_` it stores (parameterized.py:157, 165). -/
def storedIndex (l : List Id) : Option Int → Nat
  | none => l.length
  | some i => if 0 ≤ i then i.toNat else (sliceTo l i).length

/-- The offset at which the constraints of the parameter are copied in (parameterized.py:153, 163). -/
def copyOffset (h : Heap T) (p : Id) : Option Int → Nat
  | none => h.size p
  | some i => h.toGraph.sizeSum (sliceTo (h.kids p) i)

/-- First part of `link_parameter` (parameterized.py:149-169): open a gap in the constraints, copy
those of the parameter into it, set its parent and position, move the later siblings up by one and
insert it in the list. -/
def linkPointers (h : Heap T) (p x : Id) (index : Option Int) : Heap T :=
  let ks := h.kids p
  let k := insertPos ks index
  let start := h.toGraph.sizeSum (ks.take k)
  let d := (h.iop p).1
  let ds := upd h.dicts d ((h.iop p).2.shiftRight (h.dicts d) start (h.size x))
  let its := (h.iop x).2.items (ds (h.iop x).1)
  { h with
    dicts := upd ds d ((h.iop p).2.update (ds d) its (h.copyOffset p index))
    parent := upd h.parent x (some p)
    pidx := fun c => if c = x then storedIndex ks index
      else if c ∈ ks.drop k then h.pidx c + 1 else h.pidx c
    kids := upd h.kids p (ks.take k ++ x :: ks.drop k) }

/-- Body of `link_parameter` for a parameter that is not (any more) in a hierarchy
(parameterized.py:148-183). An index beyond the end of the list makes the first `_offset_for` of the new
child fail with `IndexError`; the views refreshed before that are not modelled. -/
def linkRoot (h : Heap T) (p x : Id) (index : Option Int) : Heap T × Option Err :=
  let h2 := (h.linkPointers p x index).addSizes p (h.size x)
  if storedIndex (h.kids p) index ≠ insertPos (h.kids p) index then (h2, some .indexError)
  else
    let h3 := h2.notifyParentChange p
    if h3.inInit p then (h3, none)
    else
      let r := h3.toGraph.highest p
      match h3.inited r with
      | none => (h3, some .attributeError)
      | some false => (h3, none)
      | some true => (((h3.connect r).notifyParentChange r).connectFixes r, none)

/-- `link_parameter(param, index)` for a parameter that is not among `p.parameters`
(parameterized.py:141-183): if it has a parent, the surrounding hierarchy is searched for `p` and the
parameter is unlinked from its old parent first. The search leaves its marks when it raises. -/
def linkNew (h : Heap T) (p x : Id) (index : Option Int) : Heap T × Option Err :=
  match h.parent x with
  | none => h.linkRoot p x index
  | some q =>
    let s := h.toGraph.traverseParents (fun _ y => decide (y = p))
      ⟨h.visited, [], false⟩ x
    let h1 := { h with visited := s.marks }
    if s.raised then (h1, some .hierarchyError)
    else (h1.unlinkChild q x).linkRoot p x index

/-- `link_parameter(param, index)` (parameterized.py:128-186). -/
def link (h : Heap T) (p x : Id) (index : Option Int) : Heap T × Option Err :=
  if h.leaf p then (h, some .attributeError)
  else if x ∈ h.kids p then
    match index with
    | none => (h, some .hierarchyError)
    | some i => (h.unlinkChild p x).linkNew p x (some i)
  else h.linkNew p x index

/-- `initialize_parameter` (parameter_core.py:326-337) without the final `trigger_update`. -/
def initializeParameter (h : Heap T) (x : Id) : Heap T :=
  let r := h.toGraph.highest x
  ((h.notifyParentChange r).connect r).connectFixes r

/-- Leaving the constructor of a `Parameterized` (parameterized.py:55-62), with the keyword
`initialize`. -/
def finishInit (h : Heap T) (x : Id) (init : Bool) : Heap T :=
  let h1 := { h with inInit := upd h.inInit x false, inited := upd h.inited x (some false) }
  if init then h1.initializeParameter x else h1

/-! ### Constraining and fixing -/

/-- What a constraining call is made on: an object (`part = none`), or the part of a `Param` obtained by
indexing it, given by its raveled indices (param.py:150-176). A part is a temporary `Param` that shares
parent and index operations with the original (param.py:100-118). -/
structure Target where
  obj : Id
  part : Option Arr

/-- `_raveled_index()` (indexable.py:192-197, param.py:170-176). -/
def Target.index (h : Heap T) (x : Target) : Arr :=
  match x.part with
  | none => List.range (h.size x.obj)
  | some a => a

/-- `self._highest_parent_._set_fixed(self, index)` / `_set_unfixed`. For a part of a parameter
without parent the highest parent is the temporary object itself, so the mask of the original does not
change. -/
def setRootMask (h : Heap T) (x : Target) (index : Arr) (b : Bool) : Heap T :=
  if x.part ≠ none ∧ h.parent x.obj = none then h
  else h.setMask (h.toGraph.highest x.obj) x.obj index b

/-- One round of the loop of `_remove_from_index_operations` (indexable.py:265-269). -/
def unconstrainOne (h : Heap T) (x : Target) (t : Con T) : Heap T :=
  let d := (h.iop x.obj).1
  let r := (h.iop x.obj).2.remove (h.dicts d) t (x.index h)
  let h1 := { h with dicts := upd h.dicts d r.1 }
  if t = .fixed then h1.setRootMask x r.2 true else h1

/-- `unconstrain(*transforms)` (constrainable.py:158-165, indexable.py:256-270); no arguments mean all
constraints of the object. -/
def unconstrain (h : Heap T) (x : Target) (ts : List (Con T)) : Heap T :=
  (if ts = [] then (h.iop x.obj).2.properties (h.dicts (h.iop x.obj).1) else ts).foldl
    (fun h t => h.unconstrainOne x t) h

/-- `constraints.add` through the target (indexable.py:241-254). -/
def addCon (h : Heap T) (x : Target) (t : Con T) : Heap T :=
  let d := (h.iop x.obj).1
  { h with dicts := upd h.dicts d ((h.iop x.obj).2.add (h.dicts d) t (x.index h)) }

/-- `constrain_fixed` (constrainable.py:52-69) without a new value. -/
def fix (h : Heap T) (x : Target) : Heap T :=
  (h.addCon x .fixed).setRootMask x (x.index h) false

/-- `constrain(transform)` (constrainable.py:138-156): constraining to `__fixed__` is fixing. Setting
the values to `transform.initialize(values)` is modelled in `Verif.Opt`. -/
def constrain (h : Heap T) (x : Target) : Con T → Heap T
  | .fixed => h.fix x
  | .tr t => (h.unconstrain x []).addCon x (.tr t)

/-- `unconstrain_fixed` (constrainable.py:71-83). The second `_set_unfixed` gets the union of the
removed indices again. -/
def unfix (h : Heap T) (x : Target) : Heap T :=
  let removed := ((h.iop x.obj).2.remove (h.dicts (h.iop x.obj).1) .fixed (x.index h)).2
  (h.unconstrain x [.fixed]).setRootMask x (IndexOps.union1d [] removed) true

/-- `is_fixed` of a `Param` (param.py:190-193) and of a `Parameterized` (constrainable.py:122-126). -/
def isFixedF : Nat → Heap T → Id → Bool
  | 0, _, _ => true
  | n + 1, h, x =>
    if h.leaf x then (h.constraints x .fixed).length == h.size x
    else (h.kids x).all (fun c => isFixedF n h c)

@[inherit_doc isFixedF]
def isFixed (h : Heap T) (x : Id) : Bool := isFixedF h.toGraph.fuel h x

/-! ### Histories -/

/-- One call of the user. -/
inductive Ev (T : Type)
  | newParam (size : Nat)
  | newNode
  | finishInit (x : Id) (init : Bool)
  | init (x : Id)
  | link (p x : Id) (index : Option Int)
  | unlink (p x : Id)
  | constrain (x : Target) (c : Con T)
  | unconstrain (x : Target) (cs : List (Con T))
  | fix (x : Target)
  | unfix (x : Target)

/-- Effect of a call, and the exception it raises. -/
def exec (h : Heap T) : Ev T → Heap T × Option Err
  | .newParam n => (h.newParam n, none)
  | .newNode => (h.newNode, none)
  | .finishInit x i => (h.finishInit x i, none)
  | .init x => (h.initializeParameter x, none)
  | .link p x i => h.link p x i
  | .unlink p x => h.unlink p x
  | .constrain x c => (h.constrain x c, none)
  | .unconstrain x cs => (h.unconstrain x cs, none)
  | .fix x => (h.fix x, none)
  | .unfix x => (h.unfix x, none)

end Heap

end Paramz.Hier

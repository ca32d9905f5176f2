import Verif.Hier.Props
import Verif.Hier.ConProps

/-!
# Model of further index operations (C80)

Source: `paramz/core/indexable.py:81-139, 220-270`, `paramz/parameterized.py:128-226`.

Besides `constraints` an object can have further index operations (`add_index_operation(name, operations)`, for
instance priors). `Verif.Hier.Model` follows only the name `constraints` through the loops
`for name, iop in self._index_operations.items()`. Here the loops are modelled as they are: they run over the names of
one object and look every name up in another object, which raises `KeyError` in the middle of the work when the other
object does not have it.
-/

set_option linter.unusedSectionVars false

namespace Paramz.Hier

open IndexOps (Arr Dict Iop)

/-- The index operations of one name other than `constraints`, of all objects; the fields are as in `Heap`. -/
structure Fam (T : Type) where
  iop : Id → Nat × Iop
  dicts : Nat → Dict (Con T)
  nextDict : Nat

/-- All objects: pointers, sizes, flags and `constraints` (`base`), the further names every object has
(`_index_operations.keys()` without `constraints`, which always comes first: `_parent_changed` and `_disconnect_parent`
take out and append the names one after the other, so that the order is the same afterwards; after a `KeyError` it
can differ, which is left out here) and the index operations of each name. -/
structure Multi (T N : Type) where
  base : Heap T
  names : Id → List N
  fam : N → Fam T

/-- Exceptions: those of `Heap`, and `KeyError` for a missing name. -/
inductive FErr
  | keyError
  | other (e : Err)
  deriving DecidableEq, Repr

namespace Fam

variable {T : Type} [DecidableEq T]

/-- `add_index_operation(name, ParameterIndexOperations())` (indexable.py:81-90) for a new object. -/
def new (F : Fam T) (x : Id) : Fam T :=
  ⟨upd F.iop x (F.nextDict, .base), upd F.dicts F.nextDict [], F.nextDict + 1⟩

/-- A new view on the index operations of `top` (indexable.py:235-236). -/
def review (F : Fam T) (top x : Id) (offset size : Nat) : Fam T :=
  { F with iop := upd F.iop x ((F.iop top).1, .view (F.iop top).2 offset size) }

/-- `iop.shift_right(start, param.size)` (parameterized.py:153, 162). -/
def gap (F : Fam T) (p : Id) (start n : Nat) : Fam T :=
  { F with dicts := upd F.dicts (F.iop p).1 ((F.iop p).2.shiftRight (F.dicts (F.iop p).1) start n) }

/-- `iop.update(param._index_operations[name], offset)` (parameterized.py:154, 163). -/
def fill (F : Fam T) (p x : Id) (offset : Nat) : Fam T :=
  { F with
    dicts := upd F.dicts (F.iop p).1
      ((F.iop p).2.update (F.dicts (F.iop p).1) ((F.iop x).2.items (F.dicts (F.iop x).1)) offset) }

/-- `iopc = iop.copy(); iop.clear()`, and the copy takes its place (indexable.py:116-119). -/
def detach (F : Fam T) (x : Id) : Fam T :=
  ⟨upd F.iop x (F.nextDict, .base),
   upd (upd F.dicts (F.iop x).1 ((F.iop x).2.clear (F.dicts (F.iop x).1))) F.nextDict
     ((F.iop x).2.copy (F.dicts (F.iop x).1)),
   F.nextDict + 1⟩

/-- `iop.shift_left(start, param.size)` (parameterized.py:214). -/
def close (F : Fam T) (q : Id) (start n : Nat) : Fam T :=
  { F with dicts := upd F.dicts (F.iop q).1 ((F.iop q).2.shiftLeft (F.dicts (F.iop q).1) start n) }

/-- One round of `_remove_from_index_operations` (indexable.py:265-267); `index` is `_raveled_index()`. -/
def takeOff (F : Fam T) (x : Id) (index : Arr) (t : Con T) : Fam T :=
  { F with dicts := upd F.dicts (F.iop x).1 ((F.iop x).2.remove (F.dicts (F.iop x).1) t index).1 }

/-- `_remove_from_index_operations(which, transforms)` (indexable.py:256-270). -/
def unset (F : Fam T) (x : Id) (index : Arr) (ts : List (Con T)) : Fam T :=
  (if ts = [] then (F.iop x).2.properties (F.dicts (F.iop x).1) else ts).foldl (fun F t => F.takeOff x index t) F

/-- `_add_to_index_operations(which, …, what, …)` (indexable.py:241-254). -/
def put (F : Fam T) (x : Id) (index : Arr) (t : Con T) : Fam T :=
  { F with dicts := upd F.dicts (F.iop x).1 ((F.iop x).2.add (F.dicts (F.iop x).1) t index) }

end Fam

namespace Multi

variable {T N : Type} [DecidableEq T] [DecidableEq N]

/-- No objects. -/
def empty : Multi T N := ⟨Heap.empty, fun _ => [], fun _ => ⟨fun _ => (0, .base), fun _ => [], 0⟩⟩

/-- Replace the index operations of one name. -/
def setFam (m : Multi T N) (f : N) (F : Fam T) : Multi T N := { m with fam := fun g => if g = f then F else m.fam g }

/-- Replace pointers and `constraints`. -/
def setBase (m : Multi T N) (h : Heap T) : Multi T N := { m with base := h }

/-- `x.<name>[t]` as read by the user. -/
def prop (m : Multi T N) (f : N) (x : Id) (t : T) : Arr :=
  ((m.fam f).iop x).2.get ((m.fam f).dicts ((m.fam f).iop x).1) (.tr t)

/-- A constructor adds further names to a new object; one that exists already (`AttributeError`, indexable.py:89-90)
is left out here. -/
def addFamilies (m : Multi T N) (x : Id) : List N → Multi T N
  | [] => m
  | f :: fs =>
    addFamilies (if f ∈ m.names x then m
      else { m.setFam f ((m.fam f).new x) with names := upd m.names x (m.names x ++ [f]) }) x fs

/-- A new `Param` of a class whose constructor adds the names `fs`. -/
def newParam (m : Multi T N) (size : Nat) (fs : List N) : Multi T N :=
  addFamilies ⟨m.base.newParam size, upd m.names m.base.next [], m.fam⟩ m.base.next fs

/-- A new `Parameterized` of a class whose constructor adds the names `fs`. -/
def newNode (m : Multi T N) (fs : List N) : Multi T N :=
  addFamilies ⟨m.base.newNode, upd m.names m.base.next [], m.fam⟩ m.base.next fs

/-- The loop of `_parent_changed` (indexable.py:234-236) over the names of `x` after `constraints`: the name is taken
out, then looked up in `top`. -/
def reviewAll (m : Multi T N) (top x : Id) : List N → Multi T N × Bool
  | [] => (m, false)
  | f :: fs =>
    if f ∈ m.names top then
      reviewAll (m.setFam f ((m.fam f).review top x (m.base.toGraph.offsetFor top x) (m.base.size x))) top x fs
    else ({ m with names := upd m.names x ((m.names x).erase f) }, true)

/-- `[step(c) for c in cs]`, left by an exception. -/
def untilError (step : Multi T N → Id → Multi T N × Bool) : Multi T N → List Id → Multi T N × Bool
  | m, [] => (m, false)
  | m, c :: cs => if (step m c).2 then step m c else untilError step (step m c).1 cs

/-- `_parent_changed(top)` of `x` (indexable.py:220-239). -/
def parentChangedF : Nat → Multi T N → Id → Id → Multi T N × Bool
  | 0, m, _, _ => (m, false)
  | n + 1, m, top, x =>
    let m1 := m.setBase { m.base with
      iop := upd m.base.iop x
        ((m.base.iop top).1, .view (m.base.iop top).2 (m.base.toGraph.offsetFor top x) (m.base.size x)) }
    let r := m1.reviewAll top x (m.names x)
    if r.2 then r
    else untilError (fun m c => parentChangedF n m top c)
      (r.1.setBase { r.1.base with fixes := upd r.1.base.fixes x none }) (m.base.kids x)

/-- `_notify_parent_change` (parameter_core.py:524-529). -/
def notifyParentChange (m : Multi T N) (x : Id) : Multi T N × Bool :=
  untilError (fun m' c => parentChangedF m.base.toGraph.fuel m' x c) m (m.base.kids x)

/-- The loop of `link_parameter` (parameterized.py:152-154, 161-163) over the names of `p` after `constraints`: the gap
is opened before the name is looked up in the parameter. -/
def gapAll (m : Multi T N) (p x : Id) (start offset : Nat) : List N → Multi T N × Bool
  | [] => (m, false)
  | f :: fs =>
    if f ∈ m.names x then
      gapAll (m.setFam f (((m.fam f).gap p start (m.base.size x)).fill p x offset)) p x start offset fs
    else (m.setFam f ((m.fam f).gap p start (m.base.size x)), true)

/-- First part of `link_parameter` (parameterized.py:149-169): `constraints` come first; when a name is missing, parent
and list are not set yet. -/
def linkPointers (m : Multi T N) (p x : Id) (index : Option Int) : Multi T N × Bool :=
  let ks := m.base.kids p
  let start := m.base.toGraph.sizeSum (ks.take (Heap.insertPos ks index))
  let r := (m.setBase { m.base with dicts := (m.base.linkPointers p x index).dicts }).gapAll p x start
    (m.base.copyOffset p index) (m.names p)
  if r.2 then r else (r.1.setBase (m.base.linkPointers p x index), false)

/-- `_connect_parameters` and `_connect_fixes` of the highest parent, with `_notify_parent_change` between them
(parameterized.py:180-182). -/
def linkFinish (m : Multi T N) (r : Id) : Multi T N × Option FErr :=
  let s := (m.setBase (m.base.connect r)).notifyParentChange r
  if s.2 then (s.1, some .keyError) else (s.1.setBase (s.1.base.connectFixes r), none)

/-- After the pointers (parameterized.py:173-183). -/
def linkTell (m : Multi T N) (p : Id) : Multi T N × Option FErr :=
  let r3 := m.notifyParentChange p
  if r3.2 then (r3.1, some .keyError)
  else if r3.1.base.inInit p then (r3.1, none)
  else match r3.1.base.inited (r3.1.base.toGraph.highest p) with
    | none => (r3.1, some (.other .attributeError))
    | some false => (r3.1, none)
    | some true => r3.1.linkFinish (r3.1.base.toGraph.highest p)

/-- Body of `link_parameter` for a parameter that is not in a hierarchy (parameterized.py:148-183); see
`Heap.linkRoot`. -/
def linkRoot (m : Multi T N) (p x : Id) (index : Option Int) : Multi T N × Option FErr :=
  let r := m.linkPointers p x index
  if r.2 then (r.1, some .keyError)
  else
    let m2 := r.1.setBase (r.1.base.addSizes p (m.base.size x))
    if Heap.storedIndex (m.base.kids p) index ≠ Heap.insertPos (m.base.kids p) index then
      (m2, some (.other .indexError))
    else m2.linkTell p

/-- `_disconnect_parent` (indexable.py:110-125). -/
def disconnect (m : Multi T N) (x : Id) : Multi T N × Bool :=
  let d := (m.base.iop x).1
  let v := (m.base.iop x).2
  let h1 := { m.base with
    dicts := upd (upd m.base.dicts d (v.clear (m.base.dicts d))) m.base.nextDict (v.copy (m.base.dicts d))
    nextDict := m.base.nextDict + 1
    iop := upd m.base.iop x (m.base.nextDict, .base)
    parent := upd m.base.parent x none }
  let m1 := (m.names x).foldl (fun m f => m.setFam f ((m.fam f).detach x)) m
  (m1.setBase (h1.connectFixes x)).notifyParentChange x

/-- The end of `unlink_parameter` (parameterized.py:219-226). -/
def unlinkEnd (m : Multi T N) (q : Id) (n : Nat) : Multi T N × Bool :=
  let h6 := match m.base.parent q with
    | none => m.base
    | some p => m.base.subSizes p n
  let r := h6.toGraph.highest q
  (m.setBase ((h6.connect r).connectFixes r)).notifyParentChange r

/-- The rest of `unlink_parameter` (parameterized.py:213-226) after `_disconnect_parent`. -/
def unlinkRest (m : Multi T N) (q : Id) (start n : Nat) : Multi T N × Bool :=
  let d := (m.base.iop q).1
  let h4 := { m.base with dicts := upd m.base.dicts d ((m.base.iop q).2.shiftLeft (m.base.dicts d) start n) }
  let m4 := ((m.names q).foldl (fun m f => m.setFam f ((m.fam f).close q start n)) m).setBase (h4.connect q)
  let r5 := m4.notifyParentChange q
  if r5.2 then r5 else r5.1.unlinkEnd q n

/-- `unlink_parameter` (parameterized.py:195-226) for a child. -/
def unlinkChild (m : Multi T N) (q x : Id) : Multi T N × Bool :=
  let start := m.base.toGraph.sizeSum ((m.base.kids q).take (m.base.pidx x))
  let n := m.base.size x
  let h1 := { m.base with
    size := upd m.base.size q (m.base.size q - n)
    kids := upd m.base.kids q ((m.base.kids q).eraseIdx (m.base.pidx x)) }
  let r3 := (m.setBase (h1.connect q)).disconnect x
  if r3.2 then r3 else r3.1.unlinkRest q start n

/-- `unlink_parameter` (parameterized.py:195-226). -/
def unlink (m : Multi T N) (q x : Id) : Multi T N × Option FErr :=
  if m.base.leaf q then (m, some (.other .attributeError))
  else if x ∈ m.base.kids q then
    ((m.unlinkChild q x).1, if (m.unlinkChild q x).2 then some .keyError else none)
  else (m, some (.other .hierarchyError))

/-- `link_parameter` for a parameter that is not among `p.parameters` (parameterized.py:141-183). -/
def linkNew (m : Multi T N) (p x : Id) (index : Option Int) : Multi T N × Option FErr :=
  match m.base.parent x with
  | none => m.linkRoot p x index
  | some q =>
    let s := m.base.toGraph.traverseParents (fun _ y => decide (y = p)) ⟨m.base.visited, [], false⟩ x
    let m1 := m.setBase { m.base with visited := s.marks }
    if s.raised then (m1, some (.other .hierarchyError))
    else
      let r := m1.unlinkChild q x
      if r.2 then (r.1, some .keyError) else r.1.linkRoot p x index

/-- `link_parameter(param, index)` (parameterized.py:128-186). -/
def link (m : Multi T N) (p x : Id) (index : Option Int) : Multi T N × Option FErr :=
  if m.base.leaf p then (m, some (.other .attributeError))
  else if x ∈ m.base.kids p then
    match index with
    | none => (m, some (.other .hierarchyError))
    | some i =>
      let r := m.unlinkChild p x
      if r.2 then (r.1, some .keyError) else r.1.linkNew p x (some i)
  else m.linkNew p x index

/-- `initialize_parameter` (parameter_core.py:326-337). -/
def initializeParameter (m : Multi T N) (x : Id) : Multi T N × Option FErr :=
  let r := m.base.toGraph.highest x
  let s := m.notifyParentChange r
  if s.2 then (s.1, some .keyError)
  else (s.1.setBase ((s.1.base.connect r).connectFixes r), none)

/-- Leaving the constructor of a `Parameterized` (parameterized.py:55-62). -/
def finishInit (m : Multi T N) (x : Id) (init : Bool) : Multi T N × Option FErr :=
  let m1 := m.setBase { m.base with inInit := upd m.base.inInit x false, inited := upd m.base.inited x (some false) }
  if init then m1.initializeParameter x else (m1, none)

/-- Give the elements of a target the property `t` under the name `f` and no other one, as `constrain` does for
`constraints` (constrainable.py:138-156): `_remove_from_index_operations(self.<f>, [])`, then
`_add_to_index_operations(self.<f>, …, t, …)`. `self.<f>` raises `KeyError` without the name (indexable.py:100). -/
def set (m : Multi T N) (f : N) (x : Heap.Target) (t : T) : Multi T N × Option FErr :=
  if f ∈ m.names x.obj then
    (m.setFam f (((m.fam f).unset x.obj (x.index m.base) []).put x.obj (x.index m.base) (.tr t)), none)
  else (m, some .keyError)

/-- Take properties away, all if none is given (as constrainable.py:158-165, indexable.py:256-270). -/
def unset (m : Multi T N) (f : N) (x : Heap.Target) (ts : List T) : Multi T N × Option FErr :=
  if f ∈ m.names x.obj then
    (m.setFam f ((m.fam f).unset x.obj (x.index m.base) (ts.map .tr)), none)
  else (m, some .keyError)

/-- One call of the user. -/
inductive Ev (T N : Type)
  | newParam (size : Nat) (fs : List N)
  | newNode (fs : List N)
  | finishInit (x : Id) (init : Bool)
  | init (x : Id)
  | link (p x : Id) (index : Option Int)
  | unlink (p x : Id)
  | constrain (x : Heap.Target) (c : Con T)
  | unconstrain (x : Heap.Target) (cs : List (Con T))
  | fix (x : Heap.Target)
  | unfix (x : Heap.Target)
  | set (f : N) (x : Heap.Target) (t : T)
  | unset (f : N) (x : Heap.Target) (ts : List T)

/-- Effect of a call, and the exception it raises. -/
def exec (m : Multi T N) : Ev T N → Multi T N × Option FErr
  | .newParam n fs => (m.newParam n fs, none)
  | .newNode fs => (m.newNode fs, none)
  | .finishInit x i => m.finishInit x i
  | .init x => m.initializeParameter x
  | .link p x i => m.link p x i
  | .unlink p x => m.unlink p x
  | .constrain x c => (m.setBase (m.base.constrain x c), none)
  | .unconstrain x cs => (m.setBase (m.base.unconstrain x cs), none)
  | .fix x => (m.setBase (m.base.fix x), none)
  | .unfix x => (m.setBase (m.base.unfix x), none)
  | .set f x t => m.set f x t
  | .unset f x ts => m.unset f x ts

/-- A history of calls; the caller goes on after an exception. -/
def run (m : Multi T N) (es : List (Ev T N)) : Multi T N := es.foldl (fun m e => (m.exec e).1) m

end Multi

end Paramz.Hier

import Verif.Hier.Model

/-!
# Model of the shared memory of a hierarchy

Source: `paramz/parameterized.py` (`_connect_parameters`), `paramz/core/parameter_core.py`
(`param_array`, `_propagate_param_grad`), `paramz/param.py`.

Every object has an array; the arrays of a connected hierarchy are windows of one buffer. Connecting
copies values and then assigns to the `data` attribute of arrays. Modelled: which window of which buffer
every `param_array` is, which array owns its buffer (numpy frees the buffer of an owner when its `data`
is assigned), and the contents of all buffers. `np.empty` hands out a buffer with arbitrary contents:
nothing is assumed of buffers before they are allocated. The contents of a freed range become arbitrary
(`spoil`).

The gradients go through the same statements side by side with the values (`Verif.Mem.GradModel`).
A new `Param` gets a buffer of its own here; in python it may share the array the user passed in, and it
stops doing so when it is connected. `param_array` is read by the library only in the two functions
below; a user reading `param_array` of an object that is not connected makes it allocate a new array,
which is not modelled.
-/

namespace Paramz.Memory

open Hier (Id Graph Heap upd)

/-- A window of a buffer: the memory of a numpy array. -/
structure View where
  buf : Nat
  off : Nat
  len : Nat
  deriving DecidableEq, Repr

/-- Memory. `arr x`: `_param_array_` of a `Parameterized` (`None` = `none`), the array itself of a
`Param`. `owns x`: the numpy flag `OWNDATA` of that array. `cell b i`: element `i` of buffer `b`.
`next`: number of buffers handed out so far. `freed b`: has `b` been freed by an assignment to `data`?
`bad`: has an element of a freed buffer been read? -/
structure Mem (V : Type) where
  arr : Id → Option View
  owns : Id → Bool
  cell : Nat → Nat → V
  next : Nat
  freed : Nat → Bool
  bad : Bool

namespace Mem

variable {V : Type}

/-- Nothing allocated; `cell` are the contents of memory that nobody has used. Buffer 0 is never handed
out: it stands for the memory of objects that have no array. -/
def empty (cell : Nat → Nat → V) : Mem V where
  arr := fun _ => none
  owns := fun _ => false
  cell := cell
  next := 1
  freed := fun _ => false
  bad := false

/-- The window of an object that has an array. -/
def view (m : Mem V) (x : Id) : View := (m.arr x).getD ⟨0, 0, 0⟩

/-- `self._param_array_ = np.empty(n)` (parameter_core.py:349). -/
def alloc (m : Mem V) (x : Id) (n : Nat) : Mem V :=
  { m with arr := upd m.arr x (some ⟨m.next, 0, n⟩), owns := upd m.owns x true, next := m.next + 1 }

/-- The property `param_array` (parameter_core.py:339-350; param.py:124-129): a new array if there is
none or its size is not that of the object. A `Param` is its own array. -/
def ensure (g : Graph) (m : Mem V) (x : Id) : Mem V :=
  if g.leaf x then m
  else match m.arr x with
    | none => m.alloc x (g.size x)
    | some v => if v.len = g.size x then m else m.alloc x (g.size x)

/-- `x.param_array[k:k+n] = c.param_array.flat`. -/
def assign (m : Mem V) (x : Id) (k : Nat) (c : Id) (n : Nat) : Mem V :=
  { m with
    cell := fun b i =>
      if b = (m.view x).buf ∧ (m.view x).off + k ≤ i ∧ i < (m.view x).off + k + n
      then m.cell (m.view c).buf ((m.view c).off + (i - ((m.view x).off + k))) else m.cell b i
    bad := m.bad || (decide (0 < n) && m.freed (m.view c).buf) }

/-- `c.param_array.data = v.data`: an array that owns its memory frees it first (numpy,
`array_data_set`); afterwards the array does not own memory. -/
def rebind (spoil : Nat → Nat → V) (m : Mem V) (c : Id) (v : View) : Mem V :=
  { m with
    arr := upd m.arr c (some v)
    owns := upd m.owns c false
    cell := fun b i =>
      if m.owns c = true ∧ b = (m.view c).buf ∧ (m.view c).off ≤ i ∧
        i < (m.view c).off + (m.view c).len then spoil b i else m.cell b i
    freed := if m.owns c then upd m.freed (m.view c).buf true else m.freed }

/-- The loops `for p in self.parameters: …; old_size += p.size` (parameterized.py:240-277,
parameter_core.py:283-294). -/
def each (size : Id → Nat) (f : Mem V → Id → Nat → Mem V) : List Id → Nat → Mem V → Mem V
  | [], _, m => m
  | c :: L, k, m => each size f L (k + size c) (f m c k)

/-- `_propagate_param_grad` (parameter_core.py:270-296) of `x` with the window of buffer `b` that
starts at `o`. -/
def propagateF (spoil : Nat → Nat → V) (g : Graph) : Nat → Mem V → Id → Nat → Nat → Mem V
  | 0, m, _, _, _ => m
  | n + 1, m, x, b, o =>
    each g.size (fun m c k =>
      propagateF spoil g n
        (rebind spoil (((m.ensure g c).ensure g x).assign x k c (g.size c)) c ⟨b, o + k, g.size c⟩)
        c b (o + k)) (g.kids x) 0 m

/-- One round of the loop of `_connect_parameters` (parameterized.py:243-277) of `r` for the child `p`
at offset `k`. -/
def connectOne (spoil : Nat → Nat → V) (g : Graph) (r : Id) (m : Mem V) (p : Id) (k : Nat) : Mem V :=
  let m1 := (m.ensure g p).ensure g r
  let b := (m1.view r).buf
  let o := (m1.view r).off + k
  rebind spoil ((propagateF spoil g g.fuel m1 p b o).assign r k p (g.size p)) p ⟨b, o, g.size p⟩

/-- `_connect_parameters` (parameterized.py:228-277), the part that moves memory. -/
def connect (spoil : Nat → Nat → V) (g : Graph) (m : Mem V) (r : Id) : Mem V :=
  each g.size (connectOne spoil g r) (g.kids r) 0 m

/-- Element `i` as read through the array of `x`. -/
def read (m : Mem V) (x : Id) (i : Nat) : V := m.cell (m.view x).buf ((m.view x).off + i)

/-- `x.param_array[i] = v` for an object with an array. -/
def write (m : Mem V) (x : Id) (i : Nat) (v : V) : Mem V :=
  { m with cell := fun b j =>
      if b = (m.view x).buf ∧ j = (m.view x).off + i then v else m.cell b j }

/-- The array of a new `Param` with `n` elements. -/
def newParam (m : Mem V) (x : Id) (n : Nat) : Mem V :=
  { m with arr := upd m.arr x (some ⟨m.next, 0, n⟩), owns := upd m.owns x false, next := m.next + 1 }

end Mem

/-! ### Whole calls -/

/-- Objects and memory. -/
structure State (V T : Type) where
  heap : Heap T
  mem : Mem V

namespace State

variable {V T : Type} [DecidableEq T] (spoil : Nat → Nat → V)

/-- A step that only concerns pointers, constraints and flags. -/
def on (s : State V T) (f : Heap T → Heap T) : State V T := { s with heap := f s.heap }

/-- `_connect_parameters` (parameterized.py:228-277), pointers and memory. -/
def connect (s : State V T) (r : Id) : State V T :=
  { heap := s.heap.connect r, mem := s.mem.connect spoil s.heap.toGraph r }

/-- `unlink_parameter` (parameterized.py:195-226), step by step as `Heap.unlinkChild`, with memory. -/
def unlinkChild (s : State V T) (q x : Id) : State V T :=
  let start := s.heap.toGraph.sizeSum ((s.heap.kids q).take (s.heap.pidx x))
  let n := s.heap.size x
  let s1 := s.on fun h => { h with
    size := upd h.size q (h.size q - n)
    kids := upd h.kids q ((h.kids q).eraseIdx (h.pidx x)) }
  let s2 := s1.connect spoil q
  let s3 := s2.on fun h => h.disconnect x
  let s4 := s3.on fun h =>
    { h with dicts := upd h.dicts (h.iop q).1 ((h.iop q).2.shiftLeft (h.dicts (h.iop q).1) start n) }
  let s5 := (s4.connect spoil q).on fun h => h.notifyParentChange q
  let s6 := s5.on fun h => match h.parent q with
    | none => h
    | some p => h.subSizes p n
  let r := s6.heap.toGraph.highest q
  (s6.connect spoil r).on fun h => (h.connectFixes r).notifyParentChange r

/-- End of `link_parameter` (parameterized.py:178-183) as in `Heap.linkRoot`, with memory: the hierarchy
is connected unless it is under construction. -/
def linkEnd (s : State V T) (p : Id) : State V T × Option Hier.Err :=
  if s.heap.inInit p then (s, none)
  else
    let r := s.heap.toGraph.highest p
    match s.heap.inited r with
    | none => (s, some .attributeError)
    | some false => (s, none)
    | some true => ((s.connect spoil r).on fun h => (h.notifyParentChange r).connectFixes r, none)

/-- Body of `link_parameter` (parameterized.py:148-183) as `Heap.linkRoot`, with memory. -/
def linkRoot (s : State V T) (p x : Id) (index : Option Int) : State V T × Option Hier.Err :=
  let s2 := s.on fun h => (h.linkPointers p x index).addSizes p (h.size x)
  if Heap.storedIndex (s.heap.kids p) index ≠ Heap.insertPos (s.heap.kids p) index then
    (s2, some .indexError)
  else (s2.on fun h => h.notifyParentChange p).linkEnd spoil p

/-- `link_parameter` for a parameter that is not among the children (parameterized.py:141-183). -/
def linkNew (s : State V T) (p x : Id) (index : Option Int) : State V T × Option Hier.Err :=
  match s.heap.parent x with
  | none => s.linkRoot spoil p x index
  | some q =>
    let t := s.heap.toGraph.traverseParents (fun _ y => decide (y = p))
      ⟨s.heap.visited, [], false⟩ x
    let s1 := s.on fun h => { h with visited := t.marks }
    if t.raised then (s1, some .hierarchyError)
    else (s1.unlinkChild spoil q x).linkRoot spoil p x index

/-- `link_parameter` (parameterized.py:128-186). -/
def link (s : State V T) (p x : Id) (index : Option Int) : State V T × Option Hier.Err :=
  if s.heap.leaf p then (s, some .attributeError)
  else if x ∈ s.heap.kids p then
    match index with
    | none => (s, some .hierarchyError)
    | some i => (s.unlinkChild spoil p x).linkNew spoil p x (some i)
  else s.linkNew spoil p x index

/-- `unlink_parameter` (parameterized.py:195-226). -/
def unlink (s : State V T) (q x : Id) : State V T × Option Hier.Err :=
  if s.heap.leaf q then (s, some .attributeError)
  else if x ∈ s.heap.kids q then (s.unlinkChild spoil q x, none)
  else (s, some .hierarchyError)

/-- `initialize_parameter` (parameter_core.py:326-337). -/
def initializeParameter (s : State V T) (x : Id) : State V T :=
  let r := s.heap.toGraph.highest x
  ((s.on fun h => h.notifyParentChange r).connect spoil r).on fun h => h.connectFixes r

/-- Leaving the constructor (parameterized.py:55-62). -/
def finishInit (s : State V T) (x : Id) (init : Bool) : State V T :=
  let s1 := s.on fun h =>
    { h with inInit := upd h.inInit x false, inited := upd h.inited x (some false) }
  if init then s1.initializeParameter spoil x else s1

/-- One call of the user. `write x i v` is an assignment to element `i` of the array of `x`. -/
inductive Ev (V T : Type)
  | heap (e : Heap.Ev T)
  | write (x : Id) (i : Nat) (v : V)

/-- Effect of a call. Constraining changes values only through `write`s that are not made here
(`Verif.Opt` models them). -/
def exec (s : State V T) : Ev V T → State V T × Option Hier.Err
  | .heap (.newParam n) =>
    ({ heap := s.heap.newParam n, mem := s.mem.newParam s.heap.next n }, none)
  | .heap (.finishInit x i) => (s.finishInit spoil x i, none)
  | .heap (.init x) => (s.initializeParameter spoil x, none)
  | .heap (.link p x i) => s.link spoil p x i
  | .heap (.unlink p x) => s.unlink spoil p x
  | .heap e => ({ s with heap := (s.heap.exec e).1 }, (s.heap.exec e).2)
  | .write x i v => ({ s with mem := s.mem.write x i v }, none)

/-- No objects, memory with arbitrary contents. -/
def empty (cell : Nat → Nat → V) : State V T := ⟨Heap.empty, Mem.empty cell⟩

end State

end Paramz.Memory

import Mathlib.Data.List.Nodup

/-!
# Model of raveled indices

Source: `paramz/param.py:88-95, 155-176, 249-264`, `paramz/core/indexable.py:150-184`.

Arrays are a shape and a function from multi-indices to values. The numpy functions used by this code
(`indices`, indexing, `rollaxis`, `reshape`, `cumprod`, `apply_along_axis`, `cumsum`) are written down here as
numpy documents them.
-/

namespace Paramz.Ravel

structure Nd (V : Type) where
  shape : List Nat
  get : List Nat → V

/-- All multi-indices of a shape in row-major order (C order, the order of `a.flat`). -/
def allIdx : List Nat → List (List Nat)
  | [] => [[]]
  | n :: sh => (List.range n).flatMap (fun i => (allIdx sh).map (i :: ·))

/-- `a.flat`. -/
def Nd.ravel {V : Type} (a : Nd V) : List V := (allIdx a.shape).map a.get

/-! ### Indexing -/

/-- One entry of an index tuple, after negative numbers and slices have been resolved: an integer, a slice
(as the list of its positions), an integer array. A boolean array is the integer arrays of its true
positions. Ellipsis is written out; `newaxis` and broadcasting among integer arrays are left out. -/
inductive Sel
  | one (i : Nat)
  | many (ps : List Nat)
  | adv (l : List Nat)
  deriving DecidableEq, Repr

def Sel.isAdv : Sel → Bool
  | .adv _ => true
  | _ => false

def Sel.isMany : Sel → Bool
  | .many _ => true
  | _ => false

/-- Is there an integer array? Then integers are treated like arrays. -/
def hasAdv (s : List Sel) : Bool := s.any Sel.isAdv

/-- No slice between two integers or arrays. -/
def contiguous (s : List Sel) : Bool :=
  ((s.dropWhile Sel.isMany).dropWhile (fun e => !e.isMany)).all Sel.isMany

/-- The shape of the result without the axis that comes from integer arrays. -/
def base : List Sel → List Nat → List Nat
  | [], sh => sh
  | .one _ :: s, _ :: sh => base s sh
  | .adv _ :: s, _ :: sh => base s sh
  | .many ps :: s, _ :: sh => ps.length :: base s sh
  | _ :: _, [] => []

/-- The position of that axis: where the arrays are if they are next to each other, else in front. -/
def advPos (s : List Sel) : Nat := if contiguous s then (s.takeWhile Sel.isMany).length else 0

/-- Its length: the length of the arrays. -/
def advLen : List Sel → Nat
  | [] => 0
  | .adv l :: _ => l.length
  | _ :: s => advLen s

/-- The multi-index of the source for position `k` of the integer arrays and `o` on the other axes. -/
def walk : List Sel → Nat → List Nat → List Nat
  | [], _, o => o
  | .one i :: s, k, o => i :: walk s k o
  | .adv l :: s, k, o => l.getD k 0 :: walk s k o
  | .many ps :: s, k, j :: o => ps.getD j 0 :: walk s k o
  | .many _ :: _, _, [] => []

/-- The multi-index of the source for a multi-index of the result. -/
def src (s : List Sel) (o : List Nat) : List Nat :=
  if hasAdv s then walk s (o.getD (advPos s) 0) (o.eraseIdx (advPos s)) else walk s 0 o

/-- The shape of `a[s]`. -/
def outShape (s : List Sel) (sh : List Nat) : List Nat :=
  if hasAdv s then (base s sh).insertIdx (advPos s) (advLen s) else base s sh

/-- `a[s]` (numpy indexing). -/
def Nd.index {V : Type} (a : Nd V) (s : List Sel) : Nd V := ⟨outShape s a.shape, fun o => a.get (src s o)⟩

/-! ### The code -/

/-- `np.indices(shape)`. -/
def indicesArr (sh : List Nat) : Nd Nat := ⟨sh.length :: sh, fun o => o.tail.getD o.head! 0⟩

/-- `np.rollaxis(a, 0, a.ndim)`. -/
def Nd.roll {V : Type} (a : Nd V) : Nd V := ⟨a.shape.tail ++ [a.shape.head!], fun o => a.get (o.getLast! :: o.dropLast)⟩

/-- The rows of `reshape(-1, n)` of a flat list. -/
def chunksF (n : Nat) : Nat → List Nat → List (List Nat)
  | 0, _ => []
  | f + 1, l => if l = [] then [] else l.take n :: chunksF n f (l.drop n)

def chunks (n : Nat) (l : List Nat) : List (List Nat) := chunksF n l.length l

/-- `_indices(slice_index)` (param.py:249-264), as the list of its rows. -/
def indices (sh : List Nat) (s : List Sel) : List (List Nat) :=
  chunks sh.length ((indicesArr sh).index (.many (List.range sh.length) :: s)).roll.ravel

/-- `np.cumprod`. -/
def cumprod : Nat → List Nat → List Nat
  | _, [] => []
  | acc, x :: l => acc * x :: cumprod (acc * x) l

/-- `np.cumprod((1,) + self._realshape_[:0:-1])[::-1]` (param.py:173). -/
def strides (sh : List Nat) : List Nat := (cumprod 1 (1 :: sh.tail.reverse)).reverse

/-- `np.sum(a * b)`. -/
def dot (a b : List Nat) : Nat := (List.zipWith (· * ·) a b).sum

/-- `_raveled_index(slice_index)` (param.py:170-176). `none`: `apply_along_axis` raises `ValueError` when there
are no rows. -/
def raveled (sh : List Nat) (s : List Sel) : Option (List Nat) :=
  let ind := indices sh s
  if ind = [] then none else some (ind.map (dot (strides sh)))

/-- A `Param` or a view of one: the array, `_realshape_` and `_current_slice_`. -/
structure Par (V : Type) where
  arr : Nd V
  realshape : List Nat
  cur : List Sel

/-- `Param(name, array)` (param.py:88-95); arrays have at least one axis. -/
def Par.new {V : Type} (a : Nd V) : Par V := ⟨a, a.shape, [.many (List.range a.shape.head!)]⟩

/-- `p[s]` (param.py:155-168): the slice is replaced, `_realshape_` is inherited (param.py:112). -/
def Par.getitem {V : Type} (p : Par V) (s : List Sel) : Par V := ⟨p.arr.index s, p.realshape, s⟩

/-- `p._raveled_index()`. -/
def Par.raveled {V : Type} (p : Par V) : Option (List Nat) := Ravel.raveled p.realshape p.cur

/-- `np.cumsum` of a boolean array. -/
def cumsum : Nat → List Bool → List Nat
  | _, [] => []
  | acc, b :: l => (acc + b.toNat) :: cumsum (acc + b.toNat) l

/-- `_raveled_index_for_transformed` (indexable.py:165-184) for the raveled indices `ravi`; `none` for
`_fixes_`: there are no fixes. In `fixes`, `true` is free. -/
def transformed (fixes : Option (List Bool)) (ravi : List Nat) : List Nat :=
  match fixes with
  | some fixes =>
    let tr := List.zipWith (· - ·) (List.range fixes.length) (cumsum 0 (fixes.map not))
    (ravi.filter (fun i => fixes.getD i false)).map (fun i => tr.getD i 0)
  | none => ravi

end Paramz.Ravel

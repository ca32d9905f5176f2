import Verif.Notify.Model
import Mathlib.Data.List.Sort

/-!
# Model of `ParamConcatenation`

Source: `paramz/param.py:391-456` (what `m['regular expression']` returns when several parameters match).

The values of a `Param` are the list of its elements in the order of `flat`. A selection is given by the list
of positions it denotes, the assigned value by the list it is broadcast to.
-/

namespace Paramz.Concat

open Paramz.Hier (Id Graph)

variable {V T : Type}

/-- `if p not in self.params: self.params.append(p)` (param.py:403-406) over the flattened parameters. -/
def collect (l : List Id) : List Id := l.foldl (fun acc p => if p ∈ acc then acc else acc ++ [p]) []

/-- `parents[parent] = max(level, parents[parent])` or `= level` (param.py:417-420) in an insertion-ordered
dictionary. -/
def bump : List (Id × Nat) → Id → Nat → List (Id × Nat)
  | [], x, l => [(x, l)]
  | (y, m) :: d, x, l => if y = x then (y, max l m) :: d else (y, m) :: bump d x l

/-- `while parent is not None` (param.py:416-422). -/
def climbF : Nat → Graph → Option Id → Nat → List (Id × Nat) → List (Id × Nat)
  | 0, _, _, _, d => d
  | _ + 1, _, none, _, d => d
  | n + 1, g, some q, lev, d => climbF n g (g.parent q) (lev + 1) (bump d q lev)

/-- The dictionary `parents` (param.py:411-422). -/
def parentsDict (g : Graph) (params : List Id) : List (Id × Nat) :=
  params.foldl (fun d p => climbF g.fuel g (g.parent p) 0 d) []

/-- What the iterator `self.parents` yields: sorted by level, stable (param.py:426). -/
def parents (g : Graph) (params : List Id) : List Id :=
  ((parentsDict g params).insertionSort (fun a b => a.2 ≤ b.2)).map Prod.fst

/-- A `ParamConcatenation`. `iter` is what is left of the iterator `self.parents`: a python 3 `map` object
can be run through once. -/
structure Cat where
  params : List Id
  iter : List Id

/-- `ParamConcatenation(params)`. -/
def Cat.new (g : Graph) (l : List Id) : Cat := ⟨collect l, parents g (collect l)⟩

/-- `values()` (param.py:445-446). -/
def values (v : Id → List V) (ps : List Id) : List V := ps.flatMap v

/-- `ind = np.zeros(n, dtype=bool); ind[s] = True`. -/
def mask (n : Nat) (s : List Nat) : List Bool := (List.range n).map (fun i => decide (i ∈ s))

/-- `vals[s] = val` for a numpy array: one after the other. -/
def assign (vals : List V) (s : List Nat) (val : List V) : List V :=
  (s.zip val).foldl (fun acc e => acc.set e.1 e.2) vals

/-- `a.flat[mask] = src` (numpy `flatiter`): the elements at `True` get the elements of `src` one after the
other, from its start. (numpy starts again when `src` is used up; here it has the length of the mask.) -/
def flatAssign : List V → List Bool → List V → List V
  | _ :: xs, true :: m, y :: ys => y :: flatAssign xs m ys
  | x :: xs, false :: m, ys => x :: flatAssign xs m ys
  | xs, _, _ => xs

/-- The loop of `__setitem__` (param.py:441-442) over parameters and slices; `off` is the start of the
slice of the first. -/
def assignLoop (ind : List Bool) (vals : List V) : List Id → Nat → (Id → List V) → (Id → List V)
  | [], _, v => v
  | p :: ps, off, v =>
    let n := (v p).length
    let new := flatAssign (v p) ((ind.drop off).take n) ((vals.drop off).take n)
    assignLoop ind vals ps (off + n) (Hier.upd v p new)

/-- `c[s] = val` (param.py:436-443), with the parents that are updated. The sizes `_param_sizes` were
taken when `c` was made; sizes of parameters do not change. -/
def Cat.setitem (c : Cat) (v : Id → List V) (s : List Nat) (val : List V) : Cat × (Id → List V) × List Id :=
  let ind := mask (values v c.params).length s
  let vals := assign (values v c.params) s val
  ({ c with iter := [] }, assignLoop ind vals c.params 0 v, c.iter)

/-- `for par in self.parents: par.trigger_update(trigger_parent=False)` (param.py:450-452): the calls made. -/
def updateAll [DecidableEq T] (s : Notify.State T) (ps : List Id) : List Notify.Call :=
  ps.flatMap (fun p => s.triggerUpdate p false)

/-- `a[mask]`. -/
def pickMask : List V → List Bool → List V
  | x :: xs, true :: m => x :: pickMask xs m
  | _ :: xs, false :: m => pickMask xs m
  | _, _ => []

/-- The list `params` of `c[s]` (param.py:430-434), each as its selected values; `zero` is the number 0. -/
def getLoop [DecidableEq V] (zero : V) (ind : List Bool) (v : Id → List V) : List Id → Nat → List (List V)
  | [], _ => []
  | p :: ps, off =>
    let n := (v p).length
    let sel := pickMask (v p) ((ind.drop off).take n)
    if sel.any (fun x => decide (x ≠ zero)) then sel :: getLoop zero ind v ps (off + n)
    else getLoop zero ind v ps (off + n)

/-- The values of `c[s]`. `none`: no parameter is left, and `values()` of the empty concatenation raises
`ValueError`. -/
def Cat.getitem [DecidableEq V] (zero : V) (c : Cat) (v : Id → List V) (s : List Nat) : Option (List V) :=
  let l := getLoop zero (mask (values v c.params).length s) v c.params 0
  if l = [] then none else some l.flatten

end Paramz.Concat

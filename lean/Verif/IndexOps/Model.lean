import Mathlib.Data.List.Sort
import Mathlib.Data.List.Dedup

/-!
# Model of `paramz/core/index_operations.py`

numpy integer arrays are lists of natural numbers (raveled indices are never negative).
A python dictionary is an insertion-ordered association list.
-/

namespace Paramz.IndexOps

/-- A numpy integer index array. -/
abbrev Arr := List Nat

/-! ### numpy set routines used by the file -/

/-- `numpy.union1d(a, b)`: sorted array of the distinct entries of both arrays
(used by `combine_indices`, index_operations.py:197-198). -/
def union1d (a b : Arr) : Arr := ((a ++ b).dedup).insertionSort (· ≤ ·)

/-- `numpy.setdiff1d(a, b, True)`: the entries of `a` that are not in `b`, in the order of `a`
(used by `remove_indices`, index_operations.py:200-201). With `assume_unique=True` numpy only promises
this for duplicate-free `a`; `a` is always a stored array here and stored arrays are duplicate free
(theorem `index_arrays_canonical`). -/
def setdiff1d (a b : Arr) : Arr := a.filter (fun x => decide (x ∉ b))

/-- Keep every entry of a list that equals its successor: numpy's `aux[:-1][aux[1:] == aux[:-1]]`. -/
def adjacentEqual : Arr → Arr
  | x :: y :: r => if x = y then x :: adjacentEqual (y :: r) else adjacentEqual (y :: r)
  | _ => []

/-- `numpy.intersect1d(a, b, True)` (`assume_unique=True`): concatenate, sort, and keep each entry
that equals its successor (used in index_operations.py:167). Nothing removes duplicates first. -/
def intersect1d (a b : Arr) : Arr := adjacentEqual ((a ++ b).insertionSort (· ≤ ·))

/-! ### The property dictionary -/

variable {P : Type} [DecidableEq P]

/-- `IntArrayDict` (lists_and_dicts.py:38-43): a `defaultdict` from property to index array, with
insertion order. -/
abbrev Dict (P : Type) := List (P × Arr)

/-- Stored array of `p`, or the empty default. -/
def lookup (d : Dict P) (p : P) : Arr :=
  match d with
  | [] => []
  | (q, a) :: r => if q = p then a else lookup r p

/-- `p in self._properties` (index_operations.py:165). -/
def hasKey (d : Dict P) (p : P) : Bool := d.any (fun e => decide (e.1 = p))

/-- `self._properties[p] = a`: replace in place, or append a new key. -/
def setKey (d : Dict P) (p : P) (a : Arr) : Dict P :=
  match d with
  | [] => [(p, a)]
  | (q, b) :: r => if q = p then (q, a) :: r else (q, b) :: setKey r p a

/-- `del self._properties[p]` for a present key. -/
def delKey (d : Dict P) (p : P) : Dict P := d.filter (fun e => decide (e.1 ≠ p))

/-- `self._properties[p]` read on the `defaultdict` (index_operations.py:187-188): a missing key is
inserted with the empty array. Returns the new dictionary and the array. -/
def getItem (d : Dict P) (p : P) : Dict P × Arr :=
  if hasKey d p then (d, lookup d p) else (d ++ [(p, [])], [])

/-- `items` (index_operations.py:97-100): the entries with a non-empty array, in dictionary order. -/
def items (d : Dict P) : List (P × Arr) := d.filter (fun e => decide (e.2 ≠ []))

/-- `properties` (index_operations.py:102-103). -/
def properties (d : Dict P) : List P := (items d).map Prod.fst

/-- `indices` (index_operations.py:105-106). -/
def indices (d : Dict P) : List Arr := (items d).map Prod.snd

/-- `ind[ind >= start] += size` on one array (index_operations.py:110-111). -/
def shiftRightArr (start size : Nat) (a : Arr) : Arr :=
  a.map (fun i => if start ≤ i then i + size else i)

/-- `shift_right` (index_operations.py:108-111). The python loop mutates each stored array in place;
stored arrays are never shared between keys, so this is a map over the entries. -/
def shiftRight (d : Dict P) (start size : Nat) : Dict P :=
  d.map (fun e => (e.1, shiftRightArr start size e.2))

/-- Body of the loop of `shift_left` on one array (index_operations.py:115-120): drop the entries in
`[start, start+size)`, then subtract `size` from the entries at or after `start`. -/
def shiftLeftArr (start size : Nat) (a : Arr) : Arr :=
  (a.filter (fun i => !(decide (start ≤ i) && decide (i < start + size)))).map
    (fun i => if start ≤ i then i - size else i)

/-- `shift_left` (index_operations.py:113-122). The loop runs over a snapshot of the non-empty entries
and each round touches only its own key: it stores the new array or deletes the key when the new
array is empty. Entries that are already empty are skipped by `items` and stay. -/
def shiftLeft (d : Dict P) (start size : Nat) : Dict P :=
  d.filterMap (fun e =>
    if e.2 = [] then some e
    else if shiftLeftArr start size e.2 = [] then none
    else some (e.1, shiftLeftArr start size e.2))

/-- `clear` (index_operations.py:124-125). -/
def clear (_ : Dict P) : Dict P := []

/-- `size` (index_operations.py:127-129). -/
def size (d : Dict P) : Nat := ((indices d).map List.length).sum

/-- `add` (index_operations.py:161-162). -/
def add (d : Dict P) (p : P) (ind : Arr) : Dict P := setKey d p (union1d (lookup d p) ind)

/-- `remove` (index_operations.py:164-173): new dictionary and the array of removed indices. -/
def remove (d : Dict P) (p : P) (ind : Arr) : Dict P × Arr :=
  if hasKey d p then
    let diff := setdiff1d (lookup d p) ind
    let removed := intersect1d (lookup d p) ind
    (if diff ≠ [] then setKey d p diff else delKey d p, removed)
  else (d, [])

/-- `__init__(constraints)` (index_operations.py:90-95) and `copy`/`__deepcopy__` (180-185):
a new dictionary filled by `add`. -/
def ofItems (its : List (P × Arr)) : Dict P :=
  its.foldl (fun d e => add d e.1 e.2) []

/-- Errors. -/
inductive Err | keyError
  deriving DecidableEq, Repr

/-- `__delitem__` (index_operations.py:190-191): `KeyError` on a missing key. -/
def delItem (d : Dict P) (p : P) : Except Err (Dict P) :=
  if hasKey d p then .ok (delKey d p) else .error .keyError

/-- `properties_for` (index_operations.py:132-143): for each requested index the properties whose
array contains it. (The reads `self[prop]` hit existing keys only, so they do not insert.) -/
def propertiesFor (d : Dict P) (index : Arr) : List (List P) :=
  index.map (fun i => (properties d).filter (fun p => decide (i ∈ lookup d p)))

/-- One inner step of `extract_properties_to_index` (index_operations.py:40-42):
`ind = prop_index.get(c, list()); ind.append(i); prop_index[c] = ind`. -/
def appendTo (acc : Dict P) (c : P) (i : Nat) : Dict P := setKey acc c (lookup acc c ++ [i])

/-- `extract_properties_to_index` (index_operations.py:36-47). `zip` pairs `index[i]` with `props[i]`. -/
def extractProperties (index : Arr) (props : List (List P)) : Dict P :=
  (index.zip props).foldl (fun acc e => e.2.foldl (fun acc c => appendTo acc c e.1) acc) []

/-- `properties_dict_for` (index_operations.py:145-159). -/
def propertiesDictFor (d : Dict P) (index : Arr) : Dict P :=
  extractProperties index (propertiesFor d index)

/-! ### Views -/

/-- An index-operations object over one dictionary: the dictionary's owner itself, or a
`ParameterIndexOperationsView` (index_operations.py:206-210) of another object. -/
inductive Iop
  | base
  | view (u : Iop) (offset size : Nat)
  deriving DecidableEq, Repr

namespace Iop

/-- `_filter_index` (index_operations.py:220-221). -/
def filterIndex (offset size : Nat) (a : Arr) : Arr :=
  (a.filter (fun i => decide (offset ≤ i) && decide (i < offset + size))).map (· - offset)

/-- `items` of either class (97-100, 223-228). -/
def items : Iop → Dict P → List (P × Arr)
  | base, d => IndexOps.items d
  | view u o s, d =>
    ((items u d).map (fun e => (e.1, filterIndex o s e.2))).filter (fun e => decide (e.2 ≠ []))

/-- `properties` (102-103, 230-231). -/
def properties (v : Iop) (d : Dict P) : List P := (v.items d).map Prod.fst

/-- `__getitem__` (187-188, 289-291): reading may insert an empty entry in the dictionary. -/
def getItem : Iop → Dict P → P → Dict P × Arr
  | base, d, p => IndexOps.getItem d p
  | view u o s, d, p => let r := getItem u d p; (r.1, filterIndex o s r.2)

/-- The array `self[p]` alone. -/
def get (v : Iop) (d : Dict P) (p : P) : Arr := (v.getItem d p).2

/-- `add` (161-162, 278-279). -/
def add : Iop → Dict P → P → Arr → Dict P
  | base, d, p, ind => IndexOps.add d p ind
  | view u o _, d, p, ind => add u d p (ind.map (· + o))

/-- `remove` (164-173, 282-286). -/
def remove : Iop → Dict P → P → Arr → Dict P × Arr
  | base, d, p, ind => IndexOps.remove d p ind
  | view u o _, d, p, ind => let r := remove u d p (ind.map (· + o)); (r.1, r.2.map (· - o))

/-- `shift_right` (108-111, 236-237). -/
def shiftRight : Iop → Dict P → Nat → Nat → Dict P
  | base, d, st, n => IndexOps.shiftRight d st n
  | view u o _, d, st, n => shiftRight u d (st + o) n

/-- `shift_left` (113-122, 239-240). -/
def shiftLeft : Iop → Dict P → Nat → Nat → Dict P
  | base, d, st, n => IndexOps.shiftLeft d st n
  | view u o _, d, st, n => shiftLeft u d (st + o) n

/-- `clear` (124-125, 242-244): a view removes its own items one by one. -/
def clear : Iop → Dict P → Dict P
  | base, d => IndexOps.clear d
  | view u o s, d =>
    ((view u o s).items d).foldl (fun d e => (u.remove d e.1 (e.2.map (· + o))).1) d

/-- `__delitem__` (190-191, 293-294). -/
def delItem : Iop → Dict P → P → Except Err (Dict P)
  | base, d, p => IndexOps.delItem d p
  | view u o s, d, p =>
    let r := (view u o s).getItem d p
    .ok ((view u o s).remove r.1 p r.2).1

/-- `update(parameter_index_view, offset)` (index_operations.py:175-178, 301-304) with the items of
the argument. -/
def update (v : Iop) (d : Dict P) (its : List (P × Arr)) (offset : Nat) : Dict P :=
  its.foldl (fun d e => v.add d e.1 (e.2.map (· + offset))) d

/-- `copy` / `__deepcopy__` (180-185, 307-312): a new dictionary made from the items. -/
def copy (v : Iop) (d : Dict P) : Dict P := ofItems (v.items d)

/-- `size` (127-129, 246-248). -/
def size (v : Iop) (d : Dict P) : Nat := ((v.items d).map (fun e => e.2.length)).sum

/-- `properties_for` (132-143, 250-261). -/
def propertiesFor (v : Iop) (d : Dict P) (index : Arr) : List (List P) :=
  index.map (fun i => (v.properties d).filter (fun p => decide (i ∈ v.get d p)))

/-- `properties_dict_for` (145-159, 263-275). -/
def propertiesDictFor (v : Iop) (d : Dict P) (index : Arr) : Dict P :=
  extractProperties index (v.propertiesFor d index)

end Iop

/-! ### Histories -/

/-- One public mutating (or reading) call, made on the dictionary owner or on any view of it. -/
inductive Op (P : Type)
  | add (v : Iop) (p : P) (ind : Arr)
  | remove (v : Iop) (p : P) (ind : Arr)
  | clear (v : Iop)
  | shiftRight (v : Iop) (start size : Nat)
  | shiftLeft (v : Iop) (start size : Nat)
  | update (v : Iop) (its : List (P × Arr)) (offset : Nat)
  | getItem (v : Iop) (p : P)
  | delItem (v : Iop) (p : P)

/-- Effect of one call; a raising call (`KeyError`) leaves the dictionary as it was. -/
def step (d : Dict P) : Op P → Dict P
  | .add v p ind => v.add d p ind
  | .remove v p ind => (v.remove d p ind).1
  | .clear v => v.clear d
  | .shiftRight v s n => v.shiftRight d s n
  | .shiftLeft v s n => v.shiftLeft d s n
  | .update v its o => v.update d its o
  | .getItem v p => (v.getItem d p).1
  | .delItem v p => match v.delItem d p with | .ok d' => d' | .error _ => d

/-- A history of calls. -/
def run (d : Dict P) (ops : List (Op P)) : Dict P := ops.foldl step d

end Paramz.IndexOps

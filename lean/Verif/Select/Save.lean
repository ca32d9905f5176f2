import Verif.Select.Model

/-!
# Saving the parameters to a file: `m.save(filename)`

Source: `paramz/core/parameter_core.py:540-577` (`save`), `parameter_core.py:174-199` and `param.py:228-233`
(`parameter_names`), `parameter_core.py:339-350` (`param_array`), `parameterized.py:310-327` (`m[:] = ...`).

A file is the list of its datasets in the order they were created, each with its name and the elements of the
array (shapes are left out). `h5py` refuses to create a dataset with a name that is in use.
-/

namespace Paramz.Select

open Paramz.Hier (Id Graph)
open Paramz.Names (Name adjust)

variable {V : Type}

abbrev File (V : Type) := List (Name × List V)

inductive SaveErr
  | nameError
  | typeError
  deriving DecidableEq, Repr

/-- The concatenation of lists, if all of them can be computed. -/
def joinM {α : Type} : List (Option (List α)) → Option (List α)
  | [] => some []
  | none :: _ => none
  | some l :: r => (joinM r).map (l ++ ·)

namespace State

/-- What `add_self=True` does to the names `r` of the parameters of `c` (parameter_core.py:198; a `Param` ignores
it, param.py:228-233). -/
def withSelf (s : State V) (c : Id) (r : Option (List Name)) : Option (List Name) :=
  if s.g.leaf c then r
  else r.bind (fun l => joinM (l.map (fun y => (adjust (s.name c)).map (fun a => [a ++ '.' :: y]))))

/-- `x.parameter_names(adjust_for_printing=True)` (parameter_core.py:187-199, param.py:228-233). The first argument
bounds the recursion. `none` is `NameError`. -/
def namesF (s : State V) : Nat → Id → Option (List Name)
  | 0, _ => some []
  | n + 1, x =>
    if s.g.leaf x then (adjust (s.name x)).map (fun a => [a])
    else joinM ((s.g.kids x).map (fun c => s.withSelf c (s.namesF n c)))

@[inherit_doc namesF]
def paramNames (s : State V) (x : Id) : Option (List Name) := s.namesF s.g.fuel x

/-- `plist` (parameter_core.py:557-561): the `Param`s visited by `traverse`. `gather_params` does not raise. -/
def gather (s : State V) (x : Id) : List Id :=
  (s.g.traverse (fun _ _ => false) ⟨s.marks, [], false⟩ x).trace.filter s.g.leaf

end State

/-- `n.replace('.', '_')` (parameter_core.py:568). -/
def under (n : Name) : Name := n.map (fun c => if c = '.' then '_' else c)

/-- `f.create_dataset(n, ...); d[:] = v`; `none` if there is a dataset with that name. -/
def File.create (f : File V) (n : Name) (v : List V) : Option (File V) :=
  if n ∈ f.map Prod.fst then none else some (f ++ [(n, v)])

/-- The loop over `zip(plist, names)` (parameter_core.py:567-571). -/
def writeAll (vals : Id → List V) : List (Id × Name) → File V → Option (File V)
  | [], f => some f
  | (p, n) :: r, f => (f.create (under n) (vals p)).bind (writeAll vals r)

def wholeName : Name := "param_array".toList

namespace State

/-- `self.param_array`: for a `Param` itself (param.py:124-129), for an initialised object the array its `Param`s
lie in (C24, C36), else `np.empty` (parameter_core.py:339-350), which holds anything, here `junk`. -/
def paramArray (s : State V) (junk : List V) (m : Id) : List V :=
  if s.g.leaf m || s.inited m then Concat.values s.vals (s.flattened m) else junk

/-- `m.save(filename)` (parameter_core.py:540-577). An exception while the file is written becomes `TypeError`,
since a string is raised (parameter_core.py:576-577). -/
def save (s : State V) (junk : List V) (m : Id) : Except SaveErr (File V) :=
  match s.paramNames m with
  | none => .error .nameError
  | some names =>
    match (writeAll s.vals ((s.gather m).zip names) []).bind
        (fun f => f.create wholeName (s.paramArray junk m)) with
    | none => .error .typeError
    | some f => .ok f

/-- `m[:] = l` with an array `l` (parameterized.py:310-327, observable_array.py:117-119): as many elements, or one
element for all. -/
def setWhole (s : State V) (m : Id) (l : List V) : State V × Option Err :=
  s.assignTo (fun n => if l.length = n then some l else match l with
    | [a] => some (List.replicate n a)
    | _ => none) (.one m)

end State

end Paramz.Select

import Verif.Names.Model
import Verif.Concat.Model
import Verif.Hier.Traverse

/-!
# Selecting parameters by name: `m['regular expression']`

Source: `paramz/parameterized.py:282-330` (`grep_param_names`, `__getitem__`, `__setitem__`),
`paramz/core/nameable.py:76-88` (`hierarchy_name`), `parameterized.py:368-370`, `param.py:234-236`
(`flattened_parameters`).

The regular expression is an arbitrary test `re` on strings: `re s` says whether `regexp.match(s)` succeeds.
-/

namespace Paramz.Select

open Paramz.Hier (Id Graph Trav)
open Paramz.Names (Name adjust)
open Paramz.Concat (Cat)

inductive Err
  | name
  | attribute
  | value
  deriving DecidableEq, Repr

/-- Pointers, names (`_name`), `_model_initialized_`, `__visited` marks, and the values of the `Param`s in the
order of `flat`. -/
structure State (V : Type) where
  g : Graph
  name : Id → Name
  inited : Id → Bool
  marks : Id → Bool
  vals : Id → List V

variable {V : Type}

namespace State

/-- `hierarchy_name()` (nameable.py:76-88); `none` is `NameError`. The first argument bounds the recursion. -/
def hierNameF (s : State V) : Nat → Id → Option Name
  | 0, _ => none
  | n + 1, x => match s.g.parent x with
    | none => adjust (s.name x)
    | some p => match hierNameF s n p, adjust (s.name x) with
      | some a, some b => some (a ++ '.' :: b)
      | _, _ => none

@[inherit_doc hierNameF]
def hierName (s : State V) (x : Id) : Option Name := s.hierNameF s.g.fuel x

end State

/-- `s.partition('.')[2]`: what follows the first dot, nothing if there is none. -/
def afterDot (s : Name) : Name := (s.dropWhile (fun c => decide (c ≠ '.'))).drop 1

namespace State

/-- `visit` raises `NameError` on `x` (parameterized.py:288-290). -/
def noName (s : State V) (self x : Id) : Bool := decide (x ≠ self) && (s.hierName x).isNone

/-- `visit` appends `x` (parameterized.py:289-290). -/
def hit (s : State V) (re : Name → Bool) (self x : Id) : Bool :=
  decide (x ≠ self) && match s.hierName x with
    | some n => re (afterDot n)
    | none => false

/-- `self.grep_param_names(regexp)` (parameterized.py:282-292). -/
def grep (s : State V) (re : Name → Bool) (self : Id) : State V × Except Err (List Id) :=
  let t := s.g.traverse (fun _ x => s.noName self x) ⟨s.marks, [], false⟩ self
  ({ s with marks := t.marks }, if t.raised then .error .name else .ok (t.trace.filter (s.hit re self)))

/-- `flattened_parameters` (parameterized.py:368-370, param.py:234-236). -/
def flattenedF (g : Graph) : Nat → Id → List Id
  | 0, _ => []
  | n + 1, x => if g.leaf x then [x] else (g.kids x).flatMap (flattenedF g n)

@[inherit_doc flattenedF]
def flattened (s : State V) (x : Id) : List Id := flattenedF s.g s.g.fuel x

end State

/-- What `m['regular expression']` returns: an object, or a `ParamConcatenation`. -/
inductive Got
  | one (x : Id)
  | many (c : Cat)

namespace State

/-- `self[name]` with a string (parameterized.py:294-308). -/
def getItem (s : State V) (re : Name → Bool) (self : Id) : State V × Except Err Got :=
  match s.grep re self with
  | (s, .error e) => (s, .error e)
  | (s, .ok []) => (s, .error .attribute)
  | (s, .ok [x]) => (s, .ok (.one x))
  | (s, .ok l) => (s, .ok (.many (Cat.new s.g (l.flatMap s.flattened))))

/-- `self.param_array[:] = l` for a `Parameterized`, seen from its `Param`s `ps` (they lie in its array one
after the other: C24, C36). -/
def spread : List Id → List V → (Id → List V) → (Id → List V)
  | [], _, v => v
  | p :: ps, l, v => spread ps (l.drop (v p).length) (Hier.upd v p (l.take (v p).length))

/-- `param[:] = value` for the result of `self[name]` (parameterized.py:330): a `Param` (observable_array.py:117-119),
a `Parameterized` (parameterized.py:310-327) or a `ParamConcatenation` (param.py:436-443; `np.hstack` of no
arrays raises). `val n` is `value` broadcast to `n` elements, `none` if that is impossible. -/
def assignTo (s : State V) (val : Nat → Option (List V)) : Got → State V × Option Err
  | .one x =>
    if s.g.leaf x then
      match val (s.vals x).length with
      | none => (s, some .value)
      | some l => ({ s with vals := Hier.upd s.vals x l }, none)
    else if s.inited x then
      match val (Concat.values s.vals (s.flattened x)).length with
      | none => (s, some .value)
      | some l => ({ s with vals := spread (s.flattened x) l s.vals }, none)
    else (s, some .attribute)
  | .many c =>
    if c.params = [] then (s, some .value)
    else
      match val (Concat.values s.vals c.params).length with
      | none => (s, some .value)
      | some l => ({ s with vals := (c.setitem s.vals (List.range l.length) l).2.1 }, none)

/-- `self[name] = value` with a string (parameterized.py:310-330); updates are not part of this model (C37,
C38, C44). -/
def setItem (s : State V) (re : Name → Bool) (self : Id) (val : Nat → Option (List V)) : State V × Option Err :=
  if s.inited self then
    match s.getItem re self with
    | (s, .error e) => (s, some e)
    | (s, .ok got) => s.assignTo val got
  else (s, some .attribute)

end State

end Paramz.Select

import Verif.Select.Model

/-!
# Arithmetic in place: `m['regular expression'] += v`, `m.name += v`, `m[2:5] += v`

Source: `paramz/parameterized.py:294-339` (`__getitem__`, `__setitem__`, `__setattr__`), `paramz/param.py:547-584`
(the operators of `ParamConcatenation`), `paramz/core/observable_array.py:127-201` (those of `Param`).

Python evaluates `x[k] op= v` as `t = x[k]; t = t.__iop__(v); x[k] = t`, and `x.a op= v` in the same way with
`getattr` and `setattr`. All operators of a class have the same form.
-/

namespace Paramz.Select

open Paramz.Hier (Id Graph)
open Paramz.Names (Name adjust)
open Paramz.Concat (Cat)

variable {V T : Type}

/-- Exceptions: those of `m[...]`, `TypeError`, `IndexError`. -/
inductive AErr
  | item (e : Err)
  | type
  | index
  deriving DecidableEq, Repr

/-- `op= v`: the operator on single elements, and `v` broadcast to `n` elements (`none`: `ValueError`; also
for an operator that numpy does not have for numbers of this kind). -/
structure Operand (V : Type) where
  op : V → V → V
  val : Nat → Option (List V)

/-- `np.ndarray.__iop__(array, v)` for the elements `l` of an array. -/
def Operand.apply (o : Operand V) (l : List V) : Option (List V) := (o.val l.length).map (List.zipWith o.op l)

/-- What announces a change: `x.notify_observers()` or `x.trigger_update(trigger_parent)`. -/
inductive Tell
  | write (x : Id)
  | up (x : Id) (tp : Bool)
  deriving DecidableEq, Repr

/-- The calls an announcement makes (`Verif.Notify`). -/
def Tell.calls [DecidableEq T] (s : Notify.State T) : Tell → List Notify.Call
  | .write x => s.write x
  | .up x tp => s.triggerUpdate x tp

/-- An announcement, with the values of all `Param`s at that moment. -/
structure Told (V : Type) where
  tell : Tell
  vals : Id → List V

/-- State, exception and announcements of a call. -/
structure Out (V : Type) where
  st : State V
  err : Option AErr
  log : List (Told V)

/-- The calls made by the announcements. -/
def Out.calls [DecidableEq T] (r : Out V) (s : Notify.State T) : List Notify.Call :=
  r.log.flatMap (fun t => t.tell.calls s)

/-- Announcements made when the state is `s`. -/
def announce (s : State V) (l : List Tell) : List (Told V) := l.map (⟨·, s.vals⟩)

/-- `raise`. -/
def Out.fail (s : State V) (e : AErr) : Out V := ⟨s, some e, []⟩

/-- `l` as a value to assign: it fits only its own length (it is always assigned to what it was read from). -/
def exactly (l : List V) (n : Nat) : Option (List V) := if n = l.length then some l else none

namespace State

/-- The announcements of `param[:] = value`: of a `Param` (observable_array.py:119), of a `Parameterized`
(parameterized.py:327), of a `ParamConcatenation` (param.py:443, 450-452). -/
def tells (s : State V) : Got → List Tell
  | .one x => if s.g.leaf x then [.write x] else [.up x true]
  | .many c => c.iter.map (.up · false)

/-- `param[:] = value` (`State.assignTo`) with its announcements. -/
def assignTell (s : State V) (val : Nat → Option (List V)) (got : Got) : Out V :=
  match s.assignTo val got with
  | (s', some e) => .fail s' (.item e)
  | (s', none) => ⟨s', none, announce s' (s.tells got)⟩

/-- `x.param_array` of a `Parameterized`: its `Param`s one after the other (C24, C36). -/
def whole (s : State V) (x : Id) : List V := Concat.values s.vals (s.flattened x)

/-- `x.param_array[sel] = l`. -/
def writeCells (s : State V) (x : Id) (sel : List Nat) (l : List V) : State V :=
  { s with vals := spread (s.flattened x) (Concat.assign (s.whole x) sel l) s.vals }

end State

/-- What stands between the brackets: a regular expression, a selection of positions (`view`: a slice, for which
numpy gives a view; otherwise an array of positions or of truth values), or one position. -/
inductive Key
  | re (f : Name → Bool)
  | sel (view : Bool) (l : List Nat)
  | int (i : Nat)

namespace State

/-- `x[key] = value` for a value that is not `None` (parameterized.py:310-330). For one position `self[name]` is
a number, and `param[:] = value` raises `TypeError`. -/
def setKey (s : State V) (x : Id) (key : Key) (val : Nat → Option (List V)) : Out V :=
  if s.inited x then
    match key with
    | .sel _ l =>
      if l.all (fun i => decide (i < (s.whole x).length)) then
        match val l.length with
        | none => .fail s (.item .value)
        | some w => ⟨s.writeCells x l w, none, announce (s.writeCells x l w) [.up x true]⟩
      else .fail s (.item .value)
    | .int i =>
      match (s.whole x)[i]? with
      | none => .fail s .index
      | some _ => .fail s .type
    | .re f =>
      match s.getItem f x with
      | (s, .error e) => .fail s (.item e)
      | (s, .ok got) => s.assignTell val got
  else .fail s (.item .attribute)

/-- `t.__iop__(v)` for what `self[regexp]` gives, and what it returns: the `Param` itself
(observable_array.py:192-195) or, for a `ParamConcatenation`, `None` (param.py:580-581: there is no `return`). A
`Parameterized` has no such operators. -/
def iop (s : State V) (o : Operand V) : Got → Out V × Option Id
  | .one x =>
    if s.g.leaf x then
      match o.apply (s.vals x) with
      | none => (.fail s (.item .value), none)
      | some l =>
        let s' := { s with vals := Hier.upd s.vals x l }
        (⟨s', none, announce s' [.write x]⟩, some x)
    else (.fail s .type, none)
  | .many c =>
    if c.params = [] then (.fail s (.item .value), none)
    else
      match o.apply (Concat.values s.vals c.params) with
      | none => (.fail s (.item .value), none)
      | some l => (s.assignTell (exactly l) (.many c), none)

/-- The assignment that ends `x[key] op= v`, after `first`: with `None` nothing is done
(parameterized.py:320-321, after the test whether `x` is initialised). -/
def store (first : Out V) (x : Id) (key : Key) (back : Option (List V)) : Out V :=
  match first.err with
  | some _ => first
  | none =>
    match back with
    | none => if first.st.inited x then first else ⟨first.st, some (.item .attribute), first.log⟩
    | some l =>
      let second := first.st.setKey x key (exactly l)
      ⟨second.st, second.err, first.log ++ second.log⟩

/-- `x[key] op= v`. Selecting positions of an object that is not initialised is not modelled (its array is not
yet connected with its `Param`s): the state is then left alone. -/
def aug (s : State V) (x : Id) (key : Key) (o : Operand V) : Out V :=
  match key with
  | .re f =>
    match s.getItem f x with
    | (s, .error e) => .fail s (.item e)
    | (s, .ok got) =>
      let r := s.iop o got
      store r.1 x key (r.2.map r.1.st.vals)
  | .sel view l =>
    if l.all (fun i => decide (i < (s.whole x).length)) then
      match o.apply (l.filterMap ((s.whole x)[·]?)) with
      | none => .fail s (.item .value)
      | some w => store ⟨if view && s.inited x then s.writeCells x l w else s, none, []⟩ x key (some w)
    else .fail s .index
  | .int i =>
    match (s.whole x)[i]? with
    | none => .fail s .index
    | some v =>
      match o.apply [v] with
      | none => .fail s (.item .value)
      | some w => store ⟨s, none, []⟩ x key (some w)

/-- `m.a = l` (parameterized.py:332-339): assigned to the first child with this printed name; if a name cannot
be printed `NameError` is raised (parameter_core.py:187-199). An attribute that is not a child is a plain
attribute of the object. -/
def setAttr (s : State V) (m : Id) (a : Name) (l : List V) : Out V :=
  if (s.g.kids m).all (fun c => (adjust (s.name c)).isSome) then
    match (s.g.kids m).find? (fun c => decide (adjust (s.name c) = some a)) with
    | none => ⟨s, none, []⟩
    | some c => s.assignTell (exactly l) (.one c)
  else .fail s (.item .name)

/-- `m.a op= v`, where `m.a` is `p`. -/
def augAttr (s : State V) (m : Id) (a : Name) (p : Id) (o : Operand V) : Out V :=
  let r := s.iop o (.one p)
  match r.1.err with
  | some _ => r.1
  | none =>
    let second := r.1.st.setAttr m a (r.1.st.vals p)
    ⟨second.st, second.err, r.1.log ++ second.log⟩

end State

/-- `c op= v` for a variable `c` holding a `ParamConcatenation`: the variable then holds what the operator
returns, `None`. An exception leaves it. -/
def augVar (s : State V) (c : Cat) (o : Operand V) : Out V × Option Cat :=
  let r := s.iop o (.many c)
  (r.1, if r.1.err = none then none else some c)

end Paramz.Select

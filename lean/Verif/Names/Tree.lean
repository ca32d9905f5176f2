import Verif.Names.Model

/-!
# Names in whole hierarchies

`Verif.Names.Model` is about one object and its parameters. Here all objects of a program are considered, and
calls that raise leave what they had done before they raised. Source: `paramz/parameterized.py:47-66, 128-277,
332-339`, `paramz/core/parameter_core.py:270-296, 326-337, 444-492`, `paramz/core/nameable.py:64-74`,
`paramz/core/parentable.py:62-69`.

Not modelled: the array checks and copies in `_connect_parameters` (see `Verif.Mem.Model`), constraints,
observers, and the marks that a refused `link_parameter` leaves (see `Verif.Hier.Link`).
-/

namespace Paramz.Names

/-- Sequencing of statements that may raise: after an exception nothing more is done. -/
def andThen {σ ε : Type} (r : σ × Option ε) (f : σ → σ × Option ε) : σ × Option ε :=
  match r.2 with
  | none => f r.1
  | some e => (r.1, some e)

/-- As `go` (`_connect_parameters` and `_add_parameter_name` for the names of one object,
parameterized.py:228-276, parameter_core.py:444-492), but with what is left behind when it raises. -/
def run : Nat → Fam → Option Id → Fam × Option Err
  | 0, s, _ => (s, some .recursionError)
  | n + 1, s, none => s.kids.foldl (fun r x => andThen r (fun s => run n s (some x))) (s, none)
  | n + 1, s, some x =>
    match adjust (s.name x) with
    | none => (s, some .nameError)
    | some pname =>
      match s.other x with
      | none => (s.setAttr pname x, none)
      | some o =>
        match adjust (s.name o) with
        | none => ({ s with name := upd s.name o (nextName (s.name o)) }, some .nameError)
        | some old =>
          andThen (run n (({ s with name := upd s.name o (nextName (s.name o)) } : Fam).delAttr old) none)
            (fun s2 => andThen (run n s2 (some o)) (fun s3 => run n s3 (some o)))

/-- Exceptions: those of the names, and `HierarchyError`. -/
inductive Exc
  | names (e : Err)
  | hierarchyError
  deriving DecidableEq, Repr

/-- All objects: `parameters`, `_parent_`, `name`, `_added_names_` with what is stored under these names, the
other attributes (`dir`), `_model_initialized_`, and whether the constructor is still running (`_in_init_`).
Objects are numbered below `next`. -/
structure World where
  next : Nat
  kids : Id → List Id
  parent : Id → Option Id
  name : Id → Name
  attrs : Id → Name → Option Id
  own : Id → Name → Bool
  inited : Id → Bool
  building : Id → Bool

namespace World

/-- Before anything is created. -/
def empty : World :=
  ⟨0, fun _ => [], fun _ => none, fun _ => [], fun _ _ => none, fun _ _ => false, fun _ => false, fun _ => false⟩

/-- One object with its parameters. -/
def fam (w : World) (p : Id) : Fam := ⟨w.kids p, w.name, w.attrs p, w.own p⟩

/-- Names and attributes after something has been done with the names of `p`. -/
def put (w : World) (p : Id) (f : Fam) : World := { w with name := f.name, attrs := upd w.attrs p f.attrs }

/-- `_highest_parent_` (parentable.py:62-69), a recursive property; `none` is `RecursionError`. -/
def highest : Nat → World → Id → Option Id
  | 0, _, _ => none
  | n + 1, w, x => match w.parent x with
    | none => some x
    | some p => highest n w p

/-- The objects reached by `_propagate_param_grad` (parameter_core.py:270-296). The recursion is limited by the
number of objects here. -/
def below : Nat → World → Id → List Id
  | 0, _, _ => []
  | n + 1, w, x => x :: (w.kids x).flatMap (fun c => below n w c)

/-- `_model_initialized_ = True` for an object and everything below it. -/
def mark (w : World) (p : Id) : World :=
  { w with inited := fun y => w.inited y || decide (y = p) || decide (y ∈ below w.next w p) }

/-- `p._connect_parameters()`, for names (parameterized.py:228-277). Simplified: if it raises, all objects below
`p` count as initialised, not only those that have been connected before. -/
def connect (n : Nat) (w : World) (p : Id) : World × Option Exc :=
  (((w.mark p).put p (run n (w.fam p) none).1), (run n (w.fam p) none).2.map .names)

/-- `x._highest_parent_._connect_parameters()`. -/
def connectTop (n : Nat) (w : World) (x : Id) : World × Option Exc :=
  match w.highest n x with
  | none => (w, some (.names .recursionError))
  | some r => w.connect n r

/-- `p._add_parameter_name(x)` (parameter_core.py:444-479). -/
def addName (n : Nat) (w : World) (p x : Id) : World × Option Exc :=
  (w.put p (run n (w.fam p) (some x)).1, (run n (w.fam p) (some x)).2.map .names)

/-- `p._remove_parameter_name(None, old)`; `p._remove_parameter_name(x)` for an `x` with the name `old`
(parameter_core.py:482-488). -/
def removeName (n : Nat) (w : World) (p : Id) (old : Name) : World × Option Exc :=
  match adjust old with
  | none => (w, some (.names .nameError))
  | some pname => (w.put p ((w.fam p).delAttr pname)).connect n p

def setKids (w : World) (p : Id) (l : List Id) : World := { w with kids := upd w.kids p l }

def setParent (w : World) (x : Id) (q : Option Id) : World := { w with parent := upd w.parent x q }

def setName (w : World) (x : Id) (new : Name) : World := { w with name := upd w.name x new }

/-- `p.unlink_parameter(x)` (parameterized.py:195-226). `del self.parameters[param._parent_index_]` takes out
`x`, since that index is its position (`Verif.Hier.Unlink`). -/
def unlink (n : Nat) (w : World) (p x : Id) : World × Option Exc :=
  if x ∈ w.kids p then
    andThen ((w.setKids p ((w.kids p).erase x)).removeName n p (w.name x)) (fun w2 =>
      andThen ((w2.setParent x none).connect n p) (fun w3 => w3.connectTop n p))
  else (w, some .hierarchyError)

/-- The part of `p.link_parameter(x, pos)` after `x` has been taken out of its old parent
(parameterized.py:149-183). `pos` is the position of `x` in the list; `none` is the end. A link that closes a
cycle never returns (parameterized.py:173-176); here `highest` raises. -/
def linkNew (n : Nat) (w : World) (p x : Id) (pos : Option Nat) : World × Option Exc :=
  let l := w.kids p
  let k := pos.getD l.length
  let w1 := (w.setKids p (l.take k ++ x :: l.drop k)).setParent x (some p)
  if w1.building p then (w1, none)
  else match w1.highest n p with
    | none => (w1, some (.names .recursionError))
    | some r => if w1.inited r then w1.connect n r else (w1, none)

/-- `p.link_parameter(x, pos)` (parameterized.py:128-186). An object with a parent is refused if `p` belongs
to the same hierarchy (parameterized.py:141-147; in the code also, by never returning, if `p` is below `x`). -/
def link (n : Nat) (w : World) (p x : Id) (pos : Option Nat) : World × Option Exc :=
  if x ∈ w.kids p then
    match pos with
    | none => (w, some .hierarchyError)
    | some _ => andThen (w.unlink n p x) (fun w => w.linkNew n p x pos)
  else match w.parent x with
    | none => w.linkNew n p x pos
    | some q =>
      if w.highest n x = w.highest n p then (w, some .hierarchyError)
      else andThen (w.unlink n q x) (fun w => w.linkNew n p x pos)

/-- `x.name = new` (nameable.py:64-74, parameter_core.py:490-492). -/
def rename (n : Nat) (w : World) (x : Id) (new : Name) : World × Option Exc :=
  match w.parent x with
  | none => (w.setName x new, none)
  | some q => andThen ((w.setName x new).removeName n q (w.name x)) (fun w => w.addName n q x)

/-- A new object: a `Param` (`isParam`), or a `Parameterized` whose constructor runs. `own` are the attributes
it has. -/
def create (w : World) (isParam : Bool) (name : Name) (own : Name → Bool) : World :=
  { w with
    next := w.next + 1
    kids := upd w.kids w.next []
    parent := upd w.parent w.next none
    name := upd w.name w.next name
    attrs := upd w.attrs w.next (fun _ => none)
    own := upd w.own w.next own
    inited := upd w.inited w.next isParam
    building := upd w.building w.next (!isParam) }

def setFlags (w : World) (x : Id) : World :=
  { w with building := upd w.building x false, inited := upd w.inited x false }

/-- The end of the constructor (parameterized.py:55-61). -/
def finish (n : Nat) (w : World) (x : Id) (ini : Bool) : World × Option Exc :=
  if ini then (w.setFlags x).connectTop n x else (w.setFlags x, none)

def setOwn (w : World) (p : Id) (a : Name) : World :=
  { w with own := upd w.own p (fun m => if m = a then true else w.own p m) }

/-- `p.a = v` (parameterized.py:332-339): if `a` is the printed name of a parameter, the value goes to that
parameter; else `a` becomes an attribute. The printed names of all parameters are needed for this. -/
def assign (w : World) (p : Id) (a : Name) : World × Option Exc :=
  if ∃ x ∈ w.kids p, adjust (w.name x) = none then (w, some (.names .nameError))
  else if ∃ x ∈ w.kids p, adjust (w.name x) = some a then (w, none)
  else (w.setOwn p a, none)

end World

/-- Calls. -/
inductive Op
  | create (isParam : Bool) (name : Name) (own : Name → Bool)
  | finish (x : Id) (ini : Bool)
  | link (p x : Id) (pos : Option Nat)
  | unlink (p x : Id)
  | rename (x : Id) (new : Name)
  | initialise (x : Id)
  | assign (p : Id) (a : Name)

/-- One call, with recursion depth `n` left. `x.initialize_parameter()` is parameter_core.py:326-337. -/
def World.exec (n : Nat) (w : World) : Op → World × Option Exc
  | .create b m o => (w.create b m o, none)
  | .finish x b => w.finish n x b
  | .link p x pos => w.link n p x pos
  | .unlink p x => w.unlink n p x
  | .rename x new => w.rename n x new
  | .initialise x => w.connectTop n x
  | .assign p a => w.assign p a

end Paramz.Names

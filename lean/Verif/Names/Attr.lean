import Verif.Names.TreeSpec
import Verif.Select.Props

/-!
# Parameters as attributes: `m.a` and `m.a = v`

Source: `paramz/parameterized.py:332-339` (`__setattr__`), `paramz/core/parameter_core.py:174-199`
(`parameter_names`), on top of the names of all objects (`Verif.Names.Tree`) and of the values of the `Param`s
(`Verif.Select.Model`).

Not modelled: attributes with a setter (`gradient`, `name`, `optimizer_array`, ...), which are the subject of
other properties, and `del m.a`.
-/

namespace Paramz.Names

open Paramz.Select (State Got Broadcast)

/-- What an attribute refers to: a parameter object, or anything else. -/
inductive Thing
  | param (x : Id)
  | other (n : Nat)
  deriving DecidableEq, Repr

/-- The names of a program, the values of its `Param`s, and what the program has stored as attributes of its
objects with `object.__setattr__`. The names in `w.own` without entry in `dict` are those of the class. -/
structure Desk (V : Type) where
  w : World
  s : State V
  dict : Id → Name → Option Thing

variable {V : Type}

/-- Names and values are those of the same objects, which form a hierarchy. -/
structure Agree (w : World) (s : State V) : Prop where
  kids : ∀ p, p < w.next → s.g.kids p = w.kids p
  name : ∀ p, p < w.next → s.name p = w.name p
  skel : s.g.Skel

/-- Exceptions of an assignment. -/
inductive SetErr
  | nameError
  | value (e : Select.Err)
  deriving DecidableEq, Repr

namespace Desk

/-- `p.a`: what the program has stored, else what the class has, else what the library has added
(`__getattribute__`; parameter_core.py:467-469). -/
def read (d : Desk V) (p : Id) (a : Name) : Option Thing :=
  match d.dict p a with
  | some t => some t
  | none => if d.w.own p a then some (.other 0) else (d.w.attrs p a).map .param

/-- `self.parameters[pnames.index(name)]` (parameterized.py:335-337): the first parameter with that printed
name. -/
def target (d : Desk V) (p : Id) (a : Name) : Option Id :=
  (d.w.kids p).find? (fun x => decide (adjust (d.w.name x) = some a))

/-- `object.__setattr__(p, a, t)` (parameterized.py:339). -/
def store (d : Desk V) (p : Id) (a : Name) (t : Thing) : Desk V :=
  { d with
    w := d.w.setOwn p a
    dict := fun q b => if q = p ∧ b = a then some t else d.dict q b }

/-- `p.a = v` (parameterized.py:332-339). The value `v` is given twice: as the thing `t` an attribute would refer
to, and as the elements `val n` that an assignment to `n` elements takes from it (`none` if it cannot be
broadcast). `parameter_names` needs the printed names of all parameters and raises if there is one without. -/
def setattr (d : Desk V) (p : Id) (a : Name) (t : Thing) (val : Nat → Option (List V)) : Desk V × Option SetErr :=
  if ∃ x ∈ d.w.kids p, adjust (d.w.name x) = none then (d, some .nameError)
  else match d.target p a with
    | some x => ({ d with s := (d.s.assignTo val (.one x)).1 }, (d.s.assignTo val (.one x)).2.map .value)
    | none => (d.store p a t, none)

/-- States after any calls. The values after a call of the library other than `p.a = v` are any values (they are
the subject of C35); names and attributes are those of `Verif.Names.Tree`. Attributes of the class are not
overwritten. -/
inductive Reach : Desk V → Prop
  | empty {s : State V} : Agree World.empty s → Reach ⟨World.empty, s, fun _ _ => none⟩
  | call {d : Desk V} {n : Nat} {op : Op} {s : State V} : Reach d → d.w.Admissible op →
      (∀ p a, op ≠ .assign p a) → Agree (d.w.exec n op).1 s → Reach ⟨(d.w.exec n op).1, s, d.dict⟩
  | set {d : Desk V} {p : Id} {a : Name} {t : Thing} {val : Nat → Option (List V)} : Reach d → p < d.w.next →
      Broadcast val → (d.w.own p a = true → d.dict p a ≠ none ∨ ∃ x ∈ d.w.kids p, adjust (d.w.name x) = some a) →
      Reach (d.setattr p a t val).1

/-- `d'` is after `d`; in between any calls were made, but no `p.a = v` for these `p` and `a`. -/
inductive Later (p : Id) (a : Name) (d : Desk V) : Desk V → Prop
  | refl : Later p a d d
  | call {d' : Desk V} {n : Nat} {op : Op} {s : State V} : Later p a d d' → d'.w.Admissible op →
      (∀ p a, op ≠ .assign p a) → Agree (d'.w.exec n op).1 s → Later p a d ⟨(d'.w.exec n op).1, s, d'.dict⟩
  | set {d' : Desk V} {q : Id} {b : Name} {t : Thing} {val : Nat → Option (List V)} : Later p a d d' →
      q < d'.w.next → Broadcast val →
      (d'.w.own q b = true → d'.dict q b ≠ none ∨ ∃ x ∈ d'.w.kids q, adjust (d'.w.name x) = some b) →
      ¬(q = p ∧ b = a) → Later p a d (d'.setattr q b t val).1

end Desk

end Paramz.Names

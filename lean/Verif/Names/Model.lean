import Mathlib.Logic.Function.Iterate
import Mathlib.Data.List.Nodup

/-!
# Model of parameter names

Source: `paramz/core/nameable.py:33-74`, `paramz/core/parameter_core.py:302, 444-492`,
`paramz/parameterized.py:128-277` as far as names are concerned.
-/

namespace Paramz.Names

/-- Python strings as lists of characters. -/
abbrev Name := List Char

/-! ### `adjust_name_for_printing` -/

/-- `str.replace` of one character. -/
def replace1 (c : Char) (t : Name) (s : Name) : Name :=
  s.flatMap (fun x => if x = c then t else [x])

/-- `str.replace("**", t)`: from the left, without overlaps. -/
def replaceStars (t : Name) : Name → Name
  | '*' :: '*' :: s => t ++ replaceStars t s
  | x :: s => x :: replaceStars t s
  | [] => []

/-- The replacements (nameable.py:39-43). -/
def substitute (s : Name) : Name :=
  let s := replace1 '-' ['_', 'm', '_'] (replace1 '.' ['_'] (replace1 ' ' ['_'] s))
  let s := replace1 '!' ['_', 'I', '_'] (replace1 '+' ['_', 'p', '_'] s)
  let s := replace1 '*' ['_', 'x', '_'] (replaceStars ['_', 'x', 'x', '_'] s)
  let s := replace1 '@' ['_', 'a', 't', '_'] (replace1 '/' ['_', 'l', '_'] s)
  replace1 ')' [] (replace1 '(' ['_', 'o', 'f', '_'] s)

/-- `[a-zA-Z_]`. -/
def startChar (c : Char) : Bool := decide (('a' ≤ c ∧ c ≤ 'z') ∨ ('A' ≤ c ∧ c ≤ 'Z') ∨ c = '_')

/-- `[a-zA-Z0-9-_]`. -/
def restChar (c : Char) : Bool := startChar c || decide ('0' ≤ c ∧ c ≤ '9') || decide (c = '-')

/-- `[a-zA-Z0-9-_]*$`: `$` matches at the end and before a final line break. -/
def restMatch (s : Name) : Bool := s.all restChar || (s.getLast? == some '\n' && s.dropLast.all restChar)

/-- `re.match(r'^[a-zA-Z_][a-zA-Z0-9-_]*$', name)` (nameable.py:44). -/
def nameMatch : Name → Bool
  | [] => false
  | c :: s => startChar c && restMatch s

/-- `adjust_name_for_printing` (nameable.py:33-47); `none` is `NameError`. The argument `None` (giving
`''`) is left out: objects always have a name. -/
def adjust (s : Name) : Option Name :=
  let t := substitute s
  if nameMatch t then some t else none

/-! ### Renaming -/

/-- `_name_digit.match(name)` with `(?P<name>.*)_(?P<digit>\d+)$` (parameter_core.py:302). Names that pass
`adjust` have no digits outside ASCII and no line breaks except at the end (names with one at the end are
not considered). -/
def splitDigit (s : Name) : Option (Name × Name) :=
  let ds := (s.reverse.takeWhile Char.isDigit).reverse
  match ds, s.reverse.dropWhile Char.isDigit with
  | [], _ => none
  | _, '_' :: stem => some (stem.reverse, ds)
  | _, _ => none

/-- The new name in `warn_and_retry` (parameter_core.py:458-461). -/
def nextName (s : Name) : Name :=
  match splitDigit s with
  | none => s ++ ['_', '1']
  | some (stem, ds) => stem ++ '_' :: Nat.toDigits 10 (Nat.ofDigitChars 10 ds 0 + 1)

/-- Objects. -/
abbrev Id := Nat

/-- One `Parameterized`: its `parameters`, their names, `_added_names_` with the attributes stored under
these names, and the other attributes of the object (`dir(self)`). -/
structure Fam where
  kids : List Id
  name : Id → Name
  attrs : Name → Option Id
  own : Name → Bool

inductive Err
  | nameError
  | recursionError
  deriving DecidableEq, Repr

/-- Function update. -/
def upd {α : Type} (f : Id → α) (x : Id) (v : α) : Id → α := fun y => if y = x then v else f y

/-- `del self.__dict__[pname]; self._added_names_.remove(pname)`. -/
def Fam.delAttr (s : Fam) (n : Name) : Fam := { s with attrs := fun m => if m = n then none else s.attrs m }

/-- `self.__dict__[pname] = param` if the name is not in use (parameter_core.py:467-477). -/
def Fam.setAttr (s : Fam) (n : Name) (x : Id) : Fam :=
  if s.own n || (s.attrs n).isSome then s
  else { s with attrs := fun m => if m = n then some x else s.attrs m }

/-- The first other parameter with the name of `x` (parameter_core.py:464-465). -/
def Fam.other (s : Fam) (x : Id) : Option Id := s.kids.find? (fun o => decide (o ≠ x ∧ s.name o = s.name x))

/-- `go n s none` is the part of `_connect_parameters` that deals with names (parameterized.py:242, 276):
`_add_parameter_name` for every parameter. `go n s (some x)` is `_add_parameter_name(x)`
(parameter_core.py:444-479): the renaming of another object goes through the setter of `name`
(nameable.py:64-74) to `_name_changed` (parameter_core.py:482-492), which connects everything again;
after this `_add_parameter_name` is called twice for the renamed object (parameter_core.py:492, 462).
The first argument bounds the depth of the recursion. -/
def go : Nat → Fam → Option Id → Except Err Fam
  | 0, _, _ => .error .recursionError
  | n + 1, s, none => s.kids.foldlM (fun s x => go n s (some x)) s
  | n + 1, s, some x =>
    match adjust (s.name x) with
    | none => .error .nameError
    | some pname =>
      match s.other x with
      | none => .ok (s.setAttr pname x)
      | some o =>
        match adjust (s.name o) with
        | none => .error .nameError
        | some old => do
          let s1 := ({ s with name := upd s.name o (nextName (s.name o)) } : Fam).delAttr old
          let s2 ← go n s1 none
          let s3 ← go n s2 (some o)
          go n s3 (some o)

/-- `self._connect_parameters()`, for names. -/
def Fam.connect (n : Nat) (s : Fam) : Except Err Fam := go n s none

/-- `self._remove_parameter_name(None, old)` (parameter_core.py:482-488). -/
def Fam.removeName (n : Nat) (s : Fam) (old : Name) : Except Err Fam :=
  match adjust old with
  | none => .error .nameError
  | some pname => (s.delAttr pname).connect n

/-- `x.name = new` for a parameter `x` of this object (nameable.py:64-74, parameter_core.py:490-492). -/
def Fam.rename (n : Nat) (s : Fam) (x : Id) (new : Name) : Except Err Fam := do
  let s1 ← ({ s with name := upd s.name x new } : Fam).removeName n (s.name x)
  go n s1 (some x)

/-- `self.link_parameter(x, index)` for an object `x` without parent, as far as names are concerned
(parameterized.py:150-183); `root`: this object is the highest parent of an initialised hierarchy. Only
then its own parameters are connected. `pos` is the position of `x` in the list. -/
def Fam.link (n : Nat) (s : Fam) (x : Id) (pos : Nat) (root : Bool) : Except Err Fam :=
  let s1 : Fam := { s with kids := s.kids.take pos ++ x :: s.kids.drop pos }
  if root then s1.connect n else .ok s1

/-- `self.unlink_parameter(x)` (parameterized.py:195-216), as far as names are concerned. The names of the
highest parent's parameters are connected as well, which changes nothing here. -/
def Fam.unlink (n : Nat) (s : Fam) (x : Id) : Except Err Fam := do
  let s1 ← ({ s with kids := s.kids.erase x } : Fam).removeName n (s.name x)
  s1.connect n

end Paramz.Names

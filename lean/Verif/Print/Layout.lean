import Mathlib.Data.List.Basic
import Mathlib.Data.List.Forall2
import Mathlib.Data.List.Intervals

/-!
# The layout of printed tables (C97): specification and model

Source: `paramz/parameterized.py:382-448` (`_repr_html_`, `_format_spec`, `__str__`), `paramz/param.py:266-347`
(`_max_len_names`, `_max_len_values`, `_max_len_index`, `_repr_html_`, `_format_spec`, `__str__`), `513-543`
(`ParamConcatenation.__str__`), `paramz/model.py:429-440` (`Model.__str__`).

Here the cells are given as texts; what they say is the subject of C75. Texts are lists of characters.
-/

namespace Paramz.Layout

abbrev Text := List Char

/-! ### Specification -/

/-- So many spaces. -/
def blank (n : Nat) : Text := List.replicate n ' '

/-- `p` is `c` at the left end of a field. -/
def AtLeft (p c : Text) : Prop := ∃ b, p = c ++ blank b

/-- `p` is `c` at the right end of a field. -/
def AtRight (p c : Text) : Prop := ∃ a, p = blank a ++ c

/-- `p` is `c` in the middle of a field. -/
def Centred (p c : Text) : Prop := ∃ a b, p = blank a ++ c ++ blank b ∧ (b = a ∨ b = a + 1)

/-- Between two fields. -/
def bar : Text := "  |  ".toList

/-- In front of the first field; on terminals it is bold. -/
def lead (vt : Bool) : Text := if vt then "  \x1b[1m".toList else "  ".toList

/-- Behind the first field. -/
def trail (vt : Bool) : Text := if vt then "\x1b[0;0m".toList else []

/-- A line with fields of the widths `w0`, `w1`, `ls`, in which the cells `c0` (left), `c1` (right), `cs` (centred) stand. -/
def Lined (vt : Bool) (w0 w1 : Nat) (ls : List Nat) (line c0 c1 : Text) (cs : List Text) : Prop :=
  ∃ p0 p1 ps, line = lead vt ++ p0 ++ trail vt ++ bar ++ p1 ++ ps.flatMap (bar ++ ·) ∧
    p0.length = w0 ∧ p1.length = w1 ∧ ps.map List.length = ls ∧ AtLeft p0 c0 ∧ AtRight p1 c1 ∧ List.Forall₂ Centred ps cs

/-- A text that neither begins nor ends with a space. -/
def Trim (c : Text) : Prop := c.head? ≠ some ' ' ∧ c.getLast? ≠ some ' '

/-! ### Model: formats -/

/-- `'{:<n}'`. -/
def ljust (n : Nat) (c : Text) : Text := c ++ blank (n - c.length)

/-- `'{:>n}'`. -/
def rjust (n : Nat) (c : Text) : Text := blank (n - c.length) ++ c

/-- `'{:^n}'`: the odd space stands at the right. -/
def center (n : Nat) (c : Text) : Text :=
  blank ((n - c.length) / 2) ++ c ++ blank (n - c.length - (n - c.length) / 2)

/-- The largest of `a` and the lengths. -/
def maxLen (a : Nat) (l : List Text) : Nat := (l.map List.length).foldl max a

/-- A format specification (parameterized.py:415-429, param.py:313-326) joined with bars and filled in. The columns are
those for which there is a width (`zip`). -/
def render (vt : Bool) (w0 w1 : Nat) (ls : List Nat) (c0 c1 : Text) (cs : List Text) : Text :=
  lead vt ++ ljust w0 c0 ++ trail vt ++ bar ++ rjust w1 c1 ++ (List.zipWith center ls cs).flatMap (bar ++ ·)

/-! ### Model: the table of a `Parameterized` -/

/-- The texts of the table: the name of the object, and the columns. -/
structure Cols where
  name : Text
  names : List Text
  desc : List Text
  iops : List (Text × List Text)

namespace Cols

/-- `nl` (parameterized.py:416). -/
def nl (t : Cols) : Nat := maxLen 0 (t.names ++ [t.name])

/-- `sl` (parameterized.py:417). -/
def sl (t : Cols) : Nat := maxLen 0 (t.desc ++ ["value".toList])

/-- `lls` (parameterized.py:419). -/
def lls (t : Cols) : List Nat := t.iops.map (fun e => maxLen e.1.length e.2)

/-- The texts of row `i`; `none`: `IndexError`. -/
def row (t : Cols) (i : Nat) : Option (Text × Text × List Text) :=
  match t.names[i]?, t.desc[i]?, t.iops.mapM (fun e => e.2[i]?) with
  | some n, some d, some cs => some (n, d, cs)
  | _, _, _ => none

/-- The lines of `__str__` (parameterized.py:431-448). -/
def str (t : Cols) (header vt : Bool) : Option (List Text) :=
  match (List.range t.names.length).mapM t.row with
  | none => none
  | some rows => some ((if header then [render vt t.nl t.sl t.lls t.name "value".toList (t.iops.map (·.1))] else []) ++
      rows.map (fun r => render vt t.nl t.sl t.lls r.1 r.2.1 r.2.2))

end Cols

/-! ### Model: the table of a `Param`, and of several -/

/-- The texts of the table, and the values: the name of the `Param` in the hierarchy, index, value and properties of every
element. -/
structure Elems (V : Type) where
  name : Text
  indices : List Text
  vals : List V
  iops : List (Text × List (List Text))

namespace Elems

variable {V : Type}

/-- `' '.join`. -/
def words (l : List Text) : Text := [' '].intercalate l

/-- `_max_len_names` (param.py:266-267). -/
def maxNames (e : Text × List (List Text)) : Nat := maxLen e.1.length (e.2.map words)

/-- `_max_len_values` (param.py:269-270); `g` is the format `g`. -/
def maxValues (g : V → Text) (p : Elems V) : Nat := maxLen p.name.length (p.vals.map g)

/-- `_max_len_index` (param.py:272-273). -/
def maxIndex (p : Elems V) : Nat := maxLen "index".length p.indices

/-- The widths `lls`. -/
def lls (p : Elems V) : List Nat := p.iops.map maxNames

/-- The texts of row `i`; `f` is the format `f`, not `g`. `none`: `IndexError`. -/
def row (f : V → Text) (p : Elems V) (i : Nat) : Option (Text × Text × List Text) :=
  match p.indices[i]?, p.vals[i]?, p.iops.mapM (fun e => (e.2[i]?).map words) with
  | some n, some v, some cs => some (n, f v, cs)
  | _, _, _ => none

/-- The first line (param.py:342-343). -/
def head (p : Elems V) (li lx : Nat) (ls : List Nat) (onlyName vt : Bool) : Text :=
  if onlyName then render vt li lx ls (List.replicate li '-') p.name ((p.iops.zip ls).map (fun e => List.replicate e.2 '-'))
  else render vt li lx ls "index".toList p.name (p.iops.map (·.1))

/-- The lines of `__str__` with widths given (param.py:329-347). -/
def body (f : V → Text) (p : Elems V) (li lx : Nat) (ls : List Nat) (onlyName vt : Bool) : Option (List Text) :=
  match (List.range p.vals.length).mapM (p.row f) with
  | none => none
  | some rows => some (p.head li lx ls onlyName vt :: rows.map (fun r => render vt li lx ls r.1 r.2.1 r.2.2))

/-- `str(p)`. -/
def str (g f : V → Text) (p : Elems V) (vt : Bool) : Option (List Text) :=
  p.body f p.maxIndex (p.maxValues g) p.lls false vt

end Elems

/-- `lls[i] = max(lls[i], _lls[i])` (param.py:527-531); `none`: `IndexError`. -/
def joinWidths : List Nat → List Nat → Option (List Nat)
  | [], _ => some []
  | _ :: _, [] => none
  | a :: l, b :: m => (joinWidths l m).map (max a b :: ·)

/-- `ParamConcatenation.__str__` (param.py:513-543). `none`: an exception; `max` of nothing is one. -/
def concatStr {V : Type} (g f : V → Text) (vt : Bool) : List (Elems V) → Option (List Text)
  | [] => none
  | p :: ps =>
    let li := ((p :: ps).map Elems.maxIndex).foldl max 0
    let lx := ((p :: ps).map (Elems.maxValues g)).foldl max 0
    match ps.foldlM (fun a q => joinWidths a q.lls) p.lls with
    | none => none
    | some ls =>
      match p.body f li lx ls false vt, ps.mapM (fun q => q.body f li lx ls true vt) with
      | some h, some t => some (h ++ t.flatten)
      | _, _ => none

/-! ### Model: the details of a `Model` -/

/-- The lines with the details (model.py:430-438): `max_len` is the largest length of the *pairs*, which is 2. -/
def details (l : List (Text × Text)) : List Text :=
  let maxLen := (l.map (fun _ => 2)).foldl max 0
  l.map (fun e => ljust maxLen e.1 ++ " : ".toList ++ e.2)

/-! ### Model: html -/

/-- Opening tags, closing tags, and everything else. Simplified: texts are taken as texts, also if there are signs in them
that mean something in html (they are not escaped). -/
inductive Tok
  | op (tag : String)
  | cl (tag : String)
  | tx (t : Text)
  deriving DecidableEq

/-- `[a].join(l)` for tokens. -/
def glue (s : List Tok) : List (List Tok) → List Tok
  | [] => []
  | [a] => a
  | a :: b :: l => a ++ s ++ glue s (b :: l)

/-- `_repr_html_` of a `Parameterized` (parameterized.py:382-413). -/
def Cols.html (t : Cols) (header : Bool) : Option (List Tok) :=
  match (List.range t.names.length).mapM t.row with
  | none => none
  | some rows =>
    let fields := fun (c0 c1 : Text) (cs : List Text) =>
      [[Tok.tx ("  ".toList ++ ljust t.nl c0)], [Tok.tx (rjust t.sl c1)]] ++
        (List.zipWith center t.lls cs).map (fun c => [Tok.tx c])
    let head := if header then [[Tok.op "tr", .op "th", .op "b"] ++
        glue [.cl "b", .cl "th", .op "th", .op "b"] (fields t.name "value".toList (t.iops.map (·.1))) ++
        [.cl "b", .cl "th", .cl "tr"]] else []
    let lines := rows.map (fun r =>
      [Tok.op "tr", .op "td", .tx ("  ".toList ++ ljust t.nl r.1), .cl "td", .op "td", .tx (rjust t.sl r.2.1), .cl "td",
        .op "td"] ++ glue [.cl "td", .op "td"] ((List.zipWith center t.lls r.2.2).map (fun c => [Tok.tx c])) ++
        [.cl "td", .cl "tr"])
    some ([Tok.op "style", .tx [], .cl "style", .tx ['\n'], .op "table"] ++ glue [.tx ['\n']] (head ++ lines) ++
      [.tx ['\n'], .cl "table"])

/-- `_repr_html_` of a `Param` (param.py:275-311). -/
def Elems.html {V : Type} (g f : V → Text) (p : Elems V) : Option (List Tok) :=
  match (List.range p.vals.length).mapM (p.row f) with
  | none => none
  | some rows =>
    let head := [Tok.op "tr", .op "th", .op "b", .tx "index".toList, .cl "b", .cl "th", .op "th", .op "b", .tx p.name, .cl "b",
      .cl "th", .op "th", .op "b"] ++ glue [.cl "b", .cl "th", .op "th", .op "b"] (p.iops.map (fun e => [Tok.tx e.1])) ++
      [.cl "b", .cl "th", .cl "tr"]
    let lines := rows.map (fun r =>
      [Tok.op "tr", .op "td", .tx ("  ".toList ++ ljust p.maxIndex r.1), .cl "td", .op "td",
        .tx (rjust (p.maxValues g) r.2.1), .cl "td"] ++
        (List.zipWith center p.lls r.2.2).flatMap (fun c => [Tok.op "td", .tx c, .cl "td"]) ++ [.cl "tr"])
    some (glue [.tx ['\n']] ([[Tok.op "style", .tx [], .cl "style"], [.op "table"], head] ++ lines))

/-- Specification: reads tokens, with the tags that are open; `none` if a tag is closed that is not the last one opened. -/
def closing : List Tok → List String → Option (List String)
  | [], st => some st
  | .op t :: l, st => closing l (t :: st)
  | .tx _ :: l, st => closing l st
  | .cl _ :: _, [] => none
  | .cl t :: l, u :: st => if t = u then closing l st else none

end Paramz.Layout

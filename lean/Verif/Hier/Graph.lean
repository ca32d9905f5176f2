import Mathlib.Data.List.Sort

/-!
# The object graph of a parameter hierarchy

`Parameterized` and `Param` objects are numbered. This file models the pointers between them
(`_parent_`, `_parent_index_`, `parameters`, `size`) and the walks over them. Recursive python methods
take a step budget here; the budget used is one more than the number of objects, and the theorems show
that it is never exhausted on a forest. (On a cyclic graph python itself recurses until
`RecursionError`.)
-/

namespace Paramz.Hier

/-- Number of an object. -/
abbrev Id := Nat

/-- Pointers of all objects. `leaf` tells a `Param` (no children ever) from a `Parameterized`.
`parent`: `_parent_` (parentable.py:38), `pidx`: `_parent_index_` (parentable.py:39; python's `None`
is an arbitrary number here), `kids`: `parameters` (parameter_core.py:317), `size`: `size`
(parameterized.py:117 for a `Parameterized`, the numpy size for a `Param`). -/
structure Graph where
  next : Nat
  leaf : Id → Bool
  parent : Id → Option Id
  pidx : Id → Nat
  kids : Id → List Id
  size : Id → Nat

/-- Assignment to one attribute of one object. -/
def upd {α : Type} (f : Id → α) (x : Id) (v : α) : Id → α := fun y => if y = x then v else f y

namespace Graph

/-- Budget for the recursive walks: more than the number of objects. -/
def fuel (g : Graph) : Nat := g.next + 1

/-- `_highest_parent_` (parentable.py:62-69). -/
def highestF : Nat → Graph → Id → Id
  | 0, _, x => x
  | n + 1, g, x => match g.parent x with
    | none => x
    | some p => highestF n g p

@[inherit_doc highestF]
def highest (g : Graph) (x : Id) : Id := highestF g.fuel g x

/-- `sum(p.size for p in l)` (parameterized.py:150, 160, 207). -/
def sizeSum (g : Graph) (l : List Id) : Nat := (l.map g.size).sum

/-- `_offset_for` (indexable.py:130-141) of `c` in `a`. `_get_original` (constrainable.py:128-132) is
`self.parameters[param._parent_index_]`; the case of an index beyond the list (`IndexError`) is
raised by the model of `link_parameter`, the only place where it can arise. -/
def offsetForF : Nat → Graph → Id → Id → Nat
  | 0, _, _, _ => 0
  | n + 1, g, a, c => match g.parent c with
    | none => 0
    | some q =>
      let p := ((g.kids q)[g.pidx c]?).getD c
      if p ∈ g.kids a then g.sizeSum ((g.kids a).take (g.pidx p))
      else offsetForF n g a q + offsetForF n g q c

@[inherit_doc offsetForF]
def offsetFor (g : Graph) (a c : Id) : Nat := offsetForF (g.fuel + 1) g a c

/-- An object and everything below it, parents before children, children in list order: the order in
which recursive methods of the form `f(self); for p in self.parameters: p.f()` touch the objects. -/
def subtreeF : Nat → Graph → Id → List Id
  | 0, _, _ => []
  | n + 1, g, x => x :: (g.kids x).flatMap (fun c => subtreeF n g c)

@[inherit_doc subtreeF]
def subtree (g : Graph) (x : Id) : List Id := subtreeF g.fuel g x

/-- The objects met by `parent = self; while parent is not None: …; parent = parent._parent_`
(parameterized.py:173-176, 219-222). -/
def upwardsF : Nat → Graph → Id → List Id
  | 0, _, _ => []
  | n + 1, g, x => x :: match g.parent x with
    | none => []
    | some p => upwardsF n g p

@[inherit_doc upwardsF]
def upwards (g : Graph) (x : Id) : List Id := upwardsF g.fuel g x

end Graph

/-! ### Specification -/

namespace Graph

/-- `y` is `x` or an ancestor of `x`. -/
inductive Anc (g : Graph) (y : Id) : Id → Prop
  | refl : Anc g y y
  | step {p c : Id} : Anc g y p → g.parent c = some p → Anc g y c

/-- `x` is `r` or lies below `r`, and the elements of `x` start at position `n` of the elements of `r`:
the total size of everything before it. -/
inductive At (g : Graph) (r : Id) : Id → Nat → Prop
  | refl : At g r r 0
  | step {p c n : Nat} {A B : List Id} : At g r p n → g.kids p = A ++ c :: B →
      At g r c (n + g.sizeSum A)

/-- The pointers form a forest: children lists and parent pointers agree, no object occurs twice in a
list, `_parent_index_` is the position in the list, and no object is its own ancestor (`depth`). -/
structure Skel (g : Graph) : Prop where
  alloc : ∀ c p, g.parent c = some p → c < g.next ∧ p < g.next
  mem_iff : ∀ c p, c ∈ g.kids p ↔ g.parent c = some p
  nodup : ∀ p, (g.kids p).Nodup
  pidx : ∀ p i c, (g.kids p)[i]? = some c → g.pidx c = i
  leaf : ∀ x, g.leaf x = true → g.kids x = []
  acyclic : ∃ depth : Id → Nat, ∀ c p, g.parent c = some p → depth p < depth c

/-- Every `Parameterized` is as large as its children together. -/
def Sized (g : Graph) : Prop := ∀ x, g.leaf x = false → g.size x = g.sizeSum (g.kids x)

end Graph

end Paramz.Hier

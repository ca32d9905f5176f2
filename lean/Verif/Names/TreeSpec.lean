import Verif.Names.Tree
import Verif.Names.Spec

/-!
# What names in a hierarchy should look like
-/

namespace Paramz.Names

namespace World

/-- `r` is the object without parent at the end of the chain of parents of `x`. -/
inductive Root (w : World) : Id → Id → Prop
  | top {x : Id} : w.parent x = none → Root w x x
  | up {x p r : Id} : w.parent x = some p → Root w p r → Root w x r

/-- The parameters of `p` have pairwise different names, and every parameter has a printable name under which
it is found as an attribute of `p`, unless `p` has an attribute of its own or another parameter with that
printed name. -/
structure Neat (w : World) (p : Id) : Prop where
  names : (w.kids p).Pairwise (fun x y => w.name x ≠ w.name y)
  found : ∀ x ∈ w.kids p, ∃ n, adjust (w.name x) = some n ∧
    (w.own p n = false → (∀ y ∈ w.kids p, adjust (w.name y) = some n → y = x) → w.attrs p n = some x)

/-- The objects of a call exist, and names have no line break. An object that an `unlink_parameter` that raised
has left with its parent but without a place in the parent's list is not renamed. -/
def Admissible (w : World) : Op → Prop
  | .create _ m _ => '\n' ∉ m
  | .finish x _ => x < w.next
  | .link p x _ => p < w.next ∧ x < w.next
  | .unlink p x => p < w.next ∧ x < w.next
  | .rename x new => x < w.next ∧ '\n' ∉ new ∧ ∀ q, w.parent x = some q → x ∈ w.kids q
  | .initialise x => x < w.next
  | .assign p _ => p < w.next

/-- States after any calls, with any recursion depth left for each; calls may raise. -/
inductive Reach : World → Prop
  | empty : Reach World.empty
  | step {w : World} {n : Nat} {op : Op} : Reach w → w.Admissible op → Reach (w.exec n op).1

/-- Calls as in a hierarchy that is built from the bottom: parameters are linked only to objects that have no
parent and are either in their constructor or initialised, and what is linked is not in its constructor; at the
end of its constructor an object is initialised. -/
def BottomUp (w : World) : Op → Prop
  | .link p x _ => w.parent p = none ∧ (w.building p = true ∨ w.inited p = true) ∧ w.building x = false
  | .finish x ini => w.building x = true ∧ ini = true
  | _ => True

/-- States after such calls, none of which raised. -/
inductive Built : World → Prop
  | empty : Built World.empty
  | step {w w' : World} {n : Nat} {op : Op} : Built w → w.Admissible op → w.BottomUp op →
      w.exec n op = (w', none) → Built w'

end World

end Paramz.Names

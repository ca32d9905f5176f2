import Verif.IndexOps.Model

/-!
# Specification of index operations: a relation between properties and positions

`r p i` reads "element `i` carries property `p`".
-/

namespace Paramz.IndexOps

/-- Which elements carry which property. -/
abbrev Rel (P : Type) := P → Nat → Prop

/-- The relation a user sees by reading `x[p]` on the owner of the dictionary. -/
def rel {P : Type} [DecidableEq P] (d : Dict P) : Rel P := fun p i => i ∈ Iop.base.get d p

namespace Spec

variable {P : Type}

/-- Position in the owner's numbering at which a (nested) view starts. -/
def offset : Iop → Nat
  | .base => 0
  | .view u o _ => offset u + o

/-- Local position `i` of the view is inside the window of the view and of every enclosing view. -/
def visible : Iop → Nat → Prop
  | .base, _ => True
  | .view u o s, i => i < s ∧ visible u (i + o)

/-- Absolute position `j` lies in the view's window. -/
def covers (v : Iop) (j : Nat) : Prop := ∃ i, visible v i ∧ j = i + offset v

/-- Add pairs. -/
def add (r : Rel P) (p : P) (I : Nat → Prop) : Rel P := fun q j => r q j ∨ (q = p ∧ I j)

/-- Delete pairs. -/
def remove (r : Rel P) (p : P) (I : Nat → Prop) : Rel P := fun q j => r q j ∧ ¬ (q = p ∧ I j)

/-- Open a gap of `n` positions at `s`. -/
def openGap (r : Rel P) (s n : Nat) : Rel P := fun q j =>
  (j < s ∧ r q j) ∨ (s + n ≤ j ∧ r q (j - n))

/-- Cut out `n` positions at `s` and close the gap. -/
def closeGap (r : Rel P) (s n : Nat) : Rel P := fun q j =>
  (j < s ∧ r q j) ∨ (s ≤ j ∧ r q (j + n))

/-- What each call is meant to do to the relation. -/
def step (r : Rel P) : Op P → Rel P
  | .add v p ind => add r p (fun j => ∃ i ∈ ind, j = i + offset v)
  | .remove v p ind => remove r p (fun j => ∃ i ∈ ind, j = i + offset v)
  | .clear v => fun q j => r q j ∧ ¬ covers v j
  | .shiftRight v s n => openGap r (s + offset v) n
  | .shiftLeft v s n => closeGap r (s + offset v) n
  | .update v its o => fun q j => r q j ∨ ∃ a, (q, a) ∈ its ∧ ∃ i ∈ a, j = i + o + offset v
  | .getItem _ _ => r
  | .delItem v p => remove r p (fun j => covers v j)

/-- A history of calls on the relation. -/
def run (r : Rel P) (ops : List (Op P)) : Rel P := ops.foldl step r

end Spec

end Paramz.IndexOps

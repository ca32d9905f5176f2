import Verif.Ravel.Model

/-!
# Row-major positions
-/

namespace Paramz.Ravel

/-- The number of elements. -/
def size (sh : List Nat) : Nat := sh.prod

/-- `idx` is a multi-index of the shape. -/
def InShape : List Nat → List Nat → Prop
  | [], [] => True
  | n :: sh, i :: idx => i < n ∧ InShape sh idx
  | _, _ => False

/-- The row-major position of a multi-index: as digits of a number with bases given by the shape. -/
def position : List Nat → List Nat → Nat
  | _ :: sh, i :: idx => i * size sh + position sh idx
  | _, _ => 0

/-- The index tuple fits the shape: not longer, positions in range, integer arrays of one length. -/
def Fits (B : Nat) : List Sel → List Nat → Prop
  | [], _ => True
  | .one i :: s, n :: sh => i < n ∧ Fits B s sh
  | .many ps :: s, n :: sh => (∀ p ∈ ps, p < n) ∧ Fits B s sh
  | .adv l :: s, n :: sh => l.length = B ∧ (∀ p ∈ l, p < n) ∧ Fits B s sh
  | _ :: _, [] => False

/-- For tuples of integers and slices: the multi-index is selected if it is on every axis. -/
def Selected : List Sel → List Nat → Prop
  | [], _ => True
  | .one i :: s, j :: idx => j = i ∧ Selected s idx
  | .many ps :: s, j :: idx => j ∈ ps ∧ Selected s idx
  | _, _ => False

end Paramz.Ravel

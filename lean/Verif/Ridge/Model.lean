import Mathlib.Data.Real.Basic
import Mathlib.Data.Real.Sign
import Mathlib.Algebra.BigOperators.Group.Finset.Basic
import Mathlib.Data.Fintype.BigOperators

/-!
# The example model: ridge regression

Source: `paramz/examples/ridge_regression.py`. Arrays are functions on `Fin n × Fin d`; numbers are real
numbers (no rounding). The cache in front of the basis functions is left out (C09-C14).
-/

namespace Paramz.Ridge

open Finset

/-- A matrix with `n` rows and `d` columns. -/
abbrev Mat (n d : Nat) := Fin n → Fin d → ℝ

/-- `basis.basis(X, i)` for all numbers of rows (ridge_regression.py:124-135). -/
abbrev Basis (D d : Nat) := (m : Nat) → Mat m d → Fin (D + 1) → Mat m d

/-- `Polynomial.basis` (ridge_regression.py:141-142). -/
def polynomial (D d : Nat) : Basis D d := fun _ X i s j => X s j ^ (i : Nat)

/-- The regularisers there are (ridge_regression.py:177-191). -/
inductive Reg
  | ridge
  | lasso

/-- `self.weights**2` or `np.abs(self.weights)`, for one element. -/
noncomputable def Reg.penalty : Reg → ℝ → ℝ
  | .ridge, x => x ^ 2
  | .lasso, x => |x|

/-- `2*self.weights` or `np.sign(self.weights)`, for one element. -/
noncomputable def Reg.slope : Reg → ℝ → ℝ
  | .ridge, x => 2 * x
  | .lasso, x => Real.sign x

/-- The data and settings: `n` samples, `d` inputs, `p` outputs, degree `D`. -/
structure Data (n d p D : Nat) where
  X : Mat n d
  Y : Mat n p
  basis : Basis D d
  reg : Reg
  lam : ℝ

/-- What the model holds: the weights, their gradient, `regularizer.error`, `_obj`. -/
structure State (d D : Nat) where
  w : Mat (D + 1) d
  grad : Mat (D + 1) d
  error : Fin (D + 1) → ℝ
  obj : ℝ

variable {n d p D : Nat}

/-- `regularizer.parameters_changed()`, that is `update_error()` (ridge_regression.py:170-191). -/
noncomputable def updateError (M : Data n d p D) (s : State d D) : State d D :=
  { s with error := fun i => M.lam * ∑ j, M.reg.penalty (s.w i j),
           grad := fun i j => M.lam * M.reg.slope (s.w i j) }

/-- `sum(_phi(X, i).dot(weights[[i], :].T))`: one column (ridge_regression.py:78-83, 98-104). -/
def outer (M : Data n d p D) {m : Nat} (X : Mat m d) (w : Mat (D + 1) d) (s : Fin m) : ℝ :=
  ∑ i, ∑ j, M.basis m X i s j * w i j

/-- `predict` (ridge_regression.py:98-104). -/
def predict (M : Data n d p D) {m : Nat} (X : Mat m d) (w : Mat (D + 1) d) (s : Fin m) : ℝ := outer M X w s

/-- `phi` (ridge_regression.py:57-75), with all degrees. -/
def phi (M : Data n d p D) {m : Nat} (X : Mat m d) (w : Mat (D + 1) d) (i : Fin (D + 1)) (s : Fin m) (j : Fin d) : ℝ :=
  M.basis m X i s j * w i j

/-- `self.Y - tmp_outer` (ridge_regression.py:85): the column is subtracted from every column of `Y`. -/
def resid (M : Data n d p D) (w : Mat (D + 1) d) (s : Fin n) (c : Fin p) : ℝ := M.Y s c - outer M M.X w s

/-- `tmp_outer*tmp_X` (ridge_regression.py:92) broadcasts columns: with one output it goes to every input, with
as many outputs as inputs column by column. Anything else raises `ValueError` (with one input and more outputs
when the sum is subtracted from a row with one element). -/
def column (p d : Nat) (j : Fin d) : Option (Fin p) :=
  if h : p = 1 then some ⟨0, by omega⟩
  else if h : p = d then some ⟨j, by omega⟩
  else none

/-- `model.parameters_changed()` (ridge_regression.py:77-93). `none` is `ValueError`. -/
noncomputable def paramsChanged (M : Data n d p D) (s : State d D) : Option (State d D) :=
  if p = 1 ∨ p = d then
    some { s with
      grad := fun i j => s.grad i j - 2 * ∑ r, (match column p d j with
        | some c => resid M s.w r c * M.basis n M.X i r j
        | none => 0),
      obj := (∑ r, ∑ c, resid M s.w r c ^ 2) + ∑ i, s.error i }
  else none

/-- An update of everything: first the regulariser, then the model (parameter_core.py:126-134; for a change of
the weights the notification goes to the regulariser, then to the model: C37, C38). -/
noncomputable def updateAll (M : Data n d p D) (s : State d D) : Option (State d D) := paramsChanged M (updateError M s)

/-- What a user does: set weights (any way that notifies), `m.trigger_update()` or anything below the model and
the regulariser, and `m.basis.trigger_update()`, which updates the basis (nothing to do) and then the model. -/
inductive Op (d D : Nat)
  | set (w : Mat (D + 1) d)
  | trigger
  | triggerBasis

noncomputable def step (M : Data n d p D) (s : State d D) : Op d D → Option (State d D)
  | .set w => updateAll M { s with w := w }
  | .trigger => updateAll M s
  | .triggerBasis => paramsChanged M s

/-- `Regularizer.init` (ridge_regression.py:152-168): row `i` is `i / basis(i, i)`. -/
noncomputable def initWeights (M : Data n d p D) : Mat (D + 1) d := fun i j =>
  (i : ℝ) / M.basis 1 (fun _ _ => (i : ℝ)) i 0 j

/-- The constructor: everything is updated once at the end. -/
noncomputable def new (M : Data n d p D) : Option (State d D) :=
  updateAll M ⟨initWeights M, fun _ _ => 0, fun _ => 0, 0⟩

/-- A history. -/
noncomputable def run (M : Data n d p D) (s : State d D) : List (Op d D) → Option (State d D)
  | [] => some s
  | o :: l => (step M s o).bind (fun s => run M s l)

end Paramz.Ridge

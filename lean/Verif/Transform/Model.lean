import Mathlib.Analysis.SpecialFunctions.Log.Deriv
import Mathlib.Analysis.SpecialFunctions.Pow.Real
import Mathlib.Analysis.SpecialFunctions.ExpDeriv
import Mathlib.Analysis.Complex.ExponentialBounds

/-!
# Model of `transformations.py` over the real numbers

Each method acts on numpy arrays element by element; the model is the action on one element.
Floating point numbers are idealised to real numbers. `none` stands for a result that is not a finite
number (`nan`, `inf`, `-inf`), so that `log` of a non-positive number is never silently given a value.
-/

noncomputable section

namespace Paramz.Transform

/-- `np.finfo(np.float64).max`. -/
def maxFloat : ℝ := (2 - 2⁻¹ ^ 52) * 2 ^ 1023

/-- `_log_lim_val` (transformations.py:40). -/
def logLim : ℝ := Real.log maxFloat

/-- `_lim_val` (transformations.py:42). -/
def lim : ℝ := 36

/-- `np.log`: finite on positive numbers only. -/
def npLog (x : ℝ) : Option ℝ := if 0 < x then some (Real.log x) else none

/-- `np.sqrt`: `nan` on negative numbers. -/
def npSqrt (x : ℝ) : Option ℝ := if 0 ≤ x then some (Real.sqrt x) else none

/-- `a / b` where the quotient is finite. -/
def npDiv (a b : ℝ) : Option ℝ := if b = 0 then none else some (a / b)

/-- `np.expm1`. -/
def expm1 (x : ℝ) : ℝ := Real.exp x - 1

/-- `np.log1p` at non-negative arguments. -/
def log1p (x : ℝ) : ℝ := Real.log (1 + x)

/-- `np.clip(x, a, b)`. -/
def clip (x a b : ℝ) : ℝ := min (max x a) b

/-- `np.clip(x, a, np.inf)`. -/
def clipBelow (x a : ℝ) : ℝ := max x a

/-- The transformations of the module (transformations.py:105-220). `Logistic` carries its bounds. -/
inductive Tr
  | logexp | exponent | negLogexp | negExponent | square
  | logistic (lower upper : ℝ)

/-! ### `Logexp` (transformations.py:105-125) -/

/-- `Logexp.f` (107-108). -/
def logexpF (x : ℝ) : ℝ := if x > lim then x else log1p (Real.exp (clip x (-logLim) lim))

/-- `Logexp.finv` (110-111). `np.where` evaluates both branches and selects. -/
def logexpFinv (y : ℝ) : Option ℝ := if y > lim then some y else npLog (expm1 y)

/-- `Logexp.gradfactor` (112-113). -/
def logexpGrad (y df : ℝ) : ℝ := df * (if y > lim then 1 else - expm1 (-y))

/-- `Logexp.initialize` (114-117). -/
def logexpInit (y : ℝ) : ℝ := |y|

/-- `Logexp.log_jacobian` (118-119). -/
def logexpLogJac (y : ℝ) : Option ℝ :=
  if y > lim then some (y - y) else (npLog (expm1 y)).map (· - y)

/-- `Logexp.log_jacobian_grad` (120-121). -/
def logexpLogJacGrad (y : ℝ) : Option ℝ := npDiv 1 (expm1 y)

/-! ### `Exponent` (transformations.py:125-143) -/

/-- `Exponent.f` (127-128). -/
def exponentF (x : ℝ) : ℝ :=
  if x < lim then (if x > -lim then Real.exp x else Real.exp (-lim)) else Real.exp lim

/-- `Exponent.finv` (129-130). -/
def exponentFinv (y : ℝ) : Option ℝ := npLog y

/-- `Exponent.gradfactor` (131-132). -/
def exponentGrad (y df : ℝ) : ℝ := df * y

/-- `Exponent.initialize` (133-136). -/
def exponentInit (y : ℝ) : ℝ := |y|

/-- `Exponent.log_jacobian` (137-138). -/
def exponentLogJac (y : ℝ) : Option ℝ := npLog y

/-- `Exponent.log_jacobian_grad` (139-140). -/
def exponentLogJacGrad (y : ℝ) : Option ℝ := npDiv 1 y

/-! ### `Logistic` (transformations.py:184-220) -/

/-- `Logistic.f` (204-208): arguments below -300 are raised to -300. -/
def logisticF (l u x : ℝ) : ℝ :=
  let x := if x < -300 then -300 else x
  l + (u - l) / (1 + Real.exp (-x))

/-- `Logistic.finv` (209-210). -/
def logisticFinv (l u y : ℝ) : Option ℝ :=
  npLog (clipBelow (y - l) (1e-10) / clipBelow (u - y) (1e-10))

/-- `Logistic.gradfactor` (211-212). -/
def logisticGrad (l u y df : ℝ) : ℝ := df * ((y - l) * (u - y) / (u - l))

/-- `Logistic.initialize` (213-218). -/
def logisticInit (l u y : ℝ) : ℝ := if y < l ∨ y > u then logisticF l u 0 else y

/-! ### The methods of every class -/

namespace Tr

/-- A constructible transformation: `Logistic.__init__` asserts `lower < upper` (201). -/
def Valid : Tr → Prop
  | logistic l u => l < u
  | _ => True

/-- `f` (107, 127, 147, 160, 173, 204). -/
def f : Tr → ℝ → ℝ
  | logexp, x => logexpF x
  | exponent, x => exponentF x
  | negLogexp, x => - logexpF x
  | negExponent, x => - exponentF x
  | square, x => x ^ 2
  | logistic l u, x => logisticF l u x

/-- `finv` (110, 129, 149, 162, 175, 209). -/
def finv : Tr → ℝ → Option ℝ
  | logexp, y => logexpFinv y
  | exponent, y => exponentFinv y
  | negLogexp, y => logexpFinv (-y)
  | negExponent, y => (exponentFinv (-y)).map (- ·)
  | square, y => npSqrt y
  | logistic l u, y => logisticFinv l u y

/-- `gradfactor` (112, 131, 151, 164, 177, 211). -/
def gradfactor : Tr → ℝ → ℝ → Option ℝ
  | logexp, y, df => some (logexpGrad y df)
  | exponent, y, df => some (exponentGrad y df)
  | negLogexp, y, df => some (logexpGrad (-y) (-df))
  | negExponent, y, df => some (- exponentGrad y df)
  | square, y, df => (npSqrt y).map (fun s => df * (2 * s))
  | logistic l u, y, df => some (logisticGrad l u y df)

/-- `initialize` (114, 133, 153, 166, 179, 213). -/
def init : Tr → ℝ → ℝ
  | logexp, y => logexpInit y
  | exponent, y => exponentInit y
  | negLogexp, y => - logexpInit (-y)
  | negExponent, y => - exponentInit y
  | square, y => |y|
  | logistic l u, y => logisticInit l u y

/-- `log_jacobian` (118, 137; base class 64-69 returns 0; `NegativeExponent` inherits 137). -/
def logJacobian : Tr → ℝ → Option ℝ
  | logexp, y => logexpLogJac y
  | exponent, y => exponentLogJac y
  | negLogexp, _ => some 0
  | negExponent, y => exponentLogJac y
  | square, _ => some 0
  | logistic _ _, _ => some 0

/-- `log_jacobian_grad` (120, 139; base class 70-75; `NegativeExponent` inherits 139). -/
def logJacobianGrad : Tr → ℝ → Option ℝ
  | logexp, y => logexpLogJacGrad y
  | exponent, y => exponentLogJacGrad y
  | negLogexp, _ => some 0
  | negExponent, y => exponentLogJacGrad y
  | square, _ => some 0
  | logistic _ _, _ => some 0

end Tr

end Paramz.Transform

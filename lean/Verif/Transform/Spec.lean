import Verif.Transform.Model

/-!
# What the transformations promise

The constrained domains, the documented clipping limits, and nothing about formulas.
-/

noncomputable section

namespace Paramz.Transform

/-- The constraint a transformation stands for. -/
def Dom : Tr → Set ℝ
  | .logexp => {y | 0 < y}
  | .exponent => {y | 0 < y}
  | .negLogexp => {y | y < 0}
  | .negExponent => {y | y < 0}
  | .square => {y | 0 ≤ y}
  | .logistic l u => {y | l < y ∧ y < u}

/-- The closed domain: what `initialize` may return. -/
def ClosedDom : Tr → Set ℝ
  | .logexp => {y | 0 ≤ y}
  | .exponent => {y | 0 ≤ y}
  | .negLogexp => {y | y ≤ 0}
  | .negExponent => {y | y ≤ 0}
  | .square => {y | 0 ≤ y}
  | .logistic l u => {y | l ≤ y ∧ y ≤ u}

/-- Optimiser values for which no clipping limit is hit. -/
def InLimits : Tr → ℝ → Prop
  | .logexp, x => -logLim ≤ x
  | .exponent, x => -lim ≤ x ∧ x ≤ lim
  | .negLogexp, x => -logLim ≤ x
  | .negExponent, x => -lim ≤ x ∧ x ≤ lim
  | .square, _ => True
  | .logistic _ _, x => -300 ≤ x

/-- Model values for which no clipping limit is hit. -/
def InModelLimits : Tr → ℝ → Prop
  | .logexp, y => maxFloat⁻¹ ≤ y
  | .exponent, y => Real.exp (-lim) ≤ y ∧ y ≤ Real.exp lim
  | .negLogexp, y => maxFloat⁻¹ ≤ -y
  | .negExponent, y => Real.exp (-lim) ≤ -y ∧ -y ≤ Real.exp lim
  | .square, _ => True
  | .logistic l u, y => 1e-10 ≤ y - l ∧ 1e-10 ≤ u - y ∧ Real.exp (-300) * (u - y) ≤ y - l

end Paramz.Transform

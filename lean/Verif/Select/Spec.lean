import Verif.Names.Model
import Verif.Hier.Graph

/-!
# The dotted name of a part of a model, seen from an object above it
-/

namespace Paramz.Select

open Paramz.Hier (Id Graph)
open Paramz.Names (Name adjust)

/-- `s` is the dotted path from `r` (exclusive) down to the object, made of printed names: `rbf.lengthscale`
for the parameter `lengthscale` of the part `rbf` of `r`. -/
inductive Path (g : Graph) (name : Id → Name) (r : Id) : Id → Name → Prop
  | child {c : Id} {a : Name} : g.parent c = some r → adjust (name c) = some a → Path g name r c a
  | step {p c : Id} {s a : Name} : Path g name r p s → g.parent c = some p → adjust (name c) = some a →
      Path g name r c (s ++ '.' :: a)

end Paramz.Select

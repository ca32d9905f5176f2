import Verif.Hier.Graph

/-!
# Model of `traverse` and `traverse_parents`

`marks x` is the private attribute `__visited` of object `x` (parameter_core.py:321).
-/

namespace Paramz.Hier

/-- State of a traversal: the `__visited` marks, the objects `visit` was called on so far (oldest
first), and whether `visit` raised. -/
structure Trav where
  marks : Id → Bool
  trace : List Id
  raised : Bool

namespace Graph

/-- `traverse` and `_traverse` (parameter_core.py:368-392). `bad trace x` tells whether `visit` raises
when called on `x` after the calls in `trace`; an exception leaves every frame at once, so the marks
stay as they are at that moment. The visit function does not change the hierarchy. -/
def traverseF : Nat → Graph → (List Id → Id → Bool) → Trav → Id → Trav
  | 0, _, _, s, _ => s
  | n + 1, g, bad, s, x =>
    if s.raised then s
    else if s.marks x then s
    else if bad s.trace x then { s with trace := s.trace ++ [x], raised := true }
    else
      let s1 := (g.kids x).foldl (fun s c => traverseF n g bad s c)
        { s with trace := s.trace ++ [x], marks := upd s.marks x true }
      if s1.raised then s1 else { s1 with marks := upd s1.marks x false }

@[inherit_doc traverseF]
def traverse (g : Graph) (bad : List Id → Id → Bool) (s : Trav) (x : Id) : Trav :=
  traverseF g.fuel g bad s x

/-- `traverse_parents` (parameter_core.py:395-410). -/
def traverseParentsF : Nat → Graph → (List Id → Id → Bool) → Trav → Id → Trav
  | 0, _, _, s, _ => s
  | n + 1, g, bad, s, x => match g.parent x with
    | none => s
    | some p =>
      let s1 := { s with marks := upd s.marks x true }
      let s2 := traverseParentsF n g bad s1 p
      let s3 := g.traverse bad s2 p
      if s3.raised then s3 else { s3 with marks := upd s3.marks x false }

@[inherit_doc traverseParentsF]
def traverseParents (g : Graph) (bad : List Id → Id → Bool) (s : Trav) (x : Id) : Trav :=
  traverseParentsF g.fuel g bad s x

end Graph

end Paramz.Hier

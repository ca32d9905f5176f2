import Verif.Hier.CopyLemmas
import Verif.Hier.TravProps

/-!
# C100: the drawing of a model

Source: `paramz/parameterized.py:450-501` (`Parameterized.build_pydot`), `paramz/param.py:349-389` (`Param.build_pydot`),
`paramz/core/lists_and_dicts.py:135-138` (iteration over observers). The library `pydot` is taken to work as follows: a node
is known by its name, here the identity of the object; `add_node` does nothing when there is a node of that name;
`add_edge` adds an edge even if there is one already.
-/

namespace Paramz.Drawing

open Hier (Id Graph)

/-- `shape` of a node: `'box'`, `'trapezium'`, or not given (which `pydot` draws as an ellipse). -/
inductive Shape
  | box
  | trapezium
  | plain
  deriving DecidableEq

/-- `pydot.Node(id, shape=…, label=…)`. -/
structure Node (L : Type) where
  id : Id
  shape : Shape
  label : L
  deriving DecidableEq

/-- `pydot.Edge(src, dst)`, black, or orange (`color='darkorange2'`). -/
structure Edge where
  src : Id
  dst : Id
  orange : Bool
  deriving DecidableEq

/-- `pydot.Dot`: nodes and edges in the order in which they were added. -/
structure Picture (L : Type) where
  nodes : List (Node L)
  edges : List Edge

namespace Picture

variable {L : Type}

/-- `pydot.Dot(graph_type='digraph')`. -/
def empty : Picture L := ⟨[], []⟩

/-- `G.add_node(node)`; also `if str(id(o)) not in G.obj_dict['nodes']: G.add_node(…)` (parameterized.py:494-495,
param.py:384-385). -/
def addNode (p : Picture L) (v : Node L) : Picture L :=
  if v.id ∈ p.nodes.map (·.id) then p else ⟨p.nodes ++ [v], p.edges⟩

/-- `G.add_edge(edge)`. -/
def addEdge (p : Picture L) (e : Edge) : Picture L := ⟨p.nodes, p.edges ++ [e]⟩

end Picture

variable {L : Type}

/-- The shape an object draws itself with (parameterized.py:484, param.py:379). -/
def own (g : Graph) (x : Id) : Shape := if g.leaf x then .trapezium else .box

/-- `for _, o, _ in self.observers: …` (parameterized.py:491-497, param.py:381-387). `obs`: the observers that are alive, once
for every registration. `label`: the name of an object, or what `str` makes of it. -/
def drawObservers (obs : Id → List Id) (label : Id → L) (p : Picture L) (x : Id) : Picture L :=
  (obs x).foldl (fun p o => (p.addNode ⟨o, .plain, label o⟩).addEdge ⟨x, o, true⟩) p

/-- `x.build_pydot(G)` (parameterized.py:484-497, param.py:379-387); the number bounds the depth. -/
def drawF (g : Graph) (obs : Id → List Id) (label : Id → L) : Nat → Picture L → Id → Picture L
  | 0, p, _ => p
  | n + 1, p, x =>
    let p1 := p.addNode ⟨x, own g x, label x⟩
    let p2 := if g.leaf x then p1
      else (g.kids x).foldl (fun p c => (drawF g obs label n p c).addEdge ⟨x, c, false⟩) p1
    drawObservers obs label p2 x

/-- `x.build_pydot()` (parameterized.py:479-500). A `Param` must be given a picture: without, `TypeError` (param.py:349). -/
def build (g : Graph) (obs : Id → List Id) (label : Id → L) (x : Id) : Option (Picture L) :=
  if g.leaf x then none else some (drawF g obs label g.fuel .empty x)

end Paramz.Drawing

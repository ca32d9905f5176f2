import Verif.Mem.Twins
import Verif.Opt.Coherence

/-!
# A model is the list of its `Param`s (C93): specification, model and lemmas

Source: `paramz/model.py:65-116, 225-282`, `paramz/core/parameter_core.py:66-152`, `paramz/core/constrainable.py:52-165`,
`paramz/core/observable_array.py:117-119`, `paramz/parameterized.py:311-330`. The hierarchy and its memory are those of
`Verif.Mem`, the optimiser's array that of `Verif.Opt`. Updates are on, evaluations do not raise.
-/

set_option linter.unusedSectionVars false

namespace Paramz.Memory

open Hier (Id Graph Heap Con upd upd_same upd_ne)
open Hier.Heap (Target Hits)
open Hier.Graph (Skel Sized At Anc)
open Opt (Ops flattened)
open Print (InOrder)

/-! ### Calls -/

/-- A call on a model or on something inside it. `P`: how the place is given. `assign`: every element of the place gets
`v`. `put`: the elements of a whole `Param` get `vs`. `values`: look at the values. `read`: look at `optimizer_array`.
`set`: assign to it. `optimize`: run an optimiser, which is told where to start. -/
inductive Deed (P V T W : Type)
  | assign (x : P) (v : V)
  | put (x : P) (vs : List V)
  | constrain (x : P) (t : T)
  | unconstrain (x : P) (ts : List (Con T))
  | fix (x : P)
  | unfix (x : P)
  | values
  | read
  | set (p : List V)
  | optimize (p : List V → Prog V W)

/-- The same call with its place given in another way. -/
def Deed.map {P Q V T W : Type} (f : P → Q) : Deed P V T W → Deed Q V T W
  | .assign x v => .assign (f x) v
  | .put x vs => .put (f x) vs
  | .constrain x t => .constrain (f x) t
  | .unconstrain x ts => .unconstrain (f x) ts
  | .fix x => .fix (f x)
  | .unfix x => .unfix (f x)
  | .values => .values
  | .read => .read
  | .set p => .set p
  | .optimize p => .optimize p

/-- What a call shows: nothing, an array, or what the optimiser asked and was answered and its `x_opt` (`none`: nothing
to optimise). -/
inductive Shown (V W : Type)
  | nothing
  | array (l : List V)
  | run (e : Option (List (Query V × Answer V W) × List V))
deriving DecidableEq

/-! ### Specification: sheets -/

/-- An element: its value, its transformation, and whether it is fixed. -/
structure Cell (V T : Type) where
  val : V
  tr : Option T
  fixed : Bool
deriving DecidableEq

namespace Cell

variable {V T : Type} [DecidableEq T]

/-- The value in optimiser space. -/
def out (o : Ops V T) (c : Cell V T) : V :=
  match c.tr with
  | none => c.val
  | some t => o.finv t c.val

/-- The cell when the optimiser sets it to `x`. -/
def enter (o : Ops V T) (x : V) (c : Cell V T) : Cell V T :=
  match c.tr with
  | none => { c with val := x }
  | some t => { c with val := o.f t x }

/-- The gradient `d` in optimiser space. -/
def scale (o : Ops V T) (c : Cell V T) (d : V) : V :=
  match c.tr with
  | none => d
  | some t => o.gradfactor t c.val d

/-- The cell without the constraints `ts`, or without any if `ts` is empty. -/
def drop (ts : List (Con T)) (c : Cell V T) : Cell V T :=
  { val := c.val
    tr := c.tr.filter (fun t => !(decide (ts = []) || decide (Con.tr t ∈ ts)))
    fixed := c.fixed && !(decide (ts = []) || decide (Con.fixed ∈ ts)) }

end Cell

/-- The cells of one `Param` after the other. -/
abbrev Sheet (V T : Type) := List (List (Cell V T))

/-- A set of cells: `Param` number `q`, element `i`. -/
abbrev Spots := Nat → Nat → Bool

namespace Sheet

variable {V T W : Type} [DecidableEq T]

/-- Change the cells of a set; the change may depend on the number of the element. -/
def change (w : Spots) (φ : Nat → Cell V T → Cell V T) (S : Sheet V T) : Sheet V T :=
  S.mapIdx (fun q P => P.mapIdx (fun i c => if w q i then φ i c else c))

/-- How many cells of a row are free. -/
def freeIn (P : List (Cell V T)) : Nat := P.countP (fun c => !c.fixed)

/-- How many cells are free. -/
def free (S : Sheet V T) : Nat := (S.map freeIn).sum

/-- Every free cell of a row takes the entry of `p` that has as many entries before it as there are free cells before
the cell. -/
def fillRow (o : Ops V T) (p : List V) (P : List (Cell V T)) : List (Cell V T) :=
  P.mapIdx (fun i c => if c.fixed then c else
    match p[freeIn (P.take i)]? with
    | none => c
    | some x => c.enter o x)

/-- The free cells take the entries of `p`, one after the other. -/
def fill (o : Ops V T) (p : List V) (S : Sheet V T) : Sheet V T :=
  S.mapIdx (fun q P => fillRow o (p.drop (free (S.take q))) P)

/-- The values. -/
def vals (S : Sheet V T) : List V := S.flatten.map (·.val)

/-- The free cells in optimiser space. -/
def outs (o : Ops V T) (S : Sheet V T) : List V := (S.flatten.filter (fun c => !c.fixed)).map (·.out o)

/-- Gradients in optimiser space, of all cells. -/
def scaled (o : Ops V T) (d : List V) (S : Sheet V T) : List V := List.zipWith (·.scale o ·) S.flatten d

/-- Gradients in optimiser space, of the free cells. -/
def grads (o : Ops V T) (d : List V) (S : Sheet V T) : List V :=
  ((S.flatten.zip (S.scaled o d)).filter (fun e => !e.1.fixed)).map (·.2)

/-- The answer to a query: objective and gradients are those of the values. -/
def answer (o : Ops V T) (F : List V → W) (g : List V → List V) (S : Sheet V T) : Query V → Answer V W
  | .objective _ => ⟨some (F S.vals), none, S.flatten.all (fun c => !c.fixed), g S.vals⟩
  | .grads _ => ⟨none, some (S.grads o (g S.vals)), S.flatten.all (fun c => !c.fixed), S.scaled o (g S.vals)⟩
  | .both _ =>
    ⟨some (F S.vals), some (S.grads o (g S.vals)), S.flatten.all (fun c => !c.fixed), S.scaled o (g S.vals)⟩

/-- A run of an optimiser. -/
def run (o : Ops V T) (F : List V → W) (g : List V → List V) :
    Prog V W → Sheet V T → Sheet V T × List (Query V × Answer V W) × List V
  | .done x, S => (S.fill o x, [], x)
  | .ask c k, S =>
    let S1 := S.fill o c.point
    let a := S1.answer o F g c
    let e := run o F g (k a) S1
    (e.1, (c, a) :: e.2.1, e.2.2)

/-- The effect of a call, and what it shows. -/
def exec (o : Ops V T) (F : List V → W) (g : List V → List V) (S : Sheet V T) :
    Deed Spots V T W → Sheet V T × Shown V W
  | .assign w v => (S.change w (fun _ c => { c with val := v }), .nothing)
  | .put w vs => (S.change w (fun i c => { c with val := (vs[i]?).getD c.val }), .nothing)
  | .constrain w t => (S.change w (fun _ c => ⟨o.init t c.val, some t, false⟩), .nothing)
  | .unconstrain w ts => (S.change w (fun _ c => c.drop ts), .nothing)
  | .fix w => (S.change w (fun _ c => { c with fixed := true }), .nothing)
  | .unfix w => (S.change w (fun _ c => { c with fixed := false }), .nothing)
  | .values => (S, .array S.vals)
  | .read => (S, .array (S.outs o))
  | .set p => (S.fill o p, .nothing)
  | .optimize p =>
    if S.flatten.all (·.fixed) then (S, .run none)
    else
      let e := S.run o F g (p (S.outs o))
      (e.1, .run (some e.2))

/-- Many calls. -/
def execs (o : Ops V T) (F : List V → W) (g : List V → List V) :
    List (Deed Spots V T W) → Sheet V T → Sheet V T × List (Shown V W)
  | [], S => (S, [])
  | d :: ds, S =>
    let e := S.exec o F g d
    let e' := execs o F g ds e.1
    (e'.1, e.2 :: e'.2)

end Sheet

/-! ### Model -/

/-- All objects with their memory, and of one model the optimiser's copy and whether it counts as up to date
(`_optimizer_copy_`, `_optimizer_copy_transformed`). -/
structure Box (V T : Type) where
  st : State V T
  copy : Option (List V)
  fresh : Bool

namespace Box

variable {V T W : Type} [DecidableEq T]

/-- What `optimizer_array` of `r` works on. -/
def opt (b : Box V T) (r : Id) : Opt.State V T := ⟨b.st.heap, r, b.st.values r, [], b.copy, b.fresh, true⟩

/-- `r.optimizer_array` (parameter_core.py:66-93). -/
def read (o : Ops V T) (junk : List V) (r : Id) (b : Box V T) : Box V T × List V :=
  let e := (b.opt r).readOpt o junk
  ({ st := { b.st with heap := e.1.heap }, copy := e.1.copy, fresh := e.1.fresh }, e.2)

/-- A change of which `r` is told (parameter_core.py:502-508). -/
def told (b : Box V T) (s : State V T) : Box V T := { st := s, copy := b.copy, fresh := false }

/-- A change of which nobody is told. -/
def quiet (b : Box V T) (s : State V T) : Box V T := { st := s, copy := b.copy, fresh := b.fresh }

/-- A call: assignment (observable_array.py:117-119, parameterized.py:311-330), `constrain` (constrainable.py:138-156),
`unconstrain` (158-165), `fix`, `unfix` (52-83), `optimizer_array` (parameter_core.py:66-124), `optimize`
(model.py:65-116). -/
def exec (spoil : Nat → Nat → V) (o : Ops V T) (F : List V → W) (g : List V → List V) (junk : List V) (r : Id)
    (b : Box V T) : Deed Target V T W → Box V T × Shown V W
  | .assign x v => (b.told (b.st.assignAll spoil x.obj ((x.index b.st.heap).map (fun i => (i, v)))), .nothing)
  | .put x vs => (b.told (b.st.assignAll spoil x.obj ((List.range vs.length).zip vs)), .nothing)
  | .constrain x t => (b.told (b.st.constrainInit spoil o.init x t), .nothing)
  | .unconstrain x ts => (b.quiet (b.st.exec spoil (.heap (.unconstrain x ts))).1, .nothing)
  | .fix x => (b.told (b.st.exec spoil (.heap (.fix x))).1, .nothing)
  | .unfix x => (b.quiet (b.st.exec spoil (.heap (.unfix x))).1, .nothing)
  | .values => (b, .array (b.st.values r))
  | .read => ((b.read o junk r).1, .array (b.read o junk r).2)
  | .set p => (b.told (b.st.setArray spoil o r p), .nothing)
  | .optimize p =>
    if b.st.heap.isFixed r || decide (b.st.heap.size r = 0) then (b, .run none)
    else
      let e := b.read o junk r
      let e' := State.runProg spoil o F g r (p e.2) e.1.st
      (e.1.told e'.1, .run (some e'.2))

/-- Many calls. -/
def execs (spoil : Nat → Nat → V) (o : Ops V T) (F : List V → W) (g : List V → List V) (junk : List V) (r : Id) :
    List (Deed Target V T W) → Box V T → Box V T × List (Shown V W)
  | [], b => (b, [])
  | d :: ds, b =>
    let e := b.exec spoil o F g junk r d
    let e' := execs spoil o F g junk r ds e.1
    (e'.1, e.2 :: e'.2)

end Box

/-! ### The sheet of a model -/

namespace State

variable {V T W : Type} [DecidableEq T] {spoil : Nat → Nat → V}

/-- `c` is element `i` of `y`. -/
structure IsCell (s : State V T) (y : Id) (i : Nat) (c : Cell V T) : Prop where
  val : c.val = s.mem.read y i
  fixed : c.fixed = true ↔ i ∈ s.heap.constraints y .fixed
  tr : ∀ t, c.tr = some t ↔ i ∈ s.heap.constraints y (.tr t)

/-- `P` are the elements of the `Param` `y`. -/
def IsRow (s : State V T) (y : Id) (P : List (Cell V T)) : Prop :=
  P.length = s.heap.size y ∧ ∀ (i : Nat) c, P[i]? = some c → s.IsCell y i c

/-- `S` is the sheet of the model `r`: the elements of its `Param`s. -/
def IsSheet (s : State V T) (r : Id) (S : Sheet V T) : Prop :=
  List.Forall₂ (IsRow s) (flattened s.heap.toGraph r) S

end State

/-- The cells of the sheet of `r` that belong to `x`: those of the `Param`s inside `x`, or some elements of one
`Param`. -/
def spots (G : Graph) (r : Id) (x : Target) : Spots := fun q i =>
  match (flattened G r)[q]?, x.part with
  | none, _ => false
  | some y, none => decide (y ∈ flattened G x.obj)
  | some y, some a => decide (y = x.obj ∧ i ∈ a)

end Paramz.Memory

import Verif.Mem.CutProps

/-!
# A whole program acts on lists of elements (C96): specification, model and lemmas

Source: `paramz/parameterized.py:47-66` (constructors), `128-226` (`link_parameter`, `unlink_parameter`),
`paramz/core/parameter_core.py:66-124` (`optimizer_array`), `326-337` (`initialize_parameter`),
`paramz/param.py:60-98` (`Param`), and the calls of C93. Any number of objects and models. Updates are on, evaluations do
not raise, default constraints are later calls of `constrain`.
-/

set_option linter.unusedSectionVars false

namespace Paramz.Memory

open Hier (Id Graph Heap Con upd upd_same upd_ne)
open Hier.Heap (Target LinkOK insertPos)
open Hier.Graph (Skel Sized At Anc Ins)
open Opt (Ops flattened flattened_eq)

/-! ### Calls -/

/-- A call of the user. `param`: construct a `Param` with these values. `node`: enter the constructor of a
`Parameterized`. `finish`: leave it, initialising or not. `copy`: `x.copy()`. `deed`: a call on the root `r` or on
something inside it. -/
inductive Move (V T W : Type)
  | param (vs : List V)
  | node
  | finish (x : Id) (init : Bool)
  | init (x : Id)
  | link (p x : Id) (index : Option Int)
  | unlink (p x : Id)
  | copy (x : Id)
  | deed (r : Id) (d : Deed Target V T W)

/-- Calls whose effect is confined to the cells of a place. -/
def Deed.Placed {V T W : Type} : Deed Target V T W → Prop
  | .assign _ _ => True
  | .put _ _ => True
  | .constrain _ _ => True
  | .unconstrain _ _ => True
  | .fix _ => True
  | .unfix _ => True
  | _ => False

/-! ### Specification: plans -/

/-- `Param`s are rows of elements, other objects are lists of parameters. Objects are numbered in the order of their
construction. -/
structure Plan (V T : Type) where
  next : Nat
  row : Id → Option (List (Cell V T))
  kids : Id → List Id

namespace Plan

variable {V T W : Type} [DecidableEq T]

/-- No objects. -/
def empty : Plan V T := ⟨0, fun _ => none, fun _ => []⟩

/-- The `Param`s inside `x`; the number bounds the depth. -/
def paramsF (P : Plan V T) : Nat → Id → List Id
  | 0, _ => []
  | n + 1, x => if (P.row x).isSome then [x] else (P.kids x).flatMap (P.paramsF n)

/-- The `Param`s inside `x`, in order. -/
def params (P : Plan V T) (x : Id) : List Id := P.paramsF (P.next + 1) x

/-- Their elements. -/
def sheet (P : Plan V T) (x : Id) : Sheet V T := (P.params x).map (fun y => (P.row y).getD [])

/-- The cells of the sheet of `r` that belong to the place `x`. -/
def spots (P : Plan V T) (r : Id) (x : Target) : Spots := fun q i =>
  match (P.params r)[q]?, x.part with
  | none, _ => false
  | some y, none => decide (y ∈ P.params x.obj)
  | some y, some a => decide (y = x.obj ∧ i ∈ a)

/-- The rows of `S` become the elements of the `Param`s of `r`. -/
def store (P : Plan V T) (r : Id) (S : Sheet V T) : Plan V T :=
  { P with row := fun y => if y ∈ P.params r then S[(P.params r).idxOf y]? else P.row y }

/-- The parameters of `y` other than `x`. -/
def without (P : Plan V T) (x y : Id) : List Id := (P.kids y).filter (· ≠ x)

/-- `x` becomes a parameter of `p`, and of nothing else. -/
def link (P : Plan V T) (p x : Id) (index : Option Int) : Plan V T :=
  let n := place (P.without x p).length index
  { P with kids := upd (P.without x) p ((P.without x p).take n ++ x :: (P.without x p).drop n) }

/-- `x` is no parameter of `p` any more. -/
def unlink (P : Plan V T) (p x : Id) : Plan V T := { P with kids := upd P.kids p (P.without x p) }

/-- `x` and everything inside it; the number bounds the depth. -/
def treeF (P : Plan V T) : Nat → Id → List Id
  | 0, _ => []
  | n + 1, x => x :: (P.kids x).flatMap (P.treeF n)

/-- `x` and everything inside it, in order. -/
def tree (P : Plan V T) (x : Id) : List Id := P.treeF (P.next + 1) x

/-- There is a new object for everything inside `x`, with the elements of its original, or the copies of the parameters of
its original. -/
def copy (P : Plan V T) (x : Id) : Plan V T where
  next := P.next + (P.tree x).length
  row := fun i => if i < P.next then P.row i else ((P.tree x)[i - P.next]?).bind P.row
  kids := fun i => if i < P.next then P.kids i else
    (((P.tree x)[i - P.next]?).elim [] P.kids).map (fun z => P.next + (P.tree x).idxOf z)

/-- The effect of a call, and what it shows. `raised`: `link` or `unlink` raises. -/
def exec (o : Ops V T) (F : List V → W) (g : List V → List V) (raised : Bool) (P : Plan V T) :
    Move V T W → Plan V T × Shown V W
  | .param vs =>
    ({ next := P.next + 1, row := upd P.row P.next (some (vs.map (⟨·, none, false⟩))), kids := upd P.kids P.next [] },
      .nothing)
  | .node => ({ next := P.next + 1, row := upd P.row P.next none, kids := upd P.kids P.next [] }, .nothing)
  | .finish _ _ => (P, .nothing)
  | .init _ => (P, .nothing)
  | .link p x index => (if raised then P else P.link p x index, .nothing)
  | .unlink p x => (if raised then P else P.unlink p x, .nothing)
  | .copy x => (P.copy x, .nothing)
  | .deed r d =>
    let e := (P.sheet r).exec o F g (d.map (P.spots r))
    (P.store r e.1, e.2)

/-- Many calls; with each, whether it raises. -/
def execs (o : Ops V T) (F : List V → W) (g : List V → List V) :
    List (Bool × Move V T W) → Plan V T → Plan V T × List (Shown V W)
  | [], P => (P, [])
  | (b, m) :: ms, P =>
    let e := P.exec o F g b m
    let e' := execs o F g ms e.1
    (e'.1, e.2 :: e'.2)

end Plan

/-! ### Model -/

/-- All objects with their memory, and of every object the optimiser's copy and whether it counts as up to date
(`_optimizer_copy_`, `_optimizer_copy_transformed`). -/
structure World (V T : Type) where
  st : State V T
  copy : Id → Option (List V)
  fresh : Id → Bool

namespace World

variable {V T W : Type} [DecidableEq T]

/-- No objects, memory with arbitrary contents. -/
def empty (cell : Nat → Nat → V) : World V T := ⟨.empty cell, fun _ => none, fun _ => false⟩

/-- What a call on the root `r` works on. -/
def box (w : World V T) (r : Id) : Box V T := ⟨w.st, w.copy r, w.fresh r⟩

/-- What it leaves behind. Simplified: of the objects that are told of the change, only the root `r` forgets that its copy
is up to date; the copies of objects that are inside others are not looked at. -/
def back (w : World V T) (r : Id) (b : Box V T) : World V T := ⟨b.st, upd w.copy r b.copy, upd w.fresh r b.fresh⟩

/-- A call of the hierarchy: nothing happens to the optimiser's copies. -/
def on (w : World V T) (e : State V T × Option Hier.Err) : World V T × Option Hier.Err × Shown V W :=
  ({ w with st := e.1 }, e.2, .nothing)

/-- A call: `Param` (param.py:60-98; memory is allocated, then the values are stored), `Parameterized`
(parameterized.py:47-66), `link_parameter` (128-186), `unlink_parameter` (195-226), `initialize_parameter`
(parameter_core.py:326-337), `copy` (pickleable.py:70-95, parameterized.py:352-361; the optimiser's copy of a
`Parameterized` is made, it is not copied), and the calls of `Box.exec`. With what it raises and what it shows. -/
def exec (spoil : Nat → Nat → V) (o : Ops V T) (F : List V → W) (g : List V → List V) (junk : List V) (w : World V T) :
    Move V T W → World V T × Option Hier.Err × Shown V W
  | .param vs =>
    w.on ((w.st.exec spoil (.heap (.newParam vs.length))).1.assignAll spoil w.st.heap.next
      ((List.range vs.length).zip vs), none)
  | .node => w.on (w.st.exec spoil (.heap .newNode))
  | .finish x i => w.on (w.st.exec spoil (.heap (.finishInit x i)))
  | .init x => w.on (w.st.exec spoil (.heap (.init x)))
  | .link p x index => w.on (w.st.exec spoil (.heap (.link p x index)))
  | .unlink p x => w.on (w.st.exec spoil (.heap (.unlink p x)))
  | .copy x =>
    let b := if w.st.heap.leaf x then w.box x else ((w.box x).read o junk x).1
    (⟨(w.st.copy spoil x).1, upd w.copy x b.copy, upd w.fresh x b.fresh⟩, none, .nothing)
  | .deed r d =>
    let e := (w.box r).exec spoil o F g junk r d
    (w.back r e.1, none, e.2)

/-- Many calls. -/
def execs (spoil : Nat → Nat → V) (o : Ops V T) (F : List V → W) (g : List V → List V) (junk : List V) :
    List (Move V T W) → World V T → World V T × List (Option Hier.Err × Shown V W)
  | [], w => (w, [])
  | m :: ms, w =>
    let e := w.exec spoil o F g junk m
    let e' := execs spoil o F g junk ms e.1
    (e'.1, e.2 :: e'.2)

end World

/-! ### Which programs -/

section

variable {V T W : Type} [DecidableEq T]

/-- The notes (C93) after a call. Copying an object that is no `Param` looks at its array. Linking and unlinking are not announced (C32): the copy of a root whose `Param`s change,
and of the object that is moved, is out of date. -/
def Move.notes (P : Plan V T) (raised : Bool) (N : Id → Notes) : Move V T W → Id → Notes
  | .link p x index => fun r =>
    ⟨(N r).read, (N r).due || ((N r).read && !raised && (decide (r = x) ||
      decide ((P.link p x index).params r ≠ P.params r)))⟩
  | .unlink p x => fun r =>
    ⟨(N r).read, (N r).due || ((N r).read && !raised && (decide (r = x) || decide ((P.unlink p x).params r ≠ P.params r)))⟩
  | .copy x => if (P.row x).isSome then N else upd N x ⟨true, (N x).due⟩
  | .deed r d => upd N r ((N r).next (P.sheet r) d)
  | _ => N

/-- Calls that are used as intended (C35): no `Param` loses its values; calls are made on a root and what is inside it, and
those that need the whole of it on initialised models. -/
def Move.Fits (spoil : Nat → Nat → V) (s : State V T) (P : Plan V T) (N : Id → Notes) : Move V T W → Prop
  | .param _ => True
  | .node => True
  | .finish x i => s.Admissible (.heap (.finishInit x i)) ∧ s.Proper (.heap (.finishInit x i))
  | .init x => s.Admissible (.heap (.init x)) ∧ s.Proper (.heap (.init x))
  | .link p x index => s.Admissible (.heap (.link p x index)) ∧ s.Proper (.heap (.link p x index)) ∧
      ∀ y, y < s.heap.next → s.heap.leaf y = true → ¬ s.AtRisk spoil y (.heap (.link p x index))
  | .unlink p x => s.Proper (.heap (.unlink p x)) ∧
      ∀ y, y < s.heap.next → s.heap.leaf y = true → ¬ s.AtRisk spoil y (.heap (.unlink p x))
  | .copy x => s.heap.CopyOK x ∧ Settled s.heap x
  | .deed r d => r < s.heap.next ∧ s.heap.parent r = none ∧ d.Fits s.heap r (P.sheet r) (N r) ∧ (d.Placed ∨ s.Model r)

/-- Every call of a program fits what the calls before it leave. -/
def AllMovesFit (spoil : Nat → Nat → V) (o : Ops V T) (F : List V → W) (g : List V → List V) (junk : List V) :
    List (Move V T W) → World V T → Plan V T → (Id → Notes) → Prop
  | [], _, _, _ => True
  | m :: ms, w, P, N => m.Fits spoil w.st P N ∧
      let e := w.exec spoil o F g junk m
      AllMovesFit spoil o F g junk ms e.1 (P.exec o F g e.2.1.isSome m).1 (m.notes P e.2.1.isSome N)

end

variable {V T W : Type} [DecidableEq T] {spoil : Nat → Nat → V}

/-- The objects are as the plan says: the same objects, each with the parameters of the plan, and every `Param` with the
values, transformations and fixed elements of the plan. -/
structure Represents (s : State V T) (P : Plan V T) : Prop where
  next : s.heap.next = P.next
  kids : ∀ y, y < P.next → s.heap.kids y = P.kids y
  kind : ∀ y, y < P.next → s.heap.leaf y = (P.row y).isSome
  rows : ∀ y R, y < P.next → P.row y = some R → s.IsRow y R

namespace Represents

open State

variable {s : State V T} {P : Plan V T}

theorem paramsF (h : Path spoil s) (rp : Represents s P) : ∀ n {x : Id}, x < P.next →
    P.paramsF n x = Opt.flattenedF n s.heap.toGraph x
  | 0, _, _ => rfl
  | n + 1, x, hx => by
    have hk := rp.kind x hx
    have hk2 := rp.kids x hx
    simp only [Plan.paramsF, Opt.flattenedF]
    rw [← hk]
    split
    · rfl
    · rw [← hk2]
      refine List.flatMap_congr (fun c hc => rp.paramsF h n ?_)
      rw [← rp.next]
      exact (h.reach.heap.wf.skel.alloc _ _ ((h.reach.heap.wf.skel.mem_iff _ _).mp hc)).1

theorem params (h : Path spoil s) (rp : Represents s P) {x : Id} (hx : x < P.next) :
    P.params x = flattened s.heap.toGraph x := by
  unfold Plan.params flattened
  rw [rp.paramsF h _ hx]
  show Opt.flattenedF (P.next + 1) s.heap.toGraph x = Opt.flattenedF (s.heap.next + 1) s.heap.toGraph x
  rw [rp.next]

theorem sheet (h : Path spoil s) (rp : Represents s P) {r : Id} (hr : r < P.next) : s.IsSheet r (P.sheet r) := by
  unfold IsSheet Plan.sheet
  rw [rp.params h hr]
  have hl : ∀ y ∈ flattened s.heap.toGraph r, y < s.heap.next ∧ s.heap.leaf y = true := fun y hy =>
    flattened_lt h (by rw [rp.next]; exact hr) hy
  generalize flattened s.heap.toGraph r = L at hl
  induction L with
  | nil => exact .nil
  | cons y L ih =>
    refine .cons ?_ (ih (fun z hz => hl z (List.mem_cons_of_mem _ hz)))
    obtain ⟨h1, h2⟩ := hl y List.mem_cons_self
    rw [rp.next] at h1
    rw [rp.kind y h1] at h2
    obtain ⟨R, hR⟩ := Option.isSome_iff_exists.mp h2
    show s.IsRow y ((P.row y).getD [])
    rw [hR]
    exact rp.rows y R h1 hR

theorem spots (h : Path spoil s) (rp : Represents s P) {r : Id} (hr : r < P.next) {x : Target} (hx : x.obj < P.next) :
    P.spots r x = Memory.spots s.heap.toGraph r x := by
  funext q i
  unfold Plan.spots Memory.spots
  rw [rp.params h hr, rp.params h hx]
  rfl

theorem treeF (rp : Represents s P) (w : Skel s.heap.toGraph) : ∀ n {x : Id}, x < P.next →
    P.treeF n x = Graph.subtreeF n s.heap.toGraph x
  | 0, _, _ => rfl
  | n + 1, x, hx => by
    simp only [Plan.treeF, Graph.subtreeF]
    rw [← rp.kids x hx]
    congr 1
    refine List.flatMap_congr (fun c hc => rp.treeF w n ?_)
    rw [← rp.next]
    exact (w.alloc _ _ ((w.mem_iff _ _).mp hc)).1

theorem tree (rp : Represents s P) (w : Skel s.heap.toGraph) {x : Id} (hx : x < P.next) :
    P.tree x = s.heap.toGraph.subtree x := by
  unfold Plan.tree Graph.subtree
  rw [rp.treeF w _ hx, ← rp.next]
  rfl

/-- Nothing changes but the parameters that objects have. -/
theorem rebuilt (rp : Represents s P) {s' : State V T} {P' : Plan V T}
    (hn : s'.heap.next = s.heap.next) (hl : s'.heap.leaf = s.heap.leaf) (e1 : P'.next = P.next) (e2 : P'.row = P.row)
    (hk : ∀ y, y < P.next → s'.heap.kids y = P'.kids y)
    (k : ∀ y, y < P.next → s.heap.leaf y = true → RowKept s s' y) : Represents s' P' := by
  refine ⟨by rw [hn, e1, rp.next], fun y hy => hk y (e1 ▸ hy), fun y hy => ?_, fun y R hy hR => ?_⟩
  · rw [hl, e2, rp.kind y (e1 ▸ hy)]
  · rw [e2] at hR
    rw [e1] at hy
    exact (k y hy (by rw [rp.kind y hy, hR]; rfl)).row (rp.rows y R hy hR)

/-- The elements of the `Param`s of `r` change. -/
theorem stored (h : Path spoil s) (rp : Represents s P) {s' : State V T} (h' : Path spoil s') (e : SameObjs s.heap s'.heap) {r : Id} (hr : r < P.next)
    (hroot : s.heap.parent r = none) {S : Sheet V T} (hS : s'.IsSheet r S)
    (ho : ∀ r2 S2, r2 < P.next → s.heap.parent r2 = none → r2 ≠ r → s.IsSheet r2 S2 → s'.IsSheet r2 S2) :
    Represents s' (P.store r S) ∧ (P.store r S).sheet r = S := by
  have w := h.reach.heap.wf
  have hp := rp.params h hr
  have hg : s'.heap.toGraph = s.heap.toGraph := e.graph
  have hn : s'.heap.next = s.heap.next := congrArg Graph.next hg
  have hlf : ∀ y, s'.heap.leaf y = s.heap.leaf y := fun y => congrFun (congrArg Graph.leaf hg) y
  have hkd : ∀ y, s'.heap.kids y = s.heap.kids y := fun y => congrFun (congrArg Graph.kids hg) y
  have hS2 : List.Forall₂ (IsRow s') (P.params r) S := by rw [hp, ← hg]; exact hS
  obtain ⟨a1, a2⟩ := get_of_forall₂ hS2
  have key : ∀ y, y ∈ P.params r → ∃ R, S[(P.params r).idxOf y]? = some R ∧ s'.IsRow y R := by
    intro y hy
    exact a2 _ y (List.getElem?_idxOf hy)
  have leaves : ∀ y, y ∈ P.params r → (P.row y).isSome = true := by
    intro y hy
    rw [hp] at hy
    obtain ⟨h1, h2⟩ := flattened_lt h (by rw [rp.next]; exact hr) hy
    rw [← rp.kind y (by rw [← rp.next]; exact h1)]
    exact h2
  have rp' : Represents s' (P.store r S) := by
    refine ⟨hn.trans rp.next, fun y hy => (hkd y).trans (rp.kids y hy), fun y hy => ?_, fun y R hy hR => ?_⟩
    · rw [hlf y]
      show _ = (if y ∈ P.params r then S[(P.params r).idxOf y]? else P.row y).isSome
      split
      · rename_i hm
        obtain ⟨R, hR, -⟩ := key y hm
        rw [hR, rp.kind y hy, leaves y hm]
        rfl
      · exact rp.kind y hy
    · have hR : (if y ∈ P.params r then S[(P.params r).idxOf y]? else P.row y) = some R := hR
      split at hR
      · rename_i hm
        obtain ⟨R', hR', hrow⟩ := key y hm
        rw [hR] at hR'
        cases hR'
        exact hrow
      · rename_i hm
        have hy : y < P.next := hy
        have hly : s.heap.leaf y = true := by rw [rp.kind y hy, hR]; rfl
        obtain ⟨r2, h2, ha⟩ := w.skel.exists_root y
        have hlt2 : r2 < s.heap.next := w.skel.anc_lt ha (by rw [rp.next]; exact hy)
        have hmem : y ∈ flattened s.heap.toGraph r2 := ((Print.flattened_inOrder w.skel w.sized r2).all y).mpr ⟨ha, hly⟩
        have hne : r2 ≠ r := by rintro rfl; exact hm (hp ▸ hmem)
        rw [rp.next] at hlt2
        have h3 := ho r2 _ hlt2 h2 hne (rp.sheet h hlt2)
        obtain ⟨k, hk⟩ := List.getElem?_of_mem hmem
        unfold IsSheet at h3
        rw [hg] at h3
        obtain ⟨b1, b2⟩ := get_of_forall₂ h3
        obtain ⟨R2, hR2, hrow⟩ := b2 k y hk
        have : R2 = R := by
          unfold Plan.sheet at hR2
          rw [rp.params h hlt2, List.getElem?_map, hk] at hR2
          have := Option.some.inj hR2
          dsimp only at this
          rw [hR] at this
          exact this.symm
        rw [← this]
        exact hrow
  refine ⟨rp', ?_⟩
  exact IsSheet.unique (rp'.sheet h' hr) hS

end Represents

/-! ### The optimiser's copy -/

namespace Box

open State

/-- The optimiser's copy should be the elements of the sheet in optimiser space. -/
theorem optCopy_sheet {o : Ops V T} {b : Box V T} {r : Id} (h : Path spoil b.st) (m : b.st.Model r) {S : Sheet V T}
    (hS : b.st.IsSheet r S) : Opt.optCopy o (b.opt r) = S.flatten.map (·.out o) := by
  have hf := hS.flat h m
  obtain ⟨l1, h1⟩ := Opt.optCopy_spec o (ready (b := b) h m).toHeld
  have l1 : (Opt.optCopy o (b.opt r)).length = b.st.heap.size r := l1
  refine List.ext_getElem (by rw [l1, List.length_map, hf.1]) (fun i h2 h3 => ?_)
  rw [l1] at h2
  obtain ⟨c, hc, hcell⟩ := hf.get h2
  have hv : (b.opt r).vals[i]? = some c.val := by
    show (b.st.values r)[i]? = _
    rw [values_get h2, hcell.val]
  obtain ⟨w, hw, v1, v2⟩ := h1 i c.val hv
  have e1 : w = c.out o := cell_out hcell v1 v2
  have e2 : (S.flatten.map (·.out o))[i]? = some (c.out o) := by rw [List.getElem?_map, hc]; rfl
  rw [← e1] at e2
  exact Option.some.inj ((List.getElem?_eq_getElem _).symm.trans (hw.trans (e2.symm.trans (List.getElem?_eq_getElem _))))

end Box

/-! ### Parameters after linking and unlinking -/

namespace State

theorem without_ins {G G' : Graph} {p x : Id} {A B : List Id} (s : Skel G) (i : Ins G G' p x A B) (y : Id) :
    (G'.kids y).filter (· ≠ x) = G.kids y := by
  have hx : ∀ z, x ∉ G.kids z := fun z hz => by
    have := (s.mem_iff _ _).mp hz
    rw [i.root] at this
    cases this
  have hall : ∀ l : List Id, x ∉ l → l.filter (· ≠ x) = l := fun l hl =>
    List.filter_eq_self.mpr (fun a ha => decide_eq_true (fun e => hl (e ▸ ha)))
  by_cases hy : y = p
  · subst hy
    have h0 := hx y
    rw [i.kids_p] at h0 ⊢
    rw [i.kids_p', List.filter_append, List.filter_cons_of_neg (by simp), ← List.filter_append]
    exact hall _ h0
  · rw [i.kids_ne y hy]
    exact hall _ (hx y)

end State

end Paramz.Memory

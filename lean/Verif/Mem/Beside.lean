import Verif.Mem.AlikeProps
import Verif.Mem.Refuse

/-!
# Programs do not disturb each other (C98, C102): specification and lemmas

Source: as for C96 (`paramz/parameterized.py:47-277`, `paramz/core/parameter_core.py:66-124, 326-350, 368-392`,
`paramz/core/pickleable.py:70-95`). Nothing is modelled anew.
-/

set_option linter.unusedSectionVars false

namespace Paramz.Memory

open Hier (Id Graph Heap Con upd upd_same upd_ne)
open Hier.Heap (Target LinkOK insertPos)
open Hier.Graph (Skel Sized At Anc Ins)
open Opt (Ops flattened flattened_eq flattenedF flattenedF_stable)
open State

variable {V T W : Type} [DecidableEq T] {spoil spoil' : Nat → Nat → V}

/-! ### Specification -/

/-- `f` takes the objects `D` of one program to objects of another: one to one, parameters to parameters in the same order,
`Param`s to `Param`s with the same values, constraints and fixed elements. `D` are whole models, and what they are
taken to are whole models too. -/
structure Match (s s' : State V T) (D : Id → Prop) (f : Id → Id) : Prop where
  lt : ∀ y, D y → y < s.heap.next
  lt' : ∀ y, D y → f y < s'.heap.next
  apart : ∀ y z, D y → D z → f y = f z → y = z
  kind : ∀ y, D y → s'.heap.leaf (f y) = s.heap.leaf y
  kids : ∀ y, D y → s'.heap.kids (f y) = (s.heap.kids y).map f
  elements : ∀ y R, D y → s.heap.leaf y = true → (s.IsRow y R ↔ s'.IsRow (f y) R)
  inner : ∀ y z, D y → z ∈ s.heap.kids y → D z
  outer : ∀ q z, D z → z ∈ s.heap.kids q → D q
  outer' : ∀ q z, D z → f z ∈ s'.heap.kids q → ∃ p, D p ∧ f p = q

/-- The same call on other objects. -/
def Move.across (f : Id → Id) : Move V T W → Move V T W
  | .param vs => .param vs
  | .node => .node
  | .finish x i => .finish (f x) i
  | .init x => .init (f x)
  | .link p x i => .link (f p) (f x) i
  | .unlink p x => .unlink (f p) (f x)
  | .copy x => .copy (f x)
  | .deed r d => .deed (f r) (d.map (Memory.across f))

/-- The call is on objects of `D`. -/
def Move.Of (D : Id → Prop) : Move V T W → Prop
  | .param _ => True
  | .node => True
  | .finish x _ => D x
  | .init x => D x
  | .link p x _ => D p ∧ D x
  | .unlink p x => D p ∧ D x
  | .copy x => D x
  | .deed r _ => D r

/-- The call changes none of the objects of `D`: it makes or copies objects, or is on others. -/
def Move.Beside (D : Id → Prop) : Move V T W → Prop
  | .link p x _ => ¬ D p ∧ ¬ D x
  | .unlink p x => ¬ D p ∧ ¬ D x
  | .deed r _ => ¬ D r
  | _ => True

/-- `D` and the objects from `n` up to `m`. -/
def more (D : Id → Prop) (n m : Nat) : Id → Prop := fun y => D y ∨ (n ≤ y ∧ y < m)

/-- `f`, and the objects from `n` on to those from `n'` on. -/
def ahead (f : Id → Id) (n n' : Nat) : Id → Id := fun y => if n ≤ y then n' + (y - n) else f y

/-- Two programs, started in `w` and `w'`, that share the calls marked `true`: they make the same calls on the objects
`D`, which are those that `f` says in the second program, and on those made since by shared calls. Everything else is
beside. -/
inductive Share (spoil spoil' : Nat → Nat → V) (o : Ops V T) (F : List V → W) (g : List V → List V) (junk junk' : List V) :
    (Id → Prop) → (Id → Id) → World V T → World V T → List (Bool × Move V T W) → List (Bool × Move V T W) → Prop
  | nil {D f w w'} : Share spoil spoil' o F g junk junk' D f w w' [] []
  | both {D f w w' ks ks'} (m : Move V T W) : m.Of D →
      Share spoil spoil' o F g junk junk' (more D w.st.heap.next (w.exec spoil o F g junk m).1.st.heap.next)
        (ahead f w.st.heap.next w'.st.heap.next) (w.exec spoil o F g junk m).1 (w'.exec spoil' o F g junk' (m.across f)).1 ks ks' →
      Share spoil spoil' o F g junk junk' D f w w' ((true, m) :: ks) ((true, m.across f) :: ks')
  | left {D f w w' ks ks'} (m : Move V T W) : m.Beside D →
      Share spoil spoil' o F g junk junk' D f (w.exec spoil o F g junk m).1 w' ks ks' →
      Share spoil spoil' o F g junk junk' D f w w' ((false, m) :: ks) ks'
  | right {D f w w' ks ks'} (m : Move V T W) : m.Beside (fun z => ∃ y, D y ∧ f y = z) →
      Share spoil spoil' o F g junk junk' D f w (w'.exec spoil' o F g junk' m).1 ks ks' →
      Share spoil spoil' o F g junk junk' D f w w' ks ((false, m) :: ks')

/-- Of the shared calls: whether they raise, and what they show. -/
def sharedAnswers : List (Bool × Move V T W) → List (Option Hier.Err × Shown V W) → List (Bool × Shown V W)
  | (true, _) :: ks, e :: es => (e.1.isSome, e.2) :: sharedAnswers ks es
  | (false, _) :: ks, _ :: es => sharedAnswers ks es
  | _, _ => []

/-! ### Plans -/

/-- The same on plans. -/
structure PMatch (P P' : Plan V T) (D : Id → Prop) (f : Id → Id) : Prop where
  lt : ∀ y, D y → y < P.next
  lt' : ∀ y, D y → f y < P'.next
  apart : ∀ y z, D y → D z → f y = f z → y = z
  row : ∀ y, D y → P'.row (f y) = P.row y
  kids : ∀ y, D y → P'.kids (f y) = (P.kids y).map f
  inner : ∀ y z, D y → z ∈ P.kids y → D z
  outer : ∀ q z, q < P.next → D z → z ∈ P.kids q → D q
  outer' : ∀ q z, q < P'.next → D z → f z ∈ P'.kids q → ∃ p, D p ∧ f p = q

theorem Match.plan {s s' : State V T} {P P' : Plan V T} {D : Id → Prop} {f : Id → Id} (a : Match s s' D f)
    (rp : Represents s P) (rp' : Represents s' P') : PMatch P P' D f := by
  have lt : ∀ y, D y → y < P.next := fun y hy => by rw [← rp.next]; exact a.lt y hy
  have lt' : ∀ y, D y → f y < P'.next := fun y hy => by rw [← rp'.next]; exact a.lt' y hy
  refine ⟨lt, lt', a.apart, fun y hy => ?_, fun y hy => ?_, fun y z hy hz => ?_, fun q z hq hz hm => ?_, fun q z hq hz hm => ?_⟩
  · have hk := a.kind y hy
    rw [rp'.kind _ (lt' y hy), rp.kind y (lt y hy)] at hk
    cases hR : P.row y with
    | none =>
      rw [hR] at hk
      cases hR' : P'.row (f y) with
      | none => rfl
      | some R' => rw [hR'] at hk; cases hk
    | some R =>
      rw [hR] at hk
      cases hR' : P'.row (f y) with
      | none => rw [hR'] at hk; cases hk
      | some R' =>
        have h1 := rp.rows y R (lt y hy) hR
        have h2 := rp'.rows (f y) R' (lt' y hy) hR'
        have h3 := (a.elements y R hy (by rw [rp.kind y (lt y hy), hR]; rfl)).mp h1
        rw [h3.unique h2]
  · rw [← rp'.kids _ (lt' y hy), a.kids y hy, rp.kids y (lt y hy)]
  · rw [← rp.kids y (lt y hy)] at hz
    exact a.inner y z hy hz
  · rw [← rp.kids q hq] at hm
    exact a.outer q z hz hm
  · rw [← rp'.kids q hq] at hm
    exact a.outer' q z hz hm

theorem PMatch.match {s s' : State V T} {P P' : Plan V T} {D : Id → Prop} {f : Id → Id} (a : PMatch P P' D f)
    (h : Path spoil s) (h' : Path spoil' s') (rp : Represents s P) (rp' : Represents s' P') : Match s s' D f := by
  have sk := h.reach.heap.wf.skel
  have sk' := h'.reach.heap.wf.skel
  have al : ∀ q z, z ∈ s.heap.kids q → q < P.next := fun q z hm => by
    rw [← rp.next]; exact (sk.alloc _ _ ((sk.mem_iff _ _).mp hm)).2
  have al' : ∀ q z, z ∈ s'.heap.kids q → q < P'.next := fun q z hm => by
    rw [← rp'.next]; exact (sk'.alloc _ _ ((sk'.mem_iff _ _).mp hm)).2
  refine ⟨fun y hy => by rw [rp.next]; exact a.lt y hy, fun y hy => by rw [rp'.next]; exact a.lt' y hy, a.apart, fun y hy => ?_,
    fun y hy => ?_, fun y R hy hl => ?_, fun y z hy hz => ?_, fun q z hz hm => ?_, fun q z hz hm => ?_⟩
  · rw [rp'.kind _ (a.lt' y hy), a.row y hy, rp.kind y (a.lt y hy)]
  · rw [rp'.kids _ (a.lt' y hy), a.kids y hy, rp.kids y (a.lt y hy)]
  · rw [rp.kind y (a.lt y hy)] at hl
    obtain ⟨R0, hR⟩ := Option.isSome_iff_exists.mp hl
    have h1 := rp.rows y R0 (a.lt y hy) hR
    have h2 := rp'.rows (f y) R0 (a.lt' y hy) (by rw [a.row y hy, hR])
    exact ⟨fun h => h1.unique h ▸ h2, fun h => h2.unique h ▸ h1⟩
  · rw [rp.kids y (a.lt y hy)] at hz
    exact a.inner y z hy hz
  · have hq := al q z hm
    rw [rp.kids q hq] at hm
    exact a.outer q z hq hz hm
  · have hq := al' q _ hm
    rw [rp'.kids q hq] at hm
    exact a.outer' q z hq hz hm

/-- Whole models of a plan. -/
structure Closed (P : Plan V T) (D : Id → Prop) : Prop where
  lt : ∀ y, D y → y < P.next
  inner : ∀ y z, D y → z ∈ P.kids y → D z
  outer : ∀ q z, q < P.next → D z → z ∈ P.kids q → D q

namespace PMatch

variable {P P' P'' : Plan V T} {D E : Id → Prop} {f f' : Id → Id}

theorem closed (a : PMatch P P' D f) : Closed P D := ⟨a.lt, a.inner, a.outer⟩

theorem closed' (a : PMatch P P' D f) : Closed P' (fun z => ∃ y, D y ∧ f y = z) := by
  refine ⟨?_, ?_, ?_⟩
  · rintro _ ⟨y, hy, rfl⟩; exact a.lt' y hy
  · rintro _ z ⟨y, hy, rfl⟩ hz
    rw [a.kids y hy] at hz
    obtain ⟨c, hc, rfl⟩ := List.mem_map.mp hz
    exact ⟨c, a.inner y c hy hc, rfl⟩
  · rintro q _ hq ⟨y, hy, rfl⟩ hm
    exact a.outer' q y hq hy hm

theorem mem_kids (a : PMatch P P' D f) {y z : Id} (hy : D y) (hz : D z) : f z ∈ P'.kids (f y) ↔ z ∈ P.kids y := by
  rw [a.kids y hy]
  refine ⟨fun hm => ?_, fun hm => List.mem_map.mpr ⟨z, hm, rfl⟩⟩
  obtain ⟨c, hc, e⟩ := List.mem_map.mp hm
  rwa [← a.apart c z (a.inner y c hy hc) hz e]

theorem trans (a : PMatch P P' D f) (b : PMatch P' P'' E f') (hE : ∀ y, D y → E (f y)) :
    PMatch P P'' D (fun y => f' (f y)) where
  lt := a.lt
  lt' := fun y hy => b.lt' _ (hE y hy)
  apart := fun y z hy hz e => a.apart y z hy hz (b.apart _ _ (hE y hy) (hE z hz) e)
  row := fun y hy => by rw [b.row _ (hE y hy), a.row y hy]
  kids := fun y hy => by rw [b.kids _ (hE y hy), a.kids y hy, List.map_map]; rfl
  inner := a.inner
  outer := a.outer
  outer' := fun q z hq hz hm => by
    obtain ⟨q', hq', rfl⟩ := b.outer' q (f z) hq (hE z hz) hm
    rw [b.mem_kids hq' (hE z hz)] at hm
    obtain ⟨p, hp, rfl⟩ := a.outer' q' z (b.lt q' hq') hz hm
    exact ⟨p, hp, rfl⟩

end PMatch

/-- What a step beside `D` leaves. -/
structure Leaves (P P1 : Plan V T) (D : Id → Prop) : Prop where
  next : P.next ≤ P1.next
  row : ∀ y, D y → P1.row y = P.row y
  kids : ∀ y, D y → P1.kids y = P.kids y
  outer : ∀ q z, q < P1.next → D z → z ∈ P1.kids q → D q

theorem Leaves.forth {P P1 : Plan V T} {D : Id → Prop} (c : Closed P D) (l : Leaves P P1 D) : PMatch P P1 D id where
  lt := c.lt
  lt' := fun y hy => Nat.lt_of_lt_of_le (c.lt y hy) l.next
  apart := fun _ _ _ _ e => e
  row := l.row
  kids := fun y hy => by rw [List.map_id]; exact l.kids y hy
  inner := c.inner
  outer := c.outer
  outer' := fun q z hq hz hm => ⟨q, l.outer q z hq hz hm, rfl⟩

theorem Leaves.back {P P1 : Plan V T} {D : Id → Prop} (c : Closed P D) (l : Leaves P P1 D) : PMatch P1 P D id where
  lt := fun y hy => Nat.lt_of_lt_of_le (c.lt y hy) l.next
  lt' := c.lt
  apart := fun _ _ _ _ e => e
  row := fun y hy => (l.row y hy).symm
  kids := fun y hy => by rw [List.map_id]; exact (l.kids y hy).symm
  inner := fun y z hy hz => by rw [l.kids y hy] at hz; exact c.inner y z hy hz
  outer := l.outer
  outer' := fun q z hq hz hm => ⟨q, c.outer q z hq hz hm, rfl⟩

/-! ### Trees and `Param`s -/

theorem Closed.tree_up {P : Plan V T} {D : Id → Prop} (c : Closed P D) (hk : ∀ q, q < P.next → ∀ z ∈ P.kids q, z < P.next) :
    ∀ (n : Nat) {r y : Id}, r < P.next → y ∈ P.treeF n r → D y → D r
  | 0, _, _, _, hm, _ => by cases hm
  | n + 1, r, y, hr, hm, hy => by
    rw [Plan.treeF, List.mem_cons] at hm
    rcases hm with rfl | hm
    · exact hy
    · obtain ⟨z, hz, hm⟩ := List.mem_flatMap.mp hm
      exact c.outer r z hr (c.tree_up hk n (hk r hr z hz) hm hy) hz

theorem Closed.tree_down {P : Plan V T} {D : Id → Prop} (c : Closed P D) :
    ∀ (n : Nat) {r y : Id}, y ∈ P.treeF n r → D r → D y
  | 0, _, _, hm, _ => by cases hm
  | n + 1, r, y, hm, hr => by
    rw [Plan.treeF, List.mem_cons] at hm
    rcases hm with rfl | hm
    · exact hr
    · obtain ⟨z, hz, hm⟩ := List.mem_flatMap.mp hm
      exact c.tree_down n hm (c.inner r z hr hz)

theorem params_tree (P : Plan V T) : ∀ (n : Nat) {r y : Id}, y ∈ P.paramsF n r → y ∈ P.treeF n r
  | 0, _, _, hm => by cases hm
  | n + 1, r, y, hm => by
    rw [Plan.paramsF] at hm
    rw [Plan.treeF, List.mem_cons]
    split at hm
    · exact .inl (List.mem_singleton.mp hm)
    · obtain ⟨z, hz, hm⟩ := List.mem_flatMap.mp hm
      exact .inr (List.mem_flatMap.mpr ⟨z, hz, params_tree P n hm⟩)

theorem Represents.kids_lt {s : State V T} {P : Plan V T} (h : Path spoil s) (rp : Represents s P) :
    ∀ q, q < P.next → ∀ z ∈ P.kids q, z < P.next := fun q hq z hz => by
  have sk := h.reach.heap.wf.skel
  rw [← rp.kids q hq] at hz
  rw [← rp.next]
  exact (sk.alloc _ _ ((sk.mem_iff _ _).mp hz)).1

namespace PMatch

variable {P P' P'' : Plan V T} {D E : Id → Prop} {f f' : Id → Id} {s s' : State V T}

theorem treeF (a : PMatch P P' D f) : ∀ (n : Nat) {y : Id}, D y → P'.treeF n (f y) = (P.treeF n y).map f
  | 0, _, _ => rfl
  | n + 1, y, hy => by
    rw [Plan.treeF, Plan.treeF, a.kids y hy, List.map_cons, List.flatMap_map, List.map_flatMap]
    exact congrArg _ (List.flatMap_congr (fun c hc => a.treeF n (a.inner y c hy hc)))

theorem paramsF (a : PMatch P P' D f) : ∀ (n : Nat) {y : Id}, D y → P'.paramsF n (f y) = (P.paramsF n y).map f
  | 0, _, _ => rfl
  | n + 1, y, hy => by
    rw [Plan.paramsF, Plan.paramsF, a.row y hy]
    split
    · rfl
    · rw [a.kids y hy, List.flatMap_map, List.map_flatMap]
      exact List.flatMap_congr (fun c hc => a.paramsF n (a.inner y c hy hc))

theorem tree (a : PMatch P P' D f) (h : Path spoil s) (h' : Path spoil' s') (rp : Represents s P) (rp' : Represents s' P')
    {y : Id} (hy : D y) : P'.tree (f y) = (P.tree y).map f := by
  have sk := h.reach.heap.wf.skel
  have sk' := h'.reach.heap.wf.skel
  obtain ⟨d, hd, hb⟩ := sk.rank
  obtain ⟨d', hd', hb'⟩ := sk'.rank
  have n1 : s.heap.toGraph.next = P.next := rp.next
  have n2 : s'.heap.toGraph.next = P'.next := rp'.next
  unfold Plan.tree
  rw [rp.treeF sk _ (a.lt y hy), rp'.treeF sk' _ (a.lt' y hy),
    Graph.subtreeF_fuel sk hd hb (P.next + 1) (max P.next P'.next + 1) y (by omega) (by omega),
    Graph.subtreeF_fuel sk' hd' hb' (P'.next + 1) (max P.next P'.next + 1) (f y) (by omega) (by omega),
    ← rp.treeF sk _ (a.lt y hy), ← rp'.treeF sk' _ (a.lt' y hy)]
  exact a.treeF _ hy

theorem params (a : PMatch P P' D f) (h : Path spoil s) (h' : Path spoil' s') (rp : Represents s P) (rp' : Represents s' P')
    {y : Id} (hy : D y) : P'.params (f y) = (P.params y).map f := by
  have sk := h.reach.heap.wf.skel
  have sk' := h'.reach.heap.wf.skel
  obtain ⟨d, hd, hb⟩ := sk.rank
  obtain ⟨d', hd', hb'⟩ := sk'.rank
  have n1 : s.heap.toGraph.next = P.next := rp.next
  have n2 : s'.heap.toGraph.next = P'.next := rp'.next
  unfold Plan.params
  rw [rp.paramsF h _ (a.lt y hy), rp'.paramsF h' _ (a.lt' y hy),
    flattenedF_stable sk hd hb (P.next + 1) (max P.next P'.next + 1) y (by omega) (by omega),
    flattenedF_stable sk' hd' hb' (P'.next + 1) (max P.next P'.next + 1) (f y) (by omega) (by omega),
    ← rp.paramsF h _ (a.lt y hy), ← rp'.paramsF h' _ (a.lt' y hy)]
  exact a.paramsF _ hy

theorem params_of (a : PMatch P P' D f) {y z : Id} (hy : D y) (hz : z ∈ P.params y) : D z :=
  a.closed.tree_down _ (params_tree P _ hz) hy

theorem mem_map (a : PMatch P P' D f) {l : List Id} (hl : ∀ z ∈ l, D z) {y : Id} (hy : D y) : f y ∈ l.map f ↔ y ∈ l := by
  refine ⟨fun hm => ?_, fun hm => List.mem_map.mpr ⟨y, hm, rfl⟩⟩
  obtain ⟨z, hz, e⟩ := List.mem_map.mp hm
  rwa [← a.apart z y (hl z hz) hy e]

theorem sheet (a : PMatch P P' D f) (h : Path spoil s) (h' : Path spoil' s') (rp : Represents s P) (rp' : Represents s' P')
    {r : Id} (hr : D r) : P'.sheet (f r) = P.sheet r := by
  unfold Plan.sheet
  rw [a.params h h' rp rp' hr, List.map_map]
  refine List.map_congr_left (fun y hy => ?_)
  show (P'.row (f y)).getD [] = _
  rw [a.row y (a.params_of hr hy)]

theorem spots (a : PMatch P P' D f) (h : Path spoil s) (h' : Path spoil' s') (rp : Represents s P) (rp' : Represents s' P')
    {r : Id} (hr : D r) {x : Target} (hx : D x.obj) : P'.spots (f r) (across f x) = P.spots r x := by
  funext q i
  unfold Plan.spots across
  rw [a.params h h' rp rp' hr, a.params h h' rp rp' hx, List.getElem?_map]
  cases hq : (P.params r)[q]? with
  | none => rfl
  | some y =>
    have hy := a.params_of hr (List.mem_of_getElem? hq)
    cases x.part with
    | none =>
      show decide (f y ∈ (P.params x.obj).map f) = decide (y ∈ P.params x.obj)
      exact decide_eq_decide.mpr (a.mem_map (fun z hz => a.params_of hx hz) hy)
    | some p =>
      show decide (f y = f x.obj ∧ i ∈ p) = decide (y = x.obj ∧ i ∈ p)
      exact decide_eq_decide.mpr ⟨fun hm => ⟨a.apart _ _ hy hx hm.1, hm.2⟩, fun hm => ⟨by rw [hm.1], hm.2⟩⟩

theorem store (a : PMatch P P' D f) (h : Path spoil s) (h' : Path spoil' s') (rp : Represents s P) (rp' : Represents s' P')
    {r : Id} (hr : D r) (S : Sheet V T) : PMatch (P.store r S) (P'.store (f r) S) D f where
  lt := a.lt
  lt' := a.lt'
  apart := a.apart
  kids := a.kids
  inner := a.inner
  outer := a.outer
  outer' := a.outer'
  row := fun y hy => by
    show (if f y ∈ P'.params (f r) then S[(P'.params (f r)).idxOf (f y)]? else P'.row (f y)) =
      if y ∈ P.params r then S[(P.params r).idxOf y]? else P.row y
    have hin : ∀ z ∈ P.params r, f z = f y → z = y := fun z hz e => a.apart z y (a.params_of hr hz) hy e
    rw [a.params h h' rp rp' hr, idxOf_across hin, a.row y hy]
    have hm := a.mem_map (fun z hz => a.params_of hr hz) hy (l := P.params r)
    by_cases hy2 : y ∈ P.params r
    · rw [if_pos hy2, if_pos (hm.mpr hy2)]
    · rw [if_neg hy2, if_neg (fun hc => hy2 (hm.mp hc))]

theorem without (a : PMatch P P' D f) {x y : Id} (hx : D x) (hy : D y) : P'.without (f x) (f y) = (P.without x y).map f := by
  unfold Plan.without
  rw [a.kids y hy, List.filter_map]
  refine congrArg _ (List.filter_congr (fun z hz => ?_))
  show decide (f z ≠ f x) = decide (z ≠ x)
  exact decide_eq_decide.mpr ⟨fun hn e => hn (by rw [e]), fun hn e => hn (a.apart z x (a.inner y z hy hz) hx e)⟩

theorem linked (a : PMatch P P' D f) {p x : Id} (hp : D p) (hx : D x) (index : Option Int) :
    PMatch (P.link p x index) (P'.link (f p) (f x) index) D f := by
  have e1 : ∀ y, (P.link p x index).kids y = if y = p then
      (P.without x p).take (place (P.without x p).length index) ++ x :: (P.without x p).drop (place (P.without x p).length index)
      else P.without x y := fun y => by
    show upd (P.without x) p _ y = _
    unfold upd; rfl
  have e2 : ∀ y, (P'.link (f p) (f x) index).kids y = if y = f p then
      (P'.without (f x) (f p)).take (place (P'.without (f x) (f p)).length index) ++
        f x :: (P'.without (f x) (f p)).drop (place (P'.without (f x) (f p)).length index)
      else P'.without (f x) y := fun y => by
    show upd (P'.without (f x)) (f p) _ y = _
    unfold upd; rfl
  have sub : ∀ y z, z ∈ P.without x y → z ∈ P.kids y := fun y z hz => (List.mem_filter.mp hz).1
  have sub' : ∀ y z, z ∈ P'.without (f x) y → z ∈ P'.kids y := fun y z hz => (List.mem_filter.mp hz).1
  refine ⟨a.lt, a.lt', a.apart, a.row, fun y hy => ?_, fun y z hy hz => ?_, fun q z hq hz hm => ?_, fun q z hq hz hm => ?_⟩
  · rw [e1, e2]
    by_cases h : y = p
    · subst h
      rw [if_pos rfl, if_pos rfl, a.without hx hy, List.length_map, List.map_append, List.map_cons, List.map_take, List.map_drop]
    · rw [if_neg h, if_neg (fun e => h (a.apart y p hy hp e)), a.without hx hy]
  · rw [e1] at hz
    split at hz
    · rcases List.mem_append.mp hz with h | h
      · exact a.inner p z hp (sub _ _ (List.mem_of_mem_take h))
      · rcases List.mem_cons.mp h with rfl | h
        · exact hx
        · exact a.inner p z hp (sub _ _ (List.mem_of_mem_drop h))
    · exact a.inner y z hy (sub _ _ hz)
  · rw [e1] at hm
    split at hm
    · rename_i h; subst h; exact hp
    · exact a.outer q z hq hz (sub _ _ hm)
  · rw [e2] at hm
    split at hm
    · rename_i h; exact ⟨p, hp, h.symm⟩
    · exact a.outer' q z hq hz (sub' _ _ hm)

theorem unlinked (a : PMatch P P' D f) {p x : Id} (hp : D p) (hx : D x) : PMatch (P.unlink p x) (P'.unlink (f p) (f x)) D f := by
  have e1 : ∀ y, (P.unlink p x).kids y = if y = p then P.without x p else P.kids y := fun y => by
    show upd P.kids p _ y = _
    unfold upd; rfl
  have e2 : ∀ y, (P'.unlink (f p) (f x)).kids y = if y = f p then P'.without (f x) (f p) else P'.kids y := fun y => by
    show upd P'.kids (f p) _ y = _
    unfold upd; rfl
  have sub : ∀ y z, z ∈ P.without x y → z ∈ P.kids y := fun y z hz => (List.mem_filter.mp hz).1
  refine ⟨a.lt, a.lt', a.apart, a.row, fun y hy => ?_, fun y z hy hz => ?_, fun q z hq hz hm => ?_, fun q z hq hz hm => ?_⟩
  · rw [e1, e2]
    by_cases h : y = p
    · subst h
      rw [if_pos rfl, if_pos rfl, a.without hx hy]
    · rw [if_neg h, if_neg (fun e => h (a.apart y p hy hp e)), a.kids y hy]
  · rw [e1] at hz
    split at hz
    · exact a.inner p z hp (sub _ _ hz)
    · exact a.inner y z hy hz
  · rw [e1] at hm
    split at hm
    · rename_i h; subst h; exact hp
    · exact a.outer q z hq hz hm
  · rw [e2] at hm
    split at hm
    · rename_i h; exact ⟨p, hp, h.symm⟩
    · exact a.outer' q z hq hz hm

/-- New objects on both sides. -/
theorem grow (a : PMatch P P' D f) (hk0 : ∀ q, q < P.next → ∀ z ∈ P.kids q, z < P.next)
    (hk0' : ∀ q, q < P'.next → ∀ z ∈ P'.kids q, z < P'.next) {P1 P1' : Plan V T} (k : Nat) (hn : P1.next = P.next + k) (hn' : P1'.next = P'.next + k)
    (old : ∀ y, y < P.next → P1.row y = P.row y ∧ P1.kids y = P.kids y)
    (old' : ∀ y, y < P'.next → P1'.row y = P'.row y ∧ P1'.kids y = P'.kids y)
    (row : ∀ j, j < k → P1'.row (P'.next + j) = P1.row (P.next + j))
    (kids : ∀ j, j < k → ∃ l : List Nat, (∀ i ∈ l, i < k) ∧ P1.kids (P.next + j) = l.map (P.next + ·) ∧
      P1'.kids (P'.next + j) = l.map (P'.next + ·)) :
    PMatch P1 P1' (more D P.next P1.next) (ahead f P.next P'.next) := by
  have fo : ∀ y, D y → ahead f P.next P'.next y = f y := fun y hy => if_neg (Nat.not_le.mpr (a.lt y hy))
  have fn : ∀ j, ahead f P.next P'.next (P.next + j) = P'.next + j := fun j => by
    unfold ahead
    rw [if_pos (Nat.le_add_right _ _), Nat.add_sub_cancel_left]
  have new : ∀ y, P.next ≤ y ∧ y < P1.next → ∃ j, j < k ∧ y = P.next + j := fun y hy =>
    ⟨y - P.next, Nat.sub_lt_left_of_lt_add hy.1 (hn ▸ hy.2), (Nat.add_sub_of_le hy.1).symm⟩
  have isnew : ∀ j, j < k → more D P.next P1.next (P.next + j) := fun j hj => .inr ⟨Nat.le_add_right _ _, hn ▸ Nat.add_lt_add_left hj _⟩
  refine ⟨?_, ?_, ?_, ?_, ?_, ?_, ?_, ?_⟩
  · rintro y (hy | hy)
    · exact Nat.lt_of_lt_of_le (a.lt y hy) (hn ▸ Nat.le_add_right _ _)
    · exact hy.2
  · rintro y (hy | hy)
    · rw [fo y hy]; exact Nat.lt_of_lt_of_le (a.lt' y hy) (hn' ▸ Nat.le_add_right _ _)
    · obtain ⟨j, hj, rfl⟩ := new y hy
      rw [fn, hn']; exact Nat.add_lt_add_left hj _
  · rintro y z (hy | hy) (hz | hz) e
    · rw [fo y hy, fo z hz] at e; exact a.apart y z hy hz e
    · obtain ⟨j, hj, rfl⟩ := new z hz
      rw [fo y hy, fn] at e
      exact absurd (a.lt' y hy) (Nat.not_lt.mpr (e ▸ Nat.le_add_right _ _))
    · obtain ⟨j, hj, rfl⟩ := new y hy
      rw [fo z hz, fn] at e
      exact absurd (a.lt' z hz) (Nat.not_lt.mpr (e ▸ Nat.le_add_right _ _))
    · obtain ⟨j, hj, rfl⟩ := new y hy
      obtain ⟨i, hi, rfl⟩ := new z hz
      rw [fn, fn] at e
      rw [Nat.add_left_cancel e]
  · rintro y (hy | hy)
    · rw [fo y hy, (old' _ (a.lt' y hy)).1, (old _ (a.lt y hy)).1, a.row y hy]
    · obtain ⟨j, hj, rfl⟩ := new y hy
      rw [fn]; exact row j hj
  · rintro y (hy | hy)
    · rw [fo y hy, (old' _ (a.lt' y hy)).2, (old _ (a.lt y hy)).2, a.kids y hy]
      exact List.map_congr_left (fun z hz => (fo z (a.inner y z hy hz)).symm)
    · obtain ⟨j, hj, rfl⟩ := new y hy
      obtain ⟨l, -, h1, h2⟩ := kids j hj
      rw [fn, h1, h2, List.map_map]
      exact List.map_congr_left (fun i _ => (fn i).symm)
  · rintro y z (hy | hy) hz
    · rw [(old _ (a.lt y hy)).2] at hz
      exact .inl (a.inner y z hy hz)
    · obtain ⟨j, hj, rfl⟩ := new y hy
      obtain ⟨l, hl, h1, -⟩ := kids j hj
      rw [h1] at hz
      obtain ⟨i, hi, rfl⟩ := List.mem_map.mp hz
      exact isnew i (hl i hi)
  · rintro q z hq hz hm
    by_cases h : q < P.next
    · rw [(old q h).2] at hm
      rcases hz with hz | hz
      · exact .inl (a.outer q z h hz hm)
      · exfalso; exact absurd (hk0 q h z hm) (Nat.not_lt.mpr hz.1)
    · exact .inr ⟨Nat.le_of_not_lt h, hq⟩
  · rintro q z hq hz hm
    by_cases h : q < P'.next
    · rw [(old' q h).2] at hm
      rcases hz with hz | hz
      · rw [fo z hz] at hm
        obtain ⟨p, hp, rfl⟩ := a.outer' q z h hz hm
        exact ⟨p, .inl hp, fo p hp⟩
      · obtain ⟨j, hj, rfl⟩ := new z hz
        rw [fn] at hm
        exfalso; exact absurd (hk0' q h _ hm) (Nat.not_lt.mpr (Nat.le_add_right _ _))
    · refine ⟨P.next + (q - P'.next), isnew _ (Nat.sub_lt_left_of_lt_add (Nat.le_of_not_lt h) (hn' ▸ hq)), ?_⟩
      rw [fn]
      exact Nat.add_sub_of_le (Nat.le_of_not_lt h)

end PMatch

end Paramz.Memory

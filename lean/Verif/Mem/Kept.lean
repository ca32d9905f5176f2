import Verif.Hier.PickleProps
import Verif.Mem.CopyProps

/-!
# Model of a part of a parameter that is kept in a variable

Source: `paramz/param.py` (`__array_finalize__`, `__getitem__`, `_raveled_index`),
`paramz/core/constrainable.py` (`_set_fixed`, `_get_original`), `paramz/core/indexable.py` (`_offset_for`).

`q = p[1:3]` makes a new `Param` object on the memory that `p` uses at that moment. It takes over the
attributes of `p` as they are then (param.py:104-113); the dictionary of index operations is the very object
that `p` has (param.py:114-117), and `p` replaces the entries of that dictionary, never the dictionary
(indexable.py:118, 231-236). So later calls find the *current* constraints, the *old* memory, the *old* parent
and the *old* position below it. Only slices and integer indices that leave an array are meant here; an index
by a list of positions copies (C76).
-/

set_option linter.unusedSectionVars false

namespace Paramz.Memory

open Hier (Id Graph Heap upd upd_same upd_ne Con Err)
open Hier.Heap (Call Target)
open Hier.Graph (Skel Sized At Anc Ins)
open IndexOps (Arr Dict Iop lookup)

/-- The part: `obj` is `_original_`, whose dictionary of index operations it shares; `sel` are the raveled
positions that `_raveled_index` gives (param.py:170-176; they depend on the slice and on the shape of the
original only); `buf` and `off` say where element 0 of the original was in memory; `parent` and `pidx` are
`_parent_` and `_parent_index_` (param.py:104-105). -/
structure Kept where
  obj : Id
  sel : Arr
  buf : Nat
  off : Nat
  parent : Option Id
  pidx : Nat

/-- `p[…]` (param.py:100-118, 155-168). -/
def State.part {V T : Type} (s : State V T) (p : Id) (sel : Arr) : Kept :=
  ⟨p, sel, (s.mem.view p).buf, (s.mem.view p).off, s.heap.parent p, s.heap.pidx p⟩

namespace Kept

variable {V T : Type} [DecidableEq T]

/-- Element `k` of the part, as read. -/
def read (q : Kept) (m : Mem V) (k : Nat) : Option V := (q.sel[k]?).map fun i => m.cell q.buf (q.off + i)

/-- `q[k] = v` as far as memory goes (an index beyond the part raises `IndexError` and changes nothing). -/
def write (q : Kept) (m : Mem V) (k : Nat) (v : V) : Mem V :=
  match q.sel[k]? with
  | none => m
  | some i => { m with cell := fun b j => if b = q.buf ∧ j = q.off + i then v else m.cell b j }

/-- `q._highest_parent_._set_fixed(q, index)` / `_set_unfixed` (constrainable.py:94-104). The highest parent is
found from the old parent; without a parent it is the part itself and no other mask changes. `_ensure_fixes`
comes first; then `_offset_for` (indexable.py:130-141) looks up `parent.parameters[_parent_index_]` with the old
position (constrainable.py:128-132; `IndexError` if the list is shorter) and gives the offset of what it finds
there; then the positions are set (`IndexError` if one is beyond the mask). -/
def mask (q : Kept) (h : Heap T) (index : Arr) (b : Bool) : Heap T × Option Err :=
  match q.parent with
  | none => (h, none)
  | some P =>
    let r := h.toGraph.highest P
    let h1 : Heap T := { h with fixes := upd h.fixes r (some (h.ensureFixes r)) }
    match (h.kids P)[q.pidx]? with
    | none => (h1, some .indexError)
    | some x =>
      if ∀ i ∈ index, i + h.toGraph.offsetFor r x < (h.ensureFixes r).length then (h.setMask r x index b, none)
      else (h1, some .indexError)

/-- The target that a fresh part is. -/
def target (q : Kept) : Target := ⟨q.obj, some q.sel⟩

/-- One round of the loop of `_remove_from_index_operations` (indexable.py:265-269). -/
def unconstrainOne (q : Kept) (h : Heap T) (t : Con T) : Heap T × Option Err :=
  let d := (h.iop q.obj).1
  let r := (h.iop q.obj).2.remove (h.dicts d) t q.sel
  let h1 : Heap T := { h with dicts := upd h.dicts d r.1 }
  if t = .fixed then q.mask h1 r.2 true else (h1, none)

/-- The loop (indexable.py:264-269); an exception ends it. -/
def unconstrainAll (q : Kept) : List (Con T) → Heap T → Heap T × Option Err
  | [], h => (h, none)
  | t :: ts, h =>
    match q.unconstrainOne h t with
    | (h1, none) => unconstrainAll q ts h1
    | (h1, some e) => (h1, some e)

/-- `q.unconstrain(*transforms)` (constrainable.py:158-165, indexable.py:256-270). -/
def unconstrain (q : Kept) (h : Heap T) (ts : List (Con T)) : Heap T × Option Err :=
  q.unconstrainAll (if ts = [] then (h.iop q.obj).2.properties (h.dicts (h.iop q.obj).1) else ts) h

/-- `constraints.add` through the part (indexable.py:241-254). -/
def addCon (q : Kept) (h : Heap T) (t : Con T) : Heap T :=
  { h with dicts := upd h.dicts (h.iop q.obj).1 ((h.iop q.obj).2.add (h.dicts (h.iop q.obj).1) t q.sel) }

/-- A constraining call on the part: `constrain` (constrainable.py:138-156), `unconstrain` (158-165), `fix`
(52-69), `unfix` (71-83). Values are changed by `write`s that are not made here. -/
def run (q : Kept) (h : Heap T) : Call T → Heap T × Option Err
  | .constrain t =>
    match q.unconstrain h [] with
    | (h1, none) => (q.addCon h1 (.tr t), none)
    | (h1, some e) => (h1, some e)
  | .unconstrain ts => q.unconstrain h ts
  | .fix => q.mask (q.addCon h .fixed) q.sel false
  | .unfix =>
    match q.unconstrain h [.fixed] with
    | (h1, none) =>
      q.mask h1 (IndexOps.union1d [] ((h.iop q.obj).2.remove (h.dicts (h.iop q.obj).1) .fixed q.sel).2) true
    | (h1, some e) => (h1, some e)

end Kept

namespace State

variable {V T : Type} [DecidableEq T]

/-- The call does not change the hierarchy that `y` is in: it links and unlinks in others only, and connects this
one only if it is initialised already. Nothing is asked of calls that make objects, constrain, fix or write. -/
def Elsewhere (s : State V T) (y : Id) : Ev V T → Prop
  | .heap (.finishInit x _) =>
    s.heap.toGraph.highest x ≠ s.heap.toGraph.highest y ∨ Done s.heap (s.heap.toGraph.highest y)
  | .heap (.init x) =>
    s.heap.toGraph.highest x ≠ s.heap.toGraph.highest y ∨ Done s.heap (s.heap.toGraph.highest y)
  | .heap (.link p x _) =>
    s.heap.toGraph.highest p ≠ s.heap.toGraph.highest y ∧ s.heap.toGraph.highest x ≠ s.heap.toGraph.highest y
  | .heap (.unlink p _) => s.heap.toGraph.highest p ≠ s.heap.toGraph.highest y
  | _ => True

/-- What can happen between `s` and `s'` without a change to the hierarchy of `y`; copies of anything, too. -/
inductive Since (spoil : Nat → Nat → V) (y : Id) (s : State V T) : State V T → Prop
  | refl : Since spoil y s s
  | step {s' : State V T} {e : Ev V T} : Since spoil y s s' → s'.Admissible e → s'.Elsewhere y e →
      Since spoil y s (s'.exec spoil e).1
  | copy {s' : State V T} {x : Id} : Since spoil y s s' → s'.heap.CopyOK x → Since spoil y s (s'.copy spoil x).1

/-- `y` is where it was: same parent, same siblings, same memory (if it has elements). -/
structure Stays (s s' : State V T) (y : Id) : Prop where
  next : s.heap.next ≤ s'.heap.next
  leaf : s'.heap.leaf y = s.heap.leaf y
  size : s'.heap.size y = s.heap.size y
  parent : s'.heap.parent y = s.heap.parent y
  kids : ∀ P, s.heap.parent y = some P → s'.heap.kids P = s.heap.kids P
  place : 0 < s.heap.size y → s'.mem.arr y = s.mem.arr y

theorem Stays.refl (s : State V T) (y : Id) : Stays s s y :=
  ⟨le_refl _, rfl, rfl, rfl, fun _ _ => rfl, fun _ => rfl⟩

theorem Stays.trans {s s' s'' : State V T} {y : Id} (a : Stays s s' y) (b : Stays s' s'' y) : Stays s s'' y :=
  ⟨a.next.trans b.next, b.leaf.trans a.leaf, b.size.trans a.size, b.parent.trans a.parent,
    fun P hP => (b.kids P (by rw [a.parent]; exact hP)).trans (a.kids P hP),
    fun h => (b.place (by rw [a.size]; exact h)).trans (a.place h)⟩

/-- Only pointers, constraints and flags change, and of the pointers nothing near `y`. -/
theorem Stays.of_graph {s s' : State V T} {y : Id} (hg : s'.heap.toGraph = s.heap.toGraph)
    (hm : 0 < s.heap.size y → s'.mem.arr y = s.mem.arr y) : Stays s s' y := by
  have e1 : s'.heap.next = s.heap.next := congrArg Graph.next hg
  have e2 : s'.heap.leaf = s.heap.leaf := congrArg Graph.leaf hg
  have e3 : s'.heap.size = s.heap.size := congrArg Graph.size hg
  have e4 : s'.heap.parent = s.heap.parent := congrArg Graph.parent hg
  have e5 : s'.heap.kids = s.heap.kids := congrArg Graph.kids hg
  exact ⟨le_of_eq e1.symm, by rw [e2], by rw [e3], by rw [e4], fun P _ => by rw [e5], hm⟩

variable {spoil : Nat → Nat → V}

/-- Connecting another hierarchy, or this one if it is connected already, moves no memory of `y`. -/
theorem connect_stays {s : State V T} (w : s.heap.WF) (l : Linked s) {x y : Id} (hy : y < s.heap.next)
    (hd : s.heap.toGraph.highest x ≠ s.heap.toGraph.highest y ∨ Done s.heap (s.heap.toGraph.highest y))
    (hpos : 0 < s.heap.size y) :
    (s.mem.connect spoil s.heap.toGraph (s.heap.toGraph.highest x)).arr y = s.mem.arr y := by
  have sk := w.skel
  obtain ⟨hr, hra⟩ := sk.highest_spec x
  by_cases ha : Anc s.heap.toGraph (s.heap.toGraph.highest x) y
  · have he : s.heap.toGraph.highest y = s.heap.toGraph.highest x := sk.highest_eq hr ha
    have hd' : Done s.heap (s.heap.toGraph.highest x) := by
      rcases hd with h | h
      · exact absurd he.symm h
      · rwa [he] at h
    set r := s.heap.toGraph.highest x with hrdef
    have hrlt : r < s.heap.next := sk.anc_lt ha hy
    by_cases hk : s.heap.kids r = []
    · rw [Mem.connect_nil spoil s.mem hk]
    · obtain ⟨w', h1, h2, -, -, -, h3⟩ := Mem.connect_places sk w.sized spoil l.lo hk
      obtain ⟨k, hat⟩ := sk.exists_at ha
      obtain ⟨b, o, hc⟩ := l.calm r hrlt hd'
      have hwin := hat.window sk w.sized
      obtain ⟨c1, -⟩ := hc r 0 .refl (by omega)
      obtain ⟨c2, -⟩ := hc y k hat hpos
      have hf : Fits s.heap.toGraph s.mem r ⟨b, o + 0, s.heap.size r⟩ := ⟨c1, rfl⟩
      rcases h3 with ⟨h3, -⟩ | ⟨h3, -⟩
      · have hw : w' = ⟨b, o + 0, s.heap.size r⟩ := Option.some.inj (h3.1.symm.trans c1)
        by_cases hyr : y = r
        · subst hyr; rw [h1.1, h3.1]
        · rw [(h2 y k hat hyr).1, c2, hw]; simp
      · exact absurd hf (h3 _)
  · exact (Mem.connect_out sk w.sized spoil l.lo ha).1

/-- Insertion into another hierarchy. -/
theorem ins_far {g g' : Graph} {p x y : Id} {A B : List Id} (i : Ins g g' p x A B) (hp : ¬ Anc g y p)
    (hpy : g.parent y ≠ some p) (hxy : y ≠ x) :
    g'.leaf y = g.leaf y ∧ g'.size y = g.size y ∧ g'.parent y = g.parent y ∧
    ∀ P, g.parent y = some P → g'.kids P = g.kids P :=
  ⟨by rw [i.leaf], i.size_not y hp, i.parent_ne y hxy, fun P hP => i.kids_ne P (by rintro rfl; exact hpy hP)⟩

theorem highest_of_anc {g : Graph} (sk : Skel g) {a y : Id} (h : Anc g a y) : g.highest y = g.highest a := by
  obtain ⟨h1, h2⟩ := sk.highest_spec a
  exact sk.highest_eq h1 (h2.trans h)

theorem leafOwn_of_leaf {g g' : Graph} (h : g'.leaf = g.leaf) {m : Mem V} (lo : LeafOwn g m) : LeafOwn g' m :=
  fun y hy => lo y (by rw [← h]; exact hy)

/-- Unlinking in another hierarchy. -/
theorem unlinkChild_stays {s : State V T} (w : s.heap.WF) (lo : LeafOwn s.heap.toGraph s.mem) {q x y : Id} {A B : List Id}
    (hk : s.heap.kids q = A ++ x :: B) (hne : s.heap.toGraph.highest q ≠ s.heap.toGraph.highest y) :
    Stays s (s.unlinkChild spoil q x) y ∧
    LeafOwn (s.unlinkChild spoil q x).heap.toGraph (s.unlinkChild spoil q x).mem := by
  obtain ⟨w1, i, -⟩ := Heap.unlinkChild_wf w hk
  have sk := w.skel
  have hqx : s.heap.toGraph.highest x = s.heap.toGraph.highest q :=
    highest_of_anc sk (Anc.of_parent (sk.parent_of hk))
  have far : ∀ a, s.heap.toGraph.highest a = s.heap.toGraph.highest q → ¬ Anc (s.heap.unlinkChild q x).toGraph a y := by
    intro a ha h
    exact hne (ha.symm.trans (highest_of_anc sk (i.anc_mono h)).symm)
  have hroot : s.heap.toGraph.highest (s.heap.toGraph.highest q) = s.heap.toGraph.highest q :=
    sk.highest_eq (sk.highest_spec q).1 .refl
  have hyx : y ≠ x := by rintro rfl; exact hne hqx.symm
  have hlo : LeafOwn (s.heap.unlinkChild q x).toGraph s.mem := leafOwn_of_leaf i.leaf.symm lo
  have c1 := Mem.connect_lo w1.skel w1.sized spoil hlo q
  have c2 := Mem.connect_lo w1.skel w1.sized spoil c1 q
  have c3 := Mem.connect_lo w1.skel w1.sized spoil c2 (s.heap.toGraph.highest q)
  have d1 := (Mem.connect_out w1.skel w1.sized spoil hlo (far q rfl)).1
  have d2 := (Mem.connect_out w1.skel w1.sized spoil c1 (far q rfl)).1
  have d3 := (Mem.connect_out w1.skel w1.sized spoil c2 (far _ hroot)).1
  have hm := unlinkChild_mem spoil w hk
  have hh := unlinkChild_heap spoil s q x
  have hg : (s.unlinkChild spoil q x).heap.toGraph = (s.heap.unlinkChild q x).toGraph := by rw [hh]
  refine ⟨⟨?_, ?_, ?_, ?_, ?_, ?_⟩, ?_⟩
  · rw [hh]; exact le_of_eq i.next
  · rw [hh]; exact (congrFun i.leaf y).symm
  · rw [hh]
    refine (i.size_not y (fun ha => hne ?_)).symm
    exact highest_of_anc sk (i.anc_mono ha)
  · rw [hh]; exact (i.parent_ne y hyx).symm
  · intro P hP
    rw [hh]
    refine (i.kids_ne P ?_).symm
    rintro rfl
    exact hne (highest_of_anc sk (Anc.of_parent hP)).symm
  · intro _
    rw [hm, d3, d2, d1]
  · rw [hg, hm]; exact c3

/-- Linking in another hierarchy. -/
theorem linkRoot_stays {s : State V T} (w : s.heap.WF) (lo : LeafOwn s.heap.toGraph s.mem) {p x y : Id}
    {index : Option Int} (ok : Heap.LinkOK s.heap p x index) (hl : s.heap.leaf p = false)
    (hpx : s.heap.parent x = none) (hne : s.heap.toGraph.highest p ≠ s.heap.toGraph.highest y)
    (hnx : s.heap.toGraph.highest x ≠ s.heap.toGraph.highest y) :
    Stays s (s.linkRoot spoil p x index).1 y := by
  obtain ⟨w1, i, -⟩ := Heap.linkRoot_wf w ok.ltx ok.ltp hpx hl ok.outside ok.ready (ok.pos w hpx)
  have sk := w.skel
  have hxy : ¬ Anc s.heap.toGraph x y := fun h => hnx (highest_of_anc sk h).symm
  have hh := (linkRoot_heap spoil s p x index).1
  obtain ⟨m1, m2, -⟩ := linkRoot_mem spoil w ok hl hpx
  refine ⟨?_, ?_, ?_, ?_, ?_, ?_⟩
  · rw [hh]; exact le_of_eq i.next.symm
  · rw [hh]; exact congrFun i.leaf y
  · rw [hh]
    exact i.size_not y (fun ha => hne (highest_of_anc sk ha))
  · rw [hh]; exact i.parent_ne y (by rintro rfl; exact hxy .refl)
  · intro P hP
    rw [hh]
    refine i.kids_ne P ?_
    rintro rfl
    exact hne (highest_of_anc sk (Anc.of_parent hP)).symm
  · intro _
    by_cases hrc : Reconnects s.heap p
    · rw [m1 hrc]
      refine (Mem.connect_out w1.skel w1.sized spoil (leafOwn_of_leaf i.leaf lo) ?_).1
      intro h
      have := highest_of_anc sk (i.anc_of h hxy)
      exact hne (this.trans (sk.highest_eq (sk.highest_spec p).1 .refl)).symm
    · rw [(m2 hrc).1]

/-- **One call.** -/
theorem exec_stays {s : State V T} (h : Reach spoil s) {e : Ev V T} (ha : s.Admissible e) {y : Id} (hy : y < s.heap.next)
    (hE : s.Elsewhere y e) : Stays s (s.exec spoil e).1 y := by
  have w := h.heap.wf
  have sk := w.skel
  have l := h.linked
  cases e with
  | write x i v => exact Stays.of_graph rfl (fun _ => rfl)
  | heap e =>
    cases e with
    | newParam n =>
      have hne : y ≠ s.heap.next := Nat.ne_of_lt hy
      refine ⟨Nat.le_succ _, upd_ne _ _ hne, upd_ne _ _ hne, upd_ne _ _ hne, fun P hP => ?_, fun _ => upd_ne _ _ hne⟩
      exact upd_ne _ _ (Nat.ne_of_lt (sk.alloc _ _ hP).2)
    | newNode =>
      have hne : y ≠ s.heap.next := Nat.ne_of_lt hy
      refine ⟨Nat.le_succ _, upd_ne _ _ hne, upd_ne _ _ hne, upd_ne _ _ hne, fun P hP => ?_, fun _ => rfl⟩
      exact upd_ne _ _ (Nat.ne_of_lt (sk.alloc _ _ hP).2)
    | finishInit x i =>
      have hg : (s.exec spoil (.heap (.finishInit x i))).1.heap.toGraph = s.heap.toGraph := by
        rw [(exec_heap spoil s _).1]
        exact (Heap.finishInit_wf w ha.1 i).2.1
      refine Stays.of_graph hg (fun hpos => ?_)
      cases i with
      | false => rfl
      | true =>
        have he : (s.exec spoil (.heap (.finishInit x true))).1.mem =
            s.mem.connect spoil s.heap.toGraph (s.heap.toGraph.highest x) := by
          show (s.mem.connect spoil (Heap.notifyParentChange _ _).toGraph _) = _
          rw [Heap'.notify_graph]
          rfl
        rw [he]
        exact connect_stays w l hy hE hpos
    | init x =>
      have hg : (s.exec spoil (.heap (.init x))).1.heap.toGraph = s.heap.toGraph := by
        rw [(exec_heap spoil s _).1]
        exact (Heap.initialize_wf w ha).2.1
      refine Stays.of_graph hg (fun hpos => ?_)
      have he : (s.exec spoil (.heap (.init x))).1.mem =
          s.mem.connect spoil s.heap.toGraph (s.heap.toGraph.highest x) := by
        show (s.mem.connect spoil (Heap.notifyParentChange _ _).toGraph _) = _
        rw [Heap'.notify_graph]
      rw [he]
      exact connect_stays w l hy hE hpos
    | link p x index =>
      have ok : Heap.LinkOK s.heap p x index := ha
      obtain ⟨hp, hx⟩ := hE
      show Stays s (s.link spoil p x index).1 y
      rcases link_cases spoil w p x index with ⟨marks, he⟩ | ⟨hl, hpx, he⟩ | ⟨q, marks, A, B, hl, hk, he⟩
      · rw [he]; exact Stays.of_graph rfl (fun _ => rfl)
      · rw [he]; exact linkRoot_stays w l.lo ok hl hpx hp hx
      · rw [he]
        have st0 : Stays s (s.on fun h => { h with visited := marks }) y := Stays.of_graph rfl (fun _ => rfl)
        have w0 : (s.on fun h => { h with visited := marks }).heap.WF := w.visited marks
        have ok0 : Heap.LinkOK (s.on fun h => { h with visited := marks }).heap p x index :=
          ⟨ok.1, ok.2, ok.3, ok.4, ok.5⟩
        have hk0 : (s.on fun h => { h with visited := marks }).heap.kids q = A ++ x :: B := hk
        have hl0 : (s.on fun h => { h with visited := marks }).heap.leaf p = false := hl
        have lo0 : LeafOwn (s.on fun h => { h with visited := marks }).heap.toGraph
            (s.on fun h => { h with visited := marks }).mem := l.lo
        have hp0 : (s.on fun h => { h with visited := marks }).heap.toGraph.highest p ≠
            (s.on fun h => { h with visited := marks }).heap.toGraph.highest y := hp
        have hx0 : (s.on fun h => { h with visited := marks }).heap.toGraph.highest x ≠
            (s.on fun h => { h with visited := marks }).heap.toGraph.highest y := hx
        generalize (s.on fun h => { h with visited := marks }) = s0 at *
        obtain ⟨w1, i, -⟩ := Heap.unlinkChild_wf (h := s0.heap) w0 hk0
        have sk0 := w0.skel
        have hpx1 : (s0.unlinkChild spoil q x).heap.parent x = none := i.root
        have hl1 : (s0.unlinkChild spoil q x).heap.leaf p = false := by
          rw [unlinkChild_heap, ← show s0.heap.leaf = (s0.heap.unlinkChild q x).leaf from i.leaf]
          exact hl0
        have hqx : s0.heap.toGraph.highest x = s0.heap.toGraph.highest q :=
          highest_of_anc sk0 (Anc.of_parent (sk0.parent_of hk0))
        obtain ⟨st1, lo1⟩ := unlinkChild_stays (spoil := spoil) w0 lo0 hk0 (y := y) (by rw [← hqx]; exact hx0)
        have key : ∀ a, s0.heap.toGraph.highest a ≠ s0.heap.toGraph.highest y →
            (s0.unlinkChild spoil q x).heap.toGraph.highest a ≠ (s0.unlinkChild spoil q x).heap.toGraph.highest y := by
          intro a hne he
          have e1 := (w1.skel.highest_spec a).2
          have e2 := (w1.skel.highest_spec y).2
          rw [unlinkChild_heap] at he
          rw [he] at e1
          exact hne ((highest_of_anc sk0 (i.anc_mono e1)).trans (highest_of_anc sk0 (i.anc_mono e2)).symm)
        exact (st0.trans st1).trans (linkRoot_stays w1 lo1 (ok0.unlink w0 hk0) hl1 hpx1 (key p hp0) (key x hx0))
    | unlink q x =>
      show Stays s (s.unlink spoil q x).1 y
      unfold unlink
      split
      · exact Stays.refl s y
      · split
        · rename_i hx
          obtain ⟨A, B, hk⟩ := List.append_of_mem hx
          exact (unlinkChild_stays w l.lo hk hE).1
        · exact Stays.refl s y
    | constrain x c => exact Stays.of_graph ((Heap.constraining_wf w ha).1 c).2.graph (fun _ => rfl)
    | unconstrain x cs => exact Stays.of_graph ((Heap.constraining_wf w ha).2.1 cs).2.graph (fun _ => rfl)
    | fix x => exact Stays.of_graph (Heap.constraining_wf w ha).2.2.1.2.graph (fun _ => rfl)
    | unfix x => exact Stays.of_graph (Heap.constraining_wf w ha).2.2.2.2.graph (fun _ => rfl)

theorem copy_stays {s : State V T} (h : Reach spoil s) {x : Id} (ok : s.heap.CopyOK x) {y : Id} (hy : y < s.heap.next)
    (hl : s.heap.leaf y = true) : Stays s (s.copy spoil x).1 y := by
  have hh := (copy_heap spoil s x).1
  obtain ⟨c1, -, c3, c4, -⟩ := Heap.copy_keeps_original h.heap ok hy
  obtain ⟨-, ct⟩ := Heap.copy_shape h.heap ok
  refine ⟨?_, by rw [hh, c4], by rw [hh, c3], by rw [hh, c1], fun P hP => ?_, fun _ => ?_⟩
  · rw [hh]; exact (ct.fresh x .refl).1.trans (ct.fresh x .refl).2.le
  · rw [hh]; exact (Heap.copy_keeps_original h.heap ok (h.heap.wf.skel.alloc _ _ hP).2).2.1
  · refine ((copy_copyMem spoil h.heap.wf h.linked h.bounded ok.lt).old hy ?_).1
    by_cases hyx : y = x
    · subst hyx; exact .inr (.inl hl)
    · exact .inl hyx

theorem Since.stays {s s' : State V T} (h : Reach spoil s) {y : Id} (hy : y < s.heap.next) (hl : s.heap.leaf y = true)
    (hs : Since spoil y s s') : Reach spoil s' ∧ Stays s s' y := by
  induction hs with
  | refl => exact ⟨h, Stays.refl s y⟩
  | step _ ha hE ih =>
    obtain ⟨i1, i2⟩ := ih
    exact ⟨.step i1 ha, i2.trans (exec_stays i1 ha (Nat.lt_of_lt_of_le hy i2.next) hE)⟩
  | copy _ ok ih =>
    obtain ⟨i1, i2⟩ := ih
    exact ⟨.copy i1 ok, i2.trans (copy_stays i1 ok (Nat.lt_of_lt_of_le hy i2.next) (by rw [i2.leaf]; exact hl))⟩

/-- The position below the parent follows from the list. -/
theorem Stays.pidx {s s' : State V T} {y : Id} (sk : Skel s.heap.toGraph) (sk' : Skel s'.heap.toGraph) (a : Stays s s' y)
    {P : Id} (hP : s.heap.parent y = some P) : s'.heap.pidx y = s.heap.pidx y := by
  have h1 := sk.get_pidx hP
  refine sk'.pidx P _ y ?_
  show (s'.heap.kids P)[s.heap.pidx y]? = some y
  rw [a.kids P hP]; exact h1

end State

end Paramz.Memory

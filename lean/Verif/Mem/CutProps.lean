import Verif.Mem.Cut
import Verif.Mem.Domain

/-!
# C94: linking and unlinking cut and paste the lists of parameters
-/

set_option linter.unusedSectionVars false

namespace Paramz.Memory

open Hier (Id Graph Heap Con upd upd_same upd_ne)
open Hier.Heap (Target LinkOK insertPos)
open Hier.Graph (Skel Sized At Anc Ins)
open Opt (Ops flattened flattened_eq)

variable {V T W : Type} [DecidableEq T] {spoil : Nat → Nat → V}

namespace State

/-- The `Param` `y` has the same elements in `s'` as in `s`. -/
structure RowKept (s s' : State V T) (y : Id) : Prop where
  size : s'.heap.size y = s.heap.size y
  cons : ∀ t, s'.heap.constraints y t = s.heap.constraints y t
  read : ∀ i, i < s.heap.size y → s'.mem.read y i = s.mem.read y i

theorem RowKept.row {s s' : State V T} {y : Id} (k : RowKept s s' y) {P : List (Cell V T)} (h : s.IsRow y P) :
    s'.IsRow y P := by
  refine ⟨h.1.trans k.size.symm, fun i c hc => ?_⟩
  have hi : i < s.heap.size y := by rw [← h.1]; exact (List.getElem?_eq_some_iff.mp hc).1
  have hc' := h.2 i c hc
  exact ⟨by rw [k.read i hi]; exact hc'.val, by rw [k.cons]; exact hc'.fixed, fun t => by rw [k.cons]; exact hc'.tr t⟩

theorem rows_kept {s s' : State V T} {L : List Id} {S : Sheet V T} (h : List.Forall₂ (IsRow s) L S)
    (k : ∀ y ∈ L, RowKept s s' y) : List.Forall₂ (IsRow s') L S := by
  induction h with
  | nil => exact .nil
  | cons h1 _ ih =>
    exact .cons ((k _ List.mem_cons_self).row h1) (ih (fun y hy => k y (List.mem_cons_of_mem _ hy)))

theorem forall₂_cut {α β : Type} {R : α → β → Prop} {l1 l2 : List α} {S : List β}
    (h : List.Forall₂ R (l1 ++ l2) S) :
    List.Forall₂ R l1 (S.take l1.length) ∧ List.Forall₂ R l2 (S.drop l1.length) := by
  induction l1 generalizing S with
  | nil => exact ⟨by simp, by simpa using h⟩
  | cons a l1 ih =>
    cases h with
    | cons h1 h2 =>
      obtain ⟨k1, k2⟩ := ih h2
      exact ⟨by simpa using ⟨h1, k1⟩, by simpa using k2⟩

theorem forall₂_glue {α β : Type} {R : α → β → Prop} {l1 l2 : List α} {S1 S2 : List β}
    (h1 : List.Forall₂ R l1 S1) (h2 : List.Forall₂ R l2 S2) : List.Forall₂ R (l1 ++ l2) (S1 ++ S2) := by
  induction h1 with
  | nil => exact h2
  | cons h _ ih => exact .cons h ih

/-- Pasting. -/
theorem pastes {s s' : State V T} {r x : Id} {l1 l2 : List Id} (e2 : flattened s.heap.toGraph r = l1 ++ l2)
    (e3 : flattened s'.heap.toGraph r = l1 ++ (flattened s.heap.toGraph x ++ l2)) {S R : Sheet V T} (hS : s.IsSheet r S)
    (hR : s.IsSheet x R)
    (k : ∀ y, y ∈ flattened s.heap.toGraph r ∨ y ∈ flattened s.heap.toGraph x → RowKept s s' y) :
    s'.IsSheet r (S.paste l1.length R) := by
  have hS' := rows_kept hS (fun y hy => k y (.inl hy))
  have hR' := rows_kept hR (fun y hy => k y (.inr hy))
  rw [e2] at hS'
  obtain ⟨k1, k2⟩ := forall₂_cut hS'
  unfold IsSheet Sheet.paste
  rw [e3, List.append_assoc]
  exact forall₂_glue k1 (forall₂_glue hR' k2)

/-- Cutting. -/
theorem cuts {s s' : State V T} {r x : Id} {l1 l2 : List Id}
    (e3 : flattened s.heap.toGraph r = l1 ++ (flattened s.heap.toGraph x ++ l2))
    (e2 : flattened s'.heap.toGraph r = l1 ++ l2) {S R : Sheet V T} (hS : s.IsSheet r S) (hR : s.IsSheet x R)
    (k : ∀ y, y ∈ flattened s.heap.toGraph r → RowKept s s' y) :
    s'.IsSheet r (S.cut l1.length R.length) ∧ R = (S.drop l1.length).take R.length := by
  have hlen : (flattened s.heap.toGraph x).length = R.length := hR.length_eq
  have hS0 : List.Forall₂ (IsRow s) _ S := hS
  have hS' := rows_kept hS k
  rw [e3] at hS' hS0
  obtain ⟨k1, k2⟩ := forall₂_cut hS'
  obtain ⟨-, k2'⟩ := forall₂_cut k2
  obtain ⟨-, j2⟩ := forall₂_cut hS0
  obtain ⟨j1, -⟩ := forall₂_cut j2
  rw [hlen] at k2' j1
  rw [List.drop_drop] at k2'
  refine ⟨?_, ?_⟩
  · unfold IsSheet Sheet.cut
    rw [e2]
    exact forall₂_glue k1 k2'
  · exact IsSheet.unique (s := s) (r := x) hR j1

/-- Cutting and pasting. -/
theorem shuffles {s s' : State V T} {r x : Id} {l1 l2 l1' l2' : List Id} (e : l1 ++ l2 = l1' ++ l2')
    (e3 : flattened s.heap.toGraph r = l1 ++ (flattened s.heap.toGraph x ++ l2))
    (e4 : flattened s'.heap.toGraph r = l1' ++ (flattened s.heap.toGraph x ++ l2')) {S R : Sheet V T} (hS : s.IsSheet r S)
    (hR : s.IsSheet x R)
    (k : ∀ y, y ∈ flattened s.heap.toGraph r → RowKept s s' y) :
    s'.IsSheet r ((S.cut l1.length R.length).paste l1'.length R) := by
  have hlen : (flattened s.heap.toGraph x).length = R.length := hR.length_eq
  have hR' := rows_kept hR (fun y hy => k y (by rw [e3]; simp [hy]))
  have hS' := rows_kept hS k
  rw [e3] at hS'
  obtain ⟨k1, k2⟩ := forall₂_cut hS'
  obtain ⟨-, k2'⟩ := forall₂_cut k2
  rw [hlen, List.drop_drop] at k2'
  have hj := forall₂_glue k1 k2'
  rw [e] at hj
  obtain ⟨j1, j2⟩ := forall₂_cut hj
  unfold IsSheet Sheet.paste Sheet.cut
  rw [e4, List.append_assoc]
  exact forall₂_glue j1 (forall₂_glue hR' j2)

/-- Nothing happens to objects that are not above the gap. -/
theorem ins_off {s s' : State V T} {r : Id} (e : flattened s'.heap.toGraph r = flattened s.heap.toGraph r)
    {S : Sheet V T} (hS : s.IsSheet r S) (k : ∀ y ∈ flattened s.heap.toGraph r, RowKept s s' y) : s'.IsSheet r S := by
  unfold IsSheet
  rw [e]
  exact rows_kept hS k

/-! ### The calls -/

theorem kept_link {s : State V T} (h : Path spoil s) {p x : Id} {index : Option Int}
    (ha : s.Admissible (.heap (.link p x index))) (hp : s.Proper (.heap (.link p x index))) {y : Id}
    (hy : s.heap.leaf y = true) (hlt : y < s.heap.next) (hk : ¬ s.AtRisk spoil y (.heap (.link p x index))) :
    RowKept s (s.exec spoil (.heap (.link p x index))).1 y := by
  have hh : (s.exec spoil (.heap (.link p x index))).1.heap = (s.heap.link p x index).1 := (exec_heap spoil s _).1
  refine ⟨?_, fun t => ?_, values_kept_partial h ha hp (fun _ _ _ h => by cases h) hy hlt hk⟩
  · rw [hh]
    have := link_param_size (spoil := spoil) h.reach.heap.wf (p := p) (x := x) (index := index) ha hy
    rwa [(link_heap spoil s p x index).1] at this
  · rw [hh]
    exact Heap.link_keeps_param_partial h.reach.heap ha hlt hy t

theorem kept_unlink {s : State V T} (h : Path spoil s) {q x : Id}
    (hp : s.Proper (.heap (.unlink q x))) {y : Id}
    (hy : s.heap.leaf y = true) (hlt : y < s.heap.next) (hk : ¬ s.AtRisk spoil y (.heap (.unlink q x))) :
    RowKept s (s.exec spoil (.heap (.unlink q x))).1 y := by
  have hh : (s.exec spoil (.heap (.unlink q x))).1.heap = (s.heap.unlink q x).1 := (exec_heap spoil s _).1
  refine ⟨?_, fun t => ?_, values_kept_partial (e := .heap (.unlink q x)) h trivial hp (fun _ _ _ h => by cases h) hy hlt hk⟩
  · rw [hh]
    exact (unlink_param_size h.reach.heap.wf hy).2.2
  · rw [hh]
    exact Heap.unlink_keeps_param h.reach.heap hlt hy t

/-- A link that succeeds, of something that has no parent: an insertion. -/
theorem link_new_ins {h : Heap T} (w : h.WF) {p x : Id} {index : Option Int} (ok : LinkOK h p x index)
    (he : (h.link p x index).2 = none) (hx : h.parent x = none) :
    (h.link p x index).1.WF ∧ Ins h.toGraph (h.link p x index).1.toGraph p x
      ((h.kids p).take (insertPos (h.kids p) index)) ((h.kids p).drop (insertPos (h.kids p) index)) ∧
    Heap.Grow h (h.link p x index).1 := by
  have hl : h.leaf p = false := by
    rw [← Bool.not_eq_true]
    intro hl
    unfold Heap.link at he
    rw [if_pos hl] at he
    cases he
  have hxk : x ∉ h.kids p := by
    intro hm
    rw [show h.parent x = some p from (w.skel.mem_iff _ _).mp hm] at hx
    cases hx
  have e : h.link p x index = h.linkRoot p x index := by
    unfold Heap.link Heap.linkNew
    rw [if_neg (by simp [hl]), if_neg hxk, hx]
  rw [e]
  obtain ⟨w1, i, -⟩ := Heap.linkRoot_wf w ok.ltx ok.ltp hx hl ok.outside ok.ready (ok.pos w hx)
  exact ⟨w1, i, Heap.linkRoot_grow w ok hl hx⟩

/-- A link that succeeds, of something that has a parent: taken out there and inserted. -/
theorem link_moved_ins {h : Heap T} (w : h.WF) {p x q : Id} {index : Option Int} (ok : LinkOK h p x index)
    (he : (h.link p x index).2 = none) (hx : h.parent x = some q) :
    (h.link p x index).1.WF ∧ ∃ (G : Graph) (A B : List Id), Skel G ∧ h.kids q = A ++ x :: B ∧
      Ins G h.toGraph q x A B ∧
      Ins G (h.link p x index).1.toGraph p x ((G.kids p).take (insertPos (G.kids p) index))
        ((G.kids p).drop (insertPos (G.kids p) index)) := by
  have hl : h.leaf p = false := by
    rw [← Bool.not_eq_true]
    intro hl
    unfold Heap.link at he
    rw [if_pos hl] at he
    cases he
  obtain ⟨A, B, hk⟩ := List.append_of_mem ((w.skel.mem_iff _ _).mpr hx)
  obtain ⟨marks, e⟩ : ∃ marks, h.link p x index = (({ h with visited := marks } : Heap T).unlinkChild q x).linkRoot p x index := by
    unfold Heap.link at he ⊢
    rw [if_neg (by simp [hl])] at he ⊢
    by_cases hm : x ∈ h.kids p
    · have hqp : q = p := by
        have := (w.skel.mem_iff _ _).mp hm
        rw [show h.toGraph.parent x = some q from hx] at this
        exact Option.some.inj this
      subst hqp
      rw [if_pos hm] at he ⊢
      cases index with
      | none => cases he
      | some j =>
        obtain ⟨w1, i, -⟩ := Heap.unlinkChild_wf w hk
        refine ⟨h.visited, ?_⟩
        show (h.unlinkChild q x).linkNew q x (some j) = _
        unfold Heap.linkNew
        rw [show (h.unlinkChild q x).parent x = none from i.root]
    · rw [if_neg hm] at he ⊢
      unfold Heap.linkNew at he ⊢
      rw [hx] at he ⊢
      dsimp only at he ⊢
      split at he
      · cases he
      · rename_i hr
        exact ⟨_, if_neg hr⟩
  have w0 := w.visited marks
  have hk0 : ({ h with visited := marks } : Heap T).kids q = A ++ x :: B := hk
  have ok0 : LinkOK ({ h with visited := marks } : Heap T) p x index := ⟨ok.1, ok.2, ok.3, ok.4, ok.5⟩
  have g0 : ({ h with visited := marks } : Heap T).toGraph = h.toGraph := rfl
  have l0 : ({ h with visited := marks } : Heap T).leaf = h.leaf := rfl
  rw [e]
  generalize ({ h with visited := marks } : Heap T) = h0 at *
  obtain ⟨w1, i, -⟩ := Heap.unlinkChild_wf w0 hk0
  have ok1 := ok0.unlink w0 hk0
  have hl1 : (h0.unlinkChild q x).leaf p = false := by
    rw [← show h0.leaf = (h0.unlinkChild q x).leaf from i.leaf, l0]; exact hl
  obtain ⟨w2, i2, -⟩ := Heap.linkRoot_wf w1 ok1.ltx ok1.ltp i.root hl1 ok1.outside ok1.ready (ok1.pos w1 i.root)
  exact ⟨w2, _, A, B, w1.skel, hk, g0 ▸ i, i2⟩

/-- None of the `Param`s of `x` loses its values in the call (C35). -/
def Safe (spoil : Nat → Nat → V) (s : State V T) (x : Id) (e : Ev V T) : Prop :=
  ∀ y ∈ flattened s.heap.toGraph x, ¬ s.AtRisk spoil y e

theorem flattened_lt {s : State V T} (h : Path spoil s) {r : Id} (hr : r < s.heap.next) {y : Id}
    (hy : y ∈ flattened s.heap.toGraph r) : y < s.heap.next ∧ s.heap.leaf y = true := by
  obtain ⟨k, hk⟩ := List.getElem?_of_mem hy
  obtain ⟨a, b, -⟩ := flattened_spec h hr hk
  exact ⟨a, b⟩

/-- **C94.** Linking an object that is in no hierarchy: the rows of its sheet are put into the sheet of everything that
contains the place, at this place, and nothing else changes. Missing for the full claim: `Param`s that lose their values
(C35, `link_values_fails`). -/
theorem link_pastes_partial {s : State V T} (h : Path spoil s) {p x : Id} {index : Option Int}
    (ha : s.Admissible (.heap (.link p x index))) (hp : s.Proper (.heap (.link p x index)))
    (he : (s.exec spoil (.heap (.link p x index))).2 = none) (hx : s.heap.parent x = none) {r : Id} {q : Nat}
    (hr : Gap s.heap.toGraph r p (place (s.heap.kids p).length index) q) {S R : Sheet V T} (hS : s.IsSheet r S)
    (hR : s.IsSheet x R) (kr : s.Safe spoil r (.heap (.link p x index))) (kx : s.Safe spoil x (.heap (.link p x index))) :
    (s.exec spoil (.heap (.link p x index))).1.IsSheet r (S.paste q R) := by
  have w := h.reach.heap.wf
  have ok : LinkOK s.heap p x index := ha
  obtain ⟨hh, hh2⟩ := exec_heap spoil s (.link p x index)
  obtain ⟨w1, i, -⟩ := link_new_ins w ok (hh2.symm.trans he) hx
  have w1 : Skel (s.exec spoil (.heap (.link p x index))).1.heap.toGraph := by rw [hh]; exact w1.skel
  rw [show (s.heap.link p x index).1 = (s.exec spoil (.heap (.link p x index))).1.heap from hh.symm] at i
  have hlen : ((s.heap.kids p).take (insertPos (s.heap.kids p) index)).length = place (s.heap.kids p).length index := by
    rw [List.length_take, insertPos_place, Nat.min_eq_left]
    rw [← insertPos_place]
    exact Heap.insertPos_le _ _
  rw [← hlen] at hr
  obtain ⟨-, l1, l2, rfl, e2, e3⟩ := flattened_gap w.skel w1 i hr
  have hrlt : r < s.heap.next := w.skel.anc_lt (hr.anc w.skel) ok.ltp
  refine pastes e2 e3 hS hR (fun y hy => ?_)
  rcases hy with hy | hy
  · obtain ⟨a, b⟩ := flattened_lt h hrlt hy
    exact kept_link h ha hp b a (kr y hy)
  · obtain ⟨a, b⟩ := flattened_lt h ok.ltx hy
    exact kept_link h ha hp b a (kx y hy)

/-- **C94.** Linking leaves the sheets of objects that do not contain the place alone, in particular that of the object
linked and of what is inside it. -/
theorem link_leaves_partial {s : State V T} (h : Path spoil s) {p x : Id} {index : Option Int}
    (ha : s.Admissible (.heap (.link p x index))) (hp : s.Proper (.heap (.link p x index)))
    (he : (s.exec spoil (.heap (.link p x index))).2 = none) {r : Id} (hr : r < s.heap.next)
    (hrp : ¬ Anc s.heap.toGraph r p) (hrx : ∀ q, s.heap.parent x = some q → ¬ Anc s.heap.toGraph r q)
    {S : Sheet V T} (hS : s.IsSheet r S) (kr : s.Safe spoil r (.heap (.link p x index))) :
    (s.exec spoil (.heap (.link p x index))).1.IsSheet r S := by
  have w := h.reach.heap.wf
  have ok : LinkOK s.heap p x index := ha
  obtain ⟨hh, hh2⟩ := exec_heap spoil s (.link p x index)
  have key : flattened (s.exec spoil (.heap (.link p x index))).1.heap.toGraph r = flattened s.heap.toGraph r := by
    rw [hh]
    show flattened (s.heap.link p x index).1.toGraph r = _
    cases hx : s.heap.parent x with
    | none =>
      obtain ⟨w1, i, -⟩ := link_new_ins w ok (hh2.symm.trans he) hx
      exact flattened_off w.skel w1.skel i hrp
    | some q =>
      obtain ⟨w1, G, A, B, sG, -, i, i2⟩ := link_moved_ins w ok (hh2.symm.trans he) hx
      have h1 : ¬ Anc G r q := fun hn => hrx q hx (i.anc_mono hn)
      have h2 : ¬ Anc G r p := fun hn => hrp (i.anc_mono hn)
      rw [flattened_off sG w1.skel i2 h2, flattened_off sG w.skel i h1]
  refine ins_off key hS (fun y hy => ?_)
  obtain ⟨a, b⟩ := flattened_lt h hr hy
  exact kept_link h ha hp b a (kr y hy)

/-- **C94.** Unlinking: the rows of the object are cut out of the sheet of everything that contained it. They are its own
sheet, before and after. Missing for the full claim: `Param`s that lose their values (C35, `unlink_values_fails`). -/
theorem unlink_cuts_partial {s : State V T} (h : Path spoil s) {p x : Id} (hp : s.Proper (.heap (.unlink p x))) {k : Nat}
    (hx : (s.heap.kids p)[k]? = some x) {r : Id} {q : Nat} (hr : Gap s.heap.toGraph r p k q) {S R : Sheet V T}
    (hS : s.IsSheet r S) (hR : s.IsSheet x R) (kr : s.Safe spoil r (.heap (.unlink p x))) :
    R = (S.drop q).take R.length ∧ (s.exec spoil (.heap (.unlink p x))).1.IsSheet r (S.cut q R.length) ∧
    (s.exec spoil (.heap (.unlink p x))).1.IsSheet x R := by
  have w := h.reach.heap.wf
  obtain ⟨hh, -⟩ := exec_heap spoil s (.unlink p x)
  obtain ⟨hlt, hxk⟩ := List.getElem?_eq_some_iff.mp hx
  have hk : s.heap.kids p = (s.heap.kids p).take k ++ x :: (s.heap.kids p).drop (k + 1) := by
    conv_lhs => rw [← List.take_append_drop k (s.heap.kids p), List.drop_eq_getElem_cons hlt, hxk]
  have hpar := w.skel.parent_of hk
  have hl : s.heap.leaf p = false := w.skel.kids_not_leaf hpar
  have e : (s.heap.unlink p x).1 = s.heap.unlinkChild p x := by
    unfold Heap.unlink
    rw [if_neg (by simp [hl]), if_pos (List.mem_of_getElem? hx)]
  obtain ⟨w1, i, -⟩ := Heap.unlinkChild_wf w hk
  have hh' : s.heap.unlinkChild p x = (s.exec spoil (.heap (.unlink p x))).1.heap := e.symm.trans hh.symm
  rw [hh'] at w1 i
  have hlen : ((s.heap.kids p).take k).length = k := by rw [List.length_take]; omega
  have hpl : p < s.heap.next := (w.skel.alloc _ _ hpar).2
  have hxl : x < s.heap.next := (w.skel.alloc _ _ hpar).1
  have hrlt : r < s.heap.next := w.skel.anc_lt (hr.anc w.skel) hpl
  obtain ⟨q', hg'⟩ := exists_gap w1.skel (i.anc_p.mp (hr.anc w.skel)) ((s.heap.kids p).take k).length
  obtain ⟨hg2, l1, l2, e1, e2, e3⟩ := flattened_gap w1.skel w.skel i hg'
  rw [hlen] at hg2
  obtain rfl := hr.unique w.skel hg2
  have hfx := (flattened_off w1.skel w.skel i i.notanc).symm
  rw [hfx] at e3
  have kept : ∀ y ∈ flattened s.heap.toGraph r, RowKept s (s.exec spoil (.heap (.unlink p x))).1 y := by
    intro y hy
    obtain ⟨a, b⟩ := flattened_lt h hrlt hy
    exact kept_unlink h hp b a (kr y hy)
  subst e1
  obtain ⟨c1, c2⟩ := cuts e3 e2 hS hR kept
  refine ⟨c2, c1, ins_off hfx hR (fun y hy => kept y ?_)⟩
  rw [e3]
  simp [hy]

/-- **C94.** Unlinking leaves the sheets of objects that did not contain the object alone. -/
theorem unlink_leaves_partial {s : State V T} (h : Path spoil s) {p x : Id} (hp : s.Proper (.heap (.unlink p x)))
    {r : Id} (hrl : r < s.heap.next) (hr : ¬ Anc s.heap.toGraph r p) {S : Sheet V T} (hS : s.IsSheet r S)
    (kr : s.Safe spoil r (.heap (.unlink p x))) : (s.exec spoil (.heap (.unlink p x))).1.IsSheet r S := by
  have w := h.reach.heap.wf
  obtain ⟨hh, -⟩ := exec_heap spoil s (.unlink p x)
  have key : flattened (s.exec spoil (.heap (.unlink p x))).1.heap.toGraph r = flattened s.heap.toGraph r := by
    rw [hh]
    show flattened (s.heap.unlink p x).1.toGraph r = _
    unfold Heap.unlink
    split
    · rfl
    · split
      · rename_i hx
        obtain ⟨A, B, hk⟩ := List.append_of_mem hx
        obtain ⟨w1, i, -⟩ := Heap.unlinkChild_wf w hk
        exact (flattened_off w1.skel w.skel i (fun hn => hr (i.anc_mono hn))).symm
      · rfl
  refine ins_off key hS (fun y hy => ?_)
  obtain ⟨a, b⟩ := flattened_lt h hrl hy
  exact kept_unlink h hp b a (kr y hy)

/-- **C94.** Linking an object of another hierarchy moves its rows: they are cut out of the sheets of what contained it and
does not contain the new place, and put into the sheets of what contains the new place and did not contain it. -/
theorem link_moves_partial {s : State V T} (h : Path spoil s) {p x p0 : Id} {index : Option Int}
    (ha : s.Admissible (.heap (.link p x index))) (hp : s.Proper (.heap (.link p x index)))
    (he : (s.exec spoil (.heap (.link p x index))).2 = none) {k : Nat} (hx : (s.heap.kids p0)[k]? = some x)
    {R : Sheet V T} (hR : s.IsSheet x R) (kx : s.Safe spoil x (.heap (.link p x index))) :
    (∀ r q S, Gap s.heap.toGraph r p0 k q → ¬ Anc s.heap.toGraph r p → s.IsSheet r S →
      s.Safe spoil r (.heap (.link p x index)) →
      (s.exec spoil (.heap (.link p x index))).1.IsSheet r (S.cut q R.length)) ∧
    (∀ r q S, Gap s.heap.toGraph r p (place (s.heap.kids p).length index) q → ¬ Anc s.heap.toGraph r p0 →
      s.IsSheet r S → s.Safe spoil r (.heap (.link p x index)) →
      (s.exec spoil (.heap (.link p x index))).1.IsSheet r (S.paste q R)) := by
  have w := h.reach.heap.wf
  have ok : LinkOK s.heap p x index := ha
  obtain ⟨hh, hh2⟩ := exec_heap spoil s (.link p x index)
  have hpar : s.heap.parent x = some p0 := (w.skel.mem_iff _ _).mp (List.mem_of_getElem? hx)
  obtain ⟨w1, G, A, B, sG, hk, i, i2⟩ := link_moved_ins w ok (hh2.symm.trans he) hpar
  have w1 : Skel (s.exec spoil (.heap (.link p x index))).1.heap.toGraph := by rw [hh]; exact w1.skel
  rw [show (s.heap.link p x index).1 = (s.exec spoil (.heap (.link p x index))).1.heap from hh.symm] at i2
  have hkA : A.length = k := by
    have e1 := w.skel.pidx p0 A.length x (by
      show (s.heap.kids p0)[A.length]? = _
      rw [hk]; simp)
    have e2 := w.skel.pidx p0 k x hx
    rw [← e1, e2]
  have hfx : flattened s.heap.toGraph x = flattened G x := flattened_off sG w.skel i i.notanc
  have kept : ∀ {r y : Id}, r < s.heap.next → y ∈ flattened s.heap.toGraph r →
      s.Safe spoil r (.heap (.link p x index)) → RowKept s (s.exec spoil (.heap (.link p x index))).1 y := by
    intro r y hr hy kr
    obtain ⟨a, b⟩ := flattened_lt h hr hy
    exact kept_link h ha hp b a (kr y hy)
  constructor
  · intro r q S hr hn hS kr
    have hrlt : r < s.heap.next := w.skel.anc_lt (hr.anc w.skel) (w.skel.alloc _ _ hpar).2
    obtain ⟨q', hg'⟩ := exists_gap sG (i.anc_p.mp (hr.anc w.skel)) A.length
    obtain ⟨hg2, l1, l2, e1, e2, e3⟩ := flattened_gap sG w.skel i hg'
    rw [hkA] at hg2
    obtain rfl := hr.unique w.skel hg2
    have e4 := flattened_off sG w1 i2 (y := r) (fun hn' => hn (i.anc_mono hn'))
    subst e1
    exact (cuts (by rw [hfx]; exact e3) (e4.trans e2) hS hR (fun y hy => kept hrlt hy kr)).1
  · intro r q S hr hn hS kr
    have hrlt : r < s.heap.next := w.skel.anc_lt (hr.anc w.skel) ok.ltp
    have hnG : ¬ Anc G r p0 := fun hn' => hn (i.anc_mono hn')
    have hpp : p ≠ p0 := by rintro rfl; exact hn (hr.anc w.skel)
    have hkp : G.kids p = s.heap.kids p := (i.kids_ne p hpp).symm
    have hlen : ((G.kids p).take (insertPos (G.kids p) index)).length = place (s.heap.kids p).length index := by
      rw [List.length_take, hkp, insertPos_place, Nat.min_eq_left]
      rw [← insertPos_place]
      exact Heap.insertPos_le _ _
    have hrG := gap_off sG w.skel i hnG hr
    rw [← hlen] at hrG
    obtain ⟨-, l1, l2, rfl, e2, e3⟩ := flattened_gap sG w1 i2 hrG
    have e4 := flattened_off sG w.skel i hnG
    rw [← hfx] at e3
    refine pastes (e4.trans e2) e3 hS hR (fun y hy => ?_)
    rcases hy with hy | hy
    · exact kept hrlt hy kr
    · exact kept ok.ltx hy kx

/-- **C94.** Linking a parameter of `p` to `p` again, with a position: its rows are cut out and put in at the place among
the other parameters of `p`. -/
theorem link_shuffles_partial {s : State V T} (h : Path spoil s) {p x : Id} {index : Option Int}
    (ha : s.Admissible (.heap (.link p x index))) (hp : s.Proper (.heap (.link p x index)))
    (he : (s.exec spoil (.heap (.link p x index))).2 = none) {A B : List Id} (hx : s.heap.kids p = A ++ x :: B)
    {r : Id} {q : Nat} (hr : Gap s.heap.toGraph r p 0 q) {S R : Sheet V T} (hS : s.IsSheet r S) (hR : s.IsSheet x R)
    (kr : s.Safe spoil r (.heap (.link p x index))) :
    (s.exec spoil (.heap (.link p x index))).1.IsSheet r
      ((S.cut (q + rowsIn s.heap.toGraph A) R.length).paste
        (q + rowsIn s.heap.toGraph ((A ++ B).take (place (A ++ B).length index))) R) := by
  have w := h.reach.heap.wf
  have ok : LinkOK s.heap p x index := ha
  obtain ⟨hh, hh2⟩ := exec_heap spoil s (.link p x index)
  have hpar : s.heap.parent x = some p := w.skel.parent_of hx
  obtain ⟨w1, G, A', B', sG, hk, i, i2⟩ := link_moved_ins w ok (hh2.symm.trans he) hpar
  have w1 : Skel (s.exec spoil (.heap (.link p x index))).1.heap.toGraph := by rw [hh]; exact w1.skel
  rw [show (s.heap.link p x index).1 = (s.exec spoil (.heap (.link p x index))).1.heap from hh.symm] at i2
  have hkA : A'.length = A.length := by
    have e1 := w.skel.pidx p A'.length x (by
      show (s.heap.kids p)[A'.length]? = _
      rw [hk]; simp)
    have e2 := w.skel.pidx p A.length x (by
      show (s.heap.kids p)[A.length]? = _
      rw [hx]; simp)
    rw [← e1, e2]
  rw [hx] at hk
  obtain ⟨rfl, h3⟩ := List.append_inj hk hkA.symm
  obtain ⟨-, rfl⟩ := List.cons.inj h3
  have hrlt : r < s.heap.next := w.skel.anc_lt (hr.anc w.skel) ok.ltp
  have hfx : flattened s.heap.toGraph x = flattened G x := flattened_off sG w.skel i i.notanc
  have h0 := gap_zero sG w.skel i hr
  have hka := Ins.kids_not_anc sG i
  have rows : ∀ l : List Id, (∀ c ∈ l, c ∈ A ++ B) → rowsIn s.heap.toGraph l = rowsIn G l := by
    intro l hl
    unfold rowsIn
    rw [flatMap_off sG w.skel i (fun c hc => ?_)]
    rcases List.mem_append.mp (hl c hc) with h | h
    · exact hka.1 c h
    · exact hka.2 c h
  have g1 := h0.later A.length
  have eA : (G.kids p).take A.length = A := by rw [i.kids_p]; simp
  rw [eA, ← rows A (fun c hc => List.mem_append_left _ hc)] at g1
  obtain ⟨-, l1, l2, e1, e2, e3⟩ := flattened_gap sG w.skel i g1
  have g2 := h0.later ((G.kids p).take (insertPos (G.kids p) index)).length
  have hle := Heap.insertPos_le (G.kids p) index
  have hlen : ((G.kids p).take (insertPos (G.kids p) index)).length = insertPos (G.kids p) index := by
    rw [List.length_take, Nat.min_eq_left hle]
  have eP : (G.kids p).take ((G.kids p).take (insertPos (G.kids p) index)).length =
      (A ++ B).take (place (A ++ B).length index) := by
    rw [hlen, insertPos_place, i.kids_p]
  rw [eP, ← rows _ (fun c hc => List.mem_of_mem_take hc)] at g2
  obtain ⟨-, l1', l2', e1', e2', e3'⟩ := flattened_gap sG w1 i2 g2
  rw [← hfx] at e3 e3'
  rw [← e1, ← e1']
  refine shuffles (e2.symm.trans e2') e3 e3' hS hR (fun y hy => ?_)
  obtain ⟨a, b⟩ := flattened_lt h hrlt hy
  exact kept_link h ha hp b a (kr y hy)

/-! ### Nobody at risk -/

theorem safe_link {s : State V T} (h : Path spoil s) {p x : Id} {index : Option Int}
    (ha : s.Admissible (.heap (.link p x index))) (hx : s.heap.parent x = none)
    (hshallow : s.heap.parent p = none ∨ ∃ r, s.heap.parent p = some r ∧ s.heap.parent r = none) (z : Id) :
    s.Safe spoil z (.heap (.link p x index)) := by
  intro y _
  have w := h.reach.heap.wf
  have ok : LinkOK s.heap p x index := ha
  have hpx : p ≠ x := by rintro rfl; exact ok.outside .refl
  have hpar : ∀ n, n ≠ x → (s.link spoil p x index).1.heap.parent n = s.heap.parent n := by
    intro n hn
    rcases link_cases spoil w p x index with ⟨marks, he⟩ | ⟨hl, -, he⟩ | ⟨q, marks, A, B, hl, hk, he⟩
    · rw [he]; rfl
    · rw [he, (linkRoot_heap spoil s p x index).1]
      obtain ⟨-, i, -⟩ := Heap.linkRoot_wf w ok.ltx ok.ltp hx hl ok.outside ok.ready (ok.pos w hx)
      exact i.parent_ne n hn
    · rw [show s.heap.parent x = some q from w.skel.parent_of hk] at hx; cases hx
  rintro (hb | ⟨q, q', hq, -⟩)
  · rcases hshallow with h1 | ⟨r, h1, h2⟩
    · exact not_belowGrandchild_root (by rw [hpar p hpx]; exact h1) y hb
    · by_cases hrx : r = x
      · subst hrx
        exact ok.outside (Anc.of_parent h1)
      · exact not_belowGrandchild_child (r := r) (by rw [hpar p hpx]; exact h1)
          (by rw [hpar r hrx]; exact h2) y hb
  · rw [hx] at hq; cases hq

theorem safe_unlink {s : State V T} {q x : Id}
    (hshallow : s.heap.parent q = none ∨ ∃ r, s.heap.parent q = some r ∧
      (s.heap.parent r = none ∨ ∃ r', s.heap.parent r = some r' ∧ s.heap.parent r' = none)) (z : Id) :
    s.Safe spoil z (.heap (.unlink q x)) := by
  rintro y - ⟨q', hq', hb, -⟩
  rcases hshallow with h1 | ⟨r, h1, h2⟩
  · rw [h1] at hq'; cases hq'
  · rw [h1] at hq'
    cases hq'
    rcases h2 with h2 | ⟨r', h2, h3⟩
    · exact not_belowGrandchild_root h2 y hb
    · exact not_belowGrandchild_child h2 h3 y hb

/-! ### There and back -/

/-- `h'` has the same objects in the same places, initialised if they were. -/
structure Alike (h h' : Heap T) : Prop where
  next : h'.next = h.next
  leaf : h'.leaf = h.leaf
  kids : ∀ y, h'.kids y = h.kids y
  parent : ∀ y, h'.parent y = h.parent y
  size : ∀ y, h'.size y = h.size y
  done : ∀ y, Done h y → Done h' y

theorem Alike.flattened {h h' : Heap T} (e : Alike h h') (y : Id) :
    flattened h'.toGraph y = flattened h.toGraph y := by
  have key : ∀ (n : Nat) (y : Id), Opt.flattenedF n h'.toGraph y = Opt.flattenedF n h.toGraph y := by
    intro n
    induction n with
    | zero => intro y; rfl
    | succ n ih =>
      intro y
      rw [Opt.flattenedF, Opt.flattenedF, show h'.toGraph.leaf y = h.toGraph.leaf y from congrFun e.leaf y,
        show h'.toGraph.kids y = h.toGraph.kids y from e.kids y]
      split
      · rfl
      · exact List.flatMap_congr (fun c _ => ih c)
  unfold Opt.flattened
  rw [show h'.toGraph.fuel = h.toGraph.fuel from congrArg (· + 1) e.next]
  exact key _ _

theorem Alike.anc {h h' : Heap T} (e : Alike h h') {x y : Id} : Anc h.toGraph x y → Anc h'.toGraph x y :=
  (Hier.Graph.anc_of_parent_eq (g := h.toGraph) (g' := h'.toGraph) (funext e.parent)).mpr

theorem Alike.spots {h h' : Heap T} (e : Alike h h') (r : Id) : spots h'.toGraph r = spots h.toGraph r := by
  funext x q i
  unfold Memory.spots
  rw [e.flattened, e.flattened]

theorem Alike.inside {h h' : Heap T} (e : Alike h h') {r : Id} {x : Target} (hx : Inside h r x) : Inside h' r x := by
  obtain ⟨⟨a, b⟩, c, d⟩ := hx
  refine ⟨⟨by rw [e.next]; exact a, fun l hl => ?_⟩, e.anc c, ?_⟩
  · obtain ⟨k1, k2⟩ := b l hl
    exact ⟨by rw [e.leaf]; exact k1, fun i hi => by rw [e.size]; exact k2 i hi⟩
  · rcases d with d | d
    · exact .inl (by rw [e.leaf]; exact d)
    · exact .inr (e.done _ d)

theorem Alike.allFit {h h' : Heap T} (e : Alike h h') {o : Ops V T} {F : List V → W} {g : List V → List V} {r : Id} :
    ∀ (ds : List (Deed Target V T W)) {S : Sheet V T} {n : Notes}, AllFit o F g h r ds S n → AllFit o F g h' r ds S n
  | [], _, _, _ => trivial
  | d :: ds, S, n, hd => by
    refine ⟨?_, ?_⟩
    · have hd := hd.1
      cases d with
      | put x vs => exact ⟨e.inside hd.1, by rw [e.leaf]; exact hd.2.1, hd.2.2.1, by rw [e.size]; exact hd.2.2.2⟩
      | assign x v => exact e.inside hd
      | constrain x t => exact e.inside hd
      | unconstrain x ts => exact e.inside hd
      | fix x => exact e.inside hd
      | unfix x => exact e.inside hd
      | values => exact hd
      | read => exact hd
      | set p => exact hd
      | optimize p => exact hd
    · rw [e.spots]
      exact e.allFit ds hd.2

/-- **C94.** Taking a parameter out of a model, or out of a child of the model, and linking it again at its old place gives
the model its sheet back. -/
theorem there_and_back {s : State V T} (h : Path spoil s) {r p x : Id} (m : s.Model r)
    (hpr : p = r ∨ s.heap.parent p = some r) {k : Nat} (hx : (s.heap.kids p)[k]? = some x)
    (hroom : p ≠ r ∨ s.heap.kids p ≠ [x]) {S : Sheet V T} (hS : s.IsSheet r S) :
    let s1 := (s.exec spoil (.heap (.unlink p x))).1
    let e := s1.exec spoil (.heap (.link p x (some k)))
    e.2 = none ∧ Path spoil e.1 ∧ e.1.Model r ∧ e.1.IsSheet r S ∧ Alike s.heap e.1.heap := by
  intro s1 e
  have w := h.reach.heap.wf
  have hpar : s.heap.parent x = some p := (w.skel.mem_iff _ _).mp (List.mem_of_getElem? hx)
  have hl : s.heap.leaf p = false := w.skel.kids_not_leaf hpar
  have hrp : Anc s.heap.toGraph r p := by
    rcases hpr with rfl | hpr
    · exact .refl
    · exact Anc.of_parent hpr
  have hhigh : s.heap.toGraph.highest p = r := w.skel.highest_eq m.root hrp
  have hp : s.Proper (.heap (.unlink p x)) := by
    show Done s.heap (s.heap.toGraph.highest p)
    rw [hhigh]; exact m.done
  have hsh : s.heap.parent p = none ∨ ∃ r, s.heap.parent p = some r ∧ s.heap.parent r = none := by
    rcases hpr with rfl | hpr
    · exact .inl m.root
    · exact .inr ⟨r, hpr, m.root⟩
  obtain ⟨hlt, hxk⟩ := List.getElem?_eq_some_iff.mp hx
  have hk : s.heap.kids p = (s.heap.kids p).take k ++ x :: (s.heap.kids p).drop (k + 1) := by
    conv_lhs => rw [← List.take_append_drop k (s.heap.kids p), List.drop_eq_getElem_cons hlt, hxk]
  have hh1 : s1.heap = s.heap.unlinkChild p x := by
    show (s.exec spoil (.heap (.unlink p x))).1.heap = _
    rw [(exec_heap spoil s (.unlink p x)).1]
    show (s.heap.unlink p x).1 = _
    unfold Heap.unlink
    rw [if_neg (by simp [hl]), if_pos (List.mem_of_getElem? hx)]
  have P1 : Path spoil s1 := .step (e := .heap (.unlink p x)) h trivial hp
  obtain ⟨w1, i, -⟩ := Heap.unlinkChild_wf w hk
  have gr1 := Heap.unlinkChild_grow w hk
  have hxp : ¬ Anc s.heap.toGraph x p := w.skel.not_anc_parent hpar
  have hkl : ((s.heap.kids p).take k).length = k := by rw [List.length_take]; omega
  have ok0 : LinkOK s.heap p x (some (k : Int)) := by
    refine ⟨(w.skel.alloc _ _ hpar).2, (w.skel.alloc _ _ hpar).1, hxp, ?_, ?_⟩
    · rcases hpr with rfl | hpr
      · exact .inl m.root
      · right
        refine ⟨?_, by rw [hhigh]; exact m.done.2⟩
        rcases h.tidy.kind p (w.skel.alloc _ _ hpar).2 with (h1 | h1) | h1
        · rw [hl] at h1; cases h1
        · exact h1.1
        · have h2 := h1.1
          rw [hpr] at h2; cases h2
    · intro j hj
      cases hj
      have hn := w.skel.nodup p
      rw [show s.heap.toGraph.kids p = s.heap.kids p from rfl, hk] at hn
      rw [hk]
      have h1 : ∀ a ∈ (s.heap.kids p).take k, a ≠ x := by
        intro a ha e
        exact (List.nodup_append.mp hn).2.2 a ha x (by simp) e
      rw [List.filter_append, List.filter_eq_self.mpr (fun a ha => by simpa using h1 a ha), List.length_append, hkl]
      omega
  have ok1 := ok0.unlink w hk
  rw [← hh1] at w1 i gr1 ok1
  have ha1 : s1.Admissible (.heap (.link p x (some (k : Int)))) := ok1
  have hx1 : s1.heap.parent x = none := i.root
  have hp1 : s1.Proper (.heap (.link p x (some (k : Int)))) := by
    refine ⟨?_, ?_, fun q hq => ?_⟩
    · rcases P1.tidy.kind x ok1.ltx with h1 | h1
      · exact h1
      · have h2 : Settled s.heap x := by
          rcases h.tidy.kind x ok0.ltx with h1 | h1
          · exact h1
          · have h2 := h1.1
            rw [hpar] at h2; cases h2
        rcases h2 with h2 | h2
        · exact .inl (by rw [← show s.heap.leaf = s1.heap.leaf from i.leaf]; exact h2)
        · refine .inr ⟨by rw [gr1.1]; exact h2.1, ?_⟩
          rcases gr1.2 x with e | e
          · rw [e]; exact h2.2
          · exact e
    · rcases hpr with rfl | hpr
      · right; left
        have h1 : s.heap.kids p ≠ [x] := hroom.resolve_left (fun h => h rfl)
        have h2 : s1.heap.kids p = (s.heap.kids p).take k ++ (s.heap.kids p).drop (k + 1) := i.kids_p
        have h3 : s1.heap.kids p ≠ [] := by
          intro h4
          rw [h4] at h2
          obtain ⟨h5, h6⟩ := List.append_eq_nil_iff.mp h2.symm
          rw [h5, h6] at hk
          exact h1 hk
        obtain ⟨c, hc⟩ := List.exists_mem_of_ne_nil _ h3
        refine ⟨c, hc, ?_⟩
        rintro rfl
        have : s1.heap.parent c = some p := (w1.skel.mem_iff _ _).mp hc
        rw [hx1] at this; cases this
      · left
        have hpx : p ≠ x := by rintro rfl; exact hxp .refl
        rw [← show s.heap.parent p = s1.heap.parent p from i.parent_ne p hpx, hpr]
        simp
    · rw [hx1] at hq; cases hq
  have he2 : (s1.heap.link p x (some (k : Int))).2 = none := by
    have hl1 : s1.heap.leaf p = false := by rw [← show s.heap.leaf = s1.heap.leaf from i.leaf]; exact hl
    have hxk1 : x ∉ s1.heap.kids p := by
      intro hm
      rw [show s1.heap.parent x = some p from (w1.skel.mem_iff _ _).mp hm] at hx1
      cases hx1
    unfold Heap.link Heap.linkNew
    rw [if_neg (by simp [hl1]), if_neg hxk1, hx1]
    exact Heap.linkRoot_none w1 ok1 hl1 hx1 (P1.reach.heap.inv.2 p hl1 ok1.ltp)
  obtain ⟨hh2, hh2e⟩ := exec_heap spoil s1 (.link p x (some (k : Int)))
  have he : e.2 = none := hh2e.trans he2
  obtain ⟨w2, i2, gr2⟩ := link_new_ins w1 ok1 he2 hx1
  have hpl : (s1.heap.kids p).length = ((s.heap.kids p).take k ++ (s.heap.kids p).drop (k + 1)).length :=
    congrArg List.length i.kids_p
  have hplace : place (s1.heap.kids p).length (some (k : Int)) = k := by
    show min k _ = k
    rw [hpl, List.length_append, hkl]; omega
  rw [insertPos_place, hplace, show s1.heap.kids p = (s.heap.kids p).take k ++ (s.heap.kids p).drop (k + 1) from i.kids_p] at i2
  rw [show ((s.heap.kids p).take k ++ (s.heap.kids p).drop (k + 1)).take k = (s.heap.kids p).take k by
      rw [List.take_append_of_le_length (by omega), List.take_take, Nat.min_self],
    show ((s.heap.kids p).take k ++ (s.heap.kids p).drop (k + 1)).drop k = (s.heap.kids p).drop (k + 1) by
      rw [List.drop_append_of_le_length (by omega), List.drop_eq_nil_of_le (by omega), List.nil_append]] at i2
  have i2 : Ins s1.heap.toGraph e.1.heap.toGraph p x ((s.heap.kids p).take k) ((s.heap.kids p).drop (k + 1)) := by
    show Ins _ (s1.exec spoil (.heap (.link p x (some (k : Int))))).1.heap.toGraph _ _ _ _
    rw [hh2]; exact i2
  have gr2 : Heap.Grow s1.heap e.1.heap := by
    show Heap.Grow _ (s1.exec spoil (.heap (.link p x (some (k : Int))))).1.heap
    rw [hh2]; exact gr2
  have al : Alike s.heap e.1.heap := by
    refine ⟨i2.next.trans i.next.symm, i2.leaf.trans i.leaf.symm, fun y => ?_, fun y => ?_, fun y => ?_, fun y hy => ?_⟩
    · by_cases hy : y = p
      · subst hy; exact i2.kids_p'.trans i.kids_p'.symm
      · exact (i2.kids_ne y hy).trans (i.kids_ne y hy).symm
    · by_cases hy : y = x
      · subst hy; exact i2.parent_x.trans i.parent_x.symm
      · exact (i2.parent_ne y hy).trans (i.parent_ne y hy).symm
    · by_cases hy : Anc s1.heap.toGraph y p
      · exact (i2.size_anc y hy).trans (i.size_anc y hy).symm
      · exact (i2.size_not y hy).trans (i.size_not y hy).symm
    · have g := gr1.trans gr2
      refine ⟨by rw [g.1]; exact hy.1, ?_⟩
      rcases g.2 y with e | e
      · rw [e]; exact hy.2
      · exact e
  have P2 : Path spoil e.1 := .step P1 ha1 hp1
  refine ⟨he, P2, ⟨by rw [al.next]; exact m.lt, (al.parent r).trans m.root, by rw [al.leaf]; exact m.node,
    al.done r m.done⟩, ?_, al⟩
  obtain ⟨q, hq⟩ := exists_gap w.skel hrp k
  obtain ⟨R, hR⟩ := exists_sheet h ok0.ltx
  obtain ⟨c1, c2, c3⟩ := unlink_cuts_partial h hp hx hq hS hR (safe_unlink (by
    rcases hsh with h1 | ⟨r', h1, h2⟩
    · exact .inl h1
    · exact .inr ⟨r', h1, .inl h2⟩) r)
  have hsh1 : s1.heap.parent p = none ∨ ∃ r, s1.heap.parent p = some r ∧ s1.heap.parent r = none := by
    have hne : ∀ {z}, Anc s.heap.toGraph z p → s1.heap.parent z = s.heap.parent z := fun {z} hz =>
      (i.parent_ne z (by rintro rfl; exact hxp hz)).symm
    rcases hsh with h1 | ⟨r', h1, h2⟩
    · exact .inl ((hne .refl).trans h1)
    · exact .inr ⟨r', (hne .refl).trans h1, (hne (Anc.of_parent h1)).trans h2⟩
  have hq1 : Gap s1.heap.toGraph r p k q := by
    obtain ⟨q', hg'⟩ := exists_gap w1.skel (i.anc_p.mp hrp) ((s.heap.kids p).take k).length
    obtain ⟨hg2, -⟩ := flattened_gap w1.skel w.skel i hg'
    rw [hkl] at hg2 hg'
    obtain rfl := hq.unique w.skel hg2
    exact hg'
  have key := link_pastes_partial P1 ha1 hp1 he hx1 (q := q) (by rw [hplace]; exact hq1) c2 c3
    (safe_link P1 ha1 hx1 hsh1 r) (safe_link P1 ha1 hx1 hsh1 x)
  have hfin : (S.cut q R.length).paste q R = S := by
    unfold Sheet.paste Sheet.cut
    have hq : q ≤ S.length := by
      obtain ⟨-, l1, l2, e1, -, e3⟩ := flattened_gap w1.skel w.skel i (by rw [hkl]; exact hq1)
      have hn : (flattened s.heap.toGraph r).length = S.length := hS.length_eq
      rw [e3, List.length_append, e1] at hn
      omega
    have hql : (S.take q).length = q := by rw [List.length_take]; omega
    rw [List.take_append_of_le_length (by omega), List.take_take, Nat.min_self,
      List.drop_append_of_le_length (by omega), List.drop_eq_nil_of_le (by omega), List.nil_append, ← List.drop_drop]
    have hc := List.take_append_drop R.length (S.drop q)
    rw [← c1] at hc
    rw [List.append_assoc, hc, List.take_append_drop]
  rw [hfin] at key
  exact key

/-- **C94.** And the model behaves as if nothing had happened: calls on it and on what is inside it show what they would
have shown (if the optimiser's copy does not count as up to date). -/
theorem same_after_return {o : Ops V T} {F : List V → W} {g : List V → List V} (hg : ∀ v, (g v).length = v.length)
    {b : Box V T} {r p x : Id} (h : Path spoil b.st) (m : b.st.Model r) (hpr : p = r ∨ b.st.heap.parent p = some r)
    {k : Nat} (hx : (b.st.heap.kids p)[k]? = some x) (hroom : p ≠ r ∨ b.st.heap.kids p ≠ [x]) (hf : b.fresh = false)
    {S : Sheet V T} (hS : b.st.IsSheet r S) {ds : List (Deed Target V T W)}
    (hd : AllFit o F g b.st.heap r ds S ⟨false, false⟩) (junk junk' : List V) :
    let s1 := (b.st.exec spoil (.heap (.unlink p x))).1
    let s2 := (s1.exec spoil (.heap (.link p x (some k)))).1
    ((⟨s2, b.copy, false⟩ : Box V T).execs spoil o F g junk' r ds).2 = (b.execs spoil o F g junk r ds).2 := by
  intro s1 s2
  obtain ⟨-, h2, m2, hS2, al⟩ := there_and_back (spoil := spoil) h m hpr hx hroom hS
  refine (Box.same_sheet_alike (F := F) hg h h2 m m2 hf (b' := ⟨s2, b.copy, false⟩) rfl hS hS2 hd (al.allFit ds hd) ?_
    junk junk').1
  show ds.map (Deed.map (spots s2.heap.toGraph r)) = _
  rw [show spots s2.heap.toGraph r = spots b.st.heap.toGraph r from al.spots r]

/-! ### Examples -/

/-- `seen` without its node `2`, which holds the `Param`s `3` and `4`. -/
def seenApart : State Nat Nat := (seen.exec demoSpoil (.heap (.unlink 0 2))).1

theorem seenApart_path : Path demoSpoil seenApart :=
  .step (e := .heap (.unlink 0 2)) seen_path trivial ⟨by decide +kernel, by decide +kernel⟩

theorem seenApart_model : seenApart.Model 0 :=
  ⟨by decide +kernel, by decide +kernel, by decide +kernel, by decide +kernel, by decide +kernel⟩

theorem seenApart_model2 : seenApart.Model 2 :=
  ⟨by decide +kernel, by decide +kernel, by decide +kernel, by decide +kernel, by decide +kernel⟩

/-- Unlinking `2` from `seen`: two rows are cut out. -/
example : seenApart.IsSheet 0 [[⟨10, none, false⟩, ⟨11, some 7, false⟩], [⟨50, some 8, false⟩, ⟨51, some 8, false⟩]] ∧
    seenApart.IsSheet 2 [[⟨30, none, false⟩, ⟨31, none, true⟩, ⟨32, none, false⟩], [⟨40, none, false⟩]] := by
  have hg : Gap seen.heap.toGraph 0 0 1 1 := by
    have := Gap.here (G := seen.heap.toGraph) (p := 0) (i := 1)
    rwa [show rowsIn seen.heap.toGraph ((seen.heap.toGraph.kids 0).take 1) = 1 by decide +kernel] at this
  obtain ⟨R, hR⟩ := exists_sheet seen_path (r := 2) (by decide +kernel)
  have hl : R.length = 2 := by
    have h1 : (flattened seen.heap.toGraph 2).length = R.length := hR.length_eq
    rw [← h1]
    decide +kernel
  obtain ⟨c1, c2, c3⟩ := unlink_cuts_partial (spoil := demoSpoil) seen_path (p := 0) (x := 2) (k := 1)
    ⟨by decide +kernel, by decide +kernel⟩ (by decide +kernel) hg seen_sheet hR (safe_unlink (.inl (by decide +kernel)) 0)
  rw [hl] at c1 c2
  subst c1
  exact ⟨c2, c3⟩

/-- Linking it as the first parameter: its rows come first. -/
example : (seenApart.exec demoSpoil (.heap (.link 0 2 (some 0)))).1.IsSheet 0
    [[⟨30, none, false⟩, ⟨31, none, true⟩, ⟨32, none, false⟩], [⟨40, none, false⟩],
      [⟨10, none, false⟩, ⟨11, some 7, false⟩], [⟨50, some 8, false⟩, ⟨51, some 8, false⟩]] := by
  have ha : seenApart.Admissible (.heap (.link 0 2 (some 0))) :=
    Hier.Heap.linkOKB_sound seenApart_path.reach.heap.wf (by decide +kernel)
  have hx : seenApart.heap.parent 2 = none := by decide +kernel
  have hsh : seenApart.heap.parent 0 = none ∨ ∃ r, seenApart.heap.parent 0 = some r ∧ seenApart.heap.parent r = none :=
    .inl (by decide +kernel)
  have hg : Gap seenApart.heap.toGraph 0 0 (place (seenApart.heap.kids 0).length (some 0)) 0 := by
    rw [show place (seenApart.heap.kids 0).length (some 0) = 0 by decide +kernel]
    exact Gap.here (G := seenApart.heap.toGraph) (p := 0) (i := 0)
  exact link_pastes_partial (spoil := demoSpoil) seenApart_path ha
    ⟨settledB_sound (by decide +kernel), .inr (.inl ⟨1, by decide +kernel, by decide⟩), fun q hq => by rw [hx] at hq; cases hq⟩
    (by decide +kernel) hx hg
    (S := [[⟨10, none, false⟩, ⟨11, some 7, false⟩], [⟨50, some 8, false⟩, ⟨51, some 8, false⟩]])
    (R := [[⟨30, none, false⟩, ⟨31, none, true⟩, ⟨32, none, false⟩], [⟨40, none, false⟩]])
    (sheetB_sound seenApart_path seenApart_model (by decide +kernel))
    (sheetB_sound seenApart_path seenApart_model2 (by decide +kernel))
    (safe_link seenApart_path ha hx hsh 0) (safe_link seenApart_path ha hx hsh 2)

/-- Linking `1`, the first parameter of `seen`, again as the last. -/
example : (seen.exec demoSpoil (.heap (.link 0 1 (some 2)))).1.IsSheet 0
    [[⟨30, none, false⟩, ⟨31, none, true⟩, ⟨32, none, false⟩], [⟨40, none, false⟩],
      [⟨50, some 8, false⟩, ⟨51, some 8, false⟩], [⟨10, none, false⟩, ⟨11, some 7, false⟩]] := by
  have ha : seen.Admissible (.heap (.link 0 1 (some 2))) :=
    Hier.Heap.linkOKB_sound seen_path.reach.heap.wf (by decide +kernel)
  obtain ⟨R, hR⟩ := exists_sheet seen_path (r := 1) (by decide +kernel)
  have hR1 : R = [[⟨10, none, false⟩, ⟨11, some 7, false⟩]] := by
    obtain ⟨c1, -⟩ := unlink_cuts_partial (spoil := demoSpoil) seen_path (p := 0) (x := 1) (k := 0)
      ⟨by decide +kernel, by decide +kernel⟩ (by decide +kernel) (Gap.here (G := seen.heap.toGraph) (p := 0) (i := 0))
      seen_sheet hR (safe_unlink (.inl (by decide +kernel)) 0)
    have h1 : (flattened seen.heap.toGraph 1).length = R.length := hR.length_eq
    rw [← h1] at c1
    rw [c1]
    decide +kernel
  subst hR1
  have key := link_shuffles_partial (spoil := demoSpoil) seen_path ha
    ⟨settledB_sound (by decide +kernel), .inr (.inl ⟨2, by decide +kernel, by decide⟩),
      fun q hq => by
        have : seen.heap.parent 1 = some 0 := by decide +kernel
        rw [this] at hq
        cases hq
        exact ⟨by decide +kernel, by decide +kernel⟩⟩
    (by decide +kernel) (A := []) (B := [2, 5]) (by decide +kernel)
    (Gap.here (G := seen.heap.toGraph) (p := 0) (i := 0)) seen_sheet hR (fun y _ => ?_)
  · exact key
  · rintro (hb | ⟨q, q', hq, hq', -⟩)
    · exact not_belowGrandchild_root (by decide +kernel) y hb
    · have : seen.heap.parent 1 = some 0 := by decide +kernel
      rw [this] at hq
      cases hq
      have : seen.heap.parent 0 = none := by decide +kernel
      rw [this] at hq'
      cases hq'

/-- Unlinking `3` from the node `2` of `seen` and linking it back: the calls of C93 show the same. -/
example : let s2 := ((seen.exec demoSpoil (.heap (.unlink 2 3))).1.exec demoSpoil (.heap (.link 2 3 (some 0)))).1
    ((⟨s2, none, false⟩ : Box Nat Nat).execs demoSpoil plusOps List.sum (List.map (fun _ => 3)) [] 0 seenCalls).2 =
    ((⟨seen, none, false⟩ : Box Nat Nat).execs demoSpoil plusOps List.sum (List.map (fun _ => 3)) [] 0 seenCalls).2 :=
  same_after_return (b := ⟨seen, none, false⟩) (k := 0) (F := List.sum) (by simp) seen_path seen_model
    (.inr (by decide +kernel)) (by decide +kernel) (.inl (by decide)) rfl seen_sheet seen_fits [] []

end State

end Paramz.Memory

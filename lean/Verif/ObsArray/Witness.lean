import Verif.ObsArray.Props
import Mathlib.Data.List.Nodup
import Mathlib.Algebra.Order.Group.Int

/-!
# C71: values written, concrete arrays, and what is not announced
-/

set_option linter.unusedSectionVars false

namespace Paramz.ObsArray

open Observer (Entry insPos insertAt matchesReq)

variable {V K : Type} [LinearOrder K]

/-! ### What `a[sel] += x` writes -/

/-- No array has two elements in one cell. -/
def Apart (s : State V K) : Prop := ∀ a, a < s.next → (s.arr a).cells.Nodup

theorem pick_nodup {r : Ar} (h : r.cells.Nodup) : ∀ {sel : List Nat}, sel.Nodup → (r.pick sel).Nodup
  | [], _ => .nil
  | i :: sel, hs => by
    rw [List.nodup_cons] at hs
    have ih := pick_nodup h hs.2
    unfold Ar.pick at ih ⊢
    cases hi : r.cells[i]? with
    | none => rw [List.filterMap_cons_none hi]; exact ih
    | some c =>
      rw [List.filterMap_cons_some hi, List.nodup_cons]
      refine ⟨fun hc => ?_, ih⟩
      obtain ⟨j, hj, hjc⟩ := List.mem_filterMap.mp hc
      obtain ⟨hi1, hi2⟩ := List.getElem?_eq_some_iff.mp hi
      obtain ⟨hj1, hj2⟩ := List.getElem?_eq_some_iff.mp hjc
      have : i = j := (List.Nodup.getElem_inj_iff h).mp (hi2.trans hj2.symm)
      exact hs.1 (this ▸ hj)

/-- The cell of the `j`-th selected element. -/
theorem pick_get {r : Ar} : ∀ {sel : List Nat}, (∀ i ∈ sel, i < r.cells.length) → ∀ j : Nat,
    (r.pick sel)[j]? = sel[j]? >>= (r.cells[·]?)
  | [], _, j => by simp [Ar.pick]
  | i :: sel, h, j => by
    have hi : i < r.cells.length := h i (by simp)
    have e : r.cells[i]? = some r.cells[i] := List.getElem?_eq_getElem hi
    unfold Ar.pick
    rw [List.filterMap_cons_some e]
    cases j with
    | zero => simp [e]
    | succ j =>
      have := pick_get (r := r) (sel := sel) (fun k hk => h k (by simp [hk])) j
      unfold Ar.pick at this
      simpa using this

theorem put_zip_get {m : Nat → V} {cs : List Nat} {vs : List V} (hn : cs.Nodup) {j : Nat} {c : Nat} {v : V}
    (hc : cs[j]? = some c) (hv : vs[j]? = some v) : put m (cs.zip vs) c = v := by
  refine put_in _ _ ?_ ?_
  · refine (hn.sublist ?_)
    clear hc hv hn
    induction cs generalizing vs with
    | nil => simp
    | cons x cs ih =>
      cases vs with
      | nil => simp
      | cons y vs => simpa using ih (vs := vs)
  · refine List.mem_of_getElem? (i := j) ?_
    rw [List.getElem?_zip_eq_some]
    exact ⟨hc, hv⟩

/-- `a[sel] += x` writes the same whether numpy takes a view, a copy, or a number for `a[sel]`: the `j`-th
selected element gets the value computed from its old value, and the other elements keep theirs. -/
theorem inplacePart_values {s : State V K} (h : Reach s) (hd : Apart s) {a : Nat} (ha : a < s.next)
    (k : Kind) {sel : List Nat} (hs : sel.Nodup) (hr : ∀ i ∈ sel, i < (s.arr a).cells.length)
    (f : Nat → V → V) :
    (∀ j i : Nat, sel[j]? = some i → ∀ v, (s.values a)[i]? = some v →
      ((step s (.inplacePart a k sel f)).1.values a)[i]? = some (f j v)) ∧
    (∀ i : Nat, i ∉ sel →
      ((step s (.inplacePart a k sel f)).1.values a)[i]? = (s.values a)[i]?) := by
  have inv := h.inv
  have hn := hd a ha
  have hp := pick_nodup (sel := sel) hn hs
  have hne : a ≠ s.next := Nat.ne_of_lt ha
  have hcells := (step_arr s (o := .inplacePart a k sel f) trivial ha).1
  have hgp : ∀ j i : Nat, sel[j]? = some i → ((s.arr a).pick sel)[j]? = (s.arr a).cells[i]? := by
    intro j i hj
    rw [pick_get hr j, hj]; rfl
  -- the memory after the operation
  suffices hm : (∀ (j i c : Nat), sel[j]? = some i → (s.arr a).cells[i]? = some c →
      (step s (.inplacePart a k sel f)).1.mem c = f j (s.mem c)) ∧
      (∀ c ∈ (s.arr a).cells, c ∉ (s.arr a).pick sel →
        (step s (.inplacePart a k sel f)).1.mem c = s.mem c) by
    unfold State.values
    rw [hcells]
    simp only [List.getElem?_map]
    constructor
    · intro j i hj v hv
      obtain ⟨c, hc, rfl⟩ := Option.map_eq_some_iff.mp hv
      rw [hc, Option.map_some, hm.1 j i c hj hc]
    · intro i hi
      cases hc : (s.arr a).cells[i]? with
      | none => rfl
      | some c =>
        rw [Option.map_some, Option.map_some, hm.2 c (List.mem_of_getElem? hc)]
        intro hcp
        obtain ⟨i', hi', hc'⟩ := List.mem_filterMap.mp hcp
        obtain ⟨l1, e1⟩ := List.getElem?_eq_some_iff.mp hc
        obtain ⟨l2, e2⟩ := List.getElem?_eq_some_iff.mp hc'
        have : i = i' := (List.Nodup.getElem_inj_iff hn).mp (e1.trans e2.symm)
        exact hi (this ▸ hi')
  cases k with
  | item =>
    constructor
    · intro j i c hj hc
      have h1 := hgp j i hj
      rw [hc] at h1
      refine put_zip_get hp h1 ?_
      rw [List.getElem?_mapIdx, List.getElem?_map, h1]; rfl
    · intro c _ hc
      exact put_zip_out hc
  | view =>
    have e1 : (s.part a sel).arr a = s.arr a := if_neg hne
    have e2 : ((s.part a sel).arr s.next).cells = (s.arr a).pick sel := by
      rw [show (s.part a sel).arr s.next = { s.arr a with cells := (s.arr a).pick sel } from if_pos rfl]
    have key : ∀ (j c : Nat), ((s.arr a).pick sel)[j]? = some c →
        ((s.part a sel).inplace s.next f).1.mem c = f j (s.mem c) := by
      intro j c hc
      refine put_zip_get (j := j) (by rw [e2]; exact hp) (by rw [e2]; exact hc) ?_
      unfold State.values
      rw [e2, List.getElem?_mapIdx, List.getElem?_map, hc]; rfl
    have e3 : (((s.part a sel).inplace s.next f).1.arr a).pick sel = (s.arr a).pick sel := by
      rw [show ((s.part a sel).inplace s.next f).1.arr a = _ from e1]
    constructor
    · intro j i c hj hc
      have h1 := hgp j i hj
      rw [hc] at h1
      refine put_zip_get (j := j) (by rw [e3]; exact hp) (by rw [e3]; exact h1) ?_
      unfold State.values
      rw [show (((s.part a sel).inplace s.next f).1.arr s.next).cells = _ from e2, List.getElem?_map, h1,
        Option.map_some, key j c h1]
    · intro c _ hc
      refine (put_zip_out (by rw [e3]; exact hc)).trans (put_zip_out (by rw [e2]; exact hc))
  | fancy =>
    have e1 : (s.take a sel).arr a = s.arr a := if_neg hne
    set vs := ((s.arr a).pick sel).map s.mem with hvs
    have e2 : ((s.take a sel).arr s.next).cells = List.range' s.nextCell vs.length := by
      rw [show (s.take a sel).arr s.next = ⟨List.range' s.nextCell vs.length, (s.arr a).list,
        (s.arr a).on⟩ from if_pos rfl]
    have key : ∀ (j c : Nat), ((s.arr a).pick sel)[j]? = some c →
        (((s.take a sel).inplace s.next f).1.values s.next)[j]? = some (f j (s.mem c)) := by
      intro j c hc
      have hj : j < vs.length := by
        rw [hvs, List.length_map]
        exact (List.getElem?_eq_some_iff.mp hc).1
      have hr' : (List.range' s.nextCell vs.length)[j]? = some (s.nextCell + j) := by
        rw [List.getElem?_range' hj]; simp
      unfold State.values
      rw [show (((s.take a sel).inplace s.next f).1.arr s.next).cells = _ from e2, List.getElem?_map, hr',
        Option.map_some]
      congr 1
      refine put_zip_get (j := j) (by rw [e2]; exact List.nodup_range') (by rw [e2]; exact hr') ?_
      unfold State.values
      rw [e2, List.getElem?_mapIdx, List.getElem?_map, hr', Option.map_some, Option.map_some]
      congr 2
      show (if s.nextCell + j < s.nextCell then _ else (vs[s.nextCell + j - s.nextCell]?).getD _) = _
      rw [if_neg (by omega), show s.nextCell + j - s.nextCell = j by omega, hvs, List.getElem?_map, hc]
      rfl
    have e3 : (((s.take a sel).inplace s.next f).1.arr a).pick sel = (s.arr a).pick sel := by
      rw [show ((s.take a sel).inplace s.next f).1.arr a = _ from e1]
    constructor
    · intro j i c hj hc
      have h1 := hgp j i hj
      rw [hc] at h1
      exact put_zip_get (j := j) (by rw [e3]; exact hp) (by rw [e3]; exact h1) (key j c h1)
    · intro c hcc hc
      have hlt := inv.cell a ha c hcc
      refine (put_zip_out (by rw [e3]; exact hc)).trans ((put_zip_out (fun hx => ?_)).trans
        (alloc_mem s _ hlt))
      rw [e2] at hx
      have := (List.mem_range'_1.mp hx).1
      omega

/-! ### Concrete arrays -/

/-- What a call shows: the callback, the array passed, and the contents of some cells. -/
def seen (cells : List Nat) (l : List (Call V K)) : List (Nat × Nat × List V) :=
  l.map fun c => (c.entry.cb, c.arr, cells.map c.mem)

/-- An array of four elements with two observers, its part `a[1:3]` (array 1) and a copy of two elements
`a[[0, 3]]` (array 2). -/
def demo : State Int Int :=
  (run (.empty 0) [.new [10, 20, 30, 40], .addObserver 0 ⟨0, 7, 1⟩, .addObserver 0 ⟨5, 8, 2⟩,
    .part 0 [1, 2], .take 0 [0, 3]]).1

theorem demo_reach : Reach demo := by
  refine .step (.step (.step (.step (.step (.empty 0) trivial ?_) trivial ?_) trivial ?_) trivial ?_)
    trivial ?_
  · intro a h; cases h
  all_goals
    intro a h
    cases h
    decide +kernel

theorem demo_apart : Apart demo := by
  intro a ha
  have : a < 3 := ha
  have e : ∀ a < 3, (demo.arr a).cells.Nodup := by decide +kernel
  exact e a this

/-- A write through the part is announced to the observers of the whole, the higher priority first; the
callbacks get the part, not the array they are registered with. -/
example : seen (demo.arr 0).cells (step demo (.set 1 [0] [99])).2 =
      [(2, 1, [10, 99, 30, 40]), (1, 1, [10, 99, 30, 40])] ∧
    (step demo (.set 1 [0] [99])).1.values 0 = [10, 99, 30, 40] := by decide +kernel

/-- `a[1:3] += 1` gives two rounds. -/
example : seen (demo.arr 0).cells (step demo (.inplacePart 0 .view [1, 2] (fun _ v => v + 1))).2 =
      [(2, 3, [10, 21, 31, 40]), (1, 3, [10, 21, 31, 40]), (2, 0, [10, 21, 31, 40]),
       (1, 0, [10, 21, 31, 40])] := by decide +kernel

example (k : Kind) : ((step demo (.inplacePart 0 k [1, 2] (fun _ v => v + 1))).1.values 0)[2]? = some 31 :=
  (inplacePart_values demo_reach demo_apart (a := 0) (by decide +kernel) k (sel := [1, 2])
    (by decide) (by decide +kernel) _).1 1 2 rfl 30 (by decide +kernel)

example : note (demo.arr 0).cells ⟨5, 8, 2⟩ (demo.values 0)
    (run demo [.set 1 [0] [99], .inplace 0 (fun _ v => v * 2), .part 1 [1], .set 3 [0] [5]]).2 =
      [20, 198, 5, 80] := by
  refine (known_partial demo_reach (by decide +kernel) (a := 0) (by decide +kernel) (by decide +kernel) _
    ?_).trans (by decide +kernel)
  refine ⟨trivial, ?_, by simp, by simp, trivial, ?_, by simp, by simp, trivial, ?_, by simp, by simp,
    trivial, ?_, by simp, by simp, trivial⟩
  all_goals
    intro a h
    cases h
    decide +kernel

/-! ### What is not announced -/

/-- A part made while updates are off stays silent when they are switched on again for the array: a write
through it changes the array unannounced. -/
theorem silent_part_fails : ∃ (s : State Int Int) (o : Op Int Int), Reach s ∧ o.Proper ∧ s.Exists o ∧
    (s.arr 0).on = true ∧ s.observers 0 ≠ [] ∧ (step s o).1.values 0 ≠ s.values 0 ∧ (step s o).2.length = 0 := by
  refine ⟨(run demo [.setUpdates 0 false, .part 0 [1, 2], .setUpdates 0 true]).1, .set 3 [0] [99],
    .step (.step (.step demo_reach trivial ?_) trivial ?_) trivial ?_, trivial, ?_, by decide +kernel⟩
  all_goals
    intro a h
    cases h
    decide +kernel

/-- A part made before updates are switched off for the array still calls the observers. -/
theorem loud_part_fails : ∃ (s : State Int Int) (o : Op Int Int), Reach s ∧ o.Proper ∧ s.Exists o ∧
    (s.arr 0).on = false ∧ (seen (s.arr 0).cells (step s o).2) =
      [(2, 1, [10, 99, 30, 40]), (1, 1, [10, 99, 30, 40])] := by
  refine ⟨(run demo [.setUpdates 0 false]).1, .set 1 [0] [99], .step demo_reach trivial ?_, trivial, ?_,
    by decide +kernel⟩
  all_goals
    intro a h
    cases h
    decide +kernel

/-- A change of a copy made by indexing is announced to the observers of the original, which has not
changed. -/
theorem copy_told_fails : ∃ (s : State Int Int) (o : Op Int Int), Reach s ∧ o.Proper ∧ s.Exists o ∧
    (step s o).1.values 0 = s.values 0 ∧ o.on? = some 2 ∧
    (∀ i ∈ (s.arr 2).cells, i ∉ (s.arr 0).cells) ∧
    seen (s.arr 0).cells (step s o).2 = [(2, 2, [10, 20, 30, 40]), (1, 2, [10, 20, 30, 40])] := by
  refine ⟨demo, .set 2 [0] [99], demo_reach, trivial, ?_, by decide +kernel⟩
  intro a h
  cases h
  decide +kernel

/-- In `a[[1, 2]] += 1` all observers are called once before anything has changed. -/
theorem early_round_fails : ∃ (s : State Int Int) (o : Op Int Int), Reach s ∧ o.Proper ∧ s.Exists o ∧
    seen (s.arr 0).cells (step s o).2 = [(2, 3, [10, 20, 30, 40]), (1, 3, [10, 20, 30, 40]),
      (2, 0, [10, 21, 31, 40]), (1, 0, [10, 21, 31, 40])] := by
  refine ⟨demo, .inplacePart 0 .fancy [1, 2] (fun _ v => v + 1), demo_reach, trivial, ?_,
    by decide +kernel⟩
  intro a h
  cases h
  decide +kernel

/-- `ObsAr(a)` gives `a` itself, and its observers are lost. -/
theorem again_fails : demo.observers 0 ≠ [] ∧ (step demo (.again 0)).1.next = demo.next ∧
    (step demo (.again 0)).1.observers 0 = [] ∧
    (step (step demo (.again 0)).1 (.set 0 [0] [99])).2.length = 0 ∧
    (step (step demo (.again 0)).1 (.set 0 [0] [99])).1.values 0 = [99, 20, 30, 40] := by decide +kernel

/-- `ObsAr(a.values)` is another array in the same memory with observers of its own, and a write to it is
not announced to the observers of `a`; neither is a write to `a.values`. -/
theorem past_observers_fails :
    (step (step demo (.share 0)).1 (.set 3 [0] [99])).1.values 0 = [99, 20, 30, 40] ∧
    (step (step demo (.share 0)).1 (.set 3 [0] [99])).2.length = 0 ∧
    (step demo (.raw 0 [0] [99])).1.values 0 = [99, 20, 30, 40] ∧
    (step demo (.raw 0 [0] [99])).2.length = 0 := by decide +kernel

end Paramz.ObsArray

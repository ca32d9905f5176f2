import Verif.Mem.Check

/-!
# C36: one memory for the whole hierarchy

Vocabulary: `Done h n`: the constructor of `n` is over and `n` has been initialised. `At g n y k`: `y` is
`n` or lies below it, and its elements are those of `n` from position `k` on (the sum of the sizes of what
is listed before it). `read y j`: element `j` of the array of `y`.
-/

set_option linter.unusedSectionVars false

namespace Paramz.Memory

open Hier (Id Graph Heap upd upd_same upd_ne)
open Hier.Graph (Skel Sized At Anc Ins)

namespace State

variable {V T : Type} [DecidableEq T] {spoil : Nat → Nat → V}

/-- **C36.** Below an initialised object, element `j` of any object is the element of the whole at the
position of the object plus `j`. -/
theorem read_same {s : State V T} (h : Reach spoil s) {n y : Id} {k : Nat} (hn : n < s.heap.next)
    (hd : Done s.heap n) (hy : At s.heap.toGraph n y k) {j : Nat} (hj : j < s.heap.size y) :
    s.mem.read y j = s.mem.read n (k + j) := by
  have w := h.heap.wf
  obtain ⟨b, o, hc⟩ := h.linked.calm n hn hd
  have hwin := hy.window w.skel w.sized
  obtain ⟨h1, -⟩ := hc y k hy (by omega)
  obtain ⟨h2, -⟩ := hc n 0 .refl (by omega)
  unfold Mem.read
  rw [Mem.view_eq h1, Mem.view_eq h2]
  simp only [Nat.add_zero]
  rw [Nat.add_assoc]

/-- **C36.** A write through any object below an initialised object is at once seen through every other,
at the element written and nowhere else. -/
theorem write_visible {s : State V T} (h : Reach spoil s) {n x y : Id} {a b : Nat} (hn : n < s.heap.next)
    (hd : Done s.heap n) (hx : At s.heap.toGraph n x a) (hy : At s.heap.toGraph n y b) {i j : Nat}
    (hi : i < s.heap.size x) (hj : j < s.heap.size y) (v : V) :
    (s.exec spoil (.write x i v)).1.mem.read y j =
      if b + j = a + i then v else s.mem.read y j := by
  have w := h.heap.wf
  obtain ⟨B, o, hc⟩ := h.linked.calm n hn hd
  have hwx := hx.window w.skel w.sized
  obtain ⟨h1, -⟩ := hc y b hy (by omega)
  obtain ⟨h2, -⟩ := hc x a hx (by omega)
  have e1 : (s.exec spoil (.write x i v)).1.mem.view y = ⟨B, o + b, s.heap.size y⟩ := by
    show s.mem.view y = _
    rw [Mem.view_eq h1]
  unfold Mem.read
  rw [e1, Mem.view_eq h1]
  show (if B = (s.mem.view x).buf ∧ o + b + j = (s.mem.view x).off + i then v
    else s.mem.cell B (o + b + j)) = _
  rw [Mem.view_eq h2]
  show (if B = B ∧ o + b + j = o + a + i then v else s.mem.cell B (o + b + j)) =
    if b + j = a + i then v else s.mem.cell B (o + b + j)
  by_cases he : b + j = a + i
  · rw [if_pos he, if_pos ⟨rfl, by omega⟩]
  · rw [if_neg he, if_neg (fun h => he (by have := h.2; omega))]

/-- Effect of `link_parameter`: nothing but marks, or the parameter is inserted, possibly after having
been removed from its former parent. -/
theorem link_cases (spoil : Nat → Nat → V) {s : State V T} (w : s.heap.WF) (p x : Id)
    (index : Option Int) :
    (∃ marks, (s.link spoil p x index).1 = s.on fun h => { h with visited := marks }) ∨
    (s.heap.leaf p = false ∧ s.heap.parent x = none ∧
      (s.link spoil p x index).1 = (s.linkRoot spoil p x index).1) ∨
    ∃ q marks A B, s.heap.leaf p = false ∧ s.heap.kids q = A ++ x :: B ∧
      (s.link spoil p x index).1 = (((s.on fun h => { h with visited := marks }).unlinkChild spoil q x).linkRoot
        spoil p x index).1 := by
  have hsame : (s.on fun h => { h with visited := s.heap.visited }) = s := rfl
  unfold link
  cases hl : s.heap.leaf p with
  | true => exact .inl ⟨s.heap.visited, hsame.symm⟩
  | false =>
    simp only [Bool.false_eq_true, if_false]
    by_cases hm : x ∈ s.heap.kids p
    · rw [if_pos hm]
      cases index with
      | none => exact .inl ⟨s.heap.visited, hsame.symm⟩
      | some j =>
        obtain ⟨A, B, hk⟩ := List.append_of_mem hm
        obtain ⟨w1, i, -⟩ := Heap.unlinkChild_wf w hk
        have hpx : (s.unlinkChild spoil p x).heap.parent x = none := i.root
        refine .inr (.inr ⟨p, s.heap.visited, A, B, trivial, hk, ?_⟩)
        simp only [linkNew, hpx]
        rfl
    · rw [if_neg hm]
      unfold linkNew
      cases hpx : s.heap.parent x with
      | none => exact .inr (.inl ⟨trivial, rfl, rfl⟩)
      | some q =>
        simp only []
        generalize s.heap.toGraph.traverseParents (fun _ y => decide (y = p))
          ⟨s.heap.visited, [], false⟩ x = t
        have hxq : x ∈ s.heap.kids q := (w.skel.mem_iff _ _).mpr hpx
        obtain ⟨A, B, hk⟩ := List.append_of_mem hxq
        cases t.raised with
        | true => exact .inl ⟨t.marks, rfl⟩
        | false => exact .inr (.inr ⟨q, t.marks, A, B, trivial, hk, rfl⟩)

theorem unlinkChild_done {s : State V T} (w : s.heap.WF) {q x n : Id} {A B : List Id}
    (hk : s.heap.kids q = A ++ x :: B) (hd : Done s.heap n) :
    Done (s.unlinkChild spoil q x).heap n ∧ (s.unlinkChild spoil q x).heap.next = s.heap.next := by
  obtain ⟨-, i, hii, -, hj, hjo, -⟩ := Heap.unlinkChild_wf w hk
  rw [unlinkChild_heap]
  refine ⟨⟨by rw [hii]; exact hd.1, ?_⟩, i.next.symm⟩
  by_cases h1 : Anc s.heap.toGraph (s.heap.toGraph.highest q) n ∧ ¬ Anc s.heap.toGraph x n
  · exact hj n h1.1 h1.2
  · rw [hjo n (by by_contra h2; exact h1 (by push Not at h2; exact h2))]; exact hd.2

theorem linkRoot_done {s : State V T} (w : s.heap.WF) {p x n : Id} {index : Option Int}
    (ok : Heap.LinkOK s.heap p x index) (hl : s.heap.leaf p = false) (hpx : s.heap.parent x = none)
    (hd : Done s.heap n) : Done (s.linkRoot spoil p x index).1.heap n ∧
      (s.linkRoot spoil p x index).1.heap.next = s.heap.next := by
  obtain ⟨-, i, -⟩ := Heap.linkRoot_wf w ok.ltx ok.ltp hpx hl ok.outside ok.ready (ok.pos w hpx)
  obtain ⟨-, -, hii, -, hid⟩ := linkRoot_mem spoil w ok hl hpx
  rw [(linkRoot_heap spoil s p x index).1]
  exact ⟨⟨by rw [hii]; exact hd.1, hid n hd.2⟩, i.next⟩

theorem initialize_done {s : State V T} (w : s.heap.WF) {x n : Id} (hx : x < s.heap.next)
    (hd : Done s.heap n) : Done (s.initializeParameter spoil x).heap n ∧
      (s.initializeParameter spoil x).heap.next = s.heap.next := by
  obtain ⟨r, D, F, J, -, -, -, -, -, -, -, -, hJ, hJ', he⟩ := Heap.initialize_eq w hx
  have h1 : (s.initializeParameter spoil x).heap = s.heap.initializeParameter x := rfl
  rw [h1, he]
  refine ⟨⟨hd.1, ?_⟩, rfl⟩
  by_cases ha : Anc s.heap.toGraph r n
  · exact hJ' n ha
  · exact (hJ n ha).trans hd.2

/-- **C36.** An object is initialised when its constructor, called without `initialize=False`, is
over. -/
theorem constructed_done {s : State V T} (h : Reach spoil s) {x : Id} (hx : x < s.heap.next) :
    Done (s.exec spoil (.heap (.finishInit x true))).1.heap x := by
  have w := h.heap.wf
  have w1 := (Heap.finishInit_wf w hx false).1
  have hx1 : x < (s.heap.finishInit x false).next := hx
  obtain ⟨r, D, F, J, -, -, -, hra, -, -, -, -, -, hJ', he⟩ := Heap.initialize_eq w1 hx1
  have h1 : (s.exec spoil (.heap (.finishInit x true))).1.heap =
      (s.heap.finishInit x false).initializeParameter x := rfl
  rw [h1, he]
  exact ⟨upd_same _ _ _, hJ' x hra⟩

/-- **C36.** It stays initialised, whatever is called afterwards. -/
theorem done_stays {s : State V T} (h : Reach spoil s) {e : Ev V T} (ha : s.Admissible e) {n : Id}
    (hn : n < s.heap.next) (hd : Done s.heap n) (hf : ∀ i, e ≠ .heap (.finishInit n i)) :
    Done (s.exec spoil e).1.heap n ∧ n < (s.exec spoil e).1.heap.next := by
  have w := h.heap.wf
  have hsame : ∀ h' : Heap T, Heap.Same s.heap h' → Done h' n ∧ s.heap.next ≤ h'.next := by
    intro h' e
    refine ⟨⟨by rw [e.inInit]; exact hd.1, by rw [e.inited]; exact hd.2⟩, ?_⟩
    show _ ≤ h'.toGraph.next
    rw [e.graph]
  cases e with
  | write x i v => exact ⟨hd, hn⟩
  | heap e =>
    suffices key : Done (s.exec spoil (.heap e)).1.heap n ∧
        s.heap.next ≤ (s.exec spoil (.heap e)).1.heap.next from ⟨key.1, lt_of_lt_of_le hn key.2⟩
    cases e with
    | newParam k =>
      exact ⟨⟨(upd_ne _ _ (Nat.ne_of_lt hn)).trans hd.1, (upd_ne _ _ (Nat.ne_of_lt hn)).trans hd.2⟩,
        Nat.le_succ _⟩
    | newNode =>
      exact ⟨⟨(upd_ne _ _ (Nat.ne_of_lt hn)).trans hd.1, (upd_ne _ _ (Nat.ne_of_lt hn)).trans hd.2⟩,
        Nat.le_succ _⟩
    | finishInit x i =>
      have hnx : n ≠ x := by rintro rfl; exact hf i rfl
      have hd1 : Done (s.on fun h =>
          { h with inInit := upd h.inInit x false, inited := upd h.inited x (some false) }).heap n :=
        ⟨(upd_ne _ _ hnx).trans hd.1, (upd_ne _ _ hnx).trans hd.2⟩
      cases i with
      | false => exact ⟨hd1, le_refl _⟩
      | true =>
        obtain ⟨h1, h2⟩ := initialize_done (spoil := spoil) (s := s.on fun h =>
          { h with inInit := upd h.inInit x false, inited := upd h.inited x (some false) })
          (Heap.finishInit_wf w ha.1 false).1 ha.1 hd1
        exact ⟨h1, le_of_eq h2.symm⟩
    | init x =>
      obtain ⟨h1, h2⟩ := initialize_done (spoil := spoil) w ha hd
      exact ⟨h1, le_of_eq h2.symm⟩
    | link p x index =>
      have ok : Heap.LinkOK s.heap p x index := ha
      show Done (s.link spoil p x index).1.heap n ∧ s.heap.next ≤ (s.link spoil p x index).1.heap.next
      rcases link_cases spoil w p x index with ⟨marks, he⟩ | ⟨hl, hpx, he⟩ | ⟨q, marks, A, B, hl, hk, he⟩
      · rw [he]; exact ⟨hd, le_refl _⟩
      · rw [he]
        obtain ⟨h1, h2⟩ := linkRoot_done (spoil := spoil) w ok hl hpx hd
        exact ⟨h1, le_of_eq h2.symm⟩
      · rw [he]
        have w0 : (s.on fun h => { h with visited := marks }).heap.WF := w.visited marks
        have hd0 : Done (s.on fun h => { h with visited := marks }).heap n := hd
        have ok0 : Heap.LinkOK (s.on fun h => { h with visited := marks }).heap p x index :=
          ⟨ok.1, ok.2, ok.3, ok.4, ok.5⟩
        have hk0 : (s.on fun h => { h with visited := marks }).heap.kids q = A ++ x :: B := hk
        have hnx0 : s.heap.next = (s.on fun h => { h with visited := marks }).heap.next := rfl
        rw [hnx0]
        have hl0 : (s.on fun h => { h with visited := marks }).heap.leaf p = false := hl
        generalize (s.on fun h => { h with visited := marks }) = s0 at *
        obtain ⟨w1, i, -⟩ := Heap.unlinkChild_wf (h := s0.heap) w0 hk0
        have hpx1 : (s0.unlinkChild spoil q x).heap.parent x = none := i.root
        have hl1 : (s0.unlinkChild spoil q x).heap.leaf p = false := by
          rw [unlinkChild_heap, ← show s0.heap.leaf = (s0.heap.unlinkChild q x).leaf from i.leaf]
          exact hl0
        obtain ⟨h1, h2⟩ := unlinkChild_done (spoil := spoil) w0 hk0 hd0
        obtain ⟨h3, h4⟩ := linkRoot_done (spoil := spoil) (s := s0.unlinkChild spoil q x) w1
          (ok0.unlink w0 hk0) hl1 hpx1 h1
        exact ⟨h3, le_of_eq (h4.trans h2).symm⟩
    | unlink q x =>
      show Done (s.unlink spoil q x).1.heap n ∧ s.heap.next ≤ (s.unlink spoil q x).1.heap.next
      unfold unlink
      split
      · exact ⟨hd, le_refl _⟩
      · split
        · rename_i hx
          obtain ⟨A, B, hk⟩ := List.append_of_mem hx
          obtain ⟨h1, h2⟩ := unlinkChild_done (spoil := spoil) w hk hd
          exact ⟨h1, le_of_eq h2.symm⟩
        · exact ⟨hd, le_refl _⟩
    | constrain x c => exact hsame _ ((Heap.constraining_wf w ha).1 c).2
    | unconstrain x cs => exact hsame _ ((Heap.constraining_wf w ha).2.1 cs).2
    | fix x => exact hsame _ (Heap.constraining_wf w ha).2.2.1.2
    | unfix x => exact hsame _ (Heap.constraining_wf w ha).2.2.2.2

/-! ### The hypotheses are met: a write through the root, a `Param` and a sub-hierarchy -/

theorem demo_done : 0 < demo.heap.next ∧ Done demo.heap 0 := by
  refine ⟨?_, ?_, ?_⟩ <;> decide +kernel

theorem demo_at3 : At demo.heap.toGraph 0 3 2 := by
  have h2 : At demo.heap.toGraph 0 2 2 := by
    have := At.step (g := demo.heap.toGraph) (.refl : At demo.heap.toGraph 0 0 0) (c := 2) (A := [1]) (B := [5])
      (by decide +kernel)
    have e : demo.heap.toGraph.sizeSum [1] = 2 := by decide +kernel
    rw [e] at this; exact this
  have := h2.step (c := 3) (A := []) (B := [4]) (by decide +kernel)
  exact this

example (v : Nat) : (demo.exec demoSpoil (.write 0 4 v)).1.mem.read 3 2 = v := by
  rw [write_visible demo_reach demo_done.1 demo_done.2 .refl demo_at3 (by decide +kernel)
    (by decide +kernel)]
  rfl

example : demo.mem.read 3 1 = demo.mem.read 0 3 :=
  read_same demo_reach demo_done.1 demo_done.2 demo_at3 (by decide +kernel)

example : (run demoSpoil demo [.write 3 0 7, .write 0 3 8, .write 2 3 9]).values 0 =
    [10, 11, 7, 8, 32, 9, 50, 51] := by decide +kernel

/-- Not so in a hierarchy that has not been initialised: the `Param`s keep their own memory. -/
theorem write_visible_uninitialised_fails :
    ∃ s : State Nat Nat, Reach demoSpoil s ∧ s.heap.kids 0 = [1, 2] ∧ s.heap.inInit 0 = false ∧
      s.heap.inited 0 = some false ∧ s.mem.arr 0 = none ∧ s.values 1 = [5] := by
  refine ⟨run demoSpoil start ([.heap .newNode, .heap (.newParam 1), .heap (.newParam 1)] ++ fill 1 [5] ++
    [.heap (.link 0 1 none), .heap (.link 0 2 none), .heap (.finishInit 0 false)]),
    Reach.run (.empty _) _ (by decide +kernel), ?_⟩
  refine ⟨?_, ?_, ?_, ?_, ?_⟩ <;> decide +kernel

end State

end Paramz.Memory

import Verif.Mem.GradCopy

/-!
# C82: the gradient of a hierarchy is made of the gradients of its `Param`s

Vocabulary: `gradient s x`: the elements of `x.gradient`, read from the memory of gradients. `Done h n`: the
constructor of `n` is over and `n` has been initialised. `At g n y k`: `y` is `n` or lies below it, and its
elements are those of `n` from position `k` on. `GReach`: states reached by calls, assignments to elements of
gradients and assignments of whole gradients; `GPath`: the same with the conditions `Proper` of C35.
-/

set_option linter.unusedSectionVars false

namespace Paramz.Memory

open Hier (Id Graph Heap upd upd_same upd_ne)
open Hier.Graph (Skel Sized At Anc Ins)

namespace State

variable {V T : Type} [DecidableEq T] {spoil : Nat → Nat → V}

/-- The objects whose gradient may be assigned as a whole: `Param`s and initialised objects, with
elements. -/
def Assignable (s : State V T) (x : Id) : Prop :=
  x < s.heap.next ∧ 0 < s.heap.size x ∧ (s.heap.leaf x = true ∨ Done s.heap x)

/-- States reached by admissible calls, whatever the contents of unused and freed memory. -/
inductive GReach (spoil : Nat → Nat → V) : State V T → Prop
  | empty (cell : Nat → Nat → V) : GReach spoil (empty cell)
  | step {s : State V T} {e : Ev V T} : GReach spoil s → s.Admissible e → GReach spoil (s.gexec spoil e).1
  | set {s : State V T} {x : Id} (val : GVal V) : GReach spoil s → s.Assignable x →
      GReach spoil (s.setGradient x val).1
  | copy {s : State V T} {x : Id} (junk : Id → Nat → V) : GReach spoil s → s.heap.CopyOK x → s.Assignable x →
      GReach spoil (s.gcopy spoil x junk)

/-- The same with calls that are `Proper`. -/
inductive GPath (spoil : Nat → Nat → V) : State V T → Prop
  | empty (cell : Nat → Nat → V) : GPath spoil (empty cell)
  | step {s : State V T} {e : Ev V T} : GPath spoil s → s.Admissible e → s.Proper e →
      GPath spoil (s.gexec spoil e).1
  | set {s : State V T} {x : Id} (val : GVal V) : GPath spoil s → s.Assignable x →
      GPath spoil (s.setGradient x val).1
  | copy {s : State V T} {x : Id} (junk : Id → Nat → V) : GPath spoil s → s.heap.CopyOK x → s.Assignable x →
      GPath spoil (s.gcopy spoil x junk)

theorem GPath.reach {s : State V T} (h : GPath spoil s) : GReach spoil s := by
  induction h with
  | empty cell => exact .empty cell
  | step _ ha _ ih => exact .step ih ha
  | set val _ ha ih => exact .set val ih ha
  | copy junk _ ok ha ih => exact .copy junk ih ok ha

section twin

variable {s s' : State V T}

theorem Twin.arr (t : Twin s s') : s'.mem.arr = s.mem.arr := by
  obtain ⟨P, h⟩ := t.near
  exact h.arr

theorem Twin.read (t : Twin s s') (x : Id) (i : Nat) : s'.mem.read x i = s.mem.read x i := by
  obtain ⟨P, h⟩ := t.near
  exact h.read x i

theorem Twin.gradient (t : Twin s s') (x : Id) : s'.gradient x = s.gradient x := by
  unfold State.gradient
  rw [t.heap]
  exact List.map_congr_left fun i _ => t.read x i

theorem Twin.admissible (t : Twin s s') {e : Ev V T} (ha : s'.Admissible e) : s.Admissible e := by
  cases e with
  | heap e => have := ha; unfold Admissible at this; rw [t.heap] at this; exact this
  | write x i v => have := ha; unfold Admissible at this; rw [t.heap] at this; exact this

theorem Twin.room (t : Twin s s') {p x : Id} (hr : Room s' p x) : Room s p x := by
  unfold Room at hr ⊢
  rw [t.heap, t.arr] at hr
  exact hr

theorem Twin.proper (t : Twin s s') {e : Ev V T} (hp : s'.Proper e) : s.Proper e := by
  cases e with
  | write x i v => trivial
  | heap e =>
    cases e with
    | link p x i =>
      obtain ⟨h1, h2, h3⟩ := hp
      rw [t.heap] at h1 h3
      exact ⟨h1, t.room h2, h3⟩
    | unlink q x => have h1 : Done s'.heap _ := hp; rw [t.heap] at h1; exact h1
    | finishInit x i => have h1 : s'.heap.inInit x = true := hp; rw [t.heap] at h1; exact h1
    | init x => have h1 : s'.heap.inInit (s'.heap.toGraph.highest x) = false := hp; rw [t.heap] at h1; exact h1
    | newParam n => trivial
    | newNode => trivial
    | constrain x c => trivial
    | unconstrain x c => trivial
    | fix x => trivial
    | unfix x => trivial

theorem twin_empty (cell : Nat → Nat → V) : Twin (empty cell : State V T) (empty cell) := by
  refine ⟨rfl, fun y h => (by cases h), fun y h => (by cases h), ⟨fun _ => False, ?_⟩, Nat.one_pos⟩
  exact ⟨rfl, rfl, rfl, fun _ _ _ => rfl, fun _ _ => rfl, fun _ h => h, fun _ h => h.elim, fun _ => .inl rfl⟩

theorem setGradient_heap (s : State V T) (x : Id) (val : GVal V) : (s.setGradient x val).1.heap = s.heap := by
  unfold setGradient
  split
  · rfl
  · split <;> rfl

/-- Assigning a whole gradient, on both sides. -/
theorem Twin.set (t : Twin s s') (h : Reach spoil s) {x : Id} (ha : s'.Assignable x) (val : GVal V) :
    ∃ r, Twin r (s'.setGradient x val).1 ∧ Reach spoil r ∧ (Path spoil s → Path spoil r) := by
  unfold Assignable at ha
  rw [t.heap] at ha
  obtain ⟨hx, h0, hd⟩ := ha
  obtain ⟨v, hv, hlen⟩ := assignable_fits h hx h0 hd
  unfold setGradient
  rw [t.arr, hv]
  simp only []
  cases val.elems v.len with
  | none => exact ⟨s, t, h, id⟩
  | some l =>
    simp only []
    refine ⟨⟨s.heap, s.mem.fill x fun i => (l[i]?).getD (s'.mem.read x i)⟩,
      ⟨t.heap, t.kids, t.lt, t.near.fill x (fun i => (l[i]?).getD (s'.mem.read x i)), t.pos⟩, ?_, fun hp => ?_⟩
    · have e : s.mem.fill x (fun i => (l[i]?).getD (s'.mem.read x i)) = fillTo s.mem x
          (fun i => (l[i]?).getD (s'.mem.read x i)) v.len := by
        unfold Mem.fill fillTo
        rw [Mem.view_eq hv]
      rw [e, fill_writes]
      exact Reach.writes _ hx hd _ _ (fun i hi => by
        have := List.mem_range.mp hi
        rw [hlen] at this; exact this) h
    · have e : s.mem.fill x (fun i => (l[i]?).getD (s'.mem.read x i)) = fillTo s.mem x
          (fun i => (l[i]?).getD (s'.mem.read x i)) v.len := by
        unfold Mem.fill fillTo
        rw [Mem.view_eq hv]
      rw [e, fill_writes]
      exact Path.writes _ hx hd _ _ (fun i hi => by
        have := List.mem_range.mp hi
        rw [hlen] at this; exact this) hp

/-- Assigning several whole gradients. -/
theorem Twin.sets {f : Id → Id} {val : Id → GVal V} : ∀ (L : List Id) {s s' : State V T}, Twin s s' → Reach spoil s →
    (∀ y ∈ L, s'.Assignable (f y)) →
    ∃ r, Twin r (L.foldl (fun r y => (r.setGradient (f y) (val y)).1) s') ∧ Reach spoil r ∧
      (Path spoil s → Path spoil r)
  | [], s, _, t, h, _ => ⟨s, t, h, id⟩
  | y :: L, s, s', t, h, ha => by
    obtain ⟨r, t1, h1, p1⟩ := t.set h (ha y (List.mem_cons_self ..)) (val y)
    obtain ⟨q, t2, h2, p2⟩ := Twin.sets L t1 h1 (fun z hz => by
      have := ha z (List.mem_cons_of_mem _ hz)
      unfold Assignable at this ⊢
      rw [setGradient_heap]
      exact this)
    exact ⟨q, t2, h2, fun hp => p2 (p1 hp)⟩

theorem copied_heap (t : Twin s s') (h : Reach spoil s) {x : Id} (ha : s'.Assignable x) :
    (s'.gcopied spoil x).heap = (s.heap.copy x).1 := by
  obtain ⟨hx, h0, hd⟩ := ha
  rw [t.heap] at hx h0 hd
  rw [(t.copied h hx h0 hd).heap, (copy_heap spoil s x).1]

/-- A `Param` of the copy can be assigned to. -/
theorem copied_assignable (t : Twin s s') (h : Reach spoil s) {x y : Id} (ha : s'.Assignable x)
    (hy : Anc s'.heap.toGraph x y) (hl : s'.heap.leaf y = true) (h1 : 0 < s'.heap.size y) :
    (s'.gcopied spoil x).Assignable (s'.heap.copyOf x y) := by
  have e := copied_heap (spoil := spoil) t h ha
  obtain ⟨hx, h0, hd⟩ := ha
  rw [t.heap] at hx h0 hd hy hl h1
  have sk := h.heap.wf.skel
  have hgr := raw_graph spoil s x sk hx
  rw [(copy_heap spoil s x).1] at hgr
  rw [t.heap]
  unfold Assignable
  rw [e]
  refine ⟨?_, ?_, .inl ?_⟩
  · show _ < (s.heap.copy x).1.toGraph.next
    rw [hgr]
    exact Nat.add_lt_add_left (List.idxOf_lt_length_of_mem (sk.mem_subtree.mpr hy)) _
  · show 0 < (s.heap.copy x).1.toGraph.size _
    rw [hgr]
    exact (Heap.raw_size_new sk hy).symm ▸ h1
  · show (s.heap.copy x).1.toGraph.leaf _ = true
    rw [hgr]
    exact (Heap.raw_leaf_new sk hy).trans hl

/-- Copying, on both sides. -/
theorem Twin.copy (t : Twin s s') (h : Reach spoil s) {x : Id} (ok : s'.heap.CopyOK x) (ha : s'.Assignable x)
    (junk : Id → Nat → V) :
    ∃ r, Twin r (s'.gcopy spoil x junk) ∧ Reach spoil r ∧ (Path spoil s → Path spoil r) := by
  have hc := fun y => copied_assignable (spoil := spoil) (y := y) t h ha
  have sk := h.heap.wf.skel
  obtain ⟨hx, h0, hd⟩ := ha
  rw [t.heap] at hx h0 hd ok
  have t1 := t.copied (spoil := spoil) h hx h0 hd
  obtain ⟨r, t2, h2, p2⟩ := t1.sets (f := s'.heap.copyOf x)
    (val := fun y => .array ((List.range (s'.heap.size y)).map (junk y)))
    ((s'.heap.toGraph.subtree x).filter (fun y => s'.heap.leaf y && decide (0 < s'.heap.size y))) (.copy h ok)
    (fun y hy => by
      obtain ⟨h3, h4⟩ := List.mem_filter.mp hy
      rw [Bool.and_eq_true, decide_eq_true_eq] at h4
      refine hc y ?_ h4.1 h4.2
      rw [t.heap] at h3 ⊢
      exact sk.mem_subtree.mp h3)
  exact ⟨r, t2, h2, fun hp => p2 (.copy hp ok hd)⟩

end twin

theorem GReach.twin {s' : State V T} (h : GReach spoil s') : ∃ s, Twin s s' ∧ Reach spoil s := by
  induction h with
  | empty cell => exact ⟨_, twin_empty cell, .empty cell⟩
  | step _ ha ih =>
    obtain ⟨s, t, hr⟩ := ih
    exact ⟨_, t.step hr (t.admissible ha), .step hr (t.admissible ha)⟩
  | set val _ ha ih =>
    obtain ⟨s, t, hr⟩ := ih
    obtain ⟨r, t', hr', -⟩ := t.set hr ha val
    exact ⟨r, t', hr'⟩
  | copy junk _ ok ha ih =>
    obtain ⟨s, t, hr⟩ := ih
    obtain ⟨r, t', hr', -⟩ := t.copy hr ok ha junk
    exact ⟨r, t', hr'⟩

theorem GPath.twin {s' : State V T} (h : GPath spoil s') : ∃ s, Twin s s' ∧ Path spoil s := by
  induction h with
  | empty cell => exact ⟨_, twin_empty cell, .empty cell⟩
  | step _ ha hp ih =>
    obtain ⟨s, t, hr⟩ := ih
    exact ⟨_, t.step hr.reach (t.admissible ha), .step hr (t.admissible ha) (t.proper hp)⟩
  | set val _ ha ih =>
    obtain ⟨s, t, hr⟩ := ih
    obtain ⟨r, t', -, hr'⟩ := t.set hr.reach ha val
    exact ⟨r, t', hr' hr⟩
  | copy junk _ ok ha ih =>
    obtain ⟨s, t, hr⟩ := ih
    obtain ⟨r, t', -, hr'⟩ := t.copy hr.reach ok ha junk
    exact ⟨r, t', hr' hr⟩

theorem gradient_length (s : State V T) (x : Id) : (s.gradient x).length = s.heap.size x := by
  unfold gradient; simp

theorem gradient_get (s : State V T) (x : Id) (i : Nat) :
    (s.gradient x)[i]? = if i < s.heap.size x then some (s.mem.read x i) else none := by
  unfold gradient
  rw [List.getElem?_map]
  by_cases h : i < s.heap.size x
  · rw [if_pos h, List.getElem?_range h]; rfl
  · rw [if_neg h, List.getElem?_eq_none (by simpa using h)]; rfl

/-- **C82.** Below an initialised object, the gradient of any object is the part of the gradient of the whole
that starts at its position. -/
theorem gradient_window {s : State V T} (h : GReach spoil s) {n y : Id} {k : Nat} (hn : n < s.heap.next)
    (hd : Done s.heap n) (hy : At s.heap.toGraph n y k) :
    s.gradient y = ((s.gradient n).drop k).take (s.heap.size y) := by
  obtain ⟨t, tw, hr⟩ := h.twin
  have w := hr.heap.wf
  rw [← tw.heap] at w
  have hwin : k + s.heap.size y ≤ s.heap.size n := hy.window w.skel w.sized
  refine List.ext_getElem? fun j => ?_
  rw [List.getElem?_take, gradient_get]
  by_cases hj : j < s.heap.size y
  · rw [if_pos hj, if_pos hj, List.getElem?_drop, gradient_get, if_pos (by omega)]
    rw [tw.read, tw.read]
    rw [tw.heap] at hn hd hy hj
    rw [read_same hr hn hd hy hj]
  · rw [if_neg hj, if_neg hj]

/-- **C82.** Below an initialised object, the gradient of a `Parameterized` is the gradients of its parameters
one after the other. -/
theorem gradient_parts {s : State V T} (h : GReach spoil s) {n y : Id} {k : Nat} (hn : n < s.heap.next)
    (hd : Done s.heap n) (hy : At s.heap.toGraph n y k) (hl : s.heap.leaf y = false) :
    s.gradient y = (s.heap.kids y).flatMap s.gradient := by
  obtain ⟨t, tw, hr⟩ := h.twin
  have w := hr.heap.wf
  rw [← tw.heap] at w
  have key : ∀ (L A : List Id), s.heap.kids y = A ++ L →
      L.flatMap s.gradient = ((s.gradient n).drop (k + s.heap.toGraph.sizeSum A)).take (s.heap.toGraph.sizeSum L) := by
    intro L
    induction L with
    | nil => intro A _; simp [Graph.sizeSum]
    | cons c L ih =>
      intro A hA
      have hc := gradient_window h hn hd (hy.step hA)
      rw [List.flatMap_cons, hc, ih (A ++ [c]) (by rw [hA]; simp)]
      have e1 : s.heap.toGraph.sizeSum (A ++ [c]) = s.heap.toGraph.sizeSum A + s.heap.size c := by
        simp [Graph.sizeSum]
      have e2 : s.heap.toGraph.sizeSum (c :: L) = s.heap.size c + s.heap.toGraph.sizeSum L := by
        simp [Graph.sizeSum]
      rw [e1, e2, List.take_add, List.drop_drop, Nat.add_assoc]
  have hz : s.heap.size y = s.heap.toGraph.sizeSum (s.heap.kids y) := w.sized y hl
  have h1 := key (s.heap.kids y) [] rfl
  have h2 := gradient_window h hn hd hy
  rw [h1, h2, hz]
  simp [Graph.sizeSum]

/-- What is assigned, element by element: an array with as many elements as the object, or a number for
all of them. -/
def Means (n : Nat) (val : GVal V) (l : List V) : Prop :=
  (val = .array l ∧ l.length = n) ∨ ∃ v, val = .number v ∧ l = List.replicate n v

theorem Means.elems {n : Nat} {val : GVal V} {l : List V} (h : Means n val l) :
    val.elems n = some l ∧ l.length = n := by
  rcases h with ⟨rfl, h⟩ | ⟨v, rfl, rfl⟩
  · exact ⟨by simp only [GVal.elems, if_pos h], h⟩
  · exact ⟨rfl, by simp⟩

/-- Assigning a gradient to an array that fits: what is read afterwards. -/
theorem set_read {s : State V T} {x : Id} {v : View} (hv : Fits s.heap.toGraph s.mem x v) {val : GVal V}
    {l : List V} (hl : Means (s.heap.size x) val l) :
    (s.setGradient x val).2 = none ∧ (s.setGradient x val).1.heap = s.heap ∧
    ∀ y u, s.mem.arr y = some u → ∀ j, (s.setGradient x val).1.mem.read y j =
      if u.buf = v.buf ∧ v.off ≤ u.off + j ∧ u.off + j < v.off + s.heap.size x
      then (l[u.off + j - v.off]?).getD (s.mem.read y j) else s.mem.read y j := by
  obtain ⟨h1, h2⟩ := hl.elems
  have hlen : v.len = s.heap.size x := hv.2
  have e : s.setGradient x val =
      ({ s with mem := s.mem.fill x fun i => (l[i]?).getD (s.mem.read x i) }, none) := by
    unfold setGradient
    rw [hv.1]
    simp only []
    rw [hlen, h1]
  rw [e]
  refine ⟨rfl, rfl, fun y u hu j => ?_⟩
  have hvy : ({ s with mem := s.mem.fill x fun i => (l[i]?).getD (s.mem.read x i) } : State V T).mem.view y = u :=
    Mem.view_eq (m := s.mem) hu
  have hry : s.mem.read y j = s.mem.cell u.buf (u.off + j) := by
    unfold Mem.read; rw [Mem.view_eq hu]
  show Mem.cell _ (Mem.view _ y).buf ((Mem.view _ y).off + j) = _
  rw [hvy, hry]
  show (if u.buf = (s.mem.view x).buf ∧ (s.mem.view x).off ≤ u.off + j ∧
      u.off + j < (s.mem.view x).off + (s.mem.view x).len
    then (l[u.off + j - (s.mem.view x).off]?).getD (s.mem.read x (u.off + j - (s.mem.view x).off))
    else s.mem.cell u.buf (u.off + j)) = _
  rw [Mem.view_eq hv.1, hlen]
  by_cases hc : u.buf = v.buf ∧ v.off ≤ u.off + j ∧ u.off + j < v.off + s.heap.size x
  · rw [if_pos hc, if_pos hc]
    have hlt : u.off + j - v.off < l.length := by rw [h2]; omega
    rw [List.getElem?_eq_getElem hlt]
    rfl
  · rw [if_neg hc, if_neg hc]

/-- **C82.** Assigning the gradient of any object below an initialised object sets exactly its elements of the
gradient of the whole, as seen through every object of the hierarchy; nothing is raised. -/
theorem gradient_set {s : State V T} (h : GReach spoil s) {n x y : Id} {a b : Nat} (hn : n < s.heap.next)
    (hd : Done s.heap n) (hx : At s.heap.toGraph n x a) (hy : At s.heap.toGraph n y b)
    (h0 : 0 < s.heap.size x) {val : GVal V} {l : List V} (hl : Means (s.heap.size x) val l) :
    (s.setGradient x val).2 = none ∧
    ∀ j, j < s.heap.size y → ((s.setGradient x val).1.gradient y)[j]? =
      if a ≤ b + j ∧ b + j < a + s.heap.size x then l[b + j - a]? else (s.gradient y)[j]? := by
  obtain ⟨t, tw, hr⟩ := h.twin
  obtain ⟨B, o, hc⟩ := hr.linked.calm n (by rw [← tw.heap]; exact hn) (by rw [← tw.heap]; exact hd)
  have ex : s.mem.arr x = some ⟨B, o + a, s.heap.size x⟩ := by
    rw [tw.arr, tw.heap]
    exact (hc x a (by rw [← tw.heap]; exact hx) (by rw [← tw.heap]; exact h0)).1
  obtain ⟨h1, h2, h3⟩ := set_read (x := x) (v := ⟨B, o + a, s.heap.size x⟩) ⟨ex, rfl⟩ hl
  refine ⟨h1, fun j hj => ?_⟩
  have ey : s.mem.arr y = some ⟨B, o + b, s.heap.size y⟩ := by
    rw [tw.arr, tw.heap]
    exact (hc y b (by rw [← tw.heap]; exact hy) (by rw [← tw.heap]; exact Nat.lt_of_le_of_lt (Nat.zero_le _) hj)).1
  rw [gradient_get, gradient_get, h2, if_pos hj, if_pos hj, h3 y _ ey j]
  simp only [true_and]
  by_cases hin : a ≤ b + j ∧ b + j < a + s.heap.size x
  · rw [if_pos hin, if_pos (by omega)]
    have e : o + b + j - (o + a) = b + j - a := by omega
    rw [e, List.getElem?_eq_getElem (by rw [hl.elems.2]; omega)]
    rfl
  · rw [if_neg hin, if_neg (by omega)]

/-- **C82.** Assigning to the gradient of a `Param`, in a hierarchy or not, or of an initialised object, makes
it what was assigned. -/
theorem gradient_set_self {s : State V T} (h : GReach spoil s) {x : Id} (ha : s.Assignable x) {val : GVal V}
    {l : List V} (hl : Means (s.heap.size x) val l) :
    (s.setGradient x val).2 = none ∧ (s.setGradient x val).1.gradient x = l := by
  obtain ⟨t, tw, hr⟩ := h.twin
  obtain ⟨hx, h0, hd⟩ := ha
  rw [tw.heap] at hx h0 hd
  obtain ⟨v, hv, hlen⟩ := assignable_fits hr hx h0 hd
  rw [← tw.arr] at hv
  rw [← tw.heap] at hlen
  obtain ⟨h1, h2, h3⟩ := set_read (x := x) (v := v) ⟨hv, hlen⟩ hl
  refine ⟨h1, List.ext_getElem? fun j => ?_⟩
  rw [gradient_get, h2]
  by_cases hj : j < s.heap.size x
  · rw [if_pos hj, h3 x v hv j, if_pos ⟨rfl, by omega, by omega⟩]
    have e : v.off + j - v.off = j := by omega
    rw [e, List.getElem?_eq_getElem (by rw [hl.elems.2]; exact hj)]
    rfl
  · rw [if_neg hj, List.getElem?_eq_none (by rw [hl.elems.2]; omega)]

/-- **C82.** An array of another size (and not of one element) is refused, and nothing changes. -/
theorem gradient_set_raises {s : State V T} (h : GReach spoil s) {x : Id} (ha : s.Assignable x) {l : List V}
    (hl : l.length ≠ s.heap.size x) (h1 : l.length ≠ 1) :
    s.setGradient x (.array l) = (s, some .valueError) := by
  obtain ⟨t, tw, hr⟩ := h.twin
  obtain ⟨hx, h0, hd⟩ := ha
  rw [tw.heap] at hx h0 hd
  obtain ⟨v, hv, hlen⟩ := assignable_fits hr hx h0 hd
  rw [← tw.arr] at hv
  rw [← tw.heap] at hlen
  have e : GVal.elems v.len (.array l) = none := by
    have hlen : v.len = s.heap.size x := hlen
    rw [hlen]
    unfold GVal.elems
    simp only []
    rw [if_neg hl]
    match l, h1 with
    | [], _ => rfl
    | [_], h1 => exact absurd rfl h1
    | _ :: _ :: _, _ => rfl
  unfold setGradient
  rw [hv]
  simp only []
  rw [e]

/-- **C82.** Assigning the gradient of one `Param` does not change the gradient of any other. Missing for the full
property: histories with calls that are not `Proper` (C55 `separate_params_fails` is about values, which go
through the same calls). -/
theorem gradient_separate_partial {s : State V T} (h : GPath spoil s) {x y : Id} (hx : s.heap.leaf x = true)
    (hxlt : x < s.heap.next) (hy : s.heap.leaf y = true) (hlt : y < s.heap.next) (hxy : y ≠ x)
    {val : GVal V} {l : List V} (hl : Means (s.heap.size x) val l) :
    (s.setGradient x val).1.gradient y = s.gradient y := by
  obtain ⟨t, tw, hr⟩ := h.twin
  have w := hr.reach.heap.wf
  have td := hr.tidy
  rw [tw.heap] at hx hxlt hy hlt
  obtain ⟨vx, hvx⟩ := td.sound.lf x hxlt hx
  obtain ⟨vy, hvy⟩ := td.sound.lf y hlt hy
  have fx : Fits s.heap.toGraph s.mem x vx := by
    refine ⟨by rw [tw.arr]; exact hvx.1, ?_⟩
    rw [tw.heap]; exact hvx.2
  obtain ⟨-, h2, h3⟩ := set_read fx hl
  unfold gradient
  rw [h2]
  refine List.map_congr_left fun j hj => ?_
  have hj : j < s.heap.size y := List.mem_range.mp hj
  rw [h3 y vy (by rw [tw.arr]; exact hvy.1) j, if_neg]
  rintro ⟨e1, e2, e3⟩
  rw [tw.heap] at hj e3
  have a1 := Has.of_fits hvx (i := vy.off + j - vx.off) (by
    show vy.off + j - vx.off < t.heap.size x; omega)
  have a2 := Has.of_fits hvy (i := j) hj
  have e4 : vx.off + (vy.off + j - vx.off) = vy.off + j := by omega
  rw [e4] at a1
  rw [e1] at a2
  exact hxy (anc_of_leaf w.skel hx (td.sound.sep x y _ _ hy a1 a2)).symm

/-- The `Param`s `AtRisk` do not depend on memory. -/
theorem Twin.atRisk {s s' : State V T} (t : Twin s s') {y : Id} {e : Ev V T} (h : s.AtRisk spoil y e) :
    s'.AtRisk spoil y e := by
  cases e with
  | write x i v => exact h
  | heap e =>
    cases e with
    | link p x i =>
      have e1 : (s'.link spoil p x i).1.heap = (s.link spoil p x i).1.heap := by
        rw [(link_heap spoil s' p x i).1, (link_heap spoil s p x i).1, t.heap]
      show BelowGrandchild (s'.link spoil p x i).1.heap.toGraph p y ∨ ∃ q q', s'.heap.parent x = some q ∧
        s'.heap.parent q = some q' ∧ BelowGrandchild s'.heap.toGraph q' y ∧ ¬ Anc s'.heap.toGraph x y
      rw [e1, t.heap]
      exact h
    | unlink q x =>
      show ∃ q', s'.heap.parent q = some q' ∧ BelowGrandchild s'.heap.toGraph q' y ∧ ¬ Anc s'.heap.toGraph x y
      rw [t.heap]
      exact h
    | finishInit x i => exact h
    | init x => exact h
    | newParam n => exact h
    | newNode => exact h
    | constrain x c => exact h
    | unconstrain x c => exact h
    | fix x => exact h
    | unfix x => exact h

/-- **C82.** No call other than an assignment to a gradient changes the gradient of a `Param` that is not
`AtRisk`. Missing for the full property: the `Param`s `AtRisk` (`gradient_lost_fails`) and histories with calls
that are not `Proper`. -/
theorem gradient_kept_partial {s : State V T} (h : GPath spoil s) {e : Ev V T} (ha : s.Admissible e)
    (hp : s.Proper e) (hw : ∀ x i v, e ≠ .write x i v) {y : Id} (hy : s.heap.leaf y = true)
    (hlt : y < s.heap.next) (hr : ¬ s.AtRisk spoil y e) :
    ∀ i, i < s.heap.size y → (s.gexec spoil e).1.mem.read y i = s.mem.read y i := by
  obtain ⟨t, tw, hpt⟩ := h.twin
  have tw2 := tw.step hpt.reach (tw.admissible ha)
  intro i hi
  rw [tw2.read, tw.read]
  rw [tw.heap] at hy hlt hi
  exact values_kept_partial hpt (tw.admissible ha) (tw.proper hp) hw hy hlt (fun h => hr (tw.atRisk h)) i hi

/-! ### Concrete histories -/

/-- One step of a history: a call or an assignment of a whole gradient. -/
inductive GEv (V T : Type)
  | call (e : Ev V T)
  | set (x : Id) (val : GVal V)

def gstep (spoil : Nat → Nat → V) (s : State V T) : GEv V T → State V T
  | .call e => (s.gexec spoil e).1
  | .set x val => (s.setGradient x val).1

def grun (spoil : Nat → Nat → V) (s : State V T) (es : List (GEv V T)) : State V T :=
  es.foldl (gstep spoil) s

/-- Is every step allowed when it is made? -/
def gpathB (spoil : Nat → Nat → V) (s : State V T) : List (GEv V T) → Bool
  | [] => true
  | .call e :: es => s.admissibleB e && s.properB e && gpathB spoil (s.gexec spoil e).1 es
  | .set x val :: es => decide (x < s.heap.next) && decide (0 < s.heap.size x) &&
      (s.heap.leaf x || (!s.heap.inInit x && decide (s.heap.inited x = some true))) &&
      gpathB spoil (s.setGradient x val).1 es

theorem GPath.run {s : State V T} (hr : GPath spoil s) :
    ∀ es, s.gpathB spoil es = true → GPath spoil (s.grun spoil es)
  | [], _ => hr
  | .call e :: es, hb => by
    simp only [gpathB, Bool.and_eq_true] at hb
    obtain ⟨t, tw, ht⟩ := hr.twin
    have w := ht.reach.heap.wf
    rw [← tw.heap] at w
    exact GPath.run (s := (s.gexec spoil e).1)
      (.step hr (admissibleB_sound w hb.1.1) (properB_sound hb.1.2)) es hb.2
  | .set x val :: es, hb => by
    simp only [gpathB, Bool.and_eq_true, Bool.or_eq_true, decide_eq_true_eq] at hb
    refine GPath.run (s := (s.setGradient x val).1) (.set val hr ⟨hb.1.1.1, hb.1.1.2, ?_⟩) es hb.2
    rcases hb.1.2 with h | h
    · exact .inl h
    · exact .inr (doneB (by simpa using h))

/-- Root `0` with `Param` `1` (2 elements), `Parameterized` `2` with `Param`s `3` (3 elements) and `4` (1), and
`Param` `5` (2). Some gradients are set before the objects are linked. -/
def gdemo : State Nat Nat := grun demoSpoil start
  [.call (.heap .newNode), .call (.heap (.newParam 2)), .call (.heap .newNode), .call (.heap (.newParam 3)),
    .call (.heap (.newParam 1)), .call (.heap (.newParam 2)), .set 1 (.array [10, 11]), .set 4 (.number 40),
    .call (.heap (.link 2 3 none)), .call (.heap (.link 2 4 none)), .call (.heap (.finishInit 2 true)),
    .set 3 (.array [30, 31, 32]),
    .call (.heap (.link 0 1 none)), .call (.heap (.link 0 2 none)), .call (.heap (.link 0 5 none)),
    .call (.heap (.finishInit 0 true)), .set 5 (.number 5)]

theorem gdemo_path : GPath demoSpoil gdemo := GPath.run (.empty _) _ (by decide +kernel)

theorem gdemo_done : 0 < gdemo.heap.next ∧ Done gdemo.heap 0 := by
  refine ⟨?_, ?_, ?_⟩ <;> decide +kernel

theorem gdemo_at2 : At gdemo.heap.toGraph 0 2 2 :=
  At.step (g := gdemo.heap.toGraph) (.refl : At gdemo.heap.toGraph 0 0 0) (c := 2) (A := [1]) (B := [5])
    (by decide +kernel)

example : gdemo.gradient 0 = [10, 11, 30, 31, 32, 40, 5, 5] ∧ gdemo.gradient 2 = [30, 31, 32, 40] := by
  decide +kernel

example : gdemo.gradient 2 = ((gdemo.gradient 0).drop 2).take 4 :=
  gradient_window gdemo_path.reach gdemo_done.1 gdemo_done.2 gdemo_at2

example : gdemo.gradient 0 = [1, 2, 5].flatMap gdemo.gradient :=
  gradient_parts gdemo_path.reach gdemo_done.1 gdemo_done.2 .refl (by decide +kernel)

/-- Setting the gradient of `2` as seen from the root. -/
example : ((gdemo.setGradient 2 (.array [1, 2, 3, 4])).1.gradient 0)[4]? = some 3 := by
  rw [(gradient_set gdemo_path.reach gdemo_done.1 gdemo_done.2 gdemo_at2 .refl (by decide +kernel)
    (.inl ⟨rfl, by decide +kernel⟩)).2 4 (by decide +kernel)]
  decide +kernel

example : (gdemo.setGradient 0 (.number 0)).1.gradient 0 = List.replicate 8 0 :=
  (gradient_set_self gdemo_path.reach ⟨gdemo_done.1, by decide +kernel, .inr gdemo_done.2⟩
    (.inr ⟨0, rfl, by decide +kernel⟩)).2

example : gdemo.setGradient 0 (.array [1, 2, 3]) = (gdemo, some .valueError) :=
  gradient_set_raises gdemo_path.reach ⟨gdemo_done.1, by decide +kernel, .inr gdemo_done.2⟩
    (by decide +kernel) (by decide +kernel)

example : (gdemo.setGradient 3 (.array [1, 2, 3])).1.gradient 4 = [40] := by
  rw [gradient_separate_partial gdemo_path (by decide +kernel) (by decide +kernel) (by decide +kernel)
    (by decide +kernel) (by decide) (.inl ⟨rfl, by decide +kernel⟩)]
  decide +kernel

/-- Unlinking `3`. -/
example : ∀ i, i < gdemo.heap.size 4 →
    (gdemo.gexec demoSpoil (.heap (.unlink 2 3))).1.mem.read 4 i = gdemo.mem.read 4 i := by
  refine gradient_kept_partial (e := .heap (.unlink 2 3)) gdemo_path trivial (properB_sound (by decide +kernel))
    (fun _ _ _ h => by cases h) (by decide +kernel) (by decide +kernel) ?_
  rintro ⟨q', hq', hb, -⟩
  have e : gdemo.heap.parent 2 = some 0 := by decide +kernel
  rw [e] at hq'
  cases hq'
  exact not_belowGrandchild_root (g := gdemo.heap.toGraph) (p := 0) (by decide +kernel) 4 hb

example : (gdemo.gexec demoSpoil (.heap (.unlink 2 3))).1.gradient 0 = [10, 11, 40, 5, 5] := by decide +kernel

/-- The hierarchy `deep` of C35: root `0`, its child `1`, its grandchild `2` with `Param`s `3`, `4`; `1` also has
`5`; `6` is not linked. -/
def gdeep : State Nat Nat := grun demoSpoil start
  [.call (.heap .newNode), .call (.heap .newNode), .call (.heap .newNode), .call (.heap (.newParam 2)),
    .call (.heap (.newParam 1)), .call (.heap (.newParam 1)), .call (.heap (.newParam 1)),
    .call (.heap (.link 2 3 none)), .call (.heap (.link 2 4 none)), .call (.heap (.finishInit 2 true)),
    .call (.heap (.link 1 2 none)), .call (.heap (.link 1 5 none)), .call (.heap (.finishInit 1 true)),
    .call (.heap (.link 0 1 none)), .call (.heap (.finishInit 0 true)), .set 0 (.array [30, 31, 40, 50])]

/-- Linking to a grandchild of the root destroys the gradients of everything in that grandchild. -/
theorem gradient_lost_fails : GPath demoSpoil gdeep ∧ gdeep.Admissible (.heap (.link 2 6 none)) ∧
    gdeep.Proper (.heap (.link 2 6 none)) ∧ (gdeep.gexec demoSpoil (.heap (.link 2 6 none))).2 = none ∧
    gdeep.gradient 0 = [30, 31, 40, 50] ∧
    (gdeep.gexec demoSpoil (.heap (.link 2 6 none))).1.gradient 3 = [77, 77] ∧
    (gdeep.gexec demoSpoil (.heap (.link 2 6 none))).1.gradient 5 = [50] := by
  have hp : GPath demoSpoil gdeep := GPath.run (.empty _) _ (by decide +kernel)
  obtain ⟨t, tw, ht⟩ := hp.twin
  have w := ht.reach.heap.wf
  rw [← tw.heap] at w
  refine ⟨hp, admissibleB_sound w (by decide +kernel), properB_sound (by decide +kernel), ?_⟩
  refine ⟨?_, ?_, ?_, ?_⟩ <;> decide +kernel

/-- A hierarchy that has not been initialised: the gradient of its `Param` can be assigned, its own cannot. -/
theorem gradient_uninitialised_fails : ∃ s : State Nat Nat, GPath demoSpoil s ∧ s.heap.kids 0 = [1] ∧
    s.heap.size 0 = 2 ∧ s.heap.inInit 0 = false ∧ (s.setGradient 1 (.number 3)).2 = none ∧
    (s.setGradient 0 (.number 3)).2 = some .attributeError := by
  refine ⟨grun demoSpoil start [.call (.heap .newNode), .call (.heap (.newParam 2)),
    .call (.heap (.link 0 1 none)), .call (.heap (.finishInit 0 false))],
    GPath.run (.empty _) _ (by decide +kernel), ?_⟩
  refine ⟨?_, ?_, ?_, ?_, ?_⟩ <;> decide +kernel

/-- A `Param` `1` linked to `0`, which is still under construction. -/
def waiting : List (Ev Nat Nat) := [.heap .newNode, .heap (.newParam 2), .heap (.link 0 1 none)]

/-- An array made from the gradient of a `Param` before it is connected (the gradient of a part `p[:1]`, or
`g = p.gradient.ravel()`: a window of the same buffer) is left with freed memory when the hierarchy is
initialised. This does not happen with values. -/
theorem gradient_part_freed_fails :
    (let s := grun demoSpoil start (waiting.map .call)
     let s' := (s.gexec demoSpoil (.heap (.finishInit 0 true))).1
     s'.mem.freed (s.mem.view 1).buf = true ∧ (s'.mem.view 1).buf ≠ (s.mem.view 1).buf) ∧
    (let s := run demoSpoil start waiting
     let s' := (s.exec demoSpoil (.heap (.finishInit 0 true))).1
     s'.mem.freed (s.mem.view 1).buf = false ∧ (s'.mem.view 1).buf ≠ (s.mem.view 1).buf) := by
  refine ⟨⟨?_, ?_⟩, ?_, ?_⟩ <;> decide +kernel

end State

end Paramz.Memory

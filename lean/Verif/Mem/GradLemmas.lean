import Verif.Mem.GradModel
import Verif.Mem.PickleLemmas
import Verif.Mem.ValueProps

/-!
# Gradients: the memory of gradients behaves as that of values

`Twin s s'`: `s'` is `s`, except that some `Param`s of `s'` own memory that nothing else uses. The gradients
are such an `s'`, for an `s` that goes through the same calls as values do.
-/

set_option linter.unusedSectionVars false

namespace Paramz.Memory

open Hier (Id Graph Heap upd upd_same upd_ne)
open Hier.Graph (Skel Sized At Anc Ins)

namespace Mem

variable {V : Type} {g g' : Graph} {m m' : Mem V}

theorem Near.of_leaf (h : Near 1 g m m') (hl : g'.leaf = g.leaf) : Near 1 g' m m' := by
  obtain ⟨P, h⟩ := h
  refine ⟨P, h.arr, h.next, h.bad, h.cell, h.freed, h.used, h.range, fun n => ?_⟩
  rw [hl]
  exact h.owns n

theorem Near.connect {spoil : Nat → Nat → V} (h : Near 1 g m m') {r : Id}
    (hr : g.leaf r = true → g.kids r = []) :
    Near 1 g (m.connect spoil g r) (m'.connect spoil g r) := by
  cases hl : g.leaf r with
  | false => exact connect_near hl h
  | true => rw [connect_nil spoil m (hr hl), connect_nil spoil m' (hr hl)]; exact h

theorem Near.write (h : Near 1 g m m') (x : Id) (i : Nat) (v : V) :
    Near 1 g (m.write x i v) (m'.write x i v) := by
  obtain ⟨P, h⟩ := h
  refine ⟨P, h.arr, h.next, h.bad, ?_, h.freed, h.used, h.range, h.owns⟩
  intro b j hb
  show (if b = (m'.view x).buf ∧ j = (m'.view x).off + i then v else m'.cell b j) =
    (if b = (m.view x).buf ∧ j = (m.view x).off + i then v else m.cell b j)
  rw [h.view, h.cell b j hb]

theorem Near.fill (h : Near 1 g m m') (x : Id) (f : Nat → V) :
    Near 1 g (m.fill x f) (m'.fill x f) := by
  obtain ⟨P, h⟩ := h
  refine ⟨P, h.arr, h.next, h.bad, ?_, h.freed, h.used, h.range, h.owns⟩
  intro b j hb
  show (if b = (m'.view x).buf ∧ (m'.view x).off ≤ j ∧ j < (m'.view x).off + (m'.view x).len
      then f (j - (m'.view x).off) else m'.cell b j) =
    (if b = (m.view x).buf ∧ (m.view x).off ≤ j ∧ j < (m.view x).off + (m.view x).len
      then f (j - (m.view x).off) else m.cell b j)
  rw [h.view, h.cell b j hb]

theorem ensure_next_le (g : Graph) (m : Mem V) (x : Id) : m.next ≤ (m.ensure g x).next := by
  rcases ensure_cases g m x with ⟨h, -⟩ | ⟨h, -⟩
  · rw [h]
  · rw [h]; exact Nat.le_succ _

theorem each_next {size : Id → Nat} {f : Mem V → Id → Nat → Mem V} (hf : ∀ m c k, m.next ≤ (f m c k).next) :
    ∀ (L : List Id) (k : Nat) (m : Mem V), m.next ≤ (each size f L k m).next
  | [], _, _ => Nat.le_refl _
  | c :: L, k, m => Nat.le_trans (hf m c k) (each_next hf L _ _)

theorem propagateF_next (spoil : Nat → Nat → V) (g : Graph) : ∀ (n : Nat) (m : Mem V) (x b o : Nat),
    m.next ≤ (propagateF spoil g n m x b o).next
  | 0, _, _, _, _ => Nat.le_refl _
  | n + 1, m, x, b, o => by
    unfold propagateF
    refine each_next (fun m c k => ?_) _ _ _
    refine Nat.le_trans ?_ (propagateF_next spoil g n _ c b (o + k))
    exact Nat.le_trans (ensure_next_le g m c) (ensure_next_le g _ x)

theorem connect_next (spoil : Nat → Nat → V) (g : Graph) (m : Mem V) (r : Id) :
    m.next ≤ (m.connect spoil g r).next := by
  refine each_next (fun m c k => ?_) _ _ _
  exact Nat.le_trans (Nat.le_trans (ensure_next_le g m c) (ensure_next_le g _ r)) (propagateF_next spoil g _ _ _ _ _)

/-- A new `Param`: on the left it does not own its memory, on the right it does. -/
theorem Near.newGrad (h : Near 1 g m m') {x : Id} (n : Nat) (hl : ∀ y, y ≠ x → g'.leaf y = g.leaf y)
    (hx : g'.leaf x = true) (hb : ∀ y v, m.arr y = some v → v.buf < m.next) (h0 : 0 < m.next) :
    Near 1 g' (m.newParam x n) (m'.newGrad x n) := by
  obtain ⟨P, h⟩ := h
  have hv : ∀ k, k ≠ x → (m.newParam x n).view k = m.view k := by
    intro k hk
    show ((upd m.arr x _ k).getD _) = _
    rw [upd_ne _ _ hk]; rfl
  have hvx : ((m.newParam x n).view x).buf = m.next := by
    show ((upd m.arr x _ x).getD _).buf = _
    rw [upd_same]; rfl
  have hlt : ∀ k, (m.view k).buf < m.next := by
    intro k
    unfold Mem.view
    cases hk : m.arr k with
    | none => exact h0
    | some v => exact hb k v hk
  refine ⟨P, ?_, ?_, h.bad, h.cell, h.freed, ?_, ?_, ?_⟩
  · show upd m'.arr x _ = upd m.arr x _
    rw [h.arr, h.next]
  · show m'.next + 1 = m.next + 1
    rw [h.next]
  · intro k
    by_cases hk : k = x
    · subst hk; rw [hvx]; exact fun hp => absurd (h.range _ hp).2 (Nat.lt_irrefl _)
    · rw [hv k hk]; exact h.used k
  · exact fun b hb => ⟨(h.range b hb).1, Nat.lt_succ_of_lt (h.range b hb).2⟩
  · intro k
    by_cases hk : k = x
    · right
      subst hk
      refine ⟨hx, upd_same _ _ _, upd_same _ _ _, fun j hj => ?_, (by rw [hvx]; exact h0), ?_⟩
      · rw [hv j hj, hvx]; exact Nat.ne_of_lt (hlt j)
      · rw [hvx]; exact Nat.lt_succ_self _
    · rw [hv k hk]
      show upd m'.owns x true k = upd m.owns x false k ∨ _ ∧ upd m'.owns x true k = true ∧
        upd m.owns x false k = false ∧ _
      rw [upd_ne _ _ hk, upd_ne _ _ hk, hl k hk]
      refine (h.owns k).imp id (fun ⟨a, b, c, d, e, f⟩ => ⟨a, b, c, fun j hj => ?_, e, Nat.lt_succ_of_lt f⟩)
      by_cases hj' : j = x
      · subst hj'; rw [hvx]; exact (Nat.ne_of_lt f).symm
      · rw [hv j hj']; exact d j hj

end Mem

namespace State

variable {V T : Type} [DecidableEq T] {spoil : Nat → Nat → V}

/-- See above. -/
structure Twin (s s' : State V T) : Prop where
  heap : s'.heap = s.heap
  kids : ∀ y, s.heap.leaf y = true → s.heap.kids y = []
  lt : ∀ y, s.heap.leaf y = true → y < s.heap.next
  near : Mem.Near 1 s.heap.toGraph s.mem s'.mem
  pos : 0 < s.mem.next

/-- A step that leaves kinds alone and gives no `Param` children. -/
structure Quiet (h h' : Heap T) : Prop where
  leaf : h'.leaf = h.leaf
  next : h'.next = h.next
  kids : ∀ y, h.leaf y = true → h.kids y = [] → h'.kids y = []

theorem Quiet.of_graph {h h' : Heap T} (e : h'.toGraph = h.toGraph) : Quiet h h' := by
  have e1 : h'.leaf = h.leaf := congrArg Graph.leaf e
  have e2 : h'.next = h.next := congrArg Graph.next e
  have e3 : h'.kids = h.kids := congrArg Graph.kids e
  exact ⟨e1, e2, fun y _ hk => by rw [e3]; exact hk⟩

theorem Quiet.of_shape {h h' : Heap T} (e : Shape h.toGraph h'.toGraph) : Quiet h h' :=
  ⟨e.leaf, e.next, fun y _ hk => by
    have e3 : h'.kids = h.kids := e.kids
    rw [e3]; exact hk⟩

theorem Quiet.trans {h h' h'' : Heap T} (a : Quiet h h') (b : Quiet h' h'') : Quiet h h'' :=
  ⟨b.leaf.trans a.leaf, b.next.trans a.next, fun y hl hk => b.kids y (by rw [a.leaf]; exact hl) (a.kids y hl hk)⟩

theorem Twin.on {s s' : State V T} (t : Twin s s') {f : Heap T → Heap T} (hf : Quiet s.heap (f s.heap)) :
    Twin (s.on f) (s'.on f) := by
  refine ⟨congrArg f t.heap, ?_, ?_, t.near.of_leaf hf.leaf, t.pos⟩
  · intro y hy
    have hy' : s.heap.leaf y = true := by rw [← hf.leaf]; exact hy
    exact hf.kids y hy' (t.kids y hy')
  · intro y hy
    have hy' : s.heap.leaf y = true := by rw [← hf.leaf]; exact hy
    show y < (f s.heap).next
    rw [hf.next]
    exact t.lt y hy'

theorem Twin.connect {s s' : State V T} (t : Twin s s') (r : Id) :
    Twin (s.connect spoil r) (s'.connect spoil r) := by
  have q : Quiet s.heap (s.heap.connect r) := Quiet.of_shape (connect_shape s.heap r)
  have t2 := t.on (f := fun h => h.connect r) q
  refine ⟨t2.heap, t2.kids, t2.lt, ?_, Nat.lt_of_lt_of_le t.pos (Mem.connect_next spoil _ s.mem r)⟩
  show Mem.Near 1 (s.heap.connect r).toGraph (s.mem.connect spoil s.heap.toGraph r)
    (s'.mem.connect spoil s'.heap.toGraph r)
  rw [t.heap]
  exact (t.near.connect (t.kids r)).of_leaf q.leaf

theorem quiet_subSizes (h : Heap T) (x n : Nat) : Quiet h (h.subSizes x n) := by
  obtain ⟨a, b, c, -⟩ := subSizes_rest h x n
  exact ⟨b, a, fun y _ hk => by rw [c]; exact hk⟩

theorem quiet_addSizes (h : Heap T) (x n : Nat) : Quiet h (h.addSizes x n) := by
  have key : ∀ (L : List Id) (h : Heap T),
      Quiet h (L.foldl (fun h y => { h with size := upd h.size y (h.size y + n) }) h) := by
    intro L
    induction L with
    | nil => intro h; exact ⟨rfl, rfl, fun _ _ hk => hk⟩
    | cons y L ih =>
      intro h
      have h1 : Quiet h { h with size := upd h.size y (h.size y + n) } := ⟨rfl, rfl, fun _ _ hk => hk⟩
      exact h1.trans (ih _)
  exact key _ h

theorem quiet_linkPointers (h : Heap T) {p : Id} (x : Id) (index : Option Int) (hp : h.leaf p = false) :
    Quiet h (h.linkPointers p x index) := by
  refine ⟨rfl, rfl, fun y hy hk => ?_⟩
  show upd h.kids p _ y = []
  rw [upd_ne _ _ (by rintro rfl; rw [hp] at hy; cases hy)]
  exact hk

theorem quiet_notify (h : Heap T) (x : Id) : Quiet h (h.notifyParentChange x) :=
  Quiet.of_graph (Heap'.notify_graph h x)

theorem quiet_fixes (h : Heap T) (x : Id) : Quiet h (h.connectFixes x) :=
  Quiet.of_graph (Heap'.connectFixes_graph h x)

theorem quiet_match (h : Heap T) (n : Nat) (o : Option Id) :
    Quiet h (match o with | none => h | some p => h.subSizes p n) := by
  cases o with
  | none => exact ⟨rfl, rfl, fun _ _ hk => hk⟩
  | some p => exact quiet_subSizes h p n

theorem Twin.unlinkChild {s s' : State V T} (t : Twin s s') (q x : Id) :
    Twin (s.unlinkChild spoil q x) (s'.unlinkChild spoil q x) := by
  obtain ⟨h', m'⟩ := s'
  obtain rfl : h' = s.heap := t.heap
  have t1 := t.on (f := fun h => { h with
    size := upd h.size q (h.size q - s.heap.size x)
    kids := upd h.kids q ((h.kids q).eraseIdx (h.pidx x)) }) ⟨rfl, rfl, fun y _ hk => by
      show upd s.heap.kids q _ y = []
      by_cases e : y = q
      · subst e; rw [upd_same, hk]; rfl
      · rw [upd_ne _ _ e]; exact hk⟩
  have t2 := t1.connect (spoil := spoil) q
  have t3 := t2.on (f := fun h => h.disconnect x) (Quiet.of_shape (disconnect_shape _ x))
  have t4 := t3.on (f := fun h =>
    { h with dicts := upd h.dicts (h.iop q).1 ((h.iop q).2.shiftLeft (h.dicts (h.iop q).1)
        (s.heap.toGraph.sizeSum ((s.heap.kids q).take (s.heap.pidx x))) (s.heap.size x)) })
    ⟨rfl, rfl, fun _ _ hk => hk⟩
  have t5 := (t4.connect (spoil := spoil) q).on (f := fun h => h.notifyParentChange q) (quiet_notify _ q)
  have t6 := t5.on (f := fun h => match h.parent q with
    | none => h
    | some p => h.subSizes p (s.heap.size x)) (quiet_match _ _ _)
  have t7 := fun r => (t6.connect (spoil := spoil) r).on (f := fun h => (h.connectFixes r).notifyParentChange r)
    ((quiet_fixes _ r).trans (quiet_notify _ r))
  exact t7 _

theorem Twin.linkEnd {s s' : State V T} (t : Twin s s') (p : Id) :
    Twin (s.linkEnd spoil p).1 (s'.linkEnd spoil p).1 := by
  unfold State.linkEnd
  rw [t.heap]
  split
  · exact t
  · simp only []
    split
    · exact t
    · exact t
    · exact (t.connect (spoil := spoil) (s.heap.toGraph.highest p)).on
        (f := fun h => (h.notifyParentChange (s.heap.toGraph.highest p)).connectFixes
          (s.heap.toGraph.highest p)) ((quiet_notify _ _).trans (quiet_fixes _ _))

theorem Twin.linkRoot {s s' : State V T} (t : Twin s s') {p : Id} (x : Id) (index : Option Int)
    (hp : s.heap.leaf p = false) : Twin (s.linkRoot spoil p x index).1 (s'.linkRoot spoil p x index).1 := by
  have t2 := t.on (f := fun h => (h.linkPointers p x index).addSizes p (h.size x))
    ((quiet_linkPointers _ x index hp).trans (quiet_addSizes _ _ _))
  unfold State.linkRoot
  simp only [t.heap]
  split
  · exact t2
  · exact (t2.on (quiet_notify _ _)).linkEnd p

theorem quiet_erase (h : Heap T) (q x : Id) (n : Nat) : Quiet h { h with
    size := upd h.size q (h.size q - n)
    kids := upd h.kids q ((h.kids q).eraseIdx (h.pidx x)) } := by
  refine ⟨rfl, rfl, fun y _ hk => ?_⟩
  show upd h.kids q _ y = []
  by_cases e : y = q
  · subst e; rw [upd_same, hk]; rfl
  · rw [upd_ne _ _ e]; exact hk

theorem quiet_connect (h : Heap T) (r : Id) : Quiet h (h.connect r) := Quiet.of_shape (connect_shape h r)

theorem quiet_same {h h' : Heap T} (e1 : h'.leaf = h.leaf) (e2 : h'.next = h.next) (e3 : h'.kids = h.kids) :
    Quiet h h' := ⟨e1, e2, fun y _ hk => by rw [e3]; exact hk⟩

theorem quiet_unlinkChild (h : Heap T) (q x : Id) : Quiet h (h.unlinkChild q x) := by
  simp only [Heap.unlinkChild]
  refine Quiet.trans ?_ (quiet_notify _ _)
  refine Quiet.trans ?_ (quiet_fixes _ _)
  refine Quiet.trans ?_ (quiet_connect _ _)
  refine Quiet.trans ?_ (quiet_match _ _ _)
  refine Quiet.trans ?_ (quiet_notify _ _)
  refine Quiet.trans ?_ (quiet_connect _ _)
  refine Quiet.trans ?_ (quiet_same (h := (Heap.connect _ q).disconnect x) rfl rfl rfl)
  refine Quiet.trans ?_ (Quiet.of_shape (disconnect_shape _ x))
  refine Quiet.trans ?_ (quiet_connect _ _)
  exact quiet_erase h q x (h.size x)

theorem Twin.linkNew {s s' : State V T} (t : Twin s s') {p : Id} (x : Id) (index : Option Int)
    (hp : s.heap.leaf p = false) : Twin (s.linkNew spoil p x index).1 (s'.linkNew spoil p x index).1 := by
  unfold State.linkNew
  simp only [t.heap]
  cases hx : s.heap.parent x with
  | none => exact t.linkRoot x index hp
  | some q =>
    simp only []
    have t1 : Twin (s.on fun h => { h with
        visited := (s.heap.toGraph.traverseParents (fun _ y => decide (y = p)) ⟨s.heap.visited, [], false⟩ x).marks })
      (s'.on fun h => { h with
        visited := (s.heap.toGraph.traverseParents (fun _ y => decide (y = p)) ⟨s.heap.visited, [], false⟩ x).marks }) :=
      t.on (quiet_same rfl rfl rfl)
    split
    · exact t1
    · refine (t1.unlinkChild q x).linkRoot x index ?_
      rw [unlinkChild_heap, (quiet_unlinkChild _ q x).leaf]
      exact hp

theorem Twin.link {s s' : State V T} (t : Twin s s') (p x : Id) (index : Option Int) :
    Twin (s.link spoil p x index).1 (s'.link spoil p x index).1 := by
  unfold State.link
  rw [t.heap]
  cases hp : s.heap.leaf p with
  | true => exact t
  | false =>
    simp only [Bool.false_eq_true, if_false]
    split
    · cases index with
      | none => exact t
      | some i =>
        refine (t.unlinkChild p x).linkNew x (some i) ?_
        rw [unlinkChild_heap, (quiet_unlinkChild _ p x).leaf]
        exact hp
    · exact t.linkNew x index hp

theorem Twin.unlink {s s' : State V T} (t : Twin s s') (q x : Id) :
    Twin (s.unlink spoil q x).1 (s'.unlink spoil q x).1 := by
  unfold State.unlink
  rw [t.heap]
  split
  · exact t
  · split
    · exact t.unlinkChild q x
    · exact t

theorem Twin.initialize {s s' : State V T} (t : Twin s s') (x : Id) :
    Twin (s.initializeParameter spoil x) (s'.initializeParameter spoil x) := by
  unfold State.initializeParameter
  simp only [t.heap]
  exact ((t.on (f := fun h => h.notifyParentChange (s.heap.toGraph.highest x)) (quiet_notify _ _)).connect
    (spoil := spoil) _).on (quiet_fixes _ _)

theorem Twin.finishInit {s s' : State V T} (t : Twin s s') (x : Id) (i : Bool) :
    Twin (s.finishInit spoil x i) (s'.finishInit spoil x i) := by
  unfold State.finishInit
  have t1 : Twin (s.on fun h =>
      { h with inInit := upd h.inInit x false, inited := upd h.inited x (some false) })
    (s'.on fun h =>
      { h with inInit := upd h.inInit x false, inited := upd h.inited x (some false) }) :=
    t.on (quiet_same rfl rfl rfl)
  simp only []
  split
  · exact t1.initialize x
  · exact t1

theorem Twin.of_same {s s' : State V T} (t : Twin s s') {h' : Heap T} (e : Heap.Same s.heap h') :
    Twin { s with heap := h' } { s' with heap := h' } := by
  have q : Quiet s.heap h' := Quiet.of_graph e.graph
  exact t.on (f := fun _ => h') q

/-- A call on the left, the same call on the right, where `Param`s own their memory. -/
theorem Twin.step {s s' : State V T} (h : Reach spoil s) (t : Twin s s') {e : Ev V T}
    (ha : s.Admissible e) : Twin (s.exec spoil e).1 (s'.gexec spoil e).1 := by
  have w := h.heap.wf
  have hc : ∀ {e : Heap.Ev T}, Heap.Same s.heap (s.heap.exec e).1 →
      Twin { s with heap := (s.heap.exec e).1 } { s' with heap := (s'.heap.exec e).1 } := by
    intro e hs
    rw [t.heap]
    exact t.of_same hs
  cases e with
  | write x i v => exact ⟨t.heap, t.kids, t.lt, t.near.write x i v, t.pos⟩
  | heap e =>
    cases e with
    | newParam n =>
      obtain ⟨h', m'⟩ := s'
      obtain rfl : h' = s.heap := t.heap
      refine ⟨rfl, ?_, ?_, ?_, Nat.succ_pos _⟩
      · intro y hy
        show upd s.heap.kids s.heap.next [] y = []
        by_cases e : y = s.heap.next
        · subst e; exact upd_same _ _ _
        · rw [upd_ne _ _ e]
          have hy : upd s.heap.leaf s.heap.next true y = true := hy
          rw [upd_ne _ _ e] at hy
          exact t.kids y hy
      · intro y hy
        show y < s.heap.next + 1
        by_cases e : y = s.heap.next
        · rw [e]; exact Nat.lt_succ_self _
        · have hy : upd s.heap.leaf s.heap.next true y = true := hy
          rw [upd_ne _ _ e] at hy
          exact Nat.lt_succ_of_lt (t.lt y hy)
      · exact t.near.newGrad n (fun y hy => upd_ne _ _ hy) (upd_same _ _ _) h.bounded t.pos
    | newNode =>
      obtain ⟨h', m'⟩ := s'
      obtain rfl : h' = s.heap := t.heap
      have hl : ∀ y, upd s.heap.leaf s.heap.next false y = true → s.heap.leaf y = true := by
        intro y hy
        by_cases e : y = s.heap.next
        · subst e; rw [upd_same] at hy; cases hy
        · rw [upd_ne _ _ e] at hy; exact hy
      refine ⟨rfl, ?_, ?_, ?_, t.pos⟩
      · intro y hy
        have h1 := hl y hy
        have h2 := t.lt y h1
        show upd s.heap.kids s.heap.next [] y = []
        rw [upd_ne _ _ (Nat.ne_of_lt h2)]
        exact t.kids y h1
      · intro y hy
        have h2 := t.lt y (hl y hy)
        exact Nat.lt_succ_of_lt h2
      · refine t.near.of_leaf ?_
        funext y
        show upd s.heap.leaf s.heap.next false y = s.heap.leaf y
        by_cases e : y = s.heap.next
        · subst e
          rw [upd_same]
          cases h3 : s.heap.leaf s.heap.next with
          | false => rfl
          | true => exact absurd (t.lt _ h3) (Nat.lt_irrefl _)
        · rw [upd_ne _ _ e]
    | finishInit x i => exact t.finishInit x i
    | init x => exact t.initialize x
    | link p x i => exact t.link p x i
    | unlink p x => exact t.unlink p x
    | constrain x c => exact hc (e := .constrain x c) ((Heap.constraining_wf w ha).1 c).2
    | unconstrain x c => exact hc (e := .unconstrain x c) ((Heap.constraining_wf w ha).2.1 c).2
    | fix x => exact hc (e := .fix x) (Heap.constraining_wf w ha).2.2.1.2
    | unfix x => exact hc (e := .unfix x) (Heap.constraining_wf w ha).2.2.2.2

/-- The first `n` elements of `a[:] = val`. -/
def fillTo (m : Mem V) (x : Id) (f : Nat → V) (n : Nat) : Mem V :=
  { m with cell := fun b j =>
      if b = (m.view x).buf ∧ (m.view x).off ≤ j ∧ j < (m.view x).off + n
      then f (j - (m.view x).off) else m.cell b j }

/-- `a[:] = val`, element after element. -/
theorem fill_writes (m : Mem V) (x : Id) (f : Nat → V) :
    ∀ n, fillTo m x f n = (List.range n).foldl (fun m i => m.write x i (f i)) m
  | 0 => by
    have : ∀ b j, ¬ (b = (m.view x).buf ∧ (m.view x).off ≤ j ∧ j < (m.view x).off + 0) := by
      intro b j h; omega
    unfold fillTo
    simp only [this, if_false, List.range_zero, List.foldl_nil]
  | n + 1 => by
    rw [List.range_succ, List.foldl_append, ← fill_writes m x f n]
    simp only [List.foldl_cons, List.foldl_nil]
    have hv : (fillTo m x f n).view x = m.view x := rfl
    unfold Mem.write
    rw [hv]
    unfold fillTo
    simp only []
    congr 1
    funext b j
    by_cases h1 : b = (m.view x).buf ∧ j = (m.view x).off + n
    · obtain ⟨h1, h2⟩ := h1
      rw [if_pos ⟨h1, by omega, by omega⟩, if_pos ⟨h1, h2⟩]
      congr 1; omega
    · rw [if_neg h1]
      by_cases h2 : b = (m.view x).buf ∧ (m.view x).off ≤ j ∧ j < (m.view x).off + n
      · rw [if_pos h2, if_pos ⟨h2.1, h2.2.1, by omega⟩]
      · rw [if_neg h2, if_neg]
        rintro ⟨h3, h4, h5⟩
        by_cases h6 : j = (m.view x).off + n
        · exact h1 ⟨h3, h6⟩
        · exact h2 ⟨h3, h4, by omega⟩

theorem Path.writes {s : State V T} {x : Id} (f : Nat → V) (hx : x < s.heap.next)
    (hd : s.heap.leaf x = true ∨ Done s.heap x) : ∀ (L : List Nat) (m : Mem V), (∀ i ∈ L, i < s.heap.size x) →
      Path spoil ⟨s.heap, m⟩ → Path spoil (⟨s.heap, L.foldl (fun m i => m.write x i (f i)) m⟩ : State V T)
  | [], _, _, h => h
  | i :: L, m, hL, h => by
    rw [List.foldl_cons]
    refine Path.writes f hx hd L _ (fun j hj => hL j (by simp [hj])) ?_
    exact Path.step (e := .write x i (f i)) h ⟨hx, hL i (by simp), hd⟩ trivial

theorem Reach.writes {s : State V T} {x : Id} (f : Nat → V) (hx : x < s.heap.next)
    (hd : s.heap.leaf x = true ∨ Done s.heap x) : ∀ (L : List Nat) (m : Mem V), (∀ i ∈ L, i < s.heap.size x) →
      Reach spoil ⟨s.heap, m⟩ → Reach spoil (⟨s.heap, L.foldl (fun m i => m.write x i (f i)) m⟩ : State V T)
  | [], _, _, h => h
  | i :: L, m, hL, h => by
    rw [List.foldl_cons]
    refine Reach.writes f hx hd L _ (fun j hj => hL j (by simp [hj])) ?_
    exact Reach.step (e := .write x i (f i)) h ⟨hx, hL i (by simp), hd⟩

/-- The array of an object that may be assigned to. -/
theorem assignable_fits {s : State V T} (h : Reach spoil s) {x : Id} (hx : x < s.heap.next)
    (h0 : 0 < s.heap.size x) (hd : s.heap.leaf x = true ∨ Done s.heap x) :
    ∃ v, Fits s.heap.toGraph s.mem x v := by
  rcases hd with hd | hd
  · exact h.linked.fits x hx hd
  · obtain ⟨b, o, hc⟩ := h.linked.calm x hx hd
    exact ⟨_, (hc x 0 .refl h0).1, rfl⟩

end State

end Paramz.Memory

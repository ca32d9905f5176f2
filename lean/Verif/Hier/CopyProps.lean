import Verif.Hier.ConProps
import Verif.Hier.TravProps
import Verif.Hier.Witness

/-!
# Properties of `copy` (C59)

In every reachable state, for every object `x` whose copy is modelled (`CopyOK`).
-/

set_option linter.unusedSectionVars false

namespace Paramz.Hier

open IndexOps (Arr Dict Iop lookup)
open Graph (Anc At Skel Sized)

namespace Heap

variable {T : Type} [DecidableEq T]

/-- Specification: `f` takes the tree of `x` in `h` to a separate tree in `h'` that has no parent, of the
same shape: same kinds, same sizes, the same children in the same order. -/
structure CopyTree (h h' : Heap T) (x : Id) (f : Id → Id) : Prop where
  fresh : ∀ y, Anc h.toGraph x y → h.next ≤ f y ∧ f y < h'.next
  inj : ∀ y z, Anc h.toGraph x y → Anc h.toGraph x z → f y = f z → y = z
  top : h'.parent (f x) = none
  kids : ∀ y, Anc h.toGraph x y → h'.kids (f y) = (h.kids y).map f
  parent : ∀ y p, Anc h.toGraph x p → h.parent y = some p → h'.parent (f y) = some (f p)
  leaf : ∀ y, Anc h.toGraph x y → h'.leaf (f y) = h.leaf y
  size : ∀ y, Anc h.toGraph x y → h'.size (f y) = h.size y

/-- If no search ever raised, the copy is always modelled. -/
theorem copyOK_of_clean {h : Heap T} (hr : Reach h) {x : Id} (hx : x < h.next)
    (hv : ∀ y, h.visited y = false) : h.CopyOK x := by
  refine ⟨hx, fun p hp => ?_⟩
  have s := hr.wf.skel
  have e : h.copySearch x = h.toGraph.traverseParents (fun _ _ => false) Graph.fresh x := by
    unfold copySearch Graph.fresh
    rw [show h.visited = fun _ => false from funext hv]
  rw [e, (Graph.traverse_parents_visits_partial s (fun _ _ => rfl) x).2.2.1]
  refine ⟨?_, s.not_anc_parent hp⟩
  obtain ⟨h1, h2⟩ := s.highest_spec p
  exact (s.highest_eq h1 (h2.trans (.of_parent hp))).symm

/-- The copy has the shape of the original. -/
theorem copy_shape {h : Heap T} (hr : Reach h) {x : Id} (ok : h.CopyOK x) :
    (h.copy x).2 = h.copyOf x x ∧ CopyTree h (h.copy x).1 x (h.copyOf x) := by
  have s := hr.wf.skel
  obtain ⟨c, e⟩ := copy_copied s ok.lt
  have hg := beforeCopy_graph h x
  have hG : (h.copy x).1.toGraph = (h.rawCopy x).toGraph := by
    rw [c.graph]
    obtain ⟨F, V, hB⟩ := beforeCopy_eq h x
    rw [hB]
    rfl
  refine ⟨e.trans (copyOf_self h x).symm, ?_⟩
  constructor
  · intro y hy
    rw [show (h.copy x).1.next = (h.rawCopy x).next by rw [hG]]
    exact ⟨copyOf_ge h x y, copyOf_lt s hy⟩
  · intro y z hy _ he; exact copyOf_inj s hy he
  · rw [show (h.copy x).1.parent = (h.rawCopy x).parent by rw [hG], raw_parent_new s .refl, if_pos rfl]
  · intro y hy
    rw [show (h.copy x).1.kids = (h.rawCopy x).kids by rw [hG], raw_kids_new s hy]
  · intro y p hp hy
    rw [show (h.copy x).1.parent = (h.rawCopy x).parent by rw [hG], raw_child s hp hy]
  · intro y hy
    rw [show (h.copy x).1.leaf = (h.rawCopy x).leaf by rw [hG], raw_leaf_new s hy]
  · intro y hy
    rw [show (h.copy x).1.size = (h.rawCopy x).size by rw [hG], raw_size_new s hy]

/-- Every object of the copy has the constraints of the object it is a copy of. -/
theorem copy_constraints {h : Heap T} (hr : Reach h) {x : Id} (ok : h.CopyOK x) {y : Id}
    (hy : Anc h.toGraph x y) (t : Con T) :
    (h.copy x).1.constraints (h.copyOf x y) t = h.constraints y t := by
  have w := hr.wf
  have s := w.skel
  have w' := copied_wf w ok.lt
  obtain ⟨-, ct⟩ := copy_shape hr ok
  obtain ⟨c, e⟩ := copy_copied s ok.lt
  obtain ⟨F, V, hB⟩ := beforeCopy_eq h x
  have hylt := s.desc_lt hy ok.lt
  apply w.constraints_eq w' hylt (ct.fresh y hy).2
  intro i
  have hcs : ∀ z u, (h.beforeCopy x).constraints z u = h.constraints z u := by
    intro z u; rw [hB]; rfl
  have wB := beforeCopy_wf w x
  have hgB := beforeCopy_graph h x
  have hxB : x < (h.beforeCopy x).next := by
    rw [show (h.beforeCopy x).next = h.next by rw [hgB]]; exact ok.lt
  have hco := copyOf_graph hgB x
  obtain ⟨m, hm⟩ := s.exists_at hy
  have hmB : At (h.beforeCopy x).toGraph x y m := by rw [hgB]; exact hm
  -- the position of the copy of `y` below the copy of `x`
  have hat : At (h.copy x).1.toGraph (h.copyOf x x) (h.copyOf x y) m := by
    have := raw_at wB.skel hmB
    rw [← c.graph, hco, hco] at this
    exact this
  rw [w'.mem_constraints (ct.fresh x .refl).2 ct.top hat, ct.size y hy]
  have hroot := c.root
  rw [hco] at hroot
  rw [hroot]
  have hdx : ∀ j, j ∈ lookup ((h.copy x).1.dicts (h.beforeCopy x).nextDict) t ↔
      j ∈ h.constraints x t := by
    intro j
    obtain ⟨r0, hr0, ha0⟩ := wB.skel.exists_root x
    have hr0lt := wB.skel.anc_lt ha0 hxB
    obtain ⟨n0, hn0⟩ := wB.skel.exists_at ha0
    have hd : IndexOps.WF ((h.beforeCopy x).dicts ((h.beforeCopy x).iop x).1) := by
      by_cases hxr : x = r0
      · subst hxr; exact wB.dict x hr0lt hr0
      · rw [wB.view r0 x n0 hr0lt hr0 hn0 hxr]; exact wB.dict r0 hr0lt hr0
    rw [c.own t, mem_copy _ hd, ← hcs x t]
    rfl
  rw [hdx]
  -- what `y` sees is what `x` sees, moved
  obtain ⟨r, hrp, hra⟩ := s.exists_root x
  have hrlt := s.anc_lt hra ok.lt
  obtain ⟨n, hn⟩ := s.exists_at hra
  rw [w.mem_constraints hrlt hrp hn, w.mem_constraints hrlt hrp (hn.trans hm)]
  have hwin := hm.window s w.sized
  have e1 : h.toGraph.size y = h.size y := rfl
  have e2 : h.toGraph.size x = h.size x := rfl
  rw [show i + m + n = i + (n + m) by omega]
  constructor
  · rintro ⟨h1, -, h2⟩; exact ⟨h1, h2⟩
  · rintro ⟨h1, h2⟩; exact ⟨h1, by omega, h2⟩

/-- What existed before the copy stays as it was. -/
theorem copy_keeps_original {h : Heap T} (hr : Reach h) {x : Id} (ok : h.CopyOK x) {y : Id}
    (hy : y < h.next) :
    (h.copy x).1.parent y = h.parent y ∧ (h.copy x).1.kids y = h.kids y ∧
    (h.copy x).1.size y = h.size y ∧ (h.copy x).1.leaf y = h.leaf y ∧
    ∀ t, (h.copy x).1.constraints y t = h.constraints y t := by
  have w := hr.wf
  have s := w.skel
  obtain ⟨c, e⟩ := copy_copied s ok.lt
  obtain ⟨F, V, hB⟩ := beforeCopy_eq h x
  have hG : (h.copy x).1.toGraph = (h.rawCopy x).toGraph := by
    rw [c.graph, hB]; rfl
  have hyB : y < (h.beforeCopy x).next := by rw [hB]; exact hy
  refine ⟨?_, ?_, ?_, ?_, ?_⟩
  · rw [show (h.copy x).1.parent = (h.rawCopy x).parent by rw [hG]]; exact lift_old _ _ hy
  · rw [show (h.copy x).1.kids = (h.rawCopy x).kids by rw [hG]]; exact lift_old _ _ hy
  · rw [show (h.copy x).1.size = (h.rawCopy x).size by rw [hG]]; exact lift_old _ _ hy
  · rw [show (h.copy x).1.leaf = (h.rawCopy x).leaf by rw [hG]]; exact lift_old _ _ hy
  · intro t
    obtain ⟨r, hrp, hra⟩ := s.exists_root y
    have hrlt := s.anc_lt hra hy
    obtain ⟨n, hn⟩ := s.exists_at hra
    have hd : (h.iop y).1 < h.nextDict := by
      by_cases hyr : y = r
      · subst hyr; exact (w.root y hrlt hrp).2
      · rw [w.view r y n hrlt hrp hn hyr]; exact (w.root r hrlt hrp).2
    unfold constraints
    have e1 := c.iop y hyB
    have e2 : (h.beforeCopy x).iop y = h.iop y := by rw [hB]
    have e3 := c.dicts (h.iop y).1 (by rw [hB]; exact hd)
    have e4 : (h.beforeCopy x).dicts = h.dicts := by rw [hB]
    rw [e1, e2, e3, e4]

/-- A constraining or fixing call made on one hierarchy. -/
inductive Call (T : Type)
  | constrain (t : T)
  | unconstrain (ts : List (Con T))
  | fix
  | unfix

/-- Its effect. -/
def Call.run (h : Heap T) (x : Target) : Call T → Heap T
  | .constrain t => h.constrain x (.tr t)
  | .unconstrain ts => h.unconstrain x ts
  | .fix => h.fix x
  | .unfix => h.unfix x

/-- No constraining call has an effect on the constraints of another hierarchy. -/
theorem call_elsewhere {h : Heap T} (hr : Reach h) {z : Target} (ok : z.OK h) (k : Call T) {y : Id}
    (hy : y < h.next) (hne : h.toGraph.highest y ≠ h.toGraph.highest z.obj) (t : Con T) :
    (k.run h z).constraints y t = h.constraints y t := by
  have w := hr.wf
  have s := w.skel
  obtain ⟨r, o, c⟩ := ok.exists_ctx w
  have hna : ¬ Anc h.toGraph r y := by
    intro ha
    exact hne ((s.highest_eq c.root ha).trans (s.highest_eq c.root (c.pos.anc s)).symm)
  cases k with
  | constrain u =>
    obtain ⟨w', e⟩ := constrain_spec w c u
    exact (e.read w w' c hy t 0).2 hna
  | unconstrain us =>
    obtain ⟨w', e⟩ := unconstrain_spec w c us
    exact (e.read w w' c hy t 0).2 hna
  | fix =>
    obtain ⟨w', e⟩ := fix_spec w c
    exact (e.read w w' c hy t 0).2 hna
  | unfix =>
    obtain ⟨w', e⟩ := unfix_spec w c
    exact (e.read w w' c hy t 0).2 hna

/-- The copy and what existed before are different hierarchies. -/
theorem copy_apart {h : Heap T} (hr : Reach h) {x : Id} (ok : h.CopyOK x) {y z : Id}
    (hy : Anc h.toGraph x y) (hz : z < h.next) :
    (h.copy x).1.toGraph.highest (h.copyOf x y) ≠ (h.copy x).1.toGraph.highest z := by
  have w := hr.wf
  have s' := (copied_wf w ok.lt).skel
  obtain ⟨-, ct⟩ := copy_shape hr ok
  have h1 : Anc (h.copy x).1.toGraph (h.copyOf x x) (h.copyOf x y) := by
    induction hy with
    | refl => exact .refl
    | step h1 h2 ih => exact ih.step (ct.parent _ _ h1 h2)
  rw [s'.highest_eq ct.top h1]
  obtain ⟨a, b⟩ := s'.highest_spec z
  have key : ∀ z, z < h.next → ∀ r, Anc (h.copy x).1.toGraph r z → r < h.next := by
    intro z hz r hrz
    induction hrz with
    | refl => exact hz
    | @step p c h1 h2 ih =>
      apply ih
      have := (copy_keeps_original hr ok hz).1
      rw [show (h.copy x).1.parent c = some p from h2] at this
      exact (w.skel.alloc _ _ this.symm).2
  intro he
  have := key z hz _ b
  rw [← he] at this
  exact absurd this (Nat.not_lt.mpr (copyOf_ge h x x))

/-- Constraining, unconstraining, fixing or unfixing the copy or a part of it does not change the
constraints of the original (or of anything else that existed before), and the other way round. -/
theorem copy_independent {h : Heap T} (hr : Reach h) {x : Id} (ok : h.CopyOK x) (k : Call T) {z : Target}
    (okz : z.OK (h.copy x).1) (t : Con T) :
    ((∃ y, Anc h.toGraph x y ∧ z.obj = h.copyOf x y) → ∀ y, y < h.next →
      (k.run (h.copy x).1 z).constraints y t = h.constraints y t) ∧
    (z.obj < h.next → ∀ y, Anc h.toGraph x y →
      (k.run (h.copy x).1 z).constraints (h.copyOf x y) t = h.constraints y t) := by
  have hr' : Reach (h.copy x).1 := hr.copy ok
  obtain ⟨-, ct⟩ := copy_shape hr ok
  have hle : h.next ≤ (h.copy x).1.next :=
    Nat.le_of_lt (Nat.lt_of_le_of_lt (ct.fresh x .refl).1 (ct.fresh x .refl).2)
  constructor
  · rintro ⟨y0, hy0, he⟩ y hy
    rw [call_elsewhere hr' okz k (Nat.lt_of_lt_of_le hy hle)
      (by rw [he]; exact (copy_apart hr ok hy0 hy).symm), (copy_keeps_original hr ok hy).2.2.2.2]
  · intro hz y hy
    rw [call_elsewhere hr' okz k (ct.fresh y hy).2 (copy_apart hr ok hy hz),
      copy_constraints hr ok hy]

/-- The elements the optimiser may change are the same in the copy of a `Parameterized`: its mask is the
one its constraints ask for (also if the original is part of a larger hierarchy). For a `Param` this
fails; see `copy_param_mask_fails`. -/
theorem copy_mask_partial {h : Heap T} (hr : Reach h) {x : Id} (ok : h.CopyOK x)
    (hl : h.leaf x = false) :
    (h.copy x).1.ensureFixes (h.copyOf x x) = maskOf (h.size x) (h.constraints x .fixed) := by
  have w := hr.wf
  have s := w.skel
  have w' := copied_wf w ok.lt
  obtain ⟨c, e⟩ := copy_copied s ok.lt
  obtain ⟨-, ct⟩ := copy_shape hr ok
  have hgB := beforeCopy_graph h x
  have hm := c.mask (by rw [show (h.beforeCopy x).leaf = h.leaf by rw [hgB]]; exact hl)
  rw [copyOf_graph hgB, show (h.beforeCopy x).size = h.size by rw [hgB]] at hm
  have hcon : lookup ((h.copy x).1.dicts (h.beforeCopy x).nextDict) .fixed =
      h.constraints x .fixed := by
    rw [← copy_constraints hr ok .refl]
    unfold constraints
    have hroot := c.root
    rw [copyOf_graph hgB] at hroot
    rw [hroot, Iop.get_base]
  rw [hcon] at hm
  unfold ensureFixes
  rw [hm, ct.leaf x .refl, hl, ct.size x .refl, copy_constraints hr ok .refl]
  unfold freshMask
  by_cases hf : h.constraints x .fixed = []
  · simp [hf]
  · simp [hf, maskOf]

/-- A copy of a copy, and so on: all of the above holds for every history with copies in it. -/
theorem copy_reach {h : Heap T} (hr : Reach h) {x : Id} (ok : h.CopyOK x) : Reach (h.copy x).1 :=
  hr.copy ok

/-! ### Marks -/

theorem foldl_visited {α : Type} {f : Heap T → α → Heap T} (hf : ∀ h a, (f h a).visited = h.visited) :
    ∀ (L : List α) (h : Heap T), (L.foldl f h).visited = h.visited
  | [], _ => rfl
  | a :: L, h => by rw [List.foldl_cons, foldl_visited hf L, hf]

theorem parentChangedF_visited (top : Id) : ∀ (n : Nat) (h : Heap T) (x : Id),
    (parentChangedF n h top x).visited = h.visited
  | 0, _, _ => rfl
  | n + 1, h, x => by
    unfold parentChangedF
    rw [foldl_visited (fun h a => parentChangedF_visited top n h a)]

theorem notify_visited (h : Heap T) (x : Id) : (h.notifyParentChange x).visited = h.visited :=
  foldl_visited (fun h a => parentChangedF_visited x _ h a) _ _

theorem connectFixes_visited (h : Heap T) (x : Id) : (h.connectFixes x).visited = h.visited := by
  unfold connectFixes
  simp only []
  split <;> rfl

theorem linkRoot_marks (h : Heap T) (p x : Id) (index : Option Int) :
    (h.linkRoot p x index).1.visited = h.visited := by
  have e1 : ((h.linkPointers p x index).addSizes p (h.size x)).visited = h.visited := by
    unfold addSizes
    rw [foldl_visited (f := fun (g : Heap T) y => { g with size := upd g.size y (g.size y + h.size x) })
      (fun _ _ => rfl)]
    rfl
  unfold linkRoot
  simp only []
  split
  · exact e1
  · split
    · rw [notify_visited]; exact e1
    · split
      · rw [notify_visited]; exact e1
      · rw [notify_visited]; exact e1
      · rw [connectFixes_visited, notify_visited]
        show (notifyParentChange _ p).visited = _
        rw [notify_visited]; exact e1

theorem linkNew_clean {h : Heap T} (w : WF h) {p x : Id} {index : Option Int}
    (hv : h.visited = fun _ => false) (hq : (h.linkNew p x index).2 = none) :
    (h.linkNew p x index).1.visited = fun _ => false := by
  unfold linkNew at hq ⊢
  cases hp : h.parent x with
  | none =>
    simp only []
    rw [linkRoot_marks]; exact hv
  | some q =>
    rw [hp] at hq
    simp only [] at hq ⊢
    split
    · rename_i hr
      rw [if_pos hr] at hq; cases hq
    · rename_i hr
      rw [linkRoot_marks]
      have hk : x ∈ h.kids q := (w.skel.mem_iff _ _).mpr hp
      obtain ⟨A, B, hk⟩ := List.append_of_mem hk
      have w1 := w.visited (h.toGraph.traverseParents (fun _ y => decide (y = p))
        ⟨h.visited, [], false⟩ x).marks
      have hu := (unlinkChild_wf (h := { h with visited := (h.toGraph.traverseParents
        (fun _ y => decide (y = p)) ⟨h.visited, [], false⟩ x).marks }) w1 hk).2.2.2.1
      rw [hu]
      show (h.toGraph.traverseParents (fun _ y => decide (y = p)) ⟨h.visited, [], false⟩ x).marks = _
      rw [hv] at hr ⊢
      exact (Graph.traverseParentsF_spec w.skel _ h.toGraph.fuel Graph.fresh x rfl
        (fun _ _ => rfl)).2 (by simpa [Graph.fresh, Graph.traverseParents] using hr)

/-- Histories in which no call raised an exception. -/
inductive Calm : Heap T → Prop
  | empty : Calm Heap.empty
  | step {h : Heap T} {e : Ev T} : Calm h → h.Admissible e → (h.exec e).2 = none → Calm (h.exec e).1
  | copy {h : Heap T} {x : Id} : Calm h → x < h.next → Calm (h.copy x).1

theorem setstateF_visited : ∀ (n : Nat) (h : Heap T) (x : Id), (h.setstateF n x).visited = h.visited
  | 0, _, _ => rfl
  | n + 1, h, x => by
    unfold setstateF
    have := foldl_visited (fun h a => setstateF_visited n h a) (h.kids x) h
    simp only []
    split
    · exact this
    · unfold reconnect
      rw [notify_visited, connectFixes_visited]; exact this

theorem copy_visited (h : Heap T) (x : Id) :
    (h.copy x).1.visited = h.lift x (h.copySearch x).marks (h.copySearch x).marks := by
  have key : ∀ h0 : Heap T, h0.toGraph = h.toGraph → h0.visited = h.visited →
      (h0.copyBody x).visited = h.lift x (h.copySearch x).marks (h.copySearch x).marks := by
    intro h0 hg hv
    unfold copyBody
    simp only []
    rw [setstateF_visited]
    have hs : h0.copySearch x = h.copySearch x := by unfold copySearch; rw [hg, hv]
    funext i
    show lift _ x _ _ i = _
    unfold lift
    simp only [hg, hs]
  unfold copy
  split
  · exact key h rfl rfl
  · unfold reconnect
    show (notifyParentChange _ _).visited = _
    rw [notify_visited, connectFixes_visited]
    obtain ⟨F, hF⟩ := readOptimizerArray_eq h x
    exact key _ (readOptimizerArray_graph h x) (by rw [hF])

/-- As long as no call raised, there are no marks and everything can be copied. -/
theorem Calm.clean {h : Heap T} (hc : Calm h) :
    Reach h ∧ h.visited = (fun _ => false) ∧ ∀ x, x < h.next → h.CopyOK x := by
  suffices hh : Reach h ∧ h.visited = (fun _ => false) from
    ⟨hh.1, hh.2, fun x hx => copyOK_of_clean hh.1 hx (fun y => by rw [hh.2])⟩
  induction hc with
  | empty => exact ⟨.empty, rfl⟩
  | @step h e _ ha hq ih =>
    obtain ⟨hr, hv⟩ := ih
    refine ⟨hr.step ha, ?_⟩
    have w := hr.wf
    have hnew : ∀ l n i, (h.newObj l n i).visited = fun _ => false := by
      intro l n i
      show upd h.visited h.next false = _
      rw [hv]; funext y
      unfold upd; split <;> rfl
    have hinit : ∀ (h : Heap T) x, (h.initializeParameter x).visited = h.visited := by
      intro h x
      unfold initializeParameter
      simp only []
      rw [connectFixes_visited]
      show (notifyParentChange _ _).visited = _
      rw [notify_visited]
    have hun : ∀ (h : Heap T) q x, WF h → x ∈ h.kids q → (h.unlinkChild q x).visited = h.visited := by
      intro h q x w hx
      obtain ⟨A, B, hk⟩ := List.append_of_mem hx
      exact (unlinkChild_wf w hk).2.2.2.1
    cases e with
    | newParam n => exact hnew _ _ _
    | newNode => exact hnew _ _ _
    | finishInit x i =>
      show (h.finishInit x i).visited = _
      unfold finishInit
      simp only []
      split
      · rw [hinit]; exact hv
      · exact hv
    | init x => show (h.initializeParameter x).visited = _; rw [hinit]; exact hv
    | link p x i =>
      show (h.link p x i).1.visited = _
      have hq : (h.link p x i).2 = none := hq
      unfold link at hq ⊢
      split
      · exact hv
      · rename_i hl
        rw [if_neg hl] at hq
        split
        · rename_i hx
          rw [if_pos hx] at hq
          cases i with
          | none => exact hv
          | some i =>
            obtain ⟨A, B, hk⟩ := List.append_of_mem hx
            exact linkNew_clean (unlinkChild_wf w hk).1 (by rw [hun h p x w hx]; exact hv) hq
        · rename_i hx
          rw [if_neg hx] at hq
          exact linkNew_clean w hv hq
    | unlink q x =>
      show (h.unlink q x).1.visited = _
      unfold unlink
      split
      · exact hv
      · split
        · rename_i hx
          rw [hun h q x w hx]; exact hv
        · exact hv
    | constrain x c => exact (((constraining_wf w ha).1 c).2.visited).trans hv
    | unconstrain x cs => exact (((constraining_wf w ha).2.1 cs).2.visited).trans hv
    | fix x => exact ((constraining_wf w ha).2.2.1.2.visited).trans hv
    | unfix x => exact ((constraining_wf w ha).2.2.2.2.visited).trans hv
  | @copy h x _ hx ih =>
    obtain ⟨hr, hv⟩ := ih
    have ok := copyOK_of_clean hr hx (fun y => by rw [hv])
    refine ⟨hr.copy ok, ?_⟩
    rw [copy_visited]
    have hm : (h.copySearch x).marks = fun _ => false := by
      unfold copySearch
      rw [hv]
      exact (Graph.traverse_parents_visits_partial hr.wf.skel (fun _ _ => rfl) x).2.2.2
    rw [hm]
    funext i
    unfold lift
    split <;> rfl

/-! ### Examples and witnesses -/

/-- Copying part `2` of the model `demo`, and fixing an element of the copy: the original keeps its
constraints, the copy has those of the original and the new one. -/
example : Reach demo ∧ demo.CopyOK 2 ∧ (demo.copy 2).2 = 6 ∧
    (demo.copy 2).1.kids 6 = [7, 8] ∧ (demo.copy 2).1.size 6 = 4 ∧ (demo.copy 2).1.parent 6 = none ∧
    (demo.copy 2).1.constraints 6 (.tr 8) = [0, 1, 2] ∧ (demo.copy 2).1.constraints 7 .fixed = [2] ∧
    (demo.copy 2).1.fixes 6 = some [true, true, false, true] ∧
    ((demo.copy 2).1.fix ⟨8, none⟩).constraints 6 .fixed = [2, 3] ∧
    ((demo.copy 2).1.fix ⟨8, none⟩).constraints 2 .fixed = [2] := by
  refine ⟨demo_reach, ⟨by decide +kernel, ?_⟩, by decide +kernel⟩
  have : demo.parent 2 = some 0 := by decide +kernel
  intro p hp
  rw [this] at hp
  cases hp
  decide +kernel

/-- The mask of the copy of a `Param` with fixed elements is missing, and `_ensure_fixes` of a `Param`
then makes one that fixes nothing: the optimiser of the copy gets all three elements of `3` although
element 2 of the copy is fixed. -/
theorem copy_param_mask_fails : Reach demo ∧ demo.CopyOK 3 ∧
    (demo.copy 3).1.constraints (demo.copy 3).2 .fixed = [2] ∧
    (demo.copy 3).1.ensureFixes (demo.copy 3).2 = [true, true, true] := by
  refine ⟨demo_reach, ⟨by decide +kernel, ?_⟩, by decide +kernel⟩
  have : demo.parent 3 = some 2 := by decide +kernel
  intro p hp
  rw [this] at hp
  cases hp
  decide +kernel

/-- After a rejected `link_parameter` the marks it left keep the search from meeting the parent `0` of
`5`; `deepcopy` then follows the parent pointer, and "all connections to parents of the copy will be
cut" (pickleable.py:73) does not hold. -/
theorem copy_parents_fails : Reach demo ∧ (demo.link 2 5 none).2 = some .hierarchyError ∧
    (demo.link 2 5 none).1.parent 5 = some 0 ∧ 0 ∉ ((demo.link 2 5 none).1.copySearch 5).trace := by
  exact ⟨demo_reach, by decide +kernel, by decide +kernel, by decide +kernel⟩

end Heap

end Paramz.Hier

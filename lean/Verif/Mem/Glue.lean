import Verif.Mem.Connect
import Verif.Hier.History

/-!
# What the calls do to memory, in terms of the hierarchy they leave

`link_parameter`, `unlink_parameter` and `initialize_parameter` connect one to three times while the
pointers are still being changed. Here it is shown that all of these connect as if the final pointers
were in place already.
-/

set_option linter.unusedSectionVars false

namespace Paramz.Memory

open Hier (Id Graph Heap upd upd_same upd_ne)
open Hier.Graph (Skel Sized At Anc Ins)

/-! ### Pointers -/

namespace Heap'

variable {T : Type} [DecidableEq T]

theorem parentChangedF_graph : ∀ (n : Nat) (h : Heap T) (top x : Id),
    (Heap.parentChangedF n h top x).toGraph = h.toGraph
  | 0, _, _, _ => rfl
  | n + 1, h, top, x => by
    unfold Heap.parentChangedF
    have key : ∀ (L : List Id) (h' : Heap T), h'.toGraph = h.toGraph →
        (L.foldl (fun h c => Heap.parentChangedF n h top c) h').toGraph = h.toGraph := by
      intro L
      induction L with
      | nil => intro h' e; exact e
      | cons c L ih =>
        intro h' e
        exact ih _ ((parentChangedF_graph n h' top c).trans e)
    exact key _ _ rfl

theorem notify_graph (h : Heap T) (x : Id) : (h.notifyParentChange x).toGraph = h.toGraph := by
  unfold Heap.notifyParentChange
  have key : ∀ (n : Nat) (L : List Id) (h' : Heap T), h'.toGraph = h.toGraph →
      (L.foldl (fun h' c => Heap.parentChangedF n h' x c) h').toGraph = h.toGraph := by
    intro n L
    induction L with
    | nil => intro h' e; exact e
    | cons c L ih =>
      intro h' e
      exact ih _ ((parentChangedF_graph n h' x c).trans e)
  exact key _ _ _ rfl

theorem connectFixes_graph (h : Heap T) (x : Id) : (h.connectFixes x).toGraph = h.toGraph := by
  unfold Heap.connectFixes
  simp only []
  split <;> rfl

end Heap'

/-- The parts of a hierarchy that connecting looks at. -/
structure Shape (g g' : Graph) : Prop where
  next : g'.next = g.next
  leaf : g'.leaf = g.leaf
  kids : g'.kids = g.kids
  size : g'.size = g.size

theorem Shape.of_eq {g g' : Graph} (h : g' = g) : Shape g g' := by subst h; exact ⟨rfl, rfl, rfl, rfl⟩

theorem Shape.trans {g g' g'' : Graph} (a : Shape g g') (b : Shape g' g'') : Shape g g'' :=
  ⟨b.1.trans a.1, b.2.trans a.2, b.3.trans a.3, b.4.trans a.4⟩

theorem Shape.symm {g g' : Graph} (a : Shape g g') : Shape g' g :=
  ⟨a.1.symm, a.2.symm, a.3.symm, a.4.symm⟩

namespace Mem

variable {V : Type} (spoil : Nat → Nat → V)

theorem each_congr {size size' : Id → Nat} {f f' : Mem V → Id → Nat → Mem V} :
    ∀ (L : List Id) (k : Nat) (m : Mem V), (∀ c ∈ L, size' c = size c ∧ ∀ m k, f' m c k = f m c k) →
      each size' f' L k m = each size f L k m
  | [], _, _, _ => rfl
  | c :: L, k, m, h => by
    have hc := h c (List.mem_cons_self ..)
    simp only [each]
    rw [hc.1, hc.2]
    exact each_congr L _ _ (fun d hd => h d (List.mem_cons_of_mem _ hd))

/-- Two hierarchies that agree below `S`. -/
structure Agree (g g' : Graph) (S : Id → Prop) : Prop where
  next : g'.next = g.next
  closed : ∀ y, S y → ∀ c ∈ g.kids y, S c
  kids : ∀ y, S y → g'.kids y = g.kids y
  size : ∀ y, S y → g'.size y = g.size y
  leaf : ∀ y, S y → g'.leaf y = g.leaf y

theorem ensure_congr {g g' : Graph} {S : Id → Prop} (a : Agree g g' S) (m : Mem V) {x : Id} (hx : S x) :
    m.ensure g' x = m.ensure g x := by
  unfold ensure
  rw [a.leaf x hx, a.size x hx]

theorem propagateF_congr {g g' : Graph} {S : Id → Prop} (a : Agree g g' S) :
    ∀ (n : Nat) (m : Mem V) (x b o : Nat), S x →
      propagateF spoil g' n m x b o = propagateF spoil g n m x b o
  | 0, _, _, _, _, _ => rfl
  | n + 1, m, x, b, o, hx => by
    unfold propagateF
    rw [a.kids x hx]
    apply each_congr
    intro c hc
    have hc' := a.closed x hx c hc
    refine ⟨a.size c hc', fun m k => ?_⟩
    rw [ensure_congr a _ hc', ensure_congr a _ hx, a.size c hc']
    exact propagateF_congr a n _ c _ _ hc'

theorem connect_congr {g g' : Graph} {S : Id → Prop} (a : Agree g g' S) (m : Mem V) {r : Id}
    (hr : S r) : connect spoil g' m r = connect spoil g m r := by
  unfold connect
  rw [a.kids r hr]
  apply each_congr
  intro c hc
  have hc' := a.closed r hr c hc
  refine ⟨a.size c hc', fun m k => ?_⟩
  unfold connectOne
  simp only []
  rw [ensure_congr a _ hc', ensure_congr a _ hr, a.size c hc']
  have hf : g'.fuel = g.fuel := by unfold Graph.fuel; rw [a.next]
  rw [hf, propagateF_congr spoil a _ _ _ _ _ hc']

theorem connect_shape {g g' : Graph} (a : Shape g g') (m : Mem V) (r : Id) :
    connect spoil g' m r = connect spoil g m r :=
  connect_congr spoil (S := fun _ => True)
    ⟨a.next, fun _ _ _ _ => trivial, fun _ _ => by rw [a.kids], fun _ _ => by rw [a.size],
      fun _ _ => by rw [a.leaf]⟩ m trivial

end Mem

/-! ### Calls -/

namespace State

variable {V T : Type} [DecidableEq T] (spoil : Nat → Nat → V)

theorem connect_shape (h : Heap T) (x : Id) : Shape h.toGraph (h.connect x).toGraph :=
  ⟨rfl, rfl, rfl, rfl⟩

theorem disconnect_shape (h : Heap T) (x : Id) : Shape h.toGraph (h.disconnect x).toGraph := by
  unfold Heap.disconnect
  simp only []
  rw [Heap'.notify_graph, Heap'.connectFixes_graph]
  exact ⟨rfl, rfl, rfl, rfl⟩

theorem subSizes_rest (h : Heap T) (x n : Nat) :
    (h.subSizes x n).next = h.next ∧ (h.subSizes x n).leaf = h.leaf ∧
    (h.subSizes x n).kids = h.kids ∧ (h.subSizes x n).parent = h.parent := by
  unfold Heap.subSizes
  generalize h.toGraph.upwards x = L
  induction L generalizing h with
  | nil => exact ⟨rfl, rfl, rfl, rfl⟩
  | cons y L ih =>
    obtain ⟨a, b, c, d⟩ := ih { h with size := upd h.size y (h.size y - n) }
    exact ⟨a, b, c, d⟩

theorem unlinkChild_heap (s : State V T) (q x : Id) :
    (s.unlinkChild spoil q x).heap = s.heap.unlinkChild q x := rfl

theorem linkEnd_heap (s : State V T) (p : Id) :
    (s.linkEnd spoil p).1.heap =
      (if s.heap.inInit p then (s.heap, none) else
        match s.heap.inited (s.heap.toGraph.highest p) with
        | none => (s.heap, some Hier.Err.attributeError)
        | some false => (s.heap, none)
        | some true => (((s.heap.connect (s.heap.toGraph.highest p)).notifyParentChange
            (s.heap.toGraph.highest p)).connectFixes (s.heap.toGraph.highest p), none)).1 ∧
    (s.linkEnd spoil p).2 =
      (if s.heap.inInit p then (s.heap, none) else
        match s.heap.inited (s.heap.toGraph.highest p) with
        | none => (s.heap, some Hier.Err.attributeError)
        | some false => (s.heap, none)
        | some true => (((s.heap.connect (s.heap.toGraph.highest p)).notifyParentChange
            (s.heap.toGraph.highest p)).connectFixes (s.heap.toGraph.highest p), none)).2 := by
  unfold linkEnd
  cases hii : s.heap.inInit p with
  | true => exact ⟨rfl, rfl⟩
  | false =>
    simp only [Bool.false_eq_true, if_false]
    cases s.heap.inited (s.heap.toGraph.highest p) with
    | none => exact ⟨rfl, rfl⟩
    | some b => cases b <;> exact ⟨rfl, rfl⟩

theorem linkEnd_mem (s : State V T) (p : Id) :
    (s.linkEnd spoil p).1.mem =
      if s.heap.inInit p = false ∧ s.heap.inited (s.heap.toGraph.highest p) = some true then
        s.mem.connect spoil s.heap.toGraph (s.heap.toGraph.highest p) else s.mem := by
  unfold linkEnd
  cases hii : s.heap.inInit p with
  | true => simp
  | false =>
    simp only [Bool.false_eq_true, if_false, true_and]
    cases s.heap.inited (s.heap.toGraph.highest p) with
    | none => simp
    | some b => cases b <;> simp [on, connect]

theorem linkRoot_heap (s : State V T) (p x : Id) (index : Option Int) :
    (s.linkRoot spoil p x index).1.heap = (s.heap.linkRoot p x index).1 ∧
    (s.linkRoot spoil p x index).2 = (s.heap.linkRoot p x index).2 := by
  unfold linkRoot Heap.linkRoot
  simp only []
  split
  · exact ⟨rfl, rfl⟩
  · exact linkEnd_heap spoil _ p

theorem linkNew_heap (s : State V T) (p x : Id) (index : Option Int) :
    (s.linkNew spoil p x index).1.heap = (s.heap.linkNew p x index).1 ∧
    (s.linkNew spoil p x index).2 = (s.heap.linkNew p x index).2 := by
  unfold linkNew Heap.linkNew
  cases s.heap.parent x with
  | none => exact linkRoot_heap spoil s p x index
  | some q =>
    simp only []
    split
    · exact ⟨rfl, rfl⟩
    · exact linkRoot_heap spoil _ p x index

theorem link_heap (s : State V T) (p x : Id) (index : Option Int) :
    (s.link spoil p x index).1.heap = (s.heap.link p x index).1 ∧
    (s.link spoil p x index).2 = (s.heap.link p x index).2 := by
  unfold link Heap.link
  split
  · exact ⟨rfl, rfl⟩
  · split
    · cases index with
      | none => exact ⟨rfl, rfl⟩
      | some i => exact linkNew_heap spoil _ p x (some i)
    · exact linkNew_heap spoil s p x index

theorem unlink_heap (s : State V T) (q x : Id) :
    (s.unlink spoil q x).1.heap = (s.heap.unlink q x).1 ∧
    (s.unlink spoil q x).2 = (s.heap.unlink q x).2 := by
  unfold unlink Heap.unlink
  split
  · exact ⟨rfl, rfl⟩
  · split
    · exact ⟨rfl, rfl⟩
    · exact ⟨rfl, rfl⟩

theorem finishInit_heap (s : State V T) (x : Id) (i : Bool) :
    (s.finishInit spoil x i).heap = s.heap.finishInit x i := by
  unfold finishInit Heap.finishInit
  cases i <;> rfl

/-- Objects, constraints and flags do not depend on memory. -/
theorem exec_heap (s : State V T) (e : Heap.Ev T) :
    (s.exec spoil (.heap e)).1.heap = (s.heap.exec e).1 ∧
    (s.exec spoil (.heap e)).2 = (s.heap.exec e).2 := by
  cases e with
  | newParam n => exact ⟨rfl, rfl⟩
  | newNode => exact ⟨rfl, rfl⟩
  | finishInit x i => exact ⟨finishInit_heap spoil s x i, rfl⟩
  | init x => exact ⟨rfl, rfl⟩
  | link p x i => exact link_heap spoil s p x i
  | unlink p x => exact unlink_heap spoil s p x
  | constrain x c => exact ⟨rfl, rfl⟩
  | unconstrain x c => exact ⟨rfl, rfl⟩
  | fix x => exact ⟨rfl, rfl⟩
  | unfix x => exact ⟨rfl, rfl⟩

/-- The memory after unlinking: everything is connected as if the final pointers were in place. -/
theorem unlinkChild_mem {s : State V T} (w : s.heap.WF) {q x : Id} {A B : List Id}
    (hk : s.heap.kids q = A ++ x :: B) :
    (s.unlinkChild spoil q x).mem =
      (((s.mem.connect spoil (s.heap.unlinkChild q x).toGraph q).connect spoil
        (s.heap.unlinkChild q x).toGraph q).connect spoil (s.heap.unlinkChild q x).toGraph
          (s.heap.toGraph.highest q)) := by
  obtain ⟨w1, i, -⟩ := Heap.unlinkChild_wf w hk
  obtain ⟨i0, sG, herase, -⟩ := Heap.unlinkGraph_ins w hk
  have hpar : s.heap.parent x = some q := w.skel.parent_of hk
  obtain ⟨hr, hra⟩ := w.skel.highest_spec q
  have hxq : ¬ Anc s.heap.toGraph x q := w.skel.not_anc_parent hpar
  set r := s.heap.toGraph.highest q with hrdef
  have hrx : r ≠ x := by rintro he; rw [he] at hra; exact hxq hra
  set h := s.heap with hh
  set start := h.toGraph.sizeSum ((h.kids q).take (h.pidx x))
  let h1 : Heap T := { h with
    size := upd h.size q (h.size q - h.size x)
    kids := upd h.kids q ((h.kids q).eraseIdx (h.pidx x)) }
  let h2 := h1.connect q
  let h3 := h2.disconnect x
  let h4 : Heap T :=
    { h3 with
      dicts := upd h3.dicts (h3.iop q).1
        ((h3.iop q).2.shiftLeft (h3.dicts (h3.iop q).1) start (h.size x)) }
  let h5 := (h4.connect q).notifyParentChange q
  let h6 : Heap T := match h5.parent q with
    | none => h5
    | some p => h5.subSizes p (h.size x)
  have hmem : (s.unlinkChild spoil q x).mem =
      (((s.mem.connect spoil h1.toGraph q).connect spoil h4.toGraph q).connect spoil
        h6.toGraph (h6.toGraph.highest q)) := rfl
  have hfin : h.unlinkChild q x = ((h6.connect (h6.toGraph.highest q)).connectFixes
      (h6.toGraph.highest q)).notifyParentChange (h6.toGraph.highest q) := rfl
  have sh4 : Shape h1.toGraph h4.toGraph :=
    (connect_shape h1 q).trans ((disconnect_shape h2 x).trans ⟨rfl, rfl, rfl, rfl⟩)
  have sh5 : Shape h1.toGraph h5.toGraph :=
    sh4.trans ((connect_shape h4 q).trans (Shape.of_eq (Heap'.notify_graph _ q)))
  have sh6 : Shape h6.toGraph (h.unlinkChild q x).toGraph := by
    rw [hfin, Heap'.notify_graph, Heap'.connectFixes_graph]
    exact connect_shape h6 _
  have par2 : h2.parent = h.parent := by
    funext c
    show (if c ∈ h1.kids q then some q else h.parent c) = _
    split
    · rename_i hc
      have hc : c ∈ upd h.kids q ((h.kids q).eraseIdx (h.pidx x)) q := hc
      rw [upd_same] at hc
      exact ((w.skel.mem_iff c q).mp (List.mem_of_mem_eraseIdx hc)).symm
    · rfl
  have par3 : h3.parent = upd h.parent x none := by
    have : h3.toGraph.parent = upd h2.parent x none := by
      show (h2.disconnect x).toGraph.parent = _
      unfold Heap.disconnect
      simp only []
      rw [Heap'.notify_graph, Heap'.connectFixes_graph]
    rw [← par2]; exact this
  have par5 : h5.parent = upd h.parent x none := by
    have : h5.toGraph.parent = (h4.connect q).toGraph.parent := by rw [Heap'.notify_graph]
    rw [show h5.parent = (h4.connect q).parent from this, ← par3]
    funext c
    show (if c ∈ h4.kids q then some q else h3.parent c) = _
    split
    · rename_i hc
      have hc : c ∈ h4.toGraph.kids q := hc
      rw [sh4.kids] at hc
      have hc9 : c ∈ upd h.kids q ((h.kids q).eraseIdx (h.pidx x)) q := hc
      rw [upd_same, herase] at hc9
      have h7 : h.parent c = some q :=
        (w.skel.mem_iff c q).mp (by rw [hk]; simp at hc9 ⊢; tauto)
      have hcx : c ≠ x := by
        rintro rfl
        have := w.skel.nodup q
        rw [hk] at this
        have := List.nodup_append.mp this
        rcases List.mem_append.mp hc9 with hc | hc
        · exact this.2.2 c hc c (by simp) rfl
        · exact (List.nodup_cons.mp this.2.1).1 hc
      rw [par3, upd_ne _ _ hcx, h7]
    · rfl
  have h6f : h6.next = h5.next ∧ h6.leaf = h5.leaf ∧ h6.kids = h5.kids ∧ h6.parent = h5.parent := by
    have key : ∀ o : Option Id, (match o with | none => h5 | some p => h5.subSizes p (h.size x)).next =
        h5.next ∧ (match o with | none => h5 | some p => h5.subSizes p (h.size x)).leaf = h5.leaf ∧
        (match o with | none => h5 | some p => h5.subSizes p (h.size x)).kids = h5.kids ∧
        (match o with | none => h5 | some p => h5.subSizes p (h.size x)).parent = h5.parent := by
      intro o
      cases o with
      | none => exact ⟨rfl, rfl, rfl, rfl⟩
      | some p => exact subSizes_rest h5 p _
    exact key (h5.parent q)
  have hhigh : h6.toGraph.highest q = r := by
    have hG6 : Skel ({ h.unlinkGraph q x with size := h6.size } : Graph) :=
      sG.of_eq rfl rfl rfl rfl rfl
    have e : h6.toGraph.highest q = (h.unlinkGraph q x).highest q := by
      have key : ∀ n y, Graph.highestF n h6.toGraph y = Graph.highestF n (h.unlinkGraph q x) y := by
        intro n
        induction n with
        | zero => intro y; rfl
        | succ n ih =>
          intro y
          have hp : h6.toGraph.parent = (h.unlinkGraph q x).parent := h6f.2.2.2.trans par5
          unfold Graph.highestF
          rw [hp]
          cases (h.unlinkGraph q x).parent y with
          | none => rfl
          | some p => exact ih p
      unfold Graph.highest Graph.fuel
      have : h6.toGraph.next = (h.unlinkGraph q x).next := h6f.1.trans (sh5.next.trans rfl)
      rw [this]; exact key _ _
    rw [e]
    exact sG.highest_eq ((i0.parent_ne r hrx).symm.trans hr) (i0.anc_p.mp hra)
  rw [hmem, hhigh, ← Mem.connect_shape spoil sh6]
  have ag : Mem.Agree (h.unlinkChild q x).toGraph h1.toGraph (fun y => Anc (h.unlinkChild q x).toGraph q y) := by
    refine ⟨i.next, ?_, ?_, ?_, ?_⟩
    · intro y hy c hc
      exact hy.trans (Anc.of_parent ((w1.skel.mem_iff _ _).mp hc))
    · intro y hy
      show upd h.kids q _ y = _
      by_cases hyq : y = q
      · subst hyq; rw [upd_same, herase]; exact i.kids_p.symm
      · rw [upd_ne _ _ hyq]; exact i.kids_ne y hyq
    · intro y hy
      show upd h.size q _ y = _
      by_cases hyq : y = q
      · subst hyq
        rw [upd_same]
        have := i.size_anc y .refl
        have h8 := i.x_not_anc
        have : h.size y = (h.unlinkChild y x).size y + (h.unlinkChild y x).size x := this
        have h8 : h.size x = (h.unlinkChild y x).size x := h8
        show h.size y - h.size x = (h.unlinkChild y x).size y
        omega
      · rw [upd_ne _ _ hyq]
        refine i.size_not y (fun ha => hyq ?_)
        exact w1.skel.anc_antisymm ha hy
    · intro y _; show h.leaf y = _; exact congrFun i.leaf y
  have hqS : Anc (h.unlinkChild q x).toGraph q q := .refl
  rw [Mem.connect_shape spoil sh4, Mem.connect_congr spoil ag _ hqS, Mem.connect_congr spoil ag _ hqS]

/-- Is the hierarchy connected when something is linked to `p`? -/
def Reconnects (h : Heap T) (p : Id) : Prop :=
  h.inInit p = false ∧ h.inited (h.toGraph.highest p) = some true

/-- The memory and the flags after linking a root. -/
theorem linkRoot_mem {s : State V T} (w : s.heap.WF) {p x : Id} {index : Option Int}
    (ok : Heap.LinkOK s.heap p x index) (hl : s.heap.leaf p = false) (hpx : s.heap.parent x = none) :
    (Reconnects s.heap p →
      (s.linkRoot spoil p x index).1.mem =
        s.mem.connect spoil (s.heap.linkRoot p x index).1.toGraph (s.heap.toGraph.highest p)) ∧
    (¬ Reconnects s.heap p →
      (s.linkRoot spoil p x index).1.mem = s.mem ∧
      (s.heap.linkRoot p x index).1.inited = s.heap.inited ∧ s.heap.parent p = none) ∧
    (s.heap.linkRoot p x index).1.inInit = s.heap.inInit ∧
    (∀ y, (s.heap.linkRoot p x index).1.inited y = some true →
      s.heap.inited y = some true ∨
        Anc (s.heap.linkRoot p x index).1.toGraph (s.heap.toGraph.highest p) y) ∧
    (∀ y, s.heap.inited y = some true → (s.heap.linkRoot p x index).1.inited y = some true) := by
  have hpos := ok.pos w hpx
  obtain ⟨i2, s2, h2eq⟩ := Heap.linkPointers_ins w.skel (index := index) ok.ltx ok.ltp hpx hl ok.outside hpos
  have hn3 := Heap.notify_eq s2 p
  obtain ⟨hr, hra⟩ := w.skel.highest_spec p
  have hrx : s.heap.toGraph.highest p ≠ x := by
    intro he; rw [he] at hra; exact ok.outside hra
  set h := s.heap with hh
  set h2 := (h.linkPointers p x index).addSizes p (h.size x) with hh2
  have f_ii : (h2.notifyParentChange p).inInit = h.inInit := by rw [hn3, h2eq]; rfl
  have f_id : (h2.notifyParentChange p).inited = h.inited := by rw [hn3, h2eq]; rfl
  have e3 : (h2.notifyParentChange p).toGraph = h2.toGraph := Heap'.notify_graph _ _
  have hr2 : h2.parent (h.toGraph.highest p) = none := by
    rw [show h2.parent _ = h.parent _ from i2.parent_ne _ hrx]; exact hr
  have hhigh : (h2.notifyParentChange p).toGraph.highest p = h.toGraph.highest p := by
    rw [e3]; exact s2.highest_eq hr2 (i2.anc_p.mpr hra)
  have hL : s.linkRoot spoil p x index =
      linkEnd spoil ⟨h2.notifyParentChange p, s.mem⟩ p := by
    unfold linkRoot
    simp only [← hh, hpos, ne_eq, not_true_eq_false, if_false]
    rfl
  have hH : (h.linkRoot p x index).1 = (linkEnd spoil ⟨h2.notifyParentChange p, s.mem⟩ p).1.heap := by
    rw [← hL]; exact (linkRoot_heap spoil s p x index).1.symm
  set h3 := h2.notifyParentChange p with hh3
  have s3 : Skel h3.toGraph := by rw [e3]; exact s2
  have hM := linkEnd_mem spoil (⟨h3, s.mem⟩ : State V T) p
  simp only [f_ii, f_id, hhigh] at hM
  rw [← hL] at hM
  by_cases hc : Reconnects h p
  · have hE : (linkEnd spoil ⟨h3, s.mem⟩ p).1.heap =
        ((h3.connect (h.toGraph.highest p)).notifyParentChange (h.toGraph.highest p)).connectFixes
          (h.toGraph.highest p) := by
      unfold linkEnd
      simp only [f_ii, f_id, hhigh, hc.1, hc.2, Bool.false_eq_true, if_false]
      rfl
    have hcc := Heap.connect_eq s3 (h.toGraph.highest p)
    have hG : (h.linkRoot p x index).1.toGraph = h3.toGraph := by
      rw [hH, hE, Heap'.connectFixes_graph, Heap'.notify_graph, hcc]
    have s4 : Skel (h3.connect (h.toGraph.highest p)).toGraph := by rw [hcc]; exact s3
    have hfl : (h.linkRoot p x index).1.inited = (h3.connect (h.toGraph.highest p)).inited ∧
        (h.linkRoot p x index).1.inInit = h.inInit := by
      rw [hH, hE, Heap.notify_eq s4]
      unfold Heap.connectFixes
      simp only []
      split <;> exact ⟨rfl, f_ii⟩
    refine ⟨fun _ => ?_, fun hn => absurd hc hn, hfl.2, ?_, ?_⟩
    · rw [hM, if_pos ⟨hc.1, hc.2⟩, hG]
    · intro y hy
      rw [hfl.1, hcc] at hy
      rw [hG]
      simp only [] at hy
      split at hy
      · rename_i hm
        exact .inr (s3.mem_subtree.mp hm)
      · rw [f_id] at hy; exact .inl hy
    · intro y hy
      rw [hfl.1, hcc]
      simp only []
      split
      · rfl
      · rw [f_id]; exact hy
  · have hii : ¬ (h.inInit p = false ∧ h.inited (h.toGraph.highest p) = some true) := hc
    have hE : (linkEnd spoil ⟨h3, s.mem⟩ p).1.heap = h3 := by
      unfold linkEnd
      simp only [f_ii, f_id, hhigh]
      cases h6 : h.inInit p with
      | true => rfl
      | false =>
        simp only [Bool.false_eq_true, if_false]
        cases h7 : h.inited (h.toGraph.highest p) with
        | none => rfl
        | some b =>
          cases b with
          | false => rfl
          | true => exact absurd ⟨h6, h7⟩ hii
    have hroot : h.parent p = none := by
      rcases ok.ready with h6 | h6
      · exact h6
      · exact absurd h6 hii
    refine ⟨fun h => absurd h hc, fun _ => ⟨?_, ?_, hroot⟩, ?_, ?_, fun y hy => by rw [hH, hE, f_id]; exact hy⟩
    · rw [hM, if_neg hii]
    · rw [hH, hE, f_id]
    · rw [hH, hE, f_ii]
    · intro y hy
      rw [hH, hE, f_id] at hy
      exact .inl hy

end State

end Paramz.Memory

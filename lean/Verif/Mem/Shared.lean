import Verif.Mem.CopyGlue

/-!
# Initialised hierarchies share memory

The invariant behind C36: in every state that admissible calls reach, the arrays of everything below an
object whose construction is over and which has been initialised are windows of one buffer, each at the
position of its elements.
-/

set_option linter.unusedSectionVars false

namespace Paramz.Memory

open Hier (Id Graph Heap upd upd_same upd_ne)
open Hier.Graph (Skel Sized At Anc Ins)

/-- Every existing `Param` has an array of its size. -/
def LeafFits (V : Type) (g : Graph) (m : Mem V) : Prop :=
  ∀ y, y < g.next → g.leaf y = true → ∃ v, Fits g m y v

/-- The object's constructor is over and it has been initialised. -/
def Done {T : Type} (h : Heap T) (n : Id) : Prop := h.inInit n = false ∧ h.inited n = some true

namespace Mem

variable {V : Type} {g : Graph}

theorem connect_nil (spoil : Nat → Nat → V) (m : Mem V) {r : Id} (h : g.kids r = []) :
    connect spoil g m r = m := by
  unfold connect; rw [h]; rfl

theorem connect_lo (s : Skel g) (z : Sized g) (spoil : Nat → Nat → V) {m : Mem V} (lo : LeafOwn g m)
    (r : Id) : LeafOwn g (connect spoil g m r) := by
  by_cases hk : g.kids r = []
  · rw [connect_nil spoil m hk]; exact lo
  · obtain ⟨w, -, -, -, h, -⟩ := connect_places s z spoil lo hk
    exact h

theorem connect_out (s : Skel g) (z : Sized g) (spoil : Nat → Nat → V) {m : Mem V} (lo : LeafOwn g m)
    {r y : Id} (hy : ¬ Anc g r y) :
    (connect spoil g m r).arr y = m.arr y ∧ (connect spoil g m r).owns y = m.owns y := by
  by_cases hk : g.kids r = []
  · rw [connect_nil spoil m hk]; exact ⟨rfl, rfl⟩
  · obtain ⟨w, -, -, h, -⟩ := connect_places s z spoil lo hk
    exact h y hy

theorem connect_fits (s : Skel g) (z : Sized g) (spoil : Nat → Nat → V) {m : Mem V} (lo : LeafOwn g m)
    (lf : LeafFits V g m) (r : Id) : LeafFits V g (connect spoil g m r) := by
  by_cases hk : g.kids r = []
  · rw [connect_nil spoil m hk]; exact lf
  · obtain ⟨w, h1, h2, h3, -⟩ := connect_places s z spoil lo hk
    intro y hy hl
    by_cases ha : Anc g r y
    · by_cases hne : y = r
      · subst hne; exact ⟨w, h1⟩
      · obtain ⟨k, hk'⟩ := s.exists_at ha
        exact ⟨_, (h2 y k hk' hne).1, rfl⟩
    · obtain ⟨v, hv⟩ := lf y hy hl
      exact ⟨v, (Fits.congr (h3 y ha).1).mpr hv⟩

theorem calm_leaf (s : Skel g) {m : Mem V} {y : Id} (hl : g.leaf y = true) {v : View} (hv : Fits g m y v) :
    Calm g m y := by
  refine ⟨v.buf, v.off, fun x k hx _ => ?_⟩
  cases hx with
  | refl => exact ⟨by rw [hv.1, Nat.add_zero, ← hv.2], fun h => absurd rfl h⟩
  | @step p _ _ _ _ hp hk =>
    exfalso
    have hne : y ≠ p ∨ y = p := (em (y = p)).symm
    have h1 : Anc g y p := hp.anc s
    rcases hne with hne | rfl
    · obtain ⟨e, A', B', hk', -⟩ := Hier.Graph.Ins.child_above s h1 hne
      rw [s.leaf y hl] at hk'
      exact absurd hk' (by simp)
    · rw [s.leaf y hl] at hk
      exact absurd hk (by simp)

/-- After connecting `r`, everything below `r` shares memory. -/
theorem connect_below (s : Skel g) (z : Sized g) (spoil : Nat → Nat → V) {m : Mem V} (lo : LeafOwn g m)
    (lf : LeafFits V g m) {r n : Id} (hr : r < g.next) (hn : Anc g r n) :
    Calm g (connect spoil g m r) n := by
  by_cases hk : g.kids r = []
  · rw [connect_nil spoil m hk]
    have hnr : n = r := by
      by_contra hne
      obtain ⟨e, A', B', hk', -⟩ := Hier.Graph.Ins.child_above s hn (fun h => hne h.symm)
      rw [hk] at hk'
      exact absurd hk' (by simp)
    subst hnr
    cases hl : g.leaf n with
    | true =>
      obtain ⟨v, hv⟩ := lf n hr hl
      exact calm_leaf s hl hv
    | false =>
      have hz := z n hl
      rw [hk] at hz
      refine ⟨0, 0, fun y k hy hpos => ?_⟩
      have := hy.window s z
      rw [hz, Hier.Graph.sizeSum_nil] at this
      omega
  · obtain ⟨w, h1, h2, -⟩ := connect_places s z spoil lo hk
    have hc : CalmAt g (connect spoil g m r) r w.buf w.off := by
      intro y k hy hpos
      by_cases hne : y = r
      · subst hne
        have := s.at_self hy
        subst this
        refine ⟨?_, fun h => absurd rfl h⟩
        rw [h1.1, Nat.add_zero, ← h1.2]
      · obtain ⟨h3, h4⟩ := h2 y k hy hne
        exact ⟨h3, fun _ => h4⟩
    obtain ⟨k, hk'⟩ := s.exists_at hn
    exact ⟨_, _, hc.child s hk'⟩

theorem Calm.transfer {g' : Graph} {m m' : Mem V} {n : Id} (h : Calm g m n)
    (ht : ∀ y k, At g' n y k → At g n y k ∧ g'.size y = g.size y ∧ m'.arr y = m.arr y ∧
      m'.owns y = m.owns y) : Calm g' m' n := by
  obtain ⟨b, o, h⟩ := h
  refine ⟨b, o, fun y k hy hpos => ?_⟩
  obtain ⟨h1, h2, h3, h4⟩ := ht y k hy
  rw [h2] at hpos ⊢
  rw [h3, h4]
  exact h y k h1 hpos

end Mem

/-! ### The invariant -/

/-- Everything below an initialised object is a window of one buffer. -/
structure Linked {V T : Type} (s : State V T) : Prop where
  lo : LeafOwn s.heap.toGraph s.mem
  fits : LeafFits V s.heap.toGraph s.mem
  calm : ∀ n, n < s.heap.next → Done s.heap n → Calm s.heap.toGraph s.mem n

section
variable {g g' : Graph} {p x : Id} {A B : List Id}

/-- Parts of the old hierarchy that are not above the place of insertion and not in the hierarchy of the
inserted object. -/
theorem ins_at_back (s : Skel g) (s' : Skel g') (i : Ins g g' p x A B) {n y k : Nat}
    (hp : ¬ Anc g n p) (h : At g' n y k) : At g n y k ∧ g'.size y = g.size y := by
  have hanc : Anc g n y := by
    have h1 := h.anc s'
    clear h
    induction h1 with
    | refl => exact .refl
    | @step q c _ hc ih =>
      by_cases hcx : c = x
      · subst hcx
        rw [i.parent_x] at hc
        cases hc
        exact absurd ih hp
      · rw [i.parent_ne c hcx] at hc
        exact .step ih hc
  obtain ⟨k', hk'⟩ := s.exists_at hanc
  have := i.at_other s hp hk'
  have hkk := s'.at_unique h this
  subst hkk
  exact ⟨hk', i.size_not y (fun hy => hp (hanc.trans hy))⟩

end

namespace State

variable {V T : Type} [DecidableEq T] (spoil : Nat → Nat → V)

theorem leafOwn_congr {g g' : Graph} {m m' : Mem V} (h : LeafOwn g m) (hl : g'.leaf = g.leaf)
    (ho : m'.owns = m.owns) : LeafOwn g' m' := by
  intro y hy; rw [ho]; rw [hl] at hy; exact h y hy

theorem connected_linked {s : State V T} (w : s.heap.WF) (lo : LeafOwn s.heap.toGraph s.mem)
    (lf : LeafFits V s.heap.toGraph s.mem) {r : Id} (hr : r < s.heap.next)
    (hroot : s.heap.parent r = none) {h' : Heap T} (hg : h'.toGraph = s.heap.toGraph)
    (hc : ∀ n, n < s.heap.next → ¬ Anc s.heap.toGraph r n → Done h' n →
      Calm s.heap.toGraph s.mem n) :
    Linked (⟨h', s.mem.connect spoil s.heap.toGraph r⟩ : State V T) := by
  constructor
  · show LeafOwn h'.toGraph _
    rw [hg]; exact Mem.connect_lo w.skel w.sized spoil lo r
  · show LeafFits V h'.toGraph _
    rw [hg]; exact Mem.connect_fits w.skel w.sized spoil lo lf r
  · intro n hn hd
    have hn : n < h'.toGraph.next := hn
    show Calm h'.toGraph _ n
    rw [hg] at hn ⊢
    by_cases ha : Anc s.heap.toGraph r n
    · exact Mem.connect_below w.skel w.sized spoil lo lf hr ha
    · refine Mem.Calm.transfer (hc n hn ha hd) (fun y k hy => ⟨hy, rfl, ?_⟩)
      refine Mem.connect_out w.skel w.sized spoil lo (fun hry => ha ?_)
      rcases hry.total (hy.anc w.skel) with h1 | h1
      · exact h1
      · have := (Hier.Graph.anc_root hroot).mp h1
        subst this; exact .refl

theorem unlinkChild_linked {s : State V T} (w : s.heap.WF) (l : Linked s) {q x : Id} {A B : List Id}
    (hk : s.heap.kids q = A ++ x :: B) : Linked (s.unlinkChild spoil q x) := by
  obtain ⟨w1, i, hii, -, hj, hjo, -⟩ := Heap.unlinkChild_wf w hk
  have hpar : s.heap.parent x = some q := w.skel.parent_of hk
  obtain ⟨hr, hra⟩ := w.skel.highest_spec q
  have hxq : ¬ Anc s.heap.toGraph x q := w.skel.not_anc_parent hpar
  have hqlt := (w.skel.alloc _ _ hpar).2
  have hrlt := w.skel.anc_lt hra hqlt
  have hmem := unlinkChild_mem spoil w hk
  set r := s.heap.toGraph.highest q with hrdef
  have hrx : r ≠ x := by rintro he; rw [he] at hra; exact hxq hra
  set h' := s.heap.unlinkChild q x with hh'
  have hr' : h'.parent r = none := by
    rw [← show s.heap.parent r = h'.parent r from i.parent_ne r hrx]; exact hr
  have hra' : Anc h'.toGraph r q := i.anc_p.mp hra
  have lo0 : LeafOwn h'.toGraph s.mem := leafOwn_congr l.lo i.leaf.symm rfl
  have hsz : ∀ y, s.heap.leaf y = true → h'.size y = s.heap.size y := by
    intro y hy
    refine (i.size_not y (fun ha => ?_)).symm
    have hyq : y ≠ q := by
      rintro rfl
      have := w.skel.leaf y hy
      rw [show s.heap.toGraph.kids y = A ++ x :: B from hk] at this
      exact absurd this (by simp)
    obtain ⟨e, A', B', hk', -⟩ := Hier.Graph.Ins.child_above w1.skel ha hyq
    rw [w1.skel.leaf y (by rw [← show s.heap.toGraph.leaf = h'.toGraph.leaf from i.leaf]; exact hy)] at hk'
    exact absurd hk' (by simp)
  have lf0 : LeafFits V h'.toGraph s.mem := by
    intro y hy hl
    rw [← i.next] at hy
    rw [← i.leaf] at hl
    obtain ⟨v, h1, h2⟩ := l.fits y hy hl
    exact ⟨v, h1, h2.trans (hsz y hl).symm⟩
  have lo1 := Mem.connect_lo w1.skel w1.sized spoil lo0 q
  have lf1 := Mem.connect_fits w1.skel w1.sized spoil lo0 lf0 q
  have lo2 := Mem.connect_lo w1.skel w1.sized spoil lo1 q
  have lf2 := Mem.connect_fits w1.skel w1.sized spoil lo1 lf1 q
  have key := connected_linked spoil
    (s := ⟨h', ((s.mem.connect spoil h'.toGraph q).connect spoil h'.toGraph q)⟩) w1 lo2 lf2
    (r := r) (by show r < h'.next; rw [← show s.heap.next = h'.next from i.next]; exact hrlt) hr'
    (h' := h') rfl ?_
  · have : s.unlinkChild spoil q x = ⟨h', (s.unlinkChild spoil q x).mem⟩ := by
      rw [hh', ← unlinkChild_heap spoil s q x]
    rw [this, hmem]
    exact key
  · intro n hn hna hd
    have hn : n < h'.next := hn
    rw [← show s.heap.next = h'.next from i.next] at hn
    have hna : ¬ Anc h'.toGraph r n := hna
    have hnq : ¬ Anc h'.toGraph n q := by
      intro ha
      rcases ha.total hra' with h1 | h1
      · exact hna (by rw [(Hier.Graph.anc_root hr').mp h1]; exact .refl)
      · exact hna h1
    have hd0 : Done s.heap n := by
      refine ⟨by rw [← hii]; exact hd.1, ?_⟩
      rw [← hjo n ?_]
      · exact hd.2
      · by_cases hx : Anc s.heap.toGraph x n
        · exact .inr hx
        · refine .inl (fun ha => hna ?_)
          exact i.anc_of ha (fun ha' => hx (i.anc_mono ha'))
    refine Mem.Calm.transfer (l.calm n hn hd0) (fun y k hy => ?_)
    have hy : At h'.toGraph n y k := hy
    refine ⟨i.at_other w1.skel hnq hy, (i.size_not y (fun ha => hnq ((hy.anc w1.skel).trans ha))).symm, ?_⟩
    have hqy : ¬ Anc h'.toGraph q y := by
      intro ha
      rcases ha.total (hy.anc w1.skel) with h1 | h1
      · exact hna (hra'.trans h1)
      · exact hnq h1
    obtain ⟨a1, a2⟩ := Mem.connect_out w1.skel w1.sized spoil lo0 hqy
    obtain ⟨b1, b2⟩ := Mem.connect_out w1.skel w1.sized spoil lo1 hqy
    exact ⟨b1.trans a1, b2.trans a2⟩

theorem linkRoot_linked {s : State V T} (w : s.heap.WF) (l : Linked s) {p x : Id} {index : Option Int}
    (ok : Heap.LinkOK s.heap p x index) (hl : s.heap.leaf p = false) (hpx : s.heap.parent x = none) :
    Linked (s.linkRoot spoil p x index).1 := by
  have hpos := ok.pos w hpx
  obtain ⟨w1, i, -⟩ := Heap.linkRoot_wf w ok.ltx ok.ltp hpx hl ok.outside ok.ready hpos
  obtain ⟨hm1, hm2, hii, hid, -⟩ := linkRoot_mem spoil w ok hl hpx
  have hheap := (linkRoot_heap spoil s p x index).1
  obtain ⟨hr, hra⟩ := w.skel.highest_spec p
  have hrlt := w.skel.anc_lt hra ok.ltp
  set r := s.heap.toGraph.highest p with hrdef
  set h' := (s.heap.linkRoot p x index).1 with hh'
  have hrx : r ≠ x := by intro he; rw [he] at hra; exact ok.outside hra
  have hr' : h'.parent r = none := by
    rw [show h'.parent r = s.heap.parent r from i.parent_ne r hrx]; exact hr
  have hra' : Anc h'.toGraph r p := i.anc_p.mpr hra
  have lo0 : LeafOwn h'.toGraph s.mem := leafOwn_congr l.lo i.leaf rfl
  have lf0 : LeafFits V h'.toGraph s.mem := by
    intro y hy hly
    rw [i.next] at hy
    rw [i.leaf] at hly
    obtain ⟨v, h1, h2⟩ := l.fits y hy hly
    refine ⟨v, h1, h2.trans (i.size_not y (fun ha => ?_)).symm⟩
    have hyp : y ≠ p := by rintro rfl; rw [show s.heap.leaf y = true from hly] at hl; cases hl
    obtain ⟨e, A', B', hk', -⟩ := Hier.Graph.Ins.child_above w.skel ha hyp
    rw [w.skel.leaf y hly] at hk'
    exact absurd hk' (by simp)
  have hback : ∀ n, n < s.heap.next → Done s.heap n → ¬ Anc s.heap.toGraph n p →
      Calm h'.toGraph s.mem n := by
    intro n hn hd hna
    refine Mem.Calm.transfer (l.calm n hn hd) (fun y k hy => ?_)
    obtain ⟨h1, h2⟩ := ins_at_back w.skel w1.skel i hna hy
    exact ⟨h1, h2, rfl, rfl⟩
  have hst : (s.linkRoot spoil p x index).1 = ⟨h', (s.linkRoot spoil p x index).1.mem⟩ := by
    rw [← hheap]
  rw [hst]
  by_cases hc : Reconnects s.heap p
  · rw [hm1 hc]
    refine connected_linked spoil (s := ⟨h', s.mem⟩) w1 lo0 lf0 (r := r)
      (by show r < h'.next; rw [show h'.next = s.heap.next from i.next]; exact hrlt) hr' (h' := h') rfl ?_
    intro n hn hna hd
    have hn : n < h'.next := hn
    rw [show h'.next = s.heap.next from i.next] at hn
    have hna : ¬ Anc h'.toGraph r n := hna
    refine hback n hn ⟨by rw [← hii]; exact hd.1, ?_⟩ (fun ha => ?_)
    · rcases hid n hd.2 with h1 | h1
      · exact h1
      · exact absurd h1 hna
    · rcases ha.total hra with h1 | h1
      · exact hna (by rw [(Hier.Graph.anc_root hr).mp h1]; exact .refl)
      · exact hna (i.anc_mono h1)
  · obtain ⟨h1, h2, h3⟩ := hm2 hc
    rw [h1]
    refine ⟨lo0, lf0, fun n hn hd => ?_⟩
    have hn : n < h'.next := hn
    rw [show h'.next = s.heap.next from i.next] at hn
    have hd : Done h' n := hd
    have hd0 : Done s.heap n := ⟨by rw [← hii]; exact hd.1, by rw [← h2]; exact hd.2⟩
    refine hback n hn hd0 (fun ha => hc ?_)
    have := (Hier.Graph.anc_root h3).mp ha
    subst this
    refine ⟨hd0.1, ?_⟩
    rw [w.skel.highest_eq h3 .refl]
    exact hd0.2

theorem link_linked {s : State V T} (w : s.heap.WF) (l : Linked s) {p x : Id} {index : Option Int}
    (ok : Heap.LinkOK s.heap p x index) : Linked (s.link spoil p x index).1 := by
  unfold link
  cases hl : s.heap.leaf p with
  | true => exact l
  | false =>
    simp only [Bool.false_eq_true, if_false]
    by_cases hm : x ∈ s.heap.kids p
    · rw [if_pos hm]
      cases index with
      | none => exact l
      | some j =>
        obtain ⟨A, B, hk⟩ := List.append_of_mem hm
        obtain ⟨w1, i, -⟩ := Heap.unlinkChild_wf w hk
        have hpx : (s.unlinkChild spoil p x).heap.parent x = none := i.root
        have hl1 : (s.unlinkChild spoil p x).heap.leaf p = false := by
          rw [unlinkChild_heap, ← show s.heap.leaf = (s.heap.unlinkChild p x).leaf from i.leaf]; exact hl
        have l1 := unlinkChild_linked spoil w l hk
        simp only [linkNew, hpx]
        exact linkRoot_linked spoil (s := s.unlinkChild spoil p x) w1 l1 (ok.unlink w hk) hl1 hpx
    · rw [if_neg hm]
      unfold linkNew
      cases hpx : s.heap.parent x with
      | none => exact linkRoot_linked spoil w l ok hl hpx
      | some q =>
        simp only []
        generalize s.heap.toGraph.traverseParents (fun _ y => decide (y = p))
          ⟨s.heap.visited, [], false⟩ x = t
        cases t.raised with
        | true => exact ⟨l.lo, l.fits, l.calm⟩
        | false =>
          simp only [Bool.false_eq_true, if_false]
          have hxq : x ∈ s.heap.kids q := (w.skel.mem_iff _ _).mpr hpx
          obtain ⟨A, B, hk⟩ := List.append_of_mem hxq
          have w0 : (s.on fun h => { h with visited := t.marks }).heap.WF := w.visited t.marks
          have l0 : Linked (s.on fun h => { h with visited := t.marks }) := ⟨l.lo, l.fits, l.calm⟩
          have ok0 : Heap.LinkOK (s.on fun h => { h with visited := t.marks }).heap p x index :=
            ⟨ok.1, ok.2, ok.3, ok.4, ok.5⟩
          have hk0 : (s.on fun h => { h with visited := t.marks }).heap.kids q = A ++ x :: B := hk
          have hl0 : (s.on fun h => { h with visited := t.marks }).heap.leaf p = false := hl
          generalize (s.on fun h => { h with visited := t.marks }) = s0 at *
          obtain ⟨w1, i, -⟩ := Heap.unlinkChild_wf (h := s0.heap) w0 hk0
          have hpx1 : (s0.unlinkChild spoil q x).heap.parent x = none := i.root
          have hl1 : (s0.unlinkChild spoil q x).heap.leaf p = false := by
            rw [unlinkChild_heap, ← show s0.heap.leaf = (s0.heap.unlinkChild q x).leaf from i.leaf]
            exact hl0
          exact linkRoot_linked spoil (s := s0.unlinkChild spoil q x) w1
            (unlinkChild_linked spoil w0 l0 hk0) (ok0.unlink w0 hk0) hl1 hpx1

theorem unlink_linked {s : State V T} (w : s.heap.WF) (l : Linked s) (q x : Id) :
    Linked (s.unlink spoil q x).1 := by
  unfold unlink
  split
  · exact l
  · split
    · rename_i hx
      obtain ⟨A, B, hk⟩ := List.append_of_mem hx
      exact unlinkChild_linked spoil w l hk
    · exact l

theorem initialize_linked {s : State V T} (w : s.heap.WF) (l : Linked s) {x : Id} (hx : x < s.heap.next) :
    Linked (s.initializeParameter spoil x) := by
  obtain ⟨r, D, F, J, hrd, hr, hrlt, -, -, -, -, -, hJ, -, he⟩ := Heap.initialize_eq w hx
  have h1 : s.initializeParameter spoil x = ⟨s.heap.initializeParameter x,
      s.mem.connect spoil (s.heap.notifyParentChange (s.heap.toGraph.highest x)).toGraph
        (s.heap.toGraph.highest x)⟩ := rfl
  rw [h1, Heap'.notify_graph, ← hrd]
  refine connected_linked spoil w l.lo l.fits hrlt hr (by rw [he]) ?_
  intro n hn hna hd
  refine l.calm n hn ?_
  rw [he] at hd
  exact ⟨hd.1, by rw [← hJ n hna]; exact hd.2⟩

theorem finishInit_linked {s : State V T} (w : s.heap.WF) (l : Linked s) {x : Id} (hx : x < s.heap.next)
    (i : Bool) : Linked (s.finishInit spoil x i) := by
  have l1 : Linked (s.on fun h =>
      { h with inInit := upd h.inInit x false, inited := upd h.inited x (some false) }) := by
    refine ⟨l.lo, l.fits, fun n hn hd => l.calm n hn ?_⟩
    have h1 : upd s.heap.inInit x false n = false := hd.1
    have h2 : upd s.heap.inited x (some false) n = some true := hd.2
    by_cases hnx : n = x
    · subst hnx; rw [upd_same] at h2; cases h2
    · rw [upd_ne _ _ hnx] at h1 h2; exact ⟨h1, h2⟩
  cases i with
  | false => exact l1
  | true => exact initialize_linked spoil (Heap.finishInit_wf w hx false).1 l1 hx

theorem at_newObj {h : Heap T} (w : h.WF) (leaf : Bool) (size : Nat) (ii : Bool) {n y k : Nat}
    (hn : n < h.next) (hy : At (h.newObj leaf size ii).toGraph n y k) :
    At h.toGraph n y k ∧ y < h.next := by
  have e2 : (h.newObj leaf size ii).toGraph.kids = h.kids := by
    funext y
    show upd h.kids h.next [] y = _
    by_cases hyn : y = h.next
    · subst hyn
      rw [upd_same]
      symm
      cases hk : h.kids h.next with
      | nil => rfl
      | cons c L =>
        have : h.parent c = some h.next := (w.skel.mem_iff _ _).mp (by
          show c ∈ h.kids h.next
          rw [hk]; simp)
        exact absurd (w.skel.alloc _ _ this).2 (Nat.lt_irrefl _)
    · rw [upd_ne _ _ hyn]
  induction hy with
  | refl => exact ⟨.refl, hn⟩
  | @step p c m A B hp hk ih =>
    rw [e2] at hk
    have hc : ∀ a, a ∈ A ++ c :: B → a < h.next := fun a ha =>
      (w.skel.alloc a p ((w.skel.mem_iff _ _).mp (by rw [show h.toGraph.kids p = _ from hk]; exact ha))).1
    have hs : (h.newObj leaf size ii).toGraph.sizeSum A = h.toGraph.sizeSum A := by
      unfold Graph.sizeSum
      congr 1
      apply List.map_congr_left
      intro a ha
      exact upd_ne _ _ (Nat.ne_of_lt (hc a (by simp [ha])))
    rw [hs]
    exact ⟨.step ih.1 hk, hc c (by simp)⟩

theorem newObj_linked {s : State V T} (w : s.heap.WF) (l : Linked s) (leaf : Bool) (size : Nat)
    (ii : Bool) (m' : Mem V) (ha : ∀ y, y ≠ s.heap.next → m'.arr y = s.mem.arr y)
    (ho : ∀ y, y ≠ s.heap.next → m'.owns y = s.mem.owns y)
    (hleaf : leaf = true → m'.arr s.heap.next = some ⟨s.mem.next, 0, size⟩ ∧ m'.owns s.heap.next = false) :
    Linked (⟨s.heap.newObj leaf size ii, m'⟩ : State V T) := by
  have e3 : ∀ y, y ≠ s.heap.next → (s.heap.newObj leaf size ii).size y = s.heap.size y :=
    fun y hy => upd_ne _ _ hy
  have e4 : ∀ y, y ≠ s.heap.next → (s.heap.newObj leaf size ii).leaf y = s.heap.leaf y :=
    fun y hy => upd_ne _ _ hy
  constructor
  · intro y hy
    by_cases hyn : y = s.heap.next
    · subst hyn
      have : upd s.heap.leaf s.heap.next leaf s.heap.next = true := hy
      rw [upd_same] at this
      exact (hleaf this).2
    · show m'.owns y = false
      rw [ho y hyn]
      exact l.lo y (by rw [← e4 y hyn]; exact hy)
  · intro y hlt hy
    by_cases hyn : y = s.heap.next
    · subst hyn
      have : upd s.heap.leaf s.heap.next leaf s.heap.next = true := hy
      rw [upd_same] at this
      exact ⟨_, (hleaf this).1, (upd_same s.heap.size s.heap.next size).symm⟩
    · have hlt : y < s.heap.next + 1 := hlt
      obtain ⟨v, h1, h2⟩ := l.fits y (by omega) (by rw [← e4 y hyn]; exact hy)
      exact ⟨v, (ha y hyn).trans h1, h2.trans (e3 y hyn).symm⟩
  · intro n hlt hd
    by_cases hyn : n = s.heap.next
    · subst hyn
      have : upd s.heap.inited s.heap.next none s.heap.next = some true := hd.2
      rw [upd_same] at this
      cases this
    · have hlt : n < s.heap.next + 1 := hlt
      have hd1 : upd s.heap.inInit s.heap.next ii n = false := hd.1
      have hd2 : upd s.heap.inited s.heap.next none n = some true := hd.2
      rw [upd_ne _ _ hyn] at hd1 hd2
      refine Mem.Calm.transfer (l.calm n (by omega) ⟨hd1, hd2⟩) (fun y k hy => ?_)
      obtain ⟨h1, h2⟩ := at_newObj w leaf size ii (by omega) hy
      have hne := Nat.ne_of_lt h2
      exact ⟨h1, e3 y hne, ha y hne, ho y hne⟩

/-! ### Buffers in use -/

/-- All arrays lie in buffers that have been handed out. -/
def Bounded (m : Mem V) : Prop := ∀ n v, m.arr n = some v → v.buf < m.next

theorem connect_bounded {g : Graph} (sk : Skel g) (z : Sized g) {m : Mem V} (lo : LeafOwn g m)
    (hb : Bounded m) (r : Id) : Bounded (m.connect spoil g r) ∧ m.next ≤ (m.connect spoil g r).next := by
  by_cases hk : g.kids r = []
  · rw [Mem.connect_nil spoil m hk]; exact ⟨hb, le_refl _⟩
  obtain ⟨w, h1, h2, h3, -, h5, h6⟩ := Mem.connect_places sk z spoil lo hk
  refine ⟨fun n v hv => ?_, h5⟩
  have hw : w.buf < (m.connect spoil g r).next := by
    rcases h6 with ⟨h, -⟩ | ⟨-, -, h, -⟩
    · exact lt_of_lt_of_le (hb r w h.1) h5
    · exact h
  by_cases ha : Anc g r n
  · by_cases hnr : n = r
    · subst hnr
      rw [h1.1] at hv; cases hv; exact hw
    · obtain ⟨k, hk'⟩ := sk.exists_at ha
      rw [(h2 n k hk' hnr).1] at hv; cases hv; exact hw
  · rw [(h3 n ha).1] at hv
    exact lt_of_lt_of_le (hb n v hv) h5

/-- Buffers used by nothing below `r` are not written when `r` is connected. -/
theorem connect_elsewhere {g : Graph} (sk : Skel g) (z : Sized g) {m : Mem V} (lo : LeafOwn g m)
    (r : Id) {B : Nat} (hB : B < m.next) (hn : ∀ n v, Anc g r n → m.arr n = some v → v.buf ≠ B) (i : Nat) :
    (m.connect spoil g r).cell B i = m.cell B i := by
  by_cases hk : g.kids r = []
  · rw [Mem.connect_nil spoil m hk]
  obtain ⟨w, hw, lo', hnx, hcell, hcase, hothers⟩ := Mem.prepared_facts sk lo hk
  have post := Mem.connect_post sk z spoil lo' hw
  have hwB : w.buf ≠ B := by
    rcases hcase with ⟨h, -⟩ | ⟨-, h, -⟩
    · exact hn r w .refl h.1
    · omega
  rw [Mem.connect_prepared sk, ← hcell]
  refine post.cells B i (by omega) (fun h => hwB h.1.symm) (fun h => hwB h.1.symm) ?_
  rintro c hc n hn' - ⟨v, h1, -, h3, -⟩
  have hp := (sk.mem_iff _ _).mp hc
  have hnr : n ≠ r := by rintro rfl; exact sk.not_anc_parent hp hn'
  rcases hothers n hnr with ⟨h4, -⟩ | ⟨-, -, h4, -⟩
  · rw [h4] at h1
    exact hn n v ((Anc.of_parent hp).trans hn') h1 h3
  · rw [h4] at h1
    cases h1
    simp only at h3
    omega

theorem unlinkChild_bounded {s : State V T} (w : s.heap.WF) (l : Linked s) (hb : Bounded s.mem)
    {q x : Id} {A B : List Id} (hk : s.heap.kids q = A ++ x :: B) :
    Bounded (s.unlinkChild spoil q x).mem := by
  obtain ⟨w1, i, -⟩ := Heap.unlinkChild_wf w hk
  rw [unlinkChild_mem spoil w hk]
  have lo0 : LeafOwn (s.heap.unlinkChild q x).toGraph s.mem := leafOwn_congr l.lo i.leaf.symm rfl
  have lo1 := Mem.connect_lo w1.skel w1.sized spoil lo0 q
  have lo2 := Mem.connect_lo w1.skel w1.sized spoil lo1 q
  exact (connect_bounded spoil w1.skel w1.sized lo2 (connect_bounded spoil w1.skel w1.sized lo1
    (connect_bounded spoil w1.skel w1.sized lo0 hb q).1 q).1 _).1

theorem linkRoot_bounded {s : State V T} (w : s.heap.WF) (l : Linked s) (hb : Bounded s.mem) {p x : Id}
    {index : Option Int} (ok : Heap.LinkOK s.heap p x index) (hl : s.heap.leaf p = false)
    (hpx : s.heap.parent x = none) : Bounded (s.linkRoot spoil p x index).1.mem := by
  obtain ⟨w1, i, -⟩ := Heap.linkRoot_wf w ok.ltx ok.ltp hpx hl ok.outside ok.ready (ok.pos w hpx)
  obtain ⟨hm1, hm2, -⟩ := linkRoot_mem spoil w ok hl hpx
  by_cases hc : Reconnects s.heap p
  · rw [hm1 hc]
    exact (connect_bounded spoil w1.skel w1.sized (leafOwn_congr l.lo i.leaf rfl) hb _).1
  · rw [(hm2 hc).1]; exact hb

theorem linkNew_bounded {s : State V T} (w : s.heap.WF) (l : Linked s) (hb : Bounded s.mem) {p x : Id}
    {index : Option Int} (ok : Heap.LinkOK s.heap p x index) (hl : s.heap.leaf p = false) :
    Bounded (s.linkNew spoil p x index).1.mem := by
  unfold linkNew
  cases hpx : s.heap.parent x with
  | none => exact linkRoot_bounded spoil w l hb ok hl hpx
  | some q =>
    simp only []
    generalize s.heap.toGraph.traverseParents (fun _ y => decide (y = p))
      ⟨s.heap.visited, [], false⟩ x = t
    have hxq : x ∈ s.heap.kids q := (w.skel.mem_iff _ _).mpr hpx
    obtain ⟨A, B, hk⟩ := List.append_of_mem hxq
    split
    · exact hb
    · have w0 : (s.on fun h => { h with visited := t.marks }).heap.WF := w.visited t.marks
      have l0 : Linked (s.on fun h => { h with visited := t.marks }) := ⟨l.lo, l.fits, l.calm⟩
      have hb0 : Bounded (s.on fun h => { h with visited := t.marks }).mem := hb
      have ok0 : Heap.LinkOK (s.on fun h => { h with visited := t.marks }).heap p x index :=
        ⟨ok.1, ok.2, ok.3, ok.4, ok.5⟩
      have hl0 : (s.on fun h => { h with visited := t.marks }).heap.leaf p = false := hl
      have hk0 : (s.on fun h => { h with visited := t.marks }).heap.kids q = A ++ x :: B := hk
      generalize (s.on fun h => { h with visited := t.marks }) = s0 at *
      obtain ⟨w1, i, -⟩ := Heap.unlinkChild_wf (h := s0.heap) w0 hk0
      have hpx1 : (s0.unlinkChild spoil q x).heap.parent x = none := i.root
      have hl1 : (s0.unlinkChild spoil q x).heap.leaf p = false := by
        rw [unlinkChild_heap, ← show s0.heap.leaf = (s0.heap.unlinkChild q x).leaf from i.leaf]
        exact hl0
      exact linkRoot_bounded spoil (s := s0.unlinkChild spoil q x) w1
        (unlinkChild_linked spoil w0 l0 hk0) (unlinkChild_bounded spoil w0 l0 hb0 hk0)
        (ok0.unlink w0 hk0) hl1 hpx1

theorem link_bounded {s : State V T} (w : s.heap.WF) (l : Linked s) (hb : Bounded s.mem) {p x : Id}
    {index : Option Int} (ok : Heap.LinkOK s.heap p x index) : Bounded (s.link spoil p x index).1.mem := by
  unfold link
  cases hl : s.heap.leaf p with
  | true => exact hb
  | false =>
    simp only [Bool.false_eq_true, if_false]
    split
    · rename_i hx
      cases index with
      | none => exact hb
      | some j =>
        obtain ⟨A, B, hk⟩ := List.append_of_mem hx
        obtain ⟨w1, i, -⟩ := Heap.unlinkChild_wf w hk
        refine linkNew_bounded spoil (s := s.unlinkChild spoil p x) w1 (unlinkChild_linked spoil w l hk)
          (unlinkChild_bounded spoil w l hb hk) (ok.unlink w hk) ?_
        rw [unlinkChild_heap, ← show s.heap.leaf = (s.heap.unlinkChild p x).leaf from i.leaf]
        exact hl
    · exact linkNew_bounded spoil w l hb ok hl

theorem initialize_bounded {s : State V T} (w : s.heap.WF) (lo : LeafOwn s.heap.toGraph s.mem)
    (hb : Bounded s.mem) (x : Id) : Bounded (s.initializeParameter spoil x).mem := by
  show Bounded (s.mem.connect spoil (s.heap.notifyParentChange _).toGraph _)
  rw [Heap'.notify_graph]
  exact (connect_bounded spoil w.skel w.sized lo hb _).1

/-! ### Copies -/

/-- What copying `x` does to memory: nothing that was in use changes (an object without an array of its
size that is copied gets one), and the copies share memory among themselves only. -/
structure CopyMem (s s' : State V T) (x : Id) : Prop where
  lo : LeafOwn s'.heap.toGraph s'.mem
  fits : LeafFits V s'.heap.toGraph s'.mem
  bounded : Bounded s'.mem
  next : s.mem.next ≤ s'.mem.next
  others : ∀ n, (∀ y, Anc s.heap.toGraph x y → n ≠ s.heap.copyOf x y) → (n ≠ x ∨ s.heap.leaf x = true ∨ ∃ v, Fits s.heap.toGraph s.mem x v) →
    s'.mem.arr n = s.mem.arr n ∧ s'.mem.owns n = s.mem.owns n
  cells : ∀ B i, B < s.mem.next → s'.mem.cell B i = s.mem.cell B i
  fresh : ∀ y v, Anc s.heap.toGraph x y → s'.mem.arr (s.heap.copyOf x y) = some v → s.mem.next ≤ v.buf
  calm : ∀ y, Anc s.heap.toGraph x y → Calm s'.heap.toGraph s'.mem (s.heap.copyOf x y)

theorem CopyMem.old {s s' : State V T} {x : Id} (c : CopyMem s s' x) {n : Id} (hn : n < s.heap.next)
    (h : n ≠ x ∨ s.heap.leaf x = true ∨ ∃ v, Fits s.heap.toGraph s.mem x v) :
    s'.mem.arr n = s.mem.arr n ∧ s'.mem.owns n = s.mem.owns n := by
  refine c.others n (fun y _ he => ?_) h
  rw [he] at hn
  exact absurd hn (Nat.not_lt.mpr (Heap.copyOf_ge s.heap x y))

theorem rawCopy_facts {h : Heap T} (sk : Skel h.toGraph) {m : Mem V} (hb : Bounded m)
    (lo : LeafOwn h.toGraph m) (lf : LeafFits V h.toGraph m) (x : Id) :
    LeafOwn (h.rawCopy x).toGraph (m.rawCopy h.toGraph x) ∧
    LeafFits V (h.rawCopy x).toGraph (m.rawCopy h.toGraph x) ∧
    Bounded (m.rawCopy h.toGraph x) ∧ m.next ≤ (m.rawCopy h.toGraph x).next ∧
    (∀ n, (∀ y, Anc h.toGraph x y → n ≠ h.copyOf x y) → (m.rawCopy h.toGraph x).arr n = m.arr n ∧
      (m.rawCopy h.toGraph x).owns n = m.owns n) ∧
    (∀ B i, B < m.next → (m.rawCopy h.toGraph x).cell B i = m.cell B i) ∧
    (∀ y, Anc h.toGraph x y → (m.rawCopy h.toGraph x).arr (h.copyOf x y) =
      if h.leaf y then some ⟨m.next + (h.toGraph.subtree x).idxOf y, 0, h.size y⟩ else none) ∧
    (∀ y, Anc h.toGraph x y → h.leaf y = true → ∀ i, i < h.size y →
      (m.rawCopy h.toGraph x).read (h.copyOf x y) i = m.read y i) := by
  have hnd := Hier.Graph.nodup_subtree sk x
  have hpk : ∀ n y, Anc h.toGraph x y → Hier.pick (h.toGraph.subtree x) n (n + (h.toGraph.subtree x).idxOf y) =
      some y := fun n y hy => (Hier.pick_some hnd).mpr ⟨sk.mem_subtree.mpr hy, rfl⟩
  have harr : ∀ y, Anc h.toGraph x y → (m.rawCopy h.toGraph x).arr (h.copyOf x y) =
      if h.leaf y then some ⟨m.next + (h.toGraph.subtree x).idxOf y, 0, h.size y⟩ else none := by
    intro y hy
    show (match Hier.pick (h.toGraph.subtree x) h.next (h.copyOf x y) with
      | none => m.arr (h.copyOf x y)
      | some y => if h.leaf y then some ⟨m.next + (h.toGraph.subtree x).idxOf y, 0, h.size y⟩ else none) = _
    rw [show Hier.pick (h.toGraph.subtree x) h.next (h.copyOf x y) = some y from hpk _ y hy]
  have hold : ∀ n, Hier.pick (h.toGraph.subtree x) h.next n = none →
      (m.rawCopy h.toGraph x).arr n = m.arr n ∧ (m.rawCopy h.toGraph x).owns n = m.owns n := by
    intro n hn
    constructor
    · show (match Hier.pick (h.toGraph.subtree x) h.next n with
        | none => m.arr n
        | some y => if h.leaf y then some ⟨m.next + (h.toGraph.subtree x).idxOf y, 0, h.size y⟩ else none) = _
      rw [hn]
    · show (match Hier.pick (h.toGraph.subtree x) h.next n with
        | none => m.owns n
        | some _ => false) = _
      rw [hn]
  refine ⟨?_, ?_, ?_, Nat.le_add_right _ _, ?_, ?_, harr, ?_⟩
  · intro i hl
    cases hp : Hier.pick (h.toGraph.subtree x) h.next i with
    | none =>
      rw [(hold i hp).2]
      apply lo
      have : (h.rawCopy x).leaf i = h.leaf i := by
        show h.lift x h.leaf h.leaf i = _
        unfold Heap.lift; rw [hp]
      rw [← this]; exact hl
    | some y =>
      show (match Hier.pick (h.toGraph.subtree x) h.next i with
        | none => m.owns i
        | some _ => false) = _
      rw [hp]
  · intro i hi hl
    rcases Heap.raw_below sk hi with hi | ⟨y, hy, rfl⟩
    · have e1 : (h.rawCopy x).leaf i = h.leaf i := Heap.lift_old _ _ hi
      have e2 : (h.rawCopy x).size i = h.size i := Heap.lift_old _ _ hi
      obtain ⟨v, h1, h2⟩ := lf i hi (by rw [← e1]; exact hl)
      exact ⟨v, (hold i (Hier.pick_none.mpr (.inl hi))).1.trans h1, h2.trans e2.symm⟩
    · have hl : (h.rawCopy x).leaf (h.copyOf x y) = true := hl
      rw [Heap.raw_leaf_new sk hy] at hl
      refine ⟨_, (harr y hy).trans (if_pos hl), ?_⟩
      exact (Heap.raw_size_new sk hy).symm
  · intro i v hv
    show v.buf < m.next + (h.toGraph.subtree x).length
    cases hp : Hier.pick (h.toGraph.subtree x) h.next i with
    | none =>
      rw [(hold i hp).1] at hv
      exact Nat.lt_of_lt_of_le (hb i v hv) (Nat.le_add_right _ _)
    | some y =>
      obtain ⟨h1, rfl⟩ := (Hier.pick_some hnd).mp hp
      have : (m.rawCopy h.toGraph x).arr (h.copyOf x y) = some v := hv
      rw [harr y (sk.mem_subtree.mp h1)] at this
      split at this
      · cases this
        exact Nat.add_lt_add_left (List.idxOf_lt_length_of_mem h1) _
      · cases this
  · intro n hn
    apply hold
    cases hp : Hier.pick (h.toGraph.subtree x) h.next n with
    | none => rfl
    | some y =>
      obtain ⟨h1, h2⟩ := (Hier.pick_some hnd).mp hp
      exact absurd h2 (hn y (sk.mem_subtree.mp h1))
  · intro B i hB
    show (match Hier.pick (h.toGraph.subtree x) m.next B with
      | none => m.cell B i
      | some y => if h.leaf y = true ∧ i < h.size y then m.read y i else m.cell B i) = _
    rw [Hier.pick_none.mpr (.inl hB)]
  · intro y hy hl i hi
    have e := (harr y hy).trans (if_pos hl)
    unfold Mem.read
    rw [Mem.view_eq e]
    show (match Hier.pick (h.toGraph.subtree x) m.next (m.next + (h.toGraph.subtree x).idxOf y) with
      | none => m.cell (m.next + (h.toGraph.subtree x).idxOf y) (0 + i)
      | some y => if h.leaf y = true ∧ 0 + i < h.size y then m.read y (0 + i) else _) = _
    rw [hpk m.next y hy, Nat.zero_add]
    simp only []
    rw [if_pos ⟨hl, hi⟩]
    rfl

/-- The object that is copied may get an array first. -/
def arrayRead (s : State V T) (x : Id) : Mem V :=
  if s.heap.leaf x then s.mem else s.mem.ensure s.heap.toGraph x

theorem arrayRead_facts {s : State V T} (l : Linked s) (hb : Bounded s.mem) (x : Id) :
    LeafOwn s.heap.toGraph (s.arrayRead x) ∧ LeafFits V s.heap.toGraph (s.arrayRead x) ∧
    Bounded (s.arrayRead x) ∧ s.mem.next ≤ (s.arrayRead x).next ∧ (s.arrayRead x).cell = s.mem.cell ∧
    (∀ n, (n ≠ x ∨ s.heap.leaf x = true ∨ ∃ v, Fits s.heap.toGraph s.mem x v) →
      (s.arrayRead x).arr n = s.mem.arr n ∧ (s.arrayRead x).owns n = s.mem.owns n) := by
  unfold arrayRead
  split
  · exact ⟨l.lo, l.fits, hb, le_refl _, rfl, fun _ _ => ⟨rfl, rfl⟩⟩
  rename_i hl
  refine ⟨Mem.ensure_leafOwn l.lo x, ?_, ?_, Mem.ensure_next _ _, Mem.ensure_cell _ _, ?_⟩
  · intro y hy hly
    obtain ⟨v, hv⟩ := l.fits y hy hly
    have hyx : y ≠ x := by rintro rfl; exact hl hly
    exact ⟨v, (Fits.congr (Mem.ensure_ne hyx).1).mpr hv⟩
  · rcases Mem.ensure_cases s.heap.toGraph s.mem x with ⟨h1, -⟩ | ⟨h1, -⟩
    · rw [h1]; exact hb
    · rw [h1]
      intro n v hv
      have hv : upd s.mem.arr x (some ⟨s.mem.next, 0, s.heap.toGraph.size x⟩) n = some v := hv
      show v.buf < s.mem.next + 1
      by_cases hnx : n = x
      · subst hnx; rw [upd_same] at hv; cases hv; exact Nat.lt_succ_self _
      · rw [upd_ne _ _ hnx] at hv
        exact Nat.lt_succ_of_lt (hb n v hv)
  · rintro n (h | h | ⟨v, h⟩)
    · exact Mem.ensure_ne h
    · exact absurd h hl
    · rw [Mem.ensure_fits h]; exact ⟨rfl, rfl⟩

theorem raw_graph (s : State V T) (x : Id) (sk : Skel s.heap.toGraph) (hx : x < s.heap.next) :
    (s.copy spoil x).1.heap.toGraph = (s.heap.rawCopy x).toGraph := by
  rw [(copy_heap spoil s x).1]
  obtain ⟨c, -⟩ := Heap.copy_copied sk hx
  obtain ⟨F, W, hB⟩ := Heap.beforeCopy_eq s.heap x
  rw [c.graph, hB]; rfl

theorem copy_mem_eq (s : State V T) (x : Id) :
    (s.copy spoil x).1.mem =
      (fun m : Mem V => if s.heap.leaf x then m else
        m.connect spoil (s.heap.rawCopy x).toGraph (s.heap.copyOf x x))
      (((s.arrayRead x).rawCopy s.heap.toGraph x).setstateF spoil
          (s.heap.rawCopy x).toGraph (s.heap.rawCopy x).toGraph.fuel (s.heap.copyOf x x)) := by
  rw [copy_mem]
  unfold arrayRead
  split <;> rfl

theorem anc_leaf {g : Graph} (sk : Skel g) {y z : Id} (hl : g.leaf y = true) (h : Anc g y z) : z = y := by
  by_contra hne
  obtain ⟨e, A, B, hk, -⟩ := Hier.Graph.Ins.child_above sk h (Ne.symm hne)
  rw [sk.leaf y hl] at hk
  exact absurd hk (by simp)

theorem copy_copyMem {s : State V T} (w : s.heap.WF) (l : Linked s) (hb : Bounded s.mem) {x : Id}
    (hx : x < s.heap.next) : CopyMem s (s.copy spoil x).1 x := by
  have sk := w.skel
  have sk' := Heap.raw_skel sk hx
  have z' : Sized (s.heap.rawCopy x).toGraph := Heap.raw_sized sk w.sized
  obtain ⟨a1, a2, a3, a4, a5, a6⟩ := arrayRead_facts l hb x
  obtain ⟨b1, b2, b3, b4, b5, b6, b7, -⟩ := rawCopy_facts sk a3 a1 a2 x
  set m1 := (s.arrayRead x).rawCopy s.heap.toGraph x with hm1
  set g' := (s.heap.rawCopy x).toGraph with hg'
  set c := s.heap.copyOf x x with hc
  let P : Mem V → Prop := fun m => LeafOwn g' m ∧ LeafFits V g' m ∧ Bounded m ∧ s.mem.next ≤ m.next ∧
    (∀ n, ¬ Anc g' c n → m.arr n = m1.arr n ∧ m.owns n = m1.owns n) ∧
    (∀ B i, B < s.mem.next → m.cell B i = s.mem.cell B i) ∧
    (∀ n v, Anc g' c n → m.arr n = some v → s.mem.next ≤ v.buf)
  have hP : ∀ m y, Anc g' c y → P m → P (m.connect spoil g' y) := by
    rintro m y hy ⟨p1, p2, p3, p4, p5, p6, p7⟩
    obtain ⟨q1, q2⟩ := connect_bounded spoil sk' z' p1 p3 y
    refine ⟨Mem.connect_lo sk' z' spoil p1 y, Mem.connect_fits sk' z' spoil p1 p2 y, q1,
      le_trans p4 q2, ?_, ?_, ?_⟩
    · intro n hn
      obtain ⟨e1, e2⟩ := Mem.connect_out sk' z' spoil p1 (fun h => hn (hy.trans h))
      rw [e1, e2]; exact p5 n hn
    · intro B i hB
      rw [connect_elsewhere spoil sk' z' p1 y (lt_of_lt_of_le hB p4) (fun n v hn hv => ?_), p6 B i hB]
      have := p7 n v (hy.trans hn) hv
      omega
    · intro n v hn hv
      by_cases hk : g'.kids y = []
      · rw [Mem.connect_nil spoil m hk] at hv; exact p7 n v hn hv
      obtain ⟨u, h1, h2, h3, -, h5, h6⟩ := Mem.connect_places sk' z' spoil p1 hk
      have hu : s.mem.next ≤ u.buf := by
        rcases h6 with ⟨h, -⟩ | ⟨-, h, -⟩
        · exact p7 y u hy h.1
        · exact le_trans p4 h
      by_cases hyn : Anc g' y n
      · by_cases hny : n = y
        · subst hny; rw [h1.1] at hv; cases hv; exact hu
        · obtain ⟨k, hk'⟩ := sk'.exists_at hyn
          rw [(h2 n k hk' hny).1] at hv; cases hv; exact hu
      · rw [(h3 n hyn).1] at hv; exact p7 n v hn hv
  have hP1 : P m1 := by
    refine ⟨b1, b2, b3, le_trans a4 b4, fun _ _ => ⟨rfl, rfl⟩, ?_, ?_⟩
    · intro B i hB
      rw [b6 B i (lt_of_lt_of_le hB a4), a5]
    · intro n v hn hv
      obtain ⟨y, hy, rfl⟩ := Heap.raw_anc_inv sk hn
      rw [b7 y hy] at hv
      split at hv
      · cases hv; exact le_trans a4 (Nat.le_add_right _ _)
      · cases hv
  have hP2 := Mem.setstateF_ind (spoil := spoil) sk' (P := P) g'.fuel m1 c
    (fun m y hy _ h => hP m y hy h) hP1
  have hgr := raw_graph spoil s x sk hx
  have hme := copy_mem_eq spoil s x
  rw [← hm1, ← hg', ← hc] at hme
  set m2 := m1.setstateF spoil g' g'.fuel c with hm2
  have hP3 : P (s.copy spoil x).1.mem := by
    rw [hme]
    simp only []
    split
    · exact hP2
    · exact hP _ c .refl hP2
  have hcalm : ∀ y, Anc s.heap.toGraph x y →
      Calm g' (s.copy spoil x).1.mem (s.heap.copyOf x y) := by
    intro y hy
    have hclt : c < g'.next := Heap.copyOf_lt sk .refl
    have hylt : s.heap.copyOf x y < g'.next := Heap.copyOf_lt sk hy
    by_cases hl : s.heap.leaf x = true
    · rw [anc_leaf sk hl hy] at hylt ⊢
      have hl' : g'.leaf (s.heap.copyOf x x) = true := (Heap.raw_leaf_new sk .refl).trans hl
      obtain ⟨v, hv⟩ := hP3.2.1 _ hylt hl'
      exact Mem.calm_leaf sk' hl' hv
    · have hl : s.heap.leaf x = false := by simpa using hl
      have : (s.copy spoil x).1.mem = m2.connect spoil g' c := by
        rw [hme]; simp only [hl]; rfl
      rw [this]
      exact Mem.connect_below sk' z' spoil hP2.1 hP2.2.1 hclt (Heap.raw_anc sk hy)
  obtain ⟨p1, p2, p3, p4, p5, p6, p7⟩ := hP3
  refine ⟨by rw [hgr]; exact p1, by rw [hgr]; exact p2, p3, p4, ?_, p6, ?_, by rw [hgr]; exact hcalm⟩
  · intro n hn h
    have hna : ¬ Anc g' c n := by
      intro ha
      obtain ⟨y, hy, he⟩ := Heap.raw_anc_inv sk ha
      exact hn y hy he
    rw [(p5 n hna).1, (p5 n hna).2, (b5 n hn).1, (b5 n hn).2]
    exact a6 n h
  · intro y v hy hv
    exact p7 _ v (Heap.raw_anc sk hy) hv

theorem copy_done_old {s : State V T} (w : s.heap.WF) {x n : Id} (hx : x < s.heap.next)
    (hn : n < s.heap.next) : Done (s.copy spoil x).1.heap n ↔ Done s.heap n := by
  rw [(copy_heap spoil s x).1]
  obtain ⟨c, -⟩ := Heap.copy_copied w.skel hx
  obtain ⟨F, W, hB⟩ := Heap.beforeCopy_eq s.heap x
  have hnB : n < (s.heap.beforeCopy x).next := by rw [hB]; exact hn
  unfold Done
  rw [c.inInit n hnB, c.inited n hnB, hB]

theorem copy_linked {s : State V T} (w : s.heap.WF) (l : Linked s) (hb : Bounded s.mem) {x : Id}
    (hx : x < s.heap.next) : Linked (s.copy spoil x).1 ∧ Bounded (s.copy spoil x).1.mem := by
  have cm := copy_copyMem spoil w l hb hx
  have sk := w.skel
  have hgr := raw_graph spoil s x sk hx
  refine ⟨⟨cm.lo, cm.fits, ?_⟩, cm.bounded⟩
  intro n hn hd
  have hn' : n < (s.heap.rawCopy x).next := by
    have : n < (s.copy spoil x).1.heap.toGraph.next := hn
    rw [hgr] at this; exact this
  rcases Heap.raw_below sk hn' with h1 | ⟨y, hy, rfl⟩
  · have hd0 := (copy_done_old spoil w hx h1).mp hd
    obtain ⟨b, o, h⟩ := l.calm n h1 hd0
    refine ⟨b, o, fun y k hy hpos => ?_⟩
    rw [hgr] at hy hpos ⊢
    obtain ⟨hylt, hy0⟩ := Heap.raw_at_old sk h1 hy
    have hsz : (s.heap.rawCopy x).size y = s.heap.size y := Heap.lift_old _ _ hylt
    have hpos0 : 0 < s.heap.toGraph.size y := by rw [← hsz]; exact hpos
    obtain ⟨h2, h3⟩ := h y k hy0 hpos0
    have hold := cm.old hylt (by
      by_cases hyx : y = x
      · subst hyx; exact .inr (.inr ⟨_, h2, rfl⟩)
      · exact .inl hyx)
    rw [hold.1, hold.2]
    exact ⟨h2.trans (by rw [show s.heap.toGraph.size y = (s.heap.rawCopy x).toGraph.size y from hsz.symm]),
      h3⟩
  · exact cm.calm y hy

/-- The calls of a user: those of `Heap.Admissible`, and assignments to existing elements of a `Param`
or of an object that has been initialised. -/
def Admissible (s : State V T) : Ev V T → Prop
  | .heap e => s.heap.Admissible e
  | .write x i _ => x < s.heap.next ∧ i < s.heap.size x ∧ (s.heap.leaf x = true ∨ Done s.heap x)

/-- States reached by admissible calls, whatever the contents of unused and freed memory. -/
inductive Reach (spoil : Nat → Nat → V) : State V T → Prop
  | empty (cell : Nat → Nat → V) : Reach spoil (empty cell)
  | step {s : State V T} {e : Ev V T} : Reach spoil s → s.Admissible e → Reach spoil (s.exec spoil e).1
  | copy {s : State V T} {x : Id} : Reach spoil s → s.heap.CopyOK x → Reach spoil (s.copy spoil x).1

theorem Reach.heap {spoil : Nat → Nat → V} {s : State V T} (h : Reach spoil s) : s.heap.Reach := by
  induction h with
  | empty cell => exact .empty
  | @step s e _ ha ih =>
    cases e with
    | heap e => rw [(exec_heap spoil s e).1]; exact .step ih ha
    | write x i v => exact ih
  | @copy s x _ ok ih => rw [(copy_heap spoil s x).1]; exact ih.copy ok

theorem same_linked {s : State V T} (l : Linked s) {h' : Heap T} (e : Heap.Same s.heap h') :
    Linked (⟨h', s.mem⟩ : State V T) := by
  constructor
  · show LeafOwn h'.toGraph _; rw [e.graph]; exact l.lo
  · show LeafFits V h'.toGraph _; rw [e.graph]; exact l.fits
  · intro n hn hd
    have hn : n < h'.toGraph.next := hn
    show Calm h'.toGraph _ n
    rw [e.graph] at hn ⊢
    exact l.calm n hn ⟨by rw [← e.inInit]; exact hd.1, by rw [← e.inited]; exact hd.2⟩

theorem Reach.linked_bounded {spoil : Nat → Nat → V} {s : State V T} (h : Reach spoil s) :
    Linked s ∧ Bounded s.mem := by
  induction h with
  | empty cell =>
    exact ⟨⟨fun y _ => rfl, fun y hy _ => absurd hy (Nat.not_lt_zero _),
      fun n hn _ => absurd hn (Nat.not_lt_zero _)⟩, fun n v hv => by cases hv⟩
  | @copy s x hr ok ih => exact copy_linked spoil hr.heap.inv.1 ih.1 ih.2 ok.lt
  | @step s e hr ha ih =>
    obtain ⟨ih, hb⟩ := ih
    have w := hr.heap.inv.1
    cases e with
    | write x i v => exact ⟨⟨ih.lo, ih.fits, ih.calm⟩, hb⟩
    | heap e =>
      cases e with
      | newParam n =>
        refine ⟨newObj_linked w ih true n false _ (fun y hy => upd_ne _ _ hy) (fun y hy => upd_ne _ _ hy)
          (fun _ => ⟨upd_same _ _ _, upd_same _ _ _⟩), ?_⟩
        intro y v hv
        have hv : upd s.mem.arr s.heap.next (some ⟨s.mem.next, 0, n⟩) y = some v := hv
        show v.buf < s.mem.next + 1
        by_cases hy : y = s.heap.next
        · subst hy; rw [upd_same] at hv; cases hv; exact Nat.lt_succ_self _
        · rw [upd_ne _ _ hy] at hv
          exact Nat.lt_succ_of_lt (hb y v hv)
      | newNode =>
        exact ⟨newObj_linked w ih false 0 true s.mem (fun y _ => rfl) (fun y _ => rfl) (fun h => by cases h),
          hb⟩
      | finishInit x i =>
        refine ⟨finishInit_linked spoil w ih ha.1 i, ?_⟩
        have w1 := (Heap.finishInit_wf w ha.1 false).1
        show Bounded (s.finishInit spoil x i).mem
        unfold finishInit
        cases i with
        | false => exact hb
        | true =>
          exact initialize_bounded spoil (s := s.on fun h =>
            { h with inInit := upd h.inInit x false, inited := upd h.inited x (some false) }) w1 ih.lo hb x
      | init x =>
        exact ⟨initialize_linked spoil w ih ha, initialize_bounded spoil w ih.lo hb x⟩
      | link p x index => exact ⟨link_linked spoil w ih ha, link_bounded spoil w ih hb ha⟩
      | unlink q x =>
        refine ⟨unlink_linked spoil w ih q x, ?_⟩
        show Bounded (s.unlink spoil q x).1.mem
        unfold unlink
        split
        · exact hb
        · split
          · rename_i hx
            obtain ⟨A, B, hk⟩ := List.append_of_mem hx
            exact unlinkChild_bounded spoil w ih hb hk
          · exact hb
      | constrain x c => exact ⟨same_linked ih ((Heap.constraining_wf w ha).1 c).2, hb⟩
      | unconstrain x cs => exact ⟨same_linked ih ((Heap.constraining_wf w ha).2.1 cs).2, hb⟩
      | fix x => exact ⟨same_linked ih (Heap.constraining_wf w ha).2.2.1.2, hb⟩
      | unfix x => exact ⟨same_linked ih (Heap.constraining_wf w ha).2.2.2.2, hb⟩

theorem Reach.linked {spoil : Nat → Nat → V} {s : State V T} (h : Reach spoil s) : Linked s :=
  h.linked_bounded.1

theorem Reach.bounded {spoil : Nat → Nat → V} {s : State V T} (h : Reach spoil s) : Bounded s.mem :=
  h.linked_bounded.2

end State

end Paramz.Memory

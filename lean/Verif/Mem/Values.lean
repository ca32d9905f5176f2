import Verif.Mem.Tidy

/-!
# C35: linking and unlinking and the values of `Param`s
-/

set_option linter.unusedSectionVars false

namespace Paramz.Memory

open Hier (Id Graph Heap upd upd_same upd_ne)
open Hier.Graph (Skel Sized At Anc Ins)

theorem anc_of_parents {g g' : Graph} (h : g'.parent = g.parent) {y z : Id} (ha : Anc g y z) :
    Anc g' y z := by
  induction ha with
  | refl => exact .refl
  | step _ hp ih => exact .step ih (by rw [h]; exact hp)

namespace State

variable {V T : Type} [DecidableEq T] {spoil : Nat → Nat → V}

theorem newObj_tidy {s : State V T} (w : s.heap.WF) (t : Tidy s) {leaf : Bool} {size : Nat}
    {ii : Bool} {m' : Mem V} (ha : ∀ y, y ≠ s.heap.next → m'.arr y = s.mem.arr y)
    (hn : s.mem.next ≤ m'.next) (l' : Linked (⟨s.heap.newObj leaf size ii, m'⟩ : State V T))
    (hnew : leaf = true ∧ m'.arr s.heap.next = some ⟨s.mem.next, 0, size⟩ ∧ s.mem.next < m'.next ∨
      leaf = false ∧ m'.arr s.heap.next = none) :
    Tidy (⟨s.heap.newObj leaf size ii, m'⟩ : State V T) := by
  have hpn : s.heap.parent s.heap.next = none := by
    cases hp : s.heap.parent s.heap.next with
    | none => rfl
    | some p => exact absurd (w.skel.alloc _ _ hp).1 (Nat.lt_irrefl _)
  have hkn : s.heap.kids s.heap.next = [] := by
    apply List.eq_nil_iff_forall_not_mem.mpr
    intro c hc
    exact absurd (w.skel.alloc _ _ ((w.skel.mem_iff _ _).mp hc)).2 (Nat.lt_irrefl _)
  have e1 : (s.heap.newObj leaf size ii).parent = s.heap.parent := by
    funext y
    show upd s.heap.parent s.heap.next none y = _
    by_cases hy : y = s.heap.next
    · subst hy; rw [upd_same, hpn]
    · rw [upd_ne _ _ hy]
  have e2 : (s.heap.newObj leaf size ii).kids = s.heap.kids := by
    funext y
    show upd s.heap.kids s.heap.next [] y = _
    by_cases hy : y = s.heap.next
    · subst hy; rw [upd_same, hkn]
    · rw [upd_ne _ _ hy]
  have e3 : ∀ y, y ≠ s.heap.next → (s.heap.newObj leaf size ii).size y = s.heap.size y :=
    fun y hy => upd_ne _ _ hy
  have e4 : ∀ y, y ≠ s.heap.next → (s.heap.newObj leaf size ii).leaf y = s.heap.leaf y :=
    fun y hy => upd_ne _ _ hy
  have e5 : ∀ y, y ≠ s.heap.next → (s.heap.newObj leaf size ii).inited y = s.heap.inited y :=
    fun y hy => upd_ne _ _ hy
  have e6 : ∀ y, y ≠ s.heap.next → (s.heap.newObj leaf size ii).inInit y = s.heap.inInit y :=
    fun y hy => upd_ne _ _ hy
  have e7 : (s.heap.newObj leaf size ii).inited s.heap.next = none := upd_same _ _ _
  have e8 : (s.heap.newObj leaf size ii).leaf s.heap.next = leaf := upd_same _ _ _
  have e9 : (s.heap.newObj leaf size ii).next = s.heap.next + 1 := rfl
  generalize hh : s.heap.newObj leaf size ii = h' at *
  have hanc : ∀ y z, Anc h'.toGraph y z → Anc s.heap.toGraph y z :=
    fun y z h => anc_of_parents (g := h'.toGraph) e1.symm h
  have hanc' : ∀ y z, Anc s.heap.toGraph y z → Anc h'.toGraph y z :=
    fun y z h => anc_of_parents (g' := h'.toGraph) e1 h
  have hhas : ∀ n B i, n ≠ s.heap.next → Has h'.toGraph m' n B i → Has s.heap.toGraph s.mem n B i := by
    rintro n B i hne ⟨v, h1, h2, h3⟩
    exact ⟨v, (ha n hne).symm.trans h1, h2.trans (e3 n hne), h3⟩
  have hbuf : ∀ B i, Has h'.toGraph m' s.heap.next B i → B = s.mem.next := by
    rintro B i ⟨v, h1, -, h3, -⟩
    rcases hnew with ⟨-, h4, -⟩ | ⟨-, h4⟩
    · rw [h4] at h1; cases h1; exact h3.symm
    · rw [h4] at h1; cases h1
  have hlow : ∀ n B i, n ≠ s.heap.next → Has h'.toGraph m' n B i → B < s.mem.next := by
    rintro n B i hne h
    obtain ⟨v, h1, -, h3, -⟩ := hhas n B i hne h
    rw [← h3]; exact t.sound.bd n v h1
  refine ⟨⟨l'.lo, l'.fits, ?_, ?_⟩, ?_, ?_, ?_⟩
  · intro n y B i hl h1 h2
    by_cases hn : n = s.heap.next
    · by_cases hy : y = s.heap.next
      · subst hn; subst hy; exact .refl
      · subst hn
        have := hbuf B i h1
        have := hlow y B i hy h2
        omega
    · by_cases hy : y = s.heap.next
      · subst hy
        have := hbuf B i h2
        have := hlow n B i hn h1
        omega
      · have hl : h'.leaf y = true := hl
        rw [e4 y hy] at hl
        exact hanc' _ _ (t.sound.sep n y B i hl (hhas n B i hn h1) (hhas y B i hy h2))
  · intro n v hv
    by_cases hne : n = s.heap.next
    · subst hne
      have hv : m'.arr s.heap.next = some v := hv
      rcases hnew with ⟨-, h4, h5⟩ | ⟨-, h4⟩
      · rw [h4] at hv; cases hv; exact h5
      · rw [h4] at hv; cases hv
    · have hv : m'.arr n = some v := hv
      rw [ha n hne] at hv
      exact lt_of_lt_of_le (t.sound.bd n v hv) hn
  · intro n v hv
    show n < h'.next
    rw [e9]
    by_cases hne : n = s.heap.next
    · subst hne; exact Nat.lt_succ_self _
    · have hv : m'.arr n = some v := hv
      rw [ha n hne] at hv
      exact Nat.lt_succ_of_lt (t.born n v hv)
  · intro n hlt
    have hlt : n < h'.next := hlt
    rw [e9] at hlt
    by_cases hne : n = s.heap.next
    · subst hne
      rcases hnew with ⟨h3, -⟩ | ⟨-, h4⟩
      · exact .inl (.inl (e8.trans h3))
      · refine .inr ⟨?_, ?_, h4⟩
        · show h'.parent s.heap.next = none
          rw [e1]; exact hpn
        · show h'.inited s.heap.next ≠ some true
          rw [e7]; simp
    · rcases t.kind n (by omega) with (h1 | h1) | ⟨h1, h2, h3⟩
      · exact .inl (.inl ((e4 n hne).trans h1))
      · exact .inl (.inr ⟨(e6 n hne).trans h1.1, (e5 n hne).trans h1.2⟩)
      · refine .inr ⟨?_, ?_, (ha n hne).trans h3⟩
        · show h'.parent n = none
          rw [e1]; exact h1
        · show h'.inited n ≠ some true
          rw [e5 n hne]; exact h2
  · intro r n hp hd hanc1 hl hk
    have hrne : r ≠ s.heap.next := by
      rintro rfl
      have : h'.inited s.heap.next = some true := hd.2
      rw [e7] at this; cases this
    have h1 := hanc _ _ hanc1
    have hne : n ≠ s.heap.next := by
      rintro rfl
      exact hrne ((Hier.Graph.anc_root hpn).mp h1)
    obtain ⟨v, hv1, hv2⟩ := t.full r n (by rw [← e1]; exact hp)
      ⟨(e6 r hrne).symm.trans hd.1, (e5 r hrne).symm.trans hd.2⟩ h1 ((e4 n hne).symm.trans hl)
      (by rw [← e2]; exact hk)
    exact ⟨v, (ha n hne).trans hv1, hv2.trans (e3 n hne).symm⟩

theorem same_tidy {s : State V T} (t : Tidy s) {h' : Heap T} (e : Heap.Same s.heap h') :
    Tidy (⟨h', s.mem⟩ : State V T) := by
  have hd : ∀ n, Done h' n ↔ Done s.heap n := fun n => by
    unfold Done; rw [e.inInit, e.inited]
  obtain ⟨t1, t2, t3, t4⟩ := t
  refine ⟨?_, ?_, ?_, ?_⟩
  · show Sound h'.toGraph s.mem
    rw [e.graph]; exact t1
  · show ∀ n v, s.mem.arr n = some v → n < h'.toGraph.next
    rw [e.graph]; exact t2
  · intro n hn
    have hn : n < h'.toGraph.next := hn
    rw [e.graph] at hn
    rcases t3 n hn with (h1 | h1) | ⟨h1, h2, h3⟩
    · exact .inl (.inl (by show h'.toGraph.leaf n = true; rw [e.graph]; exact h1))
    · exact .inl (.inr ((hd n).mpr h1))
    · refine .inr ⟨?_, ?_, h3⟩
      · show h'.toGraph.parent n = none
        rw [e.graph]; exact h1
      · show h'.inited n ≠ some true
        rw [e.inited]; exact h2
  · show ∀ r n, h'.toGraph.parent r = none → Done h' r → Anc h'.toGraph r n → h'.toGraph.leaf n = false →
      (n ≠ r ∨ h'.toGraph.kids n ≠ []) → ∃ v, Fits h'.toGraph s.mem n v
    rw [e.graph]
    intro r n h1 h2
    exact t4 r n h1 ((hd r).mp h2)

/-- What is asked of the calls of a history for C35: objects are linked only after they have been
initialised; a parameter is only taken out of an initialised hierarchy; a root that has lost its last
parameter is not given one of the same size next (`Room`); `initialize_parameter` is not called from
inside the constructor of the root. -/
def Proper (s : State V T) : Ev V T → Prop
  | .heap (.link p x _) => Settled s.heap x ∧ Room s p x ∧
      ∀ q, s.heap.parent x = some q → Done s.heap (s.heap.toGraph.highest q)
  | .heap (.unlink q _) => Done s.heap (s.heap.toGraph.highest q)
  | .heap (.finishInit x _) => s.heap.inInit x = true
  | .heap (.init x) => s.heap.inInit (s.heap.toGraph.highest x) = false
  | _ => True

/-- The `Param`s whose values a call may destroy: those below the same child of a child of the root as
the object linked to, or as the parent of the object unlinked from. -/
def AtRisk (spoil : Nat → Nat → V) (s : State V T) (y : Id) : Ev V T → Prop
  | .heap (.link p x index) =>
      BelowGrandchild (s.link spoil p x index).1.heap.toGraph p y ∨
      ∃ q q', s.heap.parent x = some q ∧ s.heap.parent q = some q' ∧
        BelowGrandchild s.heap.toGraph q' y ∧ ¬ Anc s.heap.toGraph x y
  | .heap (.unlink q x) => ∃ q', s.heap.parent q = some q' ∧ BelowGrandchild s.heap.toGraph q' y ∧
      ¬ Anc s.heap.toGraph x y
  | _ => False

theorem link_tidy {s : State V T} (w : s.heap.WF) (l : Linked s) (t : Tidy s) {p x : Id}
    {index : Option Int} (ok : Heap.LinkOK s.heap p x index)
    (hp : s.Proper (.heap (.link p x index))) :
    Tidy (s.link spoil p x index).1 ∧
    ∀ y, s.heap.leaf y = true → y < s.heap.next → ¬ s.AtRisk spoil y (.heap (.link p x index)) →
      SameValues s (s.link spoil p x index).1 y := by
  obtain ⟨hx, hroom, hq⟩ := hp
  unfold AtRisk
  rcases link_cases spoil w p x index with ⟨marks, he⟩ | ⟨hl, hpx, he⟩ | ⟨q, marks, A, B, hl, hk, he⟩
  · rw [he]
    exact ⟨⟨t.sound, t.born, t.kind, t.full⟩, fun y _ _ _ i _ => rfl⟩
  · rw [he]
    obtain ⟨h1, h2⟩ := linkRoot_tidy (spoil := spoil) w l t ok hl hpx hx (by
      rcases hroom with h | ⟨c, hc, -⟩ | h
      · exact .inl h
      · right; left; intro h; rw [h] at hc; cases hc
      · exact .inr (.inr h))
    exact ⟨h1, fun y hly hlt hd => h2 y hly hlt (fun h => hd (.inl (by rw [he]; exact h)))⟩
  · rw [he]
    have hpar : s.heap.parent x = some q := w.skel.parent_of hk
    have hdq := hq q hpar
    have w0 : (s.on fun h => { h with visited := marks }).heap.WF := w.visited marks
    have l0 : Linked (s.on fun h => { h with visited := marks }) := ⟨l.lo, l.fits, l.calm⟩
    have t0 : Tidy (s.on fun h => { h with visited := marks }) := ⟨t.sound, t.born, t.kind, t.full⟩
    have ok0 : Heap.LinkOK (s.on fun h => { h with visited := marks }).heap p x index :=
      ⟨ok.1, ok.2, ok.3, ok.4, ok.5⟩
    have hr0 : Room (s.on fun h => { h with visited := marks }) p x := hroom
    have hx0 : Settled (s.on fun h => { h with visited := marks }).heap x := hx
    have hv : ∀ y, SameValues s (s.on fun h => { h with visited := marks }) y := fun _ _ _ => rfl
    have hg : s.heap.toGraph = (s.on fun h => { h with visited := marks }).heap.toGraph := rfl
    have hd0 : Done (s.on fun h => { h with visited := marks }).heap
      ((s.on fun h => { h with visited := marks }).heap.toGraph.highest q) := hdq
    have hk0 : (s.on fun h => { h with visited := marks }).heap.kids q = A ++ x :: B := hk
    have hl0 : (s.on fun h => { h with visited := marks }).heap.leaf p = false := hl
    generalize (s.on fun h => { h with visited := marks }) = s0 at *
    obtain ⟨w1, i, -, -, -, -, -⟩ := Heap.unlinkChild_wf (h := s0.heap) w0 hk0
    obtain ⟨t1, v1⟩ := unlinkChild_tidy (spoil := spoil) w0 l0 t0 hk0 hd0
    have l1 := unlinkChild_linked spoil w0 l0 hk0
    have hpx1 : (s0.unlinkChild spoil q x).heap.parent x = none := i.root
    have hleaf1 : (s0.unlinkChild spoil q x).heap.leaf = s0.heap.leaf := by
      rw [unlinkChild_heap]
      exact (show s0.heap.leaf = (s0.heap.unlinkChild q x).leaf from i.leaf).symm
    have hl1 : (s0.unlinkChild spoil q x).heap.leaf p = false := by rw [hleaf1]; exact hl0
    have hx1 : Settled (s0.unlinkChild spoil q x).heap x := by
      rcases hx0 with h | h
      · exact .inl (by rw [hleaf1]; exact h)
      · exact .inr (unlinkChild_done w0 hk0 h).1
    have hpne : p ≠ x := by rintro rfl; exact ok0.outside .refl
    have hsx : (s0.heap.unlinkChild q x).size x = s0.heap.size x :=
      (i.size_not x i.notanc).symm
    have hparx : s0.heap.parent x = some q := by
      rw [show s0.heap.parent x = s.heap.parent x by rw [hg]]; exact hpar
    have hqlt : q < s0.heap.next := (w0.skel.alloc _ _ hparx).2
    obtain ⟨hrr, hra⟩ := w0.skel.highest_spec q
    have hroom1 : (s0.unlinkChild spoil q x).heap.parent p ≠ none ∨
        (s0.unlinkChild spoil q x).heap.kids p ≠ [] ∨ (s0.unlinkChild spoil q x).heap.size x = 0 ∨
        ∀ v, (s0.unlinkChild spoil q x).mem.arr p = some v →
          v.len ≠ (s0.unlinkChild spoil q x).heap.size x := by
      rw [unlinkChild_heap, hsx]
      rcases hr0 with h | ⟨c, hc, hcx⟩ | h | h
      · left
        rw [← show s0.heap.parent p = (s0.heap.unlinkChild q x).parent p from i.parent_ne p hpne]
        exact h
      · right; left
        intro hk9
        by_cases hpq : p = q
        · subst hpq
          have h3 : s0.heap.kids p = A ++ x :: B := hk0
          have h4 : (s0.heap.unlinkChild p x).kids p = A ++ B := i.kids_p
          rw [h4] at hk9
          rw [h3] at hc
          rw [List.append_eq_nil_iff] at hk9
          rw [hk9.1, hk9.2] at hc
          simp only [List.nil_append, List.mem_singleton] at hc
          exact hcx hc
        · rw [← show s0.heap.kids p = (s0.heap.unlinkChild q x).kids p from i.kids_ne p hpq] at hk9
          rw [hk9] at hc; cases hc
      · exact .inr (.inr (.inl h))
      · by_cases hpn : s0.heap.parent p = none
        · by_cases hz : s0.heap.size x = 0
          · exact .inr (.inr (.inl hz))
          by_cases hpr : p = s0.heap.toGraph.highest q
          · by_cases hkp : (s0.heap.unlinkChild q x).kids p = []
            · -- `p` has just lost its last parameter, and its array has the size of `x`
              exfalso
              have hpq : p = q := by
                by_contra hpq
                rw [← hpr] at hra
                obtain ⟨e, A', B', hk', -⟩ := Hier.Graph.Ins.child_above w0.skel hra hpq
                rw [← show s0.heap.kids p = (s0.heap.unlinkChild q x).kids p from i.kids_ne p hpq] at hkp
                rw [show s0.heap.toGraph.kids p = [] from hkp] at hk'
                exact absurd hk' (by simp)
              subst hpq
              rw [← hpr] at hd0
              obtain ⟨v, hv1, hv2⟩ := t0.full p p hpn hd0 .refl hl0 (.inr (by rw [hk0]; simp))
              refine h v hv1 ?_
              rw [hv2]
              have h4 : (s0.heap.unlinkChild p x).kids p = A ++ B := i.kids_p
              rw [h4] at hkp
              have hlp : (s0.heap.unlinkChild p x).toGraph.leaf p = false := i.node
              have h5 := w1.sized p hlp
              rw [show (s0.heap.unlinkChild p x).toGraph.kids p = [] from by rw [h4]; exact hkp,
                Hier.Graph.sizeSum_nil] at h5
              have h6 := i.size_anc p .refl
              rw [h5, Nat.zero_add] at h6
              exact h6.trans hsx
            · exact .inr (.inl hkp)
          · right; right; right
            intro v hv9
            refine h v ?_
            rw [← hv9, unlinkChild_mem spoil w0 hk0]
            have hparp : (s0.heap.unlinkChild q x).toGraph.parent p = none := by
              rw [← i.parent_ne p hpne]; exact hpn
            have ha1 : ¬ Anc (s0.heap.unlinkChild q x).toGraph (s0.heap.toGraph.highest q) p :=
              fun h => hpr ((Hier.Graph.anc_root hparp).mp h).symm
            have ha2 : ¬ Anc (s0.heap.unlinkChild q x).toGraph q p :=
              fun h => ha1 ((i.anc_p.mp hra).trans h)
            have lo0 : LeafOwn (s0.heap.unlinkChild q x).toGraph s0.mem :=
              leafOwn_congr l0.lo i.leaf.symm rfl
            have lo1 := Mem.connect_lo w1.skel w1.sized spoil lo0 q
            have lo2 := Mem.connect_lo w1.skel w1.sized spoil lo1 q
            rw [(Mem.connect_out w1.skel w1.sized spoil lo2 ha1).1,
              (Mem.connect_out w1.skel w1.sized spoil lo1 ha2).1,
              (Mem.connect_out w1.skel w1.sized spoil lo0 ha2).1]
        · left
          rw [← show s0.heap.parent p = (s0.heap.unlinkChild q x).parent p from i.parent_ne p hpne]
          exact hpn
    obtain ⟨t2, v2⟩ := linkRoot_tidy (spoil := spoil) (s := s0.unlinkChild spoil q x) w1 l1 t1
      (ok0.unlink w0 hk0) hl1 hpx1 hx1 hroom1
    refine ⟨t2, fun y hly hlt hrisk => ?_⟩
    have hly0 : s0.heap.leaf y = true := by
      rw [show s0.heap.leaf y = s.heap.leaf y by rw [hg]]; exact hly
    have hlt0 : y < s0.heap.next := by
      rw [show s0.heap.next = s.heap.next by rw [hg]]; exact hlt
    have hs1 : SameValues s0 (s0.unlinkChild spoil q x) y := by
      refine v1 y hly0 hlt0 (fun hd => hrisk (.inr ?_))
      obtain ⟨q', a, b, c⟩ := hd
      refine ⟨q, q', hpar, ?_, ?_, ?_⟩
      · rw [show s.heap.parent q = s0.heap.parent q by rw [hg]]; exact a
      · rw [hg]; exact b
      · rw [hg]; exact c
    have hs2 := v2 y (by rw [hleaf1]; exact hly0) (by
      rw [unlinkChild_heap, ← show s0.heap.next = (s0.heap.unlinkChild q x).next from i.next]
      exact hlt0) (fun h => hrisk (.inl (by rw [he]; exact h)))
    have hsz : (s0.unlinkChild spoil q x).heap.size y = s0.heap.size y := by
      rw [unlinkChild_heap]
      refine (i.size_not y (leaf_not_above w1.skel ?_ i.node)).symm
      rw [← i.leaf]; exact hly0
    intro j hj
    have hj0 : j < s0.heap.size y := by
      rw [show s0.heap.size y = s.heap.size y by rw [hg]]; exact hj
    rw [hs2 j (by rw [hsz]; exact hj0), hs1 j hj0, hv y j hj]

end State

end Paramz.Memory

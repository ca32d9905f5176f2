import Verif.Mem.Moves
import Verif.Mem.Props

/-!
# Histories in which every object is either initialised or an empty-handed root

The invariant behind C35.
-/

set_option linter.unusedSectionVars false

namespace Paramz.Memory

open Hier (Id Graph Heap upd upd_same upd_ne)
open Hier.Graph (Skel Sized At Anc Ins)

variable {V T : Type}

/-- A `Param`, or an initialised object. -/
def Settled (h : Heap T) (n : Id) : Prop := h.leaf n = true ∨ Done h n

/-- An object that has not been initialised: it is in no hierarchy and has no array yet. -/
def Unready (s : State V T) (n : Id) : Prop :=
  s.heap.parent n = none ∧ s.heap.inited n ≠ some true ∧ s.mem.arr n = none

/-- The invariant. -/
structure Tidy (s : State V T) : Prop where
  sound : Sound s.heap.toGraph s.mem
  born : ∀ n v, s.mem.arr n = some v → n < s.heap.next
  kind : ∀ n, n < s.heap.next → Settled s.heap n ∨ Unready s n
  full : ∀ r n, s.heap.parent r = none → Done s.heap r → Anc s.heap.toGraph r n →
    s.heap.leaf n = false → (n ≠ r ∨ s.heap.kids n ≠ []) → ∃ v, Fits s.heap.toGraph s.mem n v

/-- The array of a root that has lost its last parameter must not happen to have the size of the one
linked next. -/
def Room (s : State V T) (p x : Id) : Prop :=
  s.heap.parent p ≠ none ∨ (∃ c ∈ s.heap.kids p, c ≠ x) ∨ s.heap.size x = 0 ∨
    ∀ v, s.mem.arr p = some v → v.len ≠ s.heap.size x

/-- `p` and `y` lie below the same child of a child of a root. -/
def BelowGrandchild (g : Graph) (p y : Id) : Prop :=
  ∃ r e c, g.parent r = none ∧ g.parent e = some r ∧ g.parent c = some e ∧ Anc g c p ∧ Anc g c y

section
variable {g g' : Graph} {p x : Id} {A B : List Id}

theorem lt_of_anc (s : Skel g) {r n : Id} (hr : r < g.next) (h : Anc g r n) : n < g.next := by
  cases h with
  | refl => exact hr
  | step _ hp => exact (s.alloc _ _ hp).1

theorem connect_born (s : Skel g) (z : Sized g) (spoil : Nat → Nat → V) {m : Mem V} (lo : LeafOwn g m)
    {r : Id} (hr : r < g.next) (hb : ∀ n v, m.arr n = some v → n < g.next) :
    ∀ n v, (m.connect spoil g r).arr n = some v → n < g.next := by
  intro n v hv
  by_cases ha : Anc g r n
  · exact lt_of_anc s hr ha
  · rw [(Mem.connect_out s z spoil lo ha).1] at hv
    exact hb n v hv

/-- After connecting a root every object below it has an array of its size. -/
theorem connect_full (s : Skel g) (z : Sized g) (spoil : Nat → Nat → V) {m : Mem V} (lo : LeafOwn g m)
    {r n : Id} (hn : Anc g r n) (hk : n ≠ r ∨ g.kids n ≠ []) :
    ∃ v, Fits g (m.connect spoil g r) n v := by
  have hkr : g.kids r ≠ [] := by
    by_cases hne : n = r
    · subst hne
      rcases hk with h | h
      · exact absurd rfl h
      · exact h
    · obtain ⟨e, A', B', hk', -⟩ := Hier.Graph.Ins.child_above s hn (fun h => hne h.symm)
      rw [hk']; simp
  obtain ⟨w, h1, h2, -⟩ := Mem.connect_places s z spoil lo hkr
  by_cases hne : n = r
  · subst hne; exact ⟨w, h1⟩
  · obtain ⟨k, hk'⟩ := s.exists_at hn
    exact ⟨_, (h2 n k hk' hne).1, rfl⟩

theorem root_apart {r r' n : Id} (hr : g.parent r = none) (hr' : g.parent r' = none)
    (hne : r' ≠ r) (h : Anc g r' n) : ¬ Anc g r n := by
  intro h'
  rcases h.total h' with h1 | h1
  · exact hne ((Hier.Graph.anc_root hr).mp h1)
  · exact hne ((Hier.Graph.anc_root hr').mp h1).symm

/-- Hierarchies other than that of the insertion point. -/
theorem ins_apart (i : Ins g g' p x A B) {r r' n : Id} (hr : g'.parent r = none)
    (hrp : Anc g' r p) (hr' : g'.parent r' = none) (hne : r' ≠ r) (h : Anc g' r' n) :
    ¬ Anc g' r n ∧ n ≠ p ∧ Anc g r' n ∧ g.parent r' = none ∧ g'.kids n = g.kids n ∧
      g'.size n = g.size n := by
  have h1 := root_apart hr hr' hne h
  have hnp : n ≠ p := by rintro rfl; exact h1 hrp
  have hx : ¬ Anc g x n := fun hx =>
    h1 ((hrp.trans (Anc.of_parent i.parent_x)).trans (i.anc_mono hx))
  have hrx : r' ≠ x := by rintro rfl; rw [i.parent_x] at hr'; cases hr'
  refine ⟨h1, hnp, i.anc_of h hx, by rw [← i.parent_ne r' hrx]; exact hr', i.kids_ne n hnp, ?_⟩
  refine i.size_not n (fun ha => ?_)
  rcases (h.trans (i.anc_p.mpr ha)).total hrp with h2 | h2
  · exact hne ((Hier.Graph.anc_root hr).mp h2)
  · exact hne ((Hier.Graph.anc_root hr').mp h2).symm

end

namespace State

variable [DecidableEq T] {spoil : Nat → Nat → V}

/-- Reading the elements of a `Param` gives the same before and after. -/
def SameValues (s s' : State V T) (y : Id) : Prop :=
  ∀ i, i < s.heap.size y → s'.mem.read y i = s.mem.read y i

theorem settled_calm {s : State V T} (w : s.heap.WF) (l : Linked s) {n : Id} (hn : n < s.heap.next)
    (h : Settled s.heap n) : Calm s.heap.toGraph s.mem n := by
  rcases h with h | h
  · obtain ⟨v, hv⟩ := l.fits n hn h
    exact Mem.calm_leaf w.skel h hv
  · exact l.calm n hn h

theorem calm_below {s : State V T} (w : s.heap.WF) {r n : Id} (h : Calm s.heap.toGraph s.mem r)
    (hn : Anc s.heap.toGraph r n) : Calm s.heap.toGraph s.mem n := by
  obtain ⟨b, o, h⟩ := h
  obtain ⟨k, hk⟩ := w.skel.exists_at hn
  exact ⟨b, o + k, CalmAt.child w.skel h hk⟩

theorem unlinkChild_tidy {s : State V T} (w : s.heap.WF) (l : Linked s) (t : Tidy s) {q x : Id}
    {A B : List Id} (hk : s.heap.kids q = A ++ x :: B) (hd : Done s.heap (s.heap.toGraph.highest q)) :
    Tidy (s.unlinkChild spoil q x) ∧
    ∀ y, s.heap.leaf y = true → y < s.heap.next →
      ¬ (∃ q', s.heap.parent q = some q' ∧ BelowGrandchild s.heap.toGraph q' y ∧
        ¬ Anc s.heap.toGraph x y) →
      SameValues s (s.unlinkChild spoil q x) y := by
  obtain ⟨w1, i, hii, -, hj, hjo, -⟩ := Heap.unlinkChild_wf w hk
  have hmem := unlinkChild_mem spoil w hk
  have hpar : s.heap.parent x = some q := w.skel.parent_of hk
  have hxq : ¬ Anc s.heap.toGraph x q := w.skel.not_anc_parent hpar
  have hqlt := (w.skel.alloc _ _ hpar).2
  obtain ⟨hr, hra⟩ := w.skel.highest_spec q
  have hrlt := w.skel.anc_lt hra hqlt
  have hdone : ∀ n, Done s.heap n → Done (s.heap.unlinkChild q x) n := by
    intro n hn
    have := (unlinkChild_done (spoil := spoil) w hk hn).1
    rw [unlinkChild_heap] at this; exact this
  have hst : s.unlinkChild spoil q x = ⟨s.heap.unlinkChild q x, (s.unlinkChild spoil q x).mem⟩ := by
    rw [← unlinkChild_heap spoil s q x]
  rw [hst, hmem]
  set r := s.heap.toGraph.highest q with hrdef
  set h' := s.heap.unlinkChild q x with hh'
  clear hst hmem
  clear_value h' r
  have hrx : r ≠ x := by rintro he; rw [he] at hra; exact hxq hra
  have hr' : h'.toGraph.parent r = none := by
    rw [← i.parent_ne r hrx]; exact hr
  have hra' : Anc h'.toGraph r q := i.anc_p.mp hra
  have hrlt' : r < h'.toGraph.next := by rw [← i.next]; exact hrlt
  have hqlt' : q < h'.toGraph.next := by rw [← i.next]; exact hqlt
  have hcr := l.calm r hrlt hd
  have hmis : 0 < h'.toGraph.size x → ∀ n, Anc h'.toGraph n q → Misfit h'.toGraph s.mem n := by
    intro h0 n hn u hu
    have hn0 : Anc s.heap.toGraph n q := i.anc_mono hn
    have hkn : s.heap.kids n ≠ [] := by
      by_cases hne : n = q
      · subst hne; rw [hk]; simp
      · obtain ⟨e, A', B', hk', -⟩ := Hier.Graph.Ins.child_above w.skel hn0 hne
        rw [show s.heap.kids n = _ from hk']; simp
    have hln : s.heap.leaf n = false := by
      cases h : s.heap.leaf n with
      | false => rfl
      | true => exact absurd (w.skel.leaf n h) hkn
    have hrn : Anc s.heap.toGraph r n := by
      rcases hra.total hn0 with h1 | h1
      · exact h1
      · rw [(Hier.Graph.anc_root hr).mp h1]; exact .refl
    obtain ⟨v, hv1, hv2⟩ := t.full r n hr hd hrn hln (.inr hkn)
    have := hu.1
    rw [hv1] at this
    cases this
    have h2 := i.size_anc n hn
    have h3 := hu.2
    omega
  have S := del_sound w1.skel w1.sized i t.sound hmis
  obtain ⟨S3, k3⟩ := del_connect w1.skel w1.sized i spoil t.sound hr' hrlt' hra'
    (fun n hn => calm_below w hcr hn) hmis
  have lo1 := Mem.connect_lo w1.skel w1.sized spoil S.lo q
  have lo2 := Mem.connect_lo w1.skel w1.sized spoil lo1 q
  have hout : ∀ n, ¬ Anc h'.toGraph r n →
      (((s.mem.connect spoil h'.toGraph q).connect spoil h'.toGraph q).connect spoil h'.toGraph r).arr n =
        s.mem.arr n := by
    intro n hn
    have hqn : ¬ Anc h'.toGraph q n := fun h => hn (hra'.trans h)
    rw [(Mem.connect_out w1.skel w1.sized spoil lo2 hn).1,
      (Mem.connect_out w1.skel w1.sized spoil lo1 hqn).1,
      (Mem.connect_out w1.skel w1.sized spoil S.lo hqn).1]
  have hb0 : ∀ n v, s.mem.arr n = some v → n < h'.toGraph.next := by
    intro n v hv; rw [← i.next]; exact t.born n v hv
  refine ⟨⟨S3, ?_, ?_, ?_⟩, ?_⟩
  · exact connect_born w1.skel w1.sized spoil lo2 hrlt'
      (connect_born w1.skel w1.sized spoil lo1 hqlt' (connect_born w1.skel w1.sized spoil S.lo hqlt' hb0))
  · intro n hn
    have hn : n < h'.toGraph.next := hn
    rw [← i.next] at hn
    rcases t.kind n hn with (h1 | h1) | ⟨h1, h2, h3⟩
    · exact .inl (.inl (by show h'.toGraph.leaf n = true; rw [← i.leaf]; exact h1))
    · exact .inl (.inr (hdone n h1))
    · right
      have hnx : n ≠ x := by rintro rfl; rw [hpar] at h1; cases h1
      have hnr : n ≠ r := by rintro rfl; exact h2 hd.2
      have hp' : h'.toGraph.parent n = none := by rw [← i.parent_ne n hnx]; exact h1
      have hna : ¬ Anc s.heap.toGraph r n := fun h => hnr ((Hier.Graph.anc_root h1).mp h).symm
      have hna' : ¬ Anc h'.toGraph r n := fun h => hnr ((Hier.Graph.anc_root hp').mp h).symm
      refine ⟨hp', ?_, (hout n hna').trans h3⟩
      show h'.inited n ≠ some true
      rw [hjo n (.inl hna)]; exact h2
  · intro r' n hp' hd' ha' hl' hk'
    have hl0 : s.heap.leaf n = false := by
      have : h'.toGraph.leaf n = false := hl'
      rw [← i.leaf] at this; exact this
    by_cases hrr : r' = r
    · subst hrr
      exact connect_full w1.skel w1.sized spoil lo2 ha' hk'
    · have hna := root_apart hr' hp' hrr ha'
      by_cases hxr : r' = x
      · subst hxr
        have hrn : Anc s.heap.toGraph r n := (hra.trans (Anc.of_parent hpar)).trans (i.anc_mono ha')
        have hnr : n ≠ r := by rintro rfl; exact hna .refl
        obtain ⟨v, hv1, hv2⟩ := t.full r n hr hd hrn hl0 (.inl hnr)
        refine ⟨v, (hout n hna).trans hv1, hv2.trans (i.size_not n (fun h => ?_))⟩
        rcases h.total hra' with h1 | h1
        · exact hna (by rw [(Hier.Graph.anc_root hr').mp h1]; exact .refl)
        · exact hna h1
      · have hp0 : s.heap.parent r' = none := by
          rw [show s.heap.parent r' = h'.toGraph.parent r' from i.parent_ne r' hxr]; exact hp'
        have hna0 : ¬ Anc s.heap.toGraph r r' := fun h => hrr ((Hier.Graph.anc_root hp0).mp h).symm
        have hd0 : Done s.heap r' := ⟨by rw [← hii]; exact hd'.1, by rw [← hjo r' (.inl hna0)]; exact hd'.2⟩
        have hnq : n ≠ q := by rintro rfl; exact hna hra'
        obtain ⟨v, hv1, hv2⟩ := t.full r' n hp0 hd0 (i.anc_mono ha') hl0 (by
          rcases hk' with h | h
          · exact .inl h
          · right
            rw [show s.heap.kids n = h'.toGraph.kids n from i.kids_ne n hnq]; exact h)
        refine ⟨v, (hout n hna).trans hv1, hv2.trans (i.size_not n (fun h => ?_))⟩
        exact root_apart hr' hp' hrr (ha'.trans h) hra'
  · intro y hl hlt hdeep j hj
    have hl' : h'.toGraph.leaf y = true := by rw [← i.leaf]; exact hl
    have hsz : s.heap.size y = h'.toGraph.size y :=
      i.size_not y (leaf_not_above w1.skel hl' i.node)
    rw [hsz] at hj
    refine k3 y hl' (by rw [← i.next]; exact hlt) ?_ j hj
    intro e c he hc hcq hcne hcy
    apply hdeep
    have hex : e ≠ x := by rintro rfl; rw [i.root] at he; cases he
    have hcx : c ≠ x := by rintro rfl; rw [i.root] at hc; cases hc
    obtain ⟨q', hq'⟩ : ∃ q', h'.toGraph.parent q = some q' := by
      cases hq' : h'.toGraph.parent q with
      | some q' => exact ⟨q', rfl⟩
      | none => exact absurd ((Hier.Graph.anc_root hq').mp hcq) hcne
    have hqx : q ≠ x := by rintro rfl; exact hxq .refl
    have hq0 : s.heap.parent q = some q' := by
      rw [show s.heap.parent q = h'.toGraph.parent q from i.parent_ne q hqx]; exact hq'
    refine ⟨q', hq0, ⟨r, e, c, hr, (i.parent_ne e hex).trans he, (i.parent_ne c hcx).trans hc, ?_,
      i.anc_mono hcy⟩, ?_⟩
    · rcases (Hier.Graph.anc_iff_of_parent hq').mp hcq with h | h
      · exact absurd h hcne
      · exact i.anc_mono h
    · intro hxy
      have hxy' : Anc h'.toGraph x y := by
        by_contra hno
        -- `y` would not be below `x`
        have : ∀ y, Anc s.heap.toGraph x y → Anc h'.toGraph x y := by
          intro y h
          induction h with
          | refl => exact .refl
          | @step a b ha hb ih =>
            by_cases hbx : b = x
            · subst hbx; exact .refl
            · exact .step ih (by rw [← i.parent_ne b hbx]; exact hb)
        exact hno (this y hxy)
      rcases hxy'.total hcy with h | h
      · exact i.notanc (h.trans hcq)
      · exact hcx ((Hier.Graph.anc_root i.root).mp h)

theorem linkRoot_tidy {s : State V T} (w : s.heap.WF) (l : Linked s) (t : Tidy s) {p x : Id}
    {index : Option Int} (ok : Heap.LinkOK s.heap p x index) (hl : s.heap.leaf p = false)
    (hpx : s.heap.parent x = none) (hx : Settled s.heap x)
    (hroom : s.heap.parent p ≠ none ∨ s.heap.kids p ≠ [] ∨ s.heap.size x = 0 ∨
      ∀ v, s.mem.arr p = some v → v.len ≠ s.heap.size x) :
    Tidy (s.linkRoot spoil p x index).1 ∧
    ∀ y, s.heap.leaf y = true → y < s.heap.next →
      ¬ BelowGrandchild (s.linkRoot spoil p x index).1.heap.toGraph p y →
      SameValues s (s.linkRoot spoil p x index).1 y := by
  obtain ⟨w1, i, -⟩ := Heap.linkRoot_wf w ok.ltx ok.ltp hpx hl ok.outside ok.ready (ok.pos w hpx)
  obtain ⟨hm1, hm2, hii, hid, hid'⟩ := linkRoot_mem spoil w ok hl hpx
  have hheap := (linkRoot_heap spoil s p x index).1
  obtain ⟨hr, hra⟩ := w.skel.highest_spec p
  have hrlt := w.skel.anc_lt hra ok.ltp
  have hrec : Reconnects s.heap p ↔
      (s.heap.inInit p = false ∧ s.heap.inited (s.heap.toGraph.highest p) = some true) := Iff.rfl
  have hself : s.heap.parent p = none → s.heap.toGraph.highest p = p :=
    fun h => w.skel.highest_eq h .refl
  have hst : (s.linkRoot spoil p x index).1 =
      ⟨(s.heap.linkRoot p x index).1, (s.linkRoot spoil p x index).1.mem⟩ := by
    rw [← hheap]
  rw [hst]
  generalize hM : (s.linkRoot spoil p x index).1.mem = M at *
  set r := s.heap.toGraph.highest p with hrdef
  set h' := (s.heap.linkRoot p x index).1 with hh'
  clear hst hheap hM
  clear_value h' r
  have hrx : r ≠ x := by intro he; rw [he] at hra; exact ok.outside hra
  have hr' : h'.toGraph.parent r = none := by rw [i.parent_ne r hrx]; exact hr
  have hra' : Anc h'.toGraph r p := i.anc_p.mpr hra
  have hrlt' : r < h'.toGraph.next := by rw [i.next]; exact hrlt
  have hpx' : h'.parent x = some p := i.parent_x
  have hsettled : ∀ n, Settled s.heap n → Settled h' n := by
    rintro n (h | h)
    · exact .inl (by show h'.toGraph.leaf n = true; rw [i.leaf]; exact h)
    · exact .inr ⟨by rw [hii]; exact h.1, hid' n h.2⟩
  -- hierarchies other than that of `p`
  have hapart : ∀ r' n, h'.parent r' = none → Done h' r' → Anc h'.toGraph r' n →
      h'.leaf n = false → (n ≠ r' ∨ h'.kids n ≠ []) → r' ≠ r →
      ¬ Anc h'.toGraph r n ∧ ∃ v, s.mem.arr n = some v ∧ v.len = h'.toGraph.size n := by
    intro r' n hp' hd' ha' hl' hk' hne
    obtain ⟨a1, a2, a3, a4, a5, a6⟩ := ins_apart i hr' hra' hp' hne ha'
    have hd0 : Done s.heap r' := by
      refine ⟨by rw [← hii]; exact hd'.1, ?_⟩
      rcases hid r' hd'.2 with h | h
      · exact h
      · exact absurd ((Hier.Graph.anc_root hp').mp h).symm hne
    have hl0 : s.heap.leaf n = false := by
      have : h'.toGraph.leaf n = false := hl'
      rw [i.leaf] at this; exact this
    obtain ⟨v, hv1, hv2⟩ := t.full r' n a4 hd0 a3 hl0 (by
      rcases hk' with h | h
      · exact .inl h
      · exact .inr (by rw [show s.heap.kids n = h'.kids n from a5.symm]; exact h))
    exact ⟨a1, v, hv1, hv2.trans a6.symm⟩
  have hb0 : ∀ n v, s.mem.arr n = some v → n < h'.toGraph.next := by
    intro n v hv; rw [i.next]; exact t.born n v hv
  by_cases hc : Reconnects s.heap p
  · have hM := hm1 hc
    have hc' := hrec.mp hc
    clear hm1 hm2
    subst hM
    have hd : Done s.heap r := by
      rcases t.kind r hrlt with (h1 | h1) | ⟨-, h2, -⟩
      · exfalso
        have := anc_of_leaf w.skel h1 hra
        subst this
        rw [show s.heap.leaf r = true from h1] at hl; cases hl
      · exact h1
      · exact absurd hc'.2 h2
    have hcr := l.calm r hrlt hd
    have hmis : 0 < s.heap.toGraph.size x → ∀ n, Anc s.heap.toGraph n p → Misfit h'.toGraph s.mem n := by
      intro h0 n hn u hu
      have hln : s.heap.leaf n = false := by
        cases h : s.heap.leaf n with
        | false => rfl
        | true => exact absurd hn (leaf_not_above w.skel h hl)
      have hrn : Anc s.heap.toGraph r n := by
        rcases hra.total hn with h1 | h1
        · exact h1
        · rw [(Hier.Graph.anc_root hr).mp h1]; exact .refl
      have h2 := i.size_anc n hn
      have h3 := hu.2
      by_cases hcase : n ≠ r ∨ s.heap.kids n ≠ []
      · obtain ⟨v, hv1, hv2⟩ := t.full r n hr hd hrn hln hcase
        have := hu.1
        rw [hv1] at this
        cases this
        omega
      · push Not at hcase
        obtain ⟨rfl, hkn⟩ := hcase
        have hnp : n = p := by
          by_contra hne
          obtain ⟨e, A', B', hk', -⟩ := Hier.Graph.Ins.child_above w.skel hn hne
          rw [show s.heap.toGraph.kids n = [] from hkn] at hk'
          exact absurd hk' (by simp)
        subst hnp
        have hz := w.sized n hln
        rw [show s.heap.toGraph.kids n = [] from hkn, Hier.Graph.sizeSum_nil] at hz
        rcases hroom with h | h | h | h
        · exact h hr
        · exact h hkn
        · have h : s.heap.toGraph.size x = 0 := h
          omega
        · refine h u hu.1 ?_
          show u.len = s.heap.toGraph.size x
          omega
    have S := ins_sound w.skel i t.sound hmis
    obtain ⟨S3, k3⟩ := ins_connect w.skel w.sized w1.skel w1.sized i spoil t.sound hra hcr
      (settled_calm w l ok.ltx hx) (fun n hn _ => calm_below w hcr hn) hmis
    have hout : ∀ n, ¬ Anc h'.toGraph r n →
        (s.mem.connect spoil h'.toGraph r).arr n = s.mem.arr n :=
      fun n hn => (Mem.connect_out w1.skel w1.sized spoil S.lo hn).1
    refine ⟨⟨S3, connect_born w1.skel w1.sized spoil S.lo hrlt' hb0, ?_, ?_⟩, ?_⟩
    · intro n hn
      have hn : n < h'.toGraph.next := hn
      rw [i.next] at hn
      by_cases hnx : n = x
      · subst hnx; exact .inl (hsettled n hx)
      rcases t.kind n hn with h1 | ⟨h1, h2, h3⟩
      · exact .inl (hsettled n h1)
      · right
        have hnr : n ≠ r := by rintro rfl; exact h2 hd.2
        have hp' : h'.toGraph.parent n = none := by rw [i.parent_ne n hnx]; exact h1
        have hna' : ¬ Anc h'.toGraph r n := fun h => hnr ((Hier.Graph.anc_root hp').mp h).symm
        refine ⟨hp', fun h => ?_, (hout n hna').trans h3⟩
        rcases hid n h with h | h
        · exact h2 h
        · exact hna' h
    · intro r' n hp' hd' ha' hl' hk'
      by_cases hrr : r' = r
      · subst hrr
        exact connect_full w1.skel w1.sized spoil S.lo ha' hk'
      · obtain ⟨h1, v, h2, h3⟩ := hapart r' n hp' hd' ha' hl' hk' hrr
        exact ⟨v, (hout n h1).trans h2, h3⟩
    · intro y hly hlt hdeep j hj
      have hl' : h'.toGraph.leaf y = true := by rw [i.leaf]; exact hly
      have hsz : h'.toGraph.size y = s.heap.toGraph.size y :=
        i.size_not y (leaf_not_above w.skel hly i.node)
      have hj' : j < h'.toGraph.size y := by rw [hsz]; exact hj
      refine k3 y hl' (by rw [i.next]; exact hlt) ?_ j hj'
      intro e c he hce hcp hcy
      exact hdeep ⟨r, e, c, hr', he, hce, hcp, hcy⟩
  · obtain ⟨hM, h2, h3⟩ := hm2 hc
    clear hm1 hm2
    subst hM
    have hpr := hself h3
    subst hpr
    have hun : Unready s r := by
      rcases t.kind r hrlt with (h1 | h1) | h1
      · rw [h1] at hl; cases hl
      · exact absurd (hrec.mpr ⟨h1.1, h1.2⟩) hc
      · exact h1
    have hmis : 0 < s.heap.toGraph.size x → ∀ n, Anc s.heap.toGraph n r → Misfit h'.toGraph s.mem n := by
      intro _ n hn u hu
      rw [(Hier.Graph.anc_root hr).mp hn] at hu
      have := hu.1
      rw [hun.2.2] at this; cases this
    refine ⟨⟨ins_sound w.skel i t.sound hmis, hb0, ?_, ?_⟩, fun y _ _ _ j _ => rfl⟩
    · intro n hn
      have hn : n < h'.toGraph.next := hn
      rw [i.next] at hn
      by_cases hnx : n = x
      · subst hnx; exact .inl (hsettled n hx)
      rcases t.kind n hn with h1 | ⟨h1, h4, h5⟩
      · exact .inl (hsettled n h1)
      · right
        refine ⟨?_, ?_, h5⟩
        · show h'.toGraph.parent n = none
          rw [i.parent_ne n hnx]; exact h1
        · show h'.inited n ≠ some true
          rw [h2]; exact h4
    · intro r' n hp' hd' ha' hl' hk'
      have hrr : r' ≠ r := by
        rintro rfl
        refine hun.2.1 ?_
        rw [← h2]; exact hd'.2
      obtain ⟨-, v, h4, h5⟩ := hapart r' n hp' hd' ha' hl' hk' hrr
      exact ⟨v, h4, h5⟩

theorem initialize_tidy {s : State V T} (w : s.heap.WF) (l : Linked s) (t : Tidy s) {x : Id}
    (hx : x < s.heap.next) (hin : s.heap.inInit (s.heap.toGraph.highest x) = false) :
    Tidy (s.initializeParameter spoil x) ∧
    ∀ y, s.heap.leaf y = true → y < s.heap.next → SameValues s (s.initializeParameter spoil x) y := by
  obtain ⟨r, D, F, J, hrd, hr, hrlt, -, -, -, -, -, hJ, hJ', he⟩ := Heap.initialize_eq w hx
  have h1 : s.initializeParameter spoil x = ⟨s.heap.initializeParameter x,
      s.mem.connect spoil (s.heap.notifyParentChange (s.heap.toGraph.highest x)).toGraph
        (s.heap.toGraph.highest x)⟩ := rfl
  rw [← hrd] at hin
  rw [h1, Heap'.notify_graph, ← hrd, he]
  have hout : ∀ n, ¬ Anc s.heap.toGraph r n →
      (s.mem.connect spoil s.heap.toGraph r).arr n = s.mem.arr n :=
    fun n hn => (Mem.connect_out w.skel w.sized spoil l.lo hn).1
  obtain ⟨S, k⟩ : Sound s.heap.toGraph (s.mem.connect spoil s.heap.toGraph r) ∧
      ∀ y, s.heap.toGraph.leaf y = true → y < s.heap.toGraph.next →
        Keeps s.heap.toGraph s.mem (s.mem.connect spoil s.heap.toGraph r) y := by
    by_cases hk : s.heap.toGraph.kids r = []
    · rw [Mem.connect_nil spoil s.mem hk]
      exact ⟨t.sound, fun y _ _ => Keeps.refl _ y⟩
    rcases t.kind r hrlt with h1 | ⟨-, -, h3⟩
    · obtain ⟨a, -, b⟩ := Mem.connect_settled w.skel w.sized spoil t.sound (settled_calm w l hrlt h1)
      exact ⟨a, b⟩
    · obtain ⟨a, b, c⟩ := Mem.connect_fresh w.skel w.sized spoil t.sound hk (r := r)
        (fun u hu => by have := hu.1; rw [h3] at this; cases this)
      refine ⟨a, fun y hl hlt => ?_⟩
      by_cases hry : Anc s.heap.toGraph r y
      · have hyr : r ≠ y := by
          rintro rfl
          exact hk (w.skel.leaf r hl)
        obtain ⟨e, A', B', hk', hey⟩ := Hier.Graph.Ins.child_above w.skel hry hyr
        have hpe : s.heap.toGraph.parent e = some r := w.skel.parent_of hk'
        have helt := (w.skel.alloc _ _ hpe).1
        refine c e y hl hpe hey (.inl ?_)
        rcases t.kind e helt with h4 | ⟨h4, -⟩
        · exact settled_calm w l helt h4
        · rw [show s.heap.parent e = some r from hpe] at h4; cases h4
      · exact b y hl hlt hry
  refine ⟨⟨S, connect_born w.skel w.sized spoil l.lo hrlt t.born, ?_, ?_⟩, fun y hl hlt => k y hl hlt⟩
  · intro n hn
    rcases t.kind n hn with (h1 | h1) | ⟨h1, h2, h3⟩
    · exact .inl (.inl h1)
    · left; right
      refine ⟨h1.1, ?_⟩
      show J n = some true
      by_cases ha : Anc s.heap.toGraph r n
      · exact hJ' n ha
      · exact (hJ n ha).trans h1.2
    · by_cases hnr : n = r
      · subst hnr
        exact .inl (.inr ⟨hin, hJ' n .refl⟩)
      · right
        have hna : ¬ Anc s.heap.toGraph r n := fun h => hnr ((Hier.Graph.anc_root h1).mp h).symm
        refine ⟨h1, ?_, (hout n hna).trans h3⟩
        show J n ≠ some true
        rw [hJ n hna]; exact h2
  · intro r' n hp' hd' ha' hl' hk'
    by_cases hrr : r' = r
    · subst hrr
      exact connect_full w.skel w.sized spoil l.lo ha' hk'
    · have hna := root_apart hr hp' hrr ha'
      have hd0 : Done s.heap r' := by
        refine ⟨hd'.1, ?_⟩
        rw [← hJ r' (root_apart hr hp' hrr .refl)]; exact hd'.2
      obtain ⟨v, hv1, hv2⟩ := t.full r' n hp' hd0 ha' hl' hk'
      exact ⟨v, (hout n hna).trans hv1, hv2⟩

theorem leave_tidy {s : State V T} (t : Tidy s) {x : Id} (hx : x < s.heap.next)
    (hl : s.heap.leaf x = false) (hin : s.heap.inInit x = true) :
    Tidy (s.on fun h =>
      { h with inInit := upd h.inInit x false, inited := upd h.inited x (some false) }) := by
  refine ⟨t.sound, t.born, ?_, ?_⟩
  · intro n hn
    by_cases hnx : n = x
    · subst hnx
      right
      rcases t.kind n hn with (h1 | h1) | ⟨h1, -, h3⟩
      · rw [h1] at hl; cases hl
      · rw [h1.1] at hin; cases hin
      · refine ⟨h1, ?_, h3⟩
        show upd s.heap.inited n (some false) n ≠ some true
        rw [upd_same]; simp
    · rcases t.kind n hn with (h1 | h1) | ⟨h1, h2, h3⟩
      · exact .inl (.inl h1)
      · exact .inl (.inr ⟨(upd_ne _ _ hnx).trans h1.1, (upd_ne _ _ hnx).trans h1.2⟩)
      · refine .inr ⟨h1, ?_, h3⟩
        show upd s.heap.inited x (some false) n ≠ some true
        rw [upd_ne _ _ hnx]; exact h2
  · intro r n hp hd ha hl' hk
    have h2 : upd s.heap.inited x (some false) r = some true := hd.2
    have h1 : upd s.heap.inInit x false r = false := hd.1
    by_cases hrx : r = x
    · subst hrx; rw [upd_same] at h2; cases h2
    · rw [upd_ne _ _ hrx] at h1 h2
      exact t.full r n hp ⟨h1, h2⟩ ha hl' hk

end State

end Paramz.Memory

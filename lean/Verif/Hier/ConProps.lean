import Verif.Hier.Props

/-!
# Properties of constraining and fixing (C26 - C28)

`Hits h x y k`: element `k` of the `Param` `y` belongs to the target `x` (an object, or the part of a
`Param` obtained by indexing it).
-/

set_option linter.unusedSectionVars false

namespace Paramz.Hier

open IndexOps (Arr Dict Iop lookup)
open Graph (Anc At Skel Sized)

namespace Heap

variable {T : Type} [DecidableEq T]

/-- For a whole object the elements hit are those of the `Param`s inside it. -/
theorem hits_object {h : Heap T} (hr : Reach h) {x y : Id} {k : Nat} (hk : k < h.size y) :
    Hits h ⟨x, none⟩ y k ↔ Anc h.toGraph x y := by
  have w := hr.wf
  constructor
  · exact fun hh => hh.anc w
  · intro ha
    obtain ⟨m, hm⟩ := w.skel.exists_at ha
    have := hm.window w.skel w.sized
    have e1 : h.toGraph.size y = h.size y := rfl
    have e2 : h.toGraph.size x = h.size x := rfl
    exact ⟨m, hm, List.mem_range.mpr (by show m + k < h.size x; omega)⟩

/-- For a part of a `Param` they are the listed elements of that `Param`. -/
theorem hits_part {h : Heap T} (hr : Reach h) {x y : Id} {a : Arr} {k : Nat} (ok : Target.OK h ⟨x, some a⟩) :
    Hits h ⟨x, some a⟩ y k ↔ y = x ∧ k ∈ a := by
  have w := hr.wf
  constructor
  · rintro ⟨m, hm, hk⟩
    have hl := (ok.part a rfl).1
    cases hm with
    | refl => exact ⟨rfl, by simpa [Target.index] using hk⟩
    | step h1 hk' =>
      exfalso
      have := leaf_not_above w (p := _) hl (w.skel.kids_not_leaf (w.skel.parent_of hk'))
      exact this (h1.anc w.skel)
  · rintro ⟨rfl, hk⟩
    exact ⟨0, .refl, by simpa [Target.index] using hk⟩

/-! ### C26 -/

/-- After `x.constrain(t)` the elements of `x` carry exactly `t`, all other elements carry what they
carried before. -/
theorem constrain_exact {h : Heap T} (hr : Reach h) {x : Target} (ok : x.OK h) (t : T) {y k : Nat}
    (hy : y < h.next) (hl : h.leaf y = true) (hk : k < h.size y) (u : Con T) :
    (Hits h x y k → (k ∈ (h.constrain x (.tr t)).constraints y u ↔ u = .tr t)) ∧
    (¬ Hits h x y k → (k ∈ (h.constrain x (.tr t)).constraints y u ↔ k ∈ h.constraints y u)) := by
  obtain ⟨r, o, c⟩ := ok.exists_ctx hr.wf
  obtain ⟨w', e⟩ := constrain_spec hr.wf c t
  have key := e.leaf hr.wf w' c (f := fun u p q => (p ∧ ¬ q) ∨ (u = .tr t ∧ q))
    (fun _ _ => Iff.rfl) (fun u p => by simp) hy hl u k hk
  rw [key]
  constructor <;> intro hh <;> simp [hh]

/-- After `x.unconstrain(*ts)` the elements of `x` carry none of `ts` (nothing at all if `ts` is
empty), everything else stays. -/
theorem unconstrain_exact {h : Heap T} (hr : Reach h) {x : Target} (ok : x.OK h) (ts : List (Con T))
    {y k : Nat} (hy : y < h.next) (hl : h.leaf y = true) (hk : k < h.size y) (u : Con T) :
    k ∈ (h.unconstrain x ts).constraints y u ↔
      k ∈ h.constraints y u ∧ ¬ (Hits h x y k ∧ (ts = [] ∨ u ∈ ts)) := by
  obtain ⟨r, o, c⟩ := ok.exists_ctx hr.wf
  obtain ⟨w', e⟩ := unconstrain_spec hr.wf c ts
  have key := e.leaf hr.wf w' c (f := fun u p q => p ∧ ¬ ((ts = [] ∨ u ∈ ts) ∧ q))
    (fun _ _ => Iff.rfl) (fun u p => by simp) hy hl u k hk
  rw [key, and_comm (a := Hits h x y k)]

/-- In every reachable state no element carries two transformations. -/
theorem at_most_one_transformation {h : Heap T} (hr : Reach h) {x : Id} (hx : x < h.next) {t u : T}
    {k : Nat} (h1 : k ∈ h.constraints x (.tr t)) (h2 : k ∈ h.constraints x (.tr u)) : t = u := by
  have w := hr.wf
  obtain ⟨r, hrr, hra⟩ := w.skel.exists_root x
  have hrlt := w.skel.anc_lt hra hx
  obtain ⟨o, ho⟩ := w.skel.exists_at hra
  rw [w.mem_constraints hrlt hrr ho] at h1 h2
  exact w.single r hrlt hrr t u _ h1.2 h2.2

example : Target.OK demo ⟨2, none⟩ ∧ (demo.constrain ⟨2, none⟩ (.tr 7)).constraints 0 (.tr 7) =
    [1, 2, 3, 4, 5] ∧ (demo.constrain ⟨2, none⟩ (.tr 7)).constraints 0 .fixed = [6, 7] ∧
    (demo.constrain ⟨2, none⟩ (.tr 7)).constraints 0 (.tr 8) = [] :=
  ⟨targetOKB_sound (by decide +kernel), by decide +kernel⟩

/-! ### C27 -/

/-- `x.fix()` adds `fixed` on the elements of `x` and changes nothing else. -/
theorem fix_exact {h : Heap T} (hr : Reach h) {x : Target} (ok : x.OK h) {y k : Nat}
    (hy : y < h.next) (hl : h.leaf y = true) (hk : k < h.size y) (u : Con T) :
    k ∈ (h.fix x).constraints y u ↔ k ∈ h.constraints y u ∨ (u = .fixed ∧ Hits h x y k) := by
  obtain ⟨r, o, c⟩ := ok.exists_ctx hr.wf
  obtain ⟨w', e⟩ := fix_spec hr.wf c
  exact e.leaf hr.wf w' c (f := fun u p q => p ∨ (u = .fixed ∧ q))
    (fun _ _ => Iff.rfl) (fun u p => by simp) hy hl u k hk

/-- `x.unfix()` removes `fixed` from the elements of `x` and changes nothing else. -/
theorem unfix_exact {h : Heap T} (hr : Reach h) {x : Target} (ok : x.OK h) {y k : Nat}
    (hy : y < h.next) (hl : h.leaf y = true) (hk : k < h.size y) (u : Con T) :
    k ∈ (h.unfix x).constraints y u ↔ k ∈ h.constraints y u ∧ ¬ (u = .fixed ∧ Hits h x y k) := by
  obtain ⟨r, o, c⟩ := ok.exists_ctx hr.wf
  obtain ⟨w', e⟩ := unfix_spec hr.wf c
  exact e.leaf hr.wf w' c (f := fun u p q => p ∧ ¬ (u = .fixed ∧ q))
    (fun _ _ => Iff.rfl) (fun u p => by simp) hy hl u k hk

theorem fix_reach {h : Heap T} (hr : Reach h) {x : Target} (ok : x.OK h) : Reach (h.fix x) :=
  .step (e := .fix x) hr ok

theorem unfix_reach {h : Heap T} (hr : Reach h) {x : Target} (ok : x.OK h) : Reach (h.unfix x) :=
  .step (e := .unfix x) hr ok

theorem fix_same {h : Heap T} (hr : Reach h) {x : Target} (ok : x.OK h) : Same h (h.fix x) :=
  (constraining_wf hr.wf ok).2.2.1.2

theorem unfix_same {h : Heap T} (hr : Reach h) {x : Target} (ok : x.OK h) : Same h (h.unfix x) :=
  (constraining_wf hr.wf ok).2.2.2.2

theorem Target.OK.same {h h' : Heap T} (s : Same h h') {x : Target} (ok : x.OK h) : x.OK h' := by
  obtain ⟨a, b⟩ := ok
  have e : h'.toGraph = h.toGraph := s.graph
  refine ⟨?_, ?_⟩
  · show x.obj < h'.toGraph.next; rw [e]; exact a
  · intro i hi
    show h'.toGraph.leaf x.obj = true ∧ ∀ i_1 ∈ i, i_1 < h'.toGraph.size x.obj
    rw [e]; exact b i hi

theorem Hits.same {h h' : Heap T} (s : Same h h') {x : Target} {y k : Nat} :
    Hits h' x y k ↔ Hits h x y k := by
  have e : h'.toGraph = h.toGraph := s.graph
  unfold Hits Target.index
  rw [e]

/-- Two strictly increasing lists with the same elements below the size are equal. -/
theorem constraints_ext {h h' : Heap T} (hr : Reach h) (hr' : Reach h') (hg : h'.toGraph = h.toGraph)
    {y : Id} (hy : y < h.next) {u : Con T}
    (hm : ∀ k, k < h.size y → (k ∈ h'.constraints y u ↔ k ∈ h.constraints y u)) :
    h'.constraints y u = h.constraints y u := by
  have hy' : y < h'.next := by show y < h'.toGraph.next; rw [hg]; exact hy
  obtain ⟨s1, b1⟩ := constraints_sorted hr hy u
  obtain ⟨s2, b2⟩ := constraints_sorted hr' hy' u
  refine IndexOps.sorted_ext s2 s1 (fun k => ?_)
  constructor
  · intro hk
    refine (hm k ?_).mp hk
    have := b2 k hk
    rwa [show h'.size y = h.size y by rw [hg]] at this
  · intro hk; exact (hm k (b1 k hk)).mpr hk

/-- Fixing a target none of whose elements is fixed, then unfixing it, gives back the constraints of
every `Param`. -/
theorem unfix_fix {h : Heap T} (hr : Reach h) {x : Target} (ok : x.OK h)
    (hfree : ∀ y k, h.leaf y = true → k < h.size y → Hits h x y k → k ∉ h.constraints y .fixed)
    {y : Id} (hy : y < h.next) (hl : h.leaf y = true) (u : Con T) :
    ((h.fix x).unfix x).constraints y u = h.constraints y u := by
  have hr1 := fix_reach hr ok
  have s1 := fix_same hr ok
  have ok1 := ok.same s1
  have s2 := unfix_same hr1 ok1
  refine constraints_ext hr (unfix_reach hr1 ok1) (s2.graph.trans s1.graph) hy (fun k hk => ?_)
  have hg : (h.fix x).toGraph = h.toGraph := s1.graph
  rw [unfix_exact hr1 ok1 (by show y < (h.fix x).toGraph.next; rw [hg]; exact hy)
    (by show (h.fix x).toGraph.leaf y = true; rw [hg]; exact hl)
    (by show k < (h.fix x).toGraph.size y; rw [hg]; exact hk), fix_exact hr ok hy hl hk, Hits.same s1]
  constructor
  · rintro ⟨h1 | h1, h2⟩
    · exact h1
    · exact absurd h1 h2
  · intro h1
    refine ⟨.inl h1, ?_⟩
    rintro ⟨rfl, h3⟩
    exact hfree y k hl hk h3 h1

example : Target.OK demo ⟨1, none⟩ ∧ demo.constraints 1 .fixed = [] ∧
    (demo.fix ⟨1, none⟩).constraints 0 .fixed = [0, 1, 4, 6, 7] ∧
    ((demo.fix ⟨1, none⟩).unfix ⟨1, none⟩).constraints 0 .fixed = [4, 6, 7] ∧
    (demo.unfix ⟨0, none⟩).constraints 0 .fixed = [] :=
  ⟨targetOKB_sound (by decide +kernel), by decide +kernel⟩

theorem length_eq_iff_all {l : List Nat} (hs : l.Pairwise (· < ·)) {n : Nat} (hb : ∀ k ∈ l, k < n) :
    l.length = n ↔ ∀ k, k < n → k ∈ l := by
  have hnd : l.Nodup := hs.imp (fun h => Nat.ne_of_lt h)
  have hsub : l ⊆ List.range n := fun k hk => List.mem_range.mpr (hb k hk)
  constructor
  · intro hl k hk
    have hsp : l.Subperm (List.range n) := List.subperm_of_subset hnd hsub
    have := hsp.perm_of_length_le (by simp [hl])
    exact this.mem_iff.mpr (List.mem_range.mpr hk)
  · intro hall
    have h1 : (List.range n).Subperm l :=
      List.subperm_of_subset List.nodup_range (fun k hk => hall k (List.mem_range.mp hk))
    have h2 : l.Subperm (List.range n) := List.subperm_of_subset hnd hsub
    have := h1.length_le
    have := h2.length_le
    simp at *
    omega

theorem isFixedF_spec {h : Heap T} (hr : Reach h) {d : Id → Nat}
    (hd : ∀ c p, h.parent c = some p → d p < d c) (hb : ∀ x, d x ≤ h.next) :
    ∀ (n : Nat) (x : Id), x < h.next → h.next < n + d x →
    (isFixedF n h x = true ↔ ∀ y, Anc h.toGraph x y → h.leaf y = true → ∀ k, k < h.size y →
      k ∈ h.constraints y .fixed)
  | 0, x, _, hn => absurd (hb x) (by omega)
  | n + 1, x, hx, hn => by
    have w := hr.wf
    unfold isFixedF
    cases hl : h.leaf x with
    | true =>
      simp only [if_true, beq_iff_eq]
      obtain ⟨s, b⟩ := constraints_sorted hr hx (.fixed : Con T)
      rw [length_eq_iff_all s b]
      constructor
      · intro h1 y ha hly k hk
        have : x = y := by
          by_contra hne
          cases ha with
          | refl => exact hne rfl
          | step ha' hp =>
            exact leaf_not_above w hl (w.skel.kids_not_leaf hp) ha'
        subst this
        exact h1 k hk
      · intro h1 k hk
        exact h1 x .refl hl k hk
    | false =>
      simp only [Bool.false_eq_true, if_false, List.all_eq_true]
      have hkid : ∀ c, c ∈ h.kids x ↔ h.parent c = some x := fun c => w.skel.mem_iff c x
      constructor
      · intro h1 y ha hly
        have : ∀ z, Anc h.toGraph x z → z = x ∨ ∃ c, h.parent c = some x ∧ Anc h.toGraph c z := by
          intro z hz
          induction hz with
          | refl => exact .inl rfl
          | @step p c _ hp ih =>
            rcases ih with rfl | ⟨c', h1, h2⟩
            · exact .inr ⟨c, hp, .refl⟩
            · exact .inr ⟨c', h1, h2.step hp⟩
        rcases this y ha with rfl | ⟨c, hc, hcy⟩
        · rw [hl] at hly; cases hly
        · have := hd c x hc
          exact (isFixedF_spec hr hd hb n c (w.skel.alloc _ _ hc).1 (by omega)).mp
            (h1 c ((hkid c).mpr hc)) y hcy hly
      · intro h1 c hc
        have hp := (hkid c).mp hc
        have := hd c x hp
        refine (isFixedF_spec hr hd hb n c (w.skel.alloc _ _ hp).1 (by omega)).mpr (fun y hy => ?_)
        exact h1 y ((Graph.Anc.of_parent hp).trans hy)

/-- `x.is_fixed` tells whether every element of every `Param` inside `x` is fixed. -/
theorem isFixed_iff {h : Heap T} (hr : Reach h) {x : Id} (hx : x < h.next) :
    h.isFixed x = true ↔ ∀ y, Anc h.toGraph x y → h.leaf y = true → ∀ k, k < h.size y →
      k ∈ h.constraints y .fixed := by
  obtain ⟨d, hd, hb⟩ := hr.wf.skel.rank
  exact isFixedF_spec hr hd hb _ x hx (by unfold Graph.fuel; omega)

example : demo.isFixed 5 = true ∧ demo.isFixed 2 = false ∧ (demo.fix ⟨2, none⟩).isFixed 2 = true := by
  decide +kernel

/-! ### C28 -/

/-- Is element `i` in `optimizer_array` of `r`? `_has_fixes()` (constrainable.py:119-120), then
`_ensure_fixes()` and the selection with `_fixes_` (parameter_core.py:90-93). -/
def passed (h : Heap T) (r : Id) (i : Nat) : Bool :=
  if h.constraints r .fixed = [] then true else (h.ensureFixes r).getD i true

/-- At every reachable state of a hierarchy with root `r`, an element is passed to the optimiser iff it
is not fixed. -/
theorem passed_iff {h : Heap T} (hr : Reach h) {r : Id} (hlt : r < h.next) (hroot : h.parent r = none)
    (hl : h.leaf r = false) {i : Nat} (hi : i < h.size r) :
    h.passed r i = true ↔ i ∉ h.constraints r .fixed := by
  have w := hr.wf
  have hc : h.constraints r .fixed = lookup (h.dicts (h.iop r).1) .fixed := by
    unfold constraints; rw [(w.root r hlt hroot).1, Iop.get_base]
  have hfresh : (maskOf (h.size r) (lookup (h.dicts (h.iop r).1) .fixed)).getD i true = true ↔
      i ∉ lookup (h.dicts (h.iop r).1) .fixed := by
    unfold maskOf
    rw [List.getD_eq_getElem?_getD, List.getElem?_map, List.getElem?_range hi]
    simp
  unfold passed
  rw [hc]
  split
  · rename_i he; simp [he]
  · rw [← hfresh]
    unfold ensureFixes
    simp only [hl, Bool.false_eq_true, if_false, hc]
    cases hf : h.fixes r with
    | none => rfl
    | some m =>
      simp only []
      split
      · rfl
      · rename_i hlen
        rw [← (w.mask r hlt hroot hl m hf).2 (not_not.mp hlen)]

/-- For an initialised model the stored mask itself is right, without `_ensure_fixes`; it is used as it
is when the optimiser's values are written back and when gradients are handed out
(parameter_core.py:107-108, 151). -/
theorem mask_exact {h : Heap T} (hr : Reach h) {r : Id} (hlt : r < h.next) (hroot : h.parent r = none)
    (hl : h.leaf r = false) (hii : h.inInit r = false) (hin : h.inited r = some true) :
    (h.constraints r .fixed = [] → h.fixes r = none ∨ ∃ m, h.fixes r = some m ∧ ∀ b ∈ m, b = true) ∧
    (h.constraints r .fixed ≠ [] → ∃ m, h.fixes r = some m ∧ m.length = h.size r ∧
      ∀ i, i < h.size r → (m.getD i true = true ↔ i ∉ h.constraints r .fixed)) := by
  have w := hr.wf
  obtain ⟨h1, h2⟩ := w.ready r hlt hroot hl hii hin
  have hc : h.constraints r .fixed = lookup (h.dicts (h.iop r).1) .fixed := by
    unfold constraints; rw [(w.root r hlt hroot).1, Iop.get_base]
  rw [hc]
  cases hf : h.fixes r with
  | none => exact ⟨fun _ => .inl rfl, fun hne => absurd (h1 hf) hne⟩
  | some m =>
    have hlen := h2 m hf
    have hm := (w.mask r hlt hroot hl m hf).2 hlen
    refine ⟨fun he => .inr ⟨m, rfl, ?_⟩, fun _ => ⟨m, rfl, hlen, fun i hi => ?_⟩⟩
    · rw [hm, he]
      intro b hb
      simp only [maskOf, List.mem_map] at hb
      obtain ⟨i, -, rfl⟩ := hb
      simp
    · rw [hm]
      unfold maskOf
      rw [List.getD_eq_getElem?_getD, List.getElem?_map, List.getElem?_range hi]
      simp

example : demo.passed 0 4 = false ∧ demo.passed 0 3 = true ∧ demo.inited 0 = some true ∧
    demo.inInit 0 = false ∧ demo.parent 0 = none := by decide +kernel

/-- Once initialised, an object stays initialised whatever happens to its hierarchy, as long as it is
not constructed again. -/
theorem stays_ready {h : Heap T} (hr : Reach h) {e : Ev T} (ha : h.Admissible e) {r : Id}
    (hlt : r < h.next) (hii : h.inInit r = false) (hin : h.inited r = some true)
    (hne : ∀ x i, e = .finishInit x i → r ≠ x) :
    (h.exec e).1.inInit r = false ∧ (h.exec e).1.inited r = some true := by
  have w := hr.wf
  have same : ∀ h' : Heap T, Same h h' → h'.inInit r = false ∧ h'.inited r = some true := by
    intro h' s
    rw [s.inInit, s.inited]; exact ⟨hii, hin⟩
  have grow : ∀ h0 h' : Heap T, Grow h0 h' → h0.inInit r = false → h0.inited r = some true →
      h'.inInit r = false ∧ h'.inited r = some true := by
    intro h0 h' g a b
    rw [g.1]
    refine ⟨a, ?_⟩
    rcases g.2 r with e | e
    · rw [e, b]
    · exact e
  have init : ∀ (h0 : Heap T) x, WF h0 → x < h0.next → Grow h0 (h0.initializeParameter x) := by
    intro h0 x w0 hx
    obtain ⟨r, D, F, J, -, -, -, -, -, -, -, -, hJ, hJr, he⟩ := initialize_eq w0 hx
    rw [he]
    refine ⟨rfl, fun y => ?_⟩
    by_cases hy : Anc h0.toGraph r y
    · exact .inr (hJr y hy)
    · exact .inl (hJ y hy)
  cases e with
  | newParam n =>
    have hn : r ≠ h.next := Nat.ne_of_lt hlt
    exact ⟨(upd_ne _ _ hn).trans hii, (upd_ne _ _ hn).trans hin⟩
  | newNode =>
    have hn : r ≠ h.next := Nat.ne_of_lt hlt
    exact ⟨(upd_ne _ _ hn).trans hii, (upd_ne _ _ hn).trans hin⟩
  | finishInit x i =>
    have hn := hne x i rfl
    have a : (h.finishInit x false).inInit r = false := (upd_ne _ _ hn).trans hii
    have b : (h.finishInit x false).inited r = some true := (upd_ne _ _ hn).trans hin
    cases i with
    | false => exact ⟨a, b⟩
    | true => exact grow _ _ (init _ x (finishInit_wf w ha.1 false).1 ha.1) a b
  | init x => exact grow _ _ (init _ x w ha) hii hin
  | link p x index => exact grow _ _ (link_post w ha).grow hii hin
  | unlink q x =>
    refine grow _ _ ?_ hii hin
    show Grow h (h.unlink q x).1
    unfold unlink
    split
    · exact .refl h
    · split
      · rename_i hx
        obtain ⟨A, B, hk⟩ := List.append_of_mem hx
        exact unlinkChild_grow w hk
      · exact .refl h
  | constrain x c => exact same _ ((constraining_wf w ha).1 c).2
  | unconstrain x cs => exact same _ ((constraining_wf w ha).2.1 cs).2
  | fix x => exact same _ (constraining_wf w ha).2.2.1.2
  | unfix x => exact same _ (constraining_wf w ha).2.2.2.2

end Heap

end Paramz.Hier

import Verif.Hier.Check
import Verif.Hier.Tiling

/-!
# Properties of hierarchies (C22 - C28)

`Reach h` : `h` is the state after some history of constructing, linking, unlinking, initialising,
constraining and fixing calls. `h.constraints y t` is `y.constraints[t]`. `Graph.Anc g a b`: `a` is `b` or
above `b`. `Graph.At g a b n`: `b` lies in `a` and `n` elements of `a` come before those of `b`.
-/

set_option linter.unusedSectionVars false

namespace Paramz.Hier

open IndexOps (Arr Dict Iop lookup)
open Graph (Anc At Skel Sized Ins)

namespace Heap

variable {T : Type} [DecidableEq T]

/-! ### C24: tiling -/

/-- Every `Parameterized` is as large as its children together. -/
theorem size_is_sum {h : Heap T} (hr : Reach h) {x : Id} (hl : h.leaf x = false) :
    h.size x = ((h.kids x).map h.size).sum := hr.wf.sized x hl

/-- The offset of a parameter in any object above it is the number of elements before it: 0 for the
first child, and for each following child the sizes of the siblings before it are added. -/
theorem offset_is_position {h : Heap T} (hr : Reach h) {a y n : Nat} (hy : At h.toGraph a y n)
    (hne : y ≠ a) : h.toGraph.offsetFor a y = n := hr.wf.skel.offsetFor_eq hy hne

/-- Every parameter below `a` has exactly one position in `a`, and its window lies inside. -/
theorem position_unique {h : Heap T} (hr : Reach h) {a y : Id} (ha : Anc h.toGraph a y) :
    ∃! n, At h.toGraph a y n ∧ n + h.size y ≤ h.size a := by
  obtain ⟨n, hn⟩ := hr.wf.skel.exists_at ha
  exact ⟨n, ⟨hn, hn.window hr.wf.skel hr.wf.sized⟩, fun m hm => hr.wf.skel.at_unique hm.1 hn⟩

/-- Windows of two different `Param`s do not overlap, and every element of `a` lies in the window of
some `Param`: the leaves tile `0 .. size`. -/
theorem leaves_tile {h : Heap T} (hr : Reach h) (a : Id) (k : Nat) (hk : k < h.size a) :
    ∃! y, h.leaf y = true ∧ ∃ n, At h.toGraph a y n ∧ n ≤ k ∧ k < n + h.size y := by
  have s := hr.wf.skel
  obtain ⟨y, n, hy, hl, h1, h2⟩ := s.exists_leaf hr.wf.sized a k hk
  refine ⟨y, ⟨hl, n, hy, h1, h2⟩, ?_⟩
  rintro z ⟨hz, m, hm, h3, h4⟩
  by_contra hne
  have leaf_anc : ∀ u v, h.leaf u = true → Anc h.toGraph u v → u = v := by
    intro u v hu hv
    induction hv with
    | refl => rfl
    | step _ hp ih =>
      subst ih
      have := s.kids_not_leaf hp
      rw [show h.toGraph.leaf u = true from hu] at this; cases this
  have e1 : h.toGraph.size y = h.size y := rfl
  have e2 : h.toGraph.size z = h.size z := rfl
  rcases hy.disjoint s hr.wf.sized hm (fun ha => hne (leaf_anc _ _ hl ha).symm)
    (fun ha => hne (leaf_anc _ _ hz ha)) with h5 | h5 <;> omega

example : demo.toGraph.offsetFor 0 4 = 5 ∧ At demo.toGraph 0 4 5 :=
  ⟨by decide +kernel, by
    have h1 : At demo.toGraph 0 2 2 :=
      At.step (A := [1]) (B := [5]) At.refl (by decide +kernel)
    exact At.step (A := [3]) (B := []) h1 (by decide +kernel)⟩

/-- What any object shows of a constraint is exactly what the `Param`s inside it show, moved to their
positions. -/
theorem constraints_from_leaves {h : Heap T} (hr : Reach h) {x : Id} (hx : x < h.next) (t : Con T)
    (k : Nat) :
    k ∈ h.constraints x t ↔ ∃ y n j, h.leaf y = true ∧ At h.toGraph x y n ∧ j < h.size y ∧
      k = n + j ∧ j ∈ h.constraints y t := by
  have w := hr.wf
  obtain ⟨r, hrr, hra⟩ := w.skel.exists_root x
  have hrlt := w.skel.anc_lt hra hx
  obtain ⟨o, ho⟩ := w.skel.exists_at hra
  rw [w.mem_constraints hrlt hrr ho]
  constructor
  · rintro ⟨hk, hm⟩
    obtain ⟨y, n, hy, hl, h1, h2⟩ := w.skel.exists_leaf w.sized x k hk
    have e1 : h.toGraph.size y = h.size y := rfl
    refine ⟨y, n, k - n, hl, hy, by omega, by omega, ?_⟩
    rw [w.mem_constraints hrlt hrr (ho.trans hy)]
    exact ⟨by omega, by rw [show k - n + (o + n) = k + o by omega]; exact hm⟩
  · rintro ⟨y, n, j, hl, hy, hj, rfl, hm⟩
    rw [w.mem_constraints hrlt hrr (ho.trans hy)] at hm
    have := hy.window w.skel w.sized
    have e1 : h.toGraph.size y = h.size y := rfl
    have e2 : h.toGraph.size x = h.size x := rfl
    exact ⟨by omega, by rw [show n + j + o = j + (o + n) by omega]; exact hm.2⟩

/-- The lists shown are sorted and below the size. -/
theorem constraints_sorted {h : Heap T} (hr : Reach h) {x : Id} (hx : x < h.next) (t : Con T) :
    (h.constraints x t).Pairwise (· < ·) ∧ ∀ k ∈ h.constraints x t, k < h.size x := by
  have w := hr.wf
  obtain ⟨r, hrr, hra⟩ := w.skel.exists_root x
  have hrlt := w.skel.anc_lt hra hx
  obtain ⟨o, ho⟩ := w.skel.exists_at hra
  constructor
  · unfold constraints
    apply Iop.sorted_get
    by_cases hxr : x = r
    · subst hxr; exact w.dict x hrlt hrr
    · rw [w.view r x o hrlt hrr ho hxr]; exact w.dict r hrlt hrr
  · intro k hk
    exact ((w.mem_constraints hrlt hrr ho).mp hk).1

/-! ### C22, C23: linking and unlinking keep constraints -/

theorem leaf_not_above {h : Heap T} (w : WF h) {y p : Id} (hy : h.leaf y = true) (hp : h.leaf p = false) :
    ¬ Anc h.toGraph y p := by
  intro ha
  cases ha with
  | refl => rw [hy] at hp; cases hp
  | step ha' hpar =>
    have : ∀ z, Anc h.toGraph y z → y = z := by
      intro z hz
      induction hz with
      | refl => rfl
      | step _ hp ih =>
        subst ih
        have := w.skel.kids_not_leaf hp
        rw [show h.toGraph.leaf y = true from hy] at this; cases this
    have := this _ (ha'.step hpar)
    subst this
    rw [hy] at hp; cases hp

/-- Linking, with or without an error, changes no `Param`'s constraints, wherever the `Param` is.
Missing for the full claim: requests that are not `LinkOK`, in particular linking into a `Parameterized`
inside a hierarchy that is not initialised; see `lazy_link_constraints_fails`. -/
theorem link_keeps_param_partial {h : Heap T} (hr : Reach h) {p x : Id} {index : Option Int}
    (ok : LinkOK h p x index) {y : Id} (hy : y < h.next) (hl : h.leaf y = true) (t : Con T) :
    (h.link p x index).1.constraints y t = h.constraints y t := by
  have lp := link_post hr.wf ok
  cases hp : h.leaf p with
  | true =>
    have : (h.link p x index).1 = h := by unfold link; simp [hp]
    rw [this]
  | false =>
    refine lp.keep y hy (leaf_not_above hr.wf hl hp) (fun q hq => ?_) t
    exact leaf_not_above hr.wf hl (hr.wf.skel.kids_not_leaf hq)

/-- Nor those of the linked object, nor of any object inside it. -/
theorem link_keeps_linked_partial {h : Heap T} (hr : Reach h) {p x : Id} {index : Option Int}
    (ok : LinkOK h p x index) {y : Id} (hy : Anc h.toGraph x y) (hlt : y < h.next) (t : Con T) :
    (h.link p x index).1.constraints y t = h.constraints y t := by
  refine (link_post hr.wf ok).keep y hlt (fun ha => ok.outside (hy.trans ha)) (fun q hq ha => ?_) t
  exact hr.wf.skel.not_anc_parent hq (hy.trans ha)

/-- A successful call did link: the parent is set, and the object is in the parent's list. -/
theorem link_links {h : Heap T} (hr : Reach h) {p x : Id} {index : Option Int}
    (ok : LinkOK h p x index) (he : (h.link p x index).2 = none) :
    (h.link p x index).1.parent x = some p ∧ x ∈ (h.link p x index).1.kids p := by
  have lp := link_post hr.wf ok
  exact ⟨(lp.ok he).2, (lp.wf.skel.mem_iff _ _).mpr (lp.ok he).2⟩

example : LinkOK demo 2 1 (some 0) ∧ (demo.link 2 1 (some 0)).2 = some .hierarchyError :=
  ⟨linkOKB_sound demo_reach.wf (by decide +kernel), by decide +kernel⟩

example : let h := (demo.unlink 0 1).1
    LinkOK h 2 1 (some 1) ∧ (h.link 2 1 (some 1)).2 = none ∧
      (h.link 2 1 (some 1)).1.kids 2 = [3, 1, 4] ∧
      (h.link 2 1 (some 1)).1.constraints 1 (.tr 7) = [1] ∧
      (h.link 2 1 (some 1)).1.constraints 0 (.tr 7) = [4] :=
  ⟨linkOKB_sound (Reach.step (e := .unlink 0 1) demo_reach trivial).wf (by decide +kernel),
    by decide +kernel⟩

/-- Unlinking changes no `Param`'s constraints. -/
theorem unlink_keeps_param {h : Heap T} (hr : Reach h) {q x y : Id} (hy : y < h.next)
    (hl : h.leaf y = true) (t : Con T) :
    (h.unlink q x).1.constraints y t = h.constraints y t := by
  unfold unlink
  cases hq : h.leaf q with
  | true => simp
  | false =>
    by_cases hx : x ∈ h.kids q
    · obtain ⟨A, B, hk⟩ := List.append_of_mem hx
      simp only [hx, Bool.false_eq_true, if_false, if_true]
      exact (unlinkChild_wf hr.wf hk).2.2.2.2.2.2 y hy (leaf_not_above hr.wf hl hq) t
    · simp [hx]

/-- Nor those of the unlinked object and the objects inside it. -/
theorem unlink_keeps_unlinked {h : Heap T} (hr : Reach h) {q x y : Id} (hx : x ∈ h.kids q)
    (hy : Anc h.toGraph x y) (hlt : y < h.next) (t : Con T) :
    (h.unlink q x).1.constraints y t = h.constraints y t := by
  have w := hr.wf
  have hpar := (w.skel.mem_iff _ _).mp hx
  obtain ⟨A, B, hk⟩ := List.append_of_mem hx
  have hq : h.leaf q = false := w.skel.kids_not_leaf hpar
  unfold unlink
  simp only [hx, hq, Bool.false_eq_true, if_false, if_true]
  exact (unlinkChild_wf w hk).2.2.2.2.2.2 y hlt
    (fun ha => w.skel.not_anc_parent hpar (hy.trans ha)) t

/-- The unlinked object is a root and shares its constraints with nobody outside of itself: the
dictionary behind its `constraints` is the one of no other object. -/
theorem unlink_separates {h : Heap T} (hr : Reach h) {q x : Id} (hx : x ∈ h.kids q) :
    (h.unlink q x).2 = none ∧
    (h.unlink q x).1.parent x = none ∧ x ∉ (h.unlink q x).1.kids q ∧
    ((h.unlink q x).1.iop x).2 = .base ∧
    ∀ y, y < h.next → ¬ Anc h.toGraph x y →
      ((h.unlink q x).1.iop y).1 ≠ ((h.unlink q x).1.iop x).1 := by
  have w := hr.wf
  have hpar := (w.skel.mem_iff _ _).mp hx
  obtain ⟨A, B, hk⟩ := List.append_of_mem hx
  have hq : h.leaf q = false := w.skel.kids_not_leaf hpar
  unfold unlink
  simp only [hx, hq, Bool.false_eq_true, if_false, if_true]
  obtain ⟨w1, i, -⟩ := unlinkChild_wf w hk
  have hroot : (h.unlinkChild q x).parent x = none := i.root
  have hn : h.next = (h.unlinkChild q x).next := i.next
  have hxlt : x < (h.unlinkChild q x).next := by rw [← hn]; exact (w.skel.alloc _ _ hpar).1
  refine ⟨trivial, hroot, ?_, (w1.root x hxlt hroot).1, ?_⟩
  · intro hm
    have := (w1.skel.mem_iff _ _).mp hm
    rw [show (h.unlinkChild q x).toGraph.parent x = none from hroot] at this; cases this
  · intro y hy hna he
    obtain ⟨r, hr', hra⟩ := w1.skel.exists_root y
    have hrlt : r < (h.unlinkChild q x).next := w1.skel.anc_lt hra (by rw [← hn]; exact hy)
    have hdict : ((h.unlinkChild q x).iop y).1 = ((h.unlinkChild q x).iop r).1 := by
      by_cases hyr : y = r
      · rw [hyr]
      · obtain ⟨n, hn⟩ := w1.skel.exists_at hra
        rw [w1.view r y n hrlt hr' hn hyr]
    have := w1.inj r x hrlt hxlt hr' hroot (hdict.symm.trans he)
    subst this
    exact hna (i.anc_mono hra)

example : 2 ∈ demo.kids 0 ∧ (demo.unlink 0 2).1.constraints 2 .fixed = [2] ∧
    (demo.unlink 0 2).1.constraints 0 .fixed = [2, 3] ∧ (demo.unlink 0 2).1.size 0 = 4 := by
  decide +kernel

/-! ### C25: the hierarchy is a forest -/

/-- Children lists and parent pointers agree, no object occurs twice in a list, the stored position is
the position in the list, and no object lies above its own parent. -/
theorem forest {h : Heap T} (hr : Reach h) :
    (∀ c p, c ∈ h.kids p ↔ h.parent c = some p) ∧
    (∀ p, (h.kids p).Nodup) ∧
    (∀ p (i : Nat) c, (h.kids p)[i]? = some c → h.pidx c = i) ∧
    (∀ c p, h.parent c = some p → ¬ Anc h.toGraph c p) :=
  ⟨hr.wf.skel.mem_iff, hr.wf.skel.nodup, hr.wf.skel.pidx, fun _ _ hp => hr.wf.skel.not_anc_parent hp⟩

/-- Linking an object that is already a child, without a position, is rejected and changes nothing. -/
theorem link_child_rejected (h : Heap T) {p x : Id} (hl : h.leaf p = false) (hx : x ∈ h.kids p) :
    h.link p x none = (h, some .hierarchyError) := by
  unfold link; simp [hl, hx]

/-- Unlinking an object that is not a child is rejected and changes nothing. -/
theorem unlink_other_rejected (h : Heap T) {q x : Id} (hl : h.leaf q = false) (hx : x ∉ h.kids q) :
    h.unlink q x = (h, some .hierarchyError) := by
  unfold unlink; simp [hl, hx]

/-- Every request that raises an exception leaves all hierarchies as they were (up to traversal
marks). -/
theorem link_error_keeps {h : Heap T} (hr : Reach h) {p x : Id} {index : Option Int}
    (ok : LinkOK h p x index) (he : (h.link p x index).2 ≠ none) :
    ∃ v, (h.link p x index).1 = { h with visited := v } := by
  cases hl : h.leaf p with
  | true => exact ⟨h.visited, by unfold link; simp [hl]⟩
  | false => exact (link_post hr.wf ok).err he (hr.inv.2 p hl ok.ltp)


/-- States reached by a history of admissible calls none of which raised an exception. -/
inductive Quiet : Heap T → Prop
  | empty : Quiet Heap.empty
  | step {h : Heap T} {e : Ev T} : Quiet h → h.Admissible e → (h.exec e).2 = none → Quiet (h.exec e).1

theorem Quiet.reach {h : Heap T} (hq : Quiet h) : Reach h := by
  induction hq with
  | empty => exact .empty
  | step _ ha _ ih => exact .step ih ha

theorem linkRoot_visited {h : Heap T} (w : WF h) {p x : Id} {index : Option Int}
    (ok : LinkOK h p x index) (hl : h.leaf p = false) (hpx : h.parent x = none) :
    (h.linkRoot p x index).1.visited = h.visited := by
  have hpos := ok.pos w hpx
  obtain ⟨i2, s2, h2eq⟩ := linkPointers_ins w.skel (index := index) ok.ltx ok.ltp hpx hl ok.outside hpos
  have hn3 := notify_eq s2 p
  unfold Heap.linkRoot
  simp only [hpos, ne_eq, not_true_eq_false, if_false]
  set h2 := (h.linkPointers p x index).addSizes p (h.size x) with hh2
  have f_v : (h2.notifyParentChange p).visited = h.visited := by rw [hn3, h2eq]; rfl
  have e3 : (h2.notifyParentChange p).toGraph = h2.toGraph := by rw [hn3]; rfl
  have s3 : Skel (h2.notifyParentChange p).toGraph := by rw [e3]; exact s2
  generalize h2.notifyParentChange p = h3 at *
  split
  · exact f_v
  · generalize h3.toGraph.highest p = r
    split
    · exact f_v
    · exact f_v
    · have hce := connect_eq s3 r
      have s4 : Skel (h3.connect r).toGraph := by rw [hce]; exact s3
      have h2 : (((h3.connect r).notifyParentChange r).connectFixes r).visited
          = ((h3.connect r).notifyParentChange r).visited := by
        unfold connectFixes
        simp only []
        split <;> rfl
      rw [h2, notify_eq s4]
      show (h3.connect r).visited = _
      exact f_v

/-- Without exceptions no traversal marks are ever left behind. -/
theorem no_marks {h : Heap T} (hq : Quiet h) : ∀ y, h.visited y = false := by
  induction hq with
  | empty => intro y; rfl
  | @step h e hq ha he ih =>
    have w := hq.reach.wf
    cases e with
    | newParam n =>
      intro y
      show upd h.visited h.next false y = false
      unfold upd; split
      · rfl
      · exact ih y
    | newNode =>
      intro y
      show upd h.visited h.next false y = false
      unfold upd; split
      · rfl
      · exact ih y
    | finishInit x i =>
      cases i with
      | false => exact ih
      | true =>
        have w1 := (finishInit_wf w ha.1 false).1
        obtain ⟨r, D, F, J, -, -, -, -, -, -, -, -, -, -, he⟩ := initialize_eq w1 (x := x) ha.1
        intro y
        show (((h.finishInit x false).initializeParameter x).visited y) = false
        rw [he]; exact ih y
    | init x =>
      obtain ⟨r, D, F, J, -, -, -, -, -, -, -, -, -, -, he⟩ := initialize_eq w ha
      intro y
      show (h.initializeParameter x).visited y = false
      rw [he]; exact ih y
    | unlink q x =>
      show ∀ y, (h.unlink q x).1.visited y = false
      unfold unlink
      split
      · exact ih
      · split
        · rename_i hx
          obtain ⟨A, B, hk⟩ := List.append_of_mem hx
          rw [show (h.unlinkChild q x, (none : Option Err)).1.visited = h.visited from
            (unlinkChild_wf w hk).2.2.2.1]
          exact ih
        · exact ih
    | constrain x c =>
      intro y
      exact (congrFun ((constraining_wf w ha).1 c).2.visited y).trans (ih y)
    | unconstrain x cs =>
      intro y
      have := congrFun ((constraining_wf w ha).2.1 cs).2.visited y
      exact this.trans (ih y)
    | fix x =>
      intro y
      exact (congrFun (constraining_wf w ha).2.2.1.2.visited y).trans (ih y)
    | unfix x =>
      intro y
      exact (congrFun (constraining_wf w ha).2.2.2.2.visited y).trans (ih y)
    | link p x index =>
      have ok : LinkOK h p x index := ha
      have he : (h.link p x index).2 = none := he
      show ∀ y, (h.link p x index).1.visited y = false
      unfold link at he ⊢
      cases hl : h.leaf p with
      | true => simp [hl] at he
      | false =>
        simp only [hl, Bool.false_eq_true, if_false] at he ⊢
        by_cases hx : x ∈ h.kids p
        · rw [if_pos hx] at he ⊢
          cases index with
          | none => cases he
          | some j =>
            obtain ⟨A, B, hk⟩ := List.append_of_mem hx
            obtain ⟨w1, i, -, hv, -⟩ := unlinkChild_wf w hk
            have hpx1 : (h.unlinkChild p x).parent x = none := i.root
            have hlk : (h.unlinkChild p x).linkNew p x (some j)
                = (h.unlinkChild p x).linkRoot p x (some j) := by
              unfold linkNew; rw [hpx1]
            simp only [hlk]
            rw [linkRoot_visited w1 (ok.unlink w hk)
              (by rw [← show h.leaf = (h.unlinkChild p x).leaf from i.leaf]; exact hl) hpx1, hv]
            exact ih
        · rw [if_neg hx] at he ⊢
          unfold linkNew at he ⊢
          cases hpar : h.parent x with
          | none =>
            simp only []
            rw [linkRoot_visited w ok hl hpar]; exact ih
          | some q =>
            simp only [hpar] at he ⊢
            have hs := (Graph.traverseParentsF_spec w.skel (fun _ y => decide (y = p)) h.toGraph.fuel
              ⟨h.visited, [], false⟩ x rfl (fun y _ => ih y)).2
            have hs : (h.toGraph.traverseParents (fun _ y => decide (y = p))
                ⟨h.visited, [], false⟩ x).raised = false →
              (h.toGraph.traverseParents (fun _ y => decide (y = p))
                ⟨h.visited, [], false⟩ x).marks = h.visited := hs
            revert hs he
            generalize h.toGraph.traverseParents (fun _ y => decide (y = p))
              ⟨h.visited, [], false⟩ x = s
            intro he hs
            cases hsr : s.raised with
            | true => simp [hsr] at he
            | false =>
              simp only [Bool.false_eq_true, if_false]
              rw [hs hsr]
              have hxq : x ∈ h.kids q := (w.skel.mem_iff _ _).mpr hpar
              obtain ⟨A, B, hk⟩ := List.append_of_mem hxq
              obtain ⟨w1, i, -, hv, -⟩ := unlinkChild_wf w hk
              have : ({ h with visited := h.visited } : Heap T) = h := rfl
              rw [this, linkRoot_visited w1 (ok.unlink w hk)
                (by rw [← show h.leaf = (h.unlinkChild q x).leaf from i.leaf]; exact hl) i.root, hv]
              exact ih

theorem Quiet.run {h : Heap T} (hq : Quiet h) : ∀ es, h.runB es = true → h.quietB es = true →
    Quiet (h.run es)
  | [], _, _ => hq
  | e :: es, hb, hc => by
    simp only [runB, quietB, Bool.and_eq_true, decide_eq_true_eq] at hb hc
    exact Quiet.run (h := (h.exec e).1)
      (.step hq (admissibleB_sound hq.reach.wf hb.1) hc.1) es hb.2 hc.2

theorem demo_quiet : Quiet demo := Quiet.run .empty _ (by decide +kernel) (by decide +kernel)

/-- The search of `link_parameter` through the hierarchy around `x` finds `p` iff `p` is in the same
hierarchy and not inside `x`, provided no marks are left over from an earlier exception. -/
theorem search_finds {h : Heap T} (w : WF h) (hm : ∀ y, h.visited y = false) {p x : Id} :
    ((h.toGraph.traverseParents (fun _ y => decide (y = p)) ⟨h.visited, [], false⟩ x).raised = true ↔
      h.toGraph.highest x = h.toGraph.highest p ∧ ¬ Anc h.toGraph x p) := by
  obtain ⟨d, hd, hb⟩ := w.skel.rank
  have h1 := (Graph.traverseParentsF_spec w.skel (fun _ y => decide (y = p)) h.toGraph.fuel
    ⟨h.visited, [], false⟩ x rfl (fun y _ => hm y)).1
  have h2 := (Graph.outsideF_spec w.skel hd hb h.toGraph.fuel h.visited x
    (by have := hb x; unfold Graph.fuel; omega) (fun y hy => by rw [hm y] at hy; cases hy)).2 p
  have h3 := congrArg Prod.snd h1
  simp only [visitAll_raised] at h3
  show (Graph.traverseParentsF h.toGraph.fuel h.toGraph _ _ x).raised = true ↔ _
  rw [h3, List.any_eq_true]
  obtain ⟨rx, rxa⟩ := w.skel.highest_spec x
  obtain ⟨rp, rpa⟩ := w.skel.highest_spec p
  constructor
  · rintro ⟨y, hy, he⟩
    have he : y = p := by simpa using he
    subst he
    obtain ⟨⟨r, ha, hb⟩, hn⟩ := h2.mp hy
    refine ⟨?_, hn⟩
    obtain ⟨r0, hr0, hra0⟩ := w.skel.exists_root r
    rw [w.skel.highest_eq hr0 (hra0.trans ha), w.skel.highest_eq hr0 (hra0.trans hb)]
  · rintro ⟨he, hn⟩
    exact ⟨p, h2.mpr ⟨⟨h.toGraph.highest x, rxa, by rw [he]; exact rpa⟩, hn⟩, by simp⟩

/-- Which good requests are rejected: linking a child again without a position, and moving an object inside
its own hierarchy without unlinking it first. All others are carried out. Missing for the full claim:
requests to link an object into itself or below itself are not rejected, and left-over marks defeat the
search; see `link_into_own_child_fails`, `link_into_itself_fails`, `second_attempt_fails`. -/
theorem link_decides_partial {h : Heap T} (hr : Reach h) (hm : ∀ y, h.visited y = false) {p x : Id}
    {index : Option Int} (ok : LinkOK h p x index) (hl : h.leaf p = false) :
    (h.link p x index).2 =
      if (h.parent x = some p ∧ index = none) ∨
        (h.parent x ≠ some p ∧ h.parent x ≠ none ∧ h.toGraph.highest x = h.toGraph.highest p)
      then some .hierarchyError else none := by
  have w := hr.wf
  have hmem : x ∈ h.kids p ↔ h.parent x = some p := w.skel.mem_iff x p
  have hf := hr.inv.2 p hl ok.ltp
  unfold link
  simp only [hl, Bool.false_eq_true, if_false]
  by_cases hx : x ∈ h.kids p
  · rw [if_pos hx]
    have hpx := hmem.mp hx
    cases index with
    | none => simp [hpx]
    | some j =>
      obtain ⟨A, B, hk⟩ := List.append_of_mem hx
      obtain ⟨w1, i, -⟩ := unlinkChild_wf w hk
      have hpx1 : (h.unlinkChild p x).parent x = none := i.root
      have hlk : (h.unlinkChild p x).linkNew p x (some j)
          = (h.unlinkChild p x).linkRoot p x (some j) := by
        unfold linkNew; rw [hpx1]
      simp only [hlk, hpx]
      rw [linkRoot_none w1 (ok.unlink w hk)
        (by rw [← show h.leaf = (h.unlinkChild p x).leaf from i.leaf]; exact hl) hpx1 (hf.unlink w hk)]
      simp
  · rw [if_neg hx]
    have hpx := fun he => hx (hmem.mpr he)
    unfold linkNew
    cases hpar : h.parent x with
    | none =>
      simp only []
      rw [linkRoot_none w ok hl hpar hf]; simp
    | some q =>
      simp only []
      have hs := search_finds w hm (p := p) (x := x)
      revert hs
      generalize h.toGraph.traverseParents (fun _ y => decide (y = p)) ⟨h.visited, [], false⟩ x = s
      intro hs
      have hqp : q ≠ p := by rintro rfl; exact hpx hpar
      cases hsr : s.raised with
      | true =>
        rw [hsr] at hs
        simp only [if_true]
        rw [if_pos (.inr ⟨by simpa using hqp, by simp, (hs.mp rfl).1⟩)]
      | false =>
        rw [hsr] at hs
        simp only [Bool.false_eq_true, if_false]
        rw [if_neg]
        · have hxq : x ∈ h.kids q := (w.skel.mem_iff _ _).mpr hpar
          obtain ⟨A, B, hk⟩ := List.append_of_mem hxq
          have w0 := w.visited s.marks
          have hk0 : ({ h with visited := s.marks } : Heap T).kids q = A ++ x :: B := hk
          have hi0 : ({ h with visited := s.marks } : Heap T).Flagged p := hf
          have ok' : LinkOK ({ h with visited := s.marks } : Heap T) p x index :=
            ⟨ok.1, ok.2, ok.3, ok.4, ok.5⟩
          have hl0 : ({ h with visited := s.marks } : Heap T).leaf p = false := hl
          generalize ({ h with visited := s.marks } : Heap T) = h0 at *
          obtain ⟨w1, i, -⟩ := unlinkChild_wf w0 hk0
          exact linkRoot_none w1 (ok'.unlink w0 hk0)
            (by rw [← show h0.leaf = (h0.unlinkChild q x).leaf from i.leaf]; exact hl0) i.root
            (hi0.unlink w0 hk0)
        · rintro (⟨h1, -⟩ | ⟨-, -, h1⟩)
          · exact hqp (by simpa using h1)
          · exact Bool.false_ne_true (hs.mpr ⟨h1, ok.outside⟩)

example : Quiet demo ∧ (demo.link 2 5 none).2 = some .hierarchyError ∧
    (demo.link 0 5 none).2 = some .hierarchyError ∧ (demo.link 0 5 (some 0)).2 = none := by
  exact ⟨demo_quiet, by decide +kernel⟩

end Heap

end Paramz.Hier

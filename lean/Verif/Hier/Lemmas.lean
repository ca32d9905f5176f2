import Verif.IndexOps.Lemmas
import Verif.Hier.Model
import Verif.Hier.Insert

/-!
# What the helper methods do to well-formed heaps
-/

set_option linter.unusedSectionVars false

namespace Paramz.Hier

open IndexOps (Arr Dict Iop lookup)
open Graph (Anc At Skel Sized Ins)

namespace Graph

variable {g : Graph}

/-- Everything strictly below `x`. -/
def below (g : Graph) (x : Id) : List Id := (g.kids x).flatMap (fun c => subtreeF g.fuel g c)

theorem Skel.mem_below (s : Skel g) {x y : Id} : y ∈ g.below x ↔ y ≠ x ∧ Anc g x y := by
  obtain ⟨d, hd, hb⟩ := s.rank
  have h1 : ∀ c ∈ g.kids x, (y ∈ subtreeF g.fuel g c ↔ Anc g c y) := fun c _ =>
    mem_subtreeF s hd hb g.fuel c (by unfold fuel; omega) y
  unfold below
  rw [List.mem_flatMap]
  constructor
  · rintro ⟨c, hc, hy⟩
    have hp := (s.mem_iff _ _).mp hc
    have ha := (h1 c hc).mp hy
    refine ⟨?_, (Anc.of_parent hp).trans ha⟩
    rintro rfl
    exact s.not_anc_parent hp ha
  · rintro ⟨hne, ha⟩
    obtain ⟨e, A, B, hk, he⟩ := Ins.child_above s ha (Ne.symm hne)
    have hm : e ∈ g.kids x := by rw [hk]; simp
    exact ⟨e, hm, (h1 e hm).mpr he⟩

theorem Skel.anc_lt (s : Skel g) {r y : Id} (h : Anc g r y) (hy : y < g.next) : r < g.next := by
  induction h with
  | refl => exact hy
  | step _ hp ih => exact ih (s.alloc _ _ hp).2

theorem Skel.desc_lt (s : Skel g) {r y : Id} (h : Anc g r y) (hr : r < g.next) : y < g.next := by
  cases h with
  | refl => exact hr
  | step _ hp => exact (s.alloc _ _ hp).1

/-- `Skel` does not talk about sizes. -/
theorem Skel.of_eq {g g' : Graph} (s : Skel g) (h1 : g'.next = g.next) (h2 : g'.leaf = g.leaf)
    (h3 : g'.parent = g.parent) (h4 : g'.pidx = g.pidx) (h5 : g'.kids = g.kids) : Skel g' := by
  obtain ⟨a, b, c, d, e, f⟩ := s
  constructor
  · rw [h3, h1]; exact a
  · rw [h3, h5]; exact b
  · rw [h5]; exact c
  · rw [h5, h4]; exact d
  · rw [h2, h5]; exact e
  · rw [h3]; exact f

end Graph

namespace Heap

variable {T : Type} [DecidableEq T]

/-! ### Refreshing the views -/

/-- Give every object of `L` a direct view on the index operations of `top`. -/
def setViews (h : Heap T) (top : Id) (L : List Id) : Heap T :=
  { h with
    iop := fun y => if y ∈ L then
      ((h.iop top).1, .view (h.iop top).2 (h.toGraph.offsetFor top y) (h.size y)) else h.iop y
    fixes := fun y => if y ∈ L then none else h.fixes y }

theorem setViews_append (h : Heap T) (top : Id) (L M : List Id) (hL : top ∉ L) :
    (h.setViews top L).setViews top M = h.setViews top (L ++ M) := by
  unfold setViews
  simp only [hL, if_false, List.mem_append, Heap.mk.injEq, true_and, and_true]
  constructor
  · funext y
    by_cases h1 : y ∈ M <;> by_cases h2 : y ∈ L <;> simp [h1, h2]
  · funext y
    by_cases h1 : y ∈ M <;> by_cases h2 : y ∈ L <;> simp [h1, h2]

theorem setViews_nil (h : Heap T) (top : Id) : h.setViews top [] = h := by
  simp [setViews]

theorem parentChangedF_eq (top : Id) : ∀ (n : Nat) (h : Heap T) (x : Id),
    top ∉ Graph.subtreeF n h.toGraph x →
    parentChangedF n h top x = h.setViews top (Graph.subtreeF n h.toGraph x)
  | 0, h, x, _ => by simp [parentChangedF, Graph.subtreeF, setViews_nil]
  | n + 1, h, x, hx => by
    have hfold : ∀ (l : List Id) (h' : Heap T), h'.toGraph = h.toGraph →
        (∀ c ∈ l, top ∉ Graph.subtreeF n h.toGraph c) →
        l.foldl (fun h c => parentChangedF n h top c) h' =
          h'.setViews top (l.flatMap (fun c => Graph.subtreeF n h.toGraph c)) := by
      intro l
      induction l with
      | nil => intro h' _ _; simp [setViews_nil]
      | cons c l ih =>
        intro h' hg hl
        have hc := hl c (by simp)
        rw [List.foldl_cons, parentChangedF_eq top n h' c (by rw [hg]; exact hc), hg,
          ih _ (by exact hg) (fun e he => hl e (by simp [he])), setViews_append _ _ _ _ hc,
          List.flatMap_cons]
    unfold Graph.subtreeF at hx ⊢
    simp only [List.mem_cons, List.mem_flatMap, not_or, not_exists, not_and] at hx
    unfold parentChangedF
    have h1 : ({ h with
        iop := upd h.iop x
          ((h.iop top).1, .view (h.iop top).2 (h.toGraph.offsetFor top x) (h.size x))
        fixes := upd h.fixes x none } : Heap T) = h.setViews top [x] := by
      simp only [setViews, List.mem_singleton, Heap.mk.injEq, true_and, and_true]
      refine ⟨?_, rfl⟩
      funext y
      by_cases hy : y = x
      · subst hy; simp
      · simp [upd, hy]
    rw [h1, hfold (h.kids x) (h.setViews top [x]) rfl (fun c hc => hx.2 c hc),
      setViews_append _ _ _ _ (by simpa using hx.1)]
    rfl

/-- `_notify_parent_change` in a forest. -/
theorem notify_eq {h : Heap T} (s : Skel h.toGraph) (x : Id) :
    h.notifyParentChange x = h.setViews x (h.toGraph.below x) := by
  have hx : x ∉ h.toGraph.below x := fun hm => (s.mem_below.mp hm).1 rfl
  unfold Graph.below at hx ⊢
  simp only [List.mem_flatMap, not_exists, not_and] at hx
  unfold notifyParentChange
  have hfold : ∀ (l : List Id) (h' : Heap T), h'.toGraph = h.toGraph →
      (∀ c ∈ l, x ∉ Graph.subtreeF h.toGraph.fuel h.toGraph c) →
      l.foldl (fun h' c => parentChangedF h.toGraph.fuel h' x c) h' =
        h'.setViews x (l.flatMap (fun c => Graph.subtreeF h.toGraph.fuel h.toGraph c)) := by
    intro l
    induction l with
    | nil => intro h' _ _; simp [setViews_nil]
    | cons c l ih =>
      intro h' hg hl
      have hc := hl c (by simp)
      rw [List.foldl_cons, parentChangedF_eq x _ h' c (by rw [hg]; exact hc), hg,
        ih _ (by exact hg) (fun e he => hl e (by simp [he])), setViews_append _ _ _ _ hc,
        List.flatMap_cons]
  exact hfold _ h rfl hx

/-! ### Fix masks -/

/-- The mask `_connect_fixes` leaves behind. -/
def freshMask (n : Nat) (fixed : Arr) : Option (List Bool) :=
  if fixed ≠ [] then some (maskOf n fixed) else none

theorem connectFixes_eq (h : Heap T) (x : Id) (hv : (h.iop x).2 = .base) :
    ∃ D : Dict (Con T), (∀ t, lookup D t = lookup (h.dicts (h.iop x).1) t) ∧
      (IndexOps.WF (h.dicts (h.iop x).1) → IndexOps.WF D) ∧
      h.connectFixes x = { h with
        dicts := upd h.dicts (h.iop x).1 D
        fixes := upd h.fixes x
          (freshMask (h.size x) (lookup (h.dicts (h.iop x).1) .fixed)) } := by
  have hg : (IndexOps.getItem (h.dicts (h.iop x).1) (.fixed : Con T)).2 =
      lookup (h.dicts (h.iop x).1) .fixed := IndexOps.getItem_snd _ _
  by_cases hf : lookup (h.dicts (h.iop x).1) .fixed = []
  · refine ⟨match Iop.base.delItem (IndexOps.getItem (h.dicts (h.iop x).1) .fixed).1 .fixed with
      | .ok d' => d' | .error _ => (IndexOps.getItem (h.dicts (h.iop x).1) .fixed).1, ?_, ?_, ?_⟩
    · intro t
      simp only [Iop.delItem, IndexOps.delItem]
      by_cases hk : IndexOps.hasKey (IndexOps.getItem (h.dicts (h.iop x).1) .fixed).1 .fixed = true
      · simp only [hk, if_true]
        rw [IndexOps.lookup_delKey, IndexOps.lookup_getItem]
        split
        · rename_i e; rw [← e, hf]
        · rfl
      · simp only [hk]
        exact IndexOps.lookup_getItem _ _ _
    · intro hw
      simp only [Iop.delItem, IndexOps.delItem]
      by_cases hk : IndexOps.hasKey (IndexOps.getItem (h.dicts (h.iop x).1) .fixed).1 .fixed = true
      · simp only [hk, if_true]; exact (hw.getItem _).delKey _
      · simp only [hk]; exact hw.getItem _
    · simp only [connectFixes, hv, Iop.getItem, hg, freshMask]
      simp [hf]
      rfl
  · refine ⟨(IndexOps.getItem (h.dicts (h.iop x).1) .fixed).1, ?_, ?_, ?_⟩
    · intro t; exact IndexOps.lookup_getItem _ _ _
    · intro hw; exact hw.getItem _
    · simp only [connectFixes, hv, Iop.getItem, hg, freshMask]
      simp [hf]

/-! ### Sizes along the parent chain -/

theorem addSizes_fold (n : Nat) : ∀ (L : List Id) (h : Heap T), L.Nodup →
    L.foldl (fun (h : Heap T) y => { h with size := upd h.size y (h.size y + n) }) h =
      { h with size := fun y => if y ∈ L then h.size y + n else h.size y }
  | [], h, _ => by simp
  | y :: L, h, hn => by
    rw [List.nodup_cons] at hn
    rw [List.foldl_cons, addSizes_fold n L _ hn.2]
    congr 2
    funext z
    by_cases h1 : z = y
    · subst h1; simp [hn.1, upd]
    · simp [h1, upd]

theorem subSizes_fold (n : Nat) : ∀ (L : List Id) (h : Heap T), L.Nodup →
    L.foldl (fun (h : Heap T) y => { h with size := upd h.size y (h.size y - n) }) h =
      { h with size := fun y => if y ∈ L then h.size y - n else h.size y }
  | [], h, _ => by simp
  | y :: L, h, hn => by
    rw [List.nodup_cons] at hn
    rw [List.foldl_cons, subSizes_fold n L _ hn.2]
    congr 2
    funext z
    by_cases h1 : z = y
    · subst h1; simp [hn.1, upd]
    · simp [h1, upd]

/-! ### Well-formed heaps -/

/-- The state the library keeps its objects in. `skel`, `sized`: the hierarchy is a forest of the right
sizes; `root`, `inj`: every root owns a dictionary of its own; `view`: everything below a root is a
view on the root's dictionary at its position; `dict`, `bound`: dictionaries are canonical and mention
only existing elements; `single`: at most one transformation per element; `mask`: the fix mask of a
`Parameterized` root is absent, of an outdated length, or right, and it is right if construction is
over and the root has been initialised. -/
structure WF (h : Heap T) : Prop where
  skel : Skel h.toGraph
  sized : Sized h.toGraph
  root : ∀ r, r < h.next → h.parent r = none → (h.iop r).2 = .base ∧ (h.iop r).1 < h.nextDict
  inj : ∀ r r', r < h.next → r' < h.next → h.parent r = none → h.parent r' = none →
    (h.iop r).1 = (h.iop r').1 → r = r'
  view : ∀ r x n, r < h.next → h.parent r = none → At h.toGraph r x n → x ≠ r →
    h.iop x = ((h.iop r).1, .view .base n (h.size x))
  dict : ∀ r, r < h.next → h.parent r = none → IndexOps.WF (h.dicts (h.iop r).1)
  bound : ∀ r, r < h.next → h.parent r = none → ∀ t i, i ∈ lookup (h.dicts (h.iop r).1) t →
    i < h.size r
  single : ∀ r, r < h.next → h.parent r = none → ∀ t u i,
    i ∈ lookup (h.dicts (h.iop r).1) (.tr t) → i ∈ lookup (h.dicts (h.iop r).1) (.tr u) → t = u
  mask : ∀ r, r < h.next → h.parent r = none → h.leaf r = false → ∀ m, h.fixes r = some m →
    m.length ≤ h.size r ∧
    (m.length = h.size r → m = maskOf (h.size r) (lookup (h.dicts (h.iop r).1) .fixed))
  ready : ∀ r, r < h.next → h.parent r = none → h.leaf r = false → h.inInit r = false →
    h.inited r = some true →
    (h.fixes r = none → lookup (h.dicts (h.iop r).1) .fixed = []) ∧
    ∀ m, h.fixes r = some m → m.length = h.size r

/-- What an object sees of the constraints. -/
theorem WF.mem_constraints {h : Heap T} (w : WF h) {r y n : Nat} (hlt : r < h.next)
    (hr : h.parent r = none) (ha : At h.toGraph r y n) {t : Con T} {i : Nat} :
    i ∈ h.constraints y t ↔ i < h.size y ∧ i + n ∈ lookup (h.dicts (h.iop r).1) t := by
  unfold constraints
  by_cases hy : y = r
  · subst hy
    have hn := w.skel.at_self ha
    subst hn
    rw [(w.root y hlt hr).1, Iop.get_base]
    exact ⟨fun hi => ⟨w.bound y hlt hr t i hi, hi⟩, fun hi => hi.2⟩
  · rw [w.view r y n hlt hr ha hy, Iop.get_view, Iop.get_base, Iop.mem_filterIndex]

theorem WF.sorted_constraints {h : Heap T} (w : WF h) {y : Id} (hy : y < h.next) (t : Con T) :
    (h.constraints y t).Pairwise (· < ·) := by
  obtain ⟨r, hr, ha⟩ := w.skel.exists_root y
  have hlt := w.skel.anc_lt ha hy
  obtain ⟨n, hn⟩ := w.skel.exists_at ha
  unfold constraints
  apply Iop.sorted_get
  by_cases hyr : y = r
  · subst hyr; exact w.dict y hlt hr
  · rw [w.view r y n hlt hr hn hyr]; exact w.dict r hlt hr

/-- Same elements, same array. -/
theorem WF.constraints_eq {h h' : Heap T} (w : WF h) (w' : WF h') {y y' : Id} (hy : y < h.next)
    (hy' : y' < h'.next) {t t' : Con T}
    (he : ∀ i, i ∈ h'.constraints y' t' ↔ i ∈ h.constraints y t) :
    h'.constraints y' t' = h.constraints y t :=
  IndexOps.sorted_ext (w'.sorted_constraints hy' t') (w.sorted_constraints hy t) he

/-! ### Reading through an insertion -/

/-- If `h'` is `h` with the tree of `x` inserted below `p`, and the dictionary of the receiving root is
the old one with a gap opened at the insertion point and filled with the dictionary of `x`, then every
object that is not above the insertion point reads the same constraints in both. -/
theorem ins_constraints {h h' : Heap T} (w : WF h) (w' : WF h') {p x r o : Nat} {A B : List Id}
    (i : Ins h.toGraph h'.toGraph p x A B) (hxlt : x < h.next)
    (hr : h.parent r = none) (hrlt : r < h.next) (hp : At h.toGraph r p o)
    (hd : ∀ t j, j ∈ lookup (h'.dicts (h'.iop r).1) t ↔
      (j < o + h.toGraph.sizeSum A ∧ j ∈ lookup (h.dicts (h.iop r).1) t) ∨
      (o + h.toGraph.sizeSum A + h.size x ≤ j ∧ j - h.size x ∈ lookup (h.dicts (h.iop r).1) t) ∨
      (o + h.toGraph.sizeSum A ≤ j ∧ j < o + h.toGraph.sizeSum A + h.size x ∧
        j - (o + h.toGraph.sizeSum A) ∈ lookup (h.dicts (h.iop x).1) t))
    (ho : ∀ r', r' < h.next → h.parent r' = none → r' ≠ r → r' ≠ x → ∀ t,
      lookup (h'.dicts (h'.iop r').1) t = lookup (h.dicts (h.iop r').1) t)
    {y : Id} (hy : y < h.next) (hyp : ¬ Anc h.toGraph y p) (t : Con T) :
    h'.constraints y t = h.constraints y t := by
  have hnx : h'.next = h.next := i.next
  apply w.constraints_eq w' hy (by rw [hnx]; exact hy)
  intro k
  have hrx : r ≠ x := by
    rintro rfl; exact i.notanc (hp.anc w.skel)
  have hr' : h'.parent r = none := by
    rw [show h'.parent r = h.parent r from i.parent_ne r hrx]; exact hr
  have hsz : h'.size y = h.size y := i.size_not y hyp
  have hbx := w.bound x hxlt i.root t
  obtain ⟨q, hq, hqa⟩ := w.skel.exists_root y
  have hqlt := w.skel.anc_lt hqa hy
  obtain ⟨n, hn⟩ := w.skel.exists_at hqa
  rw [w.mem_constraints hqlt hq hn]
  have hwin := hn.window w.skel w.sized
  by_cases hqx : q = x
  · subst hqx
    have h1 : At h'.toGraph r p o := (i.at_tree w.skel w.sized hp hp).1 .refl
    have h2 := (At.step h1 i.kids_p').trans (i.at_sub w.skel hn)
    rw [i.sum_same (i.kids_not_anc w.skel).1] at h2
    rw [w'.mem_constraints (by rw [hnx]; exact hrlt) hr' h2, hsz, hd]
    constructor
    · rintro ⟨h3, h4⟩
      refine ⟨h3, ?_⟩
      rcases h4 with h4 | h4 | h4
      · omega
      · omega
      · convert h4.2.2 using 1; omega
    · rintro ⟨h3, h4⟩
      refine ⟨h3, .inr (.inr ⟨by omega, by omega, ?_⟩)⟩
      convert h4 using 1; omega
  · by_cases hqr : q = r
    · subst hqr
      have key := (i.at_tree w.skel w.sized hp hn).2 hyp
      have hlt' : q < h'.next := by rw [hnx]; exact hqlt
      rcases key with ⟨h1, h2⟩ | ⟨h1, h2⟩
      · rw [w'.mem_constraints hlt' hr' h1, hsz, hd]
        constructor
        · rintro ⟨h3, h4⟩
          refine ⟨h3, ?_⟩
          rcases h4 with h4 | h4 | h4
          · exact h4.2
          · omega
          · omega
        · rintro ⟨h3, h4⟩
          exact ⟨h3, .inl ⟨by omega, h4⟩⟩
      · rw [w'.mem_constraints hlt' hr' h1, hsz, hd]
        constructor
        · rintro ⟨h3, h4⟩
          refine ⟨h3, ?_⟩
          rcases h4 with h4 | h4 | h4
          · omega
          · convert h4.2 using 1; omega
          · omega
        · rintro ⟨h3, h4⟩
          refine ⟨h3, .inr (.inl ⟨by omega, ?_⟩)⟩
          convert h4 using 1; omega
    · have hqp : ¬ Anc h.toGraph q p := fun ha =>
        hqr (Graph.root_unique hq hr ha (hp.anc w.skel))
      have h1 := i.at_other w.skel hqp hn
      have hq' : h'.parent q = none := by
        rw [show h'.parent q = h.parent q from i.parent_ne q hqx]; exact hq
      rw [w'.mem_constraints (by rw [hnx]; exact hqlt) hq' h1, hsz, ho q hqlt hq hqr hqx]

end Heap

end Paramz.Hier

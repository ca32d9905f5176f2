import Verif.Opt.PartLemmas

/-! Helper lemmas: when the copy and the mask of a node are right. -/

set_option linter.unusedSectionVars false

namespace Paramz.Opt

open IndexOps (Arr lookup)
open Hier (Heap Con Id upd upd_same upd_ne)
open Hier.Heap (Target Reach Same Ctx Covers)
open Hier.Graph (Anc At)
open Notify (changedOf Awake Above)

variable {V T : Type} [DecidableEq T]

/-! ### Masks of objects below the root -/

theorem setRootMask_fixes (h : Heap T) (x : Target) (ind : Arr) (b : Bool) {y : Id}
    (hy : y ≠ h.toGraph.highest x.obj) :
    (h.setRootMask x ind b).toGraph = h.toGraph ∧ (h.setRootMask x ind b).fixes y = h.fixes y := by
  unfold Heap.setRootMask
  split
  · exact ⟨rfl, rfl⟩
  · exact ⟨rfl, upd_ne _ _ hy⟩

theorem unconstrainOne_fixes (h : Heap T) (x : Target) (t : Con T) {y : Id} (hy : y ≠ h.toGraph.highest x.obj) :
    (h.unconstrainOne x t).toGraph = h.toGraph ∧ (h.unconstrainOne x t).fixes y = h.fixes y := by
  simp only [Heap.unconstrainOne]
  split
  · exact setRootMask_fixes _ x _ _ (y := y) hy
  · exact ⟨rfl, rfl⟩

theorem unconstrain_fixes (h : Heap T) (x : Target) (ts : List (Con T)) {y : Id}
    (hy : y ≠ h.toGraph.highest x.obj) :
    (h.unconstrain x ts).toGraph = h.toGraph ∧ (h.unconstrain x ts).fixes y = h.fixes y := by
  unfold Heap.unconstrain
  generalize (if ts = [] then (h.iop x.obj).2.properties (h.dicts (h.iop x.obj).1) else ts) = l
  suffices hh : ∀ (l : List (Con T)) (h' : Heap T), h'.toGraph = h.toGraph → h'.fixes y = h.fixes y →
      (l.foldl (fun h t => h.unconstrainOne x t) h').toGraph = h.toGraph ∧
      (l.foldl (fun h t => h.unconstrainOne x t) h').fixes y = h.fixes y from hh l h rfl rfl
  intro l
  induction l with
  | nil => exact fun h' e1 e2 => ⟨e1, e2⟩
  | cons t l ih =>
    intro h' e1 e2
    obtain ⟨g1, g2⟩ := unconstrainOne_fixes h' x t (y := y) (by rw [e1]; exact hy)
    exact ih _ (g1.trans e1) (g2.trans e2)

theorem fix_fixes (h : Heap T) (x : Target) {y : Id} (hy : y ≠ h.toGraph.highest x.obj) :
    (h.fix x).fixes y = h.fixes y := (setRootMask_fixes (h.addCon x .fixed) x _ _ (y := y) hy).2

theorem unfix_fixes (h : Heap T) (x : Target) {y : Id} (hy : y ≠ h.toGraph.highest x.obj) :
    (h.unfix x).fixes y = h.fixes y := by
  obtain ⟨g1, g2⟩ := unconstrain_fixes h x [.fixed] hy
  simp only [Heap.unfix]
  rw [(setRootMask_fixes (h.unconstrain x [.fixed]) x _ _ (y := y) (by rw [g1]; exact hy)).2, g2]

theorem constrain_fixes (h : Heap T) (x : Target) (c : Con T) {y : Id} (hy : y ≠ h.toGraph.highest x.obj) :
    (h.constrain x c).fixes y = h.fixes y := by
  cases c with
  | fixed => exact fix_fixes h x hy
  | tr t => exact (unconstrain_fixes h x [] hy).2

theorem Sound.highest {w : Whole V T} (s : Sound w) {m : Id} (hm : w.Has m) : w.heap.toGraph.highest m = w.root :=
  s.wf.skel.highest_eq s.root hm

/-! ### Elements -/

/-- All elements of a wholly fixed object are fixed. -/
theorem Sound.fixed_window {w : Whole V T} (s : Sound w) {x : Id} (hx : w.Has x) (hf : w.heap.isFixed x = true)
    {j : Nat} (hj : w.Window x j) : j ∈ (w.object w.root).cons .fixed := by
  obtain ⟨i, rfl⟩ : ∃ i, j = w.start x + i := ⟨j - w.start x, by have := hj.1; omega⟩
  have hi : i < w.heap.size x := by have := hj.2; omega
  obtain ⟨y, n, hat, hl, h1, h2⟩ := s.wf.skel.exists_leaf s.wf.sized x i hi
  have hy : w.Has y := hx.trans (hat.anc s.wf.skel)
  have hsy : w.start y = w.start x + n := s.wf.skel.at_unique (s.pos hy) ((s.pos hx).trans hat)
  have hk := (Hier.Heap.isFixed_iff s.reach (s.has_lt hx)).mp hf y (hat.anc s.wf.skel) hl (i - n) (by omega)
  have := ((s.mem_cons hy).mp hk).2
  rw [hsy] at this
  have e : w.start x + n + (i - n) = w.start x + i := by omega
  rwa [e] at this

/-- Objects that are not above each other share no elements. -/
theorem Sound.disjoint {w : Whole V T} (s : Sound w) {x m : Id} (hx : w.Has x) (hm : w.Has m)
    (h1 : ¬ Anc w.heap.toGraph x m) (h2 : ¬ Anc w.heap.toGraph m x) {j : Nat} (hj : w.Window x j) :
    ¬ w.Window m j := by
  rintro ⟨a, b⟩
  obtain ⟨c, d⟩ := hj
  rcases (s.pos hx).disjoint s.wf.skel s.wf.sized (s.pos hm) h1 h2 with h | h <;> omega

/-- What an object sees depends only on the elements of its window. -/
theorem object_vals_congr {w w' : Whole V T} {x : Id} (h1 : w'.start x = w.start x)
    (h2 : w'.heap.size x = w.heap.size x) (h : ∀ j, w.Window x j → w'.vals[j]? = w.vals[j]?) :
    (w'.object x).vals = (w.object x).vals := by
  apply List.ext_getElem?
  intro i
  rw [getElem?_object, getElem?_object, h1, h2]
  split
  · exact h _ ⟨by omega, by omega⟩
  · rfl

/-- The setter of any object changes free elements of its window only. -/
theorem put_other (o : Ops V T) {w : Whole V T} (s : Sound w) {x : Id} (hx : w.Has x) (p : List V) {j : Nat}
    (hj : ¬ w.Window x j ∨ j ∈ (w.object w.root).cons .fixed) : (w.put o x p).vals[j]? = w.vals[j]? := by
  have hl := setVals_fits o s hx p
  have hw := s.window hx
  show (Whole.splice w.vals (w.start x) ((w.object x).setVals o p))[j]? = _
  rw [getElem?_splice (by omega), hl]
  split
  · rename_i hwin
    have hf : j ∈ (w.object w.root).cons .fixed := by
      rcases hj with h | h
      · exact absurd hwin h
      · exact h
    have hi : j - w.start x ∈ (w.object x).cons .fixed := by
      rw [s.mem_cons hx]
      refine ⟨by omega, ?_⟩
      have e : w.start x + (j - w.start x) = j := by omega
      rw [e]; exact hf
    rw [(setVals_held o (s.held hx) (s.setterMask hx) p).2.1 _ hi, getElem?_object, if_pos (by omega)]
    congr 1; omega
  · rfl

/-- Writing changes the given elements only. -/
theorem put_outside {a : List V} {ind : Arr} {vs : List V} {j : Nat} (hj : j ∉ ind) : (put a ind vs)[j]? = a[j]? := by
  unfold put
  induction ind generalizing a vs with
  | nil => rfl
  | cons i ind ih =>
    cases vs with
    | nil => rfl
    | cons v vs =>
      rw [List.zip_cons_cons, List.foldl_cons, ih (fun h => hj (by simp [h])),
        List.getElem?_set_ne (by rintro rfl; simp at hj)]

theorem Same.start {w w' : Whole V T} (sm : Same w.heap w'.heap) (hr : w'.root = w.root) (x : Id) :
    w'.start x = w.start x := by
  unfold Whole.start; rw [sm.graph, hr]

/-! ### The invariant -/

/-- Copy and mask of `x` are right. -/
structure Part (o : Ops V T) (w : Whole V T) (x : Id) : Prop where
  copy : Coherent o (w.object x)
  mask : x = w.root ∨ ∀ m, w.heap.fixes x = some m → m = Heap.maskOf (w.heap.size x) (w.heap.constraints x .fixed)
  on : w.on = true

theorem Part.ensure {o : Ops V T} {w : Whole V T} {x : Id} (p : Part o w x) (s : Sound w) (hn : w.heap.leaf x = false)
    (hf : (w.object x).hasFixes = true) :
    w.heap.ensureFixes x = Heap.maskOf (w.heap.size x) (w.heap.constraints x .fixed) := by
  rcases p.mask with rfl | h
  · exact s.ready.ensureFixes_eq hf
  · unfold Heap.ensureFixes
    rw [hn]
    cases hm : w.heap.fixes x with
    | none => rfl
    | some m =>
      simp only [Bool.false_eq_true, if_false]
      rw [h m hm]; simp

theorem coherent_part {o : Ops V T} {w w' : Whole V T} {x : Id} (s : Sound w) (s' : Sound w') (hx : w.Has x)
    (hx' : w'.Has x) (hc : w'.copies x = w.copies x) (hf : w'.fresh x = true → w.fresh x = true ∧
      (w'.object x).vals = (w.object x).vals ∧
      ∀ t i, i ∈ (w'.object x).cons (.tr t) ↔ i ∈ (w.object x).cons (.tr t))
    (h : Coherent o (w.object x)) : Coherent o (w'.object x) := by
  intro hfr
  obtain ⟨h1, h2, h3⟩ := hf hfr
  show w'.copies x = _
  rw [hc, optCopy_congr o (s.held hx) (s'.held hx') h2 h3]
  exact h h1

theorem tell_fresh {w : Whole V T} {l : List Notify.Call} {x : Id} (h : (w.tell l).fresh x = true) :
    x ∉ changedOf l ∧ w.fresh x = true := by
  have h : (if x ∈ changedOf l then false else w.fresh x) = true := h
  split at h
  · cases h
  · exact ⟨‹_›, h⟩

end Paramz.Opt

import Verif.Opt.CheckGradProps
import Verif.Concat.Constrain

/-!
# `checkgrad` of several parameters at once (C105)

Source: `paramz/param.py:399-409, 503-504`, `paramz/core/indexable.py:150-184`, `paramz/model.py:284-408`.
-/

set_option linter.unusedSectionVars false

namespace Paramz.Opt

open IndexOps (Arr)
open Hier (Heap Con Id)
open Hier.Heap (Target)
open Hier.Graph (At Anc Skel)

variable {V T : Type} [DecidableEq T]

/-! ### Model -/

/-- `_raveled_index_for(c)` for a concatenation of the `Param`s `ps` (indexable.py:159-161). `np.hstack` is given a
generator there; this is for versions of numpy that accept one. -/
def State.raveledForMany (s : State V T) (ps : List Id) : Arr := ps.flatMap fun p => s.raveledFor ⟨p, none⟩

/-- `_raveled_index_for_transformed(c)` (indexable.py:164-184). -/
def State.raveledForTransformedMany (s : State V T) (ps : List Id) : Arr :=
  if s.hasFixes then
    let fixes := (s.heap.fixes s.root).getD []
    let transformed := List.zipWith (· - ·) (List.range s.size) (State.cumFixed 0 fixes)
    pick transformed ((s.raveledForMany ps).filter (fun i => fixes.getD i true))
  else s.raveledForMany ps

section

variable (o : Ops (Option ℝ) T) (g : List (Option ℝ) → List (Option ℝ))
  (F : List (Option ℝ) → Option ℝ) (step tol : ℝ)

/-- `_checkgrad(target, verbose=True)` (model.py:310, 341-408), whatever the target is: `ind` is
`_raveled_index_for_transformed(target)`. -/
noncomputable def State.checkVerboseFor (junk : List (Option ℝ)) (s : State (Option ℝ) T)
    (ind : State (Option ℝ) T → Arr) : State (Option ℝ) T × Bool :=
  let r := s.readOpt o junk
  let idx := ind r.1
  if idx = [] then (r.1, true)
  else
    let gr := r.1.grads o g r.2
    let e := checkEach o g F step tol r.2 gr.2 idx gr.1 true
    (e.1.setOpt o g r.2, e.2)

/-- `_checkgrad(target)` (model.py:310-340). -/
noncomputable def State.checkQuickFor (signs : List ℝ) (junk : List (Option ℝ)) (s : State (Option ℝ) T)
    (ind : State (Option ℝ) T → Arr) : State (Option ℝ) T × Bool :=
  let r := s.readOpt o junk
  let idx := ind r.1
  if idx = [] then (r.1, true)
  else
    let dx := steps step signs r.2.length idx
    let a := r.1.objective o g F (shift r.2 dx)
    let b := a.1.objective o g F (shift r.2 (dx.map (- ·)))
    let gr := b.1.grads o g r.2
    (gr.1, quickVerdict tol a.2 b.2 (idx.map (fun k => dx.getD k 0))
      (collect (idx.map (fun k => (gr.2[k]?).getD none))))

/-- `c.checkgrad(verbose=True)` for the concatenation of the selected objects `l` of a model (param.py:503-504). `none`:
there are no `Param`s, and `self.params[0]` raises `IndexError`. Simplified: the hierarchy is the one `c` was made in. -/
noncomputable def State.checkVerboseMany (junk : List (Option ℝ)) (s : State (Option ℝ) T) (l : List Id) :
    Option (State (Option ℝ) T × Bool) :=
  match (Concat.Cat.ofObjects s.heap.toGraph l).params with
  | [] => none
  | p :: ps => some (s.checkVerboseFor o g F step tol junk fun t => t.raveledForTransformedMany (p :: ps))

/-- `c.checkgrad()` (param.py:503-504). -/
noncomputable def State.checkQuickMany (signs : List ℝ) (junk : List (Option ℝ)) (s : State (Option ℝ) T) (l : List Id) :
    Option (State (Option ℝ) T × Bool) :=
  match (Concat.Cat.ofObjects s.heap.toGraph l).params with
  | [] => none
  | p :: ps => some (s.checkQuickFor o g F step tol signs junk fun t => t.raveledForTransformedMany (p :: ps))

/-- On one object they are the checks of C57 and C58. -/
theorem checkFor_one (signs : List ℝ) (junk : List (Option ℝ)) (s : State (Option ℝ) T) (y : Target) :
    s.checkVerboseFor o g F step tol junk (·.raveledForTransformed y) = s.checkVerbose o g F step tol junk y ∧
    s.checkQuickFor o g F step tol signs junk (·.raveledForTransformed y) = s.checkQuick o g F step tol signs junk y :=
  ⟨rfl, rfl⟩

end

/-! ### Positions -/

theorem many_positions (s : State V T) (ps : List Id) :
    s.raveledForTransformedMany ps = ps.flatMap fun p => s.raveledForTransformed ⟨p, none⟩ := by
  unfold State.raveledForTransformedMany State.raveledForTransformed State.raveledForMany
  split
  · simp only [pick, List.filter_flatMap, List.filterMap_flatMap]
  · rfl

/-- The positions of the vector that belong to an object: those of its free elements. -/
theorem mem_transformed {s : State V T} (r : Ready s) {z : Id} {m : Nat} (hz : At s.heap.toGraph s.root z m) (q : Nat) :
    q ∈ s.raveledForTransformed ⟨z, none⟩ ↔ ∃ i : Nat, (free s)[q]? = some i ∧ m ≤ i ∧ i < m + s.heap.size z := by
  have w := r.wf
  have hnd : (free s).Nodup := List.Nodup.filter _ List.nodup_range
  obtain ⟨hlen, hp⟩ := transformed_positions r hz
  constructor
  · intro hmem
    obtain ⟨j, hj⟩ := List.mem_iff_getElem?.mp hmem
    have hjl : j < ((List.range (s.heap.size z)).filter
        (fun k => decide (k ∉ s.heap.constraints z .fixed))).length := by
      rw [← hlen]; exact (List.getElem?_eq_some_iff.mp hj).1
    have hk := List.getElem?_eq_getElem hjl
    obtain ⟨q', hq', hfr⟩ := hp j _ hk
    rw [hj] at hq'; cases hq'
    have hks := List.mem_range.mp (List.mem_filter.mp (List.mem_of_getElem? hk)).1
    exact ⟨_, hfr, by omega, by omega⟩
  · rintro ⟨i, hqi, ha, hb⟩
    have hfree := mem_free.mp (List.mem_of_getElem? hqi)
    have hk : i - m < s.heap.size z := by omega
    have hfx : i - m ∉ s.heap.constraints z .fixed := by
      intro hc
      rw [w.mem_constraints r.lt r.root hz, ← r.cons_eq] at hc
      exact hfree.2 (by have := hc.2; rwa [show i - m + m = i by omega] at this)
    have hmem : i - m ∈ (List.range (s.heap.size z)).filter
        (fun k => decide (k ∉ s.heap.constraints z .fixed)) := by
      rw [List.mem_filter]; exact ⟨List.mem_range.mpr hk, by simpa using hfx⟩
    obtain ⟨j, hj⟩ := List.mem_iff_getElem?.mp hmem
    obtain ⟨q', hq', hfr⟩ := hp j _ hj
    rw [show m + (i - m) = i by omega] at hfr
    have hq'l := (List.getElem?_eq_some_iff.mp hfr).1
    have : q' = q := by
      apply (List.getElem?_inj hq'l hnd).mp
      rw [hfr, hqi]
    rw [← this]
    exact List.mem_of_getElem? hq'

/-- The positions of an object are those of the `Param`s at or below it. -/
theorem mem_transformed_leaves {s : State V T} (r : Ready s) {x : Id} (hx : Anc s.heap.toGraph s.root x) (q : Nat) :
    q ∈ s.raveledForTransformed ⟨x, none⟩ ↔
      ∃ y, s.heap.leaf y = true ∧ Anc s.heap.toGraph x y ∧ q ∈ s.raveledForTransformed ⟨y, none⟩ := by
  have w := r.wf
  obtain ⟨n, hn⟩ := w.skel.exists_at hx
  constructor
  · intro h
    obtain ⟨i, hi, h1, h2⟩ := (mem_transformed r hn q).mp h
    obtain ⟨y, ⟨hl, m, hm, h3, h4⟩, -⟩ := Hier.Heap.leaves_tile r.reach x (i - n) (by omega)
    exact ⟨y, hl, hm.anc w.skel, (mem_transformed r (hn.trans hm) q).mpr ⟨i, hi, by omega, by omega⟩⟩
  · rintro ⟨y, -, hy, h⟩
    obtain ⟨m, hm⟩ := w.skel.exists_at hy
    obtain ⟨i, hi, h1, h2⟩ := (mem_transformed r (hn.trans hm) q).mp h
    have hwin := hm.window w.skel w.sized
    have e1 : s.heap.toGraph.size y = s.heap.size y := rfl
    have e2 : s.heap.toGraph.size x = s.heap.size x := rfl
    exact (mem_transformed r hn q).mpr ⟨i, hi, by omega, by omega⟩

theorem transformed_nodup {s : State V T} (r : Ready s) {z : Id} {m : Nat} (hz : At s.heap.toGraph s.root z m) :
    (s.raveledForTransformed ⟨z, none⟩).Nodup := by
  obtain ⟨hlen, hp⟩ := transformed_positions r hz
  rw [List.nodup_iff_getElem?_ne_getElem?]
  intro i j hij hj he
  have nd : ((List.range (s.heap.size z)).filter (fun k => decide (k ∉ s.heap.constraints z .fixed))).Nodup :=
    List.Nodup.filter _ List.nodup_range
  have hi' := List.getElem?_eq_getElem (l := (List.range (s.heap.size z)).filter
    (fun k => decide (k ∉ s.heap.constraints z .fixed))) (i := i) (by omega)
  have hj' := List.getElem?_eq_getElem (l := (List.range (s.heap.size z)).filter
    (fun k => decide (k ∉ s.heap.constraints z .fixed))) (i := j) (by omega)
  obtain ⟨q, hq, hf⟩ := hp i _ hi'
  obtain ⟨q', hq', hf'⟩ := hp j _ hj'
  rw [← he, hq] at hq'
  cases hq'
  rw [hf] at hf'
  have h1 := Option.some.inj hf'
  have := (List.getElem?_inj (i := i) (j := j) (by omega) nd).mp (by rw [hi', hj']; congr 1; omega)
  omega

/-- The positions that are checked for several objects: those of the free elements of all of them, each of them once,
also when an object and another one below it are selected. -/
theorem many_checked {s : State V T} (r : Ready s) {l : List Id} (hl : ∀ x ∈ l, Anc s.heap.toGraph s.root x) :
    (s.raveledForTransformedMany (Concat.Cat.ofObjects s.heap.toGraph l).params).Nodup ∧
    ∀ q, q ∈ s.raveledForTransformedMany (Concat.Cat.ofObjects s.heap.toGraph l).params ↔
      ∃ x ∈ l, q ∈ s.raveledForTransformed ⟨x, none⟩ := by
  have w := r.wf
  have anc : ∀ y ∈ (Concat.Cat.ofObjects s.heap.toGraph l).params,
      s.heap.leaf y = true ∧ Anc s.heap.toGraph s.root y := by
    intro y hy
    obtain ⟨h1, x, hx, h2⟩ := (Concat.mem_ofObjects w.skel).mp hy
    exact ⟨h1, (hl x hx).trans h2⟩
  rw [many_positions]
  constructor
  · rw [List.nodup_flatMap]
    constructor
    · intro y hy
      obtain ⟨m, hm⟩ := w.skel.exists_at (anc y hy).2
      exact transformed_nodup r hm
    · have nd : (Concat.Cat.ofObjects s.heap.toGraph l).params.Nodup := Concat.collect_nodup _
      refine List.Pairwise.imp_of_mem ?_ nd
      intro a b ha hb hab q h1 h2
      obtain ⟨m, hm⟩ := w.skel.exists_at (anc a ha).2
      obtain ⟨i, hi, -⟩ := (mem_transformed r hm q).mp h1
      obtain ⟨y, -, hu⟩ := transformed_positions_partition r (List.getElem?_eq_some_iff.mp hi).1
      exact hab ((hu a ⟨(anc a ha).1, (anc a ha).2, h1⟩).trans (hu b ⟨(anc b hb).1, (anc b hb).2, h2⟩).symm)
  · intro q
    rw [List.mem_flatMap]
    constructor
    · rintro ⟨y, hy, hq⟩
      obtain ⟨h1, x, hx, h2⟩ := (Concat.mem_ofObjects w.skel).mp hy
      exact ⟨x, hx, (mem_transformed_leaves r (hl x hx) q).mpr ⟨y, h1, h2, hq⟩⟩
    · rintro ⟨x, hx, hq⟩
      obtain ⟨y, h1, h2, h3⟩ := (mem_transformed_leaves r (hl x hx) q).mp hq
      exact ⟨y, (Concat.mem_ofObjects w.skel).mpr ⟨h1, x, hx, h2⟩, h3⟩

/-! ### C105 -/

section

variable (o : Ops (Option ℝ) T) (g : List (Option ℝ) → List (Option ℝ))
  (F : List (Option ℝ) → Option ℝ) (step tol : ℝ)

theorem verboseFor_answer {s : State (Option ℝ) T} (r : Ready s) (hc : Coherent o s) (junk : List (Option ℝ))
    (ind : State (Option ℝ) T → Arr) :
    (s.checkVerboseFor o g F step tol junk ind).2 = true ↔ ∀ k ∈ ind (s.readOpt o junk).1,
      passes step tol (F (s.setVals o (bump (s.readOpt o junk).2 k step)))
        (F (s.setVals o (bump (s.readOpt o junk).2 k (-step))))
        ((((s.readOpt o junk).1.grads o g (s.readOpt o junk).2).2[k]?).getD none) = true := by
  have hl : (s.readOpt o junk).2.length = (free s).length := (readOpt_lists r hc junk).2.1
  unfold State.checkVerboseFor
  simp only
  split
  · rename_i he
    rw [he]; simp
  · have ha : Alike s ((s.readOpt o junk).1.grads o g (s.readOpt o junk).2).1 :=
      ((Alike.read o r junk).set o g _).optGrad o
    have := checkEach_answer o g F step tol r (s.readOpt o junk).2
      ((s.readOpt o junk).1.grads o g (s.readOpt o junk).2).2 hl (ind (s.readOpt o junk).1) _ true ha
    simpa using this

theorem checkFor_vals {s : State (Option ℝ) T} (r : Ready s) (hc : Coherent o s)
    (signs : List ℝ) (junk : List (Option ℝ)) (ind : State (Option ℝ) T → Arr) :
    (s.checkVerboseFor o g F step tol junk ind).1.vals =
      (if ind (s.readOpt o junk).1 = [] then s.vals else s.setVals o (s.readOpt o junk).2) ∧
    (s.checkQuickFor o g F step tol signs junk ind).1.vals =
      (if ind (s.readOpt o junk).1 = [] then s.vals else s.setVals o (s.readOpt o junk).2) := by
  have h0 := Alike.read o r junk
  have hl : (s.readOpt o junk).2.length = (free s).length := (readOpt_lists r hc junk).2.1
  have hr : (s.readOpt o junk).1.vals = s.vals := by rw [readOpt_state (o := o) r junk]
  constructor
  · unfold State.checkVerboseFor
    simp only
    split
    · exact hr
    · rw [setOpt_vals]
      have ha : Alike s ((s.readOpt o junk).1.grads o g (s.readOpt o junk).2).1 :=
        (h0.set o g _).optGrad o
      rw [(checkEach_alike o g F step tol _ _ _ _ _ ha).setVals o r hl]
  · unfold State.checkQuickFor
    simp only
    split
    · exact hr
    · have ha : Alike s
          (((s.readOpt o junk).1.objective o g F (shift (s.readOpt o junk).2
            (steps step signs (s.readOpt o junk).2.length (ind (s.readOpt o junk).1)))).1.objective
            o g F (shift (s.readOpt o junk).2
            ((steps step signs (s.readOpt o junk).2.length (ind (s.readOpt o junk).1)).map
              (- ·)))).1 := (h0.set o g _).set o g _
      show (State.setOpt o g _ _).vals = _
      rw [setOpt_vals, ha.setVals o r hl]

theorem quickFor_answer {s : State (Option ℝ) T} (r : Ready s) (hc : Coherent o s) (hon : s.on = true)
    (hg : ∀ a, (g a).length = a.length) (signs : List ℝ) (junk : List (Option ℝ)) (ind : State (Option ℝ) T → Arr) :
    let x := (s.readOpt o junk).2
    let idx := ind (s.readOpt o junk).1
    let dx := steps step signs x.length idx
    (s.checkQuickFor o g F step tol signs junk ind).2 = true ↔ idx = [] ∨
      quickVerdict tol (s.objective o g F (shift x dx)).2 (s.objective o g F (shift x (dx.map (- ·)))).2
        (idx.map (fun k => dx.getD k 0))
        (collect (idx.map (fun k => ((s.grads o g x).2[k]?).getD none))) = true := by
  intro x idx dx
  have h0 := Alike.read o r junk
  have hl' : x.length = (free s).length := (readOpt_lists r hc junk).2.1
  have hdx : dx.length = x.length := by
    have : ∀ (L : List (Nat × Nat)) (a : List ℝ) (f : Nat × Nat → ℝ),
        (L.foldl (fun dx e => dx.set e.1 (f e)) a).length = a.length := by
      intro L
      induction L with
      | nil => intro a f; rfl
      | cons e L ih => intro a f; rw [List.foldl_cons, ih, List.length_set]
    show (steps step signs x.length idx).length = _
    unfold steps
    simp only
    rw [this, List.length_replicate]
  have hs1 : (shift x dx).length = (free s).length := by simp [shift, hdx, hl']
  have hs2 : (shift x (dx.map (- ·))).length = (free s).length := by simp [shift, hdx, hl']
  have a1 := h0.set o g (shift x dx)
  have a2 := a1.set o g (shift x (dx.map (- ·)))
  have e1 : ((s.readOpt o junk).1.setOpt o g (shift x dx)).vals = (s.setOpt o g (shift x dx)).vals := by
    rw [setOpt_vals, setOpt_vals, h0.setVals o r hs1]
  have e2 : (((s.readOpt o junk).1.setOpt o g (shift x dx)).setOpt o g (shift x (dx.map (- ·)))).vals =
      (s.setOpt o g (shift x (dx.map (- ·)))).vals := by
    rw [setOpt_vals, setOpt_vals, a1.setVals o r hs2]
  have e3 := a2.grads o g r hon hg hl'
  unfold State.checkQuickFor
  simp only
  split
  · rename_i he
    simp only [true_iff]
    exact Or.inl he
  · rename_i he
    rw [or_iff_right he]
    simp only [State.objective]
    show quickVerdict tol (F ((s.readOpt o junk).1.setOpt o g (shift x dx)).vals)
      (F (((s.readOpt o junk).1.setOpt o g (shift x dx)).setOpt o g (shift x (dx.map (- ·)))).vals)
      (idx.map (fun k => dx.getD k 0)) (collect (idx.map (fun k =>
        (((((s.readOpt o junk).1.setOpt o g (shift x dx)).setOpt o g (shift x (dx.map (- ·)))).grads o g x).2[k]?).getD none))) =
      true ↔ _
    rw [e1, e2, e3]

theorem many_eq {s : State (Option ℝ) T} (r : Ready s) {l : List Id}
    (hp : ∃ x ∈ l, ∃ y, Anc s.heap.toGraph x y ∧ s.heap.leaf y = true) (signs : List ℝ) (junk : List (Option ℝ)) :
    s.checkVerboseMany o g F step tol junk l = some (s.checkVerboseFor o g F step tol junk
      fun t => t.raveledForTransformedMany (Concat.Cat.ofObjects s.heap.toGraph l).params) ∧
    s.checkQuickMany o g F step tol signs junk l = some (s.checkQuickFor o g F step tol signs junk
      fun t => t.raveledForTransformedMany (Concat.Cat.ofObjects s.heap.toGraph l).params) := by
  obtain ⟨x, hx, y, h1, h2⟩ := hp
  have hm := (Concat.mem_ofObjects r.wf.skel).mpr ⟨h2, x, hx, h1⟩
  unfold State.checkVerboseMany State.checkQuickMany
  cases he : (Concat.Cat.ofObjects s.heap.toGraph l).params with
  | nil => rw [he] at hm; simp at hm
  | cons p ps => exact ⟨rfl, rfl⟩

/-- C105: the individual check of several objects answers yes exactly if that of every one of them does. -/
theorem verbose_many {s : State (Option ℝ) T} (r : Ready s) (hc : Coherent o s) (junk : List (Option ℝ)) {l : List Id}
    (hl : ∀ x ∈ l, Anc s.heap.toGraph s.root x)
    (hp : ∃ x ∈ l, ∃ y, Anc s.heap.toGraph x y ∧ s.heap.leaf y = true) :
    ∃ e, s.checkVerboseMany o g F step tol junk l = some e ∧
      (e.2 = true ↔ ∀ x ∈ l, (s.checkVerbose o g F step tol junk ⟨x, none⟩).2 = true) := by
  have hst := readOpt_state (o := o) r junk
  have r1 := readOpt_ready o r junk
  have e1 : (s.readOpt o junk).1.heap = s.heap := by rw [hst]
  have e2 : (s.readOpt o junk).1.root = s.root := by rw [hst]
  have hl1 : ∀ x ∈ l, Anc (s.readOpt o junk).1.heap.toGraph (s.readOpt o junk).1.root x := by rw [e1, e2]; exact hl
  refine ⟨_, (many_eq o g F step tol r hp [] junk).1, ?_⟩
  rw [verboseFor_answer o g F step tol r hc junk]
  have hm := (many_checked r1 hl1).2
  rw [e1] at hm
  constructor
  · intro h x hx
    rw [← (checkFor_one o g F step tol [] junk s ⟨x, none⟩).1, verboseFor_answer o g F step tol r hc junk]
    exact fun k hk => h k ((hm k).mpr ⟨x, hx, hk⟩)
  · intro h k hk
    obtain ⟨x, hx, hk⟩ := (hm k).mp hk
    have := h x hx
    rw [← (checkFor_one o g F step tol [] junk s ⟨x, none⟩).1, verboseFor_answer o g F step tol r hc junk] at this
    exact this k hk

/-- C105: what the quick check of several objects compares: the objectives with all free elements of all of them moved at
once, and the gradient for them. -/
theorem quick_many {s : State (Option ℝ) T} (r : Ready s) (hc : Coherent o s) (hon : s.on = true)
    (hg : ∀ a, (g a).length = a.length) (signs : List ℝ) (junk : List (Option ℝ)) {l : List Id}
    (hl : ∀ x ∈ l, Anc s.heap.toGraph s.root x)
    (hp : ∃ x ∈ l, ∃ y, Anc s.heap.toGraph x y ∧ s.heap.leaf y = true) :
    let x := (s.readOpt o junk).2
    ∃ e idx, s.checkQuickMany o g F step tol signs junk l = some e ∧ idx.Nodup ∧
      (∀ q, q ∈ idx ↔ ∃ y ∈ l, q ∈ (s.readOpt o junk).1.raveledForTransformed ⟨y, none⟩) ∧
      (e.2 = true ↔ idx = [] ∨
        quickVerdict tol (s.objective o g F (shift x (steps step signs x.length idx))).2
          (s.objective o g F (shift x ((steps step signs x.length idx).map (- ·)))).2
          (idx.map (fun k => (steps step signs x.length idx).getD k 0))
          (collect (idx.map (fun k => ((s.grads o g x).2[k]?).getD none))) = true) := by
  intro x
  have hst := readOpt_state (o := o) r junk
  have r1 := readOpt_ready o r junk
  have c1 : (s.readOpt o junk).1.heap = s.heap := by rw [hst]
  have c2 : (s.readOpt o junk).1.root = s.root := by rw [hst]
  have hl1 : ∀ x ∈ l, Anc (s.readOpt o junk).1.heap.toGraph (s.readOpt o junk).1.root x := by rw [c1, c2]; exact hl
  have hm := many_checked r1 hl1
  rw [c1] at hm
  refine ⟨_, _, (many_eq o g F step tol r hp signs junk).2, hm.1, hm.2, ?_⟩
  exact quickFor_answer o g F step tol r hc hon hg signs junk
    fun t => t.raveledForTransformedMany (Concat.Cat.ofObjects s.heap.toGraph l).params

/-- C105 (partial): every parameter keeps its value, under the conditions of C57. -/
theorem many_keeps_values_partial {s : State (Option ℝ) T} (r : Ready s) (hc : Coherent o s)
    (signs : List ℝ) (junk : List (Option ℝ)) {l : List Id}
    (hinv : ∀ i t v, i ∈ free s → i ∈ s.cons (.tr t) → s.vals[i]? = some v → o.f t (o.finv t v) = v)
    {e : State (Option ℝ) T × Bool}
    (he : s.checkVerboseMany o g F step tol junk l = some e ∨ s.checkQuickMany o g F step tol signs junk l = some e) :
    e.1.vals = s.vals := by
  have hback := read_then_set o g r hc junk hinv
  rw [setOpt_vals, (Alike.read o r junk).setVals o r (readOpt_lists r hc junk).2.1] at hback
  unfold State.checkVerboseMany State.checkQuickMany at he
  cases hps : (Concat.Cat.ofObjects s.heap.toGraph l).params with
  | nil => rw [hps] at he; simp at he
  | cons p ps =>
    rw [hps] at he
    obtain ⟨h1, h2⟩ := checkFor_vals o g F step tol r hc signs junk fun t => t.raveledForTransformedMany (p :: ps)
    rcases he with he | he
    · cases he
      rw [h1, hback, ite_self]
    · cases he
      rw [h2, hback, ite_self]

/-- C105 fails for objects without `Param`s at or below them: `IndexError`, although there is nothing that could be wrong;
the check of any one of them answers yes. -/
theorem many_empty_fails {s : State (Option ℝ) T} (r : Ready s) (signs : List ℝ) (junk : List (Option ℝ)) {l : List Id}
    (hl : ∀ x ∈ l, Anc s.heap.toGraph s.root x) (hp : ∀ x ∈ l, ∀ y, Anc s.heap.toGraph x y → s.heap.leaf y = false) :
    s.checkVerboseMany o g F step tol junk l = none ∧ s.checkQuickMany o g F step tol signs junk l = none ∧
    ∀ x ∈ l, (s.checkVerbose o g F step tol junk ⟨x, none⟩).2 = true ∧
      (s.checkQuick o g F step tol signs junk ⟨x, none⟩).2 = true := by
  have hn : (Concat.Cat.ofObjects s.heap.toGraph l).params = [] := by
    rw [List.eq_nil_iff_forall_not_mem]
    intro y hy
    obtain ⟨h1, x, hx, h2⟩ := (Concat.mem_ofObjects r.wf.skel).mp hy
    have := hp x hx y h2
    have h1 : s.heap.leaf y = true := h1
    rw [h1] at this
    cases this
  have hst := readOpt_state (o := o) r junk
  have r1 := readOpt_ready o r junk
  have c1 : (s.readOpt o junk).1.heap = s.heap := by rw [hst]
  have c2 : (s.readOpt o junk).1.root = s.root := by rw [hst]
  refine ⟨by unfold State.checkVerboseMany; rw [hn], by unfold State.checkQuickMany; rw [hn], fun x hx => ?_⟩
  have hi : (s.readOpt o junk).1.raveledForTransformed ⟨x, none⟩ = [] := by
    rw [List.eq_nil_iff_forall_not_mem]
    intro q hq
    obtain ⟨y, h1, h2, -⟩ := (mem_transformed_leaves r1 (by rw [c1, c2]; exact hl x hx) q).mp hq
    rw [c1] at h1 h2
    rw [hp x hx y h2] at h1
    cases h1
  constructor
  · unfold State.checkVerbose
    simp only [hi, if_true]
  · unfold State.checkQuick
    simp only [hi, if_true]

/-- A node, a `Param` inside it, and another `Param` of the model of the examples: every position once. -/
example : (Concat.Cat.ofObjects Hier.Heap.demo.toGraph [2, 3, 1]).params = [3, 4, 1] ∧
    demo.raveledForTransformedMany [3, 4, 1] = [2, 3, 4, 0, 1] := by
  decide +kernel

example (junk : List (Option ℝ)) : ∃ e, demoReal.checkVerboseMany (floatOps fun _ => .exponent) g F step tol junk [2, 3, 1] =
    some e ∧ (e.2 = true ↔ ∀ x ∈ [2, 3, 1],
      (demoReal.checkVerbose (floatOps fun _ => .exponent) g F step tol junk ⟨x, none⟩).2 = true) := by
  refine verbose_many _ g F step tol demoReal_ready (coherent_of_stale rfl) junk ?_ ⟨1, by simp, 1, .refl, ?_⟩
  · have h2 : Anc Hier.Heap.demo.toGraph 0 2 := .step .refl (by decide +kernel)
    intro x hx
    simp only [List.mem_cons, List.not_mem_nil, or_false] at hx
    rcases hx with rfl | rfl | rfl
    · exact h2
    · exact .step h2 (by decide +kernel)
    · exact .step .refl (by decide +kernel)
  · show Hier.Heap.demo.leaf 1 = true
    decide +kernel

/-- A model `0` with a `Param` `1` and two empty nodes `2` and `3`. -/
def bareHeap : Heap Nat := Hier.Heap.run Heap.empty
  [.newNode, .newParam 1, .newNode, .finishInit 2 true, .newNode, .finishInit 3 true, .link 0 1 none, .link 0 2 none,
   .link 0 3 none, .finishInit 0 true]

/-- Its state. -/
noncomputable def bareNodes : State (Option ℝ) Nat := ⟨bareHeap, 0, [some 1], [some 1], none, false, true⟩

theorem bare_ready : Ready bareNodes where
  reach := Hier.Heap.Reach.run (h := Heap.empty) .empty _ (by decide +kernel)
  lt := show 0 < bareHeap.next by decide +kernel
  root := show bareHeap.parent 0 = none by decide +kernel
  node := show bareHeap.leaf 0 = false by decide +kernel
  inInit := show bareHeap.inInit 0 = false by decide +kernel
  inited := show bareHeap.inited 0 = some true by decide +kernel
  vals := show 1 = bareHeap.size 0 by decide +kernel

/-- It meets the hypotheses. -/
example (signs : List ℝ) (junk : List (Option ℝ)) :
    bareNodes.checkVerboseMany (floatOps fun _ => .exponent) g F step tol junk [2, 3] = none ∧
    bareNodes.checkQuickMany (floatOps fun _ => .exponent) g F step tol signs junk [2, 3] = none := by
  have sk := bare_ready.wf.skel
  have no : ∀ x y, x = 2 ∨ x = 3 → Anc bareHeap.toGraph x y → y = x := by
    intro x y hx h
    induction h with
    | refl => rfl
    | step _ hp ih =>
      subst ih
      have := (sk.mem_iff _ _).mpr hp
      rcases hx with rfl | rfl
      · exact absurd this (by rw [show bareNodes.heap.toGraph.kids 2 = [] by decide +kernel]; simp)
      · exact absurd this (by rw [show bareNodes.heap.toGraph.kids 3 = [] by decide +kernel]; simp)
  obtain ⟨h1, h2, -⟩ := many_empty_fails (floatOps fun _ => .exponent) g F step tol bare_ready signs junk (l := [2, 3])
    (by
      intro x hx
      simp only [List.mem_cons, List.not_mem_nil, or_false] at hx
      rcases hx with rfl | rfl
      · exact .step .refl (show bareHeap.parent 2 = some 0 by decide +kernel)
      · exact .step .refl (show bareHeap.parent 3 = some 0 by decide +kernel))
    (by
      intro x hx y hy
      simp only [List.mem_cons, List.not_mem_nil, or_false] at hx
      rw [no x y hx hy]
      rcases hx with rfl | rfl
      · show bareHeap.leaf 2 = false
        decide +kernel
      · show bareHeap.leaf 3 = false
        decide +kernel)
  exact ⟨h1, h2⟩

end

end Paramz.Opt

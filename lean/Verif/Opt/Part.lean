import Verif.Opt.PartInv

/-!
# Every object of a model has its own `optimizer_array` (C77)
-/

set_option linter.unusedSectionVars false

namespace Paramz.Opt

open IndexOps (Arr lookup)
open Hier (Heap Con Id upd upd_same upd_ne)
open Hier.Heap (Target Reach Same Ctx Covers)
open Hier.Graph (Anc At)
open Notify (changedOf Awake Above)

variable {V T : Type} [DecidableEq T]

/-! ### Specification

In terms of the elements of the model, its fixes and its transformations. -/

/-- The free elements of the model that belong to `x`, in order. -/
def freeIn (w : Whole V T) (x : Id) : List Nat :=
  (free (w.object w.root)).filter (fun j => decide (w.start x ≤ j ∧ j < w.start x + w.heap.size x))

/-- `out` lists their values in optimiser space. -/
def ListsPart (o : Ops V T) (w : Whole V T) (x : Id) (out : List V) : Prop :=
  out.length = (freeIn w x).length ∧
  ∀ k j : Nat, (freeIn w x)[k]? = some j →
    ∃ v u, w.vals[j]? = some v ∧ out[k]? = some u ∧ Via (w.object w.root) o.finv j v u

/-- What the copy and the mask of `x` survive: updates stay on; `unconstrain` takes no transformation from `x`;
values of `x` are not written through an object above while all of `x` is fixed; and once `x` has stored a mask
its set of fixed elements stays (no condition for the root, whose mask is kept up to date). -/
def Careful (o : Ops V T) (w : Whole V T) (x : Id) (a : Act V T) : Prop :=
  (x = w.root ∨ w.heap.fixes x = none ∨
    ∀ i, i ∈ ((a.exec o w).object x).cons .fixed ↔ i ∈ (w.object x).cons .fixed) ∧
  match a with
  | .updateModel _ b => b = true
  | .unconstrain _ _ => ∀ t i, i ∈ ((a.exec o w).object x).cons (.tr t) ↔ i ∈ (w.object x).cons (.tr t)
  | .write m _ _ => Anc w.heap.toGraph x m ∨ w.heap.isFixed x = false ∨ ((a.exec o w).object x).vals = (w.object x).vals
  | _ => True

/-- A history of calls on any objects that is careful with `x`. -/
inductive CarefulRuns (o : Ops V T) (x : Id) : Whole V T → Whole V T → Prop
  | nil (w) : CarefulRuns o x w w
  | snoc {w w'} (h : CarefulRuns o x w w') (a : Act V T) (ha : a.OK w') (hc : Careful o w' x a) :
      CarefulRuns o x w (a.exec o w')

/-! ### Lemmas -/

theorem freeIn_eq {w : Whole V T} (s : Sound w) {x : Id} (hx : w.Has x) :
    freeIn w x = (free (w.object x)).map (w.start x + ·) := by
  have hsort : ∀ (z : State V T), (free z).Pairwise (· < ·) := fun z => List.pairwise_lt_range.filter _
  refine IndexOps.sorted_ext ((hsort _).filter _) ?_ (fun j => ?_)
  · rw [List.pairwise_map]
    exact (hsort _).imp (fun h => by omega)
  · unfold freeIn
    rw [List.mem_filter, List.mem_map, mem_free]
    simp only [mem_free, decide_eq_true_eq]
    have hw := s.window hx
    rw [s.vals] at hw
    constructor
    · rintro ⟨⟨h1, h2⟩, h3, h4⟩
      refine ⟨j - w.start x, ⟨by show _ < w.heap.size x; omega, fun h => h2 ?_⟩, by omega⟩
      have := ((s.mem_cons hx).mp h).2
      have e : w.start x + (j - w.start x) = j := by omega
      rwa [e] at this
    · rintro ⟨i, ⟨h1, h2⟩, rfl⟩
      have h1 : i < w.heap.size x := h1
      exact ⟨⟨by show _ < w.heap.size w.root; omega, fun h => h2 ((s.mem_cons hx).mpr ⟨h1, h⟩)⟩, by omega, by omega⟩

theorem freeIn_root {w : Whole V T} (s : Sound w) : freeIn w w.root = free (w.object w.root) := by
  rw [freeIn_eq s .refl, s.start_root]; simp

theorem listsPart_iff {o : Ops V T} {w : Whole V T} (s : Sound w) {x : Id} (hx : w.Has x) {out : List V} :
    ListsPart o w x out ↔ ListsFree o (w.object x) out := by
  unfold ListsPart ListsFree
  rw [freeIn_eq s hx, List.length_map]
  have hlen := free_length (s.held hx)
  constructor
  · rintro ⟨h1, h2⟩
    refine ⟨h1.trans hlen, h1, fun k i hk => ?_⟩
    obtain ⟨v, u, hv, hu, hvia⟩ := h2 k (w.start x + i) (by rw [List.getElem?_map, hk]; rfl)
    have hi : i < w.heap.size x := (mem_free.mp (List.mem_of_getElem? hk)).1
    exact ⟨v, u, by rw [getElem?_object, if_pos hi, hv], hu, (s.via hx hi).mpr hvia⟩
  · rintro ⟨-, h1, h2⟩
    refine ⟨h1, fun k j hk => ?_⟩
    rw [List.getElem?_map, Option.map_eq_some_iff] at hk
    obtain ⟨i, hk, rfl⟩ := hk
    obtain ⟨v, u, hv, hu, hvia⟩ := h2 k i hk
    have hi : i < w.heap.size x := (mem_free.mp (List.mem_of_getElem? hk)).1
    rw [getElem?_object, if_pos hi] at hv
    exact ⟨v, u, hv, hu, (s.via hx hi).mp hvia⟩

/-! ### Setting -/

/-- C77: setting `optimizer_array` of any object, node or `Param`, at any depth: fixed elements and elements of
other objects stay as they are, for arrays of any length; with one value for each free element of the object, the
`k`-th of them gets the `k`-th value sent through `f` of its transformation. -/
theorem set_part (o : Ops V T) {w : Whole V T} (s : Sound w) {x : Id} (hx : w.Has x) (p : List V) :
    (∀ j, ¬ w.Window x j ∨ j ∈ (w.object w.root).cons .fixed → (w.set o x p).vals[j]? = w.vals[j]?) ∧
    (p.length = (freeIn w x).length → ∀ k j : Nat, (freeIn w x)[k]? = some j → ∃ v u, p[k]? = some v ∧
      (w.set o x p).vals[j]? = some u ∧ Via (w.object w.root) o.f j v u) := by
  refine ⟨fun j hj => put_other o s hx p hj, fun hp k j hk => ?_⟩
  rw [freeIn_eq s hx] at hp hk
  rw [List.length_map] at hp
  rw [List.getElem?_map, Option.map_eq_some_iff] at hk
  obtain ⟨i, hk, rfl⟩ := hk
  have hi : i < w.heap.size x := (mem_free.mp (List.mem_of_getElem? hk)).1
  obtain ⟨v, u, hv, hu, hvia⟩ := (setVals_held o (s.held hx) (s.setterMask hx) p).2.2 hp k i hk
  refine ⟨v, u, hv, ?_, (s.via hx hi).mp hvia⟩
  have hl := setVals_fits o s hx p
  have hw := s.window hx
  show (Whole.splice w.vals (w.start x) ((w.object x).setVals o p))[w.start x + i]? = _
  rw [getElem?_splice (by omega), if_pos ⟨by omega, by omega⟩]
  have e : w.start x + i - w.start x = i := by omega
  rw [e]; exact hu

/-- C77: `randomize` of any object does the same with the values drawn and asks for as many as the object has
free elements. The update switch ends as it was. -/
theorem randomize_part (o : Ops V T) {w : Whole V T} (s : Sound w) {x : Id} (hx : w.Has x) (draws : List V) :
    (∀ j, ¬ w.Window x j ∨ j ∈ (w.object w.root).cons .fixed → (w.randomize o x draws).vals[j]? = w.vals[j]?) ∧
    (draws.length = (w.object x).sizeTransformed → ∀ k j : Nat, (freeIn w x)[k]? = some j → ∃ v u,
      draws[k]? = some v ∧ (w.randomize o x draws).vals[j]? = some u ∧ Via (w.object w.root) o.f j v u) ∧
    (w.randomize o x draws).on = w.on := by
  rw [randomize_eq_set o s hx]
  obtain ⟨h1, h2⟩ := set_part o s hx draws
  refine ⟨h1, fun hd => h2 ?_, rfl⟩
  rw [hd, freeIn_eq s hx, List.length_map]
  exact (free_length (s.held hx)).symm

/-! ### Reading -/

/-- C77: a node whose copy is marked as out of date and that has no mask yet lists its free elements. -/
theorem read_part (o : Ops V T) {w : Whole V T} (s : Sound w) {x : Id} (hx : w.Has x) (hn : w.heap.leaf x = false)
    (hf : w.fresh x = false) (hm : w.heap.fixes x = none) (junk : List V) :
    ListsPart o w x (w.read o x junk).2 := by
  rw [listsPart_iff s hx]
  refine readOpt_held (s.held hx) (coherent_of_stale hf) (fun _ => ?_) junk
  show w.heap.ensureFixes x = _
  unfold Heap.ensureFixes
  rw [hm, hn]
  rfl

/-- C77: so does a `Param` none of whose elements is fixed (`param_lists_fixed_fails` otherwise). -/
theorem read_param_partial (o : Ops V T) {w : Whole V T} (s : Sound w) {x : Id} (hx : w.Has x)
    (hf : w.fresh x = false) (hm : w.heap.constraints x .fixed = []) (junk : List V) :
    ListsPart o w x (w.read o x junk).2 := by
  rw [listsPart_iff s hx]
  refine readOpt_held (s.held hx) (coherent_of_stale hf) (fun h => ?_) junk
  exact absurd hm (of_decide_eq_true h)

/-- C77: `unfixed_param_array` of a node lists the values of its free elements. -/
theorem unfixed_part {w : Whole V T} (s : Sound w) {x : Id} (hx : w.Has x) :
    w.unfixed x = (freeIn w x).filterMap (fun j => w.vals[j]?) := by
  have hb : ∀ i ∈ free (w.object x), i < (w.object x).vals.length := fun i hi => by
    rw [(s.held hx).vals]; exact (mem_free.mp hi).1
  have key : w.unfixed x = pick (w.object x).vals (free (w.object x)) := by
    unfold Whole.unfixed
    by_cases hf : w.heap.constraints x .fixed = []
    · rw [if_neg (fun h => h hf), free_of_no_fixes (s := w.object x) (decide_eq_false (fun h => h hf))]
      apply List.ext_getElem?
      intro i
      rw [getElem?_pick (fun j hj => by rw [(s.held hx).vals]; exact List.mem_range.mp hj)]
      by_cases hi : i < (w.object x).size
      · rw [List.getElem?_range hi]; rfl
      · rw [List.getElem?_eq_none (by rw [(s.held hx).vals]; omega),
          List.getElem?_eq_none (l := List.range _) (by simpa using hi)]; rfl
    · rw [if_pos hf, select_eq _ _ (by rw [maskOf_length]; exact (s.held hx).vals), free_eq]
      rfl
  rw [key, freeIn_eq s hx, List.filterMap_map]
  unfold pick
  apply List.filterMap_congr
  intro i hi
  have hi : i < w.heap.size x := (mem_free.mp hi).1
  rw [getElem?_object, if_pos hi]; rfl

/-! ### Histories -/

theorem maskOf_congr {n : Nat} {a b : Arr} (h : ∀ i, i ∈ a ↔ i ∈ b) : Heap.maskOf n a = Heap.maskOf n b := by
  unfold Heap.maskOf
  apply List.map_congr_left
  intro i _
  simp [h i]

theorem exec_same (o : Ops V T) {w : Whole V T} (s : Sound w) {a : Act V T} (ha : a.OK w) :
    Same w.heap (a.exec o w).heap ∧ (a.exec o w).root = w.root := by
  cases a with
  | read x junk =>
    refine ⟨?_, rfl⟩
    show Same w.heap (w.read o x junk).1.heap
    rw [read_heap]; exact same_read _ _
  | set x p => exact ⟨.refl _, rfl⟩
  | randomize x d =>
    show Same w.heap (w.randomize o x d).heap ∧ (w.randomize o x d).root = w.root
    rw [randomize_eq_set o s ha.1]; exact ⟨.refl _, rfl⟩
  | updateModel x b => exact ⟨.refl _, rfl⟩
  | write x ind vs => exact ⟨.refl _, rfl⟩
  | constrain x sh c =>
    have h := ((Hier.Heap.constraining_wf s.wf ha.2.1).1 c).2
    cases c <;> exact ⟨h, rfl⟩
  | unconstrain x ts => exact ⟨((Hier.Heap.constraining_wf s.wf ha.2).2.1 ts).2, rfl⟩
  | fix x => exact ⟨(Hier.Heap.constraining_wf s.wf ha.2).2.2.1.2, rfl⟩
  | unfix x => exact ⟨(Hier.Heap.constraining_wf s.wf ha.2).2.2.2.2, rfl⟩

theorem Whole.Has.same {w w' : Whole V T} (h : Same w.heap w'.heap) (hr : w'.root = w.root) {x : Id} (hx : w.Has x) :
    w'.Has x := by
  unfold Whole.Has; rw [h.graph, hr]; exact hx

theorem cons_after {w w' : Whole V T} (s : Sound w) (s' : Sound w') {R : Con T → Nat → Prop}
    (e : Hier.Heap.Eff w.heap w'.heap w.root R) (hr : w'.root = w.root) {x : Id} (hx : w.Has x) (c : Con T) (i : Nat) :
    i ∈ (w'.object x).cons c ↔ i < w.heap.size x ∧ R c (w.start x + i) := by
  rw [s'.mem_cons (hx.same e.same hr), Same.start e.same hr, e.same.graph,
    cons_of_eff s.ready e (s' := w'.object w'.root) rfl hr]

theorem cons_before {w : Whole V T} (s : Sound w) {x : Id} (hx : w.Has x) (c : Con T) (i : Nat) :
    i ∈ (w.object x).cons c ↔ i < w.heap.size x ∧ w.start x + i ∈ lookup (w.heap.dicts (w.heap.iop w.root).1) c := by
  rw [s.mem_cons hx, s.ready.cons_eq]; rfl

/-- Where the elements of a target lie. -/
theorem covers_window {w : Whole V T} {x : Target} {o : Nat}
    (c : Ctx w.heap x w.root o) {j : Nat} :
    (Covers w.heap x o j → w.Window x.obj j) ∧ (x.part = none → w.Window x.obj j → Covers w.heap x o j) := by
  have ho : o = w.start x.obj := c.offsetFor.symm
  subst ho
  unfold Covers
  constructor
  · intro h
    obtain ⟨k, hk, rfl⟩ := List.mem_map.mp h
    have := c.bound k hk
    exact ⟨by omega, by omega⟩
  · rintro hp ⟨h1, h2⟩
    refine List.mem_map.mpr ⟨j - w.start x.obj, ?_, by omega⟩
    unfold Target.index
    rw [hp]
    exact List.mem_range.mpr (by omega)

/-- One call on any object keeps copy and mask of a node right. -/
theorem exec_part {o : Ops V T} {w : Whole V T} (s : Sound w) {x : Id} (hx : w.Has x) (hn : w.heap.leaf x = false)
    {a : Act V T} (ha : a.OK w) (hc : Careful o w x a) (p : Part o w x) : Part o (a.exec o w) x := by
  have s' := exec_sound o s ha
  obtain ⟨sm, hr⟩ := exec_same o s ha
  have hx' : (a.exec o w).Has x := hx.same sm hr
  have hst : (a.exec o w).start x = w.start x := Same.start sm hr x
  have hsz : (a.exec o w).heap.size x = w.heap.size x := by rw [sm.graph]
  have hon := p.on
  -- masks
  have hmask : ((a.exec o w).heap.fixes x = w.heap.fixes x ∨ x = w.root) → ((a.exec o w).root = w.root) →
      (x = (a.exec o w).root ∨ ∀ m, (a.exec o w).heap.fixes x = some m →
        m = Heap.maskOf ((a.exec o w).heap.size x) ((a.exec o w).heap.constraints x .fixed)) := by
    intro h1 h2
    rw [h2]
    rcases p.mask with h | h
    · exact .inl h
    · rcases h1 with h1 | h1
      · right
        intro m hm
        rw [h1] at hm
        rcases hc.1 with h3 | h3 | h3
        · subst h3
          obtain ⟨-, q⟩ := s'.wf.ready _ s'.lt s'.root s'.node s'.inInit s'.inited
          rw [hr] at q
          have := (s'.wf.mask _ s'.lt s'.root s'.node m (by rw [hr, h1]; exact hm)).2
            (by rw [hr]; exact q m (by rw [h1]; exact hm))
          rw [this, hr]
          refine maskOf_congr (fun i => ?_)
          have e := s'.ready.cons_eq .fixed
          rw [hr] at e
          exact iff_of_eq (congrArg (i ∈ ·) e.symm)
        · rw [h3] at hm; cases hm
        · rw [h m hm, hsz]
          exact maskOf_congr (fun i => (h3 i).symm)
      · exact .inl h1
  -- set, randomize
  have hset : ∀ (m : Id) (q : List V), w.Has m → w.heap.inInit m = false → Coherent o ((w.set o m q).object x) := by
    intro m q hm hi
    refine coherent_part s (((put_sound o s hm q)).keep rfl rfl rfl) hx hx rfl (fun hf => ?_) p.copy
    obtain ⟨h1, h2⟩ := tell_fresh hf
    rw [(put_sound o s hm q).mem_trigger hon hm hi] at h1
    have h2 : upd w.fresh m false x = true := h2
    have hxm : x ≠ m := by rintro rfl; rw [upd_same] at h2; cases h2
    rw [upd_ne _ _ hxm] at h2
    refine ⟨h2, object_vals_congr rfl rfl (fun j hj => put_other o s hm q ?_), fun _ _ => Iff.rfl⟩
    by_cases hb : Anc w.heap.toGraph m x
    · right
      refine s.fixed_window hx ?_ hj
      cases hfx : w.heap.isFixed x with
      | true => rfl
      | false => exact absurd ⟨hn, .inr (Notify.awake_of_not_fixed s.wired hb hfx)⟩ h1
    · left
      exact s.disjoint hx hm (fun h => h1 ⟨hn, .inl h⟩) hb hj
  cases a with
  | read y junk =>
    by_cases hy : y = x
    · subst hy
      have e := read_heap o w y junk
      obtain ⟨F, hF⟩ := Hier.Heap.readOptimizerArray_eq w.heap y
      refine ⟨?_, ?_, hon⟩
      · intro _
        show upd w.copies y ((w.object y).readOpt o junk).1.copy y = some (optCopy o ((w.read o y junk).1.object y))
        have h1 : optCopy o ((w.read o y junk).1.object y) = optCopy o (w.object y) := by
          refine optCopy_congr o (s.held hx) (s'.held hx') (object_vals_congr hst hsz (fun _ _ => rfl)) (fun t i => ?_)
          show i ∈ (w.read o y junk).1.heap.constraints y (.tr t) ↔ _
          rw [e, hF]; exact Iff.rfl
        rw [upd_same, h1]
        have h2 : ((w.object y).readOpt o junk).1.copy =
            some (if (w.object y).fresh then (w.object y).buffer junk else optCopy o (w.object y)) := by
          simp only [State.readOpt]
          split <;> rfl
        rw [h2]
        cases hf : (w.object y).fresh with
        | true => rw [if_pos rfl, buffer_eq (s.held hx) p.copy hf]
        | false => rfl
      · rcases p.mask with h | h
        · exact .inl h
        · right
          intro m hm
          have hm : (w.read o y junk).1.heap.fixes y = some m := hm
          show m = Heap.maskOf ((w.read o y junk).1.heap.size y) ((w.read o y junk).1.heap.constraints y .fixed)
          have e2 : Heap.maskOf ((w.read o y junk).1.heap.size y) ((w.read o y junk).1.heap.constraints y .fixed) =
              Heap.maskOf (w.heap.size y) (w.heap.constraints y .fixed) := by
            rw [e, hF]; rfl
          rw [e2]
          rw [e] at hm
          unfold Heap.readOptimizerArray at hm
          by_cases hf : w.heap.constraints y .fixed = []
          · rw [if_pos hf] at hm; exact h m hm
          · rw [if_neg hf] at hm
            have hm : upd w.heap.fixes y (some (w.heap.ensureFixes y)) y = some m := hm
            rw [upd_same] at hm
            injection hm with hm
            rw [← hm]
            exact p.ensure s hn (decide_eq_true hf)
    · have e := read_heap o w y junk
      obtain ⟨F, hF⟩ := Hier.Heap.readOptimizerArray_eq w.heap y
      refine ⟨?_, hmask (.inl ?_) rfl, hon⟩
      · refine coherent_part s s' hx hx' (upd_ne _ _ (Ne.symm hy)) (fun hf => ?_) p.copy
        have hf : upd w.fresh y _ x = true := hf
        rw [upd_ne _ _ (Ne.symm hy)] at hf
        refine ⟨hf, object_vals_congr hst hsz (fun _ _ => rfl), fun t i => ?_⟩
        show i ∈ (w.read o y junk).1.heap.constraints x (.tr t) ↔ _
        rw [e, hF]; exact Iff.rfl
      · show (w.read o y junk).1.heap.fixes x = _
        rw [e]
        unfold Heap.readOptimizerArray
        split
        · rfl
        · exact upd_ne _ _ (Ne.symm hy)
  | set m q => exact ⟨hset m q ha.1 ha.2, hmask (.inl rfl) rfl, hon⟩
  | randomize m q =>
    have e : (Act.randomize m q).exec o w = w.set o m q := randomize_eq_set o s ha.1 q
    refine ⟨?_, hmask (.inl (by rw [e]; rfl)) (by rw [e]; rfl), by rw [e]; exact hon⟩
    rw [e]; exact hset m q ha.1 ha.2
  | updateModel m b =>
    refine ⟨?_, hmask (.inl rfl) rfl, hc.2⟩
    exact coherent_part s s' hx hx' rfl (fun hf => ⟨(tell_fresh hf).2, rfl, fun _ _ => Iff.rfl⟩) p.copy
  | write m ind vs =>
    refine ⟨?_, hmask (.inl rfl) rfl, hon⟩
    refine coherent_part s s' hx hx' rfl (fun hf => ?_) p.copy
    obtain ⟨h1, h2⟩ := tell_fresh hf
    refine ⟨h2, ?_, fun _ _ => Iff.rfl⟩
    have sw : Sound ({ w with vals := Opt.put w.vals (ind.map (· + w.start m)) vs } : Whole V T) :=
      s.keep rfl rfl (put_length _ _ _)
    have hlf : w.heap.leaf m = true → ¬ Anc w.heap.toGraph m x := by
      intro h h3
      have := anc_of_leaf s.wf.skel h h3
      subst this
      rw [hn] at h; cases h
    have hna : ¬ Anc w.heap.toGraph x m := by
      intro h
      apply h1
      split
      · rw [sw.mem_notify hon ha.1]; exact ⟨hn, h⟩
      · rw [sw.mem_trigger hon ha.1 ha.2.1]; exact ⟨hn, .inl h⟩
    by_cases hb : Anc w.heap.toGraph m x
    · rcases hc.2 with h | h | h
      · exact absurd h hna
      · exfalso
        have hl : w.heap.leaf m = false := by
          cases hl : w.heap.leaf m with
          | false => rfl
          | true => exact absurd hb (hlf hl)
        apply h1
        rw [hl, if_neg (by simp), sw.mem_trigger hon ha.1 ha.2.1]
        exact ⟨hn, .inr (Notify.awake_of_not_fixed s.wired hb h)⟩
      · exact h
    · refine object_vals_congr rfl rfl (fun j hj => ?_)
      show (Opt.put w.vals (ind.map (· + w.start m)) vs)[j]? = _
      refine put_outside (fun h => s.disjoint hx ha.1 hna hb hj ?_)
      obtain ⟨k, hk, rfl⟩ := List.mem_map.mp h
      have := ha.2.2 k hk
      exact ⟨by omega, by omega⟩
  | constrain y sh c =>
    obtain ⟨off, cx⟩ := Within.ctx s.ready (x := y) ⟨ha.2.1, ha.1⟩
    have cx : Ctx w.heap y w.root off := cx
    cases c with
    | fixed =>
      refine ⟨?_, ?_, hon⟩
      · refine coherent_part s s' hx hx' rfl (fun hf => ⟨(tell_fresh hf).2, object_vals_congr hst hsz (fun _ _ => rfl), fun t i => ?_⟩) p.copy
        rw [cons_after s s' (Hier.Heap.fix_spec s.wf cx).2 hr hx, cons_before s hx]
        simp
      · by_cases hxr : x = w.root
        · exact hmask (.inr hxr) rfl
        · exact hmask (.inl (fix_fixes w.heap y (by rw [s.highest ha.1]; exact hxr))) rfl
    | tr t =>
      refine ⟨?_, ?_, hon⟩
      · refine coherent_part s s' hx hx' rfl (fun hf => ?_) p.copy
        obtain ⟨h1, hf⟩ := tell_fresh hf
        obtain ⟨-, h2⟩ := tell_fresh hf
        have e := (Hier.Heap.constrain_spec s.wf cx t).2
        have sw : Sound (w.constrained o y sh t) := s'.keep rfl rfl rfl
        have hxw : (w.constrained o y sh t).Has x :=
          Whole.Has.same (w := w) (w' := w.constrained o y sh t) e.same rfl hx
        have hy : (w.constrained o y sh t).Has y.obj :=
          Whole.Has.same (w := w) (w' := w.constrained o y sh t) e.same rfl ha.1
        rw [sw.mem_trigger hon hy ((congrFun e.same.inInit y.obj).trans ha.2.2)] at h1
        have hg : (w.heap.constrain y (.tr t)).toGraph = w.heap.toGraph := e.same.graph
        have h1 : ¬ (w.heap.leaf x = false ∧ (Anc w.heap.toGraph x y.obj ∨ Awake (w.heap.constrain y (.tr t)) y.obj x)) := by
          rw [← hg]; exact h1
        have hna : ¬ Anc w.heap.toGraph x y.obj := fun h => h1 ⟨hn, .inl h⟩
        -- either `x` has no elements, or it shares none with the target
        have hout : ∀ j, w.Window x j → ¬ Covers w.heap y off j := by
          intro j hj hcov
          by_cases hb : Anc w.heap.toGraph y.obj x
          · have hpart : y.part = none := by
              cases hp : y.part with
              | none => rfl
              | some a =>
                have hl := (ha.2.1.part a hp).1
                have := anc_of_leaf s.wf.skel hl hb
                rw [this, hn] at hl; cases hl
            have hfx : (w.heap.constrain y (.tr t)).isFixed x = true := by
              cases hfx : (w.heap.constrain y (.tr t)).isFixed x with
              | true => rfl
              | false =>
                refine absurd ⟨hn, .inr ?_⟩ h1
                exact Notify.awake_of_not_fixed sw.wired (by show Anc (w.heap.constrain y (.tr t)).toGraph _ _; rw [hg]; exact hb) hfx
            have hj' : (w.constrained o y sh t).Window x j := by
              unfold Whole.Window
              rw [Same.start (w := w) (w' := w.constrained o y sh t) e.same rfl,
                show (w.constrained o y sh t).heap.size x = w.heap.size x from hsz]
              exact hj
            have := sw.fixed_window hxw hfx hj'
            rw [cons_of_eff s.ready e (s' := (w.constrained o y sh t).object (w.constrained o y sh t).root) rfl rfl] at this
            rcases this with h | h
            · exact h.2 hcov
            · cases h.1
          · exact s.disjoint hx ha.1 hna hb hj ((covers_window cx).1 hcov)
        refine ⟨h2, object_vals_congr hst hsz (fun j hj => ?_), fun u i => ?_⟩
        · show (if sh then _ else w.vals : List V)[j]? = _
          split
          · refine put_outside (fun h => hout j hj ?_)
            unfold Covers
            rw [show off = w.start y.obj from cx.offsetFor.symm]; exact h
          · rfl
        · rw [cons_after s s' e hr hx, cons_before s hx]
          refine and_congr_right (fun hi => ?_)
          have := hout (w.start x + i) ⟨by omega, by omega⟩
          constructor
          · rintro (h | h)
            · exact h.1
            · exact absurd h.2 this
          · exact fun h => .inl ⟨h, this⟩
      · by_cases hxr : x = w.root
        · exact hmask (.inr hxr) rfl
        · exact hmask (.inl (constrain_fixes w.heap y (.tr t) (by rw [s.highest ha.1]; exact hxr))) rfl
  | unconstrain y ts =>
    refine ⟨?_, ?_, hon⟩
    · exact coherent_part s s' hx hx' rfl (fun hf => ⟨hf, object_vals_congr hst hsz (fun _ _ => rfl), hc.2⟩) p.copy
    · by_cases hxr : x = w.root
      · exact hmask (.inr hxr) rfl
      · exact hmask (.inl (unconstrain_fixes w.heap y ts (by rw [s.highest ha.1]; exact hxr)).2) rfl
  | fix y =>
    obtain ⟨off, cx⟩ := Within.ctx s.ready (x := y) ⟨ha.2, ha.1⟩
    have cx : Ctx w.heap y w.root off := cx
    refine ⟨?_, ?_, hon⟩
    · refine coherent_part s s' hx hx' rfl (fun hf => ⟨(tell_fresh hf).2, object_vals_congr hst hsz (fun _ _ => rfl), fun t i => ?_⟩) p.copy
      rw [cons_after s s' (Hier.Heap.fix_spec s.wf cx).2 hr hx, cons_before s hx]
      simp
    · by_cases hxr : x = w.root
      · exact hmask (.inr hxr) rfl
      · exact hmask (.inl (fix_fixes w.heap y (by rw [s.highest ha.1]; exact hxr))) rfl
  | unfix y =>
    obtain ⟨off, cx⟩ := Within.ctx s.ready (x := y) ⟨ha.2, ha.1⟩
    have cx : Ctx w.heap y w.root off := cx
    refine ⟨?_, ?_, hon⟩
    · refine coherent_part s s' hx hx' rfl (fun hf => ⟨hf, object_vals_congr hst hsz (fun _ _ => rfl), fun t i => ?_⟩) p.copy
      rw [cons_after s s' (Hier.Heap.unfix_spec s.wf cx).2 hr hx, cons_before s hx]
      simp
    · by_cases hxr : x = w.root
      · exact hmask (.inr hxr) rfl
      · exact hmask (.inl (unfix_fixes w.heap y (by rw [s.highest ha.1]; exact hxr))) rfl

theorem CarefulRuns.part {o : Ops V T} {w w' : Whole V T} {x : Id} (h : CarefulRuns o x w w') (s : Sound w)
    (hx : w.Has x) (hn : w.heap.leaf x = false) (p : Part o w x) :
    Sound w' ∧ w'.Has x ∧ w'.heap.leaf x = false ∧ Part o w' x := by
  induction h with
  | nil => exact ⟨s, hx, hn, p⟩
  | snoc _ a ha hc ih =>
    obtain ⟨s1, hx1, hn1, p1⟩ := ih
    obtain ⟨sm, hr⟩ := exec_same o s1 ha
    exact ⟨exec_sound o s1 ha, hx1.same sm hr, by rw [sm.graph]; exact hn1, exec_part s1 hx1 hn1 ha hc p1⟩

/-- C77: after any history of calls on any objects that is careful with node `x` (see `Careful`; the witnesses
below show that each condition is needed), reading `x.optimizer_array` lists the free elements of `x`. -/
theorem read_history_partial (o : Ops V T) {w w' : Whole V T} (s : Sound w) {x : Id} (hx : w.Has x)
    (hn : w.heap.leaf x = false) (hon : w.on = true) (hf : w.fresh x = false)
    (hm : x = w.root ∨ w.heap.fixes x = none) (h : CarefulRuns o x w w') (junk : List V) :
    ListsPart o w' x (w'.read o x junk).2 := by
  have p : Part o w x := ⟨coherent_of_stale hf, hm.imp id (fun h m hm => by rw [h] at hm; cases hm), hon⟩
  obtain ⟨s', hx', hn', p'⟩ := h.part s hx hn p
  rw [listsPart_iff s' hx']
  exact readOpt_held (s'.held hx') p'.copy (fun hh => p'.ensure s' hn' hh) junk

/-- C77: right after setting the array of an object, whether updates are on or off, reading it lists its free
elements: of the root, of a node that has no mask yet, and of any object (`Param`s too) without fixed elements. -/
theorem read_after_set_partial (o : Ops V T) {w : Whole V T} (s : Sound w) {x : Id} (hx : w.Has x)
    (hm : x = w.root ∨ (w.heap.leaf x = false ∧ w.heap.fixes x = none) ∨ w.heap.constraints x .fixed = [])
    (p junk : List V) : ListsPart o (w.set o x p) x ((w.set o x p).read o x junk).2 := by
  have s1 : Sound (w.set o x p) := (put_sound o s hx p).keep rfl rfl rfl
  have hx1 : (w.set o x p).Has x := hx
  have hf : (w.set o x p).fresh x = false := by
    show (if x ∈ changedOf ((w.put o x p).net.triggerUpdate x true) then false else upd w.fresh x false x) = false
    rw [upd_same]; split <;> rfl
  rcases hm with rfl | ⟨h1, h2⟩ | h
  · rw [listsPart_iff s1 hx1]
    exact readOpt_held (s1.held hx1) (coherent_of_stale hf) (fun hh => s1.ready.ensureFixes_eq hh) junk
  · exact read_part o s1 hx1 h1 hf h2 junk
  · exact read_param_partial o s1 hx1 hf h junk

/-! ### Objects and the model together -/

/-- C77: with updates on, what is set on an object is what every node `y` above it shows: its `optimizer_array`
changes exactly in the entries of the object. -/
theorem set_part_seen (o : Ops V T) (hinv : ∀ t v, o.finv t (o.f t v) = v) {w : Whole V T} (s : Sound w) {x y : Id}
    (hx : w.Has x) (hi : w.heap.inInit x = false) (hon : w.on = true) (hy : w.Has y) (hn : w.heap.leaf y = false)
    (ha : Anc w.heap.toGraph y x) (hm : y = w.root ∨ w.heap.fixes y = none) {p : List V}
    (hp : p.length = (freeIn w x).length) {before : List V} (h0 : ListsPart o w y before) (junk : List V) :
    let after : List V := ((w.set o x p).read o y junk).2
    after.length = before.length ∧ ∀ k j : Nat, (freeIn w y)[k]? = some j →
      (∀ l : Nat, (freeIn w x)[l]? = some j → after[k]? = p[l]?) ∧ (j ∉ freeIn w x → after[k]? = before[k]?) := by
  have s1 : Sound (w.set o x p) := exec_sound o (a := .set x p) s ⟨hx, hi⟩
  have hf : (w.set o x p).fresh y = false := by
    have : y ∈ changedOf ((w.put o x p).net.triggerUpdate x true) := by
      rw [(put_sound o s hx p).mem_trigger hon hx hi]; exact ⟨hn, .inl ha⟩
    show (if y ∈ changedOf ((w.put o x p).net.triggerUpdate x true) then false else _) = false
    rw [if_pos this]
  have h1 : ListsPart o (w.set o x p) y ((w.set o x p).read o y junk).2 :=
    read_history_partial o s1 (x := y) hy hn hon hf hm (.nil _) junk
  have hfr : ∀ z, freeIn (w.set o x p) z = freeIn w z := fun z => rfl
  obtain ⟨l1, e1⟩ := h1
  obtain ⟨l0, e0⟩ := h0
  rw [hfr] at l1 e1
  obtain ⟨q1, q2⟩ := set_part o s hx p
  refine ⟨l1.trans l0.symm, fun k j hk => ?_⟩
  obtain ⟨v1, u1, a1, b1, c1⟩ := e1 k j hk
  have c1 : Via (w.object w.root) o.finv j v1 u1 := c1
  rw [b1]
  constructor
  · intro l hl
    obtain ⟨v, u, hv, hu, hvia⟩ := q2 hp l j hl
    rw [a1] at hu
    injection hu with hu
    subst hu
    rw [hv]
    congr 1
    by_cases ht : ∃ t, j ∈ (w.object w.root).cons (.tr t)
    · obtain ⟨t, ht⟩ := ht
      rw [c1.1 t ht, hvia.1 t ht, hinv]
    · have ht : ∀ t, j ∉ (w.object w.root).cons (.tr t) := fun t h => ht ⟨t, h⟩
      rw [c1.2 ht, hvia.2 ht]
  · intro hj
    obtain ⟨v0, u0, a0, b0, c0⟩ := e0 k j hk
    have hfree : j ∈ free (w.object w.root) := (List.mem_filter.mp (List.mem_of_getElem? hk)).1
    have hout : ¬ w.Window x j := fun h => hj (List.mem_filter.mpr ⟨hfree, decide_eq_true h⟩)
    rw [q1 j (.inl hout), a0] at a1
    injection a1 with a1
    subst a1
    rw [b0, via_unique s.ready.toHeld c1 c0]

/-- C77: setting a node's `optimizer_array` to what was just read from it changes no value, if the
transformations are inverted at the values in question. -/
theorem part_roundtrip (o : Ops V T) {w : Whole V T} (s : Sound w) {x : Id} (hx : w.Has x)
    (hn : w.heap.leaf x = false) (hf : w.fresh x = false) (hm : x = w.root ∨ w.heap.fixes x = none)
    (hinv : ∀ j t v, j ∈ (w.object w.root).cons (.tr t) → w.vals[j]? = some v → o.f t (o.finv t v) = v)
    (junk : List V) : ((w.read o x junk).1.set o x (w.read o x junk).2).vals = w.vals := by
  have h1 : ListsPart o w x (w.read o x junk).2 := by
    rw [listsPart_iff s hx]
    refine readOpt_held (s.held hx) (coherent_of_stale hf) (fun hh => ?_) junk
    rcases hm with rfl | hm
    · exact s.ready.ensureFixes_eq hh
    · show w.heap.ensureFixes x = _
      unfold Heap.ensureFixes
      rw [hm, hn]; rfl
  have s1 : Sound (w.read o x junk).1 := exec_sound o (a := .read x junk) s hx
  obtain ⟨sm, hr⟩ := exec_same o (a := .read x junk) s hx
  have hx1 : (w.read o x junk).1.Has x := hx.same sm hr
  have hg : (w.read o x junk).1.heap.toGraph = w.heap.toGraph := sm.graph
  have hcons : ∀ c, ((w.read o x junk).1.object w.root).cons c = (w.object w.root).cons c := by
    intro c
    obtain ⟨F, hF⟩ := Hier.Heap.readOptimizerArray_eq w.heap x
    show (w.read o x junk).1.heap.constraints w.root c = w.heap.constraints w.root c
    rw [read_heap, hF]; rfl
  have hfree : freeIn (w.read o x junk).1 x = freeIn w x := by
    unfold freeIn
    rw [show (w.read o x junk).1.start x = w.start x from Same.start sm hr x,
      show (w.read o x junk).1.heap.size x = w.heap.size x by rw [hg]]
    congr 1
    unfold free
    have e1 : ((w.read o x junk).1.object w.root).size = (w.object w.root).size := by
      show (w.read o x junk).1.heap.size w.root = w.heap.size w.root
      rw [hg]
    show (List.range ((w.read o x junk).1.object w.root).size).filter
      (fun i => decide (i ∉ ((w.read o x junk).1.object w.root).cons .fixed)) = _
    rw [e1, hcons]
  obtain ⟨q1, q2⟩ := set_part o s1 hx1 (w.read o x junk).2
  rw [hfree] at q2
  apply List.ext_getElem?
  intro j
  by_cases hj : ∃ k : Nat, (freeIn w x)[k]? = some j
  · obtain ⟨k, hk⟩ := hj
    obtain ⟨v, u, a1, b1, c1⟩ := q2 h1.1 k j hk
    obtain ⟨v0, u0, a0, b0, c0⟩ := h1.2 k j hk
    rw [b0] at a1
    injection a1 with a1
    subst a1
    rw [b1, a0]
    congr 1
    have c1 : Via ((w.read o x junk).1.object w.root) o.f j u0 u := c1
    unfold Via at c1
    simp only [hcons] at c1
    by_cases ht : ∃ t, j ∈ (w.object w.root).cons (.tr t)
    · obtain ⟨t, ht⟩ := ht
      rw [c1.1 t ht, c0.1 t ht, hinv j t v0 ht a0]
    · have ht : ∀ t, j ∉ (w.object w.root).cons (.tr t) := fun t h => ht ⟨t, h⟩
      rw [c1.2 ht, c0.2 ht]
  · show _ = (w.read o x junk).1.vals[j]?
    by_cases hjl : j < w.vals.length
    · refine q1 j ?_
      by_cases hw : (w.read o x junk).1.Window x j
      · right
        by_contra hcf
        apply hj
        apply List.getElem?_of_mem
        rw [← hfree]
        refine List.mem_filter.mpr ⟨mem_free.mpr ⟨?_, hcf⟩, decide_eq_true hw⟩
        have := s1.vals
        show j < (w.read o x junk).1.heap.size (w.read o x junk).1.root
        rw [← this]; exact hjl
      · exact .inl hw
    · have s2 : (((w.read o x junk).1.set o x (w.read o x junk).2)).vals.length = w.vals.length := by
        have := (put_sound o s1 hx1 (w.read o x junk).2).vals
        rw [show ((w.read o x junk).1.put o x (w.read o x junk).2).heap.size
          ((w.read o x junk).1.put o x (w.read o x junk).2).root = w.heap.size w.root from by
            show (w.read o x junk).1.heap.size w.root = _
            rw [hg]] at this
        rw [s.vals]; exact this
      rw [List.getElem?_eq_none (by omega), List.getElem?_eq_none (by show w.vals.length ≤ j; omega)]

/-! ### A model -/

/-- The hierarchy of `demo` with all its objects: `1` owns elements 0 and 1, node `2` elements 2 to 5 (its children `3`
elements 2 to 4 and `4` element 5), `5` elements 6 and 7. -/
def demoWhole : Whole Int Nat where
  heap := Hier.Heap.demo
  root := 0
  vals := [10, 11, 12, 13, 14, 15, 16, 17]
  copies := fun _ => none
  fresh := fun _ => false
  on := true

theorem demoWhole_sound : Sound demoWhole where
  reach := Hier.Heap.demo_reach
  lt := by decide +kernel
  root := by decide +kernel
  node := by decide +kernel
  inInit := by decide +kernel
  inited := by decide +kernel
  vals := by decide +kernel

theorem demo_anc : ∀ {x : Id}, x ∈ demoWhole.heap.toGraph.subtree 0 → demoWhole.Has x :=
  fun h => (demoWhole_sound.wf.skel.mem_subtree).mp h

/-- Decision procedure for `Act.OK`. -/
def okB (w : Whole V T) : Act V T → Bool
  | .read x _ => decide (x ∈ w.heap.toGraph.subtree w.root)
  | .set x _ => decide (x ∈ w.heap.toGraph.subtree w.root) && !w.heap.inInit x
  | .randomize x _ => decide (x ∈ w.heap.toGraph.subtree w.root) && !w.heap.inInit x
  | .updateModel x _ => decide (x ∈ w.heap.toGraph.subtree w.root) && !w.heap.inInit x
  | .write x ind _ => decide (x ∈ w.heap.toGraph.subtree w.root) && !w.heap.inInit x &&
      ind.all (fun i => decide (i < w.heap.size x))
  | .constrain x _ _ => decide (x.obj ∈ w.heap.toGraph.subtree w.root) && w.heap.targetOKB x && !w.heap.inInit x.obj
  | .unconstrain x _ => decide (x.obj ∈ w.heap.toGraph.subtree w.root) && w.heap.targetOKB x
  | .fix x => decide (x.obj ∈ w.heap.toGraph.subtree w.root) && w.heap.targetOKB x
  | .unfix x => decide (x.obj ∈ w.heap.toGraph.subtree w.root) && w.heap.targetOKB x

theorem okB_sound {w : Whole V T} (s : Sound w) {a : Act V T} (h : okB w a = true) : a.OK w := by
  have anc : ∀ {x}, x ∈ w.heap.toGraph.subtree w.root → w.Has x := fun h => s.wf.skel.mem_subtree.mp h
  cases a <;> simp only [okB, Bool.and_eq_true, decide_eq_true_eq, Bool.not_eq_true', List.all_eq_true] at h
  · exact anc h
  · exact ⟨anc h.1, h.2⟩
  · exact ⟨anc h.1, h.2⟩
  · exact ⟨anc h.1, h.2⟩
  · exact ⟨anc h.1.1, h.1.2, h.2⟩
  · exact ⟨anc h.1.1, Hier.Heap.targetOKB_sound h.1.2, h.2⟩
  · exact ⟨anc h.1, Hier.Heap.targetOKB_sound h.2⟩
  · exact ⟨anc h.1, Hier.Heap.targetOKB_sound h.2⟩
  · exact ⟨anc h.1, Hier.Heap.targetOKB_sound h.2⟩

/-- A run of calls all of which are admissible. -/
def runB (o : Ops V T) : Whole V T → List (Act V T) → Bool
  | _, [] => true
  | w, a :: l => okB w a && runB o (a.exec o w) l

/-- The state after a run. -/
def runAll (o : Ops V T) (w : Whole V T) (l : List (Act V T)) : Whole V T := l.foldl (fun w a => a.exec o w) w

theorem runs_of {o : Ops V T} : ∀ {l : List (Act V T)} {w0 w : Whole V T}, Sound w0 → Runs o w0 w → runB o w l = true →
    Runs o w0 (runAll o w l)
  | [], _, _, _, h, _ => h
  | a :: l, w0, w, s, h, hb => by
    simp only [runB, Bool.and_eq_true] at hb
    exact runs_of (l := l) s (.snoc h a (okB_sound (h.sound s) hb.1)) hb.2

/-- Parts are read, set and randomised. -/
example : demoWhole.Has 2 ∧ demoWhole.Has 3 ∧ freeIn demoWhole 2 = [2, 3, 5] ∧ freeIn demoWhole 3 = [2, 3] ∧
    (demoWhole.read demoOps 2 []).2 = [4, 5, 15] ∧ demoWhole.unfixed 2 = [12, 13, 15] ∧
    (demoWhole.set demoOps 2 [1, 2, 3]).vals = [10, 11, 9, 10, 14, 3, 16, 17] ∧
    (demoWhole.set demoOps 3 [1, 2]).vals = [10, 11, 9, 10, 14, 15, 16, 17] ∧
    (demoWhole.randomize demoOps 3 [1, 2]).vals = [10, 11, 9, 10, 14, 15, 16, 17] ∧
    ((demoWhole.set demoOps 3 [1, 2]).read demoOps 0 []).2 = [10, 4, 1, 2, 15] ∧
    ((demoWhole.set demoOps 4 [7]).read demoOps 4 []).2 = [7] ∧
    (demoWhole.read demoOps 0 []).2 = [10, 4, 4, 5, 15] :=
  ⟨demo_anc (by decide +kernel), demo_anc (by decide +kernel), by decide +kernel, by decide +kernel, by decide +kernel,
    by decide +kernel, by decide +kernel, by decide +kernel, by decide +kernel, by decide +kernel, by decide +kernel,
    by decide +kernel⟩

/-- A careful history: the node is read, a child is set, another object is fixed and the root written to. -/
def calmActs : List (Act Int Nat) :=
  [.read 2 [], .set 3 [1, 2], .read 2 [], .fix ⟨1, none⟩, .write 0 [2, 5, 6] [20, 21, 22], .constrain ⟨4, none⟩ true (.tr 7)]

theorem calm_careful : CarefulRuns demoOps 2 demoWhole (runAll demoOps demoWhole calmActs) := by
  have step : ∀ {w : Whole Int Nat} {a : Act Int Nat}, CarefulRuns demoOps 2 demoWhole w → Sound w → okB w a = true →
      Careful demoOps w 2 a → CarefulRuns demoOps 2 demoWhole (a.exec demoOps w) :=
    fun h s hb hc => .snoc h _ (okB_sound s hb) hc
  have r : ∀ n, n ≤ 6 → Sound (runAll demoOps demoWhole (calmActs.take n)) := by
    intro n hn
    have h1 : ∀ n ∈ List.range 7, runB demoOps demoWhole (calmActs.take n) = true := by decide +kernel
    exact (runs_of demoWhole_sound (.nil _) (h1 n (List.mem_range.mpr (by omega)))).sound demoWhole_sound
  have fx : ∀ w w' : Whole Int Nat, (w'.object 2).cons .fixed = (w.object 2).cons .fixed →
      ∀ i, i ∈ (w'.object 2).cons .fixed ↔ i ∈ (w.object 2).cons .fixed := fun w w' h i => by rw [h]
  have c1 := step (.nil _) (r 0 (by omega)) (a := .read 2 []) (by decide +kernel) ⟨.inr (.inl (by decide +kernel)), trivial⟩
  have c2 := step c1 (r 1 (by omega)) (a := .set 3 [1, 2]) (by decide +kernel)
    ⟨.inr (.inr (fx _ _ (by decide +kernel))), trivial⟩
  have c3 := step c2 (r 2 (by omega)) (a := .read 2 []) (by decide +kernel)
    ⟨.inr (.inr (fx _ _ (by decide +kernel))), trivial⟩
  have c4 := step c3 (r 3 (by omega)) (a := .fix ⟨1, none⟩) (by decide +kernel)
    ⟨.inr (.inr (fx _ _ (by decide +kernel))), trivial⟩
  have c5 := step c4 (r 4 (by omega)) (a := .write 0 [2, 5, 6] [20, 21, 22]) (by decide +kernel)
    ⟨.inr (.inr (fx _ _ (by decide +kernel))), .inr (.inl (by decide +kernel))⟩
  exact step c5 (r 5 (by omega)) (a := .constrain ⟨4, none⟩ true (.tr 7)) (by decide +kernel)
    ⟨.inr (.inr (fx _ _ (by decide +kernel))), trivial⟩

example : ((runAll demoOps demoWhole calmActs).read demoOps 2 []).2 = [12, 2, 14] ∧
    (runAll demoOps demoWhole calmActs).vals = [10, 11, 20, 10, 14, 21, 22, 17] := by decide +kernel

/-! ### Where the full claim fails -/

/-- A `Param` lists its fixed elements as well: `_ensure_fixes` of a `Param` makes a mask that lets everything through
(param.py:184-185). -/
theorem param_lists_fixed_fails :
    (demoWhole.read demoOps 3 []).2 = [4, 5, 6] ∧ (freeIn demoWhole 3).length = 2 ∧
    (demoWhole.object 3).sizeTransformed = 2 := by decide +kernel

/-- So setting a `Param` to what was read from it can change it. -/
theorem param_roundtrip_fails :
    let w := runAll demoOps demoWhole [.unfix ⟨3, none⟩, .fix ⟨3, some [0]⟩]
    Runs demoOps demoWhole w ∧ w.vals = [10, 11, 12, 13, 14, 15, 16, 17] ∧
    ((w.read demoOps 3 []).1.set demoOps 3 (w.read demoOps 3 []).2).vals = [10, 11, 12, 12, 13, 15, 16, 17] :=
  ⟨runs_of demoWhole_sound (.nil _) (by decide +kernel), by decide +kernel, by decide +kernel⟩

/-- A `Param` is not told of changes of its own values: the second read shows the old ones. -/
theorem param_stale_fails :
    let w := runAll demoOps demoWhole [.read 4 [], .write 4 [0] [99]]
    Runs demoOps demoWhole w ∧ w.vals[5]? = some 99 ∧ (w.read demoOps 4 []).2 = [15] ∧
    (w.read demoOps 0 []).2 = [10, 4, 4, 5, 99] :=
  ⟨runs_of demoWhole_sound (.nil _) (by decide +kernel), by decide +kernel, by decide +kernel, by decide +kernel⟩

/-- The mask of a node below the root is not kept up to date: after a read, fixing one more element does not shorten
the array. -/
theorem part_mask_fails :
    let w := runAll demoOps demoWhole [.read 2 [], .fix ⟨4, none⟩]
    Runs demoOps demoWhole w ∧ freeIn w 2 = [2, 3] ∧ (w.read demoOps 2 []).2 = [4, 5, 15] :=
  ⟨runs_of demoWhole_sound (.nil _) (by decide +kernel), by decide +kernel, by decide +kernel⟩

/-- `unconstrain` does not tell: the array still shows the transformed values. -/
theorem part_unconstrain_fails :
    let w := runAll demoOps demoWhole [.read 2 [], .unconstrain ⟨3, none⟩ [.tr 8]]
    Runs demoOps demoWhole w ∧ freeIn w 2 = [2, 3, 5] ∧ w.vals = [10, 11, 12, 13, 14, 15, 16, 17] ∧
    (∀ t ∈ [7, 8], (w.object 2).cons (.tr t) = []) ∧ (w.read demoOps 2 []).2 = [4, 5, 15] :=
  ⟨runs_of demoWhole_sound (.nil _) (by decide +kernel), by decide +kernel, by decide +kernel, by decide +kernel,
    by decide +kernel⟩

/-- A wholly fixed node is not told that its values were written through the model; after `unfix` its array shows the
old values. -/
theorem part_fixed_fails :
    let w := runAll demoOps demoWhole [.unconstrain ⟨2, none⟩ [], .fix ⟨2, none⟩, .read 2 [],
      .write 0 [2, 3] [98, 99], .unfix ⟨2, none⟩]
    Runs demoOps demoWhole w ∧ w.on = true ∧ w.vals = [10, 11, 98, 99, 14, 15, 16, 17] ∧ freeIn w 2 = [2, 3, 4, 5] ∧
    (w.read demoOps 2 []).2 = [12, 13, 14, 15] :=
  ⟨runs_of demoWhole_sound (.nil _) (by decide +kernel), by decide +kernel, by decide +kernel, by decide +kernel,
    by decide +kernel⟩

/-- With updates off nobody is told. -/
theorem part_off_fails :
    let w := runAll demoOps demoWhole [.read 2 [], .updateModel 0 false, .write 4 [0] [99]]
    Runs demoOps demoWhole w ∧ w.vals[5]? = some 99 ∧ (w.read demoOps 2 []).2 = [4, 5, 15] :=
  ⟨runs_of demoWhole_sound (.nil _) (by decide +kernel), by decide +kernel, by decide +kernel⟩

end Paramz.Opt

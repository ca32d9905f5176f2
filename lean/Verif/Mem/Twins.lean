import Verif.Mem.Seen
import Verif.Hier.ConProps

/-!
# Optimising models that have the same parameters (C91): model and lemmas

Source: `paramz/model.py:65-116, 225-282`, `paramz/core/parameter_core.py:66-152`, `paramz/core/pickleable.py:70-128`.
The hierarchy, its memory and its histories are those of `Verif.Mem`. Updates are on. Evaluations that raise are left
out (C45), and so are messages and the records of runs (C63). `objective_function` and the gradient that
`parameters_changed` sets are functions of the parameter values, the same for both models.
-/

set_option linter.unusedSectionVars false

namespace Paramz.Memory

open Hier (Id Graph Heap Con upd upd_same upd_ne)
open Hier.Heap (Target)
open Hier.Graph (Skel Sized At Anc)
open Opt (Ops flattened)
open Print (InOrder)

/-! ### Model -/

/-- What an optimiser asks: `_objective(x)`, `_grads(x)` or `_objective_grads(x)` (model.py:225-282). -/
inductive Query (V : Type)
  | objective (x : List V)
  | grads (x : List V)
  | both (x : List V)
deriving DecidableEq

/-- The point of a query. -/
def Query.point {V : Type} : Query V → List V
  | .objective x => x
  | .grads x => x
  | .both x => x

/-- What it gets: the objective, the gradients, whether these are the gradient array of the model itself (C62), and
the contents of that array, which an optimiser that was given it before sees. -/
structure Answer (V W : Type) where
  value : Option W
  grads : Option (List V)
  own : Bool
  array : List V
deriving DecidableEq

/-- An optimiser after its start: it asks, goes on depending on the answer, and finds `x_opt`. Its settings and random
numbers are part of it. (An optimiser that never ends gives no result and is left out.) -/
inductive Prog (V W : Type)
  | done (x : List V)
  | ask (c : Query V) (k : Answer V W → Prog V W)

/-- It asks only for points with `n` entries, and finds one. -/
def Prog.Fits {V W : Type} (n : Nat) : Prog V W → Prop
  | .done x => x.length = n
  | .ask c k => c.point.length = n ∧ ∀ a, (k a).Fits n

namespace State

variable {V T W : Type} [DecidableEq T] {spoil : Nat → Nat → V}

/-- The answer to a query once the array has been set (model.py:225-282). `F`: `objective_function`. `g`: the gradient
that `parameters_changed` sets. `_transform_gradients` writes into the array (parameter_core.py:150). -/
def answer (o : Ops V T) (F : List V → W) (g : List V → List V) (s : State V T) (r : Id) : Query V → Answer V W
  | .objective _ => ⟨some (F (s.values r)), none, !(s.optState r none).hasFixes, g (s.values r)⟩
  | .grads _ =>
    ⟨none, some ((s.optState r none).transformGradients o (g (s.values r))).2, !(s.optState r none).hasFixes,
      ((s.optState r none).transformGradients o (g (s.values r))).1⟩
  | .both _ =>
    ⟨some (F (s.values r)), some ((s.optState r none).transformGradients o (g (s.values r))).2,
      !(s.optState r none).hasFixes, ((s.optState r none).transformGradients o (g (s.values r))).1⟩

/-- `opt.run(start, ...)` and `self.optimizer_array = opt.x_opt` (model.py:110-113): the state afterwards, what was asked
and answered, and `x_opt`. -/
def runProg (spoil : Nat → Nat → V) (o : Ops V T) (F : List V → W) (g : List V → List V) (r : Id) :
    Prog V W → State V T → State V T × List (Query V × Answer V W) × List V
  | .done x, s => (s.setArray spoil o r x, [], x)
  | .ask c k, s =>
    let s1 := s.setArray spoil o r c.point
    let a := s1.answer o F g r c
    let e := runProg spoil o F g r (k a) s1
    (e.1, (c, a) :: e.2.1, e.2.2)

/-- `r.optimize()` (model.py:65-116). `p`: the optimiser. `none`: nothing to optimise. `copy`, `junk`: what is stored in
the optimiser's copy, which is not up to date. -/
def optimize (spoil : Nat → Nat → V) (o : Ops V T) (F : List V → W) (g : List V → List V) (copy : Option (List V))
    (junk : List V) (p : List V → Prog V W) (r : Id) (s : State V T) :
    State V T × Option (List (Query V × Answer V W) × List V) :=
  if s.heap.isFixed r || decide (s.heap.size r = 0) then (s, none)
  else
    let e := runProg spoil o F g r (p (s.readArray o r copy junk)) s
    (e.1, some e.2)

/-! ### Specification -/

/-- The models have equal `Param`s, in the same order. -/
def Twins (s s' : State V T) (r r' : Id) : Prop :=
  List.Forall₂ (Equal s s') (flattened s.heap.toGraph r) (flattened s'.heap.toGraph r')

/-- The number of free elements of a model: what is left of each `Param`. -/
def freeCount (s : State V T) (r : Id) : Nat :=
  ((flattened s.heap.toGraph r).map (fun y => (s.freeOf y).length)).sum

/-! ### Lemmas -/

theorem Equal.freeOf {s s' : State V T} {y y' : Id} (e : Equal s s' y y') : s'.freeOf y' = s.freeOf y := by
  unfold State.freeOf; rw [e.size, e.cons]

theorem Twins.freeCount {s s' : State V T} {r r' : Id} (t : Twins s s' r r') : s'.freeCount r' = s.freeCount r := by
  unfold State.freeCount
  congr 1
  exact (List.forall₂_eq_eq_eq ▸ (List.forall₂_map_left_iff.mpr (List.forall₂_map_right_iff.mpr
    (t.imp (fun y y' e => by rw [e.freeOf])))) :
    List.map (fun y => (s.freeOf y).length) (flattened s.heap.toGraph r) =
      List.map (fun y => (s'.freeOf y).length) (flattened s'.heap.toGraph r')).symm

theorem sizeSum_eq {s s' : State V T} {L L' : List Id} (h : List.Forall₂ (Equal s s') L L') :
    s'.heap.toGraph.sizeSum L' = s.heap.toGraph.sizeSum L := by
  induction h with
  | nil => rfl
  | cons h _ ih =>
    have := h.size
    simp only [Graph.sizeSum, List.map_cons, List.sum_cons] at ih ⊢
    rw [ih, this]

theorem forall₂_take {α β : Type} {R : α → β → Prop} {l : List α} {m : List β} (h : List.Forall₂ R l m) (q : Nat) :
    List.Forall₂ R (l.take q) (m.take q) := List.forall₂_take q h

theorem Twins.size {s s' : State V T} (h : Path spoil s) (h' : Path spoil s') {r r' : Id} (t : Twins s s' r r') :
    s'.heap.size r' = s.heap.size r := by
  have w := h.reach.heap.wf
  have w' := h'.reach.heap.wf
  have e1 := Opt.flattened_size w.skel w.sized r
  have e2 := Opt.flattened_size w'.skel w'.sized r'
  rw [sizeSum_eq t, e1] at e2
  exact e2.symm

/-- Every element of the model is an element of one of its `Param`s, and of the equal one at the same place of the
other model. -/
theorem Twins.spot {s s' : State V T} (h : Path spoil s) (h' : Path spoil s') {r r' : Id} (t : Twins s s' r r')
    {i : Nat} (hi : i < s.heap.size r) : ∃ y y' n j, s.heap.leaf y = true ∧ s'.heap.leaf y' = true ∧
      At s.heap.toGraph r y n ∧ At s'.heap.toGraph r' y' n ∧ j < s.heap.size y ∧ i = n + j ∧ Equal s s' y y' := by
  have w := h.reach.heap.wf
  have w' := h'.reach.heap.wf
  obtain ⟨y, n, hy, hl, h1, h2⟩ := w.skel.exists_leaf w.sized r i hi
  have ho := Print.flattened_inOrder w.skel w.sized r
  have ho' := Print.flattened_inOrder w'.skel w'.sized r'
  obtain ⟨q, hq⟩ := List.getElem?_of_mem ((ho.all y).mpr ⟨hy.anc w.skel, hl⟩)
  obtain ⟨y', hq', e⟩ := (get_of_forall₂ t).2 q y hq
  obtain ⟨ha', hl'⟩ := (ho'.all y').mp (List.mem_of_getElem? hq')
  obtain ⟨n', hn'⟩ := w'.skel.exists_at ha'
  have p1 := ho.order q y n hq hy
  have p2 := ho'.order q y' n' hq' hn'
  have p3 : n' = n := (p2.trans (sizeSum_eq (forall₂_take t q))).trans p1.symm
  subst p3
  have e1 : s.heap.toGraph.size y = s.heap.size y := rfl
  exact ⟨y, y', n', i - n', hl, hl', hy, hn', by omega, by omega, e⟩

theorem Twins.symm_equal {s s' : State V T} {y y' : Id} (e : Equal s s' y y') : Equal s' s y' y :=
  ⟨e.size.symm, fun c => (e.cons c).symm, fun i hi => (e.read i (by rw [← e.size]; exact hi)).symm⟩

theorem Twins.symm {s s' : State V T} {r r' : Id} (t : Twins s s' r r') : Twins s' s r' r :=
  (List.Forall₂.flip t).imp (fun _ _ e => Twins.symm_equal e)

theorem Twins.values {s s' : State V T} (h : Path spoil s) (h' : Path spoil s') {r r' : Id} (m : s.Model r)
    (m' : s'.Model r') (t : Twins s s' r r') : s'.values r' = s.values r := by
  unfold State.values
  rw [t.size h h']
  refine List.map_congr_left (fun i hi => ?_)
  obtain ⟨y, y', n, j, hl, hl', ha, ha', hj, rfl, e⟩ := t.spot h h' (List.mem_range.mp hi)
  rw [← read_same h.reach m.lt m.done ha hj, ← read_same h'.reach m'.lt m'.done ha' (by rw [e.size]; exact hj)]
  exact e.read j hj

theorem Twins.cons_sub {s s' : State V T} (h : Path spoil s) (h' : Path spoil s') {r r' : Id} (m : s.Model r)
    (m' : s'.Model r') (t : Twins s s' r r') (c : Con T) {i : Nat} (hi : i ∈ s.heap.constraints r c) :
    i ∈ s'.heap.constraints r' c := by
  have hb := (Heap.constraints_sorted h.reach.heap m.lt c).2 i hi
  obtain ⟨y, y', n, j, hl, hl', ha, ha', hj, rfl, e⟩ := t.spot h h' hb
  rw [cons_at h'.reach.heap m'.lt hl' ha' (by rw [e.size]; exact hj), e.cons]
  exact (cons_at h.reach.heap m.lt hl ha hj c).mp hi

theorem Twins.cons {s s' : State V T} (h : Path spoil s) (h' : Path spoil s') {r r' : Id} (m : s.Model r)
    (m' : s'.Model r') (t : Twins s s' r r') (c : Con T) : s'.heap.constraints r' c = s.heap.constraints r c :=
  IndexOps.sorted_ext (Heap.constraints_sorted h'.reach.heap m'.lt c).1 (Heap.constraints_sorted h.reach.heap m.lt c).1
    (fun _ => ⟨fun hi => t.symm.cons_sub h' h m' m c hi, fun hi => t.cons_sub h h' m m' c hi⟩)

theorem Twins.fixed {s s' : State V T} (h : Path spoil s) (h' : Path spoil s') {r r' : Id} (m : s.Model r)
    (m' : s'.Model r') (t : Twins s s' r r') : s'.heap.isFixed r' = s.heap.isFixed r := by
  have key : ∀ {s s' : State V T} {r r' : Id}, Path spoil s → Path spoil s' → s.Model r → s'.Model r' →
      Twins s s' r r' → s.heap.isFixed r = true → s'.heap.isFixed r' = true := by
    intro s s' r r' h h' m m' t hf
    have w := h.reach.heap.wf
    have w' := h'.reach.heap.wf
    rw [Heap.isFixed_iff h.reach.heap m.lt] at hf
    rw [Heap.isFixed_iff h'.reach.heap m'.lt]
    intro y' ha' hl' k hk
    obtain ⟨q, hq⟩ := List.getElem?_of_mem (((Print.flattened_inOrder w'.skel w'.sized r').all y').mpr ⟨ha', hl'⟩)
    obtain ⟨y, hy, e⟩ := (get_of_forall₂ t.symm).2 q y' hq
    obtain ⟨ha, hl⟩ := ((Print.flattened_inOrder w.skel w.sized r).all y).mp (List.mem_of_getElem? hy)
    rw [← e.cons]
    exact hf y ha hl k (by rw [e.size]; exact hk)
  rw [Bool.eq_iff_iff]
  exact ⟨key h' h m' m t.symm, key h h' m m' t⟩

theorem Twins.read {o : Ops V T} {s s' : State V T} (h : Path spoil s) (h' : Path spoil s') {r r' : Id} (m : s.Model r)
    (m' : s'.Model r') (t : Twins s s' r r') (copy copy' : Option (List V)) (junk junk' : List V) :
    s'.readArray o r' copy' junk' = s.readArray o r copy junk := by
  obtain ⟨cs, e, hf⟩ := read_by_params_partial (o := o) h m copy junk
  obtain ⟨cs', e', hf'⟩ := read_by_params_partial (o := o) h' m' copy' junk'
  rw [e, e']
  congr 1
  obtain ⟨a1, a2⟩ := get_of_forall₂ t
  obtain ⟨b1, b2⟩ := get_of_forall₂ hf
  obtain ⟨c1, c2⟩ := get_of_forall₂ hf'
  apply List.ext_getElem?
  intro q
  by_cases hq : q < (flattened s.heap.toGraph r).length
  · obtain ⟨y', hy', ee⟩ := a2 q _ (List.getElem?_eq_getElem hq)
    obtain ⟨l, hl, h1⟩ := b2 q _ (List.getElem?_eq_getElem hq)
    obtain ⟨l', hl', h2⟩ := c2 q _ hy'
    rw [hl, hl', (ee.lists.mp h2).unique h1]
  · rw [List.getElem?_eq_none (by omega), List.getElem?_eq_none (by omega)]

theorem readArray_length {o : Ops V T} {s : State V T} (h : Path spoil s) {r : Id} (m : s.Model r)
    (copy : Option (List V)) (junk : List V) : (s.readArray o r copy junk).length = s.freeCount r := by
  obtain ⟨cs, e, hf⟩ := read_by_params_partial (o := o) h m copy junk
  rw [e, List.length_flatten, lengths_eq (hf.imp (fun _ _ hl => hl.1))]
  rfl

/-- A list with as many entries as there are free elements has a piece for every `Param`. -/
theorem pieces {s : State V T} : ∀ (L : List Id) (p : List V),
    p.length = (L.map (fun y => (s.freeOf y).length)).sum →
    ∃ cs : List (List V), p = cs.flatten ∧ List.Forall₂ (fun y c => c.length = (s.freeOf y).length) L cs
  | [], p, hp => ⟨[], List.eq_nil_of_length_eq_zero hp, .nil⟩
  | y :: L, p, hp => by
    rw [List.map_cons, List.sum_cons] at hp
    obtain ⟨cs, e, hf⟩ := pieces (s := s) L (p.drop (s.freeOf y).length) (by rw [List.length_drop]; omega)
    refine ⟨p.take (s.freeOf y).length :: cs, ?_, .cons (by rw [List.length_take]; omega) hf⟩
    rw [List.flatten_cons, ← e, List.take_append_drop]

/-- Equal `Param`s that are given the same are equal. -/
theorem Equal.takes {o : Ops V T} {s s' t t' : State V T} {y y' : Id} (e : Equal s s' y y') {l : List V}
    (h : Takes o s t y l) (h' : Takes o s' t' y' l) (hh : t.heap = s.heap) (hh' : t'.heap = s'.heap) :
    Equal t t' y y' := by
  refine ⟨by rw [hh, hh', e.size], fun c => by rw [hh, hh', e.cons], fun i hi => ?_⟩
  rw [hh] at hi
  by_cases hfx : i ∈ s.heap.constraints y .fixed
  · rw [h.2 i hfx, h'.2 i (by rw [e.cons]; exact hfx), e.read i hi]
  · obtain ⟨k, hk⟩ := List.getElem?_of_mem (mem_freeOf.mpr ⟨hi, hfx⟩)
    obtain ⟨x, hx, a1, a2⟩ := h.1 k i hk
    obtain ⟨x', hx', b1, b2⟩ := h'.1 k i (by rw [e.freeOf]; exact hk)
    rw [hx] at hx'
    cases hx'
    by_cases ht : ∃ u, i ∈ s.heap.constraints y (.tr u)
    · obtain ⟨u, hu⟩ := ht
      rw [a1 u hu, b1 u (by rw [e.cons]; exact hu)]
    · rw [a2 (fun u hu => ht ⟨u, hu⟩), b2 (fun u hu => ht ⟨u, by rw [← e.cons]; exact hu⟩)]

/-- What setting the array of a model keeps. -/
structure Within (spoil : Nat → Nat → V) (s t : State V T) (r : Id) : Prop where
  path : Path spoil t
  heap : t.heap = s.heap
  fixed : ∀ y i, y ∈ flattened s.heap.toGraph r → i ∈ s.heap.constraints y .fixed → t.mem.read y i = s.mem.read y i
  others : ∀ y, y < s.heap.next → s.heap.leaf y = true → ¬ Anc s.heap.toGraph r y → ∀ i, i < s.heap.size y →
    t.mem.read y i = s.mem.read y i

theorem Within.refl {s : State V T} (h : Path spoil s) (r : Id) : Within spoil s s r :=
  ⟨h, rfl, fun _ _ _ _ => rfl, fun _ _ _ _ _ _ => rfl⟩

theorem Within.trans {s t u : State V T} {r : Id} (h : Within spoil s t r) (h' : Within spoil t u r) :
    Within spoil s u r where
  path := h'.path
  heap := h'.heap.trans h.heap
  fixed y i hy hi := (h'.fixed y i (by rw [h.heap]; exact hy) (by rw [h.heap]; exact hi)).trans (h.fixed y i hy hi)
  others y h1 h2 h3 i hi := (h'.others y (by rw [h.heap]; exact h1) (by rw [h.heap]; exact h2)
    (by rw [h.heap]; exact h3) i (by rw [h.heap]; exact hi)).trans (h.others y h1 h2 h3 i hi)

theorem Within.model {s t : State V T} {r : Id} (h : Within spoil s t r) {x : Id} (m : s.Model x) : t.Model x :=
  ⟨by rw [h.heap]; exact m.lt, by rw [h.heap]; exact m.root, by rw [h.heap]; exact m.node,
    by rw [h.heap]; exact m.done⟩

theorem Within.freeCount {s t : State V T} {r : Id} (h : Within spoil s t r) (x : Id) : t.freeCount x = s.freeCount x := by
  unfold State.freeCount State.freeOf
  rw [h.heap]

theorem setArray_within {o : Ops V T} {s : State V T} (h : Path spoil s) {r : Id} (m : s.Model r) {p : List V}
    (hp : p.length = s.freeCount r) : Within spoil s (s.setArray spoil o r p) r := by
  obtain ⟨cs, rfl, hcs⟩ := pieces _ p hp
  obtain ⟨h1, h2, h3, h4⟩ := set_by_params_partial (o := o) h m hcs
  refine ⟨h1, h2, fun y i hy hi => ?_, h4⟩
  obtain ⟨q, hq⟩ := List.getElem?_of_mem hy
  obtain ⟨c, -, ht⟩ := (get_of_forall₂ h3).2 q y hq
  exact ht.2 i hi

theorem Twins.setArray {o : Ops V T} {s s' : State V T} (h : Path spoil s) (h' : Path spoil s') {r r' : Id}
    (m : s.Model r) (m' : s'.Model r') (t : Twins s s' r r') {p : List V} (hp : p.length = s.freeCount r) :
    Twins (s.setArray spoil o r p) (s'.setArray spoil o r' p) r r' := by
  obtain ⟨cs, rfl, hcs⟩ := pieces _ p hp
  have hcs' : List.Forall₂ (fun y c => c.length = (s'.freeOf y).length) (flattened s'.heap.toGraph r') cs := by
    obtain ⟨a1, a2⟩ := get_of_forall₂ t.symm
    obtain ⟨b1, b2⟩ := get_of_forall₂ hcs
    refine forall₂_of_get (by omega) (fun q y' hq => ?_)
    obtain ⟨y, hy, e⟩ := a2 q y' hq
    obtain ⟨c, hc, hl⟩ := b2 q y hy
    exact ⟨c, hc, by rw [hl, e.freeOf]⟩
  obtain ⟨-, h2, h3, -⟩ := set_by_params_partial (o := o) h m hcs
  obtain ⟨-, k2, k3, -⟩ := set_by_params_partial (o := o) h' m' hcs'
  unfold Twins
  rw [h2, k2]
  obtain ⟨a1, a2⟩ := get_of_forall₂ t
  refine forall₂_of_get a1 (fun q y hq => ?_)
  obtain ⟨y', hy', e⟩ := a2 q y hq
  obtain ⟨c, hc, t1⟩ := (get_of_forall₂ h3).2 q y hq
  obtain ⟨c', hc', t2⟩ := (get_of_forall₂ k3).2 q y' hy'
  rw [hc] at hc'
  cases hc'
  exact ⟨y', hy', e.takes t1 t2 h2 k2⟩

theorem Twins.gradients {o : Ops V T} {s s' : State V T} (h : Path spoil s) (h' : Path spoil s') {r r' : Id}
    (m : s.Model r) (m' : s'.Model r') (t : Twins s s' r r') {d : List V} (hd : d.length = s.heap.size r) :
    (s'.optState r' none).transformGradients o d = (s.optState r none).transformGradients o d := by
  have hv := t.values h h' m m'
  have hz := t.size h h'
  have hc : ∀ c, (s'.optState r' none).cons c = (s.optState r none).cons c := t.cons h h' m m'
  obtain ⟨a1, a2, a3⟩ := Opt.transform_spec o (m.ready h none) (g := d) hd
  obtain ⟨b1, b2, b3⟩ := Opt.transform_spec o (m'.ready h' none) (g := d) (hd.trans hz.symm)
  have e1 : ((s'.optState r' none).transformGradients o d).1 = ((s.optState r none).transformGradients o d).1 := by
    apply List.ext_getElem?
    intro i
    by_cases hi : i < s.heap.size r
    · have hval : (s.optState r none).vals[i]? = some (s.mem.read r i) := values_get hi
      have hval' : (s'.optState r' none).vals[i]? = some (s.mem.read r i) := by
        show (s'.values r')[i]? = _
        rw [hv]; exact values_get hi
      have hdi : d[i]? = some d[i] := List.getElem?_eq_getElem (by omega)
      obtain ⟨w, hw, v1, v2⟩ := a2 i _ _ hval hdi
      obtain ⟨w', hw', v1', v2'⟩ := b2 i _ _ hval' hdi
      rw [hw, hw']
      by_cases ht : ∃ u, i ∈ (s.optState r none).cons (.tr u)
      · obtain ⟨u, hu⟩ := ht
        rw [v1 u hu, v1' u (by rw [hc]; exact hu)]
      · rw [v2 (fun u hu => ht ⟨u, hu⟩), v2' (fun u hu => ht ⟨u, by rw [← hc]; exact hu⟩)]
    · have a1 : ((s.optState r none).transformGradients o d).1.length = s.heap.size r := a1
      have b1 : ((s'.optState r' none).transformGradients o d).1.length = s'.heap.size r' := b1
      rw [List.getElem?_eq_none (by omega), List.getElem?_eq_none (by omega)]
  refine Prod.ext e1 ?_
  rw [a3, b3, e1]
  congr 1
  unfold Opt.free
  rw [hc, show (s'.optState r' none).size = (s.optState r none).size from hz]

theorem values_length (s : State V T) (r : Id) : (s.values r).length = s.heap.size r := by simp [values]

theorem Twins.answer {o : Ops V T} {F : List V → W} {g : List V → List V} (hg : ∀ v, (g v).length = v.length)
    {s s' : State V T} (h : Path spoil s) (h' : Path spoil s') {r r' : Id} (m : s.Model r) (m' : s'.Model r')
    (t : Twins s s' r r') (c : Query V) : s'.answer o F g r' c = s.answer o F g r c := by
  have hv := t.values h h' m m'
  have hgr := t.gradients (o := o) h h' m m' (d := g (s.values r)) (by rw [hg, values_length])
  have hx : (s'.optState r' none).hasFixes = (s.optState r none).hasFixes := by
    unfold Opt.State.hasFixes
    rw [show (s'.optState r' none).cons .fixed = (s.optState r none).cons .fixed from t.cons h h' m m' .fixed]
  cases c <;> simp only [State.answer, hv, hgr, hx]

end State

end Paramz.Memory

import Verif.Opt.Props
import Verif.Ravel.Props
import Verif.Hier.Tiling

/-!
# Flat parameter names (C50)

Source: `paramz/core/parameter_core.py:201-223`, `paramz/parameterized.py:368-370`, `paramz/param.py:234-236`.
-/

set_option linter.unusedSectionVars false

namespace Paramz.Opt

open Hier (Graph Heap Id)
open Hier.Graph (Anc At Skel Sized)
open Ravel (InShape position)

variable {V T N : Type} [DecidableEq T]

/-- `flattened_parameters` (parameterized.py:368-370, param.py:234-236). -/
def flattenedF : Nat → Graph → Id → List Id
  | 0, _, _ => []
  | n + 1, g, x => if g.leaf x then [x] else (g.kids x).flatMap (flattenedF n g)

@[inherit_doc flattenedF]
def flattened (g : Graph) (x : Id) : List Id := flattenedF g.fuel g x

/-- The names of one `Param` (parameter_core.py:214-218): `fmt p (some i)` is `"{}[{!s}]".format(name, i)` for the
row `i` of `p._indices()`, `fmt p none` is the name alone; `name` is `p.hierarchy_name()`. -/
def leafNames (fmt : Id → Option (List Nat) → N) (shape : Id → List Nat) (g : Graph) (p : Id) : List N :=
  if 1 < g.size p then
    (Ravel.indices (shape p) [.many (List.range (shape p).head!)]).map (fun i => fmt p (some i))
  else [fmt p none]

/-- `name_list` before fixed ones are removed (parameter_core.py:212-219). -/
def allNames (fmt : Id → Option (List Nat) → N) (shape : Id → List Nat) (g : Graph) (r : Id) : List N :=
  (flattened g r).flatMap (leafNames fmt shape g)

/-- `parameter_names_flat(include_fixed)` (parameter_core.py:201-223) of the root. If the lengths differ the
boolean index would raise. -/
def namesFlat (fmt : Id → Option (List Nat) → N) (shape : Id → List Nat) (s : State V T) (includeFixed : Bool) : List N :=
  let l := allNames fmt shape s.heap.toGraph s.root
  if !includeFixed && s.hasFixes then select l ((s.heap.fixes s.root).getD []) else l

/-! ### Lemmas -/

theorem flattenedF_stable {g : Graph} {d : Id → Nat} (s : Skel g) (hd : ∀ c p, g.parent c = some p → d p < d c)
    (hb : ∀ x, d x ≤ g.next) : ∀ (n m : Nat) (x : Id), g.next < n + d x → g.next < m + d x →
    flattenedF n g x = flattenedF m g x
  | 0, _, x, h, _ => by have := hb x; omega
  | _, 0, x, _, h => by have := hb x; omega
  | n + 1, m + 1, x, h1, h2 => by
    rw [flattenedF, flattenedF]
    split
    · rfl
    · apply List.flatMap_congr
      intro c hc
      have := hd _ _ ((s.mem_iff _ _).mp hc)
      exact flattenedF_stable s hd hb n m c (by omega) (by omega)

/-- The recursive equation. -/
theorem flattened_eq {g : Graph} (s : Skel g) (x : Id) :
    flattened g x = if g.leaf x then [x] else (g.kids x).flatMap (flattened g) := by
  obtain ⟨d, hd, hb⟩ := s.rank
  unfold flattened
  have e : g.fuel = g.next + 1 := rfl
  rw [e, flattenedF]
  split
  · rfl
  · apply List.flatMap_congr
    intro c hc
    have := hd _ _ ((s.mem_iff _ _).mp hc)
    exact flattenedF_stable s hd hb _ _ c (by omega) (by omega)

theorem flattened_anc {g : Graph} (s : Skel g) : ∀ (n : Nat) (x y : Id), y ∈ flattenedF n g x → Anc g x y ∧ g.leaf y = true
  | 0, _, _, h => by simp [flattenedF] at h
  | n + 1, x, y, h => by
    rw [flattenedF] at h
    split at h
    · rename_i hl
      rw [List.mem_singleton.mp h]; exact ⟨.refl, hl⟩
    · obtain ⟨c, hc, hy⟩ := List.mem_flatMap.mp h
      obtain ⟨h1, h2⟩ := flattened_anc s n c y hy
      exact ⟨(Anc.step .refl ((s.mem_iff _ _).mp hc)).trans h1, h2⟩

/-- The elements of the `Param`s below an object are its elements. -/
theorem flattened_size {g : Graph} (s : Skel g) (z : Sized g) (x : Id) : g.sizeSum (flattened g x) = g.size x := by
  obtain ⟨d, hd, hb⟩ := s.rank
  induction hn : g.next - d x using Nat.strong_induction_on generalizing x with
  | _ n ih =>
    rw [flattened_eq s]
    split
    · simp [Graph.sizeSum]
    · rename_i hl
      rw [z x (by simpa using hl)]
      have key : ∀ l : List Id, (∀ c ∈ l, c ∈ g.kids x) → g.sizeSum (l.flatMap (flattened g)) = g.sizeSum l := by
        intro l
        induction l with
        | nil => intro _; rfl
        | cons c l ihl =>
          intro hl
          have hc := hd _ _ ((s.mem_iff _ _).mp (hl c List.mem_cons_self))
          have h1 := ih (g.next - d c) (by have := hb c; omega) c rfl
          have h2 := ihl (fun c' hc' => hl c' (List.mem_cons_of_mem _ hc'))
          unfold Graph.sizeSum at h1 h2 ⊢
          rw [List.flatMap_cons, List.map_append, List.sum_append, h1, h2, List.map_cons, List.sum_cons]
      exact key _ (fun _ h => h)

/-- The `Param`s below an object at offset `n` come after elements of total size `n`. -/
theorem flattened_at {g : Graph} (s : Skel g) (z : Sized g) {r x n : Nat} (h : At g r x n) :
    ∃ A B, flattened g r = A ++ flattened g x ++ B ∧ g.sizeSum A = n := by
  induction h with
  | refl => exact ⟨[], [], by simp, rfl⟩
  | step hp hk ih =>
    rename_i p c n A B
    obtain ⟨A', B', h1, h2⟩ := ih
    have hl : g.leaf p = false := by
      cases hl : g.leaf p with
      | false => rfl
      | true => rw [s.leaf p hl] at hk; cases A <;> cases hk
    refine ⟨A' ++ A.flatMap (flattened g), B.flatMap (flattened g) ++ B', ?_, ?_⟩
    · rw [h1, flattened_eq s p, hl, hk]
      simp [List.flatMap_append, List.flatMap_cons]
    · unfold Graph.sizeSum at h2 ⊢
      rw [List.map_append, List.sum_append, h2]
      congr 1
      have key : ∀ l : List Id, ((l.flatMap (flattened g)).map g.size).sum = (l.map g.size).sum := by
        intro l
        induction l with
        | nil => rfl
        | cons c l ihl =>
          have := flattened_size s z c
          unfold Graph.sizeSum at this
          rw [List.flatMap_cons, List.map_append, List.sum_append, ihl, this, List.map_cons, List.sum_cons]
      exact key A

/-! ### Specification -/

/-- Every `Param` below `r` has a shape (of at least one axis) with as many elements as its size says, and at
least one element. -/
structure Shaped (g : Graph) (shape : Id → List Nat) (r : Id) : Prop where
  ne : ∀ y, Anc g r y → g.leaf y = true → shape y ≠ []
  size : ∀ y, Anc g r y → g.leaf y = true → Ravel.size (shape y) = g.size y
  pos : ∀ y, Anc g r y → g.leaf y = true → 0 < g.size y

/-- The name of the element `idx` of `y`: with the index, unless it is the only element. -/
def label (fmt : Id → Option (List Nat) → N) (g : Graph) (y : Id) (idx : List Nat) : N :=
  fmt y (if 1 < g.size y then some idx else none)

theorem leafNames_eq (fmt : Id → Option (List Nat) → N) {shape : Id → List Nat} {g : Graph} {y : Id} (hne : shape y ≠ [])
    (hs : Ravel.size (shape y) = g.size y) (hp : 0 < g.size y) :
    leafNames fmt shape g y = (Ravel.allIdx (shape y)).map (label fmt g y) := by
  unfold leafNames label
  split
  · rename_i h1
    cases hsh : shape y with
    | nil => exact absurd hsh hne
    | cons n sh =>
      rw [Ravel.indices_rows (B := 0) (by simp) (by simp [Ravel.Fits]) (fun h => by simp [Ravel.hasAdv, Ravel.Sel.isAdv] at h),
        List.map_map]
      have e : Ravel.outShape [.many (List.range n)] (n :: sh) = n :: sh := by
        simp [Ravel.outShape, Ravel.hasAdv, Ravel.Sel.isAdv, Ravel.base]
      simp only [List.head!_cons]
      rw [e]
      apply List.map_congr_left
      intro o ho
      have ho := Ravel.mem_allIdx.mp ho
      cases o with
      | nil => exact ho.elim
      | cons j o =>
        have hj : j < n := ho.1
        have : Ravel.src [.many (List.range n)] (j :: o) = j :: o := by
          simp [Ravel.src, Ravel.hasAdv, Ravel.Sel.isAdv, Ravel.walk, hj]
        simp only [Function.comp, this]
  · rename_i h1
    have h1 : g.size y = 1 := by omega
    have hl := Ravel.length_allIdx (shape y)
    rw [hs, h1] at hl
    obtain ⟨o, ho⟩ := List.length_eq_one_iff.mp hl
    rw [ho]; rfl

theorem leafNames_length (fmt : Id → Option (List Nat) → N) {shape : Id → List Nat} {g : Graph} {y : Id} (hne : shape y ≠ [])
    (hs : Ravel.size (shape y) = g.size y) (hp : 0 < g.size y) : (leafNames fmt shape g y).length = g.size y := by
  rw [leafNames_eq fmt hne hs hp, List.length_map, Ravel.length_allIdx, hs]

theorem names_length (fmt : Id → Option (List Nat) → N) {shape : Id → List Nat} {g : Graph} : ∀ (l : List Id),
    (∀ y ∈ l, shape y ≠ [] ∧ Ravel.size (shape y) = g.size y ∧ 0 < g.size y) →
    (l.flatMap (leafNames fmt shape g)).length = g.sizeSum l
  | [], _ => rfl
  | y :: l, h => by
    have ih := names_length fmt l (fun y hy => h y (List.mem_cons_of_mem _ hy))
    obtain ⟨h1, h2, h3⟩ := h y List.mem_cons_self
    unfold Graph.sizeSum at ih ⊢
    rw [List.flatMap_cons, List.length_append, ih, leafNames_length fmt h1 h2 h3, List.map_cons, List.sum_cons]

/-! ### Properties -/

/-- There is one name per element, in the order of `param_array`: the element `idx` of the `Param` `y`, whose
elements start at `m`, has its name at `m` plus the row-major position of `idx`. Missing for the full claim:
`Param`s without elements, see `flat_names_empty_fails`. -/
theorem flat_names_partial (fmt : Id → Option (List Nat) → N) {shape : Id → List Nat} {g : Graph} (s : Skel g)
    (z : Sized g) (r : Id) (hs : Shaped g shape r) :
    (allNames fmt shape g r).length = g.size r ∧
    ∀ y m idx, At g r y m → g.leaf y = true → InShape (shape y) idx →
      (allNames fmt shape g r)[m + position (shape y) idx]? = some (label fmt g y idx) := by
  have hall : ∀ y ∈ flattened g r, shape y ≠ [] ∧ Ravel.size (shape y) = g.size y ∧ 0 < g.size y := by
    intro y hy
    obtain ⟨h1, h2⟩ := flattened_anc s _ r y hy
    exact ⟨hs.ne y h1 h2, hs.size y h1 h2, hs.pos y h1 h2⟩
  refine ⟨by unfold allNames; rw [names_length fmt _ hall, flattened_size s z], fun y m idx ha hl hi => ?_⟩
  obtain ⟨A, B, h1, h2⟩ := flattened_at s z ha
  rw [flattened_eq s y, hl, if_pos rfl] at h1
  have hy : y ∈ flattened g r := by rw [h1]; simp
  obtain ⟨hne, hsz, hp⟩ := hall y hy
  have hA := names_length fmt A (fun y hy => hall y (by rw [h1]; simp [hy]))
  have hlt := Ravel.position_lt hi
  unfold allNames
  rw [h1, List.flatMap_append, List.flatMap_append, List.append_assoc,
    List.getElem?_append_right (by rw [hA, h2]; omega), hA, h2, Nat.add_sub_cancel_left, List.flatMap_singleton,
    List.getElem?_append_left (by rw [leafNames_length fmt hne hsz hp, ← hsz]; exact hlt), leafNames_eq fmt hne hsz hp]
  exact Ravel.ravel_position (⟨shape y, label fmt g y⟩ : Ravel.Nd N) hi

/-- If names of different `Param`s, and of different indices, differ, then all names differ. -/
theorem flat_names_distinct (fmt : Id → Option (List Nat) → N)
    (hf : ∀ y i y' i', fmt y i = fmt y' i' → y = y' ∧ i = i') {shape : Id → List Nat} {g : Graph} (s : Skel g)
    (z : Sized g) (r : Id) (hs : Shaped g shape r) : (allNames fmt shape g r).Nodup := by
  obtain ⟨hl, hn⟩ := flat_names_partial fmt s z r hs
  have element : ∀ i, i < g.size r → ∃ y m idx, At g r y m ∧ g.leaf y = true ∧ InShape (shape y) idx ∧
      i = m + position (shape y) idx := by
    intro i hi
    obtain ⟨y, m, ha, hy, h1, h2⟩ := s.exists_leaf z r i hi
    have hsz := hs.size y (ha.anc s) hy
    have hm : i - m ∈ (Ravel.allIdx (shape y)).map (position (shape y)) := by
      rw [Ravel.positions_in_order, List.mem_range, hsz]; omega
    obtain ⟨idx, hidx, he⟩ := List.mem_map.mp hm
    exact ⟨y, m, idx, ha, hy, Ravel.mem_allIdx.mp hidx, by omega⟩
  rw [List.nodup_iff_getElem?_ne_getElem?]
  intro i j hij hj he
  rw [hl] at hj
  obtain ⟨y, m, idx, ha, hy, hin, ei⟩ := element i (by omega)
  obtain ⟨y', m', idx', ha', hy', hin', ej⟩ := element j hj
  rw [ei, ej, hn y m idx ha hy hin, hn y' m' idx' ha' hy' hin'] at he
  obtain ⟨rfl, h2⟩ := hf _ _ _ _ (Option.some.inj he)
  have hm : m = m' := s.at_unique ha ha'
  split at h2
  · have : idx = idx' := Option.some.inj h2
    subst this; omega
  · rename_i h1
    have h3 := Ravel.position_lt hin
    have h4 := Ravel.position_lt hin'
    rw [hs.size y (ha.anc s) hy] at h3 h4
    omega

/-- Without fixed elements: the `k`-th name belongs to the `k`-th free element, which is the `k`-th of
`optimizer_array` (`read_lists_free`). -/
theorem flat_names_free_partial (fmt : Id → Option (List Nat) → N) {shape : Id → List Nat} {s : State V T} (r : Ready s)
    (hs : Shaped s.heap.toGraph shape s.root) :
    (namesFlat fmt shape s false).length = (free s).length ∧
    (∀ k i : Nat, (free s)[k]? = some i →
      (namesFlat fmt shape s false)[k]? = (namesFlat fmt shape s true)[i]?) ∧
    namesFlat fmt shape s true = allNames fmt shape s.heap.toGraph s.root := by
  have wf := r.reach.wf
  obtain ⟨hl, -⟩ := flat_names_partial fmt wf.skel wf.sized s.root hs
  have hl : (allNames fmt shape s.heap.toGraph s.root).length = s.size := hl
  have et : namesFlat fmt shape s true = allNames fmt shape s.heap.toGraph s.root := rfl
  have hb : ∀ j ∈ free s, j < (allNames fmt shape s.heap.toGraph s.root).length := by
    intro j hj
    rw [hl]
    exact List.mem_range.mp (List.mem_filter.mp hj).1
  have e : namesFlat fmt shape s false = pick (allNames fmt shape s.heap.toGraph s.root) (free s) := by
    unfold namesFlat
    simp only [Bool.not_false, Bool.true_and]
    cases hf : s.hasFixes with
    | true =>
      rw [if_pos rfl, r.mask hf, Option.getD_some, select_eq _ _ (by rw [hl, maskOf_length]), free_eq]
    | false =>
      rw [if_neg (by simp), free_of_no_fixes hf, ← hl]
      apply List.ext_getElem?
      intro i
      rw [getElem?_pick (by simp)]
      by_cases hi : i < (allNames fmt shape s.heap.toGraph s.root).length
      · rw [List.getElem?_range hi]; rfl
      · rw [List.getElem?_eq_none (by omega), List.getElem?_eq_none (l := List.range _) (by simpa using hi)]; rfl
  refine ⟨by rw [e, pick_length hb], fun k i hk => ?_, et⟩
  rw [e, et, getElem?_pick hb, hk]; rfl

/-! ### Examples -/

/-- Shapes for the model of the examples. -/
def demoShape : Id → List Nat := fun y => [[1], [1, 2], [1], [3, 1], [1], [2]].getD y [1]

def pair (y : Id) (i : Option (List Nat)) : Id × Option (List Nat) := (y, i)

theorem demo_shaped : Shaped demo.heap.toGraph demoShape demo.root := by
  have key : ∀ y, Anc demo.heap.toGraph demo.root y → demo.heap.toGraph.leaf y = true → y ∈ [1, 3, 4, 5] := by
    intro y hy hl
    have h1 : y ∈ demo.heap.toGraph.subtree demo.root := (demo_ready.reach.wf.skel.mem_subtree).mpr hy
    have h2 : demo.heap.toGraph.subtree demo.root = [0, 1, 2, 3, 4, 5] := by decide +kernel
    rw [h2] at h1
    have h3 : ∀ y ∈ [0, 1, 2, 3, 4, 5], demo.heap.toGraph.leaf y = true → y ∈ [1, 3, 4, 5] := by decide +kernel
    exact h3 y h1 hl
  have h : ∀ y ∈ [1, 3, 4, 5], demoShape y ≠ [] ∧ Ravel.size (demoShape y) = demo.heap.toGraph.size y ∧
      0 < demo.heap.toGraph.size y := by decide +kernel
  exact ⟨fun y h1 h2 => (h y (key y h1 h2)).1, fun y h1 h2 => (h y (key y h1 h2)).2.1,
    fun y h1 h2 => (h y (key y h1 h2)).2.2⟩

example : namesFlat pair demoShape demo true =
    [(1, some [0, 0]), (1, some [0, 1]), (3, some [0, 0]), (3, some [1, 0]), (3, some [2, 0]), (4, none),
      (5, some [0]), (5, some [1])] ∧
    namesFlat pair demoShape demo false =
    [(1, some [0, 0]), (1, some [0, 1]), (3, some [0, 0]), (3, some [1, 0]), (4, none)] ∧
    free demo = [0, 1, 2, 3, 5] := by decide +kernel

/-- A hierarchy with a `Param` without elements. -/
def hollow : Heap Nat := Hier.Heap.run Hier.Heap.empty
  [.newNode, .newParam 0, .newParam 2, .link 0 1 none, .link 0 2 none, .finishInit 0 true]

/-- It has a name too, so the names do not line up with the elements. -/
theorem flat_names_empty_fails : Hier.Heap.Reach hollow ∧ hollow.size 0 = 2 ∧
    allNames pair (fun y => if y = 1 then [0] else [2]) hollow.toGraph 0 =
      [(1, none), (2, some [0]), (2, some [1])] :=
  ⟨Hier.Heap.Reach.run .empty _ (by decide +kernel), by decide +kernel, by decide +kernel⟩

end Paramz.Opt

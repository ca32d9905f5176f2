import Verif.Opt.FlatNames
import Verif.Hier.ConProps
import Verif.Select.Props

/-!
# Printed tables (C75)

Source: `paramz/parameterized.py:368-448`, `paramz/param.py:223-243, 329-348`,
`paramz/core/parameter_core.py:174-199`.

The tables are lists of rows here: column widths, colours, headers, rounding of numbers and the html tags are left
out. Only the column of the constraints is modelled; other index operations have columns made by the same code.
-/

set_option linter.unusedSectionVars false

namespace Paramz.Print

open Hier (Graph Heap Id Con)
open Hier.Graph (Anc At Skel Sized)
open Hier.Heap (Reach)
open IndexOps (Iop)
open Opt (flattened flattenedF)
open Ravel (Nd Par Sel InShape position Fits Selected hasAdv contiguous allIdx outShape)

variable {V T N : Type} [DecidableEq T]

/-! ### The table of a `Parameterized` -/

/-- What is shown of the values: the value or the shape (param.py:223-227). -/
inductive Desc (V : Type)
  | value (v : List V)
  | shape (sh : List Nat)
  deriving DecidableEq, Repr

/-- One row: the parts of the name (joined with dots when printed), the second column, and the constraints,
each with `true` if it is written in braces. -/
structure Row (N V T : Type) where
  name : List N
  desc : Desc V
  cons : List (Con T × Bool)
  deriving DecidableEq

/-- `parameter_names(add_self, adjust_for_printing=True)` (parameter_core.py:174-199, param.py:228-233); `nm` gives
the printed names. -/
def namesF (nm : Id → N) (g : Graph) : Nat → Bool → Id → List (List N)
  | 0, _, _ => []
  | n + 1, addSelf, x =>
    if g.leaf x then [[nm x]]
    else if addSelf then ((g.kids x).flatMap (namesF nm g n true)).map (nm x :: ·)
    else (g.kids x).flatMap (namesF nm g n true)

/-- A property gathered over the hierarchy, one entry per `Param` (parameterized.py:372-380: `get_property_string`
and `_description_str`). -/
def gatherF {α : Type} (f : Id → α) (g : Graph) : Nat → Id → List α
  | 0, _ => []
  | n + 1, x => if g.leaf x then [f x] else (g.kids x).flatMap (gatherF f g n)

/-- `Param._description_str` (param.py:223-227): `self[0]` of an array of one element, or of none. `none`: `IndexError`
if there is no first row. -/
def desc (size : Nat) (shape : List Nat) (vals : List V) : Option (Desc V) :=
  if size ≤ 1 then
    if shape.head? = some 0 then none else some (.value (vals.take (Ravel.size shape.tail)))
  else some (.shape shape)

/-- `Param.get_property_string("constraints")` (param.py:241-243). -/
def column (h : Heap T) (y : Id) : List (Con T × Bool) :=
  ((h.iop y).2.items (h.dicts (h.iop y).1)).map (fun e => (e.1, decide (e.2.length ≠ h.size y)))

/-- The rows `i` of the three columns; `none`: `IndexError` (parameterized.py:446-447). -/
def rowAt (ds : List (Desc V)) (cs : List (List (Con T × Bool))) (e : List N × Nat) : Option (Row N V T) :=
  match ds[e.2]?, cs[e.2]? with
  | some d, some c => some ⟨e.1, d, c⟩
  | _, _ => none

/-- `str(x)` of a `Parameterized` (parameterized.py:431-448), also the table of `_repr_html_` (382-413). -/
def table (nm : Id → N) (shape : Id → List Nat) (vals : Id → List V) (h : Heap T) (x : Id) :
    Option (List (Row N V T)) :=
  match (gatherF (fun y => desc (h.size y) (shape y) (vals y)) h.toGraph h.toGraph.fuel x).mapM id with
  | none => none
  | some ds =>
    (namesF nm h.toGraph h.toGraph.fuel false x).zipIdx.mapM
      (rowAt ds (gatherF (column h) h.toGraph h.toGraph.fuel x))

/-! ### The table of a `Param` or of a part of one -/

/-- `str(p)` of a `Param` `y` or a part of it (param.py:329-348): index, value and constraints of every element.
`none`: an exception. -/
def elements (h : Heap T) (y : Id) (p : Par V) : Option (List (List Nat × V × List (Con T))) :=
  match p.raveled with
  | none => none
  | some ravi =>
    (List.range (Ravel.size p.arr.shape)).mapM (fun i =>
      match (Ravel.indices p.realshape p.cur)[i]?, p.arr.ravel[i]?,
          ((h.iop y).2.propertiesFor (h.dicts (h.iop y).1) ravi)[i]? with
      | some ix, some v, some ps => some (ix, v, ps)
      | _, _, _ => none)

/-! ### Specification -/

/-- The names on the way from `x` down to `y`, without that of `x`. -/
inductive Trail (nm : Id → N) (g : Graph) : Id → Id → List N → Prop
  | child {x c : Id} : g.parent c = some x → Trail nm g x c [nm c]
  | down {x c y : Id} {l : List N} : g.parent c = some x → Trail nm g c y l → Trail nm g x y (nm c :: l)

/-- The `Param`s below `x`, each once, in the order of their elements in `x`. -/
structure InOrder (g : Graph) (x : Id) (l : List Id) : Prop where
  nodup : l.Nodup
  all : ∀ y, y ∈ l ↔ Anc g x y ∧ g.leaf y = true
  order : ∀ (i : Nat) (y : Id) (m : Nat), l[i]? = some y → At g x y m → m = ((l.take i).map g.size).sum

/-- What the row of the `Param` `y` in the table of `x` has to say: the name, the value if there is only one, else the
shape, plainly the constraints that all elements have, and in braces those that some have and others do not. -/
structure Truthful (nm : Id → N) (shape : Id → List Nat) (vals : Id → List V) (h : Heap T) (x y : Id)
    (r : Row N V T) : Prop where
  name : Trail nm h.toGraph x y r.name
  one : h.size y = 1 → r.desc = .value (vals y)
  many : 1 < h.size y → r.desc = .shape (shape y)
  plain : ∀ t, (t, false) ∈ r.cons ↔ 0 < h.size y ∧ ∀ k, k < h.size y → k ∈ h.constraints y t
  braces : ∀ t, (t, true) ∈ r.cons ↔ (∃ k, k < h.size y ∧ k ∈ h.constraints y t) ∧
    ∃ k, k < h.size y ∧ k ∉ h.constraints y t
  once : (r.cons.map Prod.fst).Nodup

/-! ### Lemmas -/

theorem forall₂_append {α β : Type} {R : α → β → Prop} {l1 l2 : List α} {m1 m2 : List β} (h1 : List.Forall₂ R l1 m1)
    (h2 : List.Forall₂ R l2 m2) : List.Forall₂ R (l1 ++ l2) (m1 ++ m2) := by
  induction h1 with
  | nil => exact h2
  | cons h _ ih => exact .cons h ih

theorem forall₂_flatMap {α β γ : Type} {R : β → γ → Prop} {f : α → List β} {k : α → List γ} : ∀ (l : List α),
    (∀ c ∈ l, List.Forall₂ R (f c) (k c)) → List.Forall₂ R (l.flatMap f) (l.flatMap k)
  | [], _ => .nil
  | c :: l, h => by
    rw [List.flatMap_cons, List.flatMap_cons]
    exact forall₂_append (h c List.mem_cons_self) (forall₂_flatMap l (fun c hc => h c (List.mem_cons_of_mem _ hc)))

theorem namesF_trail {nm : Id → N} {g : Graph} (s : Skel g) : ∀ (n : Nat) (x : Id), g.leaf x = false →
    List.Forall₂ (fun y l => Trail nm g x y l) (flattenedF n g x) (namesF nm g n false x)
  | 0, _, _ => .nil
  | n + 1, x, hx => by
    rw [flattenedF, namesF]
    simp only [hx, Bool.false_eq_true, if_false]
    apply forall₂_flatMap
    intro c hc
    have hp : g.parent c = some x := (s.mem_iff _ _).mp hc
    cases n with
    | zero => exact .nil
    | succ n =>
      cases hl : g.leaf c with
      | true =>
        rw [flattenedF, namesF]
        simp only [hl, if_true]
        exact .cons (.child hp) .nil
      | false =>
        have ih := namesF_trail (nm := nm) s (n + 1) c hl
        have e : namesF nm g (n + 1) true c = (namesF nm g (n + 1) false c).map (nm c :: ·) := by
          rw [namesF, namesF]; simp [hl]
        rw [e, List.forall₂_map_right_iff]
        exact ih.imp (fun _ _ h => .down hp h)

theorem gatherF_eq {α : Type} (f : Id → α) (g : Graph) : ∀ (n : Nat) (x : Id),
    gatherF f g n x = (flattenedF n g x).map f
  | 0, _ => rfl
  | n + 1, x => by
    rw [gatherF, flattenedF]
    split
    · rfl
    · rw [List.map_flatMap]
      exact List.flatMap_congr (fun c _ => gatherF_eq f g n c)

theorem optFlattenedF_eq {g : Graph} (s : Skel g) : ∀ n x,
    flattenedF n g x = (Graph.subtreeF n g x).filter g.leaf
  | 0, _ => rfl
  | n + 1, x => by
    unfold flattenedF Graph.subtreeF
    by_cases h : g.leaf x = true
    · rw [if_pos h, s.leaf x h]; simp [h]
    · rw [if_neg h, List.filter_cons_of_neg h, List.filter_flatMap]
      exact List.flatMap_congr fun c _ => optFlattenedF_eq s n c

/-- `flattened_parameters` lists the `Param`s in the order of their elements. -/
theorem flattened_inOrder {g : Graph} (s : Skel g) (z : Sized g) (x : Id) : InOrder g x (flattened g x) := by
  have e : flattened g x = (g.subtree x).filter g.leaf := optFlattenedF_eq s _ x
  have hn : (flattened g x).Nodup := by rw [e]; exact (Hier.Graph.nodup_subtree s x).filter _
  refine ⟨hn, fun y => ?_, fun i y m hi hm => ?_⟩
  · rw [e, List.mem_filter, s.mem_subtree]
  · obtain ⟨A, B, h1, h2⟩ := Opt.flattened_at s z hm
    have hy : g.leaf y = true := by
      have : y ∈ flattened g x := List.mem_of_getElem? hi
      rw [e] at this; exact (List.mem_filter.mp this).2
    rw [Opt.flattened_eq s y, hy, if_pos rfl, List.append_assoc, List.singleton_append] at h1
    rw [h1] at hn hi ⊢
    have hiA : i = A.length := by
      have hA : (A ++ y :: B)[A.length]? = some y := by simp
      have hlt : i < (A ++ y :: B).length := by
        by_contra hc
        rw [List.getElem?_eq_none (by omega)] at hi; cases hi
      exact (List.getElem?_inj hlt hn).mp (hi.trans hA.symm)
    rw [hiA, List.take_left]
    exact h2.symm

theorem mapM_id_map {α β : Type} (f : α → Option β) : ∀ (l : List α), (l.map f).mapM id = l.mapM f
  | [] => rfl
  | a :: l => by rw [List.map_cons, List.mapM_cons, List.mapM_cons, mapM_id_map f l]; rfl

theorem mapM_of_forall₂ {α β : Type} {f : α → Option β} : ∀ {l : List α} {m : List β},
    List.Forall₂ (fun a b => f a = some b) l m → l.mapM f = some m
  | _, _, .nil => rfl
  | _, _, .cons h t => by rw [List.mapM_cons, h, mapM_of_forall₂ t]; rfl

theorem zipIdx_mapM {ds : List (Desc V)} {cs : List (List (Con T × Bool))} (ns : List (List N))
    (hd : ds.length = ns.length) (hc : cs.length = ns.length) :
    ∃ rows, ns.zipIdx.mapM (rowAt ds cs) = some rows ∧ rows.length = ns.length ∧
      ∀ (i : Nat) (h : i < ns.length), rows[i]? = some ⟨ns[i], ds[i], cs[i]⟩ := by
  have key : ns.zipIdx.mapM (rowAt ds cs) =
      some ((List.range ns.length).pmap (fun i h => (⟨ns[i], ds[i], cs[i]⟩ : Row N V T))
        (fun i h => List.mem_range.mp h)) := by
    apply mapM_of_forall₂
    rw [List.forall₂_iff_get]
    refine ⟨by simp, fun i h1 h2 => ?_⟩
    have hi : i < ns.length := by simpa using h1
    simp only [List.get_eq_getElem, List.getElem_zipIdx, List.getElem_pmap, List.getElem_range, Nat.zero_add, rowAt]
    rw [List.getElem?_eq_getElem (by omega), List.getElem?_eq_getElem (by omega)]
  refine ⟨_, key, by simp, fun i hi => ?_⟩
  rw [List.getElem?_pmap]
  simp [hi]

theorem below_lt {g : Graph} (s : Skel g) {x y : Id} (ha : Anc g x y) (hx : x < g.next) : y < g.next := by
  induction ha with
  | refl => exact hx
  | step _ hp _ => exact (s.alloc _ _ hp).1

/-- A dictionary that has every key once. -/
theorem dict_wf {h : Heap T} (hr : Reach h) {y : Id} (hy : y < h.next) : IndexOps.WF (h.dicts (h.iop y).1) := by
  have w := hr.wf
  obtain ⟨r, hrr, hra⟩ := w.skel.exists_root y
  have hrlt := w.skel.anc_lt hra hy
  obtain ⟨o, ho⟩ := w.skel.exists_at hra
  by_cases hyr : y = r
  · subst hyr; exact w.dict y hrlt hrr
  · rw [w.view r y o hrlt hrr ho hyr]; exact w.dict r hrlt hrr

/-- The last column. -/
theorem column_spec {h : Heap T} (hr : Reach h) {y : Id} (hy : y < h.next) :
    (∀ t, (t, false) ∈ column h y ↔ 0 < h.size y ∧ ∀ k, k < h.size y → k ∈ h.constraints y t) ∧
    (∀ t, (t, true) ∈ column h y ↔ (∃ k, k < h.size y ∧ k ∈ h.constraints y t) ∧
      ∃ k, k < h.size y ∧ k ∉ h.constraints y t) ∧
    ((column h y).map Prod.fst).Nodup := by
  have wf := dict_wf hr hy
  have mem : ∀ t b, (t, b) ∈ column h y ↔ h.constraints y t ≠ [] ∧ b = decide ((h.constraints y t).length ≠ h.size y) := by
    intro t b
    unfold column
    rw [List.mem_map]
    constructor
    · rintro ⟨⟨t', a⟩, hm, he⟩
      obtain ⟨h1, h2⟩ := (Iop.mem_items _ wf.keys).mp hm
      rw [Prod.mk.injEq] at he
      obtain ⟨rfl, rfl⟩ := he
      subst h1
      exact ⟨h2, rfl⟩
    · rintro ⟨h1, rfl⟩
      exact ⟨(t, h.constraints y t), (Iop.mem_items _ wf.keys).mpr ⟨rfl, h1⟩, rfl⟩
  refine ⟨fun t => ?_, fun t => ?_, ?_⟩
  · obtain ⟨hs, hb⟩ := Hier.Heap.constraints_sorted hr hy t
    rw [mem, eq_comm, decide_eq_false_iff_not, not_not, Hier.Heap.length_eq_iff_all hs hb]
    constructor
    · rintro ⟨h1, h2⟩
      obtain ⟨k, hk⟩ := List.exists_mem_of_ne_nil _ h1
      exact ⟨by have := hb k hk; omega, h2⟩
    · rintro ⟨h1, h2⟩
      exact ⟨List.ne_nil_of_mem (h2 0 h1), h2⟩
  · obtain ⟨hs, hb⟩ := Hier.Heap.constraints_sorted hr hy t
    rw [mem, eq_comm, decide_eq_true_eq, ne_eq (List.length _), Hier.Heap.length_eq_iff_all hs hb]
    constructor
    · rintro ⟨h1, h2⟩
      obtain ⟨k, hk⟩ := List.exists_mem_of_ne_nil _ h1
      push Not at h2
      exact ⟨⟨k, hb k hk, hk⟩, h2⟩
    · rintro ⟨⟨k, -, hk⟩, k', h1, h2⟩
      exact ⟨List.ne_nil_of_mem hk, fun hall => h2 (hall k' h1)⟩
  · unfold column
    rw [List.map_map]
    exact Iop.items_keys_nodup _ wf.keys

/-! ### C75 -/

/-- The table of an object has one truthful row per `Param`, in the order of their elements. Missing for the full claim:
`Param`s without elements, see `table_empty_fails`. -/
theorem table_truthful_partial (nm : Id → N) (shape : Id → List Nat) (vals : Id → List V) {h : Heap T} (hr : Reach h)
    {x : Id} (hx : x < h.next) (hn : h.leaf x = false)
    (hs : ∀ y, Anc h.toGraph x y → h.leaf y = true → shape y ≠ [] ∧ Ravel.size (shape y) = h.size y ∧ 0 < h.size y ∧
      (vals y).length = h.size y) :
    ∃ (l : List Id) (rows : List (Row N V T)), table nm shape vals h x = some rows ∧ InOrder h.toGraph x l ∧
      List.Forall₂ (Truthful nm shape vals h x) l rows := by
  have w := hr.wf
  have hord := flattened_inOrder w.skel w.sized x
  have htr := namesF_trail (nm := nm) w.skel h.toGraph.fuel x hn
  let D : Id → Desc V := fun y => if h.size y ≤ 1 then .value (vals y) else .shape (shape y)
  have hd : (gatherF (fun y => desc (h.size y) (shape y) (vals y)) h.toGraph h.toGraph.fuel x).mapM id =
      some ((flattened h.toGraph x).map D) := by
    rw [gatherF_eq, mapM_id_map]
    apply mapM_of_forall₂
    rw [List.forall₂_map_right_iff]
    show List.Forall₂ _ (flattened h.toGraph x) (flattened h.toGraph x)
    rw [List.forall₂_same]
    intro y hy
    obtain ⟨ha, hl⟩ := (hord.all y).mp hy
    obtain ⟨h1, h2, h3, h4⟩ := hs y ha hl
    unfold desc
    show _ = some (if h.size y ≤ 1 then _ else _)
    split
    · rename_i h5
      have h6 : h.size y = 1 := by omega
      cases hsh : shape y with
      | nil => exact absurd hsh h1
      | cons n sh =>
        rw [hsh] at h2
        have h7 : n * Ravel.size sh = 1 := by
          have : Ravel.size (n :: sh) = n * Ravel.size sh := by simp [Ravel.size]
          omega
        obtain ⟨rfl, h8⟩ : n = 1 ∧ Ravel.size sh = 1 := by
          constructor
          · exact Nat.dvd_one.mp ⟨_, h7.symm⟩
          · exact Nat.dvd_one.mp ⟨n, by rw [Nat.mul_comm]; exact h7.symm⟩
        simp only [List.head?_cons, Option.some.injEq, one_ne_zero, if_false, List.tail_cons]
        rw [h8, List.take_of_length_le (by omega)]
    · rfl
  have hlen := htr.length_eq
  have hlen : (flattened h.toGraph x).length = _ := hlen
  obtain ⟨rows, hrows, hrl, hrow⟩ := zipIdx_mapM (V := V) (T := T)
    (ds := (flattened h.toGraph x).map D) (cs := (flattened h.toGraph x).map (column h))
    (namesF nm h.toGraph h.toGraph.fuel false x) (by rw [List.length_map]; exact hlen) (by rw [List.length_map]; exact hlen)
  refine ⟨flattened h.toGraph x, rows, ?_, hord, ?_⟩
  · unfold table
    rw [hd]
    simp only [gatherF_eq]
    exact hrows
  · rw [List.forall₂_iff_get]
    refine ⟨by rw [hrl]; exact hlen, fun i h1 h2 => ?_⟩
    have hi : i < (namesF nm h.toGraph h.toGraph.fuel false x).length := by omega
    have hri := hrow i hi
    rw [List.getElem?_eq_getElem (by omega), Option.some.injEq] at hri
    rw [List.get_eq_getElem, List.get_eq_getElem, hri]
    have hyl := (hord.all _).mp (List.getElem_mem h1)
    have hy : (flattened h.toGraph x)[i] < h.next := by
      exact below_lt w.skel hyl.1 hx
    obtain ⟨c1, c2, c3⟩ := column_spec hr hy
    have ht := (List.forall₂_iff_get.mp htr).2 i h1 hi
    refine ⟨ht, fun h5 => ?_, fun h5 => ?_, ?_, ?_, ?_⟩
    · simp only [List.getElem_map]
      exact if_pos (Nat.le_of_eq h5)
    · simp only [List.getElem_map]
      exact if_neg (Nat.not_le.mpr h5)
    · simpa only [List.getElem_map] using c1
    · simpa only [List.getElem_map] using c2
    · simpa only [List.getElem_map] using c3

/-- If objects with the same parent have different names, the names in a table are different. -/
theorem trail_inj {nm : Id → N} {g : Graph}
    (hd : ∀ a b p, g.parent a = some p → g.parent b = some p → nm a = nm b → a = b) {x y : Id} {l : List N}
    (h : Trail nm g x y l) : ∀ {y'}, Trail nm g x y' l → y = y' := by
  have ne : ∀ {a b : Id} {l : List N}, Trail nm g a b l → l ≠ [] := by intro a b l h; cases h <;> simp
  induction h with
  | @child x c hp =>
    intro y' h'
    generalize hl : [nm c] = l' at h'
    cases h' with
    | child hp' => rw [List.cons.injEq] at hl; exact hd _ _ _ hp hp' hl.1
    | down hp' ht => rw [List.cons.injEq] at hl; exact absurd hl.2.symm (ne ht)
  | @down x c y l hp ht ih =>
    intro y' h'
    generalize hl : nm c :: l = l' at h'
    cases h' with
    | child hp' => rw [List.cons.injEq] at hl; exact absurd hl.2 (ne ht)
    | down hp' ht' =>
      rw [List.cons.injEq] at hl
      have := hd _ _ _ hp hp' hl.1
      subst this
      exact ih (hl.2 ▸ ht')

theorem mapM_range {α : Type} {f : Nat → Option α} {n : Nat} {l : List α} (hl : l.length = n)
    (h : ∀ i (hi : i < n), f i = some (l[i]'(hl ▸ hi))) : (List.range n).mapM f = some l := by
  apply mapM_of_forall₂
  rw [List.forall₂_iff_get]
  refine ⟨by simp [hl], fun i h1 h2 => ?_⟩
  simp only [List.get_eq_getElem, List.getElem_range]
  exact h i (by simpa using h1)

theorem properties_at {h : Heap T} (hr : Reach h) {y : Id} (hy : y < h.next) (k : Nat) :
    let ps := ((h.iop y).2.properties (h.dicts (h.iop y).1)).filter
      (fun p => decide (k ∈ (h.iop y).2.get (h.dicts (h.iop y).1) p))
    (∀ t, t ∈ ps ↔ k ∈ h.constraints y t) ∧ ps.Nodup := by
  have wf := dict_wf hr hy
  refine ⟨fun t => ?_, (Iop.items_keys_nodup _ wf.keys).sublist List.filter_sublist⟩
  simp only [List.mem_filter, decide_eq_true_eq, Iop.properties, List.mem_map]
  constructor
  · exact fun h => h.2
  · intro hk
    refine ⟨⟨(t, _), (Iop.mem_items _ wf.keys).mpr ⟨rfl, ?_⟩, rfl⟩, hk⟩
    intro hnil
    have hk : k ∈ (h.iop y).2.get (h.dicts (h.iop y).1) t := hk
    rw [hnil] at hk; simp at hk

/-- The table of a part `a[s]` of a `Param` has one row per element of the part, in their order: its index in the
whole, its value, and the constraints of that element, each once. Missing for the full claim: parts without elements
(`elements_empty_fails`), separated integer arrays (`elements_separated_fails`) and parts of parts
(`elements_chained_fails`). -/
theorem elements_truthful_partial {h : Heap T} (hr : Reach h) {y : Id} (hy : y < h.next) (a : Nd V) (hs : a.shape ≠ [])
    {B : Nat} {s : List Sel} (f : Fits B s a.shape) (hc : hasAdv s = true → contiguous s = true)
    (hne : (a.index s).ravel ≠ []) :
    ∃ rows, elements h y ((Par.new a).getitem s) = some rows ∧
      rows.map (·.1) = ((⟨a.shape, id⟩ : Nd (List Nat)).index s).ravel ∧
      rows.map (·.2.1) = (a.index s).ravel ∧
      ∀ r ∈ rows, InShape a.shape r.1 ∧ r.2.1 = a.get r.1 ∧
        (∀ t, t ∈ r.2.2 ↔ position a.shape r.1 ∈ h.constraints y t) ∧ r.2.2.Nodup := by
  have hne' : 0 < Ravel.size (outShape s a.shape) := by
    rw [← Ravel.length_allIdx]
    have : (a.index s).ravel.length = (allIdx (outShape s a.shape)).length := by unfold Nd.ravel Nd.index; simp
    rw [← this]; exact List.length_pos_of_ne_nil hne
  let P : Nat → List (Con T) := fun k => ((h.iop y).2.properties (h.dicts (h.iop y).1)).filter
      (fun p => decide (k ∈ (h.iop y).2.get (h.dicts (h.iop y).1) p))
  let R : List Nat → List Nat × V × List (Con T) := fun o =>
    (Ravel.src s o, a.get (Ravel.src s o), P (position a.shape (Ravel.src s o)))
  have hrav : ((Par.new a).getitem s).raveled =
      some ((allIdx (outShape s a.shape)).map (fun o => position a.shape (Ravel.src s o))) :=
    Ravel.raveled_eq hs f hc hne'
  have hind : Ravel.indices ((Par.new a).getitem s).realshape ((Par.new a).getitem s).cur =
      (allIdx (outShape s a.shape)).map (Ravel.src s) := Ravel.indices_rows hs f hc
  refine ⟨(allIdx (outShape s a.shape)).map R, ?_, ?_, ?_, ?_⟩
  · unfold elements
    rw [hrav, hind]
    simp only []
    have hsz : Ravel.size ((Par.new a).getitem s).arr.shape = (allIdx (outShape s a.shape)).length := by
      rw [Ravel.length_allIdx]; rfl
    rw [hsz]
    apply mapM_range (by simp)
    intro i hi
    have e1 : ((Par.new a).getitem s).arr.ravel[i]? = some (a.get (Ravel.src s (allIdx (outShape s a.shape))[i])) := by
      show ((allIdx (outShape s a.shape)).map (fun o => a.get (Ravel.src s o)))[i]? = _
      rw [List.getElem?_map, List.getElem?_eq_getElem hi]; rfl
    rw [e1]
    simp only [Iop.propertiesFor, List.getElem?_map, List.getElem?_eq_getElem hi, Option.map_some, List.getElem_map]
    rfl
  · rw [List.map_map]; rfl
  · rw [List.map_map]; rfl
  · intro r hr'
    obtain ⟨o, ho, rfl⟩ := List.mem_map.mp hr'
    obtain ⟨p1, p2⟩ := properties_at hr hy (position a.shape (Ravel.src s o))
    exact ⟨Ravel.src_inShape f (Ravel.mem_allIdx.mp ho), rfl, p1, p2⟩

/-- The table of a whole `Param` with elements: every element once, in row-major order. -/
theorem elements_whole {h : Heap T} (hr : Reach h) {y : Id} (hy : y < h.next) (a : Nd V) (hs : a.shape ≠ [])
    (hpos : 0 < Ravel.size a.shape) :
    ∃ rows, elements h y (Par.new a) = some rows ∧ rows.map (·.1) = allIdx a.shape ∧
      ∀ r ∈ rows, r.2.1 = a.get r.1 ∧ (∀ t, t ∈ r.2.2 ↔ position a.shape r.1 ∈ h.constraints y t) ∧ r.2.2.Nodup := by
  obtain ⟨n, sh, hsh⟩ := List.exists_cons_of_ne_nil hs
  let s : List Sel := [.many (List.range n)]
  have f : Fits 0 s a.shape := by rw [hsh]; exact ⟨fun p hp => List.mem_range.mp hp, trivial⟩
  have ho : outShape s a.shape = a.shape := by
    rw [hsh]; show (List.range n).length :: sh = n :: sh; rw [List.length_range]
  have hsrc : ∀ o ∈ allIdx a.shape, Ravel.src s o = o := by
    intro o ho
    have ho := Ravel.mem_allIdx.mp ho
    rw [hsh] at ho
    cases o with
    | nil => exact ho.elim
    | cons j o =>
      have hj : j < n := ho.1
      simp [s, Ravel.src, Ravel.hasAdv, Sel.isAdv, Ravel.walk, hj]
  have hidx : ∀ {W : Type} (b : Nd W), b.shape = a.shape → (b.index s).ravel = b.ravel := by
    intro W b hb
    unfold Nd.ravel Nd.index
    simp only [hb, ho]
    exact List.map_congr_left (fun o ho => by rw [hsrc o ho])
  have hlen : a.ravel.length = Ravel.size a.shape := by unfold Nd.ravel; rw [List.length_map, Ravel.length_allIdx]
  obtain ⟨rows, h1, h2, -, h4⟩ := elements_truthful_partial hr hy a hs f (fun h => by cases h)
    (by rw [hidx a rfl]; intro hnil; rw [hnil] at hlen; simp at hlen; omega)
  have hel : elements h y (Par.new a) = elements h y ((Par.new a).getitem s) := by
    unfold elements
    have hra : (Par.new a).raveled = ((Par.new a).getitem s).raveled := by
      unfold Par.raveled Par.getitem Par.new
      simp only [hsh, List.head!_cons]; rfl
    have hin : (Par.new a).cur = s := by unfold Par.new; rw [hsh]; rfl
    have hav : ((Par.new a).getitem s).arr.ravel = (Par.new a).arr.ravel := hidx a rfl
    have hsz : Ravel.size ((Par.new a).getitem s).arr.shape = Ravel.size (Par.new a).arr.shape := by
      show Ravel.size (outShape s a.shape) = _
      rw [ho]; rfl
    rw [hra, hav, hsz, hin]
    rfl
  refine ⟨rows, by rw [hel]; exact h1, ?_, fun r hr' => (h4 r hr').2⟩
  rw [h2, hidx (⟨a.shape, id⟩ : Nd (List Nat)) rfl]
  unfold Nd.ravel
  simp

/-! ### Examples and violations -/

/-- Shapes and values for the model of the examples. -/
def demoShape : Id → List Nat := fun y => [[1], [1, 2], [1], [3, 1], [1, 1], [2]].getD y [1]

def demoVals : Id → List Nat := fun y => [[], [10, 11], [], [12, 13, 14], [15], [16, 17]].getD y []

example : table id demoShape demoVals Hier.Heap.demo 0 = some
    [⟨[1], .shape [1, 2], [(.tr 7, true)]⟩, ⟨[2, 3], .shape [3, 1], [(.tr 8, false), (.fixed, true)]⟩,
     ⟨[2, 4], .value [15], []⟩, ⟨[5], .shape [2], [(.fixed, false)]⟩] := by decide +kernel

/-- The hypotheses of `table_truthful_partial` hold for it. -/
example : Reach Hier.Heap.demo ∧ (0 < Hier.Heap.demo.next) ∧ Hier.Heap.demo.leaf 0 = false ∧
    ∀ y, Anc Hier.Heap.demo.toGraph 0 y → Hier.Heap.demo.leaf y = true →
      demoShape y ≠ [] ∧ Ravel.size (demoShape y) = Hier.Heap.demo.size y ∧ 0 < Hier.Heap.demo.size y ∧
      (demoVals y).length = Hier.Heap.demo.size y := by
  refine ⟨Hier.Heap.demo_reach, by decide +kernel, by decide +kernel, fun y ha hl => ?_⟩
  have h1 : y ∈ Hier.Heap.demo.toGraph.subtree 0 := (Hier.Heap.demo_reach.wf.skel.mem_subtree).mpr ha
  have h2 : Hier.Heap.demo.toGraph.subtree 0 = [0, 1, 2, 3, 4, 5] := by decide +kernel
  rw [h2] at h1
  have h3 : ∀ y ∈ [0, 1, 2, 3, 4, 5], Hier.Heap.demo.leaf y = true →
      demoShape y ≠ [] ∧ Ravel.size (demoShape y) = Hier.Heap.demo.size y ∧ 0 < Hier.Heap.demo.size y ∧
      (demoVals y).length = Hier.Heap.demo.size y := by decide +kernel
  exact h3 y h1 hl

/-- The array of the `Param` 3 of the example, in another shape. -/
def demoArr : Nd Nat := ⟨[3], fun i => 12 + i.getD 0 0⟩

example : elements Hier.Heap.demo 3 (Par.new demoArr) =
      some [([0], 12, [.tr 8]), ([1], 13, [.tr 8]), ([2], 14, [.tr 8, .fixed])] ∧
    elements Hier.Heap.demo 3 ((Par.new demoArr).getitem [.many [2, 1]]) =
      some [([2], 14, [.tr 8, .fixed]), ([1], 13, [.tr 8])] ∧
    elements Hier.Heap.demo 3 ((Par.new demoArr).getitem [.adv [2, 2]]) =
      some [([2], 14, [.tr 8, .fixed]), ([2], 14, [.tr 8, .fixed])] :=
  ⟨by decide +kernel, by decide +kernel, by decide +kernel⟩

/-- With a `Param` without elements the table of the whole hierarchy cannot be printed (`IndexError`). -/
theorem table_empty_fails : Reach Opt.hollow ∧
    table id (fun y => if y = 1 then [0] else [2]) (fun y => if y = 1 then [] else [5, 6]) Opt.hollow 0 =
      (none : Option (List (Row Nat Nat Nat))) :=
  ⟨Hier.Heap.Reach.run .empty _ (by decide +kernel), by decide +kernel⟩

/-- Nor can an empty `Param`, or an empty part of one (`ValueError`). -/
theorem elements_empty_fails : elements Opt.hollow 1 (Par.new (⟨[0], fun _ => 0⟩ : Nd Nat)) = none ∧
    elements Hier.Heap.demo 3 ((Par.new demoArr).getitem [.many []]) = none := by decide +kernel

/-- The table of `p[2:][:1]` shows the last value, with the index and the constraints of the first element: the last
one is fixed, and the table does not say so. -/
theorem elements_chained_fails :
    elements Hier.Heap.demo 3 (((Par.new demoArr).getitem [.many [2]]).getitem [.many [0]]) =
      some [([0], 14, [.tr 8])] ∧
    2 ∈ Hier.Heap.demo.constraints 3 .fixed := by decide +kernel

/-- A model with one `Param` of 12 elements, the first of which is fixed. -/
def cube : Heap Nat := Hier.Heap.run Hier.Heap.empty
  [.newNode, .newParam 12, .link 0 1 none, .finishInit 0 true, .fix ⟨1, some [0]⟩]

/-- With separated integer arrays the rows do not show indices of the elements, and a fixed element (the first) is
shown as free. -/
theorem elements_separated_fails : Reach cube ∧
    elements cube 1 ((Par.new Ravel.demo).getitem [.adv [0, 2], .many [0, 1], .adv [0, 1]]) =
      some [([0, 2, 0], 0, []), ([2, 0, 0], 2, []), ([1, 1, 0], 9, []), ([1, 0, 1], 11, [])] ∧
    0 ∈ cube.constraints 1 .fixed :=
  ⟨Hier.Heap.Reach.run .empty _ (by decide +kernel), by decide +kernel, by decide +kernel⟩

end Paramz.Print

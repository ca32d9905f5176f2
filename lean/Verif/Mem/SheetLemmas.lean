import Verif.Mem.Sheet

/-!
# C93: lemmas
-/

set_option linter.unusedSectionVars false

namespace Paramz.Memory

open Hier (Id Graph Heap Con upd upd_same upd_ne)
open Hier.Heap (Target Hits)
open Hier.Graph (Skel Sized At Anc)
open Opt (Ops flattened)
open Print (InOrder)

/-! ### Lists -/

theorem filter_pick {α : Type} (p : α → Bool) (c : Nat → Bool) (L : List α) :
    (∀ i a, L[i]? = some a → c i = p a) →
    L.filter p = ((List.range L.length).filter c).filterMap (fun i => L[i]?) := by
  induction L using List.reverseRecOn with
  | nil => intro _; rfl
  | append_singleton L a ih =>
    intro hc
    have h1 : ∀ i b, L[i]? = some b → c i = p b := fun i b hb => hc i b (by
      rw [List.getElem?_append_left (by have := (List.getElem?_eq_some_iff.mp hb).1; omega)]; exact hb)
    have h2 : c L.length = p a := hc L.length a (by simp)
    rw [List.filter_append, ih h1, List.length_append, List.length_singleton, List.range_succ, List.filter_append,
      List.filterMap_append]
    congr 1
    · apply List.filterMap_congr
      intro i hi
      rw [List.getElem?_append_left (List.mem_range.mp (List.mem_filter.mp hi).1)]
    · rw [List.filter_singleton, List.filter_singleton, h2]
      cases p a <;> simp

theorem filterMap_get {α β : Type} {f : α → Option β} : ∀ {l : List α}, (∀ a ∈ l, ∃ b, f a = some b) → ∀ k : Nat,
    (l.filterMap f)[k]? = (l[k]?).bind f
  | [], _, _ => rfl
  | a :: l, h, k => by
    obtain ⟨b, hb⟩ := h a List.mem_cons_self
    rw [List.filterMap_cons_some hb]
    cases k with
    | zero => simp [hb]
    | succ k => simpa using filterMap_get (fun x hx => h x (List.mem_cons_of_mem _ hx)) k

theorem countP_take {α : Type} (p : α → Bool) (c : Nat → Bool) (L : List α) (hc : ∀ i a, L[i]? = some a → c i = p a) :
    ∀ i, i ≤ L.length → (L.take i).countP p = ((List.range i).filter c).length
  | 0, _ => rfl
  | i + 1, hi => by
    have hlt : i < L.length := hi
    rw [List.take_succ_eq_append_getElem hlt, List.countP_append, countP_take p c L hc i (Nat.le_of_lt hlt),
      List.range_succ, List.filter_append, List.length_append]
    congr 1
    rw [List.filter_singleton, hc i _ (List.getElem?_eq_getElem hlt), List.countP_singleton]
    cases p L[i] <;> rfl

theorem range_filter_get (c : Nat → Bool) {n i : Nat} (hi : i < n) (hc : c i = true) :
    ((List.range n).filter c)[((List.range i).filter c).length]? = some i := by
  obtain ⟨m, rfl⟩ : ∃ m, n = i + (1 + m) := ⟨n - i - 1, by omega⟩
  have h1 : List.range (i + (1 + m)) = List.range i ++ i :: List.range' (i + 1) m := by
    rw [List.range_eq_range', List.range_eq_range', ← List.range'_append, Nat.add_comm 1 m, List.range'_succ]
    simp
  rw [h1, List.filter_append, List.getElem?_append_right (Nat.le_refl _), Nat.sub_self, List.filter_cons_of_pos hc]
  rfl

theorem flatten_get {α : Type} : ∀ (S : List (List α)) (q : Nat) (P : List α) (j : Nat), S[q]? = some P → j < P.length →
    S.flatten[((S.take q).map List.length).sum + j]? = P[j]?
  | [], q, P, j, h, _ => by cases h
  | R :: S, 0, P, j, h, hj => by
    cases h
    simp [List.getElem?_append_left hj]
  | R :: S, q + 1, P, j, h, hj => by
    have ih := flatten_get S q P j h hj
    rw [List.flatten_cons, List.take_succ_cons, List.map_cons, List.sum_cons, List.getElem?_append_right (by omega),
      Nat.add_assoc, Nat.add_sub_cancel_left]
    exact ih

theorem drop_flatten {α : Type} : ∀ (S : List (List α)) (q : Nat),
    S.flatten.drop ((S.take q).map List.length).sum = (S.drop q).flatten
  | [], q => by simp
  | R :: S, 0 => by simp
  | R :: S, q + 1 => by
    rw [List.flatten_cons, List.take_succ_cons, List.map_cons, List.sum_cons, List.drop_succ_cons, ← drop_flatten S q,
      ← List.drop_drop, List.drop_left]

/-! ### Sheets -/

namespace State

variable {V T W : Type} [DecidableEq T] {spoil : Nat → Nat → V}

theorem IsCell.unique {s : State V T} {y : Id} {i : Nat} {c c' : Cell V T} (h : s.IsCell y i c) (h' : s.IsCell y i c') :
    c = c' := by
  obtain ⟨a1, a2, a3⟩ := h
  obtain ⟨b1, b2, b3⟩ := h'
  cases c; cases c'
  congr 1
  · exact a1.trans b1.symm
  · exact Option.ext (fun t => (a3 t).trans (b3 t).symm)
  · exact Bool.eq_iff_iff.mpr (a2.trans b2.symm)

theorem IsRow.unique {s : State V T} {y : Id} {P P' : List (Cell V T)} (h : s.IsRow y P) (h' : s.IsRow y P') : P = P' := by
  refine List.ext_getElem (h.1.trans h'.1.symm) (fun i h1 h2 => ?_)
  exact (h.2 i _ (List.getElem?_eq_getElem h1)).unique (h'.2 i _ (List.getElem?_eq_getElem h2))

theorem exists_cell {s : State V T} (h : Path spoil s) {y : Id} (hy : y < s.heap.next) (i : Nat) :
    ∃ c, s.IsCell y i c := by
  by_cases ht : ∃ t, i ∈ s.heap.constraints y (.tr t)
  · obtain ⟨t, ht⟩ := ht
    refine ⟨⟨s.mem.read y i, some t, decide (i ∈ s.heap.constraints y .fixed)⟩, rfl, by simp, fun u => ?_⟩
    constructor
    · intro e; cases e; exact ht
    · intro hu
      exact congrArg some (Heap.at_most_one_transformation h.reach.heap hy ht hu)
  · refine ⟨⟨s.mem.read y i, none, decide (i ∈ s.heap.constraints y .fixed)⟩, rfl, by simp, fun u => ?_⟩
    exact ⟨(fun e => by cases e), fun hu => absurd ⟨u, hu⟩ ht⟩

theorem exists_row {s : State V T} (h : Path spoil s) {y : Id} (hy : y < s.heap.next) : ∃ P, s.IsRow y P := by
  choose f hf using fun i => exists_cell h hy i
  refine ⟨(List.range (s.heap.size y)).map f, by simp, fun i c hc => ?_⟩
  rw [List.getElem?_map] at hc
  cases hr : (List.range (s.heap.size y))[i]? with
  | none => rw [hr] at hc; cases hc
  | some j =>
    obtain ⟨h1, h2⟩ := List.getElem?_eq_some_iff.mp hr
    rw [List.getElem_range] at h2
    subst h2
    rw [hr] at hc
    cases hc
    exact hf i

/-- Every model has one sheet. -/
theorem exists_sheet {s : State V T} (h : Path spoil s) {r : Id} (hr : r < s.heap.next) : ∃ S, s.IsSheet r S := by
  have w := h.reach.heap.wf
  have key : ∀ L : List Id, (∀ y ∈ L, y < s.heap.next) → ∃ S, List.Forall₂ (IsRow s) L S := by
    intro L
    induction L with
    | nil => exact fun _ => ⟨[], .nil⟩
    | cons y L ih =>
      intro hl
      obtain ⟨P, hP⟩ := exists_row h (hl y List.mem_cons_self)
      obtain ⟨S, hS⟩ := ih (fun z hz => hl z (List.mem_cons_of_mem _ hz))
      exact ⟨P :: S, .cons hP hS⟩
  exact key _ (fun y hy => lt_of_anc w.skel hr (((Print.flattened_inOrder w.skel w.sized r).all y).mp hy).1)

theorem IsSheet.unique {s : State V T} {r : Id} {S S' : Sheet V T} (h : s.IsSheet r S) (h' : s.IsSheet r S') : S = S' := by
  unfold IsSheet at h h'
  generalize flattened s.heap.toGraph r = L at h h'
  revert S'
  induction h with
  | nil => intro S' h'; cases h'; rfl
  | cons h1 _ ih =>
    intro S' h'
    cases h' with
    | cons h2 h3 => rw [h1.unique h2, ih h3]

/-- Same objects, all initialised as before. -/
structure SameObjs (h h' : Heap T) : Prop where
  graph : h'.toGraph = h.toGraph
  inInit : h'.inInit = h.inInit
  inited : h'.inited = h.inited

theorem SameObjs.refl (h : Heap T) : SameObjs h h := ⟨rfl, rfl, rfl⟩

theorem SameObjs.of_eq {h h' : Heap T} (e : h' = h) : SameObjs h h' := by rw [e]; exact .refl h

theorem SameObjs.trans {h h' h'' : Heap T} (a : SameObjs h h') (b : SameObjs h' h'') : SameObjs h h'' :=
  ⟨b.1.trans a.1, b.2.trans a.2, b.3.trans a.3⟩

theorem SameObjs.of_same {h h' : Heap T} (a : Heap.Same h h') : SameObjs h h' := ⟨a.graph, a.inInit, a.inited⟩

theorem SameObjs.model {s s' : State V T} (e : SameObjs s.heap s'.heap) {r : Id} (m : s.Model r) : s'.Model r := by
  obtain ⟨a, b, c, d1, d2⟩ := m
  exact ⟨by show r < s'.heap.toGraph.next; rw [e.graph]; exact a,
    by show s'.heap.toGraph.parent r = none; rw [e.graph]; exact b,
    by show s'.heap.toGraph.leaf r = false; rw [e.graph]; exact c, by rw [e.inInit]; exact d1, by rw [e.inited]; exact d2⟩

theorem SameObjs.settled {h h' : Heap T} (e : SameObjs h h') {x : Id} (hs : Settled h x) : Settled h' x := by
  rcases hs with h1 | ⟨h1, h2⟩
  · exact .inl (by show h'.toGraph.leaf x = true; rw [e.graph]; exact h1)
  · exact .inr ⟨by rw [e.inInit]; exact h1, by rw [e.inited]; exact h2⟩

theorem SameObjs.ok {h h' : Heap T} (e : SameObjs h h') {x : Target} (ok : x.OK h) : x.OK h' := by
  obtain ⟨a, b⟩ := ok
  refine ⟨?_, ?_⟩
  · show x.obj < h'.toGraph.next; rw [e.graph]; exact a
  · intro i hi
    show h'.toGraph.leaf x.obj = true ∧ ∀ i_1 ∈ i, i_1 < h'.toGraph.size x.obj
    rw [e.graph]; exact b i hi

/-- Changing cells. -/
theorem IsSheet.change {s s' : State V T} {r : Id} {S : Sheet V T} (hS : s.IsSheet r S) (e : SameObjs s.heap s'.heap)
    {w : Spots} {φ : Nat → Cell V T → Cell V T}
    (hc : ∀ (q : Nat) y i c, (flattened s.heap.toGraph r)[q]? = some y → i < s.heap.size y → s.IsCell y i c →
      s'.IsCell y i (if w q i then φ i c else c)) : s'.IsSheet r (S.change w φ) := by
  obtain ⟨a1, a2⟩ := get_of_forall₂ hS
  unfold IsSheet
  rw [e.graph]
  refine forall₂_of_get (by simp [Sheet.change, a1]) (fun q y hq => ?_)
  obtain ⟨P, hP, h1, h2⟩ := a2 q y hq
  refine ⟨P.mapIdx (fun i c => if w q i then φ i c else c), by simp [Sheet.change, hP], ?_, fun i c hi => ?_⟩
  · rw [List.length_mapIdx, h1]
    show s.heap.toGraph.size y = s'.heap.toGraph.size y
    rw [e.graph]
  · rw [List.getElem?_mapIdx] at hi
    cases hp : P[i]? with
    | none => rw [hp] at hi; cases hi
    | some c' =>
      rw [hp] at hi
      cases hi
      exact hc q y i c' hq (by rw [← h1]; exact (List.getElem?_eq_some_iff.mp hp).1) (h2 i c' hp)

theorem hits_spots {h : Heap T} (hr : Heap.Reach h) {r : Id} {x : Target} (ok : x.OK h) {q : Nat} {y : Id} {i : Nat}
    (hq : (flattened h.toGraph r)[q]? = some y) (hi : i < h.size y) :
    Hits h x y i ↔ spots h.toGraph r x q i = true := by
  have w := hr.wf
  obtain ⟨-, hl⟩ := ((Print.flattened_inOrder w.skel w.sized r).all y).mp (List.mem_of_getElem? hq)
  obtain ⟨obj, part⟩ := x
  cases part with
  | none =>
    rw [Heap.hits_object hr hi]
    simp only [spots, hq, decide_eq_true_eq]
    rw [(Print.flattened_inOrder w.skel w.sized obj).all y]
    exact ⟨fun ha => ⟨ha, hl⟩, fun ha => ha.1⟩
  | some a =>
    rw [Heap.hits_part hr ok]
    simp only [spots, hq, decide_eq_true_eq]

/-- The `Param`s of a model. -/
theorem flattened_spec {s : State V T} (h : Path spoil s) {r : Id} (hr : r < s.heap.next) {q : Nat} {y : Id}
    (hq : (flattened s.heap.toGraph r)[q]? = some y) : y < s.heap.next ∧ s.heap.leaf y = true ∧ Anc s.heap.toGraph r y := by
  have w := h.reach.heap.wf
  obtain ⟨ha, hl⟩ := ((Print.flattened_inOrder w.skel w.sized r).all y).mp (List.mem_of_getElem? hq)
  exact ⟨lt_of_anc w.skel hr ha, hl, ha⟩

/-! ### Assignments -/

theorem assign_index {s : State V T} (h : Path spoil s) {x : Target} (ok : x.OK s.heap) (hs : Settled s.heap x.obj)
    (f : Nat → V) : let s' := s.assignAll spoil x.obj ((x.index s.heap).map (fun i => (i, f i)))
    Path spoil s' ∧ s'.heap = s.heap ∧ ∀ y j, s.heap.leaf y = true → y < s.heap.next → j < s.heap.size y →
      (Hits s.heap x y j → ∃ k, At s.heap.toGraph x.obj y k ∧ s'.mem.read y j = f (k + j)) ∧
      (¬ Hits s.heap x y j → s'.mem.read y j = s.mem.read y j) := by
  intro s'
  have hb : ∀ e ∈ (x.index s.heap).map (fun i => (i, f i)), e.1 < s.heap.size x.obj := by
    intro e he
    obtain ⟨i, hi, rfl⟩ := List.mem_map.mp he
    unfold Target.index at hi
    cases hp : x.part with
    | none => rw [hp] at hi; exact List.mem_range.mp hi
    | some a => rw [hp] at hi; exact (ok.part a hp).2 i hi
  obtain ⟨hp, key⟩ := assignAll_seen (x := x.obj) _ h ok.lt hs hb
  refine ⟨hp, assignAll_heap _ _ _ _, fun y j hl hy hj => ?_⟩
  obtain ⟨k1, k2⟩ := key y j hl hy hj
  constructor
  · rintro ⟨m, hm, hk⟩
    obtain ⟨k, v, a1, a2, a3⟩ := k1 ⟨m, f (m + j), hm, List.mem_map.mpr ⟨_, hk, rfl⟩⟩
    obtain ⟨i, -, e⟩ := List.mem_map.mp a2
    cases e
    exact ⟨k, a1, a3⟩
  · intro hn
    refine k2 ?_
    rintro ⟨k, v, a1, a2⟩
    obtain ⟨i, hi, e⟩ := List.mem_map.mp a2
    cases e
    exact hn ⟨k, a1, hi⟩

theorem read_settled {s : State V T} (h : Path spoil s) {x y : Id} {k j : Nat} (hx : x < s.heap.next)
    (hs : Settled s.heap x) (ha : At s.heap.toGraph x y k) (hj : j < s.heap.size y) :
    s.mem.read x (k + j) = s.mem.read y j := by
  rcases hs with hs | hs
  · have w := h.reach.heap.wf
    have e := anc_leaf w.skel hs (ha.anc w.skel)
    subst e
    rw [w.skel.at_unique ha .refl, Nat.zero_add]
  · exact (read_same h.reach hx hs ha hj).symm

/-! ### The whole sheet -/

theorem lengths_take {s : State V T} {L : List Id} {S : Sheet V T} (h : List.Forall₂ (IsRow s) L S) :
    (S.map List.length).sum = s.heap.toGraph.sizeSum L := by
  induction h with
  | nil => rfl
  | cons h _ ih =>
    simp only [List.map_cons, List.sum_cons, Graph.sizeSum] at ih ⊢
    rw [ih, h.1]

/-- The sheet, one row after the other, are the elements of the model. -/
theorem IsSheet.flat {s : State V T} (h : Path spoil s) {r : Id} (m : s.Model r) {S : Sheet V T} (hS : s.IsSheet r S) :
    s.IsRow r S.flatten := by
  have w := h.reach.heap.wf
  have hlen : S.flatten.length = s.heap.size r := by
    rw [List.length_flatten, lengths_take hS, Opt.flattened_size w.skel w.sized]
  refine ⟨hlen, fun i c hc => ?_⟩
  have hi : i < s.heap.size r := by rw [← hlen]; exact (List.getElem?_eq_some_iff.mp hc).1
  obtain ⟨y, n, hy, hl, h1, h2⟩ := w.skel.exists_leaf w.sized r i hi
  have e1 : s.heap.toGraph.size y = s.heap.size y := rfl
  have ho := Print.flattened_inOrder w.skel w.sized r
  obtain ⟨q, hq⟩ := List.getElem?_of_mem ((ho.all y).mpr ⟨hy.anc w.skel, hl⟩)
  obtain ⟨P, hP, hr⟩ := (get_of_forall₂ hS).2 q y hq
  have p1 := ho.order q y n hq hy
  have p2 : ((S.take q).map List.length).sum = n := by
    rw [p1]
    exact lengths_take (List.forall₂_take q hS)
  obtain ⟨j, rfl⟩ : ∃ j, i = n + j := ⟨i - n, by omega⟩
  have hj : j < s.heap.size y := by omega
  have hg := flatten_get S q P j hP (by rw [hr.1]; exact hj)
  rw [p2, hc] at hg
  have hcell := hr.2 j c hg.symm
  refine ⟨?_, ?_, fun t => ?_⟩
  · rw [hcell.val, read_same h.reach m.lt m.done hy hj]
  · rw [hcell.fixed, cons_at h.reach.heap m.lt hl hy hj]
  · rw [hcell.tr, cons_at h.reach.heap m.lt hl hy hj]

theorem IsRow.get {s : State V T} {y : Id} {P : List (Cell V T)} (h : s.IsRow y P) {i : Nat} (hi : i < s.heap.size y) :
    ∃ c, P[i]? = some c ∧ s.IsCell y i c := by
  have hi' : i < P.length := by rw [h.1]; exact hi
  exact ⟨P[i], List.getElem?_eq_getElem hi', h.2 i _ (List.getElem?_eq_getElem hi')⟩

theorem IsRow.mask {s : State V T} {y : Id} {P : List (Cell V T)} (h : s.IsRow y P) (i : Nat) (c : Cell V T)
    (hc : P[i]? = some c) : decide (i ∉ s.heap.constraints y .fixed) = (!c.fixed) := by
  rw [Bool.eq_iff_iff, decide_eq_true_eq, Bool.not_eq_true', ← Bool.not_eq_true, (h.2 i c hc).fixed]

theorem IsRow.freeIn {s : State V T} {y : Id} {P : List (Cell V T)} (h : s.IsRow y P) :
    Sheet.freeIn P = (s.freeOf y).length := by
  have := countP_take _ _ P h.mask P.length (Nat.le_refl _)
  rw [List.take_length] at this
  unfold Sheet.freeIn State.freeOf
  rw [this, h.1]

theorem IsRow.freeAt {s : State V T} {y : Id} {P : List (Cell V T)} (h : s.IsRow y P) {i : Nat} (hi : i < s.heap.size y)
    (hf : i ∉ s.heap.constraints y .fixed) : (s.freeOf y)[Sheet.freeIn (P.take i)]? = some i := by
  have := countP_take _ _ P h.mask i (by rw [h.1]; omega)
  unfold Sheet.freeIn State.freeOf
  rw [this]
  exact range_filter_get _ hi (by simpa using hf)

theorem rows_free {s : State V T} {L : List Id} {S : Sheet V T} (h : List.Forall₂ (IsRow s) L S) :
    Sheet.free S = (L.map (fun y => (s.freeOf y).length)).sum := by
  unfold Sheet.free
  induction h with
  | nil => rfl
  | cons h _ ih => rw [List.map_cons, List.map_cons, List.sum_cons, List.sum_cons, h.freeIn, ih]

theorem IsSheet.free {s : State V T} {r : Id} {S : Sheet V T} (hS : s.IsSheet r S) : Sheet.free S = s.freeCount r :=
  rows_free hS

theorem IsSheet.vals {s : State V T} (h : Path spoil s) {r : Id} (m : s.Model r) {S : Sheet V T} (hS : s.IsSheet r S) :
    s.values r = S.vals := by
  have hf := hS.flat h m
  refine List.ext_getElem (by rw [values_length, Sheet.vals, List.length_map, hf.1]) (fun i h1 h2 => ?_)
  rw [values_length] at h1
  obtain ⟨c, hc, hcell⟩ := hf.get h1
  have e1 : (s.values r)[i]? = some c.val := by rw [values_get h1, hcell.val]
  have e2 : S.vals[i]? = some c.val := by rw [Sheet.vals, List.getElem?_map, hc]; rfl
  exact Option.some.inj ((List.getElem?_eq_getElem _).symm.trans (e1.trans (e2.symm.trans (List.getElem?_eq_getElem _))))

/-- The filter of a sheet by the free elements. -/
theorem IsRow.filter {s : State V T} {r : Id} {P : List (Cell V T)} (h : s.IsRow r P) {α : Type} (L : List α)
    (p : α → Bool) (hl : L.length = P.length) (hp : ∀ (i : Nat) a c, L[i]? = some a → P[i]? = some c → p a = !c.fixed) :
    L.filter p = (s.freeOf r).filterMap (fun i => L[i]?) := by
  rw [filter_pick p (fun i => decide (i ∉ s.heap.constraints r .fixed)) L (fun i a ha => ?_)]
  · unfold State.freeOf
    rw [hl, h.1]
  · have hi : i < P.length := by rw [← hl]; exact (List.getElem?_eq_some_iff.mp ha).1
    rw [hp i a _ ha (List.getElem?_eq_getElem hi), h.mask i _ (List.getElem?_eq_getElem hi)]

theorem cell_out {o : Ops V T} {s : State V T} {y : Id} {i : Nat} {c : Cell V T} (h : s.IsCell y i c) {w : V}
    (h1 : ∀ t, i ∈ s.heap.constraints y (.tr t) → w = o.finv t c.val)
    (h2 : (∀ t, i ∉ s.heap.constraints y (.tr t)) → w = c.val) : w = c.out o := by
  unfold Cell.out
  cases ht : c.tr with
  | none => exact h2 (fun t hn => by rw [← h.tr, ht] at hn; cases hn)
  | some t => exact h1 t ((h.tr t).mp ht)

/-- Whatever lists the free elements of the model in optimiser space is what the sheet shows. -/
theorem IsSheet.outs {o : Ops V T} {s : State V T} (h : Path spoil s) {r : Id} (m : s.Model r) {S : Sheet V T}
    (hS : s.IsSheet r S) {e : Opt.State V T} (he : e.heap = s.heap) (hr : e.root = r) (hv : e.vals = s.values r)
    {l : List V} (hl : Opt.ListsFree o e l) : l = S.outs o := by
  have hf := hS.flat h m
  have hcons : ∀ c, e.cons c = s.heap.constraints r c := fun c => by unfold Opt.State.cons; rw [he, hr]
  have hfree : Opt.free e = s.freeOf r := by
    unfold Opt.free State.freeOf Opt.State.size
    rw [he, hr, hcons]
  obtain ⟨-, l1, l2⟩ := hl
  rw [hfree] at l1 l2
  have hfil := hf.filter S.flatten (fun c => !c.fixed) rfl (fun i a c ha hc => by rw [ha] at hc; cases hc; rfl)
  have hsome : ∀ i ∈ s.freeOf r, ∃ c, S.flatten[i]? = some c := fun i hi => by
    obtain ⟨c, hc, -⟩ := hf.get (mem_freeOf.mp hi).1
    exact ⟨c, hc⟩
  apply List.ext_getElem?
  intro k
  unfold Sheet.outs
  rw [List.getElem?_map, hfil, filterMap_get hsome]
  cases hk : (s.freeOf r)[k]? with
  | none =>
    rw [List.getElem?_eq_none (by rw [l1]; exact List.getElem?_eq_none_iff.mp hk)]
    rfl
  | some i =>
    obtain ⟨v, w, h1, h2, h3, h4⟩ := l2 k i hk
    obtain ⟨c, hc, hcell⟩ := hf.get (mem_freeOf.mp (List.mem_of_getElem? hk)).1
    rw [hv, values_get (mem_freeOf.mp (List.mem_of_getElem? hk)).1] at h1
    cases h1
    rw [h2, Option.bind_some, hc, Option.map_some]
    congr 1
    simp only [hcons] at h3 h4
    exact cell_out hcell (by rw [hcell.val]; exact h3) (by rw [hcell.val]; exact h4)

/-! ### Setting the array -/

theorem row_takes {o : Ops V T} {s s' : State V T} {y : Id} {P : List (Cell V T)} (h : s.IsRow y P)
    (hh : s'.heap = s.heap) {c p : List V} (ht : Takes o s s' y c)
    (hp : ∀ k, k < c.length → p[k]? = c[k]?) : s'.IsRow y (Sheet.fillRow o p P) := by
  refine ⟨by rw [Sheet.fillRow, List.length_mapIdx, h.1, hh], fun i d hd => ?_⟩
  unfold Sheet.fillRow at hd
  rw [List.getElem?_mapIdx] at hd
  cases hP : P[i]? with
  | none => rw [hP] at hd; cases hd
  | some a =>
    rw [hP] at hd
    have ha := h.2 i a hP
    have hi : i < s.heap.size y := by rw [← h.1]; exact (List.getElem?_eq_some_iff.mp hP).1
    rw [Option.map_some, Option.some.injEq] at hd
    by_cases hfx : a.fixed = true
    · rw [if_pos hfx] at hd
      subst hd
      exact ⟨by rw [ht.2 i (ha.fixed.mp hfx), ha.val], by rw [hh]; exact ha.fixed, fun t => by rw [hh]; exact ha.tr t⟩
    · rw [if_neg hfx] at hd
      have hk := h.freeAt hi (fun hn => hfx (ha.fixed.mpr hn))
      obtain ⟨x, hx, t1, t2⟩ := ht.1 _ i hk
      rw [hp _ (List.getElem?_eq_some_iff.mp hx).1, hx] at hd
      dsimp only at hd
      subst hd
      unfold Cell.enter
      cases htr : a.tr with
      | none =>
        refine ⟨?_, by rw [hh]; exact ha.fixed, fun t => by rw [hh, ← ha.tr, htr]⟩
        exact (t2 (fun t hn => by rw [← ha.tr, htr] at hn; cases hn)).symm
      | some t =>
        refine ⟨?_, by rw [hh]; exact ha.fixed, fun t => by rw [hh, ← ha.tr, htr]⟩
        exact (t1 t ((ha.tr t).mp htr)).symm

theorem IsSheet.fill {o : Ops V T} {s : State V T} (h : Path spoil s) {r : Id} (m : s.Model r) {S : Sheet V T}
    (hS : s.IsSheet r S) {p : List V} (hp : p.length = Sheet.free S) :
    (s.setArray spoil o r p).IsSheet r (Sheet.fill o p S) := by
  obtain ⟨cs, rfl, hcs⟩ := pieces _ p (hp.trans hS.free)
  obtain ⟨-, h2, h3, -⟩ := set_by_params_partial (o := o) h m hcs
  obtain ⟨a1, a2⟩ := get_of_forall₂ hS
  obtain ⟨b1, b2⟩ := get_of_forall₂ h3
  unfold IsSheet
  rw [h2]
  refine forall₂_of_get (by rw [Sheet.fill, List.length_mapIdx, a1]) (fun q y hq => ?_)
  obtain ⟨P, hP, hrow⟩ := a2 q y hq
  obtain ⟨c, hc, ht⟩ := b2 q y hq
  refine ⟨_, by rw [Sheet.fill, List.getElem?_mapIdx, hP]; rfl, row_takes hrow h2 ht (fun k hk => ?_)⟩
  have e : Sheet.free (S.take q) = ((cs.take q).map List.length).sum := by
    rw [rows_free (List.forall₂_take q hS), lengths_eq (List.forall₂_take q hcs)]
  rw [e, drop_flatten]
  obtain ⟨hq', hqe⟩ := List.getElem?_eq_some_iff.mp hc
  rw [List.drop_eq_getElem_cons hq', hqe, List.flatten_cons, List.getElem?_append_left hk]

/-! ### Answers -/

theorem IsSheet.scaled {o : Ops V T} {s : State V T} (h : Path spoil s) {r : Id} (m : s.Model r) {S : Sheet V T}
    (hS : s.IsSheet r S) {d : List V} (hd : d.length = s.heap.size r) :
    (s.optState r none).transformGradients o d = (S.scaled o d, S.grads o d) := by
  have hf := hS.flat h m
  obtain ⟨a1, a2, a3⟩ := Opt.transform_spec o (m.ready h none) (g := d) hd
  have a1 : ((s.optState r none).transformGradients o d).1.length = s.heap.size r := a1
  have e1 : ((s.optState r none).transformGradients o d).1 = S.scaled o d := by
    apply List.ext_getElem?
    intro i
    by_cases hi : i < s.heap.size r
    · obtain ⟨c, hc, hcell⟩ := hf.get hi
      have hdi : d[i]? = some d[i] := List.getElem?_eq_getElem (by omega)
      obtain ⟨w, hw, v1, v2⟩ := a2 i _ _ (values_get hi) hdi
      rw [hw, Sheet.scaled, List.getElem?_zipWith, hc, hdi]
      congr 1
      unfold Cell.scale
      cases ht : c.tr with
      | none => exact v2 (fun t hn => by
          have : i ∈ s.heap.constraints r (.tr t) := hn
          rw [← hcell.tr, ht] at this; cases this)
      | some t => rw [hcell.val]; exact v1 t ((hcell.tr t).mp ht)
    · rw [List.getElem?_eq_none (by omega), List.getElem?_eq_none]
      rw [Sheet.scaled, List.length_zipWith, hf.1]; omega
  refine Prod.ext e1 ?_
  rw [a3, e1]
  have hlen : (S.scaled o d).length = S.flatten.length := by
    rw [← e1, a1, hf.1]
  have hfil := hf.filter (S.flatten.zip (S.scaled o d)) (fun e => !e.1.fixed) (by rw [List.length_zip]; omega)
    (fun i a c ha hc => by
      obtain ⟨h1, h2⟩ := List.getElem?_zip_eq_some.mp ha
      rw [hc] at h1
      cases h1; rfl)
  show Opt.pick (S.scaled o d) (s.freeOf r) = S.grads o d
  unfold Sheet.grads Opt.pick
  rw [hfil, List.map_filterMap]
  apply List.filterMap_congr
  intro i hi
  obtain ⟨c, hc, -⟩ := hf.get (mem_freeOf.mp hi).1
  have hi2 : i < (S.scaled o d).length := by rw [hlen, hf.1]; exact (mem_freeOf.mp hi).1
  rw [List.getElem?_eq_getElem hi2, List.getElem?_zip_eq_some (z := (c, (S.scaled o d)[i])).mpr ⟨hc, List.getElem?_eq_getElem hi2⟩]
  rfl

theorem IsSheet.own {s : State V T} (h : Path spoil s) {r : Id} (m : s.Model r) {S : Sheet V T} (hS : s.IsSheet r S) :
    (!(s.optState r none).hasFixes) = S.flatten.all (fun c => !c.fixed) := by
  have hf := hS.flat h m
  rw [Bool.eq_iff_iff, Bool.not_eq_true', List.all_eq_true]
  unfold Opt.State.hasFixes
  rw [decide_eq_false_iff_not, not_not]
  show s.heap.constraints r .fixed = [] ↔ _
  constructor
  · intro he c hc
    obtain ⟨i, hi⟩ := List.getElem?_of_mem hc
    have := (hf.2 i c hi).fixed
    rw [he] at this
    simpa using this
  · intro ha
    rw [List.eq_nil_iff_forall_not_mem]
    intro i hi
    obtain ⟨c, hc, hcell⟩ := hf.get ((Heap.constraints_sorted h.reach.heap m.lt .fixed).2 i hi)
    have := ha c (List.mem_of_getElem? hc)
    rw [hcell.fixed.mpr hi] at this
    cases this

theorem IsSheet.answer {o : Ops V T} {F : List V → W} {g : List V → List V} (hg : ∀ v, (g v).length = v.length)
    {s : State V T} (h : Path spoil s) {r : Id} (m : s.Model r) {S : Sheet V T} (hS : s.IsSheet r S) (c : Query V) :
    s.answer o F g r c = S.answer o F g c := by
  have hgr := hS.scaled (o := o) h m (d := g S.vals) (by rw [hg, ← hS.vals h m, values_length])
  cases c <;> simp only [State.answer, Sheet.answer, hS.vals h m, hgr, hS.own h m]

theorem IsSheet.run {o : Ops V T} {F : List V → W} {g : List V → List V} (hg : ∀ v, (g v).length = v.length) {r : Id} :
    ∀ (p : Prog V W) {s : State V T} {S : Sheet V T}, Path spoil s → s.Model r → s.IsSheet r S → p.Fits (Sheet.free S) →
      (runProg spoil o F g r p s).2 = (S.run o F g p).2 ∧ (runProg spoil o F g r p s).1.IsSheet r (S.run o F g p).1 ∧
      Path spoil (runProg spoil o F g r p s).1 ∧ (runProg spoil o F g r p s).1.heap = s.heap
  | .done x, s, S, h, m, hS, hp => by
    have h1 := setArray_within (o := o) h m (hp.trans hS.free)
    exact ⟨rfl, hS.fill h m hp, h1.path, h1.heap⟩
  | .ask c k, s, S, h, m, hS, hp => by
    have h1 := setArray_within (o := o) h m (hp.1.trans hS.free)
    have hS1 := hS.fill (o := o) h m hp.1
    have ha := hS1.answer (o := o) (F := F) hg h1.path (h1.model m) c
    obtain ⟨e1, e2, e3, e4⟩ := IsSheet.run hg (o := o) (F := F) (k ((Sheet.fill o c.point S).answer o F g c)) h1.path
      (h1.model m) hS1 (by rw [hS1.free, h1.freeCount, ← hS.free]; exact hp.2 _)
    simp only [runProg, Sheet.run]
    rw [ha]
    exact ⟨by rw [e1], e2, e3, e4.trans h1.heap⟩

end State

end Paramz.Memory

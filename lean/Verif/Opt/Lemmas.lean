import Verif.Opt.Model
import Verif.Hier.ConProps

/-! Helper lemmas: numpy selections and assignments, and the loops over the constraints. -/

set_option linter.unusedSectionVars false

namespace Paramz.Opt

open IndexOps (Arr)
open Hier (Heap Con Id upd)
open Hier.Heap (Target Reach)

variable {V T : Type}

/-! ### `pick`, `put` -/

theorem put_length (a : List V) (ind : Arr) (vs : List V) : (put a ind vs).length = a.length := by
  unfold put
  induction ind.zip vs generalizing a with
  | nil => rfl
  | cons e l ih => rw [List.foldl_cons, ih, List.length_set]

theorem put_cons (a : List V) (j : Nat) (ind : Arr) (v : V) (vs : List V) :
    put a (j :: ind) (v :: vs) = put (a.set j v) ind vs := rfl

/-- Putting a value that depends only on the position. -/
theorem getElem?_put {w : Nat → Option V} : ∀ (ind : Arr) (a : List V), (∀ j ∈ ind, (w j).isSome) → ∀ i,
    (i ∈ ind → i < a.length → (put a ind (ind.filterMap w))[i]? = w i) ∧
    (i ∉ ind → (put a ind (ind.filterMap w))[i]? = a[i]?)
  | [], a, _, i => ⟨fun h => by simp at h, fun _ => rfl⟩
  | j :: ind, a, hw, i => by
    obtain ⟨v, hv⟩ := Option.isSome_iff_exists.mp (hw j (by simp))
    rw [List.filterMap_cons_some hv, put_cons]
    have ih := getElem?_put ind (a.set j v) (fun j hj => hw j (by simp [hj])) i
    rw [List.length_set] at ih
    by_cases hm : i ∈ ind
    · exact ⟨fun _ hl => ih.1 hm hl, fun hn => absurd (by simp [hm]) hn⟩
    · rw [ih.2 hm]
      constructor
      · intro hi hl
        have : i = j := by simpa [hm] using hi
        subst this
        rw [List.getElem?_set_self hl, hv]
      · intro hi
        rw [List.getElem?_set_ne (by rintro rfl; simp at hi)]

theorem pick_map (a : List V) (ind : Arr) (g : V → V) :
    (pick a ind).map g = ind.filterMap (fun i => (a[i]?).map g) := by
  unfold pick
  rw [List.map_filterMap]

theorem zipWith_pick (a b : List V) (g : V → V → V) : ∀ (ind : Arr), (∀ j ∈ ind, j < a.length) →
    (∀ j ∈ ind, j < b.length) → List.zipWith g (pick a ind) (pick b ind) =
      ind.filterMap (fun i => (a[i]?).bind (fun x => (b[i]?).map (g x)))
  | [], _, _ => rfl
  | j :: ind, ha, hb => by
    have l1 := ha j (by simp)
    have l2 := hb j (by simp)
    have h1 : a[j]? = some a[j] := List.getElem?_eq_getElem l1
    have h2 : b[j]? = some b[j] := List.getElem?_eq_getElem l2
    unfold pick
    rw [List.filterMap_cons_some h1, List.filterMap_cons_some h2, List.zipWith_cons_cons,
      List.filterMap_cons_some (b := g a[j] b[j]) (by rw [h1, h2]; rfl)]
    exact congrArg _ (zipWith_pick a b g ind (fun j hj => ha j (by simp [hj])) (fun j hj => hb j (by simp [hj])))

theorem getElem?_put_map {src a : List V} {ind : Arr} {g : V → V} (hb : ∀ j ∈ ind, j < src.length) (i : Nat) :
    (i ∈ ind → i < a.length → (put a ind ((pick src ind).map g))[i]? = (src[i]?).map g) ∧
    (i ∉ ind → (put a ind ((pick src ind).map g))[i]? = a[i]?) := by
  rw [pick_map]
  refine getElem?_put (w := fun i => (src[i]?).map g) ind a (fun j hj => ?_) i
  rw [List.getElem?_eq_getElem (hb j hj)]; rfl

theorem pick_length {a : List V} {ind : Arr} (h : ∀ j ∈ ind, j < a.length) : (pick a ind).length = ind.length := by
  unfold pick
  induction ind with
  | nil => rfl
  | cons j ind ih =>
    rw [List.filterMap_cons_some (List.getElem?_eq_getElem (h j (by simp))), List.length_cons,
      ih (fun j hj => h j (by simp [hj])), List.length_cons]

theorem getElem?_pick {a : List V} {ind : Arr} (h : ∀ j ∈ ind, j < a.length) {k : Nat} :
    (pick a ind)[k]? = (ind[k]?).bind (fun i => a[i]?) := by
  unfold pick
  induction ind generalizing k with
  | nil => rfl
  | cons j ind ih =>
    rw [List.filterMap_cons_some (List.getElem?_eq_getElem (h j (by simp)))]
    cases k with
    | zero => simp [List.getElem?_eq_getElem (h j (by simp))]
    | succ k => simpa using ih (fun j hj => h j (by simp [hj]))

/-! ### Masks -/

/-- The positions a mask lets through. -/
def through (m : List Bool) : List Nat := (List.range m.length).filter (fun i => m.getD i true)

theorem through_cons (b : Bool) (m : List Bool) :
    through (b :: m) = (if b then [0] else []) ++ (through m).map (· + 1) := by
  unfold through
  rw [List.length_cons, List.range_succ_eq_map, List.filter_cons]
  have : List.filter (fun i => (b :: m).getD i true) (List.map Nat.succ (List.range m.length)) =
      (List.filter (fun i => m.getD i true) (List.range m.length)).map (· + 1) := by
    rw [List.filter_map]; rfl
  rw [this]
  cases b <;> simp

theorem getElem?_through : ∀ (m : List Bool) (k i : Nat),
    (through m)[k]? = some i ↔ m[i]? = some true ∧ (m.take i).count true = k
  | [], k, i => by simp [through]
  | b :: m, k, i => by
    rw [through_cons]
    cases b with
    | false =>
      simp only [Bool.false_eq_true, if_false, List.nil_append, List.getElem?_map, Option.map_eq_some_iff]
      cases i with
      | zero => simp
      | succ i =>
        simp only [List.getElem?_cons_succ, List.take_succ_cons, List.count_cons, Nat.add_right_cancel_iff]
        simp [getElem?_through m k]
    | true =>
      simp only [if_true]
      cases k with
      | zero =>
        cases i with
        | zero => simp
        | succ i => simp
      | succ k =>
        simp only [List.cons_append, List.nil_append, List.getElem?_cons_succ, List.getElem?_map,
          Option.map_eq_some_iff]
        cases i with
        | zero => simp
        | succ i =>
          simp only [List.getElem?_cons_succ, List.take_succ_cons, List.count_cons, Nat.add_right_cancel_iff]
          simp [getElem?_through m k]

theorem select_eq : ∀ (a : List V) (m : List Bool), a.length = m.length → select a m = pick a (through m)
  | [], [], _ => rfl
  | v :: a, b :: m, h => by
    have ih := select_eq a m (by simpa using h)
    rw [through_cons]
    unfold pick at *
    rw [List.filterMap_append, List.filterMap_map]
    simp only [Function.comp_def, List.getElem?_cons_succ, ← ih]
    cases b <;> simp [select]
  | [], b :: m, h => by simp at h
  | v :: a, [], h => by simp at h

theorem assignFrom_length (p : List V) : ∀ (k : Nat) (a : List V) (m : List Bool),
    (assignFrom p k a m).length = a.length
  | _, [], _ => by simp [assignFrom]
  | _, v :: a, [] => by simp [assignFrom]
  | k, v :: a, b :: m => by
    cases b with
    | true => simp [assignFrom, assignFrom_length p (k + 1) a m]
    | false => simp [assignFrom, assignFrom_length p k a m]

theorem getElem?_assignFrom (p : List V) : ∀ (k : Nat) (a : List V) (m : List Bool) (i : Nat),
    i < a.length → (assignFrom p k a m)[i]? =
      if m[i]? = some true then (p[(k + (m.take i).count true) % p.length]?).or a[i]? else a[i]?
  | _, [], _, i, h => by simp at h
  | k, v :: a, [], i, h => by simp [assignFrom]
  | k, v :: a, b :: m, i, h => by
    cases i with
    | zero =>
      cases b with
      | false => simp [assignFrom]
      | true =>
        simp only [assignFrom, if_true, List.getElem?_cons_zero, List.take_zero, List.count_nil,
          Nat.add_zero]
        cases p[k % p.length]? <;> rfl
    | succ i =>
      have h' : i < a.length := by simpa using h
      cases b with
      | false =>
        simp only [assignFrom, Bool.false_eq_true, if_false, List.getElem?_cons_succ,
          getElem?_assignFrom p k a m i h', List.take_succ_cons, List.count_cons]
        simp
      | true =>
        simp only [assignFrom, if_true, List.getElem?_cons_succ,
          getElem?_assignFrom p (k + 1) a m i h', List.take_succ_cons, List.count_cons]
        simp [Nat.add_assoc, Nat.add_comm 1]

theorem assign_length (a : List V) (m : List Bool) (p : List V) : (assign a m p).length = a.length :=
  assignFrom_length p 0 a m

/-- A mask assignment with as many values as free positions writes the `k`-th value at the `k`-th free
position. -/
theorem getElem?_assign_through {a : List V} {m : List Bool} {p : List V} (hl : a.length = m.length)
    (hp : p.length = (through m).length) {k i : Nat} (hk : (through m)[k]? = some i) :
    (assign a m p)[i]? = p[k]? := by
  obtain ⟨h1, h2⟩ := (getElem?_through m k i).mp hk
  have hi : i < m.length := (List.getElem?_eq_some_iff.mp h1).1
  have hkl : k < (through m).length := (List.getElem?_eq_some_iff.mp hk).1
  unfold assign
  rw [getElem?_assignFrom p 0 a m i (by omega), if_pos h1, h2, Nat.zero_add, Nat.mod_eq_of_lt (by omega),
    List.getElem?_eq_getElem (show k < p.length by omega)]
  rfl

theorem getElem?_assign_other {a : List V} {m : List Bool} {p : List V} {i : Nat}
    (h : m[i]? ≠ some true) : (assign a m p)[i]? = a[i]? := by
  by_cases hi : i < a.length
  · unfold assign
    rw [getElem?_assignFrom p 0 a m i hi, if_neg h]
  · rw [List.getElem?_eq_none (by rw [assign_length]; omega), List.getElem?_eq_none (by omega)]

theorem through_maskOf (n : Nat) (fx : Arr) :
    through (Hier.Heap.maskOf n fx) = (List.range n).filter (fun i => decide (i ∉ fx)) := by
  unfold through Hier.Heap.maskOf
  rw [List.length_map, List.length_range]
  apply List.filter_congr
  intro i hi
  rw [List.getD_eq_getElem?_getD, List.getElem?_map, List.getElem?_range (List.mem_range.mp hi)]
  rfl

theorem maskOf_length (n : Nat) (fx : Arr) : (Hier.Heap.maskOf n fx).length = n := by
  simp [Hier.Heap.maskOf]

theorem getElem?_maskOf {n i : Nat} {fx : Arr} : (Hier.Heap.maskOf n fx)[i]? = some true ↔ i < n ∧ i ∉ fx := by
  unfold Hier.Heap.maskOf
  rw [List.getElem?_map]
  by_cases h : i < n
  · rw [List.getElem?_range h]; simp [h]
  · rw [List.getElem?_eq_none (by simp; omega)]; simp [h]

theorem replicate_eq_maskOf (n : Nat) : List.replicate n true = Hier.Heap.maskOf n [] := by
  unfold Hier.Heap.maskOf
  simp

theorem range_filter_free_length {n : Nat} {fx : Arr} (hs : fx.Pairwise (· < ·)) (hb : ∀ i ∈ fx, i < n) :
    ((List.range n).filter (fun i => decide (i ∉ fx))).length = n - fx.length := by
  have h1 := List.length_eq_length_filter_add (l := List.range n) (fun i => decide (i ∈ fx))
  have h2 : (List.range n).filter (fun i => decide (i ∈ fx)) = fx := by
    refine IndexOps.sorted_ext (List.Pairwise.filter _ List.pairwise_lt_range) hs (fun i => ?_)
    simp only [List.mem_filter, List.mem_range, decide_eq_true_eq]
    exact ⟨fun h => h.2, fun h => ⟨hb i h, h⟩⟩
  rw [h2, List.length_range] at h1
  have h3 : (List.range n).filter (fun x => !decide (x ∈ fx)) =
      (List.range n).filter (fun i => decide (i ∉ fx)) := by
    apply List.filter_congr; intro i _; simp
  rw [h3] at h1
  omega

/-! ### Loops over the constraints -/

/-- A loop whose rounds change disjoint sets of positions. -/
theorem foldl_disjoint {E : Type} (step : List V → E → List V) (P : E → Nat → Prop)
    (G : E → Nat → Option V → Option V) (n : Nat) : ∀ (its : List E),
    (∀ e ∈ its, ∀ a : List V, a.length = n → (step a e).length = n ∧
      ∀ i, (P e i → (step a e)[i]? = G e i a[i]?) ∧ (¬ P e i → (step a e)[i]? = a[i]?)) →
    its.Pairwise (fun e e' => ∀ i, P e i → ¬ P e' i) → ∀ a : List V, a.length = n →
    (its.foldl step a).length = n ∧ ∀ i,
      (∀ e ∈ its, P e i → (its.foldl step a)[i]? = G e i a[i]?) ∧
      ((∀ e ∈ its, ¬ P e i) → (its.foldl step a)[i]? = a[i]?)
  | [], _, _, a, ha => ⟨ha, fun i => ⟨fun e he => by simp at he, fun _ => rfl⟩⟩
  | e :: its, hs, hd, a, ha => by
    obtain ⟨hl, h1⟩ := hs e (by simp) a ha
    obtain ⟨hd1, hd2⟩ := List.pairwise_cons.mp hd
    obtain ⟨il, ih⟩ := foldl_disjoint step P G n its (fun e he => hs e (by simp [he])) hd2 _ hl
    refine ⟨il, fun i => ⟨?_, ?_⟩⟩
    · intro e' he' hp
      rw [List.foldl_cons]
      rcases List.mem_cons.mp he' with rfl | hm
      · rw [(ih i).2 (fun e'' he'' => hd1 e'' he'' i hp), (h1 i).1 hp]
      · rw [(ih i).1 e' hm hp, (h1 i).2 (fun hq => hd1 e' hm i hq hp)]
    · intro hn
      rw [List.foldl_cons, (ih i).2 (fun e' he' => hn e' (by simp [he'])), (h1 i).2 (hn e (by simp))]

variable [DecidableEq T]

/-- Position `i` is transformed by the entry `e`. -/
def Trans (e : Con T × Arr) (i : Nat) : Prop := (∃ t, e.1 = .tr t) ∧ i ∈ e.2

theorem finvAll_spec (o : Ops V T) {its : List (Con T × Arr)} {src a : List V}
    (hl : src.length = a.length) (hb : ∀ e ∈ its, ∀ i ∈ e.2, i < a.length)
    (hd : its.Pairwise (fun e e' => ∀ i, Trans e i → ¬ Trans e' i)) :
    (finvAll o its src a).length = a.length ∧ ∀ i,
      (∀ t ind, (Con.tr t, ind) ∈ its → i ∈ ind → (finvAll o its src a)[i]? = (src[i]?).map (o.finv t)) ∧
      ((∀ e ∈ its, ¬ Trans e i) → (finvAll o its src a)[i]? = a[i]?) := by
  obtain ⟨h1, h2⟩ := foldl_disjoint
    (step := fun a (e : Con T × Arr) => match e.1 with
      | .fixed => a
      | .tr t => put a e.2 ((pick src e.2).map (o.finv t)))
    (P := Trans) (G := fun e i _ => match e.1 with
      | .fixed => none
      | .tr t => (src[i]?).map (o.finv t)) a.length its (by
        rintro ⟨c, ind⟩ he b hbl
        cases c with
        | fixed => exact ⟨hbl, fun i =>
            ⟨fun hp => (by obtain ⟨⟨t, ht⟩, -⟩ := hp; cases ht), fun _ => rfl⟩⟩
        | tr t =>
          refine ⟨by rw [← hbl]; exact put_length _ _ _, fun i => ?_⟩
          have := getElem?_put_map (a := b) (g := o.finv t)
            (fun j hj => by rw [hl]; exact hb _ he j hj) i
          exact ⟨fun hp => this.1 hp.2 (by rw [hbl]; exact hb _ he i hp.2),
            fun hn => this.2 (fun hi => hn ⟨⟨t, rfl⟩, hi⟩)⟩) hd a rfl
  exact ⟨h1, fun i => ⟨fun t ind he hi => (h2 i).1 (.tr t, ind) he ⟨⟨t, rfl⟩, hi⟩, (h2 i).2⟩⟩

theorem fAll_spec (o : Ops V T) (m : Option (List Bool)) {its : List (Con T × Arr)} {a : List V}
    (hb : ∀ e ∈ its, ∀ i ∈ e.2, i < a.length)
    (hd : its.Pairwise (fun e e' => ∀ i, Trans e i → ¬ Trans e' i)) :
    (fAll o m its a).length = a.length ∧ ∀ i,
      (∀ t ind, (Con.tr t, ind) ∈ its → i ∈ written m ind →
        (fAll o m its a)[i]? = (a[i]?).map (o.f t)) ∧
      ((∀ t ind, (Con.tr t, ind) ∈ its → i ∉ written m ind) → (fAll o m its a)[i]? = a[i]?) := by
  have hw : ∀ ind, written m ind ⊆ ind := by
    intro ind
    cases m with
    | none => exact fun _ h => h
    | some m => exact List.filter_subset_self _
  obtain ⟨h1, h2⟩ := foldl_disjoint
    (step := fun a (e : Con T × Arr) => match e.1 with
      | .fixed => a
      | .tr t => put a (written m e.2) ((pick a (written m e.2)).map (o.f t)))
    (P := fun e i => (∃ t, e.1 = .tr t) ∧ i ∈ written m e.2) (G := fun e _ v => match e.1 with
      | .fixed => none
      | .tr t => v.map (o.f t)) a.length its (by
        rintro ⟨c, ind⟩ he b hbl
        cases c with
        | fixed => exact ⟨hbl, fun i =>
            ⟨fun hp => (by obtain ⟨⟨t, ht⟩, -⟩ := hp; cases ht), fun _ => rfl⟩⟩
        | tr t =>
          refine ⟨by rw [← hbl]; exact put_length _ _ _, fun i => ?_⟩
          have := getElem?_put_map (src := b) (a := b) (g := o.f t) (ind := written m ind)
            (fun j hj => by rw [hbl]; exact hb _ he j (hw _ hj)) i
          exact ⟨fun hp => this.1 hp.2 (by rw [hbl]; exact hb _ he i (hw _ hp.2)),
            fun hn => this.2 (fun hi => hn ⟨⟨t, rfl⟩, hi⟩)⟩)
    (hd.imp (fun h i hp hq => h i ⟨hp.1, hw _ hp.2⟩ ⟨hq.1, hw _ hq.2⟩)) a rfl
  refine ⟨h1, fun i => ⟨fun t ind he hi => (h2 i).1 (.tr t, ind) he ⟨⟨t, rfl⟩, hi⟩, fun hn => (h2 i).2 ?_⟩⟩
  rintro ⟨c, ind⟩ he ⟨⟨t, rfl⟩, hi⟩
  exact hn t ind he hi

theorem gradAll_spec (o : Ops V T) {its : List (Con T × Arr)} {vals g : List V}
    (hl : vals.length = g.length) (hb : ∀ e ∈ its, ∀ i ∈ e.2, i < g.length)
    (hd : its.Pairwise (fun e e' => ∀ i, Trans e i → ¬ Trans e' i)) :
    (gradAll o its vals g).length = g.length ∧ ∀ i,
      (∀ t ind, (Con.tr t, ind) ∈ its → i ∈ ind → (gradAll o its vals g)[i]? =
        (vals[i]?).bind (fun v => (g[i]?).map (o.gradfactor t v))) ∧
      ((∀ e ∈ its, ¬ Trans e i) → (gradAll o its vals g)[i]? = g[i]?) := by
  obtain ⟨h1, h2⟩ := foldl_disjoint
    (step := fun g (e : Con T × Arr) => match e.1 with
      | .fixed => g
      | .tr t => put g e.2 (List.zipWith (o.gradfactor t) (pick vals e.2) (pick g e.2)))
    (P := Trans) (G := fun e i w => match e.1 with
      | .fixed => none
      | .tr t => (vals[i]?).bind (fun v => w.map (o.gradfactor t v))) g.length its (by
        rintro ⟨c, ind⟩ he b hbl
        cases c with
        | fixed => exact ⟨hbl, fun i =>
            ⟨fun hp => (by obtain ⟨⟨t, ht⟩, -⟩ := hp; cases ht), fun _ => rfl⟩⟩
        | tr t =>
          refine ⟨by rw [← hbl]; exact put_length _ _ _, fun i => ?_⟩
          have h1 : ∀ j ∈ ind, j < vals.length := fun j hj => by rw [hl]; exact hb _ he j hj
          have h2 : ∀ j ∈ ind, j < b.length := fun j hj => by rw [hbl]; exact hb _ he j hj
          simp only [zipWith_pick vals b (o.gradfactor t) ind h1 h2]
          have := getElem?_put (w := fun i => (vals[i]?).bind (fun x => (b[i]?).map (o.gradfactor t x)))
            ind b (fun j hj => by
              rw [List.getElem?_eq_getElem (h1 j hj), List.getElem?_eq_getElem (h2 j hj)]; rfl) i
          exact ⟨fun hp => this.1 hp.2 (h2 i hp.2), fun hn => this.2 (fun hi => hn ⟨⟨t, rfl⟩, hi⟩)⟩) hd g rfl
  exact ⟨h1, fun i => ⟨fun t ind he hi => (h2 i).1 (.tr t, ind) he ⟨⟨t, rfl⟩, hi⟩, (h2 i).2⟩⟩

end Paramz.Opt

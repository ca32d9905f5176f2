import Verif.Ravel.Spec
import Mathlib.Algebra.BigOperators.Group.List.Basic
import Mathlib.Tactic.Ring

/-!
# Properties of raveled indices

C43, C53.
-/

namespace Paramz.Ravel

/-! ### Row-major order -/

theorem mem_allIdx : ∀ {sh idx : List Nat}, idx ∈ allIdx sh ↔ InShape sh idx
  | [], idx => by cases idx <;> simp [allIdx, InShape]
  | n :: sh, [] => by simp [allIdx, InShape]
  | n :: sh, i :: idx => by
    simp only [allIdx, InShape, List.mem_flatMap, List.mem_range, List.mem_map, List.cons.injEq]
    constructor
    · rintro ⟨j, hj, x, hx, rfl, rfl⟩; exact ⟨hj, mem_allIdx.mp hx⟩
    · rintro ⟨h1, h2⟩; exact ⟨i, h1, idx, mem_allIdx.mpr h2, rfl, rfl⟩

theorem length_allIdx : ∀ sh : List Nat, (allIdx sh).length = size sh
  | [] => rfl
  | n :: sh => by
    simp only [allIdx, List.length_flatMap, List.length_map, length_allIdx sh]
    simp [size]

theorem flatMap_range (k : Nat) : ∀ n : Nat,
    (List.range n).flatMap (fun i => (List.range k).map (i * k + ·)) = List.range (n * k)
  | 0 => by simp
  | n + 1 => by
    rw [List.range_succ, List.flatMap_append, flatMap_range k n, List.flatMap_singleton, Nat.succ_mul,
      List.range_add]

/-- The positions of all multi-indices in order are `0, 1, ..., size - 1`. -/
theorem positions_in_order : ∀ sh : List Nat, (allIdx sh).map (position sh) = List.range (size sh)
  | [] => rfl
  | n :: sh => by
    simp only [allIdx, List.map_flatMap, List.map_map]
    have : ∀ i, (allIdx sh).map (position (n :: sh) ∘ (i :: ·)) = (List.range (size sh)).map (i * size sh + ·) := by
      intro i
      rw [← positions_in_order sh, List.map_map]
      rfl
    simp only [this]
    rw [flatMap_range]
    simp [size]

theorem position_lt {sh idx : List Nat} (h : InShape sh idx) : position sh idx < size sh := by
  rw [← List.mem_range, ← positions_in_order]
  exact List.mem_map_of_mem (mem_allIdx.mpr h)

theorem position_inj {sh a b : List Nat} (ha : InShape sh a) (hb : InShape sh b)
    (h : position sh a = position sh b) : a = b := by
  have : ((allIdx sh).map (position sh)).Nodup := by rw [positions_in_order]; exact List.nodup_range
  exact List.inj_on_of_nodup_map this (mem_allIdx.mpr ha) (mem_allIdx.mpr hb) h

theorem allIdx_nodup (sh : List Nat) : (allIdx sh).Nodup := by
  have : ((allIdx sh).map (position sh)).Nodup := by rw [positions_in_order]; exact List.nodup_range
  exact List.Nodup.of_map _ this

/-- `a.flat[position of idx]` is `a[idx]`. -/
theorem ravel_position {V : Type} (a : Nd V) {idx : List Nat} (h : InShape a.shape idx) :
    a.ravel[position a.shape idx]? = some (a.get idx) := by
  have hl := position_lt h
  have hm : position a.shape idx < (allIdx a.shape).length := by rw [length_allIdx]; exact hl
  have e : (allIdx a.shape)[position a.shape idx] = idx := by
    have h1 : ((allIdx a.shape).map (position a.shape))[position a.shape idx]? = some (position a.shape idx) := by
      rw [positions_in_order, List.getElem?_range hl]
    rw [List.getElem?_map, List.getElem?_eq_getElem hm, Option.map_some, Option.some.injEq] at h1
    exact position_inj (mem_allIdx.mp (List.getElem_mem hm)) h h1
  unfold Nd.ravel
  rw [List.getElem?_map, List.getElem?_eq_getElem hm, e]; rfl

/-! ### Strides -/

theorem cumprod_append : ∀ (acc : Nat) (l : List Nat) (x : Nat),
    cumprod acc (l ++ [x]) = cumprod acc l ++ [acc * (l.prod * x)]
  | acc, [], x => by simp [cumprod]
  | acc, y :: l, x => by
    simp only [List.cons_append, cumprod, cumprod_append (acc * y) l x, List.prod_cons]
    congr 2
    ring

theorem strides_cons (n m : Nat) (sh : List Nat) : strides (n :: m :: sh) = size (m :: sh) :: strides (m :: sh) := by
  simp only [strides, List.tail_cons, List.reverse_cons]
  rw [← List.cons_append, cumprod_append]
  simp [size, Nat.mul_comm]

theorem dot_strides : ∀ {sh idx : List Nat}, InShape sh idx → dot (strides sh) idx = position sh idx
  | [], [], _ => by decide
  | [], _ :: _, h => h.elim
  | _ :: _, [], h => h.elim
  | [n], [i], _ => by simp [strides, cumprod, dot, position, size]
  | [n], i :: j :: idx, h => h.2.elim
  | n :: m :: sh, i :: idx, h => by
    rw [strides_cons]
    have ih := dot_strides h.2
    unfold dot at ih ⊢
    rw [List.zipWith_cons_cons, List.sum_cons, ih, position, Nat.mul_comm]

/-! ### Rows -/

theorem allIdx_append : ∀ (sh : List Nat) (n : Nat),
    allIdx (sh ++ [n]) = (allIdx sh).flatMap (fun o => (List.range n).map (fun c => o ++ [c]))
  | [], n => by
    simp only [List.nil_append, allIdx, List.flatMap_singleton, List.map_cons, List.map_nil]
    induction List.range n with
    | nil => rfl
    | cons x l ih => rw [List.flatMap_cons, ih]; rfl
  | m :: sh, n => by
    simp only [List.cons_append, allIdx, allIdx_append sh n, List.flatMap_assoc, List.flatMap_map, List.map_flatMap,
      List.map_map]
    rfl

theorem chunksF_flatMap {α : Type} {n : Nat} (hn : 0 < n) (f : α → List Nat) (hf : ∀ x, (f x).length = n) :
    ∀ (l : List α) (k : Nat), l.length ≤ k → chunksF n k (l.flatMap f) = l.map f
  | [], k, _ => by cases k <;> rfl
  | x :: l, 0, h => by simp at h
  | x :: l, k + 1, h => by
    rw [chunksF, List.flatMap_cons]
    have hne : f x ++ l.flatMap f ≠ [] := by
      intro e
      have : (f x).length = 0 := by rw [(List.append_eq_nil_iff.mp e).1]; rfl
      rw [hf] at this; omega
    rw [if_neg hne, ← hf x, List.take_left, List.drop_left, hf x,
      chunksF_flatMap hn f hf l k (by simpa using h), List.map_cons]

theorem chunks_flatMap {α : Type} {n : Nat} (hn : 0 < n) (f : α → List Nat) (hf : ∀ x, (f x).length = n)
    (l : List α) : chunks n (l.flatMap f) = l.map f := by
  unfold chunks
  refine chunksF_flatMap hn f hf l _ ?_
  rw [List.length_flatMap]
  have : (l.map (fun a => (f a).length)).sum = l.length * n := by
    simp [hf]
  rw [this]
  exact Nat.le_mul_of_pos_right _ hn

/-- Rows of an array with the last axis of length `n`. -/
theorem rows_roll {n : Nat} (hn : 0 < n) (sh : List Nat) (g : List Nat → Nat) :
    chunks n (⟨n :: sh, g⟩ : Nd Nat).roll.ravel =
      (allIdx sh).map (fun o => (List.range n).map (fun c => g (c :: o))) := by
  unfold Nd.roll Nd.ravel
  simp only [List.tail_cons, List.head!_cons]
  rw [allIdx_append, List.map_flatMap]
  simp only [List.map_map]
  have : (fun o : List Nat => (List.range n).map ((fun o => g (o.getLast! :: o.dropLast)) ∘ fun c => o ++ [c])) =
      fun o => (List.range n).map (fun c => g (c :: o)) := by
    funext o
    apply List.map_congr_left
    intro c _
    simp [List.getLast!_eq_getLast?_getD]
  rw [this]
  exact chunks_flatMap hn _ (fun o => by simp) _

/-! ### Indexing -/

theorem walk_inShape {B k : Nat} : ∀ {s : List Sel} {sh o : List Nat}, Fits B s sh → (hasAdv s = true → k < B) →
    InShape (base s sh) o → InShape sh (walk s k o)
  | [], sh, o, _, _, h => h
  | .one i :: s, n :: sh, o, f, hk, h => ⟨f.1, walk_inShape f.2 hk h⟩
  | .adv l :: s, n :: sh, o, f, hk, h => by
    have hk' : k < B := hk rfl
    refine ⟨?_, walk_inShape f.2.2 (fun _ => hk') h⟩
    have hl : k < l.length := by rw [f.1]; exact hk'
    rw [List.getD_eq_getElem?_getD, List.getElem?_eq_getElem hl]
    exact f.2.1 _ (List.getElem_mem hl)
  | .many ps :: s, n :: sh, [], f, hk, h => h.elim
  | .many ps :: s, n :: sh, j :: o, f, hk, h => by
    obtain ⟨h1, h2⟩ := h
    refine ⟨?_, walk_inShape f.2 hk h2⟩
    rw [List.getD_eq_getElem?_getD, List.getElem?_eq_getElem h1]
    exact f.1 _ (List.getElem_mem h1)
  | .one _ :: _, [], _, f, _, _ => f.elim
  | .adv _ :: _, [], _, f, _, _ => f.elim
  | .many _ :: _, [], _, f, _, _ => f.elim

theorem inShape_insert {B : Nat} : ∀ {p : Nat} {sh o : List Nat}, p ≤ sh.length → InShape (sh.insertIdx p B) o →
    o.getD p 0 < B ∧ InShape sh (o.eraseIdx p)
  | 0, sh, [], _, h => by rw [List.insertIdx_zero] at h; exact h.elim
  | 0, sh, j :: o, _, h => by rw [List.insertIdx_zero] at h; exact h
  | p + 1, [], _, hp, _ => by simp at hp
  | p + 1, n :: sh, [], _, h => by rw [List.insertIdx_succ_cons] at h; exact h.elim
  | p + 1, n :: sh, j :: o, hp, h => by
    rw [List.insertIdx_succ_cons] at h
    obtain ⟨h1, h2⟩ := inShape_insert (by simpa using hp) h.2
    exact ⟨by simpa using h1, by rw [List.eraseIdx_cons_succ]; exact ⟨h.1, h2⟩⟩

theorem takeWhile_le_base {B : Nat} : ∀ {s : List Sel} {sh : List Nat}, Fits B s sh →
    (s.takeWhile Sel.isMany).length ≤ (base s sh).length
  | [], _, _ => by simp
  | .one _ :: _, _ :: _, _ => by simp [Sel.isMany]
  | .adv _ :: _, _ :: _, _ => by simp [Sel.isMany]
  | .many _ :: s, _ :: sh, f => by
    have := takeWhile_le_base f.2
    simp only [List.takeWhile_cons, Sel.isMany, if_true, List.length_cons, base]
    omega
  | .one _ :: _, [], f => f.elim
  | .adv _ :: _, [], f => f.elim
  | .many _ :: _, [], f => f.elim

theorem advPos_le {B : Nat} {s : List Sel} {sh : List Nat} (f : Fits B s sh) : advPos s ≤ (base s sh).length := by
  unfold advPos
  split
  · exact takeWhile_le_base f
  · exact Nat.zero_le _

theorem advLen_eq {B : Nat} : ∀ {s : List Sel} {sh : List Nat}, Fits B s sh → hasAdv s = true → advLen s = B
  | [], _, _, h => by cases h
  | .one _ :: s, _ :: sh, f, h => advLen_eq (s := s) f.2 h
  | .adv _ :: s, _ :: sh, f, _ => f.1
  | .many _ :: s, _ :: sh, f, h => advLen_eq (s := s) f.2 h
  | .one _ :: _, [], f, _ => f.elim
  | .adv _ :: _, [], f, _ => f.elim
  | .many _ :: _, [], f, _ => f.elim

/-- The source of every element of the result is an element of the array. -/
theorem src_inShape {B : Nat} {s : List Sel} {sh o : List Nat} (f : Fits B s sh) (h : InShape (outShape s sh) o) :
    InShape sh (src s o) := by
  unfold outShape at h
  unfold src
  split at h
  · rename_i ha
    rw [if_pos ha]
    rw [advLen_eq f ha] at h
    obtain ⟨h1, h2⟩ := inShape_insert (advPos_le f) h
    exact walk_inShape f (fun _ => h1) h2
  · rename_i ha
    rw [if_neg ha]
    exact walk_inShape f (fun h => absurd h ha) h

theorem inShape_length : ∀ {sh idx : List Nat}, InShape sh idx → idx.length = sh.length
  | [], [], _ => rfl
  | [], _ :: _, h => h.elim
  | _ :: _, [], h => h.elim
  | _ :: _, _ :: _, h => by simp [inShape_length h.2]

theorem map_getD_range (l : List Nat) : (List.range l.length).map (fun c => l.getD c 0) = l := by
  apply List.ext_getElem (by simp)
  intro i h1 h2
  simp at h1
  simp [h1]

/-- The extra axis in front, when the arrays are next to each other. -/
theorem src_cons {n : Nat} {s : List Sel} {o : List Nat} (hc : hasAdv s = true → contiguous s = true) {c : Nat}
    (hcn : c < n) : src (.many (List.range n) :: s) (c :: o) = c :: src s o := by
  have hr : (List.range n).getD c 0 = c := by simp [hcn]
  have ha : hasAdv (.many (List.range n) :: s) = hasAdv s := by simp [hasAdv, Sel.isAdv]
  unfold src
  rw [ha]
  split
  · rename_i h
    have hp : advPos (.many (List.range n) :: s) = advPos s + 1 := by
      have : contiguous (.many (List.range n) :: s) = contiguous s := rfl
      unfold advPos
      rw [this, if_pos (hc h), if_pos (hc h)]
      rfl
    rw [hp, List.getD_cons_succ, List.eraseIdx_cons_succ, walk, hr]
  · rw [walk, hr]

theorem outShape_cons {n : Nat} {s : List Sel} {sh : List Nat} (hc : hasAdv s = true → contiguous s = true) :
    outShape (.many (List.range n) :: s) (n :: sh) = n :: outShape s sh := by
  have ha : hasAdv (.many (List.range n) :: s) = hasAdv s := by simp [hasAdv, Sel.isAdv]
  unfold outShape
  rw [ha]
  split
  · rename_i h
    have hp : advPos (.many (List.range n) :: s) = advPos s + 1 := by
      have : contiguous (.many (List.range n) :: s) = contiguous s := rfl
      unfold advPos
      rw [this, if_pos (hc h), if_pos (hc h)]
      rfl
    rw [hp, base, List.length_range, List.insertIdx_succ_cons]
    rfl
  · rw [base, List.length_range]

/-- The rows are the multi-indices of the elements of `a[s]`, in the order of `a[s].flat`. -/
theorem indices_rows {B : Nat} {s : List Sel} {sh : List Nat} (hs : sh ≠ []) (f : Fits B s sh)
    (hc : hasAdv s = true → contiguous s = true) : indices sh s = (allIdx (outShape s sh)).map (src s) := by
  unfold indices Nd.index
  have hl : 0 < sh.length := List.length_pos_of_ne_nil hs
  have e : outShape (.many (List.range sh.length) :: s) (indicesArr sh).shape = sh.length :: outShape s sh :=
    outShape_cons hc
  rw [e, rows_roll hl]
  apply List.map_congr_left
  intro o ho
  have hi := src_inShape f (mem_allIdx.mp ho)
  refine Eq.trans ?_ (map_getD_range (src s o))
  rw [inShape_length hi]
  apply List.map_congr_left
  intro c hcr
  rw [List.mem_range] at hcr
  rw [src_cons hc hcr]
  rfl

theorem raveled_eq {B : Nat} {s : List Sel} {sh : List Nat} (hs : sh ≠ []) (f : Fits B s sh)
    (hc : hasAdv s = true → contiguous s = true) (hne : 0 < size (outShape s sh)) :
    raveled sh s = some ((allIdx (outShape s sh)).map (fun o => position sh (src s o))) := by
  unfold raveled
  simp only []
  rw [indices_rows hs f hc, if_neg, List.map_map]
  · congr 1
    apply List.map_congr_left
    intro o ho
    exact dot_strides (src_inShape f (mem_allIdx.mp ho))
  · intro h
    rw [List.map_eq_nil_iff] at h
    have := length_allIdx (outShape s sh)
    rw [h] at this
    simp at this
    omega

/-! ### C43 -/

/-- For every array `a` and every selection `s` that is not empty and in which integers and integer arrays
are next to each other, the raveled index of `a[s]` says where its elements are in `a`: element `k` of
`a[s].flat` is element `l[k]` of `a.flat`. Missing for the full claim: empty selections
(`raveled_empty_fails`), separated arrays (`raveled_separated_fails`), and indexing what has been indexed
(`raveled_chained_fails`). -/
theorem raveled_selects_partial {V : Type} {B : Nat} (a : Nd V) {s : List Sel} (hs : a.shape ≠ [])
    (f : Fits B s a.shape) (hc : hasAdv s = true → contiguous s = true) (hne : (a.index s).ravel ≠ []) :
    ∃ l, ((Par.new a).getitem s).raveled = some l ∧ (∀ k ∈ l, k < size a.shape) ∧
      l.map (fun k => a.ravel[k]?) = (a.index s).ravel.map some := by
  have hne' : 0 < size (outShape s a.shape) := by
    rw [← length_allIdx]
    have : (a.index s).ravel.length = (allIdx (outShape s a.shape)).length := by unfold Nd.ravel Nd.index; simp
    rw [← this]; exact List.length_pos_of_ne_nil hne
  refine ⟨_, raveled_eq hs f hc hne', ?_, ?_⟩
  · intro k hk
    obtain ⟨o, ho, rfl⟩ := List.mem_map.mp hk
    exact position_lt (src_inShape f (mem_allIdx.mp ho))
  · unfold Nd.ravel Nd.index
    simp only [List.map_map]
    apply List.map_congr_left
    intro o ho
    exact ravel_position a (src_inShape f (mem_allIdx.mp ho))

/-- The index list of a whole `Param` that is not empty is `0, ..., size - 1`. -/
theorem raveled_full {V : Type} (a : Nd V) (hs : a.shape ≠ []) (hpos : 0 < size a.shape) :
    (Par.new a).raveled = some (List.range (size a.shape)) := by
  obtain ⟨n, sh, hsh⟩ := List.exists_cons_of_ne_nil hs
  have f : Fits 0 [.many (List.range n)] a.shape := by
    rw [hsh]; exact ⟨fun p hp => List.mem_range.mp hp, trivial⟩
  have hc : hasAdv [Sel.many (List.range n)] = true → contiguous [.many (List.range n)] = true := by
    intro h; cases h
  have ho : outShape [.many (List.range n)] a.shape = a.shape := by
    rw [hsh]
    show (List.range n).length :: sh = n :: sh
    rw [List.length_range]
  unfold Par.raveled Par.new
  simp only [hsh, List.head!_cons]
  rw [← hsh, raveled_eq hs f hc (by rw [ho]; exact hpos), ho, ← positions_in_order]
  congr 1
  apply List.map_congr_left
  intro o ho
  have ho := mem_allIdx.mp ho
  rw [hsh] at ho
  cases o with
  | nil => exact ho.elim
  | cons c o =>
    have : src [.many (List.range n)] (c :: o) = c :: o := by
      show walk [.many (List.range n)] 0 (c :: o) = _
      rw [walk, walk, List.getD_eq_getElem?_getD, List.getElem?_range ho.1]; rfl
    rw [this]

theorem basic_walk {B : Nat} : ∀ {s : List Sel} {sh o : List Nat}, Fits B s sh → hasAdv s = false →
    InShape (base s sh) o → Selected s (walk s 0 o)
  | [], _, _, _, _, _ => trivial
  | .one i :: s, n :: sh, o, f, ha, h => ⟨rfl, basic_walk f.2 ha h⟩
  | .adv _ :: s, _ :: sh, o, _, ha, _ => by cases ha
  | .many ps :: s, n :: sh, [], _, _, h => h.elim
  | .many ps :: s, n :: sh, j :: o, f, ha, h => by
    refine ⟨?_, basic_walk f.2 ha h.2⟩
    rw [List.getD_eq_getElem?_getD, List.getElem?_eq_getElem h.1]
    exact List.getElem_mem h.1
  | .one _ :: _, [], _, f, _, _ => f.elim
  | .adv _ :: _, [], _, f, _, _ => f.elim
  | .many _ :: _, [], _, f, _, _ => f.elim

theorem basic_surj {B : Nat} : ∀ {s : List Sel} {sh idx : List Nat}, Fits B s sh → hasAdv s = false →
    InShape sh idx → Selected s idx → ∃ o, InShape (base s sh) o ∧ walk s 0 o = idx
  | [], _, idx, _, _, h, _ => ⟨idx, h, rfl⟩
  | .one i :: s, n :: sh, j :: idx, f, ha, h, hs => by
    obtain ⟨o, h1, h2⟩ := basic_surj f.2 ha h.2 hs.2
    exact ⟨o, h1, by rw [walk, h2, hs.1]⟩
  | .adv _ :: s, _ :: sh, _, _, ha, _, _ => by cases ha
  | .many ps :: s, n :: sh, j :: idx, f, ha, h, hs => by
    obtain ⟨o, h1, h2⟩ := basic_surj f.2 ha h.2 hs.2
    obtain ⟨k, hk, hkj⟩ := List.getElem_of_mem hs.1
    exact ⟨k :: o, ⟨hk, h1⟩, by rw [walk, h2, List.getD_eq_getElem?_getD, List.getElem?_eq_getElem hk, hkj]; rfl⟩
  | .one _ :: _, _ :: _, [], _, _, h, _ => h.elim
  | .many _ :: _, _ :: _, [], _, _, h, _ => h.elim
  | .one _ :: _, [], _, f, _, _, _ => f.elim
  | .adv _ :: _, [], _, f, _, _, _ => f.elim
  | .many _ :: _, [], _, f, _, _, _ => f.elim

theorem basic_inj {B : Nat} : ∀ {s : List Sel} {sh o o' : List Nat}, Fits B s sh → hasAdv s = false →
    (∀ ps, Sel.many ps ∈ s → ps.Nodup) → InShape (base s sh) o → InShape (base s sh) o' →
    walk s 0 o = walk s 0 o' → o = o'
  | [], _, _, _, _, _, _, _, _, e => e
  | .one i :: s, n :: sh, o, o', f, ha, hn, h, h', e => by
    rw [walk, walk, List.cons.injEq] at e
    exact basic_inj f.2 ha (fun ps hp => hn ps (List.mem_cons_of_mem _ hp)) h h' e.2
  | .adv _ :: s, _ :: sh, _, _, _, ha, _, _, _, _ => by cases ha
  | .many ps :: s, n :: sh, [], _, _, _, _, h, _, _ => h.elim
  | .many ps :: s, n :: sh, _ :: _, [], _, _, _, _, h, _ => h.elim
  | .many ps :: s, n :: sh, j :: o, j' :: o', f, ha, hn, h, h', e => by
    rw [walk, walk, List.cons.injEq] at e
    have h1 := basic_inj f.2 ha (fun ps hp => hn ps (List.mem_cons_of_mem _ hp)) h.2 h'.2 e.2
    have e1 := e.1
    rw [List.getD_eq_getElem?_getD, List.getD_eq_getElem?_getD, List.getElem?_eq_getElem h.1,
      List.getElem?_eq_getElem h'.1] at e1
    have := (List.Nodup.getElem_inj_iff (hn ps List.mem_cons_self)).mp e1
    rw [h1, this]
  | .one _ :: _, [], _, _, f, _, _, _, _, _ => f.elim
  | .adv _ :: _, [], _, _, f, _, _, _, _, _ => f.elim
  | .many _ :: _, [], _, _, f, _, _, _, _, _ => f.elim

/-- For integers and slices: the positions are those of the multi-indices selected on every axis, and
different elements have different positions. -/
theorem raveled_basic {V : Type} (a : Nd V) {s : List Sel} (hs : a.shape ≠ []) (f : Fits 0 s a.shape)
    (ha : hasAdv s = false) {l : List Nat} (h : ((Par.new a).getitem s).raveled = some l) :
    (∀ idx, InShape a.shape idx → (position a.shape idx ∈ l ↔ Selected s idx)) ∧
    (∀ k ∈ l, ∃ idx, InShape a.shape idx ∧ position a.shape idx = k) ∧
    ((∀ ps, Sel.many ps ∈ s → ps.Nodup) → l.Nodup) := by
  have hc : hasAdv s = true → contiguous s = true := fun h => by rw [ha] at h; cases h
  have ho : outShape s a.shape = base s a.shape := by unfold outShape; rw [ha]; rfl
  have hsrc : ∀ o, src s o = walk s 0 o := fun o => by unfold src; rw [ha]; rfl
  have hne : 0 < size (outShape s a.shape) := by
    by_contra hz
    have hnil : allIdx (outShape s a.shape) = [] := by
      rw [← List.length_eq_zero_iff, length_allIdx]; omega
    have h : Ravel.raveled a.shape s = some l := h
    unfold Ravel.raveled at h
    simp only [] at h
    rw [indices_rows hs f hc, hnil] at h
    cases h
  have h : Ravel.raveled a.shape s = some l := h
  rw [raveled_eq hs f hc hne, Option.some.injEq] at h
  subst h
  refine ⟨fun idx hi => ⟨fun hm => ?_, fun hsel => ?_⟩, fun k hk => ?_, fun hn => ?_⟩
  · obtain ⟨o, hoo, he⟩ := List.mem_map.mp hm
    have hin := mem_allIdx.mp hoo
    have := position_inj (src_inShape f hin) hi he
    rw [← this, hsrc]
    exact basic_walk f ha (ho ▸ hin)
  · obtain ⟨o, h1, h2⟩ := basic_surj f ha hi hsel
    exact List.mem_map.mpr ⟨o, mem_allIdx.mpr (ho ▸ h1), by rw [hsrc, h2]⟩
  · obtain ⟨o, hoo, he⟩ := List.mem_map.mp hk
    exact ⟨_, src_inShape f (mem_allIdx.mp hoo), he⟩
  · refine List.Nodup.map_on ?_ (allIdx_nodup _)
    intro o h1 o' h2 e
    have h1 := mem_allIdx.mp h1
    have h2 := mem_allIdx.mp h2
    have := position_inj (src_inShape f h1) (src_inShape f h2) e
    rw [hsrc, hsrc] at this
    exact basic_inj f ha hn (ho ▸ h1) (ho ▸ h2) this

/-- An array with the numbers `0, 1, ...` of shape 3 x 2 x 2. -/
def demo : Nd Nat := ⟨[3, 2, 2], position [3, 2, 2]⟩

example : ((Par.new demo).getitem [.many [2, 0], .one 1]).raveled = some [10, 11, 2, 3] ∧
    ((Par.new demo).getitem [.many [0, 1], .adv [1, 0], .adv [0, 0]]).raveled = some [2, 0, 6, 4] ∧
    ((Par.new demo).getitem [.adv [2, 0]]).raveled = some [8, 9, 10, 11, 0, 1, 2, 3] ∧
    strides [3, 2, 2] = [4, 2, 1] := by decide +kernel

example : Fits 0 [.many [2, 0], .one 1] demo.shape ∧ (demo.index [.many [2, 0], .one 1]).ravel = [10, 11, 2, 3] ∧
    Fits 2 [.many [0, 1], .adv [1, 0], .adv [0, 0]] demo.shape := by
  refine ⟨?_, by decide +kernel, ?_⟩ <;> simp [Fits, demo]

/-- An empty selection raises `ValueError`, and so does a `Param` without elements. -/
theorem raveled_empty_fails : ((Par.new demo).getitem [.many []]).raveled = none ∧
    (Par.new (⟨[0], fun _ => 0⟩ : Nd Nat)).raveled = none := by decide +kernel

/-- With a slice between two integer arrays the result is not the positions of the part. -/
theorem raveled_separated_fails : ((Par.new demo).getitem [.adv [0, 2], .many [0, 1], .adv [0, 1]]).raveled =
      some [4, 8, 6, 5] ∧ (demo.index [.adv [0, 2], .many [0, 1], .adv [0, 1]]).ravel = [0, 2, 9, 11] := by
  decide +kernel

/-- Indexing a part: `p[2:][0]` is row 2, but its raveled index is that of row 0. -/
theorem raveled_chained_fails : (((Par.new demo).getitem [.many [2]]).getitem [.one 0]).raveled = some [0, 1, 2, 3] ∧
    (((Par.new demo).getitem [.many [2]]).getitem [.one 0]).arr.ravel = [8, 9, 10, 11] := by decide +kernel

/-! ### C53 -/

theorem cumsum_get : ∀ (acc : Nat) (l : List Bool) (i : Nat), i < l.length →
    (cumsum acc l)[i]? = some (acc + (l.take (i + 1)).count true)
  | _, [], _, h => by simp at h
  | acc, b :: l, 0, _ => by cases b <;> simp [cumsum]
  | acc, b :: l, i + 1, h => by
    rw [cumsum, List.getElem?_cons_succ, cumsum_get _ l i (by simpa using h)]
    cases b <;> simp
    omega

theorem length_cumsum : ∀ (acc : Nat) (l : List Bool), (cumsum acc l).length = l.length
  | _, [] => rfl
  | acc, b :: l => by rw [cumsum, List.length_cons, length_cumsum, List.length_cons]

theorem count_not (l : List Bool) : (l.map not).count true + l.count true = l.length := by
  induction l with
  | nil => rfl
  | cons b l ih => cases b <;> simp <;> omega

/-- With fixes: the free ones among the given positions are mapped to the number of free positions in front
of them, which is where the optimiser's array holds them; the order is kept and fixed ones are dropped. -/
theorem transformed_spec (fixes : List Bool) (ravi : List Nat) (hr : ∀ i ∈ ravi, i < fixes.length) :
    transformed (some fixes) ravi =
      (ravi.filter (fun i => fixes.getD i false)).map (fun i => (fixes.take i).count true) := by
  unfold transformed
  simp only []
  apply List.map_congr_left
  intro i hi
  rw [List.mem_filter] at hi
  have hlt := hr i hi.1
  have hfree : fixes[i] = true := by
    have := hi.2
    rwa [List.getD_eq_getElem?_getD, List.getElem?_eq_getElem hlt] at this
  have hc := cumsum_get 0 (fixes.map not) i (by simpa using hlt)
  rw [List.getD_eq_getElem?_getD, List.getElem?_zipWith, List.getElem?_range hlt, hc]
  simp only [Option.getD_some, Nat.zero_add]
  rw [← List.map_take, List.take_succ_eq_append_getElem hlt, hfree]
  have h1 := count_not (fixes.take i)
  have h2 : (fixes.take i).length = i := by rw [List.length_take]; omega
  simp only [List.map_append, List.count_append, List.map_cons, List.map_nil, Bool.not_true]
  have : ([false] : List Bool).count true = 0 := by decide
  omega

/-- ... so reading the free part of an array at these places gives the elements asked for. -/
theorem transformed_reads {V : Type} (fixes : List Bool) (xs : List V) (hl : xs.length = fixes.length)
    (ravi : List Nat) (hr : ∀ i ∈ ravi, i < fixes.length) :
    (transformed (some fixes) ravi).map (fun k => ((xs.zip fixes).filterMap (fun e => if e.2 then some e.1 else none))[k]?) =
      (ravi.filter (fun i => fixes.getD i false)).map (fun i => xs[i]?) := by
  rw [transformed_spec fixes ravi hr, List.map_map]
  apply List.map_congr_left
  intro i hi
  rw [List.mem_filter] at hi
  have hlt := hr i hi.1
  have hfree : fixes[i]? = some true := by
    have := hi.2
    rw [List.getD_eq_getElem?_getD, List.getElem?_eq_getElem hlt] at this
    rw [List.getElem?_eq_getElem hlt]; exact congrArg some this
  clear hi hr ravi
  show ((xs.zip fixes).filterMap _)[(fixes.take i).count true]? = xs[i]?
  induction i generalizing xs fixes with
  | zero =>
    cases fixes with
    | nil => simp at hlt
    | cons b fixes =>
      cases xs with
      | nil => simp at hl
      | cons x xs =>
        obtain rfl : b = true := by simpa using hfree
        simp
  | succ i ih =>
    cases fixes with
    | nil => simp at hlt
    | cons b fixes =>
      cases xs with
      | nil => simp at hl
      | cons x xs =>
        have := ih fixes xs (by simpa using hl) (by simpa using hlt) (by simpa using hfree)
        cases b <;> simp [this]

example : transformed (some [true, false, true, true, false]) [3, 1, 0] = [2, 0] := by decide

end Paramz.Ravel

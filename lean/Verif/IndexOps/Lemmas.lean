import Verif.IndexOps.Spec

/-! Helper lemmas about the index-operations model. -/

set_option linter.unusedSectionVars false
set_option linter.unusedSimpArgs false

namespace Paramz.IndexOps

open List

/-! ### numpy routines -/

theorem mem_union1d {a b : Arr} {x : Nat} : x ∈ union1d a b ↔ x ∈ a ∨ x ∈ b := by
  simp [union1d, List.mem_insertionSort]

theorem sorted_union1d (a b : Arr) : (union1d a b).Pairwise (· < ·) := by
  have hs : (union1d a b).Pairwise (· ≤ ·) := List.pairwise_insertionSort _ _
  have hn : (union1d a b).Nodup :=
    (List.perm_insertionSort (· ≤ ·) _).nodup_iff.mpr (List.nodup_dedup _)
  exact hs.imp₂ (fun _ _ h1 h2 => lt_of_le_of_ne h1 h2) hn

theorem mem_setdiff1d {a b : Arr} {x : Nat} : x ∈ setdiff1d a b ↔ x ∈ a ∧ x ∉ b := by
  simp [setdiff1d]

theorem sorted_setdiff1d {a : Arr} (b : Arr) (h : a.Pairwise (· < ·)) :
    (setdiff1d a b).Pairwise (· < ·) := h.filter _

/-- In a sorted list without triple occurrences `adjacentEqual` lists the doubled entries. -/
theorem adjacentEqual_spec : ∀ (l : Arr), l.Pairwise (· ≤ ·) →
    (∀ x, x ∈ adjacentEqual l ↔ 2 ≤ l.count x)
  | [], _, x => by simp [adjacentEqual]
  | [y], _, x => by
      simp only [adjacentEqual, List.not_mem_nil, false_iff]
      have := List.count_le_length (a := x) (l := [y])
      simp at this; omega
  | y :: z :: r, h, x => by
      have ih := adjacentEqual_spec (z :: r) (List.Pairwise.of_cons h) x
      unfold adjacentEqual
      by_cases hyz : y = z
      · subst hyz
        rw [if_pos rfl, List.mem_cons, ih]
        by_cases hx : x = y
        · subst hx; simp
        · have : ¬ (y = x) := fun e => hx e.symm
          simp [List.count_cons, hx, this]
      · rw [if_neg hyz, ih]
        by_cases hx : x = y
        · subst hx
          have hlt : x < z := by
            have := (List.pairwise_cons.mp h).1 z (by simp)
            omega
          have hnot : x ∉ z :: r := by
            intro hm
            rcases List.mem_cons.mp hm with rfl | hm
            · omega
            · have := (List.pairwise_cons.mp (List.Pairwise.of_cons h)).1 x hm
              omega
          have : List.count x (z :: r) = 0 := List.count_eq_zero.mpr hnot
          rw [List.count_cons_self, this]
          omega
        · have : ¬ (y = x) := fun e => hx e.symm
          rw [List.count_cons_of_ne this]

theorem adjacentEqual_sublist : ∀ (l : Arr), (adjacentEqual l).Sublist l
  | [] => by simp [adjacentEqual]
  | [y] => by simp [adjacentEqual]
  | y :: z :: r => by
      have ih := adjacentEqual_sublist (z :: r)
      unfold adjacentEqual
      split
      · exact ih.cons_cons y
      · exact ih.cons y

/-- Strictly sorted when no entry occurs three times. -/
theorem adjacentEqual_sorted : ∀ (l : Arr), l.Pairwise (· ≤ ·) → (∀ x, l.count x ≤ 2) →
    (adjacentEqual l).Pairwise (· < ·)
  | [], _, _ => by simp [adjacentEqual]
  | [y], _, _ => by simp [adjacentEqual]
  | y :: z :: r, h, hc => by
      have hc' : ∀ x, (z :: r).count x ≤ 2 := fun x =>
        le_trans (by simp [List.count_cons]) (hc x)
      have ih := adjacentEqual_sorted (z :: r) (List.Pairwise.of_cons h) hc'
      unfold adjacentEqual
      split
      · rename_i hyz
        refine List.pairwise_cons.mpr ⟨?_, ih⟩
        intro x hx
        have hx2 := (adjacentEqual_spec _ (List.Pairwise.of_cons h) x).mp hx
        have hxm : x ∈ z :: r := (adjacentEqual_sublist _).subset hx
        have hle : y ≤ x := (List.pairwise_cons.mp h).1 x hxm
        rcases Nat.lt_or_ge y x with hlt | hge
        · exact hlt
        · have : x = y := le_antisymm hge hle
          subst this
          have := hc x
          rw [List.count_cons_self] at this
          omega
      · exact ih

theorem count_insertionSort (l : Arr) (x : Nat) :
    (l.insertionSort (· ≤ ·)).count x = l.count x :=
  (List.perm_insertionSort _ _).count_eq x

theorem mem_intersect1d {a b : Arr} (ha : a.Nodup) (hb : b.Nodup) {x : Nat} :
    x ∈ intersect1d a b ↔ x ∈ a ∧ x ∈ b := by
  unfold intersect1d
  rw [adjacentEqual_spec _ (List.pairwise_insertionSort _ _), count_insertionSort, List.count_append]
  have h1 := List.nodup_iff_count_le_one.mp ha x
  have h2 := List.nodup_iff_count_le_one.mp hb x
  rw [← List.count_pos_iff, ← List.count_pos_iff (l := b)]
  omega

theorem sorted_intersect1d {a b : Arr} (ha : a.Nodup) (hb : b.Nodup) :
    (intersect1d a b).Pairwise (· < ·) := by
  apply adjacentEqual_sorted _ (List.pairwise_insertionSort _ _)
  intro x
  rw [count_insertionSort, List.count_append]
  have h1 := List.nodup_iff_count_le_one.mp ha x
  have h2 := List.nodup_iff_count_le_one.mp hb x
  omega

theorem sorted_nodup {a : Arr} (h : a.Pairwise (· < ·)) : a.Nodup :=
  h.imp (fun h => Nat.ne_of_lt h)

/-- Two strictly sorted arrays with the same entries are the same array. -/
theorem sorted_ext {a b : Arr} (ha : a.Pairwise (· < ·)) (hb : b.Pairwise (· < ·))
    (h : ∀ x, x ∈ a ↔ x ∈ b) : a = b :=
  List.Pairwise.eq_of_mem_iff ha hb (fun {x} => h x)

/-! ### Dictionary -/

variable {P : Type} [DecidableEq P]

@[simp] theorem lookup_nil (p : P) : lookup ([] : Dict P) p = [] := rfl

theorem lookup_setKey (d : Dict P) (p q : P) (a : Arr) :
    lookup (setKey d p a) q = if p = q then a else lookup d q := by
  induction d with
  | nil => simp [setKey, lookup]
  | cons e r ih =>
    obtain ⟨k, b⟩ := e
    unfold setKey
    by_cases hk : k = p
    · subst hk
      rw [if_pos rfl]
      by_cases hq : k = q <;> simp [lookup, hq]
    · rw [if_neg hk]
      by_cases hq : k = q
      · subst hq
        have : p ≠ k := fun h => hk h.symm
        simp [lookup, this]
      · simp only [lookup, if_neg hq, ih]

theorem lookup_delKey (d : Dict P) (p q : P) :
    lookup (delKey d p) q = if p = q then [] else lookup d q := by
  induction d with
  | nil => simp [delKey, lookup]
  | cons e r ih =>
    obtain ⟨k, b⟩ := e
    unfold delKey at ih ⊢
    by_cases hk : k = p
    · subst hk
      rw [List.filter_cons_of_neg (by simp)]
      rw [ih]
      by_cases hq : k = q <;> simp [lookup, hq]
    · rw [List.filter_cons_of_pos (by simpa using hk)]
      by_cases hq : k = q
      · subst hq
        have : p ≠ k := fun h => hk h.symm
        simp [lookup, this]
      · simp only [lookup, if_neg hq, ih]

theorem hasKey_iff {d : Dict P} {p : P} : hasKey d p = true ↔ p ∈ d.map Prod.fst := by
  simp [hasKey]

theorem lookup_of_not_hasKey {d : Dict P} {p : P} (h : hasKey d p = false) : lookup d p = [] := by
  induction d with
  | nil => rfl
  | cons e r ih =>
    simp only [hasKey, List.any_cons, Bool.or_eq_false_iff, decide_eq_false_iff_not] at h
    simp only [lookup, if_neg h.1]
    exact ih h.2

theorem lookup_append_empty (d : Dict P) (p q : P) : lookup (d ++ [(p, [])]) q = lookup d q := by
  induction d with
  | nil => simp [lookup]
  | cons e r ih => simp only [List.cons_append, lookup, ih]

theorem lookup_getItem (d : Dict P) (p q : P) : lookup (getItem d p).1 q = lookup d q := by
  unfold getItem
  split
  · rfl
  · exact lookup_append_empty d p q

theorem getItem_snd (d : Dict P) (p : P) : (getItem d p).2 = lookup d p := by
  unfold getItem
  split
  · rfl
  · rename_i h; exact (lookup_of_not_hasKey (by simpa using h)).symm

/-- Canonical dictionary: one entry per key, every array strictly increasing. -/
structure WF (d : Dict P) : Prop where
  keys : (d.map Prod.fst).Nodup
  arrs : ∀ e ∈ d, e.2.Pairwise (· < ·)

theorem WF.nil : WF ([] : Dict P) := ⟨by simp, by simp⟩

theorem lookup_of_mem {d : Dict P} (h : (d.map Prod.fst).Nodup) {e : P × Arr} (he : e ∈ d) :
    lookup d e.1 = e.2 := by
  induction d with
  | nil => simp at he
  | cons f r ih =>
    simp only [List.map_cons, List.nodup_cons] at h
    rcases List.mem_cons.mp he with rfl | he
    · simp [lookup]
    · have : f.1 ≠ e.1 := fun hh => h.1 (hh ▸ List.mem_map_of_mem he)
      simp only [lookup, if_neg this]
      exact ih h.2 he

theorem mem_of_lookup {d : Dict P} {p : P} (h : lookup d p ≠ []) : (p, lookup d p) ∈ d := by
  induction d with
  | nil => simp at h
  | cons f r ih =>
    unfold lookup at h ⊢
    split
    · rename_i hf; subst hf; simp
    · rename_i hf
      rw [if_neg hf] at h
      exact List.mem_cons_of_mem _ (ih h)

theorem WF.lookup {d : Dict P} (h : WF d) (p : P) : (lookup d p).Pairwise (· < ·) := by
  by_cases hp : IndexOps.lookup d p = []
  · rw [hp]; exact List.Pairwise.nil
  · exact h.arrs _ (mem_of_lookup hp)

theorem keys_setKey (d : Dict P) (p : P) (a : Arr) :
    (setKey d p a).map Prod.fst = if p ∈ d.map Prod.fst then d.map Prod.fst
      else d.map Prod.fst ++ [p] := by
  induction d with
  | nil => simp [setKey]
  | cons e r ih =>
    obtain ⟨k, b⟩ := e
    unfold setKey
    by_cases hk : k = p
    · subst hk; simp
    · have hk' : p ≠ k := fun h => hk h.symm
      rw [if_neg hk, List.map_cons, ih]
      by_cases hr : p ∈ r.map Prod.fst
      · rw [if_pos hr, if_pos (by simp only [List.map_cons, List.mem_cons]; exact Or.inr hr)]; rfl
      · rw [if_neg hr, if_neg (by simp only [List.map_cons, List.mem_cons]; tauto)]; rfl

theorem mem_setKey {d : Dict P} {p : P} {a : Arr} {e : P × Arr} (h : e ∈ setKey d p a) :
    e ∈ d ∨ e = (p, a) := by
  induction d with
  | nil => simpa [setKey] using h
  | cons f r ih =>
    obtain ⟨k, b⟩ := f
    unfold setKey at h
    split at h
    · rename_i hk
      subst hk
      rcases List.mem_cons.mp h with h | h
      · exact Or.inr h
      · exact Or.inl (List.mem_cons_of_mem _ h)
    · rcases List.mem_cons.mp h with h | h
      · exact Or.inl (by rw [h]; simp)
      · rcases ih h with h | h
        · exact Or.inl (List.mem_cons_of_mem _ h)
        · exact Or.inr h

theorem WF.setKey {d : Dict P} (h : WF d) (p : P) {a : Arr} (ha : a.Pairwise (· < ·)) :
    WF (setKey d p a) := by
  constructor
  · rw [keys_setKey]
    split
    · exact h.keys
    · rename_i hp
      rw [List.nodup_append]
      refine ⟨h.keys, by simp, ?_⟩
      intro x hx y hy hxy
      rw [List.mem_singleton] at hy
      exact hp (hy ▸ hxy ▸ hx)
  · intro e he
    rcases mem_setKey he with he | rfl
    · exact h.arrs e he
    · exact ha

theorem WF.filter {d : Dict P} (h : WF d) (f : P × Arr → Bool) : WF (d.filter f) := by
  constructor
  · exact h.keys.sublist (List.filter_sublist.map _)
  · intro e he; exact h.arrs e (List.mem_of_mem_filter he)

theorem WF.delKey {d : Dict P} (h : WF d) (p : P) : WF (delKey d p) := h.filter _

theorem WF.add {d : Dict P} (h : WF d) (p : P) (ind : Arr) : WF (add d p ind) :=
  h.setKey p (sorted_union1d _ _)

theorem WF.remove {d : Dict P} (h : WF d) (p : P) (ind : Arr) : WF (remove d p ind).1 := by
  unfold IndexOps.remove
  split
  · simp only
    split
    · exact h.setKey p (sorted_setdiff1d _ (h.lookup p))
    · exact h.delKey p
  · exact h

theorem WF.getItem {d : Dict P} (h : WF d) (p : P) : WF (getItem d p).1 := by
  unfold IndexOps.getItem
  split
  · exact h
  · rename_i hp
    have hp' : p ∉ d.map Prod.fst := fun hm => hp (hasKey_iff.mpr hm)
    constructor
    · rw [List.map_append, List.nodup_append]
      refine ⟨h.keys, by simp, ?_⟩
      intro x hx y hy hxy
      simp only [List.map_cons, List.map_nil, List.mem_singleton] at hy
      exact hp' (hy ▸ hxy ▸ hx)
    · intro e he
      rcases List.mem_append.mp he with he | he
      · exact h.arrs e he
      · rw [List.mem_singleton] at he; rw [he]; exact List.Pairwise.nil

theorem sorted_shiftRightArr {a : Arr} (s n : Nat) (h : a.Pairwise (· < ·)) :
    (shiftRightArr s n a).Pairwise (· < ·) := by
  unfold shiftRightArr
  rw [List.pairwise_map]
  refine h.imp ?_
  intro x y hxy
  split <;> split <;> omega

theorem sorted_shiftLeftArr {a : Arr} (s n : Nat) (h : a.Pairwise (· < ·)) :
    (shiftLeftArr s n a).Pairwise (· < ·) := by
  unfold shiftLeftArr
  rw [List.pairwise_map]
  have h2 := h.filter (fun i => !(decide (s ≤ i) && decide (i < s + n)))
  refine List.Pairwise.imp_of_mem ?_ h2
  intro x y hx hy hxy
  simp only [List.mem_filter, Bool.not_eq_true', Bool.and_eq_false_iff,
    decide_eq_false_iff_not] at hx hy
  split <;> split <;> omega

theorem mem_shiftRightArr {a : Arr} {s n i : Nat} :
    i ∈ shiftRightArr s n a ↔ (i < s ∧ i ∈ a) ∨ (s + n ≤ i ∧ i - n ∈ a) := by
  unfold shiftRightArr
  rw [List.mem_map]
  constructor
  · rintro ⟨j, hj, rfl⟩
    split
    · right; refine ⟨by omega, ?_⟩
      have : j + n - n = j := by omega
      rwa [this]
    · left; exact ⟨by omega, hj⟩
  · rintro (⟨h1, h2⟩ | ⟨h1, h2⟩)
    · exact ⟨i, h2, by rw [if_neg (by omega)]⟩
    · exact ⟨i - n, h2, by rw [if_pos (by omega)]; omega⟩

theorem mem_shiftLeftArr {a : Arr} {s n i : Nat} :
    i ∈ shiftLeftArr s n a ↔ (i < s ∧ i ∈ a) ∨ (s ≤ i ∧ i + n ∈ a) := by
  unfold shiftLeftArr
  rw [List.mem_map]
  constructor
  · rintro ⟨j, hj, rfl⟩
    simp only [List.mem_filter, Bool.not_eq_true', Bool.and_eq_false_iff,
      decide_eq_false_iff_not] at hj
    split
    · right; refine ⟨by omega, ?_⟩
      have : j - n + n = j := by omega
      rw [this]; exact hj.1
    · left; exact ⟨by omega, hj.1⟩
  · rintro (⟨h1, h2⟩ | ⟨h1, h2⟩)
    · refine ⟨i, ?_, by rw [if_neg (by omega)]⟩
      simp only [List.mem_filter, Bool.not_eq_true', Bool.and_eq_false_iff,
        decide_eq_false_iff_not]
      exact ⟨h2, Or.inl (by omega)⟩
    · refine ⟨i + n, ?_, by rw [if_pos (by omega)]; omega⟩
      simp only [List.mem_filter, Bool.not_eq_true', Bool.and_eq_false_iff,
        decide_eq_false_iff_not]
      exact ⟨h2, Or.inr (by omega)⟩

theorem lookup_shiftRight (d : Dict P) (s n : Nat) (p : P) :
    lookup (shiftRight d s n) p = shiftRightArr s n (lookup d p) := by
  induction d with
  | nil => simp [shiftRight, lookup, shiftRightArr]
  | cons e r ih =>
    unfold shiftRight at ih ⊢
    rw [List.map_cons]
    unfold lookup
    split
    · rfl
    · exact ih

theorem WF.shiftRight {d : Dict P} (h : WF d) (s n : Nat) : WF (shiftRight d s n) := by
  constructor
  · have : (IndexOps.shiftRight d s n).map Prod.fst = d.map Prod.fst := by
      simp [IndexOps.shiftRight, Function.comp_def]
    rw [this]; exact h.keys
  · intro e he
    obtain ⟨f, hf, rfl⟩ := List.mem_map.mp he
    exact sorted_shiftRightArr s n (h.arrs f hf)

theorem shiftLeft_keys_sublist (d : Dict P) (s n : Nat) :
    ((shiftLeft d s n).map Prod.fst).Sublist (d.map Prod.fst) := by
  induction d with
  | nil => simp [shiftLeft]
  | cons e r ih =>
    unfold shiftLeft at ih ⊢
    rw [List.filterMap_cons]
    split
    · exact ih.cons _
    · rename_i e' he'
      have : e'.1 = e.1 := by
        split at he'
        · cases he'; rfl
        · split at he'
          · cases he'
          · cases he'; rfl
      rw [List.map_cons, List.map_cons, this]
      exact ih.cons_cons _

theorem lookup_shiftLeft {d : Dict P} (h : (d.map Prod.fst).Nodup) (s n : Nat) (p : P) :
    lookup (shiftLeft d s n) p = shiftLeftArr s n (lookup d p) := by
  induction d with
  | nil => simp [shiftLeft, lookup, shiftLeftArr]
  | cons e r ih =>
    simp only [List.map_cons, List.nodup_cons] at h
    have ih := ih h.2
    have hnot : ∀ q, q ∉ r.map Prod.fst → lookup (shiftLeft r s n) q = [] := by
      intro q hq
      apply lookup_of_not_hasKey
      rw [Bool.eq_false_iff]
      intro hk
      exact hq ((shiftLeft_keys_sublist r s n).subset (hasKey_iff.mp hk))
    unfold shiftLeft at ih hnot ⊢
    rw [List.filterMap_cons]
    by_cases he : e.2 = []
    · rw [if_pos he]
      simp only
      unfold lookup
      split
      · rw [he]; simp [shiftLeftArr]
      · exact ih
    · rw [if_neg he]
      by_cases hs : shiftLeftArr s n e.2 = []
      · rw [if_pos hs]
        simp only
        by_cases hp : e.1 = p
        · rw [lookup, if_pos hp, hs]
          exact hnot p (hp ▸ h.1)
        · rw [lookup, if_neg hp]; exact ih
      · rw [if_neg hs]
        simp only
        by_cases hp : e.1 = p
        · rw [lookup, if_pos hp, lookup, if_pos hp]
        · rw [lookup, if_neg hp, lookup, if_neg hp]; exact ih

theorem WF.shiftLeft {d : Dict P} (h : WF d) (s n : Nat) : WF (shiftLeft d s n) := by
  constructor
  · exact h.keys.sublist (shiftLeft_keys_sublist d s n)
  · intro e he
    obtain ⟨f, hf, hfe⟩ := List.mem_filterMap.mp he
    split at hfe
    · cases hfe; exact h.arrs _ hf
    · split at hfe
      · cases hfe
      · cases hfe; exact sorted_shiftLeftArr s n (h.arrs f hf)

theorem lookup_add (d : Dict P) (p q : P) (ind : Arr) :
    lookup (add d p ind) q = if p = q then union1d (lookup d p) ind else lookup d q :=
  lookup_setKey _ _ _ _

theorem lookup_remove (d : Dict P) (p q : P) (ind : Arr) :
    lookup (remove d p ind).1 q = if p = q then setdiff1d (lookup d p) ind else lookup d q := by
  unfold remove
  split
  · simp only
    split
    · exact lookup_setKey _ _ _ _
    · rename_i hd
      rw [lookup_delKey]
      simp only [ne_eq, Decidable.not_not] at hd
      rw [hd]
  · rename_i hk
    have hk : lookup d p = [] := lookup_of_not_hasKey (by simpa using hk)
    split
    · rename_i hpq; subst hpq; rw [hk]; simp [setdiff1d]
    · rfl

theorem mem_items_iff {d : Dict P} {e : P × Arr} : e ∈ items d ↔ e ∈ d ∧ e.2 ≠ [] := by
  simp [items]

theorem mem_items {d : Dict P} (h : (d.map Prod.fst).Nodup) {p : P} {a : Arr} :
    (p, a) ∈ items d ↔ lookup d p = a ∧ a ≠ [] := by
  rw [mem_items_iff]
  constructor
  · rintro ⟨h1, h2⟩; exact ⟨lookup_of_mem h h1, h2⟩
  · rintro ⟨h1, h2⟩; subst h1; exact ⟨mem_of_lookup h2, h2⟩

/-! ### Views -/

namespace Iop

theorem getItem_lookup (v : Iop) (d : Dict P) (p q : P) :
    lookup (v.getItem d p).1 q = lookup d q := by
  induction v with
  | base => exact lookup_getItem d p q
  | view u o s ih => exact ih

theorem getItem_wf (v : Iop) {d : Dict P} (h : WF d) (p : P) : WF (v.getItem d p).1 := by
  induction v with
  | base => exact h.getItem p
  | view u o s ih => exact ih

/-- Total offset of a (nested) view in the dictionary. -/
abbrev offset : Iop → Nat := Spec.offset

/-- Whether local position `i` is visible through every level of the view. -/
abbrev inWindow : Iop → Nat → Prop := Spec.visible

@[simp] theorem get_base (d : Dict P) (p : P) : Iop.base.get d p = lookup d p := getItem_snd d p

theorem get_view (u : Iop) (o s : Nat) (d : Dict P) (p : P) :
    (view u o s).get d p = filterIndex o s (u.get d p) := rfl

theorem mem_filterIndex {o s : Nat} {a : Arr} {i : Nat} :
    i ∈ filterIndex o s a ↔ i < s ∧ i + o ∈ a := by
  unfold filterIndex
  rw [List.mem_map]
  constructor
  · rintro ⟨j, hj, rfl⟩
    simp only [List.mem_filter, Bool.and_eq_true, decide_eq_true_eq] at hj
    refine ⟨by omega, ?_⟩
    have : j - o + o = j := by omega
    rw [this]; exact hj.1
  · rintro ⟨h1, h2⟩
    refine ⟨i + o, ?_, by omega⟩
    simp only [List.mem_filter, Bool.and_eq_true, decide_eq_true_eq]
    exact ⟨h2, by omega, by omega⟩

theorem sorted_filterIndex {a : Arr} (o s : Nat) (h : a.Pairwise (· < ·)) :
    (filterIndex o s a).Pairwise (· < ·) := by
  unfold filterIndex
  rw [List.pairwise_map]
  have h2 := h.filter (fun i => decide (o ≤ i) && decide (i < o + s))
  refine List.Pairwise.imp_of_mem ?_ h2
  intro x y hx hy hxy
  simp only [List.mem_filter, Bool.and_eq_true, decide_eq_true_eq] at hx hy
  omega

/-- Reading through any view: the visible positions, moved by the total offset. -/
theorem mem_get (v : Iop) (d : Dict P) (p : P) (i : Nat) :
    i ∈ v.get d p ↔ v.inWindow i ∧ i + v.offset ∈ lookup d p := by
  induction v generalizing i with
  | base => simp [inWindow, offset, Spec.offset, Spec.visible]
  | view u o s ih =>
    rw [get_view, mem_filterIndex, ih]
    simp only [inWindow, offset, Spec.offset, Spec.visible]
    have : i + o + u.offset = i + (u.offset + o) := by omega
    rw [this]; tauto

theorem sorted_get (v : Iop) {d : Dict P} (h : WF d) (p : P) : (v.get d p).Pairwise (· < ·) := by
  induction v with
  | base => rw [get_base]; exact h.lookup p
  | view u o s ih => exact sorted_filterIndex o s ih

theorem add_eq (v : Iop) (d : Dict P) (p : P) (ind : Arr) :
    v.add d p ind = IndexOps.add d p (ind.map (· + v.offset)) := by
  induction v generalizing ind with
  | base => simp [Iop.add, offset, Spec.offset]
  | view u o s ih =>
    simp only [Iop.add, ih, offset, Spec.offset, List.map_map]
    congr 1
    apply List.map_congr_left
    intro x _; simp only [Function.comp_apply]; omega

theorem remove_fst_eq (v : Iop) (d : Dict P) (p : P) (ind : Arr) :
    (v.remove d p ind).1 = (IndexOps.remove d p (ind.map (· + v.offset))).1 := by
  induction v generalizing ind with
  | base => simp [Iop.remove, offset, Spec.offset]
  | view u o s ih =>
    simp only [Iop.remove, ih, offset, Spec.offset, List.map_map]
    congr 2
    apply List.map_congr_left
    intro x _; simp only [Function.comp_apply]; omega

theorem remove_snd_eq (v : Iop) (d : Dict P) (p : P) (ind : Arr) :
    (v.remove d p ind).2 =
      (IndexOps.remove d p (ind.map (· + v.offset))).2.map (· - v.offset) := by
  induction v generalizing ind with
  | base => simp [Iop.remove, offset, Spec.offset]
  | view u o s ih =>
    simp only [Iop.remove, ih, offset, Spec.offset, List.map_map]
    have h1 : List.map ((fun x => x + u.offset) ∘ fun x => x + o) ind =
        List.map (fun x => x + (u.offset + o)) ind := by
      apply List.map_congr_left
      intro x _; simp only [Function.comp_apply]; omega
    rw [h1]
    apply List.map_congr_left
    intro x _; simp only [Function.comp_apply]; omega

theorem shiftRight_eq (v : Iop) (d : Dict P) (s n : Nat) :
    v.shiftRight d s n = IndexOps.shiftRight d (s + v.offset) n := by
  induction v generalizing s with
  | base => simp [Iop.shiftRight, offset, Spec.offset]
  | view u o w ih =>
    simp only [Iop.shiftRight, ih, offset, Spec.offset]
    congr 1; omega

theorem shiftLeft_eq (v : Iop) (d : Dict P) (s n : Nat) :
    v.shiftLeft d s n = IndexOps.shiftLeft d (s + v.offset) n := by
  induction v generalizing s with
  | base => simp [Iop.shiftLeft, offset, Spec.offset]
  | view u o w ih =>
    simp only [Iop.shiftLeft, ih, offset, Spec.offset]
    congr 1; omega

/-- The items of a view: the keys with something visible and what is visible of them. -/
theorem mem_items (v : Iop) {d : Dict P} (h : (d.map Prod.fst).Nodup) {p : P} {a : Arr} :
    (p, a) ∈ v.items d ↔ v.get d p = a ∧ a ≠ [] := by
  induction v generalizing a with
  | base => rw [Iop.items, IndexOps.mem_items h, get_base]
  | view u o s ih =>
    simp only [Iop.items, List.mem_filter, List.mem_map, decide_eq_true_eq, get_view]
    constructor
    · rintro ⟨⟨⟨q, b⟩, hb, hpq⟩, hne⟩
      simp only [Prod.mk.injEq] at hpq
      obtain ⟨rfl, rfl⟩ := hpq
      exact ⟨by rw [(ih.mp hb).1], hne⟩
    · rintro ⟨h1, h2⟩
      refine ⟨⟨(p, u.get d p), ih.mpr ⟨rfl, ?_⟩, by rw [← h1]⟩, h2⟩
      intro hu
      rw [hu] at h1
      simp [filterIndex] at h1
      exact h2 h1

theorem items_keys_nodup (v : Iop) {d : Dict P} (h : (d.map Prod.fst).Nodup) :
    ((v.items d).map Prod.fst).Nodup := by
  induction v with
  | base => exact h.sublist (List.filter_sublist.map _)
  | view u o s ih =>
    refine List.Nodup.sublist (List.filter_sublist.map _) ?_
    rw [List.map_map]
    exact ih

theorem remove_wf (v : Iop) {d : Dict P} (h : WF d) (p : P) (ind : Arr) :
    WF (v.remove d p ind).1 := by
  rw [remove_fst_eq]; exact h.remove _ _

/-- Folding removals over distinct keys. -/
theorem lookup_foldl_remove (u : Iop) (o : Nat) (its : List (P × Arr))
    (hn : (its.map Prod.fst).Nodup) (d : Dict P) (q : P) (j : Nat) :
    j ∈ lookup (its.foldl (fun d e => (u.remove d e.1 (e.2.map (· + o))).1) d) q ↔
      j ∈ lookup d q ∧ ¬ ∃ a, (q, a) ∈ its ∧ ∃ i ∈ a, j = i + (u.offset + o) := by
  induction its generalizing d with
  | nil => simp
  | cons e r ih =>
    simp only [List.map_cons, List.nodup_cons] at hn
    rw [List.foldl_cons, ih hn.2, remove_fst_eq, lookup_remove]
    have key : ∀ i, i ∈ (e.2.map (· + o)).map (· + u.offset) ↔ ∃ k ∈ e.2, i = k + (u.offset + o) := by
      intro i
      simp only [List.map_map, List.mem_map, Function.comp_apply]
      constructor
      · rintro ⟨k, hk, rfl⟩; exact ⟨k, hk, by omega⟩
      · rintro ⟨k, hk, rfl⟩; exact ⟨k, hk, by omega⟩
    by_cases hq : e.1 = q
    · rw [if_pos hq, mem_setdiff1d, key, hq]
      constructor
      · rintro ⟨⟨h1, h2⟩, h3⟩
        refine ⟨h1, ?_⟩
        rintro ⟨a, ha, i, hi, rfl⟩
        rcases List.mem_cons.mp ha with ha | ha
        · cases ha; exact h2 ⟨i, hi, rfl⟩
        · exact h3 ⟨a, ha, i, hi, rfl⟩
      · rintro ⟨h1, h2⟩
        refine ⟨⟨h1, ?_⟩, ?_⟩
        · rintro ⟨i, hi, rfl⟩
          exact h2 ⟨e.2, by rw [← hq]; simp, i, hi, rfl⟩
        · rintro ⟨a, ha, i, hi, rfl⟩
          exact h2 ⟨a, List.mem_cons_of_mem _ ha, i, hi, rfl⟩
    · rw [if_neg hq]
      constructor
      · rintro ⟨h1, h2⟩
        refine ⟨h1, ?_⟩
        rintro ⟨a, ha, hh⟩
        rcases List.mem_cons.mp ha with ha | ha
        · exact hq (by rw [← ha])
        · exact h2 ⟨a, ha, hh⟩
      · rintro ⟨h1, h2⟩
        exact ⟨h1, fun ⟨a, ha, hh⟩ => h2 ⟨a, List.mem_cons_of_mem _ ha, hh⟩⟩

theorem foldl_remove_wf (u : Iop) (o : Nat) (its : List (P × Arr)) {d : Dict P} (h : WF d) :
    WF (its.foldl (fun d e => (u.remove d e.1 (e.2.map (· + o))).1) d) := by
  induction its generalizing d with
  | nil => exact h
  | cons e r ih => exact ih (u.remove_wf h _ _)

theorem clear_wf (v : Iop) {d : Dict P} (h : WF d) : WF (v.clear d) := by
  cases v with
  | base => exact WF.nil
  | view u o s => exact foldl_remove_wf u o _ h

theorem update_wf (v : Iop) (its : List (P × Arr)) (o : Nat) {d : Dict P} (h : WF d) :
    WF (v.update d its o) := by
  unfold update
  induction its generalizing d with
  | nil => exact h
  | cons e r ih =>
    rw [List.foldl_cons]
    apply ih
    rw [add_eq]; exact h.add _ _

/-- Folding additions. -/
theorem mem_lookup_update (v : Iop) (its : List (P × Arr)) (o : Nat) (d : Dict P) (q : P) (j : Nat) :
    j ∈ lookup (v.update d its o) q ↔
      j ∈ lookup d q ∨ ∃ a, (q, a) ∈ its ∧ ∃ i ∈ a, j = i + o + v.offset := by
  unfold update
  induction its generalizing d with
  | nil => simp
  | cons e r ih =>
    rw [List.foldl_cons, ih, add_eq, lookup_add]
    by_cases hq : e.1 = q
    · rw [if_pos hq, mem_union1d, hq]
      simp only [List.map_map, List.mem_map, Function.comp_apply]
      constructor
      · rintro ((h1 | ⟨i, hi, rfl⟩) | ⟨a, ha, i, hi, rfl⟩)
        · exact Or.inl h1
        · exact Or.inr ⟨e.2, by rw [← hq]; simp, i, hi, by omega⟩
        · exact Or.inr ⟨a, List.mem_cons_of_mem _ ha, i, hi, rfl⟩
      · rintro (h1 | ⟨a, ha, i, hi, rfl⟩)
        · exact Or.inl (Or.inl h1)
        · rcases List.mem_cons.mp ha with ha | ha
          · cases ha; exact Or.inl (Or.inr ⟨i, hi, by omega⟩)
          · exact Or.inr ⟨a, ha, i, hi, rfl⟩
    · rw [if_neg hq]
      constructor
      · rintro (h1 | ⟨a, ha, hh⟩)
        · exact Or.inl h1
        · exact Or.inr ⟨a, List.mem_cons_of_mem _ ha, hh⟩
      · rintro (h1 | ⟨a, ha, hh⟩)
        · exact Or.inl h1
        · rcases List.mem_cons.mp ha with ha | ha
          · exact absurd (by rw [← ha]) hq
          · exact Or.inr ⟨a, ha, hh⟩

end Iop

/-! ### Histories -/

theorem WF.step {d : Dict P} (h : WF d) (op : Op P) : WF (step d op) := by
  cases op with
  | add v p ind => simp only [IndexOps.step]; rw [Iop.add_eq]; exact h.add _ _
  | remove v p ind => exact v.remove_wf h p ind
  | clear v => exact v.clear_wf h
  | shiftRight v s n => simp only [IndexOps.step]; rw [Iop.shiftRight_eq]; exact h.shiftRight _ _
  | shiftLeft v s n => simp only [IndexOps.step]; rw [Iop.shiftLeft_eq]; exact h.shiftLeft _ _
  | update v its o => exact v.update_wf its o h
  | getItem v p => exact v.getItem_wf h p
  | delItem v p =>
    unfold IndexOps.step
    cases v with
    | base =>
      simp only [Iop.delItem, delItem]
      by_cases hk : hasKey d p
      · rw [if_pos hk]; exact h.delKey p
      · rw [if_neg hk]; exact h
    | view u o s =>
      simp only [Iop.delItem]
      exact (Iop.view u o s).remove_wf ((Iop.view u o s).getItem_wf h p) p _

theorem WF.run {d : Dict P} (h : WF d) (ops : List (Op P)) : WF (run d ops) := by
  unfold IndexOps.run
  induction ops generalizing d with
  | nil => exact h
  | cons op r ih => exact ih (h.step op)

end Paramz.IndexOps

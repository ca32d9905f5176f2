import Verif.IndexOps.Lemmas

/-!
# Properties C01–C05: index operations

The concrete cases use the dictionary of `tests/index_operations_tests.py`:
`one:[3,9]`, `two:[0,5]`, `three:[2,4,7,10]`, with a view at offset 2 of size 6.
-/

set_option linter.unusedSectionVars false

namespace Paramz.IndexOps

variable {P : Type} [DecidableEq P]

/-- The dictionary of the test file, built by three `add` calls with unsorted, repeated input. -/
def sample : Dict String :=
  run [] [.add .base "one" [9, 3, 9], .add .base "two" [0, 5], .add .base "three" [7, 2, 10, 4]]

/-- The view of the test file. -/
def sampleView : Iop := .view .base 2 6

instance (d : Dict P) (p : P) (i : Nat) : Decidable (rel d p i) :=
  inferInstanceAs (Decidable (i ∈ _))

/-! ## C01 -/

/-- **C01** After any history of calls (on the owner or on any nested view) the array read for any
property, on the owner or through any view, is strictly increasing. -/
theorem index_arrays_canonical (ops : List (Op P)) (v : Iop) (p : P) :
    (v.get (run [] ops) p).Pairwise (· < ·) :=
  v.sorted_get (WF.nil.run ops) p

/-- **C01** After any history, `items()` of the owner or of any view lists each property at most
once, lists none with an empty array, and lists exactly the array that `x[p]` returns. -/
theorem items_exact (ops : List (Op P)) (v : Iop) :
    ((v.items (run [] ops)).map Prod.fst).Nodup ∧
    ∀ p a, (p, a) ∈ v.items (run [] ops) ↔ v.get (run [] ops) p = a ∧ a ≠ [] :=
  ⟨v.items_keys_nodup (WF.nil.run ops).keys, fun _ _ => v.mem_items (WF.nil.run ops).keys⟩

example : (Iop.base.get sample "three" = [2, 4, 7, 10]) ∧ (Iop.base.get sample "one" = [3, 9]) ∧
    sampleView.get sample "three" = [0, 2, 5] ∧
    sampleView.items sample = [("one", [1]), ("two", [3]), ("three", [0, 2, 5])] := by decide

/-! ## C02 -/

/-- One call has exactly its specified effect on the relation. -/
theorem step_refines {d : Dict P} (h : WF d) (op : Op P) :
    rel (step d op) = Spec.step (rel d) op := by
  funext q j
  apply propext
  simp only [rel, Iop.get_base]
  cases op with
  | add v p ind =>
    simp only [step, Spec.step, Spec.add, Iop.add_eq, lookup_add, rel, Iop.get_base]
    by_cases hq : p = q
    · subst hq
      simp only [if_pos, mem_union1d, List.mem_map, true_and]
      constructor <;> (rintro (h | ⟨i, hi, rfl⟩); exacts [Or.inl h, Or.inr ⟨i, hi, rfl⟩])
    · have : q ≠ p := fun h => hq h.symm
      simp [hq, this]
  | remove v p ind =>
    simp only [step, Spec.step, Spec.remove, Iop.remove_fst_eq, lookup_remove, rel, Iop.get_base]
    by_cases hq : p = q
    · subst hq
      simp only [if_pos, mem_setdiff1d, List.mem_map, true_and]
      constructor
      · rintro ⟨h1, h2⟩; exact ⟨h1, fun ⟨i, hi, e⟩ => h2 ⟨i, hi, e.symm⟩⟩
      · rintro ⟨h1, h2⟩; exact ⟨h1, fun ⟨i, hi, e⟩ => h2 ⟨i, hi, e.symm⟩⟩
    · have : q ≠ p := fun h => hq h.symm
      simp [hq, this]
  | clear v =>
    simp only [step, Spec.step, rel, Iop.get_base]
    cases v with
    | base =>
      simp only [Iop.clear, clear, lookup_nil, List.not_mem_nil, false_iff, not_and, not_not]
      intro _; exact ⟨j, trivial, by simp [Spec.offset]⟩
    | view u o s =>
      simp only [Iop.clear]
      rw [Iop.lookup_foldl_remove u o _ ((Iop.view u o s).items_keys_nodup h.keys)]
      constructor
      · rintro ⟨h1, h2⟩
        refine ⟨h1, ?_⟩
        rintro ⟨i, hi, rfl⟩
        have hm : i ∈ (Iop.view u o s).get d q := by
          rw [Iop.mem_get]; exact ⟨hi, h1⟩
        refine h2 ⟨_, (Iop.mem_items _ h.keys).mpr ⟨rfl, ?_⟩, i, hm, by simp [Spec.offset]⟩
        intro hnil; rw [hnil] at hm; simp at hm
      · rintro ⟨h1, h2⟩
        refine ⟨h1, ?_⟩
        rintro ⟨a, ha, i, hi, rfl⟩
        have := ((Iop.mem_items _ h.keys).mp ha).1
        rw [← this, Iop.mem_get] at hi
        exact h2 ⟨i, hi.1, by simp [Spec.offset]⟩
  | shiftRight v s n =>
    simp only [step, Spec.step, Spec.openGap, Iop.shiftRight_eq, lookup_shiftRight, mem_shiftRightArr,
      rel, Iop.get_base]
  | shiftLeft v s n =>
    simp only [step, Spec.step, Spec.closeGap, Iop.shiftLeft_eq, lookup_shiftLeft h.keys,
      mem_shiftLeftArr, rel, Iop.get_base]
  | update v its o =>
    simp only [step, Spec.step, Iop.mem_lookup_update, rel, Iop.get_base]
  | getItem v p =>
    simp only [step, Spec.step, Iop.getItem_lookup, rel, Iop.get_base]
  | delItem v p =>
    simp only [step, Spec.step, Spec.remove, rel, Iop.get_base]
    cases v with
    | base =>
      simp only [Iop.delItem, delItem]
      have hcov : Spec.covers .base j := ⟨j, trivial, by simp [Spec.offset]⟩
      by_cases hk : hasKey d p
      · rw [if_pos hk]
        simp only [lookup_delKey]
        by_cases hq : p = q
        · subst hq; simp [hcov]
        · have : q ≠ p := fun h => hq h.symm
          simp [hq, this]
      · rw [if_neg hk]
        simp only
        by_cases hq : p = q
        · subst hq
          rw [lookup_of_not_hasKey (by simpa using hk)]; simp
        · have : q ≠ p := fun h => hq h.symm
          simp [this]
    | view u o s =>
      simp only [Iop.delItem]
      rw [Iop.remove_fst_eq, lookup_remove, Iop.getItem_lookup, Iop.getItem_lookup]
      by_cases hq : p = q
      · subst hq
        rw [if_pos rfl, mem_setdiff1d]
        have hmem : ∀ i, i ∈ ((Iop.view u o s).getItem d p).2 ↔
            (Iop.view u o s).inWindow i ∧ i + (Iop.view u o s).offset ∈ lookup d p :=
          fun i => Iop.mem_get _ d p i
        simp only [List.mem_map, hmem, true_and]
        constructor
        · rintro ⟨h1, h2⟩
          refine ⟨h1, ?_⟩
          rintro ⟨i, hi, rfl⟩
          exact h2 ⟨i, ⟨hi, h1⟩, rfl⟩
        · rintro ⟨h1, h2⟩
          refine ⟨h1, ?_⟩
          rintro ⟨i, ⟨hi, _⟩, rfl⟩
          exact h2 ⟨i, hi, rfl⟩
      · have : q ≠ p := fun h => hq h.symm
        simp [hq, this]

/-- **C02** Every history of calls, on the owner or through nested views, has exactly its specified
effect on the relation "element `i` carries property `p`". -/
theorem index_history_refines (ops : List (Op P)) :
    rel (run ([] : Dict P) ops) = Spec.run (fun _ _ => False) ops := by
  have key : ∀ (d : Dict P), WF d → rel (run d ops) = Spec.run (rel d) ops := by
    induction ops with
    | nil => intro d _; rfl
    | cons op r ih =>
      intro d h
      have := ih (step d op) (h.step op)
      simp only [run, Spec.run, List.foldl_cons] at this ⊢
      rw [this, step_refines h op]
  rw [key [] WF.nil]
  congr 1
  funext p i
  simp [rel]

example : ¬ rel (run sample [.remove sampleView "three" [0, 5]]) "three" 2 ∧
    rel (run sample [.remove sampleView "three" [0, 5]]) "three" 4 ∧
    rel (run sample [.remove sampleView "three" [0, 5]]) "one" 3 := by decide

/-- **C02 (partial)** `remove(p, ind)`, on the owner or through any view, returns exactly the indices
that were listed and are now gone, sorted and once each. Missing from the full claim: index arrays
with a repeated entry, for which it is false (`remove_returns_fails`). -/
theorem remove_returns_partial (ops : List (Op P)) (v : Iop) (p : P) (ind : Arr) (hn : ind.Nodup)
    (i : Nat) :
    (i ∈ (v.remove (run [] ops) p ind).2 ↔
      i ∈ ind ∧ rel (run [] ops) p (i + Spec.offset v)) ∧
    (v.remove (run [] ops) p ind).2.Pairwise (· < ·) := by
  have h : WF (run ([] : Dict P) ops) := WF.nil.run ops
  generalize run ([] : Dict P) ops = d at h
  rw [Iop.remove_snd_eq]
  have hn' : (ind.map (· + v.offset)).Nodup := hn.map (fun a b hab => by simpa using hab)
  unfold IndexOps.remove
  split
  · simp only
    have hs := sorted_intersect1d (sorted_nodup (h.lookup p)) hn'
    have hm : ∀ x, x ∈ intersect1d (lookup d p) (ind.map (· + v.offset)) ↔
      x ∈ lookup d p ∧ x ∈ ind.map (· + v.offset) :=
        fun x => mem_intersect1d (sorted_nodup (h.lookup p)) hn'
    constructor
    · simp only [List.mem_map, hm, rel, Iop.get_base]
      constructor
      · rintro ⟨x, ⟨hx, k, hk, rfl⟩, rfl⟩
        have : k + v.offset - v.offset = k := by omega
        rw [this]; exact ⟨hk, hx⟩
      · rintro ⟨h1, h2⟩
        exact ⟨i + v.offset, ⟨h2, i, h1, rfl⟩, by omega⟩
    · rw [List.pairwise_map]
      refine List.Pairwise.imp_of_mem ?_ hs
      intro x y hx hy hxy
      obtain ⟨_, hx⟩ := (hm x).mp hx
      obtain ⟨_, hy⟩ := (hm y).mp hy
      obtain ⟨k, _, rfl⟩ := List.mem_map.mp hx
      obtain ⟨l, _, rfl⟩ := List.mem_map.mp hy
      omega
  · rename_i hk
    refine ⟨?_, by simp⟩
    simp only [List.map_nil, List.not_mem_nil, false_iff, not_and, rel, Iop.get_base]
    rw [lookup_of_not_hasKey (by simpa using hk)]
    simp

example : (sampleView.remove sample "three" [5, 0, 1]).2 = [0, 5] ∧ ([5, 0, 1] : Arr).Nodup := by
  decide

/-- **C02 (refutation)** With a repeated index the returned array names an index that never carried
the property. -/
theorem remove_returns_fails :
    ∃ (ops : List (Op String)) (ind : Arr) (i : Nat),
      i ∈ (Iop.base.remove (run [] ops) "one" ind).2 ∧ ¬ rel (run [] ops) "one" i :=
  ⟨[.add .base "one" [3, 9]], [5, 5], 5, by decide, by decide⟩

/-! ## C03 -/

/-- **C03** `shift_right` through any view moves exactly the later elements and leaves the gap
empty. -/
theorem shift_right_exact (ops : List (Op P)) (v : Iop) (s n : Nat) (p : P) (j : Nat) :
    (j < s + Spec.offset v →
      (rel (v.shiftRight (run [] ops) s n) p j ↔ rel (run [] ops) p j)) ∧
    (s + Spec.offset v ≤ j → j < s + Spec.offset v + n →
      ¬ rel (v.shiftRight (run [] ops) s n) p j) ∧
    (s + Spec.offset v ≤ j →
      (rel (v.shiftRight (run [] ops) s n) p (j + n) ↔ rel (run [] ops) p j)) := by
  have h := step_refines (WF.nil.run ops) (.shiftRight v s n)
  simp only [step, Spec.step] at h
  rw [h]
  simp only [Spec.openGap]
  refine ⟨fun hj => ?_, fun h1 h2 => ?_, fun hj => ?_⟩
  · constructor
    · rintro (⟨_, h⟩ | ⟨h, _⟩)
      · exact h
      · omega
    · intro h; exact Or.inl ⟨hj, h⟩
  · rintro (⟨h, _⟩ | ⟨h, _⟩) <;> omega
  · have : j + n - n = j := by omega
    rw [this]
    constructor
    · rintro (⟨h, _⟩ | ⟨_, h⟩)
      · omega
      · exact h
    · intro h; exact Or.inr ⟨by omega, h⟩

/-- **C03** `shift_left` through any view drops exactly the cut-out window and moves the later
elements down. -/
theorem shift_left_exact (ops : List (Op P)) (v : Iop) (s n : Nat) (p : P) (j : Nat) :
    (j < s + Spec.offset v →
      (rel (v.shiftLeft (run [] ops) s n) p j ↔ rel (run [] ops) p j)) ∧
    (s + Spec.offset v ≤ j →
      (rel (v.shiftLeft (run [] ops) s n) p j ↔ rel (run [] ops) p (j + n))) := by
  have h := step_refines (WF.nil.run ops) (.shiftLeft v s n)
  simp only [step, Spec.step] at h
  rw [h]
  simp only [Spec.closeGap]
  refine ⟨fun hj => ?_, fun hj => ?_⟩
  · constructor
    · rintro (⟨_, h⟩ | ⟨h, _⟩)
      · exact h
      · omega
    · intro h; exact Or.inl ⟨hj, h⟩
  · constructor
    · rintro (⟨h, _⟩ | ⟨_, h⟩)
      · omega
      · exact h
    · intro h; exact Or.inr ⟨hj, h⟩

/-- **C03** Closing the gap that was just opened gives back every array, entry for entry. -/
theorem shift_round_trip (ops : List (Op P)) (v : Iop) (s n : Nat) (p : P) :
    Iop.base.get (v.shiftLeft (v.shiftRight (run [] ops) s n) s n) p = Iop.base.get (run [] ops) p := by
  have hw : WF (run ([] : Dict P) ops) := WF.nil.run ops
  generalize run ([] : Dict P) ops = d at hw
  rw [Iop.shiftLeft_eq, Iop.shiftRight_eq, Iop.get_base, Iop.get_base]
  have hw2 := hw.shiftRight (s + v.offset) n
  apply sorted_ext ((hw2.shiftLeft _ _).lookup p) (hw.lookup p)
  intro x
  rw [lookup_shiftLeft hw2.keys, lookup_shiftRight, mem_shiftLeftArr, mem_shiftRightArr,
    mem_shiftRightArr]
  have : x + n - n = x := by omega
  rw [this]
  constructor
  · rintro (⟨h1, (⟨_, h⟩ | ⟨h, _⟩)⟩ | ⟨h1, (⟨h, _⟩ | ⟨_, h⟩)⟩)
    · exact h
    · omega
    · omega
    · exact h
  · intro hx
    rcases Nat.lt_or_ge x (s + v.offset) with hlt | hge
    · exact Or.inl ⟨hlt, Or.inl ⟨hlt, hx⟩⟩
    · exact Or.inr ⟨hge, Or.inr ⟨by omega, hx⟩⟩

example : Iop.base.get (sampleView.shiftRight sample 2 3) "three" = [2, 7, 10, 13] ∧
    Iop.base.get (sampleView.shiftLeft sample 0 2) "three" = [2, 5, 8] ∧
    Iop.base.get (sampleView.shiftLeft (sampleView.shiftRight sample 2 3) 2 3) "three" = [2, 4, 7, 10] := by
  decide

/-! ## C04 -/

/-- **C04** Reading through a view of any object (owner or view): exactly the parent's indices inside
the window, moved to start at 0. -/
theorem view_reads_window (u : Iop) (o s : Nat) (d : Dict P) (p : P) (i : Nat) :
    i ∈ (Iop.view u o s).get d p ↔ i < s ∧ o + i ∈ u.get d p := by
  rw [Iop.get_view, Iop.mem_filterIndex, Nat.add_comm]

/-- **C04** Writing through a view with indices inside its window shows exactly those indices as
added in the view, and no position of the owner outside the window changes. -/
theorem view_add_window (ops : List (Op P)) (v : Iop) (p : P) (ind : Arr)
    (hin : ∀ i ∈ ind, Spec.visible v i) :
    (∀ q i, i ∈ v.get (v.add (run [] ops) p ind) q ↔
      i ∈ v.get (run [] ops) q ∨ (q = p ∧ i ∈ ind)) ∧
    (∀ q j, ¬ Spec.covers v j →
      (rel (v.add (run [] ops) p ind) q j ↔ rel (run [] ops) q j)) := by
  have h : WF (run ([] : Dict P) ops) := WF.nil.run ops
  generalize run ([] : Dict P) ops = d at h
  have hs := step_refines h (.add v p ind)
  simp only [step, Spec.step] at hs
  constructor
  · intro q i
    rw [Iop.mem_get, Iop.mem_get]
    have : i + v.offset ∈ lookup (v.add d p ind) q ↔ rel (v.add d p ind) q (i + v.offset) := by
      simp [rel]
    rw [this, hs]
    simp only [Spec.add, rel, Iop.get_base]
    constructor
    · rintro ⟨h1, h2 | ⟨rfl, k, hk, hki⟩⟩
      · exact Or.inl ⟨h1, h2⟩
      · have hik : i = k := by simp only [Iop.offset] at hki; omega
        exact Or.inr ⟨rfl, hik ▸ hk⟩
    · rintro (⟨h1, h2⟩ | ⟨rfl, h2⟩)
      · exact ⟨h1, Or.inl h2⟩
      · exact ⟨hin i h2, Or.inr ⟨rfl, i, h2, rfl⟩⟩
  · intro q j hj
    rw [hs]
    simp only [Spec.add]
    constructor
    · rintro (h | ⟨_, i, hi, rfl⟩)
      · exact h
      · exact absurd ⟨i, hin i hi, rfl⟩ hj
    · exact Or.inl

/-- **C04** Removing through a view: exactly the given local indices disappear from the view, and
with indices inside the window nothing outside changes. -/
theorem view_remove_window (ops : List (Op P)) (v : Iop) (p : P) (ind : Arr)
    (hin : ∀ i ∈ ind, Spec.visible v i) :
    (∀ q i, i ∈ v.get (v.remove (run [] ops) p ind).1 q ↔
      i ∈ v.get (run [] ops) q ∧ ¬ (q = p ∧ i ∈ ind)) ∧
    (∀ q j, ¬ Spec.covers v j →
      (rel (v.remove (run [] ops) p ind).1 q j ↔ rel (run [] ops) q j)) := by
  have h : WF (run ([] : Dict P) ops) := WF.nil.run ops
  generalize run ([] : Dict P) ops = d at h
  have hs := step_refines h (.remove v p ind)
  simp only [step, Spec.step] at hs
  constructor
  · intro q i
    rw [Iop.mem_get, Iop.mem_get]
    have : i + v.offset ∈ lookup (v.remove d p ind).1 q ↔
        rel (v.remove d p ind).1 q (i + v.offset) := by
      simp [rel]
    rw [this, hs]
    simp only [Spec.remove, rel, Iop.get_base]
    constructor
    · rintro ⟨h1, h2, h3⟩
      exact ⟨⟨h1, h2⟩, fun ⟨hq, hi⟩ => h3 ⟨hq, i, hi, rfl⟩⟩
    · rintro ⟨⟨h1, h2⟩, h3⟩
      refine ⟨h1, h2, ?_⟩
      rintro ⟨hq, k, hk, hki⟩
      have hik : i = k := by simp only [Iop.offset] at hki; omega
      exact h3 ⟨hq, hik ▸ hk⟩
  · intro q j hj
    rw [hs]
    simp only [Spec.remove]
    constructor
    · exact fun h => h.1
    · intro hr
      refine ⟨hr, ?_⟩
      rintro ⟨_, i, hi, rfl⟩
      exact hj ⟨i, hin i hi, rfl⟩

/-- **C04 (refutation of the unrestricted claim)** `add` through a view does not check the window: an
index outside it changes the owner outside the window. -/
theorem view_add_unchecked_fails :
    ∃ (ops : List (Op String)) (v : Iop) (ind : Arr) (j : Nat), ¬ Spec.covers v j ∧
      ¬ rel (run [] ops) "one" j ∧ rel (v.add (run [] ops) "one" ind) "one" j := by
  refine ⟨[.add .base "one" [3, 9]], sampleView, [6], 8, ?_, by decide, by decide⟩
  rintro ⟨i, ⟨hi, _⟩, hj⟩
  simp only [sampleView, Spec.offset] at hj hi
  omega

/-- **C04** `clear()` on a view empties the view and changes nothing outside its window. -/
theorem view_clear_window (ops : List (Op P)) (v : Iop) :
    (∀ q, v.get (v.clear (run [] ops)) q = []) ∧
    (∀ q j, ¬ Spec.covers v j → (rel (v.clear (run [] ops)) q j ↔ rel (run [] ops) q j)) := by
  have h : WF (run ([] : Dict P) ops) := WF.nil.run ops
  generalize run ([] : Dict P) ops = d at h
  have hs := step_refines h (.clear v)
  simp only [step, Spec.step] at hs
  constructor
  · intro q
    rw [List.eq_nil_iff_forall_not_mem]
    intro i hi
    rw [Iop.mem_get] at hi
    have : rel (v.clear d) q (i + v.offset) := by simpa [rel] using hi.2
    rw [hs] at this
    exact this.2 ⟨i, hi.1, rfl⟩
  · intro q j hj
    rw [hs]
    exact ⟨fun h => h.1, fun h => ⟨h, hj⟩⟩

/-- **C04** `copy()` of any object is a dictionary of its own with exactly what the object shows. -/
theorem copy_exact (ops : List (Op P)) (v : Iop) (p : P) :
    Iop.base.get (v.copy (run [] ops)) p = v.get (run [] ops) p := by
  have h : WF (run ([] : Dict P) ops) := WF.nil.run ops
  generalize run ([] : Dict P) ops = d at h
  have hof : ∀ (its : List (P × Arr)), ofItems its = Iop.base.update ([] : Dict P) its 0 := by
    intro its
    unfold ofItems Iop.update
    congr 1
    funext d e
    simp [Iop.add]
  have hw : WF (v.copy d) := by
    unfold Iop.copy; rw [hof]; exact Iop.update_wf _ _ _ WF.nil
  rw [Iop.get_base]
  apply sorted_ext (hw.lookup p) (v.sorted_get h p)
  intro x
  unfold Iop.copy
  rw [hof, Iop.mem_lookup_update]
  simp only [lookup_nil, List.not_mem_nil, false_or, Nat.add_zero, Iop.offset, Spec.offset]
  constructor
  · rintro ⟨a, ha, i, hi, rfl⟩
    rw [((Iop.mem_items v h.keys).mp ha).1]; exact hi
  · intro hx
    refine ⟨v.get d p, (Iop.mem_items v h.keys).mpr ⟨rfl, ?_⟩, x, hx, rfl⟩
    intro hnil; rw [hnil] at hx; simp at hx

example : (∀ i ∈ ([0, 5] : Arr), Spec.visible sampleView i) ∧
    sampleView.get (sampleView.add sample "one" [0, 5]) "one" = [0, 1, 5] ∧
    Iop.base.get (sampleView.add sample "one" [0, 5]) "one" = [2, 3, 7, 9] ∧
    Iop.base.get (sampleView.clear sample) "three" = [10] ∧
    sampleView.copy sample = [("one", [1]), ("two", [3]), ("three", [0, 2, 5])] ∧
    (Iop.view sampleView 1 3).get sample "three" = [1] := by
  refine ⟨?_, by decide, by decide, by decide, by decide, by decide⟩
  intro i hi
  simp only [List.mem_cons, List.not_mem_nil, or_false] at hi
  rcases hi with rfl | rfl <;> exact ⟨by omega, trivial⟩

/-! ## C05 -/

/-- **C05** `properties_for(index)`: one entry per requested index, listing exactly the properties that
carry it, each once and in the order of `items()`. -/
theorem properties_for_exact (ops : List (Op P)) (v : Iop) (index : Arr) :
    (v.propertiesFor (run [] ops) index).length = index.length ∧
    ∀ (k : Nat) (i : Nat) (l : List P), index[k]? = some i →
      (v.propertiesFor (run [] ops) index)[k]? = some l →
      (∀ p, p ∈ l ↔ i ∈ v.get (run [] ops) p) ∧ l.Nodup ∧
      l.Sublist ((v.items (run [] ops)).map Prod.fst) := by
  have h : WF (run ([] : Dict P) ops) := WF.nil.run ops
  generalize run ([] : Dict P) ops = d at h
  refine ⟨by simp [Iop.propertiesFor], ?_⟩
  intro k i l hk hl
  simp only [Iop.propertiesFor, List.getElem?_map, hk, Option.map_some, Option.some.injEq] at hl
  subst hl
  refine ⟨?_, ?_, List.filter_sublist⟩
  · intro p
    simp only [List.mem_filter, decide_eq_true_eq, Iop.properties, List.mem_map]
    constructor
    · exact fun h => h.2
    · intro hi
      refine ⟨⟨(p, v.get d p), (Iop.mem_items v h.keys).mpr ⟨rfl, ?_⟩, rfl⟩, hi⟩
      intro hnil; rw [hnil] at hi; simp at hi
  · exact (v.items_keys_nodup h.keys).sublist List.filter_sublist

theorem lookup_foldl_appendTo (cs : List P) (hn : cs.Nodup) (acc : Dict P) (i : Nat) (p : P) :
    lookup (cs.foldl (fun acc c => appendTo acc c i) acc) p =
      lookup acc p ++ (if p ∈ cs then [i] else []) := by
  induction cs generalizing acc with
  | nil => simp
  | cons c r ih =>
    simp only [List.nodup_cons] at hn
    rw [List.foldl_cons, ih hn.2, appendTo, lookup_setKey]
    by_cases hc : c = p
    · subst hc
      simp [hn.1]
    · have : p ≠ c := fun h => hc h.symm
      simp [hc, this]

theorem lookup_extract (pairs : List (Nat × List P)) (hn : ∀ e ∈ pairs, e.2.Nodup) (acc : Dict P)
    (p : P) :
    lookup (pairs.foldl (fun acc e => e.2.foldl (fun acc c => appendTo acc c e.1) acc) acc) p =
      lookup acc p ++ (pairs.filter (fun e => decide (p ∈ e.2))).map Prod.fst := by
  induction pairs generalizing acc with
  | nil => simp
  | cons e r ih =>
    rw [List.foldl_cons, ih (fun f hf => hn f (List.mem_cons_of_mem _ hf)),
      lookup_foldl_appendTo _ (hn e (by simp))]
    by_cases hp : p ∈ e.2
    · simp [hp]
    · simp [hp]

/-- **C05** `properties_dict_for(index)` lists, for every property, exactly the requested indices that
carry it, in the order (and multiplicity) they were requested. -/
theorem properties_dict_for_exact (ops : List (Op P)) (v : Iop) (index : Arr) (p : P) :
    lookup (v.propertiesDictFor (run [] ops) index) p =
      index.filter (fun i => decide (i ∈ v.get (run [] ops) p)) := by
  have h : WF (run ([] : Dict P) ops) := WF.nil.run ops
  generalize run ([] : Dict P) ops = d at h
  unfold Iop.propertiesDictFor extractProperties
  have hz : index.zip (v.propertiesFor d index) = index.map (fun i =>
      (i, (v.properties d).filter (fun p => decide (i ∈ v.get d p)))) := by
    unfold Iop.propertiesFor
    induction index with
    | nil => rfl
    | cons a r ih => simp only [List.map_cons, List.zip_cons_cons, ih]
  rw [hz, lookup_extract]
  · rw [lookup_nil, List.nil_append, List.filter_map, List.map_map]
    have hid : (Prod.fst ∘ fun i =>
        (i, (v.properties d).filter (fun p => decide (i ∈ v.get d p)))) = id := rfl
    rw [hid, List.map_id]
    apply List.filter_congr
    intro i _
    simp only [Function.comp_apply, List.mem_filter, decide_eq_true_eq, decide_eq_decide]
    constructor
    · exact fun h => h.2
    · intro hi
      refine ⟨?_, hi⟩
      refine List.mem_map.mpr ⟨(p, v.get d p), (Iop.mem_items v h.keys).mpr ⟨rfl, ?_⟩, rfl⟩
      intro hnil; rw [hnil] at hi; simp at hi
  · intro e he
    obtain ⟨i, _, rfl⟩ := List.mem_map.mp he
    exact (v.items_keys_nodup h.keys).sublist List.filter_sublist

example : Iop.base.propertiesFor sample [2, 3, 5, 6] = [["three"], ["one"], ["two"], []] ∧
    Iop.base.propertiesDictFor sample [10, 2, 3, 5] =
      [("three", [10, 2]), ("one", [3]), ("two", [5])] := by decide

end Paramz.IndexOps

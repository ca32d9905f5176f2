import Mathlib.Data.List.Basic

/-!
# Lists of parameters (C108)

Source: `paramz/core/lists_and_dicts.py:45-62`; used for `parameters` (parameter_core.py:318) and for what `m[regexp]`
selects (param.py:401-402).
-/

namespace Paramz.ArrayList

/-! ### Model

Objects are numbers. `eq el other` is the truth value of `el == other`: for `Param`s it compares elementwise, and the truth
value of an array with several elements raises `ValueError` (`none`). -/

/-- Answers, or `ValueError`. -/
abbrev Ans (α : Type) := Option α

/-- `__contains__` (lists_and_dicts.py:50-54). -/
def contains : List Nat → Nat → Bool
  | [], _ => false
  | el :: l, other => if el = other then true else contains l other

/-- The loop of `index` (lists_and_dicts.py:56-62), from position `i` on. -/
def indexFrom (item : Nat) : Nat → List Nat → Ans Nat
  | _, [] => none
  | i, el :: l => if el = item then some i else indexFrom item (i + 1) l

/-- `index` (lists_and_dicts.py:56-62). -/
def index (l : List Nat) (item : Nat) : Ans Nat := indexFrom item 0 l

/-- The comparison of python's own list functions: identity first, then `==`. -/
def same (eq : Nat → Nat → Ans Bool) (el other : Nat) : Ans Bool := if el = other then some true else eq el other

/-- `remove`, which `ArrayList` (lists_and_dicts.py:45) inherits from `list`: the first element that compares equal is taken
out; `ValueError` if there is none, or from the comparison. -/
def remove (eq : Nat → Nat → Ans Bool) (other : Nat) : List Nat → Ans (List Nat)
  | [] => none
  | el :: l => (same eq el other).bind fun b => if b then some l else (remove eq other l).map (el :: ·)

/-- `count`, inherited as well. -/
def count (eq : Nat → Nat → Ans Bool) (other : Nat) : List Nat → Ans Nat
  | [] => some 0
  | el :: l => (same eq el other).bind fun b => (count eq other l).map fun n => if b then n + 1 else n

/-! ### Theorems -/

/-- C108: `x in l` is True exactly if the object itself is in the list. -/
theorem contains_iff (l : List Nat) (x : Nat) : contains l x = true ↔ x ∈ l := by
  induction l with
  | nil => simp [contains]
  | cons el l ih =>
    rw [contains, List.mem_cons]
    split
    · rename_i h; simp [h]
    · rename_i h
      rw [ih]
      exact ⟨.inr, fun h' => h'.resolve_left fun e => h e.symm⟩

private theorem indexFrom_spec (x : Nat) (l : List Nat) (i : Nat) :
    (indexFrom x i l = none ↔ x ∉ l) ∧
    ∀ k, indexFrom x i l = some k → i ≤ k ∧ l[k - i]? = some x ∧ ∀ j, j < k - i → l[j]? ≠ some x := by
  induction l generalizing i with
  | nil => simp [indexFrom]
  | cons el l ih =>
    rw [indexFrom]
    by_cases h : el = x
    · rw [if_pos h]
      refine ⟨by simp [h], fun k hk => ?_⟩
      cases hk
      refine ⟨Nat.le_refl _, by simp [h], fun j hj => ?_⟩
      omega
    · rw [if_neg h]
      obtain ⟨h1, h2⟩ := ih (i + 1)
      refine ⟨h1.trans ?_, fun k hk => ?_⟩
      · rw [List.mem_cons, not_or]
        exact ⟨fun h' => ⟨fun e => h e.symm, h'⟩, fun h' => h'.2⟩
      · obtain ⟨k1, k2, k3⟩ := h2 k hk
        obtain ⟨n, rfl⟩ := Nat.exists_eq_add_of_le k1
        have e1 : i + 1 + n - i = n + 1 := by omega
        have e2 : i + 1 + n - (i + 1) = n := by omega
        rw [e2] at k2 k3
        rw [e1]
        refine ⟨by omega, by rw [List.getElem?_cons_succ]; exact k2, fun j hj => ?_⟩
        cases j with
        | zero => simpa using h
        | succ j => rw [List.getElem?_cons_succ]; exact k3 j (by omega)

/-- C108: `l.index(x)` is the first position of the object itself, and raises `ValueError` exactly if the object is not in
the list. -/
theorem index_exact (l : List Nat) (x : Nat) :
    (index l x = none ↔ x ∉ l) ∧
    ∀ k, index l x = some k → l[k]? = some x ∧ ∀ j, j < k → l[j]? ≠ some x := by
  obtain ⟨h1, h2⟩ := indexFrom_spec x l 0
  exact ⟨h1, fun k hk => (h2 k hk).2⟩

/-- C108: `l.remove(x)` and `l.count(x)` are about the object itself if nothing else in the list compares equal to it (or
cannot be compared). -/
theorem inherited_partial (eq : Nat → Nat → Ans Bool) (l : List Nat) (x : Nat)
    (he : ∀ el ∈ l, el ≠ x → eq el x = some false) :
    remove eq x l = (if x ∈ l then some (l.erase x) else none) ∧ count eq x l = some (l.count x) := by
  induction l with
  | nil => simp [remove, count]
  | cons el l ih =>
    obtain ⟨h1, h2⟩ := ih fun y hy => he y (.tail _ hy)
    by_cases h : el = x
    · subst h
      simp [remove, count, same, h2]
    · have h' : x ≠ el := fun e => h e.symm
      have hf := he el (.head _) h
      simp only [remove, count, same, if_neg h, hf, Option.bind_some, h1, h2, Bool.false_eq_true, if_false]
      constructor
      · by_cases hm : x ∈ l
        · simp [hm, h]
        · simp [hm, h']
      · simp [h]

/-- Two `Param`s with one element each and the same value, and one with several elements. -/
def demoEq : Nat → Nat → Ans Bool
  | 0, 1 => some true
  | 1, 0 => some true
  | _, _ => none

/-- C108 fails for the inherited functions: `l.remove(b)` takes out `a`, which has the same value, `l.count` counts it, and
both raise `ValueError` in front of an array with several elements, while `in` and `index` tell all of them apart. -/
theorem inherited_fails : remove demoEq 1 [0, 1] = some [1] ∧ count demoEq 1 [0, 1] = some 2 ∧
    remove demoEq 1 [2, 1] = none ∧ count demoEq 1 [1, 2] = none ∧
    index [0, 1, 2] 1 = some 1 ∧ contains [0, 2] 1 = false := by decide +kernel

/-- A case for `inherited_partial`. -/
example : remove (fun a b => some (a % 3 == b % 3)) 4 [2, 4, 3] = some [2, 3] := by decide +kernel

end Paramz.ArrayList

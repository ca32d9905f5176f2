import Mathlib.Data.List.Basic
import Mathlib.Data.List.Nodup

/-!
# Python dictionaries as association lists

Only lookup, assignment and deletion are used; keys keep their insertion position.
-/

namespace Paramz.Cache

/-- A python `dict`. -/
abbrev Dict (K A : Type) := List (K × A)

variable {K A : Type} [DecidableEq K]

/-- `d.get(k)`. -/
def dget (d : Dict K A) (k : K) : Option A :=
  match d with
  | [] => none
  | (k', v) :: r => if k' = k then some v else dget r k

/-- `d[k] = v`. -/
def dset (d : Dict K A) (k : K) (v : A) : Dict K A :=
  match d with
  | [] => [(k, v)]
  | (k', v') :: r => if k' = k then (k', v) :: r else (k', v') :: dset r k v

/-- `del d[k]` when present, nothing otherwise. -/
def ddel (d : Dict K A) (k : K) : Dict K A :=
  match d with
  | [] => []
  | (k', v') :: r => if k' = k then ddel r k else (k', v') :: ddel r k

@[simp] theorem dget_nil (k : K) : dget ([] : Dict K A) k = none := rfl

theorem dget_dset (d : Dict K A) (k j : K) (v : A) :
    dget (dset d k v) j = if j = k then some v else dget d j := by
  induction d with
  | nil => simp [dset, dget, eq_comm]
  | cons e r ih =>
    obtain ⟨k', v'⟩ := e
    simp only [dset]
    split
    · rename_i h
      subst h
      simp only [dget]
      by_cases hj : j = k'
      · simp [hj]
      · simp [hj, Ne.symm hj]
    · rename_i h
      simp only [dget, ih]
      by_cases hj : k' = j
      · subst hj; simp [h]
      · simp [hj]

theorem dget_ddel (d : Dict K A) (k j : K) :
    dget (ddel d k) j = if j = k then none else dget d j := by
  induction d with
  | nil => simp [ddel]
  | cons e r ih =>
    obtain ⟨k', v'⟩ := e
    simp only [ddel]
    split
    · rename_i h
      subst h
      rw [ih]
      simp only [dget]
      by_cases hj : j = k'
      · simp [hj]
      · simp [hj, Ne.symm hj]
    · rename_i h
      simp only [dget, ih]
      by_cases hj : k' = j
      · subst hj; simp [h]
      · simp [hj]

theorem mem_of_dget {d : Dict K A} {k : K} {v : A} (h : dget d k = some v) : (k, v) ∈ d := by
  induction d with
  | nil => simp at h
  | cons e r ih =>
    obtain ⟨k', v'⟩ := e
    simp only [dget] at h
    split at h
    · rename_i hk
      subst hk
      cases h
      simp
    · exact List.mem_cons_of_mem _ (ih h)

/-- Keys are unique. -/
def DNodup (d : Dict K A) : Prop := (d.map Prod.fst).Nodup

theorem dget_of_mem {d : Dict K A} (hn : DNodup d) {k : K} {v : A} (h : (k, v) ∈ d) :
    dget d k = some v := by
  induction d with
  | nil => simp at h
  | cons e r ih =>
    obtain ⟨k', v'⟩ := e
    simp only [DNodup, List.map_cons, List.nodup_cons] at hn
    simp only [dget]
    rcases List.mem_cons.mp h with h | h
    · cases h; simp
    · have hne : k' ≠ k := by
        rintro rfl
        exact hn.1 (List.mem_map.mpr ⟨_, h, rfl⟩)
      rw [if_neg hne]
      exact ih hn.2 h

theorem keys_dset (d : Dict K A) (k : K) (v : A) :
    (dset d k v).map Prod.fst = if k ∈ d.map Prod.fst then d.map Prod.fst else d.map Prod.fst ++ [k] := by
  induction d with
  | nil => simp [dset]
  | cons e r ih =>
    obtain ⟨k', v'⟩ := e
    simp only [dset]
    split
    · rename_i h; simp [h]
    · rename_i h
      simp only [List.map_cons, ih, List.mem_cons, Ne.symm h, false_or]
      split <;> simp

theorem DNodup.dset {d : Dict K A} (h : DNodup d) (k : K) (v : A) : DNodup (dset d k v) := by
  unfold DNodup
  rw [keys_dset]
  split
  · exact h
  · rename_i hk
    exact List.nodup_append.mpr ⟨h, by simp, by
      intro a ha b hb
      simp only [List.mem_singleton] at hb
      subst hb
      rintro rfl
      exact hk ha⟩

theorem keys_ddel_sublist (d : Dict K A) (k : K) :
    ((ddel d k).map Prod.fst).Sublist (d.map Prod.fst) := by
  induction d with
  | nil => simp [ddel]
  | cons e r ih =>
    simp only [ddel]
    split
    · exact ih.cons _
    · simpa using ih

theorem DNodup.ddel {d : Dict K A} (h : DNodup d) (k : K) : DNodup (ddel d k) :=
  List.Nodup.sublist (keys_ddel_sublist d k) h

end Paramz.Cache

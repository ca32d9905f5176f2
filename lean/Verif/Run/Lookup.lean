import Mathlib.Data.List.Sort
import Mathlib.Data.List.Lex
import Mathlib.Data.List.Infix
import Mathlib.Order.Basic
import Mathlib.Data.Nat.Basic

/-!
# Choosing an optimiser by name (C48)

Source: `paramz/optimization/optimization.py:357-375`.
-/

namespace Paramz.Run.Lookup

/-- The optimisers. -/
inductive Optimizer
  | tnc | simplex | lbfgsb | bfgs | scg | adadelta | rprop | adam
  deriving DecidableEq, Repr

/-- The table (optimization.py:359-366), in the order of insertion. -/
def table : List (List Char × Optimizer) :=
  [("fmin_tnc".toList, .tnc), ("simplex".toList, .simplex), ("lbfgsb".toList, .lbfgsb),
    ("org-bfgs".toList, .bfgs), ("scg".toList, .scg), ("adadelta".toList, .adadelta),
    ("rprop".toList, .rprop), ("adam".toList, .adam)]

/-- Does the text begin with the pattern? -/
def startsWith : List Char → List Char → Bool
  | [], _ => true
  | _ :: _, [] => false
  | c :: p, d :: t => c == d && startsWith p t

/-- `text.find(pattern)`, where `none` stands for -1. -/
def find (p : List Char) : List Char → Option Nat
  | [] => if startsWith p [] then some 0 else none
  | d :: t => if startsWith p (d :: t) then some 0 else (find p t).map (· + 1)

/-- Python compares strings character by character. -/
def before (a b : List Char) : Bool := match a, b with
  | [], _ => true
  | _ :: _, [] => false
  | c :: a, d :: b => if c.toNat < d.toNat then true else if d.toNat < c.toNat then false else before a b

/-- `sorted(optimizers.keys())`, with the entries. -/
def sortedTable : List (List Char × Optimizer) := table.insertionSort (fun a b => before a.1 b.1 = true)

/-- `get_optimizer` (optimization.py:357-375); `lower` is `str.lower`, `none` is `KeyError`. -/
def getOptimizer (lower : List Char → List Char) (q : List Char) : Option Optimizer :=
  (sortedTable.find? (fun e => (find (lower q) (lower e.1)).isSome)).map (·.2)

/-! ### Properties -/

theorem startsWith_iff : ∀ (p t : List Char), startsWith p t = true ↔ p <+: t
  | [], t => by simp [startsWith]
  | c :: p, [] => by simp [startsWith]
  | c :: p, d :: t => by
    rw [startsWith, Bool.and_eq_true, beq_iff_eq, startsWith_iff p t, List.cons_prefix_cons]

/-- `find` finds a pattern iff the text contains it. -/
theorem find_isSome (p : List Char) : ∀ t : List Char, (find p t).isSome = true ↔ p <:+: t
  | [] => by
    rw [find]
    cases p with
    | nil => simp [startsWith]
    | cons c p => simp [startsWith]
  | d :: t => by
    rw [find, List.infix_cons_iff, ← startsWith_iff, ← find_isSome p t]
    cases startsWith p (d :: t) <;> simp

theorem sortedTable_eq : sortedTable =
    [("adadelta".toList, .adadelta), ("adam".toList, .adam), ("fmin_tnc".toList, .tnc), ("lbfgsb".toList, .lbfgsb),
      ("org-bfgs".toList, .bfgs), ("rprop".toList, .rprop), ("scg".toList, .scg), ("simplex".toList, .simplex)] := by
  decide +kernel

/-- The table is in alphabetical order. -/
theorem sorted : sortedTable.Pairwise (fun a b => a.1 < b.1) := by
  rw [sortedTable_eq]
  decide +kernel

theorem mem_sorted (e : List Char × Optimizer) : e ∈ sortedTable ↔ e ∈ table := by
  unfold sortedTable
  exact (List.perm_insertionSort _ _).mem_iff

/-- A `str.lower` that leaves the names of the optimisers alone. -/
def Fixes (lower : List Char → List Char) : Prop := ∀ e ∈ table, lower e.1 = e.1

theorem find?_pairwise {α : Type} (R : α → α → Prop) (p : α → Bool) : ∀ (l : List α), l.Pairwise R → ∀ x,
    l.find? p = some x → p x = true ∧ ∀ y ∈ l, p y = true → y = x ∨ R x y
  | [], _, x, h => by cases h
  | a :: l, hp, x, h => by
    rw [List.pairwise_cons] at hp
    rw [List.find?_cons] at h
    cases ha : p a with
    | true =>
      rw [ha] at h
      have := Option.some.inj h
      subst this
      refine ⟨ha, fun y hy _ => ?_⟩
      rcases List.mem_cons.mp hy with rfl | hy
      · exact Or.inl rfl
      · exact Or.inr (hp.1 y hy)
    | false =>
      rw [ha] at h
      obtain ⟨h1, h2⟩ := find?_pairwise R p l hp.2 x h
      refine ⟨h1, fun y hy hpy => ?_⟩
      rcases List.mem_cons.mp hy with rfl | hy
      · rw [ha] at hpy; cases hpy
      · exact h2 y hy hpy

/-- `get_optimizer` gives the alphabetically first optimiser whose name contains the text in lower case. -/
theorem lookup_spec (lower : List Char → List Char) (hl : Fixes lower) (q : List Char) (o : Optimizer) :
    getOptimizer lower q = some o ↔
      ∃ name, (name, o) ∈ table ∧ lower q <:+: name ∧ ∀ e ∈ table, lower q <:+: e.1 → name ≤ e.1 := by
  unfold getOptimizer
  have hp : ∀ e ∈ table, ((find (lower q) (lower e.1)).isSome = true ↔ lower q <:+: e.1) := by
    intro e he
    rw [find_isSome, hl e he]
  constructor
  · intro h
    obtain ⟨e, he, rfl⟩ := Option.map_eq_some_iff.mp h
    have hm : e ∈ table := (mem_sorted e).mp (List.mem_of_find?_eq_some he)
    obtain ⟨h1, h2⟩ := find?_pairwise _ _ _ sorted _ he
    refine ⟨e.1, hm, (hp e hm).mp h1, fun e' he' hc => ?_⟩
    rcases h2 e' ((mem_sorted e').mpr he') ((hp e' he').mpr hc) with rfl | hlt
    · exact List.le_refl _
    · exact List.le_of_lt hlt
  · rintro ⟨name, hm, hc, hmin⟩
    cases hf : sortedTable.find? (fun e => (find (lower q) (lower e.1)).isSome) with
    | none =>
      have := List.find?_eq_none.mp hf (name, o) ((mem_sorted _).mpr hm)
      exact absurd ((hp _ hm).mpr hc) (by simpa using this)
    | some e =>
      have hme : e ∈ table := (mem_sorted e).mp (List.mem_of_find?_eq_some hf)
      obtain ⟨h1, h2⟩ := find?_pairwise _ _ _ sorted _ hf
      rcases h2 (name, o) ((mem_sorted _).mpr hm) ((hp _ hm).mpr hc) with h3 | h3
      · rw [← h3]; rfl
      · exact absurd h3 (hmin e hme ((hp e hme).mp h1))

/-- `KeyError` iff no name contains the text. -/
theorem lookup_keyError (lower : List Char → List Char) (hl : Fixes lower) (q : List Char) :
    getOptimizer lower q = none ↔ ∀ e ∈ table, ¬ lower q <:+: e.1 := by
  unfold getOptimizer
  rw [Option.map_eq_none_iff, List.find?_eq_none]
  constructor
  · intro h e he hc
    exact h e ((mem_sorted e).mpr he) ((find_isSome _ _).mpr (by rw [hl e he]; exact hc))
  · intro h e he hc
    have hm := (mem_sorted e).mp he
    exact h e hm (by rw [← hl e hm]; exact (find_isSome _ _).mp hc)

/-- Every name selects its own optimiser, whatever the case of its letters. -/
theorem lookup_self (lower : List Char → List Char) (hl : Fixes lower) (q : List Char) (e : List Char × Optimizer)
    (he : e ∈ table) (hq : lower q = e.1) : getOptimizer lower q = some e.2 := by
  rw [lookup_spec lower hl]
  refine ⟨e.1, he, by rw [hq], ?_⟩
  rw [hq]
  have key : ∀ e ∈ table, ∀ e' ∈ table, (find e.1 e'.1).isSome = true → e.1 ≤ e'.1 := by decide +kernel
  exact fun e' he' hc => key e he e' he' ((find_isSome _ _).mpr hc)

/-- Only the text in lower case matters. -/
theorem lookup_case (lower : List Char → List Char) (q q' : List Char) (h : lower q = lower q') :
    getOptimizer lower q = getOptimizer lower q' := by
  unfold getOptimizer; rw [h]

/-- ASCII lower case. -/
def ascii (s : List Char) : List Char := s.map Char.toLower

theorem ascii_fixes : Fixes ascii := by unfold Fixes; decide +kernel

example : getOptimizer ascii "BFGS".toList = some .lbfgsb ∧ getOptimizer ascii "org".toList = some .bfgs ∧
    getOptimizer ascii "Adam".toList = some .adam ∧ getOptimizer ascii [] = some .adadelta ∧
    getOptimizer ascii "SCG".toList = some .scg ∧ getOptimizer ascii "lbfgsb2".toList = none := by decide +kernel

/-- The documentation of `optimize` (model.py:85) lists `sgd`, which there is not; and its `lbfgs` is not the
plain BFGS method but L-BFGS-B. -/
theorem documented_names_fail : getOptimizer ascii "sgd".toList = none ∧
    getOptimizer ascii "lbfgs".toList = some .lbfgsb := by decide +kernel

end Paramz.Run.Lookup

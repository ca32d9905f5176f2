import Verif.Hier.FamiliesProps

/-!
# Adding an index operation again (C80)

Source: `paramz/core/indexable.py:81-93`.
-/

namespace Paramz.Hier.Multi

variable {T N : Type} [DecidableEq T] [DecidableEq N]

/-- Adding names leaves alone whatever an object has under the names that it had before, and everything of the other
objects. The names that it has afterwards are those it had and those that were added, each of them once. -/
theorem add_keeps (x : Id) (fs : List N) (m : Multi T N) :
    (m.addFamilies x fs).base = m.base ∧
    (∀ f ∈ m.names x, (m.addFamilies x fs).fam f = m.fam f) ∧
    (∀ y, y ≠ x → (m.addFamilies x fs).names y = m.names y) ∧
    (∀ f, f ∈ (m.addFamilies x fs).names x ↔ f ∈ m.names x ∨ f ∈ fs) ∧
    ((m.names x).Nodup → ((m.addFamilies x fs).names x).Nodup) := by
  induction fs generalizing m with
  | nil => simp [addFamilies]
  | cons g fs ih =>
    rw [addFamilies]
    by_cases hg : g ∈ m.names x
    · rw [if_pos hg]
      obtain ⟨h1, h2, h3, h4, h5⟩ := ih m
      refine ⟨h1, h2, h3, fun f => ?_, h5⟩
      rw [h4]
      constructor
      · rintro (h | h)
        · exact .inl h
        · exact .inr (.tail _ h)
      · rintro (h | h)
        · exact .inl h
        · rcases List.mem_cons.mp h with rfl | h
          · exact .inl hg
          · exact .inr h
    · rw [if_neg hg]
      obtain ⟨h1, h2, h3, h4, h5⟩ := ih { m.setFam g ((m.fam g).new x) with names := upd m.names x (m.names x ++ [g]) }
      refine ⟨h1, fun f hf => ?_, fun y hy => ?_, fun f => ?_, fun hd => h5 ?_⟩
      · rw [h2 f (by simp [upd, hf])]
        have : f ≠ g := fun e => hg (e ▸ hf)
        simp [setFam, this]
      · rw [h3 y hy]
        simp [upd, hy]
      · rw [h4]
        simp [upd, or_assoc]
      · simp only [upd, if_true]
        rw [List.nodup_append]
        exact ⟨hd, by simp, by rintro a ha b hb rfl; simp at hb; exact hg (hb ▸ ha)⟩

/-- The name `1` is there already, with properties; `2` is new. -/
example : (twoNames.addFamilies 0 [1, 2]).prop 1 0 6 = [0, 1] ∧ (twoNames.addFamilies 0 [1, 2]).prop 2 0 6 = [] ∧
    twoNames.names 0 = [0, 1] ∧ (twoNames.addFamilies 0 [1, 2]).names 0 = [0, 1, 2] := by decide +kernel

end Paramz.Hier.Multi

import Verif.Hier.Insert

/-!
# Windows of objects in the same hierarchy
-/

namespace Paramz.Hier.Graph

variable {g : Graph}

/-- Positions are relative: the position in the root is the position of the ancestor plus the
position in the ancestor. -/
theorem Skel.at_below (s : Skel g) {r a b n m : Nat} (ha : At g r a n) (hb : At g r b m)
    (h : Anc g a b) : ∃ k, At g a b k ∧ m = n + k := by
  obtain ⟨k, hk⟩ := s.exists_at h
  exact ⟨k, hk, s.at_unique hb (ha.trans hk)⟩

/-- Objects of which neither lies below the other have disjoint windows. -/
theorem At.disjoint (s : Skel g) (z : Sized g) {r a b n m : Nat} (ha : At g r a n)
    (hb : At g r b m) (h1 : ¬ Anc g a b) (h2 : ¬ Anc g b a) :
    n + g.size a ≤ m ∨ m + g.size b ≤ n := by
  induction ha with
  | refl => exact absurd (hb.anc s) h1
  | @step p c n' A B hp hk ih =>
    have hpc : g.parent c = some p := s.parent_of hk
    have hsz : g.size p = g.sizeSum A + (g.size c + g.sizeSum B) := by
      rw [z p (s.kids_not_leaf hpc), hk, sizeSum_append, sizeSum_cons]
    by_cases hbp : Anc g b p
    · exact absurd (hbp.step hpc) h2
    by_cases hpb : Anc g p b
    · have hne : p ≠ b := by rintro rfl; exact hbp .refl
      obtain ⟨e, A', B', hk', he⟩ := Ins.child_above s hpb hne
      have hec : e ≠ c := by rintro rfl; exact h1 he
      have hat : At g r e (n' + g.sizeSum A') := hp.step hk'
      obtain ⟨k, hk1, hk2⟩ := s.at_below hat hb he
      have hwin := hk1.window s z
      have hnd := s.nodup p
      have hmem : e ∈ A ++ c :: B := by rw [← hk, hk']; simp
      simp only [List.mem_append, List.mem_cons] at hmem
      rcases hmem with hm | hm | hm
      · obtain ⟨A1, A2, rfl⟩ := List.append_of_mem hm
        have hsp : A' = A1 := by
          rw [hk'] at hnd
          refine (split_unique hnd ?_ (B' := A2 ++ c :: B)).1
          rw [← hk', hk]; simp
        subst hsp
        right
        rw [sizeSum_append, sizeSum_cons]
        omega
      · exact absurd hm hec
      · obtain ⟨B1, B2, rfl⟩ := List.append_of_mem hm
        have hsp : A' = A ++ c :: B1 := by
          rw [hk'] at hnd
          refine (split_unique hnd ?_ (B' := B2)).1
          rw [← hk', hk]; simp
        subst hsp
        left
        rw [sizeSum_append, sizeSum_cons] at hk2
        omega
    · rcases ih hpb hbp with h | h
      · left; omega
      · right; omega

/-- Every element of an object belongs to a leaf below it. -/
theorem Skel.exists_leaf (s : Skel g) (z : Sized g) (x : Id) (k : Nat) (hk : k < g.size x) :
    ∃ y m, At g x y m ∧ g.leaf y = true ∧ m ≤ k ∧ k < m + g.size y := by
  obtain ⟨d, hd, hb⟩ := s.rank
  induction hn : g.next - d x using Nat.strong_induction_on generalizing x k with
  | _ N ih =>
    cases hl : g.leaf x with
    | true => exact ⟨x, 0, .refl, hl, by omega, by omega⟩
    | false =>
      have hsum := z x hl
      have key : ∀ (L : List Id) (j : Nat), j < g.sizeSum L → ∃ A c B, L = A ++ c :: B ∧
          g.sizeSum A ≤ j ∧ j < g.sizeSum A + g.size c := by
        intro L
        induction L with
        | nil => intro j hj; simp at hj
        | cons c L ihL =>
          intro j hj
          rw [sizeSum_cons] at hj
          by_cases hc : j < g.size c
          · exact ⟨[], c, L, rfl, by simp, by simpa using hc⟩
          · obtain ⟨A, e, B, rfl, h1, h2⟩ := ihL (j - g.size c) (by omega)
            refine ⟨c :: A, e, B, rfl, ?_, ?_⟩ <;> rw [sizeSum_cons] <;> omega
      obtain ⟨A, c, B, hkids, h1, h2⟩ := key (g.kids x) k (by omega)
      have hp := s.parent_of hkids
      have hdc := hd _ _ hp
      have hbc := hb c
      obtain ⟨y, m, hy, hly, h3, h4⟩ := ih (g.next - d c) (by omega) c (k - g.sizeSum A) (by omega) rfl
      refine ⟨y, g.sizeSum A + m, ?_, hly, by omega, by omega⟩
      have hat : At g x c (0 + g.sizeSum A) := At.step .refl hkids
      rw [Nat.zero_add] at hat
      exact hat.trans hy

end Paramz.Hier.Graph

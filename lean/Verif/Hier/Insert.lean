import Verif.Hier.GraphLemmas

/-!
# Inserting a tree as a child, and taking it out

`Ins g g' p x A B`: `g'` is `g` with the root `x` put between the children `A` and `B` of `p`.
Read from `g` to `g'` it is what linking does to the pointers, from `g'` to `g` what unlinking does.
-/

namespace Paramz.Hier

namespace Graph

/-- `g'` is `g` with the tree of `x` inserted below `p` between `A` and `B`. -/
structure Ins (g g' : Graph) (p x : Id) (A B : List Id) : Prop where
  next : g'.next = g.next
  leaf : g'.leaf = g.leaf
  node : g.leaf p = false
  kids_p : g.kids p = A ++ B
  kids_p' : g'.kids p = A ++ x :: B
  kids_ne : ∀ y, y ≠ p → g'.kids y = g.kids y
  root : g.parent x = none
  parent_x : g'.parent x = some p
  parent_ne : ∀ y, y ≠ x → g'.parent y = g.parent y
  notanc : ¬ Anc g x p
  size_anc : ∀ y, Anc g y p → g'.size y = g.size y + g.size x
  size_not : ∀ y, ¬ Anc g y p → g'.size y = g.size y

namespace Ins

variable {g g' : Graph} {p x : Id} {A B : List Id}

theorem ne (i : Ins g g' p x A B) : x ≠ p := by
  rintro rfl; exact i.notanc .refl

theorem anc_of (i : Ins g g' p x A B) {y z : Id} (h : Anc g' y z) : ¬ Anc g x z → Anc g y z := by
  induction h with
  | refl => intro _; exact .refl
  | @step q c _ hc ih =>
    intro hx
    have hcx : c ≠ x := by rintro rfl; exact hx .refl
    rw [i.parent_ne c hcx] at hc
    exact .step (ih (fun h => hx (.step h hc))) hc

theorem anc_mono (i : Ins g g' p x A B) {y z : Id} (h : Anc g y z) : Anc g' y z := by
  induction h with
  | refl => exact .refl
  | @step q c _ hc ih =>
    have hcx : c ≠ x := by rintro rfl; rw [i.root] at hc; cases hc
    exact .step ih (by rw [i.parent_ne c hcx, hc])

/-- Ancestors of the insertion point are the same before and after. -/
theorem anc_p (i : Ins g g' p x A B) {y : Id} : Anc g' y p ↔ Anc g y p :=
  ⟨fun h => i.anc_of h i.notanc, i.anc_mono⟩

theorem x_not_anc (i : Ins g g' p x A B) : g'.size x = g.size x := i.size_not x i.notanc

theorem sum_same (i : Ins g g' p x A B) {L : List Id} (h : ∀ a ∈ L, ¬ Anc g a p) :
    g'.sizeSum L = g.sizeSum L := by
  induction L with
  | nil => rfl
  | cons a L ih =>
    rw [sizeSum_cons, sizeSum_cons, i.size_not a (h a (by simp)), ih (fun b hb => h b (by simp [hb]))]

/-- Two different siblings are not both above `p`. -/
theorem sibling (s : Skel g) {q a c : Id} (ha : g.parent a = some q) (hc : g.parent c = some q)
    (hne : a ≠ c) (h : Anc g c p) : ¬ Anc g a p := by
  intro h2
  rcases h2.total h with h3 | h3
  · rcases (anc_iff_of_parent hc).mp h3 with h4 | h4
    · exact hne h4
    · exact s.not_anc_parent ha h4
  · rcases (anc_iff_of_parent ha).mp h3 with h4 | h4
    · exact hne h4.symm
    · exact s.not_anc_parent hc h4

theorem siblings (s : Skel g) {q c : Id} {A' B' : List Id} (hk : g.kids q = A' ++ c :: B')
    (h : Anc g c p) : (∀ a ∈ A', ¬ Anc g a p) ∧ ∀ a ∈ B', ¬ Anc g a p := by
  have hn := s.nodup q; rw [hk] at hn
  have hd := List.nodup_append.mp hn
  constructor
  · intro a ha
    exact sibling s ((s.mem_iff _ _).mp (by rw [hk]; simp [ha])) (s.parent_of hk)
      (fun e => hd.2.2 a ha c (by simp) e) h
  · intro a ha
    exact sibling s ((s.mem_iff _ _).mp (by rw [hk]; simp [ha])) (s.parent_of hk)
      (by rintro rfl; exact (List.nodup_cons.mp hd.2.1).1 ha) h

/-- The children of `p` are not above `p`. -/
theorem kids_not_anc (s : Skel g) (i : Ins g g' p x A B) :
    (∀ a ∈ A, ¬ Anc g a p) ∧ ∀ a ∈ B, ¬ Anc g a p :=
  ⟨fun a ha => s.not_anc_parent ((s.mem_iff _ _).mp (by rw [i.kids_p]; simp [ha])),
   fun a ha => s.not_anc_parent ((s.mem_iff _ _).mp (by rw [i.kids_p]; simp [ha]))⟩

/-- A proper ancestor of `p` has a child above `p`. -/
theorem child_above (s : Skel g) {q p : Id} (h : Anc g q p) (hne : q ≠ p) :
    ∃ e A' B', g.kids q = A' ++ e :: B' ∧ Anc g e p := by
  induction h with
  | refl => exact absurd rfl hne
  | @step c d hc hd ih =>
    by_cases hqc : q = c
    · subst hqc
      obtain ⟨A', B', hk⟩ := List.append_of_mem ((s.mem_iff _ _).mpr hd)
      exact ⟨d, A', B', hk, .refl⟩
    · obtain ⟨e, A', B', hk, he⟩ := ih hqc
      exact ⟨e, A', B', hk, .step he hd⟩

/-- Sum of the children of a proper ancestor of `p`. -/
theorem sum_kids_anc (s : Skel g) (i : Ins g g' p x A B) {q : Id} (h : Anc g q p) (hne : q ≠ p) :
    g'.sizeSum (g.kids q) = g.sizeSum (g.kids q) + g.size x := by
  obtain ⟨e, A', B', hk, he⟩ := child_above s h hne
  obtain ⟨h1, h2⟩ := siblings s hk he
  rw [hk, sizeSum_append, sizeSum_append, sizeSum_cons, sizeSum_cons, i.sum_same h1, i.sum_same h2,
    i.size_anc e he]
  omega

/-- Sizes are right after the insertion iff they were right before. -/
theorem sized_iff (s : Skel g) (i : Ins g g' p x A B) : Sized g' ↔ Sized g := by
  have key : ∀ y, (g'.size y = g'.sizeSum (g'.kids y)) ↔ (g.size y = g.sizeSum (g.kids y)) := by
    intro y
    by_cases hy : y = p
    · subst hy
      obtain ⟨h1, h2⟩ := i.kids_not_anc s
      rw [i.kids_p', i.kids_p, i.size_anc y .refl, sizeSum_append, sizeSum_cons, sizeSum_append,
        i.sum_same h1, i.sum_same h2, i.x_not_anc]
      omega
    · rw [i.kids_ne y hy]
      by_cases ha : Anc g y p
      · rw [i.sum_kids_anc s ha hy, i.size_anc y ha]; omega
      · rw [i.size_not y ha, i.sum_same]
        intro a hk hap
        exact ha ((Anc.of_parent ((s.mem_iff _ _).mp hk)).trans hap)
  unfold Sized
  rw [i.leaf]
  exact forall_congr' fun y => imp_congr_right fun _ => key y

/-- Inserting keeps the forest (the positions `pidx` are a separate matter). -/
theorem skel' (s : Skel g) (i : Ins g g' p x A B) (hx : x < g.next) (hp : p < g.next)
    (hpidx : ∀ q i c, (g'.kids q)[i]? = some c → g'.pidx c = i) : Skel g' := by
  constructor
  · intro c q hc
    rw [i.next]
    by_cases hcx : c = x
    · subst hcx; rw [i.parent_x] at hc; cases hc; exact ⟨hx, hp⟩
    · rw [i.parent_ne c hcx] at hc; exact s.alloc c q hc
  · intro c q
    by_cases hcx : c = x
    · subst hcx
      rw [i.parent_x]
      by_cases hq : q = p
      · subst hq; rw [i.kids_p']; simp
      · rw [i.kids_ne q hq, s.mem_iff, i.root]
        simp; exact fun h => hq h.symm
    · rw [i.parent_ne c hcx, ← s.mem_iff]
      by_cases hq : q = p
      · subst hq; rw [i.kids_p', i.kids_p]; simp [hcx]
      · rw [i.kids_ne q hq]
  · intro q
    by_cases hq : q = p
    · subst hq
      have hn := s.nodup q
      rw [i.kids_p] at hn
      rw [i.kids_p', List.nodup_middle, List.nodup_cons]
      refine ⟨?_, hn⟩
      intro hm
      rw [← i.kids_p, s.mem_iff, i.root] at hm
      cases hm
    · rw [i.kids_ne q hq]; exact s.nodup q
  · exact hpidx
  · intro y hy
    rw [i.leaf] at hy
    have hyp : y ≠ p := by rintro rfl; rw [i.node] at hy; cases hy
    rw [i.kids_ne y hyp]; exact s.leaf y hy
  · classical
    obtain ⟨d, hd⟩ := s.acyclic
    refine ⟨fun y => if Anc g x y then d y + d p + 1 else d y, ?_⟩
    intro c q hc
    by_cases hcx : c = x
    · subst hcx
      rw [i.parent_x] at hc; cases hc
      simp only [if_neg i.notanc, if_pos (Anc.refl : Anc g c c)]; omega
    · rw [i.parent_ne c hcx] at hc
      have := hd c q hc
      have hiff : Anc g x c ↔ Anc g x q := by
        rw [anc_iff_of_parent hc]
        exact ⟨fun h => h.resolve_left (fun e => hcx e.symm), .inr⟩
      simp only [hiff]
      split <;> omega

/-- Taking out keeps the forest. -/
theorem skel (s' : Skel g') (i : Ins g g' p x A B)
    (hpidx : ∀ q i c, (g.kids q)[i]? = some c → g.pidx c = i) : Skel g := by
  have hxp : ∀ q, g'.parent x = some q → q = p := by
    intro q h; rw [i.parent_x] at h; exact (Option.some.inj h).symm
  have hx' : ∀ q, q ≠ p → x ∉ g.kids q := by
    intro q hq hm
    rw [← i.kids_ne q hq, s'.mem_iff] at hm
    exact hq (hxp q hm)
  have hnp := s'.nodup p
  rw [i.kids_p', List.nodup_middle, List.nodup_cons] at hnp
  constructor
  · intro c q hc
    have hcx : c ≠ x := by rintro rfl; rw [i.root] at hc; cases hc
    rw [← i.parent_ne c hcx] at hc
    rw [← i.next]; exact s'.alloc c q hc
  · intro c q
    by_cases hcx : c = x
    · subst hcx
      rw [i.root]
      simp only [reduceCtorEq, iff_false]
      by_cases hq : q = p
      · subst hq; rw [i.kids_p]; exact hnp.1
      · exact hx' q hq
    · rw [← i.parent_ne c hcx, ← s'.mem_iff]
      by_cases hq : q = p
      · subst hq; rw [i.kids_p', i.kids_p]; simp [hcx]
      · rw [i.kids_ne q hq]
  · intro q
    by_cases hq : q = p
    · subst hq; rw [i.kids_p]; exact hnp.2
    · rw [← i.kids_ne q hq]; exact s'.nodup q
  · exact hpidx
  · intro y hy
    rw [← i.leaf] at hy
    have h0 := s'.leaf y hy
    by_cases hyp : y = p
    · subst hyp; rw [i.kids_p'] at h0; simp at h0
    · rw [← i.kids_ne y hyp]; exact h0
  · obtain ⟨d, hd⟩ := s'.acyclic
    refine ⟨d, fun c q hc => ?_⟩
    have hcx : c ≠ x := by rintro rfl; rw [i.root] at hc; cases hc
    rw [← i.parent_ne c hcx] at hc
    exact hd c q hc

/-! ### Positions before and after -/

/-- Positions inside the inserted tree. -/
theorem at_sub (s : Skel g) (i : Ins g g' p x A B) {y m : Nat} (h : At g x y m) : At g' x y m := by
  induction h with
  | refl => exact .refl
  | @step q c n A' B' hq hk ih =>
    have hqx := hq.anc s
    have hqp : q ≠ p := by rintro rfl; exact i.notanc hqx
    have hs : ∀ a ∈ A', ¬ Anc g a p := by
      intro a ha hap
      exact i.notanc ((hqx.trans (.of_parent ((s.mem_iff _ _).mp (by rw [hk]; simp [ha])))).trans hap)
    have := At.step ih (c := c) (A := A') (B := B') (by rw [i.kids_ne q hqp, hk])
    rwa [i.sum_same hs] at this

theorem size_sub (s : Skel g) (i : Ins g g' p x A B) {y m : Nat} (h : At g x y m) :
    g'.size y = g.size y :=
  i.size_not y (fun hy => i.notanc ((h.anc s).trans hy))

/-- Positions in trees that do not contain `p`. -/
theorem at_other (s : Skel g) (i : Ins g g' p x A B) {r y n : Nat} (hr : ¬ Anc g r p)
    (h : At g r y n) : At g' r y n := by
  induction h with
  | refl => exact .refl
  | @step q c n A' B' hq hk ih =>
    have hqr := hq.anc s
    have hqp : q ≠ p := by rintro rfl; exact hr hqr
    have hs : ∀ a ∈ A', ¬ Anc g a p := by
      intro a ha hap
      exact hr ((hqr.trans (.of_parent ((s.mem_iff _ _).mp (by rw [hk]; simp [ha])))).trans hap)
    have := At.step ih (c := c) (A := A') (B := B') (by rw [i.kids_ne q hqp, hk])
    rwa [i.sum_same hs] at this

/-- Positions in the tree of `p`: ancestors of `p` stay, everything else lies before the insertion
point and stays or lies after it and moves by the size of the inserted tree. -/
theorem at_tree (s : Skel g) (z : Sized g) (i : Ins g g' p x A B) {r o : Nat} (hp : At g r p o)
    {y n : Nat} (h : At g r y n) :
    (Anc g y p → At g' r y n) ∧
    (¬ Anc g y p → (At g' r y n ∧ n + g.size y ≤ o + g.sizeSum A) ∨
      (At g' r y (n + g.size x) ∧ o + g.sizeSum A ≤ n)) := by
  induction h with
  | refl => exact ⟨fun _ => .refl, fun h => absurd (hp.anc s) h⟩
  | @step q c n A' B' hq hk ih =>
    have hcq := s.parent_of hk
    have hsz : g.size q = g.sizeSum A' + (g.size c + g.sizeSum B') := by
      rw [z q (s.kids_not_leaf hcq), hk, sizeSum_append, sizeSum_cons]
    refine ⟨fun hc => ?_, fun hc => ?_⟩
    · -- `c` above `p`
      have hqp : Anc g q p := (Anc.of_parent hcq).trans hc
      have hne : q ≠ p := by rintro rfl; exact s.not_anc_parent hcq hc
      have := At.step (ih.1 hqp) (c := c) (A := A') (B := B') (by rw [i.kids_ne q hne, hk])
      rwa [i.sum_same (siblings s hk hc).1] at this
    · by_cases hqp : Anc g q p
      · have hq' := ih.1 hqp
        by_cases hne : q = p
        · subst hne
          have ho := s.at_unique hp hq
          subst ho
          obtain ⟨hA, hB⟩ := i.kids_not_anc s
          have hk2 : A ++ B = A' ++ c :: B' := by rw [← i.kids_p, hk]
          rcases List.append_eq_append_iff.mp hk2 with ⟨E, h1, h2⟩ | ⟨E, h1, h2⟩
          · -- `c` in `B`: A' = A ++ E, B = E ++ c :: B'
            right
            have hk' : g'.kids q = (A ++ x :: E) ++ c :: B' := by rw [i.kids_p', h2]; simp
            have := At.step hq' hk'
            have hE : ∀ a ∈ E, ¬ Anc g a q := fun a ha => hB a (by rw [h2]; simp [ha])
            rw [sizeSum_append, sizeSum_cons, i.sum_same hA, i.sum_same hE, i.x_not_anc] at this
            rw [h1, sizeSum_append]
            refine ⟨?_, by omega⟩
            convert this using 1; omega
          · -- `c` at the junction or in `A`
            cases E with
            | nil =>
              simp only [List.append_nil, List.nil_append] at h1 h2
              right
              have hk' : g'.kids q = (A ++ [x]) ++ c :: B' := by rw [i.kids_p', ← h2]; simp
              have := At.step hq' hk'
              rw [sizeSum_append, sizeSum_cons, i.sum_same hA, i.x_not_anc] at this
              rw [← h1]
              refine ⟨?_, by omega⟩
              convert this using 1; simp; omega
            | cons e E =>
              simp only [List.cons_append, List.cons.injEq] at h2
              obtain ⟨rfl, h2⟩ := h2
              left
              have hk' : g'.kids q = A' ++ c :: (E ++ x :: B) := by
                rw [i.kids_p', h1]; simp
              have := At.step hq' hk'
              have hA' : ∀ a ∈ A', ¬ Anc g a q := fun a ha => hA a (by rw [h1]; simp [ha])
              rw [i.sum_same hA'] at this
              refine ⟨this, ?_⟩
              rw [h1, sizeSum_append, sizeSum_cons]; omega
        · -- `q` strictly above `p`
          obtain ⟨e, A₂, B₂, hk2, he⟩ := child_above s hqp hne
          obtain ⟨hA2, hB2⟩ := siblings s hk2 he
          obtain ⟨m, hm⟩ := s.exists_at he
          have hpos : o = n + g.sizeSum A₂ + m := s.at_unique hp ((At.step hq hk2).trans hm)
          have hwin := hm.window s z
          have hAs : g.size p = g.sizeSum A + g.sizeSum B := by
            rw [z p i.node, i.kids_p, sizeSum_append]
          have hec : e ≠ c := by rintro rfl; exact hc he
          have heq : A₂ ++ e :: B₂ = A' ++ c :: B' := by rw [← hk2, hk]
          have hkq : g'.kids q = A' ++ c :: B' := by rw [i.kids_ne q hne, hk]
          rcases List.append_eq_append_iff.mp heq with ⟨E, h1, h2⟩ | ⟨E, h1, h2⟩
          · cases E with
            | nil =>
              simp only [List.nil_append, List.cons.injEq] at h2
              exact absurd h2.1 hec
            | cons e' E =>
              simp only [List.cons_append, List.cons.injEq] at h2
              obtain ⟨rfl, h2⟩ := h2
              right
              have := At.step hq' hkq
              have hE : ∀ a ∈ E, ¬ Anc g a p := fun a ha => hB2 a (by rw [h2]; simp [ha])
              rw [h1, sizeSum_append, sizeSum_cons, i.sum_same hA2, i.sum_same hE,
                i.size_anc e he] at this
              rw [h1, sizeSum_append, sizeSum_cons]
              refine ⟨?_, by omega⟩
              convert this using 1; omega
          · cases E with
            | nil =>
              simp only [List.nil_append, List.cons.injEq] at h2
              exact absurd h2.1.symm hec
            | cons c' E =>
              simp only [List.cons_append, List.cons.injEq] at h2
              obtain ⟨rfl, h2⟩ := h2
              left
              have := At.step hq' hkq
              have hA' : ∀ a ∈ A', ¬ Anc g a p := fun a ha => hA2 a (by rw [h1]; simp [ha])
              rw [i.sum_same hA'] at this
              refine ⟨this, ?_⟩
              rw [h1, sizeSum_append, sizeSum_cons] at hpos
              omega
      · -- `q` not above `p`
        have hne : q ≠ p := by rintro rfl; exact hqp .refl
        have hA' : ∀ a ∈ A', ¬ Anc g a p := by
          intro a ha hap
          exact hqp ((Anc.of_parent ((s.mem_iff _ _).mp (by rw [hk]; simp [ha]))).trans hap)
        have hkq : g'.kids q = A' ++ c :: B' := by rw [i.kids_ne q hne, hk]
        rcases ih.2 hqp with ⟨h1, h2⟩ | ⟨h1, h2⟩
        · left
          have := At.step h1 hkq
          rw [i.sum_same hA'] at this
          exact ⟨this, by omega⟩
        · right
          have := At.step h1 hkq
          rw [i.sum_same hA'] at this
          refine ⟨?_, by omega⟩
          convert this using 1; omega

end Ins

end Graph

end Paramz.Hier

import Verif.Hier.Graph
import Mathlib.Data.Finset.Card
import Mathlib.Data.Finset.Range
import Mathlib.Tactic.Linarith

/-!
# Facts about the object graph
-/

namespace Paramz.Hier

@[simp] theorem upd_same {α : Type} (f : Id → α) (x : Id) (v : α) : upd f x v x = v := by simp [upd]

theorem upd_ne {α : Type} (f : Id → α) {x y : Id} (v : α) (h : y ≠ x) : upd f x v y = f y := by
  simp [upd, h]

namespace Graph

variable {g : Graph}

@[simp] theorem sizeSum_nil : g.sizeSum [] = 0 := rfl
@[simp] theorem sizeSum_cons (c : Id) (l : List Id) : g.sizeSum (c :: l) = g.size c + g.sizeSum l := by
  simp [sizeSum]
@[simp] theorem sizeSum_append (l m : List Id) : g.sizeSum (l ++ m) = g.sizeSum l + g.sizeSum m := by
  simp [sizeSum]

/-! ### Ancestors -/

theorem Anc.trans {a b c : Id} (h1 : Anc g a b) (h2 : Anc g b c) : Anc g a c := by
  induction h2 with
  | refl => exact h1
  | step _ hp ih => exact .step ih hp

theorem Anc.of_parent {p c : Id} (h : g.parent c = some p) : Anc g p c := .step .refl h

/-- Ancestors of the child are the child itself and the ancestors of its parent. -/
theorem anc_iff_of_parent {p c y : Id} (h : g.parent c = some p) :
    Anc g y c ↔ y = c ∨ Anc g y p := by
  constructor
  · intro hc
    cases hc with
    | refl => exact .inl rfl
    | step h1 h2 => rw [h] at h2; cases h2; exact .inr h1
  · rintro (rfl | h1)
    · exact .refl
    · exact .step h1 h

theorem anc_root {r y : Id} (h : g.parent r = none) : Anc g y r ↔ y = r := by
  constructor
  · intro hc
    cases hc with
    | refl => rfl
    | step h1 h2 => rw [h] at h2; cases h2
  · rintro rfl; exact .refl

/-- Two ancestors of the same object are comparable. -/
theorem Anc.total {a b c : Id} (h1 : Anc g a c) (h2 : Anc g b c) : Anc g a b ∨ Anc g b a := by
  induction h1 with
  | refl => exact .inr h2
  | step h hp ih =>
    rcases (anc_iff_of_parent hp).mp h2 with rfl | h2
    · exact .inl (.step h hp)
    · exact ih h2

theorem Anc.depth {y x : Id} {d : Id → Nat} (hd : ∀ c p, g.parent c = some p → d p < d c)
    (h : Anc g y x) : y = x ∨ d y < d x := by
  induction h with
  | refl => exact .inl rfl
  | step _ hp ih =>
    have := hd _ _ hp
    rcases ih with rfl | ih
    · exact .inr this
    · exact .inr (by omega)

theorem Skel.anc_antisymm (s : Skel g) {x y : Id} (h1 : Anc g x y) (h2 : Anc g y x) : x = y := by
  obtain ⟨d, hd⟩ := s.acyclic
  rcases h1.depth hd with h | h
  · exact h
  · rcases h2.depth hd with h' | h'
    · exact h'.symm
    · omega

theorem Skel.not_anc_parent (s : Skel g) {p c : Id} (h : g.parent c = some p) : ¬ Anc g c p := by
  intro h2
  have := s.anc_antisymm h2 (.of_parent h)
  subst this
  obtain ⟨d, hd⟩ := s.acyclic
  exact absurd (hd _ _ h) (by omega)

/-- A depth function bounded by the number of objects. -/
theorem Skel.rank (s : Skel g) : ∃ d : Id → Nat,
    (∀ c p, g.parent c = some p → d p < d c) ∧ ∀ x, d x ≤ g.next := by
  classical
  refine ⟨fun x => ((Finset.range g.next).filter (fun y => y ≠ x ∧ Anc g y x)).card, ?_, ?_⟩
  · intro c p h
    apply Finset.card_lt_card
    rw [Finset.ssubset_iff_of_subset]
    · refine ⟨p, ?_, by simp⟩
      simp only [Finset.mem_filter, Finset.mem_range]
      refine ⟨(s.alloc _ _ h).2, ?_, .of_parent h⟩
      rintro rfl
      exact s.not_anc_parent h .refl
    · intro y hy
      simp only [Finset.mem_filter, Finset.mem_range] at hy ⊢
      refine ⟨hy.1, ?_, .step hy.2.2 h⟩
      rintro rfl
      exact s.not_anc_parent h hy.2.2
  · intro x
    exact le_trans (Finset.card_filter_le _ _) (by simp)

/-! ### Positions -/

theorem Skel.parent_of (s : Skel g) {p c : Id} {A B : List Id} (hk : g.kids p = A ++ c :: B) :
    g.parent c = some p := (s.mem_iff _ _).mp (by rw [hk]; simp)

theorem At.anc (s : Skel g) {r x n : Nat} (h : At g r x n) : Anc g r x := by
  induction h with
  | refl => exact .refl
  | step _ hk ih => exact .step ih (s.parent_of hk)

theorem Skel.exists_at (s : Skel g) {r x : Id} (h : Anc g r x) : ∃ n, At g r x n := by
  induction h with
  | refl => exact ⟨0, .refl⟩
  | step _ hp ih =>
    obtain ⟨n, hn⟩ := ih
    obtain ⟨A, B, hk⟩ := List.append_of_mem ((s.mem_iff _ _).mpr hp)
    exact ⟨_, .step hn hk⟩

theorem At.trans {r p x n m : Nat} (h1 : At g r p n) (h2 : At g p x m) : At g r x (n + m) := by
  induction h2 with
  | refl => exact h1
  | step _ hk ih => have := At.step ih hk; rwa [Nat.add_assoc] at this

theorem split_unique {A B A' B' : List Id} {c : Id} (hn : (A ++ c :: B).Nodup)
    (h : A ++ c :: B = A' ++ c :: B') : A = A' ∧ B = B' := by
  induction A generalizing A' with
  | nil =>
    cases A' with
    | nil => simpa using h
    | cons a A' =>
      simp only [List.nil_append, List.cons_append, List.cons.injEq] at h
      rw [List.nil_append, List.nodup_cons] at hn
      exact absurd (by rw [h.2]; simp) hn.1
  | cons b A ih =>
    cases A' with
    | nil =>
      simp only [List.nil_append, List.cons_append, List.cons.injEq] at h
      rw [List.cons_append, List.nodup_cons] at hn
      exact absurd (by rw [h.1]; simp) hn.1
    | cons a A' =>
      simp only [List.cons_append, List.cons.injEq] at h
      rw [List.cons_append, List.nodup_cons] at hn
      obtain ⟨h1, h2⟩ := ih hn.2 h.2
      exact ⟨by rw [h.1, h1], h2⟩

theorem Skel.at_self (s : Skel g) {r n : Nat} (h : At g r r n) : n = 0 := by
  cases h with
  | refl => rfl
  | step h1 hk =>
    exact absurd (h1.anc s) (s.not_anc_parent (s.parent_of hk))

theorem Skel.at_unique (s : Skel g) {r x n m : Nat} (h1 : At g r x n) (h2 : At g r x m) : n = m := by
  induction h1 generalizing m with
  | refl => exact (s.at_self h2).symm
  | @step p c n A B h hk ih =>
    cases h2 with
    | refl => exact absurd (h.anc s) (s.not_anc_parent (s.parent_of hk))
    | step h' hk' =>
      have e1 := s.parent_of hk
      have e2 := s.parent_of hk'
      rw [e1] at e2; cases e2
      have hn := s.nodup p; rw [hk] at hn
      have := split_unique hn (hk.symm.trans hk')
      rw [ih h', this.1]

theorem Skel.exists_root (s : Skel g) (x : Id) : ∃ r, g.parent r = none ∧ Anc g r x := by
  obtain ⟨d, hd⟩ := s.acyclic
  induction hn : d x using Nat.strong_induction_on generalizing x with
  | _ n ih =>
    cases hp : g.parent x with
    | none => exact ⟨x, hp, .refl⟩
    | some p =>
      have := hd _ _ hp
      obtain ⟨r, h1, h2⟩ := ih (d p) (by omega) p rfl
      exact ⟨r, h1, .step h2 hp⟩

theorem root_unique {r r' x : Id} (h : g.parent r = none) (h' : g.parent r' = none)
    (h1 : Anc g r x) (h2 : Anc g r' x) : r = r' := by
  rcases h1.total h2 with h3 | h3
  · exact (anc_root h').mp h3
  · exact ((anc_root h).mp h3).symm

theorem Skel.kids_not_leaf (s : Skel g) {p c : Id} (h : g.parent c = some p) : g.leaf p = false := by
  cases hl : g.leaf p with
  | false => rfl
  | true =>
    have := (s.mem_iff c p).mpr h
    rw [s.leaf p hl] at this; simp at this

/-- The window of a descendant lies inside the window of the ancestor. -/
theorem At.window (s : Skel g) (z : Sized g) {r x n : Nat} (h : At g r x n) :
    n + g.size x ≤ g.size r := by
  induction h with
  | refl => simp
  | step _ hk ih =>
    have hl := s.kids_not_leaf (s.parent_of hk)
    have := z _ hl
    rw [hk] at this
    simp only [sizeSum_append, sizeSum_cons] at this
    omega

/-! ### The walks compute what the specification says -/

theorem highestF_eq {d : Id → Nat} (hd : ∀ c p, g.parent c = some p → d p < d c) {r : Id}
    (hr : g.parent r = none) : ∀ (n : Nat) (x : Id), Anc g r x → d x < n → highestF n g x = r
  | 0, _, _, h => absurd h (by omega)
  | n + 1, x, ha, h => by
    unfold highestF
    cases hp : g.parent x with
    | none => exact ((anc_root hp).mp ha).symm
    | some p =>
      simp only
      rcases (anc_iff_of_parent hp).mp ha with rfl | ha'
      · rw [hr] at hp; cases hp
      · exact highestF_eq hd hr n p ha' (by have := hd _ _ hp; omega)

theorem Skel.highest_eq (s : Skel g) {r x : Id} (hr : g.parent r = none) (h : Anc g r x) :
    g.highest x = r := by
  obtain ⟨d, hd, hb⟩ := s.rank
  exact highestF_eq hd hr _ x h (by have := hb x; unfold fuel; omega)

theorem Skel.highest_spec (s : Skel g) (x : Id) :
    g.parent (g.highest x) = none ∧ Anc g (g.highest x) x := by
  obtain ⟨r, h1, h2⟩ := s.exists_root x
  rw [s.highest_eq h1 h2]; exact ⟨h1, h2⟩

theorem Skel.get_pidx (s : Skel g) {p c : Id} (h : g.parent c = some p) :
    ((g.kids p)[g.pidx c]?) = some c := by
  obtain ⟨i, hi, he⟩ := List.getElem_of_mem ((s.mem_iff _ _).mpr h)
  have : (g.kids p)[i]? = some c := by rw [List.getElem?_eq_getElem hi, he]
  rw [s.pidx _ _ _ this, this]

theorem Skel.take_pidx (s : Skel g) {p c : Id} {A B : List Id} (hk : g.kids p = A ++ c :: B) :
    (g.kids p).take (g.pidx c) = A := by
  have : (g.kids p)[A.length]? = some c := by rw [hk]; simp
  rw [s.pidx _ _ _ this, hk]; simp

theorem Skel.offsetForF_eq (s : Skel g) {d : Id → Nat}
    (hd : ∀ c p, g.parent c = some p → d p < d c) {a c n : Nat} (h : At g a c n) (hne : c ≠ a) :
    ∀ N, d c < N → offsetForF (N + 1) g a c = n := by
  induction h with
  | refl => exact absurd rfl hne
  | @step p c n A B hp hk ih =>
    intro N hN
    have hpar := (s.mem_iff _ _).mp (show c ∈ g.kids p by rw [hk]; simp)
    have hlt := hd _ _ hpar
    unfold offsetForF
    simp only [hpar, s.get_pidx hpar, Option.getD_some]
    have key : ∀ M, offsetForF (M + 1) g p c = g.sizeSum A := by
      intro M
      unfold offsetForF
      simp only [hpar, s.get_pidx hpar, Option.getD_some, (s.mem_iff _ _).mpr hpar, if_true]
      rw [s.take_pidx hk]
    by_cases hm : c ∈ g.kids a
    · have := (s.mem_iff _ _).mp hm
      rw [hpar] at this; cases this
      rw [if_pos hm, s.take_pidx hk, s.at_self hp, Nat.zero_add]
    · rw [if_neg hm]
      have hpa : p ≠ a := by rintro rfl; exact hm ((s.mem_iff _ _).mpr hpar)
      obtain ⟨M, rfl⟩ : ∃ M, N = M + 1 := ⟨N - 1, by omega⟩
      rw [key M, ih hpa M (by omega)]

theorem Skel.offsetFor_eq (s : Skel g) {a c n : Nat} (h : At g a c n) (hne : c ≠ a) :
    g.offsetFor a c = n := by
  obtain ⟨d, hd, hb⟩ := s.rank
  exact s.offsetForF_eq hd h hne _ (by have := hb c; unfold fuel; omega)

theorem offsetFor_root {a c : Id} (h : g.parent c = none) : g.offsetFor a c = 0 := by
  unfold offsetFor offsetForF; rw [h]

/-- In a root every object's `_offset_for` is its position. -/
theorem Skel.offsetFor_of_root (s : Skel g) {r x n : Nat} (hr : g.parent r = none)
    (h : At g r x n) : g.offsetFor r x = n := by
  by_cases hx : x = r
  · subst hx; rw [s.at_self h, offsetFor_root hr]
  · exact s.offsetFor_eq h hx

theorem mem_subtreeF {d : Id → Nat} (s : Skel g) (hd : ∀ c p, g.parent c = some p → d p < d c)
    (hb : ∀ x, d x ≤ g.next) : ∀ (N : Nat) (x : Id), g.next < N + d x → ∀ y,
    (y ∈ subtreeF N g x ↔ Anc g x y)
  | 0, x, h, _ => absurd (hb x) (by omega)
  | N + 1, x, h, y => by
    unfold subtreeF
    rw [List.mem_cons, List.mem_flatMap]
    have hk : ∀ c ∈ g.kids x, (y ∈ subtreeF N g c ↔ Anc g c y) := fun c hc =>
      mem_subtreeF s hd hb N c (by have := hd _ _ ((s.mem_iff _ _).mp hc); omega) y
    constructor
    · rintro (rfl | ⟨c, hc, hy⟩)
      · exact .refl
      · exact (Anc.of_parent ((s.mem_iff _ _).mp hc)).trans ((hk c hc).mp hy)
    · intro ha
      have key : ∀ z, Anc g x z → z = x ∨ ∃ c, c ∈ g.kids x ∧ Anc g c z := by
        intro z hz
        induction hz with
        | refl => exact .inl rfl
        | step _ hp ih =>
          rcases ih with rfl | ⟨c, hc, hz⟩
          · exact .inr ⟨_, (s.mem_iff _ _).mpr hp, .refl⟩
          · exact .inr ⟨c, hc, .step hz hp⟩
      rcases key y ha with rfl | ⟨c, hc, hz⟩
      · exact .inl rfl
      · exact .inr ⟨c, hc, (hk c hc).mpr hz⟩

theorem Skel.mem_subtree (s : Skel g) {x y : Id} : y ∈ g.subtree x ↔ Anc g x y := by
  obtain ⟨d, hd, hb⟩ := s.rank
  exact mem_subtreeF s hd hb _ x (by unfold fuel; omega) y

theorem mem_upwardsF {d : Id → Nat} (hd : ∀ c p, g.parent c = some p → d p < d c) :
    ∀ (N : Nat) (x : Id), d x < N → ∀ y, (y ∈ upwardsF N g x ↔ Anc g y x)
  | 0, x, h, _ => absurd h (by omega)
  | N + 1, x, h, y => by
    unfold upwardsF
    rw [List.mem_cons]
    cases hp : g.parent x with
    | none => simp [anc_root hp]
    | some p =>
      simp only
      rw [mem_upwardsF hd N p (by have := hd _ _ hp; omega) y, anc_iff_of_parent hp]

theorem Skel.mem_upwards (s : Skel g) {x y : Id} : y ∈ g.upwards x ↔ Anc g y x := by
  obtain ⟨d, hd, hb⟩ := s.rank
  exact mem_upwardsF hd _ x (by have := hb x; unfold fuel; omega) y

theorem nodup_upwardsF (s : Skel g) {d : Id → Nat} (hd : ∀ c p, g.parent c = some p → d p < d c) :
    ∀ (N : Nat) (x : Id), d x < N → (upwardsF N g x).Nodup
  | 0, x, h => absurd h (by omega)
  | N + 1, x, h => by
    unfold upwardsF
    cases hp : g.parent x with
    | none => simp
    | some p =>
      simp only [List.nodup_cons]
      have := hd _ _ hp
      exact ⟨fun hm => s.not_anc_parent hp ((mem_upwardsF hd N p (by omega) x).mp hm),
        nodup_upwardsF s hd N p (by omega)⟩

theorem Skel.nodup_upwards (s : Skel g) (x : Id) : (g.upwards x).Nodup := by
  obtain ⟨d, hd, hb⟩ := s.rank
  exact nodup_upwardsF s hd _ x (by have := hb x; unfold fuel; omega)

/-! ### Things that depend on parent pointers only -/

theorem anc_congr {g g' : Graph} {x : Id} (h : ∀ y, Anc g y x → g'.parent y = g.parent y) {y : Id} :
    Anc g y x → Anc g' y x := by
  intro ha
  induction ha with
  | refl => exact .refl
  | @step p c hp hc ih =>
    have : ∀ z, Anc g z p → g'.parent z = g.parent z := fun z hz => h z (.step hz hc)
    exact .step (ih this) (by rw [h c .refl, hc])

end Graph

end Paramz.Hier

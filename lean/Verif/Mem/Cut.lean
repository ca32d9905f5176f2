import Verif.Mem.SheetProps

/-!
# Linking and unlinking cut and paste sheets (C94): specification and lemmas

Source: `paramz/parameterized.py:128-226` (`link_parameter`, `unlink_parameter`), `paramz/core/parameter_core.py:326-337`.
The calls are those of `Verif.Mem`, sheets those of C93.
-/

set_option linter.unusedSectionVars false

namespace Paramz.Memory

open Hier (Id Graph Heap Con upd upd_same upd_ne)
open Hier.Graph (Skel Sized At Anc Ins)
open Opt (Ops flattened flattened_eq)

/-! ### Specification -/

/-- Put the rows `R` into the sheet, after its first `q` rows. -/
def Sheet.paste {V T : Type} (S : Sheet V T) (q : Nat) (R : Sheet V T) : Sheet V T := S.take q ++ R ++ S.drop q

/-- Take `n` rows out of the sheet, after its first `q` rows. -/
def Sheet.cut {V T : Type} (S : Sheet V T) (q n : Nat) : Sheet V T := S.take q ++ S.drop (q + n)

/-- How many `Param`s there are in the objects of `l`. -/
def rowsIn (G : Graph) (l : List Id) : Nat := (l.flatMap (flattened G)).length

/-- Of the `Param`s of `r`, `q` come before place `i` in the list of parameters of `p`. -/
inductive Gap (G : Graph) : Id → Id → Nat → Nat → Prop
  | here {p : Id} {i : Nat} : Gap G p p i (rowsIn G ((G.kids p).take i))
  | down {r c p : Id} {k i q : Nat} : (G.kids r)[k]? = some c → Gap G c p i q →
      Gap G r p i (rowsIn G ((G.kids r).take k) + q)

/-- The place at which `list.insert` puts something in a list of `n` entries; without a position, the end
(parameterized.py:149-169). -/
def place (n : Nat) : Option Int → Nat
  | none => n
  | some (.ofNat i) => min i n
  | some (.negSucc j) => n - (j + 1)

theorem insertPos_place (l : List Id) (index : Option Int) : Heap.insertPos l index = place l.length index := by
  cases index with
  | none => rfl
  | some i =>
    cases i with
    | ofNat i => simp [Heap.insertPos, Heap.sliceTo, place]
    | negSucc j =>
      simp only [Heap.insertPos, Heap.sliceTo, place]
      split
      · omega
      · simp

/-! ### Graphs -/

theorem Gap.anc {G : Graph} (s : Skel G) {r p : Id} {i q : Nat} (h : Gap G r p i q) : Anc G r p := by
  induction h with
  | here => exact .refl
  | down hk _ ih => exact (Anc.of_parent ((s.mem_iff _ _).mp (List.mem_of_getElem? hk))).trans ih

theorem exists_gap {G : Graph} (s : Skel G) {r p : Id} (h : Anc G r p) (i : Nat) : ∃ q, Gap G r p i q := by
  obtain ⟨d, hd, hb⟩ := s.rank
  generalize hn : G.next - d r = n
  induction n using Nat.strong_induction_on generalizing r with
  | _ n ih =>
    by_cases hne : r = p
    · subst hne; exact ⟨_, .here⟩
    · obtain ⟨c, A', B', hk, hc⟩ := Ins.child_above s h hne
      have hpar := s.parent_of hk
      have h1 := hd _ _ hpar
      have h2 := hb c
      obtain ⟨q, hq⟩ := ih (G.next - d c) (by omega) hc rfl
      exact ⟨_, .down (k := A'.length) (by rw [hk]; simp) hq⟩

theorem Gap.unique {G : Graph} (s : Skel G) {r p : Id} {i q q' : Nat} (h : Gap G r p i q) (h' : Gap G r p i q') :
    q = q' := by
  induction h generalizing q' with
  | @here p i =>
    cases h' with
    | here => rfl
    | down hk hg =>
      exact absurd (hg.anc s) (s.not_anc_parent ((s.mem_iff _ _).mp (List.mem_of_getElem? hk)))
  | @down r c p k i q hk hg ih =>
    have hc := (s.mem_iff _ _).mp (List.mem_of_getElem? hk)
    cases h' with
    | here => exact absurd (hg.anc s) (s.not_anc_parent hc)
    | @down _ c' _ k' _ q'' hk' hg' =>
      have hc' := (s.mem_iff _ _).mp (List.mem_of_getElem? hk')
      have e : c' = c := by
        by_contra hne
        exact Ins.sibling s hc' hc hne (hg.anc s) (hg'.anc s)
      subst e
      have e1 := s.pidx _ _ _ hk
      have e2 := s.pidx _ _ _ hk'
      rw [ih hg', ← e1, ← e2]

section Ins

variable {g g' : Graph} {p x : Id} {A B : List Id}

/-- Objects that are not above the gap keep their `Param`s. -/
theorem flattened_off (s : Skel g) (s' : Skel g') (i : Ins g g' p x A B) {y : Id} (hy : ¬ Anc g y p) :
    flattened g' y = flattened g y := by
  obtain ⟨d, hd, hb⟩ := s.rank
  generalize hn : g.next - d y = n
  induction n using Nat.strong_induction_on generalizing y with
  | _ n ih =>
    have hne : y ≠ p := by rintro rfl; exact hy .refl
    rw [flattened_eq s', flattened_eq s, i.leaf, i.kids_ne y hne]
    split
    · rfl
    · refine List.flatMap_congr (fun c hc => ?_)
      have hpar := (s.mem_iff _ _).mp hc
      have h1 := hd _ _ hpar
      have h2 := hb c
      exact ih (g.next - d c) (by omega) (fun ha => hy ((Anc.of_parent hpar).trans ha)) rfl

theorem flatMap_off (s : Skel g) (s' : Skel g') (i : Ins g g' p x A B) {l : List Id} (hl : ∀ c ∈ l, ¬ Anc g c p) :
    l.flatMap (flattened g') = l.flatMap (flattened g) :=
  List.flatMap_congr (fun c hc => flattened_off s s' i (hl c hc))

/-- The `Param`s of an object above the gap, before and after. -/
theorem flattened_gap (s : Skel g) (s' : Skel g') (i : Ins g g' p x A B) {r : Id} {q : Nat}
    (hg : Gap g r p A.length q) : Gap g' r p A.length q ∧ ∃ l1 l2, l1.length = q ∧
      flattened g r = l1 ++ l2 ∧ flattened g' r = l1 ++ (flattened g x ++ l2) := by
  obtain ⟨ka, kb⟩ := Ins.kids_not_anc s i
  generalize hj : A.length = j at hg
  generalize hp : p = p0 at hg
  induction hg with
  | @here p0 j =>
    subst hp hj
    have e1 : (g.kids p).take A.length = A := by rw [i.kids_p]; simp
    have e2 : (g'.kids p).take A.length = A := by rw [i.kids_p']; simp
    have e3 : rowsIn g' ((g'.kids p).take A.length) = rowsIn g ((g.kids p).take A.length) := by
      unfold rowsIn; rw [e1, e2, flatMap_off s s' i ka]
    refine ⟨e3 ▸ .here, A.flatMap (flattened g), B.flatMap (flattened g), ?_, ?_, ?_⟩
    · unfold rowsIn; rw [e1]
    · rw [flattened_eq s, i.node, if_neg (by simp), i.kids_p, List.flatMap_append]
    · rw [flattened_eq s', i.leaf, i.node, if_neg (by simp), i.kids_p', List.flatMap_append, List.flatMap_cons,
        flatMap_off s s' i ka, flatMap_off s s' i kb, flattened_off s s' i i.notanc]
  | @down r c p0 k j q hk hg ih =>
    obtain ⟨ih1, l1, l2, i1, i2, i3⟩ := ih hj hp
    subst hp hj
    have hpar := (s.mem_iff _ _).mp (List.mem_of_getElem? hk)
    have hrp : r ≠ p := by rintro rfl; exact s.not_anc_parent hpar (hg.anc s)
    obtain ⟨hlt, hc⟩ := List.getElem?_eq_some_iff.mp hk
    have hsplit : g.kids r = (g.kids r).take k ++ c :: (g.kids r).drop (k + 1) := by
      conv_lhs => rw [← List.take_append_drop k (g.kids r), List.drop_eq_getElem_cons hlt, hc]
    have hoff : ∀ a ∈ (g.kids r).take k ++ (g.kids r).drop (k + 1), ¬ Anc g a p := by
      intro a ha
      obtain ⟨k1, k2⟩ := Ins.siblings s hsplit (hg.anc s)
      rcases List.mem_append.mp ha with h | h
      · exact k1 a h
      · exact k2 a h
    have hl : g.leaf r = false := by
      rw [← Bool.not_eq_true]
      intro hl
      rw [s.leaf r hl] at hlt
      exact absurd hlt (Nat.not_lt_zero _)
    have e0 := flatMap_off s s' i (fun a ha => hoff a (List.mem_append_left _ ha))
    have e1 := flatMap_off s s' i (fun a ha => hoff a (List.mem_append_right _ ha))
    have e3 : rowsIn g' ((g'.kids r).take k) = rowsIn g ((g.kids r).take k) := by
      unfold rowsIn; rw [i.kids_ne r hrp, e0]
    refine ⟨e3 ▸ .down (by rw [i.kids_ne r hrp]; exact hk) ih1, ((g.kids r).take k).flatMap (flattened g) ++ l1,
      l2 ++ ((g.kids r).drop (k + 1)).flatMap (flattened g), ?_, ?_, ?_⟩
    · rw [List.length_append, i1]; rfl
    · rw [flattened_eq s, hl, if_neg (by simp)]
      conv_lhs => rw [hsplit]
      rw [List.flatMap_append, List.flatMap_cons, i2]
      simp only [List.append_assoc]
    · rw [flattened_eq s', i.leaf, hl, if_neg (by simp), i.kids_ne r hrp]
      conv_lhs => rw [hsplit]
      rw [List.flatMap_append, List.flatMap_cons, i3, e0, e1]
      simp only [List.append_assoc]

/-- Gaps below an object that is not above the place of the change. -/
theorem gap_off (s : Skel g) (s' : Skel g') (i : Ins g g' p x A B) {r y : Id} {j q : Nat} (hr : ¬ Anc g r p)
    (hg : Gap g' r y j q) : Gap g r y j q := by
  have key : ∀ {z : Id} {l : List Id}, ¬ Anc g z p → (∀ c ∈ l, c ∈ g'.kids z) → rowsIn g' l = rowsIn g l := by
    intro z l hz hl
    have hzp : z ≠ p := by rintro rfl; exact hz .refl
    unfold rowsIn
    rw [flatMap_off s s' i (fun c hc ha => hz ((Anc.of_parent ((s.mem_iff _ _).mp ?_)).trans ha))]
    have := hl c hc
    rwa [i.kids_ne z hzp] at this
  induction hg with
  | @here y j =>
    rw [key hr (fun c hc => List.mem_of_mem_take hc), i.kids_ne y (by rintro rfl; exact hr .refl)]
    exact .here
  | @down r c y k j q hk hg ih =>
    have hrp : r ≠ p := by rintro rfl; exact hr .refl
    rw [key hr (fun c hc => List.mem_of_mem_take hc), i.kids_ne r hrp]
    rw [i.kids_ne r hrp] at hk
    have hpar := (s.mem_iff _ _).mp (List.mem_of_getElem? hk)
    exact .down hk (ih (fun ha => hr ((Anc.of_parent hpar).trans ha)))

theorem Gap.later {G : Graph} {r y : Id} {q : Nat} (hg : Gap G r y 0 q) (j : Nat) :
    Gap G r y j (q + rowsIn G ((G.kids y).take j)) := by
  generalize h0 : (0 : Nat) = z at hg
  induction hg with
  | here =>
    subst h0
    rw [show rowsIn G ((G.kids _).take 0) = 0 from rfl, Nat.zero_add]
    exact .here
  | down hk _ ih =>
    rw [Nat.add_assoc]
    exact .down hk (ih h0)

/-- Where the parameters of `p` begin is the same before and after. -/
theorem gap_zero (s : Skel g) (s' : Skel g') (i : Ins g g' p x A B) {r : Id} {q : Nat} (hg : Gap g' r p 0 q) :
    Gap g r p 0 q := by
  obtain ⟨q', hq⟩ := exists_gap s (i.anc_p.mp (hg.anc s')) 0
  obtain ⟨h1, -⟩ := flattened_gap s s' i (hq.later A.length)
  have h2 := hg.later A.length
  have e := h1.unique s' h2
  have e1 : (g.kids p).take A.length = A := by rw [i.kids_p]; simp
  have e2 : (g'.kids p).take A.length = A := by rw [i.kids_p']; simp
  have e3 : rowsIn g' A = rowsIn g A := by
    unfold rowsIn; rw [flatMap_off s s' i (Ins.kids_not_anc s i).1]
  rw [e1, e2, e3] at e
  obtain rfl : q' = q := by omega
  exact hq

end Ins

end Paramz.Memory

import Verif.Hier.Props

/-!
# Properties of `traverse` and `traverse_parents` (C40)

The visit function is described by `bad trace x`: does it raise when called on `x` after the calls in
`trace`? It may look at everything that happened before, but does not change the hierarchy.
-/

set_option linter.unusedSectionVars false

namespace Paramz.Hier

open Graph (Anc At Skel Sized)

namespace Graph

variable {g : Graph}

/-- No marks are set. -/
def fresh : Trav := ⟨fun _ => false, [], false⟩

theorem traverse_trace (s : Skel g) {bad : List Id → Id → Bool} (x : Id) :
    ((g.traverse bad fresh x).trace, (g.traverse bad fresh x).raised) =
      visitAll bad [] (g.subtree x) := by
  have := (traverseF_spec s bad g.fuel fresh x rfl).1
  rw [show (fresh.marks) = (fun _ => false) from rfl, prunedF_nomarks] at this
  exact this

theorem subtreeF_order (s : Skel g) : ∀ n x,
    (subtreeF n g x).Pairwise (fun a b => ¬ (Anc g b a ∧ b ≠ a))
  | 0, _ => by simp [subtreeF]
  | n + 1, x => by
    unfold subtreeF
    have hanc : ∀ n c y, y ∈ subtreeF n g c → Anc g c y := by
      intro n c y hy
      rw [← prunedF_nomarks] at hy
      exact prunedF_anc s _ _ _ _ hy
    rw [List.pairwise_cons]
    constructor
    · rintro b hb ⟨h1, h2⟩
      rw [List.mem_flatMap] at hb
      obtain ⟨c, hc, hb⟩ := hb
      have h3 := (Anc.of_parent ((s.mem_iff _ _).mp hc)).trans (hanc _ _ _ hb)
      exact h2 (s.anc_antisymm h1 h3)
    · rw [List.pairwise_flatMap]
      refine ⟨fun c _ => subtreeF_order s n c, ?_⟩
      have hn := s.nodup x
      have hk : ∀ c ∈ g.kids x, g.parent c = some x := fun c hc => (s.mem_iff _ _).mp hc
      revert hn hk
      generalize g.kids x = L
      intro hn hk
      induction L with
      | nil => simp
      | cons c L ih =>
        rw [List.pairwise_cons]
        rw [List.nodup_cons] at hn
        refine ⟨?_, ih hn.2 (fun c hc => hk c (List.mem_cons_of_mem _ hc))⟩
        rintro c' hc' a ha b hb ⟨h1, -⟩
        have hca := hanc _ _ _ ha
        have hcb := (hanc _ _ _ hb).trans h1
        have pc := hk c List.mem_cons_self
        have pc' := hk c' (List.mem_cons_of_mem _ hc')
        have hne : c ≠ c' := by rintro rfl; exact hn.1 hc'
        rcases hca.total hcb with h | h
        · rcases (anc_iff_of_parent pc').mp h with h | h
          · exact hne h
          · exact s.not_anc_parent pc h
        · rcases (anc_iff_of_parent pc).mp h with h | h
          · exact hne h.symm
          · exact s.not_anc_parent pc' h

/-- `x.traverse(visit)` with a visit function that never raises calls it exactly once for `x` and
everything below, and for nothing else; no object is visited before one above it; the children of every
object are visited in their order; all marks are as before. Missing for the full claim: if the visit
function raises, marks stay behind; see `traverse_marks_left_fails`. -/
theorem traverse_visits_partial (s : Skel g) {bad : List Id → Id → Bool} (hb : ∀ tr y, bad tr y = false)
    (x : Id) :
    (g.traverse bad fresh x).raised = false ∧
    (g.traverse bad fresh x).trace.Nodup ∧
    (∀ y, y ∈ (g.traverse bad fresh x).trace ↔ Anc g x y) ∧
    (g.traverse bad fresh x).trace.Pairwise (fun a b => ¬ (Anc g b a ∧ b ≠ a)) ∧
    (∀ p, Anc g x p → (g.kids p).Sublist (g.traverse bad fresh x).trace) ∧
    (g.traverse bad fresh x).marks = fun _ => false := by
  have h1 := traverse_trace s (bad := bad) x
  rw [visitAll_all hb] at h1
  have ht : (g.traverse bad fresh x).trace = g.subtree x := congrArg Prod.fst h1
  have hr : (g.traverse bad fresh x).raised = false := congrArg Prod.snd h1
  refine ⟨hr, ?_, ?_, ?_, ?_, (traverseF_spec s bad g.fuel fresh x rfl).2 hr⟩
  · rw [ht]; exact nodup_subtree s x
  · intro y; rw [ht]; exact s.mem_subtree
  · rw [ht]; exact subtreeF_order s _ x
  · intro p hp
    rw [ht]
    have key : ∀ p, Anc g x p → (g.subtree p).Sublist (g.subtree x) := by
      intro p hp
      induction hp with
      | refl => exact List.Sublist.refl _
      | @step q c _ hq ih =>
        refine List.Sublist.trans ?_ ih
        rw [s.subtree_eq q]
        refine List.Sublist.cons _ ?_
        obtain ⟨A, B, hk⟩ := List.append_of_mem ((s.mem_iff c q).mpr hq)
        rw [hk, List.flatMap_append, List.flatMap_cons]
        exact (List.sublist_append_left _ _).trans (List.sublist_append_right _ _)
    refine List.Sublist.trans ?_ (key p hp)
    rw [s.subtree_eq p]
    refine List.Sublist.cons _ ?_
    generalize g.kids p = L
    induction L with
    | nil => simp
    | cons c L ih =>
      rw [List.flatMap_cons, s.subtree_eq c, List.cons_append]
      exact List.Sublist.cons_cons _ (ih.trans (List.sublist_append_right _ _))

/-- If the visit function raises, the calls made are a beginning of the full order, ending with the call
that raised. -/
theorem traverse_raises (s : Skel g) {bad : List Id → Id → Bool} (x : Id)
    (hr : (g.traverse bad fresh x).raised = true) :
    ∃ tr y, (g.traverse bad fresh x).trace = tr ++ [y] ∧ bad tr y = true ∧
      (tr ++ [y]) <+: (g.traverse (fun _ _ => false) fresh x).trace := by
  have h1 := traverse_trace s (bad := bad) x
  have h2 := traverse_trace s (bad := fun _ _ => false) x
  rw [visitAll_all (fun _ _ => rfl)] at h2
  have ht : (g.traverse (fun _ _ => false) fresh x).trace = g.subtree x := congrArg Prod.fst h2
  rw [ht]
  have key : ∀ (L tr : List Id), (visitAll bad tr L).2 = true →
      ∃ M y, (visitAll bad tr L).1 = tr ++ M ++ [y] ∧ bad (tr ++ M) y = true ∧ (M ++ [y]) <+: L := by
    intro L
    induction L with
    | nil => intro tr h; simp [visitAll] at h
    | cons c L ih =>
      intro tr h
      unfold visitAll at h ⊢
      split
      · rename_i hb
        exact ⟨[], c, by simp, by simpa using hb, by simp⟩
      · rename_i hb
        simp only [hb] at h
        obtain ⟨M, y, h3, h4, h5⟩ := ih (tr ++ [c]) (by simpa using h)
        refine ⟨c :: M, y, by rw [h3]; simp, by simpa using h4, ?_⟩
        rw [List.cons_append, List.cons_prefix_cons]
        exact ⟨rfl, h5⟩
  obtain ⟨M, y, h3, h4, h5⟩ := key (g.subtree x) [] (by rw [← h1]; exact hr)
  refine ⟨M, y, ?_, by simpa using h4, h5⟩
  rw [show (g.traverse bad fresh x).trace = (visitAll bad [] (g.subtree x)).1 from congrArg Prod.fst h1,
    h3]
  simp

/-- `x.traverse_parents(visit)` with a visit function that never raises calls it exactly once for every
object of the hierarchy that is not `x` or below `x`, and leaves no marks. Missing as above. -/
theorem traverse_parents_visits_partial (s : Skel g) {bad : List Id → Id → Bool}
    (hb : ∀ tr y, bad tr y = false) (x : Id) :
    (g.traverseParents bad fresh x).raised = false ∧
    (g.traverseParents bad fresh x).trace.Nodup ∧
    (∀ y, y ∈ (g.traverseParents bad fresh x).trace ↔
      g.highest y = g.highest x ∧ ¬ Anc g x y) ∧
    (g.traverseParents bad fresh x).marks = fun _ => false := by
  obtain ⟨d, hd, hbd⟩ := s.rank
  obtain ⟨h1, h2⟩ := traverseParentsF_spec s bad g.fuel fresh x rfl (fun _ _ => rfl)
  rw [visitAll_all hb] at h1
  have ht : (g.traverseParents bad fresh x).trace = outsideF g.fuel g (fun _ => false) x :=
    (congrArg Prod.fst h1).trans (by simp [fresh])
  have hr : (g.traverseParents bad fresh x).raised = false := congrArg Prod.snd h1
  obtain ⟨h3, h4⟩ := outsideF_spec s hd hbd g.fuel (fun _ => false) x
    (by have := hbd x; unfold fuel; omega) (fun y hy => by cases hy)
  refine ⟨hr, by rw [ht]; exact h3, fun y => ?_, h2 hr⟩
  rw [ht, h4]
  constructor
  · rintro ⟨⟨r, ha, hb⟩, hn⟩
    obtain ⟨r0, hr0, hra0⟩ := s.exists_root r
    exact ⟨by rw [s.highest_eq hr0 (hra0.trans ha), s.highest_eq hr0 (hra0.trans hb)], hn⟩
  · rintro ⟨he, hn⟩
    exact ⟨⟨g.highest x, (s.highest_spec x).2, by rw [← he]; exact (s.highest_spec y).2⟩, hn⟩

end Graph

namespace Heap

/-- All of this holds in every reachable state. -/
theorem reach_skel {T : Type} [DecidableEq T] {h : Heap T} (hr : Reach h) : Skel h.toGraph := hr.wf.skel

example : (demo.toGraph.traverse (fun _ _ => false) Graph.fresh 0).trace = [0, 1, 2, 3, 4, 5] ∧
    (demo.toGraph.traverseParents (fun _ _ => false) Graph.fresh 3).trace = [0, 1, 5, 2, 4] := by
  decide +kernel

/-- After an exception the marks are not taken back: with a visit function that raises on object 3 once,
the next traversal from the root visits nothing at all. -/
theorem traverse_marks_left_fails :
    ∃ g : Graph, Skel g ∧ ∃ bad : List Id → Id → Bool,
      (g.traverse bad Graph.fresh 0).raised = true ∧
      (g.traverse (fun _ _ => false)
        ⟨(g.traverse bad Graph.fresh 0).marks, [], false⟩ 0).trace = [] ∧
      (g.traverse (fun _ _ => false) Graph.fresh 0).trace = [0, 1, 2, 3, 4, 5] :=
  ⟨demo.toGraph, demo_reach.wf.skel, fun _ y => decide (y = 3), by decide +kernel⟩

end Heap

end Paramz.Hier

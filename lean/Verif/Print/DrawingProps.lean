import Verif.Print.Drawing
import Verif.Hier.Check

/-!
# C100: the drawing of a model shows its hierarchy and its observers
-/

set_option linter.unusedSectionVars false

namespace Paramz.Drawing

open Hier (Id Graph Heap)
open Hier.Graph (Skel Anc subtreeF)

variable {L : Type} {g : Graph} {obs : Id → List Id} {label : Id → L}

/-! ### What is added -/

/-- Nodes that are added, in order. -/
def nodesF (g : Graph) (obs : Id → List Id) (label : Id → L) : Nat → Id → List (Node L)
  | 0, _ => []
  | n + 1, x => ⟨x, own g x, label x⟩ :: (g.kids x).flatMap (nodesF g obs label n) ++
      (obs x).map (fun o => ⟨o, .plain, label o⟩)

/-- Edges that are added, in order. -/
def edgesF (g : Graph) (obs : Id → List Id) : Nat → Id → List Edge
  | 0, _ => []
  | n + 1, x => (g.kids x).flatMap (fun c => edgesF g obs n c ++ [⟨x, c, false⟩]) ++ (obs x).map (fun o => ⟨x, o, true⟩)

/-- Adding many. -/
def Picture.adds (p : Picture L) (ns : List (Node L)) (es : List Edge) : Picture L :=
  ⟨(ns.foldl Picture.addNode ⟨p.nodes, []⟩).nodes, p.edges ++ es⟩

theorem addNode_nodes (p : Picture L) (es : List Edge) (v : Node L) :
    (p.addNode v).nodes = (Picture.addNode ⟨p.nodes, es⟩ v).nodes := by
  unfold Picture.addNode
  split <;> rfl

theorem addNode_edges (p : Picture L) (v : Node L) : (p.addNode v).edges = p.edges := by
  unfold Picture.addNode
  split <;> rfl

theorem adds_nodes : ∀ (ns : List (Node L)) (p : Picture L) (es : List Edge),
    (ns.foldl Picture.addNode p).nodes = (ns.foldl Picture.addNode ⟨p.nodes, es⟩).nodes
  | [], _, _ => rfl
  | v :: ns, p, es => by
    rw [List.foldl_cons, List.foldl_cons, adds_nodes ns _ [], adds_nodes ns (Picture.addNode ⟨p.nodes, es⟩ v) [],
      addNode_nodes p es]

theorem adds_adds (p : Picture L) (ns ns' : List (Node L)) (es es' : List Edge) :
    (p.adds ns es).adds ns' es' = p.adds (ns ++ ns') (es ++ es') := by
  unfold Picture.adds
  rw [List.foldl_append, adds_nodes ns' (ns.foldl Picture.addNode ⟨p.nodes, []⟩) [], List.append_assoc]

theorem adds_nil (p : Picture L) : p.adds [] [] = p := by
  unfold Picture.adds
  simp

theorem addNode_adds (p : Picture L) (v : Node L) : p.addNode v = p.adds [v] [] := by
  unfold Picture.adds Picture.addNode
  simp only [List.foldl_cons, List.foldl_nil, List.append_nil]
  split <;> rfl

theorem addEdge_adds (p : Picture L) (e : Edge) : p.addEdge e = p.adds [] [e] := rfl

theorem foldl_adds {α : Type} {f : Picture L → α → Picture L} {ns : α → List (Node L)} {es : α → List Edge} :
    ∀ (l : List α) (p : Picture L), (∀ a ∈ l, ∀ p, f p a = p.adds (ns a) (es a)) →
    l.foldl f p = p.adds (l.flatMap ns) (l.flatMap es)
  | [], p, _ => (adds_nil p).symm
  | a :: l, p, h => by
    rw [List.foldl_cons, h a List.mem_cons_self, foldl_adds l _ (fun b hb => h b (List.mem_cons_of_mem _ hb)), adds_adds]
    rfl

theorem drawF_adds (s : Skel g) : ∀ (n : Nat) (p : Picture L) (x : Id),
    drawF g obs label n p x = p.adds (nodesF g obs label n x) (edgesF g obs n x)
  | 0, p, _ => (adds_nil p).symm
  | n + 1, p, x => by
    have hk : (if g.leaf x then p.addNode ⟨x, own g x, label x⟩
        else (g.kids x).foldl (fun p c => (drawF g obs label n p c).addEdge ⟨x, c, false⟩)
          (p.addNode ⟨x, own g x, label x⟩)) =
        (p.addNode ⟨x, own g x, label x⟩).adds ((g.kids x).flatMap (nodesF g obs label n))
          ((g.kids x).flatMap (fun c => edgesF g obs n c ++ [⟨x, c, false⟩])) := by
      split
      · rename_i hl
        rw [s.leaf x hl]
        exact (adds_nil _).symm
      · refine foldl_adds _ _ (fun c _ q => ?_)
        rw [drawF_adds s n q c, addEdge_adds, adds_adds, List.append_nil]
    simp only [drawF, drawObservers, nodesF, edgesF]
    rw [hk, foldl_adds (ns := fun o => [⟨o, .plain, label o⟩]) (es := fun o => [⟨x, o, true⟩]) (obs x) _
      (fun o _ q => by rw [addNode_adds, addEdge_adds, adds_adds]; rfl), addNode_adds, adds_adds, adds_adds]
    congr 1
    · simp [List.flatMap_singleton']
      rw [List.map_eq_flatMap]
    · simp
      rw [List.map_eq_flatMap]

/-! ### Nodes -/

/-- Of all nodes of one name, the first is drawn. -/
theorem adds_spec : ∀ (ns : List (Node L)) (p : Picture L), (p.nodes.map (·.id)).Nodup →
    ((ns.foldl Picture.addNode p).nodes.map (·.id)).Nodup ∧
    ∀ v, v ∈ (ns.foldl Picture.addNode p).nodes ↔ v ∈ p.nodes ∨
      (v.id ∉ p.nodes.map (·.id) ∧ ∃ A B, ns = A ++ v :: B ∧ v.id ∉ A.map (·.id))
  | [], p, h => ⟨h, fun v => by simp⟩
  | u :: ns, p, h => by
    have step : ((p.addNode u).nodes.map (·.id)).Nodup ∧ ((p.addNode u).nodes =
        if u.id ∈ p.nodes.map (·.id) then p.nodes else p.nodes ++ [u]) := by
      unfold Picture.addNode
      split
      · exact ⟨h, rfl⟩
      · rename_i hu
        refine ⟨?_, rfl⟩
        rw [List.map_append, List.nodup_append]
        refine ⟨h, by simp, ?_⟩
        rintro a ha b hb rfl
        simp only [List.map_cons, List.map_nil, List.mem_singleton] at hb
        exact hu (hb ▸ ha)
    obtain ⟨h1, h2⟩ := adds_spec ns (p.addNode u) step.1
    refine ⟨h1, fun v => (h2 v).trans ?_⟩
    rw [step.2]
    by_cases hu : u.id ∈ p.nodes.map (·.id)
    · rw [if_pos hu]
      refine or_congr_right (and_congr_right (fun hv => ⟨?_, ?_⟩))
      · rintro ⟨A, B, rfl, hA⟩
        refine ⟨u :: A, B, rfl, ?_⟩
        rw [List.map_cons, List.mem_cons]
        rintro (he | he)
        · exact hv (he ▸ hu)
        · exact hA he
      · rintro ⟨A, B, he, hA⟩
        cases A with
        | nil =>
          rw [List.nil_append, List.cons.injEq] at he
          exact absurd hu (by rw [he.1]; exact hv)
        | cons a A =>
          rw [List.cons_append, List.cons.injEq] at he
          exact ⟨A, B, he.2, fun h => hA (List.mem_cons_of_mem _ h)⟩
    · rw [if_neg hu, List.mem_append, List.mem_singleton, List.map_append, List.mem_append, or_assoc]
      refine or_congr_right ⟨?_, ?_⟩
      · rintro (rfl | ⟨hv, A, B, rfl, hA⟩)
        · exact ⟨hu, [], ns, rfl, by simp⟩
        · rw [not_or] at hv
          refine ⟨hv.1, u :: A, B, rfl, ?_⟩
          rw [List.map_cons, List.mem_cons]
          rintro (he | he)
          · exact hv.2 (by simp [he])
          · exact hA he
      · rintro ⟨hv, A, B, he, hA⟩
        cases A with
        | nil =>
          rw [List.nil_append, List.cons.injEq] at he
          exact .inl he.1.symm
        | cons a A =>
          rw [List.cons_append, List.cons.injEq] at he
          refine .inr ⟨?_, A, B, he.2, fun h => hA (List.mem_cons_of_mem _ h)⟩
          rw [not_or]
          refine ⟨hv, fun h => hA ?_⟩
          simp only [List.map_cons, List.map_nil, List.mem_singleton] at h
          rw [h, he.1]
          exact List.mem_cons_self

theorem anc_of_mem (s : Skel g) {n : Nat} {x y : Id} (h : y ∈ subtreeF n g x) : Anc g x y := by
  rw [← Hier.Graph.prunedF_nomarks] at h
  exact Hier.Graph.prunedF_anc s _ _ _ _ h

/-- What nodes are added: the objects below, and their observers. -/
theorem mem_nodesF : ∀ (n : Nat) (x : Id) (v : Node L), v ∈ nodesF g obs label n x ↔
    (v.id ∈ subtreeF n g x ∧ v = ⟨v.id, own g v.id, label v.id⟩) ∨
    ∃ z ∈ subtreeF n g x, v.id ∈ obs z ∧ v = ⟨v.id, .plain, label v.id⟩
  | 0, _, _ => by simp [nodesF, subtreeF]
  | n + 1, x, v => by
    simp only [nodesF, subtreeF, List.cons_append, List.mem_cons, List.mem_append, List.mem_flatMap, List.mem_map]
    constructor
    · rintro (rfl | ⟨c, hc, hv⟩ | ⟨o, ho, rfl⟩)
      · exact .inl ⟨.inl rfl, rfl⟩
      · rcases (mem_nodesF n c v).mp hv with ⟨h1, h2⟩ | ⟨z, h1, h2⟩
        · exact .inl ⟨.inr ⟨c, hc, h1⟩, h2⟩
        · exact .inr ⟨z, .inr ⟨c, hc, h1⟩, h2⟩
      · exact .inr ⟨x, .inl rfl, ho, rfl⟩
    · rintro (⟨rfl | ⟨c, hc, h1⟩, h2⟩ | ⟨z, rfl | ⟨c, hc, h1⟩, h2, h3⟩)
      · exact .inl h2
      · exact .inr (.inl ⟨c, hc, (mem_nodesF n c v).mpr (.inl ⟨h1, h2⟩)⟩)
      · exact .inr (.inr ⟨v.id, h2, h3.symm⟩)
      · exact .inr (.inl ⟨c, hc, (mem_nodesF n c v).mpr (.inr ⟨z, h1, h2, h3⟩)⟩)

theorem sibling_apart (s : Skel g) {x c k y : Id} (hc : g.parent c = some x) (hk : g.parent k = some x) (hne : k ≠ c)
    (h1 : Anc g c y) (h2 : Anc g k y) : False := by
  rcases h1.total h2 with h | h
  · rcases (Hier.Graph.anc_iff_of_parent hk).mp h with h | h
    · exact hne h.symm
    · exact s.not_anc_parent hc h
  · rcases (Hier.Graph.anc_iff_of_parent hc).mp h with h | h
    · exact hne h
    · exact s.not_anc_parent hk h

/-- What is added before an object draws itself. -/
theorem before_own (s : Skel g) : ∀ (n : Nat) {x y : Id}, y ∈ subtreeF n g x →
    ∃ A B S S', nodesF g obs label n x = A ++ ⟨y, own g y, label y⟩ :: B ∧ subtreeF n g x = S ++ y :: S' ∧
      (∀ v ∈ A, v.id ∈ S ∨ (v.shape = .plain ∧ ∃ z ∈ S, ¬ Anc g z y ∧ v.id ∈ obs z)) ∧
      ∀ z ∈ S, ¬ Anc g z y → ∀ o ∈ obs z, ⟨o, .plain, label o⟩ ∈ A
  | 0, _, _, h => by simp [subtreeF] at h
  | n + 1, x, y, h => by
    simp only [subtreeF, List.mem_cons, List.mem_flatMap] at h
    rcases h with rfl | ⟨c, hc, hy⟩
    · exact ⟨[], _, [], _, rfl, rfl, by simp, by simp⟩
    · obtain ⟨A, B, S, S', e1, e2, h1, h2⟩ := before_own s n hy
      obtain ⟨K, K', hk⟩ := List.append_of_mem hc
      have hpc := (s.mem_iff _ _).mp hc
      have hcy := anc_of_mem s hy
      have hapart : ∀ k ∈ K, ∀ z ∈ subtreeF n g k, ¬ Anc g z y := by
        intro k hkK z hz ha
        have hkx : g.parent k = some x := (s.mem_iff _ _).mp (by rw [hk]; exact List.mem_append_left _ hkK)
        have hne : k ≠ c := by
          rintro rfl
          have := s.nodup x
          rw [hk, List.nodup_append] at this
          exact this.2.2 _ hkK _ List.mem_cons_self rfl
        exact sibling_apart s hpc hkx hne hcy ((anc_of_mem s hz).trans ha)
      refine ⟨⟨x, own g x, label x⟩ :: K.flatMap (nodesF g obs label n) ++ A,
        B ++ K'.flatMap (nodesF g obs label n) ++ (obs x).map (fun o => ⟨o, .plain, label o⟩),
        x :: K.flatMap (fun c => subtreeF n g c) ++ S, S' ++ K'.flatMap (fun c => subtreeF n g c), ?_, ?_, ?_, ?_⟩
      · simp only [nodesF]
        rw [hk, List.flatMap_append, List.flatMap_cons, e1]
        simp
      · simp only [subtreeF]
        rw [hk, List.flatMap_append, List.flatMap_cons, e2]
        simp
      · intro v hv
        simp only [List.cons_append, List.mem_cons, List.mem_append, List.mem_flatMap] at hv ⊢
        rcases hv with rfl | ⟨k, hkK, hv⟩ | hv
        · exact .inl (.inl rfl)
        · rcases (mem_nodesF n k v).mp hv with ⟨g1, -⟩ | ⟨z, g1, g2, g3⟩
          · exact .inl (.inr (.inl ⟨k, hkK, g1⟩))
          · exact .inr ⟨by rw [g3], z, .inr (.inl ⟨k, hkK, g1⟩), hapart k hkK z g1, g2⟩
        · rcases h1 v hv with g1 | ⟨g0, z, g1, g2⟩
          · exact .inl (.inr (.inr g1))
          · exact .inr ⟨g0, z, .inr (.inr g1), g2⟩
      · intro z hz hza o ho
        simp only [List.cons_append, List.mem_cons, List.mem_append, List.mem_flatMap] at hz ⊢
        rcases hz with rfl | ⟨k, hkK, hz⟩ | hz
        · exact absurd ((Hier.Graph.Anc.of_parent hpc).trans hcy) hza
        · exact .inr (.inl ⟨k, hkK, (mem_nodesF n k _).mpr (.inr ⟨z, hz, ho, rfl⟩)⟩)
        · exact .inr (.inr (h2 z hz hza o ho))

/-! ### Edges -/

theorem edgesF_perm : ∀ (n : Nat) (x : Id), (edgesF g obs n x).Perm ((subtreeF n g x).flatMap (fun a =>
    (g.kids a).map (⟨a, ·, false⟩) ++ (obs a).map (⟨a, ·, true⟩)))
  | 0, _ => .nil
  | n + 1, x => by
    simp only [edgesF, subtreeF, List.flatMap_cons]
    have key : ∀ K : List Id, (K.flatMap (fun c => edgesF g obs n c ++ [⟨x, c, false⟩])).Perm
        (K.map (⟨x, ·, false⟩) ++ (K.flatMap (fun c => subtreeF n g c)).flatMap (fun a =>
          (g.kids a).map (⟨a, ·, false⟩) ++ (obs a).map (⟨a, ·, true⟩))) := by
      intro K
      induction K with
      | nil => exact .nil
      | cons c K ih =>
        simp only [List.flatMap_cons, List.map_cons, List.flatMap_append, List.cons_append, List.append_assoc,
          List.nil_append]
        refine List.perm_middle.trans (.cons _ ?_)
        refine ((edgesF_perm n c).append ih).trans ?_
        rw [← List.append_assoc, ← List.append_assoc]
        exact List.perm_append_comm.append_right _
    refine ((key (g.kids x)).append_right _).trans ?_
    rw [List.append_assoc, List.append_assoc]
    exact List.perm_append_comm.append_left _

theorem sum_only {f : Id → Nat} {a : Id} (hf : ∀ b, b ≠ a → f b = 0) : ∀ (l : List Id), l.Nodup →
    (l.map f).sum = if a ∈ l then f a else 0
  | [], _ => by simp
  | b :: l, hn => by
    rw [List.nodup_cons] at hn
    rw [List.map_cons, List.sum_cons, sum_only hf l hn.2]
    by_cases hb : b = a
    · subst hb
      rw [if_neg hn.1, if_pos List.mem_cons_self, Nat.add_zero]
    · rw [hf b hb, Nat.zero_add]
      simp [Ne.symm hb]

/-! ### C100 -/

variable {T : Type} [DecidableEq T]

/-- **C100.** `x.build_pydot()` for any object that is no `Param`: there is one node for `x`, for everything inside it and
for every observer of these, and no other; every node carries its name; there is one black arrow from every object to each
of its parameters, one orange arrow for each registration of an observer, and no other. -/
theorem drawing_shows_hierarchy {h : Heap T} (hr : h.Reach) (obs : Id → List Id) (label : Id → L) {x : Id}
    (hl : h.leaf x = false) : ∃ p, build h.toGraph obs label x = some p ∧
    (p.nodes.map (·.id)).Nodup ∧
    (∀ y, y ∈ p.nodes.map (·.id) ↔ Anc h.toGraph x y ∨ ∃ z, Anc h.toGraph x z ∧ y ∈ obs z) ∧
    (∀ v ∈ p.nodes, v.label = label v.id) ∧
    (∀ a b, Anc h.toGraph x a → h.parent b = some a → p.edges.count ⟨a, b, false⟩ = 1) ∧
    (∀ a b, ⟨a, b, false⟩ ∈ p.edges → Anc h.toGraph x a ∧ h.parent b = some a) ∧
    (∀ a b, Anc h.toGraph x a → p.edges.count ⟨a, b, true⟩ = (obs a).count b) ∧
    (∀ a b, ⟨a, b, true⟩ ∈ p.edges → Anc h.toGraph x a ∧ b ∈ obs a) := by
  have sk := hr.wf.skel
  refine ⟨_, by unfold build; rw [hl]; rfl, ?_⟩
  rw [drawF_adds sk]
  have he : (Picture.empty.adds (nodesF h.toGraph obs label h.toGraph.fuel x) (edgesF h.toGraph obs h.toGraph.fuel x)).edges
      = edgesF h.toGraph obs h.toGraph.fuel x := rfl
  have hn : (Picture.empty.adds (nodesF h.toGraph obs label h.toGraph.fuel x)
      (edgesF h.toGraph obs h.toGraph.fuel x)).nodes =
      ((nodesF h.toGraph obs label h.toGraph.fuel x).foldl Picture.addNode .empty).nodes := rfl
  rw [he, hn]
  obtain ⟨a1, a2⟩ := adds_spec (nodesF h.toGraph obs label h.toGraph.fuel x) .empty List.nodup_nil
  have hmem : ∀ y, y ∈ subtreeF h.toGraph.fuel h.toGraph x ↔ Anc h.toGraph x y := fun y => sk.mem_subtree
  have hnd : (subtreeF h.toGraph.fuel h.toGraph x).Nodup := Hier.Graph.nodup_subtree sk x
  have hp := edgesF_perm (g := h.toGraph) (obs := obs) h.toGraph.fuel x
  have hin : ∀ v, v ∈ ((nodesF h.toGraph obs label h.toGraph.fuel x).foldl Picture.addNode .empty).nodes →
      v ∈ nodesF h.toGraph obs label h.toGraph.fuel x := by
    intro v hv
    rcases (a2 v).mp hv with hv | ⟨-, A, B, hv, -⟩
    · cases hv
    · rw [hv]; simp
  refine ⟨a1, fun y => ?_, fun v hv => ?_, fun a b ha hb => ?_, fun a b hab => ?_, fun a b ha => ?_, fun a b hab => ?_⟩
  · have hids : y ∈ ((nodesF h.toGraph obs label h.toGraph.fuel x).foldl Picture.addNode .empty).nodes.map (·.id) ↔
        y ∈ (nodesF h.toGraph obs label h.toGraph.fuel x).map (·.id) := by
      constructor
      · intro hy
        obtain ⟨v, hv, rfl⟩ := List.mem_map.mp hy
        exact List.mem_map_of_mem (hin v hv)
      · intro hy
        obtain ⟨v, hv, rfl⟩ := List.mem_map.mp hy
        obtain ⟨u, hu, huv⟩ : ∃ u, (∃ A B, nodesF h.toGraph obs label h.toGraph.fuel x = A ++ u :: B ∧
            u.id ∉ A.map (·.id)) ∧ u.id = v.id := by
          clear a1 a2 hin hn hp he hy
          generalize nodesF h.toGraph obs label h.toGraph.fuel x = l at hv
          induction l with
          | nil => cases hv
          | cons w l ih =>
            by_cases hw : w.id = v.id
            · exact ⟨w, ⟨[], l, rfl, by simp⟩, hw⟩
            · rcases List.mem_cons.mp hv with rfl | hv
              · exact absurd rfl hw
              · obtain ⟨u, ⟨A, B, rfl, hA⟩, hu⟩ := ih hv
                refine ⟨u, ⟨w :: A, B, rfl, ?_⟩, hu⟩
                rw [List.map_cons, List.mem_cons]
                rintro (h | h)
                · exact hw (h.symm.trans hu)
                · exact hA h
        rw [← huv]
        exact List.mem_map_of_mem ((a2 u).mpr (.inr ⟨by simp [Picture.empty], hu⟩))
    rw [hids, List.mem_map]
    constructor
    · rintro ⟨v, hv, rfl⟩
      rcases (mem_nodesF _ _ v).mp hv with ⟨h1, -⟩ | ⟨z, h1, h2, -⟩
      · exact .inl ((hmem _).mp h1)
      · exact .inr ⟨z, (hmem _).mp h1, h2⟩
    · rintro (h1 | ⟨z, h1, h2⟩)
      · exact ⟨⟨y, own h.toGraph y, label y⟩, (mem_nodesF _ _ _).mpr (.inl ⟨(hmem _).mpr h1, rfl⟩), rfl⟩
      · exact ⟨⟨y, .plain, label y⟩, (mem_nodesF _ _ _).mpr (.inr ⟨z, (hmem _).mpr h1, h2, rfl⟩), rfl⟩
  · rcases (mem_nodesF _ _ v).mp (hin v hv) with ⟨-, h2⟩ | ⟨z, -, -, h2⟩ <;> rw [h2]
  · rw [hp.count_eq, List.count_flatMap]
    have := sum_only (a := a) (f := fun c => List.count (⟨a, b, false⟩ : Edge)
      ((h.toGraph.kids c).map (⟨c, ·, false⟩) ++ (obs c).map (⟨c, ·, true⟩))) (fun c hc => by
        rw [List.count_eq_zero]
        simp [hc]) _ hnd
    refine Eq.trans (by rfl) (this.trans ?_)
    rw [if_pos ((hmem a).mpr ha), List.count_append]
    rw [show List.count (⟨a, b, false⟩ : Edge) ((obs a).map (⟨a, ·, true⟩)) = 0 by rw [List.count_eq_zero]; simp]
    rw [List.count_eq_one_of_mem]
    · exact (sk.nodup a).map (fun _ _ h => by simpa using h)
    · exact List.mem_map_of_mem ((sk.mem_iff _ _).mpr hb)
  · obtain ⟨c, hc, hm⟩ := List.mem_flatMap.mp (hp.mem_iff.mp hab)
    simp only [List.mem_append, List.mem_map, Edge.mk.injEq, Bool.true_eq_false, and_false, exists_false, or_false] at hm
    obtain ⟨d, hd, rfl, rfl, -⟩ := hm
    exact ⟨(hmem _).mp hc, (sk.mem_iff _ _).mp hd⟩
  · rw [hp.count_eq, List.count_flatMap]
    have := sum_only (a := a) (f := fun c => List.count (⟨a, b, true⟩ : Edge)
      ((h.toGraph.kids c).map (⟨c, ·, false⟩) ++ (obs c).map (⟨c, ·, true⟩))) (fun c hc => by
        rw [List.count_eq_zero]
        simp [hc]) _ hnd
    refine Eq.trans (by rfl) (this.trans ?_)
    rw [if_pos ((hmem a).mpr ha), List.count_append]
    rw [show List.count (⟨a, b, true⟩ : Edge) ((h.toGraph.kids a).map (⟨a, ·, false⟩)) = 0 by
      rw [List.count_eq_zero]; simp]
    rw [Nat.zero_add]
    exact List.count_map_of_injective _ (fun o => (⟨a, o, true⟩ : Edge)) (fun _ _ h => by simpa using h) b
  · obtain ⟨c, hc, hm⟩ := List.mem_flatMap.mp (hp.mem_iff.mp hab)
    simp only [List.mem_append, List.mem_map, Edge.mk.injEq, Bool.false_eq_true, and_false, exists_false, false_or] at hm
    obtain ⟨d, hd, rfl, rfl, -⟩ := hm
    exact ⟨(hmem _).mp hc, hd⟩

/-- **C100.** The shape of an object of the model: it is drawn with the shape of its kind, unless it observes something that
comes before it and does not contain it; then it is drawn with no shape. -/
theorem shape_lost_iff {h : Heap T} (hr : h.Reach) (obs : Id → List Id) (label : Id → L) {x : Id} {p : Picture L}
    (hp : build h.toGraph obs label x = some p) {v : Node L} (hv : v ∈ p.nodes) (hx : Anc h.toGraph x v.id) :
    (v.shape = .plain ∨ v.shape = own h.toGraph v.id) ∧
    (v.shape = .plain ↔ ∃ z, Anc h.toGraph x z ∧ v.id ∈ obs z ∧ ¬ Anc h.toGraph z v.id ∧
      ∃ A B, h.toGraph.subtree x = A ++ v.id :: B ∧ z ∈ A) := by
  have sk := hr.wf.skel
  unfold build at hp
  split at hp
  · cases hp
  · cases hp
    rw [drawF_adds sk] at hv
    have hv : v ∈ ((nodesF h.toGraph obs label h.toGraph.fuel x).foldl Picture.addNode .empty).nodes := hv
    obtain ⟨-, a2⟩ := adds_spec (nodesF h.toGraph obs label h.toGraph.fuel x) .empty List.nodup_nil
    obtain ⟨A, B, S, S', e1, e2, h1, h2⟩ := before_own (obs := obs) (label := label) sk h.toGraph.fuel
      (x := x) (y := v.id) (sk.mem_subtree.mpr hx)
    have hnd : (subtreeF h.toGraph.fuel h.toGraph x).Nodup := Hier.Graph.nodup_subtree sk x
    have hS : v.id ∉ S := by
      rw [e2, List.nodup_append] at hnd
      exact fun hm => hnd.2.2 _ hm _ List.mem_cons_self rfl
    rcases (a2 v).mp hv with hv | ⟨-, C, D, e3, h3⟩
    · cases hv
    have hne : own h.toGraph v.id ≠ .plain := by unfold own; split <;> simp
    have hsplit : ∀ z, (∃ A B, h.toGraph.subtree x = A ++ v.id :: B ∧ z ∈ A) → z ∈ S := by
      rintro z ⟨A', B', e4, hz⟩
      have e5 : S ++ v.id :: S' = A' ++ v.id :: B' := e2.symm.trans e4
      have hA' : v.id ∉ A' := by
        have h5 : (A' ++ v.id :: B').Nodup := by rw [← e5, ← e2]; exact hnd
        rw [List.nodup_append] at h5
        exact fun hm => h5.2.2 _ hm _ List.mem_cons_self rfl
      have h6 : (S ++ v.id :: S').takeWhile (fun i => decide (i ≠ v.id)) = S := by
        rw [List.takeWhile_append_of_pos (fun i hi => by
          simp only [decide_eq_true_eq]; rintro rfl; exact hS hi)]
        simp
      have h7 : (A' ++ v.id :: B').takeWhile (fun i => decide (i ≠ v.id)) = A' := by
        rw [List.takeWhile_append_of_pos (fun i hi => by
          simp only [decide_eq_true_eq]; rintro rfl; exact hA' hi)]
        simp
      rw [e5, h7] at h6
      rw [← h6]; exact hz
    by_cases hA : v.id ∈ A.map (·.id)
    · -- the first node of this name is in `A`
      have hvA : v ∈ A := by
        rw [e1] at e3
        rcases List.append_eq_append_iff.mp e3 with ⟨l, rfl, -⟩ | ⟨l, rfl, e4⟩
        · exact absurd (by rw [List.map_append]; exact List.mem_append_left _ hA) h3
        · cases l with
          | nil =>
            rw [List.append_nil] at hA
            exact absurd hA h3
          | cons u l =>
            rw [List.cons_append, List.cons.injEq] at e4
            rw [e4.1]; simp
      rcases h1 v hvA with h4 | ⟨h4, z, h5, h6, h7⟩
      · exact absurd h4 hS
      · exact ⟨.inl h4, fun _ => ⟨z, anc_of_mem sk (n := h.toGraph.fuel) (by rw [e2]; exact List.mem_append_left _ h5), h7, h6, S, S', e2, h5⟩,
          fun _ => h4⟩
    · have hveq : v = ⟨v.id, own h.toGraph v.id, label v.id⟩ := by
        rw [e1] at e3
        rcases List.append_eq_append_iff.mp e3 with ⟨l, rfl, e4⟩ | ⟨l, rfl, e4⟩
        · cases l with
          | nil =>
            rw [List.nil_append, List.cons.injEq] at e4
            exact e4.1.symm
          | cons u l =>
            rw [List.cons_append, List.cons.injEq] at e4
            exact absurd (by rw [← e4.1]; simp) h3
        · cases l with
          | nil =>
            rw [List.nil_append, List.cons.injEq] at e4
            exact e4.1
          | cons u l =>
            rw [List.cons_append, List.cons.injEq] at e4
            exact absurd (by rw [← e4.1]; simp) hA
      have hsh : v.shape = own h.toGraph v.id := by rw [hveq]
      refine ⟨.inr hsh, fun hpl => absurd (hsh.symm.trans hpl) hne, ?_⟩
      rintro ⟨z, -, h5, h6, h7⟩
      exact absurd (List.mem_map_of_mem (f := (·.id)) (h2 z (hsplit z h7) h6 v.id h5)) hA

/-- Rectangles are `Parameterized`s, trapezoids are `Param`s, as long as objects of the model observe only what is inside
them, as the library arranges it (parameterized.py:119, 169). Missing for the full claim: other observers within the
model, `shape_fails`. -/
theorem shapes_partial {h : Heap T} (hr : h.Reach) (obs : Id → List Id) (label : Id → L) {x : Id} {p : Picture L}
    (hp : build h.toGraph obs label x = some p)
    (ho : ∀ z y, Anc h.toGraph x z → Anc h.toGraph x y → y ∈ obs z → Anc h.toGraph y z) {v : Node L} (hv : v ∈ p.nodes)
    (hx : Anc h.toGraph x v.id) : v.shape = if h.leaf v.id then .trapezium else .box := by
  obtain ⟨h1, h2⟩ := shape_lost_iff hr obs label hp hv hx
  rcases h1 with h1 | h1
  · obtain ⟨z, g1, g2, g3, A, B, e, hz⟩ := h2.mp h1
    have ha := ho z v.id g1 hx g2
    have hord := Hier.Graph.subtreeF_order hr.wf.skel h.toGraph.fuel x
    have e' : subtreeF h.toGraph.fuel h.toGraph x = A ++ v.id :: B := e
    rw [e', List.pairwise_append] at hord
    have h3 := hord.2.2 z hz v.id List.mem_cons_self
    refine absurd ⟨ha, fun heq => g3 (by rw [← heq]; exact .refl)⟩ h3
  · exact h1

/-! ### Examples -/

/-- The observers that the library registers in the model `demo`: every object observes itself if it is no `Param`, and is
observed by its parent. Object 9 observes `Param` 3 as well. -/
def demoObs : Id → List Id
  | 0 => [0]
  | 1 => [0]
  | 2 => [2, 0]
  | 3 => [2, 9]
  | 4 => [2]
  | 5 => [0]
  | _ => []

/-- What is drawn of the model `demo`. -/
def demoPicture : Picture Nat where
  nodes := [⟨0, .box, 100⟩, ⟨1, .trapezium, 101⟩, ⟨2, .box, 102⟩, ⟨3, .trapezium, 103⟩, ⟨9, .plain, 109⟩,
    ⟨4, .trapezium, 104⟩, ⟨5, .trapezium, 105⟩]
  edges := [⟨1, 0, true⟩, ⟨0, 1, false⟩, ⟨3, 2, true⟩, ⟨3, 9, true⟩, ⟨2, 3, false⟩, ⟨4, 2, true⟩, ⟨2, 4, false⟩,
    ⟨2, 2, true⟩, ⟨2, 0, true⟩, ⟨0, 2, false⟩, ⟨5, 0, true⟩, ⟨0, 5, false⟩, ⟨0, 0, true⟩]

theorem demo_drawing : (build Heap.demo.toGraph demoObs (· + 100) 0).map (fun p => (p.nodes, p.edges)) =
    some (demoPicture.nodes, demoPicture.edges) := by decide +kernel

/-- The theorem applies to `demo`: the black arrow from 2 to 4, the orange one from 3 to 9, shapes. -/
example : ∃ p, build Heap.demo.toGraph demoObs (· + 100) 0 = some p ∧ p.edges.count ⟨2, 4, false⟩ = 1 ∧
    p.edges.count ⟨3, 9, true⟩ = 1 ∧ 9 ∈ p.nodes.map (·.id) ∧
    ∀ v ∈ p.nodes, v.id = 4 → v.shape = .trapezium := by
  obtain ⟨p, h1, -, h3, -, h5, -, h7, -⟩ := drawing_shows_hierarchy Heap.demo_reach demoObs (· + 100) (x := 0)
    (by decide +kernel)
  have a2 : Anc Heap.demo.toGraph 0 2 := .step .refl (by decide +kernel)
  have a3 : Anc Heap.demo.toGraph 0 3 := .step a2 (by decide +kernel)
  have a4 : Anc Heap.demo.toGraph 0 4 := .step a2 (by decide +kernel)
  refine ⟨p, h1, h5 2 4 a2 (by decide +kernel), (h7 3 9 a3).trans (by decide), (h3 9).mpr (.inr ⟨3, a3, by decide⟩),
    fun v hv hid => ?_⟩
  have hs := shapes_partial Heap.demo_reach demoObs (· + 100) h1 ?_ hv (by rw [hid]; exact a4)
  · rw [hs, hid]; decide +kernel
  · have sk := Heap.demo_reach.wf.skel
    have key : ∀ z ∈ Heap.demo.toGraph.subtree 0, ∀ y ∈ Heap.demo.toGraph.subtree 0, y ∈ demoObs z →
        z ∈ Heap.demo.toGraph.subtree y := by decide +kernel
    intro z y hz hy ho
    exact sk.mem_subtree.mp (key z (sk.mem_subtree.mpr hz) y (sk.mem_subtree.mpr hy) ho)

/-- Somebody lets the `Parameterized` 2 observe the `Param` 1, which comes before it: 2 is not drawn as a box. And
`build_pydot` cannot be called on a `Param`. -/
theorem shape_fails :
    Heap.demo.Reach ∧ Heap.demo.leaf 2 = false ∧
    (build Heap.demo.toGraph (fun i => if i = 1 then [2] else []) (· + 100) 0).map
      (fun p => p.nodes.filter (·.id = 2)) = some [⟨2, .plain, 102⟩] ∧
    (build Heap.demo.toGraph (fun _ => []) (· + 100) 1).isNone = true :=
  ⟨Heap.demo_reach, by decide +kernel, by decide +kernel, by decide +kernel⟩

end Paramz.Drawing

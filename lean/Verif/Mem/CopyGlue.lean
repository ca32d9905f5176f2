import Verif.Mem.Glue
import Verif.Mem.CopyModel
import Verif.Hier.CopyLemmas

/-!
# Copying: the two sides of the model agree
-/

set_option linter.unusedSectionVars false

namespace Paramz.Memory

open Hier (Id Graph Heap upd upd_same upd_ne)
open Hier.Graph (Skel Sized At Anc)

namespace State

variable {V T : Type} [DecidableEq T] (spoil : Nat → Nat → V)

theorem reconnect_heap (s : State V T) (x : Id) :
    (s.reconnect spoil x).heap = s.heap.reconnect x := rfl

theorem setstateF_heap : ∀ (n : Nat) (s : State V T) (x : Id),
    (s.setstateF spoil n x).heap = s.heap.setstateF n x
  | 0, _, _ => rfl
  | n + 1, s, x => by
    have key : ∀ (L : List Id) (s : State V T),
        (L.foldl (fun s c => setstateF spoil n s c) s).heap =
          L.foldl (fun h c => Heap.setstateF n h c) s.heap := by
      intro L
      induction L with
      | nil => intro s; rfl
      | cons c L ih => intro s; rw [List.foldl_cons, List.foldl_cons, ih, setstateF_heap n]
    unfold setstateF Heap.setstateF
    simp only []
    split
    · exact key _ _
    · rw [reconnect_heap, key]

theorem copyBody_heap (s : State V T) (x : Id) :
    (s.copyBody spoil x).heap = s.heap.copyBody x := by
  unfold copyBody Heap.copyBody
  simp only []
  rw [setstateF_heap]

/-- The pointers after a copy are those of `Heap.copy`. -/
theorem copy_heap (s : State V T) (x : Id) :
    (s.copy spoil x).1.heap = (s.heap.copy x).1 ∧ (s.copy spoil x).2 = (s.heap.copy x).2 := by
  unfold copy Heap.copy
  split
  · exact ⟨copyBody_heap spoil s x, rfl⟩
  · refine ⟨?_, rfl⟩
    rw [reconnect_heap, copyBody_heap]
    rfl

theorem reconnect_shape (h : Heap T) (x : Id) : Shape h.toGraph (h.reconnect x).toGraph := by
  have h1 := connect_shape h x
  unfold Heap.reconnect
  refine h1.trans (Shape.of_eq ?_)
  rw [Heap'.notify_graph, Heap'.connectFixes_graph]

theorem setstateF_shape : ∀ (n : Nat) (h : Heap T) (x : Id), Shape h.toGraph (h.setstateF n x).toGraph
  | 0, _, _ => Shape.of_eq rfl
  | n + 1, h, x => by
    have key : ∀ (L : List Id) (h : Heap T),
        Shape h.toGraph (L.foldl (fun h c => Heap.setstateF n h c) h).toGraph := by
      intro L
      induction L with
      | nil => intro s; exact Shape.of_eq rfl
      | cons c L ih => intro h; rw [List.foldl_cons]; exact (setstateF_shape n h c).trans (ih _)
    unfold Heap.setstateF
    simp only []
    split
    · exact key _ _
    · exact (key _ _).trans (reconnect_shape _ _)

theorem setstateF_mem {g : Graph} : ∀ (n : Nat) (s : State V T) (x : Id), Shape g s.heap.toGraph →
    (s.setstateF spoil n x).mem = s.mem.setstateF spoil g n x
  | 0, _, _, _ => rfl
  | n + 1, s, x, hg => by
    have key : ∀ (L : List Id) (s : State V T), Shape g s.heap.toGraph →
        (L.foldl (fun s c => setstateF spoil n s c) s).mem =
          L.foldl (fun m c => Mem.setstateF spoil g n m c) s.mem ∧
        Shape g (L.foldl (fun s c => setstateF spoil n s c) s).heap.toGraph := by
      intro L
      induction L with
      | nil => intro s hs; exact ⟨rfl, hs⟩
      | cons c L ih =>
        intro s hs
        rw [List.foldl_cons, List.foldl_cons]
        have h1 : Shape g (s.setstateF spoil n c).heap.toGraph := by
          rw [setstateF_heap]; exact hs.trans (setstateF_shape n _ c)
        rw [← setstateF_mem n s c hs]
        exact ih _ h1
    obtain ⟨k1, k2⟩ := key (s.heap.kids x) s hg
    unfold setstateF Mem.setstateF
    simp only []
    rw [show g.kids x = s.heap.kids x from (congrFun hg.kids x).symm,
      show g.leaf x = s.heap.leaf x from (congrFun hg.leaf x).symm]
    split
    · exact k1
    · show Mem.connect spoil _ _ x = _
      rw [Mem.connect_shape spoil k2, k1]

/-- The memory after a copy, in terms of the pointers before it. -/
theorem copy_mem (s : State V T) (x : Id) :
    (s.copy spoil x).1.mem =
      if s.heap.leaf x then
        (s.mem.rawCopy s.heap.toGraph x).setstateF spoil (s.heap.rawCopy x).toGraph
          (s.heap.rawCopy x).toGraph.fuel (s.heap.copyOf x x)
      else
        (((s.mem.ensure s.heap.toGraph x).rawCopy s.heap.toGraph x).setstateF spoil
          (s.heap.rawCopy x).toGraph (s.heap.rawCopy x).toGraph.fuel (s.heap.copyOf x x)).connect spoil
          (s.heap.rawCopy x).toGraph (s.heap.copyOf x x) := by
  have key : ∀ t : State V T, t.heap.toGraph = s.heap.toGraph →
      (t.copyBody spoil x).mem = (t.mem.rawCopy s.heap.toGraph x).setstateF spoil
        (s.heap.rawCopy x).toGraph (s.heap.rawCopy x).toGraph.fuel (s.heap.copyOf x x) := by
    intro t ht
    have hraw : ∀ v, (({ t.heap with visited := v } : Heap T).rawCopy x).toGraph =
        (s.heap.rawCopy x).toGraph := by
      intro v
      unfold Heap.rawCopy Heap.lift Heap.copyOf
      simp only [ht]
    unfold copyBody
    simp only []
    rw [setstateF_mem (g := (s.heap.rawCopy x).toGraph) spoil _ _ _ (Shape.of_eq (hraw _))]
    simp only [hraw]
    rw [show t.heap.toGraph = s.heap.toGraph from ht]
    rfl
  unfold copy
  split
  · exact key s rfl
  · show Mem.connect spoil _ _ _ = _
    have h1 := key (s.readArrays x) (by
      show (s.heap.readOptimizerArray x).toGraph = _
      exact Heap.readOptimizerArray_graph s.heap x)
    rw [h1]
    apply Mem.connect_shape
    rw [copyBody_heap]
    unfold Heap.copyBody
    simp only []
    have h2 : ∀ t : Heap T, t.toGraph = s.heap.toGraph → ∀ v,
        (({ t with visited := v } : Heap T).rawCopy x).toGraph = (s.heap.rawCopy x).toGraph := by
      intro t ht v
      unfold Heap.rawCopy Heap.lift Heap.copyOf
      simp only [ht]
    refine Shape.trans (Shape.of_eq ?_) (setstateF_shape _ _ _)
    exact h2 (s.heap.readOptimizerArray x) (Heap.readOptimizerArray_graph s.heap x) _

end State

namespace Mem

variable {V : Type} {spoil : Nat → Nat → V} {g : Graph}

/-- What connecting any object below `x` keeps is kept by `__setstate__`. -/
theorem setstateF_ind (s : Skel g) {P : Mem V → Prop} : ∀ (n : Nat) (m : Mem V) (x : Id),
    (∀ m y, Anc g x y → g.leaf y = false → P m → P (connect spoil g m y)) → P m →
    P (setstateF spoil g n m x)
  | 0, _, _, _, h => h
  | n + 1, m, x, hP, h => by
    have key : ∀ (L : List Id) (m : Mem V), (∀ c ∈ L, c ∈ g.kids x) → P m →
        P (L.foldl (fun m c => setstateF spoil g n m c) m) := by
      intro L
      induction L with
      | nil => intro m _ h; exact h
      | cons c L ih =>
        intro m hL h
        rw [List.foldl_cons]
        have hc := (s.mem_iff _ _).mp (hL c (by simp))
        exact ih _ (fun d hd => hL d (by simp [hd]))
          (setstateF_ind s n m c (fun m y hy => hP m y ((Anc.of_parent hc).trans hy)) h)
    unfold setstateF
    simp only []
    split
    · exact key _ _ (fun _ h => h) h
    · rename_i hl
      exact hP _ x .refl (by simpa using hl) (key _ _ (fun _ h => h) h)

end Mem

end Paramz.Memory

import Verif.Mem.GradLemmas

/-!
# Gradients of copies (C82): lemmas

The memory of the gradients of a copy is the memory of its values, except that `Param`s own their arrays.
-/

set_option linter.unusedSectionVars false

namespace Paramz.Memory

open Hier (Id Graph Heap upd upd_same upd_ne pick pick_some pick_none)
open Hier.Graph (Skel Sized At Anc)

namespace Mem

variable {V : Type} {g g' : Graph} {m m' m'' : Mem V}

theorem Near.trans {lo : Nat} (h : Near lo g m m') (h' : Near lo g m' m'') : Near lo g m m'' := by
  obtain ⟨P, h⟩ := h
  obtain ⟨Q, h'⟩ := h'
  refine ⟨fun b => P b ∨ Q b, h'.arr.trans h.arr, h'.next.trans h.next, h'.bad.trans h.bad, ?_, ?_, ?_, ?_, ?_⟩
  · intro b i hb
    rw [h'.cell b i (fun q => hb (.inr q)), h.cell b i (fun q => hb (.inl q))]
  · intro b hb
    rw [h'.freed b (fun q => hb (.inr q)), h.freed b (fun q => hb (.inl q))]
  · rintro n (hp | hq)
    · exact h.used n hp
    · rw [← h.view n] at hq
      exact h'.used n hq
  · rintro b (hp | hq)
    · exact h.range b hp
    · have := h'.range b hq
      rw [h.next] at this
      exact this
  · intro n
    rcases h'.owns n with e | ⟨a, b, c, d, e, f⟩
    · rw [e]; exact h.owns n
    · rcases h.owns n with e' | ⟨-, b', -⟩
      · right
        refine ⟨a, b, e'.symm.trans c, fun k hk => ?_, ?_, ?_⟩
        · rw [← h.view k, ← h.view n]; exact d k hk
        · rw [← h.view n]; exact e
        · rw [← h.view n, ← h.next]; exact f
      · rw [c] at b'; cases b'

theorem Near.mono {lo lo' : Nat} (h : Near lo g m m') (hl : lo' ≤ lo) : Near lo' g m m' := by
  obtain ⟨P, h⟩ := h
  exact ⟨P, h.arr, h.next, h.bad, h.cell, h.freed, h.used, fun b hb => ⟨Nat.le_trans hl (h.range b hb).1, (h.range b hb).2⟩,
    fun n => (h.owns n).imp id (fun ⟨a, b, c, d, e, f⟩ => ⟨a, b, c, d, Nat.le_trans hl e, f⟩)⟩

theorem rawLoad_view (own : Id → Bool) (m : Mem V) (x n : Id) :
    (m.rawLoad own g x).view n = match pick (g.subtree x) g.next n with
      | none => m.view n
      | some y => if g.leaf y then ⟨m.next + (g.subtree x).idxOf y, 0, g.size y⟩ else ⟨0, 0, 0⟩ := by
  show ((match pick (g.subtree x) g.next n with
      | none => m.arr n
      | some y => if g.leaf y then some ⟨m.next + (g.subtree x).idxOf y, 0, g.size y⟩ else none).getD _) = _
  cases pick (g.subtree x) g.next n with
  | none => rfl
  | some y =>
    dsimp only
    split <;> rfl

/-- The same memory with other owners, before and after the arrays of a copy are made. -/
theorem Near.rawLoad (h : Near 1 g m m') (own : Id → Bool) (x : Id)
    (hlt : ∀ k, g.leaf k = true → k < g.next) (hl : ∀ k, k < g.next → g'.leaf k = g.leaf k) :
    Near 1 g' (m.rawLoad own g x) (m'.rawLoad own g x) := by
  obtain ⟨P, h⟩ := h
  have hnP : ∀ b, m.next ≤ b → ¬ P b := fun b hb hp => by have := (h.range b hp).2; omega
  have hn0 : ¬ P 0 := fun hp => by have := (h.range 0 hp).1; omega
  refine ⟨P, ?_, ?_, ?_, ?_, ?_, ?_, ?_, ?_⟩
  · funext n
    show (match pick (g.subtree x) g.next n with
      | none => m'.arr n
      | some y => if g.leaf y then some ⟨m'.next + (g.subtree x).idxOf y, 0, g.size y⟩ else none) = _
    rw [h.arr, h.next]
    rfl
  · show m'.next + _ = m.next + _
    rw [h.next]
  · show (m'.bad || _) = (m.bad || _)
    rw [h.bad]
    congr 2
    funext y
    rw [h.view y, h.freed _ (h.used y)]
  · intro b i hb
    show (match pick (g.subtree x) m'.next b with
      | none => m'.cell b i
      | some y => if g.leaf y = true ∧ i < g.size y then m'.read y i else m'.cell b i) =
      (match pick (g.subtree x) m.next b with
      | none => m.cell b i
      | some y => if g.leaf y = true ∧ i < g.size y then m.read y i else m.cell b i)
    rw [h.next]
    cases pick (g.subtree x) m.next b with
    | none => exact h.cell b i hb
    | some y => dsimp only; rw [h.read, h.cell b i hb]
  · exact h.freed
  · intro n
    rw [rawLoad_view]
    cases hp : pick (g.subtree x) g.next n with
    | none => exact h.used n
    | some y =>
      dsimp only
      split
      · exact hnP _ (Nat.le_add_right _ _)
      · exact hn0
  · intro b hb
    refine ⟨(h.range b hb).1, Nat.lt_of_lt_of_le (h.range b hb).2 ?_⟩
    show m.next ≤ m.next + _
    exact Nat.le_add_right _ _
  · intro n
    show (match pick (g.subtree x) g.next n with
        | none => m'.owns n
        | some y => g.leaf y && own y) = (match pick (g.subtree x) g.next n with
        | none => m.owns n
        | some y => g.leaf y && own y) ∨ _ ∧ (match pick (g.subtree x) g.next n with
        | none => m'.owns n
        | some y => g.leaf y && own y) = true ∧ (match pick (g.subtree x) g.next n with
        | none => m.owns n
        | some y => g.leaf y && own y) = false ∧ _
    cases hp : pick (g.subtree x) g.next n with
    | some y => exact .inl rfl
    | none =>
      dsimp only
      refine (h.owns n).imp id (fun ⟨a, b, c, d, e, f⟩ => ?_)
      have hnlt := hlt n a
      have hvn : (m.rawLoad own g x).view n = m.view n := by rw [rawLoad_view, hp]
      rw [hvn]
      refine ⟨(hl n hnlt).trans a, b, c, fun k hk => ?_, e, ?_⟩
      · rw [rawLoad_view]
        cases hpk : pick (g.subtree x) g.next k with
        | none => exact d k hk
        | some y =>
          dsimp only
          split
          · show m.next + _ ≠ _
            omega
          · show 0 ≠ _
            omega
      · show _ < m.next + _
        omega

end Mem

namespace State

variable {V T : Type} [DecidableEq T] {spoil : Nat → Nat → V}

theorem Twin.reconnect {s s' : State V T} (t : Twin s s') (x : Id) :
    Twin (s.reconnect spoil x) (s'.reconnect spoil x) :=
  (t.connect x).on (f := fun h => (h.connectFixes x).notifyParentChange x)
    ((quiet_fixes _ _).trans (quiet_notify _ _))

theorem Twin.setstateF : ∀ (n : Nat) {s s' : State V T} (_ : Twin s s') (x : Id),
    Twin (s.setstateF spoil n x) (s'.setstateF spoil n x)
  | 0, _, _, t, _ => t
  | n + 1, s, s', t, x => by
    have key : ∀ (L : List Id) {s s' : State V T}, Twin s s' →
        Twin (L.foldl (fun s c => State.setstateF spoil n s c) s) (L.foldl (fun s c => State.setstateF spoil n s c) s') := by
      intro L
      induction L with
      | nil => intro s s' t; exact t
      | cons c L ih => intro s s' t; exact ih (Twin.setstateF n t c)
    simp only [State.setstateF]
    rw [t.heap]
    have t1 := key (s.heap.kids x) t
    split
    · exact t1
    · exact t1.reconnect x

/-- The new objects, before they are connected. -/
theorem Twin.raw {s s' : State V T} (t : Twin s s') (sk : Skel s.heap.toGraph) (l : Linked s) (hb : Bounded s.mem) {x : Id}
    (hx : x < s.heap.next) : Twin (⟨s.heap.rawCopy x, s.mem.rawCopy s.heap.toGraph x⟩ : State V T)
      ⟨s.heap.rawCopy x, s'.mem.rawLoad (fun _ => true) s.heap.toGraph x⟩ := by
  have hnd := Hier.Graph.nodup_subtree sk x
  have hcase : ∀ n, (pick (s.heap.toGraph.subtree x) s.heap.next n = none) ∨
      ∃ y, Anc s.heap.toGraph x y ∧ n = s.heap.copyOf x y := by
    intro n
    cases hp : pick (s.heap.toGraph.subtree x) s.heap.next n with
    | none => exact .inl rfl
    | some y =>
      obtain ⟨h1, h2⟩ := (pick_some hnd).mp hp
      exact .inr ⟨y, sk.mem_subtree.mp h1, h2⟩
  have hnx : (s.heap.rawCopy x).next = s.heap.next + (s.heap.toGraph.subtree x).length := rfl
  have hlo : ∀ n, pick (s.heap.toGraph.subtree x) s.heap.next n = none → (s.heap.rawCopy x).leaf n = s.heap.leaf n := by
    intro n hn
    show (match pick (s.heap.toGraph.subtree x) s.heap.next n with
      | none => s.heap.leaf n
      | some y => _) = _
    rw [hn]
  have hko : ∀ n, pick (s.heap.toGraph.subtree x) s.heap.next n = none → (s.heap.rawCopy x).kids n = s.heap.kids n := by
    intro n hn
    show (match pick (s.heap.toGraph.subtree x) s.heap.next n with
      | none => s.heap.kids n
      | some y => _) = _
    rw [hn]
  refine ⟨rfl, ?_, ?_, ?_, ?_⟩
  · intro n hn
    have hn : (s.heap.rawCopy x).leaf n = true := hn
    show (s.heap.rawCopy x).kids n = []
    rcases hcase n with hp | ⟨y, hy, rfl⟩
    · rw [hko n hp]
      exact t.kids n ((hlo n hp).symm.trans hn)
    · rw [Heap.raw_kids_new sk hy, t.kids y ((Heap.raw_leaf_new sk hy).symm.trans hn)]
      rfl
  · intro n hn
    have hn : (s.heap.rawCopy x).leaf n = true := hn
    show n < (s.heap.rawCopy x).next
    rw [hnx]
    rcases hcase n with hp | ⟨y, hy, rfl⟩
    · exact Nat.lt_of_lt_of_le (t.lt n ((hlo n hp).symm.trans hn)) (Nat.le_add_right _ _)
    · exact Nat.add_lt_add_left (List.idxOf_lt_length_of_mem (sk.mem_subtree.mpr hy)) _
  · refine Mem.Near.trans ((rawLoad_near sk hb l.lo l.fits hx (fun _ => true)).mono t.pos) ?_
    refine t.near.rawLoad (fun _ => true) x t.lt (fun k hk => hlo k ?_)
    exact pick_none.mpr (.inl hk)
  · exact Nat.lt_of_lt_of_le t.pos (Nat.le_add_right _ _)

theorem Twin.copyBody {s s' : State V T} (t : Twin s s') (sk : Skel s.heap.toGraph) (l : Linked s) (hb : Bounded s.mem)
    {x : Id} (hx : x < s.heap.next) : Twin (s.copyBody spoil x) (s'.gcopyBody spoil x) := by
  have t1 : Twin ({ s with heap := { s.heap with visited := (s.heap.copySearch x).marks } } : State V T)
      { s' with heap := { s.heap with visited := (s.heap.copySearch x).marks } } :=
    ⟨rfl, t.kids, t.lt, t.near.of_leaf rfl, t.pos⟩
  have l1 : Linked ({ s with heap := { s.heap with visited := (s.heap.copySearch x).marks } } : State V T) :=
    ⟨l.lo, l.fits, l.calm⟩
  have t2 := t1.raw (x := x) sk l1 hb hx
  unfold State.copyBody gcopyBody
  simp only []
  rw [t.heap]
  exact t2.setstateF _ _

theorem readOptimizerArray_rest (h : Heap T) (x : Id) : (h.readOptimizerArray x).toGraph = h.toGraph ∧
    (h.readOptimizerArray x).inInit = h.inInit ∧ (h.readOptimizerArray x).inited = h.inited := by
  unfold Heap.readOptimizerArray
  split <;> exact ⟨rfl, rfl, rfl⟩

theorem Twin.copied {s s' : State V T} (t : Twin s s') (h : Reach spoil s) {x : Id} (hx : x < s.heap.next)
    (h0 : 0 < s.heap.size x) (hd : s.heap.leaf x = true ∨ Done s.heap x) :
    Twin (s.copy spoil x).1 (s'.gcopied spoil x) := by
  obtain ⟨h', m'⟩ := s'
  obtain rfl : h' = s.heap := t.heap
  obtain ⟨g1, g2, g3⟩ := readOptimizerArray_rest s.heap x
  have sk := h.heap.wf.skel
  unfold State.copy gcopied
  dsimp only
  split
  · exact t.copyBody sk h.linked h.bounded hx
  · rename_i hl
    have em : s.mem.ensure s.heap.toGraph x = s.mem := by
      obtain ⟨v, hv, hlen⟩ := assignable_fits h hx h0 hd
      unfold Mem.ensure
      rw [hv]
      dsimp only
      rw [if_pos hlen, ite_self]
    have e : s.readArrays x = { s with heap := s.heap.readOptimizerArray x } := by
      unfold State.readArrays
      rw [em]
    rw [e]
    have t1 : Twin ({ s with heap := s.heap.readOptimizerArray x } : State V T)
        ⟨s.heap.readOptimizerArray x, m'⟩ := t.on (f := fun h => h.readOptimizerArray x) (Quiet.of_graph g1)
    have l1 : Linked ({ s with heap := s.heap.readOptimizerArray x } : State V T) := by
      obtain ⟨a, b, c⟩ := h.linked
      refine ⟨?_, ?_, ?_⟩
      · show LeafOwn (s.heap.readOptimizerArray x).toGraph s.mem
        rw [g1]; exact a
      · show LeafFits V (s.heap.readOptimizerArray x).toGraph s.mem
        rw [g1]; exact b
      · intro n hn hdn
        show Calm (s.heap.readOptimizerArray x).toGraph s.mem n
        rw [g1]
        have e2 : (s.heap.readOptimizerArray x).next = s.heap.next := congrArg Graph.next g1
        refine c n (e2 ▸ hn) ?_
        unfold Done at hdn ⊢
        dsimp only at hdn
        rw [g2, g3] at hdn
        exact hdn
    refine (t1.copyBody ?_ l1 h.bounded ?_).reconnect _
    · show Skel (s.heap.readOptimizerArray x).toGraph
      rw [g1]; exact sk
    · show x < (s.heap.readOptimizerArray x).toGraph.next
      rw [g1]; exact hx

end State

end Paramz.Memory

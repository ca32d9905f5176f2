import Verif.Mem.ValueProps
import Verif.Hier.CopyProps

/-!
# C60: the values of a copy

Vocabulary: `s.copy spoil x` is the state after `x.copy()` and the number of the copy; `copyOf x y` is the
copy of `y`, an object below `x` (`Heap.copy_shape`: the copies form a hierarchy of the same shape).
-/

set_option linter.unusedSectionVars false

namespace Paramz.Memory

open Hier (Id Graph Heap upd upd_same upd_ne)
open Hier.Graph (Skel Sized At Anc)

namespace State

variable {V T : Type} [DecidableEq T] {spoil : Nat → Nat → V}

/-- **C60.** Every `Param` of the copy has the values of the `Param` it is a copy of. -/
theorem copy_values {s : State V T} (h : Reach spoil s) {x y : Id} (ok : s.heap.CopyOK x)
    (hy : Anc s.heap.toGraph x y) (hl : s.heap.leaf y = true) {i : Nat} (hi : i < s.heap.size y) :
    (s.copy spoil x).1.mem.read (s.heap.copyOf x y) i = s.mem.read y i :=
  (copy_sound h.heap.wf h.linked h.bounded ok.lt).2.1 y hy hl i hi

/-- **C60.** The array of every `Parameterized` of the copy holds the values of its original, if that has
been initialised. -/
theorem copy_array_values {s : State V T} (h : Reach spoil s) {x y : Id} (ok : s.heap.CopyOK x)
    (hy : Anc s.heap.toGraph x y) (hd : Done s.heap y) {i : Nat} (hi : i < s.heap.size y) :
    (s.copy spoil x).1.mem.read (s.heap.copyOf x y) i = s.mem.read y i := by
  have w := h.heap.wf
  have sk := w.skel
  have sk' := Heap.raw_skel sk ok.lt
  have z' : Sized (s.heap.rawCopy x).toGraph := Heap.raw_sized sk w.sized
  obtain ⟨z, k, hz, hlz, hk1, hk2⟩ := sk.exists_leaf w.sized y i hi
  have hzs : i - k < s.heap.size z := by
    have : s.heap.toGraph.size z = s.heap.size z := rfl
    omega
  have hxz := hy.trans (hz.anc sk)
  have h1 := copy_values h ok hxz hlz hzs
  have h2 := read_same h (lt_of_anc sk ok.lt hy) hd hz hzs
  rw [show k + (i - k) = i by omega] at h2
  rw [← h2, ← h1]
  -- the same inside the copy
  have cm := copy_copyMem spoil w h.linked h.bounded ok.lt
  obtain ⟨b, o, hc⟩ := cm.calm y hy
  rw [raw_graph spoil s x sk ok.lt] at hc
  have hat : At (s.heap.rawCopy x).toGraph (s.heap.copyOf x y) (s.heap.copyOf x z) k := by
    obtain ⟨a, ha⟩ := sk.exists_at hy
    have e1 := Heap.raw_at sk ha
    have e2 := Heap.raw_at sk (ha.trans hz)
    have han : Anc (s.heap.rawCopy x).toGraph (s.heap.copyOf x y) (s.heap.copyOf x z) := by
      have hza := hz.anc sk
      clear hz hk1 hk2 hzs h1 h2 hlz e2 hxz
      induction hza with
      | refl => exact .refl
      | step h3 h4 ih => exact .step ih (Heap.raw_child sk (hy.trans h3) h4)
    obtain ⟨k', hk', he⟩ := sk'.at_below e1 e2 han
    have : k' = k := by omega
    rw [this] at hk'; exact hk'
  have hsz : (s.heap.rawCopy x).toGraph.size (s.heap.copyOf x z) = s.heap.size z :=
    Heap.raw_size_new sk hxz
  have hsy : (s.heap.rawCopy x).toGraph.size (s.heap.copyOf x y) = s.heap.size y :=
    Heap.raw_size_new sk hy
  obtain ⟨c1, -⟩ := hc _ k hat (by rw [hsz]; omega)
  obtain ⟨c2, -⟩ := hc _ 0 .refl (by rw [hsy]; omega)
  rw [Mem.read_eq c1, Mem.read_eq c2]
  simp only [Nat.add_zero]
  congr 1
  omega

/-- **C60.** Every `Parameterized` of the copy is initialised, whether or not its original was, unless it
is copied while its constructor runs. -/
theorem copy_initialised {s : State V T} (h : Reach spoil s) {x y : Id} (ok : s.heap.CopyOK x)
    (hl : s.heap.leaf x = false) (hy : Anc s.heap.toGraph x y) (hi : s.heap.inInit y = false) :
    Done (s.copy spoil x).1.heap (s.heap.copyOf x y) :=
  copy_done_new h.heap.wf ok.lt hl hy hi

/-- **C60.** Copying changes no value of anything that exists: not of any `Param`, and not of the array of
any initialised object. -/
theorem copy_keeps_values {s : State V T} (h : Reach spoil s) {x n : Id} (ok : s.heap.CopyOK x)
    (hn : n < s.heap.next) (hd : s.heap.leaf n = true ∨ Done s.heap n) {i : Nat} (hi : i < s.heap.size n) :
    (s.copy spoil x).1.mem.read n i = s.mem.read n i := by
  have w := h.heap.wf
  have cm := copy_copyMem spoil w h.linked h.bounded ok.lt
  obtain ⟨b, o, hc⟩ := settled_calm w h.linked hn hd
  obtain ⟨h1, -⟩ := hc n 0 .refl (by
    show 0 < s.heap.size n
    omega)
  have h2 := cm.old hn (by
    by_cases hnx : n = x
    · subst hnx; exact .inr (.inr ⟨_, h1, rfl⟩)
    · exact .inl hnx)
  rw [Mem.read_eq (h2.1.trans h1), Mem.read_eq h1]
  exact cm.cells _ _ (h.bounded n _ h1)

/-- Writes to elements of objects: object, element, value. -/
abbrev Writes (V : Type) := List (Id × Nat × V)

/-- The state after some writes. -/
def write (spoil : Nat → Nat → V) (s : State V T) (ws : Writes V) : State V T :=
  ws.foldl (fun s w => (s.exec spoil (.write w.1 w.2.1 w.2.2)).1) s

theorem write_heap (s : State V T) : ∀ ws : Writes V, (s.write spoil ws).heap = s.heap ∧
    (s.write spoil ws).mem.arr = s.mem.arr
  | [] => ⟨rfl, rfl⟩
  | w :: ws => by
    unfold write
    rw [List.foldl_cons]
    exact write_heap (s.exec spoil (.write w.1 w.2.1 w.2.2)).1 ws

/-- Writes into other buffers are not seen. -/
theorem write_elsewhere {s : State V T} {n : Id} {v : View} (hv : s.mem.arr n = some v) (i : Nat) :
    ∀ ws : Writes V, (∀ w ∈ ws, ∃ u, s.mem.arr w.1 = some u ∧ u.buf ≠ v.buf) →
      (s.write spoil ws).mem.read n i = s.mem.read n i
  | [], _ => rfl
  | w :: ws, hw => by
    obtain ⟨u, hu, hne⟩ := hw w (by simp)
    have ih := write_elsewhere (s := (s.exec spoil (.write w.1 w.2.1 w.2.2)).1) hv i ws
      (fun w' h' => hw w' (by simp [h']))
    unfold write at ih ⊢
    rw [List.foldl_cons, ih]
    show (if (s.mem.view n).buf = (s.mem.view w.1).buf ∧ (s.mem.view n).off + i = (s.mem.view w.1).off + w.2.1
      then w.2.2 else s.mem.cell (s.mem.view n).buf ((s.mem.view n).off + i)) = _
    rw [Mem.view_eq hu, Mem.view_eq hv, if_neg (fun h => hne h.1.symm)]
    unfold Mem.read
    rw [Mem.view_eq hv]

/-- **C60.** The copy and the rest of the world share no memory: whatever is assigned to existing elements
of old objects, the copy keeps the values it was made with; whatever is assigned to existing elements of
the copy, all old objects keep theirs. -/
theorem copy_separate {s : State V T} (h : Reach spoil s) {x : Id} (ok : s.heap.CopyOK x)
    (ws : Writes V) (hws : ∀ w ∈ ws, (s.copy spoil x).1.Admissible (.write w.1 w.2.1 w.2.2)) :
    ((∀ w ∈ ws, w.1 < s.heap.next) → ∀ y, Anc s.heap.toGraph x y →
      (s.heap.leaf y = true ∨ Done s.heap y) → ∀ i, i < s.heap.size y →
      ((s.copy spoil x).1.write spoil ws).mem.read (s.heap.copyOf x y) i = s.mem.read y i) ∧
    ((∀ w ∈ ws, ∃ y, Anc s.heap.toGraph x y ∧ w.1 = s.heap.copyOf x y) → ∀ n, n < s.heap.next →
      (s.heap.leaf n = true ∨ Done s.heap n) → ∀ i, i < s.heap.size n →
      ((s.copy spoil x).1.write spoil ws).mem.read n i = s.mem.read n i) := by
  have w := h.heap.wf
  have sk := w.skel
  have h' : Reach spoil (s.copy spoil x).1 := .copy h ok
  have w' := h'.heap.wf
  have cm := copy_copyMem spoil w h.linked h.bounded ok.lt
  have hgr := raw_graph spoil s x sk ok.lt
  have harr : ∀ n i, n < (s.copy spoil x).1.heap.next →
      ((s.copy spoil x).1.heap.leaf n = true ∨ Done (s.copy spoil x).1.heap n) →
      i < (s.copy spoil x).1.heap.size n → ∃ v, (s.copy spoil x).1.mem.arr n = some v := by
    intro n i hn hd hi
    obtain ⟨b, o, hc⟩ := settled_calm w' h'.linked hn hd
    exact ⟨_, (hc n 0 .refl (by
      show 0 < (s.copy spoil x).1.heap.size n
      omega)).1⟩
  have hlow : ∀ n i v, n < s.heap.next →
      ((s.copy spoil x).1.heap.leaf n = true ∨ Done (s.copy spoil x).1.heap n) →
      i < (s.copy spoil x).1.heap.size n → (s.copy spoil x).1.mem.arr n = some v → v.buf < s.mem.next := by
    intro n i v hn hd hi hv
    have e1 : (s.copy spoil x).1.heap.leaf n = s.heap.leaf n := by
      rw [show (s.copy spoil x).1.heap.leaf = (s.heap.rawCopy x).toGraph.leaf by rw [← hgr]]
      exact Heap.lift_old _ _ hn
    have e2 : (s.copy spoil x).1.heap.size n = s.heap.size n := by
      rw [show (s.copy spoil x).1.heap.size = (s.heap.rawCopy x).toGraph.size by rw [← hgr]]
      exact Heap.lift_old _ _ hn
    rw [e1] at hd
    rw [e2] at hi
    have hd0 : s.heap.leaf n = true ∨ Done s.heap n :=
      hd.imp id (copy_done_old spoil w ok.lt hn).mp
    obtain ⟨b, o, hc⟩ := settled_calm w h.linked hn hd0
    obtain ⟨h1, -⟩ := hc n 0 .refl (by
      show 0 < s.heap.size n
      omega)
    rw [(cm.old hn (by
      by_cases hnx : n = x
      · subst hnx; exact .inr (.inr ⟨_, h1, rfl⟩)
      · exact .inl hnx)).1] at hv
    exact h.bounded n v hv
  constructor
  · intro hold y hy hd i hi
    have hv : (s.copy spoil x).1.mem.read (s.heap.copyOf x y) i = s.mem.read y i := by
      rcases hd with hd | hd
      · exact copy_values h ok hy hd hi
      · exact copy_array_values h ok hy hd hi
    obtain ⟨b, o, hc⟩ := cm.calm y hy
    have hsy : (s.copy spoil x).1.heap.toGraph.size (s.heap.copyOf x y) = s.heap.size y := by
      rw [hgr]; exact Heap.raw_size_new sk hy
    obtain ⟨h1, -⟩ := hc _ 0 .refl (by rw [hsy]; omega)
    rw [← hv]
    refine write_elsewhere h1 i ws (fun w0 hw0 => ?_)
    obtain ⟨a1, a2, a3⟩ := hws w0 hw0
    obtain ⟨u, hu⟩ := harr w0.1 w0.2.1 a1 a3 a2
    refine ⟨u, hu, ?_⟩
    have e1 := hlow w0.1 w0.2.1 u (hold w0 hw0) a3 a2 hu
    have e2 := cm.fresh y _ hy h1
    simp only at e2 ⊢
    omega
  · intro hnew n hn hd i hi
    rw [← copy_keeps_values h ok hn hd hi]
    have e1 : (s.copy spoil x).1.heap.leaf n = s.heap.leaf n := by
      rw [show (s.copy spoil x).1.heap.leaf = (s.heap.rawCopy x).toGraph.leaf by rw [← hgr]]
      exact Heap.lift_old _ _ hn
    have e2 : (s.copy spoil x).1.heap.size n = s.heap.size n := by
      rw [show (s.copy spoil x).1.heap.size = (s.heap.rawCopy x).toGraph.size by rw [← hgr]]
      exact Heap.lift_old _ _ hn
    have hd' : (s.copy spoil x).1.heap.leaf n = true ∨ Done (s.copy spoil x).1.heap n := by
      rw [e1]; exact hd.imp id (copy_done_old spoil w ok.lt hn).mpr
    have hlt : n < (s.copy spoil x).1.heap.next := by
      rw [show (s.copy spoil x).1.heap.next = (s.heap.rawCopy x).toGraph.next by rw [← hgr]]
      exact Nat.lt_of_lt_of_le hn (Nat.le_add_right _ _)
    obtain ⟨v, hv⟩ := harr n i hlt hd' (by rw [e2]; exact hi)
    refine write_elsewhere hv i ws (fun w0 hw0 => ?_)
    obtain ⟨a1, a2, a3⟩ := hws w0 hw0
    obtain ⟨u, hu⟩ := harr w0.1 w0.2.1 a1 a3 a2
    refine ⟨u, hu, ?_⟩
    obtain ⟨y, hy, he⟩ := hnew w0 hw0
    rw [he] at hu
    have k1 := cm.fresh y u hy hu
    have k2 := hlow n i v hn hd' (by rw [e2]; exact hi) hv
    omega

/-! ### A concrete copy -/

theorem demo_copyOK : demo.heap.CopyOK 2 :=
  ⟨by decide +kernel, fun p hp => by
    have h0 : demo.heap.parent 2 = some 0 := by decide +kernel
    rw [h0] at hp
    cases hp
    decide +kernel⟩

/-- A copy of the sub-hierarchy `2` of the demo: objects `6` to `8`. -/
def copied : State Nat Nat := (demo.copy demoSpoil 2).1

theorem copied_path : Path demoSpoil copied :=
  .copy demo_path demo_copyOK (.inr (doneB (by decide +kernel)))

example : copied.values 6 = [30, 31, 32, 40] ∧ copied.values 7 = [30, 31, 32] ∧ copied.values 8 = [40] ∧
    copied.values 0 = [10, 11, 30, 31, 32, 40, 50, 51] ∧ copied.heap.parent 6 = none := by decide +kernel

/-- Assignments to the copy and to the original do not meet. -/
example : (copied.write demoSpoil [(7, 1, 5), (6, 3, 6)]).values 6 = [30, 5, 32, 6] ∧
    (copied.write demoSpoil [(7, 1, 5), (6, 3, 6)]).values 0 = [10, 11, 30, 31, 32, 40, 50, 51] ∧
    (copied.write demoSpoil [(3, 1, 5), (0, 5, 6)]).values 6 = [30, 31, 32, 40] ∧
    (copied.write demoSpoil [(3, 1, 5), (0, 5, 6)]).values 2 = [30, 5, 32, 6] := by decide +kernel

example (i : Nat) (hi : i < demo.heap.size 3) (a b : Nat) :
    ((demo.copy demoSpoil 2).1.write demoSpoil [(3, 1, a), (0, 5, b)]).mem.read (demo.heap.copyOf 2 3) i =
      demo.mem.read 3 i := by
  refine (copy_separate demo_reach demo_copyOK _ ?_).1 ?_ 3 (.of_parent (by decide +kernel))
    (.inl (by decide +kernel)) i hi
  · intro w hw
    simp only [List.mem_cons, List.not_mem_nil, or_false] at hw
    have e : ∀ x i v, copied.admissibleB (.write x i v) = copied.admissibleB (.write x i 0) :=
      fun _ _ _ => rfl
    rcases hw with rfl | rfl
    · exact admissibleB_sound copied_path.reach.heap.wf ((e 3 1 a).trans (by decide +kernel))
    · exact admissibleB_sound copied_path.reach.heap.wf ((e 0 5 b).trans (by decide +kernel))
  · intro w hw
    simp only [List.mem_cons, List.not_mem_nil, or_false] at hw
    rcases hw with rfl | rfl
    · show 3 < demo.heap.next
      decide +kernel
    · show 0 < demo.heap.next
      decide +kernel

/-- The copy of a hierarchy whose parts were made with `initialize=False` has the right values, although
initialising the hierarchy itself would destroy them (`uninitialised_parts_fails`). -/
example : ∃ s : State Nat Nat, Reach demoSpoil s ∧ s.heap.CopyOK 1 ∧ ¬ Done s.heap 1 ∧
    (s.copy demoSpoil 1).1.values (s.heap.copyOf 1 3) = [30] ∧
    (s.copy demoSpoil 1).1.values (s.heap.copyOf 1 1) = [30] := by
  refine ⟨raw, raw_reach, ⟨by decide +kernel, fun p hp => ?_⟩, ?_, by decide +kernel, by decide +kernel⟩
  · have h0 : raw.heap.parent 1 = some 0 := by decide +kernel
    rw [h0] at hp
    cases hp
    decide +kernel
  · rintro ⟨-, h⟩
    have h0 : raw.heap.inited 1 ≠ some true := by decide +kernel
    exact h0 h

/-- Linking the copy elsewhere: the hypotheses of C35 are met by histories with copies. -/
example : Path demoSpoil (run demoSpoil copied [.heap (.link 0 6 none)]) ∧
    (run demoSpoil copied [.heap (.link 0 6 none)]).values 0 =
      [10, 11, 30, 31, 32, 40, 50, 51, 30, 31, 32, 40] := by
  refine ⟨Path.run copied_path _ (by decide +kernel), by decide +kernel⟩

end State

end Paramz.Memory

import Verif.Mem.PickleLemmas
import Verif.Mem.CopyProps
import Verif.Hier.PickleProps

/-!
# C70: the values of a loaded model

Vocabulary: `s.load spoil own refs x` is what saving `x` and loading the file gives (`none` if loading
raises): the state afterwards and the number of the object returned. `own` says which arrays come out of
the file owning their memory, `refs` the order in which the objects are found in the attributes; both are
arbitrary. `copyOf x y` is the loaded counterpart of `y` (`Heap.load_shape`).
-/

set_option linter.unusedSectionVars false

namespace Paramz.Memory

open Hier (Id Graph Heap upd upd_same upd_ne)
open Hier.Graph (Skel Sized At Anc)

namespace State

variable {V T : Type} [DecidableEq T] {spoil : Nat → Nat → V}

/-- **C70.** A whole model can be loaded, and every `Param` of the loaded model has the values its
counterpart had when the model was saved. -/
theorem load_values {s : State V T} (h : Reach spoil s) {refs : Id → List Id} (hr : s.heap.Refs refs)
    (own : Id → Bool) {x : Id} (hx : x < s.heap.next) (hp : s.heap.parent x = none) :
    ∃ s', s.load spoil own refs x = some (s', s.heap.copyOf x x) ∧
      ∀ y, Anc s.heap.toGraph x y → s.heap.leaf y = true → ∀ i, i < s.heap.size y →
        s'.mem.read (s.heap.copyOf x y) i = s.mem.read y i := by
  obtain ⟨s', e, L⟩ := load_loadMem (spoil := spoil) h.heap.wf h.linked h.bounded hr hx hp own
  exact ⟨s', by rw [e, Heap.copyOf_self], L.values⟩

/-- **C70.** The array of a loaded `Parameterized` holds the values of its original, if that has been
initialised. -/
theorem load_array_values {s s' : State V T} (h : Reach spoil s) {refs : Id → List Id}
    (hr : s.heap.Refs refs) {own : Id → Bool} {x r : Id} (hx : x < s.heap.next)
    (hp : s.heap.parent x = none) (hl : s.load spoil own refs x = some (s', r)) {y : Id}
    (hy : Anc s.heap.toGraph x y) (hd : Done s.heap y) {i : Nat} (hi : i < s.heap.size y) :
    s'.mem.read (s.heap.copyOf x y) i = s.mem.read y i := by
  obtain ⟨_, e, L⟩ := load_loadMem (spoil := spoil) h.heap.wf h.linked h.bounded hr hx hp own
  rw [hl] at e
  cases e
  have w := h.heap.wf
  have sk := w.skel
  obtain ⟨z, k, hz, hlz, hk1, hk2⟩ := sk.exists_leaf w.sized y i hi
  have hzs : i - k < s.heap.size z := by
    have : s.heap.toGraph.size z = s.heap.size z := rfl
    omega
  have hxz := hy.trans (hz.anc sk)
  have h1 := L.values z hxz hlz _ hzs
  have h2 := read_same h (lt_of_anc sk hx hy) hd hz hzs
  rw [show k + (i - k) = i by omega] at h2
  rw [← h2, ← h1]
  obtain ⟨b, o, hc⟩ := L.calm y hy
  have c1 := hc z k hz (by omega)
  have c2 := hc y 0 .refl (by omega)
  rw [Mem.read_eq c1, Mem.read_eq c2]
  simp only [Nat.add_zero]
  congr 1
  omega

/-- **C70.** In the loaded model the array of an object and the arrays of the objects below it are one
piece of memory, whether or not that was so in the model saved: if the elements of `z` start at the `k`-th
element of `y`, so does its array. -/
theorem load_one_array {s s' : State V T} (h : Reach spoil s) {refs : Id → List Id}
    (hr : s.heap.Refs refs) {own : Id → Bool} {x r : Id} (hx : x < s.heap.next)
    (hp : s.heap.parent x = none) (hl : s.load spoil own refs x = some (s', r)) {y : Id}
    (hy : Anc s.heap.toGraph x y) :
    ∃ b o, ∀ z k, At s.heap.toGraph y z k → 0 < s.heap.size z →
      s'.mem.arr (s.heap.copyOf x z) = some ⟨b, o + k, s.heap.size z⟩ := by
  obtain ⟨_, e, L⟩ := load_loadMem (spoil := spoil) h.heap.wf h.linked h.bounded hr hx hp own
  rw [hl] at e
  cases e
  exact L.calm y hy

/-- **C70.** Loading changes no value of anything that exists. -/
theorem load_keeps_values {s s' : State V T} (h : Reach spoil s) {refs : Id → List Id}
    (hr : s.heap.Refs refs) {own : Id → Bool} {x r : Id} (hx : x < s.heap.next)
    (hp : s.heap.parent x = none) (hl : s.load spoil own refs x = some (s', r)) {n : Id}
    (hn : n < s.heap.next) (hd : s.heap.leaf n = true ∨ Done s.heap n) {i : Nat}
    (hi : i < s.heap.size n) : s'.mem.read n i = s.mem.read n i := by
  obtain ⟨_, e, L⟩ := load_loadMem (spoil := spoil) h.heap.wf h.linked h.bounded hr hx hp own
  rw [hl] at e
  cases e
  obtain ⟨b, o, hc⟩ := settled_calm h.heap.wf h.linked hn hd
  have h1 := (hc n 0 .refl (by
    show 0 < s.heap.size n
    omega)).1
  rw [Mem.read_eq h1, Mem.read_eq ((L.old n hn).trans h1), L.cells _ _ (h.bounded n _ h1)]

/-- **C70.** The loaded model shares no memory with anything that existed: whatever is assigned to elements
of old objects, the loaded model keeps the values it was saved with; whatever is assigned to elements of
the loaded model, all old objects keep theirs. -/
theorem load_separate {s s' : State V T} (h : Reach spoil s) {refs : Id → List Id}
    (hr : s.heap.Refs refs) {own : Id → Bool} {x r : Id} (hx : x < s.heap.next)
    (hp : s.heap.parent x = none) (hl : s.load spoil own refs x = some (s', r)) (ws : Writes V) :
    ((∀ w ∈ ws, w.1 < s.heap.next ∧ w.2.1 < s.heap.size w.1 ∧
        (s.heap.leaf w.1 = true ∨ Done s.heap w.1)) → ∀ y, Anc s.heap.toGraph x y →
      (s.heap.leaf y = true ∨ Done s.heap y) → ∀ i, i < s.heap.size y →
      (s'.write spoil ws).mem.read (s.heap.copyOf x y) i = s.mem.read y i) ∧
    ((∀ w ∈ ws, ∃ y, Anc s.heap.toGraph x y ∧ w.1 = s.heap.copyOf x y ∧ w.2.1 < s.heap.size y) →
      ∀ n, n < s.heap.next → (s.heap.leaf n = true ∨ Done s.heap n) → ∀ i, i < s.heap.size n →
      (s'.write spoil ws).mem.read n i = s.mem.read n i) := by
  obtain ⟨_, e, L⟩ := load_loadMem (spoil := spoil) h.heap.wf h.linked h.bounded hr hx hp own
  have e0 := hl
  rw [e0] at e
  cases e
  have hold : ∀ n i, n < s.heap.next → i < s.heap.size n → (s.heap.leaf n = true ∨ Done s.heap n) →
      ∃ v, s'.mem.arr n = some v ∧ v.buf < s.mem.next := by
    intro n i hn hi hd
    obtain ⟨b, o, hc⟩ := settled_calm h.heap.wf h.linked hn hd
    have h1 := (hc n 0 .refl (by
      show 0 < s.heap.size n
      omega)).1
    exact ⟨_, (L.old n hn).trans h1, h.bounded n _ h1⟩
  have hnew : ∀ y i, Anc s.heap.toGraph x y → i < s.heap.size y →
      ∃ v, s'.mem.arr (s.heap.copyOf x y) = some v ∧ s.mem.next ≤ v.buf := by
    intro y i hy hi
    obtain ⟨b, o, hc⟩ := L.calm y hy
    have h1 := hc y 0 .refl (by omega)
    exact ⟨_, h1, L.fresh y _ hy h1⟩
  constructor
  · intro hw y hy hd i hi
    have hv : s'.mem.read (s.heap.copyOf x y) i = s.mem.read y i := by
      rcases hd with hd | hd
      · exact L.values y hy hd i hi
      · exact load_array_values h hr hx hp hl hy hd hi
    obtain ⟨v, h1, h2⟩ := hnew y i hy hi
    rw [← hv]
    refine write_elsewhere h1 i ws (fun w0 hw0 => ?_)
    obtain ⟨a1, a2, a3⟩ := hw w0 hw0
    obtain ⟨u, hu, hlt⟩ := hold w0.1 w0.2.1 a1 a2 a3
    exact ⟨u, hu, by omega⟩
  · intro hw n hn hd i hi
    rw [← load_keeps_values h hr hx hp hl hn hd hi]
    obtain ⟨v, h1, h2⟩ := hold n i hn hi hd
    refine write_elsewhere h1 i ws (fun w0 hw0 => ?_)
    obtain ⟨y, a1, a2, a3⟩ := hw w0 hw0
    obtain ⟨u, hu, hlt⟩ := hnew y _ a1 a3
    rw [← a2] at hu
    exact ⟨u, hu, by omega⟩

/-! ### A concrete file -/

/-- The demo model, saved and loaded: objects `6` to `11`; here every array owns its memory. -/
def reloaded : State Nat Nat :=
  ((demo.load demoSpoil (fun _ => true) demo.heap.attrs 0).map (·.1)).getD demo

theorem reloaded_eq : ∃ r, demo.load demoSpoil (fun _ => true) demo.heap.attrs 0 = some (reloaded, r) := by
  obtain ⟨s', e, -⟩ := load_values demo_reach (Heap.attrs_refs demo.heap) (fun _ => true)
    (x := 0) (by decide +kernel) (by decide +kernel)
  exact ⟨_, by rw [reloaded, e]; rfl⟩

example : reloaded.values (demo.heap.copyOf 0 0) = [10, 11, 30, 31, 32, 40, 50, 51] ∧
    reloaded.values (demo.heap.copyOf 0 2) = [30, 31, 32, 40] ∧
    reloaded.values 0 = [10, 11, 30, 31, 32, 40, 50, 51] := by decide +kernel

/-- Assignments to the loaded model and to the one saved do not meet. -/
example : (reloaded.write demoSpoil [(demo.heap.copyOf 0 3, 1, 5), (0, 5, 6)]).values 0 =
      [10, 11, 30, 31, 32, 6, 50, 51] ∧
    (reloaded.write demoSpoil [(demo.heap.copyOf 0 3, 1, 5), (0, 5, 6)]).values (demo.heap.copyOf 0 0) =
      [10, 11, 30, 5, 32, 40, 50, 51] := by decide +kernel

example (i : Nat) (hi : i < demo.heap.size 3) (a b : Nat) :
    (reloaded.write demoSpoil [(3, 1, a), (0, 5, b)]).mem.read (demo.heap.copyOf 0 3) i =
      demo.mem.read 3 i := by
  obtain ⟨r, e⟩ := reloaded_eq
  refine (load_separate demo_reach (Heap.attrs_refs demo.heap) (by decide +kernel)
    (by decide +kernel) e _).1 ?_ 3
    (.step (.of_parent (p := 0) (c := 2) (by decide +kernel)) (by decide +kernel))
    (.inl (by decide +kernel)) i hi
  intro w hw
  simp only [List.mem_cons, List.not_mem_nil, or_false] at hw
  rcases hw with rfl | rfl
  · show 3 < demo.heap.next ∧ 1 < demo.heap.size 3 ∧ (demo.heap.leaf 3 = true ∨ Done demo.heap 3)
    exact ⟨by decide +kernel, by decide +kernel, .inl (by decide +kernel)⟩
  · show 0 < demo.heap.next ∧ 5 < demo.heap.size 0 ∧ (demo.heap.leaf 0 = true ∨ Done demo.heap 0)
    exact ⟨by decide +kernel, by decide +kernel, .inr (doneB (by decide +kernel))⟩

/-- A model with parts that were not initialised can be saved and loaded without loss, although
initialising it would destroy values (`uninitialised_parts_fails`). -/
example : ∃ s : State Nat Nat, Reach demoSpoil s ∧ s.heap.parent 0 = none ∧ ¬ Done s.heap 0 ∧
    ∃ p, s.load demoSpoil (fun _ => true) s.heap.attrs 0 = some p ∧
      p.1.values (s.heap.copyOf 0 3) = [30] ∧ s.values 3 = [30] := by
  have e : (raw.load demoSpoil (fun _ => true) raw.heap.attrs 0).isSome = true := by decide +kernel
  obtain ⟨p, hp⟩ := Option.isSome_iff_exists.mp e
  refine ⟨raw, raw_reach, by decide +kernel, ?_, p, hp, ?_, by decide +kernel⟩
  · rintro ⟨-, h⟩
    have h0 : raw.heap.inited 0 ≠ some true := by decide +kernel
    exact h0 h
  · have : ∀ q ∈ raw.load demoSpoil (fun _ => true) raw.heap.attrs 0,
        q.1.values (raw.heap.copyOf 0 3) = [30] := by decide +kernel
    exact this p hp

end State

end Paramz.Memory

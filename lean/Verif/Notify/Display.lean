import Verif.Notify.CachedOrder
import Verif.Notify.Props

/-!
# When the display of an optimisation is called (C74)

Source: `paramz/optimization/verbose_optimization.py:54`, `paramz/core/observable.py:49-96`,
`paramz/core/parameter_core.py:124-134`, `paramz/parameterized.py:118`.

The display registers with the default priority 0, the model's own update has priority -100.
-/

set_option linter.unusedSectionVars false

namespace Paramz.Notify

open Hier (Heap Id upd)
open Hier.Graph (Anc)

variable {T : Type} [DecidableEq T]

/-- C74: in `m.optimizer_array = x` (through `trigger_update`) of a model `r` with a display `u` registered by
`m.add_observer(display, display.print_status)`: everything below the model is updated before the display is called,
and the model's own `parameters_changed` is called after it. -/
theorem display_before_update {s : State T} (hr : Reach s) {r : Id} (u : Nat) (hlt : r < s.heap.next)
    (hroot : s.heap.parent r = none) (hnode : s.heap.leaf r = false) (hon : s.on r = true)
    (hinit : s.heap.inInit r = false) :
    let s' := (exec s (.addObserver r u 0)).1
    ∃ A B, s'.triggerUpdate r true = A ++ .user u :: B ∧ .changed r ∉ A ∧ .changed r ∈ B ∧
      ∀ y, y ≠ r → .changed y ∉ B := by
  intro s'
  have i : Inv s' := (Reach.step hr (e := .addObserver r u 0) hlt).inv
  have hlt' : r < s'.heap.next := hlt
  have hobs : s'.obs r = addReg ⟨0, .user u⟩ (s.obs r) := by
    show upd s.obs r _ r = _
    simp [upd]
  have hmem : (⟨0, .user u⟩ : Reg) ∈ s'.obs r := by rw [hobs]; exact mem_addReg.mpr (.inl rfl)
  have hch : (⟨((-100 : Int) : Prio), .changed⟩ : Reg) ∈ s'.obs r := by
    have : (⟨((-100 : Int) : Prio), .changed⟩ : Reg) ∈ (s'.obs r).filter isStd := by
      rw [i.regs r hlt']
      unfold std
      rw [show s'.heap.leaf r = false from hnode]
      simp
    exact (List.mem_filter.mp this).1
  obtain ⟨A1, B1, he⟩ := List.append_of_mem hmem
  have hsort := i.sorted r hlt'
  rw [he] at hsort
  have hneg : ((-100 : Int) : Prio) < 0 := by
    rw [show (0 : Prio) = ((0 : Int) : Prio) from rfl]
    exact WithBot.coe_lt_coe.mpr (by omega)
  have hA : ∀ e ∈ A1, e.callee ≠ .changed := by
    intro e h1 h2
    have hp := changed_prio i hlt' (by rw [he]; exact List.mem_append_left _ h1) h2
    have := (List.pairwise_append.mp hsort).2.2 e h1 _ List.mem_cons_self
    rw [hp] at this
    exact absurd hneg (not_lt.mpr this)
  have hB : (⟨((-100 : Int) : Prio), .changed⟩ : Reg) ∈ B1 := by
    rw [he] at hch
    rcases List.mem_append.mp hch with h | h
    · exact absurd rfl (hA _ h)
    · rcases List.mem_cons.mp h with h | h
      · cases h
      · exact h
  have hon' : s'.on r = true := hon
  have hnot : s'.notify r none = A1.flatMap (serve s'.heap.next s' r) ++
      .user u :: B1.flatMap (serve s'.heap.next s' r) := by
    unfold State.notify Hier.Graph.fuel
    rw [notifyF_succ, if_pos hon']
    simp only [served]
    rw [he, List.flatMap_append, List.flatMap_cons]
    rfl
  have hsv : ∀ e ∈ s'.obs r, ∀ y, .changed y ∈ serve s'.heap.next s' r e → e.callee = .changed ∧ y = r := by
    intro e h1 y h2
    unfold serve at h2
    cases hc : e.callee with
    | changed =>
      rw [hc] at h2
      simp only [List.mem_singleton, Call.changed.injEq] at h2
      exact ⟨rfl, h2⟩
    | pass q =>
      have := (pass_reg i hlt' h1 hc).2
      rw [show s'.heap.parent r = none from hroot] at this
      cases this
    | user v => rw [hc] at h2; simp at h2
  have hfuel : s'.heap.toGraph.fuel = s'.heap.next + 1 := rfl
  refine ⟨((s'.heap.kids r).filter (fun c => !s'.heap.isFixed c)).flatMap
      (fun c => State.triggerF s'.heap.next s' c false) ++ A1.flatMap (serve s'.heap.next s' r),
    B1.flatMap (serve s'.heap.next s' r), ?_, ?_, ?_, ?_⟩
  · unfold State.triggerUpdate
    rw [if_neg (by rw [hon', show s'.heap.inInit r = false from hinit]; simp), hfuel]
    rw [show State.triggerF (s'.heap.next + 1) s' r true = ((s'.heap.kids r).filter (fun c => !s'.heap.isFixed c)).flatMap
      (fun c => State.triggerF s'.heap.next s' c false) ++ s'.notify r none from rfl, hnot, List.append_assoc]
  · intro h
    rcases List.mem_append.mp h with h | h
    · obtain ⟨c, hc, h⟩ := List.mem_flatMap.mp h
      have hpc := (i.skel.mem_iff _ _).mp (List.mem_of_mem_filter hc)
      have hcl := (i.skel.alloc _ _ hpc).1
      have ha := triggerF_changed_anc i _ c hcl h
      cases ha with
      | refl => rw [show s'.heap.parent r = none from hroot] at hpc; cases hpc
      | step _ hp => rw [show s'.heap.parent r = none from hroot] at hp; cases hp
    · obtain ⟨e, h1, h2⟩ := List.mem_flatMap.mp h
      exact hA e h1 (hsv e (by rw [he]; exact List.mem_append_left _ h1) r h2).1
  · exact List.mem_flatMap.mpr ⟨_, hB, by simp [serve]⟩
  · intro y hy h
    obtain ⟨e, h1, h2⟩ := List.mem_flatMap.mp h
    exact hy (hsv e (by rw [he]; exact List.mem_append_right _ (List.mem_cons_of_mem _ h1)) y h2).2

/-- The model of `demo` (object 0) with a display 77: its update comes after the display, all others before. -/
example : (exec demo (.addObserver 0 77 0)).1.triggerUpdate 0 true =
    [.user 9, .changed 6, .changed 2, .user 77, .changed 0] := by decide +kernel

example : ∃ A B, (exec demo (.addObserver 0 77 0)).1.triggerUpdate 0 true = A ++ .user 77 :: B ∧ .changed 0 ∉ A ∧
    .changed 0 ∈ B ∧ ∀ y, y ≠ 0 → .changed y ∉ B :=
  display_before_update demo_reach 77 (by decide +kernel) (by decide +kernel) (by decide +kernel) (by decide +kernel)
    (by decide +kernel)

end Paramz.Notify

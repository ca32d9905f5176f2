import Verif.Mem.GradProps

/-!
# C82: the gradients of a copy and of the original do not meet
-/

namespace Paramz.Memory

open Hier (Id Graph Heap upd)
open Hier.Graph (Skel Anc)

namespace State

variable {V T : Type} [DecidableEq T] {spoil : Nat → Nat → V}

/-- `a.gradient = val`, `b.gradient = ...`, one after the other; refused assignments are caught. -/
def assign (s : State V T) (L : List (Id × GVal V)) : State V T :=
  L.foldl (fun r w => (r.setGradient w.1 w.2).1) s

theorem setGradient_arr (s : State V T) (x : Id) (val : GVal V) : (s.setGradient x val).1.mem.arr = s.mem.arr := by
  unfold setGradient
  split
  · rfl
  · split <;> rfl

theorem setGradient_elsewhere (s : State V T) {x n : Id} {v : View} (hv : s.mem.arr n = some v)
    (hne : ∀ u, s.mem.arr x = some u → u.buf ≠ v.buf) (val : GVal V) (i : Nat) :
    (s.setGradient x val).1.mem.read n i = s.mem.read n i := by
  unfold setGradient
  split
  · rfl
  · rename_i u hu
    split
    · rfl
    · refine if_neg ?_
      rintro ⟨h, -⟩
      have e : (s.mem.view n).buf = (s.mem.view x).buf := h
      rw [Mem.view_eq hv, Mem.view_eq hu] at e
      exact hne u hu e.symm

theorem assign_heap : ∀ (L : List (Id × GVal V)) (s : State V T),
    (s.assign L).heap = s.heap ∧ (s.assign L).mem.arr = s.mem.arr
  | [], _ => ⟨rfl, rfl⟩
  | w :: L, s => by
    obtain ⟨h1, h2⟩ := assign_heap L (s.setGradient w.1 w.2).1
    exact ⟨h1.trans (setGradient_heap ..), h2.trans (setGradient_arr ..)⟩

theorem assign_elsewhere {n : Id} {v : View} (i : Nat) : ∀ (L : List (Id × GVal V)) (s : State V T),
    s.mem.arr n = some v → (∀ w ∈ L, ∀ u, s.mem.arr w.1 = some u → u.buf ≠ v.buf) →
    (s.assign L).mem.read n i = s.mem.read n i
  | [], _, _, _ => rfl
  | w :: L, s, hv, hne => by
    have h1 := setGradient_elsewhere s hv (hne w (List.mem_cons_self ..)) w.2 i
    refine (assign_elsewhere (v := v) i L _ ?_ fun z hz u hu => ?_).trans h1
    · rw [setGradient_arr]; exact hv
    · rw [setGradient_arr] at hu
      exact hne z (List.mem_cons_of_mem _ hz) u hu

/-- The assignments at the end of `gcopy`. -/
theorem gcopy_assign (s : State V T) (x : Id) (junk : Id → Nat → V) : s.gcopy spoil x junk =
    (s.gcopied spoil x).assign (((s.heap.toGraph.subtree x).filter
      (fun y => s.heap.leaf y && decide (0 < s.heap.size y))).map
      (fun y => (s.heap.copyOf x y, .array ((List.range (s.heap.size y)).map (junk y))))) := by
  unfold gcopy assign
  rw [List.foldl_map]

omit [DecidableEq T] in
theorem assign_append (s : State V T) (L M : List (Id × GVal V)) : (s.assign L).assign M = s.assign (L ++ M) :=
  (List.foldl_append ..).symm

/-- **C82.** Copying an object leaves every gradient that existed as it was. Whatever is assigned afterwards to the
gradients of the copy and of its parts, the gradients of the objects that existed before stay as they were; whatever is
assigned to the gradients of these, the gradients of the copy and of its parts stay as they are. -/
theorem gradient_copy_apart {s : State V T} (h : GReach spoil s) {x : Id} (ok : s.heap.CopyOK x)
    (ha : s.Assignable x) (junk : Id → Nat → V) (L : List (Id × GVal V)) :
    ((∀ w ∈ L, ∃ y, Anc s.heap.toGraph x y ∧ w.1 = s.heap.copyOf x y) →
      ∀ n, n < s.heap.next → (s.heap.leaf n = true ∨ Done s.heap n) →
      ((s.gcopy spoil x junk).assign L).gradient n = s.gradient n) ∧
    ((∀ w ∈ L, w.1 < s.heap.next) → ∀ y, Anc s.heap.toGraph x y →
      ((s.gcopy spoil x junk).assign L).gradient (s.heap.copyOf x y) =
        (s.gcopy spoil x junk).gradient (s.heap.copyOf x y)) := by
  obtain ⟨t, tw, hr⟩ := h.twin
  have sk := hr.heap.wf.skel
  have eh := copied_heap (spoil := spoil) tw hr ha
  obtain ⟨hx, h0, hd⟩ := ha
  rw [tw.heap] at hx h0 hd ok
  have tc := tw.copied (spoil := spoil) hr hx h0 hd
  have cm := copy_copyMem spoil hr.heap.wf hr.linked hr.bounded ok.lt
  have hgr := raw_graph spoil t x sk ok.lt
  have hfit := assignable_fits hr hx h0 hd
  have low : ∀ n v, n < t.heap.next → (s.gcopied spoil x).mem.arr n = some v →
      t.mem.arr n = some v ∧ v.buf < t.mem.next := by
    intro n v hn hv
    rw [tc.arr, (cm.old hn (.inr (.inr hfit))).1] at hv
    exact ⟨hv, hr.bounded n v hv⟩
  have high : ∀ y v, Anc t.heap.toGraph x y → (s.gcopied spoil x).mem.arr (t.heap.copyOf x y) = some v →
      t.mem.next ≤ v.buf := by
    intro y v hy hv
    rw [tc.arr] at hv
    exact cm.fresh y v hy hv
  constructor
  · intro hnew n hn hdn
    rw [tw.heap] at hnew hn hdn
    rw [gcopy_assign, assign_append, tw.gradient]
    unfold gradient
    have es : ∀ M, ((s.gcopied spoil x).assign M).heap.size n = t.heap.size n := by
      intro M
      rw [(assign_heap M _).1, tc.heap,
        show (t.copy spoil x).1.heap.size = (t.heap.rawCopy x).toGraph.size by rw [← hgr]]
      exact Heap.lift_old _ _ hn
    rw [es]
    refine List.map_congr_left fun i hi => ?_
    have hi := List.mem_range.mp hi
    obtain ⟨v, hv, -⟩ := assignable_fits hr hn (Nat.lt_of_le_of_lt (Nat.zero_le _) hi) hdn
    have hv' : (s.gcopied spoil x).mem.arr n = some v := by
      rw [tc.arr, (cm.old hn (.inr (.inr hfit))).1]; exact hv
    rw [assign_elsewhere i _ _ hv' ?_, tc.read, copy_keeps_values hr ok hn hdn hi]
    intro w hw u hu
    have hb := (low n v hn hv').2
    have : ∃ y, Anc t.heap.toGraph x y ∧ w.1 = t.heap.copyOf x y := by
      rcases List.mem_append.mp hw with hw | hw
      · obtain ⟨y, hy, rfl⟩ := List.mem_map.mp hw
        have hy := (List.mem_filter.mp hy).1
        rw [tw.heap] at hy ⊢
        exact ⟨y, sk.mem_subtree.mp hy, rfl⟩
      · exact hnew w hw
    obtain ⟨y, hy, e⟩ := this
    rw [e] at hu
    have := high y u hy hu
    omega
  · intro hold y hy
    rw [tw.heap] at hold hy ⊢
    unfold gradient
    rw [(assign_heap L _).1]
    refine List.map_congr_left fun i hi => ?_
    have hi := List.mem_range.mp hi
    rw [gcopy_assign, (assign_heap _ _).1, tc.heap] at hi
    obtain ⟨b, o, hc⟩ := cm.calm y hy
    obtain ⟨hv, -⟩ := hc _ 0 .refl (Nat.lt_of_le_of_lt (Nat.zero_le _) hi)
    have ea : (s.gcopy spoil x junk).mem.arr = (s.gcopied spoil x).mem.arr := by
      rw [gcopy_assign]; exact (assign_heap _ _).2
    rw [← tc.arr] at hv
    refine assign_elsewhere i L _ (by rw [ea]; exact hv) fun w hw u hu => ?_
    rw [ea] at hu
    have h1 := (low w.1 u (hold w hw) hu).2
    have h2 := high y _ hy hv
    omega

/-- Copying the object in the middle of `gdemo`. -/
def gcopyDemo : State Nat Nat := gdemo.gcopy demoSpoil 2 (fun y i => 100 * y + i)

theorem gdemo_copyOK : gdemo.heap.CopyOK 2 := by
  refine ⟨by decide +kernel, fun p hp => ?_⟩
  have h0 : gdemo.heap.parent 2 = some 0 := by decide +kernel
  rw [h0] at hp
  cases hp
  decide +kernel

theorem gdemo_assignable : gdemo.Assignable 2 :=
  ⟨by decide +kernel, by decide +kernel, .inr ⟨by decide +kernel, by decide +kernel⟩⟩

theorem gcopyDemo_path : GPath demoSpoil gcopyDemo := .copy _ gdemo_path gdemo_copyOK gdemo_assignable

/-- The copy has other gradients than the original; they are those of its parts. -/
example : gcopyDemo.gradient 2 = [30, 31, 32, 40] ∧
    gcopyDemo.gradient (gdemo.heap.copyOf 2 2) = [300, 301, 302, 400] := by decide +kernel

/-- The theorem at work. -/
example (a b : Nat) : (gcopyDemo.assign [(gdemo.heap.copyOf 2 2, .number a), (gdemo.heap.copyOf 2 3, .number b)]).gradient 0 =
    gdemo.gradient 0 := by
  refine (gradient_copy_apart gdemo_path.reach gdemo_copyOK gdemo_assignable _ _).1 ?_ 0 (by decide +kernel)
    (.inr gdemo_done.2)
  intro w hw
  simp only [List.mem_cons, List.not_mem_nil, or_false] at hw
  rcases hw with rfl | rfl
  · exact ⟨2, .refl, rfl⟩
  · exact ⟨3, .of_parent (by decide +kernel), rfl⟩

end State

end Paramz.Memory

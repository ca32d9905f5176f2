import Verif.Mem.Values
import Verif.Mem.CopyValues

/-!
# C35 and C55: the values of `Param`s

Statements use `SameValues s s' y` (every element of `y` reads the same in `s'` as in `s`), `values`
(the list of elements of an object) and the conditions `Proper` on calls and `AtRisk` on `Param`s.
-/

set_option linter.unusedSectionVars false

namespace Paramz.Memory

open Hier (Id Graph Heap upd upd_same upd_ne)
open Hier.Graph (Skel Sized At Anc Ins)

theorem not_belowGrandchild_root {g : Graph} {p : Id} (hp : g.parent p = none) (y : Id) :
    ¬ BelowGrandchild g p y := by
  rintro ⟨r, e, c, -, -, hc, hcp, -⟩
  rw [(Hier.Graph.anc_root hp).mp hcp, hp] at hc
  cases hc

theorem not_belowGrandchild_child {g : Graph} {p r : Id} (hp : g.parent p = some r)
    (hr : g.parent r = none) (y : Id) : ¬ BelowGrandchild g p y := by
  rintro ⟨r', e, c, -, he, hc, hcp, -⟩
  rcases (Hier.Graph.anc_iff_of_parent hp).mp hcp with h | h
  · subst h
    rw [hp] at hc
    cases hc
    rw [hr] at he
    cases he
  · rw [(Hier.Graph.anc_root hr).mp h, hr] at hc
    cases hc

namespace State

variable {V T : Type} [DecidableEq T] {spoil : Nat → Nat → V}

/-- States reached by calls that are admissible and `Proper` when they are made, and by copies of objects
that have been initialised. -/
inductive Path (spoil : Nat → Nat → V) : State V T → Prop
  | empty (cell : Nat → Nat → V) : Path spoil (empty cell)
  | step {s : State V T} {e : Ev V T} : Path spoil s → s.Admissible e → s.Proper e →
      Path spoil (s.exec spoil e).1
  | copy {s : State V T} {x : Id} : Path spoil s → s.heap.CopyOK x → Settled s.heap x →
      Path spoil (s.copy spoil x).1

theorem Path.reach {s : State V T} (h : Path spoil s) : Reach spoil s := by
  induction h with
  | empty cell => exact .empty cell
  | step _ ha _ ih => exact .step ih ha
  | copy _ ok _ ih => exact .copy ih ok

theorem step_tidy {s : State V T} (h : Reach spoil s) (t : Tidy s) {e : Ev V T} (ha : s.Admissible e)
    (hp : s.Proper e) :
    Tidy (s.exec spoil e).1 ∧
    ∀ y, s.heap.leaf y = true → y < s.heap.next → (∀ x i v, e ≠ .write x i v) → ¬ s.AtRisk spoil y e →
      SameValues s (s.exec spoil e).1 y := by
  have w := h.heap.wf
  have l := h.linked
  cases e with
  | write x i v =>
    exact ⟨⟨⟨t.sound.lo, t.sound.lf, t.sound.sep, t.sound.bd⟩, t.born, t.kind, t.full⟩,
      fun y _ _ hne _ => absurd rfl (hne x i v)⟩
  | heap e =>
    cases e with
    | newParam n =>
      have l' : Linked (s.exec spoil (.heap (.newParam n))).1 := (Reach.step h ha).linked
      refine ⟨newObj_tidy (m' := s.mem.newParam s.heap.next n) w t (fun y hy => upd_ne _ _ hy)
        (Nat.le_succ _) l' (.inl ⟨rfl, upd_same _ _ _, Nat.lt_succ_self _⟩), ?_⟩
      intro y _ hlt _ _ i _
      have hne : y ≠ s.heap.next := Nat.ne_of_lt hlt
      show (s.mem.newParam s.heap.next n).read y i = _
      have : (s.mem.newParam s.heap.next n).view y = s.mem.view y := by
        unfold Mem.view
        rw [show (s.mem.newParam s.heap.next n).arr y = s.mem.arr y from upd_ne _ _ hne]
      unfold Mem.read
      rw [this]
      rfl
    | newNode =>
      have l' : Linked (s.exec spoil (.heap .newNode)).1 := (Reach.step h ha).linked
      refine ⟨newObj_tidy (m' := s.mem) w t (fun y _ => rfl) (le_refl _) l' (.inr ⟨rfl, ?_⟩),
        fun y _ _ _ _ i _ => rfl⟩
      cases hv : s.mem.arr s.heap.next with
      | none => rfl
      | some v => exact absurd (t.born _ v hv) (Nat.lt_irrefl _)
    | finishInit x i =>
      have hx : x < s.heap.next := ha.1
      have t1 := leave_tidy t hx ha.2 hp
      cases i with
      | false => exact ⟨t1, fun y _ _ _ _ i _ => rfl⟩
      | true =>
        have hr1 : Reach spoil (s.exec spoil (.heap (.finishInit x false))).1 := .step h ha
        have hxr : s.heap.parent x = none := by
          rcases t.kind x hx with (h1 | h1) | h1
          · rw [show s.heap.leaf x = false from ha.2] at h1; cases h1
          · have h2 := h1.1
            rw [show s.heap.inInit x = true from hp] at h2; cases h2
          · exact h1.1
        have key := initialize_tidy (spoil := spoil) (x := x) hr1.heap.wf hr1.linked t1 hx (by
          have hh : (s.exec spoil (.heap (.finishInit x false))).1.heap.toGraph.highest x = x :=
            w.skel.highest_eq hxr .refl
          rw [hh]
          exact upd_same _ _ _)
        exact ⟨key.1, fun y hl hlt _ _ => key.2 y hl hlt⟩
    | init x =>
      obtain ⟨h1, h2⟩ := initialize_tidy (spoil := spoil) w l t ha hp
      exact ⟨h1, fun y hl hlt _ _ => h2 y hl hlt⟩
    | link p x index =>
      obtain ⟨h1, h2⟩ := link_tidy (spoil := spoil) w l t ha hp
      exact ⟨h1, fun y hl hlt _ hr => h2 y hl hlt hr⟩
    | unlink q x =>
      show Tidy (s.unlink spoil q x).1 ∧ ∀ y, s.heap.leaf y = true → y < s.heap.next → _ → _ →
        SameValues s (s.unlink spoil q x).1 y
      unfold unlink
      split
      · exact ⟨t, fun y _ _ _ _ _ _ => rfl⟩
      · split
        · rename_i hx
          obtain ⟨A, B, hk⟩ := List.append_of_mem hx
          obtain ⟨h1, h2⟩ := unlinkChild_tidy (spoil := spoil) w l t hk hp
          exact ⟨h1, fun y hl hlt _ hr => h2 y hl hlt hr⟩
        · exact ⟨t, fun y _ _ _ _ _ _ => rfl⟩
    | constrain x c =>
      exact ⟨same_tidy t ((Heap.constraining_wf w ha).1 c).2, fun y _ _ _ _ i _ => rfl⟩
    | unconstrain x cs =>
      exact ⟨same_tidy t ((Heap.constraining_wf w ha).2.1 cs).2, fun y _ _ _ _ i _ => rfl⟩
    | fix x => exact ⟨same_tidy t (Heap.constraining_wf w ha).2.2.1.2, fun y _ _ _ _ i _ => rfl⟩
    | unfix x => exact ⟨same_tidy t (Heap.constraining_wf w ha).2.2.2.2, fun y _ _ _ _ i _ => rfl⟩

theorem Path.tidy {s : State V T} (h : Path spoil s) : Tidy s := by
  induction h with
  | empty cell =>
    refine ⟨⟨fun y _ => rfl, fun y hy _ => absurd hy (Nat.not_lt_zero _), ?_, ?_⟩, ?_, ?_, ?_⟩
    · rintro n y B i - ⟨v, h, -⟩; cases h
    · intro n v h; cases h
    · intro n v h; cases h
    · intro n hn; exact absurd hn (Nat.not_lt_zero _)
    · intro r n _ hd
      have : (none : Option Bool) = some true := hd.2
      cases this
  | step hp ha hpr ih => exact (step_tidy hp.reach ih ha hpr).1
  | copy hp ok hs ih => exact copy_tidy hp.reach.heap.wf hp.reach.linked ih ok.lt hs

/-- **C35.** No call other than an assignment changes the value of a `Param` that is not `AtRisk`.
Missing for the full property: the `Param`s `AtRisk` (`link_values_fails`, `unlink_values_fails`), and
histories with calls that are not `Proper` (`emptied_root_fails`, `uninitialised_parts_fails`). -/
theorem values_kept_partial {s : State V T} (h : Path spoil s) {e : Ev V T} (ha : s.Admissible e)
    (hp : s.Proper e) (hw : ∀ x i v, e ≠ .write x i v) {y : Id} (hy : s.heap.leaf y = true)
    (hlt : y < s.heap.next) (hr : ¬ s.AtRisk spoil y e) :
    ∀ i, i < s.heap.size y → (s.exec spoil e).1.mem.read y i = s.mem.read y i :=
  (step_tidy h.reach h.tidy ha hp).2 y hy hlt hw hr

/-- **C35**, a simple case: linking something new to a root or to a child of a root changes no value of
any `Param`. -/
theorem link_values_partial {s : State V T} (h : Path spoil s) {p x : Id} {index : Option Int}
    (ha : s.Admissible (.heap (.link p x index))) (hp : s.Proper (.heap (.link p x index)))
    (hx : s.heap.parent x = none)
    (hshallow : s.heap.parent p = none ∨ ∃ r, s.heap.parent p = some r ∧ s.heap.parent r = none)
    {y : Id} (hy : s.heap.leaf y = true) (hlt : y < s.heap.next) :
    ∀ i, i < s.heap.size y →
      (s.exec spoil (.heap (.link p x index))).1.mem.read y i = s.mem.read y i := by
  refine values_kept_partial h ha hp (fun _ _ _ h => by cases h) hy hlt ?_
  have w := h.reach.heap.wf
  have ok : Heap.LinkOK s.heap p x index := ha
  have hpx : p ≠ x := by rintro rfl; exact ok.outside .refl
  have hpar : ∀ n, n ≠ x → (s.link spoil p x index).1.heap.parent n = s.heap.parent n := by
    intro n hn
    rcases link_cases spoil w p x index with ⟨marks, he⟩ | ⟨hl, -, he⟩ | ⟨q, marks, A, B, hl, hk, he⟩
    · rw [he]; rfl
    · rw [he, (linkRoot_heap spoil s p x index).1]
      obtain ⟨-, i, -⟩ := Heap.linkRoot_wf w ok.ltx ok.ltp hx hl ok.outside ok.ready (ok.pos w hx)
      exact i.parent_ne n hn
    · rw [show s.heap.parent x = some q from w.skel.parent_of hk] at hx; cases hx
  rintro (hb | ⟨q, q', hq, -⟩)
  · rcases hshallow with h1 | ⟨r, h1, h2⟩
    · exact not_belowGrandchild_root (by rw [hpar p hpx]; exact h1) y hb
    · by_cases hrx : r = x
      · subst hrx
        exact ok.outside (Anc.of_parent h1)
      · exact not_belowGrandchild_child (r := r) (by rw [hpar p hpx]; exact h1)
          (by rw [hpar r hrx]; exact h2) y hb
  · rw [hx] at hq; cases hq

/-- **C35**, a simple case: unlinking from a root, from a child or from a grandchild of a root changes
no value of any `Param`. -/
theorem unlink_values_partial {s : State V T} (h : Path spoil s) {q x : Id}
    (hp : s.Proper (.heap (.unlink q x)))
    (hshallow : s.heap.parent q = none ∨ ∃ r, s.heap.parent q = some r ∧
      (s.heap.parent r = none ∨ ∃ r', s.heap.parent r = some r' ∧ s.heap.parent r' = none))
    {y : Id} (hy : s.heap.leaf y = true) (hlt : y < s.heap.next) :
    ∀ i, i < s.heap.size y →
      (s.exec spoil (.heap (.unlink q x))).1.mem.read y i = s.mem.read y i := by
  refine values_kept_partial (e := .heap (.unlink q x)) h trivial hp (fun _ _ _ h => by cases h) hy hlt ?_
  rintro ⟨q', hq', hb, -⟩
  rcases hshallow with h1 | ⟨r, h1, h2⟩
  · rw [h1] at hq'; cases hq'
  · rw [h1] at hq'
    cases hq'
    rcases h2 with h2 | ⟨r', h2, h3⟩
    · exact not_belowGrandchild_root h2 y hb
    · exact not_belowGrandchild_child h2 h3 y hb

/-- **C35.** Initialising changes no values. -/
theorem initialize_values {s : State V T} (h : Path spoil s) {x : Id} (i : Bool)
    (ha : s.Admissible (.heap (.finishInit x i))) (hp : s.heap.inInit x = true) {y : Id}
    (hy : s.heap.leaf y = true) (hlt : y < s.heap.next) :
    ∀ j, j < s.heap.size y →
      (s.exec spoil (.heap (.finishInit x i))).1.mem.read y j = s.mem.read y j :=
  values_kept_partial h ha hp (fun _ _ _ h => by cases h) hy hlt (fun h => h)

/-- **C55.** Assigning to an element of one `Param` changes that element and no value of any other
`Param`. Missing for the full property: histories with calls that are not `Proper`
(`separate_params_fails`). -/
theorem separate_params_partial {s : State V T} (h : Path spoil s) {x y : Id} {i : Nat} (v : V)
    (hx : s.heap.leaf x = true) (hxlt : x < s.heap.next) (hi : i < s.heap.size x)
    (hy : s.heap.leaf y = true) (hlt : y < s.heap.next) :
    ∀ j, j < s.heap.size y → (s.exec spoil (.write x i v)).1.mem.read y j =
      if y = x ∧ j = i then v else s.mem.read y j := by
  intro j hj
  have t := h.tidy
  have w := h.reach.heap.wf
  obtain ⟨vx, hvx⟩ := t.sound.lf x hxlt hx
  obtain ⟨vy, hvy⟩ := t.sound.lf y hlt hy
  show (if (s.mem.view y).buf = (s.mem.view x).buf ∧
    (s.mem.view y).off + j = (s.mem.view x).off + i then v
      else s.mem.cell (s.mem.view y).buf ((s.mem.view y).off + j)) = _
  unfold Mem.read
  rw [Mem.view_eq hvx.1, Mem.view_eq hvy.1]
  by_cases hc : vy.buf = vx.buf ∧ vy.off + j = vx.off + i
  · rw [if_pos hc]
    have h1 := Has.of_fits hvx hi
    have h2 := Has.of_fits hvy hj
    rw [hc.1, hc.2] at h2
    have := anc_of_leaf w.skel hx (t.sound.sep x y _ _ hy h1 h2)
    subst this
    rw [Fits.unique hvy hvx] at hc
    rw [if_pos ⟨rfl, by omega⟩]
  · rw [if_neg hc, if_neg]
    rintro ⟨rfl, rfl⟩
    rw [Fits.unique hvy hvx] at hc
    exact hc ⟨rfl, rfl⟩

/-! ### Concrete histories -/

/-- Decision procedure for `Settled`. -/
def settledB (h : Heap T) (n : Id) : Bool :=
  h.leaf n || (!h.inInit n && decide (h.inited n = some true))

theorem doneB {h : Heap T} {n : Id} (hb : (!h.inInit n && decide (h.inited n = some true)) = true) :
    Done h n := by
  simp only [Bool.and_eq_true, Bool.not_eq_true', decide_eq_true_eq] at hb
  exact hb

/-- Decision procedure for `Proper`. -/
def properB (s : State V T) : Ev V T → Bool
  | .heap (.link p x _) => settledB s.heap x &&
      (decide (s.heap.parent p ≠ none) || (s.heap.kids p).any (fun c => decide (c ≠ x)) ||
        decide (s.heap.size x = 0) ||
        (match s.mem.arr p with | none => true | some v => decide (v.len ≠ s.heap.size x))) &&
      (match s.heap.parent x with
        | none => true
        | some q => !s.heap.inInit (s.heap.toGraph.highest q) &&
            decide (s.heap.inited (s.heap.toGraph.highest q) = some true))
  | .heap (.unlink q _) => !s.heap.inInit (s.heap.toGraph.highest q) &&
      decide (s.heap.inited (s.heap.toGraph.highest q) = some true)
  | .heap (.finishInit x _) => s.heap.inInit x
  | .heap (.init x) => !s.heap.inInit (s.heap.toGraph.highest x)
  | _ => true

theorem properB_sound {s : State V T} {e : Ev V T} (hb : s.properB e = true) : s.Proper e := by
  cases e with
  | write x i v => trivial
  | heap e =>
    cases e with
    | link p x index =>
      simp only [properB, Bool.and_eq_true] at hb
      obtain ⟨⟨h1, h2⟩, h3⟩ := hb
      refine ⟨?_, ?_, ?_⟩
      · simp only [settledB, Bool.or_eq_true] at h1
        rcases h1 with h1 | h1
        · exact .inl h1
        · exact .inr (doneB h1)
      · simp only [Bool.or_eq_true, decide_eq_true_eq, List.any_eq_true] at h2
        rcases h2 with ((h2 | ⟨c, hc, hne⟩) | h2) | h2
        · exact .inl h2
        · exact .inr (.inl ⟨c, hc, hne⟩)
        · exact .inr (.inr (.inl h2))
        · refine .inr (.inr (.inr (fun v hv => ?_)))
          rw [hv] at h2
          simpa using h2
      · intro q hq
        rw [hq] at h3
        exact doneB h3
    | unlink q x => exact doneB hb
    | finishInit x i => exact hb
    | init x =>
      simp only [properB, Bool.not_eq_true'] at hb
      exact hb
    | newParam n => trivial
    | newNode => trivial
    | constrain x c => trivial
    | unconstrain x c => trivial
    | fix x => trivial
    | unfix x => trivial

/-- Is every call of the list admissible and proper when it is made? -/
def pathB (spoil : Nat → Nat → V) (s : State V T) : List (Ev V T) → Bool
  | [] => true
  | e :: es => s.admissibleB e && s.properB e && pathB spoil (s.exec spoil e).1 es

theorem Path.run {s : State V T} (hr : Path spoil s) :
    ∀ es, s.pathB spoil es = true → Path spoil (s.run spoil es)
  | [], _ => hr
  | e :: es, hb => by
    simp only [pathB, Bool.and_eq_true] at hb
    exact Path.run (s := (s.exec spoil e).1)
      (.step hr (admissibleB_sound hr.reach.heap.wf hb.1.1) (properB_sound hb.1.2)) es hb.2

theorem demo_path : Path demoSpoil demo := Path.run (.empty _) _ (by decide +kernel)

/-- The hypotheses are met: a new `Param` `6` is linked to the sub-hierarchy `2` of the demo. -/
example : ∃ s : State Nat Nat, Path demoSpoil s ∧ s.values 0 = [10, 11, 30, 31, 32, 40, 50, 51] ∧
    ∀ i, i < s.heap.size 3 →
      (s.exec demoSpoil (.heap (.link 2 6 (some 0)))).1.mem.read 3 i = s.mem.read 3 i := by
  refine ⟨run demoSpoil demo [.heap (.newParam 2)], Path.run demo_path _ (by decide +kernel),
    by decide +kernel, ?_⟩
  have hp : Path demoSpoil (run demoSpoil demo [.heap (.newParam 2)]) :=
    Path.run demo_path _ (by decide +kernel)
  exact link_values_partial hp (admissibleB_sound hp.reach.heap.wf (by decide +kernel))
    (properB_sound (by decide +kernel)) (by decide +kernel)
    (.inr ⟨0, by decide +kernel, by decide +kernel⟩) (by decide +kernel) (by decide +kernel)

example : (run demoSpoil demo ([.heap (.newParam 2)] ++ fill 6 [60, 61] ++
    [.heap (.link 2 6 (some 0))])).values 0 = [10, 11, 60, 61, 30, 31, 32, 40, 50, 51] := by decide +kernel

example : ∀ i, i < demo.heap.size 4 →
    (demo.exec demoSpoil (.heap (.unlink 2 3))).1.mem.read 4 i = demo.mem.read 4 i :=
  unlink_values_partial demo_path (properB_sound (by decide +kernel))
    (.inr ⟨0, by decide +kernel, .inl (by decide +kernel)⟩) (by decide +kernel) (by decide +kernel)

example : (run demoSpoil demo [.heap (.unlink 2 3)]).values 0 = [10, 11, 40, 50, 51] ∧
    (run demoSpoil demo [.heap (.unlink 2 3)]).values 3 = [30, 31, 32] := by decide +kernel

example (v : Nat) : (demo.exec demoSpoil (.write 3 1 v)).1.mem.read 4 0 = 40 := by
  rw [separate_params_partial demo_path v (by decide +kernel) (by decide +kernel) (by decide +kernel)
    (by decide +kernel) (by decide +kernel) 0 (by decide +kernel)]
  show demo.mem.read 4 0 = 40
  decide +kernel

/-- A hierarchy with one more level: root `0`, its child `1`, its grandchild `2` with the `Param`s
`3` (30, 31) and `4` (40); `1` also has the `Param` `5` (50); `6` (60) is not linked. -/
def deepCalls : List (Ev Nat Nat) :=
  [.heap .newNode, .heap .newNode, .heap .newNode, .heap (.newParam 2), .heap (.newParam 1),
    .heap (.newParam 1), .heap (.newParam 1)] ++ fill 3 [30, 31] ++ fill 4 [40] ++ fill 5 [50] ++ fill 6 [60] ++
  [.heap (.link 2 3 none), .heap (.link 2 4 none), .heap (.finishInit 2 true), .heap (.link 1 2 none),
    .heap (.link 1 5 none), .heap (.finishInit 1 true), .heap (.link 0 1 none), .heap (.finishInit 0 true)]

def deep : State Nat Nat := run demoSpoil start deepCalls

theorem deep_path : Path demoSpoil deep := Path.run (.empty _) _ (by decide +kernel)

/-- Linking to a grandchild of the root destroys the values of everything in that grandchild,
including the parameter that was linked. -/
theorem link_values_fails : ∃ s : State Nat Nat, Path demoSpoil s ∧
    s.Admissible (.heap (.link 2 6 none)) ∧ s.Proper (.heap (.link 2 6 none)) ∧
    (s.exec demoSpoil (.heap (.link 2 6 none))).2 = none ∧
    s.values 0 = [30, 31, 40, 50] ∧ s.values 6 = [60] ∧
    (s.exec demoSpoil (.heap (.link 2 6 none))).1.values 0 = [77, 77, 77, 77, 50] ∧
    (s.exec demoSpoil (.heap (.link 2 6 none))).1.values 3 = [77, 77] := by
  refine ⟨deep, deep_path, admissibleB_sound deep_path.reach.heap.wf (by decide +kernel),
    properB_sound (by decide +kernel), ?_⟩
  refine ⟨?_, ?_, ?_, ?_, ?_⟩ <;> decide +kernel

/-- One more level still: `7` has the hierarchy `0` as its only child. -/
def deeper : State Nat Nat := run demoSpoil start
  ([.heap .newNode, .heap .newNode, .heap .newNode, .heap (.newParam 2), .heap (.newParam 1),
    .heap (.newParam 1), .heap (.newParam 1), .heap .newNode] ++ fill 3 [30, 31] ++ fill 4 [40] ++
    fill 5 [50] ++
  [.heap (.link 2 3 none), .heap (.link 2 4 none), .heap (.finishInit 2 true), .heap (.link 1 2 none),
    .heap (.link 1 5 none), .heap (.finishInit 1 true), .heap (.link 0 1 none), .heap (.finishInit 0 true),
    .heap (.link 7 0 none), .heap (.finishInit 7 true)])

theorem deeper_path : Path demoSpoil deeper := Path.run (.empty _) _ (by decide +kernel)

/-- Unlinking from a grandchild's child of the root destroys the values of what remains in that
grandchild. -/
theorem unlink_values_fails : ∃ s : State Nat Nat, Path demoSpoil s ∧
    s.Admissible (.heap (.unlink 2 3)) ∧ s.Proper (.heap (.unlink 2 3)) ∧
    (s.exec demoSpoil (.heap (.unlink 2 3))).2 = none ∧
    s.values 7 = [30, 31, 40, 50] ∧
    (s.exec demoSpoil (.heap (.unlink 2 3))).1.values 7 = [77, 77] ∧
    (s.exec demoSpoil (.heap (.unlink 2 3))).1.values 4 = [77] ∧
    (s.exec demoSpoil (.heap (.unlink 2 3))).1.values 3 = [30, 31] := by
  refine ⟨deeper, deeper_path, trivial, properB_sound (by decide +kernel), ?_⟩
  refine ⟨?_, ?_, ?_, ?_, ?_⟩ <;> decide +kernel

/-- A root whose only `Param` `1` (10) has been unlinked; `2` (20) is not linked. -/
def emptied : State Nat Nat := run demoSpoil start
  ([.heap .newNode, .heap (.newParam 1), .heap (.newParam 1)] ++ fill 1 [10] ++ fill 2 [20] ++
    [.heap (.finishInit 0 true), .heap (.link 0 1 none), .heap (.unlink 0 1)])

theorem emptied_reach : Reach demoSpoil emptied := Reach.run (.empty _) _ (by decide +kernel)

/-- Linking `2` to the emptied root overwrites the value of `1`, which is in no hierarchy. -/
theorem emptied_root_fails : ∃ s : State Nat Nat, Reach demoSpoil s ∧
    s.Admissible (.heap (.link 0 2 none)) ∧ s.heap.parent 1 = none ∧ s.heap.parent 2 = none ∧
    s.values 1 = [10] ∧ (s.exec demoSpoil (.heap (.link 0 2 none))).1.values 1 = [20] := by
  refine ⟨emptied, emptied_reach, admissibleB_sound emptied_reach.heap.wf (by decide +kernel), ?_⟩
  refine ⟨?_, ?_, ?_, ?_⟩ <;> decide +kernel

/-- From then on the two `Param`s share their memory: assigning to one changes the other. -/
theorem separate_params_fails : ∃ s : State Nat Nat, Reach demoSpoil s ∧ s.heap.leaf 1 = true ∧
    s.heap.leaf 2 = true ∧ s.heap.parent 1 = none ∧ s.Admissible (.write 2 0 5) ∧
    s.mem.read 1 0 = 20 ∧ (s.exec demoSpoil (.write 2 0 5)).1.mem.read 1 0 = 5 := by
  have hr : Reach demoSpoil (run demoSpoil emptied [.heap (.link 0 2 none)]) :=
    Reach.run emptied_reach _ (by decide +kernel)
  refine ⟨_, hr, ?_, ?_, ?_, admissibleB_sound hr.heap.wf (by decide +kernel), ?_, ?_⟩ <;> decide +kernel

/-- A hierarchy of three levels whose parts were made with `initialize=False`. -/
def raw : State Nat Nat := run demoSpoil start
  ([.heap .newNode, .heap .newNode, .heap .newNode, .heap (.newParam 1)] ++ fill 3 [30] ++
    [.heap (.link 2 3 none), .heap (.finishInit 2 false), .heap (.link 1 2 none),
      .heap (.finishInit 1 false), .heap (.link 0 1 none)])

theorem raw_reach : Reach demoSpoil raw := Reach.run (.empty _) _ (by decide +kernel)

/-- Initialising it destroys the values. -/
theorem uninitialised_parts_fails : ∃ s : State Nat Nat, Reach demoSpoil s ∧
    s.Admissible (.heap (.finishInit 0 true)) ∧ s.values 3 = [30] ∧
    (s.exec demoSpoil (.heap (.finishInit 0 true))).1.values 3 = [77] := by
  refine ⟨raw, raw_reach, admissibleB_sound raw_reach.heap.wf (by decide +kernel), ?_⟩
  refine ⟨?_, ?_⟩ <;> decide +kernel

end State

end Paramz.Memory

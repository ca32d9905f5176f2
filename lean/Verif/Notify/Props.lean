import Verif.Notify.Inv
import Verif.Hier.Check

/-!
# Properties of updates

C37 (writes), C38 (`trigger_update`), C39 (`update_model`). All statements are about every state reached by
a history of admissible calls that do not raise.
-/

set_option linter.unusedSectionVars false

namespace Paramz.Notify

open Hier (Heap Id upd upd_same upd_ne)
open Hier.Graph (Anc Skel)

variable {T : Type} [DecidableEq T]

/-! ### A concrete state -/

/-- Decision procedure for `Admissible`. -/
def admissibleB (s : State T) : Ev T → Bool
  | .hier e => s.heap.admissibleB e && decide ((s.heap.exec e).2 = none)
  | .addObserver x _ _ => decide (x < s.heap.next)
  | .removeObserver x _ => decide (x < s.heap.next)
  | .updateModel x _ => decide (x < s.heap.next)
  | .write x => decide (x < s.heap.next) && s.heap.leaf x
  | .trigger x _ => decide (x < s.heap.next)

theorem admissibleB_sound {s : State T} (i : Inv s) {e : Ev T} (hb : admissibleB s e = true) :
    Admissible s e := by
  cases e <;> simp only [admissibleB, Admissible, Bool.and_eq_true, decide_eq_true_eq] at hb ⊢
  case hier e => exact ⟨Hier.Heap.admissibleB_sound i.wf hb.1, hb.2⟩
  all_goals exact hb

/-- The state after a list of calls, and the calls it makes. -/
def runAll (s : State T) : List (Ev T) → State T × List Call
  | [] => (s, [])
  | e :: es =>
    let r := exec s e
    let t := runAll r.1 es
    (t.1, r.2 ++ t.2)

/-- Is every call of the list admissible when it is made? -/
def runB (s : State T) : List (Ev T) → Bool
  | [] => true
  | e :: es => admissibleB s e && runB (exec s e).1 es

theorem Reach.run {s : State T} (hr : Reach s) : ∀ es, runB s es = true → Reach (runAll s es).1
  | [], _ => hr
  | e :: es, hb => by
    simp only [runB, Bool.and_eq_true] at hb
    exact Reach.run (.step hr (admissibleB_sound hr.inv hb.1)) es hb.2

/-- A root `0` with `Param` `1`, node `2` (with `Param`s `3`, `4` and a node `6` with `Param` `7`) and a
fixed `Param` `5`; callback `9` watches `Param` `3`. -/
def demo : State Nat := (runAll empty
  ([.newNode, .newParam 2, .newNode, .newParam 3, .newParam 1, .newParam 2, .newNode, .newParam 2,
    .link 2 3 none, .link 2 4 none, .finishInit 2 true, .link 6 7 none, .finishInit 6 true,
    .link 0 1 none, .link 0 2 none, .link 0 5 none, .finishInit 0 true, .link 2 6 none,
    .fix ⟨5, none⟩].map Ev.hier ++ [.addObserver 3 9 (5 : Int)])).1

theorem demo_reach : Reach demo := Reach.run .empty _ (by decide +kernel)

theorem above_of_upwards : Above demo.heap.toGraph 7 [6, 2, 0] :=
  .up (by decide +kernel) (.up (by decide +kernel) (.up (by decide +kernel) (.root (by decide +kernel))))

theorem takeWhile_all {on : Id → Bool} : ∀ {L : List Id}, (∀ y ∈ L, on y = true) → L.takeWhile on = L
  | [], _ => rfl
  | a :: L, h => by
    rw [List.takeWhile_cons, if_pos (h a List.mem_cons_self),
      takeWhile_all (fun y hy => h y (List.mem_cons_of_mem _ hy))]

/-! ### C37 -/

/-- Writing to a `Param` whose ancestors all have updates on calls `parameters_changed` of exactly the
ancestors, each once, the nearest first. -/
theorem write_updates_ancestors {s : State T} (hr : Reach s) {x : Id} {L : List Id} (hx : x < s.heap.next)
    (hl : s.heap.leaf x = true) (ha : Above s.heap.toGraph x L)
    (hon : ∀ y, Anc s.heap.toGraph y x → s.on y = true) :
    changedOf (s.write x) = L ∧ L.Nodup ∧ ∀ y, y ∈ L ↔ Anc s.heap.toGraph y x ∧ y ≠ x := by
  have i := hr.inv
  refine ⟨?_, ha.nodup i.skel, ha.mem i.skel⟩
  unfold State.write
  rw [notify_changed i hx ha (hon x .refl), hl, if_pos rfl, List.nil_append]
  refine takeWhile_all (fun y hy => ?_)
  exact hon y ((ha.mem i.skel y).mp hy).1

/-- In general the notification climbs up to the first object whose updates are off. -/
theorem write_stops_at_off {s : State T} (hr : Reach s) {x : Id} {L : List Id} (hx : x < s.heap.next)
    (hl : s.heap.leaf x = true) (ha : Above s.heap.toGraph x L) :
    changedOf (s.write x) = if s.on x then L.takeWhile s.on else [] := by
  have i := hr.inv
  unfold State.write
  cases hon : s.on x with
  | true => rw [notify_changed i hx ha hon, hl, if_pos rfl, List.nil_append, if_pos rfl]
  | false =>
    unfold State.notify Hier.Graph.fuel
    rw [notifyF_succ, hon]; rfl

/-- Every object has such a list of objects above it. -/
theorem above_exists {s : State T} (hr : Reach s) (x : Id) : ∃ L, Above s.heap.toGraph x L :=
  let ⟨L, h, _⟩ := Above.exists_short hr.inv.skel x
  ⟨L, h⟩

example : demo.write 7 = [.changed 6, .changed 2, .changed 0] ∧
    demo.write 3 = [.user 9, .changed 2, .changed 0] ∧ demo.write 1 = [.changed 0] ∧
    7 < demo.heap.next ∧ demo.heap.leaf 7 = true ∧ (∀ y, y < 8 → demo.on y = true) := by decide +kernel

/-! ### C38 -/

/-- `x.trigger_update(tp)` with updates on: a list `D` of exactly the objects with `parameters_changed` at
or below `x` that are reached through objects that are not fixed (and have updates on), each once and none
before an object below it; then, if `tp`, exactly the ancestors, the nearest first. -/
theorem trigger_update_spec {s : State T} (hr : Reach s) {x : Id} {L : List Id} (hx : x < s.heap.next)
    (ha : Above s.heap.toGraph x L) (hi : s.heap.inInit x = false) (tp : Bool)
    (hon : s.on x = true) (hup : ∀ y ∈ L, s.on y = true) :
    ∃ D, changedOf (s.triggerUpdate x tp) = D ++ (if tp then L else []) ∧ D.Nodup ∧
      (∀ y, y ∈ D ↔ s.heap.leaf y = false ∧ s.on y = true ∧ Awake s.heap x y) ∧
      D.Pairwise (fun a b => ¬ (Anc s.heap.toGraph a b ∧ a ≠ b)) := by
  have i := hr.inv
  obtain ⟨d, hd, hb⟩ := i.skel.rank
  refine ⟨postF s.heap.toGraph.fuel s.heap.toGraph s.heap.isFixed s.on x, ?_, nodup_postF i.skel _ x,
    mem_postF i.skel hd hb _ x (by unfold Hier.Graph.fuel; omega), postF_order i.skel _ x⟩
  unfold State.triggerUpdate
  rw [hon, hi]
  simp only [Bool.not_true, Bool.or_self, Bool.false_eq_true, if_false]
  rw [triggerF_spec i hx ha hon]
  congr 1
  cases tp with
  | false => rfl
  | true =>
    rw [if_pos rfl, if_pos rfl]
    exact takeWhile_all hup

/-- Altogether no object is updated twice. -/
theorem trigger_update_once {s : State T} (hr : Reach s) {x : Id} (hx : x < s.heap.next)
    (hi : s.heap.inInit x = false) (tp : Bool) (hon : ∀ y, Anc s.heap.toGraph y x → s.on y = true) :
    (changedOf (s.triggerUpdate x tp)).Nodup := by
  have i := hr.inv
  obtain ⟨L, ha⟩ := above_exists hr x
  obtain ⟨D, h1, h2, h3, -⟩ := trigger_update_spec hr hx ha hi tp (hon x .refl)
    (fun y hy => hon y ((ha.mem i.skel y).mp hy).1)
  rw [h1]
  cases tp with
  | false => simpa using h2
  | true =>
    rw [if_pos rfl, List.nodup_append]
    refine ⟨h2, ha.nodup i.skel, fun a h4 b h5 => ?_⟩
    rintro rfl
    have h6 := ((h3 a).mp h4).2.2.anc
    have h7 := (ha.mem i.skel a).mp h5
    exact h7.2 (i.skel.anc_antisymm h7.1 h6)

/-- Reaching an object: it is fixed iff all its elements are. -/
theorem awake_iff {s : State T} (hr : Reach s) {x y : Id} (hx : x < s.heap.next) :
    Awake s.heap x y ↔ Anc s.heap.toGraph x y ∧ (∀ z, Anc s.heap.toGraph x z → Anc s.heap.toGraph z y →
      z ≠ x → ∃ l, Anc s.heap.toGraph z l ∧ s.heap.leaf l = true ∧ ∃ k, k < s.heap.size l ∧
        k ∉ s.heap.constraints l .fixed) := by
  have i := hr.inv
  have fx : ∀ z, z < s.heap.next → (s.heap.isFixed z = false ↔ ∃ l, Anc s.heap.toGraph z l ∧
      s.heap.leaf l = true ∧ ∃ k, k < s.heap.size l ∧ k ∉ s.heap.constraints l .fixed) := by
    intro z hz
    rw [← Bool.not_eq_true, Hier.Heap.isFixed_iff i.quiet.reach hz]
    push Not
    rfl
  constructor
  · intro h
    induction h with
    | refl => exact ⟨.refl, fun z h1 h2 hne => absurd (i.skel.anc_antisymm h2 h1) hne⟩
    | @step p c a hp hf ih =>
      refine ⟨ih.1.trans (.of_parent hp), fun z h1 h2 hne => ?_⟩
      rcases (Hier.Graph.anc_iff_of_parent hp).mp h2 with rfl | h3
      · exact (fx z (i.skel.alloc _ _ hp).1).mp hf
      · exact ih.2 z h1 h3 hne
  · rintro ⟨h1, h2⟩
    induction h1 with
    | refl => exact .refl
    | @step p c ha hp ih =>
      have hc := (i.skel.alloc _ _ hp).1
      have hne : c ≠ x := by
        rintro rfl
        exact i.skel.not_anc_parent hp ha
      refine .step (ih (fun z h3 h4 h5 => h2 z h3 (h4.trans (.of_parent hp)) h5)) hp ?_
      exact (fx c hc).mpr (h2 c (ha.trans (.of_parent hp)) .refl hne)

example : demo.triggerUpdate 0 true = [.user 9, .changed 6, .changed 2, .changed 0] := by decide +kernel

example : changedOf (demo.triggerUpdate 2 true) = [6, 2, 0] ∧
    changedOf (demo.triggerUpdate 2 false) = [6, 2] ∧ demo.heap.inInit 2 = false ∧
    changedOf ((exec demo (.hier (.fix ⟨6, none⟩))).1.triggerUpdate 0 true) = [2, 0] ∧
    changedOf ((exec demo (.hier (.fix ⟨2, none⟩))).1.triggerUpdate 0 true) = [0] := by decide +kernel

/-! ### C39 -/

/-- `update_model(b)` on any object sets the switch of exactly the objects of its hierarchy. -/
theorem update_model_switches {s : State T} (hr : Reach s) {x : Id} (b : Bool) (y : Id) :
    (Anc s.heap.toGraph (s.heap.toGraph.highest x) y → (s.updateModel x b).1.on y = b) ∧
    (¬ Anc s.heap.toGraph (s.heap.toGraph.highest x) y → (s.updateModel x b).1.on y = s.on y) := by
  have i := hr.inv
  have hm : s.heap.visited = fun _ => false := funext (Hier.Heap.no_marks i.quiet)
  have ht := (Hier.Graph.traverse_visits_partial i.skel (bad := fun _ _ => false) (fun _ _ => rfl)
    (s.heap.toGraph.highest x)).2.2.1 y
  simp only [State.updateModel]
  rw [hm]
  constructor
  · intro h; exact if_pos (ht.mpr h)
  · intro h; exact if_neg (fun h' => h (ht.mp h'))

theorem exec_next {s : State T} (i : Inv s) {e : Ev T} (ha : Admissible s e) :
    s.heap.next ≤ (exec s e).1.heap.next := by
  have w := i.wf
  cases e with
  | addObserver x u p => exact Nat.le_refl _
  | removeObserver x u => exact Nat.le_refl _
  | updateModel x b => exact Nat.le_refl _
  | write x => exact Nat.le_refl _
  | trigger x tp => exact Nat.le_refl _
  | hier e =>
    obtain ⟨had, hne⟩ := ha
    have heap : (exec s (.hier e)).1.heap = (s.heap.exec e).1 := by
      show (s.hier e).1.heap = _
      cases e with
      | constrain x c => cases c <;> rfl
      | link p x j => simp only [State.hier]; split <;> rfl
      | unlink q x => simp only [State.hier]; split <;> rfl
      | _ => rfl
    rw [heap]
    cases e with
    | newParam n => exact Nat.le_succ _
    | newNode => exact Nat.le_succ _
    | finishInit x b => exact (congrArg Hier.Graph.next (finishInit_graph w had.1 b)).ge
    | init x => exact (congrArg Hier.Graph.next (init_graph w had)).ge
    | unconstrain x cs =>
      exact (congrArg Hier.Graph.next ((Hier.Heap.constraining_wf w had).2.1 cs).2.graph).ge
    | fix x => exact (congrArg Hier.Graph.next (Hier.Heap.constraining_wf w had).2.2.1.2.graph).ge
    | unfix x => exact (congrArg Hier.Graph.next (Hier.Heap.constraining_wf w had).2.2.2.2.graph).ge
    | constrain x c => exact (congrArg Hier.Graph.next ((Hier.Heap.constraining_wf w had).1 c).2.graph).ge
    | link p x j => exact (Hier.Heap.link_post w had).next.ge
    | unlink q x =>
      show s.heap.next ≤ (s.heap.unlink q x).1.next
      unfold Heap.unlink
      split
      · exact Nat.le_refl _
      · split
        · rename_i hx
          obtain ⟨A, B, hk⟩ := List.append_of_mem hx
          exact (Hier.Heap.unlinkChild_wf w hk).2.1.next.le
        · exact Nat.le_refl _

/-- Only `update_model` turns the switch of an existing object. -/
theorem exec_on {s : State T} {e : Ev T} {z : Id} (hz : z < s.heap.next)
    (he : ∀ x b, e ≠ .updateModel x b) : (exec s e).1.on z = s.on z := by
  cases e with
  | updateModel x b => exact absurd rfl (he x b)
  | addObserver x u p => rfl
  | removeObserver x u => rfl
  | write x => rfl
  | trigger x tp => rfl
  | hier e =>
    show (s.hier e).1.on z = _
    have hne : z ≠ s.heap.next := by
      intro h; rw [h] at hz; exact lt_irrefl _ hz
    cases e with
    | constrain x c => cases c <;> rfl
    | link p x j => simp only [State.hier]; split <;> rfl
    | unlink q x => simp only [State.hier]; split <;> rfl
    | newParam n => exact upd_ne _ _ hne
    | newNode => exact upd_ne _ _ hne
    | _ => rfl

/-- Whatever the user calls, only objects whose switch is on afterwards are updated. -/
theorem exec_changed_on {s : State T} {e : Ev T} {z : Id} (h : z ∈ changedOf (exec s e).2) :
    (exec s e).1.on z = true := by
  cases e with
  | addObserver x u p => simp [exec, changedOf] at h
  | removeObserver x u => simp [exec, changedOf] at h
  | updateModel x b => exact triggerUpdate_on _ h
  | write x => exact notifyF_on s _ x none z h
  | trigger x tp => exact triggerUpdate_on s h
  | hier e =>
    have h : z ∈ changedOf (s.hier e).2 := h
    show (s.hier e).1.on z = true
    cases e with
    | newParam n => simp [State.hier, changedOf] at h
    | newNode => simp [State.hier, changedOf] at h
    | finishInit x b =>
      cases b with
      | true => exact triggerUpdate_on _ h
      | false => simp [State.hier, changedOf] at h
    | init x => exact triggerUpdate_on _ h
    | unconstrain x cs => simp [State.hier, changedOf] at h
    | unfix x => simp [State.hier, changedOf] at h
    | fix x => exact notifyF_on _ _ x.obj none z h
    | link p x j =>
      simp only [State.hier] at h
      split at h <;> simp [changedOf] at h
    | unlink q x =>
      simp only [State.hier] at h
      split at h <;> simp [changedOf] at h
    | constrain x c =>
      cases c with
      | fixed => exact notifyF_on _ _ x.obj none z h
      | tr t =>
        simp only [State.hier] at h
        rw [changedOf_append, List.mem_append] at h
        rcases h with h | h
        · split at h
          · exact notifyF_on s _ x.obj none z h
          · simp [changedOf] at h
        · exact triggerUpdate_on _ h

/-- A history of admissible calls none of which is `update_model(True)` on an object of the hierarchy
that `z` is in at that time. -/
inductive Muted (z : Id) : State T → List (Ev T) → Prop
  | nil {s : State T} : Muted z s []
  | cons {s : State T} {e : Ev T} {es : List (Ev T)} : Admissible s e →
      (∀ y, e = .updateModel y true → ¬ Anc s.heap.toGraph (s.heap.toGraph.highest y) z) →
      Muted z (exec s e).1 es → Muted z s (e :: es)

theorem muted_silent {z : Id} : ∀ {es : List (Ev T)} {s : State T}, Reach s → z < s.heap.next →
    s.on z = false → Muted z s es → z ∉ changedOf (runAll s es).2
  | [], _, _, _, _, _ => by simp [runAll, changedOf]
  | e :: es, s, hr, hz, hon, hm => by
    cases hm with
    | cons ha hy hm =>
      have hoff : (exec s e).1.on z = false := by
        by_cases hu : ∃ x b, e = .updateModel x b
        · obtain ⟨x, b, rfl⟩ := hu
          obtain ⟨h1, h2⟩ := update_model_switches hr (x := x) b z
          by_cases hanc : Anc s.heap.toGraph (s.heap.toGraph.highest x) z
          · cases b with
            | false => exact h1 hanc
            | true => exact absurd hanc (hy x rfl)
          · exact (h2 hanc).trans hon
        · rw [exec_on hz (fun x b h => hu ⟨x, b, h⟩)]; exact hon
      show z ∉ changedOf ((exec s e).2 ++ (runAll (exec s e).1 es).2)
      rw [changedOf_append, List.mem_append]
      rintro (h | h)
      · rw [exec_changed_on h] at hoff; cases hoff
      · exact muted_silent (.step hr ha) (lt_of_lt_of_le hz (exec_next hr.inv ha)) hoff hm h

/-- After `update_model(False)` on any object `x`, no object `z` of its hierarchy is updated by anything:
writes, triggers, constraining, fixing, linking, unlinking, observers, switching in other hierarchies;
until `update_model(True)` is called on an object of the hierarchy of `z`. Missing for the full claim:
objects linked into the hierarchy while updates are off are not silent (`linked_while_off_fails`), and an
update of the whole hierarchy on re-enabling (`update_on_spec_partial`). -/
theorem update_off_silences_partial {s : State T} (hr : Reach s) {x z : Id} (hx : x < s.heap.next)
    (hz : Anc s.heap.toGraph (s.heap.toGraph.highest x) z) {es : List (Ev T)}
    (hm : Muted z (exec s (.updateModel x false)).1 es) :
    z ∉ changedOf (runAll s (.updateModel x false :: es)).2 := by
  have hxz : z < s.heap.next :=
    hr.inv.skel.desc_lt hz (hr.inv.skel.anc_lt (hr.inv.skel.highest_spec x).2 hx)
  have hoff : (exec s (.updateModel x false)).1.on z = false := (update_model_switches hr false z).1 hz
  show z ∉ changedOf ((exec s (.updateModel x false)).2 ++ (runAll (exec s (.updateModel x false)).1 es).2)
  rw [changedOf_append, List.mem_append]
  rintro (h | h)
  · rw [exec_changed_on h] at hoff; cases hoff
  · exact muted_silent (.step (e := .updateModel x false) hr hx) hxz hoff hm h

/-- `update_model(True)` on `x` turns all updates of its hierarchy on, and then updates the objects at or
below `x` that are reached through objects that are not fixed, each once, none before an object below it,
and then all ancestors of `x`, the nearest first. Missing for the full claim: objects that are neither
above nor below `x` are not updated (`update_on_skips_siblings_fails`); if `x` is the root there are none
(`update_on_root`). -/
theorem update_on_spec_partial {s : State T} (hr : Reach s) {x : Id} {L : List Id} (hx : x < s.heap.next)
    (ha : Above s.heap.toGraph x L) (hi : s.heap.inInit x = false) :
    (∀ y, Anc s.heap.toGraph (s.heap.toGraph.highest x) y → (exec s (.updateModel x true)).1.on y = true) ∧
    ∃ D, changedOf (exec s (.updateModel x true)).2 = D ++ L ∧ D.Nodup ∧
      (∀ y, y ∈ D ↔ s.heap.leaf y = false ∧ Awake s.heap x y) ∧
      D.Pairwise (fun a b => ¬ (Anc s.heap.toGraph a b ∧ a ≠ b)) := by
  have i := hr.inv
  have hsw : ∀ y, Anc s.heap.toGraph (s.heap.toGraph.highest x) y →
      (exec s (.updateModel x true)).1.on y = true := fun y => (update_model_switches hr true y).1
  refine ⟨hsw, ?_⟩
  have hrx := (i.skel.highest_spec x).2
  have hup : ∀ y ∈ L, (exec s (.updateModel x true)).1.on y = true := by
    intro y hy
    refine hsw y ?_
    have h1 := ((ha.mem i.skel y).mp hy).1
    rcases h1.total hrx with h2 | h2
    · rw [(Hier.Graph.anc_root (i.skel.highest_spec x).1).mp h2]; exact .refl
    · exact h2
  obtain ⟨D, h1, h2, h3, h4⟩ := trigger_update_spec (.step (e := .updateModel x true) hr hx) (x := x) (L := L)
    hx ha hi true (hsw x hrx) hup
  refine ⟨D, h1, h2, fun y => ?_, h4⟩
  rw [h3 y]
  constructor
  · rintro ⟨h5, -, h6⟩; exact ⟨h5, h6⟩
  · rintro ⟨h5, h6⟩; exact ⟨h5, hsw y (hrx.trans (Awake.anc h6)), h6⟩

/-- On a root: the whole hierarchy. -/
theorem update_on_root {s : State T} (hr : Reach s) {x : Id} (hx : x < s.heap.next)
    (hroot : s.heap.parent x = none) (hi : s.heap.inInit x = false) :
    (∀ y, Anc s.heap.toGraph x y → (exec s (.updateModel x true)).1.on y = true) ∧
    (changedOf (exec s (.updateModel x true)).2).Nodup ∧
    (∀ y, y ∈ changedOf (exec s (.updateModel x true)).2 ↔ s.heap.leaf y = false ∧ Awake s.heap x y) ∧
    (changedOf (exec s (.updateModel x true)).2).Pairwise
      (fun a b => ¬ (Anc s.heap.toGraph a b ∧ a ≠ b)) := by
  obtain ⟨h1, D, h2, h3, h4, h5⟩ := update_on_spec_partial hr hx (.root hroot) hi
  rw [List.append_nil] at h2
  rw [h2]
  refine ⟨fun y hy => h1 y ?_, h3, h4, h5⟩
  have : s.heap.toGraph.highest x = x := hr.inv.skel.highest_eq hroot .refl
  rw [this]; exact hy

example : changedOf (runAll demo [.updateModel 4 false, .write 7, .trigger 2 true, .hier (.fix ⟨1, none⟩),
      .hier (.constrain ⟨3, none⟩ (.tr 1)), .hier (.unlink 2 6), .write 7]).2 = [] ∧
    changedOf (runAll demo [.updateModel 4 false, .write 7, .updateModel 0 true]).2 = [6, 2, 0] := by
  decide +kernel

example : Muted 0 (exec demo (.updateModel 4 false)).1 [.write 7, .trigger 2 true] := by
  have h1 : Reach (exec demo (.updateModel 4 false)).1 :=
    .step demo_reach (admissibleB_sound demo_reach.inv (by decide +kernel))
  refine .cons (admissibleB_sound h1.inv (by decide +kernel)) (fun y h => by cases h) ?_
  have h2 : Reach (exec (exec demo (.updateModel 4 false)).1 (.write 7)).1 :=
    .step h1 (admissibleB_sound h1.inv (by decide +kernel))
  exact .cons (admissibleB_sound h2.inv (by decide +kernel)) (fun y h => by cases h) .nil

/-- A root `0` with two nodes `1` (with `Param` `2`) and `3` (with `Param` `4`), neither of them fixed. -/
def siblings : State Nat := (runAll empty
  ([.newNode, .newNode, .newParam 1, .newNode, .newParam 1, .link 1 2 none, .finishInit 1 true,
    .link 3 4 none, .finishInit 3 true, .link 0 1 none, .link 0 3 none, .finishInit 0 true].map Ev.hier)).1

theorem siblings_reach : Reach siblings := Reach.run .empty _ (by decide +kernel)

/-- `update_model(True)` on a node does not update the siblings, although they were written to while
updates were off. -/
theorem update_on_skips_siblings_fails :
    let es : List (Ev Nat) := [.updateModel 1 false, .write 4, .updateModel 1 true]
    runB siblings es = true ∧ changedOf (runAll siblings es).2 = [1, 0] ∧
    siblings.heap.leaf 3 = false ∧ siblings.heap.isFixed 3 = false ∧ siblings.heap.parent 3 = some 0 := by
  decide +kernel

/-- A node `5` with `Param` `6` is linked while updates are off: writing to `6` still updates `5`, and,
the other way round, a part unlinked while updates are off stays silent. -/
theorem linked_while_off_fails :
    let es : List (Ev Nat) := [.hier .newNode, .hier (.newParam 1), .hier (.link 5 6 none),
      .hier (.finishInit 5 true), .updateModel 0 false, .hier (.link 0 5 none), .write 6]
    let es' : List (Ev Nat) := [.updateModel 0 false, .hier (.unlink 0 1), .updateModel 0 true, .write 2]
    runB siblings es = true ∧ changedOf (runAll siblings es).2 = [5, 5] ∧
    (runAll siblings es).1.heap.parent 5 = some 0 ∧
    runB siblings es' = true ∧ changedOf (runAll siblings es').2 = [3, 0] ∧
    (runAll siblings es').1.heap.parent 2 = some 1 := by decide +kernel

end Paramz.Notify

import Verif.Select.Props
import Verif.Concat.Props
import Verif.Hier.ConProps

/-!
# C73: constraining and fixing several parameters at once

Source: `paramz/param.py:450-498` (`constrain`, `constrain_positive`, `constrain_negative`, `constrain_bounded`,
`constrain_fixed`/`fix`, `unconstrain*`, `unconstrain_fixed`/`unfix` of a `ParamConcatenation`),
`paramz/core/constrainable.py:52-165`.

`constrain_positive` etc. are `constrain` with the transformation object of that name (constrainable.py:167-211; one
object for equal arguments, C21), so a transformation is an argument here.
-/

set_option linter.unusedSectionVars false

namespace Paramz.Concat

open Paramz.Hier (Id Graph Heap Con)
open Hier.Heap (Target Hits)
open Hier.Graph (Anc Skel)
open Paramz.Notify (Call changedOf)

variable {T V : Type} [DecidableEq T]

/-- The hierarchy with its observers, and the values of the `Param`s in the order of `flat`. -/
structure St (T V : Type) where
  n : Notify.State T
  vals : Id → List V

/-- A constraining or fixing call. `fix (some b)` is `fix(value)`; `b k` is `value` broadcast to `k` elements, `none` if
that is impossible. -/
inductive ConOp (T V : Type)
  | constrain (t : T)
  | constrainFixed
  | unconstrain (ts : List (Con T))
  | fix (value : Option (Nat → Option (List V)))
  | unfix

/-- What one call made: the new state, the notifications, and whether it raised. -/
structure Res (T V : Type) where
  st : St T V
  calls : List Call
  raised : Bool

/-- The call on one `Param` `p`, with the arguments given in param.py:454-498. `ini t l` is `t.initialize(l)`.
`constrain(t, trigger_parent=False)` (constrainable.py:148-156): assign, remove all constraints, add `t`,
`trigger_update(False)`; the assignment is `Param.__setitem__`, which notifies the observers of `p`
(observable_array.py:117-119). `constrain(__fixed__, trigger_parent=False)`: `fix(trigger_parent=False)`.
`constrain_fixed(value, warning, True)`: constrainable.py:61-69. -/
def ConOp.one (ini : T → List V → List V) (s : St T V) (p : Id) : ConOp T V → Res T V
  | .constrain t =>
    let n1 : Notify.State T := { s.n with heap := s.n.heap.constrain ⟨p, none⟩ (.tr t) }
    ⟨⟨n1, Hier.upd s.vals p (ini t (s.vals p))⟩, s.n.notify p none ++ n1.triggerUpdate p false, false⟩
  | .constrainFixed =>
    let n1 : Notify.State T := { s.n with heap := s.n.heap.fix ⟨p, none⟩ }
    ⟨⟨n1, s.vals⟩, n1.notify p (some ⊥), false⟩
  | .unconstrain ts => ⟨⟨{ s.n with heap := s.n.heap.unconstrain ⟨p, none⟩ ts }, s.vals⟩, [], false⟩
  | .fix none =>
    let n1 : Notify.State T := { s.n with heap := s.n.heap.fix ⟨p, none⟩ }
    ⟨⟨n1, s.vals⟩, n1.notify p none, false⟩
  | .fix (some b) => match b (s.vals p).length with
    | none => ⟨s, [], true⟩
    | some l =>
      let n1 : Notify.State T := { s.n with heap := s.n.heap.fix ⟨p, none⟩ }
      ⟨⟨n1, Hier.upd s.vals p l⟩, s.n.notify p none ++ n1.notify p none, false⟩
  | .unfix => ⟨⟨{ s.n with heap := s.n.heap.unfix ⟨p, none⟩ }, s.vals⟩, [], false⟩

/-- `[param.constrain(...) for param in self.params]`: an exception ends the loop. -/
def ConOp.loop (ini : T → List V → List V) (op : ConOp T V) : List Id → St T V → Res T V
  | [], s => ⟨s, [], false⟩
  | p :: ps, s =>
    let r := op.one ini s p
    if r.raised then r
    else
      let r' := ConOp.loop ini op ps r.st
      ⟨r'.st, r.calls ++ r'.calls, r'.raised⟩

/-- Is the loop followed by `self.update_all_params()`? (param.py:454-498) -/
def ConOp.updates : ConOp T V → Bool
  | .constrain _ => true
  | .constrainFixed => true
  | _ => false

/-- `c.constrain(t)`, `c.fix()` etc. for a `ParamConcatenation` `c`: the loop, then `update_all_params`
(param.py:450-452), which runs through what is left of the iterator. -/
def Cat.apply (c : Cat) (ini : T → List V → List V) (op : ConOp T V) (s : St T V) : Cat × Res T V :=
  let r := op.loop ini c.params s
  if op.updates && !r.raised then ({ c with iter := [] }, ⟨r.st, r.calls ++ updateAll r.st.n c.iter, r.raised⟩)
  else (c, r)

/-- The concatenation for a list of selected objects (param.py:399-425). -/
def Cat.ofObjects (g : Graph) (l : List Id) : Cat := Cat.new g (l.flatMap (Select.State.flattenedF g g.fuel))

/-! ### What the calls are for -/

/-- What an element that carried `u` iff `before` should do after the call on a parameter it belongs to. -/
def ConOp.After : ConOp T V → Con T → Prop → Prop
  | .constrain t, u, _ => u = .tr t
  | .constrainFixed, u, before => before ∨ u = .fixed
  | .unconstrain ts, u, before => before ∧ ts ≠ [] ∧ u ∉ ts
  | .fix _, u, before => before ∨ u = .fixed
  | .unfix, u, before => before ∧ u ≠ .fixed

/-- The values of a parameter it was made on. -/
def ConOp.NewVals (ini : T → List V → List V) : ConOp T V → List V → List V → Prop
  | .constrain t, old, new => new = ini t old
  | .fix (some b), old, new => b old.length = some new
  | _, old, new => new = old

/-! ### Proofs -/

theorem mem_ofObjects {g : Graph} (sk : Skel g) {l : List Id} {y : Id} :
    y ∈ (Cat.ofObjects g l).params ↔ g.leaf y = true ∧ ∃ x ∈ l, Anc g x y := by
  unfold Cat.ofObjects Cat.new
  simp only []
  rw [mem_collect, List.mem_flatMap]
  constructor
  · rintro ⟨x, hx, hy⟩
    rw [Select.flattenedF_eq sk, List.mem_filter] at hy
    exact ⟨hy.2, x, hx, (sk.mem_subtree).mp hy.1⟩
  · rintro ⟨hl, x, hx, ha⟩
    refine ⟨x, hx, ?_⟩
    rw [Select.flattenedF_eq sk, List.mem_filter]
    exact ⟨(sk.mem_subtree).mpr ha, hl⟩

/-- What a call on `Param`s does to a state. -/
structure Step (ini : T → List V → List V) (op : ConOp T V) (P : Id → Prop) (s s' : St T V) : Prop where
  reach : Notify.Reach s'.n
  graph : s'.n.heap.toGraph = s.n.heap.toGraph
  inInit : s'.n.heap.inInit = s.n.heap.inInit
  on : s'.n.on = s.n.on
  obs : s'.n.obs = s.n.obs
  hit : ∀ y k u, P y → s.n.heap.leaf y = true → y < s.n.heap.next → k < s.n.heap.size y →
    (k ∈ s'.n.heap.constraints y u ↔ op.After u (k ∈ s.n.heap.constraints y u))
  miss : ∀ y k u, ¬ P y → s.n.heap.leaf y = true → y < s.n.heap.next → k < s.n.heap.size y →
    (k ∈ s'.n.heap.constraints y u ↔ k ∈ s.n.heap.constraints y u)
  newVals : ∀ y, P y → op.NewVals ini (s.vals y) (s'.vals y)
  oldVals : ∀ y, ¬ P y → s'.vals y = s.vals y

theorem hits_leaf {h : Heap T} (hr : Hier.Heap.Reach h) {p y : Id} {k : Nat} (hp : h.leaf p = true)
    (hk : k < h.size y) : Hits h ⟨p, none⟩ y k ↔ y = p := by
  rw [Hier.Heap.hits_object hr hk]
  constructor
  · intro ha
    cases ha with
    | refl => rfl
    | step ha hpar =>
      exact absurd ha (Hier.Heap.leaf_not_above hr.wf hp (hr.wf.skel.kids_not_leaf hpar))
  · rintro rfl; exact .refl

theorem one_step (ini : T → List V → List V) {s : St T V} (hr : Notify.Reach s.n) {p : Id}
    (hp : p < s.n.heap.next) (hl : s.n.heap.leaf p = true) (op : ConOp T V)
    (he : (op.one ini s p).raised = false) : Step ini op (· = p) s (op.one ini s p).st := by
  have hh : Hier.Heap.Reach s.n.heap := hr.inv.quiet.reach
  have ok : Target.OK s.n.heap ⟨p, none⟩ := ⟨hp, fun a ha => by cases ha⟩
  obtain ⟨c1, c2, c3, c4⟩ := Hier.Heap.constraining_wf hh.wf ok
  have r1 : ∀ t, Notify.Reach ({ s.n with heap := s.n.heap.constrain ⟨p, none⟩ (.tr t) } : Notify.State T) :=
    fun t => Notify.Reach.step (e := .hier (.constrain ⟨p, none⟩ (.tr t))) hr ⟨ok, rfl⟩
  have r2 : ∀ ts, Notify.Reach ({ s.n with heap := s.n.heap.unconstrain ⟨p, none⟩ ts } : Notify.State T) :=
    fun ts => Notify.Reach.step (e := .hier (.unconstrain ⟨p, none⟩ ts)) hr ⟨ok, rfl⟩
  have r3 : Notify.Reach ({ s.n with heap := s.n.heap.fix ⟨p, none⟩ } : Notify.State T) :=
    Notify.Reach.step (e := .hier (.fix ⟨p, none⟩)) hr ⟨ok, rfl⟩
  have r4 : Notify.Reach ({ s.n with heap := s.n.heap.unfix ⟨p, none⟩ } : Notify.State T) :=
    Notify.Reach.step (e := .hier (.unfix ⟨p, none⟩)) hr ⟨ok, rfl⟩
  have fixHit : ∀ y k u, s.n.heap.leaf y = true → y < s.n.heap.next → k < s.n.heap.size y →
      (k ∈ (s.n.heap.fix ⟨p, none⟩).constraints y u ↔ k ∈ s.n.heap.constraints y u ∨ (u = .fixed ∧ y = p)) := by
    intro y k u h1 h2 h3
    rw [Hier.Heap.fix_exact hh ok h2 h1 h3, hits_leaf hh hl h3]
  cases op with
  | constrain t =>
    refine ⟨r1 t, (c1 (.tr t)).2.graph, (c1 (.tr t)).2.inInit, rfl, rfl, ?_, ?_, ?_, ?_⟩
    · intro y k u hy h1 h2 h3
      exact (Hier.Heap.constrain_exact hh ok t h2 h1 h3 u).1 ((hits_leaf hh hl h3).mpr hy)
    · intro y k u hy h1 h2 h3
      exact (Hier.Heap.constrain_exact hh ok t h2 h1 h3 u).2 (fun h => hy ((hits_leaf hh hl h3).mp h))
    · rintro y rfl; exact Hier.upd_same _ _ _
    · intro y hy; exact Hier.upd_ne _ _ hy
  | constrainFixed =>
    refine ⟨r3, c3.2.graph, c3.2.inInit, rfl, rfl, ?_, ?_, fun y _ => rfl, fun y _ => rfl⟩
    · intro y k u hy h1 h2 h3
      show k ∈ (s.n.heap.fix ⟨p, none⟩).constraints y u ↔ _ ∨ u = .fixed
      rw [fixHit y k u h1 h2 h3]; simp [hy]
    · intro y k u hy h1 h2 h3
      show k ∈ (s.n.heap.fix ⟨p, none⟩).constraints y u ↔ _
      rw [fixHit y k u h1 h2 h3]; simp [hy]
  | unconstrain ts =>
    have key : ∀ y k u, s.n.heap.leaf y = true → y < s.n.heap.next → k < s.n.heap.size y →
        (k ∈ (s.n.heap.unconstrain ⟨p, none⟩ ts).constraints y u ↔
          k ∈ s.n.heap.constraints y u ∧ ¬ (y = p ∧ (ts = [] ∨ u ∈ ts))) := by
      intro y k u h1 h2 h3
      rw [Hier.Heap.unconstrain_exact hh ok ts h2 h1 h3, hits_leaf hh hl h3]
    refine ⟨r2 ts, (c2 ts).2.graph, (c2 ts).2.inInit, rfl, rfl, ?_, ?_, fun y _ => rfl, fun y _ => rfl⟩
    · intro y k u hy h1 h2 h3
      show k ∈ (s.n.heap.unconstrain ⟨p, none⟩ ts).constraints y u ↔ _ ∧ ts ≠ [] ∧ u ∉ ts
      rw [key y k u h1 h2 h3]; simp [hy]
    · intro y k u hy h1 h2 h3
      show k ∈ (s.n.heap.unconstrain ⟨p, none⟩ ts).constraints y u ↔ _
      rw [key y k u h1 h2 h3]; simp [hy]
  | fix v =>
    have hit : ∀ y k u, y = p → s.n.heap.leaf y = true → y < s.n.heap.next → k < s.n.heap.size y →
        (k ∈ (s.n.heap.fix ⟨p, none⟩).constraints y u ↔ k ∈ s.n.heap.constraints y u ∨ u = .fixed) := by
      intro y k u hy h1 h2 h3
      rw [fixHit y k u h1 h2 h3]; simp [hy]
    have miss : ∀ y k u, ¬ y = p → s.n.heap.leaf y = true → y < s.n.heap.next → k < s.n.heap.size y →
        (k ∈ (s.n.heap.fix ⟨p, none⟩).constraints y u ↔ k ∈ s.n.heap.constraints y u) := by
      intro y k u hy h1 h2 h3
      rw [fixHit y k u h1 h2 h3]; simp [hy]
    cases v with
    | none =>
      exact ⟨r3, c3.2.graph, c3.2.inInit, rfl, rfl, hit, miss, fun y _ => rfl, fun y _ => rfl⟩
    | some b =>
      unfold ConOp.one at he ⊢
      simp only [] at he ⊢
      cases hb : b (s.vals p).length with
      | none => rw [hb] at he; cases he
      | some l =>
        refine ⟨r3, c3.2.graph, c3.2.inInit, rfl, rfl, hit, miss, ?_, fun y hy => Hier.upd_ne _ _ hy⟩
        rintro y rfl
        show b (s.vals y).length = some (Hier.upd s.vals y l y)
        rw [Hier.upd_same, hb]
  | unfix =>
    have key : ∀ y k u, s.n.heap.leaf y = true → y < s.n.heap.next → k < s.n.heap.size y →
        (k ∈ (s.n.heap.unfix ⟨p, none⟩).constraints y u ↔
          k ∈ s.n.heap.constraints y u ∧ ¬ (u = .fixed ∧ y = p)) := by
      intro y k u h1 h2 h3
      rw [Hier.Heap.unfix_exact hh ok h2 h1 h3, hits_leaf hh hl h3]
    refine ⟨r4, c4.2.graph, c4.2.inInit, rfl, rfl, ?_, ?_, fun y _ => rfl, fun y _ => rfl⟩
    · intro y k u hy h1 h2 h3
      show k ∈ (s.n.heap.unfix ⟨p, none⟩).constraints y u ↔ _ ∧ u ≠ .fixed
      rw [key y k u h1 h2 h3]; simp [hy]
    · intro y k u hy h1 h2 h3
      show k ∈ (s.n.heap.unfix ⟨p, none⟩).constraints y u ↔ _
      rw [key y k u h1 h2 h3]; simp [hy]

theorem loop_step (ini : T → List V → List V) (op : ConOp T V) : ∀ (ps : List Id) (s : St T V), ps.Nodup →
    Notify.Reach s.n → (∀ p ∈ ps, p < s.n.heap.next ∧ s.n.heap.leaf p = true) →
    (op.loop ini ps s).raised = false → Step ini op (· ∈ ps) s (op.loop ini ps s).st
  | [], s, _, hr, _, _ =>
    ⟨hr, rfl, rfl, rfl, rfl, fun _ _ _ h => by simp at h, fun _ _ _ _ _ _ _ => Iff.rfl, fun _ h => by simp at h,
      fun _ _ => rfl⟩
  | p :: ps, s, hn, hr, hps, he => by
    rw [List.nodup_cons] at hn
    obtain ⟨hp1, hp2⟩ := hps p List.mem_cons_self
    unfold ConOp.loop at he ⊢
    simp only [] at he ⊢
    cases hrz : (op.one ini s p).raised with
    | true => rw [hrz] at he; simp [hrz] at he
    | false =>
      rw [hrz] at he
      simp only [Bool.false_eq_true, if_false] at he ⊢
      have a := one_step ini hr hp1 hp2 op hrz
      generalize op.one ini s p = r at a he
      have hg := a.graph
      have b := loop_step ini op ps r.st hn.2 a.reach (fun q hq => by
        have := hps q (List.mem_cons_of_mem _ hq)
        refine ⟨?_, ?_⟩
        · show q < r.st.n.heap.toGraph.next; rw [hg]; exact this.1
        · show r.st.n.heap.toGraph.leaf q = true; rw [hg]; exact this.2) he
      generalize op.loop ini ps r.st = r' at b
      have conv : ∀ y k, s.n.heap.leaf y = true → y < s.n.heap.next → k < s.n.heap.size y →
          r.st.n.heap.leaf y = true ∧ y < r.st.n.heap.next ∧ k < r.st.n.heap.size y := by
        intro y k h1 h2 h3
        refine ⟨?_, ?_, ?_⟩
        · show r.st.n.heap.toGraph.leaf y = true; rw [hg]; exact h1
        · show y < r.st.n.heap.toGraph.next; rw [hg]; exact h2
        · show k < r.st.n.heap.toGraph.size y; rw [hg]; exact h3
      refine ⟨b.reach, b.graph.trans hg, b.inInit.trans a.inInit, b.on.trans a.on, b.obs.trans a.obs, ?_, ?_, ?_, ?_⟩
      · intro y k u hy h1 h2 h3
        obtain ⟨h1', h2', h3'⟩ := conv y k h1 h2 h3
        rcases List.mem_cons.mp hy with rfl | hy
        · rw [b.miss y k u hn.1 h1' h2' h3', a.hit y k u rfl h1 h2 h3]
        · have hne : y ≠ p := fun e => hn.1 (e ▸ hy)
          rw [b.hit y k u hy h1' h2' h3']
          have := a.miss y k u hne h1 h2 h3
          rw [this]
      · intro y k u hy h1 h2 h3
        obtain ⟨h1', h2', h3'⟩ := conv y k h1 h2 h3
        rw [List.mem_cons, not_or] at hy
        rw [b.miss y k u hy.2 h1' h2' h3', a.miss y k u hy.1 h1 h2 h3]
      · intro y hy
        rcases List.mem_cons.mp hy with rfl | hy
        · rw [b.oldVals y hn.1]; exact a.newVals y rfl
        · have hne : y ≠ p := fun e => hn.1 (e ▸ hy)
          have := b.newVals y hy
          rw [a.oldVals y hne] at this
          exact this
      · intro y hy
        rw [List.mem_cons, not_or] at hy
        rw [b.oldVals y hy.2, a.oldVals y hy.1]

theorem anc_lt_of {h : Heap T} (hr : Hier.Heap.Reach h) {x y : Id} (hx : x < h.next) (ha : Anc h.toGraph x y) :
    y < h.next := by
  cases ha with
  | refl => exact hx
  | step _ hp => exact (hr.wf.skel.alloc _ _ hp).1

theorem apply_st (c : Cat) (ini : T → List V → List V) (op : ConOp T V) (s : St T V) :
    (c.apply ini op s).2.st = (op.loop ini c.params s).st ∧
    (c.apply ini op s).2.raised = (op.loop ini c.params s).raised := by
  unfold Cat.apply
  simp only []
  split <;> exact ⟨rfl, rfl⟩

theorem ofObjects_ok {s : St T V} (hr : Notify.Reach s.n) {l : List Id} (hl : ∀ x ∈ l, x < s.n.heap.next) :
    ∀ p ∈ (Cat.ofObjects s.n.heap.toGraph l).params, p < s.n.heap.next ∧ s.n.heap.leaf p = true := by
  intro p hp
  obtain ⟨h1, x, hx, ha⟩ := (mem_ofObjects hr.inv.skel).mp hp
  exact ⟨anc_lt_of hr.inv.quiet.reach (hl x hx) ha, h1⟩

theorem several_step (ini : T → List V → List V) {s : St T V} (hr : Notify.Reach s.n) {l : List Id}
    (hl : ∀ x ∈ l, x < s.n.heap.next) (op : ConOp T V)
    (he : ((Cat.ofObjects s.n.heap.toGraph l).apply ini op s).2.raised = false) :
    Step ini op (· ∈ (Cat.ofObjects s.n.heap.toGraph l).params) s
      ((Cat.ofObjects s.n.heap.toGraph l).apply ini op s).2.st := by
  rw [(apply_st _ ini op s).1]
  rw [(apply_st _ ini op s).2] at he
  exact loop_step ini op _ s (collect_nodup _) hr (ofObjects_ok hr hl) he

/-! ### C73 -/

/-- **Constraints.** `c` is the concatenation of the objects `l`. A call on `c` that does not raise does to every element
of every `Param` at or below an object of `l` what the call is for, and leaves all other elements alone. -/
theorem several_constraints (ini : T → List V → List V) {s : St T V} (hr : Notify.Reach s.n) {l : List Id}
    (hl : ∀ x ∈ l, x < s.n.heap.next) (op : ConOp T V)
    (he : ((Cat.ofObjects s.n.heap.toGraph l).apply ini op s).2.raised = false) {y k : Nat}
    (hy : y < s.n.heap.next) (hleaf : s.n.heap.leaf y = true) (hk : k < s.n.heap.size y) (u : Con T) :
    ((∃ x ∈ l, Anc s.n.heap.toGraph x y) →
      (k ∈ ((Cat.ofObjects s.n.heap.toGraph l).apply ini op s).2.st.n.heap.constraints y u ↔
        op.After u (k ∈ s.n.heap.constraints y u))) ∧
    ((¬ ∃ x ∈ l, Anc s.n.heap.toGraph x y) →
      (k ∈ ((Cat.ofObjects s.n.heap.toGraph l).apply ini op s).2.st.n.heap.constraints y u ↔
        k ∈ s.n.heap.constraints y u)) := by
  have st := several_step ini hr hl op he
  have hm := mem_ofObjects hr.inv.skel (l := l) (y := y)
  exact ⟨fun h => st.hit y k u (hm.mpr ⟨hleaf, h⟩) hleaf hy hk,
    fun h => st.miss y k u (fun h' => h (hm.mp h').2) hleaf hy hk⟩

/-- **Values.** The values of the `Param`s selected are initialised by the transformation, or set to the value given to
`fix`; all others stay. -/
theorem several_values (ini : T → List V → List V) {s : St T V} (hr : Notify.Reach s.n) {l : List Id}
    (hl : ∀ x ∈ l, x < s.n.heap.next) (op : ConOp T V)
    (he : ((Cat.ofObjects s.n.heap.toGraph l).apply ini op s).2.raised = false) (y : Id)
    (hleaf : s.n.heap.leaf y = true) :
    ((∃ x ∈ l, Anc s.n.heap.toGraph x y) →
      op.NewVals ini (s.vals y) (((Cat.ofObjects s.n.heap.toGraph l).apply ini op s).2.st.vals y)) ∧
    ((¬ ∃ x ∈ l, Anc s.n.heap.toGraph x y) →
      ((Cat.ofObjects s.n.heap.toGraph l).apply ini op s).2.st.vals y = s.vals y) := by
  have st := several_step ini hr hl op he
  have hm := mem_ofObjects hr.inv.skel (l := l) (y := y)
  exact ⟨fun h => st.newVals y (hm.mpr ⟨hleaf, h⟩), fun h => st.oldVals y (fun h' => h (hm.mp h').2)⟩

/-- **Shape and reachability.** Nothing else about the hierarchy changes, and the state is one of the histories of C22-C28
and C37-C40: for instance the elements handed to the optimiser are the ones not fixed. -/
theorem several_reach (ini : T → List V → List V) {s : St T V} (hr : Notify.Reach s.n) {l : List Id}
    (hl : ∀ x ∈ l, x < s.n.heap.next) (op : ConOp T V)
    (he : ((Cat.ofObjects s.n.heap.toGraph l).apply ini op s).2.raised = false) :
    Notify.Reach ((Cat.ofObjects s.n.heap.toGraph l).apply ini op s).2.st.n ∧
    ((Cat.ofObjects s.n.heap.toGraph l).apply ini op s).2.st.n.heap.toGraph = s.n.heap.toGraph ∧
    ∀ r i, r < s.n.heap.next → s.n.heap.parent r = none → s.n.heap.leaf r = false → i < s.n.heap.size r →
      (((Cat.ofObjects s.n.heap.toGraph l).apply ini op s).2.st.n.heap.passed r i = true ↔
        i ∉ ((Cat.ofObjects s.n.heap.toGraph l).apply ini op s).2.st.n.heap.constraints r .fixed) := by
  have st := several_step ini hr hl op he
  refine ⟨st.reach, st.graph, fun r i h1 h2 h3 h4 => ?_⟩
  have hg := st.graph
  generalize ((Cat.ofObjects s.n.heap.toGraph l).apply ini op s).2.st = s' at st hg
  apply Hier.Heap.passed_iff st.reach.inv.quiet.reach
  · show r < s'.n.heap.toGraph.next; rw [hg]; exact h1
  · show s'.n.heap.toGraph.parent r = none; rw [hg]; exact h2
  · show s'.n.heap.toGraph.leaf r = false; rw [hg]; exact h3
  · show i < s'.n.heap.toGraph.size r; rw [hg]; exact h4

/-- Only `fix` with a value that cannot be broadcast to every parameter raises; a number never does. -/
theorem several_raises (ini : T → List V → List V) (c : Cat) (op : ConOp T V) (s : St T V)
    (h : ∀ b, op = .fix (some b) → ∀ n, b n ≠ none) : (c.apply ini op s).2.raised = false := by
  rw [(apply_st c ini op s).2]
  generalize c.params = ps
  induction ps generalizing s with
  | nil => rfl
  | cons p ps ih =>
    have h1 : (op.one ini s p).raised = false := by
      cases op with
      | fix v =>
        cases v with
        | none => rfl
        | some b =>
          unfold ConOp.one
          simp only []
          split
          · rename_i hb; exact absurd hb (h b rfl _)
          · rfl
      | _ => rfl
    unfold ConOp.loop
    simp only [h1, Bool.false_eq_true, if_false]
    exact ih _

/-- **Updates.** `c.constrain(t)` and `c.fix(...)` update every object above a selected parameter, however often `c` has
been used before (`used` is what is left of its iterator). Missing for the full claim: `c.constrain('fixed')`, see
`fixed_again_fails`. -/
theorem several_updates_partial (ini : T → List V → List V) {s : St T V} (hr : Notify.Reach s.n) {l : List Id}
    (hl : ∀ x ∈ l, x < s.n.heap.next) (op : ConOp T V) (hop : (∃ t, op = .constrain t) ∨ ∃ v, op = .fix v)
    (used : List Id)
    (he : (({ Cat.ofObjects s.n.heap.toGraph l with iter := used } : Cat).apply ini op s).2.raised = false) {x p y : Id}
    (hx : x ∈ l) (hxp : Anc s.n.heap.toGraph x p) (hp : s.n.heap.leaf p = true) (hy : Anc s.n.heap.toGraph y p)
    (hne : y ≠ p) (hon : ∀ z, Anc s.n.heap.toGraph z p → s.n.on z = true) :
    .changed y ∈ (({ Cat.ofObjects s.n.heap.toGraph l with iter := used } : Cat).apply ini op s).2.calls := by
  have hmem : p ∈ (Cat.ofObjects s.n.heap.toGraph l).params := (mem_ofObjects hr.inv.skel).mpr ⟨hp, x, hx, hxp⟩
  have hps := ofObjects_ok hr hl
  have hnd : (Cat.ofObjects s.n.heap.toGraph l).params.Nodup := collect_nodup _
  rw [(apply_st _ ini op s).2] at he
  have key : ∀ (ps : List Id) (s : St T V), ps.Nodup → Notify.Reach s.n →
      (∀ q ∈ ps, q < s.n.heap.next ∧ s.n.heap.leaf q = true) → p ∈ ps → Anc s.n.heap.toGraph y p →
      (∀ z, Anc s.n.heap.toGraph z p → s.n.on z = true) → (op.loop ini ps s).raised = false →
      .changed y ∈ (op.loop ini ps s).calls := by
    intro ps
    induction ps with
    | nil => intro s _ _ _ h; simp at h
    | cons q ps ih =>
      intro s hn hr hps hpm hy hon he
      obtain ⟨hq1, hq2⟩ := hps q List.mem_cons_self
      have tell : ∀ n : Notify.State T, Notify.Reach n → n.heap.toGraph = s.n.heap.toGraph → n.on = s.n.on → p = q →
          .changed y ∈ n.notify p none := by
        intro n hrn hg ho hpq
        subst hpq
        obtain ⟨L, hL⟩ := Notify.above_exists hrn p
        have hl' : n.heap.leaf p = true := by show n.heap.toGraph.leaf p = true; rw [hg]; exact hq2
        obtain ⟨e1, -, e3⟩ := Notify.write_updates_ancestors hrn (x := p)
          (by show p < n.heap.toGraph.next; rw [hg]; exact hq1) hl' hL (fun z hz => by rw [ho]; exact hon z (hg ▸ hz))
        have : y ∈ changedOf (n.write p) := by rw [e1]; exact (e3 y).mpr ⟨hg ▸ hy, hne⟩
        unfold changedOf at this
        rw [List.mem_filterMap] at this
        obtain ⟨e, he', h4⟩ := this
        cases e with
        | changed z => cases h4; exact he'
        | user u => cases h4
      unfold ConOp.loop at he ⊢
      simp only [] at he ⊢
      cases hrz : (op.one ini s q).raised with
      | true => rw [hrz] at he; simp [hrz] at he
      | false =>
        rw [hrz] at he
        simp only [Bool.false_eq_true, if_false] at he ⊢
        have a := one_step ini hr hq1 hq2 op hrz
        rw [List.mem_append]
        rcases List.mem_cons.mp hpm with hpq | hpm
        · left
          rcases hop with ⟨t, rfl⟩ | ⟨v, rfl⟩
          · subst hpq
            exact List.mem_append_left _ (tell s.n hr rfl rfl rfl)
          · cases v with
            | none =>
              subst hpq
              exact tell _ a.reach a.graph a.on rfl
            | some b =>
              unfold ConOp.one at hrz a ⊢
              simp only [] at hrz a ⊢
              subst hpq
              cases hb : b (s.vals p).length with
              | none => rw [hb] at hrz; cases hrz
              | some l =>
                rw [hb] at a
                exact List.mem_append_right _ (tell _ a.reach a.graph a.on rfl)
        · right
          have hg := a.graph
          refine ih _ (List.nodup_cons.mp hn).2 a.reach (fun z hz => ?_) hpm (by rw [hg]; exact hy)
            (fun z hz => by rw [a.on]; exact hon z (hg ▸ hz)) he
          have := hps z (List.mem_cons_of_mem _ hz)
          exact ⟨by show z < (op.one ini s q).st.n.heap.toGraph.next; rw [hg]; exact this.1,
            by show (op.one ini s q).st.n.heap.toGraph.leaf z = true; rw [hg]; exact this.2⟩
  have := key _ s hnd hr hps hmem hy hon he
  unfold Cat.apply
  simp only []
  split
  · exact List.mem_append_left _ this
  · exact this

/-! ### Examples and counterexamples -/

/-- The hierarchy of `Verif.Notify` (`0 = [1, 2 = [3, 4, 6 = [7]], 5]`, `5` fixed) with values. -/
def demoSt : St Nat Nat := ⟨Notify.demo, demoVals⟩

/-- `initialize` for the examples: transformation `t` wants values of at least `t`. -/
def demoIni : Nat → List Nat → List Nat := fun t l => l.map (max t)

/-- `m['...']` selecting the node 2 and the `Param`s 3 and 5. -/
def demoCat : Cat := Cat.ofObjects demoSt.n.heap.toGraph [2, 3, 5]

example : Notify.Reach demoSt.n := by
  unfold demoSt
  dsimp only
  exact Notify.demo_reach

example : (∀ x ∈ [2, 3, 5], x < demoSt.n.heap.next) ∧ demoCat.params = [3, 4, 7, 5] ∧
    (demoCat.apply demoIni (.constrain 13) demoSt).2.raised = false := by decide +kernel

example : (demoCat.apply demoIni (.constrain 13) demoSt).2.st.n.heap.constraints 0 (.tr 13) =
      (List.range (demoSt.n.heap.size 0)).drop (demoSt.n.heap.size 1) ∧
    (demoCat.apply demoIni (.constrain 13) demoSt).2.st.n.heap.constraints 0 .fixed = [] ∧
    (demoCat.apply demoIni (.constrain 13) demoSt).2.st.vals 3 = [13, 13, 14] ∧
    (demoCat.apply demoIni (.constrain 13) demoSt).2.st.vals 1 = [10, 11] := by decide +kernel

example : (demoCat.apply demoIni (.fix (some (fun n => some (List.replicate n 8)))) demoSt).2.st.vals 3 = [8, 8, 8] ∧
    ((demoCat.apply demoIni (.fix (some (fun n => some (List.replicate n 8)))) demoSt).2.calls).count (.changed 0) = 8 := by
  decide +kernel

/-- The value `[1, 2, 3]` fits parameters with three elements only. -/
def three : Nat → Option (List Nat) := fun n => if n = 3 then some [1, 2, 3] else none

/-- `c.fix([1, 2, 3])` where only the first parameter has three elements raises, but the first parameter has been changed
and fixed. -/
theorem fix_half_fails : (demoCat.apply demoIni (.fix (some three)) demoSt).2.raised = true ∧
    (demoCat.apply demoIni (.fix (some three)) demoSt).2.st.vals 3 = [1, 2, 3] ∧
    (demoCat.apply demoIni (.fix (some three)) demoSt).2.st.n.heap.constraints 3 .fixed = [0, 1, 2] ∧
    demoSt.n.heap.constraints 3 .fixed = [] := by decide +kernel

/-- After `c.constrain(t)`, `c.constrain('fixed')` fixes the parameters but updates no object: the iterator is used up,
and `trigger_parent=False` keeps the parameters from telling their parents. -/
theorem fixed_again_fails :
    let r := demoCat.apply demoIni (.constrain 13) demoSt
    changedOf (r.1.apply demoIni .constrainFixed r.2.st).2.calls = [] ∧
    (r.1.apply demoIni .constrainFixed r.2.st).2.st.n.heap.constraints 3 .fixed = [0, 1, 2] ∧
    r.2.st.n.heap.constraints 3 .fixed = [] ∧
    .changed 0 ∈ (demoCat.apply demoIni .constrainFixed demoSt).2.calls := by decide +kernel

end Paramz.Concat

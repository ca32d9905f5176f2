import Verif.Notify.Props

/-!
# Making a `Param` of a `Param` (C103)

Source: `paramz/param.py:86-98`, `paramz/core/observable_array.py:56-67`, `paramz/core/observable.py:40-44`,
`paramz/core/indexable.py:51-53`, `paramz/core/constrainable.py:35-41`, `paramz/core/nameable.py:54-56`.

`Param(name, p)` with a `Param` `p` makes no object: `ObsAr.__new__` returns `p` (observable_array.py:65), and python then
runs the constructor on it again.
-/

set_option linter.unusedSectionVars false

namespace Paramz.Hier.Heap

open IndexOps (Arr Dict Iop lookup)
open Graph (Anc At Skel Sized)

variable {T : Type} [DecidableEq T]

/-- What `Param(name, x)` does to the hierarchy and to the constraints (indexable.py:53, constrainable.py:39): `x` gets
index operations of its own. Parent, position and mask stay (parentable.py:40-41, param.py:84). A default constraint is a
following `constrain` call. -/
def remake (h : Heap T) (x : Id) : Heap T :=
  { h with
    iop := upd h.iop x (h.nextDict, .base)
    dicts := upd h.dicts h.nextDict []
    nextDict := h.nextDict + 1 }

/-- In a well-formed heap every object uses an existing dictionary. -/
theorem WF.dict_lt {h : Heap T} (w : WF h) {y : Id} (hy : y < h.next) : (h.iop y).1 < h.nextDict := by
  obtain ⟨r, hr, ha⟩ := w.skel.exists_root y
  have hlt := w.skel.anc_lt ha hy
  obtain ⟨n, hn⟩ := w.skel.exists_at ha
  by_cases h1 : y = r
  · subst h1; exact (w.root y hlt hr).2
  · rw [w.view r y n hlt hr hn h1]; exact (w.root r hlt hr).2

/-- The parameter itself has no constraints afterwards. -/
theorem remake_self (h : Heap T) (x : Id) (t : Con T) : (h.remake x).constraints x t = [] := by
  unfold constraints remake
  simp only [upd_same]
  rfl

/-- All other objects have the constraints they had. -/
theorem remake_other {h : Heap T} (w : WF h) {x y : Id} (hy : y < h.next) (hne : y ≠ x) (t : Con T) :
    (h.remake x).constraints y t = h.constraints y t := by
  unfold constraints remake
  simp only [upd_ne _ _ hne]
  rw [upd_ne _ _ (Nat.ne_of_lt (w.dict_lt hy))]

/-- A `Param` in no hierarchy: nothing is out of order. -/
theorem remake_wf {h : Heap T} (w : WF h) {x : Id} (hx : x < h.next) (hp : h.parent x = none) (hl : h.leaf x = true) :
    WF (h.remake x) := by
  have hk : h.kids x = [] := w.skel.leaf x hl
  have hi : ∀ r, r < h.next → h.parent r = none → r ≠ x → (h.remake x).iop r = h.iop r ∧
      (h.remake x).dicts ((h.remake x).iop r).1 = h.dicts (h.iop r).1 := by
    intro r hr hrp hne
    have e : (h.remake x).iop r = h.iop r := upd_ne _ _ hne
    exact ⟨e, by rw [e]; exact upd_ne _ _ (Nat.ne_of_lt (w.dict_lt hr))⟩
  have hix : (h.remake x).iop x = (h.nextDict, .base) := upd_same _ _ _
  have hdx : (h.remake x).dicts ((h.remake x).iop x).1 = [] := by rw [hix]; exact upd_same _ _ _
  constructor
  · exact w.skel
  · exact w.sized
  · intro r hr hrp
    by_cases hne : r = x
    · subst hne; rw [hix]; exact ⟨rfl, Nat.lt_succ_self _⟩
    · rw [(hi r hr hrp hne).1]; exact ⟨(w.root r hr hrp).1, Nat.lt_succ_of_lt (w.root r hr hrp).2⟩
  · intro r r' hr hr' hrp hrp' he
    by_cases h1 : r = x
    · by_cases h2 : r' = x
      · exact h1.trans h2.symm
      · rw [h1, hix, (hi r' hr' hrp' h2).1] at he
        exact absurd he.symm (Nat.ne_of_lt (w.root r' hr' hrp').2)
    · by_cases h2 : r' = x
      · rw [h2, hix, (hi r hr hrp h1).1] at he
        exact absurd he (Nat.ne_of_lt (w.root r hr hrp).2)
      · rw [(hi r hr hrp h1).1, (hi r' hr' hrp' h2).1] at he
        exact w.inj r r' hr hr' hrp hrp' he
  · intro r y n hr hrp ha hne
    have hrx : r ≠ x := by
      rintro rfl
      have hm := w.skel.mem_below.mpr ⟨hne, ha.anc w.skel⟩
      unfold Graph.below at hm
      rw [hk] at hm
      cases hm
    have hyx : y ≠ x := by
      rintro rfl
      cases ha.anc w.skel with
      | refl => exact hne rfl
      | step _ hc => rw [show h.parent y = _ from hc] at hp; cases hp
    rw [show (h.remake x).iop y = h.iop y from upd_ne _ _ hyx, (hi r hr hrp hrx).1]
    exact w.view r y n hr hrp ha hne
  · intro r hr hrp
    by_cases hne : r = x
    · subst hne; rw [hdx]; exact IndexOps.WF.nil
    · rw [(hi r hr hrp hne).2]; exact w.dict r hr hrp
  · intro r hr hrp
    by_cases hne : r = x
    · subst hne; rw [hdx]; intro t i hi; cases hi
    · rw [(hi r hr hrp hne).2]; exact w.bound r hr hrp
  · intro r hr hrp
    by_cases hne : r = x
    · subst hne; rw [hdx]; intro t u i hi; cases hi
    · rw [(hi r hr hrp hne).2]; exact w.single r hr hrp
  · intro r hr hrp hlr
    have hne : r ≠ x := by rintro rfl; rw [show (h.remake r).leaf r = h.leaf r from rfl, hl] at hlr; cases hlr
    rw [(hi r hr hrp hne).2]; exact w.mask r hr hrp hlr
  · intro r hr hrp hlr
    have hne : r ≠ x := by rintro rfl; rw [show (h.remake r).leaf r = h.leaf r from rfl, hl] at hlr; cases hlr
    rw [(hi r hr hrp hne).2]; exact w.ready r hr hrp hlr

/-- A `Param` in a model: the next call that renews the views of the model (`link_parameter`, `unlink_parameter`,
`initialize_parameter`) brings back the constraints the parameter had before. -/
theorem remake_healed {h : Heap T} (w : WF h) {x r : Id} (hr : r < h.next) (hrp : h.parent r = none)
    (hx : Anc h.toGraph r x) (hne : x ≠ r) {y : Id} (hy : y < h.next) (t : Con T) :
    ((h.remake x).notifyParentChange r).constraints y t = h.constraints y t := by
  have hrx : (h.remake x).iop r = h.iop r := upd_ne _ _ (fun e => hne e.symm)
  rw [notify_eq (h := h.remake x) w.skel r]
  by_cases hb : y ∈ h.toGraph.below r
  · have hm := w.skel.mem_below.mp hb
    obtain ⟨n, hn⟩ := w.skel.exists_at hm.2
    have hv := w.view r y n hr hrp hn hm.1
    have hoff : h.toGraph.offsetFor r y = n := w.skel.offsetFor_eq hn hm.1
    have e : ((h.remake x).setViews r (h.toGraph.below r)).iop y = h.iop y := by
      show (if y ∈ h.toGraph.below r then _ else _) = _
      rw [if_pos hb, hv, hrx, (w.root r hr hrp).1]
      show (_, Iop.view _ (h.toGraph.offsetFor r y) (h.size y)) = _
      rw [hoff]
    unfold constraints
    rw [show ((h.remake x).setViews r ((h.remake x).below r)).iop y = h.iop y from e]
    congr 1
    exact upd_ne _ _ (Nat.ne_of_lt (w.dict_lt hy))
  · have hyx : y ≠ x := by rintro rfl; exact hb (w.skel.mem_below.mpr ⟨hne, hx⟩)
    have e : ((h.remake x).setViews r ((h.remake x).below r)).iop y = h.iop y := by
      show (if y ∈ h.toGraph.below r then _ else _) = _
      rw [if_neg hb]; exact upd_ne _ _ hyx
    unfold constraints
    rw [e]
    congr 1
    exact upd_ne _ _ (Nat.ne_of_lt (w.dict_lt hy))

/-! ### No call makes objects but the constructors -/

theorem parentChangedF_next (top : Id) : ∀ (n : Nat) (h : Heap T) (x : Id), (parentChangedF n h top x).next = h.next
  | 0, _, _ => rfl
  | n + 1, h, x => by
    unfold parentChangedF
    have : ∀ (l : List Id) (h' : Heap T), (l.foldl (fun h c => parentChangedF n h top c) h').next = h'.next := by
      intro l
      induction l with
      | nil => intro h'; rfl
      | cons c l ih => intro h'; rw [List.foldl_cons, ih, parentChangedF_next top n]
    rw [this]

theorem foldl_next {α : Type} {f : Heap T → α → Heap T} (hf : ∀ h a, (f h a).next = h.next) : ∀ (l : List α) (h : Heap T),
    (l.foldl f h).next = h.next
  | [], _ => rfl
  | a :: l, h => by rw [List.foldl_cons, foldl_next hf l, hf]

theorem notifyParentChange_next (h : Heap T) (x : Id) : (h.notifyParentChange x).next = h.next :=
  foldl_next (fun h' c => parentChangedF_next x _ h' c) _ _

theorem connectFixes_next (h : Heap T) (x : Id) : (h.connectFixes x).next = h.next := by
  simp only [connectFixes]
  split <;> rfl

theorem addSizes_next (h : Heap T) (x : Id) (n : Nat) : (h.addSizes x n).next = h.next := by
  unfold addSizes
  refine foldl_next ?_ _ _
  intros
  rfl

theorem subSizes_next (h : Heap T) (x : Id) (n : Nat) : (h.subSizes x n).next = h.next := by
  unfold subSizes
  refine foldl_next ?_ _ _
  intros
  rfl

theorem disconnect_next (h : Heap T) (x : Id) : (h.disconnect x).next = h.next := by
  simp only [disconnect]
  rw [notifyParentChange_next, connectFixes_next]

theorem unlinkChild_next (h : Heap T) (q x : Id) : (h.unlinkChild q x).next = h.next := by
  have hm : ∀ (h5 : Heap T) (n : Nat), (match h5.parent q with | none => h5 | some p => h5.subSizes p n).next = h5.next := by
    intro h5 n
    split
    · rfl
    · exact subSizes_next _ _ _
  simp only [unlinkChild]
  rw [notifyParentChange_next, connectFixes_next]
  refine (hm _ _).trans ?_
  rw [notifyParentChange_next]
  exact disconnect_next _ _

theorem linkRoot_next (h : Heap T) (p x : Id) (i : Option Int) : (h.linkRoot p x i).1.next = h.next := by
  have h2 : ((h.linkPointers p x i).addSizes p (h.size x)).next = h.next := by
    rw [addSizes_next]
    rfl
  simp only [linkRoot]
  split
  · exact h2
  · split
    · rw [notifyParentChange_next, h2]
    · split
      · rw [notifyParentChange_next, h2]
      · rw [notifyParentChange_next, h2]
      · rw [connectFixes_next, notifyParentChange_next]
        show (notifyParentChange _ p).next = _
        rw [notifyParentChange_next, h2]

theorem linkNew_next (h : Heap T) (p x : Id) (i : Option Int) : (h.linkNew p x i).1.next = h.next := by
  simp only [linkNew]
  split
  · exact linkRoot_next h p x i
  · split
    · rfl
    · rw [linkRoot_next, unlinkChild_next]

theorem setRootMask_next (h : Heap T) (x : Target) (a : Arr) (b : Bool) : (h.setRootMask x a b).next = h.next := by
  unfold setRootMask
  split <;> rfl

theorem unconstrain_next (h : Heap T) (x : Target) (ts : List (Con T)) : (h.unconstrain x ts).next = h.next := by
  unfold unconstrain
  refine foldl_next (fun h t => ?_) _ _
  simp only [unconstrainOne]
  split
  · rw [setRootMask_next]
  · rfl

theorem exec_next_le (h : Heap T) (e : Ev T) : h.next ≤ (h.exec e).1.next := by
  cases e with
  | newParam n => exact Nat.le_succ _
  | newNode => exact Nat.le_succ _
  | finishInit x b =>
    refine Nat.le_of_eq ?_
    show _ = (h.finishInit x b).next
    simp only [finishInit]
    split
    · simp only [initializeParameter]
      rw [connectFixes_next]
      show _ = (notifyParentChange _ _).next
      rw [notifyParentChange_next]
    · rfl
  | init x =>
    refine Nat.le_of_eq ?_
    show _ = (h.initializeParameter x).next
    simp only [initializeParameter]
    rw [connectFixes_next]
    show _ = (notifyParentChange _ _).next
    rw [notifyParentChange_next]
  | link p x i =>
    refine Nat.le_of_eq ?_
    show _ = (h.link p x i).1.next
    unfold link
    split
    · rfl
    · split
      · split
        · rfl
        · rw [linkNew_next, unlinkChild_next]
      · rw [linkNew_next]
  | unlink p x =>
    refine Nat.le_of_eq ?_
    show _ = (h.unlink p x).1.next
    unfold unlink
    split
    · rfl
    · split
      · rw [unlinkChild_next]
      · rfl
  | constrain x c =>
    refine Nat.le_of_eq ?_
    show _ = (h.constrain x c).next
    cases c with
    | fixed =>
      show _ = (h.fix x).next
      unfold fix
      rw [setRootMask_next]
      rfl
    | tr t =>
      show _ = (addCon _ x (.tr t)).next
      exact (unconstrain_next h x []).symm
  | unconstrain x cs => exact (unconstrain_next h x cs).ge
  | fix x =>
    refine Nat.le_of_eq ?_
    show _ = (h.fix x).next
    unfold fix
    rw [setRootMask_next]
    rfl
  | unfix x =>
    refine Nat.le_of_eq ?_
    show _ = (h.unfix x).next
    unfold unfix
    rw [setRootMask_next, unconstrain_next]

end Paramz.Hier.Heap

namespace Paramz.Notify

open Hier (Heap Id upd Con)
open Hier.Heap (Target WF)
open Hier.Graph (Anc)

variable {T : Type} [DecidableEq T]

/-- `Param(name, x)` of a `Param` `x`: besides `Heap.remake`, the observers are gone and updates are on
(observable.py:43-44). -/
def State.remake (s : State T) (x : Id) : State T :=
  ⟨s.heap.remake x, upd s.on x true, upd s.obs x []⟩

/-- The call registers `x` with a parent. -/
def Ev.Links (x : Id) : Ev T → Prop
  | .hier (.link _ y _) => y = x
  | _ => False

theorem exec_heap (s : State T) (e : Hier.Heap.Ev T) : (s.hier e).1.heap = (s.heap.exec e).1 := by
  cases e with
  | constrain x c => cases c <;> rfl
  | link p x j => simp only [State.hier]; split <;> rfl
  | unlink q x => simp only [State.hier]; split <;> rfl
  | _ => rfl

/-- Nobody but observers added by the user is registered with `x`. -/
def Alone (s : State T) (x : Id) : Prop := x < s.heap.next ∧ ∀ e ∈ s.obs x, ∃ u, e.callee = .user u

theorem alone_exec {s : State T} {x : Id} (h : Alone s x) {e : Ev T} (he : ¬ e.Links x) : Alone (exec s e).1 x := by
  cases e with
  | addObserver y u p =>
    refine ⟨h.1, fun r hr => ?_⟩
    by_cases hy : x = y
    · subst hy
      have hr : r ∈ upd s.obs x (addReg ⟨p, .user u⟩ (s.obs x)) x := hr
      rw [Hier.upd_same, mem_addReg] at hr
      rcases hr with rfl | hr
      · exact ⟨u, rfl⟩
      · exact h.2 r hr
    · have hr : r ∈ upd s.obs y (addReg ⟨p, .user u⟩ (s.obs y)) x := hr
      rw [Hier.upd_ne _ _ hy] at hr
      exact h.2 r hr
  | removeObserver y u =>
    refine ⟨h.1, fun r hr => ?_⟩
    by_cases hy : x = y
    · subst hy
      have hr : r ∈ upd s.obs x (removeReg (.user u) (s.obs x)) x := hr
      rw [Hier.upd_same] at hr
      exact h.2 r (List.mem_filter.mp hr).1
    · have hr : r ∈ upd s.obs y (removeReg (.user u) (s.obs y)) x := hr
      rw [Hier.upd_ne _ _ hy] at hr
      exact h.2 r hr
  | updateModel y b => exact h
  | write y => exact h
  | trigger y tp => exact h
  | hier e =>
    refine ⟨?_, fun r hr => ?_⟩
    · show x < (s.hier e).1.heap.next
      rw [exec_heap]
      exact Nat.lt_of_lt_of_le h.1 (Hier.Heap.exec_next_le _ _)
    · have hr : r ∈ (s.hier e).1.obs x := hr
      cases e with
      | newParam n =>
        have hr : r ∈ upd s.obs s.heap.next [] x := hr
        rw [Hier.upd_ne _ _ (Nat.ne_of_lt h.1)] at hr
        exact h.2 r hr
      | newNode =>
        have hr : r ∈ upd s.obs s.heap.next [⟨((-100 : Int) : Prio), .changed⟩] x := hr
        rw [Hier.upd_ne _ _ (Nat.ne_of_lt h.1)] at hr
        exact h.2 r hr
      | link p y i =>
        simp only [State.hier] at hr
        split at hr
        · exact h.2 r hr
        · have hne : x ≠ y := fun hxy => he hxy.symm
          have hr : r ∈ upd s.obs y _ x := hr
          rw [Hier.upd_ne _ _ hne] at hr
          exact h.2 r hr
      | unlink q y =>
        simp only [State.hier] at hr
        split at hr
        · exact h.2 r hr
        · by_cases hy : x = y
          · subst hy
            have hr : r ∈ upd s.obs x (removeReg (.pass q) (s.obs x)) x := hr
            rw [Hier.upd_same] at hr
            exact h.2 r (List.mem_filter.mp hr).1
          · have hr : r ∈ upd s.obs y (removeReg (.pass q) (s.obs y)) x := hr
            rw [Hier.upd_ne _ _ hy] at hr
            exact h.2 r hr
      | constrain y c => cases c <;> exact h.2 r hr
      | _ => exact h.2 r hr

theorem alone_runAll {x : Id} : ∀ (es : List (Ev T)) {s : State T}, Alone s x → (∀ e ∈ es, ¬ e.Links x) →
    Alone (runAll s es).1 x
  | [], _, h, _ => h
  | e :: es, _, h, he => alone_runAll es (alone_exec h (he e List.mem_cons_self))
      (fun e' h' => he e' (List.mem_cons_of_mem _ h'))

theorem alone_silent {s : State T} {x : Id} (h : Alone s x) : changedOf (s.write x) = [] := by
  unfold State.write State.notify
  obtain ⟨n, hn⟩ : ∃ n, s.heap.toGraph.fuel = n + 1 := ⟨_, rfl⟩
  rw [hn, notifyF_succ]
  split
  · rw [changedOf_flatMap]
    refine List.flatMap_eq_nil_iff.mpr (fun r hr => ?_)
    obtain ⟨u, hu⟩ := h.2 r hr
    unfold serve
    rw [hu]
    rfl
  · rfl

/-! ### Properties -/

/-- C103 (partial): `Param(name, x)` of a `Param` `x` that is in no model. Every object but `x` has the constraints it
had, `x` has none, the hierarchy is in order, and a change of any other parameter is told to the same objects as before.
Missing for the full claim: a parameter in a model (`remade_is_not_heard_fails`, `remade_denies_fails`). -/
theorem remake_free_partial {s : State T} (hr : Reach s) {x : Id} (hx : x < s.heap.next) (hl : s.heap.leaf x = true)
    (hp : s.heap.parent x = none) :
    WF (s.remake x).heap ∧ (∀ t, (s.remake x).heap.constraints x t = []) ∧
    (∀ y, y < s.heap.next → y ≠ x → (∀ t, (s.remake x).heap.constraints y t = s.heap.constraints y t) ∧
      (s.remake x).write y = s.write y) := by
  have i := hr.inv
  refine ⟨Hier.Heap.remake_wf i.wf hx hp hl, Hier.Heap.remake_self _ _, fun y hy hne =>
    ⟨Hier.Heap.remake_other i.wf hy hne, ?_⟩⟩
  have key : ∀ (n : Nat) (y : Id), y < s.heap.next → y ≠ x → ∀ m,
      State.notifyF n (s.remake x) y m = State.notifyF n s y m := by
    intro n
    induction n with
    | zero => intro y _ _ m; rfl
    | succ n ih =>
      intro y hy hne m
      rw [notifyF_succ, notifyF_succ]
      have e1 : (s.remake x).on y = s.on y := Hier.upd_ne _ _ hne
      have e2 : (s.remake x).obs y = s.obs y := Hier.upd_ne _ _ hne
      rw [e1, e2]
      split
      · refine List.flatMap_congr (fun r hm => ?_)
        unfold serve
        cases hc : r.callee with
        | changed => rfl
        | user u => rfl
        | pass p =>
          have hr' : r ∈ s.obs y := by
            unfold served at hm
            split at hm
            · exact hm
            · exact (List.takeWhile_sublist _).subset hm
          have hstd : r ∈ std s.heap y := by
            rw [← i.regs y hy]
            exact List.mem_filter.mpr ⟨hr', by unfold isStd; rw [hc]⟩
          have hpar : s.heap.parent y = some p := by
            unfold std at hstd
            rcases List.mem_append.mp hstd with h1 | h1
            · split at h1
              · cases h1
              · rw [List.mem_singleton] at h1; subst h1; cases hc
            · split at h1
              · cases h1
              · rename_i q hq
                rw [List.mem_singleton] at h1; subst h1
                cases hc
                exact hq
          refine ih p (i.wf.skel.alloc _ _ hpar).2 ?_ none
          rintro rfl
          have hk := i.wf.skel.leaf p hl
          have := (i.wf.skel.mem_iff y p).mpr hpar
          rw [hk] at this
          cases this
      · rfl
  exact key _ y hy hne none

/-- C103: `Param(name, x)` of a parameter of a model leaves the model and all other objects with the constraints they
had, also those of the elements of `x`, while `x` itself has none from then on; when the views of the model are renewed
`x` has its constraints of before again. -/
theorem remake_linked {s : State T} (hr : Reach s) {x r : Id} (hrl : r < s.heap.next) (hrp : s.heap.parent r = none)
    (hx : Anc s.heap.toGraph r x) (hne : x ≠ r) (t : Con T) :
    (s.remake x).heap.constraints x t = [] ∧
    (∀ y, y < s.heap.next → y ≠ x → (s.remake x).heap.constraints y t = s.heap.constraints y t) ∧
    ∀ y, y < s.heap.next → ((s.remake x).heap.notifyParentChange r).constraints y t = s.heap.constraints y t := by
  have w := hr.inv.wf
  exact ⟨Hier.Heap.remake_self _ _ _, fun y hy hyx => Hier.Heap.remake_other w hy hyx t,
    fun y hy => Hier.Heap.remake_healed w hrl hrp hx hne hy t⟩

/-- C103: after `Param(name, x)` no `parameters_changed` is ever called for a change of `x`, whatever is done, until `x` is
handed to `link_parameter` again. -/
theorem remade_is_not_heard {s : State T} {x : Id} (hx : x < s.heap.next) (es : List (Ev T)) (he : ∀ e ∈ es, ¬ e.Links x) :
    changedOf ((runAll (s.remake x) es).1.write x) = [] := by
  refine alone_silent (alone_runAll es ⟨hx, fun r hr => ?_⟩ he)
  have hr : r ∈ upd s.obs x [] x := hr
  rw [Hier.upd_same] at hr
  cases hr

/-! ### Examples and failures -/

/-- A model `0` with `Param`s `1` and `2`; `2` is fixed. `Param` `3` is in no model. -/
def kept : State Nat := (runAll empty
  ([.newNode, .newParam 2, .newParam 1, .link 0 1 none, .link 0 2 none, .finishInit 0 true, .newParam 1,
    .constrain ⟨1, none⟩ (.tr 7), .fix ⟨2, none⟩, .constrain ⟨3, none⟩ (.tr 8)].map Ev.hier)).1

theorem kept_reach : Reach kept := Reach.run .empty _ (by decide +kernel)

/-- A case of `remake_free_partial`. -/
example : (3 : Id) < kept.heap.next ∧ kept.heap.leaf 3 = true ∧ kept.heap.parent 3 = none ∧
    kept.heap.constraints 3 (.tr 8) = [0] := by decide +kernel

/-- A case of `remake_linked`. -/
example : (0 : Id) < kept.heap.next ∧ kept.heap.parent 0 = none ∧ kept.heap.parent 2 = some 0 ∧
    kept.heap.constraints 2 .fixed = [0] := by decide +kernel

/-- `Param('b', p)` of a parameter `p` of a model: the model hears of a change of `p` before and not afterwards. -/
theorem remade_is_not_heard_fails :
    changedOf (kept.write 1) = [0] ∧ changedOf ((kept.remake 1).write 1) = [] ∧ (kept.remake 1).heap.parent 1 = some 0 := by
  decide +kernel

/-- `p` is fixed for the model and free by its own account; unfixing `p` does nothing for the model; and a constraint `p`
is given is lost when something is linked to the model. -/
theorem remade_denies_fails :
    kept.heap.constraints 0 .fixed = [2] ∧ (kept.remake 2).heap.constraints 0 .fixed = [2] ∧
    (kept.remake 2).heap.constraints 2 .fixed = [] ∧ (kept.remake 2).heap.isFixed 2 = false ∧
    (runAll (kept.remake 2) [.hier (.unfix ⟨2, none⟩)]).1.heap.constraints 0 .fixed = [2] ∧
    (runAll (kept.remake 2) [.hier (.constrain ⟨2, none⟩ (.tr 9))]).1.heap.constraints 2 (.tr 9) = [0] ∧
    (runAll (kept.remake 2) [.hier (.constrain ⟨2, none⟩ (.tr 9)), .hier (.link 0 3 none)]).1.heap.constraints 2 (.tr 9) = [] := by
  decide +kernel

end Paramz.Notify

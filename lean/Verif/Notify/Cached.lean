import Verif.Notify.Told

/-!
# Cached methods of objects in a hierarchy

A method of an object `y` of a hierarchy, made cached by `@Cache_this` or by a `Cacher` with `y` among its
inputs. Source: `paramz/caching.py:101-128, 137-217, 263-287`, with the notifications of
`Verif.Notify.Model`. C69.

Only one key of the cacher is followed (all keys of a call have `y` among the inputs; for several keys,
their order and their limit see `Verif.Cache`). What the method computes is a function of what there is below
`y`: which `Param`s, of which sizes, with which values.
-/

set_option linter.unusedSectionVars false

namespace Paramz.Notify

open Hier (Heap Id upd upd_same upd_ne)
open Hier.Graph (Anc Skel)
open Hier.Heap (WF LinkOK)

variable {T : Type} [DecidableEq T] {V R : Type}

/-- Element `k` of the `Param` `x` is an element of `y`. -/
def Below (s : State T) (y x : Id) (k : Nat) : Prop :=
  Anc s.heap.toGraph y x ∧ s.heap.leaf x = true ∧ k < s.heap.size x

open Classical in
/-- The values of `y`: of all elements of `Param`s below it. -/
noncomputable def valuesOf (w : World T V) (y x : Id) (k : Nat) : Option V :=
  if Below w.s y x k then some (w.val x k) else none

/-- A hierarchy and one key of a cacher: the stored result and `inputs_changed` (caching.py:198-203). -/
structure CWorld (T V R : Type) where
  w : World T V
  memo : Option (R × Bool)

/-- What happens: a call of the user on the hierarchy, a call of the method, or the cacher gives the key up
(`reset`, eviction, an exception of the operation, caching switched off). -/
inductive CAct (T V : Type)
  | act (a : Act T V)
  | call
  | drop

/-- `on_cache_changed` (caching.py:206-217), for every time the callback `u` is called. -/
def marked (u : Nat) (calls : List Call) (m : Option (R × Bool)) : Option (R × Bool) :=
  if .user u ∈ calls then m.map (fun e => (e.1, true)) else m

/-- `Cacher.__call__` (caching.py:160-204), `add_to_cache` (137-149), `reset` (219-236) and the eviction in
`ensure_cache_length` (101-127). -/
noncomputable def cstep (F : (Id → Nat → Option V) → R) (y : Id) (u : Nat) (c : CWorld T V R) :
    CAct T V → CWorld T V R
  | .act a => ⟨step c.w a, marked u (a.exec c.w.s).2 c.memo⟩
  | .call => match c.memo with
    | none => ⟨step c.w (.ev (.addObserver y u (0 : Int))), some (F (valuesOf c.w y), false)⟩
    | some (_, true) => ⟨c.w, some (F (valuesOf c.w y), false)⟩
    | some (r, false) => ⟨c.w, some (r, false)⟩
  | .drop => match c.memo with
    | none => c
    | some _ => ⟨step c.w (.ev (.removeObserver y u)), none⟩

/-- What a call of the method returns: what is stored afterwards (caching.py:204). -/
noncomputable def result (F : (Id → Nat → Option V) → R) (y : Id) (u : Nat) (c : CWorld T V R) : Option R :=
  (cstep F y u c .call).memo.map Prod.fst

/-- The call does not link anything below `y`, or unlink anything from below it. -/
def Apart (s : State T) (y : Id) : Act T V → Prop
  | .ev (.hier (.link p x _)) => ¬ Anc s.heap.toGraph y p ∧
      ∀ q, s.heap.parent x = some q → ¬ Anc s.heap.toGraph y q
  | .ev (.hier (.unlink q _)) => ¬ Anc s.heap.toGraph y q
  | _ => True

/-- Side conditions: the user does not remove the cacher's observer, keeps updates on, does not link to or
unlink from the objects below `y`, and assigns through nodes below which `y` lies only if `y` is not wholly
fixed (or is not changed). -/
def CAct.OK (y : Id) (u : Nat) (c : CWorld T V R) : CAct T V → Prop
  | .act a => a.OK c.w ∧ a ≠ .ev (.removeObserver y u) ∧ (∀ x, a ≠ .ev (.updateModel x false)) ∧
      Apart c.w.s y a ∧
      (∀ m f, a = .assignAll m f → (∀ x k, Below c.w.s y x k → f x k = c.w.val x k) ∨
        Anc c.w.s.heap.toGraph y m ∨ c.w.s.heap.isFixed y = false)
  | .call => True
  | .drop => True

/-- Histories: any history of the hierarchy with updates on and the object `y` in it, then such steps. -/
inductive CHist (F : (Id → Nat → Option V) → R) (y : Id) (u : Nat) : CWorld T V R → Prop
  | start {w : World T V} : Hist w → (∀ z, w.s.on z = true) → y < w.s.heap.next → CHist F y u ⟨w, none⟩
  | step {c : CWorld T V R} {a : CAct T V} : CHist F y u c → a.OK y u c → CHist F y u (cstep F y u c a)

/-- No call other than `update_model(False)` switches updates off. -/
theorem act_all_on {w : World T V} (hw : Hist w) {a : Act T V} (ha : a.OK w) (hon : ∀ z, w.s.on z = true)
    (hb : ∀ x, a ≠ .ev (.updateModel x false)) : ∀ z, (a.exec w.s).1.on z = true := by
  cases a with
  | ev e => exact exec_all_on hon (fun x h => hb x (by rw [h]))
  | assign x f => exact exec_all_on hon (by simp)
  | assignAll m f => exact exec_all_on hon (by simp)
  | optimizer m f => exact exec_all_on hon (by simp)
  | constrain x t f => exact exec_all_on hon (by simp)
  | randomize m f =>
    have h1 : (Act.exec w.s (.randomize m f : Act T V)).1 = w.s :=
      (randomize_on hw.reach ha.1 (fun z _ => hon z)).1
    rw [h1]; exact hon

theorem act_registered {w : World T V} (hw : Hist w) {a : Act T V} (ha : a.OK w) (hon : ∀ z, w.s.on z = true)
    {y u : Nat} {p : Prio} (hy : y < w.s.heap.next) (h : (⟨p, .user u⟩ : Reg) ∈ w.s.obs y)
    (hb : a ≠ .ev (.removeObserver y u)) : (⟨p, .user u⟩ : Reg) ∈ (a.exec w.s).1.obs y := by
  cases a with
  | ev e => exact registered_stays hy h (fun h => hb (by rw [h]))
  | assign x f => exact registered_stays hy h (by simp)
  | assignAll m f => exact registered_stays hy h (by simp)
  | optimizer m f => exact registered_stays hy h (by simp)
  | constrain x t f => exact registered_stays hy h (by simp)
  | randomize m f =>
    have h1 : (Act.exec w.s (.randomize m f : Act T V)).1 = w.s :=
      (randomize_on hw.reach ha.1 (fun z _ => hon z)).1
    rw [h1]; exact h

theorem act_next {w : World T V} (hw : Hist w) {a : Act T V} (ha : a.OK w) :
    w.s.heap.next ≤ (a.exec w.s).1.heap.next := by
  have i := hw.reach.inv
  cases a with
  | ev e => exact exec_next i ha
  | assign x f => exact Nat.le_refl _
  | assignAll m f => exact Nat.le_refl _
  | optimizer m f => exact Nat.le_refl _
  | constrain x t f => exact exec_next i ha.1
  | randomize m f => exact Nat.le_refl _

theorem leaf_above {g : Hier.Graph} (s : Skel g) {u v : Id} (hl : g.leaf u = true) (h : Anc g u v) : v = u := by
  induction h with
  | refl => rfl
  | @step q c _ hp ih =>
    have := s.kids_not_leaf hp
    rw [ih, hl] at this
    cases this

theorem leaf_above_node {g : Hier.Graph} (s : Skel g) {u v : Id} (hl : g.leaf u = true) (hv : g.leaf v = false) :
    ¬ Anc g u v := fun h => by rw [leaf_above s hl h, hl] at hv; cases hv

/-- Linking leaves the sizes of `Param`s alone. -/
theorem link_sizes {h : Heap T} (w : WF h) {p x : Id} {index : Option Int} (ok : LinkOK h p x index)
    (he : (h.link p x index).2 = none) {y : Id} (hy : h.leaf y = true) :
    (h.link p x index).1.size y = h.size y := by
  have root : ∀ {k : Heap T} (_ : WF k) (_ : LinkOK k p x index) (_ : k.leaf p = false)
      (_ : k.leaf y = true) (_ : k.parent x = none), (k.linkRoot p x index).1.size y = k.size y := by
    intro k wk okk hl hy hpx
    exact (Hier.Heap.linkRoot_wf wk okk.ltx okk.ltp hpx hl okk.outside okk.ready (okk.pos wk hpx)).2.1.size_not
      y (leaf_above_node wk.skel hy hl)
  have unl : ∀ {k : Heap T} {q : Id} {A B : List Id} (_ : WF k) (_ : k.kids q = A ++ x :: B) (_ : k.leaf y = true),
      (k.unlinkChild q x).size y = k.size y := by
    intro k q A B wk hk hy
    obtain ⟨w1, i, -⟩ := Hier.Heap.unlinkChild_wf wk hk
    have hq : k.leaf q = false := wk.skel.kids_not_leaf ((wk.skel.mem_iff x q).mp (by rw [hk]; simp))
    refine (i.size_not y (leaf_above_node w1.skel ?_ ?_)).symm
    · rw [← show k.leaf = (k.unlinkChild q x).leaf from i.leaf]; exact hy
    · rw [← show k.leaf = (k.unlinkChild q x).leaf from i.leaf]; exact hq
  unfold Heap.link at he ⊢
  cases hl : h.leaf p with
  | true => simp [hl] at he
  | false =>
    simp only [hl, Bool.false_eq_true, if_false] at he ⊢
    by_cases hx : x ∈ h.kids p
    · rw [if_pos hx] at he ⊢
      cases index with
      | none => cases he
      | some j =>
        obtain ⟨A, B, hk⟩ := List.append_of_mem hx
        obtain ⟨w1, i, -, hv, -⟩ := Hier.Heap.unlinkChild_wf w hk
        have hpx1 : (h.unlinkChild p x).parent x = none := i.root
        have hlk : (h.unlinkChild p x).linkNew p x (some j)
            = (h.unlinkChild p x).linkRoot p x (some j) := by
          unfold Heap.linkNew; rw [hpx1]
        have el : h.leaf = (h.unlinkChild p x).leaf := i.leaf
        simp only [hlk]
        rw [root w1 (ok.unlink w hk) (by rw [← el]; exact hl) (by rw [← el]; exact hy) hpx1]
        exact unl w hk hy
    · rw [if_neg hx] at he ⊢
      unfold Heap.linkNew at he ⊢
      cases hpar : h.parent x with
      | none =>
        simp only []
        rw [root w ok hl hy hpar]
      | some q =>
        simp only [hpar] at he ⊢
        generalize h.toGraph.traverseParents (fun _ y => decide (y = p)) ⟨h.visited, [], false⟩ x = t at *
        cases hsr : t.raised with
        | true => simp [hsr] at he
        | false =>
          simp only [Bool.false_eq_true, if_false]
          have w' : WF ({ h with visited := t.marks } : Heap T) := ⟨w.1, w.2, w.3, w.4, w.5, w.6, w.7, w.8, w.9, w.10⟩
          have ok' : LinkOK ({ h with visited := t.marks } : Heap T) p x index :=
            ⟨ok.ltp, ok.ltx, ok.outside, ok.ready, ok.index⟩
          have hxq : x ∈ h.kids q := (w.skel.mem_iff _ _).mpr hpar
          obtain ⟨A, B, hk⟩ := List.append_of_mem hxq
          obtain ⟨w1, i, -, hv, -⟩ := Hier.Heap.unlinkChild_wf w' (q := q) (x := x) (A := A) (B := B) hk
          have el : h.leaf = (({ h with visited := t.marks } : Heap T).unlinkChild q x).leaf := i.leaf
          rw [root w1 (ok'.unlink w' hk) (by rw [← el]; exact hl) (by rw [← el]; exact hy) i.root]
          exact unl w' hk hy

/-- What is below `y` when one parent changes. -/
theorem anc_other {g g' : Hier.Graph} {x y : Id} (hne : ∀ z, z ≠ x → g'.parent z = g.parent z)
    (h1 : ∀ q, g.parent x = some q → ¬ Anc g y q) (h2 : ∀ q, g'.parent x = some q → ¬ Anc g y q) (z : Id) :
    Anc g' y z ↔ Anc g y z := by
  constructor
  · intro h
    induction h with
    | refl => exact .refl
    | @step q c _ hp ih =>
      by_cases hc : c = x
      · subst hc; exact absurd ih (h2 _ hp)
      · exact .step ih (by rw [← hne c hc]; exact hp)
  · intro h
    induction h with
    | refl => exact .refl
    | @step q c hq hp ih =>
      by_cases hc : c = x
      · subst hc; exact absurd hq (h1 _ hp)
      · exact .step ih (by rw [hne c hc]; exact hp)

/-- Calls that do not link or unlink at or below `y` leave the elements below `y` alone. -/
theorem below_same {w : World T V} (hw : Hist w) {a : Act T V} (ha : a.OK w) {y : Id} (hy : y < w.s.heap.next)
    (hap : Apart w.s y a) (x : Id) (k : Nat) : Below (a.exec w.s).1 y x k ↔ Below w.s y x k := by
  have i := hw.reach.inv
  have wf := i.wf
  have of_graph : ∀ {s' : State T}, s'.heap.toGraph = w.s.heap.toGraph → (Below s' y x k ↔ Below w.s y x k) := by
    intro s' hg
    unfold Below
    rw [hg]
  cases a with
  | assign z f => exact Iff.rfl
  | assignAll m f => exact Iff.rfl
  | optimizer m f => exact Iff.rfl
  | randomize m f => exact Iff.rfl
  | constrain z t f => exact of_graph ((Hier.Heap.constraining_wf wf ha.1.1).1 (.tr t)).2.graph
  | ev e =>
    cases e with
    | addObserver z u p => exact Iff.rfl
    | removeObserver z u => exact Iff.rfl
    | updateModel z b => exact Iff.rfl
    | write z => exact Iff.rfl
    | trigger z tp => exact Iff.rfl
    | hier e =>
      obtain ⟨had, hne⟩ := ha
      have nopar : w.s.heap.parent w.s.heap.next = none := by
        cases hp : w.s.heap.parent w.s.heap.next with
        | none => rfl
        | some q => exact absurd (wf.skel.alloc _ _ hp).1 (by simp)
      have new : ∀ {s' : State T}, (∀ z, s'.heap.parent z = w.s.heap.parent z) →
          (∀ z, z ≠ w.s.heap.next → s'.heap.leaf z = w.s.heap.leaf z ∧ s'.heap.size z = w.s.heap.size z) →
          (Below s' y x k ↔ Below w.s y x k) := by
        intro s' hp hz
        have hanc : Anc s'.heap.toGraph y x ↔ Anc w.s.heap.toGraph y x :=
          anc_other (x := w.s.heap.next) (fun z _ => hp z)
            (fun q hq => by rw [show w.s.heap.toGraph.parent _ = none from nopar] at hq; cases hq)
            (fun q hq => by rw [show s'.heap.toGraph.parent _ = none from (hp _).trans nopar] at hq; cases hq) x
        unfold Below
        rw [hanc]
        refine and_congr_right (fun h => ?_)
        have hx : x ≠ w.s.heap.next := by
          have : x < w.s.heap.next := wf.skel.desc_lt h hy
          intro he; rw [he] at this; exact lt_irrefl _ this
        rw [(hz x hx).1, (hz x hx).2]
      cases e with
      | newParam n =>
        refine new (fun z => ?_) (fun z hz => ⟨upd_ne _ _ hz, upd_ne _ _ hz⟩)
        by_cases hz : z = w.s.heap.next
        · subst hz; exact (upd_same _ _ _).trans nopar.symm
        · exact upd_ne _ _ hz
      | newNode =>
        refine new (fun z => ?_) (fun z hz => ⟨upd_ne _ _ hz, upd_ne _ _ hz⟩)
        by_cases hz : z = w.s.heap.next
        · subst hz; exact (upd_same _ _ _).trans nopar.symm
        · exact upd_ne _ _ hz
      | finishInit z b => exact of_graph (finishInit_graph wf had.1 b)
      | init z => exact of_graph (init_graph wf had)
      | unconstrain z cs => exact of_graph ((Hier.Heap.constraining_wf wf had).2.1 cs).2.graph
      | fix z => exact of_graph (Hier.Heap.constraining_wf wf had).2.2.1.2.graph
      | unfix z => exact of_graph (Hier.Heap.constraining_wf wf had).2.2.2.2.graph
      | constrain z c =>
        cases c with
        | fixed => exact of_graph ((Hier.Heap.constraining_wf wf had).1 _).2.graph
        | tr t => exact of_graph ((Hier.Heap.constraining_wf wf had).1 _).2.graph
      | unlink q z =>
        have hne : (w.s.heap.unlink q z).2 = none := hne
        have hz : z ∈ w.s.heap.kids q := by
          unfold Heap.unlink at hne
          split at hne
          · cases hne
          · split at hne
            · assumption
            · cases hne
        have hpar := (wf.skel.mem_iff _ _).mp hz
        have hu : (w.s.heap.unlink q z).1 = w.s.heap.unlinkChild q z := by
          unfold Heap.unlink
          rw [show w.s.heap.leaf q = false from wf.skel.kids_not_leaf hpar]
          simp [hz]
        have hh : (Act.exec w.s (.ev (.hier (.unlink q z)) : Act T V)).1.heap = w.s.heap.unlinkChild q z := by
          rw [← hu]
          show (w.s.hier (.unlink q z)).1.heap = _
          simp only [State.hier]; split <;> rfl
        obtain ⟨A, B, hk⟩ := List.append_of_mem hz
        obtain ⟨w1, ii, -⟩ := Hier.Heap.unlinkChild_wf wf hk
        have hanc : Anc (w.s.heap.unlinkChild q z).toGraph y x ↔ Anc w.s.heap.toGraph y x :=
          anc_other (x := z) (fun v hv => (ii.parent_ne v hv).symm)
            (fun q' hq' => by
              rw [show w.s.heap.toGraph.parent z = some q from hpar] at hq'; cases hq'; exact hap)
            (fun q' hq' => by rw [ii.root] at hq'; cases hq') x
        unfold Below
        rw [hh, hanc, ← show w.s.heap.leaf = (w.s.heap.unlinkChild q z).leaf from ii.leaf]
        refine and_congr_right (fun h => and_congr_right (fun hl => ?_))
        rw [show w.s.heap.size x = (w.s.heap.unlinkChild q z).size x from ii.size_not x ?_]
        refine leaf_above_node w1.skel ?_ ?_
        · rw [← show w.s.heap.leaf = (w.s.heap.unlinkChild q z).leaf from ii.leaf]; exact hl
        · rw [← show w.s.heap.leaf = (w.s.heap.unlinkChild q z).leaf from ii.leaf]
          exact wf.skel.kids_not_leaf hpar
      | link p z j =>
        have ok : LinkOK w.s.heap p z j := had
        have hne : (w.s.heap.link p z j).2 = none := hne
        have lp := Hier.Heap.link_post wf ok
        have hpx := (lp.ok hne).2
        have hh : (Act.exec w.s (.ev (.hier (.link p z j)) : Act T V)).1.heap = (w.s.heap.link p z j).1 := by
          show (w.s.hier (.link p z j)).1.heap = _
          simp only [State.hier]; split <;> rfl
        have hanc : Anc (w.s.heap.link p z j).1.toGraph y x ↔ Anc w.s.heap.toGraph y x :=
          anc_other (x := z) (fun v hv => link_parents wf ok hne v hv) hap.2
            (fun q' hq' => by
              rw [show (w.s.heap.link p z j).1.toGraph.parent z = some p from hpx] at hq'
              cases hq'; exact hap.1) x
        unfold Below
        rw [hh, hanc, show (w.s.heap.link p z j).1.leaf = w.s.heap.leaf from lp.leaf]
        refine and_congr_right (fun h => and_congr_right (fun hl => ?_))
        rw [link_sizes wf ok hne hl]

/-- What holds along such a history. -/
structure CInv (F : (Id → Nat → Option V) → R) (y : Id) (u : Nat) (c : CWorld T V R) : Prop where
  hist : Hist c.w
  on : ∀ z, c.w.s.on z = true
  lt : y < c.w.s.heap.next
  reg : c.memo ≠ none → (⟨((0 : Int) : Prio), .user u⟩ : Reg) ∈ c.w.s.obs y
  fresh : ∀ r, c.memo = some (r, false) → r = F (valuesOf c.w y)

theorem valuesOf_congr {w w' : World T V} {y : Id} (hb : ∀ x k, Below w'.s y x k ↔ Below w.s y x k)
    (hv : ∀ x k, Below w.s y x k → w'.val x k = w.val x k) : valuesOf w' y = valuesOf w y := by
  funext x k
  unfold valuesOf
  by_cases h : Below w.s y x k
  · rw [if_pos ((hb x k).mpr h), if_pos h, hv x k h]
  · rw [if_neg (fun h' => h ((hb x k).mp h')), if_neg h]

theorem CHist.inv {F : (Id → Nat → Option V) → R} {y u : Nat} {c : CWorld T V R} (hc : CHist F y u c) :
    CInv F y u c := by
  induction hc with
  | start hw hon hy => exact ⟨hw, hon, hy, fun h => absurd rfl h, fun r h => by cases h⟩
  | @step c a _ ha ih =>
    cases a with
    | act a =>
      obtain ⟨hok, h1, h2, h3, h4⟩ := ha
      refine ⟨.step ih.hist hok, act_all_on ih.hist hok ih.on h2,
        lt_of_lt_of_le ih.lt (act_next ih.hist hok), ?_, ?_⟩
      · intro hm
        refine act_registered ih.hist hok ih.on ih.lt (ih.reg ?_) h1
        intro hn
        refine hm ?_
        show marked u _ c.memo = none
        rw [hn]; unfold marked; split <;> rfl
      · intro r hr
        have hr : marked u (a.exec c.w.s).2 c.memo = some (r, false) := hr
        unfold marked at hr
        split at hr
        · cases hm : c.memo with
          | none => rw [hm] at hr; cases hr
          | some e => rw [hm] at hr; simp at hr
        · rename_i hn
          have hreg := ih.reg (by rw [hr]; exact Option.some_ne_none _)
          rw [ih.fresh r hr]
          show _ = F (valuesOf (Notify.step c.w a) y)
          rw [valuesOf_congr (w := c.w) (w' := Notify.step c.w a) (below_same ih.hist hok ih.lt h3)]
          intro x k hb
          show a.vals c.w.val x k = _
          by_contra hch
          refine hn (told_partial ih.hist hok hch hb.1 hreg (WithBot.bot_lt_coe _) (fun z _ => ih.on z) ?_)
          intro m f hm
          subst hm
          rcases h4 m f rfl with h | h
          · exact absurd (h x k hb) hch
          · exact h
    | call =>
      cases hm : c.memo with
      | none =>
        have e : cstep F y u c .call =
            ⟨Notify.step c.w (.ev (.addObserver y u (0 : Int))), some (F (valuesOf c.w y), false)⟩ := by
          simp only [cstep]; rw [hm]
        rw [e]
        have hok : (Act.ev (.addObserver y u (0 : Int)) : Act T V).OK c.w := ih.lt
        refine ⟨.step ih.hist hok, act_all_on ih.hist hok ih.on (by simp), ih.lt, fun _ => ?_, fun r hr => ?_⟩
        · show _ ∈ upd c.w.s.obs y _ y
          rw [upd_same]
          exact mem_addReg.mpr (.inl rfl)
        · cases hr
          exact congrArg F (valuesOf_congr (fun _ _ => Iff.rfl) (fun _ _ _ => rfl)).symm
      | some e =>
        obtain ⟨r, b⟩ := e
        cases b with
        | true =>
          have e : cstep F y u c .call = ⟨c.w, some (F (valuesOf c.w y), false)⟩ := by
            simp only [cstep]; rw [hm]
          rw [e]
          exact ⟨ih.hist, ih.on, ih.lt, fun _ => ih.reg (by rw [hm]; exact Option.some_ne_none _),
            fun r hr => by cases hr; rfl⟩
        | false =>
          have e : cstep F y u c .call = ⟨c.w, some (r, false)⟩ := by
            simp only [cstep]; rw [hm]
          rw [e]
          exact ⟨ih.hist, ih.on, ih.lt, fun _ => ih.reg (by rw [hm]; exact Option.some_ne_none _),
            fun r' hr => by cases hr; exact ih.fresh r hm⟩
    | drop =>
      cases hm : c.memo with
      | none =>
        have e : cstep F y u c .drop = c := by simp only [cstep]; rw [hm]
        rw [e]; exact ih
      | some m =>
        have e : cstep F y u c .drop = ⟨Notify.step c.w (.ev (.removeObserver y u)), none⟩ := by
          simp only [cstep]; rw [hm]
        rw [e]
        have hok : (Act.ev (.removeObserver y u) : Act T V).OK c.w := ih.lt
        exact ⟨.step ih.hist hok, act_all_on ih.hist hok ih.on (by simp), ih.lt, fun h => absurd rfl h,
          fun r h => by cases h⟩

/-- A cached method of an object returns what it would compute from the current values below the object,
whatever was assigned, set by the optimiser, randomised, constrained, fixed, linked elsewhere, observed or
evicted before. Missing for the full claim: `linked_stale_fails`, `fixed_stale_fails`, `off_stale_fails`. -/
theorem cached_partial {F : (Id → Nat → Option V) → R} {y u : Nat} {c : CWorld T V R} (hc : CHist F y u c) :
    result F y u c = some (F (valuesOf c.w y)) := by
  have i := hc.inv
  unfold result
  cases hm : c.memo with
  | none => simp only [cstep]; rw [hm]; rfl
  | some e =>
    obtain ⟨r, b⟩ := e
    cases b with
    | true => simp only [cstep]; rw [hm]; rfl
    | false => simp only [cstep]; rw [hm]; exact congrArg some (i.fresh r hm)

/-- The same computation is not made twice: a call right after a call changes nothing. -/
theorem call_call (F : (Id → Nat → Option V) → R) (y u : Nat) (c : CWorld T V R) :
    cstep F y u (cstep F y u c .call) .call = cstep F y u c .call := by
  cases hm : c.memo with
  | none => simp only [cstep]; rw [hm]
  | some e =>
    obtain ⟨r, b⟩ := e
    cases b <;> · simp only [cstep]; rw [hm]

/-! ### Concrete histories -/

theorem zero_start {F : (Id → Nat → Option Nat) → R} {y u : Nat} (hy : y < zero.s.heap.next) :
    CHist F y u ⟨zero, none⟩ := .start zero_careful.hist zero_careful.fresh.on hy

/-- The hierarchy of `zero` after the first call of a cached method of `y`. -/
def after (y : Id) (u : Nat) : World Nat Nat := step zero (.ev (.addObserver y u (0 : Int)))

theorem after_hist {F : (Id → Nat → Option Nat) → R} {y u : Nat} (hy : y < zero.s.heap.next) :
    CHist F y u ⟨after y u, some (F (valuesOf zero y), false)⟩ :=
  .step (a := .call) (zero_start hy) trivial

theorem result_same {F : (Id → Nat → Option V) → R} {y u : Nat} {w : World T V} {r : R} :
    result F y u ⟨w, some (r, false)⟩ = some r := rfl

theorem not_told {F : (Id → Nat → Option V) → R} {y u : Nat} {w : World T V} {r : R} {a : Act T V}
    (h : .user u ∉ (a.exec w.s).2) :
    cstep F y u ⟨w, some (r, false)⟩ (.act a) = ⟨step w a, some (r, false)⟩ := by
  simp only [cstep, marked]
  rw [if_neg h]

theorem told_then {F : (Id → Nat → Option V) → R} {y u : Nat} {w : World T V} {m : R × Bool} {a : Act T V}
    (h : .user u ∈ (a.exec w.s).2) :
    result F y u (cstep F y u ⟨w, some m⟩ (.act a)) = some (F (valuesOf (step w a) y)) := by
  unfold result
  simp only [cstep, marked]
  rw [if_pos h]
  rfl

theorem register_heap (w : World T V) (y u : Nat) (p : Prio) :
    (step w (.ev (.addObserver y u p))).s.heap = w.s.heap := rfl

theorem register_val (w : World T V) (y u : Nat) (p : Prio) :
    (step w (.ev (.addObserver y u p))).val = w.val := rfl

theorem after_heap (y u : Nat) : (after y u).s.heap = watched.heap := by
  unfold after
  rw [register_heap]
  unfold zero
  exact Eq.refl watched.heap

theorem after_val (y u : Nat) : (after y u).val = fun _ _ => 0 := by
  unfold after
  rw [register_val]
  unfold zero
  exact Eq.refl (fun _ _ => 0)

/-- The optimiser may set any of the free `Param`s. -/
theorem optimizer_ok {l : List Id} (hl : ∀ y ∈ l, y ∈ [1, 3, 4, 7]) (y u : Nat) :
    (Act.optimizer 0 (ones watched l) : Act Nat Nat).OK (after y u) := by
  unfold Act.OK
  rw [after_heap, after_val]
  refine ⟨by decide +kernel, by decide +kernel, fun x k h => ?_⟩
  have h1 : x ∈ l ∧ k < watched.heap.size x := by
    by_contra hn
    exact h (if_neg hn)
  obtain ⟨h3, h4⟩ := free_param x (hl x h1.1)
  exact ⟨free_below (hl x h1.1), h3, h1.2, by rw [h4]; simp⟩

theorem deep : Anc watched.heap.toGraph 2 7 :=
  .step (.of_parent (by decide +kernel)) (p := 6) (by decide +kernel)

theorem deep_value (v : Id → Nat → Nat) (kn : Nat → Id → Nat → Nat) (y u : Nat) :
    valuesOf ⟨(after y u).s, v, kn⟩ 2 7 1 = some (v 7 1) := by
  refine if_pos ?_
  unfold Below
  simp only [after_heap]
  exact ⟨deep, by decide +kernel, by decide +kernel⟩

theorem deep_start : valuesOf zero 2 7 1 = some 0 := if_pos ⟨deep, by decide +kernel, by decide +kernel⟩

/-- A cached method of the node `2`, which reads element `1` of the `Param` `7` far below, called before and
after the optimiser changes it. -/
example : CHist (fun g => g 7 1) 2 11 ⟨after 2 11, some (some 0, false)⟩ ∧
    (CAct.act (.optimizer 0 (ones watched [1, 3, 4, 7]))).OK 2 11
      (⟨after 2 11, some (some 0, false)⟩ : CWorld Nat Nat (Option Nat)) ∧
    result (fun g => g 7 1) 2 11 (cstep (fun g => g 7 1) 2 11 ⟨after 2 11, some (some 0, false)⟩
      (.act (.optimizer 0 (ones watched [1, 3, 4, 7])))) = some (some 1) := by
  have start := after_hist (F := fun g : Id → Nat → Option Nat => g 7 1) (y := 2) (u := 11) (by decide +kernel)
  rw [deep_start] at start
  refine ⟨start, ⟨optimizer_ok (by simp) 2 11, by simp, by simp, trivial, by simp⟩, ?_⟩
  rw [told_then (by decide +kernel)]
  exact congrArg some ((deep_value _ _ 2 11).trans (by decide +kernel))

/-- A `Param` is linked to the root after a cached method of the root was called: the method still returns the
old result. -/
theorem linked_stale_fails :
    let F : (Id → Nat → Option Nat) → Option Nat := fun g => g 8 0
    let w := step (after 0 11) (.ev (.hier (.newParam 2)))
    let a : Act Nat Nat := .ev (.hier (.link 0 8 none))
    CHist F 0 11 ⟨w, some (none, false)⟩ ∧ a.OK w ∧
    result F 0 11 (cstep F 0 11 ⟨w, some (none, false)⟩ (.act a)) = some none ∧
    F (valuesOf (step w a) 0) = some 0 := by
  intro F w a
  have no8 : ¬ Anc watched.heap.toGraph 0 8 := fun h => by
    have := (Hier.Graph.anc_root (g := watched.heap.toGraph) (r := 8) (by decide +kernel)).mp h
    cases this
  have start := after_hist (F := F) (y := 0) (u := 11) (by decide +kernel)
  rw [show F (valuesOf zero 0) = none from if_neg (fun h => no8 h.1)] at start
  have s1 := CHist.step (a := .act (.ev (.hier (.newParam 2)))) start
    ⟨⟨trivial, rfl⟩, by simp, by simp, trivial, by simp⟩
  rw [not_told (by decide +kernel)] at s1
  have i := s1.inv.hist.reach.inv
  refine ⟨s1, (admissibleB_sound i (e := .hier (.link 0 8 none)) (by decide +kernel) : _), ?_, ?_⟩
  · rw [not_told (by decide +kernel)]; rfl
  · exact if_pos ⟨.of_parent (by decide +kernel), by decide +kernel, by decide +kernel⟩

/-- A method cached on a wholly fixed `Param` does not notice an assignment through the root. -/
theorem fixed_stale_fails :
    let F : (Id → Nat → Option Nat) → Option Nat := fun g => g 5 0
    let a : Act Nat Nat := .assignAll 0 (ones watched [5])
    CHist F 5 11 ⟨after 5 11, some (some 0, false)⟩ ∧ a.OK (after 5 11) ∧
    result F 5 11 (cstep F 5 11 ⟨after 5 11, some (some 0, false)⟩ (.act a)) = some (some 0) ∧
    F (valuesOf (step (after 5 11) a) 5) = some 1 := by
  intro F a
  have start := after_hist (F := F) (y := 5) (u := 11) (by decide +kernel)
  rw [show F (valuesOf zero 5) = some 0 from
    if_pos ⟨.refl, by decide +kernel, by decide +kernel⟩] at start
  refine ⟨start, ⟨by decide +kernel, by decide +kernel, by decide +kernel, by decide +kernel, fun y k h => ?_⟩, ?_, ?_⟩
  · have h1 : y ∈ [5] ∧ k < watched.heap.size y := by
      by_contra hn
      exact h (if_neg hn)
    obtain ⟨h1, h2⟩ := h1
    rw [List.mem_singleton] at h1
    subst h1
    exact ⟨.of_parent (by decide +kernel), by decide +kernel, h2⟩
  · rw [not_told (by decide +kernel)]; rfl
  · exact if_pos ⟨.refl, by decide +kernel, by decide +kernel⟩

/-- While updates are off, a cached method of the root does not notice an assignment. -/
theorem off_stale_fails :
    let F : (Id → Nat → Option Nat) → Option Nat := fun g => g 1 0
    let off : Act Nat Nat := .ev (.updateModel 0 false)
    let a : Act Nat Nat := .assign 1 (ones watched [1])
    CHist F 0 11 ⟨after 0 11, some (some 0, false)⟩ ∧ off.OK (after 0 11) ∧ a.OK (step (after 0 11) off) ∧
    result F 0 11 (cstep F 0 11 (cstep F 0 11 ⟨after 0 11, some (some 0, false)⟩ (.act off)) (.act a)) =
      some (some 0) ∧
    F (valuesOf (step (step (after 0 11) off) a) 0) = some 1 := by
  intro F off a
  have start := after_hist (F := F) (y := 0) (u := 11) (by decide +kernel)
  rw [show F (valuesOf zero 0) = some 0 from
    if_pos ⟨.of_parent (by decide +kernel), by decide +kernel, by decide +kernel⟩] at start
  refine ⟨start, by show (0 : Nat) < _; decide +kernel, ⟨by decide +kernel, by decide +kernel, fun y k h => ?_⟩, ?_, ?_⟩
  · have h1 : y ∈ [1] ∧ k < watched.heap.size y := by
      by_contra hn
      exact h (if_neg hn)
    obtain ⟨h1, h2⟩ := h1
    rw [List.mem_singleton] at h1
    subst h1
    exact ⟨rfl, h2⟩
  · rw [not_told (by decide +kernel), not_told (by decide +kernel)]; rfl
  · exact if_pos ⟨.of_parent (by decide +kernel), by decide +kernel, by decide +kernel⟩

end Paramz.Notify

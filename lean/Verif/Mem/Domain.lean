import Verif.Mem.CopyProps
import Verif.Hier.ConProps
import Verif.Transform.Props

/-!
# C76: constrained values stay in their domain while the hierarchy changes

Source: `paramz/core/constrainable.py:52-165`, `paramz/parameterized.py:128-226`, `paramz/param.py:78-100`,
`paramz/core/parameter_core.py:95-124`; the calls and the memory are those of `Verif.Hier.Model` and `Verif.Mem.Model`.

`Verif.Opt.Domain` has the calls on one model that keeps its shape; here objects are made, linked, unlinked and copied
in between.
-/

set_option linter.unusedSectionVars false

namespace Paramz.Memory

open Hier (Id Graph Heap Con upd upd_same upd_ne)
open Hier.Heap (Target Hits)
open Hier.Graph (Skel Sized At Anc Ins)

namespace State

variable {V T : Type} [DecidableEq T] {spoil : Nat → Nat → V}

/-! ### Specification -/

/-- Every element of every `Param` is a number, and in the domain of the transformation that it carries. -/
def Valid (Num : V → Prop) (D : T → V → Prop) (s : State V T) : Prop :=
  ∀ y i, y < s.heap.next → s.heap.leaf y = true → i < s.heap.size y →
    Num (s.mem.read y i) ∧ ∀ t, i ∈ s.heap.constraints y (.tr t) → D t (s.mem.read y i)

/-! ### The calls -/

/-- `x.param_array[i] = v` for each pair of the list, in turn. -/
def assignAll (spoil : Nat → Nat → V) (s : State V T) (x : Id) (ws : List (Nat × V)) : State V T :=
  ws.foldl (fun s e => (s.exec spoil (.write x e.1 e.2)).1) s

/-- `Param(name, vs)` (param.py:78-100): the array is made of the values. -/
def newWith (spoil : Nat → Nat → V) (s : State V T) (vs : List V) : State V T :=
  (s.exec spoil (.heap (.newParam vs.length))).1.assignAll spoil s.heap.next ((List.range vs.length).zip vs)

/-- `x.constrain(t)` (constrainable.py:138-156) on an object, or on a part of a `Param` that shares its memory:
`self.param_array[...] = transform.initialize(self.param_array)`, then the constraint. -/
def constrainInit (spoil : Nat → Nat → V) (init : T → V → V) (s : State V T) (x : Target) (t : T) : State V T :=
  ((s.assignAll spoil x.obj ((x.index s.heap).map (fun i => (i, init t (s.mem.read x.obj i))))).exec spoil
    (.heap (.constrain x (.tr t)))).1

/-- One call: any call of `Heap.Ev` except `newParam` and `constrain`, which are the next two, an assignment of values
to elements of an object, and a copy. -/
inductive Call (V T : Type)
  | heap (e : Heap.Ev T)
  | new (vs : List V)
  | constrain (x : Target) (t : T)
  | assign (x : Id) (ws : List (Nat × V))
  | copy (x : Id)

/-- Effect of a call. -/
def call (spoil : Nat → Nat → V) (init : T → V → V) (s : State V T) : Call V T → State V T
  | .heap e => (s.exec spoil (.heap e)).1
  | .new vs => s.newWith spoil vs
  | .constrain x t => s.constrainInit spoil init x t
  | .assign x ws => s.assignAll spoil x ws
  | .copy x => (s.copy spoil x).1

/-- The calls that are allowed: those of C35 that lose no values; `Param`s are made of numbers; objects are initialised
before they are constrained or assigned to; what is assigned are numbers in the domains of the elements (what the
optimiser assigns always is, see `Opt.setVals_obeys`). -/
def Allowed (spoil : Nat → Nat → V) (Num : V → Prop) (D : T → V → Prop) (s : State V T) : Call V T → Prop
  | .heap (.newParam _) => False
  | .heap (.constrain _ (.tr _)) => False
  | .heap e => s.heap.Admissible e ∧ s.Proper (.heap e) ∧
      ∀ y, s.heap.leaf y = true → y < s.heap.next → ¬ s.AtRisk spoil y (.heap e)
  | .new vs => ∀ v ∈ vs, Num v
  | .constrain x _ => x.OK s.heap ∧ Settled s.heap x.obj
  | .assign x ws => x < s.heap.next ∧ Settled s.heap x ∧
      ∀ e ∈ ws, e.1 < s.heap.size x ∧ Num e.2 ∧ ∀ t, e.1 ∈ s.heap.constraints x (.tr t) → D t e.2
  | .copy x => s.heap.CopyOK x ∧ Settled s.heap x

/-- Histories of allowed calls, from no objects at all. -/
inductive Life (spoil : Nat → Nat → V) (init : T → V → V) (Num : V → Prop) (D : T → V → Prop) : State V T → Prop
  | empty (cell : Nat → Nat → V) : Life spoil init Num D (empty cell)
  | step {s : State V T} {c : Call V T} : Life spoil init Num D s → s.Allowed spoil Num D c →
      Life spoil init Num D (s.call spoil init c)

/-! ### Writes -/

/-- One write through any initialised object, as seen by a `Param`. -/
theorem write_seen {s : State V T} (h : Path spoil s) {x y : Id} {i j : Nat} (v : V) (hx : x < s.heap.next)
    (hs : Settled s.heap x) (hi : i < s.heap.size x) (hl : s.heap.leaf y = true) (hy : y < s.heap.next)
    (hj : j < s.heap.size y) :
    ((∃ k, At s.heap.toGraph x y k ∧ k + j = i) → (s.exec spoil (.write x i v)).1.mem.read y j = v) ∧
    (¬ (∃ k, At s.heap.toGraph x y k ∧ k + j = i) →
      (s.exec spoil (.write x i v)).1.mem.read y j = s.mem.read y j) := by
  have w := h.reach.heap.wf
  obtain ⟨z, hz, huni⟩ := Heap.leaves_tile h.reach.heap x i hi
  obtain ⟨hzl, n, hzat, h1, h2⟩ := hz
  have hzlt := lt_of_anc w.skel hx (hzat.anc w.skel)
  have hsame : (s.exec spoil (.write x i v)).1 = (s.exec spoil (.write z (i - n) v)).1 := by
    obtain ⟨b, o, hc⟩ := settled_calm w h.reach.linked hx hs
    have hw := hzat.window w.skel w.sized
    have e1 : s.heap.toGraph.size z = s.heap.size z := rfl
    have e2 : s.heap.toGraph.size x = s.heap.size x := rfl
    obtain ⟨c1, -⟩ := hc x 0 .refl (by omega)
    obtain ⟨c2, -⟩ := hc z n hzat (by omega)
    have f1 : s.mem.view x = ⟨b, o + 0, s.heap.toGraph.size x⟩ := Mem.view_eq c1
    have f2 : s.mem.view z = ⟨b, o + n, s.heap.toGraph.size z⟩ := Mem.view_eq c2
    simp only [exec, Mem.write, f1, f2]
    rw [show o + n + (i - n) = o + 0 + i by omega]
  rw [hsame, separate_params_partial h v hzl hzlt (by omega) hl hy j hj]
  have hiff : (∃ k, At s.heap.toGraph x y k ∧ k + j = i) ↔ (y = z ∧ j = i - n) := by
    constructor
    · rintro ⟨k, hk, rfl⟩
      have hyz : y = z := huni y ⟨hl, k, hk, by omega, by omega⟩
      subst hyz
      rw [w.skel.at_unique hk hzat]
      exact ⟨rfl, by omega⟩
    · rintro ⟨rfl, rfl⟩
      exact ⟨n, hzat, by omega⟩
  constructor
  · intro hh; rw [if_pos (hiff.mp hh)]
  · intro hh; rw [if_neg (fun hc => hh (hiff.mpr hc))]

theorem assignAll_heap (spoil : Nat → Nat → V) (x : Id) : ∀ (ws : List (Nat × V)) (s : State V T),
    (s.assignAll spoil x ws).heap = s.heap
  | [], _ => rfl
  | _ :: ws, _ => (assignAll_heap spoil x ws _).trans rfl

/-- Any number of writes. -/
theorem assignAll_seen {x : Id} : ∀ (ws : List (Nat × V)) {s : State V T}, Path spoil s → x < s.heap.next →
    Settled s.heap x → (∀ e ∈ ws, e.1 < s.heap.size x) →
    Path spoil (s.assignAll spoil x ws) ∧
    ∀ y j, s.heap.leaf y = true → y < s.heap.next → j < s.heap.size y →
      ((∃ k v, At s.heap.toGraph x y k ∧ (k + j, v) ∈ ws) →
        ∃ k v, At s.heap.toGraph x y k ∧ (k + j, v) ∈ ws ∧ (s.assignAll spoil x ws).mem.read y j = v) ∧
      ((¬ ∃ k v, At s.heap.toGraph x y k ∧ (k + j, v) ∈ ws) →
        (s.assignAll spoil x ws).mem.read y j = s.mem.read y j)
  | [], s, h, _, _, _ => ⟨h, fun _ _ _ _ _ => ⟨fun ⟨_, _, _, hm⟩ => absurd hm List.not_mem_nil, fun _ => rfl⟩⟩
  | (i, v) :: ws, s, h, hx, hs, hb => by
    have hi := hb _ List.mem_cons_self
    have h1 : Path spoil (s.exec spoil (.write x i v)).1 := .step h ⟨hx, hi, hs⟩ trivial
    obtain ⟨hp, key⟩ := assignAll_seen (x := x) ws h1 hx hs (fun e he => hb e (List.mem_cons_of_mem _ he))
    refine ⟨hp, fun y j hl hy hj => ?_⟩
    obtain ⟨k1, k2⟩ := key y j hl hy hj
    obtain ⟨w1, w2⟩ := write_seen h v hx hs hi hl hy hj
    have heq : s.assignAll spoil x ((i, v) :: ws) = ((s.exec spoil (.write x i v)).1).assignAll spoil x ws := rfl
    rw [heq]
    by_cases hr : ∃ k u, At s.heap.toGraph x y k ∧ (k + j, u) ∈ ws
    · obtain ⟨k, u, a1, a2, a3⟩ := k1 hr
      exact ⟨fun _ => ⟨k, u, a1, List.mem_cons_of_mem _ a2, a3⟩,
        fun hn => absurd ⟨k, u, a1, List.mem_cons_of_mem _ a2⟩ hn⟩
    · have hkeep := k2 hr
      constructor
      · rintro ⟨k, u, a1, a2⟩
        rcases List.mem_cons.mp a2 with a3 | a3
        · obtain ⟨a4, a5⟩ := Prod.mk.injEq .. ▸ a3
          exact ⟨k, u, a1, a2, by rw [hkeep, w1 ⟨k, a1, a4⟩, a5]⟩
        · exact absurd ⟨k, u, a1, a3⟩ hr
      · intro hn
        rw [hkeep]
        refine w2 ?_
        rintro ⟨k, a1, rfl⟩
        exact hn ⟨k, v, a1, List.mem_cons_self⟩

/-! ### Existing `Param`s -/

/-- Calls that make no objects leave the sizes of `Param`s alone. -/
theorem link_param_size {s : State V T} (w : s.heap.WF) {p x : Id} {index : Option Int} (ok : s.heap.LinkOK p x index)
    {y : Id} (hl : s.heap.leaf y = true) :
    (s.link spoil p x index).1.heap.size y = s.heap.size y := by
  rcases link_cases spoil w p x index with ⟨marks, he⟩ | ⟨hp, hx, he⟩ | ⟨q, marks, A, B, hp, hk, he⟩
  · rw [he]; rfl
  · rw [he, (linkRoot_heap spoil s p x index).1]
    obtain ⟨-, i, -⟩ := Heap.linkRoot_wf w ok.ltx ok.ltp hx hp ok.outside ok.ready (ok.pos w hx)
    exact i.size_not y (Heap.leaf_not_above w hl hp)
  · rw [he, (linkRoot_heap spoil _ p x index).1]
    set h0 : Heap T := { s.heap with visited := marks } with hh0
    have w0 : h0.WF := w.visited marks
    have ok0 : h0.LinkOK p x index := ⟨ok.1, ok.2, ok.3, ok.4, ok.5⟩
    have hk0 : h0.kids q = A ++ x :: B := hk
    obtain ⟨w1, i, -⟩ := Heap.unlinkChild_wf w0 hk0
    have ok1 := ok0.unlink w0 hk0
    have hp1 : (h0.unlinkChild q x).leaf p = false := by
      rw [← show h0.leaf = (h0.unlinkChild q x).leaf from i.leaf]; exact hp
    have hl1 : (h0.unlinkChild q x).leaf y = true := by
      rw [← show h0.leaf = (h0.unlinkChild q x).leaf from i.leaf]; exact hl
    obtain ⟨-, i2, -⟩ := Heap.linkRoot_wf w1 ok1.ltx ok1.ltp i.root hp1 ok1.outside ok1.ready (ok1.pos w1 i.root)
    have e1 := i2.size_not y (Heap.leaf_not_above w1 hl1 hp1)
    have e2 := i.size_not y (Heap.leaf_not_above w1 hl1 i.node)
    show ((h0.unlinkChild q x).linkRoot p x index).1.toGraph.size y = s.heap.toGraph.size y
    rw [e1, ← e2]

theorem unlink_param_size {h : Heap T} (w : h.WF) {q x : Id} {y : Id} (hl : h.leaf y = true) :
    (h.unlink q x).1.next = h.next ∧ (h.unlink q x).1.leaf = h.leaf ∧ (h.unlink q x).1.size y = h.size y := by
  unfold Heap.unlink
  cases hq : h.leaf q with
  | true => simp
  | false =>
    by_cases hx : x ∈ h.kids q
    · obtain ⟨A, B, hk⟩ := List.append_of_mem hx
      simp only [hx, Bool.false_eq_true, if_false, if_true]
      obtain ⟨w1, i, -⟩ := Heap.unlinkChild_wf w hk
      have hl1 : (h.unlinkChild q x).leaf y = true := by
        rw [← show h.leaf = (h.unlinkChild q x).leaf from i.leaf]; exact hl
      exact ⟨i.next.symm, i.leaf.symm, (i.size_not y (Heap.leaf_not_above w1 hl1 i.node)).symm⟩
    · simp [hx]

theorem newObj_constraints {h : Heap T} (leaf : Bool) (size : Nat) (ii : Bool) (w : h.WF) {y : Id} (hy : y < h.next)
    (t : Con T) : (h.newObj leaf size ii).constraints y t = h.constraints y t := by
  obtain ⟨r, hrr, hra⟩ := w.skel.exists_root y
  have hrlt := w.skel.anc_lt hra hy
  obtain ⟨o, ho⟩ := w.skel.exists_at hra
  have hd : (h.iop y).1 < h.nextDict := by
    by_cases hyr : y = r
    · subst hyr; exact (w.root y hrlt hrr).2
    · rw [w.view r y o hrlt hrr ho hyr]; exact (w.root r hrlt hrr).2
  unfold Heap.constraints
  show IndexOps.Iop.get (upd h.iop h.next _ y).2 (upd h.dicts h.nextDict [] (upd h.iop h.next _ y).1) t = _
  rw [upd_ne _ _ (Nat.ne_of_lt hy), upd_ne _ _ (Nat.ne_of_lt hd)]

theorem newParam_constraints {h : Heap T} (n : Nat) (t : Con T) : (h.newParam n).constraints h.next t = [] := by
  unfold Heap.constraints
  show IndexOps.Iop.get (upd h.iop h.next _ h.next).2 (upd h.dicts h.nextDict [] (upd h.iop h.next _ h.next).1) t = _
  rw [upd_same]
  show IndexOps.Iop.get .base (upd h.dicts h.nextDict [] h.nextDict) t = _
  rw [upd_same]
  rfl

/-! ### One call -/

/-- A call that keeps the `Param`s, their values, and adds no transformation. -/
theorem Valid.keep {Num : V → Prop} {D : T → V → Prop} {s s' : State V T} (h : Valid Num D s)
    (hn : s'.heap.next = s.heap.next) (hl : s'.heap.leaf = s.heap.leaf)
    (hs : ∀ y, s.heap.leaf y = true → s'.heap.size y = s.heap.size y)
    (hc : ∀ y, y < s.heap.next → s.heap.leaf y = true → ∀ i, i < s.heap.size y → ∀ t,
      i ∈ s'.heap.constraints y (.tr t) → i ∈ s.heap.constraints y (.tr t))
    (hv : ∀ y, y < s.heap.next → s.heap.leaf y = true → ∀ i, i < s.heap.size y → s'.mem.read y i = s.mem.read y i) :
    Valid Num D s' := by
  intro y i hy hly hi
  rw [hn] at hy
  rw [hl] at hly
  rw [hs y hly] at hi
  rw [hv y hy hly i hi]
  exact ⟨(h y i hy hly hi).1, fun t ht => (h y i hy hly hi).2 t (hc y hy hly i hi t ht)⟩

theorem call_valid {init : T → V → V} {Num : V → Prop} {D : T → V → Prop}
    (hinit : ∀ t v, Num v → Num (init t v) ∧ D t (init t v)) {s : State V T} (p : Path spoil s) (h : Valid Num D s)
    {c : Call V T} (ha : s.Allowed spoil Num D c) : Path spoil (s.call spoil init c) ∧ Valid Num D (s.call spoil init c) := by
  have w := p.reach.heap.wf
  have hr := p.reach.heap
  cases c with
  | new vs =>
    have p1 : Path spoil (s.exec spoil (.heap (.newParam vs.length))).1 := .step p trivial trivial
    have hnext : (s.exec spoil (.heap (.newParam vs.length))).1.heap.next = s.heap.next + 1 := rfl
    have hleaf : (s.exec spoil (.heap (.newParam vs.length))).1.heap.leaf s.heap.next = true := upd_same _ _ _
    have hsize : (s.exec spoil (.heap (.newParam vs.length))).1.heap.size s.heap.next = vs.length := upd_same _ _ _
    have hb : ∀ e ∈ (List.range vs.length).zip vs,
        e.1 < (s.exec spoil (.heap (.newParam vs.length))).1.heap.size s.heap.next := by
      intro e he
      rw [hsize]
      exact List.mem_range.mp (List.of_mem_zip he).1
    obtain ⟨p2, key⟩ := assignAll_seen (x := s.heap.next) _ p1 (Nat.lt_succ_self _) (.inl hleaf) hb
    refine ⟨p2, fun y i hy hly hi => ?_⟩
    have hheap : (s.call spoil init (.new vs)).heap = s.heap.newParam vs.length := assignAll_heap spoil _ _ _
    rw [hheap] at hy hly hi
    obtain ⟨k1, k2⟩ := key y i hly hy hi
    by_cases hyn : y = s.heap.next
    · subst hyn
      have hi' : i < vs.length := by
        rw [show (s.heap.newParam vs.length).size s.heap.next = vs.length from upd_same _ _ _] at hi; exact hi
      have hin : (i, vs[i]) ∈ (List.range vs.length).zip vs := by
        rw [List.mem_iff_getElem]
        exact ⟨i, by simpa using hi', by simp⟩
      obtain ⟨k, v, -, hm, hv⟩ := k1 ⟨0, vs[i], .refl, by rw [Nat.zero_add]; exact hin⟩
      constructor
      · show Num (State.mem _ |>.read _ _)
        rw [show (s.call spoil init (.new vs)) = (s.exec spoil (.heap (.newParam vs.length))).1.assignAll spoil s.heap.next
          ((List.range vs.length).zip vs) from rfl, hv]
        exact ha v (List.of_mem_zip hm).2
      · intro t ht
        rw [hheap, newParam_constraints] at ht
        cases ht
    · have hylt : y < s.heap.next := by
        have : y < s.heap.next + 1 := hy
        omega
      have hly' : s.heap.leaf y = true := by
        rw [show (s.heap.newParam vs.length).leaf y = s.heap.leaf y from upd_ne _ _ hyn] at hly; exact hly
      have hi' : i < s.heap.size y := by
        rw [show (s.heap.newParam vs.length).size y = s.heap.size y from upd_ne _ _ hyn] at hi; exact hi
      have hv : (s.call spoil init (.new vs)).mem.read y i = s.mem.read y i := by
        rw [show (s.call spoil init (.new vs)) = (s.exec spoil (.heap (.newParam vs.length))).1.assignAll spoil s.heap.next
          ((List.range vs.length).zip vs) from rfl, k2 ?_]
        · exact values_kept_partial p (e := .heap (.newParam vs.length)) trivial trivial (fun _ _ _ h => by cases h) hly' hylt
            (fun h => h) i hi'
        · rintro ⟨k, v, hat, -⟩
          have := anc_leaf p1.reach.heap.wf.skel hleaf (hat.anc p1.reach.heap.wf.skel)
          exact hyn this
      rw [hv, hheap]
      exact ⟨(h y i hylt hly' hi').1, fun t ht => (h y i hylt hly' hi').2 t
        (by rw [← newObj_constraints true vs.length false w hylt]; exact ht)⟩
  | assign x ws =>
    obtain ⟨hx, hs, hw⟩ := ha
    obtain ⟨p2, key⟩ := assignAll_seen (x := x) ws p hx hs (fun e he => (hw e he).1)
    refine ⟨p2, fun y i hy hly hi => ?_⟩
    have hheap : (s.call spoil init (.assign x ws)).heap = s.heap := assignAll_heap spoil _ _ _
    rw [hheap] at hy hly hi ⊢
    obtain ⟨k1, k2⟩ := key y i hly hy hi
    by_cases hh : ∃ k v, At s.heap.toGraph x y k ∧ (k + i, v) ∈ ws
    · obtain ⟨k, v, hat, hm, hv⟩ := k1 hh
      show Num ((s.assignAll spoil x ws).mem.read y i) ∧ ∀ t, _ → D t ((s.assignAll spoil x ws).mem.read y i)
      rw [hv]
      refine ⟨(hw _ hm).2.1, fun t ht => (hw _ hm).2.2 t ?_⟩
      exact (Heap.constraints_from_leaves hr hx (.tr t) (k + i)).mpr ⟨y, k, i, hly, hat, hi, rfl, ht⟩
    · show Num ((s.assignAll spoil x ws).mem.read y i) ∧ ∀ t, _ → D t ((s.assignAll spoil x ws).mem.read y i)
      rw [k2 hh]
      exact h y i hy hly hi
  | constrain x t =>
    obtain ⟨ok, hs⟩ := ha
    have hb : ∀ e ∈ (x.index s.heap).map (fun i => (i, init t (s.mem.read x.obj i))), e.1 < s.heap.size x.obj := by
      intro e he
      obtain ⟨i, hi, rfl⟩ := List.mem_map.mp he
      unfold Target.index at hi
      split at hi
      · exact List.mem_range.mp hi
      · rename_i a hpa
        exact (ok.part a hpa).2 i hi
    obtain ⟨p2, key⟩ := assignAll_seen (x := x.obj) _ p ok.lt hs hb
    set s1 := s.assignAll spoil x.obj ((x.index s.heap).map (fun i => (i, init t (s.mem.read x.obj i)))) with hs1
    have hheap1 : s1.heap = s.heap := assignAll_heap spoil _ _ _
    have ok1 : x.OK s1.heap := by rw [hheap1]; exact ok
    have p3 : Path spoil (s1.exec spoil (.heap (.constrain x (.tr t)))).1 := .step p2 ok1 trivial
    have hheap : (s.call spoil init (.constrain x t)).heap = s.heap.constrain x (.tr t) := by
      show s1.heap.constrain x (.tr t) = _
      rw [hheap1]
    have hmem : (s.call spoil init (.constrain x t)).mem = s1.mem := rfl
    refine ⟨p3, fun y i hy hly hi => ?_⟩
    have hsm : Heap.Same s.heap (s.heap.constrain x (.tr t)) := ((Heap.constraining_wf w ok).1 (.tr t)).2
    rw [hheap] at hy hly hi
    rw [show (s.heap.constrain x (.tr t)).next = s.heap.next by rw [hsm.graph]] at hy
    rw [show (s.heap.constrain x (.tr t)).leaf = s.heap.leaf by rw [hsm.graph]] at hly
    rw [show (s.heap.constrain x (.tr t)).size = s.heap.size by rw [hsm.graph]] at hi
    rw [hheap, hmem]
    obtain ⟨k1, k2⟩ := key y i hly hy hi
    obtain ⟨e1, e2⟩ := h y i hy hly hi
    by_cases hh : Hits s.heap x y i
    · obtain ⟨m, hat, hm⟩ := hh
      obtain ⟨k, v, hat', hm', hv⟩ := k1 ⟨m, _, hat, List.mem_map.mpr ⟨m + i, hm, rfl⟩⟩
      obtain ⟨j, hj, hje⟩ := List.mem_map.mp hm'
      obtain ⟨rfl, rfl⟩ := Prod.mk.injEq .. ▸ hje
      have hread : s.mem.read x.obj (k + i) = s.mem.read y i := by
        rcases hs with hsl | hsd
        · have hyx := anc_leaf w.skel hsl (hat'.anc w.skel)
          subst hyx
          rw [w.skel.at_unique hat' .refl, Nat.zero_add]
        · exact (read_same p.reach ok.lt hsd hat' hi).symm
      rw [hv, hread]
      refine ⟨(hinit t _ e1).1, fun u hu => ?_⟩
      have := ((Heap.constrain_exact hr ok t hy hly hi (.tr u)).1 ⟨m, hat, hm⟩).mp hu
      injection this with hut
      rw [hut]
      exact (hinit t _ e1).2
    · rw [k2 ?_]
      · exact ⟨e1, fun u hu => e2 u (((Heap.constrain_exact hr ok t hy hly hi (.tr u)).2 hh).mp hu)⟩
      · rintro ⟨k, v, hat, hm⟩
        obtain ⟨j, hj, hje⟩ := List.mem_map.mp hm
        obtain ⟨rfl, -⟩ := Prod.mk.injEq .. ▸ hje
        exact hh ⟨k, hat, hj⟩
  | copy x =>
    obtain ⟨ok, hs⟩ := ha
    refine ⟨.copy p ok hs, fun y i hy hly hi => ?_⟩
    have hheap : (s.call spoil init (.copy x)).heap = (s.heap.copy x).1 := (copy_heap spoil s x).1
    rw [hheap] at hy hly hi ⊢
    by_cases hylt : y < s.heap.next
    · obtain ⟨-, -, c3, c4, c5⟩ := Heap.copy_keeps_original hr ok hylt
      rw [c4] at hly
      rw [c3] at hi
      show Num ((s.copy spoil x).1.mem.read y i) ∧ ∀ t, _ → D t ((s.copy spoil x).1.mem.read y i)
      rw [copy_keeps_values p.reach ok hylt (.inl hly) hi]
      exact ⟨(h y i hylt hly hi).1, fun t ht => (h y i hylt hly hi).2 t (by rw [← c5]; exact ht)⟩
    · have hG : (s.heap.copy x).1.next = (s.heap.rawCopy x).next := by
        obtain ⟨c, -⟩ := Heap.copy_copied w.skel ok.lt
        obtain ⟨F, M, hB⟩ := Heap.beforeCopy_eq s.heap x
        rw [show (s.heap.copy x).1.next = (s.heap.copy x).1.toGraph.next from rfl, c.graph, hB]
        rfl
      obtain ⟨-, ct⟩ := Heap.copy_shape hr ok
      rcases Heap.raw_below w.skel (hG ▸ hy) with h1 | ⟨z, hz, rfl⟩
      · exact absurd h1 hylt
      · have hzlt := w.skel.desc_lt hz ok.lt
        rw [ct.leaf z hz] at hly
        rw [ct.size z hz] at hi
        show Num ((s.copy spoil x).1.mem.read _ i) ∧ ∀ t, _ → D t ((s.copy spoil x).1.mem.read _ i)
        rw [copy_values p.reach ok hz hly hi]
        exact ⟨(h z i hzlt hly hi).1, fun t ht => (h z i hzlt hly hi).2 t
          (by rw [← Heap.copy_constraints hr ok hz]; exact ht)⟩
  | heap e =>
    have step : s.heap.Admissible e ∧ s.Proper (.heap e) ∧
        (∀ y, s.heap.leaf y = true → y < s.heap.next → ¬ s.AtRisk spoil y (.heap e)) → Path spoil (s.exec spoil (.heap e)).1 ∧
        (∀ y, y < s.heap.next → s.heap.leaf y = true → ∀ i, i < s.heap.size y →
          (s.exec spoil (.heap e)).1.mem.read y i = s.mem.read y i) := by
      rintro ⟨a1, a2, a3⟩
      exact ⟨.step p a1 a2, fun y hy hl => values_kept_partial p (e := .heap e) a1 a2 (fun _ _ _ h => by cases h) hl hy
        (a3 y hl hy)⟩
    have same : ∀ h' : Heap T, Heap.Same s.heap h' → h'.next = s.heap.next ∧ h'.leaf = s.heap.leaf ∧
        ∀ y, s.heap.leaf y = true → h'.size y = s.heap.size y := fun h' e =>
      ⟨by rw [e.graph], by rw [e.graph], fun y _ => by rw [e.graph]⟩
    show Path spoil (s.exec spoil (.heap e)).1 ∧ Valid Num D (s.exec spoil (.heap e)).1
    cases e with
    | newParam n => exact absurd ha id
    | newNode =>
      obtain ⟨q, hv⟩ := step ha
      refine ⟨q, fun y i hy hly hi => ?_⟩
      have hyn : y ≠ s.heap.next := by
        rintro rfl
        rw [show (s.exec spoil (.heap .newNode)).1.heap.leaf s.heap.next = false from upd_same _ _ _] at hly
        cases hly
      have hylt : y < s.heap.next := by
        have : y < s.heap.next + 1 := hy
        omega
      rw [show (s.exec spoil (.heap .newNode)).1.heap.leaf y = s.heap.leaf y from upd_ne _ _ hyn] at hly
      rw [show (s.exec spoil (.heap .newNode)).1.heap.size y = s.heap.size y from upd_ne _ _ hyn] at hi
      rw [hv y hylt hly i hi]
      exact ⟨(h y i hylt hly hi).1, fun t ht => (h y i hylt hly hi).2 t
        (by rw [← newObj_constraints false 0 true w hylt]; exact ht)⟩
    | finishInit x b =>
      obtain ⟨q, hv⟩ := step ha
      have hh : (s.exec spoil (.heap (.finishInit x b))).1.heap = s.heap.finishInit x b := (exec_heap spoil s _).1
      obtain ⟨-, hg, hc⟩ := Heap.finishInit_wf w ha.1.1 b
      refine ⟨q, h.keep ?_ ?_ ?_ ?_ hv⟩
      · rw [hh, show (s.heap.finishInit x b).next = (s.heap.finishInit x b).toGraph.next from rfl, hg]
      · rw [hh, show (s.heap.finishInit x b).leaf = (s.heap.finishInit x b).toGraph.leaf from rfl, hg]
      · intro y _
        rw [hh, show (s.heap.finishInit x b).size = (s.heap.finishInit x b).toGraph.size from rfl, hg]
      · intro y hy _ i _ t ht
        rw [hh, hc y hy] at ht
        exact ht
    | init x =>
      obtain ⟨q, hv⟩ := step ha
      have hh : (s.exec spoil (.heap (.init x))).1.heap = s.heap.initializeParameter x := (exec_heap spoil s _).1
      obtain ⟨-, hg, -, hc, -⟩ := Heap.initialize_wf w ha.1
      refine ⟨q, h.keep ?_ ?_ ?_ ?_ hv⟩
      · rw [hh, show (s.heap.initializeParameter x).next = (s.heap.initializeParameter x).toGraph.next from rfl, hg]
      · rw [hh, show (s.heap.initializeParameter x).leaf = (s.heap.initializeParameter x).toGraph.leaf from rfl, hg]
      · intro y _
        rw [hh, show (s.heap.initializeParameter x).size = (s.heap.initializeParameter x).toGraph.size from rfl, hg]
      · intro y hy _ i _ t ht
        rw [hh, hc y hy] at ht
        exact ht
    | link p' x index =>
      obtain ⟨q, hv⟩ := step ha
      have ok : s.heap.LinkOK p' x index := ha.1
      have hh : (s.exec spoil (.heap (.link p' x index))).1.heap = (s.heap.link p' x index).1 := (exec_heap spoil s _).1
      have lp := Heap.link_post w ok
      refine ⟨q, h.keep (by rw [hh]; exact lp.next) (by rw [hh]; exact lp.leaf) (fun y hl => link_param_size w ok hl) ?_ hv⟩
      intro y hy hl i _ t ht
      rw [hh, Heap.link_keeps_param_partial hr ok hy hl] at ht
      exact ht
    | unlink q' x =>
      obtain ⟨q, hv⟩ := step ha
      have hh : (s.exec spoil (.heap (.unlink q' x))).1.heap = (s.heap.unlink q' x).1 := (exec_heap spoil s _).1
      have hn : (s.heap.unlink q' x).1.next = s.heap.next ∧ (s.heap.unlink q' x).1.leaf = s.heap.leaf := by
        unfold Heap.unlink
        split
        · exact ⟨rfl, rfl⟩
        · split
          · rename_i hx
            obtain ⟨A, B, hk⟩ := List.append_of_mem hx
            obtain ⟨-, i, -⟩ := Heap.unlinkChild_wf w hk
            exact ⟨i.next.symm, i.leaf.symm⟩
          · exact ⟨rfl, rfl⟩
      refine ⟨q, h.keep (by rw [hh]; exact hn.1) (by rw [hh]; exact hn.2)
        (fun y hl => by rw [hh]; exact (unlink_param_size w hl).2.2) ?_ hv⟩
      intro y hy hl i _ t ht
      rw [hh, Heap.unlink_keeps_param hr hy hl] at ht
      exact ht
    | constrain x c =>
      cases c with
      | tr t => exact absurd ha id
      | fixed =>
        obtain ⟨q, hv⟩ := step ha
        obtain ⟨e1, e2, e3⟩ := same _ ((Heap.constraining_wf w ha.1).1 .fixed).2
        refine ⟨q, h.keep e1 e2 e3 ?_ hv⟩
        intro y hy hl i hi t ht
        have ht' : i ∈ (s.heap.fix x).constraints y (.tr t) := ht
        have := (Heap.fix_exact hr ha.1 hy hl hi (.tr t)).mp ht'
        simpa using this
    | unconstrain x cs =>
      obtain ⟨q, hv⟩ := step ha
      obtain ⟨e1, e2, e3⟩ := same _ ((Heap.constraining_wf w ha.1).2.1 cs).2
      exact ⟨q, h.keep e1 e2 e3 (fun y hy hl i hi t ht => ((Heap.unconstrain_exact hr ha.1 cs hy hl hi (.tr t)).mp ht).1) hv⟩
    | fix x =>
      obtain ⟨q, hv⟩ := step ha
      obtain ⟨e1, e2, e3⟩ := same _ (Heap.constraining_wf w ha.1).2.2.1.2
      refine ⟨q, h.keep e1 e2 e3 ?_ hv⟩
      intro y hy hl i hi t ht
      have := (Heap.fix_exact hr ha.1 hy hl hi (.tr t)).mp ht
      simpa using this
    | unfix x =>
      obtain ⟨q, hv⟩ := step ha
      obtain ⟨e1, e2, e3⟩ := same _ (Heap.constraining_wf w ha.1).2.2.2.2
      exact ⟨q, h.keep e1 e2 e3 (fun y hy hl i hi t ht => ((Heap.unfix_exact hr ha.1 hy hl hi (.tr t)).mp ht).1) hv⟩

/-! ### C76 -/

theorem Life.path_valid {init : T → V → V} {Num : V → Prop} {D : T → V → Prop}
    (hinit : ∀ t v, Num v → Num (init t v) ∧ D t (init t v)) {s : State V T} (h : Life spoil init Num D s) :
    Path spoil s ∧ Valid Num D s := by
  induction h with
  | empty cell => exact ⟨.empty cell, fun y _ hy => absurd hy (Nat.not_lt_zero y)⟩
  | step _ ha ih => exact call_valid hinit ih.1 ih.2 ha

/-- **C76.** After every history of constructing, linking, unlinking, constraining, fixing, assigning and copying, every
element of every `Param` is in the domain of the transformation that it carries. Missing for the full claim: as in C35,
and parts that are copies. -/
theorem life_in_domain_partial {init : T → V → V} {Num : V → Prop} {D : T → V → Prop}
    (hinit : ∀ t v, Num v → Num (init t v) ∧ D t (init t v)) {s : State V T} (h : Life spoil init Num D s) {y : Id}
    (hy : y < s.heap.next) (hl : s.heap.leaf y = true) {i : Nat} {t : T} (hi : i ∈ s.heap.constraints y (.tr t)) :
    D t (s.mem.read y i) := by
  obtain ⟨p, hv⟩ := h.path_valid hinit
  exact (hv y i hy hl ((Heap.constraints_sorted p.reach.heap hy (.tr t)).2 i hi)).2 t hi

/-- **C76**, for the transformations of the library. -/
theorem life_values_valid_partial (sem : T → Transform.Tr) (hsem : ∀ t, (sem t).Valid)
    {spoil : Nat → Nat → ℝ} {s : State ℝ T}
    (h : Life spoil (fun t => (sem t).init) (fun _ => True) (fun t y => y ∈ Transform.ClosedDom (sem t)) s)
    {y : Id} (hy : y < s.heap.next) (hl : s.heap.leaf y = true) {i : Nat} {t : T}
    (hi : i ∈ s.heap.constraints y (.tr t)) : s.mem.read y i ∈ Transform.ClosedDom (sem t) :=
  life_in_domain_partial (fun t v _ => ⟨trivial, (Transform.initialize_sound (sem t) (hsem t) v).1⟩) h hy hl hi

/-! ### Examples -/

/-- The domain of `t` are the values of at least `t`. -/
def atLeast (t v : Nat) : Nat := max t v

theorem atLeast_lands (t v : Nat) (_ : True) : True ∧ t ≤ atLeast t v := ⟨trivial, Nat.le_max_left t v⟩

/-- Decision procedure for some of the `Allowed` calls. -/
def allowedB (s : State Nat Nat) : Call Nat Nat → Bool
  | .heap (.link p x index) => s.heap.admissibleB (.link p x index) && s.properB (.heap (.link p x index)) &&
      (s.heap.parent x).isNone && (s.heap.parent p).isNone
  | .heap .newNode => true
  | .heap (.finishInit x b) => s.heap.admissibleB (.finishInit x b) && s.properB (.heap (.finishInit x b))
  | .new _ => true
  | .constrain x t => s.heap.admissibleB (.constrain x (.tr t)) && settledB s.heap x.obj
  | _ => false

theorem settledB_sound {h : Heap T} {n : Id} (hb : settledB h n = true) : Settled h n := by
  simp only [settledB, Bool.or_eq_true] at hb
  rcases hb with h1 | h1
  · exact .inl h1
  · exact .inr (doneB h1)

theorem root_not_atRisk {s : State V T} (h : Path spoil s) {p x : Id} {index : Option Int}
    (ok : s.heap.LinkOK p x index) (hx : s.heap.parent x = none) (hp : s.heap.parent p = none) (y : Id) :
    ¬ s.AtRisk spoil y (.heap (.link p x index)) := by
  have w := h.reach.heap.wf
  have hpx : p ≠ x := by rintro rfl; exact ok.outside .refl
  rintro (hb | ⟨q, q', hq, -⟩)
  · refine not_belowGrandchild_root ?_ y hb
    rcases link_cases spoil w p x index with ⟨marks, he⟩ | ⟨hl, -, he⟩ | ⟨q, marks, A, B, hl, hk, he⟩
    · rw [he]; exact hp
    · rw [he, (linkRoot_heap spoil s p x index).1]
      obtain ⟨-, i, -⟩ := Heap.linkRoot_wf w ok.ltx ok.ltp hx hl ok.outside ok.ready (ok.pos w hx)
      exact (i.parent_ne p hpx).trans hp
    · rw [show s.heap.parent x = some q from w.skel.parent_of hk] at hx; cases hx
  · rw [hx] at hq; cases hq

/-- Is every call of the list allowed when it is made? -/
def lifeB (s : State Nat Nat) : List (Call Nat Nat) → Bool
  | [] => true
  | c :: cs => s.allowedB c && lifeB (s.call demoSpoil atLeast c) cs

/-- The state after a list of calls. -/
def calls (s : State Nat Nat) (cs : List (Call Nat Nat)) : State Nat Nat := cs.foldl (fun s c => s.call demoSpoil atLeast c) s

theorem Life.run {s : State Nat Nat} (h : Life demoSpoil atLeast (fun _ => True) (fun t v => t ≤ v) s) :
    ∀ cs, lifeB s cs = true → Life demoSpoil atLeast (fun _ => True) (fun t v => t ≤ v) (s.calls cs)
  | [], _ => h
  | c :: cs, hb => by
    simp only [lifeB, Bool.and_eq_true] at hb
    refine Life.run (s := s.call demoSpoil atLeast c) (.step h ?_) cs hb.2
    obtain ⟨p, -⟩ := h.path_valid atLeast_lands
    have w := p.reach.heap.wf
    have h1 := hb.1
    cases c with
    | new vs => exact fun _ _ => trivial
    | constrain x t =>
      simp only [allowedB, Bool.and_eq_true] at h1
      exact ⟨Heap.admissibleB_sound w h1.1, settledB_sound h1.2⟩
    | assign x ws => simp [allowedB] at h1
    | copy x => simp [allowedB] at h1
    | heap e =>
      cases e with
      | newNode => exact ⟨trivial, trivial, fun _ _ _ h => h⟩
      | finishInit x b =>
        simp only [allowedB, Bool.and_eq_true] at h1
        exact ⟨Heap.admissibleB_sound w h1.1, properB_sound h1.2, fun _ _ _ h => h⟩
      | link q x index =>
        simp only [allowedB, Bool.and_eq_true, Option.isNone_iff_eq_none] at h1
        exact ⟨Heap.admissibleB_sound w h1.1.1.1, properB_sound h1.1.1.2,
          fun y _ _ => root_not_atRisk p (Heap.admissibleB_sound w h1.1.1.1) h1.1.2 h1.2 y⟩
      | newParam n => simp [allowedB] at h1
      | init x => simp [allowedB] at h1
      | unlink q x => simp [allowedB] at h1
      | constrain x c => cases c <;> simp [allowedB] at h1
      | unconstrain x cs => simp [allowedB] at h1
      | fix x => simp [allowedB] at h1
      | unfix x => simp [allowedB] at h1

/-- A `Param` (5, 20) is constrained to at least 10 and put in a model with another (1, 2), then the last element of that
is constrained to at least 7; the model is constrained to at least 8 when it gets one more. -/
def lived : State Nat Nat := start.calls
  [.new [5, 20], .constrain ⟨0, none⟩ 10, .heap .newNode, .heap (.link 1 0 none), .new [1, 2], .heap (.link 1 2 (some 0)),
    .heap (.finishInit 1 true), .constrain ⟨2, some [1]⟩ 7, .new [9], .heap (.link 1 3 (some 1))]

theorem lived_life : Life demoSpoil atLeast (fun _ => True) (fun t v => t ≤ v) lived :=
  Life.run (.empty _) _ (by decide +kernel)

example : lived.values 1 = [1, 7, 9, 10, 20] ∧ lived.heap.constraints 1 (.tr 10) = [3, 4] ∧
    lived.heap.constraints 1 (.tr 7) = [1] := by decide +kernel

example : Life demoSpoil atLeast (fun _ => True) (fun t v => t ≤ v) (lived.calls [.constrain ⟨1, none⟩ 8]) ∧
    (lived.calls [.constrain ⟨1, none⟩ 8]).values 1 = [8, 8, 9, 10, 20] :=
  ⟨Life.run lived_life _ (by decide +kernel), by decide +kernel⟩

/-- Copying and assigning are among the calls. -/
example : Life demoSpoil atLeast (fun _ => True) (fun t v => t ≤ v) (lived.call demoSpoil atLeast (.assign 1 [(1, 8), (3, 11)])) ∧
    (lived.call demoSpoil atLeast (.assign 1 [(1, 8), (3, 11)])).values 1 = [1, 8, 9, 11, 20] := by
  refine ⟨.step lived_life ⟨by decide +kernel, settledB_sound (by decide +kernel), ?_⟩, by decide +kernel⟩
  have p := (lived_life.path_valid atLeast_lands).1
  intro e he
  refine ⟨?_, trivial, fun t ht => ?_⟩
  · have : ∀ e ∈ [(1, 8), (3, 11)], e.1 < lived.heap.size 1 := by decide +kernel
    exact this e he
  · have h10 : 3 ∈ lived.heap.constraints 1 (.tr 10) := by decide +kernel
    have h7 : 1 ∈ lived.heap.constraints 1 (.tr 7) := by decide +kernel
    rcases List.mem_cons.mp he with rfl | he
    · rw [Heap.at_most_one_transformation p.reach.heap (by decide +kernel) ht h7]
      decide
    · rcases List.mem_cons.mp he with rfl | he
      · rw [Heap.at_most_one_transformation p.reach.heap (by decide +kernel) ht h10]
        decide
      · cases he

example : Life demoSpoil atLeast (fun _ => True) (fun t v => t ≤ v) (lived.call demoSpoil atLeast (.copy 1)) :=
  .step lived_life ⟨⟨by decide +kernel, fun p hp => by
    rw [show lived.heap.parent 1 = none by decide +kernel] at hp; cases hp⟩, settledB_sound (by decide +kernel)⟩

end State

end Paramz.Memory

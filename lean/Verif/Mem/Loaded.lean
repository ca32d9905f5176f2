import Verif.Mem.TwinsProps
import Verif.Mem.PickleProps

/-!
# C91: a loaded model is optimised like the model that was saved

Source: `paramz/core/pickleable.py:44-63, 104-128`, `paramz/__init__.py:44-78`, `paramz/model.py:65-116, 225-282`,
`paramz/core/parameter_core.py:66-152`. Saving and loading are `State.load` (`Verif.Mem.PickleModel`), optimising is
`State.optimize` (`Verif.Mem.Twins`); nothing new is modelled here.
-/

set_option linter.unusedSectionVars false

/-! ### The order of the constraints does not matter -/

namespace Paramz.Opt

open IndexOps (Arr)
open Hier (Con)

variable {V T : Type} [DecidableEq T] {its its' : List (Con T × Arr)}

theorem disjoint_perm (hp : its'.Perm its) (hd : its.Pairwise (fun e e' => ∀ i, Trans e i → ¬ Trans e' i)) :
    its'.Pairwise (fun e e' => ∀ i, Trans e i → ¬ Trans e' i) :=
  hp.symm.pairwise hd (fun h i h1 h2 => h i h2 h1)

theorem finvAll_perm (o : Ops V T) (hp : its'.Perm its) {src a : List V} (hl : src.length = a.length)
    (hb : ∀ e ∈ its, ∀ i ∈ e.2, i < a.length)
    (hd : its.Pairwise (fun e e' => ∀ i, Trans e i → ¬ Trans e' i)) :
    finvAll o its' src a = finvAll o its src a := by
  obtain ⟨a1, a2⟩ := finvAll_spec o hl hb hd
  obtain ⟨b1, b2⟩ := finvAll_spec o hl (fun e he => hb e (hp.mem_iff.mp he)) (disjoint_perm hp hd)
  refine List.ext_getElem? (fun i => ?_)
  by_cases h : ∃ e ∈ its, Trans e i
  · obtain ⟨⟨c, ind⟩, he, ⟨t, ht⟩, hi⟩ := h
    cases ht
    rw [(a2 i).1 t ind he hi, (b2 i).1 t ind (hp.mem_iff.mpr he) hi]
  · have h' : ∀ e ∈ its, ¬ Trans e i := fun e he ht => h ⟨e, he, ht⟩
    rw [(a2 i).2 h', (b2 i).2 (fun e he => h' e (hp.mem_iff.mp he))]

theorem fAll_perm (o : Ops V T) (m : Option (List Bool)) (hp : its'.Perm its) {a : List V}
    (hb : ∀ e ∈ its, ∀ i ∈ e.2, i < a.length)
    (hd : its.Pairwise (fun e e' => ∀ i, Trans e i → ¬ Trans e' i)) : fAll o m its' a = fAll o m its a := by
  obtain ⟨a1, a2⟩ := fAll_spec o m hb hd
  obtain ⟨b1, b2⟩ := fAll_spec o m (fun e he => hb e (hp.mem_iff.mp he)) (disjoint_perm hp hd)
  refine List.ext_getElem? (fun i => ?_)
  by_cases h : ∃ t ind, (Con.tr t, ind) ∈ its ∧ i ∈ written m ind
  · obtain ⟨t, ind, he, hi⟩ := h
    rw [(a2 i).1 t ind he hi, (b2 i).1 t ind (hp.mem_iff.mpr he) hi]
  · have h' : ∀ t ind, (Con.tr t, ind) ∈ its → i ∉ written m ind := fun t ind he hi => h ⟨t, ind, he, hi⟩
    rw [(a2 i).2 h', (b2 i).2 (fun t ind he => h' t ind (hp.mem_iff.mp he))]

theorem gradAll_perm (o : Ops V T) (hp : its'.Perm its) {vals g : List V} (hl : vals.length = g.length)
    (hb : ∀ e ∈ its, ∀ i ∈ e.2, i < g.length)
    (hd : its.Pairwise (fun e e' => ∀ i, Trans e i → ¬ Trans e' i)) :
    gradAll o its' vals g = gradAll o its vals g := by
  obtain ⟨a1, a2⟩ := gradAll_spec o hl hb hd
  obtain ⟨b1, b2⟩ := gradAll_spec o hl (fun e he => hb e (hp.mem_iff.mp he)) (disjoint_perm hp hd)
  refine List.ext_getElem? (fun i => ?_)
  by_cases h : ∃ e ∈ its, Trans e i
  · obtain ⟨⟨c, ind⟩, he, ⟨t, ht⟩, hi⟩ := h
    cases ht
    rw [(a2 i).1 t ind he hi, (b2 i).1 t ind (hp.mem_iff.mpr he) hi]
  · have h' : ∀ e ∈ its, ¬ Trans e i := fun e he ht => h ⟨e, he, ht⟩
    rw [(a2 i).2 h', (b2 i).2 (fun e he => h' e (hp.mem_iff.mp he))]

end Paramz.Opt

namespace Paramz.Memory

open Hier (Id Graph Heap Con upd upd_same upd_ne)
open Hier.Heap (Target)
open Hier.Graph (Skel Sized At Anc)
open Opt (Ops flattened)

namespace State

variable {V T W : Type} [DecidableEq T] {spoil : Nat → Nat → V}

/-! ### Two states in which a model looks the same -/

/-- The hierarchies are the same, `r` has the same constraints (in any order), the same mask and the same values in
both states. The arrays may be anywhere in memory. -/
structure Mirror (t c : State V T) (r : Id) : Prop where
  graph : t.heap.toGraph = c.heap.toGraph
  cons : ∀ y, Anc c.heap.toGraph r y → ∀ k, t.heap.constraints y k = c.heap.constraints y k
  perm : (t.optState r none).items.Perm (c.optState r none).items
  bound : ∀ e ∈ (c.optState r none).items, ∀ i ∈ e.2, i < c.heap.size r
  disj : (c.optState r none).items.Pairwise (fun e e' => ∀ i, Opt.Trans e i → ¬ Opt.Trans e' i)
  mask : c.heap.constraints r .fixed ≠ [] → t.heap.fixes r = c.heap.fixes r
  read : ∀ i, i < c.heap.size r → t.mem.read r i = c.mem.read r i

namespace Mirror

variable {t c : State V T} {r : Id}

theorem size (M : Mirror t c r) : t.heap.size r = c.heap.size r := by
  have : t.heap.toGraph.size r = c.heap.toGraph.size r := by rw [M.graph]
  exact this

theorem values (M : Mirror t c r) : t.values r = c.values r := by
  unfold State.values
  rw [M.size]
  exact List.map_congr_left (fun i hi => M.read i (List.mem_range.mp hi))

theorem fixedCons (M : Mirror t c r) : t.heap.constraints r .fixed = c.heap.constraints r .fixed := M.cons r .refl _

theorem hasFixes (M : Mirror t c r) : (t.optState r none).hasFixes = (c.optState r none).hasFixes := by
  unfold Opt.State.hasFixes
  rw [show (t.optState r none).cons .fixed = (c.optState r none).cons .fixed from M.fixedCons]

theorem isFixedF (M : Mirror t c r) (sk : Skel c.heap.toGraph) : ∀ (n : Nat) (y : Id), Anc c.heap.toGraph r y →
    Heap.isFixedF n t.heap y = Heap.isFixedF n c.heap y
  | 0, _, _ => rfl
  | n + 1, y, hy => by
    rw [Heap.isFixedF, Heap.isFixedF]
    have e1 : t.heap.leaf y = c.heap.leaf y := by
      have : t.heap.toGraph.leaf y = c.heap.toGraph.leaf y := by rw [M.graph]
      exact this
    have e2 : t.heap.kids y = c.heap.kids y := by
      have : t.heap.toGraph.kids y = c.heap.toGraph.kids y := by rw [M.graph]
      exact this
    have e3 : t.heap.size y = c.heap.size y := by
      have : t.heap.toGraph.size y = c.heap.toGraph.size y := by rw [M.graph]
      exact this
    rw [e1, e2, e3, M.cons y hy]
    split
    · rfl
    · rw [Bool.eq_iff_iff, List.all_eq_true, List.all_eq_true]
      refine forall_congr' fun z => forall_congr' fun hz => ?_
      rw [isFixedF M sk n z (.step hy ((sk.mem_iff _ _).mp hz))]

theorem isFixed (M : Mirror t c r) (sk : Skel c.heap.toGraph) : t.heap.isFixed r = c.heap.isFixed r := by
  unfold Heap.isFixed
  rw [M.graph, M.isFixedF sk _ _ .refl]

theorem setterMask (M : Mirror t c r) : (t.optState r none).setterMask = (c.optState r none).setterMask := by
  unfold Opt.State.setterMask
  rw [M.hasFixes]
  have e1 : t.heap.parent r = c.heap.parent r := by
    have : t.heap.toGraph.parent r = c.heap.toGraph.parent r := by rw [M.graph]
    exact this
  rw [show (t.optState r none).cons .fixed = (c.optState r none).cons .fixed from M.fixedCons,
    show (t.optState r none).heap.parent (t.optState r none).root = (c.optState r none).heap.parent
      (c.optState r none).root from e1,
    show (t.optState r none).size = (c.optState r none).size from M.size]
  split
  · rfl
  · split
    · rename_i h
      have : (c.optState r none).cons .fixed ≠ [] := by simpa [Opt.State.hasFixes] using h
      exact M.mask this
    · rfl

theorem readArray (M : Mirror t c r) (o : Ops V T) (copy copy' : Option (List V)) (junk junk' : List V) :
    t.readArray o r copy' junk' = c.readArray o r copy junk := by
  have hv := M.values
  have hfin : Opt.finvAll o (t.optState r copy').items (t.values r) (t.values r) =
      Opt.finvAll o (c.optState r copy).items (c.values r) (c.values r) := by
    rw [hv]
    exact Opt.finvAll_perm o M.perm rfl (fun e he i hi => by rw [values_length]; exact M.bound e he i hi) M.disj
  unfold State.readArray Opt.State.readOpt
  simp only
  have hx : (t.optState r copy').hasFixes = (c.optState r copy).hasFixes := M.hasFixes
  rw [hx]
  have e1 : (t.optState r copy').fresh = false := rfl
  have e2 : (c.optState r copy).fresh = false := rfl
  rw [e1, e2]
  simp only [Bool.false_eq_true, if_false]
  split
  · rename_i h
    have hne : c.heap.constraints r .fixed ≠ [] := fun e => by
      rw [Opt.State.hasFixes, decide_eq_true_iff] at h
      exact h e
    show Opt.select (Opt.finvAll o (t.optState r copy').items (t.values r) (t.values r)) (t.heap.ensureFixes r) =
      Opt.select (Opt.finvAll o (c.optState r copy).items (c.values r) (c.values r)) (c.heap.ensureFixes r)
    rw [hfin]
    congr 1
    unfold Heap.ensureFixes
    have e3 : t.heap.leaf r = c.heap.leaf r := by
      have : t.heap.toGraph.leaf r = c.heap.toGraph.leaf r := by rw [M.graph]
      exact this
    rw [M.mask hne, M.size, M.fixedCons, e3]
  · exact hfin

theorem setVals (M : Mirror t c r) (o : Ops V T) (p : List V) :
    (t.optState r none).setVals o p = (c.optState r none).setVals o p := by
  unfold Opt.State.setVals
  rw [M.setterMask, show (t.optState r none).vals = (c.optState r none).vals from M.values]
  refine Opt.fAll_perm o _ M.perm (fun e he i hi => ?_) M.disj
  rw [Opt.assign_length]
  show i < (c.values r).length
  rw [values_length]
  exact M.bound e he i hi

theorem gradients (M : Mirror t c r) (o : Ops V T) {d : List V} (hd : d.length = c.heap.size r) :
    (t.optState r none).transformGradients o d = (c.optState r none).transformGradients o d := by
  unfold Opt.State.transformGradients
  simp only
  rw [show (t.optState r none).vals = (c.optState r none).vals from M.values, M.hasFixes,
    Opt.gradAll_perm o M.perm (g := d) (by
      show (c.values r).length = d.length
      rw [values_length, hd]) (fun e he i hi => by rw [hd]; exact M.bound e he i hi) M.disj]
  refine Prod.ext rfl ?_
  show (if _ then _ else _) = (if _ then _ else _)
  split
  · rename_i h
    have hne : c.heap.constraints r .fixed ≠ [] := fun e => by
      rw [Opt.State.hasFixes, decide_eq_true_iff] at h
      exact h e
    show Opt.select _ ((t.heap.fixes r).getD []) = Opt.select _ ((c.heap.fixes r).getD [])
    rw [M.mask hne]
  · rfl

theorem answer (M : Mirror t c r) (o : Ops V T) (F : List V → W) {g : List V → List V}
    (hg : ∀ v, (g v).length = v.length) (q : Query V) : t.answer o F g r q = c.answer o F g r q := by
  have hv := M.values
  have hgr := M.gradients o (d := g (c.values r)) (by rw [hg, values_length])
  cases q <;> simp only [State.answer, hv, hgr, M.hasFixes]

end Mirror

theorem assignAll_arr (s : State V T) (r : Id) : ∀ ws : List (Nat × V),
    (s.assignAll spoil r ws).heap = s.heap ∧ (s.assignAll spoil r ws).mem.arr = s.mem.arr := by
  intro ws
  induction ws generalizing s with
  | nil => exact ⟨rfl, rfl⟩
  | cons e ws ih => exact ih (s.exec spoil (.write r e.1 e.2)).1

theorem assignAll_same {r : Id} {n : Nat} : ∀ (ws : List (Nat × V)) {t c : State V T},
    (∀ i, i < n → t.mem.read r i = c.mem.read r i) →
    ∀ i, i < n → (t.assignAll spoil r ws).mem.read r i = (c.assignAll spoil r ws).mem.read r i := by
  intro ws
  induction ws with
  | nil => exact fun h => h
  | cons e ws ih =>
    intro t c h
    refine ih (t := (t.exec spoil (.write r e.1 e.2)).1) (c := (c.exec spoil (.write r e.1 e.2)).1) (fun i hi => ?_)
    show (if (t.mem.view r).buf = (t.mem.view r).buf ∧ (t.mem.view r).off + i = (t.mem.view r).off + e.1 then e.2
        else t.mem.read r i) =
      (if (c.mem.view r).buf = (c.mem.view r).buf ∧ (c.mem.view r).off + i = (c.mem.view r).off + e.1 then e.2
        else c.mem.read r i)
    by_cases he : i = e.1
    · rw [if_pos ⟨rfl, by rw [he]⟩, if_pos ⟨rfl, by rw [he]⟩]
    · rw [if_neg (fun h => he (Nat.add_left_cancel h.2)), if_neg (fun h => he (Nat.add_left_cancel h.2)), h i hi]

theorem setArray_arr (o : Ops V T) (s : State V T) (r : Id) (p : List V) :
    (s.setArray spoil o r p).heap = s.heap ∧ (s.setArray spoil o r p).mem.arr = s.mem.arr := assignAll_arr s r _

theorem optState_items {s s' : State V T} (h : s'.heap = s.heap) (r : Id) :
    (s'.optState r none).items = (s.optState r none).items := by
  unfold Opt.State.items optState
  rw [h]

theorem Mirror.setArray {t c : State V T} {r : Id} (M : Mirror t c r) (o : Ops V T) (p : List V) :
    Mirror (t.setArray spoil o r p) (c.setArray spoil o r p) r := by
  have h1 := (setArray_arr (spoil := spoil) o t r p).1
  have h2 := (setArray_arr (spoil := spoil) o c r p).1
  refine ⟨by rw [h1, h2]; exact M.graph, by rw [h1, h2]; exact M.cons, ?_, ?_, ?_, by rw [h1, h2]; exact M.mask, ?_⟩
  · rw [optState_items h1, optState_items h2]; exact M.perm
  · rw [optState_items h2, h2]; exact M.bound
  · rw [optState_items h2]; exact M.disj
  · rw [h2]
    intro i hi
    unfold State.setArray
    rw [M.setVals, M.size]
    exact assignAll_same _ M.read i hi

/-- What is asked and answered is the same, and afterwards the model looks the same again. Nothing else is written. -/
theorem Mirror.runProg {o : Ops V T} {F : List V → W} {g : List V → List V} (hg : ∀ v, (g v).length = v.length) {r : Id} :
    ∀ (p : Prog V W) {t c : State V T}, Mirror t c r →
      (State.runProg spoil o F g r p t).2 = (State.runProg spoil o F g r p c).2 ∧
      Mirror (State.runProg spoil o F g r p t).1 (State.runProg spoil o F g r p c).1 r
  | .done x, t, c, M => ⟨rfl, M.setArray o x⟩
  | .ask q k, t, c, M => by
    have M1 := M.setArray (spoil := spoil) o q.point
    have ha := M1.answer o F hg q
    obtain ⟨e1, e2⟩ := Mirror.runProg (o := o) (F := F) hg (k ((c.setArray spoil o r q.point).answer o F g r q)) M1
    simp only [State.runProg]
    rw [ha]
    exact ⟨by rw [e1], e2⟩

theorem runProg_arr {o : Ops V T} {F : List V → W} {g : List V → List V} {r : Id} : ∀ (p : Prog V W) (s : State V T),
    (State.runProg spoil o F g r p s).1.heap = s.heap ∧ (State.runProg spoil o F g r p s).1.mem.arr = s.mem.arr
  | .done x, s => setArray_arr o s r x
  | .ask q k, s => by
    have h1 := setArray_arr (spoil := spoil) o s r q.point
    have h2 := runProg_arr (o := o) (F := F) (g := g) (r := r) (k ((s.setArray spoil o r q.point).answer o F g r q))
      (s.setArray spoil o r q.point)
    simp only [State.runProg]
    exact ⟨h2.1.trans h1.1, h2.2.trans h1.2⟩

theorem optimize_arr {o : Ops V T} {F : List V → W} {g : List V → List V} {r : Id} (p : List V → Prog V W) (s : State V T)
    (copy : Option (List V)) (junk : List V) : (s.optimize spoil o F g copy junk p r).1.heap = s.heap ∧
      (s.optimize spoil o F g copy junk p r).1.mem.arr = s.mem.arr := by
  simp only [State.optimize]
  split
  · exact ⟨rfl, rfl⟩
  · exact runProg_arr _ s

theorem Mirror.optimize {o : Ops V T} {F : List V → W} {g : List V → List V} (hg : ∀ v, (g v).length = v.length) {r : Id}
    {t c : State V T} (M : Mirror t c r) (sk : Skel c.heap.toGraph) (p : List V → Prog V W)
    (copy copy' : Option (List V)) (junk junk' : List V) :
    (t.optimize spoil o F g copy' junk' p r).2 = (c.optimize spoil o F g copy junk p r).2 ∧
    Mirror (t.optimize spoil o F g copy' junk' p r).1 (c.optimize spoil o F g copy junk p r).1 r := by
  simp only [State.optimize]
  rw [M.isFixed sk, M.size, M.readArray o copy copy' junk junk']
  split
  · exact ⟨rfl, M⟩
  · obtain ⟨e1, e2⟩ := M.runProg (spoil := spoil) (o := o) (F := F) hg (p (c.readArray o r copy junk))
    exact ⟨by rw [e1], e2⟩

/-! ### A loaded model and a copy look the same -/

theorem rootOK {s : State V T} {x : Id} (m : s.Model x) : s.heap.CopyOK x :=
  ⟨m.lt, fun p hp => by rw [m.root] at hp; cases hp⟩

theorem load_mirror {s t : State V T} (h : Path spoil s) {x : Id} (m : s.Model x) (L : LoadMem s t x) :
    Mirror t (s.copy spoil x).1 (s.heap.copyOf x x) := by
  have ok := rootOK m
  have w := h.reach.heap.wf
  have hh := (copy_heap spoil s x).1
  have hc : Path spoil (s.copy spoil x).1 := .copy h ok (.inr m.done)
  have mc := copy_model h m ok
  have r := mc.ready hc none
  obtain ⟨-, ct⟩ := Heap.copy_shape h.reach.heap ok
  obtain ⟨cc, -⟩ := Heap.copy_copied w.skel ok.lt
  obtain ⟨F, M, hB⟩ := Heap.beforeCopy_eq s.heap x
  rw [hB] at cc
  have cg : (s.heap.copy x).1.toGraph = (s.heap.rawCopy x).toGraph := cc.graph
  have cl := L.heap
  have w' := w.copied m.lt cl
  have tw := Heap.copied_twin w m.lt m.root cl
  have hcons : ∀ y, Anc s.heap.toGraph x y → ∀ k,
      t.heap.constraints (s.heap.copyOf x y) k = (s.copy spoil x).1.heap.constraints (s.heap.copyOf x y) k := by
    intro y hy k
    rw [hh, Heap.copy_constraints h.reach.heap ok hy k]
    exact (tw.constraints w w' hy k)
  have croot : (s.heap.copy x).1.iop (s.heap.copyOf x x) = (s.heap.nextDict, .base) := cc.root
  have hlook : ∀ k, IndexOps.lookup (t.heap.dicts s.heap.nextDict) k =
      IndexOps.lookup ((s.heap.copy x).1.dicts s.heap.nextDict) k := by
    intro k
    have := hcons x .refl k
    unfold Heap.constraints at this
    rw [cl.root, hh, croot, IndexOps.Iop.get_base, IndexOps.Iop.get_base] at this
    exact this
  refine ⟨by rw [cl.graph, hh]; exact cg.symm, ?_, ?_, ?_, Opt.Held.items_disjoint r, ?_, ?_⟩
  · intro y hy k
    rw [hh, cg] at hy
    obtain ⟨z, hz, rfl⟩ := Heap.raw_anc_inv w.skel hy
    exact hcons z hz k
  · unfold Opt.State.items optState
    simp only
    rw [cl.root, hh, croot]
    have n1 := IndexOps.Iop.items_keys_nodup .base cl.wf.keys
    have n2 := IndexOps.Iop.items_keys_nodup .base cc.wf.keys
    refine (List.perm_ext_iff_of_nodup (List.Nodup.of_map _ n1) (List.Nodup.of_map _ n2)).mpr (fun e => ?_)
    obtain ⟨k, a⟩ := e
    rw [IndexOps.Iop.mem_items _ cl.wf.keys, IndexOps.Iop.mem_items _ cc.wf.keys, IndexOps.Iop.get_base,
      IndexOps.Iop.get_base, hlook]
  · exact fun e he i hi => Opt.Held.items_bound r e he i hi
  · intro _
    rw [hh, cl.mask m.node, hlook]
    exact (cc.mask m.node).symm
  · intro i hi
    rw [hh, ct.size x .refl] at hi
    rw [copy_array_values h.reach ok .refl m.done hi]
    obtain ⟨z, k, hz, hlz, hk1, hk2⟩ := w.skel.exists_leaf w.sized x i hi
    have hzs : i - k < s.heap.size z := by
      have : s.heap.toGraph.size z = s.heap.size z := rfl
      omega
    have h1 := L.values z (hz.anc w.skel) hlz _ hzs
    have h2 := read_same h.reach m.lt m.done hz hzs
    rw [show k + (i - k) = i by omega] at h2
    rw [← h2, ← h1]
    obtain ⟨b, o, hb⟩ := L.calm x .refl
    have c1 := hb z k hz (by omega)
    have c2 := hb x 0 .refl (by omega)
    rw [Mem.read_eq c1, Mem.read_eq c2]
    simp only [Nat.add_zero]
    congr 1
    omega

/-- **C91.** A model that was saved and loaded is optimised like the model would have been when it was saved: same
start, same evaluations and answers, same result; and each `Param` of it ends with the values that its original would
have got. -/
theorem load_alike {o : Ops V T} {F : List V → W} {g : List V → List V} (hg : ∀ v, (g v).length = v.length)
    {s t : State V T} (h : Path spoil s) {x r : Id} (m : s.Model x) {refs : Id → List Id} (hr : s.heap.Refs refs)
    {own : Id → Bool} (hl : s.load spoil own refs x = some (t, r))
    {p : List V → Prog V W} (hp : ∀ z, z.length = s.freeCount x → (p z).Fits (s.freeCount x))
    (copy copy' : Option (List V)) (junk junk' : List V) :
    (t.optimize spoil o F g copy' junk' p r).2 = (s.optimize spoil o F g copy junk p x).2 ∧
    ∀ y, Anc s.heap.toGraph x y → s.heap.leaf y = true → ∀ i, i < s.heap.size y →
      (t.optimize spoil o F g copy' junk' p r).1.mem.read (s.heap.copyOf x y) i =
        (s.optimize spoil o F g copy junk p x).1.mem.read y i := by
  obtain ⟨t', e, L⟩ := load_loadMem (spoil := spoil) h.reach.heap.wf h.reach.linked h.reach.bounded hr m.lt m.root own
  rw [hl] at e
  cases e
  rw [← Heap.copyOf_self s.heap x]
  have ok := rootOK m
  have w := h.reach.heap.wf
  have sk := w.skel
  have hh := (copy_heap spoil s x).1
  have hc : Path spoil (s.copy spoil x).1 := .copy h ok (.inr m.done)
  have M := load_mirror h m L
  obtain ⟨e1, e2⟩ := M.optimize (spoil := spoil) (o := o) (F := F) hg hc.reach.heap.wf.skel p none copy' [] junk'
  obtain ⟨k1, k2⟩ := copy_alike (o := o) (F := F) hg h m ok hp copy none junk []
  refine ⟨e1.trans k1, fun y ha hy i hi => ?_⟩
  rw [← k2 y ha hy i hi]
  obtain ⟨-, ct⟩ := Heap.copy_shape h.reach.heap ok
  obtain ⟨k, hk⟩ := sk.exists_at ha
  have hwin := hk.window sk w.sized
  have e3 : s.heap.toGraph.size y = s.heap.size y := rfl
  have e4 : s.heap.toGraph.size x = s.heap.size x := rfl
  -- in the loaded model
  have a1 := (optimize_arr (spoil := spoil) (o := o) (F := F) (g := g) (r := s.heap.copyOf x x) p t copy' junk').2
  obtain ⟨b, q, hb⟩ := L.calm x .refl
  have c1 := hb y k hk (by omega)
  have c2 := hb x 0 .refl (by omega)
  rw [← a1] at c1 c2
  -- in the copy
  have key := optimize_keeps (o := o) (F := F) (g := g) hc (copy_model h m ok) (p := p)
    (by rw [(copy_twins h ok).freeCount]; exact hp) none []
  have mc := key.model (copy_model h m ok)
  have hat : At ((s.copy spoil x).1.optimize spoil o F g none [] p (s.heap.copyOf x x)).1.heap.toGraph
      (s.heap.copyOf x x) (s.heap.copyOf x y) k := by
    rw [key.heap, hh, ← hh, ← M.graph, L.heap.graph]
    exact Heap.raw_at sk hk
  have r1 := read_same key.path.reach mc.lt mc.done hat (j := i) (by
    rw [key.heap, hh, ct.size y ha]; exact hi)
  rw [r1, ← e2.read (k + i) (by rw [key.heap, hh, ct.size x .refl]; omega), Mem.read_eq c1, Mem.read_eq c2]
  congr 1
  simp only [Nat.add_zero]
  omega

/-! ### They do not meet -/

theorem setArray_elsewhere {s : State V T} {r n : Id} {v u : View} (hv : s.mem.arr n = some v) (hu : s.mem.arr r = some u)
    (hne : u.buf ≠ v.buf) (o : Ops V T) (p : List V) (i : Nat) :
    (s.setArray spoil o r p).mem.read n i = s.mem.read n i := by
  have key : ∀ (ws : List (Nat × V)) {s : State V T}, s.mem.arr n = some v → s.mem.arr r = some u →
      (s.assignAll spoil r ws).mem.read n i = s.mem.read n i := by
    intro ws
    induction ws with
    | nil => exact fun _ _ => rfl
    | cons e ws ih =>
      intro s hv hu
      rw [show s.assignAll spoil r (e :: ws) = (s.exec spoil (.write r e.1 e.2)).1.assignAll spoil r ws from rfl,
        ih (s := (s.exec spoil (.write r e.1 e.2)).1) hv hu]
      show (if (s.mem.view n).buf = (s.mem.view r).buf ∧ (s.mem.view n).off + i = (s.mem.view r).off + e.1
        then e.2 else s.mem.read n i) = _
      rw [Mem.view_eq hu, Mem.view_eq hv, if_neg (fun h => hne h.1.symm)]
  exact key _ hv hu

theorem optimize_elsewhere {o : Ops V T} {F : List V → W} {g : List V → List V} {s : State V T} {r n : Id} {v u : View}
    (hv : s.mem.arr n = some v) (hu : s.mem.arr r = some u) (hne : u.buf ≠ v.buf) (p : List V → Prog V W)
    (copy : Option (List V)) (junk : List V) (i : Nat) :
    (s.optimize spoil o F g copy junk p r).1.mem.read n i = s.mem.read n i := by
  have key : ∀ (p : Prog V W) {s : State V T}, s.mem.arr n = some v → s.mem.arr r = some u →
      (State.runProg spoil o F g r p s).1.mem.read n i = s.mem.read n i := by
    intro p
    induction p with
    | done x => exact fun hv hu => setArray_elsewhere hv hu hne o x i
    | ask c k ih =>
      intro s hv hu
      have h1 := (setArray_arr (spoil := spoil) o s r c.point).2
      simp only [State.runProg]
      rw [ih _ (by rw [h1]; exact hv) (by rw [h1]; exact hu), setArray_elsewhere hv hu hne]
  simp only [State.optimize]
  split
  · rfl
  · exact key _ hv hu

/-- **C91.** Optimising the loaded model leaves every `Param` that existed as it was, and optimising any model that
existed leaves the loaded one as it was saved. -/
theorem load_apart {o : Ops V T} {F : List V → W} {g : List V → List V} {s t : State V T} (h : Path spoil s) {x r : Id}
    (m : s.Model x) {refs : Id → List Id} (hr : s.heap.Refs refs) {own : Id → Bool}
    (hl : s.load spoil own refs x = some (t, r)) (p : List V → Prog V W) (copy : Option (List V)) (junk : List V) :
    (∀ n, n < s.heap.next → s.heap.leaf n = true → ∀ i, i < s.heap.size n →
      (t.optimize spoil o F g copy junk p r).1.mem.read n i = s.mem.read n i) ∧
    ∀ x', s.Model x' → ∀ y, Anc s.heap.toGraph x y → s.heap.leaf y = true → ∀ i, i < s.heap.size y →
      (t.optimize spoil o F g copy junk p x').1.mem.read (s.heap.copyOf x y) i = s.mem.read y i := by
  have hl' := hl
  obtain ⟨t', e, L⟩ := load_loadMem (spoil := spoil) h.reach.heap.wf h.reach.linked h.reach.bounded hr m.lt m.root own
  rw [hl] at e
  cases e
  have w := h.reach.heap.wf
  have sk := w.skel
  have zero : ∀ {q : Id} {q' : State V T}, q'.heap.size q = 0 → (q'.optimize spoil o F g copy junk p q).1 = q' := by
    intro q q' h0
    simp only [State.optimize]
    rw [if_pos (by simp [h0])]
  have old : ∀ n, n < s.heap.next → Settled s.heap n → 0 < s.heap.size n →
      ∃ v, t.mem.arr n = some v ∧ v.buf < s.mem.next := by
    intro n hn hd hi
    obtain ⟨b, q, hc⟩ := settled_calm w h.reach.linked hn hd
    have h1 := (hc n 0 .refl hi).1
    exact ⟨_, (L.old n hn).trans h1, h.reach.bounded n _ h1⟩
  have new : ∀ y, Anc s.heap.toGraph x y → 0 < s.heap.size y →
      ∃ v, t.mem.arr (s.heap.copyOf x y) = some v ∧ s.mem.next ≤ v.buf := by
    intro y hy hi
    obtain ⟨b, q, hc⟩ := L.calm y hy
    have h1 := hc y 0 .refl hi
    exact ⟨_, h1, L.fresh y _ hy h1⟩
  have ct := Heap.copied_shape w L.heap
  constructor
  · intro n hn hln i hi
    rw [← load_keeps_values h.reach hr m.lt m.root hl' hn (.inl hln) hi]
    by_cases h0 : s.heap.size x = 0
    · rw [zero (by rw [← Heap.copyOf_self s.heap x, ct.size x .refl]; exact h0)]
    · obtain ⟨v, hv, hvb⟩ := old n hn (.inl hln) (by omega)
      obtain ⟨u, hu, hub⟩ := new x .refl (by omega)
      rw [Heap.copyOf_self] at hu
      exact optimize_elsewhere hv hu (by omega) p copy junk i
  · intro x' m' y hy hly i hi
    rw [← L.values y hy hly i hi]
    by_cases h0 : s.heap.size x' = 0
    · have : t.heap.size x' = s.heap.size x' := by
        have hg : t.heap.toGraph.size x' = (s.heap.rawCopy x).toGraph.size x' := by rw [L.heap.graph]
        exact hg.trans (Heap.lift_old _ _ m'.lt)
      rw [zero (by rw [this]; exact h0)]
    · obtain ⟨v, hv, hvb⟩ := old x' m'.lt (.inr m'.done) (by omega)
      obtain ⟨u, hu, hub⟩ := new y hy (by omega)
      exact optimize_elsewhere hu hv (by omega) p copy junk i

/-! ### A concrete file -/

/-- The model `seen`, saved and loaded; here every array owns its memory. -/
def seenAgain : State Nat Nat :=
  ((seen.load demoSpoil (fun _ => true) seen.heap.attrs 0).map (·.1)).getD seen

example : (∃ r, seen.load demoSpoil (fun _ => true) seen.heap.attrs 0 = some (seenAgain, r)) ∧ seen.Model 0 ∧
    (seenAgain.optimize demoSpoil plusOps List.sum (List.map (fun _ => 3)) none [] twoSteps
      (seen.heap.copyOf 0 0)).1.values (seen.heap.copyOf 0 0) = [7, 8, 27, 31, 29, 37, 47, 48] ∧
    (seenAgain.optimize demoSpoil plusOps List.sum (List.map (fun _ => 3)) none [] twoSteps
      (seen.heap.copyOf 0 0)).1.values 0 = [10, 11, 30, 31, 32, 40, 50, 51] := by
  obtain ⟨t, e, -⟩ := load_values seen_path.reach (Heap.attrs_refs seen.heap) (fun _ => true)
    (x := 0) (by decide +kernel) (by decide +kernel)
  exact ⟨⟨_, by rw [seenAgain, e]; rfl⟩, modelB (by decide +kernel), by decide +kernel, by decide +kernel⟩

end State

end Paramz.Memory

import Verif.Mem.SheetLemmas
import Verif.Mem.TwinsProps

/-!
# C93: a model behaves like the list of its parameters
-/

set_option linter.unusedSectionVars false

namespace Paramz.Memory

open Hier (Id Graph Heap Con upd upd_same upd_ne)
open Hier.Heap (Target Hits)
open Hier.Graph (Skel Sized At Anc)
open Opt (Ops flattened)
open Print (InOrder)

variable {V T W : Type} [DecidableEq T] {spoil : Nat → Nat → V}

/-! ### Which calls -/

/-- `optimizer_array` has been looked at since the last change that was announced, and since then a constraint was
removed, of which nobody is told (C32). -/
structure Notes where
  read : Bool
  due : Bool
deriving DecidableEq

/-- The notes after a call. -/
def Notes.next (n : Notes) (S : Sheet V T) : Deed Target V T W → Notes
  | .unconstrain _ ts => ⟨n.read, n.due || (n.read && decide (ts ≠ [.fixed]))⟩
  | .unfix _ => n
  | .values => n
  | .read => ⟨true, n.due⟩
  | .optimize _ => if S.flatten.all (·.fixed) then n else ⟨false, false⟩
  | _ => ⟨false, false⟩

/-- `x` is an initialised object of the model `r`, or a part of one of its `Param`s. -/
def Inside (h : Heap T) (r : Id) (x : Target) : Prop :=
  x.OK h ∧ Anc h.toGraph r x.obj ∧ Settled h x.obj

/-- Calls inside the model. What is assigned to a `Param`, or to the optimiser's array, has the right length, and so have
the points that an optimiser asks for. The array is not looked at while removed constraints are unannounced. -/
def Deed.Fits (h : Heap T) (r : Id) (S : Sheet V T) (n : Notes) : Deed Target V T W → Prop
  | .assign x _ => Inside h r x
  | .put x vs => Inside h r x ∧ h.leaf x.obj = true ∧ x.part = none ∧ vs.length = h.size x.obj
  | .constrain x _ => Inside h r x
  | .unconstrain x _ => Inside h r x
  | .fix x => Inside h r x
  | .unfix x => Inside h r x
  | .values => True
  | .read => n.due = false
  | .set p => p.length = Sheet.free S
  | .optimize p => n.due = false ∧ ∀ x, x.length = Sheet.free S → (p x).Fits (Sheet.free S)

/-- Many calls, each fitting the sheet that the calls before it leave. -/
def AllFit (o : Ops V T) (F : List V → W) (g : List V → List V) (h : Heap T) (r : Id) :
    List (Deed Target V T W) → Sheet V T → Notes → Prop
  | [], _, _ => True
  | d :: ds, S, n => d.Fits h r S n ∧ AllFit o F g h r ds (S.exec o F g (d.map (spots h.toGraph r))).1 (n.next S d)

/-! ### One call -/

namespace State

theorem SameObjs.inside {h h' : Heap T} (e : SameObjs h h') {r : Id} {x : Target} (i : Inside h r x) : Inside h' r x :=
  ⟨e.ok i.1, by rw [e.graph]; exact i.2.1, e.settled i.2.2⟩

theorem SameObjs.fits {h h' : Heap T} (e : SameObjs h h') {r : Id} {S : Sheet V T} {n : Notes} {d : Deed Target V T W}
    (hd : d.Fits h r S n) : d.Fits h' r S n := by
  cases d with
  | put x vs =>
    refine ⟨e.inside hd.1, ?_, hd.2.2.1, ?_⟩
    · show h'.toGraph.leaf x.obj = true; rw [e.graph]; exact hd.2.1
    · show _ = h'.toGraph.size x.obj; rw [e.graph]; exact hd.2.2.2
  | assign x v => exact e.inside hd
  | constrain x t => exact e.inside hd
  | unconstrain x ts => exact e.inside hd
  | fix x => exact e.inside hd
  | unfix x => exact e.inside hd
  | values => exact hd
  | read => exact hd
  | set p => exact hd
  | optimize p => exact hd

/-- What every call that changes the cells of a place does to the sheet of any model `r`. -/
structure Changes (spoil : Nat → Nat → V) (s s' : State V T) (x : Target) (φ : Nat → Cell V T → Cell V T) : Prop where
  path : Path spoil s'
  shape : SameObjs s.heap s'.heap
  cells : ∀ y i c, y < s.heap.next → s.heap.leaf y = true → i < s.heap.size y → s.IsCell y i c →
    (Hits s.heap x y i → s'.IsCell y i (φ i c)) ∧ (¬ Hits s.heap x y i → s'.IsCell y i c)

theorem Changes.sheet {s s' : State V T} (h : Path spoil s) {x : Target} (ok : x.OK s.heap)
    {φ : Nat → Cell V T → Cell V T} (hc : Changes spoil s s' x φ) {r : Id} (hr : r < s.heap.next) {S : Sheet V T}
    (hS : s.IsSheet r S) : s'.IsSheet r (S.change (spots s.heap.toGraph r x) φ) := by
  refine hS.change hc.shape (fun q y i c hq hi hcell => ?_)
  obtain ⟨hy, hl, -⟩ := flattened_spec h hr hq
  obtain ⟨h1, h2⟩ := hc.cells y i c hy hl hi hcell
  have hh := hits_spots h.reach.heap ok hq hi
  by_cases hx : spots s.heap.toGraph r x q i = true
  · rw [if_pos hx]; exact h1 (hh.mpr hx)
  · rw [if_neg hx]; exact h2 (fun hn => hx (hh.mp hn))

theorem changes_assign {s : State V T} (h : Path spoil s) {x : Target} (ok : x.OK s.heap) (hs : Settled s.heap x.obj)
    (v : V) : Changes spoil s (s.assignAll spoil x.obj ((x.index s.heap).map (fun i => (i, v)))) x
      (fun _ c => { c with val := v }) := by
  obtain ⟨h1, h2, h3⟩ := assign_index h ok hs (fun _ => v)
  refine ⟨h1, .of_eq h2, fun y i c hy hl hi hc => ?_⟩
  obtain ⟨k1, k2⟩ := h3 y i hl hy hi
  constructor
  · intro hh
    obtain ⟨k, -, hk⟩ := k1 hh
    exact ⟨hk.symm, by rw [h2]; exact hc.fixed, fun t => by rw [h2]; exact hc.tr t⟩
  · intro hh
    exact ⟨by rw [k2 hh]; exact hc.val, by rw [h2]; exact hc.fixed, fun t => by rw [h2]; exact hc.tr t⟩

theorem changes_put {s : State V T} (h : Path spoil s) {x : Id} (ok : Target.OK s.heap ⟨x, none⟩)
    (hl : s.heap.leaf x = true) {vs : List V} (hvs : vs.length = s.heap.size x) :
    Changes spoil s (s.assignAll spoil x ((List.range vs.length).zip vs)) ⟨x, none⟩
      (fun i c => { c with val := (vs[i]?).getD c.val }) := by
  have w := h.reach.heap.wf
  have hb : ∀ e ∈ (List.range vs.length).zip vs, e.1 < s.heap.size x := by
    intro e he
    have := List.mem_range.mp (List.of_mem_zip he).1
    omega
  obtain ⟨hp, key⟩ := assignAll_seen (x := x) _ h ok.lt (.inl hl) hb
  have hh := assignAll_heap spoil x ((List.range vs.length).zip vs) s
  refine ⟨hp, .of_eq hh, fun y i c hy hly hi hc => ?_⟩
  rw [Heap.hits_object h.reach.heap hi]
  obtain ⟨k1, k2⟩ := key y i hly hy hi
  constructor
  · intro ha
    have e := anc_leaf w.skel hl ha
    subst e
    have hi' : i < vs.length := by omega
    have hin : (0 + i, vs[i]) ∈ (List.range vs.length).zip vs := by
      rw [List.mem_iff_getElem]
      exact ⟨i, by simpa using hi', by simp⟩
    obtain ⟨k, v, a1, a2, a3⟩ := k1 ⟨0, _, .refl, hin⟩
    have e0 := w.skel.at_unique a1 .refl
    subst e0
    obtain ⟨j, hj, e⟩ := List.mem_iff_getElem.mp a2
    simp only [List.getElem_zip, List.getElem_range, Prod.mk.injEq] at e
    obtain ⟨e1, rfl⟩ := e
    have e2 : j = i := by omega
    subst e2
    refine ⟨?_, by rw [hh]; exact hc.fixed, fun t => by rw [hh]; exact hc.tr t⟩
    show (vs[j]?).getD c.val = _
    rw [List.getElem?_eq_getElem hi', a3]
    rfl
  · intro hn
    refine ⟨?_, by rw [hh]; exact hc.fixed, fun t => by rw [hh]; exact hc.tr t⟩
    rw [k2 (fun ⟨k, v, a1, _⟩ => hn (a1.anc w.skel))]
    exact hc.val

/-- A call that changes constraints only. -/
theorem changes_cons {s : State V T} {x : Target} {e : Heap.Ev T} {h' : Heap T} (p : Path spoil (s.exec spoil (.heap e)).1)
    (he : (s.exec spoil (.heap e)).1 = { s with heap := h' }) (sm : Heap.Same s.heap h')
    {φ : Cell V T → Cell V T} (hv : ∀ c, (φ c).val = c.val)
    (hx : ∀ y i c, y < s.heap.next → s.heap.leaf y = true → i < s.heap.size y → s.IsCell y i c →
      (Hits s.heap x y i → ((φ c).fixed = true ↔ i ∈ h'.constraints y .fixed) ∧
        ∀ t, (φ c).tr = some t ↔ i ∈ h'.constraints y (.tr t)) ∧
      (¬ Hits s.heap x y i → ∀ u, i ∈ h'.constraints y u ↔ i ∈ s.heap.constraints y u)) :
    Changes spoil s (s.exec spoil (.heap e)).1 x (fun _ c => φ c) := by
  refine ⟨p, by rw [he]; exact .of_same sm, fun y i c hy hl hi hc => ?_⟩
  rw [he]
  obtain ⟨h1, h2⟩ := hx y i c hy hl hi hc
  refine ⟨fun hh => ⟨(hv c).trans hc.val, (h1 hh).1, (h1 hh).2⟩, fun hh => ⟨hc.val, ?_, fun t => ?_⟩⟩
  · exact hc.fixed.trans (h2 hh _).symm
  · exact (hc.tr t).trans (h2 hh _).symm

theorem changes_fix {s : State V T} (h : Path spoil s) {x : Target} (ok : x.OK s.heap) :
    Changes spoil s (s.exec spoil (.heap (.fix x))).1 x (fun _ c => { c with fixed := true }) := by
  refine changes_cons (e := .fix x) (h' := s.heap.fix x) (φ := fun c => { c with fixed := true }) (.step h ok trivial) rfl
    (Heap.fix_same h.reach.heap ok) (fun _ => rfl) (fun y i c hy hl hi hc => ?_)
  have key := fun u => Heap.fix_exact h.reach.heap ok hy hl hi u
  refine ⟨fun hh => ⟨?_, fun t => ?_⟩, fun hh u => ?_⟩
  · rw [key]; simp [hh]
  · rw [key]; simp [hc.tr]
  · rw [key]; simp [hh]

theorem changes_unfix {s : State V T} (h : Path spoil s) {x : Target} (ok : x.OK s.heap) :
    Changes spoil s (s.exec spoil (.heap (.unfix x))).1 x (fun _ c => { c with fixed := false }) := by
  refine changes_cons (e := .unfix x) (h' := s.heap.unfix x) (φ := fun c => { c with fixed := false }) (.step h ok trivial) rfl
    (Heap.unfix_same h.reach.heap ok) (fun _ => rfl) (fun y i c hy hl hi hc => ?_)
  have key := fun u => Heap.unfix_exact h.reach.heap ok hy hl hi u
  refine ⟨fun hh => ⟨?_, fun t => ?_⟩, fun hh u => ?_⟩
  · rw [key]; simp [hh]
  · rw [key]; simp [hc.tr]
  · rw [key]; simp [hh]

theorem changes_unconstrain {s : State V T} (h : Path spoil s) {x : Target} (ok : x.OK s.heap) (ts : List (Con T)) :
    Changes spoil s (s.exec spoil (.heap (.unconstrain x ts))).1 x (fun _ c => c.drop ts) := by
  refine changes_cons (e := .unconstrain x ts) (h' := s.heap.unconstrain x ts) (φ := fun c => c.drop ts) (.step h ok trivial) rfl
    ((Heap.constraining_wf h.reach.heap.wf ok).2.1 ts).2 (fun _ => rfl) (fun y i c hy hl hi hc => ?_)
  have key := fun u => Heap.unconstrain_exact h.reach.heap ok ts hy hl hi u
  refine ⟨fun hh => ⟨?_, fun t => ?_⟩, fun hh u => ?_⟩
  · rw [key, ← hc.fixed]; simp [hh, Cell.drop]
  · rw [key, ← hc.tr]; simp [hh, Cell.drop, Option.filter_eq_some_iff]
  · rw [key]; simp [hh]

theorem changes_constrain {s : State V T} (h : Path spoil s) {x : Target} (ok : x.OK s.heap) (hs : Settled s.heap x.obj)
    (init : T → V → V) (t : T) : Changes spoil s (s.constrainInit spoil init x t) x
      (fun _ c => ⟨init t c.val, some t, false⟩) := by
  obtain ⟨h1, h2, h3⟩ := assign_index h ok hs (fun i => init t (s.mem.read x.obj i))
  generalize hs1 : s.assignAll spoil x.obj ((x.index s.heap).map (fun i => (i, init t (s.mem.read x.obj i)))) = s1 at *
  have e0 : s.constrainInit spoil init x t = (s1.exec spoil (.heap (.constrain x (.tr t)))).1 := by
    unfold constrainInit; rw [hs1]
  have ok1 : x.OK s1.heap := by rw [h2]; exact ok
  have e1 : (s1.exec spoil (.heap (.constrain x (.tr t)))).1 = { s1 with heap := s1.heap.constrain x (.tr t) } := rfl
  rw [e0]
  refine ⟨.step h1 ok1 trivial, ?_, fun y i c hy hl hi hc => ?_⟩
  · rw [e1]
    refine SameObjs.trans (.of_eq h2) (.of_same ((Heap.constraining_wf h1.reach.heap.wf ok1).1 (.tr t)).2)
  · rw [e1]
    have key := fun u => Heap.constrain_exact h.reach.heap ok t hy hl hi u
    obtain ⟨k1, k2⟩ := h3 y i hl hy hi
    constructor
    · intro hh
      obtain ⟨k, hk, hv⟩ := k1 hh
      refine ⟨?_, ?_, fun u => ?_⟩
      · show init t c.val = s1.mem.read y i
        rw [hv, read_settled h ok.lt hs hk hi, hc.val]
      · show _ ↔ i ∈ (s1.heap.constrain x (.tr t)).constraints y .fixed
        rw [h2, (key _).1 hh]; simp
      · show _ ↔ i ∈ (s1.heap.constrain x (.tr t)).constraints y (.tr u)
        rw [h2, (key _).1 hh]
        simp [eq_comm]
    · intro hh
      refine ⟨?_, ?_, fun u => ?_⟩
      · show c.val = s1.mem.read y i
        rw [k2 hh, hc.val]
      · show _ ↔ i ∈ (s1.heap.constrain x (.tr t)).constraints y .fixed
        rw [h2, (key _).2 hh, hc.fixed]
      · show _ ↔ i ∈ (s1.heap.constrain x (.tr t)).constraints y (.tr u)
        rw [h2, (key _).2 hh, hc.tr]

end State

/-! ### The optimiser's copy -/

namespace Box

open State

theorem ready {b : Box V T} {r : Id} (h : Path spoil b.st) (m : b.st.Model r) : Opt.Ready (b.opt r) where
  reach := h.reach.heap
  lt := m.lt
  vals := by simp [opt, State.values, Opt.State.size]
  root := m.root
  node := m.node
  inInit := m.done.1
  inited := m.done.2

/-- What the notes say about the optimiser's copy. -/
structure Noted (o : Ops V T) (b : Box V T) (r : Id) (n : Notes) : Prop where
  read : b.fresh = true → n.read = true
  good : n.due = false → Opt.Coherent o (b.opt r)

theorem Noted.told {o : Ops V T} {b : Box V T} {r : Id} (s : State V T) : Noted o (b.told s) r ⟨false, false⟩ :=
  ⟨(fun h => by cases h), (fun _ h => by cases h)⟩

theorem read_st {o : Ops V T} {b : Box V T} {r : Id} (h : Path spoil b.st) (m : b.st.Model r) (junk : List V) :
    (b.read o junk r).1.st = b.st ∧ (b.read o junk r).1.fresh = true ∧
      (b.read o junk r).1.opt r = ((b.opt r).readOpt o junk).1 := by
  have e := Opt.readOpt_state (o := o) (ready (b := b) h m) junk
  have e1 : ((b.opt r).readOpt o junk).1.heap = b.st.heap := by rw [e]; rfl
  have e2 : (b.read o junk r).1.st = b.st := by
    show ({ b.st with heap := ((b.opt r).readOpt o junk).1.heap } : State V T) = b.st
    rw [e1]
  refine ⟨e2, by show ((b.opt r).readOpt o junk).1.fresh = true; rw [e], ?_⟩
  unfold opt
  rw [e2]
  show (⟨b.st.heap, r, b.st.values r, [], ((b.opt r).readOpt o junk).1.copy, ((b.opt r).readOpt o junk).1.fresh, true⟩ :
    Opt.State V T) = _
  rw [show ((⟨b.st.heap, r, b.st.values r, [], b.copy, b.fresh, true⟩ : Opt.State V T)) = b.opt r from rfl, e]
  rfl

theorem read_sheet {o : Ops V T} {b : Box V T} {r : Id} (h : Path spoil b.st) (m : b.st.Model r) {S : Sheet V T}
    (hS : b.st.IsSheet r S) (hc : Opt.Coherent o (b.opt r)) (junk : List V) : (b.read o junk r).2 = S.outs o :=
  hS.outs h m (e := b.opt r) rfl rfl rfl (Opt.readOpt_lists (ready h m) hc junk)

theorem quiet_opt {b : Box V T} {r : Id} {s : State V T} (hm : s.mem = b.st.mem) (e : SameObjs b.st.heap s.heap) :
    (b.quiet s).opt r = { b.opt r with heap := s.heap } := by
  unfold opt quiet
  have : s.values r = b.st.values r := by
    unfold State.values
    rw [hm, show s.heap.size r = b.st.heap.size r by
      show s.heap.toGraph.size r = b.st.heap.toGraph.size r; rw [e.graph]]
  rw [this]

/-- The invariant. -/
structure Holds (spoil : Nat → Nat → V) (o : Ops V T) (h0 : Heap T) (r : Id) (b : Box V T) (S : Sheet V T) (n : Notes) :
    Prop where
  path : Path spoil b.st
  shape : SameObjs h0 b.st.heap
  model : b.st.Model r
  sheet : b.st.IsSheet r S
  noted : Noted o b r n

theorem Holds.change {o : Ops V T} {h0 : Heap T} {r : Id} {b b' : Box V T} {S : Sheet V T} {n n' : Notes}
    (i : Holds spoil o h0 r b S n) {x : Target} {φ : Nat → Cell V T → Cell V T} (ok : x.OK b.st.heap)
    (hc : Changes spoil b.st b'.st x φ) (hn : Noted o b' r n') :
    Holds spoil o h0 r b' (S.change (spots h0.toGraph r x) φ) n' := by
  refine ⟨hc.path, i.shape.trans hc.shape, hc.shape.model i.model, ?_, hn⟩
  rw [← i.shape.graph]
  exact hc.sheet i.path ok i.model.lt i.sheet

theorem nothing_to_do {s : State V T} (h : Path spoil s) {r : Id} (m : s.Model r) {S : Sheet V T} (hS : s.IsSheet r S) :
    (s.heap.isFixed r || decide (s.heap.size r = 0)) = S.flatten.all (·.fixed) := by
  have w := h.reach.heap.wf
  have hf := hS.flat h m
  rw [Bool.eq_iff_iff, Bool.or_eq_true, decide_eq_true_eq, List.all_eq_true, Heap.isFixed_iff h.reach.heap m.lt]
  constructor
  · intro hh c hc
    obtain ⟨i, hi⟩ := List.getElem?_of_mem hc
    have hlt : i < s.heap.size r := by rw [← hf.1]; exact (List.getElem?_eq_some_iff.mp hi).1
    rcases hh with hh | hh
    · rw [(hf.2 i c hi).fixed]
      obtain ⟨y, n, hy, hl, h1, h2⟩ := w.skel.exists_leaf w.sized r i hlt
      have e1 : s.heap.toGraph.size y = s.heap.size y := rfl
      obtain ⟨j, rfl⟩ : ∃ j, i = n + j := ⟨i - n, by omega⟩
      rw [cons_at h.reach.heap m.lt hl hy (by omega)]
      exact hh y (hy.anc w.skel) hl j (by omega)
    · omega
  · intro hh
    refine .inl (fun y ha hl k hk => ?_)
    obtain ⟨n, hn⟩ := w.skel.exists_at ha
    have hw := hn.window w.skel w.sized
    have e1 : s.heap.toGraph.size y = s.heap.size y := rfl
    have e2 : s.heap.toGraph.size r = s.heap.size r := rfl
    obtain ⟨c, hc, hcell⟩ := hf.get (i := n + k) (by omega)
    rw [← cons_at h.reach.heap m.lt hl hn hk, ← hcell.fixed]
    exact hh c (List.mem_of_getElem? hc)

theorem step {o : Ops V T} {F : List V → W} {g : List V → List V} (hg : ∀ v, (g v).length = v.length) {h0 : Heap T}
    {r : Id} {b : Box V T} {S : Sheet V T} {n : Notes} (i : Holds spoil o h0 r b S n) (junk : List V)
    {d : Deed Target V T W} (hd : d.Fits h0 r S n) :
    (b.exec spoil o F g junk r d).2 = (S.exec o F g (d.map (spots h0.toGraph r))).2 ∧
    Holds spoil o h0 r (b.exec spoil o F g junk r d).1 (S.exec o F g (d.map (spots h0.toGraph r))).1 (n.next S d) := by
  have hd := i.shape.fits hd
  cases d with
  | assign x v => exact ⟨rfl, i.change hd.1 (changes_assign i.path hd.1 hd.2.2 v) (.told _)⟩
  | put x vs =>
    obtain ⟨obj, part⟩ := x
    obtain ⟨h1, h2, h3, h4⟩ := hd
    dsimp only at h3
    subst h3
    exact ⟨rfl, i.change h1.1 (changes_put i.path h1.1 h2 h4) (.told _)⟩
  | constrain x t => exact ⟨rfl, i.change hd.1 (changes_constrain i.path hd.1 hd.2.2 o.init t) (.told _)⟩
  | fix x => exact ⟨rfl, i.change hd.1 (changes_fix i.path hd.1) (.told _)⟩
  | unfix x =>
    refine ⟨rfl, i.change hd.1 (changes_unfix i.path hd.1) ⟨i.noted.read, fun hn => ?_⟩⟩
    have hc := Opt.exec_coherent (o := o) (g := g) (ready i.path i.model) (e := .unfix x) ⟨hd.1, hd.2.1⟩
      (b := false) (fun _ => i.noted.good hn) rfl
    have e := quiet_opt (b := b) (r := r) (s := (b.st.exec spoil (.heap (.unfix x))).1) rfl
      (changes_unfix i.path hd.1).shape
    show Opt.Coherent o ((b.quiet _).opt r)
    rw [e]
    exact hc
  | unconstrain x ts =>
    refine ⟨rfl, i.change hd.1 (changes_unconstrain i.path hd.1 ts) ⟨i.noted.read, fun hn => ?_⟩⟩
    simp only [Notes.next, Bool.or_eq_false_iff] at hn
    have e := quiet_opt (b := b) (r := r) (s := (b.st.exec spoil (.heap (.unconstrain x ts))).1) rfl
      (changes_unconstrain i.path hd.1 ts).shape
    show Opt.Coherent o ((b.quiet _).opt r)
    by_cases hr : n.read = true
    · have ht : ts = [.fixed] := by
        have := hn.2
        rw [hr, Bool.true_and, decide_eq_false_iff_not, not_not] at this
        exact this
      have hc := Opt.exec_coherent (o := o) (g := g) (ready i.path i.model) (e := .unconstrain x ts) ⟨hd.1, hd.2.1⟩
        (b := false) (fun _ => i.noted.good hn.1) (by simp [Opt.unannounced, ht])
      rw [e]
      exact hc
    · intro hf
      exact absurd (i.noted.read hf) hr
  | values => exact ⟨congrArg Shown.array (i.sheet.vals i.path i.model), i⟩
  | read =>
    obtain ⟨r1, r2, r3⟩ := read_st (o := o) (b := b) i.path i.model junk
    refine ⟨congrArg Shown.array (read_sheet i.path i.model i.sheet (i.noted.good hd) junk), ?_⟩
    show Holds spoil o h0 r (b.read o junk r).1 S ⟨true, n.due⟩
    refine ⟨by rw [r1]; exact i.path, by rw [r1]; exact i.shape, by rw [r1]; exact i.model, by rw [r1]; exact i.sheet,
      fun _ => rfl, fun hn => ?_⟩
    rw [r3]
    exact Opt.exec_coherent (o := o) (g := g) (ready i.path i.model) (e := .read junk) trivial (b := false)
      (fun _ => i.noted.good hn) rfl
  | set p =>
    have h1 := setArray_within (o := o) i.path i.model (hd.trans i.sheet.free)
    exact ⟨rfl, h1.path, i.shape.trans (.of_eq h1.heap), h1.model i.model, i.sheet.fill i.path i.model hd, .told _⟩
  | optimize p =>
    have hno := nothing_to_do i.path i.model i.sheet
    simp only [exec, Deed.map, Sheet.exec, Notes.next]
    rw [hno]
    by_cases ha : S.flatten.all (·.fixed) = true
    · rw [if_pos ha, if_pos ha, if_pos ha]
      exact ⟨rfl, i⟩
    · rw [if_neg ha, if_neg ha, if_neg ha]
      obtain ⟨r1, -, -⟩ := read_st (o := o) (b := b) i.path i.model junk
      have r2 := read_sheet i.path i.model i.sheet (i.noted.good hd.1) junk
      have hlen : (S.outs o).length = Sheet.free S := by
        rw [← r2]
        show ((b.opt r).readOpt o junk).2.length = _
        rw [(Opt.readOpt_lists (ready i.path i.model) (i.noted.good hd.1) junk).2.1, i.sheet.free,
          ← readArray_length (o := o) i.path i.model none junk]
        exact (Opt.read_lists_free o (i.model.ready i.path none) rfl junk).2.1.symm
      obtain ⟨e1, e2, e3, e4⟩ := i.sheet.run (o := o) (F := F) hg (p (S.outs o)) i.path i.model (hd.2 _ hlen)
      rw [r1, r2]
      refine ⟨by rw [e1], e3, ?_, ?_, e2, .told _⟩
      · exact i.shape.trans (.of_eq e4)
      · exact (SameObjs.of_eq e4).model i.model

theorem execs_sheet {o : Ops V T} {F : List V → W} {g : List V → List V} (hg : ∀ v, (g v).length = v.length) {h0 : Heap T}
    {r : Id} (junk : List V) : ∀ (ds : List (Deed Target V T W)) {b : Box V T} {S : Sheet V T} {n : Notes},
    Holds spoil o h0 r b S n → AllFit o F g h0 r ds S n →
    (b.execs spoil o F g junk r ds).2 = (S.execs o F g (ds.map (Deed.map (spots h0.toGraph r)))).2 ∧
    ∃ n', Holds spoil o h0 r (b.execs spoil o F g junk r ds).1
      (S.execs o F g (ds.map (Deed.map (spots h0.toGraph r)))).1 n'
  | [], b, S, n, i, _ => ⟨rfl, n, i⟩
  | d :: ds, b, S, n, i, hd => by
    obtain ⟨e1, i1⟩ := step (F := F) hg i junk hd.1
    obtain ⟨e2, n', i2⟩ := execs_sheet hg junk ds i1 hd.2
    simp only [execs, List.map_cons, Sheet.execs]
    exact ⟨by rw [e1, e2], n', i2⟩

/-! ### C93 -/

/-- **C93.** Whatever calls are made on a model and on what is inside it: the values, the optimiser's array, and what an
optimiser is answered are what the list of the elements of the `Param`s shows, and afterwards this list is what the same
calls make of it. Nodes, arrays, masks and views are of no influence. Missing for the full claim: looking at the array
after constraints were removed and nothing was announced (`sheet_stale_fails`), parts that are copies, updates that are
off, and evaluations that raise. -/
theorem model_is_sheet_partial {o : Ops V T} {F : List V → W} {g : List V → List V} (hg : ∀ v, (g v).length = v.length)
    {b : Box V T} {r : Id} (h : Path spoil b.st) (m : b.st.Model r) (hf : b.fresh = false) {S : Sheet V T}
    (hS : b.st.IsSheet r S) {ds : List (Deed Target V T W)} (hd : AllFit o F g b.st.heap r ds S ⟨false, false⟩)
    (junk : List V) :
    (b.execs spoil o F g junk r ds).2 = (S.execs o F g (ds.map (Deed.map (spots b.st.heap.toGraph r)))).2 ∧
    (b.execs spoil o F g junk r ds).1.st.IsSheet r
      (S.execs o F g (ds.map (Deed.map (spots b.st.heap.toGraph r)))).1 := by
  obtain ⟨e, n, i⟩ := execs_sheet (spoil := spoil) hg junk ds (h0 := b.st.heap) (b := b) ⟨h, .refl _, m, hS,
    (fun hb => by rw [hf] at hb; cases hb), (fun _ hb => by rw [show (b.opt r).fresh = b.fresh from rfl, hf] at hb; cases hb)⟩ hd
  exact ⟨e, i.sheet⟩

/-! ### Other models -/

theorem spots_other {h : Heap T} (hr : Heap.Reach h) {r r2 : Id} (h1 : h.parent r = none) (h2 : h.parent r2 = none)
    (hne : r2 ≠ r) {x : Target} (hx : Anc h.toGraph r x.obj) (q i : Nat) : spots h.toGraph r2 x q i = false := by
  have w := hr.wf
  rw [← Bool.not_eq_true]
  intro hs
  have key : ∃ y, Anc h.toGraph r2 y ∧ Anc h.toGraph x.obj y := by
    unfold spots at hs
    split at hs
    · cases hs
    · rename_i y hy _
      have ha := ((Print.flattened_inOrder w.skel w.sized r2).all y).mp (List.mem_of_getElem? hy)
      exact ⟨y, ha.1, (((Print.flattened_inOrder w.skel w.sized x.obj).all y).mp (of_decide_eq_true hs)).1⟩
    · rename_i y a hy _
      have ha := ((Print.flattened_inOrder w.skel w.sized r2).all y).mp (List.mem_of_getElem? hy)
      refine ⟨y, ha.1, ?_⟩
      rw [(of_decide_eq_true hs).1]
      exact .refl
  obtain ⟨y, a1, a2⟩ := key
  exact hne ((w.skel.highest_eq h2 a1).symm.trans (w.skel.highest_eq h1 (hx.trans a2)))

theorem change_none {w : Spots} (hw : ∀ q i, w q i = false) (φ : Nat → Cell V T → Cell V T) (S : Sheet V T) :
    S.change w φ = S := by
  unfold Sheet.change
  have : ∀ q, (fun (i : Nat) (c : Cell V T) => if w q i then φ i c else c) = fun _ c => c := fun q => by
    funext i c
    rw [hw, if_neg (by simp)]
  simp only [this]
  apply List.ext_getElem?
  intro q
  rw [List.getElem?_mapIdx]
  cases S[q]? with
  | none => rfl
  | some P =>
    rw [Option.map_some]
    congr 1
    apply List.ext_getElem?
    intro i
    rw [List.getElem?_mapIdx]
    cases P[i]? <;> rfl

theorem within_other {s s' : State V T} (h : Path spoil s) {r r2 : Id} (m : s.Model r) (hw : State.Within spoil s s' r)
    (lt2 : r2 < s.heap.next) (h2 : s.heap.parent r2 = none) (hne : r2 ≠ r) {S : Sheet V T} (hS : s.IsSheet r2 S) :
    s'.IsSheet r2 S := by
  have w := h.reach.heap.wf
  obtain ⟨a1, a2⟩ := get_of_forall₂ hS
  unfold IsSheet
  rw [hw.heap]
  refine forall₂_of_get a1 (fun q y hq => ?_)
  obtain ⟨P, hP, p1, p2⟩ := a2 q y hq
  obtain ⟨hy, hl, ha⟩ := flattened_spec h lt2 hq
  refine ⟨P, hP, by rw [hw.heap]; exact p1, fun i c hc => ?_⟩
  have hcell := p2 i c hc
  refine ⟨?_, by rw [hw.heap]; exact hcell.fixed, fun t => by rw [hw.heap]; exact hcell.tr t⟩
  rw [hcell.val, hw.others y hy hl (fun hn => ?_) i (by rw [← p1]; exact (List.getElem?_eq_some_iff.mp hc).1)]
  exact hne ((w.skel.highest_eq h2 ha).symm.trans (w.skel.highest_eq m.root hn))

theorem step_other {o : Ops V T} {F : List V → W} {g : List V → List V} {h0 : Heap T}
    {r r2 : Id} {b : Box V T} {S S2 : Sheet V T} {n : Notes} (i : Holds spoil o h0 r b S n) (junk : List V)
    {d : Deed Target V T W} (hd : d.Fits h0 r S n) (lt2 : r2 < h0.next) (h2 : h0.parent r2 = none) (hne : r2 ≠ r)
    (hS : b.st.IsSheet r2 S2) : (b.exec spoil o F g junk r d).1.st.IsSheet r2 S2 := by
  have hd := i.shape.fits hd
  have lt2 : r2 < b.st.heap.next := by show r2 < b.st.heap.toGraph.next; rw [i.shape.graph]; exact lt2
  have h2 : b.st.heap.parent r2 = none := by show b.st.heap.toGraph.parent r2 = none; rw [i.shape.graph]; exact h2
  have key : ∀ {x : Target} {φ : Nat → Cell V T → Cell V T} {s' : State V T}, Inside b.st.heap r x →
      Changes spoil b.st s' x φ → s'.IsSheet r2 S2 := by
    intro x φ s' hx hc
    have := hc.sheet i.path hx.1 lt2 hS
    rw [change_none (spots_other i.path.reach.heap i.model.root h2 hne hx.2.1)] at this
    exact this
  cases d with
  | assign x v => exact key hd (changes_assign i.path hd.1 hd.2.2 v)
  | put x vs =>
    obtain ⟨obj, part⟩ := x
    obtain ⟨h1, h2, h3, h4⟩ := hd
    dsimp only at h3
    subst h3
    exact key h1 (changes_put i.path h1.1 h2 h4)
  | constrain x t => exact key hd (changes_constrain i.path hd.1 hd.2.2 o.init t)
  | fix x => exact key hd (changes_fix i.path hd.1)
  | unfix x => exact key hd (changes_unfix i.path hd.1)
  | unconstrain x ts => exact key hd (changes_unconstrain i.path hd.1 ts)
  | values => exact hS
  | read =>
    obtain ⟨r1, -, -⟩ := read_st (o := o) (b := b) i.path i.model junk
    show (b.read o junk r).1.st.IsSheet r2 S2
    rw [r1]
    exact hS
  | set p => exact within_other i.path i.model (setArray_within i.path i.model (hd.trans i.sheet.free)) lt2 h2 hne hS
  | optimize p =>
    simp only [exec]
    split
    · exact hS
    · obtain ⟨r1, -, -⟩ := read_st (o := o) (b := b) i.path i.model junk
      have hlen : (b.read o junk r).2.length = Sheet.free S := by
        show ((b.opt r).readOpt o junk).2.length = _
        rw [(Opt.readOpt_lists (ready i.path i.model) (i.noted.good hd.1) junk).2.1, i.sheet.free,
          ← readArray_length (o := o) i.path i.model none junk]
        exact (Opt.read_lists_free o (i.model.ready i.path none) rfl junk).2.1.symm
      rw [r1]
      exact within_other i.path i.model (runProg_within _ i.path i.model (by rw [← i.sheet.free]; exact hd.2 _ hlen))
        lt2 h2 hne hS

theorem execs_other {o : Ops V T} {F : List V → W} {g : List V → List V} (hg : ∀ v, (g v).length = v.length) {h0 : Heap T}
    {r r2 : Id} (junk : List V) (lt2 : r2 < h0.next) (h2 : h0.parent r2 = none) (hne : r2 ≠ r) {S2 : Sheet V T} :
    ∀ (ds : List (Deed Target V T W)) {b : Box V T} {S : Sheet V T} {n : Notes},
    Holds spoil o h0 r b S n → AllFit o F g h0 r ds S n → b.st.IsSheet r2 S2 →
    (b.execs spoil o F g junk r ds).1.st.IsSheet r2 S2
  | [], _, _, _, _, _, hS => hS
  | _ :: ds, _, _, _, i, hd, hS =>
    execs_other hg junk lt2 h2 hne ds (step (F := F) hg i junk hd.1).2 hd.2 (step_other i junk hd.1 lt2 h2 hne hS)

/-- **C93.** Calls on one model leave the sheet of every other model as it is. -/
theorem other_sheets {o : Ops V T} {F : List V → W} {g : List V → List V} (hg : ∀ v, (g v).length = v.length)
    {b : Box V T} {r r2 : Id} (h : Path spoil b.st) (m : b.st.Model r) (m2 : b.st.Model r2) (hne : r2 ≠ r)
    (hf : b.fresh = false) {S S2 : Sheet V T} (hS : b.st.IsSheet r S) (hS2 : b.st.IsSheet r2 S2)
    {ds : List (Deed Target V T W)} (hd : AllFit o F g b.st.heap r ds S ⟨false, false⟩) (junk : List V) :
    (b.execs spoil o F g junk r ds).1.st.IsSheet r2 S2 :=
  execs_other (spoil := spoil) hg junk m2.lt m2.root hne ds ⟨h, .refl _, m, hS,
    (fun hb => by rw [hf] at hb; cases hb), (fun _ hb => by rw [show (b.opt r).fresh = b.fresh from rfl, hf] at hb; cases hb)⟩
    hd hS2

/-! ### Models with the same sheet -/

/-- **C93.** Two models with the same sheet, in the same or in different programs and however they are built: the same
calls on the same elements show the same and leave the same sheet. -/
theorem same_sheet_alike {o : Ops V T} {F : List V → W} {g : List V → List V} (hg : ∀ v, (g v).length = v.length)
    {b b' : Box V T} {r r' : Id} (h : Path spoil b.st) (h' : Path spoil b'.st) (m : b.st.Model r) (m' : b'.st.Model r')
    (hf : b.fresh = false) (hf' : b'.fresh = false) {S : Sheet V T} (hS : b.st.IsSheet r S) (hS' : b'.st.IsSheet r' S)
    {ds ds' : List (Deed Target V T W)} (hd : AllFit o F g b.st.heap r ds S ⟨false, false⟩)
    (hd' : AllFit o F g b'.st.heap r' ds' S ⟨false, false⟩)
    (he : ds'.map (Deed.map (spots b'.st.heap.toGraph r')) = ds.map (Deed.map (spots b.st.heap.toGraph r)))
    (junk junk' : List V) :
    (b'.execs spoil o F g junk' r' ds').2 = (b.execs spoil o F g junk r ds).2 ∧
    ∃ S', (b.execs spoil o F g junk r ds).1.st.IsSheet r S' ∧ (b'.execs spoil o F g junk' r' ds').1.st.IsSheet r' S' := by
  obtain ⟨e1, e2⟩ := model_is_sheet_partial (F := F) hg h m hf hS hd junk
  obtain ⟨e1', e2'⟩ := model_is_sheet_partial (F := F) hg h' m' hf' hS' hd' junk'
  rw [he] at e1' e2'
  exact ⟨e1'.trans e1.symm, _, e2, e2'⟩

/-- The place in the copy. -/
def inCopy (h : Heap T) (r : Id) (x : Target) : Target := ⟨h.copyOf r x.obj, x.part⟩

theorem flattened_copy_at {s : State V T} (h : Path spoil s) {r : Id} (ok : s.heap.CopyOK r) {y : Id}
    (hy : Anc s.heap.toGraph r y) : flattened (s.copy spoil r).1.heap.toGraph (s.heap.copyOf r y) =
      (flattened s.heap.toGraph y).map (s.heap.copyOf r) := by
  have w := h.reach.heap.wf
  obtain ⟨-, ct⟩ := Heap.copy_shape h.reach.heap ok
  have hh := (copy_heap spoil s r).1
  obtain ⟨d, hd, hb⟩ := w.skel.rank
  unfold flattened
  rw [hh, flattenedF_copy w.skel ct _ y hy]
  congr 1
  have hn : s.heap.next ≤ (s.heap.copy r).1.next := hh ▸ copy_next (spoil := spoil) h ok
  have e1 : (s.heap.copy r).1.toGraph.fuel = (s.heap.copy r).1.next + 1 := rfl
  have e2 : s.heap.toGraph.fuel = s.heap.next + 1 := rfl
  have e3 : s.heap.toGraph.next = s.heap.next := rfl
  refine Opt.flattenedF_stable w.skel hd hb _ _ y ?_ ?_
  · rw [e1, e3]; exact Nat.lt_of_lt_of_le (Nat.lt_succ_of_le hn) (Nat.le_add_right _ _)
  · rw [e2, e3]; exact Nat.lt_of_lt_of_le (Nat.lt_succ_self _) (Nat.le_add_right _ _)

theorem copy_spots {s : State V T} (h : Path spoil s) {r : Id} (ok : s.heap.CopyOK r) {x : Target}
    (hx : Anc s.heap.toGraph r x.obj) :
    spots (s.copy spoil r).1.heap.toGraph (s.heap.copyOf r r) (inCopy s.heap r x) = spots s.heap.toGraph r x := by
  have w := h.reach.heap.wf
  obtain ⟨-, ct⟩ := Heap.copy_shape h.reach.heap ok
  funext q i
  obtain ⟨obj, part⟩ := x
  unfold spots inCopy
  dsimp only at hx ⊢
  rw [flattened_copy_at h ok .refl, flattened_copy_at h ok hx, List.getElem?_map]
  cases hq : (flattened s.heap.toGraph r)[q]? with
  | none => rfl
  | some y =>
    have ha := (((Print.flattened_inOrder w.skel w.sized r).all y).mp (List.mem_of_getElem? hq)).1
    cases part with
    | none =>
      simp only [Option.map_some]
      rw [decide_eq_decide, List.mem_map]
      constructor
      · rintro ⟨z, hz, e⟩
        have hz' := (((Print.flattened_inOrder w.skel w.sized obj).all z).mp hz).1
        rw [← ct.inj z y (hx.trans hz') ha e]
        exact hz
      · exact fun hy => ⟨y, hy, rfl⟩
    | some a =>
      simp only [Option.map_some]
      rw [decide_eq_decide]
      exact and_congr_left (fun _ => ⟨fun e => ct.inj y obj ha hx e, fun e => by rw [e]⟩)

theorem copy_inside {s : State V T} (h : Path spoil s) {r : Id} (m : s.Model r) (ok : s.heap.CopyOK r) {x : Target}
    (hx : Inside s.heap r x) : Inside (s.copy spoil r).1.heap (s.heap.copyOf r r) (inCopy s.heap r x) := by
  have w := h.reach.heap.wf
  have hh := (copy_heap spoil s r).1
  obtain ⟨-, ct⟩ := Heap.copy_shape h.reach.heap ok
  obtain ⟨⟨h1, h2⟩, h3, h4⟩ := hx
  obtain ⟨c, -⟩ := Heap.copy_copied w.skel ok.lt
  obtain ⟨F, M, hB⟩ := Heap.beforeCopy_eq s.heap r
  rw [hB] at c
  have hanc : ∀ y, Anc s.heap.toGraph r y → Anc (s.heap.copy r).1.toGraph (s.heap.copyOf r r) (s.heap.copyOf r y) := by
    intro y hy
    induction hy with
    | refl => exact .refl
    | step ha hp ih => exact .step ih (ct.parent _ _ ha hp)
  rw [hh]
  refine ⟨⟨(ct.fresh _ h3).2, fun a ha => ?_⟩, hanc _ h3, ?_⟩
  · obtain ⟨k1, k2⟩ := h2 a ha
    refine ⟨(ct.leaf _ h3).trans k1, fun i hi => ?_⟩
    show i < (s.heap.copy r).1.size (s.heap.copyOf r x.obj)
    rw [ct.size _ h3]
    exact k2 i hi
  · rcases h4 with h4 | h4
    · exact .inl ((ct.leaf _ h3).trans h4)
    · exact .inr ⟨(c.inInitNew _ h3).trans h4.1, c.new m.node _ h3⟩

theorem copy_fits {s : State V T} (h : Path spoil s) {r : Id} (m : s.Model r) (ok : s.heap.CopyOK r) {S : Sheet V T}
    {n : Notes} {d : Deed Target V T W} (hd : d.Fits s.heap r S n) :
    (d.map (inCopy s.heap r)).Fits (s.copy spoil r).1.heap (s.heap.copyOf r r) S n ∧
    (d.map (inCopy s.heap r)).map (spots (s.copy spoil r).1.heap.toGraph (s.heap.copyOf r r)) =
      d.map (spots s.heap.toGraph r) ∧ n.next S (d.map (inCopy s.heap r)) = n.next S d := by
  have hh := (copy_heap spoil s r).1
  obtain ⟨-, ct⟩ := Heap.copy_shape h.reach.heap ok
  cases d with
  | assign x v => exact ⟨copy_inside h m ok hd, by simp only [Deed.map, copy_spots h ok hd.2.1], rfl⟩
  | put x vs =>
    refine ⟨⟨copy_inside h m ok hd.1, ?_, hd.2.2.1, ?_⟩, by simp only [Deed.map, copy_spots h ok hd.1.2.1], rfl⟩
    · rw [hh]; exact (ct.leaf _ hd.1.2.1).trans hd.2.1
    · rw [hh]; exact hd.2.2.2.trans (ct.size _ hd.1.2.1).symm
  | constrain x t => exact ⟨copy_inside h m ok hd, by simp only [Deed.map, copy_spots h ok hd.2.1], rfl⟩
  | unconstrain x ts => exact ⟨copy_inside h m ok hd, by simp only [Deed.map, copy_spots h ok hd.2.1], rfl⟩
  | fix x => exact ⟨copy_inside h m ok hd, by simp only [Deed.map, copy_spots h ok hd.2.1], rfl⟩
  | unfix x => exact ⟨copy_inside h m ok hd, by simp only [Deed.map, copy_spots h ok hd.2.1], rfl⟩
  | values => exact ⟨hd, rfl, rfl⟩
  | read => exact ⟨hd, rfl, rfl⟩
  | set p => exact ⟨hd, rfl, rfl⟩
  | optimize p => exact ⟨hd, rfl, rfl⟩

theorem copy_allFit {o : Ops V T} {F : List V → W} {g : List V → List V} {s : State V T} (h : Path spoil s) {r : Id}
    (m : s.Model r) (ok : s.heap.CopyOK r) : ∀ (ds : List (Deed Target V T W)) {S : Sheet V T} {n : Notes},
    AllFit o F g s.heap r ds S n →
    AllFit o F g (s.copy spoil r).1.heap (s.heap.copyOf r r) (ds.map (Deed.map (inCopy s.heap r))) S n ∧
    (ds.map (Deed.map (inCopy s.heap r))).map
      (Deed.map (spots (s.copy spoil r).1.heap.toGraph (s.heap.copyOf r r))) = ds.map (Deed.map (spots s.heap.toGraph r))
  | [], _, _, _ => ⟨trivial, rfl⟩
  | d :: ds, S, n, hd => by
    obtain ⟨a1, a2, a3⟩ := copy_fits h m ok hd.1
    obtain ⟨b1, b2⟩ := copy_allFit h m ok ds hd.2
    simp only [List.map_cons, AllFit]
    exact ⟨⟨a1, by rw [a2, a3]; exact b1⟩, by rw [a2, b2]⟩

/-- **C93.** A copy behaves like its original would have: the same calls on the same parts show the same. -/
theorem copy_behaves {o : Ops V T} {F : List V → W} {g : List V → List V} (hg : ∀ v, (g v).length = v.length)
    {b : Box V T} {r : Id} (h : Path spoil b.st) (m : b.st.Model r) (ok : b.st.heap.CopyOK r) (hf : b.fresh = false)
    {S : Sheet V T} (hS : b.st.IsSheet r S) {ds : List (Deed Target V T W)}
    (hd : AllFit o F g b.st.heap r ds S ⟨false, false⟩) (junk junk' : List V) :
    ((⟨(b.st.copy spoil r).1, none, false⟩ : Box V T).execs spoil o F g junk' (b.st.heap.copyOf r r)
      (ds.map (Deed.map (inCopy b.st.heap r)))).2 = (b.execs spoil o F g junk r ds).2 := by
  have hc : Path spoil (b.st.copy spoil r).1 := .copy h ok (.inr m.done)
  have hS' : (b.st.copy spoil r).1.IsSheet (b.st.heap.copyOf r r) S := by
    have tw := copy_twins h ok
    obtain ⟨a1, a2⟩ := get_of_forall₂ tw.symm
    obtain ⟨b1, b2⟩ := get_of_forall₂ hS
    refine forall₂_of_get (by omega) (fun q y hq => ?_)
    obtain ⟨z, hz, e⟩ := a2 q y hq
    obtain ⟨P, hP, p1, p2⟩ := b2 q z hz
    refine ⟨P, hP, p1.trans e.size, fun i c hc => ?_⟩
    have hi : i < b.st.heap.size z := by rw [← p1]; exact (List.getElem?_eq_some_iff.mp hc).1
    have hcell := p2 i c hc
    have e' := Twins.symm_equal e
    exact ⟨hcell.val.trans (e'.read i hi).symm, by rw [e'.cons]; exact hcell.fixed, fun t => by rw [e'.cons]; exact hcell.tr t⟩
  obtain ⟨f1, f2⟩ := copy_allFit (o := o) (F := F) (g := g) h m ok ds hd
  exact (same_sheet_alike (F := F) hg h hc m (copy_model h m ok) hf (b' := ⟨(b.st.copy spoil r).1, none, false⟩) rfl hS
    hS' hd f1 f2 junk junk').1

end Box

/-! ### Examples -/

namespace State

theorem isSheet_of_flat {s : State V T} (h : Path spoil s) {r : Id} (m : s.Model r) {S : Sheet V T}
    (hr : s.IsRow r S.flatten) (hl : S.map List.length = (flattened s.heap.toGraph r).map s.heap.size) :
    s.IsSheet r S := by
  obtain ⟨S', hS'⟩ := exists_sheet h m.lt
  have e : S = S' := by
    refine List.eq_iff_flatten_eq.mpr ⟨hr.unique (hS'.flat h m), ?_⟩
    rw [hl]
    unfold IsSheet at hS'
    clear hl hr m
    generalize flattened s.heap.toGraph r = L at hS'
    induction hS' with
    | nil => rfl
    | cons h1 _ ih => rw [List.map_cons, List.map_cons, h1.1, ih]
  rw [e]
  exact hS'

/-- Decision procedure for `IsSheet`. -/
def sheetB (s : State Nat Nat) (r : Id) (S : Sheet Nat Nat) : Bool :=
  decide (S.map List.length = (flattened s.heap.toGraph r).map s.heap.size) &&
  decide (S.flatten.length = s.heap.size r) &&
  (List.range (s.heap.size r)).all (fun i => match S.flatten[i]? with
    | none => false
    | some c => decide (c.val = s.mem.read r i) && (c.fixed == decide (i ∈ s.heap.constraints r .fixed)) &&
      (match c.tr with
      | none => true
      | some t => decide (i ∈ s.heap.constraints r (.tr t))) &&
      (s.optState r none).items.all (fun e => match e.1 with
        | .fixed => true
        | .tr t => !(decide (i ∈ e.2)) || decide (c.tr = some t)))

theorem sheetB_sound {s : State Nat Nat} {spoil : Nat → Nat → Nat} (h : Path spoil s) {r : Id} (m : s.Model r)
    {S : Sheet Nat Nat} (hb : s.sheetB r S = true) : s.IsSheet r S := by
  simp only [sheetB, Bool.and_eq_true, decide_eq_true_eq] at hb
  obtain ⟨⟨h1, h2⟩, h3⟩ := hb
  refine isSheet_of_flat h m ⟨h2, fun i c hc => ?_⟩ h1
  have hi : i < s.heap.size r := by rw [← h2]; exact (List.getElem?_eq_some_iff.mp hc).1
  have h4 := List.all_eq_true.mp h3 i (List.mem_range.mpr hi)
  rw [hc] at h4
  simp only [Bool.and_eq_true, decide_eq_true_eq, beq_iff_eq] at h4
  obtain ⟨⟨⟨a1, a2⟩, a3⟩, a4⟩ := h4
  refine ⟨a1, by rw [a2, decide_eq_true_eq], fun t => ⟨fun ht => ?_, fun ht => ?_⟩⟩
  · rw [ht] at a3
    exact of_decide_eq_true a3
  · have := List.all_eq_true.mp a4 _ ((m.ready h none).toHeld.mem_items_of (t := t) ht)
    simp only [Bool.or_eq_true, Bool.not_eq_true', decide_eq_false_iff_not, decide_eq_true_eq] at this
    exact this.resolve_left (fun hn => hn ht)

/-- The sheet of `seen`. -/
def seenSheet : Sheet Nat Nat :=
  [[⟨10, none, false⟩, ⟨11, some 7, false⟩], [⟨30, none, false⟩, ⟨31, none, true⟩, ⟨32, none, false⟩],
    [⟨40, none, false⟩], [⟨50, some 8, false⟩, ⟨51, some 8, false⟩]]

theorem seen_sheet : seen.IsSheet 0 seenSheet := sheetB_sound seen_path seen_model (by decide +kernel)

/-- Calls on the node `2`, which holds the `Param`s `3` and `4`, on `Param`s and on parts of them. -/
def seenCalls : List (Deed Target Nat Nat Nat) :=
  [.read, .constrain ⟨2, none⟩ 5, .fix ⟨5, some [0]⟩, .put ⟨1, none⟩ [20, 21], .read, .unfix ⟨5, none⟩, .read,
    .optimize twoSteps, .unconstrain ⟨2, none⟩ [.tr 5], .read, .assign ⟨2, none⟩ 9, .values]

theorem seen_fits : AllFit plusOps List.sum (List.map (fun _ => 3)) seen.heap 0 seenCalls seenSheet ⟨false, false⟩ := by
  have i2 : Inside seen.heap 0 ⟨2, none⟩ := ⟨Hier.Heap.targetOKB_sound (by decide +kernel), .step .refl (by decide +kernel),
    settledB_sound (by decide +kernel)⟩
  have i5 : Inside seen.heap 0 ⟨5, none⟩ := ⟨Hier.Heap.targetOKB_sound (by decide +kernel), .step .refl (by decide +kernel),
    settledB_sound (by decide +kernel)⟩
  have i5a : Inside seen.heap 0 ⟨5, some [0]⟩ := ⟨Hier.Heap.targetOKB_sound (by decide +kernel),
    .step .refl (by decide +kernel), settledB_sound (by decide +kernel)⟩
  have i1 : Inside seen.heap 0 ⟨1, none⟩ := ⟨Hier.Heap.targetOKB_sound (by decide +kernel), .step .refl (by decide +kernel),
    settledB_sound (by decide +kernel)⟩
  refine ⟨rfl, i2, i5a, ⟨i1, by decide +kernel, rfl, by decide +kernel⟩, rfl, i5, rfl,
    ⟨rfl, fun x hx => hx ▸ twoSteps_fits x⟩, i2, ?_, i2, trivial, trivial⟩
  show Notes.due _ = false
  decide +kernel

/-- What they show, by the sheet and by the model. -/
example : (seenSheet.execs plusOps List.sum (List.map (fun _ => 3))
      (seenCalls.map (Deed.map (spots seen.heap.toGraph 0)))).2 =
    ((⟨seen, none, false⟩ : Box Nat Nat).execs demoSpoil plusOps List.sum (List.map (fun _ => 3)) [] 0 seenCalls).2 ∧
    (seenSheet.execs plusOps List.sum (List.map (fun _ => 3))
      (seenCalls.map (Deed.map (spots seen.heap.toGraph 0)))).2 =
    [.array [10, 4, 30, 32, 40, 42, 43], .nothing, .nothing, .nothing, .array [20, 14, 25, 26, 27, 35, 43], .nothing,
      .array [20, 14, 25, 26, 27, 35, 42, 43],
      .run (some ([(.objective [21, 15, 26, 27, 28, 36, 43, 44], ⟨some 283, none, true, [3, 3, 3, 3, 3, 3, 3, 3]⟩),
        (.both [20, 14, 25, 26, 27, 35, 42, 43],
          ⟨some 275, some [3, 3, 3, 3, 3, 3, 3, 3], true, [3, 3, 3, 3, 3, 3, 3, 3]⟩)], [17, 11, 22, 23, 24, 32, 39, 40])),
      .nothing, .array [17, 11, 27, 28, 29, 37, 39, 40], .nothing, .array [17, 18, 9, 9, 9, 9, 47, 48]] :=
  ⟨(Box.model_is_sheet_partial (b := ⟨seen, none, false⟩) (F := List.sum) (by simp) seen_path seen_model rfl seen_sheet
    seen_fits []).1.symm, by decide +kernel⟩

/-- After `read` and `unconstrain`, the next `read` shows the array for the removed constraint (C32). -/
theorem sheet_stale_fails :
    let ds : List (Deed Target Nat Nat Nat) := [.read, .unconstrain ⟨1, none⟩ [], .read]
    seen.IsSheet 0 seenSheet ∧
    ((⟨seen, none, false⟩ : Box Nat Nat).execs demoSpoil plusOps List.sum id [] 0 ds).2 =
      [.array [10, 4, 30, 32, 40, 42, 43], .nothing, .array [10, 4, 30, 32, 40, 42, 43]] ∧
    (seenSheet.execs plusOps List.sum id (ds.map (Deed.map (spots seen.heap.toGraph 0)))).2 =
      [.array [10, 4, 30, 32, 40, 42, 43], .nothing, .array [10, 11, 30, 32, 40, 42, 43]] :=
  ⟨seen_sheet, by decide +kernel, by decide +kernel⟩

end State

end Paramz.Memory

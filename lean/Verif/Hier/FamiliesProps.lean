import Verif.Hier.FamiliesCopy
import Verif.Hier.Check

/-!
# C80: further index operations follow the hierarchy like `constraints`

An object may have index operations besides `constraints` (`add_index_operation`, for instance `priors`). When all
objects have the same names, every name is treated like `constraints`: linking and unlinking keep the properties of
every `Param`, a group reports those of its parameters, setting a property changes exactly the elements it is set on,
and no name has an effect on another one. When a name is missing on one side `link_parameter` raises `KeyError` half
way: the witnesses show what is left behind.
-/

set_option linter.unusedSectionVars false

namespace Paramz.Hier.Multi

open IndexOps (Arr Dict Iop)
open Graph (At)
open Heap (Target Reach LinkOK Hits)

variable {T N : Type} [DecidableEq T] [DecidableEq N]

/-! ### Specification -/

/-- The same call in a program without further names; `set` and `unset` are not calls of such a program. -/
def Ev.plain : Ev T N → Option (Heap.Ev T)
  | .newParam n _ => some (.newParam n)
  | .newNode _ => some .newNode
  | .finishInit x i => some (.finishInit x i)
  | .init x => some (.init x)
  | .link p x i => some (.link p x i)
  | .unlink p x => some (.unlink p x)
  | .constrain x c => some (.constrain x c)
  | .unconstrain x cs => some (.unconstrain x cs)
  | .fix x => some (.fix x)
  | .unfix x => some (.unfix x)
  | .set _ _ _ => none
  | .unset _ _ _ => none

/-- The further names a call is about. -/
def Ev.names : Ev T N → List N → Prop
  | .newParam _ fs, ns => fs = ns
  | .newNode fs, ns => fs = ns
  | .set f _ _, ns => f ∈ ns
  | .unset f _ _, ns => f ∈ ns
  | _, _ => True

/-- The elements a `set` or `unset` is made on exist. -/
def Ev.target (m : Multi T N) : Ev T N → Prop
  | .set _ x _ => x.OK m.base
  | .unset _ x _ => x.OK m.base
  | _ => True

/-- Calls a user may make when all objects have the names `ns`: as in `Heap.Admissible`, a new object gets the
names `ns`, and properties are set and unset under these names on existing elements. -/
def Admissible (ns : List N) (m : Multi T N) (e : Ev T N) : Prop :=
  (∀ e', e.plain = some e' → m.base.Admissible e') ∧ e.names ns ∧ e.target m

/-- States reached by a history of such calls and of copies (`CopyOK` as for C24). -/
inductive MReach (ns : List N) : Multi T N → Prop
  | empty : MReach ns empty
  | step {m : Multi T N} {e : Ev T N} : MReach ns m → Admissible ns m e → MReach ns (m.exec e).1
  | copy {m : Multi T N} {x : Id} : MReach ns m → m.base.CopyOK x → MReach ns (m.copy x).1

/-! ### Proofs -/

theorem like_linkOK {b h : Heap T} (hl : Like b h) {p x : Id} {index : Option Int} (ok : LinkOK b p x index) :
    LinkOK h p x index := by
  obtain ⟨h1, h2, h3, h4, h5⟩ := ok
  refine ⟨by rw [hl.graph]; exact h1, by rw [hl.graph]; exact h2, by rw [hl.graph]; exact h3, ?_,
    by rw [hl.graph]; exact h5⟩
  unfold Heap.LinkReady
  rw [hl.inInit, hl.inited, hl.graph]
  exact h4

theorem like_targetOK {b h : Heap T} (hl : Like b h) {x : Target} (ok : x.OK b) : x.OK h :=
  ⟨by rw [hl.graph]; exact ok.lt, by rw [hl.graph]; exact ok.part⟩

theorem like_admissible {b h : Heap T} (hl : Like b h) {e : Heap.Ev T} (ha : b.Admissible e) : h.Admissible e := by
  cases e with
  | newParam | newNode | unlink => trivial
  | finishInit => exact ⟨by rw [hl.graph]; exact ha.1, by rw [hl.graph]; exact ha.2⟩
  | init x => show x < h.next; rw [hl.graph]; exact ha
  | link => exact like_linkOK hl ha
  | constrain | unconstrain | fix | unfix => exact like_targetOK hl ha

theorem like_copyOK {b h : Heap T} (hl : Like b h) {x : Id} (ok : b.CopyOK x) : h.CopyOK x := by
  refine ⟨by rw [hl.graph]; exact ok.lt, ?_⟩
  unfold Heap.copySearch
  rw [hl.graph, hl.visited]
  exact ok.cut

/-- What holds in every state. -/
structure Inv (ns : List N) (m : Multi T N) : Prop where
  reach : Reach m.base
  uni : Uni m ns
  sim : ∀ f ∈ ns, ∃ h, Reach h ∧ Sim m h f

/-- One call other than `set` and `unset`: the effect on every name. -/
theorem exec_plain {ns : List N} {m : Multi T N} (inv : Inv ns m) {e : Ev T N} (ha : Admissible ns m e)
    {e' : Heap.Ev T} (he : e.plain = some e') :
    (m.exec e).2 = (m.base.exec e').2.map .other ∧ (m.exec e).1.base = (m.base.exec e').1 ∧
    Uni (m.exec e).1 ns ∧
    ∀ f ∈ ns, ∀ h, Reach h → Sim m h f →
      Sim (m.exec e).1 h f ∧ (m.exec e).1.fam f = m.fam f ∨ Sim (m.exec e).1 (h.exec e').1 f := by
  obtain ⟨hr, hu, -⟩ := inv
  have ha' := ha.1 e' he
  cases e with
  | newParam n fs =>
    cases he
    have hfs : fs = ns := ha.2.1
    subst hfs
    obtain ⟨h1, h2, h3⟩ := new_step hu true n false
    exact ⟨rfl, h2, h1, fun f hf h _ hs => Or.inr (h3 f hf h hs)⟩
  | newNode fs =>
    cases he
    have hfs : fs = ns := ha.2.1
    subst hfs
    obtain ⟨h1, h2, h3⟩ := new_step hu false 0 true
    exact ⟨rfl, h2, h1, fun f hf h _ hs => Or.inr (h3 f hf h hs)⟩
  | finishInit x i =>
    cases he
    obtain ⟨m1, e1, s1⟩ := finishInit_step hu (x := x) ha'.1 i
    simp only [exec, Heap.exec, e1, Option.map_none]
    exact ⟨trivial, s1.base, s1.uni, fun f hf h _ hs => Or.inr (s1.sim f hf h hs)⟩
  | init x =>
    cases he
    obtain ⟨m1, e1, s1⟩ := initialize_step hu (x := x) ha'
    simp only [exec, Heap.exec, e1, Option.map_none]
    exact ⟨trivial, s1.base, s1.uni, fun f hf h _ hs => Or.inr (s1.sim f hf h hs)⟩
  | link p x i =>
    cases he
    obtain ⟨m1, e1, s1⟩ := link_step hu (p := p) (x := x) ha'.ltp ha'.ltx i
    simp only [exec, Heap.exec, e1]
    exact ⟨trivial, s1.base, s1.uni, fun f hf h _ hs => Or.inr (s1.sim f hf h hs)⟩
  | unlink q x =>
    cases he
    obtain ⟨m1, e1, s1⟩ := unlink_step hu (q := q) (x := x)
      (fun hk => hu.up x q ((hr.wf.skel.mem_iff _ _).mp hk))
    simp only [exec, Heap.exec, e1]
    exact ⟨trivial, s1.base, s1.uni, fun f hf h _ hs => Or.inr (s1.sim f hf h hs)⟩
  | constrain x c =>
    cases he
    have s := ((Heap.constraining_wf hr.wf ha').1 c).2
    exact ⟨rfl, rfl, hu.rebase s, fun f _ h _ hs => Or.inl ⟨hs.rebase s, rfl⟩⟩
  | unconstrain x cs =>
    cases he
    have s := ((Heap.constraining_wf hr.wf ha').2.1 cs).2
    exact ⟨rfl, rfl, hu.rebase s, fun f _ h _ hs => Or.inl ⟨hs.rebase s, rfl⟩⟩
  | fix x =>
    cases he
    have s := (Heap.constraining_wf hr.wf ha').2.2.1.2
    exact ⟨rfl, rfl, hu.rebase s, fun f _ h _ hs => Or.inl ⟨hs.rebase s, rfl⟩⟩
  | unfix x =>
    cases he
    have s := (Heap.constraining_wf hr.wf ha').2.2.2.2
    exact ⟨rfl, rfl, hu.rebase s, fun f _ h _ hs => Or.inl ⟨hs.rebase s, rfl⟩⟩
  | set f x t => cases he
  | unset f x ts => cases he

theorem Uni.setFam {ns : List N} {m : Multi T N} (hu : Uni m ns) (f : N) (F : Fam T) : Uni (m.setFam f F) ns :=
  ⟨hu.nodup, hu.names, hu.closed, hu.up⟩

theorem set_eq {ns : List N} {m : Multi T N} (hu : Uni m ns) {f : N} (hf : f ∈ ns) {x : Target} (ok : x.OK m.base)
    (t : T) : m.set f x t =
      (m.setFam f (((m.fam f).unset x.obj (x.index m.base) []).put x.obj (x.index m.base) (.tr t)), none) := by
  unfold set; rw [hu.names _ ok.lt, if_pos hf]

theorem unset_eq {ns : List N} {m : Multi T N} (hu : Uni m ns) {f : N} (hf : f ∈ ns) {x : Target}
    (ok : x.OK m.base) (ts : List T) :
    m.unset f x ts = (m.setFam f ((m.fam f).unset x.obj (x.index m.base) (ts.map .tr)), none) := by
  unfold unset; rw [hu.names _ ok.lt, if_pos hf]

theorem MReach.inv {ns : List N} (hn : ns.Nodup) {m : Multi T N} (hr : MReach ns m) : Inv ns m := by
  induction hr with
  | empty =>
    refine ⟨.empty, ⟨hn, fun y hy => absurd hy (Nat.not_lt_zero y), fun x c hc => ?_, fun x p hp => ?_⟩,
      fun f _ => ⟨Heap.empty, .empty, ⟨⟨rfl, rfl, rfl, rfl⟩, rfl, rfl, rfl, fun d e he => ?_⟩⟩⟩
    · have hc : c ∈ ([] : List Id) := hc
      cases hc
    · have hp : (none : Option Id) = some p := hp
      cases hp
    · have he : e ∈ ([] : Dict (Con T)) := he
      cases he
  | @step m e _ ha inv =>
    cases he : e.plain with
    | some e' =>
      obtain ⟨-, h2, h3, h4⟩ := exec_plain inv ha he
      refine ⟨by rw [h2]; exact .step inv.reach (ha.1 e' he), h3, fun f hf => ?_⟩
      obtain ⟨h, hr, hs⟩ := inv.sim f hf
      rcases h4 f hf h hr hs with ⟨h5, -⟩ | h5
      · exact ⟨h, hr, h5⟩
      · exact ⟨_, .step hr (like_admissible hs.toLike (ha.1 e' he)), h5⟩
    | none =>
      cases e with
      | set f x t =>
        have hf : f ∈ ns := ha.2.1
        have ok : x.OK m.base := ha.2.2
        simp only [exec]
        rw [set_eq inv.uni hf ok]
        refine ⟨inv.reach, inv.uni.setFam _ _, fun g hg => ?_⟩
        obtain ⟨h, hr, hs⟩ := inv.sim g hg
        by_cases hgf : g = f
        · subst hgf
          exact ⟨_, .step (e := .constrain x (.tr t)) hr (like_targetOK hs.toLike ok), hs.set x t⟩
        · exact ⟨h, hr, hs.other hgf _⟩
      | unset f x ts =>
        have hf : f ∈ ns := ha.2.1
        have ok : x.OK m.base := ha.2.2
        simp only [exec]
        rw [unset_eq inv.uni hf ok]
        refine ⟨inv.reach, inv.uni.setFam _ _, fun g hg => ?_⟩
        obtain ⟨h, hr, hs⟩ := inv.sim g hg
        by_cases hgf : g = f
        · subst hgf
          exact ⟨_, .step (e := .unconstrain x (ts.map .tr)) hr (like_targetOK hs.toLike ok),
            hs.unset x (by simp)⟩
        · exact ⟨h, hr, hs.other hgf _⟩
      | newParam | newNode | finishInit | init | link | unlink | constrain | unconstrain | fix | unfix => cases he

  | @copy m x _ ok inv =>
    obtain ⟨m', e, h1, h2, h3⟩ := copy_step inv.uni inv.reach.wf.skel ok.lt
    rw [e]
    refine ⟨by rw [h1]; exact .copy inv.reach ok, h2, fun f hf => ?_⟩
    obtain ⟨h, hr, hs⟩ := inv.sim f hf
    exact ⟨_, .copy hr (like_copyOK hs.toLike ok), h3 f hf h hs⟩

theorem Sim.prop {m : Multi T N} {h : Heap T} {f : N} (hs : Sim m h f) (x : Id) (t : T) :
    m.prop f x t = h.constraints x (.tr t) := by
  unfold Multi.prop Heap.constraints
  rw [hs.iop, hs.dicts]

variable {ns : List N} {m : Multi T N}

/-! ### The property -/

/-- A program with further names does to pointers, sizes and `constraints` exactly what it does without them, and
raises the same exceptions; it never raises `KeyError`. -/
theorem plain_as_before_partial (hn : ns.Nodup) (hr : MReach ns m) {e : Ev T N} (ha : Admissible ns m e) :
    (∀ e', e.plain = some e' → (m.exec e).1.base = (m.base.exec e').1 ∧
      (m.exec e).2 = (m.base.exec e').2.map .other) ∧
    (e.plain = none → (m.exec e).1.base = m.base ∧ (m.exec e).2 = none) := by
  have inv := hr.inv hn
  constructor
  · intro e' he
    obtain ⟨h1, h2, -⟩ := exec_plain inv ha he
    exact ⟨h2, h1⟩
  · intro he
    cases e with
    | set f x t => simp only [exec]; rw [set_eq inv.uni ha.2.1 ha.2.2]; exact ⟨rfl, rfl⟩
    | unset f x ts => simp only [exec]; rw [unset_eq inv.uni ha.2.1 ha.2.2]; exact ⟨rfl, rfl⟩
    | newParam | newNode | finishInit | init | link | unlink | constrain | unconstrain | fix | unfix => cases he

/-- Linking keeps the properties of every `Param`, under every name. -/
theorem link_keeps_names_partial (hn : ns.Nodup) (hr : MReach ns m) {p x : Id} {index : Option Int}
    (ok : LinkOK m.base p x index) {y : Id} (hy : y < m.base.next) (hl : m.base.leaf y = true) {f : N} (hf : f ∈ ns)
    (t : T) : (m.link p x index).1.prop f y t = m.prop f y t := by
  have inv := hr.inv hn
  obtain ⟨h, hrh, hs⟩ := inv.sim f hf
  obtain ⟨m1, e1, s1⟩ := link_step inv.uni (p := p) (x := x) ok.ltp ok.ltx index
  rw [e1, (s1.sim f hf h hs).prop, hs.prop]
  exact Heap.link_keeps_param_partial hrh (like_linkOK hs.toLike ok) (by rw [hs.graph]; exact hy)
    (by rw [hs.graph]; exact hl) _

/-- So does unlinking. -/
theorem unlink_keeps_names_partial (hn : ns.Nodup) (hr : MReach ns m) {q x y : Id} (hy : y < m.base.next)
    (hl : m.base.leaf y = true) {f : N} (hf : f ∈ ns) (t : T) :
    (m.unlink q x).1.prop f y t = m.prop f y t := by
  have inv := hr.inv hn
  obtain ⟨h, hrh, hs⟩ := inv.sim f hf
  obtain ⟨m1, e1, s1⟩ := unlink_step inv.uni (q := q) (x := x)
    (fun hk => inv.uni.up x q ((inv.reach.wf.skel.mem_iff _ _).mp hk))
  rw [e1, (s1.sim f hf h hs).prop, hs.prop]
  exact Heap.unlink_keeps_param hrh (by rw [hs.graph]; exact hy) (by rw [hs.graph]; exact hl) _

/-- An object reports, at their positions, the properties of the `Param`s inside it and nothing else. -/
theorem names_from_leaves_partial (hn : ns.Nodup) (hr : MReach ns m) {x : Id} (hx : x < m.base.next) {f : N}
    (hf : f ∈ ns) (t : T) (k : Nat) :
    k ∈ m.prop f x t ↔ ∃ y n j, m.base.leaf y = true ∧ At m.base.toGraph x y n ∧ j < m.base.size y ∧
      k = n + j ∧ j ∈ m.prop f y t := by
  obtain ⟨h, hrh, hs⟩ := (hr.inv hn).sim f hf
  have key := Heap.constraints_from_leaves hrh (x := x) (by rw [hs.graph]; exact hx) (.tr t) k
  rw [hs.graph] at key
  simp only [hs.prop]
  exact key

/-- Setting a property gives it to the elements it is set on, takes every other property of this name from them, and
leaves the other elements and all other names alone. -/
theorem set_exact_partial (hn : ns.Nodup) (hr : MReach ns m) {f : N} (hf : f ∈ ns) {x : Target} (ok : x.OK m.base)
    (t : T) {y k : Nat} (hy : y < m.base.next) (hl : m.base.leaf y = true) (hk : k < m.base.size y) (u : T) :
    (Hits m.base x y k → (k ∈ (m.set f x t).1.prop f y u ↔ u = t)) ∧
    (¬ Hits m.base x y k → (k ∈ (m.set f x t).1.prop f y u ↔ k ∈ m.prop f y u)) ∧
    ∀ g, g ≠ f → (m.set f x t).1.prop g y u = m.prop g y u := by
  have inv := hr.inv hn
  obtain ⟨h, hrh, hs⟩ := inv.sim f hf
  have key := Heap.constrain_exact hrh (like_targetOK hs.toLike ok) t (y := y) (k := k) (by rw [hs.graph]; exact hy)
    (by rw [hs.graph]; exact hl) (by rw [hs.graph]; exact hk) (.tr u)
  have hh : Hits h x y k ↔ Hits m.base x y k := by
    unfold Hits; rw [hs.graph, index_like hs.toLike]
  rw [hh] at key
  rw [set_eq inv.uni hf ok, (hs.set x t).prop, hs.prop]
  refine ⟨fun h1 => by rw [key.1 h1]; simp, fun h1 => key.2 h1, fun g hg => ?_⟩
  simp [Multi.prop, setFam, hg]

/-- Unsetting takes exactly the given properties (all of the name if none is given) from exactly the elements it is
made on. -/
theorem unset_exact_partial (hn : ns.Nodup) (hr : MReach ns m) {f : N} (hf : f ∈ ns) {x : Target} (ok : x.OK m.base)
    (ts : List T) {y k : Nat} (hy : y < m.base.next) (hl : m.base.leaf y = true) (hk : k < m.base.size y) (u : T) :
    (k ∈ (m.unset f x ts).1.prop f y u ↔ k ∈ m.prop f y u ∧ ¬ (Hits m.base x y k ∧ (ts = [] ∨ u ∈ ts))) ∧
    ∀ g, g ≠ f → (m.unset f x ts).1.prop g y u = m.prop g y u := by
  have inv := hr.inv hn
  obtain ⟨h, hrh, hs⟩ := inv.sim f hf
  have key := Heap.unconstrain_exact hrh (like_targetOK hs.toLike ok) (ts.map .tr) (y := y) (k := k)
    (by rw [hs.graph]; exact hy) (by rw [hs.graph]; exact hl) (by rw [hs.graph]; exact hk) (.tr u)
  have hh : Hits h x y k ↔ Hits m.base x y k := by
    unfold Hits; rw [hs.graph, index_like hs.toLike]
  rw [hh] at key
  rw [unset_eq inv.uni hf ok, (hs.unset x (ts := ts.map .tr) (by simp)).prop, hs.prop]
  refine ⟨by rw [key]; simp, fun g hg => ?_⟩
  simp [Multi.prop, setFam, hg]

/-- Copying raises nothing and does to pointers, sizes and `constraints` what it does without further names. The copy of
every part has, under every name, the properties of that part, and the original keeps its own. -/
theorem copy_has_names_partial (hn : ns.Nodup) (hr : MReach ns m) {x : Id} (ok : m.base.CopyOK x) :
    (m.copy x).2 = none ∧ (m.copy x).1.base = (m.base.copy x).1 ∧
    ∀ f ∈ ns, ∀ t : T,
      (∀ y, Graph.Anc m.base.toGraph x y → (m.copy x).1.prop f (m.base.copyOf x y) t = m.prop f y t) ∧
      ∀ y, y < m.base.next → (m.copy x).1.prop f y t = m.prop f y t := by
  have inv := hr.inv hn
  obtain ⟨m', e, h1, -, h3⟩ := copy_step inv.uni inv.reach.wf.skel ok.lt
  rw [e]
  refine ⟨rfl, h1, fun f hf t => ?_⟩
  obtain ⟨h, hrh, hs⟩ := inv.sim f hf
  have hok := like_copyOK hs.toLike ok
  refine ⟨fun y hy => ?_, fun y hy => ?_⟩
  · rw [(h3 f hf h hs).prop, hs.prop, ← Heap.copyOf_graph hs.graph]
    exact Heap.copy_constraints hrh hok (by rw [hs.graph]; exact hy) _
  · rw [(h3 f hf h hs).prop, hs.prop]
    exact (Heap.copy_keeps_original hrh hok (by rw [hs.graph]; exact hy)).2.2.2.2 _

/-- Setting and unsetting properties of the copy or of a part of it does not show in the original (nor in anything else
that existed before), and the other way round. -/
theorem copy_names_independent_partial (hn : ns.Nodup) (hr : MReach ns m) {x : Id} (ok : m.base.CopyOK x) {f : N}
    (hf : f ∈ ns) {z : Target} (okz : z.OK (m.copy x).1.base) (t : T) (ts : List T) (g : N) (hg : g ∈ ns) (u : T) :
    ((∃ y, Graph.Anc m.base.toGraph x y ∧ z.obj = m.base.copyOf x y) → ∀ y, y < m.base.next →
      ((m.copy x).1.set f z t).1.prop g y u = m.prop g y u ∧
      ((m.copy x).1.unset f z ts).1.prop g y u = m.prop g y u) ∧
    (z.obj < m.base.next → ∀ y, Graph.Anc m.base.toGraph x y →
      ((m.copy x).1.set f z t).1.prop g (m.base.copyOf x y) u = m.prop g y u ∧
      ((m.copy x).1.unset f z ts).1.prop g (m.base.copyOf x y) u = m.prop g y u) := by
  have inv := hr.inv hn
  have inv' := (hr.copy ok).inv hn
  obtain ⟨-, -, key⟩ := copy_has_names_partial hn hr ok
  rw [set_eq inv'.uni hf okz, unset_eq inv'.uni hf okz]
  by_cases hgf : g = f
  · subst hgf
    obtain ⟨m', e, h1, -, h3⟩ := copy_step inv.uni inv.reach.wf.skel ok.lt
    obtain ⟨h, hrh, hs⟩ := inv.sim g hf
    have hok := like_copyOK hs.toLike ok
    have hs' := h3 g hf h hs
    rw [e] at okz ⊢
    have okz' := like_targetOK hs'.toLike okz
    obtain ⟨a1, a2⟩ := Heap.copy_independent hrh hok (.constrain t) okz' (.tr u)
    obtain ⟨b1, b2⟩ := Heap.copy_independent hrh hok (.unconstrain (ts.map .tr)) okz' (.tr u)
    rw [hs.graph] at a1 a2 b1 b2
    have hc : ∀ y, h.copyOf x y = m.base.copyOf x y := Heap.copyOf_graph hs.graph x
    simp only [hc] at a1 a2 b1 b2
    constructor
    · intro hz y hy
      rw [(hs'.set z t).prop, (hs'.unset z (ts := ts.map .tr) (by simp)).prop, hs.prop]
      exact ⟨a1 hz y hy, b1 hz y hy⟩
    · intro hz y hy
      rw [(hs'.set z t).prop, (hs'.unset z (ts := ts.map .tr) (by simp)).prop, hs.prop]
      exact ⟨a2 hz y hy, b2 hz y hy⟩
  · have hp : ∀ (F : Fam T) y, ((m.copy x).1.setFam f F).prop g y u = (m.copy x).1.prop g y u := fun F y => by
      simp [Multi.prop, setFam, hgf]
    simp only [hp]
    exact ⟨fun _ y hy => ⟨(key g hg u).2 y hy, (key g hg u).2 y hy⟩,
      fun _ y hy => ⟨(key g hg u).1 y hy, (key g hg u).1 y hy⟩⟩

/-- Constraining and fixing have no effect on any further name. -/
theorem constraining_keeps_names (x : Target) (c : Con T) (cs : List (Con T)) (f : N) (y : Id) (t : T) :
    (m.exec (.constrain x c)).1.prop f y t = m.prop f y t ∧
    (m.exec (.unconstrain x cs)).1.prop f y t = m.prop f y t ∧
    (m.exec (.fix x)).1.prop f y t = m.prop f y t ∧ (m.exec (.unfix x)).1.prop f y t = m.prop f y t :=
  ⟨rfl, rfl, rfl, rfl⟩

/-- No element has two properties of one name. -/
theorem at_most_one_partial (hn : ns.Nodup) (hr : MReach ns m) {x : Id} (hx : x < m.base.next) {f : N} (hf : f ∈ ns)
    {t u : T} {k : Nat} (h1 : k ∈ m.prop f x t) (h2 : k ∈ m.prop f x u) : t = u := by
  obtain ⟨h, hrh, hs⟩ := (hr.inv hn).sim f hf
  rw [hs.prop] at h1 h2
  exact Heap.at_most_one_transformation hrh (by rw [hs.graph]; exact hx) h1 h2

/-! ### Missing names -/

theorem gapAll_missing (p x : Id) (start off : Nat) : ∀ (fs : List N) (m : Multi T N), (∃ f ∈ fs, f ∉ m.names x) →
    (m.gapAll p x start off fs).2 = true ∧ (m.gapAll p x start off fs).1.base = m.base
  | [], _, h => by obtain ⟨f, hf, -⟩ := h; cases hf
  | f :: fs, m, h => by
    rw [gapAll]
    by_cases hf : f ∈ m.names x
    · rw [if_pos hf]
      obtain ⟨g, hg, hgx⟩ := h
      refine gapAll_missing p x start off fs (m.setFam f _) ⟨g, ?_, hgx⟩
      rcases List.mem_cons.mp hg with rfl | hg
      · exact absurd hf hgx
      · exact hg
    · rw [if_neg hf]; exact ⟨rfl, rfl⟩

/-- Linking a parameter that lacks a name of the new parent raises `KeyError`, and nothing is linked: pointers, lists
and sizes are as before. -/
theorem missing_name_raises {p x : Id} {index : Option Int} (hl : m.base.leaf p = false) (hx : m.base.parent x = none)
    (hk : x ∉ m.base.kids p) {f : N} (hf : f ∈ m.names p) (hfx : f ∉ m.names x) :
    (m.link p x index).2 = some .keyError ∧ (m.link p x index).1.base.toGraph = m.base.toGraph := by
  simp only [link, hl, hk, Bool.false_eq_true, if_false, linkNew, hx, linkRoot, linkPointers]
  obtain ⟨h1, h2⟩ := gapAll_missing p x
    (m.base.toGraph.sizeSum ((m.base.kids p).take (Heap.insertPos (m.base.kids p) index)))
    (m.base.copyOffset p index) (m.names p)
    (m.setBase { m.base with dicts := (m.base.linkPointers p x index).dicts }) ⟨f, hf, hfx⟩
  simp only [h1, if_true]
  refine ⟨trivial, ?_⟩
  rw [h2]; rfl

/-- A model `0` with `Param` `1` (two elements) and `Param` `2` (one element); all have the names `0` and `1`. -/
def twoNames : Multi Nat Nat := run empty
  [.newNode [0, 1], .newParam 2 [0, 1], .newParam 1 [0, 1], .link 0 1 none, .link 0 2 none, .finishInit 0 true,
   .constrain ⟨1, none⟩ (.tr 7), .set 0 ⟨1, some [1]⟩ 5, .set 1 ⟨0, none⟩ 6, .set 1 ⟨2, none⟩ 4]

/-- Are these calls those of `Admissible`? -/
def admissibleB (ns : List Nat) (m : Multi Nat Nat) (e : Ev Nat Nat) : Bool :=
  (match e.plain with | some e' => m.base.admissibleB e' | none => true) &&
  (match e with
    | .newParam _ fs => decide (fs = ns)
    | .newNode fs => decide (fs = ns)
    | .set f x _ => decide (f ∈ ns) && m.base.targetOKB x
    | .unset f x _ => decide (f ∈ ns) && m.base.targetOKB x
    | _ => true)

theorem admissibleB_sound {ns : List Nat} {m : Multi Nat Nat} (hr : Reach m.base) {e : Ev Nat Nat}
    (hb : admissibleB ns m e = true) : Admissible ns m e := by
  unfold admissibleB at hb
  rw [Bool.and_eq_true] at hb
  obtain ⟨h1, h2⟩ := hb
  refine ⟨fun e' he => ?_, ?_, ?_⟩
  · rw [he] at h1; exact Heap.admissibleB_sound hr.wf h1
  · cases e <;> simp_all [Ev.names]
  · cases e <;> simp_all [Ev.target, Heap.targetOKB_sound]

/-- Are all calls of a list admissible when they are made? -/
def runB (ns : List Nat) (m : Multi Nat Nat) : List (Ev Nat Nat) → Bool
  | [] => true
  | e :: es => admissibleB ns m e && runB ns (m.exec e).1 es

theorem MReach.run {ns : List Nat} (hn : ns.Nodup) {m : Multi Nat Nat} (hr : MReach ns m) : ∀ es,
    runB ns m es = true → MReach ns (m.run es)
  | [], _ => hr
  | e :: es, hb => by
    simp only [runB, Bool.and_eq_true] at hb
    exact MReach.run hn (m := (m.exec e).1) (.step hr (admissibleB_sound (hr.inv hn).reach hb.1)) es hb.2

theorem twoNames_reach : MReach [0, 1] twoNames := MReach.run (by decide) .empty _ (by decide +kernel)

/-- The hypotheses are met: `priors` and so on of the model and of a `Param` before and after unlinking. -/
example : twoNames.prop 0 0 5 = [1] ∧ twoNames.prop 1 0 6 = [0, 1] ∧ twoNames.prop 1 0 4 = [2] ∧
    twoNames.prop 1 2 4 = [0] ∧ twoNames.prop 1 2 6 = [] ∧
    (twoNames.unlink 0 1).2 = none ∧ (twoNames.unlink 0 1).1.prop 0 1 5 = [1] ∧
    (twoNames.unlink 0 1).1.prop 1 1 6 = [0, 1] ∧ (twoNames.unlink 0 1).1.prop 1 0 6 = [] ∧
    (twoNames.unlink 0 1).1.prop 1 0 4 = [0] ∧
    ((twoNames.unlink 0 1).1.link 0 1 (some 0)).1.prop 1 0 4 = [2] := by decide +kernel

/-- The copy of the model: objects `3`, `4` and `5`. -/
example : twoNames.base.CopyOK 0 ∧ (twoNames.copy 0).2 = none ∧ (twoNames.copy 0).1.base.kids 3 = [4, 5] ∧
    (twoNames.copy 0).1.prop 1 3 6 = [0, 1] ∧ (twoNames.copy 0).1.prop 1 3 4 = [2] ∧
    (twoNames.copy 0).1.prop 0 4 5 = [1] ∧ (twoNames.copy 0).1.base.constraints 4 (.tr 7) = [0, 1] ∧
    ((twoNames.copy 0).1.set 1 ⟨4, none⟩ 8).1.prop 1 3 8 = [0, 1] ∧
    ((twoNames.copy 0).1.set 1 ⟨4, none⟩ 8).1.prop 1 0 8 = [] ∧
    ((twoNames.copy 0).1.set 1 ⟨4, none⟩ 8).1.prop 1 0 6 = [0, 1] := by
  refine ⟨⟨by decide +kernel, fun p hp => ?_⟩, by decide +kernel⟩
  rw [show twoNames.base.parent 0 = none by decide +kernel] at hp
  cases hp

/-- A model `0` with `Param` `1`, both with the name `0`, and a plain `Param` `2` (two elements, constrained to `9`)
without it. -/
def plainParam : Multi Nat Nat := run empty
  [.newNode [0], .newParam 2 [0], .link 0 1 none, .finishInit 0 true, .constrain ⟨1, some [0]⟩ (.tr 7),
   .set 0 ⟨1, none⟩ 5, .newParam 2 [], .constrain ⟨2, none⟩ (.tr 9)]

/-- `model.link_parameter(plain, 0)` raises `KeyError` and links nothing. But the constraint of the `Param` that is in
the model and its property of the name are gone from it (they were moved two places up, beyond its end), and its elements
carry the constraint of the parameter that was not linked. -/
theorem missing_name_fails : (plainParam.link 0 2 (some 0)).2 = some .keyError ∧
    (plainParam.link 0 2 (some 0)).1.base.kids 0 = [1] ∧ (plainParam.link 0 2 (some 0)).1.base.size 0 = 2 ∧
    plainParam.base.constraints 1 (.tr 7) = [0] ∧ (plainParam.link 0 2 (some 0)).1.base.constraints 1 (.tr 7) = [] ∧
    plainParam.base.constraints 1 (.tr 9) = [] ∧ (plainParam.link 0 2 (some 0)).1.base.constraints 1 (.tr 9) = [0, 1] ∧
    plainParam.prop 0 1 5 = [0, 1] ∧ (plainParam.link 0 2 (some 0)).1.prop 0 1 5 = [] := by decide +kernel

/-- A model `0` without and a `Param` `1` with the name `0`. -/
def plainModel : Multi Nat Nat := run empty
  [.newNode [], .finishInit 0 true, .newParam 2 [0], .set 0 ⟨1, none⟩ 5]

/-- `model.link_parameter(param)` raises `KeyError`, yet the parameter is linked and counted, and it has lost the name:
`param.priors` raises `KeyError` from now on. Unlinking it works and does not bring the name back. -/
theorem extra_name_fails : (plainModel.link 0 1 none).2 = some .keyError ∧
    (plainModel.link 0 1 none).1.base.kids 0 = [1] ∧ (plainModel.link 0 1 none).1.base.size 0 = 2 ∧
    plainModel.names 1 = [0] ∧ (plainModel.link 0 1 none).1.names 1 = [] ∧
    ((plainModel.link 0 1 none).1.set 0 ⟨1, none⟩ 5).2 = some .keyError ∧
    ((plainModel.link 0 1 none).1.unlink 0 1).2 = none ∧
    ((plainModel.link 0 1 none).1.unlink 0 1).1.names 1 = [] := by decide +kernel

end Paramz.Hier.Multi

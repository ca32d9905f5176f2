import Verif.Hier.FamiliesLemmas
import Verif.Hier.CopyProps

/-!
# Copies of objects with further index operations (C80)

Source: `paramz/core/pickleable.py:69-118`, `paramz/parameterized.py:344-361`, `paramz/param.py:201-209`, and what
`Verif.Hier.Copy` models for `constraints`.
-/

set_option linter.unusedSectionVars false

namespace Paramz.Hier

open IndexOps (Arr Dict Iop)

variable {T N : Type} [DecidableEq T] [DecidableEq N]

/-! ### Model -/

/-- The index operations of the new objects, as `deepcopy` makes them (as `Heap.rawCopy`): every one of them, also a view,
becomes a `ParameterIndexOperations` of its own (index_operations.py:183-185, 310-312). Simplified: they are made also for
objects without the name, where nothing can read them. -/
def Fam.rawCopy (F : Fam T) (h : Heap T) (x : Id) : Fam T :=
  let L := h.toGraph.subtree x
  { iop := h.lift x F.iop (fun y => (F.nextDict + L.idxOf y, .base))
    dicts := fun d => match pick L F.nextDict d with
      | none => F.dicts d
      | some y => (F.iop y).2.copy (F.dicts (F.iop y).1)
    nextDict := F.nextDict + L.length }

namespace Multi

/-- The new objects before any `_connect_parameters`: `_index_operations` is copied with all its names. -/
def rawCopy (m : Multi T N) (x : Id) : Multi T N :=
  ⟨m.base.rawCopy x, m.base.lift x m.names m.names, fun f => (m.fam f).rawCopy m.base x⟩

/-- `_connect_parameters(); _connect_fixes(); _notify_parent_change()` (parameterized.py:347-349, 358-360). -/
def reconnect (m : Multi T N) (x : Id) : Multi T N × Bool :=
  (m.setBase ((m.base.connect x).connectFixes x)).notifyParentChange x

/-- `__setstate__` of the new objects (parameterized.py:344-350). -/
def setstateF : Nat → Multi T N → Id → Multi T N × Bool
  | 0, m, _ => (m, false)
  | n + 1, m, x =>
    let r := untilError (fun m c => setstateF n m c) m (m.base.kids x)
    if r.2 then r else if m.base.leaf x then r else r.1.reconnect x

/-- `Pickleable.copy` (pickleable.py:69-95). -/
def copyBody (m : Multi T N) (x : Id) : Multi T N × Bool :=
  let m1 := m.setBase { m.base with visited := (m.base.copySearch x).marks }
  (m1.rawCopy x).setstateF (m1.rawCopy x).base.toGraph.fuel (m1.base.copyOf x x)

/-- `x.copy()` of a `Param` (param.py:201-202) and of a `Parameterized` (parameterized.py:352-361). -/
def copy (m : Multi T N) (x : Id) : Multi T N × Option FErr :=
  if m.base.leaf x then
    ((m.copyBody x).1, if (m.copyBody x).2 then some .keyError else none)
  else
    let r := (m.setBase (m.base.readOptimizerArray x)).copyBody x
    if r.2 then (r.1, some .keyError)
    else
      let s := r.1.reconnect (m.base.copyOf x x)
      (s.1, if s.2 then some .keyError else none)

/-! ### Proofs -/

variable {ns : List N} {m : Multi T N}

theorem reconnect_step (hu : Uni m ns) {x : Id} (hx : x < m.base.next) :
    ∃ m', m.reconnect x = (m', false) ∧ Step ns m m' (fun h => h.reconnect x) := by
  have s1 := connect_step hu hx
  have s2 := connectFixes_step s1.uni x
  obtain ⟨m', e, s3⟩ := notify_step s2.uni (x := x) (by rw [s2.next, s1.next]; exact hx)
  exact ⟨m', e, (s1.trans s2).trans s3⟩

theorem setstateF_step : ∀ (n : Nat) (m : Multi T N) (x : Id), Uni m ns → x < m.base.next →
    ∃ m', m.setstateF n x = (m', false) ∧ Step ns m m' (fun h => h.setstateF n x)
  | 0, m, x, hu, _ => ⟨m, rfl, Step.refl hu⟩
  | n + 1, m, x, hu, hx => by
    obtain ⟨m1, e1, s1⟩ := untilError_step (ns := ns) (step := fun m c => setstateF n m c)
      (op := fun c h => Heap.setstateF n h c) (k := m.base.next)
      (fun m' c h1 h2 h3 => setstateF_step n m' c h1 (by rw [h2]; exact h3)) (m.base.kids x) m hu rfl (hu.closed x)
    simp only [setstateF]
    rw [e1]
    simp only [Bool.false_eq_true, if_false]
    have hk : ∀ h : Heap T, Like m.base h → h.kids x = m.base.kids x ∧ h.leaf x = m.base.leaf x := fun h hl =>
      ⟨by rw [show h.kids = m.base.kids by rw [hl.graph]], by rw [show h.leaf = m.base.leaf by rw [hl.graph]]⟩
    by_cases hleaf : m.base.leaf x = true
    · rw [if_pos hleaf]
      refine ⟨m1, rfl, s1.congr fun h hl => ?_⟩
      simp only [Heap.setstateF]
      rw [(hk h hl).1, (hk h hl).2, if_pos hleaf]
    · rw [if_neg hleaf]
      obtain ⟨m2, e2, s2⟩ := reconnect_step s1.uni (x := x) (by rw [s1.next]; exact hx)
      refine ⟨m2, e2, (s1.trans s2).congr fun h hl => ?_⟩
      simp only [Heap.setstateF]
      rw [(hk h hl).1, (hk h hl).2, if_neg hleaf]

theorem rawCopy_like {b h : Heap T} (hl : Like b h) (x : Id) : Like (b.rawCopy x) (h.rawCopy x) := by
  obtain ⟨h1, h2, h3, h4⟩ := hl
  have hlift : ∀ {α : Type} (f g : Id → α), h.lift x f g = b.lift x f g := fun f g => by
    unfold Heap.lift; rw [h1]
  have hcopy : h.copyOf x = b.copyOf x := funext fun y => Heap.copyOf_graph h1 x y
  refine ⟨?_, ?_, ?_, ?_⟩
  · simp only [Heap.rawCopy, hlift, hcopy, h1]
  · simp only [Heap.rawCopy, hlift, h2]
  · simp only [Heap.rawCopy, hlift, h3]
  · simp only [Heap.rawCopy, hlift, h4]

theorem rawCopy_sim {h : Heap T} {f : N} (hs : Sim m h f) (x : Id) : Sim (m.rawCopy x) (h.rawCopy x) f := by
  have hlift : ∀ {α : Type} (p q : Id → α), h.lift x p q = m.base.lift x p q := fun p q => by
    unfold Heap.lift; rw [hs.graph]
  refine ⟨rawCopy_like hs.toLike x, ?_, ?_, ?_, fun d => ?_⟩
  · simp only [Heap.rawCopy, rawCopy, Fam.rawCopy, hlift, hs.iop, hs.nextDict, hs.graph]
  · simp only [Heap.rawCopy, rawCopy, Fam.rawCopy, hs.iop, hs.dicts, hs.nextDict, hs.graph]
    rfl
  · simp only [Heap.rawCopy, rawCopy, Fam.rawCopy, hs.nextDict, hs.graph]
  · simp only [Heap.rawCopy]
    split
    · exact hs.clean d
    · exact (hs.clean _).copy _

theorem rawCopy_uni (hu : Uni m ns) (s : Graph.Skel m.base.toGraph) {x : Id} (hx : x < m.base.next) :
    Uni (m.rawCopy x) ns := by
  have s' : Graph.Skel (m.rawCopy x).base.toGraph := Heap.raw_skel s hx
  refine ⟨hu.nodup, fun y hy => ?_, fun z c hc => (s'.alloc c z ((s'.mem_iff c z).mp hc)).1,
    fun z p hp => (s'.alloc z p hp).2⟩
  rcases Heap.raw_below s hy with h' | ⟨z, hz, rfl⟩
  · show m.base.lift x m.names m.names y = ns
    rw [Heap.lift_old _ _ h']
    exact hu.names y h'
  · show m.base.lift x m.names m.names _ = ns
    rw [Heap.lift_new s _ _ hz]
    refine hu.names z ?_
    by_cases hzx : z = x
    · rw [hzx]; exact hx
    · obtain ⟨p, hp, -⟩ := Heap.anc_up hz hzx
      exact (s.alloc z p hp).1

/-- One copy: the effect on every name. -/
theorem copy_step (hu : Uni m ns) (s : Graph.Skel m.base.toGraph) {x : Id} (hx : x < m.base.next) :
    ∃ m', m.copy x = (m', none) ∧ m'.base = (m.base.copy x).1 ∧ Uni m' ns ∧
      ∀ f ∈ ns, ∀ h, Sim m h f → Sim m' (h.copy x).1 f := by
  have body : ∀ m : Multi T N, Uni m ns → Graph.Skel m.base.toGraph → x < m.base.next →
      ∃ m', m.copyBody x = (m', false) ∧ m'.base = m.base.copyBody x ∧ m'.base.next = (m.base.rawCopy x).next ∧ Uni m' ns ∧
        ∀ f ∈ ns, ∀ h, Sim m h f → Sim m' (h.copyBody x) f := by
    intro m hu s hx
    have hm : ∀ h : Heap T, Like m.base h → (h.copySearch x).marks = (m.base.copySearch x).marks := fun h hl => by
      unfold Heap.copySearch; rw [hl.graph, hl.visited]
    have u1 : Uni (m.setBase { m.base with visited := (m.base.copySearch x).marks }) ns :=
      ⟨hu.nodup, hu.names, hu.closed, hu.up⟩
    have u2 := rawCopy_uni u1 s hx
    obtain ⟨m', e, st⟩ := setstateF_step ((m.setBase { m.base with visited := (m.base.copySearch x).marks }).rawCopy x).base.toGraph.fuel
      _ (m.base.copyOf x x) u2 (by
        rw [Heap.copyOf_self]
        exact lt_of_le_of_lt (Heap.copyOf_ge m.base x x) (Heap.copyOf_lt s .refl))
    refine ⟨m', e, st.base, st.next, st.uni, fun f hf h hs => ?_⟩
    have h1 : Sim (m.setBase { m.base with visited := (m.base.copySearch x).marks })
        { h with visited := (h.copySearch x).marks } f :=
      ⟨⟨hs.graph, hs.inInit, hs.inited, hm h hs.toLike⟩, hs.iop, hs.dicts, hs.nextDict, hs.clean⟩
    have h2 := st.sim f hf _ (rawCopy_sim h1 x)
    have e1 : h.copyOf x x = m.base.copyOf x x := Heap.copyOf_graph hs.graph x x
    have e2 : (({ h with visited := (h.copySearch x).marks } : Heap T).rawCopy x).toGraph =
        ((m.setBase { m.base with visited := (m.base.copySearch x).marks }).rawCopy x).base.toGraph :=
      (rawCopy_like h1.toLike x).graph
    unfold Heap.copyBody
    dsimp only
    rw [show ({ h with visited := (h.copySearch x).marks } : Heap T).copyOf x x = m.base.copyOf x x from e1, e2]
    exact h2
  unfold copy Heap.copy
  by_cases hl : m.base.leaf x = true
  · obtain ⟨m', e, b1, -, b3, b4⟩ := body m hu s hx
    rw [if_pos hl, if_pos hl, e]
    refine ⟨m', rfl, b1, b3, fun f hf h hs => ?_⟩
    rw [if_pos (by rw [show h.leaf = m.base.leaf by rw [hs.graph]]; exact hl)]
    exact b4 f hf h hs
  · rw [if_neg hl, if_neg hl]
    have hg : (m.base.readOptimizerArray x).toGraph = m.base.toGraph := Heap.readOptimizerArray_graph _ _
    have uR : Uni (m.setBase (m.base.readOptimizerArray x)) ns := by
      refine ⟨hu.nodup, fun y hy => hu.names y ?_, fun z c hc => ?_, fun z p hp => ?_⟩
      · have hy : y < (m.base.readOptimizerArray x).next := hy
        rw [hg] at hy; exact hy
      · have hc : c ∈ (m.base.readOptimizerArray x).kids z := hc
        show c < (m.base.readOptimizerArray x).next
        rw [hg] at hc ⊢; exact hu.closed z c hc
      · have hp : (m.base.readOptimizerArray x).parent z = some p := hp
        show p < (m.base.readOptimizerArray x).next
        rw [hg] at hp ⊢; exact hu.up z p hp
    have hxR : x < (m.setBase (m.base.readOptimizerArray x)).base.next := by
      show x < (m.base.readOptimizerArray x).next
      rw [hg]; exact hx
    obtain ⟨m1, e1, b1, b2, b3, b4⟩ := body (m.setBase (m.base.readOptimizerArray x)) uR
      (by show Graph.Skel (m.base.readOptimizerArray x).toGraph; rw [hg]; exact s) hxR
    have hlt : m.base.copyOf x x < m1.base.next := by
      rw [b2]
      have := Heap.copyOf_lt (h := m.base.readOptimizerArray x) (x := x) (by rw [hg]; exact s) (y := x) .refl
      rw [Heap.copyOf_graph hg] at this
      exact this
    obtain ⟨m2, e2, st⟩ := reconnect_step b3 hlt
    rw [e1]
    dsimp only
    rw [e2]
    refine ⟨m2, rfl, by rw [st.base, b1]; rfl, st.uni, fun f hf h hs => ?_⟩
    rw [if_neg (by rw [show h.leaf = m.base.leaf by rw [hs.graph]]; exact hl)]
    have hR : Sim (m.setBase (m.base.readOptimizerArray x)) (h.readOptimizerArray x) f := by
      obtain ⟨F, hF⟩ := Heap.readOptimizerArray_eq h x
      obtain ⟨G, hG⟩ := Heap.readOptimizerArray_eq m.base x
      rw [hF, hG]
      exact ⟨⟨hs.graph, hs.inInit, hs.inited, hs.visited⟩, hs.iop, hs.dicts, hs.nextDict, hs.clean⟩
    have := st.sim f hf _ (b4 f hf _ hR)
    rw [show h.copyOf x x = m.base.copyOf x x from Heap.copyOf_graph hs.graph x x]
    exact this

end Multi

end Paramz.Hier

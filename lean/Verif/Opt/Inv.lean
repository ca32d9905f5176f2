import Verif.Opt.Spec
import Verif.Opt.Lemmas

/-! Helper lemmas: what every call keeps. -/

set_option linter.unusedSectionVars false

namespace Paramz.Opt

open IndexOps (Arr lookup)
open Hier (Heap Con Id upd upd_same upd_ne)
open Hier.Heap (Target Reach Same Ctx Covers)
open Hier.Graph (Anc At)

variable {V T : Type} [DecidableEq T]

/-! ### Reading constraints -/

theorem Held.wf {s : State V T} (r : Held s) : s.heap.WF := r.reach.wf

theorem Ready.cons_eq {s : State V T} (r : Ready s) (c : Con T) :
    s.cons c = lookup (s.heap.dicts (s.heap.iop s.root).1) c := by
  unfold State.cons Heap.constraints
  rw [(r.wf.root _ r.lt r.root).1, IndexOps.Iop.get_base]

theorem Held.sorted {s : State V T} (r : Held s) (c : Con T) : (s.cons c).Pairwise (· < ·) :=
  r.wf.sorted_constraints r.lt c

theorem Held.bound {s : State V T} (r : Held s) {c : Con T} {i : Nat} (h : i ∈ s.cons c) : i < s.size :=
  (Hier.Heap.constraints_sorted r.reach r.lt c).2 i h

/-- A dictionary that has every key once. -/
theorem Held.dict_wf {s : State V T} (r : Held s) : IndexOps.WF (s.heap.dicts (s.heap.iop s.root).1) := by
  have w := r.wf
  obtain ⟨q, hq, hqa⟩ := w.skel.exists_root s.root
  have hlt := w.skel.anc_lt hqa r.lt
  obtain ⟨o, ho⟩ := w.skel.exists_at hqa
  by_cases hyr : s.root = q
  · rw [hyr]; exact w.dict q hlt hq
  · rw [w.view q s.root o hlt hq ho hyr]; exact w.dict q hlt hq

theorem Held.single {s : State V T} (r : Held s) {t u : T} {i : Nat} (h1 : i ∈ s.cons (.tr t))
    (h2 : i ∈ s.cons (.tr u)) : t = u := Hier.Heap.at_most_one_transformation r.reach r.lt h1 h2

theorem Held.mem_items {s : State V T} (r : Held s) {c : Con T} {a : Arr} :
    (c, a) ∈ s.items ↔ a = s.cons c ∧ a ≠ [] := by
  unfold State.items
  rw [IndexOps.Iop.mem_items _ (Held.dict_wf r).keys]
  unfold State.cons Heap.constraints
  constructor
  · rintro ⟨rfl, h⟩; exact ⟨rfl, h⟩
  · rintro ⟨rfl, h⟩; exact ⟨rfl, h⟩

theorem Held.items_bound {s : State V T} (r : Held s) : ∀ e ∈ s.items, ∀ i ∈ e.2, i < s.size := by
  rintro ⟨c, a⟩ he i hi
  rw [r.mem_items] at he
  have : i ∈ s.cons c := he.1 ▸ hi
  exact r.bound this

theorem Held.items_disjoint {s : State V T} (r : Held s) :
    s.items.Pairwise (fun e e' => ∀ i, Trans e i → ¬ Trans e' i) := by
  have hn : (s.items.map Prod.fst).Nodup := IndexOps.Iop.items_keys_nodup _ (Held.dict_wf r).keys
  have hp : s.items.Pairwise (fun e e' => e.1 ≠ e'.1) := by
    rw [List.Nodup, List.pairwise_map] at hn; exact hn
  have hm : s.items.Pairwise (fun e e' => e ∈ s.items ∧ e' ∈ s.items) := by
    exact List.pairwise_of_forall_mem_list (fun a ha b hb => ⟨ha, hb⟩)
  refine (hp.and hm).imp ?_
  rintro ⟨c, a⟩ ⟨c', a'⟩ ⟨hne, h1, h2⟩ i ⟨⟨t, ht⟩, hi⟩ ⟨⟨u, hu⟩, hi'⟩
  simp only at ht hu hi hi' hne
  subst ht; subst hu
  rw [r.mem_items] at h1 h2
  apply hne
  rw [r.single (t := t) (u := u) (h1.1 ▸ hi) (h2.1 ▸ hi')]

theorem Held.trans_iff {s : State V T} (r : Held s) {i : Nat} :
    (∀ e ∈ s.items, ¬ Trans e i) ↔ ∀ t, i ∉ s.cons (.tr t) := by
  constructor
  · intro h t ht
    exact h (.tr t, s.cons (.tr t)) (r.mem_items.mpr ⟨rfl, List.ne_nil_of_mem ht⟩) ⟨⟨t, rfl⟩, ht⟩
  · rintro h ⟨c, a⟩ he ⟨⟨t, ht⟩, hi⟩
    simp only at ht hi
    subst ht
    exact h t ((r.mem_items.mp he).1 ▸ hi)

theorem Held.mem_items_of {s : State V T} (r : Held s) {t : T} {i : Nat} (h : i ∈ s.cons (.tr t)) :
    (Con.tr t, s.cons (.tr t)) ∈ s.items := r.mem_items.mpr ⟨rfl, List.ne_nil_of_mem h⟩

theorem via_unique {s : State V T} (r : Held s) {g : T → V → V} {i : Nat} {v w w' : V}
    (h1 : Via s g i v w) (h2 : Via s g i v w') : w = w' := by
  by_cases h : ∃ t, i ∈ s.cons (.tr t)
  · obtain ⟨t, ht⟩ := h
    rw [h1.1 t ht, h2.1 t ht]
  · have h : ∀ t, i ∉ s.cons (.tr t) := fun t ht => h ⟨t, ht⟩
    rw [h1.2 h, h2.2 h]

/-! ### The stored mask -/

theorem Ready.mask {s : State V T} (r : Ready s) (hf : s.hasFixes = true) :
    s.heap.fixes s.root = some (Heap.maskOf s.size (s.cons .fixed)) := by
  have hne : s.cons .fixed ≠ [] := by simpa [State.hasFixes] using hf
  obtain ⟨h1, h2⟩ := r.wf.ready _ r.lt r.root r.node r.inInit r.inited
  rw [r.cons_eq] at hne ⊢
  cases hm : s.heap.fixes s.root with
  | none => exact absurd (h1 hm) hne
  | some m => rw [(r.wf.mask _ r.lt r.root r.node m hm).2 (h2 m hm)]; rfl

theorem Ready.setterMask_eq {s : State V T} (r : Ready s) :
    s.setterMask = if s.hasFixes then some (Heap.maskOf s.size (s.cons .fixed)) else none := by
  unfold State.setterMask
  rw [if_neg (fun h => h.1 r.root)]
  split
  · rename_i hf; exact r.mask hf
  · rfl

theorem Ready.ensureFixes_eq {s : State V T} (r : Ready s) (hf : s.hasFixes = true) :
    s.heap.ensureFixes s.root = Heap.maskOf s.size (s.cons .fixed) := by
  unfold Heap.ensureFixes
  rw [r.mask hf]
  simp only [maskOf_length]
  rw [if_neg (by simp [State.size])]

theorem Ready.ensureFixes_self {s : State V T} (r : Ready s) (hf : s.hasFixes = true) :
    s.ensureFixes = s := by
  unfold State.ensureFixes
  rw [r.ensureFixes_eq hf, ← r.mask hf]
  have : upd s.heap.fixes s.root (s.heap.fixes s.root) = s.heap.fixes := by
    funext y
    by_cases hy : y = s.root
    · subst hy; simp
    · simp [upd, hy]
  rw [this]

theorem free_eq {s : State V T} : free s = through (Heap.maskOf s.size (s.cons .fixed)) :=
  (through_maskOf _ _).symm

theorem free_of_no_fixes {s : State V T} (hf : s.hasFixes = false) : free s = List.range s.size := by
  have : s.cons .fixed = [] := by simpa [State.hasFixes] using hf
  unfold free
  rw [this]; simp

theorem mem_free {s : State V T} {i : Nat} : i ∈ free s ↔ i < s.size ∧ i ∉ s.cons .fixed := by
  unfold free; simp

theorem free_length {s : State V T} (r : Held s) : (free s).length = s.size - (s.cons .fixed).length :=
  range_filter_free_length (r.sorted _) (fun _ h => r.bound h)

/-! ### The optimiser's copy -/

/-- What the stored copy should be. -/
def optCopy (o : Ops V T) (s : State V T) : List V := finvAll o s.items s.vals s.vals

theorem optCopy_spec (o : Ops V T) {s : State V T} (r : Held s) :
    (optCopy o s).length = s.size ∧ ∀ i v, s.vals[i]? = some v → ∃ w, (optCopy o s)[i]? = some w ∧
      Via s o.finv i v w := by
  obtain ⟨h1, h2⟩ := finvAll_spec o (its := s.items) (src := s.vals) (a := s.vals) rfl
    (by rw [r.vals]; exact r.items_bound) r.items_disjoint
  refine ⟨h1.trans r.vals, fun i v hv => ?_⟩
  unfold optCopy
  by_cases h : ∃ t, i ∈ s.cons (.tr t)
  · obtain ⟨t, ht⟩ := h
    refine ⟨o.finv t v, ?_, fun u hu => by rw [r.single hu ht], fun hn => absurd ht (hn t)⟩
    rw [(h2 i).1 t _ (r.mem_items_of ht) ht, hv]; rfl
  · have h : ∀ t, i ∉ s.cons (.tr t) := fun t ht => h ⟨t, ht⟩
    exact ⟨v, by rw [(h2 i).2 (r.trans_iff.mpr h), hv], fun t ht => absurd ht (h t), fun _ => rfl⟩

/-- The copy depends only on values and transformations. -/
theorem optCopy_congr (o : Ops V T) {s s' : State V T} (r : Held s) (r' : Held s') (hv : s'.vals = s.vals)
    (hc : ∀ t i, i ∈ s'.cons (.tr t) ↔ i ∈ s.cons (.tr t)) : optCopy o s' = optCopy o s := by
  obtain ⟨l1, h1⟩ := optCopy_spec o r
  obtain ⟨l2, h2⟩ := optCopy_spec o r'
  have hl : s'.size = s.size := by rw [← r'.vals, ← r.vals, hv]
  apply List.ext_getElem?
  intro i
  by_cases hi : i < s.vals.length
  · have e := List.getElem?_eq_getElem hi
    obtain ⟨w, hw, v1⟩ := h1 i _ e
    obtain ⟨w', hw', v2⟩ := h2 i _ ((congrArg (·[i]?) hv).trans e)
    rw [hw, hw']
    have : Via s o.finv i s.vals[i] w' :=
      ⟨fun t ht => v2.1 t ((hc t i).mpr ht), fun hn => v2.2 (fun t ht => hn t ((hc t i).mp ht))⟩
    rw [via_unique r this v1]
  · rw [r.vals] at hi
    rw [List.getElem?_eq_none (by omega), List.getElem?_eq_none (by omega)]

/-- The stored copy is right whenever it is marked as up to date. -/
def Coherent (o : Ops V T) (s : State V T) : Prop := s.fresh = true → s.copy = some (optCopy o s)

/-! ### What calls keep -/

theorem Ready.heap {s : State V T} (r : Ready s) {h : Heap T} (hr : Reach h) (sm : Same s.heap h)
    {s' : State V T} (e1 : s'.heap = h) (e2 : s'.root = s.root) (e3 : s'.vals.length = s.vals.length) :
    Ready s' := by
  obtain ⟨⟨-, a, f⟩, b, c, d, e⟩ := r
  have hs : s'.size = s.size := by
    unfold State.size; rw [e1, e2, sm.graph]
  refine ⟨⟨e1 ▸ hr, ?_, by rw [e3, f, hs]⟩, ?_, ?_, ?_, ?_⟩
  · rw [e1, e2, sm.graph]; exact a
  · rw [e1, e2, sm.graph]; exact b
  · rw [e1, e2, sm.graph]; exact c
  · rw [e1, e2, sm.inInit]; exact d
  · rw [e1, e2, sm.inited]; exact e

theorem Ready.keep {s : State V T} (r : Ready s) {s' : State V T} (e1 : s'.heap = s.heap)
    (e2 : s'.root = s.root) (e3 : s'.vals.length = s.vals.length) : Ready s' :=
  r.heap r.reach (.refl _) e1 e2 e3

theorem setVals_length (o : Ops V T) (s : State V T) (p : List V) (r : Held s) :
    (s.setVals o p).length = s.vals.length := by
  unfold State.setVals
  rw [(fAll_spec o s.setterMask (by rw [assign_length, r.vals]; exact r.items_bound) r.items_disjoint).1,
    assign_length]

@[simp] theorem notify_heap (g : List V → List V) (s : State V T) : (s.notify g).heap = s.heap := by
  unfold State.notify; split <;> rfl
@[simp] theorem notify_root (g : List V → List V) (s : State V T) : (s.notify g).root = s.root := by
  unfold State.notify; split <;> rfl
@[simp] theorem notify_vals (g : List V → List V) (s : State V T) : (s.notify g).vals = s.vals := by
  unfold State.notify; split <;> rfl
@[simp] theorem notify_copy (g : List V → List V) (s : State V T) : (s.notify g).copy = s.copy := by
  unfold State.notify; split <;> rfl
@[simp] theorem notify_on (g : List V → List V) (s : State V T) : (s.notify g).on = s.on := by
  unfold State.notify; split <;> rfl
theorem notify_fresh (g : List V → List V) (s : State V T) : (s.notify g).fresh = (!s.on && s.fresh) := by
  unfold State.notify; split <;> simp_all

theorem Within.ctx {s : State V T} (r : Ready s) {x : Target} (h : Within s x) :
    ∃ o, Ctx s.heap x s.root o := by
  obtain ⟨r', o, c⟩ := h.1.exists_ctx r.wf
  have : r' = s.root := Hier.Graph.root_unique c.root r.root (c.pos.anc r.wf.skel) h.2
  subst this
  exact ⟨o, c⟩

theorem exec_ready {o : Ops V T} {g : List V → List V} {s : State V T} (r : Ready s) {e : Ev V T}
    (ha : Admissible s e) : Ready (exec o g s e) := by
  cases e with
  | read junk =>
    simp only [exec, State.readOpt]
    have r1 : Ready ({ s with
        copy := some (if s.fresh then s.buffer junk else finvAll o s.items s.vals s.vals)
        fresh := true } : State V T) := r.keep rfl rfl rfl
    split
    · rename_i hf
      exact (r1.ensureFixes_self hf).symm ▸ r1
    · exact r1
  | set p =>
    exact r.keep (by simp [exec, State.setOpt]) (by simp [exec, State.setOpt])
      (by simpa [exec, State.setOpt] using setVals_length o s p r)
  | write x vs =>
    exact r.keep (by simp [exec, State.write]) (by simp [exec, State.write])
      (by simp [exec, State.write, put_length])
  | constrain x sh c =>
    obtain ⟨-, sm⟩ := (Hier.Heap.constraining_wf r.wf ha.1).1 c
    have hr : Reach (s.heap.constrain x c) := .step (e := .constrain x c) r.reach ha.1
    cases c with
    | fixed => exact r.heap hr sm (by simp [exec, State.constrain]) (by simp [exec, State.constrain]) (by simp [exec, State.constrain])
    | tr t =>
      refine r.heap hr sm (by simp [exec, State.constrain]) (by simp [exec, State.constrain]) ?_
      simp only [exec, State.constrain, notify_vals]
      split
      · exact put_length _ _ _
      · rfl
  | unconstrain x ts =>
    exact r.heap (.step (e := .unconstrain x ts) r.reach ha.1)
      ((Hier.Heap.constraining_wf r.wf ha.1).2.1 ts).2 rfl rfl rfl
  | fix x =>
    exact r.heap (.step (e := .fix x) r.reach ha.1) (Hier.Heap.constraining_wf r.wf ha.1).2.2.1.2
      (by simp [exec, State.fix, Heap.exec]) (by simp [exec, State.fix]) (by simp [exec, State.fix])
  | unfix x =>
    exact r.heap (.step (e := .unfix x) r.reach ha.1) (Hier.Heap.constraining_wf r.wf ha.1).2.2.2.2
      rfl rfl rfl
  | updateModel b =>
    exact r.keep (by simp [exec, State.updateModel]) (by simp [exec, State.updateModel])
      (by simp [exec, State.updateModel])
  | optGrad => exact r.keep rfl rfl rfl
  | randomize d =>
    have r1 : Ready (s.updateModel g false) := r.keep (by simp [State.updateModel])
      (by simp [State.updateModel]) (by simp [State.updateModel])
    refine r.keep (by simp [exec, State.randomize, State.updateModel, State.setOpt])
      (by simp [exec, State.randomize, State.updateModel, State.setOpt]) ?_
    simp only [exec, State.randomize, State.updateModel, notify_vals, assign_length]
    simp only [State.setOpt, notify_vals]
    have := setVals_length o _ d r1.toHeld
    simpa [State.updateModel] using this

end Paramz.Opt

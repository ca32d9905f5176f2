import Verif.Opt.Inv

/-! Helper lemmas: when the stored copy is right. -/

set_option linter.unusedSectionVars false

namespace Paramz.Opt

open IndexOps (Arr lookup)
open Hier (Heap Con Id upd upd_same upd_ne)
open Hier.Heap (Target Reach Same Ctx Covers)
open Hier.Graph (Anc At)

variable {V T : Type} [DecidableEq T]

theorem cons_of_eff {s : State V T} (r : Ready s) {h : Heap T} {R : Con T → Nat → Prop}
    (e : Hier.Heap.Eff s.heap h s.root R) {s' : State V T} (e1 : s'.heap = h) (e2 : s'.root = s.root)
    (c : Con T) (i : Nat) : i ∈ s'.cons c ↔ R c i := by
  have : s'.cons c = lookup (h.dicts (s.heap.iop s.root).1) c := by
    unfold State.cons Heap.constraints
    rw [e1, e2, e.same.iop, (r.wf.root _ r.lt r.root).1, IndexOps.Iop.get_base]
  rw [this, e.mem]

theorem coherent_congr {o : Ops V T} {s s' : State V T} (r : Ready s) (r' : Ready s') (hv : s'.vals = s.vals)
    (hc : ∀ t i, i ∈ s'.cons (.tr t) ↔ i ∈ s.cons (.tr t)) (h1 : s'.copy = s.copy)
    (h2 : s'.fresh = true → s.fresh = true) (h : Coherent o s) : Coherent o s' := by
  intro hf
  rw [h1, h (h2 hf), optCopy_congr o r r' hv hc]

theorem coherent_of_stale {o : Ops V T} {s : State V T} (h : s.fresh = false) : Coherent o s := by
  intro hf; rw [h] at hf; cases hf

theorem buffer_eq {o : Ops V T} {s : State V T} (r : Held s) (h : Coherent o s) (hf : s.fresh = true)
    (junk : List V) : s.buffer junk = optCopy o s := by
  unfold State.buffer
  rw [h hf]
  simp only
  rw [if_pos (optCopy_spec o r).1]

theorem readOpt_state {o : Ops V T} {s : State V T} (r : Ready s) (junk : List V) :
    (s.readOpt o junk).1 = { s with
      copy := some (if s.fresh then s.buffer junk else optCopy o s), fresh := true } := by
  have r1 : Ready ({ s with
      copy := some (if s.fresh then s.buffer junk else finvAll o s.items s.vals s.vals)
      fresh := true } : State V T) := r.keep rfl rfl rfl
  simp only [State.readOpt]
  split
  · rename_i hf
    exact r1.ensureFixes_self hf
  · rfl

theorem exec_coherent {o : Ops V T} {g : List V → List V} {s : State V T} (r : Ready s) {e : Ev V T}
    (ha : Admissible s e) {b : Bool} (h : b = false → Coherent o s) (hb : unannounced s b e = false) :
    Coherent o (exec o g s e) := by
  have r' := exec_ready (o := o) (g := g) r ha
  cases e with
  | read junk =>
    have hc := h hb
    have hst := readOpt_state (o := o) r junk
    simp only [exec] at r' ⊢
    intro _
    rw [optCopy_congr o r.toHeld r'.toHeld (by rw [hst]) (by rw [hst]; exact fun _ _ => Iff.rfl), hst]
    cases hf : s.fresh with
    | true => simp [buffer_eq r hc hf]
    | false => simp
  | set p => exact coherent_of_stale (by simp [exec, State.setOpt, notify_fresh])
  | write x vs =>
    have hon : s.on = true := by simpa [unannounced] using hb
    exact coherent_of_stale (by simp [exec, State.write, notify_fresh, hon])
  | constrain x sh c =>
    cases c with
    | tr t =>
      have hon : s.on = true := by simpa [unannounced] using hb
      exact coherent_of_stale (by simp [exec, State.constrain, notify_fresh, hon])
    | fixed =>
      cases hon : s.on with
      | true => exact coherent_of_stale (by simp [exec, State.constrain, notify_fresh, hon])
      | false =>
        obtain ⟨o', c⟩ := ha.ctx r
        have e := (Hier.Heap.fix_spec r.wf c).2
        refine coherent_congr r r' (by simp [exec, State.constrain]) (fun t i => ?_)
          (by simp [exec, State.constrain]) (by simp [exec, State.constrain, notify_fresh]) (h (by simpa [unannounced, hon] using hb))
        rw [cons_of_eff r e (s' := exec o g s (.constrain x sh .fixed)) (by simp [exec, State.constrain, Heap.constrain]) (by simp [exec, State.constrain]),
          r.cons_eq]
        simp
  | unconstrain x ts =>
    have hb' : b = false ∧ ts = [.fixed] := by simpa [unannounced] using hb
    obtain ⟨hb0, rfl⟩ := hb'
    obtain ⟨o', c⟩ := ha.ctx r
    have e := (Hier.Heap.unconstrain_spec r.wf c [.fixed]).2
    refine coherent_congr r r' rfl (fun t i => ?_) rfl id (h hb0)
    rw [cons_of_eff r e (s' := exec o g s (.unconstrain x [.fixed])) rfl rfl, r.cons_eq]
    simp
  | fix x =>
    cases hon : s.on with
    | true => exact coherent_of_stale (by simp [exec, State.fix, notify_fresh, hon])
    | false =>
      obtain ⟨o', c⟩ := ha.ctx r
      have e := (Hier.Heap.fix_spec r.wf c).2
      refine coherent_congr r r' (by simp [exec, State.fix]) (fun t i => ?_)
        (by simp [exec, State.fix]) (by simp [exec, State.fix, notify_fresh]) (h (by simpa [unannounced, hon] using hb))
      rw [cons_of_eff r e (s' := exec o g s (.fix x)) (by simp [exec, State.fix]) (by simp [exec, State.fix]),
        r.cons_eq]
      simp
  | unfix x =>
    obtain ⟨o', c⟩ := ha.ctx r
    have e := (Hier.Heap.unfix_spec r.wf c).2
    refine coherent_congr r r' rfl (fun t i => ?_) rfl id (h hb)
    rw [cons_of_eff r e (s' := exec o g s (.unfix x)) rfl rfl, r.cons_eq]
    simp
  | updateModel u =>
    cases u with
    | true => exact coherent_of_stale (by simp [exec, State.updateModel, notify_fresh])
    | false =>
      have hs : exec o g s (.updateModel false) = { s with on := false } := by
        simp [exec, State.updateModel, State.notify]
      refine coherent_congr r r' (by rw [hs]) (by rw [hs]; exact fun _ _ => Iff.rfl) (by rw [hs])
        (by rw [hs]; exact id) (h (by simpa [unannounced] using hb))
  | optGrad => exact coherent_congr r r' rfl (fun _ _ => Iff.rfl) rfl id (h hb)
  | randomize d =>
    refine coherent_of_stale ?_
    simp only [exec, State.randomize, State.updateModel, notify_fresh, State.setOpt]
    simp

theorem history_ready {o : Ops V T} {g : List V → List V} {s s' : State V T} {b b' : Bool}
    (hh : History o g s b s' b') (r : Ready s) : Ready s' := by
  induction hh with
  | nil => exact r
  | snoc _ e ha ih => exact exec_ready ih ha

theorem history_coherent {o : Ops V T} {g : List V → List V} {s s' : State V T} {b b' : Bool}
    (hh : History o g s b s' b') (r : Ready s) (h : b = false → Coherent o s) : b' = false → Coherent o s' := by
  induction hh with
  | nil => exact h
  | snoc hh e ha ih => exact fun hb => exec_coherent (history_ready hh r) ha ih hb

/-- What a read returns if copy and mask are right. -/
theorem readOpt_held {o : Ops V T} {s : State V T} (r : Held s) (h : Coherent o s)
    (hmk : s.hasFixes = true → s.heap.ensureFixes s.root = Heap.maskOf s.size (s.cons .fixed)) (junk : List V) :
    ListsFree o s (s.readOpt o junk).2 := by
  have hc : (if s.fresh then s.buffer junk else finvAll o s.items s.vals s.vals) = optCopy o s := by
    cases hf : s.fresh with
    | true => simp [buffer_eq r h hf]
    | false => simp [optCopy]
  obtain ⟨hl, hv⟩ := optCopy_spec o r
  have key : (s.readOpt o junk).2 = pick (optCopy o s) (free s) := by
    simp only [State.readOpt]
    rw [hc]
    cases hf : s.hasFixes with
    | true =>
      simp only [if_true]
      have he : s.heap.ensureFixes s.root = _ := hmk hf
      rw [he, select_eq _ _ (by rw [hl, maskOf_length]), free_eq]
    | false =>
      simp only [Bool.false_eq_true, if_false]
      rw [free_of_no_fixes hf, ← hl]
      apply List.ext_getElem?
      intro i
      rw [getElem?_pick (by simp)]
      by_cases hi : i < (optCopy o s).length
      · rw [List.getElem?_range hi]; rfl
      · rw [List.getElem?_eq_none (by omega), List.getElem?_eq_none (l := List.range _) (by simpa using hi)]; rfl
  have hb : ∀ j ∈ free s, j < (optCopy o s).length := fun j hj => by rw [hl]; exact (mem_free.mp hj).1
  have hlen : (s.readOpt o junk).2.length = (free s).length := by rw [key, pick_length hb]
  refine ⟨hlen.trans (free_length r), hlen, fun k i hk => ?_⟩
  have hi : i < s.vals.length := by
    rw [r.vals]; exact (mem_free.mp (List.mem_of_getElem? hk)).1
  obtain ⟨w, hw, hvia⟩ := hv i s.vals[i] (List.getElem?_eq_getElem hi)
  exact ⟨_, w, List.getElem?_eq_getElem hi, by rw [key, getElem?_pick hb, hk]; exact hw, hvia⟩

/-- What a read returns. -/
theorem readOpt_lists {o : Ops V T} {s : State V T} (r : Ready s) (h : Coherent o s) (junk : List V) :
    ListsFree o s (s.readOpt o junk).2 := readOpt_held r h (fun hf => r.ensureFixes_eq hf) junk

/-- Two lists of the free elements of the same model are equal. -/
theorem ListsFree.unique {o : Ops V T} {s : State V T} (r : Held s) {l l' : List V} (h : ListsFree o s l)
    (h' : ListsFree o s l') : l = l' := by
  apply List.ext_getElem?
  intro k
  by_cases hk : k < (free s).length
  · obtain ⟨v, w, hv, hw, hvia⟩ := h.2.2 k _ (List.getElem?_eq_getElem hk)
    obtain ⟨v', w', hv', hw', hvia'⟩ := h'.2.2 k _ (List.getElem?_eq_getElem hk)
    rw [hv] at hv'
    cases hv'
    rw [hw, hw', via_unique r hvia hvia']
  · rw [List.getElem?_eq_none (by rw [h.2.1]; omega), List.getElem?_eq_none (by rw [h'.2.1]; omega)]

end Paramz.Opt

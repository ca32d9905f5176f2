import Verif.Notify.Lemmas

/-!
# The registrations stay right
-/

set_option linter.unusedSectionVars false

namespace Paramz.Notify

open Hier (Heap Id upd upd_same upd_ne)
open Hier.Graph (Anc Skel anc_iff_of_parent)
open Hier.Heap (WF LinkOK)

variable {T : Type} [DecidableEq T]

theorem std_congr {h h' : Heap T} {x : Id} (hl : h'.leaf x = h.leaf x) (hp : h'.parent x = h.parent x) :
    std h' x = std h x := by
  unfold std; rw [hl, hp]

/-- Nothing but the hierarchy changes, and that not in shape. -/
theorem Inv.of_graph {s s' : State T} (i : Inv s) (hq : s'.heap.Quiet)
    (hg : s'.heap.toGraph = s.heap.toGraph) (ho : s'.obs = s.obs) : Inv s' := by
  have hn : s'.heap.next = s.heap.next := congrArg Hier.Graph.next hg
  refine ⟨⟨hq.reach, fun x hx => ?_, fun x hx => ?_⟩, hq⟩
  · rw [ho]; exact i.sorted x (hn ▸ hx)
  · rw [ho, i.regs x (hn ▸ hx)]
    exact (std_congr (congrFun (congrArg Hier.Graph.leaf hg) x)
      (congrFun (congrArg Hier.Graph.parent hg) x)).symm

/-- Only one object's registrations and parent change. -/
theorem Inv.of_parent {s s' : State T} (i : Inv s) {x : Id} {l : List Reg} (hq : s'.heap.Quiet)
    (hn : s'.heap.next = s.heap.next) (hl : s'.heap.leaf = s.heap.leaf)
    (hp : ∀ y, y ≠ x → s'.heap.parent y = s.heap.parent y) (ho : s'.obs = upd s.obs x l)
    (hs : x < s.heap.next → Sorted l) (hf : x < s.heap.next → l.filter isStd = std s'.heap x) :
    Inv s' := by
  refine ⟨⟨hq.reach, fun y hy => ?_, fun y hy => ?_⟩, hq⟩
  · rw [ho]
    by_cases h : y = x
    · subst h; rw [upd_same]; exact hs (hn ▸ hy)
    · rw [upd_ne _ _ h]; exact i.sorted y (hn ▸ hy)
  · rw [ho]
    by_cases h : y = x
    · subst h; rw [upd_same]; exact hf (hn ▸ hy)
    · rw [upd_ne _ _ h, i.regs y (hn ▸ hy)]
      exact (std_congr (congrFun hl y) (hp y h)).symm

theorem filter_std_remove {h : Heap T} {x q : Id} (hp : h.parent x = some q) :
    (std h x).filter (fun e => decide (e.callee ≠ .pass q)) =
      if h.leaf x then [] else [⟨((-100 : Int) : Prio), .changed⟩] := by
  unfold std
  rw [hp]
  cases h.leaf x <;> simp

/-- A successful `link` moves `x` below `p` and changes no other object's parent. -/
theorem link_parents {h : Heap T} (w : WF h) {p x : Id} {index : Option Int} (ok : LinkOK h p x index)
    (he : (h.link p x index).2 = none) : ∀ y, y ≠ x → (h.link p x index).1.parent y = h.parent y := by
  intro y hy
  have root : ∀ {k : Heap T} (_ : WF k) (_ : LinkOK k p x index) (_ : k.leaf p = false)
      (_ : k.parent x = none), (k.linkRoot p x index).1.parent y = k.parent y := by
    intro k wk okk hl hpx
    exact (Hier.Heap.linkRoot_wf wk okk.ltx okk.ltp hpx hl okk.outside okk.ready (okk.pos wk hpx)).2.1.parent_ne
      y hy
  unfold Heap.link at he ⊢
  cases hl : h.leaf p with
  | true => simp [hl] at he
  | false =>
    simp only [hl, Bool.false_eq_true, if_false] at he ⊢
    by_cases hx : x ∈ h.kids p
    · rw [if_pos hx] at he ⊢
      cases index with
      | none => cases he
      | some j =>
        obtain ⟨A, B, hk⟩ := List.append_of_mem hx
        obtain ⟨w1, i, -, hv, -⟩ := Hier.Heap.unlinkChild_wf w hk
        have hpx1 : (h.unlinkChild p x).parent x = none := i.root
        have hlk : (h.unlinkChild p x).linkNew p x (some j)
            = (h.unlinkChild p x).linkRoot p x (some j) := by
          unfold Heap.linkNew; rw [hpx1]
        simp only [hlk]
        rw [root w1 (ok.unlink w hk)
          (by rw [← show h.leaf = (h.unlinkChild p x).leaf from i.leaf]; exact hl) hpx1]
        exact (i.parent_ne y hy).symm
    · rw [if_neg hx] at he ⊢
      unfold Heap.linkNew at he ⊢
      cases hpar : h.parent x with
      | none =>
        simp only []
        rw [root w ok hl hpar]
      | some q =>
        simp only [hpar] at he ⊢
        generalize h.toGraph.traverseParents (fun _ y => decide (y = p)) ⟨h.visited, [], false⟩ x = t at *
        cases hsr : t.raised with
        | true => simp [hsr] at he
        | false =>
          simp only [Bool.false_eq_true, if_false]
          have w' : WF ({ h with visited := t.marks } : Heap T) := ⟨w.1, w.2, w.3, w.4, w.5, w.6, w.7, w.8, w.9, w.10⟩
          have ok' : LinkOK ({ h with visited := t.marks } : Heap T) p x index :=
            ⟨ok.ltp, ok.ltx, ok.outside, ok.ready, ok.index⟩
          have hxq : x ∈ h.kids q := (w.skel.mem_iff _ _).mpr hpar
          obtain ⟨A, B, hk⟩ := List.append_of_mem hxq
          obtain ⟨w1, i, -, hv, -⟩ := Hier.Heap.unlinkChild_wf w' (q := q) (x := x) (A := A) (B := B) hk
          rw [root w1 (ok'.unlink w' hk)
            (by rw [← show h.leaf = _ from i.leaf]; exact hl) i.root]
          exact (i.parent_ne y hy).symm

theorem finishInit_graph {h : Heap T} (w : WF h) {x : Id} (hx : x < h.next) (b : Bool) :
    (h.finishInit x b).toGraph = h.toGraph := (Hier.Heap.finishInit_wf w hx b).2.1

theorem init_graph {h : Heap T} (w : WF h) {x : Id} (hx : x < h.next) :
    (h.initializeParameter x).toGraph = h.toGraph := by
  obtain ⟨r, D, F, J, -, -, -, -, -, -, -, -, -, -, he⟩ := Hier.Heap.initialize_eq w hx
  rw [he]

theorem exec_inv {s : State T} (i : Inv s) {e : Ev T} (ha : Admissible s e) : Inv (exec s e).1 := by
  cases e with
  | addObserver x u p =>
    exact i.of_parent i.quiet rfl rfl (fun _ _ => rfl) rfl (fun hx => (i.sorted x hx).addReg)
      (fun hx => by rw [filter_addReg_user]; exact i.regs x hx)
  | removeObserver x u =>
    refine i.of_parent i.quiet rfl rfl (fun _ _ => rfl) rfl (fun hx => (i.sorted x hx).removeReg)
      (fun hx => ?_)
    rw [filter_removeReg, i.regs x hx]
    show _ = std s.heap x
    rw [List.filter_eq_self]
    intro r hr
    unfold std at hr
    rw [List.mem_append] at hr
    rcases hr with hr | hr
    · split at hr
      · simp at hr
      · rw [List.mem_singleton] at hr; subst hr; simp
    · split at hr
      · simp at hr
      · rw [List.mem_singleton] at hr; subst hr; simp
  | updateModel x b => exact i.of_graph i.quiet rfl rfl
  | write x => exact i
  | trigger x tp => exact i
  | hier e =>
    obtain ⟨had, hne⟩ := ha
    have hq : (s.heap.exec e).1.Quiet := .step i.quiet had hne
    have w := i.wf
    have fresh : ∀ y, y < s.heap.next → y ≠ s.heap.next := fun y h => by omega
    have nopar : s.heap.parent s.heap.next = none := by
      cases hp : s.heap.parent s.heap.next with
      | none => rfl
      | some q => exact absurd (w.skel.alloc _ _ hp).1 (by simp)
    have new : ∀ (h' : Heap T) (l : List Reg) (on : Id → Bool), h'.Quiet → h'.next = s.heap.next + 1 →
        (∀ y, y ≠ s.heap.next → h'.leaf y = s.heap.leaf y ∧ h'.parent y = s.heap.parent y) →
        Sorted l → l.filter isStd = std h' s.heap.next → Inv ⟨h', on, upd s.obs s.heap.next l⟩ := by
      intro h' l on hq hn hk hs hf
      refine ⟨⟨hq.reach, fun y hy => ?_, fun y hy => ?_⟩, hq⟩
      · show Sorted (upd s.obs s.heap.next l y)
        by_cases h : y = s.heap.next
        · subst h; rw [upd_same]; exact hs
        · rw [upd_ne _ _ h]
          exact i.sorted y (by have : y < h'.next := hy; omega)
      · show (upd s.obs s.heap.next l y).filter isStd = std h' y
        by_cases h : y = s.heap.next
        · subst h; rw [upd_same]; exact hf
        · rw [upd_ne _ _ h, i.regs y (by have : y < h'.next := hy; omega)]
          exact (std_congr (hk y h).1 (hk y h).2).symm
    cases e with
    | newParam n =>
      refine new (s.heap.exec (.newParam n)).1 [] _ hq rfl (fun y hy => ⟨upd_ne _ _ hy, upd_ne _ _ hy⟩) List.Pairwise.nil ?_
      unfold std
      have h1 : (s.heap.exec (.newParam n)).1.leaf s.heap.next = true := upd_same _ _ _
      have h2 : (s.heap.exec (.newParam n)).1.parent s.heap.next = none := upd_same _ _ _
      rw [h1, h2]; rfl
    | newNode =>
      refine new (s.heap.exec .newNode).1 _ _ hq rfl (fun y hy => ⟨upd_ne _ _ hy, upd_ne _ _ hy⟩)
        (List.pairwise_singleton _ _) ?_
      unfold std
      have h1 : (s.heap.exec .newNode).1.leaf s.heap.next = false := upd_same _ _ _
      have h2 : (s.heap.exec .newNode).1.parent s.heap.next = none := upd_same _ _ _
      rw [h1, h2]; rfl
    | finishInit x b => exact i.of_graph hq (finishInit_graph w had.1 b) rfl
    | init x => exact i.of_graph hq (init_graph w had) rfl
    | unconstrain x cs => exact i.of_graph hq ((Hier.Heap.constraining_wf w had).2.1 cs).2.graph rfl
    | fix x => exact i.of_graph hq (Hier.Heap.constraining_wf w had).2.2.1.2.graph rfl
    | unfix x => exact i.of_graph hq (Hier.Heap.constraining_wf w had).2.2.2.2.graph rfl
    | constrain x c =>
      cases c with
      | fixed => exact i.of_graph hq ((Hier.Heap.constraining_wf w had).1 _).2.graph rfl
      | tr t => exact i.of_graph hq ((Hier.Heap.constraining_wf w had).1 _).2.graph rfl
    | unlink q x =>
      have hne : (s.heap.unlink q x).2 = none := hne
      have hx : x ∈ s.heap.kids q := by
        unfold Heap.unlink at hne
        split at hne
        · cases hne
        · split at hne
          · assumption
          · cases hne
      have hpar := (w.skel.mem_iff _ _).mp hx
      have hex : (exec s (.hier (.unlink q x))).1 =
          ⟨(s.heap.unlink q x).1, s.on, upd s.obs x (removeReg (.pass q) (s.obs x))⟩ := by
        show (s.hier (.unlink q x)).1 = _
        simp only [State.hier]
        rw [if_neg (by rw [show (s.heap.exec (.unlink q x)).2 = none from hne]; simp)]
        rfl
      rw [hex]
      have hu : (s.heap.unlink q x).1 = s.heap.unlinkChild q x := by
        unfold Heap.unlink
        rw [show s.heap.leaf q = false from w.skel.kids_not_leaf hpar]
        simp [hx]
      obtain ⟨A, B, hk⟩ := List.append_of_mem hx
      obtain ⟨w1, ii, -⟩ := Hier.Heap.unlinkChild_wf w hk
      refine i.of_parent hq ?_ ?_ ?_ rfl (fun hx => (i.sorted x hx).removeReg) (fun hxlt => ?_)
      · show (s.heap.unlink q x).1.next = _
        rw [hu]; exact ii.next.symm
      · show (s.heap.unlink q x).1.leaf = _
        rw [hu]; exact ii.leaf.symm
      · intro y hy
        show (s.heap.unlink q x).1.parent y = _
        rw [hu]; exact (ii.parent_ne y hy).symm
      · rw [filter_removeReg, i.regs x hxlt, filter_std_remove hpar]
        show _ = std (s.heap.unlink q x).1 x
        rw [hu]
        unfold std
        rw [show (s.heap.unlinkChild q x).parent x = none from ii.root,
          ← show s.heap.leaf x = (s.heap.unlinkChild q x).leaf x from congrFun ii.leaf x]
        simp
    | link p x index =>
      have ok : LinkOK s.heap p x index := had
      have hne : (s.heap.link p x index).2 = none := hne
      have lp := Hier.Heap.link_post w ok
      have hpx := (lp.ok hne).2
      obtain ⟨l, hl⟩ : ∃ l, l = (match s.heap.parent x with
        | none => s.obs x
        | some q => removeReg (.pass q) (s.obs x)) := ⟨_, rfl⟩
      have hex : (exec s (.hier (.link p x index))).1 =
          ⟨(s.heap.link p x index).1, s.on, upd s.obs x (addReg ⟨⊥, .pass p⟩ l)⟩ := by
        show (s.hier (.link p x index)).1 = _
        simp only [State.hier]
        rw [if_neg (by rw [show (s.heap.exec (.link p x index)).2 = none from hne]; simp), hl]
        rfl
      have hls : Sorted l ∧ l.filter isStd =
          if s.heap.leaf x then [] else [⟨((-100 : Int) : Prio), .changed⟩] := by
        rw [hl]
        cases hp : s.heap.parent x with
        | none =>
          refine ⟨i.sorted x ok.ltx, ?_⟩
          show (s.obs x).filter isStd = _
          rw [i.regs x ok.ltx]
          unfold std; rw [hp]; simp
        | some q =>
          refine ⟨(i.sorted x ok.ltx).removeReg, ?_⟩
          show (removeReg (.pass q) (s.obs x)).filter isStd = _
          rw [filter_removeReg, i.regs x ok.ltx, filter_std_remove hp]
      rw [hex]
      refine i.of_parent hq lp.next lp.leaf (link_parents w ok hne) rfl (fun _ => hls.1.addReg)
        (fun _ => ?_)
      rw [filter_addReg_pass, hls.2]
      unfold std
      rw [show (s.heap.link p x index).1.parent x = some p from hpx,
        show (s.heap.link p x index).1.leaf x = s.heap.leaf x from congrFun lp.leaf x]

theorem Reach.inv {s : State T} (hr : Reach s) : Inv s := by
  induction hr with
  | empty =>
    exact ⟨⟨.empty, fun x hx => absurd hx (Nat.not_lt_zero x), fun x hx => absurd hx (Nat.not_lt_zero x)⟩, .empty⟩
  | step _ ha ih => exact exec_inv ih ha

end Paramz.Notify

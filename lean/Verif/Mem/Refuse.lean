import Verif.Mem.PlanProps

/-!
# C96, continued: the plan knows which links are refused

Source: `paramz/parameterized.py:128-226` (`link_parameter`, `unlink_parameter`). In `Mem/Plan.lean` the plan is told
which calls raise. Here it decides that itself.
-/

set_option linter.unusedSectionVars false

namespace Paramz.Hier.Heap

variable {T : Type} [DecidableEq T]

/-- Admissible calls that do not raise leave no marks. -/
theorem exec_clean {h : Heap T} (hr : Reach h) (hv : h.visited = fun _ => false) {e : Ev T} (ha : h.Admissible e)
    (hq : (h.exec e).2 = none) : (h.exec e).1.visited = fun _ => false := by
  have w := hr.wf
  have hnew : ∀ l n i, (h.newObj l n i).visited = fun _ => false := by
    intro l n i
    show upd h.visited h.next false = _
    rw [hv]; funext y
    unfold upd; split <;> rfl
  have hinit : ∀ (h : Heap T) x, (h.initializeParameter x).visited = h.visited := by
    intro h x
    unfold initializeParameter
    simp only []
    rw [connectFixes_visited]
    show (notifyParentChange _ _).visited = _
    rw [notify_visited]
  have hun : ∀ (h : Heap T) q x, WF h → x ∈ h.kids q → (h.unlinkChild q x).visited = h.visited := by
    intro h q x w hx
    obtain ⟨A, B, hk⟩ := List.append_of_mem hx
    exact (unlinkChild_wf w hk).2.2.2.1
  cases e with
  | newParam n => exact hnew _ _ _
  | newNode => exact hnew _ _ _
  | finishInit x i =>
    show (h.finishInit x i).visited = _
    unfold finishInit
    simp only []
    split
    · rw [hinit]; exact hv
    · exact hv
  | init x => show (h.initializeParameter x).visited = _; rw [hinit]; exact hv
  | link p x i =>
    show (h.link p x i).1.visited = _
    have hq : (h.link p x i).2 = none := hq
    unfold link at hq ⊢
    split
    · exact hv
    · rename_i hl
      rw [if_neg hl] at hq
      split
      · rename_i hx
        rw [if_pos hx] at hq
        cases i with
        | none => exact hv
        | some i =>
          obtain ⟨A, B, hk⟩ := List.append_of_mem hx
          exact linkNew_clean (unlinkChild_wf w hk).1 (by rw [hun h p x w hx]; exact hv) hq
      · rename_i hx
        rw [if_neg hx] at hq
        exact linkNew_clean w hv hq
  | unlink q x =>
    show (h.unlink q x).1.visited = _
    unfold unlink
    split
    · exact hv
    · split
      · rename_i hx
        rw [hun h q x w hx]; exact hv
      · exact hv
  | constrain x c => exact (((constraining_wf w ha).1 c).2.visited).trans hv
  | unconstrain x cs => exact (((constraining_wf w ha).2.1 cs).2.visited).trans hv
  | fix x => exact ((constraining_wf w ha).2.2.1.2.visited).trans hv
  | unfix x => exact ((constraining_wf w ha).2.2.2.2.visited).trans hv

/-- Neither do copies. -/
theorem copy_clean {h : Heap T} (hr : Reach h) (hv : h.visited = fun _ => false) (x : Id) :
    (h.copy x).1.visited = fun _ => false := by
  rw [copy_visited]
  have hm : (h.copySearch x).marks = fun _ => false := by
    unfold copySearch
    rw [hv]
    exact (Graph.traverse_parents_visits_partial hr.wf.skel (fun _ _ => rfl) x).2.2.2
  rw [hm]
  funext i
  unfold lift
  split <;> rfl

end Paramz.Hier.Heap

namespace Paramz.Memory

open Hier (Id Graph Heap Con upd upd_same upd_ne)
open Hier.Heap (Target LinkOK insertPos)
open Hier.Graph (Skel Sized At Anc Ins)
open Opt (Ops flattened flattened_eq)
open State

/-! ### Specification -/

namespace Plan

variable {V T W : Type} [DecidableEq T]

/-- `x` is a parameter of some object, and some object contains both `x` and `p`. -/
def together (P : Plan V T) (p x : Id) : Bool :=
  (List.range P.next).any (fun q => decide (x ∈ P.kids q)) &&
    (List.range P.next).any (fun r => decide (x ∈ P.tree r) && decide (p ∈ P.tree r))

/-- The call asks to move `x` within its own model. -/
def inside (P : Plan V T) : Move V T W → Bool
  | .link p x _ => (P.row p).isNone && !decide (x ∈ P.kids p) && P.together p x
  | _ => false

/-- The calls that raise: linking to a `Param`, linking a parameter again without saying where, moving something within its
own model, and unlinking what is not there. -/
def refuses (P : Plan V T) : Move V T W → Bool
  | .link p x index => (P.row p).isSome || (if x ∈ P.kids p then index.isNone else P.together p x)
  | .unlink p x => !decide (p < P.next ∧ P.row p = none ∧ x ∈ P.kids p)
  | _ => false

/-- Many calls: for each, whether it raises and what it shows. -/
def run (o : Ops V T) (F : List V → W) (g : List V → List V) :
    List (Move V T W) → Plan V T → Plan V T × List (Bool × Shown V W)
  | [], P => (P, [])
  | m :: ms, P =>
    let e := P.exec o F g (P.refuses m) m
    let e' := run o F g ms e.1
    (e'.1, (P.refuses m, e.2) :: e'.2)

/-- The program ends as soon as it asks to move something within its own model. -/
def Stops (o : Ops V T) (F : List V → W) (g : List V → List V) : List (Move V T W) → Plan V T → Prop
  | [], _ => True
  | m :: ms, P => (P.inside m = true → ms = []) ∧ Stops o F g ms (P.exec o F g (P.refuses m) m).1

end Plan

/-! ### Proofs -/

variable {V T W : Type} [DecidableEq T] {spoil : Nat → Nat → V}

theorem Represents.together_iff {s : State V T} {P : Plan V T} (h : Path spoil s) (rp : Represents s P) {p x : Id} (hp : p < P.next)
    (hx : x < P.next) :
    P.together p x = true ↔ s.heap.parent x ≠ none ∧ s.heap.toGraph.highest x = s.heap.toGraph.highest p := by
  have sk := h.reach.heap.wf.skel
  have e1 : (List.range P.next).any (fun q => decide (x ∈ P.kids q)) = true ↔ s.heap.parent x ≠ none := by
    rw [List.any_eq_true]
    constructor
    · rintro ⟨q, hq, hm⟩
      rw [decide_eq_true_eq, ← rp.kids q (List.mem_range.mp hq)] at hm
      rw [(sk.mem_iff _ _).mp hm]
      exact Option.some_ne_none _
    · intro hne
      obtain ⟨q, hq⟩ := Option.ne_none_iff_exists'.mp hne
      have hlt : q < P.next := by rw [← rp.next]; exact (sk.alloc _ _ hq).2
      refine ⟨q, List.mem_range.mpr hlt, ?_⟩
      rw [decide_eq_true_eq, ← rp.kids q hlt]
      exact (sk.mem_iff _ _).mpr hq
  have e2 : (List.range P.next).any (fun r => decide (x ∈ P.tree r) && decide (p ∈ P.tree r)) = true ↔
      s.heap.toGraph.highest x = s.heap.toGraph.highest p := by
    rw [List.any_eq_true]
    constructor
    · rintro ⟨r, hr, hm⟩
      rw [Bool.and_eq_true, decide_eq_true_eq, decide_eq_true_eq, rp.tree sk (List.mem_range.mp hr), sk.mem_subtree,
        sk.mem_subtree] at hm
      obtain ⟨r0, hr0, ha⟩ := sk.exists_root r
      rw [sk.highest_eq hr0 (ha.trans hm.1), sk.highest_eq hr0 (ha.trans hm.2)]
    · intro he
      obtain ⟨-, ax⟩ := sk.highest_spec x
      obtain ⟨-, ap⟩ := sk.highest_spec p
      have hlt : s.heap.toGraph.highest x < P.next := by
        rw [← rp.next]
        exact sk.anc_lt ax (by rw [rp.next]; exact hx)
      refine ⟨_, List.mem_range.mpr hlt, ?_⟩
      rw [Bool.and_eq_true, decide_eq_true_eq, decide_eq_true_eq, rp.tree sk hlt, sk.mem_subtree, sk.mem_subtree]
      exact ⟨ax, by rw [he]; exact ap⟩
  unfold Plan.together
  rw [Bool.and_eq_true, e1, e2]

/-- The plan knows whether a link raises. -/
theorem refuses_link {s : State V T} {P : Plan V T} (h : Path spoil s) (rp : Represents s P)
    (hv : s.heap.visited = fun _ => false) {p x : Id} {index : Option Int} (ok : LinkOK s.heap p x index) :
    (s.heap.link p x index).2.isSome = P.refuses (W := W) (.link p x index) := by
  have sk := h.reach.heap.wf.skel
  have hp : p < P.next := by rw [← rp.next]; exact ok.ltp
  have hx : x < P.next := by rw [← rp.next]; exact ok.ltx
  simp only [Plan.refuses]
  rw [← rp.kind p hp, ← rp.kids p hp]
  cases hl : s.heap.leaf p with
  | true => unfold Heap.link; rw [if_pos hl]; rfl
  | false =>
    rw [Heap.link_decides_partial h.reach.heap (fun y => by rw [hv]) ok hl, Bool.false_or]
    by_cases hm : x ∈ s.heap.kids p
    · have hpar := (sk.mem_iff _ _).mp hm
      rw [if_pos hm]
      cases index <;> simp [hpar]
    · have hpar : s.heap.parent x ≠ some p := fun he => hm ((sk.mem_iff _ _).mpr he)
      rw [if_neg hm]
      have ht := rp.together_iff h hp hx
      by_cases hc : s.heap.parent x ≠ none ∧ s.heap.toGraph.highest x = s.heap.toGraph.highest p
      · rw [if_pos (.inr ⟨hpar, hc⟩), ht.mpr hc]; rfl
      · rw [if_neg (fun hh => hh.elim (fun h1 => hpar h1.1) (fun h1 => hc h1.2))]
        cases hb : P.together p x with
        | true => exact absurd (ht.mp hb) hc
        | false => rfl

/-- And whether an unlink raises. -/
theorem refuses_unlink {s : State V T} {P : Plan V T} (h : Path spoil s) (rp : Represents s P) (p x : Id) :
    (s.heap.unlink p x).2.isSome = P.refuses (W := W) (.unlink p x) := by
  have sk := h.reach.heap.wf.skel
  simp only [Plan.refuses]
  by_cases hp : p < P.next
  · have h1 := rp.kind p hp
    have h2 := rp.kids p hp
    unfold Heap.unlink
    rw [h1, h2]
    cases hrow : P.row p with
    | some R => simp
    | none =>
      by_cases hm : x ∈ P.kids p
      · simp [hp, hm]
      · simp [hm]
  · have hm : x ∉ s.heap.kids p := fun hm => hp (by rw [← rp.next]; exact (sk.alloc _ _ ((sk.mem_iff _ _).mp hm)).2)
    unfold Heap.unlink
    by_cases hl : s.heap.leaf p = true
    · simp [hl, hp]
    · simp [hl, hm, hp]

theorem read_visited (o : Ops V T) (junk : List V) (r : Id) (b : Box V T) :
    (b.read o junk r).1.st.heap.visited = b.st.heap.visited := by
  unfold Box.read Opt.State.readOpt
  dsimp only
  split <;> rfl

theorem runProg_heap (o : Ops V T) (F : List V → W) (g : List V → List V) (r : Id) : ∀ (p : Prog V W) (s : State V T),
    (runProg spoil o F g r p s).1.heap = s.heap
  | .done x, s => setArray_heap o s r x
  | .ask c k, s => by
    simp only [runProg]
    rw [runProg_heap o F g r _ _, setArray_heap]

/-- Calls on models leave no marks. -/
theorem deed_visited {o : Ops V T} {F : List V → W} {g : List V → List V} (junk : List V) {r : Id} {b : Box V T}
    (h : Path spoil b.st) {S : Sheet V T} {n : Notes} {d : Deed Target V T W} (hd : d.Fits b.st.heap r S n) :
    (b.exec spoil o F g junk r d).1.st.heap.visited = b.st.heap.visited := by
  have w := h.reach.heap.wf
  cases d with
  | assign x v => exact congrArg Heap.visited (assignAll_heap spoil _ _ _)
  | put x vs => exact congrArg Heap.visited (assignAll_heap spoil _ _ _)
  | constrain x t =>
    show (exec spoil _ (.heap (.constrain x (.tr t)))).1.heap.visited = _
    rw [(exec_heap spoil _ _).1, assignAll_heap]
    exact ((Heap.constraining_wf w hd.1).1 (.tr t)).2.visited
  | unconstrain x ts =>
    show (exec spoil _ (.heap (.unconstrain x ts))).1.heap.visited = _
    rw [(exec_heap spoil _ _).1]
    exact ((Heap.constraining_wf w hd.1).2.1 ts).2.visited
  | fix x =>
    show (exec spoil _ (.heap (.fix x))).1.heap.visited = _
    rw [(exec_heap spoil _ _).1]
    exact (Heap.constraining_wf w hd.1).2.2.1.2.visited
  | unfix x =>
    show (exec spoil _ (.heap (.unfix x))).1.heap.visited = _
    rw [(exec_heap spoil _ _).1]
    exact (Heap.constraining_wf w hd.1).2.2.2.2.visited
  | values => rfl
  | read => exact read_visited o junk r b
  | set p => exact congrArg Heap.visited (setArray_heap o _ _ _)
  | optimize p =>
    simp only [Box.exec]
    split
    · rfl
    · show (runProg spoil o F g r _ _).1.heap.visited = _
      rw [runProg_heap, read_visited]

/-- The plan knows which calls raise, and calls leave no marks, except those that ask to move something within its own
model. -/
theorem refuses_step {o : Ops V T} {F : List V → W} {g : List V → List V} {w : World V T} {P : Plan V T} {N : Id → Notes}
    (i : Rep spoil o w P N) (hv : w.st.heap.visited = fun _ => false) (junk : List V) {m : Move V T W}
    (hm : m.Fits spoil w.st P N) :
    (w.exec spoil o F g junk m).2.1.isSome = P.refuses m ∧
    (P.inside m = false → (w.exec spoil o F g junk m).1.st.heap.visited = fun _ => false) := by
  have hr := i.path.reach.heap
  have quiet : ∀ e : Heap.Ev T, w.st.heap.Admissible e → (w.st.heap.exec e).2 = none →
      (w.st.exec spoil (.heap e)).1.heap.visited = fun _ => false := by
    intro e ha hq
    rw [(exec_heap spoil w.st e).1]
    exact Heap.exec_clean hr hv ha hq
  cases m with
  | param vs =>
    refine ⟨rfl, fun _ => ?_⟩
    show (assignAll spoil _ _ _).heap.visited = _
    rw [assignAll_heap]
    exact quiet (.newParam vs.length) trivial rfl
  | node => exact ⟨rfl, fun _ => quiet .newNode trivial rfl⟩
  | finish x b => exact ⟨rfl, fun _ => quiet (.finishInit x b) hm.1 rfl⟩
  | init x => exact ⟨rfl, fun _ => quiet (.init x) hm.1 rfl⟩
  | link p x index =>
    have ok : LinkOK w.st.heap p x index := hm.1
    have e2 : (w.st.exec spoil (.heap (.link p x index))).2 = (w.st.heap.link p x index).2 := (exec_heap spoil w.st _).2
    have hd := refuses_link (W := W) i.path i.plan hv ok
    refine ⟨(congrArg Option.isSome e2).trans hd, fun hin => ?_⟩
    show (w.st.exec spoil (.heap (.link p x index))).1.heap.visited = _
    cases hres : (w.st.heap.link p x index).2 with
    | none => exact quiet (.link p x index) hm.1 hres
    | some err =>
      rw [hres] at hd
      rw [(exec_heap spoil w.st _).1]
      show (w.st.heap.link p x index).1.visited = _
      have hp : p < P.next := by rw [← i.plan.next]; exact ok.ltp
      have hk := i.plan.kind p hp
      have hk2 := i.plan.kids p hp
      unfold Heap.link
      cases hl : w.st.heap.leaf p with
      | true => rw [if_pos rfl]; exact hv
      | false =>
        rw [hl] at hk
        have hrow : P.row p = none := by simpa using hk.symm
        simp only [Plan.refuses, Plan.inside, hrow, Option.isSome_none, Bool.false_or, Option.isNone_none, Bool.true_and,
          Option.isSome_some] at hd hin
        by_cases hx : x ∈ P.kids p
        · rw [if_pos hx] at hd
          cases index with
          | some j => cases hd
          | none =>
            rw [if_neg (by simp), if_pos (by rw [hk2]; exact hx)]
            exact hv
        · rw [if_neg hx] at hd
          rw [← hd] at hin
          simp [hx] at hin
  | unlink p x =>
    have e2 : (w.st.exec spoil (.heap (.unlink p x))).2 = (w.st.heap.unlink p x).2 := (exec_heap spoil w.st _).2
    refine ⟨(congrArg Option.isSome e2).trans (refuses_unlink i.path i.plan p x), fun _ => ?_⟩
    show (w.st.exec spoil (.heap (.unlink p x))).1.heap.visited = _
    cases hres : (w.st.heap.unlink p x).2 with
    | none => exact quiet (.unlink p x) trivial hres
    | some err =>
      rw [(exec_heap spoil w.st _).1]
      show (w.st.heap.unlink p x).1.visited = _
      unfold Heap.unlink at hres ⊢
      split
      · exact hv
      · rename_i hl
        rw [if_neg hl] at hres
        split
        · rename_i hx
          rw [if_pos hx] at hres
          cases hres
        · exact hv
  | copy x =>
    refine ⟨rfl, fun _ => ?_⟩
    show (w.st.copy spoil x).1.heap.visited = _
    rw [(copy_heap spoil w.st x).1]
    exact Heap.copy_clean hr hv x
  | deed r d =>
    refine ⟨rfl, fun _ => ?_⟩
    exact (deed_visited (b := w.box r) junk i.path hm.2.2.1).trans hv

theorem refuses_execs {o : Ops V T} {F : List V → W} {g : List V → List V} (hg : ∀ v, (g v).length = v.length)
    (junk : List V) : ∀ (ms : List (Move V T W)) {w : World V T} {P : Plan V T} {N : Id → Notes}, Rep spoil o w P N →
    w.st.heap.visited = (fun _ => false) → AllMovesFit spoil o F g junk ms w P N → P.Stops o F g ms →
    (w.execs spoil o F g junk ms).2.map (fun e => (e.1.isSome, e.2)) = (P.run o F g ms).2 ∧
    Represents (w.execs spoil o F g junk ms).1.st (P.run o F g ms).1
  | [], _, _, _, i, _, _, _ => ⟨rfl, i.plan⟩
  | m :: ms, w, P, N, i, hv, hm, hs => by
    obtain ⟨e1, i1⟩ := rep_step (F := F) hg i junk hm.1
    obtain ⟨f1, v1⟩ := refuses_step (F := F) (g := g) i hv junk hm.1
    have hm2 := hm.2
    dsimp only at hm2
    rw [f1] at e1 i1 hm2
    simp only [World.execs, List.map_cons, Plan.run]
    cases hin : P.inside m with
    | true =>
      have hms := hs.1 hin
      subst hms
      exact ⟨by simp only [World.execs, List.map_nil, Plan.run, f1, e1], i1.plan⟩
    | false =>
      obtain ⟨e2, r2⟩ := refuses_execs hg junk ms i1 (v1 hin) hm2 hs.2
      exact ⟨by rw [e2, f1, e1], r2⟩

/-- **C96, continued.** The plan also says which calls of `link` and `unlink` raise: those that link to a `Param`, link a
parameter again without saying where, move something within its own model, or unlink what is not there. So what a program
sees and which of its calls raise is known from the program alone. Missing for the full claim, besides what is missing
in `program_is_plan_partial`: what happens after a refused move within a model, which leaves marks behind
(`move_again_fails`). -/
theorem program_is_predicted_partial {o : Ops V T} {F : List V → W} {g : List V → List V}
    (hg : ∀ v, (g v).length = v.length) (cell : Nat → Nat → V) (junk : List V) {ms : List (Move V T W)}
    (hm : AllMovesFit spoil o F g junk ms (.empty cell) .empty (fun _ => ⟨false, false⟩))
    (hs : Plan.empty.Stops o F g ms) :
    let e := (World.empty cell).execs spoil o F g junk ms
    let p := Plan.empty.run o F g ms
    e.2.map (fun e => (e.1.isSome, e.2)) = p.2 ∧ Represents e.1.st p.1 :=
  refuses_execs hg junk ms (rep_empty o cell) rfl hm hs

/-! ### Examples -/

/-- A checker for `Stops`. -/
def Plan.stopsB (o : Ops V T) (F : List V → W) (g : List V → List V) : List (Move V T W) → Plan V T → Bool
  | [], _ => true
  | m :: ms, P => (!P.inside m || ms.isEmpty) && stopsB o F g ms (P.exec o F g (P.refuses m) m).1

theorem Plan.stopsB_sound {o : Ops V T} {F : List V → W} {g : List V → List V} : ∀ (ms : List (Move V T W)) (P : Plan V T),
    P.stopsB o F g ms = true → P.Stops o F g ms
  | [], _, _ => trivial
  | m :: ms, P, hb => by
    simp only [Plan.stopsB, Bool.and_eq_true, Bool.or_eq_true, Bool.not_eq_true', List.isEmpty_iff] at hb
    exact ⟨fun hin => hb.1.resolve_left (by rw [hin]; simp), Plan.stopsB_sound ms _ hb.2⟩

/-- The program of C96, in which a `Param` is linked again: which call raises and what is seen is known from the plan. -/
example : let e := (World.empty fun _ _ => 77).execs demoSpoil plusOps List.sum (List.map (fun _ => 3)) [] twoModels
    e.2.map (fun e => (e.1.isSome, e.2)) = (Plan.empty.run plusOps List.sum (List.map (fun _ => 3)) twoModels).2 ∧
    (Plan.empty.run plusOps List.sum (List.map (fun _ => 3)) twoModels).2.map (·.1) =
      List.replicate 15 false ++ true :: List.replicate 20 false := by
  refine ⟨(program_is_predicted_partial (F := List.sum) (by simp) (fun _ _ => 77) [] twoModels_fit
    (Plan.stopsB_sound _ _ (by decide +kernel))).1, by decide +kernel⟩

/-- A model `3` with a `Param` `0` and a part `2` with a `Param` `1`: links to a `Param`, unlinking what is not there, and in
the end moving `0` into `2`, all raise. -/
def refusedCalls : List (Move Nat Nat Nat) :=
  [.param [10, 11], .param [20], .node, .link 2 1 none, .finish 2 true, .node, .link 3 0 none, .link 3 2 none,
    .finish 3 true, .link 0 1 none, .unlink 3 1, .unlink 0 1, .deed 3 .values, .link 2 0 none]

theorem refusedCalls_fit : AllMovesFit demoSpoil plusOps List.sum id [] refusedCalls (.empty fun _ _ => 77) .empty
    (fun _ => ⟨false, false⟩) := by
  refine allMovesFitB_sound (by simp) [] refusedCalls (rep_empty _ _) (by decide +kernel) (fun m hm => ?_)
  simp only [refusedCalls, List.mem_cons, List.not_mem_nil, or_false] at hm
  rcases hm with rfl | rfl | rfl | rfl | rfl | rfl | rfl | rfl | rfl | rfl | rfl | rfl | rfl | rfl <;> exact trivial

example : let e := (World.empty fun _ _ => 77).execs demoSpoil plusOps List.sum id [] refusedCalls
    e.2.map (fun e => (e.1.isSome, e.2)) = List.replicate 9 (false, .nothing) ++
      [(true, .nothing), (true, .nothing), (true, .nothing), (false, .array [10, 11, 20]), (true, .nothing)] := by
  intro e
  rw [show e.2.map (fun e => (e.1.isSome, e.2)) = _ from (program_is_predicted_partial (F := List.sum) (by simp)
    (fun _ _ => 77) [] refusedCalls_fit (Plan.stopsB_sound _ _ (by decide +kernel))).1]
  decide +kernel

/-- Asked a second time for the move within the model, the code carries it out (C25); the plan says it is refused. -/
theorem move_again_fails :
    let ms := refusedCalls ++ [.link 2 0 none]
    AllMovesFit demoSpoil plusOps List.sum id [] ms (.empty fun _ _ => 77) .empty (fun _ => ⟨false, false⟩) ∧
    (((World.empty fun _ _ => 77).execs demoSpoil plusOps List.sum id [] ms).2.map (·.1.isSome)).getLast? = some false ∧
    ((Plan.empty.run plusOps List.sum id ms).2.map (·.1)).getLast? = some true := by
  refine ⟨allMovesFitB_sound (by simp) [] _ (rep_empty _ _) (by decide +kernel) (fun m hm => ?_), by decide +kernel,
    by decide +kernel⟩
  simp only [refusedCalls, List.cons_append, List.nil_append, List.mem_cons, List.not_mem_nil, or_false] at hm
  rcases hm with rfl | rfl | rfl | rfl | rfl | rfl | rfl | rfl | rfl | rfl | rfl | rfl | rfl | rfl | rfl <;> exact trivial

end Paramz.Memory

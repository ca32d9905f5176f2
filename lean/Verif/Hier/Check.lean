import Verif.Hier.History

/-!
# Deciding that a concrete history is admissible

Only used for the examples next to the theorems.
-/

set_option linter.unusedSectionVars false

namespace Paramz.Hier

open Graph (Anc)

namespace Heap

variable {T : Type} [DecidableEq T]

/-- Decision procedure for `LinkOK`. -/
def linkOKB (h : Heap T) (p x : Id) (index : Option Int) : Bool :=
  decide (p < h.next) && decide (x < h.next) && decide (x ∉ h.toGraph.upwards p) &&
  (decide (h.parent p = none) ||
    (!h.inInit p && decide (h.inited (h.toGraph.highest p) = some true))) &&
  match index with
  | none => true
  | some i => decide (i ≤ ((h.kids p).filter (· ≠ x)).length)

theorem linkOKB_sound {h : Heap T} (w : WF h) {p x : Id} {index : Option Int}
    (hb : h.linkOKB p x index = true) : LinkOK h p x index := by
  simp only [linkOKB, Bool.and_eq_true, Bool.or_eq_true, decide_eq_true_eq, Bool.not_eq_true'] at hb
  obtain ⟨⟨⟨⟨h1, h2⟩, h3⟩, h4⟩, h5⟩ := hb
  refine ⟨h1, h2, fun ha => h3 (w.skel.mem_upwards.mpr ha), h4, ?_⟩
  rintro i rfl
  simpa using h5

/-- Decision procedure for `Target.OK`. -/
def targetOKB (h : Heap T) (x : Target) : Bool :=
  decide (x.obj < h.next) && match x.part with
    | none => true
    | some a => h.leaf x.obj && a.all (fun i => decide (i < h.size x.obj))

theorem targetOKB_sound {h : Heap T} {x : Target} (hb : h.targetOKB x = true) : x.OK h := by
  simp only [targetOKB, Bool.and_eq_true, decide_eq_true_eq] at hb
  refine ⟨hb.1, fun a ha => ?_⟩
  rw [ha] at hb
  simp only [Bool.and_eq_true, List.all_eq_true, decide_eq_true_eq] at hb
  exact hb.2

/-- Decision procedure for `Admissible`. -/
def admissibleB (h : Heap T) : Ev T → Bool
  | .newParam _ => true
  | .newNode => true
  | .finishInit x _ => decide (x < h.next) && !h.leaf x
  | .init x => decide (x < h.next)
  | .link p x index => h.linkOKB p x index
  | .unlink _ _ => true
  | .constrain x _ => h.targetOKB x
  | .unconstrain x _ => h.targetOKB x
  | .fix x => h.targetOKB x
  | .unfix x => h.targetOKB x

theorem admissibleB_sound {h : Heap T} (w : WF h) {e : Ev T} (hb : h.admissibleB e = true) :
    h.Admissible e := by
  cases e <;> simp only [admissibleB, Admissible] at hb ⊢
  case finishInit x i => simpa using hb
  case init x => simpa using hb
  case link p x index => exact linkOKB_sound w hb
  all_goals exact targetOKB_sound hb

/-- The state after a list of calls. -/
def run (h : Heap T) (es : List (Ev T)) : Heap T := es.foldl (fun h e => (h.exec e).1) h

/-- Is every call of the list admissible when it is made? -/
def runB (h : Heap T) : List (Ev T) → Bool
  | [] => true
  | e :: es => h.admissibleB e && runB (h.exec e).1 es

/-- Does every call of the list return normally? -/
def quietB (h : Heap T) : List (Ev T) → Bool
  | [] => true
  | e :: es => decide ((h.exec e).2 = none) && quietB (h.exec e).1 es

theorem Reach.run {h : Heap T} (hr : Reach h) : ∀ es, h.runB es = true → Reach (h.run es)
  | [], _ => hr
  | e :: es, hb => by
    simp only [runB, Bool.and_eq_true] at hb
    exact Reach.run (h := (h.exec e).1) (.step hr (admissibleB_sound hr.wf hb.1)) es hb.2

/-- A model used in examples: root `0` with `Param` `1` (2 elements), `Parameterized` `2` holding
`Param` `3` (3 elements) and `4` (1 element), then `Param` `5` (2 elements). Element 1 of `1` is
constrained to `7`, all of `3` to `8`, element 2 of `3` is fixed, and `5` is fixed. -/
def demo : Heap Nat := run Heap.empty
  [.newNode, .newParam 2, .newNode, .newParam 3, .newParam 1, .newParam 2,
   .link 2 3 none, .link 2 4 none, .finishInit 2 true,
   .link 0 1 none, .link 0 2 none, .link 0 5 none, .finishInit 0 true,
   .constrain ⟨1, some [1]⟩ (.tr 7), .constrain ⟨3, none⟩ (.tr 8), .fix ⟨3, some [2]⟩, .fix ⟨5, none⟩]

theorem demo_reach : Reach demo := Reach.run .empty _ (by decide +kernel)

example : demo.size 0 = 8 ∧ demo.kids 0 = [1, 2, 5] ∧ demo.kids 2 = [3, 4] ∧
    demo.constraints 0 (.tr 7) = [1] ∧ demo.constraints 0 (.tr 8) = [2, 3, 4] ∧
    demo.constraints 0 .fixed = [4, 6, 7] ∧ demo.constraints 2 .fixed = [2] ∧
    demo.constraints 5 .fixed = [0, 1] ∧
    demo.fixes 0 = some [true, true, true, true, false, true, false, false] := by decide +kernel

end Heap

end Paramz.Hier

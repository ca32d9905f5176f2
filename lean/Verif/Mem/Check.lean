import Verif.Hier.Check
import Verif.Mem.Shared

/-!
# Concrete histories with memory

Used for the examples next to the theorems.
-/

set_option linter.unusedSectionVars false

namespace Paramz.Memory

open Hier (Id Graph Heap upd upd_same upd_ne)
open Hier.Graph (Skel Sized At Anc Ins)

namespace State

variable {V T : Type} [DecidableEq T] {spoil : Nat → Nat → V}

/-- Decision procedure for `Admissible`. -/
def admissibleB (s : State V T) : Ev V T → Bool
  | .heap e => s.heap.admissibleB e
  | .write x i _ => decide (x < s.heap.next) && decide (i < s.heap.size x) &&
      (s.heap.leaf x || (!s.heap.inInit x && decide (s.heap.inited x = some true)))

theorem admissibleB_sound {s : State V T} (w : s.heap.WF) {e : Ev V T} (hb : s.admissibleB e = true) :
    s.Admissible e := by
  cases e with
  | heap e => exact Heap.admissibleB_sound w hb
  | write x i v =>
    simp only [admissibleB, Bool.and_eq_true, Bool.or_eq_true, decide_eq_true_eq, Bool.not_eq_true'] at hb
    exact ⟨hb.1.1, hb.1.2, hb.2⟩

/-- The state after a list of calls. -/
def run (spoil : Nat → Nat → V) (s : State V T) (es : List (Ev V T)) : State V T :=
  es.foldl (fun s e => (s.exec spoil e).1) s

/-- Is every call of the list admissible when it is made? -/
def runB (spoil : Nat → Nat → V) (s : State V T) : List (Ev V T) → Bool
  | [] => true
  | e :: es => s.admissibleB e && runB spoil (s.exec spoil e).1 es

/-- Does every call of the list return normally? -/
def quietB (spoil : Nat → Nat → V) (s : State V T) : List (Ev V T) → Bool
  | [] => true
  | e :: es => decide ((s.exec spoil e).2 = none) && quietB spoil (s.exec spoil e).1 es

theorem Reach.run {s : State V T} (hr : Reach spoil s) :
    ∀ es, s.runB spoil es = true → Reach spoil (s.run spoil es)
  | [], _ => hr
  | e :: es, hb => by
    simp only [runB, Bool.and_eq_true] at hb
    exact Reach.run (s := (s.exec spoil e).1) (.step hr (admissibleB_sound hr.heap.wf hb.1)) es hb.2

/-- The elements of an object. -/
def values (s : State V T) (x : Id) : List V := (List.range (s.heap.size x)).map (s.mem.read x)

/-- Freed memory reads as 99, memory never used as 77. -/
def demoSpoil : Nat → Nat → Nat := fun _ _ => 99

def start : State Nat Nat := empty fun _ _ => 77

/-- Assign a list of values to the elements of an object. -/
def fill (x : Id) (l : List Nat) : List (Ev Nat Nat) :=
  (List.range l.length).map fun i => .write x i (l.getD i 0)

/-- The hierarchy of `Heap.demo` with values: root `0` with `Param` `1` (elements 10, 11),
`Parameterized` `2` with `Param`s `3` (30, 31, 32) and `4` (40), and `Param` `5` (50, 51). -/
def demoCalls : List (Ev Nat Nat) :=
  [.heap .newNode, .heap (.newParam 2), .heap .newNode, .heap (.newParam 3), .heap (.newParam 1),
    .heap (.newParam 2)] ++ fill 1 [10, 11] ++ fill 3 [30, 31, 32] ++ fill 4 [40] ++ fill 5 [50, 51] ++
  [.heap (.link 2 3 none), .heap (.link 2 4 none), .heap (.finishInit 2 true),
   .heap (.link 0 1 none), .heap (.link 0 2 none), .heap (.link 0 5 none), .heap (.finishInit 0 true)]

def demo : State Nat Nat := run demoSpoil start demoCalls

theorem demo_reach : Reach demoSpoil demo := Reach.run (.empty _) _ (by decide +kernel)

example : demo.values 0 = [10, 11, 30, 31, 32, 40, 50, 51] ∧ demo.values 2 = [30, 31, 32, 40] ∧
    demo.values 3 = [30, 31, 32] := by decide +kernel

end State

end Paramz.Memory

import Verif.Hier.ConProps
import Verif.Hier.TravProps

/-!
# Where the code falls short of C22 - C28

Each theorem is a concrete history on the model.
-/

namespace Paramz.Hier

open Graph (Anc)

namespace Heap

/-- C25: linking a root into its own child is not rejected. The search for `p` only happens when the
parameter has a parent, so the pointers are set and `0` and `2` become each other's parent. (In python
the loop adding up sizes along the parent chain, parameterized.py:173-176, then does not end.) -/
theorem link_into_own_child_fails : Reach demo ∧ demo.leaf 2 = false ∧ Anc demo.toGraph 0 2 ∧
    (demo.link 2 0 none).2 ≠ some .hierarchyError ∧
    (demo.linkPointers 2 0 none).parent 0 = some 2 ∧ (demo.linkPointers 2 0 none).parent 2 = some 0 :=
  ⟨demo_reach, by decide +kernel, demo_reach.wf.skel.mem_upwards.mp (by decide +kernel),
    by decide +kernel, by decide +kernel, by decide +kernel⟩

/-- C25: neither is linking an object into itself. -/
theorem link_into_itself_fails : Reach demo ∧ (demo.link 0 0 none).2 ≠ some .hierarchyError ∧
    (demo.linkPointers 0 0 none).parent 0 = some 0 :=
  ⟨demo_reach, by decide +kernel, by decide +kernel⟩

/-- C25: after the search raised, its marks stay, and asking a second time for the same move inside one
hierarchy succeeds. -/
theorem second_attempt_fails : Reach demo ∧
    (demo.link 2 5 none).2 = some .hierarchyError ∧
    ((demo.link 2 5 none).1.link 2 5 none).2 = none :=
  ⟨demo_reach, by decide +kernel⟩

/-- C24, C25: a position beyond the end raises `IndexError`, but only after the parameter was put into
the list with a wrong stored position and the sizes were changed. -/
theorem position_beyond_end_fails :
    let h := demo.run [.newParam 1]
    Reach h ∧ (h.link 0 6 (some 9)).2 = some .indexError ∧
    (h.link 0 6 (some 9)).1.kids 0 = [1, 2, 5, 6] ∧ (h.link 0 6 (some 9)).1.pidx 6 = 9 ∧
    (h.link 0 6 (some 9)).1.size 0 = 9 :=
  ⟨demo_reach.run _ (by decide +kernel), by decide +kernel⟩

/-- A model `0` built with `initialize=False`, with a sub-model `1` (holding `Param` `2`) and a `Param`
`3`; all `Param`s have one element. -/
def lazy : Heap Nat := run Heap.empty
  [.newNode, .newNode, .newParam 1, .newParam 1, .link 1 2 none, .finishInit 1 true,
   .link 0 1 none, .link 0 3 none, .finishInit 0 false, .newParam 1]

theorem lazy_reach : Reach lazy := Reach.run .empty _ (by decide +kernel)

/-- C22, C26: linking a further `Param` `4` into the sub-model of a model that is not initialised yet
leaves the views of the parameters after it where they were: the model sees the constraint of `3` at
the element of `4`. -/
theorem lazy_nested_link_fails : Reach lazy ∧ (lazy.link 1 4 none).2 = none ∧
    let h := (lazy.link 1 4 none).1.constrain ⟨3, none⟩ (.tr 7)
    h.constraints 0 (.tr 7) = [1] ∧ h.toGraph.offsetFor 0 4 = 1 ∧ h.toGraph.offsetFor 0 3 = 2 :=
  ⟨lazy_reach, by decide +kernel⟩

/-- C22: the constraints of `4` cannot be seen through `4` after such a link. -/
theorem lazy_link_constraints_fails :
    let h := lazy.run [.constrain ⟨4, none⟩ (.tr 7)]
    Reach h ∧ h.constraints 4 (.tr 7) = [0] ∧ (h.link 1 4 none).2 = none ∧
      (h.link 1 4 none).1.constraints 4 (.tr 7) = [] :=
  ⟨lazy_reach.run _ (by decide +kernel), by decide +kernel⟩

/-- C28 does not extend to a `Param` without parent: fixing a part of it marks the element as fixed, but
it is still passed to the optimiser. -/
theorem orphan_part_fix_fails :
    let h := (Heap.empty : Heap Nat).run [.newParam 2, .fix ⟨0, some [0]⟩]
    Reach h ∧ h.constraints 0 .fixed = [0] ∧ h.passed 0 0 = true :=
  ⟨Reach.run .empty _ (by decide +kernel), by decide +kernel⟩

/-- What reading `x.optimizer_array` does to the mask when something is fixed (`_ensure_fixes`,
constrainable.py:85-91). -/
def readMask (h : Heap Nat) (x : Id) : Heap Nat :=
  if h.constraints x .fixed = [] then h else { h with fixes := upd h.fixes x (some (h.ensureFixes x)) }

/-- C28 does not extend to a part of a model: the mask of a sub-model that was asked for its
`optimizer_array` is not updated by later fixes. Element 3 of `2` is fixed and still passed. -/
theorem submodel_mask_fails : Reach demo ∧
    let h := (demo.readMask 2).fix ⟨4, none⟩
    h.constraints 2 .fixed = [2, 3] ∧ h.passed 2 3 = true :=
  ⟨demo_reach, by decide +kernel⟩

end Heap

end Paramz.Hier

import Verif.IndexOps.Props

/-!
# `properties_for` and `properties_dict_for` of the dictionary's owner itself (C05)

`paramz/core/index_operations.py:132-159`. The theorems of `Verif.IndexOps.Props` are about `Iop.base`; here the
functions of the owner itself are shown to be the same.
-/

namespace Paramz.IndexOps

variable {P : Type} [DecidableEq P]

theorem properties_for_owner (d : Dict P) (index : Arr) : propertiesFor d index = Iop.base.propertiesFor d index := by
  unfold propertiesFor Iop.propertiesFor
  simp only [Iop.get_base]
  rfl

/-- **C05** for the owner itself: for every property exactly the requested indices that carry it, in the order they were
requested. -/
theorem properties_dict_for_owner (ops : List (Op P)) (index : Arr) (p : P) :
    lookup (propertiesDictFor (run [] ops) index) p = index.filter (fun i => decide (i ∈ lookup (run [] ops) p)) := by
  have h := properties_dict_for_exact ops Iop.base index p
  simp only [Iop.get_base] at h
  unfold propertiesDictFor
  rw [properties_for_owner]
  exact h

example : propertiesDictFor sample [10, 2, 3, 5] = [("three", [10, 2]), ("one", [3]), ("two", [5])] := by decide

end Paramz.IndexOps

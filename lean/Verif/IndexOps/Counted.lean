import Verif.IndexOps.Props
import Mathlib.Data.Finset.Card

/-!
# Counting, and deleting what is not there (C107)

Source: `paramz/core/index_operations.py:127-129, 190-191, 246-248, 293-294`.
-/

namespace Paramz.IndexOps

variable {P : Type} [DecidableEq P]

/-- The pairs listed by `items`. -/
private def pairs (its : List (P × Arr)) : List (P × Nat) := its.flatMap fun e => e.2.map fun i => (e.1, i)

private theorem pairs_length (its : List (P × Arr)) : (pairs its).length = (its.map fun e => e.2.length).sum := by
  induction its with
  | nil => rfl
  | cons e its ih => simp [pairs, List.flatMap_cons]

private theorem pairs_nodup {its : List (P × Arr)} (hk : (its.map Prod.fst).Nodup) (ha : ∀ e ∈ its, e.2.Nodup) :
    (pairs its).Nodup := by
  induction its with
  | nil => exact List.nodup_nil
  | cons e its ih =>
    rw [List.map_cons, List.nodup_cons] at hk
    rw [pairs, List.flatMap_cons, List.nodup_append]
    refine ⟨(ha e (.head _)).map fun a b h => (Prod.mk.inj h).2, ih hk.2 fun f hf => ha f (.tail _ hf), ?_⟩
    intro a h1 b h2 e1
    obtain ⟨i, _, rfl⟩ := List.mem_map.mp h1
    obtain ⟨f, hf, h3⟩ := List.mem_flatMap.mp h2
    obtain ⟨j, _, rfl⟩ := List.mem_map.mp h3
    exact hk.1 ((Prod.mk.inj e1).1 ▸ List.mem_map.mpr ⟨f, hf, rfl⟩)

/-- C107: After any history, `size` of the owner or of a view is the number of the pairs (property, element) that it
shows. -/
theorem size_counts (ops : List (Op P)) (v : Iop) : ∃ S : Finset (P × Nat),
    (∀ p i, (p, i) ∈ S ↔ i ∈ v.get (run [] ops) p) ∧ v.size (run [] ops) = S.card := by
  obtain ⟨h1, h2⟩ := items_exact ops v
  refine ⟨(pairs (v.items (run [] ops))).toFinset, fun p i => ?_, ?_⟩
  · rw [List.mem_toFinset, pairs, List.mem_flatMap]
    constructor
    · rintro ⟨⟨q, a⟩, he, hi⟩
      obtain ⟨j, hj, e1⟩ := List.mem_map.mp hi
      cases e1
      rw [((h2 _ _).mp he).1]
      exact hj
    · intro hi
      exact ⟨(p, v.get (run [] ops) p), (h2 _ _).mpr ⟨rfl, List.ne_nil_of_mem hi⟩, List.mem_map.mpr ⟨i, hi, rfl⟩⟩
  · rw [List.toFinset_card_of_nodup, pairs_length]
    · rfl
    · refine pairs_nodup h1 fun e he => ?_
      have := index_arrays_canonical ops v e.1
      rw [((h2 e.1 e.2).mp he).1] at this
      exact this.imp Nat.ne_of_lt

/-- C107: `size` of the owner's own class. -/
theorem size_owner (d : Dict P) : size d = Iop.base.size d := by
  simp [size, indices, Iop.size, Iop.items, List.map_map, Function.comp_def]

/-- The call names the property: it is added, read or deleted. -/
def Op.names (p : P) : Op P → Prop
  | .add _ q _ => q = p
  | .update _ its _ => p ∈ its.map Prod.fst
  | .getItem _ q => q = p
  | .delItem _ q => q = p
  | _ => False

private theorem add_keys {d : Dict P} {p q : P} (hq : q ≠ p) (h : p ∉ d.map Prod.fst) (a : Arr) :
    p ∉ (setKey d q a).map Prod.fst := by
  rw [keys_setKey]
  split
  · exact h
  · simp only [List.mem_append, List.mem_singleton, not_or]
    exact ⟨h, fun e => hq e.symm⟩

private theorem del_keys {d : Dict P} {p : P} (h : p ∉ d.map Prod.fst) (q : P) : p ∉ (delKey d q).map Prod.fst :=
  fun hm => h ((List.filter_sublist.map Prod.fst).subset hm)

private theorem remove_keys {d : Dict P} {p : P} (h : p ∉ d.map Prod.fst) (v : Iop) (q : P) (ind : Arr) :
    p ∉ ((v.remove d q ind).1).map Prod.fst := by
  rw [Iop.remove_fst_eq]
  unfold remove
  split
  · rename_i hk
    dsimp only
    split
    · refine add_keys ?_ h _
      rintro rfl
      exact h (hasKey_iff.mp hk)
    · exact del_keys h q
  · exact h

private theorem getItem_keys {d : Dict P} {p q : P} (hq : q ≠ p) (h : p ∉ d.map Prod.fst) (v : Iop) :
    p ∉ ((v.getItem d q).1).map Prod.fst := by
  induction v with
  | base =>
    simp only [Iop.getItem, getItem]
    split
    · exact h
    · simp only [List.map_append, List.map_cons, List.map_nil, List.mem_append, List.mem_singleton, not_or]
      exact ⟨h, fun e => hq e.symm⟩
  | view u o s ih => exact ih

private theorem step_keys {d : Dict P} {p : P} (h : p ∉ d.map Prod.fst) {op : Op P} (ho : ¬ op.names p) :
    p ∉ (step d op).map Prod.fst := by
  cases op with
  | add v q ind => simp only [step, Iop.add_eq, add]; exact add_keys ho h _
  | remove v q ind => exact remove_keys h v q ind
  | clear v =>
    cases v with
    | base => simp [step, Iop.clear, clear]
    | view u o s =>
      simp only [step, Iop.clear]
      generalize (Iop.view u o s).items d = its
      induction its generalizing d with
      | nil => exact h
      | cons e its ih => exact ih (remove_keys h u _ _)
  | shiftRight v s n =>
    simp only [step, Iop.shiftRight_eq, shiftRight, List.map_map]
    exact h
  | shiftLeft v s n =>
    simp only [step, Iop.shiftLeft_eq]
    exact fun hm => h ((shiftLeft_keys_sublist d _ _).subset hm)
  | update v its o =>
    simp only [step, Iop.update]
    replace ho : p ∉ its.map Prod.fst := ho
    induction its generalizing d with
    | nil => exact h
    | cons e its ih =>
      rw [List.map_cons, List.mem_cons, not_or] at ho
      rw [List.foldl_cons]
      refine ih ?_ ho.2
      rw [Iop.add_eq]
      exact add_keys (fun e => ho.1 e.symm) h _
  | getItem v q => exact getItem_keys ho h v
  | delItem v q =>
    cases v with
    | base =>
      simp only [step, Iop.delItem, delItem]
      split
      · rename_i hd
        split at hd
        · cases hd; exact del_keys h q
        · cases hd
      · exact h
    | view u o s =>
      simp only [step, Iop.delItem]
      exact remove_keys (getItem_keys ho h _) _ _ _

/-- C107: `del x[t]` raises `KeyError` for a property that was never named; it raises only on the owner and only if there
is no element with `t`; otherwise no element has `t` afterwards. -/
theorem del_absent_partial (ops : List (Op P)) (v : Iop) (p : P) :
    ((∀ op ∈ ops, ¬ op.names p) → Iop.base.delItem (run [] ops) p = .error .keyError) ∧
    (∀ e, v.delItem (run [] ops) p = .error e → e = .keyError ∧ v = .base ∧ v.get (run [] ops) p = []) ∧
    ∀ d, v.delItem (run [] ops) p = .ok d → v.get d p = [] := by
  refine ⟨fun hn => ?_, fun e he => ?_, fun d hd => ?_⟩
  · have key : ∀ (ops : List (Op P)) (d : Dict P), p ∉ d.map Prod.fst → (∀ op ∈ ops, ¬ op.names p) →
        p ∉ (run d ops).map Prod.fst := by
      intro ops
      induction ops with
      | nil => exact fun d hd _ => hd
      | cons op ops ih =>
        exact fun d hd ho => ih _ (step_keys hd (ho op (.head _))) fun o h => ho o (.tail _ h)
    have hk := key ops [] (by simp) hn
    simp only [Iop.delItem, delItem]
    rw [if_neg fun h => hk (hasKey_iff.mp h)]
  · cases v with
    | base =>
      simp only [Iop.delItem, delItem] at he
      split at he
      · cases he
      · rename_i hk
        cases he
        refine ⟨rfl, rfl, ?_⟩
        rw [Iop.get_base]
        exact lookup_of_not_hasKey (by simpa using hk)
    | view u o s => simp [Iop.delItem] at he
  · have hstep : step (run [] ops) (.delItem v p) = d := by simp only [step, hd]
    have href := step_refines (WF.nil.run ops) (.delItem v p)
    rw [hstep] at href
    refine List.eq_nil_iff_forall_not_mem.mpr fun i hi => ?_
    obtain ⟨h1, h2⟩ := (v.mem_get d p i).mp hi
    have h3 : rel d p (i + v.offset) := by rw [rel, Iop.get_base]; exact h2
    rw [href] at h3
    exact h3.2 ⟨rfl, i, h1, rfl⟩

/-- C107 fails: `del x[t]` does not raise for an absent property whose array has been looked at before, nor on a view. -/
theorem del_absent_fails :
    Iop.base.delItem (run [] [Op.add .base true [1]]) false = .error .keyError ∧
    Iop.base.get (run [] [Op.add .base true [1], .getItem .base false]) false = [] ∧
    Iop.base.delItem (run [] [Op.add .base true [1], .getItem .base false]) false = .ok [(true, [1])] ∧
    (Iop.view .base 0 2).delItem (run [] [Op.add .base true [1]]) false = .ok [(true, [1])] :=
  ⟨rfl, rfl, rfl, rfl⟩

/-- A case for the theorems: two properties, one element with both. -/
example : Iop.base.size (run [] [Op.add .base true [1, 4], .add .base false [4, 0]]) = 4 ∧
    (Iop.view .base 1 3).size (run [] [Op.add .base true [1, 4], .add .base false [4, 0]]) = 1 ∧
    (Iop.view .base 1 4).size (run [] [Op.add .base true [1, 4], .add .base false [4, 0]]) = 3 := by decide +kernel

end Paramz.IndexOps

import Verif.IndexOps.Props

/-!
# Arrays in memory (C106)

Source: `paramz/core/index_operations.py:89-188, 206-312`, `paramz/core/lists_and_dicts.py:34-43`.

Here the dictionaries hold references to arrays, and arrays are changed in place where the code does so.
-/

set_option linter.unusedSectionVars false

namespace Paramz.IndexOps

variable {P : Type} [DecidableEq P]

/-! ### Model -/

/-- Arrays, and the dictionaries `_properties` of the objects `0 .. num - 1` with references to them. -/
structure Mem (P : Type) where
  cell : Nat → Arr
  next : Nat
  refs : Nat → List (P × Nat)
  num : Nat

namespace Mem

/-- No objects yet. -/
def empty : Mem P := ⟨fun _ => [], 0, fun _ => [], 0⟩

/-- The dictionary of object `k` as it reads. -/
def dict (m : Mem P) (k : Nat) : Dict P := (m.refs k).map fun e => (e.1, m.cell e.2)

/-- A new array; its reference is `m.next`. -/
def alloc (m : Mem P) (a : Arr) : Mem P :=
  { m with cell := fun q => if q = m.next then a else m.cell q, next := m.next + 1 }

/-- `arr[...] = a`, in place. -/
def write (m : Mem P) (r : Nat) (a : Arr) : Mem P := { m with cell := fun q => if q = r then a else m.cell q }

/-- Replace the dictionary of `k`. -/
def bind (m : Mem P) (k : Nat) (l : List (P × Nat)) : Mem P := { m with refs := fun j => if j = k then l else m.refs j }

/-- `self._properties[p] = arr`. -/
def setRef : List (P × Nat) → P → Nat → List (P × Nat)
  | [], p, r => [(p, r)]
  | (q, s) :: l, p, r => if q = p then (q, r) :: l else (q, s) :: setRef l p r

/-- The array stored for `p`. -/
def refOf : List (P × Nat) → P → Option Nat
  | [], _ => none
  | (q, s) :: l, p => if q = p then some s else refOf l p

/-- Store a new array. -/
def store (m : Mem P) (k : Nat) (p : P) (a : Arr) : Mem P := (m.alloc a).bind k (setRef (m.refs k) p m.next)

/-- `add` (index_operations.py:161-162, 197-198): `union1d` makes a new array. -/
def add (m : Mem P) (k : Nat) (p : P) (ind : Arr) : Mem P := m.store k p (union1d (lookup (m.dict k) p) ind)

/-- The loops of `__init__` and `update` (index_operations.py:93-95, 177-178). -/
def addAll (m : Mem P) (k : Nat) (its : List (P × Arr)) : Mem P := its.foldl (fun m e => m.add k e.1 e.2) m

/-- `remove` (index_operations.py:164-173): `setdiff1d` and `intersect1d` make new arrays, the second of which is given
out. -/
def remove (m : Mem P) (k : Nat) (p : P) (ind : Arr) : Mem P × Nat :=
  if hasKey (m.dict k) p then
    let diff := setdiff1d (lookup (m.dict k) p) ind
    let m1 := if diff ≠ [] then m.store k p diff else m.bind k ((m.refs k).filter fun e => decide (e.1 ≠ p))
    (m1.alloc (intersect1d (lookup (m.dict k) p) ind), m1.next)
  else (m.alloc [], m.next)

/-- `__getitem__` (index_operations.py:187-188): the stored array itself is given out; for a missing key an empty array is
made and stored (lists_and_dicts.py:34-43). -/
def getItem (m : Mem P) (k : Nat) (p : P) : Mem P × Nat :=
  match refOf (m.refs k) p with
  | some r => (m, r)
  | none => ((m.alloc []).bind k (m.refs k ++ [(p, m.next)]), m.next)

/-- `__getitem__` of the owner or of a view (index_operations.py:220-221, 289-291): `_filter_index` makes a new array. -/
def get (m : Mem P) (k : Nat) (v : Iop) (p : P) : Mem P × Nat :=
  match v with
  | .base => m.getItem k p
  | .view u o s =>
    let m1 := (m.getItem k p).1
    (m1.alloc ((Iop.view u o s).get (m.dict k) p), m1.next)

/-- `shift_right` (index_operations.py:108-111): one array after the other, in place. -/
def shiftRight (m : Mem P) (k start size : Nat) : Mem P :=
  (m.refs k).foldl (fun m e => if m.cell e.2 = [] then m else m.write e.2 (shiftRightArr start size (m.cell e.2))) m

/-- The loop of `shift_left` (index_operations.py:113-122) with the entries it leaves: `ind[~todelete]` is a new array, and
is only made when there is something to delete; the subtraction is in place. (As in `IndexOps.shiftLeft`, every round
touches its own key only.) -/
def shiftLeftLoop (start size : Nat) : Mem P → List (P × Nat) → Mem P × List (P × Nat)
  | m, [] => (m, [])
  | m, (p, r) :: l =>
    if m.cell r = [] then
      ((shiftLeftLoop start size m l).1, (p, r) :: (shiftLeftLoop start size m l).2)
    else
      let kept := (m.cell r).filter (fun i => !(decide (start ≤ i) && decide (i < start + size)))
      let r1 := if kept.length = (m.cell r).length then r else m.next
      let m1 := if kept.length = (m.cell r).length then m else m.alloc kept
      let m2 := m1.write r1 (kept.map (fun i => if start ≤ i then i - size else i))
      ((shiftLeftLoop start size m2 l).1,
        if kept = [] then (shiftLeftLoop start size m2 l).2 else (p, r1) :: (shiftLeftLoop start size m2 l).2)

/-- `shift_left` (index_operations.py:113-122). -/
def shiftLeft (m : Mem P) (k start size : Nat) : Mem P :=
  (shiftLeftLoop start size m (m.refs k)).1.bind k (shiftLeftLoop start size m (m.refs k)).2

end Mem

/-- Calls on the object `k`. `copy k v` and `get k v p`: on `k` or on a view of it. `update k j v offset`: from `j` or a view
of it. `write r a`: the user writes into an array. -/
inductive MCall (P : Type)
  | new
  | copy (k : Nat) (v : Iop)
  | add (k : Nat) (p : P) (ind : Arr)
  | remove (k : Nat) (p : P) (ind : Arr)
  | clear (k : Nat)
  | delItem (k : Nat) (p : P)
  | get (k : Nat) (v : Iop) (p : P)
  | shiftRight (k start size : Nat)
  | shiftLeft (k start size : Nat)
  | update (k j : Nat) (v : Iop) (offset : Nat)
  | write (r : Nat) (a : Arr)

namespace Mem

/-- The state afterwards, and the array that is given out. -/
def exec (m : Mem P) : MCall P → Mem P × Option Nat
  | .new => ({ m.bind m.num [] with num := m.num + 1 }, none)
  | .copy k v => ({ (m.bind m.num []).addAll m.num (v.items (m.dict k)) with num := m.num + 1 }, none)
  | .add k p ind => (m.add k p ind, none)
  | .remove k p ind => ((m.remove k p ind).1, some (m.remove k p ind).2)
  | .clear k => (m.bind k [], none)
  | .delItem k p => (m.bind k ((m.refs k).filter fun e => decide (e.1 ≠ p)), none)
  | .get k v p => ((m.get k v p).1, some (m.get k v p).2)
  | .shiftRight k s n => (m.shiftRight k s n, none)
  | .shiftLeft k s n => (m.shiftLeft k s n, none)
  | .update k j v offset => (m.addAll k ((v.items (m.dict j)).map fun e => (e.1, e.2.map (· + offset))), none)
  | .write r a => (m.write r a, none)

end Mem

/-! ### Specification -/

/-- What the objects are to say after a call, when `n` objects say `D`: objects without memory, as in C01 to C05. Only the
object that the call is made on changes. -/
def MCall.said (D : Nat → Dict P) (n : Nat) : MCall P → Nat → Dict P
  | .new => Function.update D n []
  | .copy k v => Function.update D n (v.copy (D k))
  | .add k p ind => Function.update D k (IndexOps.add (D k) p ind)
  | .remove k p ind => Function.update D k (IndexOps.remove (D k) p ind).1
  | .clear k => Function.update D k []
  | .delItem k p => Function.update D k (delKey (D k) p)
  | .get k v p => Function.update D k (v.getItem (D k) p).1
  | .shiftRight k s n => Function.update D k (IndexOps.shiftRight (D k) s n)
  | .shiftLeft k s n => Function.update D k (IndexOps.shiftLeft (D k) s n)
  | .update k j v offset => Function.update D k (Iop.base.update (D k) (v.items (D j)) offset)
  | .write _ _ => D

/-- What the array that is given out is to contain. -/
def MCall.gives (D : Nat → Dict P) : MCall P → Arr
  | .remove k p ind => (IndexOps.remove (D k) p ind).2
  | .get k v p => v.get (D k) p
  | _ => []

/-- Is a new array given out: everything but the arrays of owners themselves. -/
def MCall.lends : MCall P → Prop
  | .get _ .base _ => False
  | _ => True

namespace Mem

/-- Nobody but the user has the array. -/
def Private (m : Mem P) (r : Nat) : Prop := r < m.next ∧ ∀ k, ∀ e ∈ m.refs k, e.2 ≠ r

/-- Histories in which the user writes only into arrays of their own. -/
inductive Reach : Mem P → Prop
  | empty : Reach empty
  | step {m : Mem P} (c : MCall P) : Reach m → (∀ r a, c = .write r a → m.Private r) → Reach (m.exec c).1

/-! ### Proofs -/

/-- Arrays are stored in one place only. -/
structure Inv (m : Mem P) : Prop where
  bound : ∀ k, ∀ e ∈ m.refs k, e.2 < m.next
  nodup : ∀ k, ((m.refs k).map Prod.snd).Nodup
  disj : ∀ j k, j ≠ k → ∀ e ∈ m.refs j, ∀ f ∈ m.refs k, e.2 ≠ f.2

/-- From `m` to `m'` only stored arrays are changed, and only new arrays are stored. -/
structure Mild (m m' : Mem P) : Prop where
  inv : Inv m'
  le : m.next ≤ m'.next
  from' : ∀ k, ∀ e ∈ m'.refs k, (∃ f ∈ m.refs k, f.2 = e.2) ∨ m.next ≤ e.2
  keep : ∀ r, m.Private r → m'.cell r = m.cell r

theorem Mild.priv {m m' : Mem P} (h : Mild m m') {r : Nat} (hr : m.Private r) : m'.Private r := by
  refine ⟨lt_of_lt_of_le hr.1 h.le, fun k e he e1 => ?_⟩
  rcases h.from' k e he with ⟨f, hf, h2⟩ | h2
  · exact hr.2 k f hf (h2.trans e1)
  · have := hr.1; omega

theorem Mild.refl {m : Mem P} (h : Inv m) : Mild m m := ⟨h, le_rfl, fun _ e he => .inl ⟨e, he, rfl⟩, fun _ _ => rfl⟩

theorem Mild.trans {m m' m'' : Mem P} (h : Mild m m') (h' : Mild m' m'') : Mild m m'' where
  inv := h'.inv
  le := h.le.trans h'.le
  from' k e he := by
    rcases h'.from' k e he with ⟨f, hf, h2⟩ | h2
    · rcases h.from' k f hf with ⟨f', hf', h3⟩ | h3
      · exact .inl ⟨f', hf', h3.trans h2⟩
      · exact .inr (h2 ▸ h3)
    · exact .inr (h.le.trans h2)
  keep r hr := by rw [h'.keep r (h.priv hr), h.keep r hr]

theorem map_setRef (c : Nat → Arr) (l : List (P × Nat)) (p : P) (r : Nat) :
    (setRef l p r).map (fun e => (e.1, c e.2)) = setKey (l.map fun e => (e.1, c e.2)) p (c r) := by
  induction l with
  | nil => rfl
  | cons e l ih =>
    obtain ⟨q, s⟩ := e
    simp only [setRef, List.map_cons, setKey]
    split
    · rfl
    · rw [List.map_cons, ih]

theorem mem_setRef {l : List (P × Nat)} {p : P} {r : Nat} {e : P × Nat} (h : e ∈ setRef l p r) : e ∈ l ∨ e.2 = r := by
  induction l with
  | nil => simp [setRef] at h; right; rw [h]
  | cons f l ih =>
    obtain ⟨q, s⟩ := f
    rw [setRef] at h
    split at h
    · rcases List.mem_cons.mp h with rfl | h
      · exact .inr rfl
      · exact .inl (.tail _ h)
    · rcases List.mem_cons.mp h with rfl | h
      · exact .inl (.head _)
      · exact (ih h).imp (.tail _) id

theorem setRef_nodup {l : List (P × Nat)} {p : P} {r : Nat} (h : (l.map Prod.snd).Nodup) (hr : ∀ e ∈ l, e.2 ≠ r) :
    ((setRef l p r).map Prod.snd).Nodup := by
  induction l with
  | nil => simp [setRef]
  | cons f l ih =>
    obtain ⟨q, s⟩ := f
    rw [List.map_cons, List.nodup_cons] at h
    rw [setRef]
    split
    · rw [List.map_cons, List.nodup_cons]
      refine ⟨fun hm => ?_, h.2⟩
      obtain ⟨e, he, e1⟩ := List.mem_map.mp hm
      exact hr e (.tail _ he) e1
    · rw [List.map_cons, List.nodup_cons]
      refine ⟨fun hm => ?_, ih h.2 fun e he => hr e (.tail _ he)⟩
      obtain ⟨e, he, e1⟩ := List.mem_map.mp hm
      rcases mem_setRef he with h' | h'
      · exact h.1 (List.mem_map.mpr ⟨e, h', e1⟩)
      · exact hr (q, s) (.head _) (e1.symm.trans h')

theorem dict_congr {m m' : Mem P} {k : Nat} (hr : m'.refs k = m.refs k) (hc : ∀ e ∈ m.refs k, m'.cell e.2 = m.cell e.2) :
    m'.dict k = m.dict k := by
  unfold dict
  rw [hr]
  exact List.map_congr_left fun e he => by rw [hc e he]

theorem alloc_mild {m : Mem P} (h : Inv m) (a : Arr) : Mild m (m.alloc a) ∧ (m.alloc a).dict = m.dict ∧
    (m.alloc a).Private m.next ∧ (m.alloc a).cell m.next = a := by
  refine ⟨⟨⟨fun k e he => Nat.lt_succ_of_lt (h.bound k e he), h.nodup, h.disj⟩, Nat.le_succ _,
    fun _ e he => .inl ⟨e, he, rfl⟩, fun r hr => if_neg (Nat.ne_of_lt hr.1)⟩, ?_, ⟨Nat.lt_succ_self _, fun k e he => ?_⟩, if_pos rfl⟩
  · funext k
    exact dict_congr rfl fun e he => if_neg (Nat.ne_of_lt (h.bound k e he))
  · exact Nat.ne_of_lt (h.bound k e he)

/-- Replacing the dictionary of `k` by one with some of its arrays, and new ones. -/
theorem bind_mild {m m' : Mem P} (h : Mild m m') (k : Nat) {l : List (P × Nat)} (hb : ∀ e ∈ l, e.2 < m'.next)
    (hn : (l.map Prod.snd).Nodup) (hl : ∀ e ∈ l, (∃ f ∈ m.refs k, f.2 = e.2) ∨ m.next ≤ e.2)
    (hd : ∀ j, j ≠ k → ∀ e ∈ l, ∀ f ∈ m'.refs j, e.2 ≠ f.2) : Mild m (m'.bind k l) where
  inv := by
    refine ⟨fun j e he => ?_, fun j => ?_, fun i j hij e he f hf => ?_⟩
    · simp only [bind] at he ⊢
      split at he
      · exact hb e he
      · exact h.inv.bound j e he
    · simp only [bind]
      split
      · exact hn
      · exact h.inv.nodup j
    · simp only [bind] at he hf
      split at he
      · rename_i hi
        rw [if_neg (by rw [← hi]; exact fun h => hij h.symm)] at hf
        exact hd j (by rw [← hi]; exact fun h => hij h.symm) e he f hf
      · rename_i hi
        split at hf
        · rename_i hj
          exact fun e1 => hd i hi f hf e he e1.symm
        · exact h.inv.disj i j hij e he f hf
  le := h.le
  from' j e he := by
    simp only [bind] at he
    split at he
    · rename_i hj
      rw [hj]
      exact hl e he
    · exact h.from' j e he
  keep := h.keep

theorem dict_bind (m : Mem P) (k : Nat) (l : List (P × Nat)) :
    (m.bind k l).dict = Function.update m.dict k (l.map fun e => (e.1, m.cell e.2)) := by
  funext j
  by_cases hj : j = k
  · subst hj
    rw [Function.update_self]
    simp [dict, bind]
  · rw [Function.update_of_ne hj]
    simp [dict, bind, hj]

theorem store_mild {m : Mem P} (h : Inv m) (k : Nat) (p : P) (a : Arr) : Mild m (m.store k p a) ∧
    (m.store k p a).dict = Function.update m.dict k (setKey (m.dict k) p a) := by
  obtain ⟨h1, h2, h3, h4⟩ := alloc_mild h a
  constructor
  · refine bind_mild h1 k (fun e he => ?_) (setRef_nodup (h.nodup k) fun e he => Nat.ne_of_lt (h.bound k e he))
      (fun e he => ?_) fun j hj e he f hf => ?_
    · rcases mem_setRef he with h' | h'
      · exact Nat.lt_succ_of_lt (h.bound k e h')
      · rw [h']; exact Nat.lt_succ_self _
    · rcases mem_setRef he with h' | h'
      · exact .inl ⟨e, h', rfl⟩
      · exact .inr h'.ge
    · rcases mem_setRef he with h' | h'
      · exact h.disj k j (fun h => hj h.symm) e h' f hf
      · rw [h']; exact fun e1 => Nat.ne_of_lt (h.bound j f hf) e1.symm
  · unfold store
    rw [dict_bind, h2, map_setRef, h4]
    congr 1
    rw [← h2]
    rfl

theorem filter_mild {m : Mem P} (h : Inv m) (k : Nat) (p : P) :
    Mild m (m.bind k ((m.refs k).filter fun e => decide (e.1 ≠ p))) ∧
    (m.bind k ((m.refs k).filter fun e => decide (e.1 ≠ p))).dict = Function.update m.dict k (delKey (m.dict k) p) := by
  constructor
  · refine bind_mild (.refl h) k (fun e he => h.bound k e (List.mem_filter.mp he).1)
      ((h.nodup k).sublist (List.filter_sublist.map _)) (fun e he => .inl ⟨e, (List.mem_filter.mp he).1, rfl⟩)
      fun j hj e he f hf => h.disj k j (fun h => hj h.symm) e (List.mem_filter.mp he).1 f hf
  · rw [dict_bind]
    congr 1
    unfold delKey dict
    rw [List.filter_map]
    rfl

theorem drop_mild {m : Mem P} (h : Inv m) (k : Nat) : Mild m (m.bind k []) ∧
    (m.bind k []).dict = Function.update m.dict k [] :=
  ⟨bind_mild (.refl h) k (by simp) (by simp) (by simp) (by simp), dict_bind m k []⟩

theorem addAll_mild (k : Nat) (its : List (P × Arr)) {m : Mem P} (h : Inv m) : Mild m (m.addAll k its) ∧
    (m.addAll k its).dict = Function.update m.dict k (its.foldl (fun d e => IndexOps.add d e.1 e.2) (m.dict k)) := by
  induction its generalizing m with
  | nil => exact ⟨.refl h, by simp [addAll]⟩
  | cons e its ih =>
    obtain ⟨h1, h2⟩ := store_mild h k e.1 (union1d (lookup (m.dict k) e.1) e.2)
    obtain ⟨h3, h4⟩ := ih h1.inv
    refine ⟨h1.trans h3, h4.trans ?_⟩
    rw [h2, Function.update_idem, Function.update_self]
    rfl

theorem refOf_none {c : Nat → Arr} {l : List (P × Nat)} {p : P} (h : refOf l p = none) :
    hasKey (l.map fun e => (e.1, c e.2)) p = false := by
  induction l with
  | nil => rfl
  | cons e l ih =>
    obtain ⟨q, s⟩ := e
    rw [refOf] at h
    split at h
    · cases h
    · rename_i hq
      have := ih h
      simp only [hasKey, List.map_cons, List.any_cons] at this ⊢
      rw [this]; simp [hq]

theorem refOf_some {c : Nat → Arr} {l : List (P × Nat)} {p : P} {r : Nat} (h : refOf l p = some r) :
    hasKey (l.map fun e => (e.1, c e.2)) p = true ∧ lookup (l.map fun e => (e.1, c e.2)) p = c r := by
  induction l with
  | nil => cases h
  | cons e l ih =>
    obtain ⟨q, s⟩ := e
    rw [refOf] at h
    split at h
    · rename_i hq
      cases h
      simp [hasKey, lookup, hq]
    · rename_i hq
      obtain ⟨h1, h2⟩ := ih h
      simp only [hasKey, List.map_cons, List.any_cons, lookup] at h1 ⊢
      rw [h1, if_neg hq, h2]; simp

theorem getItem_mild {m : Mem P} (h : Inv m) (k : Nat) (p : P) : Mild m (m.getItem k p).1 ∧
    (m.getItem k p).1.dict = Function.update m.dict k (IndexOps.getItem (m.dict k) p).1 ∧
    (m.getItem k p).1.cell (m.getItem k p).2 = (IndexOps.getItem (m.dict k) p).2 := by
  unfold getItem
  cases hr : refOf (m.refs k) p with
  | some r =>
    obtain ⟨h1, h2⟩ := refOf_some (c := m.cell) hr
    have h1 : hasKey (m.dict k) p = true := h1
    have h2 : lookup (m.dict k) p = m.cell r := h2
    simp only [IndexOps.getItem, h1, if_true, h2]
    exact ⟨.refl h, by simp, trivial⟩
  | none =>
    have h1 : hasKey (m.dict k) p = false := refOf_none (c := m.cell) hr
    obtain ⟨a1, a2, a3, a4⟩ := alloc_mild h ([] : Arr)
    simp only [IndexOps.getItem, h1, Bool.false_eq_true, if_false]
    refine ⟨bind_mild a1 k (fun e he => ?_) ?_ (fun e he => ?_) fun j hj e he f hf => ?_, ?_, a4⟩
    · rcases List.mem_append.mp he with h' | h'
      · exact Nat.lt_succ_of_lt (h.bound k e h')
      · rw [List.mem_singleton.mp h']; exact Nat.lt_succ_self _
    · rw [List.map_append, List.nodup_append]
      refine ⟨h.nodup k, by simp, fun a ha b hb => ?_⟩
      obtain ⟨e, he, rfl⟩ := List.mem_map.mp ha
      simp only [List.map_cons, List.map_nil, List.mem_singleton] at hb
      rw [hb]
      exact Nat.ne_of_lt (h.bound k e he)
    · rcases List.mem_append.mp he with h' | h'
      · exact .inl ⟨e, h', rfl⟩
      · rw [List.mem_singleton.mp h']; exact .inr le_rfl
    · rcases List.mem_append.mp he with h' | h'
      · exact h.disj k j (fun h => hj h.symm) e h' f hf
      · rw [List.mem_singleton.mp h']; exact fun e1 => Nat.ne_of_lt (h.bound j f hf) e1.symm
    · rw [dict_bind, a2, List.map_append]
      congr 1
      have : (m.refs k).map (fun e => (e.1, (m.alloc []).cell e.2)) = (m.alloc []).dict k := rfl
      rw [this, a2]
      simp [a4]

theorem iop_get (v : Iop) (d : Dict P) (p : P) : (v.getItem d p).1 = (IndexOps.getItem d p).1 := by
  induction v with
  | base => rfl
  | view u o s ih => exact ih

theorem get_mild {m : Mem P} (h : Inv m) (k : Nat) (v : Iop) (p : P) : Mild m (m.get k v p).1 ∧
    (m.get k v p).1.dict = Function.update m.dict k (v.getItem (m.dict k) p).1 ∧
    (m.get k v p).1.cell (m.get k v p).2 = v.get (m.dict k) p ∧
    (v ≠ .base → (m.get k v p).1.Private (m.get k v p).2) := by
  obtain ⟨h1, h2, h3⟩ := getItem_mild h k p
  cases v with
  | base => exact ⟨h1, h2, h3, fun h => absurd rfl h⟩
  | view u o s =>
    obtain ⟨a1, a2, a3, a4⟩ := alloc_mild h1.inv ((Iop.view u o s).get (m.dict k) p)
    exact ⟨h1.trans a1, a2.trans (h2.trans (by rw [iop_get])), a4, fun _ => a3⟩

theorem remove_mild {m : Mem P} (h : Inv m) (k : Nat) (p : P) (ind : Arr) : Mild m (m.remove k p ind).1 ∧
    (m.remove k p ind).1.dict = Function.update m.dict k (IndexOps.remove (m.dict k) p ind).1 ∧
    (m.remove k p ind).1.cell (m.remove k p ind).2 = (IndexOps.remove (m.dict k) p ind).2 ∧
    (m.remove k p ind).1.Private (m.remove k p ind).2 := by
  unfold remove IndexOps.remove
  split
  · dsimp only
    split
    · obtain ⟨h1, h2⟩ := store_mild h k p (setdiff1d (lookup (m.dict k) p) ind)
      obtain ⟨a1, a2, a3, a4⟩ := alloc_mild h1.inv (intersect1d (lookup (m.dict k) p) ind)
      exact ⟨h1.trans a1, a2.trans h2, a4, a3⟩
    · obtain ⟨h1, h2⟩ := filter_mild h k p
      obtain ⟨a1, a2, a3, a4⟩ := alloc_mild h1.inv (intersect1d (lookup (m.dict k) p) ind)
      exact ⟨h1.trans a1, a2.trans h2, a4, a3⟩
  · obtain ⟨a1, a2, a3, a4⟩ := alloc_mild h ([] : Arr)
    exact ⟨a1, a2.trans (by simp), a4, a3⟩

/-- The loop of `shift_right` over some entries. -/
theorem shiftRight_loop (s n : Nat) (l : List (P × Nat)) (hl : (l.map Prod.snd).Nodup) (m : Mem P) :
    let m' := l.foldl (fun m e => if m.cell e.2 = [] then m else m.write e.2 (shiftRightArr s n (m.cell e.2))) m
    m'.refs = m.refs ∧ m'.next = m.next ∧
      (∀ q, q ∈ l.map Prod.snd → m'.cell q = shiftRightArr s n (m.cell q)) ∧
      ∀ q, q ∉ l.map Prod.snd → m'.cell q = m.cell q := by
  induction l generalizing m with
  | nil => simp
  | cons e l ih =>
    rw [List.map_cons, List.nodup_cons] at hl
    have key : ∃ m1 : Mem P, (if m.cell e.2 = [] then m else m.write e.2 (shiftRightArr s n (m.cell e.2))) = m1 ∧
        m1.refs = m.refs ∧ m1.next = m.next ∧ m1.cell e.2 = shiftRightArr s n (m.cell e.2) ∧
        ∀ q, q ≠ e.2 → m1.cell q = m.cell q := by
      refine ⟨_, rfl, ?_⟩
      split
      · rename_i h0
        exact ⟨rfl, rfl, by rw [h0]; rfl, fun _ _ => rfl⟩
      · exact ⟨rfl, rfl, if_pos rfl, fun q hq => if_neg hq⟩
    obtain ⟨m1, e1, k1, k2, k3, k4⟩ := key
    dsimp only
    rw [List.foldl_cons, e1]
    obtain ⟨i1, i2, i3, i4⟩ := ih hl.2 m1
    refine ⟨i1.trans k1, i2.trans k2, fun q hq => ?_, fun q hq => ?_⟩
    · rw [List.map_cons] at hq
      rcases List.mem_cons.mp hq with rfl | hq
      · rw [i4 _ hl.1, k3]
      · rw [i3 q hq, k4 q fun e2 => hl.1 (e2 ▸ hq)]
    · rw [List.map_cons, List.mem_cons, not_or] at hq
      rw [i4 q hq.2, k4 q hq.1]

theorem shiftRight_mild {m : Mem P} (h : Inv m) (k s n : Nat) : Mild m (m.shiftRight k s n) ∧
    (m.shiftRight k s n).dict = Function.update m.dict k (IndexOps.shiftRight (m.dict k) s n) := by
  obtain ⟨h1, h2, h3, h4⟩ := shiftRight_loop s n (m.refs k) (h.nodup k) m
  have e1 : (m.shiftRight k s n).refs = m.refs := h1
  have e2 : (m.shiftRight k s n).next = m.next := h2
  refine ⟨⟨⟨?_, ?_, ?_⟩, e2.ge, ?_, fun r hr => ?_⟩, ?_⟩
  · rw [e1, e2]; exact h.bound
  · rw [e1]; exact h.nodup
  · rw [e1]; exact h.disj
  · rw [e1]; exact fun _ e he => .inl ⟨e, he, rfl⟩
  · refine h4 r fun hm => ?_
    obtain ⟨e, he, e3⟩ := List.mem_map.mp hm
    exact hr.2 k e he e3
  · funext j
    by_cases hj : j = k
    · subst hj
      rw [Function.update_self]
      unfold dict IndexOps.shiftRight
      rw [e1, List.map_map]
      refine List.map_congr_left fun e he => ?_
      show (e.1, (m.shiftRight j s n).cell e.2) = _
      rw [show (m.shiftRight j s n).cell e.2 = _ from h3 e.2 (List.mem_map.mpr ⟨e, he, rfl⟩)]
      rfl
    · rw [Function.update_of_ne hj]
      refine dict_congr (by rw [e1]) fun e he => h4 e.2 fun hm => ?_
      obtain ⟨f, hf, e3⟩ := List.mem_map.mp hm
      exact h.disj k j (fun h => hj h.symm) f hf e he e3

/-- The loop of `shift_left` over some entries. -/
theorem shiftLeft_loop (s n : Nat) (l : List (P × Nat)) (hl : (l.map Prod.snd).Nodup) (m : Mem P)
    (hb : ∀ e ∈ l, e.2 < m.next) :
    (shiftLeftLoop s n m l).2.map (fun e => (e.1, (shiftLeftLoop s n m l).1.cell e.2)) =
        IndexOps.shiftLeft (l.map fun e => (e.1, m.cell e.2)) s n ∧
      (shiftLeftLoop s n m l).1.refs = m.refs ∧ m.next ≤ (shiftLeftLoop s n m l).1.next ∧
      (∀ q, q < m.next → q ∉ l.map Prod.snd → (shiftLeftLoop s n m l).1.cell q = m.cell q) ∧
      (∀ e ∈ (shiftLeftLoop s n m l).2, e.2 < (shiftLeftLoop s n m l).1.next ∧ (e.2 ∈ l.map Prod.snd ∨ m.next ≤ e.2)) ∧
      ((shiftLeftLoop s n m l).2.map Prod.snd).Nodup := by
  induction l generalizing m with
  | nil => simp [shiftLeftLoop, IndexOps.shiftLeft]
  | cons e l ih =>
    obtain ⟨p, r⟩ := e
    rw [List.map_cons, List.nodup_cons] at hl
    have hr : r < m.next := hb (p, r) (.head _)
    have hbl : ∀ e ∈ l, e.2 < m.next := fun e he => hb e (.tail _ he)
    by_cases h0 : m.cell r = []
    · obtain ⟨i1, i2, i3, i4, i5, i6⟩ := ih hl.2 m hbl
      simp only [shiftLeftLoop, if_pos h0]
      have hc := i4 r hr hl.1
      refine ⟨?_, i2, i3, fun q hq hm => ?_, fun e he => ?_, ?_⟩
      · rw [List.map_cons, i1, hc, List.map_cons]
        simp [IndexOps.shiftLeft, h0]
      · rw [List.map_cons, List.mem_cons, not_or] at hm
        exact i4 q hq hm.2
      · rcases List.mem_cons.mp he with rfl | he
        · exact ⟨lt_of_lt_of_le hr i3, .inl (by simp)⟩
        · exact ⟨(i5 e he).1, (i5 e he).2.imp (fun h => by rw [List.map_cons]; exact .tail _ h) id⟩
      · rw [List.map_cons, List.nodup_cons]
        refine ⟨fun hm => ?_, i6⟩
        obtain ⟨f, hf, e3⟩ := List.mem_map.mp hm
        have e3 : f.2 = r := e3
        rcases (i5 f hf).2 with h' | h'
        · exact hl.1 (e3 ▸ h')
        · omega
    · simp only [shiftLeftLoop, if_neg h0]
      generalize hk : (m.cell r).filter (fun i => !(decide (s ≤ i) && decide (i < s + n))) = kept
      generalize hr1 : (if kept.length = (m.cell r).length then r else m.next) = r1
      generalize hm2 : (if kept.length = (m.cell r).length then m else m.alloc kept).write r1
        (kept.map (fun i => if s ≤ i then i - n else i)) = m2
      have hsh : shiftLeftArr s n (m.cell r) = kept.map (fun i => if s ≤ i then i - n else i) := by
        unfold shiftLeftArr; rw [hk]
      have k1 : m2.refs = m.refs := by
        rw [← hm2]; split <;> rfl
      have k2 : m.next ≤ m2.next := by
        rw [← hm2]; split
        · exact le_rfl
        · exact Nat.le_succ _
      have k3 : r1 < m2.next := by
        rw [← hm2, ← hr1]; split
        · exact hr
        · exact Nat.lt_succ_self _
      have k4 : m2.cell r1 = shiftLeftArr s n (m.cell r) := by
        rw [← hm2, hsh]; exact if_pos rfl
      have k5 : r1 = r ∨ r1 = m.next := by
        rw [← hr1]; split
        · exact .inl rfl
        · exact .inr rfl
      have k6 : ∀ q, q < m.next → q ≠ r → m2.cell q = m.cell q := by
        intro q hq hqr
        have hq1 : q ≠ r1 := by
          rcases k5 with h | h
          · rw [h]; exact hqr
          · rw [h]; exact Nat.ne_of_lt hq
        rw [← hm2]
        show (if q = r1 then _ else _) = _
        rw [if_neg hq1]
        split
        · rfl
        · exact if_neg (Nat.ne_of_lt hq)
      have k7 : r1 ∉ l.map Prod.snd := by
        rcases k5 with h | h
        · rw [h]; exact hl.1
        · rw [h]
          intro hm
          obtain ⟨f, hf, e3⟩ := List.mem_map.mp hm
          exact Nat.ne_of_lt (hbl f hf) e3
      have k8 : (l.map fun e => (e.1, m2.cell e.2)) = l.map fun e => (e.1, m.cell e.2) :=
        List.map_congr_left fun e he => by
          rw [k6 e.2 (hbl e he) fun e3 => hl.1 (e3 ▸ List.mem_map.mpr ⟨e, he, rfl⟩)]
      obtain ⟨i1, i2, i3, i4, i5, i6⟩ := ih hl.2 m2 fun e he => lt_of_lt_of_le (hbl e he) k2
      have hc := i4 r1 k3 k7
      have hnil : (shiftLeftArr s n (m.cell r) = []) ↔ kept = [] := by rw [hsh, List.map_eq_nil_iff]
      have tail5 : ∀ e ∈ (shiftLeftLoop s n m2 l).2, e.2 < (shiftLeftLoop s n m2 l).1.next ∧
          (e.2 ∈ ((p, r) :: l).map Prod.snd ∨ m.next ≤ e.2) := fun e he =>
        ⟨(i5 e he).1, (i5 e he).2.imp (fun h => by rw [List.map_cons]; exact .tail _ h) k2.trans⟩
      refine ⟨?_, i2.trans k1, k2.trans i3, fun q hq hm => ?_, ?_, ?_⟩
      · rw [List.map_cons]
        simp only [IndexOps.shiftLeft, List.filterMap_cons, if_neg h0]
        by_cases hkn : kept = []
        · rw [if_pos hkn, if_pos (hnil.mpr hkn), i1, k8]
          rfl
        · rw [if_neg hkn, if_neg fun h => hkn (hnil.mp h), List.map_cons, i1, k8, hc, k4]
          rfl
      · rw [List.map_cons, List.mem_cons, not_or] at hm
        rw [i4 q (lt_of_lt_of_le hq k2) hm.2, k6 q hq hm.1]
      · split
        · exact tail5
        · intro e he
          rcases List.mem_cons.mp he with rfl | he
          · exact ⟨lt_of_lt_of_le k3 i3, k5.imp (fun h => by simp [h]) fun h => h.ge⟩
          · exact tail5 e he
      · split
        · exact i6
        · rw [List.map_cons, List.nodup_cons]
          refine ⟨fun hm => ?_, i6⟩
          obtain ⟨f, hf, e3⟩ := List.mem_map.mp hm
          have e3 : f.2 = r1 := e3
          rcases (i5 f hf).2 with h' | h'
          · exact k7 (e3 ▸ h')
          · omega

theorem shiftLeft_mild {m : Mem P} (h : Inv m) (k s n : Nat) : Mild m (m.shiftLeft k s n) ∧
    (m.shiftLeft k s n).dict = Function.update m.dict k (IndexOps.shiftLeft (m.dict k) s n) := by
  obtain ⟨i1, i2, i3, i4, i5, i6⟩ := shiftLeft_loop s n (m.refs k) (h.nodup k) m (h.bound k)
  have hmild : Mild m (m.shiftLeft k s n) := by
    unfold shiftLeft
    generalize shiftLeftLoop s n m (m.refs k) = t at *
    refine ⟨⟨fun j e he => ?_, fun j => ?_, fun i j hij e he f hf => ?_⟩, i3, fun j e he => ?_, fun r hr => ?_⟩
    · simp only [bind] at he ⊢
      split at he
      · exact (i5 e he).1
      · rw [i2] at he; exact lt_of_lt_of_le (h.bound j e he) i3
    · simp only [bind]
      split
      · exact i6
      · rw [i2]; exact h.nodup j
    · have cross : ∀ j, j ≠ k → ∀ e ∈ t.2, ∀ f ∈ m.refs j, e.2 ≠ f.2 := by
        intro j hj e he f hf e3
        rcases (i5 e he).2 with h' | h'
        · obtain ⟨g, hg, e4⟩ := List.mem_map.mp h'
          exact h.disj k j (fun h => hj h.symm) g hg f hf (e4.trans e3)
        · have := h.bound j f hf
          omega
      simp only [bind, i2] at he hf
      split at he
      · rename_i hi
        rw [if_neg (by rw [← hi]; exact fun h => hij h.symm)] at hf
        exact cross j (by rw [← hi]; exact fun h => hij h.symm) e he f hf
      · rename_i hi
        split at hf
        · exact fun e3 => cross i hi f hf e he e3.symm
        · exact h.disj i j hij e he f hf
    · simp only [bind, i2] at he
      split at he
      · rename_i hj
        rw [hj]
        refine (i5 e he).2.imp (fun h' => ?_) id
        obtain ⟨g, hg, e4⟩ := List.mem_map.mp h'
        exact ⟨g, hg, e4⟩
      · exact .inl ⟨e, he, rfl⟩
    · refine i4 r hr.1 fun hm => ?_
      obtain ⟨e, he, e3⟩ := List.mem_map.mp hm
      exact hr.2 k e he e3
  refine ⟨hmild, ?_⟩
  unfold shiftLeft
  rw [dict_bind, i1]
  funext j
  by_cases hj : j = k
  · subst hj
    rw [Function.update_self, Function.update_self]
    rfl
  · rw [Function.update_of_ne hj, Function.update_of_ne hj]
    refine dict_congr (by rw [i2]) fun e he => i4 e.2 (h.bound j e he) fun hm => ?_
    obtain ⟨f, hf, e3⟩ := List.mem_map.mp hm
    exact h.disj k j (fun h => hj h.symm) f hf e he e3

theorem exec_mild {m : Mem P} (h : Inv m) (c : MCall P) (hw : ∀ r a, c ≠ .write r a) :
    Mild m (m.exec c).1 ∧ (m.exec c).1.dict = c.said m.dict m.num := by
  have hnum : ∀ {t : Mem P} (i : Nat), Mild m t → Mild m { t with num := i } := fun i ht =>
    ⟨⟨ht.inv.bound, ht.inv.nodup, ht.inv.disj⟩, ht.le, ht.from', ht.keep⟩
  cases c with
  | new => exact ⟨hnum _ (drop_mild h m.num).1, (drop_mild h m.num).2⟩
  | copy k v =>
    obtain ⟨h1, h2⟩ := drop_mild h m.num
    obtain ⟨h3, h4⟩ := addAll_mild m.num (v.items (m.dict k)) h1.inv
    refine ⟨hnum _ (h1.trans h3), ?_⟩
    show ((m.bind m.num []).addAll m.num (v.items (m.dict k))).dict = _
    rw [h4, h2, Function.update_idem, Function.update_self]
    rfl
  | add k p ind => exact store_mild h k p _
  | remove k p ind => exact ⟨(remove_mild h k p ind).1, (remove_mild h k p ind).2.1⟩
  | clear k => exact drop_mild h k
  | delItem k p => exact filter_mild h k p
  | get k v p => exact ⟨(get_mild h k v p).1, (get_mild h k v p).2.1⟩
  | shiftRight k s n => exact shiftRight_mild h k s n
  | shiftLeft k s n => exact shiftLeft_mild h k s n
  | update k j v offset =>
    obtain ⟨h3, h4⟩ := addAll_mild k ((v.items (m.dict j)).map fun e => (e.1, e.2.map (· + offset))) h
    refine ⟨h3, h4.trans ?_⟩
    rw [List.foldl_map]
    rfl
  | write r a => exact absurd rfl (hw r a)

theorem write_private {m : Mem P} {r : Nat} (hr : m.Private r) (a : Arr) : (m.write r a).dict = m.dict := by
  funext k
  exact dict_congr rfl fun e he => if_neg (hr.2 k e he)

theorem Reach.inv {m : Mem P} (h : Reach m) : Inv m := by
  induction h with
  | empty => exact ⟨by simp [Mem.empty], by simp [Mem.empty], by simp [Mem.empty]⟩
  | @step m c _ hc ih =>
    by_cases hw : ∃ r a, c = .write r a
    · obtain ⟨r, a, rfl⟩ := hw
      exact ⟨ih.bound, ih.nodup, ih.disj⟩
    · exact (exec_mild ih c fun r a e => hw ⟨r, a, e⟩).1.inv

/-! ### C106 -/

/-- C106: Whatever has been called on them, the objects say what objects without any memory would say: a call on one of
them changes no other one, be it a copy or have they been updated from each other, and shifting in place moves every index
once. -/
theorem separate {m : Mem P} (h : Reach m) (c : MCall P) (hc : ∀ r a, c = .write r a → m.Private r) :
    (m.exec c).1.dict = c.said m.dict m.num := by
  by_cases hw : ∃ r a, c = .write r a
  · obtain ⟨r, a, rfl⟩ := hw
    exact write_private (hc r a rfl) a
  · exact (exec_mild h.inv c fun r a e => hw ⟨r, a, e⟩).2

/-- C106: An array that is given out says what it is to say, and the user alone has it, unless it comes from `x[t]` of an
owner. -/
theorem given_partial {m : Mem P} (h : Reach m) (c : MCall P) {r : Nat} (hr : (m.exec c).2 = some r) :
    (m.exec c).1.cell r = c.gives m.dict ∧ (c.lends → (m.exec c).1.Private r) := by
  cases c with
  | remove k p ind =>
    cases hr
    exact ⟨(remove_mild h.inv k p ind).2.2.1, fun _ => (remove_mild h.inv k p ind).2.2.2⟩
  | get k v p =>
    cases hr
    refine ⟨(get_mild h.inv k v p).2.2.1, fun hl => (get_mild h.inv k v p).2.2.2 ?_⟩
    rintro rfl
    exact hl
  | _ => cases hr

/-- C106: Such an array stays the user's, and no call changes it: only writing into it does. -/
theorem stays {m : Mem P} (h : Reach m) {r : Nat} (hr : m.Private r) (c : MCall P) :
    (m.exec c).1.Private r ∧ ((∀ a, c ≠ .write r a) → (m.exec c).1.cell r = m.cell r) := by
  by_cases hw : ∃ q a, c = .write q a
  · obtain ⟨q, a, rfl⟩ := hw
    refine ⟨hr, fun h => if_neg ?_⟩
    rintro rfl
    exact h a rfl
  · have := (exec_mild h.inv c fun r a e => hw ⟨r, a, e⟩).1
    exact ⟨this.priv hr, fun _ => this.keep r hr⟩

/-- One call after the other. -/
def run (m : Mem P) (cs : List (MCall P)) : Mem P := cs.foldl (fun m c => (m.exec c).1) m

/-- A case for the theorems: `constraints` of a model with two properties, a view of it, what `remove` gave, and a copy. -/
def demo : Mem Bool := run empty [.new, .add 0 true [0, 1, 5], .add 0 false [2, 7], .copy 0 .base, .remove 0 true [1]]

example : Reach demo := by
  unfold demo run
  simp only [List.foldl]
  refine .step _ (.step _ (.step _ (.step _ (.step _ .empty ?_) ?_) ?_) ?_) ?_ <;> intro r a e <;> cases e

example : demo.dict 0 = [(true, [0, 5]), (false, [2, 7])] ∧ demo.dict 1 = [(true, [0, 1, 5]), (false, [2, 7])] := by decide +kernel

example : (demo.exec (.shiftLeft 0 2 3)).1.dict 0 = [(true, [0, 2]), (false, [4])] ∧
    (demo.exec (.shiftLeft 0 2 3)).1.dict 1 = demo.dict 1 := by decide +kernel

/-- C106 fails for the arrays of an owner: what `x[t]` gave is moved by a later shift (`link_parameter` in front of the
parameter), and writing into it changes what the owner says. -/
theorem owner_array_fails : (demo.exec (.get 0 .base true)).2 = some 4 ∧
    (demo.exec (.get 0 .base true)).1.cell 4 = [0, 5] ∧
    (run demo [.get 0 .base true, .shiftRight 0 0 2]).cell 4 = [2, 7] ∧
    (run demo [.get 0 .base true, .write 4 [3, 4]]).dict 0 = [(true, [3, 4]), (false, [2, 7])] := by decide +kernel

/-- But not always: `add` gives the owner another array, and then the old one is not changed any more. -/
theorem owner_array_left : (run demo [.get 0 .base true, .add 0 true [8], .shiftRight 0 0 2]).cell 4 = [0, 5] ∧
    (run demo [.get 0 .base true, .add 0 true [8], .shiftRight 0 0 2]).dict 0 = [(true, [2, 7, 10]), (false, [4, 9])] := by
  decide +kernel

end Mem

end Paramz.IndexOps

import Verif.ObsArray.Lemmas

/-!
# C71: observers of an array hear of every change

Vocabulary: `s.values a` are the elements of the array `a`, `s.observers a` the registrations it would
notify, `step s o` the state after the operation `o` and the calls of callbacks it makes, each with the
memory at that moment. `Reach s`: `s` comes about by making arrays from data, taking parts and copies,
item assignment, in-place operators, registering and unregistering observers, and switching updates.
-/

set_option linter.unusedSectionVars false

namespace Paramz.ObsArray

open Observer (Entry insPos insertAt matchesReq)

variable {V K : Type} [LinearOrder K]

theorem values_keep {s s' : State V K} {a : Nat} (hc : (s'.arr a).cells = (s.arr a).cells)
    (h : ∀ i ∈ (s.arr a).cells, s'.mem i = s.mem i) : s'.values a = s.values a := by
  unfold State.values
  rw [hc]
  exact List.map_congr_left h

/-- Whatever operation changes an element of `a`: it is applied to an array `b` (which is `a`, a part of
it, or an array `a` is a part of, ...), and if updates are on for `b`, the operation ends with a call of
every registration of `a`, when the memory has its final contents. Switched-off arrays and operations that
are not proper are excluded: see the theorems ending in `_fails`. -/
theorem observed_partial {s : State V K} (h : Reach s) {o : Op V K} (ho : o.Proper) (he : s.Exists o)
    {a : Nat} (ha : a < s.next) (hc : (step s o).1.values a ≠ s.values a) :
    ∃ b, o.on? = some b ∧ ((s.arr b).on = true →
      ∃ before, (step s o).2 = before ++ (s.observers a).map fun e => ⟨e, b, (step s o).1.mem⟩) := by
  have i := h.inv
  by_cases hw : o.Writes
  · obtain ⟨b, e1, hb, e2, -, -, e4⟩ := step_writes hw he
    refine ⟨b, e1, fun hon => ?_⟩
    obtain ⟨pre, -, e5⟩ := e4 hon
    have hs : ∃ k ∈ (s.arr a).cells, k ∈ (s.arr b).cells := by
      by_contra hn
      refine hc (values_keep (step_arr s ho ha).1 (fun k hk => e2 k (i.cell a ha k hk) (fun hk' => ?_)))
      exact hn ⟨k, hk, hk'⟩
    obtain ⟨k, hk, hk'⟩ := hs
    refine ⟨pre, ?_⟩
    rw [e5, State.observers, State.observers, i.same a b ha hb k hk hk']
  · refine absurd (values_keep (step_arr s ho ha).1 (fun k hk => ?_)) hc
    exact (step_still s ho hw).2 k (i.cell a ha k hk)

/-- The registrations are called by descending priority. -/
theorem observers_in_order {s : State V K} (h : Reach s) (a : Nat) :
    (s.observers a).Pairwise fun e f => f.prio ≤ e.prio := h.inv.sorted _

/-- Observers are called only by operations on an array they are registered with (by way of a part or of
the whole, as these have one list). -/
theorem only_observers {s : State V K} {o : Op V K} (ho : o.Proper) (he : s.Exists o)
    {c : Call V K} (hc : c ∈ (step s o).2) : ∃ b, o.on? = some b ∧ c.entry ∈ s.observers b := by
  by_cases hw : o.Writes
  · obtain ⟨b, e1, hb, e2, -, e3, e4⟩ := step_writes hw he
    refine ⟨b, e1, ?_⟩
    cases hon : (s.arr b).on with
    | false => rw [e3 hon] at hc; cases hc
    | true =>
      obtain ⟨pre, h1, h2⟩ := e4 hon
      rw [h2, List.mem_append] at hc
      rcases hc with hc | hc
      · exact (h1 c hc).1
      · obtain ⟨e, h3, rfl⟩ := List.mem_map.mp hc
        exact h3
  · rw [(step_still s ho hw).1] at hc; cases hc

/-- An assignment and an in-place operator call every registration exactly once. -/
theorem one_round {s : State V K} {o : Op V K} {a : Nat} (hon : (s.arr a).on = true)
    (ho : (∃ sel vals, o = .set a sel vals) ∨ ∃ f, o = .inplace a f) :
    (step s o).2 = (s.observers a).map fun e => ⟨e, a, (step s o).1.mem⟩ := by
  rcases ho with ⟨sel, vals, rfl⟩ | ⟨f, rfl⟩
  · exact if_pos hon
  · exact if_pos hon

/-- Operations on an array for which updates are off call nobody. (Its parts have switches of their own:
`loud_part_fails`.) -/
theorem off_silent {s : State V K} {o : Op V K} (ho : o.Proper) (he : s.Exists o) {b : Nat}
    (hb : o.on? = some b) (hon : (s.arr b).on = false) : (step s o).2 = [] := by
  by_cases hw : o.Writes
  · obtain ⟨b', e1, -, -, -, e3, -⟩ := step_writes hw he
    rw [hb] at e1
    cases e1
    exact e3 hon
  · exact (step_still s ho hw).1

theorem fresh_values (s : State V K) (vs : List V) (l : Nat) (on : Bool) :
    (s.fresh vs l on).values s.next = vs ∧
    ((s.fresh vs l on).arr s.next).cells = List.range' s.nextCell vs.length := by
  have e : (s.fresh vs l on).arr s.next = ⟨List.range' s.nextCell vs.length, l, on⟩ := if_pos rfl
  refine ⟨?_, by rw [e]⟩
  unfold State.values
  rw [e]
  refine List.ext_getElem? (fun j => ?_)
  rw [List.getElem?_map]
  by_cases hj : j < vs.length
  · rw [List.getElem?_range' hj, Option.map_some, List.getElem?_eq_getElem hj]
    congr 1
    show (if s.nextCell + 1 * j < s.nextCell then _ else (vs[s.nextCell + 1 * j - s.nextCell]?).getD _) = _
    rw [if_neg (by omega), show s.nextCell + 1 * j - s.nextCell = j by omega, List.getElem?_eq_getElem hj]
    rfl
  · rw [List.getElem?_eq_none (by rw [List.length_range']; omega), List.getElem?_eq_none (by omega)]
    rfl

/-- `a.copy()` gives an array with the same values and the same switch, in memory of its own, without
observers and with a list of its own. -/
theorem copy_alone {s : State V K} (h : Reach s) (a : Nat) :
    let s' := (step s (.copy a)).1
    s'.next = s.next + 1 ∧ s'.values s.next = s.values a ∧ (s'.arr s.next).on = (s.arr a).on ∧
      s'.observers s.next = [] ∧
      ∀ b, b < s.next → s'.values b = s.values b ∧ s'.observers b = s.observers b ∧
        (s'.arr b).list ≠ (s'.arr s.next).list ∧ ∀ i ∈ (s'.arr b).cells, i ∉ (s'.arr s.next).cells := by
  intro s'
  have i := h.inv
  have e : s'.arr s.next = ⟨List.range' s.nextCell (s.values a).length, s.nextList, (s.arr a).on⟩ :=
    if_pos rfl
  refine ⟨rfl, (fresh_values s.newList _ _ _).1, by rw [e], ?_, ?_⟩
  · unfold State.observers
    rw [e]
    exact if_pos rfl
  · intro b hb
    have hne : b ≠ s.next := Nat.ne_of_lt hb
    have eb : s'.arr b = s.arr b := if_neg hne
    refine ⟨values_keep (by rw [eb]) (fun k hk => alloc_mem s.newList _ (i.cell b hb k hk)), ?_, ?_, ?_⟩
    · unfold State.observers
      rw [eb]
      exact if_neg (Nat.ne_of_lt (i.list b hb))
    · rw [eb, e]
      exact Nat.ne_of_lt (i.list b hb)
    · intro k hk hk'
      rw [eb] at hk
      rw [e] at hk'
      have h1 := i.cell b hb k hk
      have h2 := (List.mem_range'_1.mp hk').1
      omega

/-- `a[sel]` has the selected values; with slices it uses the memory of `a`, otherwise none that is in
use. -/
theorem part_values {s : State V K} (h : Reach s) (a : Nat) (sel : List Nat) :
    (step s (.part a sel)).1.values s.next = sel.filterMap ((s.values a)[·]?) ∧
    (step s (.take a sel)).1.values s.next = sel.filterMap ((s.values a)[·]?) ∧
    (∀ i ∈ ((step s (.part a sel)).1.arr s.next).cells, i ∈ (s.arr a).cells) ∧
    (∀ b, b < s.next → ∀ i ∈ ((step s (.take a sel)).1.arr s.next).cells, i ∉ (s.arr b).cells) := by
  have key : ((s.arr a).pick sel).map s.mem = sel.filterMap ((s.values a)[·]?) := by
    unfold Ar.pick State.values
    rw [List.map_filterMap]
    refine List.filterMap_congr (fun j _ => ?_)
    rw [List.getElem?_map]
  have e : (step s (.part a sel)).1.arr s.next = { s.arr a with cells := (s.arr a).pick sel } := if_pos rfl
  refine ⟨?_, ?_, ?_, ?_⟩
  · unfold State.values
    rw [e]
    exact key
  · rw [← key]
    exact (fresh_values s _ _ _).1
  · rw [e]
    exact fun i hi => mem_pick hi
  · intro b hb k hk hk'
    rw [show ((step s (.take a sel)).1.arr s.next).cells = _ from (fresh_values s _ _ _).2] at hk
    have h1 := h.inv.cell b hb k hk'
    have h2 := (List.mem_range'_1.mp hk).1
    omega

/-! ### Observers that note what they see -/

/-- Several operations and all calls they make. -/
def run (s : State V K) : List (Op V K) → State V K × List (Call V K)
  | [] => (s, [])
  | o :: L => ((run (step s o).1 L).1, (step s o).2 ++ (run (step s o).1 L).2)

/-- An observer notes, whenever the registration `e` is called, the contents of the cells of an array. -/
def note (cells : List Nat) (e : Entry K) : List V → List (Call V K) → List V
  | v, [] => v
  | v, c :: cs => note cells e (if c.entry = e then cells.map c.mem else v) cs

theorem note_append (cells : List Nat) (e : Entry K) : ∀ (v : List V) (l l' : List (Call V K)),
    note cells e v (l ++ l') = note cells e (note cells e v l) l'
  | _, [], _ => rfl
  | v, c :: l, l' => by rw [List.cons_append, note, note, note_append]

theorem note_none {cells : List Nat} {e : Entry K} : ∀ (v : List V) (l : List (Call V K)),
    (∀ c ∈ l, c.entry ≠ e) → note cells e v l = v
  | _, [], _ => rfl
  | v, c :: l, h => by rw [note, if_neg (h c (by simp)), note_none v l (fun d hd => h d (by simp [hd]))]

theorem note_round {cells : List Nat} {e : Entry K} {b : Nat} {m : Nat → V} :
    ∀ (es : List (Entry K)) (v : List V), e ∈ es ∨ v = cells.map m →
      note cells e v (es.map fun e => ⟨e, b, m⟩) = cells.map m
  | [], v, h => by
    rcases h with h | h
    · cases h
    · exact h
  | x :: es, v, h => by
    rw [List.map_cons, note]
    by_cases hx : x = e
    · rw [if_pos hx]; exact note_round es _ (.inr rfl)
    · rw [if_neg hx]
      refine note_round es v ?_
      rcases h with h | h
      · rcases List.mem_cons.mp h with rfl | h
        · exact absurd rfl hx
        · exact .inl h
      · exact .inr h

/-- A history for the observer `e`: proper operations on arrays that exist, no switching of updates, and
`e` is not unregistered. -/
def Watched (e : Entry K) : State V K → List (Op V K) → Prop
  | _, [] => True
  | s, o :: L => o.Proper ∧ s.Exists o ∧ (∀ a on, o ≠ .setUpdates a on) ∧
      (∀ a u c, o = .removeObserver a u c → matchesReq u c e = false) ∧ Watched e (step s o).1 L

theorem step_on (s : State V K) {o : Op V K} (ho : o.Proper) (hu : ∀ a on, o ≠ .setUpdates a on)
    (he : s.Exists o) (h : ∀ a, a < s.next → (s.arr a).on = true) :
    ∀ a, a < (step s o).1.next → ((step s o).1.arr a).on = true := by
  have hpush : ∀ (t : State V K) (r : Ar), t.next = s.next → t.arr = s.arr → r.on = true →
      ∀ a, a < (t.push r).next → ((t.push r).arr a).on = true := by
    intro t r h1 h2 h3 a ha
    show (if a = t.next then r else t.arr a).on = true
    split
    · exact h3
    · rename_i hne
      rw [h2]
      have : a < t.next + 1 := ha
      exact h a (by omega)
  cases o with
  | share a => exact ho.elim
  | again a => exact ho.elim
  | raw a sel vals => exact ho.elim
  | new vs => exact hpush _ _ rfl rfl rfl
  | part b sel => exact hpush _ _ rfl rfl (h b (he b rfl))
  | take b sel => exact hpush _ _ rfl rfl (h b (he b rfl))
  | copy b => exact hpush _ _ rfl rfl (h b (he b rfl))
  | set b sel vals => exact h
  | inplace b f => exact h
  | inplacePart b k sel f =>
    cases k with
    | view => exact hpush _ _ rfl rfl (h b (he b rfl))
    | fancy => exact hpush _ _ rfl rfl (h b (he b rfl))
    | item => exact h
  | setUpdates b on => exact absurd rfl (hu b on)
  | addObserver b e => exact h
  | removeObserver b o c => exact h

theorem step_keeps_entry (s : State V K) {o : Op V K} (ho : o.Proper) {e : Entry K} {a : Nat}
    (ha : a < s.next) (hi : (s.arr a).list < s.nextList)
    (hr : ∀ a u c, o = .removeObserver a u c → matchesReq u c e = false) (he : e ∈ s.observers a) :
    e ∈ (step s o).1.observers a := by
  unfold State.observers at he ⊢
  rw [(step_arr s ho ha).2]
  have hnew : e ∈ s.newList.lists (s.arr a).list := by
    show e ∈ (if (s.arr a).list = s.nextList then [] else s.lists (s.arr a).list)
    rw [if_neg (Nat.ne_of_lt hi)]; exact he
  cases o with
  | share a => exact ho.elim
  | again a => exact ho.elim
  | raw a sel vals => exact ho.elim
  | new vs => exact hnew
  | copy b => exact hnew
  | addObserver b x =>
    show e ∈ (if (s.arr a).list = (s.arr b).list then _ else s.lists (s.arr a).list)
    split
    · rename_i hl
      rw [mem_insertAt]
      right
      unfold State.observers
      rw [← hl]; exact he
    · exact he
  | removeObserver b u c =>
    show e ∈ (if (s.arr a).list = (s.arr b).list then _ else s.lists (s.arr a).list)
    split
    · rename_i hl
      rw [List.mem_filter]
      refine ⟨?_, by rw [hr b u c rfl]; rfl⟩
      unfold State.observers
      rw [← hl]; exact he
    · exact he
  | inplacePart b k sel f => cases k <;> exact he
  | part b sel => exact he
  | take b sel => exact he
  | set b sel vals => exact he
  | inplace b f => exact he
  | setUpdates b on => exact he

theorem known_step {s : State V K} (i : Inv s) {o : Op V K} (ho : o.Proper) (he : s.Exists o)
    (hon : ∀ a, a < s.next → (s.arr a).on = true) {e : Entry K} {a : Nat} (ha : a < s.next)
    (hm : e ∈ s.observers a) :
    note (s.arr a).cells e (s.values a) (step s o).2 = (step s o).1.values a := by
  have hv : (step s o).1.values a = (s.arr a).cells.map (step s o).1.mem := by
    unfold State.values
    rw [(step_arr s ho ha).1]
  by_cases hw : o.Writes
  · obtain ⟨b, e1, hb, e2, -, -, e4⟩ := step_writes hw he
    obtain ⟨pre, h1, h2⟩ := e4 (hon b hb)
    rw [h2, note_append]
    by_cases hx : e ∈ s.observers b
    · rw [note_round _ _ (.inl hx), hv]
    · have hpre : note (s.arr a).cells e (s.values a) pre = s.values a :=
        note_none _ _ (fun c hc he => hx (by rw [← he]; exact (h1 c hc).1))
      have hv' : (step s o).1.values a = s.values a := by
        refine values_keep (step_arr s ho ha).1 (fun k hk => e2 k (i.cell a ha k hk) (fun hk' => ?_))
        refine hx ?_
        unfold State.observers at hm ⊢
        rw [← i.same a b ha hb k hk hk']; exact hm
      rw [hpre, hv']
      refine note_none _ _ (fun c hc he => hx ?_)
      obtain ⟨d, hd, rfl⟩ := List.mem_map.mp hc
      rw [← he]; exact hd
  · have h1 := step_still s ho hw
    rw [h1.1]
    show s.values a = _
    exact (values_keep (step_arr s ho ha).1 (fun k hk => h1.2 k (i.cell a ha k hk))).symm

/-- An observer registered with `a`, that knows the values of `a` and notes them again whenever it is
called, knows the values of `a` after every history of proper operations: with `a`, with parts of it made
before or later, with arrays it is a part of, and with any other arrays. -/
theorem known_partial {s : State V K} (h : Reach s) (hon : ∀ a, a < s.next → (s.arr a).on = true)
    {e : Entry K} {a : Nat} (ha : a < s.next) (he : e ∈ s.observers a) (L : List (Op V K))
    (hL : Watched e s L) :
    note (s.arr a).cells e (s.values a) (run s L).2 = (run s L).1.values a := by
  induction L generalizing s with
  | nil => rfl
  | cons o L ih =>
    obtain ⟨h1, h2, h3, h4, h5⟩ := hL
    have i := h.inv
    have hlt : a < (step s o).1.next := by
      have : s.next ≤ (step s o).1.next := by
        cases o with
        | inplacePart b k sel f => cases k <;> first | exact Nat.le_succ _ | exact Nat.le_refl _
        | _ => first | exact Nat.le_succ _ | exact Nat.le_refl _
      omega
    have := ih (h.step h1 h2) (step_on s h1 h3 h2 hon) hlt
      (step_keeps_entry s h1 ha (i.list a ha) h4 he) h5
    rw [(step_arr s h1 ha).1] at this
    show note _ e _ (_ ++ _) = (run (step s o).1 L).1.values a
    rw [note_append, known_step i h1 h2 hon ha he, this]

end Paramz.ObsArray

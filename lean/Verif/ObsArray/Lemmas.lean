import Verif.ObsArray.Model

/-!
# Lemmas about observable arrays
-/

set_option linter.unusedSectionVars false

namespace Paramz.ObsArray

open Observer (Entry insPos insertAt matchesReq)

variable {V K : Type} [LinearOrder K]

theorem put_out {i : Nat} : ∀ (ps : List (Nat × V)) (m : Nat → V), (∀ p ∈ ps, p.1 ≠ i) → put m ps i = m i
  | [], _, _ => rfl
  | p :: ps, m, h => by
    rw [put, put_out ps _ (fun q hq => h q (by simp [hq])), if_neg (fun e => h p (by simp) e.symm)]

theorem put_in {i : Nat} {v : V} : ∀ (ps : List (Nat × V)) (m : Nat → V), (ps.map Prod.fst).Nodup →
    (i, v) ∈ ps → put m ps i = v
  | p :: ps, m, hn, h => by
    rw [put]
    rw [List.map_cons, List.nodup_cons] at hn
    rcases List.mem_cons.mp h with rfl | h
    · rw [put_out ps _ (fun q hq e => hn.1 (List.mem_map.mpr ⟨q, hq, e⟩)), if_pos rfl]
    · exact put_in ps _ hn.2 h

theorem put_zip_out {i : Nat} {cs : List Nat} {vs : List V} {m : Nat → V} (h : i ∉ cs) :
    put m (cs.zip vs) i = m i :=
  put_out _ _ (fun p hp e => h (by rw [← e]; exact (List.of_mem_zip hp).1))

theorem mem_pick {r : Ar} {sel : List Nat} {i : Nat} (h : i ∈ r.pick sel) : i ∈ r.cells := by
  obtain ⟨j, -, hj⟩ := List.mem_filterMap.mp h
  exact List.mem_of_getElem? hj

/-- Arrays that share memory share their observers. -/
structure Inv (s : State V K) : Prop where
  list : ∀ a, a < s.next → (s.arr a).list < s.nextList
  cell : ∀ a, a < s.next → ∀ i ∈ (s.arr a).cells, i < s.nextCell
  same : ∀ a b, a < s.next → b < s.next → ∀ i ∈ (s.arr a).cells, i ∈ (s.arr b).cells →
    (s.arr a).list = (s.arr b).list
  sorted : ∀ l, (s.lists l).Pairwise fun e f => f.prio ≤ e.prio

theorem Inv.mem {s : State V K} (h : Inv s) (m : Nat → V) : Inv { s with mem := m } :=
  ⟨h.list, h.cell, h.same, h.sorted⟩

theorem Inv.alloc {s : State V K} (h : Inv s) (vs : List V) : Inv (s.alloc vs) :=
  ⟨h.list, fun a ha i hi => Nat.lt_of_lt_of_le (h.cell a ha i hi) (Nat.le_add_right _ _), h.same, h.sorted⟩

theorem Inv.newList {s : State V K} (h : Inv s) : Inv s.newList := by
  refine ⟨fun a ha => Nat.lt_succ_of_lt (h.list a ha), h.cell, h.same, fun l => ?_⟩
  show (if l = s.nextList then [] else s.lists l).Pairwise _
  split
  · exact .nil
  · exact h.sorted l

theorem Inv.push {s : State V K} (h : Inv s) {r : Ar} (hl : r.list < s.nextList)
    (hc : ∀ i ∈ r.cells, i < s.nextCell)
    (hs : ∀ a, a < s.next → ∀ i ∈ r.cells, i ∈ (s.arr a).cells → r.list = (s.arr a).list) :
    Inv (s.push r) := by
  have e : ∀ a, a < s.next + 1 → a = s.next ∧ (s.push r).arr a = r ∨
      a < s.next ∧ (s.push r).arr a = s.arr a := by
    intro a ha
    by_cases h : a = s.next
    · exact .inl ⟨h, if_pos h⟩
    · exact .inr ⟨by omega, if_neg h⟩
  refine ⟨fun a ha => ?_, fun a ha => ?_, fun a b ha hb i => ?_, h.sorted⟩
  · rcases e a ha with ⟨-, e⟩ | ⟨h1, e⟩ <;> rw [e]
    · exact hl
    · exact h.list a h1
  · rcases e a ha with ⟨-, e⟩ | ⟨h1, e⟩ <;> rw [e]
    · exact hc
    · exact h.cell a h1
  · rcases e a ha with ⟨-, ea⟩ | ⟨h1, ea⟩ <;> rcases e b hb with ⟨-, eb⟩ | ⟨h2, eb⟩ <;> rw [ea, eb]
    · exact fun _ _ => rfl
    · exact hs b h2 i
    · exact fun x y => (hs a h1 i y x).symm
    · exact h.same a b h1 h2 i

theorem Inv.fresh {s : State V K} (h : Inv s) (vs : List V) {l : Nat} (hl : l < s.nextList) (on : Bool) :
    Inv (s.fresh vs l on) := by
  refine (h.alloc vs).push hl (fun i hi => ?_) (fun a ha i hi hi' => ?_)
  · have := (List.mem_range'_1.mp hi).2
    exact this
  · have h1 := (List.mem_range'_1.mp hi).1
    have h2 := h.cell a ha i hi'
    omega

theorem Inv.setList {s : State V K} (h : Inv s) {l : Nat} {es : List (Entry K)}
    (he : es.Pairwise fun e f => f.prio ≤ e.prio) : Inv (s.setList l es) := by
  refine ⟨h.list, h.cell, h.same, fun k => ?_⟩
  show (if k = l then es else s.lists k).Pairwise _
  split
  · exact he
  · exact h.sorted k

theorem insertAt_sorted (e : Entry K) : ∀ {l : List (Entry K)},
    l.Pairwise (fun e f => f.prio ≤ e.prio) →
    (insertAt l (insPos e.prio l) e).Pairwise fun e f => f.prio ≤ e.prio
  | [], _ => by simp [insertAt]
  | x :: l, h => by
    rw [List.pairwise_cons] at h
    unfold insPos
    split
    · rename_i hx
      simp only [insertAt, List.take_zero, List.nil_append, List.drop_zero]
      rw [List.pairwise_cons]
      refine ⟨fun f hf => ?_, List.pairwise_cons.mpr h⟩
      rcases List.mem_cons.mp hf with rfl | hf
      · exact le_of_lt hx
      · exact le_trans (h.1 f hf) (le_of_lt hx)
    · rename_i hx
      have ih := insertAt_sorted e h.2
      simp only [insertAt, List.take_succ_cons, List.cons_append, List.drop_succ_cons] at ih ⊢
      rw [List.pairwise_cons]
      refine ⟨fun f hf => ?_, ih⟩
      rcases List.mem_append.mp hf with hf | hf
      · exact h.1 f (List.mem_of_mem_take hf)
      · rcases List.mem_cons.mp hf with rfl | hf
        · exact le_of_not_gt hx
        · exact h.1 f (List.mem_of_mem_drop hf)

theorem mem_insertAt {e x : Entry K} {l : List (Entry K)} {n : Nat} :
    x ∈ insertAt l n e ↔ x = e ∨ x ∈ l := by
  unfold insertAt
  rw [List.mem_append, List.mem_cons]
  have : x ∈ l ↔ x ∈ l.take n ∨ x ∈ l.drop n := by
    rw [← List.mem_append, List.take_append_drop]
  rw [this]
  tauto

theorem Inv.part {s : State V K} (h : Inv s) {a : Nat} (ha : a < s.next) (sel : List Nat) :
    Inv (s.part a sel) :=
  h.push (h.list a ha) (fun i hi => h.cell a ha i (mem_pick hi))
    (fun b hb i hi hi' => h.same a b ha hb i (mem_pick hi) hi')

theorem Inv.take {s : State V K} (h : Inv s) {a : Nat} (ha : a < s.next) (sel : List Nat) :
    Inv (s.take a sel) := h.fresh _ (h.list a ha) _

theorem Inv.step {s : State V K} (h : Inv s) {o : Op V K} (ho : o.Proper) (he : s.Exists o) :
    Inv (step s o).1 := by
  cases o with
  | new vs => exact h.newList.fresh vs (Nat.lt_succ_self _) true
  | share a => exact ho.elim
  | again a => exact ho.elim
  | part a sel => exact h.part (he a rfl) sel
  | take a sel => exact h.take (he a rfl) sel
  | copy a => exact h.newList.fresh _ (Nat.lt_succ_self _) _
  | set a sel vals => exact h.mem _
  | inplace a f => exact h.mem _
  | inplacePart a k sel f =>
    cases k with
    | view => exact ((h.part (he a rfl) sel).mem _).mem _
    | fancy => exact ((h.take (he a rfl) sel).mem _).mem _
    | item => exact h.mem _
  | raw a sel vals => exact ho.elim
  | setUpdates a on =>
    have e : ∀ b, ((s.setArr a { s.arr a with on := on }).arr b).list = (s.arr b).list ∧
        ((s.setArr a { s.arr a with on := on }).arr b).cells = (s.arr b).cells := by
      intro b
      show (if b = a then ({ s.arr a with on := on } : Ar) else s.arr b).list = _ ∧ (if b = a then ({ s.arr a with on := on } : Ar) else s.arr b).cells = _
      split
      · rename_i hb; subst hb; exact ⟨rfl, rfl⟩
      · exact ⟨rfl, rfl⟩
    refine ⟨fun b hb => ?_, fun b hb => ?_, fun b c hb hc => ?_, h.sorted⟩
    · show ((s.setArr a { s.arr a with on := on }).arr b).list < _
      rw [(e b).1]; exact h.list b hb
    · show ∀ i ∈ ((s.setArr a { s.arr a with on := on }).arr b).cells, _
      rw [(e b).2]; exact h.cell b hb
    · show ∀ i ∈ ((s.setArr a { s.arr a with on := on }).arr b).cells,
        i ∈ ((s.setArr a { s.arr a with on := on }).arr c).cells →
        ((s.setArr a { s.arr a with on := on }).arr b).list = ((s.setArr a { s.arr a with on := on }).arr c).list
      rw [(e b).1, (e b).2, (e c).1, (e c).2]; exact h.same b c hb hc
  | addObserver a e => exact h.setList (insertAt_sorted e (h.sorted _))
  | removeObserver a o c => exact h.setList ((h.sorted _).sublist List.filter_sublist)

theorem Reach.inv {s : State V K} (h : Reach s) : Inv s := by
  induction h with
  | empty v =>
    exact ⟨fun a ha => absurd ha (Nat.not_lt_zero a), fun a ha => absurd ha (Nat.not_lt_zero a),
      fun a _ ha => absurd ha (Nat.not_lt_zero a), fun l => .nil⟩
  | step _ ho he ih => exact ih.step ho he

/-! ### What one operation does -/

/-- The operations that write. -/
def Op.Writes : Op V K → Prop
  | .set _ _ _ | .inplace _ _ | .inplacePart _ _ _ _ => True
  | _ => False

/-- Every array keeps its memory, and, but for the switch, its attributes. -/
theorem step_arr (s : State V K) {o : Op V K} (ho : o.Proper) {a : Nat} (ha : a < s.next) :
    ((step s o).1.arr a).cells = (s.arr a).cells ∧ ((step s o).1.arr a).list = (s.arr a).list := by
  have hne : a ≠ s.next := Nat.ne_of_lt ha
  have hpush : ∀ (t : State V K) (r : Ar), a ≠ t.next → (t.push r).arr a = t.arr a :=
    fun t r h => if_neg h
  cases o with
  | share a => exact ho.elim
  | again a => exact ho.elim
  | raw a sel vals => exact ho.elim
  | new vs =>
    show ((s.newList.fresh vs s.nextList true).arr a).cells = _ ∧ ((s.newList.fresh vs s.nextList true).arr a).list = _
    unfold State.fresh
    rw [hpush]
    exacts [⟨rfl, rfl⟩, hne]
  | part b sel =>
    show ((s.part b sel).arr a).cells = _ ∧ ((s.part b sel).arr a).list = _
    unfold State.part
    rw [hpush]
    exacts [⟨rfl, rfl⟩, hne]
  | take b sel =>
    show ((s.take b sel).arr a).cells = _ ∧ ((s.take b sel).arr a).list = _
    unfold State.take State.fresh
    rw [hpush]
    exacts [⟨rfl, rfl⟩, hne]
  | copy b =>
    show ((s.newList.fresh _ _ _).arr a).cells = _ ∧ ((s.newList.fresh _ _ _).arr a).list = _
    unfold State.fresh
    rw [hpush]
    exacts [⟨rfl, rfl⟩, hne]
  | set b sel vals => exact ⟨rfl, rfl⟩
  | inplace b f => exact ⟨rfl, rfl⟩
  | inplacePart b k sel f =>
    cases k with
    | view =>
      show ((s.part b sel).arr a).cells = _ ∧ ((s.part b sel).arr a).list = _
      unfold State.part
      rw [hpush]
      exacts [⟨rfl, rfl⟩, hne]
    | fancy =>
      show ((s.take b sel).arr a).cells = _ ∧ ((s.take b sel).arr a).list = _
      unfold State.take State.fresh
      rw [hpush]
      exacts [⟨rfl, rfl⟩, hne]
    | item => exact ⟨rfl, rfl⟩
  | setUpdates b on =>
    show (if a = b then ({ s.arr b with on := on } : Ar) else s.arr a).cells = _ ∧ (if a = b then ({ s.arr b with on := on } : Ar) else s.arr a).list = _
    split
    · rename_i hb; subst hb; exact ⟨rfl, rfl⟩
    · exact ⟨rfl, rfl⟩
  | addObserver b e => exact ⟨rfl, rfl⟩
  | removeObserver b o c => exact ⟨rfl, rfl⟩

theorem alloc_mem (s : State V K) (vs : List V) {i : Nat} (hi : i < s.nextCell) :
    (s.alloc vs).mem i = s.mem i := if_pos hi

/-- Operations that do not write keep all values and make no calls. -/
theorem step_still (s : State V K) {o : Op V K} (ho : o.Proper) (hw : ¬ o.Writes) :
    (step s o).2 = [] ∧ ∀ i, i < s.nextCell → (step s o).1.mem i = s.mem i := by
  cases o with
  | share a => exact ho.elim
  | again a => exact ho.elim
  | raw a sel vals => exact ho.elim
  | new vs => exact ⟨rfl, fun i hi => alloc_mem s.newList vs hi⟩
  | part b sel => exact ⟨rfl, fun i hi => rfl⟩
  | take b sel => exact ⟨rfl, fun i hi => alloc_mem s _ hi⟩
  | copy b => exact ⟨rfl, fun i hi => alloc_mem s.newList _ hi⟩
  | set b sel vals => exact absurd trivial hw
  | inplace b f => exact absurd trivial hw
  | inplacePart b k sel f => exact absurd trivial hw
  | setUpdates b on => exact ⟨rfl, fun i hi => rfl⟩
  | addObserver b e => exact ⟨rfl, fun i hi => rfl⟩
  | removeObserver b o c => exact ⟨rfl, fun i hi => rfl⟩

/-- Both rounds of `a[sel] += x`. -/
theorem twice {s t : State V K} {b n : Nat} (h1 : t.arr b = s.arr b) (h2 : (t.arr n).list = (s.arr b).list)
    (h3 : (t.arr n).on = (s.arr b).on) (hl : t.lists = s.lists) (sel : List Nat) (f : Nat → V → V) :
    let r := t.inplace n f
    let r' := r.1.set b sel (r.1.values n)
    ((s.arr b).on = false → r.2 ++ r'.2 = []) ∧
    ((s.arr b).on = true → ∃ pre, (∀ c ∈ pre, c.entry ∈ s.observers b ∧ c.arr = n) ∧
        r.2 ++ r'.2 = pre ++ (s.observers b).map fun e => ⟨e, b, r'.1.mem⟩) := by
  intro r r'
  have e1 : r.2 = if (s.arr b).on then (s.observers b).map (fun e => ⟨e, n, r.1.mem⟩) else [] := by
    show (if (t.arr n).on then (t.lists (t.arr n).list).map _ else []) = _
    rw [h2, h3, hl]; rfl
  have e2 : r'.2 = if (s.arr b).on then (s.observers b).map (fun e => ⟨e, b, r'.1.mem⟩) else [] := by
    show (if (t.arr b).on then (t.lists (t.arr b).list).map _ else []) = _
    rw [h1, hl]; rfl
  rw [e1, e2]
  constructor
  · intro hon
    rw [hon]; rfl
  · intro hon
    rw [if_pos hon, if_pos hon]
    refine ⟨_, fun c hc => ?_, rfl⟩
    obtain ⟨e, he, rfl⟩ := List.mem_map.mp hc
    exact ⟨he, rfl⟩

/-- Operations that write change only cells of the array they are applied to, and end with a round of all
its observers. -/
theorem step_writes {s : State V K} {o : Op V K} (hw : o.Writes) (he : s.Exists o) :
    ∃ b, o.on? = some b ∧ b < s.next ∧
      (∀ i, i < s.nextCell → i ∉ (s.arr b).cells → (step s o).1.mem i = s.mem i) ∧
      (step s o).1.lists = s.lists ∧
      ((s.arr b).on = false → (step s o).2 = []) ∧
      ((s.arr b).on = true → ∃ pre, (∀ c ∈ pre, c.entry ∈ s.observers b ∧ c.arr = s.next) ∧
        (step s o).2 = pre ++ (s.observers b).map fun e => ⟨e, b, (step s o).1.mem⟩) := by
  cases o with
  | set b sel vals =>
    refine ⟨b, rfl, he b rfl, fun i _ hi => put_zip_out (fun h => hi (mem_pick h)), rfl,
      fun hon => ?_, fun hon => ⟨[], by simp, ?_⟩⟩
    · exact if_neg (by rw [show (s.arr b).on = false from hon]; simp)
    · exact if_pos hon
  | inplace b f =>
    refine ⟨b, rfl, he b rfl, fun i _ hi => put_zip_out hi, rfl,
      fun hon => ?_, fun hon => ⟨[], by simp, ?_⟩⟩
    · exact if_neg (by rw [show (s.arr b).on = false from hon]; simp)
    · exact if_pos hon
  | inplacePart b k sel f =>
    have hb := he b rfl
    have hne : b ≠ s.next := Nat.ne_of_lt hb
    refine ⟨b, rfl, hb, ?_⟩
    cases k with
    | item =>
      refine ⟨fun i _ hi => put_zip_out (fun h => hi (mem_pick h)), rfl,
        fun hon => ?_, fun hon => ⟨[], by simp, ?_⟩⟩
      · exact if_neg (by rw [show (s.arr b).on = false from hon]; simp)
      · exact if_pos hon
    | view =>
      have e1 : (s.part b sel).arr b = s.arr b := if_neg hne
      have e2 : (s.part b sel).arr s.next = { s.arr b with cells := (s.arr b).pick sel } := if_pos rfl
      refine ⟨fun i _ hi => ?_, rfl, twice (t := s.part b sel) e1 (by rw [e2]) (by rw [e2]) rfl sel f⟩
      refine (put_zip_out (fun h => hi ?_)).trans (put_zip_out (fun h => hi ?_))
      · rw [show (((s.part b sel).inplace s.next f).1.arr b) = s.arr b from e1] at h
        exact mem_pick h
      · rw [e2] at h; exact mem_pick h
    | fancy =>
      have e1 : (s.take b sel).arr b = s.arr b := if_neg hne
      have e2 : (s.take b sel).arr s.next =
        ⟨List.range' s.nextCell (((s.arr b).pick sel).map s.mem).length, (s.arr b).list, (s.arr b).on⟩ :=
        if_pos rfl
      refine ⟨fun i hlt hi => ?_, rfl, twice (t := s.take b sel) e1 (by rw [e2]) (by rw [e2]) rfl sel f⟩
      refine (put_zip_out (fun h => hi ?_)).trans ((put_zip_out (fun h => ?_)).trans (alloc_mem s _ hlt))
      · rw [show (((s.take b sel).inplace s.next f).1.arr b) = s.arr b from e1] at h
        exact mem_pick h
      · rw [e2] at h
        have := (List.mem_range'_1.mp h).1
        omega
  | _ => exact absurd hw (by simp [Op.Writes])

end Paramz.ObsArray

import Mathlib.Data.List.Sort
import Verif.Observer.Spec

/-! Helper lemmas about the observer model. -/

set_option linter.unusedSectionVars false
set_option linter.unusedSimpArgs false

namespace Paramz.Observer

variable {K : Type} [LinearOrder K]

/-! ### The list object being iterated is never mutated -/

/-- `t` was reached from `s` without touching any list object that existed in `s`. -/
structure Later (s t : St K) : Prop where
  next : s.next ≤ t.next
  heap : ∀ i, i < s.next → t.heap i = s.heap i

theorem Later.refl (s : St K) : Later s s := ⟨le_refl _, fun _ _ => rfl⟩

theorem Later.trans {s t u : St K} (h1 : Later s t) (h2 : Later t u) : Later s u :=
  ⟨le_trans h1.next h2.next, fun i hi => by
    rw [h2.heap i (lt_of_lt_of_le hi h1.next), h1.heap i hi]⟩

theorem flush_later (s : St K) : Later s (flush s) :=
  ⟨Nat.le_succ _, fun i hi => by simp [flush, Nat.ne_of_lt hi]⟩

/-- Mutating `self._poc` right after a flush touches only the fresh object. -/
theorem flush_setPoc_later (s : St K) (l : List (Entry K)) : Later s ((flush s).setPoc l) :=
  ⟨Nat.le_succ _, fun i hi => by simp [flush, St.setPoc, Nat.ne_of_lt hi]⟩

theorem add_later (s : St K) (p : K) (o c : Nat) : Later s (add s p o c) :=
  flush_setPoc_later s _

theorem remove_later (s : St K) (e : Entry K) : Later s (remove s e) :=
  (flush_later s).trans (flush_setPoc_later (flush s) _)

theorem foldl_remove_later (l : List (Entry K)) (s : St K) : Later s (l.foldl remove s) := by
  induction l generalizing s with
  | nil => exact Later.refl s
  | cons e r ih => exact (remove_later s e).trans (ih _)

theorem removeObserver_later (s : St K) (o : Nat) (c : Option Nat) :
    Later s (removeObserver s o c) :=
  (flush_later s).trans (foldl_remove_later _ _)

theorem edit_later (s : St K) (e : Edit K) : Later s (edit s e) := by
  cases e with
  | add o c p => exact add_later s p o c
  | remove o c => exact removeObserver_later s o c
  | changePriority o c p => exact (removeObserver_later s o (some c)).trans (add_later _ p o c)
  | setUpdates b => exact ⟨le_refl _, fun _ _ => rfl⟩
  | flush => exact flush_later s
  | die o => exact ⟨le_refl _, fun _ _ => rfl⟩

theorem edits_later (l : List (Edit K)) (s : St K) : Later s (edits s l) := by
  unfold edits
  induction l generalizing s with
  | nil => exact Later.refl s
  | cons e r ih => exact (edit_later s e).trans (ih _)

/-! ### Contents -/

@[simp] theorem poc_flush (s : St K) : (flush s).poc = s.poc.filter (fun e => s.alive e.obs) := by
  simp [flush, St.poc]

@[simp] theorem alive_flush (s : St K) : (flush s).alive = s.alive := rfl
@[simp] theorem on_flush (s : St K) : (flush s).on = s.on := rfl
@[simp] theorem poc_setPoc (s : St K) (l : List (Entry K)) : (s.setPoc l).poc = l := by
  simp [St.setPoc, St.poc]
@[simp] theorem alive_setPoc (s : St K) (l : List (Entry K)) : (s.setPoc l).alive = s.alive := rfl
@[simp] theorem on_setPoc (s : St K) (l : List (Entry K)) : (s.setPoc l).on = s.on := rfl

theorem delLoop_eq (e : Entry K) : ∀ (n : Nat) (l : List (Entry K)),
    n ≤ l.length → delLoop l e n = (l.take n).filter (fun x => !decide (x = e)) ++ l.drop n := by
  intro n
  induction n with
  | zero => intro l _; simp [delLoop]
  | succ n ih =>
    intro l hl
    have hn : n < l.length := hl
    unfold delLoop
    by_cases h : l[n]? = some e
    · rw [if_pos h]
      have hlen : (l.eraseIdx n).length = l.length - 1 := List.length_eraseIdx_of_lt hn
      rw [ih _ (by omega)]
      have he : l[n] = e := by
        rw [List.getElem?_eq_getElem hn] at h; exact Option.some.inj h
      have h1 : (l.eraseIdx n).take n = l.take n := by
        rw [List.eraseIdx_eq_take_drop_succ, List.take_append_of_le_length (by simp; omega),
          List.take_take, min_self]
      have h2 : (l.eraseIdx n).drop n = l.drop (n + 1) := by
        rw [List.eraseIdx_eq_take_drop_succ, List.drop_append_of_le_length (by simp; omega)]
        simp [List.drop_take]
      rw [h1, h2, List.take_succ_eq_append_getElem hn, List.filter_append, he]
      simp
    · rw [if_neg h, ih l (by omega)]
      have he : l[n] ≠ e := by
        intro he; apply h; rw [List.getElem?_eq_getElem hn, he]
      rw [List.take_succ_eq_append_getElem hn, List.filter_append]
      have : List.filter (fun x => !decide (x = e)) [l[n]] = [l[n]] := by simp [he]
      rw [this, List.append_assoc, List.singleton_append, ← List.drop_eq_getElem_cons hn]

theorem poc_remove (s : St K) (e : Entry K) :
    (remove s e).poc = (s.poc.filter (fun e => s.alive e.obs)).filter (fun x => !decide (x = e)) := by
  unfold remove
  simp only [poc_setPoc, poc_flush, alive_flush]
  rw [delLoop_eq _ _ _ (le_refl _)]
  simp [List.filter_filter]

@[simp] theorem alive_remove (s : St K) (e : Entry K) : (remove s e).alive = s.alive := rfl
@[simp] theorem on_remove (s : St K) (e : Entry K) : (remove s e).on = s.on := rfl

theorem foldl_remove (es : List (Entry K)) (s : St K) :
    (es.foldl remove s).alive = s.alive ∧ (es.foldl remove s).on = s.on ∧
    (es.foldl remove s).poc.filter (fun e => s.alive e.obs) =
      (s.poc.filter (fun e => s.alive e.obs)).filter (fun x => !decide (x ∈ es)) := by
  induction es generalizing s with
  | nil => simp
  | cons e r ih =>
    have h := ih (remove s e)
    rw [alive_remove, on_remove] at h
    rw [List.foldl_cons]
    refine ⟨h.1, h.2.1, ?_⟩
    rw [h.2.2, poc_remove]
    simp only [List.filter_filter]
    apply List.filter_congr
    intro x _
    by_cases hx : x = e <;> by_cases hr : x ∈ r <;> simp [hx, hr]

theorem removeObserver_spec (s : St K) (o : Nat) (c : Option Nat) :
    (removeObserver s o c).alive = s.alive ∧ (removeObserver s o c).on = s.on ∧
    (removeObserver s o c).poc.filter (fun e => s.alive e.obs) =
      (s.poc.filter (fun e => s.alive e.obs)).filter (fun x => !matchesReq o c x) := by
  unfold removeObserver
  have h := foldl_remove ((flush s).poc.filter (matchesReq o c)) (flush s)
  simp only [alive_flush, on_flush, poc_flush] at h ⊢
  refine ⟨h.1, h.2.1, ?_⟩
  rw [h.2.2]
  simp only [List.filter_filter]
  apply List.filter_congr
  intro x hx
  by_cases ha : s.alive x.obs <;> by_cases hm : matchesReq o c x <;> simp [ha, hm, hx]

/-! ### Insertion keeps order -/

theorem insPos_le (p : K) (l : List (Entry K)) : insPos p l ≤ l.length := by
  induction l with
  | nil => simp [insPos]
  | cons e r ih => unfold insPos; split <;> simp; omega

theorem take_insPos (p : K) (l : List (Entry K)) : ∀ e ∈ l.take (insPos p l), p ≤ e.prio := by
  induction l with
  | nil => simp
  | cons f r ih =>
    unfold insPos
    split
    · simp
    · rename_i h
      intro e he
      rw [List.take_succ_cons] at he
      rcases List.mem_cons.mp he with rfl | he
      · exact not_lt.mp h
      · exact ih e he

theorem drop_insPos (p : K) (l : List (Entry K)) (hs : l.Pairwise (fun a b => b.prio ≤ a.prio)) :
    ∀ e ∈ l.drop (insPos p l), e.prio < p := by
  induction l with
  | nil => simp
  | cons f r ih =>
    unfold insPos
    split
    · rename_i h
      intro e he
      rw [List.drop_zero] at he
      rcases List.mem_cons.mp he with rfl | he
      · exact h
      · exact lt_of_le_of_lt ((List.pairwise_cons.mp hs).1 e he) h
    · intro e he
      rw [List.drop_succ_cons] at he
      exact ih (List.pairwise_cons.mp hs).2 e he

theorem insertAt_sorted (p : K) (o c : Nat) (l : List (Entry K))
    (hs : l.Pairwise (fun a b => b.prio ≤ a.prio)) :
    (insertAt l (insPos p l) ⟨p, o, c⟩).Pairwise (fun a b => b.prio ≤ a.prio) := by
  unfold insertAt
  rw [List.pairwise_append]
  refine ⟨hs.sublist (List.take_sublist _ _), ?_, ?_⟩
  · rw [List.pairwise_cons]
    exact ⟨fun e he => le_of_lt (drop_insPos p l hs e he), hs.sublist (List.drop_sublist _ _)⟩
  · intro a ha b hb
    have hp := take_insPos p l a ha
    rcases List.mem_cons.mp hb with rfl | hb
    · exact hp
    · exact le_trans (le_of_lt (drop_insPos p l hs b hb)) hp

theorem insertAt_filter (p : K) (o c : Nat) (l : List (Entry K))
    (hs : l.Pairwise (fun a b => b.prio ≤ a.prio)) (q : K) :
    (insertAt l (insPos p l) ⟨p, o, c⟩).filter (fun e => decide (e.prio = q)) =
      (l ++ [(⟨p, o, c⟩ : Entry K)]).filter (fun e => decide (e.prio = q)) := by
  unfold insertAt
  by_cases hq : p = q
  · subst hq
    have hd : (l.drop (insPos p l)).filter (fun e => decide (e.prio = p)) = [] := by
      rw [List.filter_eq_nil_iff]
      intro e he
      have := drop_insPos p l hs e he
      simpa using ne_of_lt this
    have hl : l.filter (fun e => decide (e.prio = p)) =
        (l.take (insPos p l)).filter (fun e => decide (e.prio = p)) := by
      conv_lhs => rw [← List.take_append_drop (insPos p l) l]
      rw [List.filter_append, hd, List.append_nil]
    rw [List.filter_append, List.filter_append, hl]
    simp [hd]
  · have : (l.take (insPos p l)).filter (fun e => decide (e.prio = q)) ++
        (l.drop (insPos p l)).filter (fun e => decide (e.prio = q)) =
        l.filter (fun e => decide (e.prio = q)) := by
      rw [← List.filter_append, List.take_append_drop]
    rw [List.filter_append, List.filter_append]
    simp [hq, this]

/-! ### Refinement invariant -/

/-- The stored list is sorted, and restricted to live observers it is the calling order of the
registrations. -/
structure Inv (s : St K) (r : Spec.Reg K) : Prop where
  alive : s.alive = r.alive
  on : s.on = r.on
  lt : s.cur < s.next
  sorted : s.poc.Pairwise (fun a b => b.prio ≤ a.prio)
  order : ∀ q : K, (s.poc.filter (fun e => s.alive e.obs)).filter (fun e => decide (e.prio = q)) =
    r.live.filter (fun e => decide (e.prio = q))

theorem Inv.init : Inv (init : St K) Spec.init :=
  ⟨rfl, rfl, Nat.zero_lt_one, by simp [Observer.init, St.poc],
    by intro q; simp [Observer.init, St.poc, Spec.init, Spec.Reg.live]⟩

theorem Inv.flush {s : St K} {r : Spec.Reg K} (h : Inv s r) : Inv (flush s) r :=
  ⟨h.alive, h.on, by simp [Observer.flush], by rw [poc_flush]; exact h.sorted.filter _,
    by intro q; rw [poc_flush, alive_flush, ← h.order q]; simp [List.filter_filter]⟩

theorem filter_comm (a b : Entry K → Bool) (l : List (Entry K)) :
    (l.filter a).filter b = (l.filter b).filter a := by
  rw [List.filter_filter, List.filter_filter]
  exact List.filter_congr (fun x _ => Bool.and_comm _ _)

theorem Inv.add {s : St K} {r : Spec.Reg K} (h : Inv s r) (o c : Nat) (p : K) :
    Inv (add s p o c) (Spec.edit r (.add o c p)) := by
  have hf := h.flush
  unfold Observer.add
  refine ⟨hf.alive, hf.on, hf.lt, ?_, ?_⟩
  · simp only [poc_setPoc]
    exact insertAt_sorted p o c _ hf.sorted
  · intro q
    have ho := hf.order q
    simp only [poc_setPoc, alive_setPoc]
    rw [filter_comm, insertAt_filter p o c _ hf.sorted q, filter_comm]
    simp only [Spec.Reg.live, Spec.edit, List.filter_append] at ho ⊢
    rw [ho, hf.alive]

theorem Inv.remove {s : St K} {r : Spec.Reg K} (h : Inv s r) (o : Nat) (c : Option Nat) :
    Inv (removeObserver s o c) (Spec.edit r (.remove o c)) := by
  have hs := removeObserver_spec s o c
  have hr : (Spec.edit r (.remove o c)) =
      { r with regs := r.regs.filter (fun e => !matchesReq o c e) } := by
    cases c with
    | none => rfl
    | some c =>
      simp only [Spec.edit, matchesReq]
      congr 1
      apply List.filter_congr
      intro x _
      by_cases h1 : x.obs = o <;> by_cases h2 : x.cb = c <;> simp [h1, h2, Ne.symm]
  rw [hr]
  refine ⟨hs.1.trans h.alive, hs.2.1.trans h.on, ?_, ?_, ?_⟩
  · unfold removeObserver
    have : ∀ (es : List (Entry K)) (t : St K), t.cur < t.next →
        (es.foldl Observer.remove t).cur < (es.foldl Observer.remove t).next := by
      intro es
      induction es with
      | nil => intro t ht; exact ht
      | cons e r ih => intro t _; exact ih _ (by simp [Observer.remove, Observer.flush, St.setPoc])
    exact this _ _ (by simp [Observer.flush])
  · unfold removeObserver
    have : ∀ (es : List (Entry K)) (t : St K), t.poc.Pairwise (fun a b => b.prio ≤ a.prio) →
        (es.foldl Observer.remove t).poc.Pairwise (fun a b => b.prio ≤ a.prio) := by
      intro es
      induction es with
      | nil => intro t ht; exact ht
      | cons e r ih =>
        intro t ht
        refine ih _ ?_
        rw [poc_remove]
        exact (ht.filter _).filter _
    exact this _ _ h.flush.sorted
  · intro q
    rw [hs.1, hs.2.2, filter_comm, h.order q]
    simp only [Spec.Reg.live]
    rw [filter_comm, filter_comm (fun e => r.alive e.obs)]

theorem Inv.edit {s : St K} {r : Spec.Reg K} (h : Inv s r) (e : Edit K) :
    Inv (edit s e) (Spec.edit r e) := by
  cases e with
  | add o c p => exact h.add o c p
  | remove o c => exact h.remove o c
  | changePriority o c p => exact (h.remove o (some c)).add o c p
  | setUpdates b => exact ⟨h.alive, rfl, h.lt, h.sorted, h.order⟩
  | flush => exact h.flush
  | die o =>
    refine ⟨by simp [Observer.edit, Spec.edit, h.alive], h.on, h.lt, h.sorted, ?_⟩
    intro q
    have ho := congrArg (List.filter (fun e => !decide (e.obs = o))) (h.order q)
    simp only [Observer.edit, Spec.edit, Spec.Reg.live, St.poc, List.filter_filter] at ho ⊢
    have e1 : ∀ (al : Nat → Bool) (l : List (Entry K)),
        l.filter (fun e => decide (e.prio = q) && (if e.obs = o then false else al e.obs)) =
        l.filter (fun e => !decide (e.obs = o) && (decide (e.prio = q) && al e.obs)) := by
      intro al l
      apply List.filter_congr
      intro x _
      by_cases hx : x.obs = o <;> simp [hx]
    rw [e1, e1]
    exact ho

theorem Inv.edits {s : St K} {r : Spec.Reg K} (h : Inv s r) (l : List (Edit K)) :
    Inv (edits s l) (Spec.edits r l) := by
  unfold Observer.edits Spec.edits
  induction l generalizing s r with
  | nil => exact h
  | cons e l ih => exact ih (h.edit e)

theorem Inv.callOrder {s : St K} {r : Spec.Reg K} (h : Inv s r) :
    Spec.CallOrder r.live (Observer.flush s).poc :=
  ⟨h.flush.sorted, fun q => by rw [poc_flush]; exact h.order q⟩

/-! ### The loop -/

/-- Entries called by a round restricted to priorities above `minp`. -/
def above (minp : Option K) (l : List (Entry K)) : List (Entry K) :=
  match minp with
  | none => l
  | some q => l.takeWhile (fun e => decide (q < e.prio))

theorem above_cons (minp : Option K) (e : Entry K) (l : List (Entry K)) :
    above minp (e :: l) =
      if stops minp e then []
      else e :: above minp l := by
  cases minp with
  | none => simp [above, stops]
  | some q =>
    simp only [above, stops, List.takeWhile_cons]
    by_cases h : e.prio ≤ q
    · simp [h, not_lt.mpr h]
    · simp [h, not_le.mp h]

theorem above_eq_filter (q : K) (l : List (Entry K))
    (hs : l.Pairwise (fun a b => b.prio ≤ a.prio)) :
    above (some q) l = l.filter (fun e => decide (q < e.prio)) := by
  induction l with
  | nil => rfl
  | cons e r ih =>
    have hc := List.pairwise_cons.mp hs
    simp only [above, List.takeWhile_cons, List.filter_cons] at ih ⊢
    by_cases h : q < e.prio
    · simp [h, ih hc.2]
    · simp only [h, decide_false]
      symm
      simp only [Bool.false_eq_true, if_false]
      rw [List.filter_eq_nil_iff]
      intro x hx
      simpa using le_trans (hc.1 x hx) (not_lt.mp h)

theorem edits_append (s : St K) (a b : List (Edit K)) : edits s (a ++ b) = edits (edits s a) b := by
  simp [edits]

/-- Independently of what the callbacks do, the loop calls exactly the rest of the list object, and
leaves the state reached by the edits of the callbacks. -/
theorem loop_eq (react : Nat → List (Edit K)) (minp : Option K) (it : Nat) (l : List (Entry K)) :
    ∀ (fuel pos : Nat) (s : St K), it < s.next → s.heap it = l → l.length - pos < fuel →
      loop react minp it fuel pos s =
        some (edits s ((List.range' pos (above minp (l.drop pos)).length).flatMap react),
          above minp (l.drop pos)) := by
  intro fuel
  induction fuel with
  | zero => intro pos s _ _ h; omega
  | succ fuel ih =>
    intro pos s hit hl hf
    unfold loop
    rw [hl]
    by_cases hp : pos < l.length
    · rw [List.getElem?_eq_getElem hp, List.drop_eq_getElem_cons hp, above_cons]
      simp only
      by_cases hstop : stops minp l[pos] = true
      · rw [if_pos hstop, if_pos hstop]
        simp [edits]
      · rw [if_neg hstop, if_neg hstop]
        have hla := edits_later (react pos) s
        rw [ih (pos + 1) (edits s (react pos)) (lt_of_lt_of_le hit hla.next)
          ((hla.heap it hit).trans hl) (by omega)]
        simp [List.range'_succ, edits_append]
    · rw [List.getElem?_eq_none (by omega), List.drop_eq_nil_of_le (by omega)]
      cases minp <;> simp [above, edits]

theorem notify_eq (react : Nat → List (Edit K)) (minp : Option K) (s : St K) (fuel : Nat)
    (hf : s.poc.length < fuel) :
    notify react minp fuel s =
      if s.on then
        some (edits (flush s) ((List.range (above minp (flush s).poc).length).flatMap react),
          above minp (flush s).poc)
      else some (s, []) := by
  unfold notify
  split
  · have hle : (flush s).poc.length < fuel := by
      rw [poc_flush]; exact lt_of_le_of_lt (List.length_filter_le _ _) hf
    have := loop_eq react minp (flush s).cur (flush s).poc fuel 0 (flush s)
      (by simp [flush]) rfl (by omega)
    simpa [List.range_eq_range'] using this
  · rfl

end Paramz.Observer

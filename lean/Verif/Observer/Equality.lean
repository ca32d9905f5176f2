import Verif.Observer.Props

/-!
# C79: observers with an equality of their own

`remove_observer` looks for the observer with `is` (observable.py:67-71), but hands what it found to
`ObserverList.remove`, which compares with `==` (lists_and_dicts.py:85). For arrays, and so for every
`Param`, `==` is elementwise: its truth value is that of the only element, and for more than one element
there is none (`ValueError`). `Observer/Model.lean` treats `==` as identity; here it is an arbitrary
function, given anew with every call because the values of an array change.
-/

namespace Paramz.Observer

variable {K : Type} [LinearOrder K]

/-- The truth value of `observer == o` as used by `and`; `none` when python raises. -/
abbrev Eqv := Nat → Nat → Option Bool

/-- The test of lists_and_dicts.py:85, `priority==p and observer==o and callble==c`: observers are only
compared when the priorities are equal, callbacks only when the observers are. -/
def hit (eq : Eqv) (e e' : Entry K) : Option Bool :=
  if e.prio = e'.prio then
    match eq e.obs e'.obs with
    | none => none
    | some true => some (decide (e.cb = e'.cb))
    | some false => some false
  else some false

/-- The backwards loop of `remove` (lists_and_dicts.py:83-86): the list as it is when the loop ends, and
whether it ended with an exception. -/
def delLoopE (eq : Eqv) (e : Entry K) : List (Entry K) → Nat → List (Entry K) × Bool
  | l, 0 => (l, false)
  | l, n + 1 =>
    match l[n]? with
    | none => delLoopE eq e l n
    | some e' =>
      match hit eq e e' with
      | none => (l, true)
      | some true => delLoopE eq e (l.eraseIdx n) n
      | some false => delLoopE eq e l n

/-- `ObserverList.remove` (lists_and_dicts.py:78-86). -/
def removeE (eq : Eqv) (s : St K) (e : Entry K) : St K × Bool :=
  let s := flush (flush s)
  let r := delLoopE eq e s.poc s.poc.length
  (s.setPoc r.1, r.2)

/-- The loop `for r in to_remove` (observable.py:72-73), left by an exception. -/
def removeAllE (eq : Eqv) : St K → List (Entry K) → St K × Bool
  | s, [] => (s, false)
  | s, e :: es =>
    match removeE eq s e with
    | (s, true) => (s, true)
    | (s, false) => removeAllE eq s es

/-- `remove_observer` (observable.py:56-73). -/
def removeObserverE (eq : Eqv) (s : St K) (o : Nat) (c : Option Nat) : St K × Bool :=
  let s := flush s
  removeAllE eq s (s.poc.filter (matchesReq o c))

/-- `change_priority` (observable.py:98-100): nothing is added when the removal raised. -/
def changePriorityE (eq : Eqv) (s : St K) (o c : Nat) (p : K) : St K × Bool :=
  match removeObserverE eq s o (some c) with
  | (s, true) => (s, true)
  | (s, false) => (addObserver s o c p, false)

/-- One request; the caller goes on after an exception. -/
def editE (s : St K) : Eqv × Edit K → St K × Bool
  | (eq, .remove o c) => removeObserverE eq s o c
  | (eq, .changePriority o c p) => changePriorityE eq s o c p
  | (_, e) => (edit s e, false)

/-- A history of requests. -/
def editsE (s : St K) (l : List (Eqv × Edit K)) : St K := l.foldl (fun s e => (editE s e).1) s

/-! ## Specification -/

/-- `==` tells objects apart exactly as `is` does. -/
def Faithful (eq : Eqv) (a b : Nat) : Prop := eq a b = some (decide (a = b))

/-- Do `==` and `is` agree wherever this request compares, if exactly the observers `on` are registered? -/
def Faithfully (on : List Nat) : Eqv × Edit K → Prop
  | (eq, .remove o _) => ∀ b ∈ on, Faithful eq o b
  | (eq, .changePriority o _ _) => ∀ b ∈ on, Faithful eq o b
  | _ => True

/-- The observers registered anywhere in a history. -/
def registered : List (Edit K) → List Nat
  | [] => []
  | .add o _ _ :: l => o :: registered l
  | .changePriority o _ _ :: l => o :: registered l
  | _ :: l => registered l

/-! ## Lemmas -/

theorem hit_faithful {eq : Eqv} {e e' : Entry K} (h : Faithful eq e.obs e'.obs) :
    hit eq e e' = some (decide (e' = e)) := by
  obtain ⟨p, o, c⟩ := e
  obtain ⟨p', o', c'⟩ := e'
  simp only [Faithful] at h
  simp only [hit, h, Entry.mk.injEq]
  by_cases hp : p = p' <;> by_cases ho : o = o' <;> by_cases hc : c = c' <;>
    simp_all [eq_comm]

/-- What the loop does: it stops at the last entry that cannot be compared; behind it every entry found
equal is gone. -/
theorem delLoopE_ok (eq : Eqv) (e : Entry K) : ∀ (n : Nat) (l : List (Entry K)), n ≤ l.length →
    (∀ e' ∈ l.take n, hit eq e e' ≠ none) →
    delLoopE eq e l n =
      ((l.take n).filter (fun e' => !decide (hit eq e e' = some true)) ++ l.drop n, false) := by
  intro n
  induction n with
  | zero => intro l _ _; simp [delLoopE]
  | succ n ih =>
    intro l hn hok
    obtain ⟨a, x, b, rfl, ha⟩ : ∃ a x b, l = a ++ x :: b ∧ a.length = n :=
      ⟨l.take n, l[n], l.drop (n + 1), by
        rw [List.getElem_cons_drop, List.take_append_drop], by simp; omega⟩
    subst ha
    have hx : hit eq e x ≠ none := hok x (by rw [List.take_add_one]; simp)
    have hok' : ∀ e' ∈ a, hit eq e e' ≠ none := fun y hy =>
      hok y (by rw [List.take_add_one]; simp [hy])
    have ht : (a ++ x :: b).take (a.length + 1) = a ++ [x] := by
      rw [List.take_add_one]; simp
    have hd : (a ++ x :: b).drop (a.length + 1) = b := by simp
    have hg : (a ++ x :: b)[a.length]? = some x := by simp
    rw [ht, hd, delLoopE, hg]
    dsimp only
    cases hh : hit eq e x with
    | none => exact absurd hh hx
    | some v =>
      cases v with
      | true =>
        dsimp only
        have he : (a ++ x :: b).eraseIdx a.length = a ++ b := by
          rw [List.eraseIdx_append_of_length_le (le_refl _)]; simp
        rw [he, ih _ (by simp) (by simpa using hok')]
        simp [List.filter_append, hh]
      | false =>
        dsimp only
        rw [ih _ (by simp) (by simpa using hok')]
        simp [List.filter_append, hh]

theorem delLoopE_raises (eq : Eqv) (e : Entry K) : ∀ (n : Nat) (l : List (Entry K)), n ≤ l.length →
    (∃ e' ∈ l.take n, hit eq e e' = none) →
    (delLoopE eq e l n).2 = true ∧
    (∀ x, x ∈ (delLoopE eq e l n).1 → x ∈ l) ∧
    (∀ x ∈ l, hit eq e x ≠ some true → x ∈ (delLoopE eq e l n).1) := by
  intro n
  induction n with
  | zero => rintro l _ ⟨e', he, _⟩; simp at he
  | succ n ih =>
    intro l hn hbad
    obtain ⟨a, x, b, rfl, ha⟩ : ∃ a x b, l = a ++ x :: b ∧ a.length = n :=
      ⟨l.take n, l[n], l.drop (n + 1), by
        rw [List.getElem_cons_drop, List.take_append_drop], by simp; omega⟩
    subst ha
    have ht : (a ++ x :: b).take (a.length + 1) = a ++ [x] := by
      rw [List.take_add_one]; simp
    have hg : (a ++ x :: b)[a.length]? = some x := by simp
    rw [ht] at hbad
    rw [delLoopE, hg]
    dsimp only
    cases hh : hit eq e x with
    | none => exact ⟨rfl, fun _ h => h, fun _ h _ => h⟩
    | some v =>
      have hb : ∃ e' ∈ a, hit eq e e' = none := by
        obtain ⟨e', he, hn'⟩ := hbad
        rcases List.mem_append.mp he with h | h
        · exact ⟨e', h, hn'⟩
        · rw [List.mem_singleton.mp h, hh] at hn'; cases hn'
      cases v with
      | true =>
        dsimp only
        have he : (a ++ x :: b).eraseIdx a.length = a ++ b := by
          rw [List.eraseIdx_append_of_length_le (le_refl _)]; simp
        rw [he]
        obtain ⟨h1, h2, h3⟩ := ih (a ++ b) (by simp) (by simpa using hb)
        refine ⟨h1, fun y hy => ?_, fun y hy hne => h3 y ?_ hne⟩
        · have := h2 y hy; simp at this ⊢; tauto
        · have hyx : y ≠ x := fun h => hne (h ▸ hh)
          simp at hy ⊢; tauto
      | false =>
        dsimp only
        exact ih (a ++ x :: b) (by simp) (by simpa using hb)

theorem removeE_alive (eq : Eqv) (s : St K) (e : Entry K) :
    (removeE eq s e).1.alive = s.alive ∧ (removeE eq s e).1.on = s.on := ⟨rfl, rfl⟩

theorem removeE_poc (eq : Eqv) (s : St K) (e : Entry K) :
    (removeE eq s e).1.poc = (delLoopE eq e (flush s).poc (flush s).poc.length).1 ∧
    (removeE eq s e).2 = (delLoopE eq e (flush s).poc (flush s).poc.length).2 := by
  have h : (flush (flush s)).poc = (flush s).poc := by simp [List.filter_filter]
  simp only [removeE, poc_setPoc, h, and_self]

theorem removeE_ok {eq : Eqv} {s : St K} {e : Entry K}
    (hok : ∀ e' ∈ (flush s).poc, hit eq e e' ≠ none) :
    (removeE eq s e).1.poc = (flush s).poc.filter (fun e' => !decide (hit eq e e' = some true)) ∧
    (removeE eq s e).2 = false := by
  have h := delLoopE_ok eq e (flush s).poc.length (flush s).poc (le_refl _) (by simpa using hok)
  rw [(removeE_poc eq s e).1, (removeE_poc eq s e).2, h]
  simp

theorem removeE_raises {eq : Eqv} {s : St K} {e : Entry K}
    (hbad : ∃ e' ∈ (flush s).poc, hit eq e e' = none) :
    (removeE eq s e).2 = true ∧ (∀ x ∈ (removeE eq s e).1.poc, x ∈ (flush s).poc) ∧
    ∀ x ∈ (flush s).poc, hit eq e x ≠ some true → x ∈ (removeE eq s e).1.poc := by
  have h := delLoopE_raises eq e (flush s).poc.length (flush s).poc (le_refl _) (by simpa using hbad)
  rw [(removeE_poc eq s e).1, (removeE_poc eq s e).2]
  exact h

theorem flush_poc_of_live {s : St K} (h : ∀ e ∈ s.poc, s.alive e.obs = true) :
    (flush s).poc = s.poc := by
  rw [poc_flush]; exact List.filter_eq_self.mpr h

theorem removeE_live {eq : Eqv} {s : St K} {e : Entry K} :
    ∀ x ∈ (removeE eq s e).1.poc, x ∈ (flush s).poc := by
  by_cases hbad : ∃ e' ∈ (flush s).poc, hit eq e e' = none
  · exact (removeE_raises hbad).2.1
  · push Not at hbad
    rw [(removeE_ok hbad).1]
    exact fun x hx => (List.mem_filter.mp hx).1

/-- The loop over the matching registrations, all of one observer `o`. -/
theorem removeAllE_spec (eq : Eqv) (o : Nat) : ∀ (es : List (Entry K)) (s : St K),
    (∀ e ∈ es, e.obs = o) → (∀ e ∈ s.poc, s.alive e.obs = true) →
    (removeAllE eq s es).1.alive = s.alive ∧ (removeAllE eq s es).1.on = s.on ∧
    (∀ x ∈ (removeAllE eq s es).1.poc, x ∈ s.poc) ∧
    ((removeAllE eq s es).2 = true ↔ ∃ e ∈ es, ∃ e' ∈ s.poc, hit eq e e' = none) ∧
    ((removeAllE eq s es).2 = false → (removeAllE eq s es).1.poc =
      s.poc.filter (fun e' => !decide (∃ e ∈ es, hit eq e e' = some true))) ∧
    (∀ x ∈ s.poc, (∀ e ∈ es, hit eq e x ≠ some true) → x ∈ (removeAllE eq s es).1.poc) := by
  intro es
  induction es with
  | nil =>
    intro s _ _
    simp [removeAllE]
  | cons e es ih =>
    intro s ho hl
    have hf := flush_poc_of_live hl
    rw [removeAllE]
    by_cases hbad : ∃ e' ∈ (flush s).poc, hit eq e e' = none
    · have hr := removeE_raises hbad
      rw [hf] at hr hbad
      cases hm : removeE eq s e with
      | mk s' b =>
        rw [hm] at hr
        obtain ⟨hb, h2, h3⟩ := hr
        dsimp only at hb h2 h3
        subst hb
        dsimp only
        have ha := removeE_alive eq s e
        rw [hm] at ha
        refine ⟨ha.1, ha.2, h2, ?_, fun h => by simp at h, fun x hx hne => h3 x hx (hne e (by simp))⟩
        obtain ⟨e', he', hh⟩ := hbad
        exact ⟨fun _ => ⟨e, by simp, e', he', hh⟩, fun _ => rfl⟩
    · push Not at hbad
      have hr := removeE_ok hbad
      rw [hf] at hr hbad
      cases hm : removeE eq s e with
      | mk s' b =>
        rw [hm] at hr
        obtain ⟨h1, hb⟩ := hr
        dsimp only at hb h1
        subst hb
        dsimp only
        have ha := removeE_alive eq s e
        rw [hm] at ha
        dsimp only at ha
        have hl' : ∀ x ∈ s'.poc, s'.alive x.obs = true := by
          intro x hx
          rw [ha.1]
          rw [h1] at hx
          exact hl x (List.mem_filter.mp hx).1
        obtain ⟨i1, i2, i3, i4, i5, i6⟩ := ih s' (fun e he => ho e (by simp [he])) hl'
        have hsub : ∀ x ∈ s'.poc, x ∈ s.poc := fun x hx => by
          rw [h1] at hx; exact (List.mem_filter.mp hx).1
        refine ⟨i1.trans ha.1, i2.trans ha.2, fun x hx => hsub x (i3 x hx), ?_, fun hno => ?_, ?_⟩
        · rw [i4]
          constructor
          · rintro ⟨e1, he1, e', he', hh⟩
            exact ⟨e1, by simp [he1], e', hsub e' he', hh⟩
          · rintro ⟨e1, he1, e', he', hh⟩
            rcases List.mem_cons.mp he1 with rfl | he1
            · exact absurd hh (hbad e' he')
            · refine ⟨e1, he1, e', ?_, hh⟩
              rw [h1]
              refine List.mem_filter.mpr ⟨he', ?_⟩
              have h1' : e1.obs = e.obs := (ho e1 (by simp [he1])).trans (ho e (by simp)).symm
              have : eq e.obs e'.obs = none := by
                rw [← h1']
                simp only [hit] at hh
                split at hh
                · split at hh <;> simp_all
                · simp at hh
              simp [hit, this]
        · rw [i5 hno, h1, List.filter_filter]
          apply List.filter_congr
          intro x _
          rw [← Bool.not_or]
          congr 1
          rw [Bool.or_comm, ← Bool.decide_or]
          apply decide_eq_decide.mpr
          simp only [List.mem_cons, exists_eq_or_imp]
        · intro x hx hne
          apply i6 x
          · rw [h1]
            exact List.mem_filter.mpr ⟨hx, by simpa using hne e (by simp)⟩
          · exact fun e1 he1 => hne e1 (by simp [he1])

/-! ## What a round calls -/

/-- The registrations called by a notification round with passive callbacks, none left out. -/
def called (s : St K) : List (Entry K) :=
  ((notify (fun _ => []) none (s.poc.length + 1) s).map Prod.snd).getD []

theorem called_eq (s : St K) : called s = if s.on then (flush s).poc else [] := by
  unfold called
  rw [notify_eq _ _ _ _ (Nat.lt_succ_self _)]
  split <;> simp [above]

/-- The registration `e'` is found equal to one that `remove_observer(o, c)` is asked to remove. -/
def Takes (eq : Eqv) (o : Nat) (c : Option Nat) (l : List (Entry K)) (e' : Entry K) : Prop :=
  ∃ e ∈ l, asked o c e ∧ e.prio = e'.prio ∧ e.cb = e'.cb ∧ eq o e'.obs = some true

/-- The registration `e'` has to be compared with one that is asked to be removed, and cannot be. -/
def Stumbles (eq : Eqv) (o : Nat) (c : Option Nat) (l : List (Entry K)) (e' : Entry K) : Prop :=
  ∃ e ∈ l, asked o c e ∧ e.prio = e'.prio ∧ eq o e'.obs = none

instance (eq : Eqv) (o : Nat) (c : Option Nat) (l : List (Entry K)) (e' : Entry K) :
    Decidable (Takes eq o c l e') := by unfold Takes; infer_instance

omit [LinearOrder K] in
theorem matchesReq_iff (o : Nat) (c : Option Nat) (e : Entry K) :
    matchesReq o c e = true ↔ asked o c e := by
  cases c with
  | none => simp [matchesReq, asked]
  | some c =>
    simp only [matchesReq, asked, Bool.and_eq_true, decide_eq_true_eq, Option.some.injEq]
    exact and_congr_right fun _ => ⟨fun h c' hc => h ▸ hc, fun h => (h c rfl).symm⟩

theorem hit_true_iff (eq : Eqv) (e e' : Entry K) :
    hit eq e e' = some true ↔ e.prio = e'.prio ∧ e.cb = e'.cb ∧ eq e.obs e'.obs = some true := by
  unfold hit
  split
  · split <;> simp_all
  · simp_all

theorem hit_none_iff (eq : Eqv) (e e' : Entry K) :
    hit eq e e' = none ↔ e.prio = e'.prio ∧ eq e.obs e'.obs = none := by
  unfold hit
  split
  · split <;> simp_all
  · simp_all

/-! ## C79 -/

/-- C79, exact effect of `remove_observer(o, c)` for an arbitrary `==`. It raises exactly when some
registration of the same priority as an asked one cannot be compared with `o`. If it does not raise, the
registrations found equal are gone (which need not be the asked ones), all others are called as before. -/
theorem remove_by_equality (eq : Eqv) (s : St K) (hon : s.on = true) (o : Nat) (c : Option Nat) :
    ((removeObserverE eq s o c).2 = true ↔ ∃ e' ∈ called s, Stumbles eq o c (called s) e') ∧
    ((removeObserverE eq s o c).2 = false → called (removeObserverE eq s o c).1 =
      (called s).filter (fun e' => !decide (Takes eq o c (called s) e'))) := by
  have hl : ∀ e ∈ (flush s).poc, (flush s).alive e.obs = true := by
    intro e he; rw [poc_flush] at he; simpa using (List.mem_filter.mp he).2
  obtain ⟨h1, h2, h3, h4, h5, _⟩ := removeAllE_spec eq o ((flush s).poc.filter (matchesReq o c)) (flush s)
    (fun e he => ((matchesReq_iff o c e).mp (List.mem_filter.mp he).2).1) hl
  have hc : called s = (flush s).poc := by rw [called_eq, hon]; rfl
  rw [hc]
  refine ⟨?_, fun hno => ?_⟩
  · simp only [removeObserverE]
    rw [h4]
    constructor
    · rintro ⟨e, he, e', he', hh⟩
      have hm := List.mem_filter.mp he
      have ha := (matchesReq_iff o c e).mp hm.2
      obtain ⟨hp, hq⟩ := (hit_none_iff eq e e').mp hh
      exact ⟨e', he', e, hm.1, ha, hp, ha.1 ▸ hq⟩
    · rintro ⟨e', he', e, hm, ha, hp, hq⟩
      exact ⟨e, List.mem_filter.mpr ⟨hm, (matchesReq_iff o c e).mpr ha⟩, e', he',
        (hit_none_iff eq e e').mpr ⟨hp, ha.1.symm ▸ hq⟩⟩
  · have hon' : (removeObserverE eq s o c).1.on = true := by
      simp only [removeObserverE]; rw [h2]; exact hon
    rw [called_eq, hon', if_pos rfl]
    have hlive : ∀ x ∈ (removeObserverE eq s o c).1.poc,
        (removeObserverE eq s o c).1.alive x.obs = true := by
      intro x hx
      simp only [removeObserverE] at hx ⊢
      rw [h1]; exact hl x (h3 x hx)
    rw [flush_poc_of_live hlive]
    simp only [removeObserverE] at hno ⊢
    rw [h5 hno]
    apply List.filter_congr
    intro x _
    congr 1
    apply decide_eq_decide.mpr
    constructor
    · rintro ⟨e, he, hh⟩
      have hm := List.mem_filter.mp he
      have ha := (matchesReq_iff o c e).mp hm.2
      obtain ⟨hp, hq, hr⟩ := (hit_true_iff eq e x).mp hh
      exact ⟨e, hm.1, ha, hp, hq, ha.1 ▸ hr⟩
    · rintro ⟨e, hm, ha, hp, hq, hr⟩
      exact ⟨e, List.mem_filter.mpr ⟨hm, (matchesReq_iff o c e).mpr ha⟩,
        (hit_true_iff eq e x).mpr ⟨hp, hq, ha.1.symm ▸ hr⟩⟩

/-- C79: also when it raises, no registration appears, and none is lost that was not found equal. -/
theorem remove_raised_keeps (eq : Eqv) (s : St K) (hon : s.on = true) (o : Nat) (c : Option Nat) :
    (∀ x ∈ called (removeObserverE eq s o c).1, x ∈ called s) ∧
    (∀ x ∈ called s, ¬ Takes eq o c (called s) x → x ∈ called (removeObserverE eq s o c).1) := by
  have hl : ∀ e ∈ (flush s).poc, (flush s).alive e.obs = true := by
    intro e he; rw [poc_flush] at he; simpa using (List.mem_filter.mp he).2
  obtain ⟨h1, h2, h3, _, _, h6⟩ := removeAllE_spec eq o ((flush s).poc.filter (matchesReq o c)) (flush s)
    (fun e he => ((matchesReq_iff o c e).mp (List.mem_filter.mp he).2).1) hl
  have hc : called s = (flush s).poc := by rw [called_eq, hon]; rfl
  have hc' : called (removeObserverE eq s o c).1 = (removeObserverE eq s o c).1.poc := by
    have hon' : (removeObserverE eq s o c).1.on = true := by
      simp only [removeObserverE]; rw [h2]; exact hon
    rw [called_eq, hon', if_pos rfl]
    apply flush_poc_of_live
    intro x hx
    simp only [removeObserverE] at hx ⊢
    rw [h1]; exact hl x (h3 x hx)
  rw [hc, hc']
  refine ⟨h3, fun x hx hne => h6 x hx ?_⟩
  intro e he hh
  have hm := List.mem_filter.mp he
  have ha := (matchesReq_iff o c e).mp hm.2
  obtain ⟨hp, hq, hr⟩ := (hit_true_iff eq e x).mp hh
  exact hne ⟨e, hm.1, ha, hp, hq, ha.1 ▸ hr⟩

theorem delLoopE_faithful (eq : Eqv) (e : Entry K) : ∀ (n : Nat) (l : List (Entry K)),
    (∀ e' ∈ l, Faithful eq e.obs e'.obs) → delLoopE eq e l n = (delLoop l e n, false) := by
  intro n
  induction n with
  | zero => intro l _; rfl
  | succ n ih =>
    intro l hf
    rw [delLoopE, delLoop]
    cases hg : l[n]? with
    | none => simpa [hg] using ih l hf
    | some e' =>
      have hm : e' ∈ l := List.mem_of_getElem? hg
      dsimp only
      rw [hit_faithful (hf e' hm)]
      by_cases he : e' = e
      · simp only [he, decide_true, if_true]
        exact ih _ (fun x hx => hf x (List.mem_of_mem_eraseIdx hx))
      · simp only [he, decide_false, Option.some.injEq, if_false]
        exact ih l hf

theorem removeAllE_faithful (eq : Eqv) (o : Nat) (R : List Nat) (hR : ∀ b ∈ R, Faithful eq o b) :
    ∀ (es : List (Entry K)) (s : St K), (∀ e ∈ es, e.obs = o) → (∀ e ∈ s.poc, e.obs ∈ R) →
      removeAllE eq s es = (es.foldl remove s, false) := by
  intro es
  induction es with
  | nil => intro s _ _; rfl
  | cons e es ih =>
    intro s ho hs
    have hs2 : ∀ e' ∈ (flush (flush s)).poc, e'.obs ∈ R := by
      intro e' he'
      simp only [poc_flush] at he'
      exact hs e' (List.mem_filter.mp (List.mem_filter.mp he').1).1
    have h1 : removeE eq s e = (remove s e, false) := by
      simp only [removeE, remove]
      rw [delLoopE_faithful eq e _ _ (fun e' he' => by
        rw [ho e (by simp)]; exact hR _ (hs2 e' he'))]
    rw [removeAllE, h1]
    dsimp only
    rw [ih (remove s e) (fun e he => ho e (by simp [he])) (fun x hx => ?_)]
    · rfl
    · rw [poc_remove] at hx
      exact hs x (List.mem_filter.mp (List.mem_filter.mp hx).1).1

theorem removeObserverE_faithful {eq : Eqv} {o : Nat} {R : List Nat} (hR : ∀ b ∈ R, Faithful eq o b)
    {s : St K} (hs : ∀ e ∈ s.poc, e.obs ∈ R) (c : Option Nat) :
    removeObserverE eq s o c = (removeObserver s o c, false) := by
  simp only [removeObserverE, removeObserver]
  apply removeAllE_faithful eq o R hR
  · exact fun e he => ((matchesReq_iff o c e).mp (List.mem_filter.mp he).2).1
  · intro e he
    rw [poc_flush] at he
    exact hs e (List.mem_filter.mp he).1

theorem foldl_remove_mem (es : List (Entry K)) : ∀ (s : St K), ∀ x ∈ (es.foldl remove s).poc, x ∈ s.poc := by
  induction es with
  | nil => exact fun s x hx => hx
  | cons e es ih =>
    intro s x hx
    have := ih _ x hx
    rw [poc_remove] at this
    exact (List.mem_filter.mp (List.mem_filter.mp this).1).1

theorem removeObserver_mem (s : St K) (o : Nat) (c : Option Nat) :
    ∀ x ∈ (removeObserver s o c).poc, x ∈ s.poc := by
  intro x hx
  have := foldl_remove_mem _ _ x hx
  rw [poc_flush] at this
  exact (List.mem_filter.mp this).1

theorem add_mem (s : St K) (p : K) (o c : Nat) : ∀ x ∈ (add s p o c).poc, x ∈ s.poc ∨ x.obs = o := by
  intro x hx
  unfold add at hx
  rw [poc_setPoc] at hx
  unfold insertAt at hx
  rcases List.mem_append.mp hx with h | h
  · have := List.mem_of_mem_take h
    rw [poc_flush] at this
    exact .inl (List.mem_filter.mp this).1
  · rcases List.mem_cons.mp h with rfl | h
    · exact .inr rfl
    · have := List.mem_of_mem_drop h
      rw [poc_flush] at this
      exact .inl (List.mem_filter.mp this).1

theorem edit_registered {s : St K} {R : List Nat} (hs : ∀ e ∈ s.poc, e.obs ∈ R) (x : Edit K)
    (hR : ∀ b ∈ registered [x], b ∈ R) : ∀ e ∈ (edit s x).poc, e.obs ∈ R := by
  intro e he
  cases x with
  | add o c p =>
    rcases add_mem s p o c e he with h | h
    · exact hs e h
    · rw [h]; exact hR o (by simp [registered])
  | remove o c => exact hs e (removeObserver_mem s o c e he)
  | changePriority o c p =>
    rcases add_mem _ p o c e he with h | h
    · exact hs e (removeObserver_mem s o _ e h)
    · rw [h]; exact hR o (by simp [registered])
  | setUpdates b => exact hs e he
  | flush =>
    have he' : e ∈ (flush s).poc := he
    rw [poc_flush] at he'
    exact hs e (List.mem_filter.mp he').1
  | die o => exact hs e he

theorem editE_faithful {s : St K} {R : List Nat} (hs : ∀ e ∈ s.poc, e.obs ∈ R) (x : Eqv × Edit K)
    (hf : Faithfully R x) : editE s x = (edit s x.2, false) := by
  obtain ⟨eq, x⟩ := x
  cases x with
  | remove o c => exact removeObserverE_faithful hf hs c
  | changePriority o c p =>
    have h := removeObserverE_faithful hf hs (some c)
    simp only [editE, changePriorityE, h]
    rfl
  | _ => rfl

omit [LinearOrder K] in
theorem registered_append (a b : List (Edit K)) :
    ∀ o, o ∈ registered (a ++ b) ↔ o ∈ registered a ∨ o ∈ registered b := by
  intro o
  induction a with
  | nil => simp [registered]
  | cons x a ih => cases x <;> simp [registered, ih, or_assoc]

theorem editsE_faithful (R : List Nat) : ∀ (l : List (Eqv × Edit K)) (s : St K),
    (∀ e ∈ s.poc, e.obs ∈ R) → (∀ b ∈ registered (l.map Prod.snd), b ∈ R) →
    (∀ x ∈ l, Faithfully R x) →
    editsE s l = edits s (l.map Prod.snd) ∧
    ∀ l1 x l2, l = l1 ++ x :: l2 → (editE (editsE s l1) x).2 = false := by
  intro l
  induction l with
  | nil => intro s _ _ _; exact ⟨rfl, fun l1 x l2 h => by simp at h⟩
  | cons y l ih =>
    intro s hs hR hf
    have hy := editE_faithful hs y (hf y (by simp))
    have hR1 : ∀ b ∈ registered [y.2], b ∈ R := fun b hb =>
      hR b ((registered_append [y.2] _ b).mpr (.inl hb))
    have hR2 : ∀ b ∈ registered (l.map Prod.snd), b ∈ R := fun b hb =>
      hR b ((registered_append [y.2] _ b).mpr (.inr hb))
    obtain ⟨h1, h2⟩ := ih (edit s y.2) (edit_registered hs y.2 hR1) hR2 (fun x hx => hf x (by simp [hx]))
    refine ⟨?_, fun l1 x l2 h => ?_⟩
    · have : editsE s (y :: l) = editsE (editE s y).1 l := rfl
      rw [this, hy, h1]
      rfl
    · cases l1 with
      | nil =>
        obtain ⟨rfl, -⟩ := List.cons.inj h
        exact (congrArg Prod.snd hy)
      | cons z l1 =>
        obtain ⟨rfl, rfl⟩ := List.cons.inj h
        have : editsE s (y :: l1) = editsE (editE s y).1 l1 := rfl
        rw [this, hy]
        exact h2 l1 x l2 rfl

/-- C79 (partial). If every observer that is removed or re-prioritised compares, with `==`, unequal to all
other observers ever registered and equal to itself (as objects without an equality of their own do), no
request of any history raises, and the observable ends up as if observers had been compared with `is`;
so C06, C07 and C08 hold. Missing: observers that are arrays, or objects comparing by value, for which it
is false (`array_observer_fails`, `bystander_fails`, `equal_value_fails`, `nan_fails`,
`change_priority_fails`). -/
theorem remove_by_identity_partial (l : List (Eqv × Edit K))
    (hf : ∀ x ∈ l, Faithfully (registered (l.map Prod.snd)) x) :
    editsE init l = edits init (l.map Prod.snd) ∧
    ∀ l1 x l2, l = l1 ++ x :: l2 → (editE (editsE init l1) x).2 = false :=
  editsE_faithful _ l init (fun e he => by simp [init, St.poc] at he) (fun _ h => h) hf

/-- C79 (partial), what a user sees: after any such history a round calls the live registrations the
history describes, in order. Missing: as in `remove_by_identity_partial`. -/
theorem called_by_identity_partial (l : List (Eqv × Edit K))
    (hf : ∀ x ∈ l, Faithfully (registered (l.map Prod.snd)) x)
    (hon : (Spec.edits Spec.init (l.map Prod.snd)).on = true) :
    Spec.CallOrder (Spec.edits Spec.init (l.map Prod.snd)).live (called (editsE init l)) := by
  have hI := (Inv.init (K := K)).edits (l.map Prod.snd)
  rw [(remove_by_identity_partial l hf).1, called_eq, hI.on, hon, if_pos rfl]
  exact hI.callOrder

/-! ## Arrays as observers -/

/-- The truth value of `a == b` in numpy for observers that are arrays of the given values (`none` inside
a list is not-a-number) or, with no values given, plain objects compared by identity: comparing with an
array is elementwise, and only a single element has a truth value. (Shapes are not modelled: an array has
a list of values. Python gives `False` with a warning, or raises, for no elements; here it raises.) -/
def numpyEq (values : Nat → Option (List (Option Int))) : Eqv := fun a b =>
  match values a, values b with
  | none, none => some (decide (a = b))
  | some [x], some [y] => some (x.isSome && decide (x = y))
  | some [_], none => some false
  | none, some [_] => some false
  | _, _ => none

/-- Plain observers meet the conditions of the theorems. -/
example : (∀ x ∈ [(numpyEq (fun _ => none), Edit.add 1 10 (0 : Int)), (numpyEq (fun _ => none), .add 2 20 0),
      (numpyEq (fun _ => none), .remove 1 none)], Faithfully [1, 2] x) ∧
    called (editsE init [(numpyEq (fun _ => none), Edit.add 1 10 (0 : Int)),
      (numpyEq (fun _ => none), .add 2 20 0), (numpyEq (fun _ => none), .remove 1 none)]) = [⟨0, 2, 20⟩] := by
  refine ⟨?_, by decide⟩
  intro x hx
  simp only [List.mem_cons, List.not_mem_nil, or_false] at hx
  rcases hx with rfl | rfl | rfl <;> simp [Faithfully, Faithful, numpyEq]

/-- So do arrays of one element each with different numbers. -/
example : Faithfully (K := Int) [1, 2] (numpyEq (fun n => some [some (n : Int)]), .remove 1 none) := by
  simp [Faithfully, Faithful, numpyEq]

/-- C79 fails: an observer that is an array of two elements cannot be removed; `ValueError`, and it is
still called. -/
theorem array_observer_fails :
    let eq := numpyEq (fun _ => some [some 1, some 2])
    let s := edits init [Edit.add 1 10 (0 : Int)]
    (removeObserverE eq s 1 none).2 = true ∧
    called (removeObserverE eq s 1 none).1 = [⟨0, 1, 10⟩] := by decide

/-- C79 fails: an observer without equality of its own cannot be removed either, if an array observes the
same object with the same priority. -/
theorem bystander_fails :
    let eq := numpyEq (fun n => if n = 2 then some [some 1, some 2] else none)
    let s := edits init [Edit.add 1 10 (0 : Int), .add 2 20 0]
    (removeObserverE eq s 1 none).2 = true ∧
    called (removeObserverE eq s 1 none).1 = [⟨0, 1, 10⟩, ⟨0, 2, 20⟩] := by decide

/-- C79 fails: removing one observer of one element removes another one that holds the same number. -/
theorem equal_value_fails :
    let eq := numpyEq (fun _ => some [some 5])
    let s := edits init [Edit.add 1 10 (0 : Int), .add 2 10 0]
    (removeObserverE eq s 1 none).2 = false ∧ called (removeObserverE eq s 1 none).1 = [] := by decide

/-- C79 fails: an observer of one element that is not a number is not removed, and nothing is raised. -/
theorem nan_fails :
    let eq := numpyEq (fun _ => some [none])
    let s := edits init [Edit.add 1 10 (0 : Int)]
    (removeObserverE eq s 1 none).2 = false ∧
    called (removeObserverE eq s 1 none).1 = [⟨0, 1, 10⟩] := by decide

/-- C79 fails: an observer that is not a number and whose priority is changed is called twice from then
on; one that is an array of two elements keeps its priority, and `change_priority` raises. -/
theorem change_priority_fails :
    (let eq := numpyEq (fun _ => some [none])
     let s := edits init [Edit.add 1 10 (0 : Int)]
     called (changePriorityE eq s 1 10 7).1 = [⟨7, 1, 10⟩, ⟨0, 1, 10⟩]) ∧
    (let eq := numpyEq (fun _ => some [some 1, some 2])
     let s := edits init [Edit.add 1 10 (0 : Int)]
     (changePriorityE eq s 1 10 7).2 = true ∧ called (changePriorityE eq s 1 10 7).1 = [⟨0, 1, 10⟩]) := by
  decide

end Paramz.Observer

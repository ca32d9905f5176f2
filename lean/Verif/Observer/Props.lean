import Verif.Observer.Lemmas

/-!
# Properties of observer lists: C06, C07, C08

`edits init l` is an observable after the arbitrary history `l`; `Spec.edits Spec.init l` is the plain
list of registrations the same history describes. `notify react minp fuel s` is one notification round
in which the `k`-th callback performs the edits `react k` on the same observable (a callback that
notifies again performs edits only, so re-entrant notifications are covered).
-/

namespace Paramz.Observer

variable {K : Type} [LinearOrder K]

/-- The calling order is determined by the registrations. -/
theorem callOrder_unique {l a b : List (Entry K)} (ha : Spec.CallOrder l a)
    (hb : Spec.CallOrder l b) : a = b := by
  obtain ⟨hsa, hfa⟩ := ha
  obtain ⟨hsb, hfb⟩ := hb
  have hf : ∀ q : K, a.filter (fun e => decide (e.prio = q)) = b.filter (fun e => decide (e.prio = q)) :=
    fun q => (hfa q).trans (hfb q).symm
  clear hfa hfb
  induction a generalizing b with
  | nil =>
    cases b with
    | nil => rfl
    | cons y b => have := hf y.prio; simp at this
  | cons x a ih =>
    cases b with
    | nil => have := hf x.prio; simp at this
    | cons y b =>
      have hsa' := List.pairwise_cons.mp hsa
      have hsb' := List.pairwise_cons.mp hsb
      have hxm : x ∈ y :: b := by
        have : x ∈ (y :: b).filter (fun e => decide (e.prio = x.prio)) := by
          rw [← hf x.prio]; simp
        exact (List.mem_filter.mp this).1
      have hym : y ∈ x :: a := by
        have : y ∈ (x :: a).filter (fun e => decide (e.prio = y.prio)) := by
          rw [hf y.prio]; simp
        exact (List.mem_filter.mp this).1
      have hp : x.prio = y.prio := by
        apply le_antisymm
        · rcases List.mem_cons.mp hxm with h | h
          · rw [h]
          · exact hsb'.1 x h
        · rcases List.mem_cons.mp hym with h | h
          · rw [h]
          · exact hsa'.1 y h
      have hxy : x = y := by
        have := hf x.prio
        rw [List.filter_cons_of_pos (by simp), List.filter_cons_of_pos (by simp [hp])] at this
        exact (List.cons.inj this).1
      subst hxy
      rw [ih hsa'.2 hsb'.2 (fun q => ?_)]
      have := hf q
      by_cases hq : x.prio = q
      · rw [List.filter_cons_of_pos (by simp [hq]), List.filter_cons_of_pos (by simp [hq])] at this
        exact (List.cons.inj this).2
      · rw [List.filter_cons_of_neg (by simp [hq]), List.filter_cons_of_neg (by simp [hq])] at this
        exact this

/-- Should a registration of priority `p` be called in a round with this `min_priority`? -/
def wanted (minp : Option K) (e : Entry K) : Bool :=
  match minp with
  | none => true
  | some q => decide (q < e.prio)

theorem above_callOrder (minp : Option K) {l called : List (Entry K)} (h : Spec.CallOrder l called) :
    Spec.CallOrder (l.filter (wanted minp)) (above minp called) := by
  have hw : above minp called = called.filter (wanted minp) := by
    cases minp with
    | none => exact (List.filter_eq_self.mpr (fun _ _ => rfl)).symm
    | some q => exact above_eq_filter q called h.1
  rw [hw]
  refine ⟨h.1.filter _, fun q => ?_⟩
  rw [filter_comm, h.2 q, filter_comm]

/-- C06: after any history, a notification round calls exactly the live registrations of priority above
`min_priority`, highest priority first and first come first served, whatever the callbacks do; with
updates off it calls nothing. -/
theorem notify_calls_in_order (l : List (Edit K)) (react : Nat → List (Edit K)) (minp : Option K) :
    ∃ N, ∀ fuel, N ≤ fuel → ∃ s' called, notify react minp fuel (edits init l) = some (s', called) ∧
      ((Spec.edits Spec.init l).on = false → called = []) ∧
      ((Spec.edits Spec.init l).on = true →
        Spec.CallOrder ((Spec.edits Spec.init l).live.filter (wanted minp)) called) := by
  have hI := (Inv.init (K := K)).edits l
  refine ⟨(edits init l).poc.length + 1, fun fuel hf => ?_⟩
  rw [notify_eq react minp _ fuel (by omega), hI.on]
  by_cases hon : (Spec.edits (Spec.init : Spec.Reg K) l).on = true
  · rw [if_pos hon]
    exact ⟨_, _, rfl, fun h => by simp [hon] at h, fun _ => above_callOrder minp hI.callOrder⟩
  · rw [if_neg hon]
    exact ⟨_, _, rfl, fun _ => rfl, fun h => absurd h hon⟩

/-- Two observers, three registrations, one of them re-prioritised. -/
example : (notify (K := Int) (fun _ => []) none 10
    (edits init [.add 1 10 0, .add 2 20 5, .add 3 30 0, .changePriority 1 10 5])).map Prod.snd =
    some [⟨5, 2, 20⟩, ⟨5, 1, 10⟩, ⟨0, 3, 30⟩] := by decide

example : (notify (K := Int) (fun _ => []) (some 0) 10
    (edits init [.add 1 10 0, .add 2 20 5, .add 3 30 0, .changePriority 1 10 5])).map Prod.snd =
    some [⟨5, 2, 20⟩, ⟨5, 1, 10⟩] := by decide

/-- Does `remove_observer(o, c)` ask for this registration to go? -/
def asked (o : Nat) (c : Option Nat) (e : Entry K) : Prop :=
  e.obs = o ∧ ∀ c', c = some c' → e.cb = c'

instance (o : Nat) (c : Option Nat) (e : Entry K) : Decidable (asked o c e) := by
  cases c with
  | none => exact decidable_of_iff (e.obs = o) (by simp [asked])
  | some c => exact decidable_of_iff (e.obs = o ∧ e.cb = c) (by simp [asked])

/-- C07: from every reachable state, a round after `remove_observer(o, c)` calls what a round would
have called before, minus exactly the registrations asked to be removed, in the same order. -/
theorem remove_observer_exact (l : List (Edit K)) (o : Nat) (c : Option Nat)
    (react react' : Nat → List (Edit K)) (minp : Option K) :
    ∃ N, ∀ fuel, N ≤ fuel → ∃ s1 s2 called,
      notify react minp fuel (edits init l) = some (s1, called) ∧
      notify react' minp fuel (removeObserver (edits init l) o c) =
        some (s2, called.filter (fun e => !decide (asked o c e))) := by
  have hI := (Inv.init (K := K)).edits l
  have hR := hI.remove o c
  refine ⟨(edits init l).poc.length + (removeObserver (edits init l) o c).poc.length + 1,
    fun fuel hf => ?_⟩
  rw [notify_eq react minp _ fuel (by omega), notify_eq react' minp _ fuel (by omega),
    (removeObserver_spec _ o c).2.1]
  by_cases hon : (edits (init : St K) l).on = true
  · rw [if_pos hon, if_pos hon]
    refine ⟨_, edits (flush (removeObserver (edits init l) o c)) ((List.range (above minp
      (flush (removeObserver (edits init l) o c)).poc).length).flatMap react'), _, rfl, ?_⟩
    congr 2
    have h1 := above_callOrder minp hI.callOrder
    have h2 := above_callOrder minp hR.callOrder
    refine callOrder_unique h2 ⟨h1.1.filter _, fun q => ?_⟩
    rw [filter_comm, h1.2 q]
    simp only [Spec.Reg.live]
    have : (Spec.edit (Spec.edits Spec.init l) (.remove o c)).regs =
        (Spec.edits Spec.init l).regs.filter (fun e => !decide (asked o c e)) := by
      cases c with
      | none => simp [Spec.edit, asked]
      | some c => simp [Spec.edit, asked]
    have ha : (Spec.edit (Spec.edits Spec.init l) (.remove o c)).alive =
        (Spec.edits (Spec.init : Spec.Reg K) l).alive := by cases c <;> rfl
    rw [this, ha]
    simp only [List.filter_filter]
    apply List.filter_congr
    intro x _
    ac_rfl
  · rw [if_neg hon, if_neg hon]
    exact ⟨_, _, _, rfl, rfl⟩

/-- Registrations of one callback at two priorities both go, the other callback stays. -/
example : (notify (K := Int) (fun _ => []) none 10
    (removeObserver (edits init [.add 1 10 0, .add 1 11 5, .add 2 10 0, .add 1 10 7]) 1 (some 10))).map
      Prod.snd = some [⟨5, 1, 11⟩, ⟨0, 2, 10⟩] := by decide

/-- C08: whatever the callbacks do to the observable during the round, the round calls the same
registrations as a round with passive callbacks, and the next round sees exactly the registrations
described by the history followed by the edits of the callbacks that were called. -/
theorem round_undisturbed (l : List (Edit K)) (react react' : Nat → List (Edit K))
    (minp minp' : Option K) :
    ∃ N, ∀ fuel, N ≤ fuel → ∃ s0 s1 called,
      notify (fun _ => []) minp fuel (edits init l) = some (s0, called) ∧
      notify react minp fuel (edits init l) = some (s1, called) ∧
      ∃ N', ∀ fuel', N' ≤ fuel' → ∃ s2 called', notify react' minp' fuel' s1 = some (s2, called') ∧
        let r := Spec.edits Spec.init (l ++ (List.range called.length).flatMap react)
        (r.on = false → called' = []) ∧
        (r.on = true → Spec.CallOrder (r.live.filter (wanted minp')) called') := by
  have hI := (Inv.init (K := K)).edits l
  refine ⟨(edits init l).poc.length + 1, fun fuel hf => ?_⟩
  rw [notify_eq react minp _ fuel (by omega), notify_eq _ minp _ fuel (by omega)]
  have key : ∀ (s1 : St K) (called : List (Entry K)),
      Inv s1 (Spec.edits Spec.init (l ++ (List.range called.length).flatMap react)) →
      ∃ N', ∀ fuel', N' ≤ fuel' → ∃ s2 called', notify react' minp' fuel' s1 = some (s2, called') ∧
        let r := Spec.edits Spec.init (l ++ (List.range called.length).flatMap react)
        (r.on = false → called' = []) ∧
        (r.on = true → Spec.CallOrder (r.live.filter (wanted minp')) called') := by
    intro s1 called h1
    refine ⟨s1.poc.length + 1, fun fuel' hf' => ?_⟩
    rw [notify_eq react' minp' _ fuel' (by omega), h1.on]
    by_cases hon : (Spec.edits (Spec.init : Spec.Reg K)
        (l ++ (List.range called.length).flatMap react)).on = true
    · rw [if_pos hon]
      exact ⟨_, _, rfl, fun h => by simp [hon] at h, fun _ => above_callOrder minp' h1.callOrder⟩
    · rw [if_neg hon]
      exact ⟨_, _, rfl, fun _ => rfl, fun h => absurd h hon⟩
  have happ : ∀ b, Spec.edits (Spec.init : Spec.Reg K) (l ++ b) = Spec.edits (Spec.edits Spec.init l) b := by
    intro b; simp [Spec.edits]
  by_cases hon : (edits (init : St K) l).on = true
  · rw [if_pos hon, if_pos hon]
    refine ⟨_, _, _, rfl, rfl, key _ _ ?_⟩
    rw [happ]
    exact hI.flush.edits _
  · rw [if_neg hon, if_neg hon]
    refine ⟨_, _, _, rfl, rfl, key _ _ ?_⟩
    simpa using hI

/-- The first callback removes the second observer and adds a third one in front: the round still
calls the second; the next round calls the third instead. -/
example :
    let s := edits (init : St Int) [.add 1 10 1, .add 2 20 0]
    let react : Nat → List (Edit Int) := fun k => if k = 0 then [.remove 2 none, .add 3 30 9] else []
    (notify react none 10 s).map Prod.snd = some [⟨1, 1, 10⟩, ⟨0, 2, 20⟩] ∧
    ((notify react none 10 s).bind (fun r => (notify react none 10 r.1).map Prod.snd)) =
      some [⟨9, 3, 30⟩, ⟨1, 1, 10⟩] := by decide

end Paramz.Observer

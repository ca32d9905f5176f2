import Verif.ObsArray.Witness

/-!
# C72: cached functions of observable arrays

Source: `paramz/caching.py:42-223` on top of `Verif.ObsArray.Model`. One cacher for a function of one
array (`limit` results are kept), with no ignored arguments and caching switched on. The function sees the
values of the array.

The cacher registers itself with the array it is given when the result is stored (`add_to_cache`,
134-147), and `on_cache_changed` (194-204) marks the results for the array it is called with. The lists of
observers are shared by parts of an array, the marks are not.
-/

set_option linter.unusedSectionVars false

namespace Paramz.ObsArray

open Observer (Entry insPos insertAt matchesReq)

variable {V K R : Type} [LinearOrder K]

/-- The arrays, and what the cacher stores, oldest first: the array (`cached_inputs`), the result
(`cached_outputs`) and whether it is marked (`inputs_changed`). -/
structure CState (V K R : Type) where
  s : State V K
  store : List (Nat × R × Bool)

/-- `on_cache_changed(direct, which)` (194-204) for all calls of a step; `g` is the registration of the
cacher, made by `a.add_observer(self, self.on_cache_changed)`. -/
def mark (g : Entry K) (calls : List (Call V K)) (store : List (Nat × R × Bool)) : List (Nat × R × Bool) :=
  store.map fun e => if ∃ c ∈ calls, c.entry = g ∧ c.arr = e.1 then (e.1, e.2.1, true) else e

/-- `a.remove_observer(self, self.on_cache_changed)`. -/
def drop (g : Entry K) (s : State V K) (a : Nat) : State V K :=
  (step s (.removeObserver a g.obs (some g.cb))).1

/-- `ensure_cache_length` (101-132): drop the oldest result if the cache is full. -/
def ensure (g : Entry K) (limit : Nat) (c : CState V K R) : CState V K R :=
  if c.store.length = limit then
    match c.store with
    | [] => c
    | e :: l => ⟨drop g c.s e.1, l⟩
  else c

/-- What the user does. -/
inductive CAct (V K : Type)
  | op (o : Op V K)
  /-- call the cached function -/
  | call (a : Nat)

/-- The stored result for an array. -/
def find (a : Nat) (store : List (Nat × R × Bool)) : Option (R × Bool) :=
  (store.find? fun e => e.1 = a).map Prod.snd

/-- A call of the cached function (`__call__`, 149-192): the new state and what is returned. -/
def callC (F : List V → R) (g : Entry K) (limit : Nat) (c : CState V K R) (a : Nat) : CState V K R × R :=
  match find a c.store with
  | some (r, false) => (c, r)
  | some (_, true) =>
    (⟨c.s, c.store.map fun e => if e.1 = a then (a, F (c.s.values a), false) else e⟩, F (c.s.values a))
  | none =>
    let c' := ensure g limit c
    (⟨(step c'.s (.addObserver a g)).1, c'.store ++ [(a, F (c.s.values a), false)]⟩, F (c.s.values a))

/-- One action. -/
def cstep (F : List V → R) (g : Entry K) (limit : Nat) (c : CState V K R) : CAct V K → CState V K R
  | .op o => ⟨(step c.s o).1, mark g (step c.s o).2 c.store⟩
  | .call a => (callC F g limit c a).1

/-- What the theorem allows: proper operations with updates on, nobody else unregisters the cacher, and
an array and its parts (arrays with one list of observers) do not mix: while a result for one of them is
stored, the cached function is not called with another and nothing is written through another. -/
def CState.OK (g : Entry K) (c : CState V K R) : CAct V K → Prop
  | .op o => o.Proper ∧ c.s.Exists o ∧ (∀ a on, o ≠ .setUpdates a on) ∧
      (∀ a u q, o = .removeObserver a u q → matchesReq u q g = false) ∧
      (o.Writes → ∀ b, o.on? = some b → ∀ e ∈ c.store, (c.s.arr e.1).list = (c.s.arr b).list → e.1 = b)
  | .call a => a < c.s.next ∧ ∀ e ∈ c.store, (c.s.arr e.1).list = (c.s.arr a).list → e.1 = a

/-- The states that such actions lead to. -/
inductive CReach (F : List V → R) (g : Entry K) (limit : Nat) : CState V K R → Prop
  | empty (v : V) : CReach F g limit ⟨.empty v, []⟩
  | step {c : CState V K R} {x : CAct V K} (h : CReach F g limit c) (ok : c.OK g x) :
      CReach F g limit (cstep F g limit c x)

/-- What holds of the store. -/
structure CInv (F : List V → R) (g : Entry K) (c : CState V K R) : Prop where
  reach : Reach c.s
  on : ∀ a, a < c.s.next → (c.s.arr a).on = true
  lt : ∀ e ∈ c.store, e.1 < c.s.next
  reg : ∀ e ∈ c.store, g ∈ c.s.observers e.1
  apart : c.store.Pairwise fun e f => (c.s.arr e.1).list ≠ (c.s.arr f.1).list
  good : ∀ e ∈ c.store, e.2.2 = false → e.2.1 = F (c.s.values e.1)

theorem step_next (s : State V K) (o : Op V K) : s.next ≤ (step s o).1.next := by
  cases o with
  | inplacePart b k sel f => cases k <;> first | exact Nat.le_succ _ | exact Nat.le_refl _
  | _ => first | exact Nat.le_succ _ | exact Nat.le_refl _

theorem mark_fst (g : Entry K) (calls : List (Call V K)) (store : List (Nat × R × Bool)) :
    (mark g calls store).map Prod.fst = store.map Prod.fst := by
  unfold mark
  rw [List.map_map]
  refine List.map_congr_left (fun e _ => ?_)
  simp only [Function.comp]
  split <;> rfl

theorem CInv.op {F : List V → R} {g : Entry K} {c : CState V K R} (h : CInv F g c) {o : Op V K}
    (ok : c.OK g (.op o)) : CInv F g ⟨(step c.s o).1, mark g (step c.s o).2 c.store⟩ := by
  obtain ⟨ho, he, hu, hr, hw⟩ := ok
  have i := h.reach.inv
  have hback : ∀ e ∈ mark g (step c.s o).2 c.store, ∃ e0 ∈ c.store, e.1 = e0.1 ∧
      (e.2.2 = false → e = e0 ∧ ¬ ∃ c' ∈ (step c.s o).2, c'.entry = g ∧ c'.arr = e0.1) := by
    intro e hm
    obtain ⟨e0, h0, rfl⟩ := List.mem_map.mp hm
    refine ⟨e0, h0, ?_, ?_⟩
    · split <;> rfl
    · by_cases hx : ∃ c' ∈ (step c.s o).2, c'.entry = g ∧ c'.arr = e0.1
      · rw [if_pos hx]; intro h; cases h
      · rw [if_neg hx]; exact fun _ => ⟨rfl, hx⟩
  refine ⟨h.reach.step ho he, step_on c.s ho hu he h.on, ?_, ?_, ?_, ?_⟩
  · intro e hm
    obtain ⟨e0, h0, h1, -⟩ := hback e hm
    rw [h1]
    exact Nat.lt_of_lt_of_le (h.lt e0 h0) (step_next c.s o)
  · intro e hm
    obtain ⟨e0, h0, h1, -⟩ := hback e hm
    rw [h1]
    exact step_keeps_entry c.s ho (h.lt e0 h0) (i.list _ (h.lt e0 h0)) hr (h.reg e0 h0)
  · have hp := h.apart
    have : (mark g (step c.s o).2 c.store).Pairwise fun e f => (c.s.arr e.1).list ≠ (c.s.arr f.1).list := by
      have e1 := mark_fst g (step c.s o).2 c.store
      rw [← List.pairwise_map (f := Prod.fst) (R := fun a b => (c.s.arr a).list ≠ (c.s.arr b).list)] at hp ⊢
      rw [e1]; exact hp
    refine this.imp_of_mem (fun {e f} he hf hne => ?_)
    obtain ⟨e0, h0, h1, -⟩ := hback e he
    obtain ⟨f0, k0, k1, -⟩ := hback f hf
    rw [(step_arr c.s ho (by rw [h1]; exact h.lt e0 h0)).2, (step_arr c.s ho (by rw [k1]; exact h.lt f0 k0)).2]
    exact hne
  · intro e hm hf
    obtain ⟨e0, h0, -, h2⟩ := hback e hm
    obtain ⟨rfl, hn⟩ := h2 hf
    rw [h.good e h0 hf]
    congr 1
    by_contra hne
    have hc : (step c.s o).1.values e.1 ≠ c.s.values e.1 := fun h => hne h.symm
    by_cases hwr : o.Writes
    · obtain ⟨b, e1, e2⟩ := observed_partial h.reach ho he (h.lt e h0) hc
      have hb : b < c.s.next := he b e1
      obtain ⟨pre, e3⟩ := e2 (h.on b hb)
      obtain ⟨b', e1', hb', w2, -, -, -⟩ := step_writes hwr he
      rw [e1] at e1'
      cases e1'
      have hs : (c.s.arr e.1).list = (c.s.arr b).list := by
        by_contra hd
        refine hc (values_keep (step_arr c.s ho (h.lt e h0)).1 (fun k hk => w2 k (i.cell _ (h.lt e h0) k hk)
          (fun hk' => ?_)))
        exact hd (i.same _ _ (h.lt e h0) hb k hk hk')
      have heb := hw hwr b e1 e h0 hs
      refine hn ⟨⟨g, b, (step c.s o).1.mem⟩, ?_, rfl, heb.symm⟩
      rw [e3, List.mem_append]
      right
      exact List.mem_map_of_mem (f := fun e => (⟨e, b, (step c.s o).1.mem⟩ : Call V K)) (h.reg e h0)
    · refine hc (values_keep (step_arr c.s ho (h.lt e h0)).1 (fun k hk => ?_))
      exact (step_still c.s ho hwr).2 k (i.cell _ (h.lt e h0) k hk)

theorem find_mem {a : Nat} {store : List (Nat × R × Bool)} {p : R × Bool} (h : find a store = some p) :
    (a, p) ∈ store := by
  obtain ⟨e, he, rfl⟩ := Option.map_eq_some_iff.mp h
  have h1 := List.find?_some he
  have h2 := List.mem_of_find?_eq_some he
  have : e.1 = a := by simpa using h1
  rw [← this]; exact h2

theorem find_none {a : Nat} {store : List (Nat × R × Bool)} (h : find a store = none) :
    ∀ e ∈ store, e.1 ≠ a := by
  have := List.find?_eq_none.mp (Option.map_eq_none_iff.mp h)
  intro e he
  simpa using this e he

theorem CInv.ensure {F : List V → R} {g : Entry K} {c : CState V K R} (h : CInv F g c) (limit : Nat) :
    CInv F g (ensure g limit c) ∧ (ObsArray.ensure g limit c).s.arr = c.s.arr ∧
      (ObsArray.ensure g limit c).s.next = c.s.next ∧ (ObsArray.ensure g limit c).s.mem = c.s.mem ∧
      (∀ e ∈ (ObsArray.ensure g limit c).store, e ∈ c.store) := by
  unfold ObsArray.ensure
  split
  · split
    · exact ⟨h, rfl, rfl, rfl, fun _ h => h⟩
    · rename_i e l hs
      refine ⟨?_, rfl, rfl, rfl, fun x hx => by rw [hs]; simp [hx]⟩
      have hap := h.apart
      rw [hs, List.pairwise_cons] at hap
      have hmem : ∀ x ∈ l, x ∈ c.store := fun x hx => by rw [hs]; simp [hx]
      have hex : c.s.Exists (.removeObserver e.1 g.obs (some g.cb) : Op V K) := by
        intro a ha
        cases ha
        exact h.lt e (by rw [hs]; simp)
      refine ⟨h.reach.step trivial hex, h.on, fun x hx => h.lt x (hmem x hx), fun x hx => ?_, hap.2,
        fun x hx => h.good x (hmem x hx)⟩
      have := h.reg x (hmem x hx)
      unfold State.observers at this ⊢
      show g ∈ (if (c.s.arr x.1).list = (c.s.arr e.1).list then _ else c.s.lists (c.s.arr x.1).list)
      rw [if_neg (fun h => hap.1 x hx h.symm)]
      exact this
  · exact ⟨h, rfl, rfl, rfl, fun _ h => h⟩

theorem CInv.call {F : List V → R} {g : Entry K} {limit : Nat} {c : CState V K R} (h : CInv F g c) {a : Nat}
    (ok : c.OK g (.call a)) :
    CInv F g (callC F g limit c a).1 ∧ (callC F g limit c a).2 = F (c.s.values a) := by
  obtain ⟨ha, hd⟩ := ok
  unfold callC
  split
  · rename_i r hf
    exact ⟨h, h.good _ (find_mem hf) rfl⟩
  · rename_i r hf
    refine ⟨?_, rfl⟩
    have hfst : (c.store.map fun e => if e.1 = a then (a, F (c.s.values a), false) else e).map Prod.fst =
        c.store.map Prod.fst := by
      rw [List.map_map]
      refine List.map_congr_left (fun e _ => ?_)
      simp only [Function.comp]
      split
      · rename_i h; exact h.symm
      · rfl
    have hback : ∀ e ∈ (c.store.map fun e => if e.1 = a then (a, F (c.s.values a), false) else e),
        e = (a, F (c.s.values a), false) ∧ (∃ e0 ∈ c.store, e0.1 = a) ∨ e ∈ c.store := by
      intro e he
      obtain ⟨e0, h0, rfl⟩ := List.mem_map.mp he
      split
      · rename_i hx; exact .inl ⟨rfl, e0, h0, hx⟩
      · exact .inr h0
    refine ⟨h.reach, h.on, ?_, ?_, ?_, ?_⟩
    · intro e he
      rcases hback e he with ⟨rfl, -⟩ | he
      · exact ha
      · exact h.lt e he
    · intro e he
      rcases hback e he with ⟨rfl, e0, h0, h1⟩ | he
      · have := h.reg e0 h0
        rw [h1] at this; exact this
      · exact h.reg e he
    · have hp := h.apart
      rw [← List.pairwise_map (f := Prod.fst) (R := fun a b => (c.s.arr a).list ≠ (c.s.arr b).list)] at hp ⊢
      rw [hfst]; exact hp
    · intro e he hfl
      rcases hback e he with ⟨rfl, -⟩ | he
      · rfl
      · exact h.good e he hfl
  · rename_i hf
    refine ⟨?_, rfl⟩
    obtain ⟨q, q1, q2, q3, q4⟩ := h.ensure limit
    set c' := ObsArray.ensure g limit c with hc'
    have hex : c'.s.Exists (.addObserver a g : Op V K) := by
      intro b hb
      cases hb
      rw [q2]; exact ha
    have hne : ∀ e ∈ c'.store, (c'.s.arr e.1).list ≠ (c'.s.arr a).list := by
      intro e he hx
      rw [q1] at hx
      exact find_none hf e (q4 e he) (hd e (q4 e he) hx)
    refine ⟨q.reach.step trivial hex, q.on, ?_, ?_, ?_, ?_⟩
    · intro e he
      rcases List.mem_append.mp he with he | he
      · exact q.lt e he
      · rw [List.mem_singleton] at he
        rw [he]
        show a < c'.s.next
        rw [q2]; exact ha
    · intro e he
      rcases List.mem_append.mp he with he | he
      · exact step_keeps_entry c'.s (o := .addObserver a g) trivial (q.lt e he) (q.reach.inv.list _ (q.lt e he)) (by simp) (q.reg e he)
      · rw [List.mem_singleton] at he
        rw [he]
        show g ∈ (if (c'.s.arr a).list = (c'.s.arr a).list then _ else _)
        rw [if_pos rfl, mem_insertAt]
        exact .inl rfl
    · rw [List.pairwise_append]
      refine ⟨q.apart, List.pairwise_singleton _ _, fun e he f hf' => ?_⟩
      rw [List.mem_singleton] at hf'
      rw [hf']
      exact hne e he
    · intro e he hfl
      rcases List.mem_append.mp he with he | he
      · exact q.good e he hfl
      · rw [List.mem_singleton] at he
        rw [he]
        show F (c.s.values a) = F (c'.s.values a)
        unfold State.values
        rw [q1, q3]

theorem CReach.inv {F : List V → R} {g : Entry K} {limit : Nat} {c : CState V K R}
    (h : CReach F g limit c) : CInv F g c := by
  induction h with
  | empty v =>
    exact ⟨.empty v, fun a ha => absurd ha (Nat.not_lt_zero a), by simp, by simp, .nil, by simp⟩
  | @step c x _ ok ih =>
    cases x with
    | op o => exact ih.op ok
    | call a => exact (ih.call ok).1

/-- In every state that such actions lead to, a call of the cached function gives what the function gives
for the present values of the array. An array and its parts must not mix: see `part_write_stale_fails`,
`whole_write_stale_fails` and `part_evicted_fails`. -/
theorem cached_array_partial {F : List V → R} {g : Entry K} {limit : Nat} {c : CState V K R}
    (h : CReach F g limit c) {a : Nat} (ok : c.OK g (.call a)) :
    (callC F g limit c a).2 = F (c.s.values a) := (h.inv.call ok).2

/-- The cacher stores at most `limit` results. -/
theorem store_limit {F : List V → R} {g : Entry K} {limit : Nat} (hl : 0 < limit) {c : CState V K R}
    (h : CReach F g limit c) : c.store.length ≤ limit := by
  induction h with
  | empty v => exact Nat.zero_le _
  | @step c x _ ok ih =>
    cases x with
    | op o => show (mark _ _ _).length ≤ _; unfold mark; rw [List.length_map]; exact ih
    | call a =>
      show (callC F g limit c a).1.store.length ≤ limit
      unfold callC
      split
      · exact ih
      · rw [List.length_map]; exact ih
      · simp only [List.length_append, List.length_singleton]
        unfold ObsArray.ensure
        split
        · rename_i hx
          split
          · rename_i hs; rw [hs] at hx; simp at hx; omega
          · rename_i e l hs
            rw [hs] at hx
            simp only [List.length_cons] at hx ⊢
            omega
        · omega

/-! ### Concrete caches -/

/-- Several actions. -/
def crun (F : List V → R) (g : Entry K) (limit : Nat) (c : CState V K R) (l : List (CAct V K)) :
    CState V K R := l.foldl (cstep F g limit) c

/-- The sum of the elements is cached, two results are kept, and the observer is number 9. -/
def total (l : List Int) : Int := l.sum

/-- The registration of the cacher. -/
def theCacher : Entry Int := ⟨0, 9, 0⟩

/-- Two arrays; the total of both has been asked for. -/
def two : CState Int Int Int :=
  crun total theCacher 2 ⟨.empty 0, []⟩ [.op (.new [10, 20, 30]), .op (.new [1, 2]), .call 0, .call 1]

theorem two_reach : CReach total theCacher 2 two := by
  refine .step (x := .call 1) (.step (x := .call 0) (.step (x := .op (.new [1, 2]))
    (.step (x := .op (.new [10, 20, 30])) (.empty (0 : Int)) ?_) ?_) ?_) ?_
  · exact ⟨trivial, (fun a h => by cases h), (fun a on h => by cases h), (fun a u q h => by cases h), fun h => h.elim⟩
  · exact ⟨trivial, (fun a h => by cases h), (fun a on h => by cases h), (fun a u q h => by cases h), fun h => h.elim⟩
  · exact ⟨by decide +kernel, by decide +kernel⟩
  · exact ⟨by decide +kernel, by decide +kernel⟩

/-- A write through the array is noticed, also `a[1:3] += 1`. -/
example : two.store = [(0, 60, false), (1, 3, false)] ∧
    (callC total theCacher 2 (cstep total theCacher 2 two (.op (.set 0 [0] [11]))) 0).2 = 61 ∧
    (callC total theCacher 2 (cstep total theCacher 2 two
      (.op (.inplacePart 0 .view [1, 2] (fun _ v => v + 1)))) 0).2 = 62 := by decide +kernel

example : (callC total theCacher 2 (cstep total theCacher 2 two (.op (.set 0 [0] [11]))) 0).2 = 61 := by
  refine (cached_array_partial (.step (x := .op (.set 0 [0] [11])) two_reach ?_) ?_).trans (by decide +kernel)
  · refine ⟨trivial, ?_, by simp, by simp, fun _ b hb => ?_⟩
    · intro a h; cases h; decide +kernel
    · cases hb; decide +kernel
  · exact ⟨by decide +kernel, by decide +kernel⟩

/-- A write through a part of the array is announced with the part as argument, and the cacher does not
find it among its inputs: the old result is returned. -/
theorem part_write_stale_fails :
    let c := crun total theCacher 2 two [.op (.part 0 [1, 2]), .op (.set 2 [0] [99])]
    Reach c.s ∧ (∀ a < 3, (c.s.arr a).on = true) ∧ c.s.values 0 = [10, 99, 30] ∧
      (callC total theCacher 2 c 0).2 = 60 := by
  refine ⟨.step (.step two_reach.inv.reach trivial ?_) trivial ?_, by decide +kernel⟩
  all_goals
    intro a h
    cases h
    decide +kernel

/-- A write through the array is not noticed by the result stored for a part of it. -/
theorem whole_write_stale_fails :
    let c := crun total theCacher 2 ⟨.empty 0, []⟩ [.op (.new [10, 20, 30]), .op (.part 0 [1, 2]), .call 1,
      .op (.set 0 [1] [99])]
    (∀ a < 2, (c.s.arr a).on = true) ∧ c.s.values 1 = [99, 30] ∧ (callC total theCacher 2 c 1).2 = 50 := by
  decide +kernel

/-- When the result for a part is dropped from a full cache, the registration of the cacher with the whole
array is removed as well: later writes to the array are not noticed. -/
theorem part_evicted_fails :
    let c := crun total theCacher 2 ⟨.empty 0, []⟩ [.op (.new [10, 20, 30]), .op (.new [1, 2]),
      .op (.part 0 [1, 2]), .call 2, .call 0, .call 1, .op (.set 0 [0] [11])]
    (∀ a < 3, (c.s.arr a).on = true) ∧ c.s.values 0 = [11, 20, 30] ∧
      c.store.map (fun e => (e.1, e.2.1)) = [(0, 60), (1, 3)] ∧ (callC total theCacher 2 c 0).2 = 60 := by
  decide +kernel

end Paramz.ObsArray

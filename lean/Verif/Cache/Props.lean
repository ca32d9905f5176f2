import Verif.Cache.Coherence

/-!
# Properties of cached calls: C09 – C14

Histories are arbitrary lists of `Ev`, started from an empty heap and a new cacher.
-/

set_option linter.unusedSectionVars false

namespace Paramz.Cache

open Spec (Entry)

variable {V N E R : Type} [LinearOrder N]

/-- The call goes through the cache: caching is enabled, no forced keyword is given, and every
non-ignored argument is observable, a number, a string or `None`. -/
def UsesCache (cfg : Cfg V N E R) (s : St V R) (args : List Nat) (kw : List (N × Nat)) : Prop :=
  s.enabled = true ∧ (∀ p ∈ kw, p.1 ∈ cfg.force → kindAt s.w p.2 = .none) ∧
    ∀ a ∈ combine cfg.ignore args kw, kindAt s.w a ≠ .other

theorem call_usesCache {cfg : Cfg V N E R} {s : St V R} {args : List Nat} {kw : List (N × Nat)}
    {va : List V} {vk : List (N × V)} (hva : valsOf s.w args = some va)
    (hvk : kwValsOf s.w kw = some vk) (h : UsesCache cfg s args kw) :
    call cfg s args kw = some (cachedCall cfg s (combine cfg.ignore args kw) (cfg.op va vk)) := by
  obtain ⟨h1, h2, h3⟩ := h
  unfold call
  rw [hva, hvk]
  simp only
  rw [if_neg (by simp [h1]), if_neg, if_neg]
  · simp only [List.any_eq_true, decide_eq_true_eq]
    rintro ⟨a, ha, hk⟩
    exact h3 a ha hk
  · rw [forced_iff]
    rintro ⟨n, hn, p, hp, hpn, hpk⟩
    exact hpk (h2 p hp (hpn ▸ hn))

theorem call_bypass {cfg : Cfg V N E R} {s : St V R} {args : List Nat} {kw : List (N × Nat)}
    {va : List V} {vk : List (N × V)} (hva : valsOf s.w args = some va)
    (hvk : kwValsOf s.w kw = some vk) (h : ¬ UsesCache cfg s args kw) :
    call cfg s args kw = some (bypass (cfg.op va vk) s) := by
  unfold call
  rw [hva, hvk]
  simp only
  by_cases h1 : s.enabled = false
  · rw [if_pos h1]
  · rw [if_neg h1]
    by_cases h2 : forced cfg s.w kw = true
    · rw [if_pos h2]
    · rw [if_neg h2, if_pos]
      simp only [List.any_eq_true, decide_eq_true_eq]
      by_contra h3
      push Not at h3
      refine h ⟨by simpa using h1, ?_, h3⟩
      intro p hp hf
      by_contra hk
      exact h2 ((forced_iff cfg s.w kw).mpr ⟨p.1, hf, p, hp, rfl, hk⟩)

theorem live_of_usesCache {cfg : Cfg V N E R} {s : St V R} {args : List Nat} {kw : List (N × Nat)}
    {va : List V} {vk : List (N × V)} (hva : valsOf s.w args = some va)
    (hvk : kwValsOf s.w kw = some vk) (h : UsesCache cfg s args kw) :
    ∀ a ∈ combine cfg.ignore args kw, ∃ o, s.w.cell a = some o ∧ o.kind ≠ .other := by
  intro a ha
  obtain ⟨o, ho⟩ := live_of_vals hva hvk cfg.ignore a ha
  exact ⟨o, ho, fun hk => h.2.2 a ha (by rw [kindAt_of ho]; exact hk)⟩

/-! ## C09 -/

/-- C09 (partial). In every history without shared observer lists and in which calls of the same number
of inputs are spelled alike (same number of positional arguments, same keyword names), a call returns
exactly what the operation returns for the present contents of the arguments, or raises what it raises,
provided no argument has a change it has not announced (`dirty`).
Missing for the full claim: differently spelled calls (`keyword_names_fail`), views of observable
arrays (`view_write_fails`, `view_eviction_fails`) and `limit = 0` (`limit_zero_fails`). -/
theorem cached_call_coherent_partial (cfg : Cfg V N E R) (S : Nat × List N → Prop)
    (hop : DependsOnInputs cfg) (hone : OneSpelling cfg.ignore S) (hl : cfg.limit ≠ 0)
    (evs : List (Ev V N)) (hns : ∀ ev ∈ evs, NoShare ev) (hS : ∀ ev ∈ evs, Spelled S ev)
    (args : List Nat) (kw : List (N × Nat)) (hspell : S (shape args kw)) (va : List V)
    (vk : List (N × V)) (hva : valsOf (run cfg init evs).w args = some va)
    (hvk : kwValsOf (run cfg init evs).w kw = some vk)
    (hclean : ∀ a ∈ combine cfg.ignore args kw, a ∉ (run cfg init evs).w.dirty) :
    ∃ o, call cfg (run cfg init evs) args kw = some o ∧ o.res = lift (cfg.op va vk) := by
  obtain ⟨hrel, _⟩ := run_refines hl evs hns (Rel.init cfg)
  have hcoh := run_coh (S := S) hl evs hns hS (Rel.init cfg) Coh.nil
  by_cases hu : UsesCache cfg (run cfg init evs) args kw
  · rw [call_usesCache hva hvk hu]
    refine ⟨_, rfl, ?_⟩
    obtain ⟨g1, _⟩ := cachedCall_refines hrel.inv hl _ (cfg.op va vk) (live_of_usesCache hva hvk hu)
    have g2 := (Prod.ext_iff.mp g1).1
    simp only at g2
    rw [g2]
    unfold Spec.cached
    split
    · rename_i e he
      have hm := List.mem_of_find?_eq_some he
      have hargs : e.args = combine cfg.ignore args kw := by simpa using List.find?_some he
      split
      · split <;> simp_all
      · rename_i hs
        obtain ⟨va', vk', h1, h2, h3⟩ := hcoh e hm (by simpa using hs) (by rw [hargs]; exact hclean)
        obtain ⟨v1, v2⟩ := combine_vals hva hvk cfg.ignore
        have heq : combine cfg.ignore va' vk' = combine cfg.ignore va vk := by
          rw [hargs, ← v1] at h2
          exact List.map_injective_iff.mpr (Option.some_injective _) h2
        have hsh : shape va' vk' = shape va vk := by
          refine hone _ _ h1 (by rw [v2]; exact hspell) ?_
          rw [← combine_length, ← combine_length, heq]
        rw [← hop va' vk' va vk hsh heq, h3]
    · split <;> simp_all
  · rw [call_bypass hva hvk hu]
    refine ⟨_, rfl, ?_⟩
    cases cfg.op va vk <;> rfl

/-- Histories of a user who only writes through observables with updates on. -/
inductive UEv (V N : Type)
  | call (args : List Nat) (kw : List (N × Nat))
  | write (a : Nat) (v : V)
  | reset | disable | enable
  | alloc (a : Nat) (kind : Kind) (v : V)
  | free (a : Nat)

/-- What happens: a write changes the contents and then notifies (observable_array.py:117-119). -/
def UEv.events : UEv V N → List (Ev V N)
  | .call args kw => [.call args kw]
  | .write a v => [.set a v, .notify a a]
  | .reset => [.reset]
  | .disable => [.disable]
  | .enable => [.enable]
  | .alloc a k v => [.alloc a k v none]
  | .free a => [.free a]

/-- No unannounced change, and every object has updates on. -/
def Quiet (w : World V) : Prop := w.dirty = [] ∧ ∀ a o, w.cell a = some o → o.on = true

theorem events_quiet (cfg : Cfg V N E R) (hl : cfg.limit ≠ 0) (u : UEv V N) (s : St V R)
    (t : Spec.St V R) (h : Rel cfg s t) (hq : Quiet s.w) :
    Quiet (run cfg s u.events).w ∧ (∀ ev ∈ u.events, NoShare ev) := by
  cases u with
  | call args kw =>
    refine ⟨?_, by simp [UEv.events, NoShare]⟩
    simp only [UEv.events, run, List.foldl_cons, List.foldl_nil, step]
    cases hva : valsOf s.w args with
    | none => simpa [call, hva] using hq
    | some va =>
      cases hvk : kwValsOf s.w kw with
      | none => simpa [call, hva, hvk] using hq
      | some vk =>
        by_cases hu : UsesCache cfg s args kw
        · rw [call_usesCache hva hvk hu]
          obtain ⟨_, _, g3, g4, _⟩ := cachedCall_refines h.inv hl _ (cfg.op va vk)
            (live_of_usesCache hva hvk hu)
          simp only
          exact ⟨by rw [g4]; exact hq.1, by rw [g3]; exact hq.2⟩
        · rw [call_bypass hva hvk hu]
          have : (bypass (cfg.op va vk) s).st = s := by cases cfg.op va vk <;> rfl
          simp only [this]
          exact hq
  | write a v =>
    refine ⟨?_, by simp [UEv.events, NoShare]⟩
    simp only [UEv.events, run, List.foldl_cons, List.foldl_nil, step]
    cases hc : s.w.cell a with
    | none => simpa [hc] using hq
    | some o =>
      simp only
      by_cases hk : o.kind = .observable
      · rw [if_pos hk]
        have hon := hq.2 a o hc
        simp only [setCell, if_true, hk, hon, and_self]
        have hw : ∀ (x : St V R), (onCacheChanged x a a).w = x.w := by
          intro x
          simp only [onCacheChanged, markIds]
          split <;> split <;> rfl
        refine ⟨?_, ?_⟩
        · split <;> simp [hw, hq.1]
        · intro b p hb
          have : (if b = a then some { o with val := v } else s.w.cell b) = some p := by
            split at hb <;> simpa [hw, hk, hon] using hb
          by_cases hba : b = a
          · rw [if_pos hba] at this; cases this; exact hon
          · rw [if_neg hba] at this; exact hq.2 b p this
      · rw [if_neg hk]
        simpa [hc, hk] using hq
  | reset =>
    obtain ⟨_, g2, g3⟩ := h.inv.reset
    exact ⟨⟨by simp only [UEv.events, run, List.foldl_cons, List.foldl_nil, step]; rw [g3]; exact hq.1,
      by simp only [UEv.events, run, List.foldl_cons, List.foldl_nil, step]; rw [g2]; exact hq.2⟩,
      by simp [UEv.events, NoShare]⟩
  | disable =>
    obtain ⟨_, g2, g3⟩ := (h.inv.enabled false).reset
    exact ⟨⟨by simp only [UEv.events, run, List.foldl_cons, List.foldl_nil, step, disable]; rw [g3]; exact hq.1,
      by simp only [UEv.events, run, List.foldl_cons, List.foldl_nil, step, disable]; rw [g2]; exact hq.2⟩,
      by simp [UEv.events, NoShare]⟩
  | enable => exact ⟨hq, by simp [UEv.events, NoShare]⟩
  | alloc a k v =>
    refine ⟨?_, by simp [UEv.events, NoShare]⟩
    simp only [UEv.events, run, List.foldl_cons, List.foldl_nil, step]
    cases hc : s.w.cell a with
    | some o => exact hq
    | none =>
      refine ⟨by simp [hq.1], ?_⟩
      intro b p hb
      simp only [setCell] at hb
      by_cases hba : b = a
      · rw [if_pos hba] at hb; cases hb; rfl
      · rw [if_neg hba] at hb; exact hq.2 b p hb
  | free a =>
    refine ⟨?_, by simp [UEv.events, NoShare]⟩
    simp only [UEv.events, run, List.foldl_cons, List.foldl_nil, step]
    split
    · exact hq
    · refine ⟨hq.1, ?_⟩
      intro b p hb
      simp only [setCell] at hb
      by_cases hba : b = a
      · rw [if_pos hba] at hb; cases hb
      · rw [if_neg hba] at hb; exact hq.2 b p hb

theorem user_quiet (cfg : Cfg V N E R) (hl : cfg.limit ≠ 0) (us : List (UEv V N)) :
    Quiet (run cfg init (us.flatMap UEv.events)).w ∧
      (∀ ev ∈ us.flatMap UEv.events, NoShare ev) := by
  have key : ∀ (us : List (UEv V N)) (s : St V R) (t : Spec.St V R), Rel cfg s t → Quiet s.w →
      Quiet (run cfg s (us.flatMap UEv.events)).w ∧ (∀ ev ∈ us.flatMap UEv.events, NoShare ev) := by
    intro us
    induction us with
    | nil => intro s t _ hq; exact ⟨hq, by simp⟩
    | cons u us ih =>
      intro s t h hq
      obtain ⟨h1, h2⟩ := events_quiet cfg hl u s t h hq
      obtain ⟨h3, _⟩ := run_refines hl u.events h2 h
      obtain ⟨h4, h5⟩ := ih _ _ h3 h1
      rw [List.flatMap_cons]
      refine ⟨?_, ?_⟩
      · have : run cfg s (u.events ++ us.flatMap UEv.events) =
            run cfg (run cfg s u.events) (us.flatMap UEv.events) := by simp [run]
        rw [this]; exact h4
      · intro ev hev
        rcases List.mem_append.mp hev with hev | hev
        · exact h2 ev hev
        · exact h5 ev hev
  exact key us init _ (Rel.init cfg) ⟨rfl, by intro a o h; simp [init] at h⟩

/-- C09 (partial), user level: whatever sequence of cached calls, writes, resets, switching, object
creation and collection has happened, a call returns what the operation returns now. Missing: as
in `cached_call_coherent_partial`. -/
theorem cached_call_coherent_writes_partial (cfg : Cfg V N E R) (S : Nat × List N → Prop)
    (hop : DependsOnInputs cfg) (hone : OneSpelling cfg.ignore S) (hl : cfg.limit ≠ 0)
    (us : List (UEv V N)) (hS : ∀ args kw, UEv.call args kw ∈ us → S (shape args kw))
    (args : List Nat) (kw : List (N × Nat)) (hspell : S (shape args kw)) (va : List V)
    (vk : List (N × V)) (hva : valsOf (run cfg init (us.flatMap UEv.events)).w args = some va)
    (hvk : kwValsOf (run cfg init (us.flatMap UEv.events)).w kw = some vk) :
    ∃ o, call cfg (run cfg init (us.flatMap UEv.events)) args kw = some o ∧
      o.res = lift (cfg.op va vk) := by
  obtain ⟨hq, hns⟩ := user_quiet cfg hl us
  refine cached_call_coherent_partial cfg S hop hone hl _ hns ?_ args kw hspell va vk hva hvk ?_
  · intro ev hev
    obtain ⟨u, hu, hue⟩ := List.mem_flatMap.mp hev
    cases u <;> simp only [UEv.events, List.mem_cons, List.not_mem_nil, or_false] at hue
    · subst hue; exact hS _ _ hu
    · rcases hue with rfl | rfl <;> trivial
    all_goals subst hue; trivial
  · rw [hq.1]; simp

/-! A sum of the argument contents; calls with one or two positional arguments. -/
section Examples

/-- Operation: sum of all contents. -/
def sumCfg (limit : Int) : Cfg Nat Nat Unit Nat :=
  ⟨limit, [], [], fun va vk => .ok (va.sum + (vk.map Prod.snd).sum)⟩

/-- Result and whether the operation ran, for the last call of a history. -/
def ask (cfg : Cfg Nat Nat Unit Nat) (evs : List (Ev Nat Nat)) (args : List Nat) (kw : List (Nat × Nat)) :
    Option (Option Nat × Bool) :=
  (call cfg (run cfg init evs) args kw).map (fun o => (o.res.toOption, o.ran))

/-- Two objects, a call, a write to one of them: recomputed; asked again: not recomputed. -/
example :
    let us : List (UEv Nat Nat) := [.alloc 16 .observable 1, .alloc 32 .observable 5, .call [16, 32] [],
      .call [16] [], .write 16 7]
    ask (sumCfg 2) (us.flatMap UEv.events) [16, 32] [] = some (some 12, true) ∧
    ask (sumCfg 2) ((us ++ [UEv.call [16, 32] []]).flatMap UEv.events) [16, 32] [] = some (some 12, false) := by
  decide

/-- Address reuse after eviction and collection: the new object at the old address is not confused
with the old one. -/
example :
    let us : List (UEv Nat Nat) := [.alloc 16 .observable 1, .call [16] [], .alloc 32 .observable 5,
      .call [32] [], .free 16, .alloc 16 .observable 9]
    ask (sumCfg 1) (us.flatMap UEv.events) [16] [] = some (some 9, true) := by decide

/-- The spellings used in the examples satisfy the hypotheses of the theorems. -/
example : OneSpelling (N := Nat) [] (fun σ => σ = (1, []) ∨ σ = (2, [])) := by
  rintro σ σ' (rfl | rfl) (rfl | rfl) h
  · rfl
  · exact absurd h (by decide)
  · exact absurd h (by decide)
  · rfl

/-- C09 fails for differently spelled calls: keyword names are not part of the cache id, so
`f(a, y=b)` and `f(a, z=b)` share an entry. The operation returns the number of its keyword. -/
theorem keyword_names_fail :
    let cfg : Cfg Nat Nat Unit Nat := ⟨3, [], [], fun _ vk => .ok (vk.map Prod.fst).sum⟩
    let us : List (UEv Nat Nat) := [.alloc 16 .observable 1, .alloc 32 .observable 5, .call [16] [(100, 32)]]
    DependsOnInputs cfg ∧ ask cfg (us.flatMap UEv.events) [16] [(200, 32)] = some (some 100, false) ∧
      cfg.op [1] [(200, 5)] = .ok 200 := by
  refine ⟨?_, by decide, rfl⟩
  intro va vk va' vk' h _
  simp only [shape, Prod.mk.injEq] at h
  have hs : ∀ vk : List (Nat × Nat), (vk.map Prod.fst).sum =
      ((vk.insertionSort (fun x y => x.1 ≤ y.1)).map Prod.fst).sum := by
    intro vk
    exact (((List.perm_insertionSort _ vk).map Prod.fst).sum_nat).symm
  simp only [hs vk, hs vk', h.2]

/-- C09 fails for views: writing through a view of an observable array (contents of both change, only
the view announces it) leaves the entry of the array itself in place. -/
theorem view_write_fails :
    let evs : List (Ev Nat Nat) := [.alloc 16 .observable 1 none, .alloc 32 .observable 1 (some 16),
      .call [16] [], .set 32 7, .set 16 7, .notify 32 32]
    ask (sumCfg 3) evs [16] [] = some (some 1, false) ∧
      valsOf (run (sumCfg 3) init evs).w [16] = some [7] := by decide

/-- C09 and C12 fail for views: evicting the entry of a view unregisters the cacher from the observer
list it shares with the array, so a later announced change of the array goes unnoticed. -/
theorem view_eviction_fails :
    let evs : List (Ev Nat Nat) := [.alloc 16 .observable 1 none, .alloc 32 .observable 1 (some 16),
      .alloc 48 .observable 3 none, .call [32] [], .call [16] [], .call [48] [], .set 16 7, .notify 16 16]
    ask (sumCfg 2) evs [16] [] = some (some 1, false) ∧
      valsOf (run (sumCfg 2) init evs).w [16] = some [7] ∧ (run (sumCfg 2) init evs).w.dirty = [] := by
  decide

/-- C09 fails while updates of an input are switched off: the change is never announced. -/
theorem updates_off_fails :
    let evs : List (Ev Nat Nat) := [.alloc 16 .observable 1 none, .call [16] [], .setOn 16 false,
      .set 16 7, .notify 16 16, .setOn 16 true]
    ask (sumCfg 3) evs [16] [] = some (some 1, false) ∧
      valsOf (run (sumCfg 3) init evs).w [16] = some [7] := by decide

/-- With `limit = 0` a cacheable call computes the result and then raises `IndexError`. -/
theorem limit_zero_fails :
    ∃ o, call (sumCfg 0) (run (sumCfg 0) init [.alloc 16 .observable 1 none]) [16] [] = some o ∧
      o.res = .error .indexError := ⟨_, rfl, rfl⟩

end Examples

/-! ## C10 -/

/-- C10: results and runs seen by the user are those of a plain first-in first-out list of results. -/
theorem cacher_refines_fifo (cfg : Cfg V N E R) (hl : cfg.limit ≠ 0) (evs : List (Ev V N))
    (hns : ∀ ev ∈ evs, NoShare ev) :
    trace cfg init evs =
      (Spec.trace cfg Spec.init evs).map (Option.map (fun r => (lift r.1, r.2))) :=
  (run_refines hl evs hns (Rel.init cfg)).2

/-- C10: at every point the order queue and the three dictionaries describe exactly the entries of that
list, of which there are at most `limit`. -/
theorem cache_contents_exact (cfg : Cfg V N E R) (hl : 0 < cfg.limit) (evs : List (Ev V N))
    (hns : ∀ ev ∈ evs, NoShare ev) :
    let s := run cfg init evs
    let c := (Spec.run cfg Spec.init evs).cache
    s.order = c.map (fun e => prepareId e.args) ∧ s.order.Nodup ∧ (s.order.length : Int) ≤ cfg.limit ∧
    (∀ k l, dget s.inputs k = some l ↔ ∃ e ∈ c, e.args = l ∧ prepareId l = k) ∧
    (∀ k r, dget s.outputs k = some r ↔ ∃ e ∈ c, e.out = r ∧ prepareId e.args = k) ∧
    (∀ k b, dget s.changed k = some b ↔ ∃ e ∈ c, e.stale = b ∧ prepareId e.args = k) := by
  intro s c
  have h := (run_refines (by omega) evs hns (Rel.init cfg)).1.inv
  have gen : ∀ {A : Type} (f : Entry R → A) (d : Dict Key A),
      (∀ k, dget d k = (lk c k).map f) → ∀ k x,
      dget d k = some x ↔ ∃ e ∈ c, f e = x ∧ prepareId e.args = k := by
    intro A f d hd k x
    rw [hd]
    constructor
    · intro hx
      obtain ⟨e, he, rfl⟩ := Option.map_eq_some_iff.mp hx
      exact ⟨e, lk_mem he, rfl, lk_key he⟩
    · rintro ⟨e, he, rfl, rfl⟩
      rw [lk_of_mem h.nodup he]; rfl
  refine ⟨h.order, ?_, ?_, ?_, gen _ _ h.outputs, gen _ _ h.changed⟩
  · rw [h.order]
    have : c.map (fun e => prepareId e.args) = (c.map Entry.args).map prepareId := by simp
    rw [this]
    exact h.nodup.map (fun a b hab => prepareId_injective a b hab)
  · have := h.len hl
    rw [h.order]
    simpa using this
  · intro k l
    rw [gen _ _ h.inputs]
    constructor
    · rintro ⟨e, he, rfl, hk⟩; exact ⟨e, he, rfl, hk⟩
    · rintro ⟨e, he, rfl, hk⟩; exact ⟨e, he, rfl, hk⟩

/-- Three entries in a cache of two: the first is gone, the other two are answered from the cache. -/
example :
    let us : List (UEv Nat Nat) := [.alloc 16 .observable 1, .alloc 32 .observable 5, .alloc 48 .observable 6,
      .call [16] [], .call [32] [], .call [48] []]
    ask (sumCfg 2) (us.flatMap UEv.events) [16] [] = some (some 1, true) ∧
    ask (sumCfg 2) (us.flatMap UEv.events) [32] [] = some (some 5, false) ∧
    ask (sumCfg 2) (us.flatMap UEv.events) [48] [] = some (some 6, false) := by decide

/-! ## C11 -/

/-- Events that do not invalidate the entry with inputs `l`. -/
def Harmless (l : List Nat) : Ev V N → Prop
  | .reset => False
  | .disable => False
  | .notify a w => a ∉ l ∧ w ∉ l
  | _ => True

/-- How many calls ran the operation. -/
def runs {A : Type} (tr : List (Option (A × Bool))) : Nat :=
  tr.countP (fun o => match o with | some (_, b) => b | none => false)

/-- No call of the trace failed. -/
def NoFailure {E' : Type} (tr : List (Option (Except E' R × Bool))) : Prop :=
  ∀ r b, some (r, b) ∈ tr → ∃ v, r = .ok v

theorem spec_keeps (cfg : Cfg V N E R) (t : Spec.St V R) (l : List Nat) (v : R) (pre post : List (Entry R))
    (hc : t.cache = pre ++ ⟨l, v, false⟩ :: post) (hnd : (t.cache.map Entry.args).Nodup) (ev : Ev V N)
    (hh : Harmless l ev)
    (hok : ∀ r b, (Spec.step cfg t ev).2 = some (r, b) → ∃ v, r = .ok v)
    (hroom : (post.length : Int) + runs [(Spec.step cfg t ev).2] < cfg.limit) :
    ∃ pre' post', (Spec.step cfg t ev).1.cache = pre' ++ ⟨l, v, false⟩ :: post' ∧
      post'.length ≤ post.length + runs [(Spec.step cfg t ev).2] := by
  cases ev with
  | call args kw =>
    simp only [Spec.step] at hok hroom ⊢
    cases hva : Spec.vals t.heap args with
    | none => exact ⟨pre, post, hc, Nat.le_add_right _ _⟩
    | some va =>
      cases hvk : Spec.kwVals t.heap kw with
      | none => exact ⟨pre, post, hc, Nat.le_add_right _ _⟩
      | some vk =>
        simp only [hva, hvk] at hok hroom
        simp only
        split
        · exact ⟨pre, post, hc, Nat.le_add_right _ _⟩
        · rename_i hcond
          rw [if_neg hcond] at hok hroom
          simp only at hok hroom ⊢
          unfold Spec.cached at hok hroom ⊢
          cases hf : t.cache.find? (fun e => decide (e.args = combine cfg.ignore args kw)) with
          | some e =>
            have hargs : e.args = combine cfg.ignore args kw := by simpa using List.find?_some hf
            simp only [hf] at hok hroom
            simp only
            by_cases hs : e.stale = true
            · rw [if_pos hs] at hok hroom ⊢
              cases hop : cfg.op va vk with
              | error er =>
                simp only [hop] at hok
                obtain ⟨x, hx⟩ := hok _ _ rfl
                cases hx
              | ok x =>
                simp only
                have hne : l ≠ combine cfg.ignore args kw := by
                  intro hle
                  have hm := List.mem_of_find?_eq_some hf
                  have h1 : (⟨l, v, false⟩ : Entry R) ∈ t.cache := by rw [hc]; simp
                  have h2 := lk_of_mem hnd h1
                  have h3 := lk_of_mem hnd hm
                  rw [hargs, ← hle] at h3
                  simp only at h2
                  rw [h2] at h3
                  cases h3
                  simp at hs
                refine ⟨pre.map (fun y => if y.args = combine cfg.ignore args kw then
                    ⟨combine cfg.ignore args kw, x, false⟩ else y),
                  post.map (fun y => if y.args = combine cfg.ignore args kw then
                    ⟨combine cfg.ignore args kw, x, false⟩ else y), ?_, ?_⟩
                · rw [hc]; simp [hne]
                · simp
            · rw [if_neg hs]
              exact ⟨pre, post, hc, Nat.le_add_right _ _⟩
          | none =>
            simp only [hf] at hok hroom
            simp only
            cases hop : cfg.op va vk with
            | error er =>
              simp only [hop] at hok
              obtain ⟨x, hx⟩ := hok _ _ rfl
              cases hx
            | ok x =>
              simp only [hop, runs, List.countP_cons, List.countP_nil] at hroom
              simp only [Spec.store, runs, List.countP_cons, List.countP_nil]
              split
              · rename_i hfull
                cases pre with
                | nil =>
                  exfalso
                  rw [hc] at hfull
                  simp at hfull hroom
                  omega
                | cons p pre =>
                  refine ⟨pre, post ++ [⟨combine cfg.ignore args kw, x, false⟩], by rw [hc]; simp, ?_⟩
                  simp
              · exact ⟨pre, post ++ [⟨combine cfg.ignore args kw, x, false⟩], by rw [hc]; simp, by simp⟩
  | set a x =>
    refine ⟨pre, post, ?_, Nat.le_add_right _ _⟩
    simp only [Spec.step]
    split
    · split <;> exact hc
    · exact hc
  | notify a b =>
    simp only [Spec.step]
    split
    · split
      · simp only [Spec.announce]
        split
        · refine ⟨_, _, by rw [hc, List.map_append, List.map_cons, if_neg]; rintro (h | h); exacts [hh.1 h, hh.2 h.1],
            by simp [runs]⟩
        · exact ⟨pre, post, hc, Nat.le_add_right _ _⟩
      · exact ⟨pre, post, hc, Nat.le_add_right _ _⟩
    · exact ⟨pre, post, hc, Nat.le_add_right _ _⟩
  | setOn a b =>
    refine ⟨pre, post, ?_, Nat.le_add_right _ _⟩
    simp only [Spec.step]
    split <;> exact hc
  | reset => exact absurd hh (by simp [Harmless])
  | disable => exact absurd hh (by simp [Harmless])
  | enable => exact ⟨pre, post, hc, Nat.le_add_right _ _⟩
  | alloc a k x sh =>
    refine ⟨pre, post, ?_, Nat.le_add_right _ _⟩
    simp only [Spec.step]
    split <;> exact hc
  | free a =>
    refine ⟨pre, post, ?_, Nat.le_add_right _ _⟩
    simp only [Spec.step]
    split <;> exact hc

theorem runs_cons {A : Type} (o : Option (A × Bool)) (tr : List (Option (A × Bool))) :
    runs (o :: tr) = runs [o] + runs tr := by
  simp [runs, List.countP_cons]; omega

theorem spec_keeps_run (cfg : Cfg V N E R) (hl : cfg.limit ≠ 0) (l : List Nat) (v : R) :
    ∀ (evs : List (Ev V N)) (s : St V R) (t : Spec.St V R) (pre post : List (Entry R)), Rel cfg s t →
    t.cache = pre ++ ⟨l, v, false⟩ :: post → (∀ ev ∈ evs, NoShare ev) → (∀ ev ∈ evs, Harmless l ev) →
    NoFailure (Spec.trace cfg t evs) →
    (post.length : Int) + runs (Spec.trace cfg t evs) < cfg.limit →
    ∃ pre' post', (Spec.run cfg t evs).cache = pre' ++ ⟨l, v, false⟩ :: post' := by
  intro evs
  induction evs with
  | nil => intro s t pre post _ hc _ _ _ _; exact ⟨pre, post, hc⟩
  | cons ev evs ih =>
    intro s t pre post h hc hns hh hok hroom
    simp only [Spec.trace] at hok hroom
    rw [runs_cons] at hroom
    push_cast at hroom
    obtain ⟨pre', post', h1, h2⟩ := spec_keeps cfg t l v pre post hc h.inv.nodup ev (hh ev (by simp))
      (fun r b hr => hok r b (by rw [hr]; simp)) (by omega)
    exact ih _ _ pre' post' (step_refines h hl ev (hns ev (by simp))).1 h1
      (fun e he => hns e (List.mem_cons_of_mem _ he)) (fun e he => hh e (List.mem_cons_of_mem _ he))
      (fun r b hr => hok r b (List.mem_cons_of_mem _ hr)) (by simp only; omega)

theorem runs_map (tr : List (Option (Except E R × Bool))) :
    runs (tr.map (Option.map (fun r => (lift r.1, r.2)))) = runs tr := by
  simp only [runs, List.countP_map]
  congr 1
  funext o
  cases o <;> rfl

/-- C11: a call that stored its result as a new entry is answered from the cache, without running the
operation, after any history in which nothing was reset or switched off, no call failed, none of its
inputs announced a change, and fewer than `limit` calls ran the operation. -/
theorem no_recompute (cfg : Cfg V N E R) (evs1 evs2 : List (Ev V N))
    (hns1 : ∀ ev ∈ evs1, NoShare ev) (hns2 : ∀ ev ∈ evs2, NoShare ev) (args : List Nat)
    (kw : List (N × Nat)) (v : R)
    (hcall : outcome cfg (run cfg init evs1) (.call args kw) = some (.ok v, true))
    (huse : UsesCache cfg (run cfg init evs1) args kw)
    (hnew : dget (run cfg init evs1).inputs (prepareId (combine cfg.ignore args kw)) = none)
    (hharm : ∀ ev ∈ evs2, Harmless (combine cfg.ignore args kw) ev)
    (hok : NoFailure (trace cfg (step cfg (run cfg init evs1) (.call args kw)) evs2))
    (hfew : (runs (trace cfg (step cfg (run cfg init evs1) (.call args kw)) evs2) : Int) < cfg.limit)
    (huse' : UsesCache cfg (run cfg (step cfg (run cfg init evs1) (.call args kw)) evs2) args kw)
    (hlive : (call cfg (run cfg (step cfg (run cfg init evs1) (.call args kw)) evs2) args kw).isSome) :
    outcome cfg (run cfg (step cfg (run cfg init evs1) (.call args kw)) evs2) (.call args kw) =
      some (.ok v, false) := by
  have hl : cfg.limit ≠ 0 := by omega
  have h1 := (run_refines hl evs1 hns1 (Rel.init cfg)).1
  have h2 := (step_refines h1 hl (.call args kw) trivial).1
  obtain ⟨h3, htr⟩ := run_refines hl evs2 hns2 h2
  generalize hs1 : run cfg init evs1 = s1 at *
  generalize ht1 : Spec.run cfg Spec.init evs1 = t1 at *
  -- the cache of the specification after the call ends with the new entry
  have hstored : ∃ pre, (Spec.step cfg t1 (.call args kw)).1.cache =
      pre ++ [⟨combine cfg.ignore args kw, v, false⟩] := by
    cases hva : valsOf s1.w args with
    | none => simp [outcome, call, hva] at hcall
    | some va =>
      cases hvk : kwValsOf s1.w kw with
      | none => simp [outcome, call, hva, hvk] at hcall
      | some vk =>
        have hcond : ¬ (t1.enabled = false ∨
            (∃ n ∈ cfg.force, ∃ p ∈ kw, p.1 = n ∧ Spec.kindAt t1.heap p.2 ≠ .none) ∨
            (∃ a ∈ combine cfg.ignore args kw, Spec.kindAt t1.heap a = .other)) := by
          rintro (h | ⟨n, hn, p, hp, rfl, hk⟩ | ⟨a, ha, hk⟩)
          · rw [h1.enabled, huse.1] at h; cases h
          · rw [h1.kindAt] at hk; exact hk (huse.2.1 p hp hn)
          · rw [h1.kindAt] at hk; exact huse.2.2 a ha hk
        simp only [Spec.step]
        rw [h1.vals, h1.kwVals, hva, hvk]
        simp only
        rw [if_neg hcond]
        simp only
        have hnone : t1.cache.find? (fun e => decide (e.args = combine cfg.ignore args kw)) = none := by
          rw [← lk_prepareId]
          rw [h1.inv.inputs] at hnew
          exact Option.map_eq_none_iff.mp hnew
        simp only [outcome, call_usesCache hva hvk huse, Option.map_some, Option.some.injEq] at hcall
        obtain ⟨g1, _⟩ := cachedCall_refines h1.inv hl _ (cfg.op va vk) (live_of_usesCache hva hvk huse)
        rw [hcall] at g1
        unfold Spec.cached at g1 ⊢
        simp only [hnone] at g1 ⊢
        cases hop : cfg.op va vk with
        | error er =>
          exfalso
          rw [hop] at g1
          simp [lift] at g1
        | ok x =>
          rw [hop] at g1
          simp only [lift, Prod.mk.injEq, Except.ok.injEq, and_true] at g1
          subst g1
          exact ⟨_, rfl⟩
  obtain ⟨pre, hpre⟩ := hstored
  have hok' : NoFailure (Spec.trace cfg (Spec.step cfg t1 (.call args kw)).1 evs2) := by
    intro r b hr
    have : some (lift r, b) ∈ trace cfg (step cfg s1 (.call args kw)) evs2 := by
      rw [htr]; exact List.mem_map.mpr ⟨_, hr, rfl⟩
    obtain ⟨x, hx⟩ := hok _ _ this
    cases r with
    | ok y => exact ⟨y, rfl⟩
    | error er => simp [lift] at hx
  rw [htr, runs_map] at hfew
  obtain ⟨pre', post', hfin⟩ := spec_keeps_run cfg hl (combine cfg.ignore args kw) v evs2 _ _ pre [] h2
    hpre hns2 hharm hok' (by simpa using hfew)
  generalize hs3 : run cfg (step cfg s1 (.call args kw)) evs2 = s3 at *
  generalize ht3 : Spec.run cfg (Spec.step cfg t1 (.call args kw)).1 evs2 = t3 at *
  cases hva : valsOf s3.w args with
  | none => simp [call, hva] at hlive
  | some va =>
    cases hvk : kwValsOf s3.w kw with
    | none => simp [call, hva, hvk] at hlive
    | some vk =>
      simp only [outcome, call_usesCache hva hvk huse', Option.map_some]
      obtain ⟨g1, _⟩ := cachedCall_refines h3.inv hl _ (cfg.op va vk) (live_of_usesCache hva hvk huse')
      rw [g1]
      have hm : (⟨combine cfg.ignore args kw, v, false⟩ : Entry R) ∈ t3.cache := by
        rw [hfin]; simp
      have := lk_of_mem h3.inv.nodup hm
      rw [lk_prepareId] at this
      simp only [Spec.cached, this]
      rfl

/-- After storing `[16]` in a cache of two, one other stored result and a write to another object leave
it answered from the cache; eviction is by age of storing, so asking for it does not prolong its life. -/
example :
    let us : List (UEv Nat Nat) := [.alloc 16 .observable 1, .alloc 32 .observable 5, .alloc 48 .observable 6,
      .call [16] [], .call [32] [], .write 32 8, .call [16] []]
    ask (sumCfg 2) (us.flatMap UEv.events) [16] [] = some (some 1, false) ∧
    ask (sumCfg 2) ((us ++ [UEv.call [48] []]).flatMap UEv.events) [16] [] = some (some 1, true) := by decide

/-! ## C12 -/

/-- C12 (partial). At every point of every history without shared observer lists the cacher is registered once on an observable object that a
stored entry has as input, and not at all on any other object. -/
theorem registered_exactly_partial (cfg : Cfg V N E R) (hl : cfg.limit ≠ 0) (evs : List (Ev V N))
    (hns : ∀ ev ∈ evs, NoShare ev) (a : Nat) (o : Obj V) :
    let s := run cfg init evs
    s.w.cell a = some o →
    (o.kind = .observable → (∃ k l, dget s.inputs k = some l ∧ a ∈ l) → s.w.reg o.list = 1) ∧
    (¬ (o.kind = .observable ∧ ∃ k l, dget s.inputs k = some l ∧ a ∈ l) → s.w.reg o.list = 0) := by
  intro s ho
  have h := (run_refines hl evs hns (Rel.init cfg)).1.inv
  have hin : (∃ k l, dget s.inputs k = some l ∧ a ∈ l) ↔
      ∃ e ∈ (Spec.run cfg Spec.init evs).cache, a ∈ e.args := by
    constructor
    · rintro ⟨k, l, hk, ha⟩
      rw [h.inputs] at hk
      obtain ⟨e, he, rfl⟩ := Option.map_eq_some_iff.mp hk
      exact ⟨e, lk_mem he, ha⟩
    · rintro ⟨e, he, ha⟩
      exact ⟨prepareId e.args, e.args, by rw [h.inputs, lk_of_mem h.nodup he]; rfl, ha⟩
  have hiff := h.ids_isSome a
  rw [kindAt_of ho] at hiff
  constructor
  · intro hk hs
    exact h.ids.reg_one a o (hiff.mpr ⟨hk, hin.mp hs⟩) ho
  · intro hn
    by_contra h0
    obtain ⟨b, p, hb, hp, hs⟩ := h.ids.reg_zero _ h0
    have := h.w.inj b a p o hb ho hp
    subst this
    obtain ⟨hk, he⟩ := hiff.mp hs
    exact hn ⟨hk, hin.mpr he⟩

/-- A repeated argument is registered once; eviction unregisters it. -/
example :
    let us : List (UEv Nat Nat) := [.alloc 16 .observable 1, .alloc 32 .observable 5, .call [16, 16] []]
    let s := run (sumCfg 1) init (us.flatMap UEv.events)
    let s' := run (sumCfg 1) init ((us ++ [UEv.call [32] []]).flatMap UEv.events)
    (s.w.cell 16).map (fun o => s.w.reg o.list) = some 1 ∧
    (s'.w.cell 16).map (fun o => s'.w.reg o.list) = some 0 ∧
    (s'.w.cell 32).map (fun o => s'.w.reg o.list) = some 1 := by decide

/-! ## C13 -/

/-- C13: two sequences of objects have the same cache id exactly when they are the same sequence. -/
theorem cache_id_unambiguous (l m : List Nat) : prepareId l = prepareId m ↔ l = m :=
  ⟨prepareId_injective l m, fun h => h ▸ rfl⟩

/-- C13: the order in which keyword arguments are written does not matter. -/
theorem keyword_order_irrelevant (ignore : List Nat) (args : List Nat) (kw kw' : List (N × Nat))
    (hn : (kw.map Prod.fst).Nodup) (hp : kw.Perm kw') :
    combine ignore args kw = combine ignore args kw' := by
  have hs : kw.insertionSort (fun x y => x.1 ≤ y.1) = kw'.insertionSort (fun x y => x.1 ≤ y.1) := by
    have hperm : (kw.insertionSort (fun x y => x.1 ≤ y.1)).Perm
        (kw'.insertionSort (fun x y => x.1 ≤ y.1)) :=
      (List.perm_insertionSort _ kw).trans (hp.trans (List.perm_insertionSort _ kw').symm)
    have : IsTrans (N × Nat) (fun x y => x.1 ≤ y.1) := ⟨fun a b c h1 h2 => le_trans h1 h2⟩
    have : Std.Total (fun x y : N × Nat => x.1 ≤ y.1) := ⟨fun a b => le_total a.1 b.1⟩
    refine List.Perm.eq_of_pairwise ?_ (List.pairwise_insertionSort _ kw)
      (List.pairwise_insertionSort _ kw') hperm
    intro a b ha hb h1 h2
    have h3 : a.1 = b.1 := le_antisymm h1 h2
    rw [List.mem_insertionSort] at ha hb
    exact List.inj_on_of_nodup_map hn ha (hp.mem_iff.mpr hb) h3
  simp only [combine, hs]

example : prepareId [1, 16] = "0x10x10".toList ∧ prepareId [0x10, 0x10] = "0x100x10".toList := by decide

example : combine (N := Nat) [0] [7, 8] [(2, 20), (1, 10)] = [8, 10, 20] := by decide

/-! ## C14 -/

/-- C14: when the operation raises in a call that goes through the cache, the caller gets that exception
and the cache is empty and registered nowhere; in a call that does not go through the cache the
caller gets the exception and the cache is as before. -/
theorem failing_operation_clean (cfg : Cfg V N E R) (hl : cfg.limit ≠ 0) (evs : List (Ev V N))
    (hns : ∀ ev ∈ evs, NoShare ev) (args : List Nat) (kw : List (N × Nat)) (va : List V)
    (vk : List (N × V)) (hva : valsOf (run cfg init evs).w args = some va)
    (hvk : kwValsOf (run cfg init evs).w kw = some vk) (e : E) (hop : cfg.op va vk = .error e)
    (hran : ∃ r, outcome cfg (run cfg init evs) (.call args kw) = some (r, true)) :
    ∃ o, call cfg (run cfg init evs) args kw = some o ∧ o.res = .error (.op e) ∧
      (UsesCache cfg (run cfg init evs) args kw →
        o.st.order = [] ∧ o.st.inputs = [] ∧ o.st.outputs = [] ∧ o.st.changed = [] ∧ o.st.ids = [] ∧
        ∀ n, o.st.w.reg n = 0) ∧
      (¬ UsesCache cfg (run cfg init evs) args kw → o.st = run cfg init evs) := by
  obtain ⟨hrel, _⟩ := run_refines hl evs hns (Rel.init cfg)
  by_cases hu : UsesCache cfg (run cfg init evs) args kw
  · obtain ⟨r, hr⟩ := hran
    simp only [outcome, call_usesCache hva hvk hu, Option.map_some, Option.some.injEq, hop] at hr
    rw [call_usesCache hva hvk hu, hop]
    have hreg : ∀ n, (reset (run cfg init evs)).w.reg n = 0 := by
      intro n
      by_contra h0
      obtain ⟨a, o, _, _, hs⟩ := hrel.inv.reset.1.ids.reg_zero n h0
      simp [reset] at hs
    refine ⟨_, rfl, ?_⟩
    simp only [cachedCall] at hr ⊢
    split at hr
    · split at hr <;> cases hr
    · exact ⟨rfl, fun _ => ⟨rfl, rfl, rfl, rfl, rfl, hreg⟩, fun h => absurd hu h⟩
    · exact ⟨rfl, fun _ => ⟨rfl, rfl, rfl, rfl, rfl, hreg⟩, fun h => absurd hu h⟩
  · rw [call_bypass hva hvk hu, hop]
    exact ⟨_, rfl, rfl, fun h => absurd h hu, fun _ => rfl⟩

/-- C14: with an empty cache the next call runs the operation. -/
theorem empty_cache_recomputes (cfg : Cfg V N E R) (s : St V R) (hc : s.changed = []) (args : List Nat)
    (kw : List (N × Nat)) (va : List V) (vk : List (N × V)) (hva : valsOf s.w args = some va)
    (hvk : kwValsOf s.w kw = some vk) :
    ∃ r, outcome cfg s (.call args kw) = some (r, true) := by
  by_cases hu : UsesCache cfg s args kw
  · simp only [outcome, call_usesCache hva hvk hu, Option.map_some, cachedCall, hc, dget_nil]
    cases cfg.op va vk with
    | error e => exact ⟨_, rfl⟩
    | ok v =>
      simp only
      cases ensureLength cfg s <;> exact ⟨_, rfl⟩
  · simp only [outcome, call_bypass hva hvk hu, Option.map_some]
    cases cfg.op va vk <;> exact ⟨_, rfl⟩

/-- An operation failing on contents 0, after a successful call. -/
example :
    let cfg : Cfg Nat Nat Nat Nat := ⟨3, [], [], fun va _ => if va.sum = 0 then .error 42 else .ok va.sum⟩
    let us : List (UEv Nat Nat) := [.alloc 16 .observable 1, .alloc 32 .observable 0, .call [16] []]
    let s := run cfg init (us.flatMap UEv.events)
    ((call cfg s [32] []).map (fun o => (o.st.order.length, o.ran))) = some (0, true) ∧
      s.order.length = 1 := by decide

end Paramz.Cache

import Verif.Cache.Recursive

/-!
# Cached functions that call themselves (C84)
-/

namespace Paramz.Cache

variable {V N E R : Type} [LinearOrder N]

open Spec (Entry)

/-! ### Depth -/

theorem Prog.eval_mono {g g' : List Nat → List (N × Nat) → Option (Except (CErr E) R)}
    (h : ∀ a kw r, g a kw = some r → g' a kw = some r) :
    ∀ {p : Prog N E R} {r : Except (CErr E) R}, p.eval g = some r → p.eval g' = some r := by
  intro p
  induction p with
  | done r => exact fun h => h
  | call a kw k ih =>
    intro r hr
    unfold Prog.eval at hr ⊢
    cases hg : g a kw with
    | none => rw [hg] at hr; cases hr
    | some x =>
      rw [hg] at hr
      rw [h a kw x hg]
      exact ih x hr

theorem uncached_succ {body : Body V N E R} : ∀ {n : Nat} {cell : Nat → Option (Obj V)} {args : List Nat}
    {kw : List (N × Nat)} {r : Except (CErr E) R}, uncached body n cell args kw = some r →
    uncached body (n + 1) cell args kw = some r := by
  intro n
  induction n with
  | zero => intro cell args kw r h; cases h
  | succ n ih =>
    intro cell args kw r h
    rw [uncached] at h ⊢
    cases hva : args.mapM (fun a => (cell a).map Obj.val) with
    | none => rw [hva] at h; cases h
    | some va =>
      rw [hva] at h
      cases hvk : kw.mapM (fun p => (cell p.2).map (fun o => (p.1, o.val))) with
      | none => rw [hvk] at h; cases h
      | some vk =>
        rw [hvk] at h
        exact Prog.eval_mono (fun a kw r hr => ih hr) h

theorem uncached_le {body : Body V N E R} {n m : Nat} (hle : n ≤ m) {cell : Nat → Option (Obj V)} {args : List Nat}
    {kw : List (N × Nat)} {r : Except (CErr E) R} (h : uncached body n cell args kw = some r) :
    uncached body m cell args kw = some r := by
  induction hle with
  | refl => exact h
  | step _ ih => exact uncached_succ ih

theorem uncached_unique {body : Body V N E R} {n m : Nat} {cell : Nat → Option (Obj V)} {args : List Nat}
    {kw : List (N × Nat)} {r r' : Except (CErr E) R} (h : uncached body n cell args kw = some r)
    (h' : uncached body m cell args kw = some r') : r = r' := by
  have h1 := uncached_le (Nat.le_max_left n m) h
  have h2 := uncached_le (Nat.le_max_right n m) h'
  rw [h1] at h2
  exact Option.some.inj h2

/-! ### Calls one after the other -/

/-- A call does not change objects. -/
theorem call_world {cfg : Cfg V N E R} (hl : cfg.limit ≠ 0) {s : St V R} {t : Spec.St V R} (h : Rel cfg s t)
    (args : List Nat) (kw : List (N × Nat)) :
    (step cfg s (.call args kw)).w.cell = s.w.cell ∧ (step cfg s (.call args kw)).w.dirty = s.w.dirty ∧
      (step cfg s (.call args kw)).enabled = s.enabled := by
  unfold step
  simp only
  cases hva : valsOf s.w args with
  | none => simp [call, hva]
  | some va =>
    cases hvk : kwValsOf s.w kw with
    | none => simp [call, hva, hvk]
    | some vk =>
      by_cases hu : UsesCache cfg s args kw
      · rw [call_usesCache hva hvk hu]
        exact (cachedCall_refines h.inv hl _ _ (live_of_usesCache hva hvk hu)).2.2
      · rw [call_bypass hva hvk hu]
        cases cfg.op va vk <;> exact ⟨rfl, rfl, rfl⟩

/-- What is kept up while calls are made: `P` holds for the entries, `Q` for the inputs of calls, and entries that
have to be renewed are not lost when calls return with an outcome in `ok`. -/
structure Mode (cfg : Cfg V N E R) (P : List (Entry R) → Prop) (Q : List Nat → Prop) (ok : Except E R → Prop) :
    Prop where
  step : ∀ c l (now : Except E R), (c.map Entry.args).Nodup → P c → Q l → P (Spec.cached cfg.limit c l now).2
  keep : ∀ c l now, (c.map Entry.args).Nodup → P c → Q l → ok now → ∀ e ∈ c, e.stale = true → e.args ≠ l →
    e ∈ (Spec.cached cfg.limit c l now).2

/-- A call in a list of calls. -/
def Nice (cfg : Cfg V N E R) (S : Nat × List N → Prop) (Q : List Nat → Prop) (ok : Except E R → Prop) (w : World V)
    (ks : List (List Nat)) (ev : Ev V N) : Prop :=
  ∃ a kw, ev = .call a kw ∧ S (shape a kw) ∧ Q (combine cfg.ignore a kw) ∧ combine cfg.ignore a kw ∈ ks ∧
    ∀ va vk, valsOf w a = some va → kwValsOf w kw = some vk → ok (cfg.op va vk)

theorem Nice.mono {cfg : Cfg V N E R} {S : Nat × List N → Prop} {Q : List Nat → Prop} {ok : Except E R → Prop}
    {w : World V} {ks ks' : List (List Nat)} {ev : Ev V N} (h : Nice cfg S Q ok w ks ev)
    (hk : ∀ l ∈ ks, l ∈ ks') : Nice cfg S Q ok w ks' ev := by
  obtain ⟨a, kw, h1, h2, h3, h4, h5⟩ := h
  exact ⟨a, kw, h1, h2, h3, hk _ h4, h5⟩

theorem valsOf_congr {w w' : World V} (h : w'.cell = w.cell) (l : List Nat) : valsOf w' l = valsOf w l := by
  unfold valsOf; rw [h]

theorem kwValsOf_congr {w w' : World V} (h : w'.cell = w.cell) (l : List (N × Nat)) :
    kwValsOf w' l = kwValsOf w l := by
  unfold kwValsOf; rw [h]

/-- The state of things between calls. -/
structure Sound (cfg : Cfg V N E R) (S : Nat × List N → Prop) (P : List (Entry R) → Prop) (s : St V R)
    (t : Spec.St V R) : Prop where
  rel : Rel cfg s t
  coh : Coh cfg S s.w t.cache
  clean : s.w.dirty = []
  prop : P t.cache

/-- The entries after a call. -/
theorem spec_call_cache {cfg : Cfg V N E R} {t : Spec.St V R} (args : List Nat) (kw : List (N × Nat)) :
    (Spec.step cfg t (.call args kw)).1.cache = t.cache ∨
    ∃ va vk, Spec.vals t.heap args = some va ∧ Spec.kwVals t.heap kw = some vk ∧
      (Spec.step cfg t (.call args kw)).1.cache =
        (Spec.cached cfg.limit t.cache (combine cfg.ignore args kw) (cfg.op va vk)).2 := by
  unfold Spec.step
  simp only
  cases hva : Spec.vals t.heap args with
  | none => exact .inl rfl
  | some va =>
    cases hvk : Spec.kwVals t.heap kw with
    | none => exact .inl rfl
    | some vk =>
      simp only
      split
      · exact .inl rfl
      · exact .inr ⟨va, vk, rfl, rfl, rfl⟩

theorem spec_call_heap {cfg : Cfg V N E R} {t : Spec.St V R} (args : List Nat) (kw : List (N × Nat)) :
    (Spec.step cfg t (.call args kw)).1.heap = t.heap := by
  unfold Spec.step
  simp only
  split
  · split <;> rfl
  · rfl

/-- Where the entries after a call come from. -/
theorem cached_mem {limit : Int} {c : List (Entry R)} {l : List Nat} {now : Except E R} {e : Entry R}
    (h : e ∈ (Spec.cached limit c l now).2) : e ∈ c ∨ e.args = l := by
  unfold Spec.cached at h
  split at h
  · split at h
    · split at h
      · simp only [List.mem_map] at h
        obtain ⟨x, hx, rfl⟩ := h
        split
        · exact .inr rfl
        · exact .inl hx
      · simp at h
    · exact .inl h
  · split at h
    · unfold Spec.store at h
      rw [List.mem_append, List.mem_singleton] at h
      rcases h with h | rfl
      · split at h
        · exact .inl (List.mem_of_mem_tail h)
        · exact .inl h
      · exact .inr rfl
    · simp at h

theorem Sound.step {cfg : Cfg V N E R} (hl : cfg.limit ≠ 0) {S : Nat × List N → Prop} {P : List (Entry R) → Prop}
    {Q : List Nat → Prop} {ok : Except E R → Prop} (m : Mode cfg P Q ok) {s : St V R} {t : Spec.St V R}
    (h : Sound cfg S P s t) {a : List Nat} {kw : List (N × Nat)} (hS : S (shape a kw))
    (hQ : Q (combine cfg.ignore a kw)) :
    Sound cfg S P (step cfg s (.call a kw)) (Spec.step cfg t (.call a kw)).1 ∧
      (step cfg s (.call a kw)).w.cell = s.w.cell ∧ (step cfg s (.call a kw)).enabled = s.enabled := by
  obtain ⟨h1, h2, h3⟩ := call_world hl h.rel a kw
  refine ⟨⟨(step_refines h.rel hl (.call a kw) trivial).1, step_coh h.rel h.coh hl (.call a kw) trivial hS,
    by rw [h2]; exact h.clean, ?_⟩, h1, h3⟩
  rcases spec_call_cache (cfg := cfg) (t := t) a kw with e | ⟨va, vk, -, -, e⟩
  · rw [e]; exact h.prop
  · rw [e]; exact m.step _ _ _ h.rel.inv.nodup h.prop hQ

/-- After a list of calls. -/
theorem Sound.run {cfg : Cfg V N E R} (hl : cfg.limit ≠ 0) {S : Nat × List N → Prop} {P : List (Entry R) → Prop}
    {Q : List Nat → Prop} {ok : Except E R → Prop} (m : Mode cfg P Q ok) {ks : List (List Nat)} :
    ∀ {evs : List (Ev V N)} {s : St V R} {t : Spec.St V R}, Sound cfg S P s t →
    (∀ ev ∈ evs, Nice cfg S Q ok s.w ks ev) →
    Sound cfg S P (run cfg s evs) (Spec.run cfg t evs) ∧ (run cfg s evs).w.cell = s.w.cell ∧
      (run cfg s evs).enabled = s.enabled ∧
      (∀ e ∈ (Spec.run cfg t evs).cache, e ∈ t.cache ∨ e.args ∈ ks) ∧
      (∀ e ∈ t.cache, e.stale = true → e.args ∉ ks → e ∈ (Spec.run cfg t evs).cache)
  | [], s, t, h, _ => ⟨h, rfl, rfl, fun e he => .inl he, fun e he _ _ => he⟩
  | ev :: evs, s, t, h, hev => by
    obtain ⟨a, kw, rfl, hS, hQ, hk, hok⟩ := hev ev List.mem_cons_self
    obtain ⟨h1, h2, h3⟩ := h.step hl m hS hQ
    obtain ⟨g1, g2, g3, g4, g5⟩ := Sound.run hl m (ks := ks) (evs := evs) h1 (fun ev' hev' => by
      obtain ⟨a', kw', e1, e2, e3, e4, e5⟩ := hev ev' (List.mem_cons_of_mem _ hev')
      exact ⟨a', kw', e1, e2, e3, e4, fun va vk hva hvk => e5 va vk
        (by rw [← valsOf_congr h2]; exact hva) (by rw [← kwValsOf_congr h2]; exact hvk)⟩)
    refine ⟨g1, g2.trans h2, g3.trans h3, fun e he => ?_, fun e he hst hn => ?_⟩
    · rcases g4 e he with h' | h'
      · rcases spec_call_cache (cfg := cfg) (t := t) a kw with e' | ⟨va, vk, -, -, e'⟩
        · rw [e'] at h'; exact .inl h'
        · rw [e'] at h'
          rcases cached_mem h' with h'' | h''
          · exact .inl h''
          · rw [h'']; exact .inr hk
      · exact .inr h'
    · refine g5 e ?_ hst hn
      rcases spec_call_cache (cfg := cfg) (t := t) a kw with e' | ⟨va, vk, hva, hvk, e'⟩
      · rw [e']; exact he
      · rw [e']
        rw [h.rel.vals] at hva
        rw [h.rel.kwVals] at hvk
        exact m.keep _ _ _ h.rel.inv.nodup h.prop hQ (hok va vk hva hvk) e he hst
          (fun h' => hn (by rw [h']; exact hk))

/-! ### A recursive call is its calls one after the other -/

/-- What is assumed of a function. -/
structure Sane (cfg : Cfg V N E R) (body : Body V N E R) (S : Nat × List N → Prop) (Q : List Nat → Prop)
    (ok : Except E R → Prop) : Prop where
  means : Means cfg body S
  self : NoSelf cfg body S
  spelled : SpelledBody body S
  closed : ClosedBody cfg body Q
  okay : ∀ n (w : World V) args (kw : List (N × Nat)), S (shape args kw) → ∀ c ∈ callsOf body n w.cell args kw, ∀ va vk,
    valsOf w c.1 = some va → kwValsOf w c.2 = some vk → ok (cfg.op va vk)

theorem Sane.value {cfg : Cfg V N E R} {body : Body V N E R} {S : Nat × List N → Prop} {Q : List Nat → Prop}
    {ok : Except E R → Prop} (sane : Sane cfg body S Q ok) {n : Nat} {w : World V} {args : List Nat}
    {kw : List (N × Nat)} {r : Except (CErr E) R} (h : uncached body n w.cell args kw = some r) {va : List V}
    {vk : List (N × V)} (hS : S (shape args kw)) (hva : valsOf w args = some va) (hvk : kwValsOf w kw = some vk) :
    r = lift (cfg.op va vk) := by
  obtain ⟨m, hm⟩ := sane.means w args kw va vk hS hva hvk
  exact uncached_unique h hm

theorem run_append (cfg : Cfg V N E R) (s : St V R) (a b : List (Ev V N)) :
    Cache.run cfg s (a ++ b) = Cache.run cfg (Cache.run cfg s a) b := List.foldl_append ..

theorem spec_run_append (cfg : Cfg V N E R) (t : Spec.St V R) (a b : List (Ev V N)) :
    Spec.run cfg t (a ++ b) = Spec.run cfg (Spec.run cfg t a) b := List.foldl_append ..

/-- The outcome for a fresh entry is what the operation would give. -/
theorem fresh_value {cfg : Cfg V N E R} {S : Nat × List N → Prop} (hop : DependsOnInputs cfg)
    (hone : OneSpelling cfg.ignore S) {P : List (Entry R) → Prop} {s : St V R} {t : Spec.St V R}
    (h : Sound cfg S P s t) {args : List Nat} {kw : List (N × Nat)} (hspell : S (shape args kw)) {va : List V}
    {vk : List (N × V)} (hva : valsOf s.w args = some va) (hvk : kwValsOf s.w kw = some vk) {e : Entry R}
    (he : e ∈ t.cache) (hargs : e.args = combine cfg.ignore args kw) (hs : e.stale = false) :
    cfg.op va vk = .ok e.out := by
  obtain ⟨va', vk', h1, h2, h3⟩ := h.coh e he hs (by rw [h.clean]; intro a _ h; cases h)
  obtain ⟨v1, v2⟩ := combine_vals hva hvk cfg.ignore
  have heq : combine cfg.ignore va' vk' = combine cfg.ignore va vk := by
    rw [hargs, ← v1] at h2
    exact List.map_injective_iff.mpr (Option.some_injective _) h2
  have hsh : shape va' vk' = shape va vk := by
    refine hone _ _ h1 (by rw [v2]; exact hspell) ?_
    rw [← combine_length, ← combine_length, heq]
  rw [← hop va' vk' va vk hsh heq, h3]

/-- The statement for calls at depth `n`. -/
def AtDepth (cfg : Cfg V N E R) (body : Body V N E R) (S : Nat × List N → Prop) (P : List (Entry R) → Prop)
    (Q : List Nat → Prop) (ok : Except E R → Prop) (n : Nat) : Prop :=
  ∀ (s : St V R) (t : Spec.St V R) (args : List Nat) (kw : List (N × Nat)) (r : Except (CErr E) R),
    Sound cfg S P s t → S (shape args kw) → Q (combine cfg.ignore args kw) →
    uncached body n s.w.cell args kw = some r →
    ∃ o evs last, rcall cfg body n s args kw = some o ∧ o.res = r ∧ o.st = Cache.run cfg s (evs ++ last) ∧
      (∀ ev ∈ evs, Nice cfg S Q ok s.w (keysOf cfg body n s.w.cell args kw) ev) ∧
      (last = [] ∨ last = [.call args kw])

theorem body_flat {cfg : Cfg V N E R} (hl : cfg.limit ≠ 0) {body : Body V N E R} {S : Nat × List N → Prop}
    {P : List (Entry R) → Prop} {Q : List Nat → Prop} {ok : Except E R → Prop} (md : Mode cfg P Q ok) {n : Nat}
    (ih : AtDepth cfg body S P Q ok n) :
    ∀ (p : Prog N E R) (s : St V R) (t : Spec.St V R) (r : Except (CErr E) R), Sound cfg S P s t →
    p.eval (uncached body n s.w.cell) = some r →
    (∀ c ∈ p.calls (uncached body n s.w.cell), S (shape c.1 c.2) ∧ Q (combine cfg.ignore c.1 c.2) ∧
      ∀ va vk, valsOf s.w c.1 = some va → kwValsOf s.w c.2 = some vk → ok (cfg.op va vk)) →
    ∃ s' evs, p.run (rcall cfg body n) s = some (r, s') ∧ s' = Cache.run cfg s evs ∧
      ∀ ev ∈ evs, Nice cfg S Q ok s.w ((p.calls (uncached body n s.w.cell)).flatMap
        (fun c => keysOf cfg body n s.w.cell c.1 c.2)) ev := by
  intro p
  induction p with
  | done r0 =>
    intro s t r _ hr _
    cases hr
    exact ⟨s, [], rfl, rfl, fun ev hev => absurd hev List.not_mem_nil⟩
  | call a kw k ihp =>
    intro s t r h hr hc
    unfold Prog.eval at hr
    cases hg : uncached body n s.w.cell a kw with
    | none => rw [hg] at hr; cases hr
    | some x =>
      rw [hg] at hr
      have hr : (k x).eval (uncached body n s.w.cell) = some r := hr
      have hcalls : Prog.calls (uncached body n s.w.cell) (.call a kw k) =
          (a, kw) :: (k x).calls (uncached body n s.w.cell) := by
        rw [Prog.calls, hg]
      rw [hcalls] at hc ⊢
      obtain ⟨hS, hQ, hok⟩ := hc (a, kw) List.mem_cons_self
      obtain ⟨o, evs, last, h1, h2, h3, h4, h5⟩ := ih s t a kw x h hS hQ hg
      have hnice : ∀ ev ∈ evs ++ last, Nice cfg S Q ok s.w (keysOf cfg body n s.w.cell a kw) ev := by
        intro ev hev
        rcases List.mem_append.mp hev with hev | hev
        · exact h4 ev hev
        · rcases h5 with rfl | rfl
          · cases hev
          · rw [List.mem_singleton] at hev
            refine ⟨a, kw, hev, hS, hQ, ?_, hok⟩
            cases n <;> exact List.mem_cons_self
      obtain ⟨g1, g2, -, -, -⟩ := h.run hl md hnice
      rw [← h3] at g1 g2
      have hst : ∃ s', o.st = s' := ⟨_, rfl⟩
      obtain ⟨s1, hs1⟩ := hst
      rw [hs1] at g1 g2 h3
      obtain ⟨s', evs', k1, k2, k3⟩ := ihp x s1 _ r g1 (by rw [g2]; exact hr) (fun c hcm => by
        rw [g2] at hcm
        obtain ⟨q1, q2, q3⟩ := hc c (List.mem_cons_of_mem _ hcm)
        exact ⟨q1, q2, fun va vk hva hvk => q3 va vk (by rw [← valsOf_congr g2]; exact hva)
          (by rw [← kwValsOf_congr g2]; exact hvk)⟩)
      refine ⟨s', (evs ++ last) ++ evs', ?_, ?_, fun ev hev => ?_⟩
      · unfold Prog.run
        rw [h1]
        simp only
        rw [h2, hs1]
        exact k1
      · rw [run_append, ← h3]; exact k2
      · rw [List.flatMap_cons]
        rcases List.mem_append.mp hev with hev | hev
        · exact (hnice ev hev).mono (fun l hl => List.mem_append_left _ hl)
        · obtain ⟨a', kw', e1, e2, e3, e4, e5⟩ := k3 ev hev
          rw [g2] at e4
          exact ⟨a', kw', e1, e2, e3, List.mem_append_right _ e4, fun va vk hva hvk => e5 va vk
            (by rw [valsOf_congr g2]; exact hva) (by rw [kwValsOf_congr g2]; exact hvk)⟩

theorem changed_find {cfg : Cfg V N E R} {s : St V R} {c : List (Entry R)} (h : Inv cfg s c) (l : List Nat) :
    dget s.changed (prepareId l) = (c.find? (fun e => decide (e.args = l))).map Entry.stale := by
  rw [h.changed, lk_prepareId]

theorem outputs_find {cfg : Cfg V N E R} {s : St V R} {c : List (Entry R)} (h : Inv cfg s c) (l : List Nat) :
    dget s.outputs (prepareId l) = (c.find? (fun e => decide (e.args = l))).map Entry.out := by
  rw [h.outputs, lk_prepareId]

theorem find_args_none {c : List (Entry R)} {l : List Nat} :
    c.find? (fun e => decide (e.args = l)) = none ↔ ∀ e ∈ c, e.args ≠ l := by
  rw [List.find?_eq_none]
  simp

theorem find_args_some {c : List (Entry R)} (hn : (c.map Entry.args).Nodup) {l : List Nat} {e : Entry R} :
    c.find? (fun e => decide (e.args = l)) = some e ↔ e ∈ c ∧ e.args = l := by
  constructor
  · intro h
    exact ⟨List.mem_of_find?_eq_some h, by simpa using List.find?_some h⟩
  · rintro ⟨he, rfl⟩
    cases hf : c.find? (fun e' => decide (e'.args = e.args)) with
    | none => exact absurd rfl (find_args_none.mp hf e he)
    | some e' =>
      have h1 := List.mem_of_find?_eq_some hf
      have h2 : e'.args = e.args := by simpa using List.find?_some hf
      rw [List.inj_on_of_nodup_map hn h1 he h2]

theorem usesCache_iff (cfg : Cfg V N E R) (s : St V R) (args : List Nat) (kw : List (N × Nat)) :
    (s.enabled = false || forced cfg s.w kw ||
      (combine cfg.ignore args kw).any (fun a => decide (kindAt s.w a = .other))) = true ↔
    ¬ UsesCache cfg s args kw := by
  unfold UsesCache
  rw [Bool.or_eq_true, Bool.or_eq_true, forced_iff, decide_eq_true_eq, List.any_eq_true]
  constructor
  · rintro ((h | ⟨n, hn, p, hp, rfl, hk⟩) | ⟨a, ha, hk⟩) ⟨h1, h2, h3⟩
    · rw [h] at h1; cases h1
    · exact hk (h2 p hp hn)
    · exact h3 a ha (of_decide_eq_true hk)
  · intro h
    by_contra hc
    push Not at hc
    obtain ⟨⟨h1, h2⟩, h3⟩ := hc
    refine h ⟨by simpa using h1, fun p hp hf => ?_, fun a ha => ?_⟩
    · exact h2 p.1 hf p hp rfl
    · intro hk; exact h3 a ha (decide_eq_true hk)

theorem usesCache_congr {cfg : Cfg V N E R} {s s' : St V R} (hw : s'.w.cell = s.w.cell)
    (he : s'.enabled = s.enabled) {args : List Nat} {kw : List (N × Nat)} (h : UsesCache cfg s args kw) :
    UsesCache cfg s' args kw := by
  have hk : ∀ a, kindAt s'.w a = kindAt s.w a := by intro a; unfold kindAt; rw [hw]
  obtain ⟨h1, h2, h3⟩ := h
  exact ⟨by rw [he]; exact h1, fun p hp hf => by rw [hk]; exact h2 p hp hf, fun a ha => by rw [hk]; exact h3 a ha⟩

theorem rcall_flat {cfg : Cfg V N E R} (hl : cfg.limit ≠ 0) {body : Body V N E R} {S : Nat × List N → Prop}
    (hop : DependsOnInputs cfg) (hone : OneSpelling cfg.ignore S)
    {P : List (Entry R) → Prop} {Q : List Nat → Prop} {ok : Except E R → Prop} (md : Mode cfg P Q ok)
    (sane : Sane cfg body S Q ok) : ∀ n, AtDepth cfg body S P Q ok n := by
  intro n
  induction n with
  | zero => intro s t args kw r _ _ _ h; cases h
  | succ n ih =>
    intro s t args kw r h hS hQ hr
    rw [uncached] at hr
    have hrr := hr
    cases hva : valsOf s.w args with
    | none => unfold valsOf at hva; rw [hva] at hr; cases hr
    | some va =>
    cases hvk : kwValsOf s.w kw with
    | none => unfold valsOf at hva; unfold kwValsOf at hvk; rw [hva, hvk] at hr; cases hr
    | some vk =>
    have hv : uncached body (n + 1) s.w.cell args kw = some r := by rw [uncached]; exact hrr
    have hval : r = lift (cfg.op va vk) := sane.value hv hS hva hvk
    unfold valsOf at hva
    unfold kwValsOf at hvk
    rw [hva, hvk] at hr
    simp only at hr
    change valsOf s.w args = some va at hva
    change kwValsOf s.w kw = some vk at hvk
    obtain ⟨s', evs, b1, b2, b3⟩ := body_flat hl md ih (body s.w.cell args kw) s t r h hr (fun c hc =>
      ⟨sane.spelled n s.w.cell args kw hS c hc, sane.closed n s.w.cell args kw hQ c hc,
        sane.okay n s.w args kw hS c hc⟩)
    have hnice : ∀ ev ∈ evs, Nice cfg S Q ok s.w (keysOf cfg body (n + 1) s.w.cell args kw) ev := by
      intro ev hev
      exact (b3 ev hev).mono (fun l hl => List.mem_cons_of_mem _ hl)
    obtain ⟨g1, g2, g3, g4, g5⟩ := h.run hl md b3
    rw [← b2] at g1 g2 g3
    have hself := sane.self n s.w args kw hS (by rw [hva]; simp) (by rw [hvk]; simp)
    unfold callsOf at hself
    -- a flat call after the nested ones
    have flat : UsesCache cfg s args kw → call cfg s' args kw =
        some (cachedCall cfg s' (combine cfg.ignore args kw) (cfg.op va vk)) := fun hu =>
      call_usesCache (by rw [valsOf_congr g2]; exact hva) (by rw [kwValsOf_congr g2]; exact hvk)
        (usesCache_congr g2 g3 hu)
    have hstep : UsesCache cfg s args kw → Cache.run cfg s (evs ++ [.call args kw]) =
        (cachedCall cfg s' (combine cfg.ignore args kw) (cfg.op va vk)).st := by
      intro hu
      rw [run_append, ← b2]
      show step cfg s' (.call args kw) = _
      simp only [Cache.step]
      rw [flat hu]
    unfold rcall
    rw [hva, hvk]
    simp only
    by_cases hu : UsesCache cfg s args kw
    · rw [if_neg (fun hn => (usesCache_iff cfg s args kw).mp hn hu)]
      rw [changed_find h.rel.inv]
      cases hf : t.cache.find? (fun e => decide (e.args = combine cfg.ignore args kw)) with
      | some e =>
        obtain ⟨he, hargs⟩ := (find_args_some h.rel.inv.nodup).mp hf
        cases hst : e.stale with
        | false =>
          simp only [Option.map_some, hst]
          rw [outputs_find h.rel.inv, hf]
          refine ⟨_, [], [], rfl, ?_, rfl, fun ev hev => absurd hev List.not_mem_nil, .inl rfl⟩
          rw [hval, fresh_value hop hone h hS hva hvk he hargs hst]
          rfl
        | true =>
          simp only [Option.map_some, hst]
          rw [b1]
          have he' := g5 e he hst (by rw [hargs]; exact hself)
          have hf' : (Spec.run cfg t evs).cache.find?
              (fun e => decide (e.args = combine cfg.ignore args kw)) = some e :=
            (find_args_some g1.rel.inv.nodup).mpr ⟨he', hargs⟩
          have hch : dget s'.changed (prepareId (combine cfg.ignore args kw)) = some true := by
            rw [changed_find g1.rel.inv, hf', Option.map_some, hst]
          refine ⟨_, evs, [.call args kw], rfl, ?_, ?_, hnice, .inr rfl⟩
          · show (match r with
              | .error e => (⟨.error e, true, reset s'⟩ : Out V E R)
              | .ok v => _).res = r
            cases r <;> rfl
          · rw [hstep hu]
            unfold cachedCall
            simp only
            rw [hch, hval]
            cases cfg.op va vk <;> rfl
      | none =>
        simp only [Option.map_none]
        rw [b1]
        have hf' : (Spec.run cfg t evs).cache.find?
            (fun e => decide (e.args = combine cfg.ignore args kw)) = none := by
          rw [find_args_none]
          intro e he hargs
          rcases g4 e he with h' | h'
          · exact find_args_none.mp hf e h' hargs
          · rw [hargs] at h'; exact hself h'
        have hch : dget s'.changed (prepareId (combine cfg.ignore args kw)) = none := by
          rw [changed_find g1.rel.inv, hf', Option.map_none]
        obtain ⟨s2, e1, -⟩ := g1.rel.inv.ensure (E := E) hl
        refine ⟨_, evs, [.call args kw], rfl, ?_, ?_, hnice, .inr rfl⟩
        · show (match r with
            | .error e => (⟨.error e, true, reset s'⟩ : Out V E R)
            | .ok v => finish cfg s' _ v).res = r
          cases r with
          | error e => rfl
          | ok v =>
            simp only [finish]
            rw [e1]
        · rw [hstep hu]
          unfold cachedCall
          simp only
          rw [hch, hval]
          cases cfg.op va vk with
          | error e => rfl
          | ok v =>
            simp only [lift, finish]
            rw [e1]
    · rw [if_pos ((usesCache_iff cfg s args kw).mpr hu), b1]
      exact ⟨_, evs, [], rfl, rfl, by rw [List.append_nil]; exact b2, hnice, .inl rfl⟩

/-! ### Depth of cached calls -/

theorem Prog.run_mono {f f' : St V R → List Nat → List (N × Nat) → Option (Out V E R)}
    (h : ∀ s a kw o, f s a kw = some o → f' s a kw = some o) :
    ∀ {p : Prog N E R} {s : St V R} {r : Except (CErr E) R × St V R}, p.run f s = some r → p.run f' s = some r := by
  intro p
  induction p with
  | done r => exact fun h => h
  | call a kw k ih =>
    intro s r hr
    unfold Prog.run at hr ⊢
    cases hg : f s a kw with
    | none => rw [hg] at hr; cases hr
    | some x =>
      rw [hg] at hr
      rw [h s a kw x hg]
      exact ih x.res hr

theorem rcall_live {cfg : Cfg V N E R} {body : Body V N E R} {n : Nat} {s : St V R} {args : List Nat}
    {kw : List (N × Nat)} {o : Out V E R} (h : rcall cfg body n s args kw = some o) :
    ∃ va vk, valsOf s.w args = some va ∧ kwValsOf s.w kw = some vk := by
  cases n with
  | zero => cases h
  | succ n =>
    unfold rcall at h
    cases hva : valsOf s.w args with
    | none => rw [hva] at h; cases h
    | some va =>
      cases hvk : kwValsOf s.w kw with
      | none => rw [hva, hvk] at h; cases h
      | some vk => exact ⟨va, vk, rfl, rfl⟩

theorem map_of_some {α β : Type} {o o' : Option α} {f : α → β} {y : β} (h : ∀ x, o = some x → o' = some x)
    (hy : o.map f = some y) : o'.map f = some y := by
  cases o with
  | none => cases hy
  | some x => rw [h x rfl]; exact hy

theorem rcall_succ {cfg : Cfg V N E R} {body : Body V N E R} : ∀ {n : Nat} {s : St V R} {args : List Nat}
    {kw : List (N × Nat)} {o : Out V E R}, rcall cfg body n s args kw = some o →
    rcall cfg body (n + 1) s args kw = some o := by
  intro n
  induction n with
  | zero => intro s args kw o h; cases h
  | succ n ih =>
    intro s args kw o h
    obtain ⟨va, vk, hva, hvk⟩ := rcall_live h
    have key : ∀ x, (body s.w.cell args kw).run (rcall cfg body n) s = some x →
        (body s.w.cell args kw).run (rcall cfg body (n + 1)) s = some x :=
      fun x hx => Prog.run_mono (fun s a kw o ho => ih ho) hx
    rw [rcall, hva, hvk] at h ⊢
    simp only at h ⊢
    split
    · rename_i hc
      rw [if_pos hc] at h
      exact map_of_some key h
    · rename_i hc
      rw [if_neg hc] at h
      split
      · rename_i hd
        rw [hd] at h
        exact h
      · rename_i hd
        rw [hd] at h
        exact map_of_some key h
      · rename_i hd
        rw [hd] at h
        exact map_of_some key h

theorem rcall_le {cfg : Cfg V N E R} {body : Body V N E R} {n m : Nat} (hle : n ≤ m) {s : St V R} {args : List Nat}
    {kw : List (N × Nat)} {o : Out V E R} (h : rcall cfg body n s args kw = some o) :
    rcall cfg body m s args kw = some o := by
  induction hle with
  | refl => exact h
  | step _ ih => exact rcall_succ ih

theorem rcall_unique {cfg : Cfg V N E R} {body : Body V N E R} {n m : Nat} {s : St V R} {args : List Nat}
    {kw : List (N × Nat)} {o o' : Out V E R} (h : rcall cfg body n s args kw = some o)
    (h' : rcall cfg body m s args kw = some o') : o = o' := by
  have h1 := rcall_le (Nat.le_max_left n m) h
  have h2 := rcall_le (Nat.le_max_right n m) h'
  rw [h1] at h2
  exact Option.some.inj h2

/-! ### Histories -/

theorem RHist.sound {cfg : Cfg V N E R} (hl : cfg.limit ≠ 0) {body : Body V N E R} {S : Nat × List N → Prop}
    (hop : DependsOnInputs cfg) (hone : OneSpelling cfg.ignore S)
    {P : List (Entry R) → Prop} {Q : List Nat → Prop} {ok : Except E R → Prop} (md : Mode cfg P Q ok)
    (sane : Sane cfg body S Q ok) (hP : P []) {us : List (UEv V N)} {s : St V R} (h : RHist cfg body us s)
    (hS : ∀ args kw, UEv.call args kw ∈ us → S (shape args kw) ∧ Q (combine cfg.ignore args kw))
    (hother : ∀ u ∈ us, (∀ args kw, u ≠ .call args kw) → ∀ t : Spec.St V R, P t.cache →
      P (Spec.run cfg t u.events).cache) :
    ∃ t, Sound cfg S P s t ∧ Quiet s.w := by
  induction h with
  | start => exact ⟨_, ⟨Rel.init cfg, Coh.nil, rfl, hP⟩, rfl, by intro a o h; simp [init] at h⟩
  | @next us s u s' _ hstep ih =>
    obtain ⟨t, ht, hq⟩ := ih (fun a kw h => hS a kw (List.mem_append_left _ h))
      (fun u hu => hother u (List.mem_append_left _ hu))
    have hu : u ∈ us ++ [u] := List.mem_append_right _ (List.mem_singleton.mpr rfl)
    by_cases hc : ∃ args kw, u = .call args kw
    · obtain ⟨args, kw, rfl⟩ := hc
      obtain ⟨q1, q2⟩ := hS args kw hu
      rcases hstep with ⟨n, o, h1, h2⟩ | ⟨-, rfl⟩
      · obtain ⟨va, vk, hva, hvk⟩ := rcall_live h1
        obtain ⟨m, hm⟩ := sane.means s.w args kw va vk q1 hva hvk
        obtain ⟨o', evs, last, k1, k2, k3, k4, k5⟩ := rcall_flat hl hop hone md sane m s t args kw _ ht q1 q2 hm
        rw [rcall_unique h1 k1] at h2
        have hnice : ∀ ev ∈ evs, Nice cfg S Q ok s.w _ ev := k4
        obtain ⟨g1, g2, g3, -, -⟩ := ht.run hl md hnice
        rcases k5 with rfl | rfl
        · rw [List.append_nil] at k3
          rw [h2, k3]
          exact ⟨_, g1, g1.clean, by rw [g2]; exact hq.2⟩
        · obtain ⟨j1, j2, -⟩ := g1.step hl md q1 q2
          have e : Cache.run cfg s (evs ++ [.call args kw]) = step cfg (Cache.run cfg s evs) (.call args kw) := by
            rw [run_append]; rfl
          rw [h2, k3, e]
          exact ⟨_, j1, j1.clean, by rw [j2, g2]; exact hq.2⟩
      · exact ⟨t, ht, hq⟩
    · have e : s' = Cache.run cfg s u.events := by
        cases u with
        | call a kw => exact absurd ⟨a, kw, rfl⟩ hc
        | _ => exact hstep
      obtain ⟨h1, h2⟩ := events_quiet cfg hl u s t ht.rel hq
      have hsp : ∀ ev ∈ u.events, Spelled S ev := by
        intro ev hev
        cases u <;> simp only [UEv.events, List.mem_cons, List.not_mem_nil, or_false] at hev
        · exact absurd ⟨_, _, rfl⟩ hc
        · rcases hev with rfl | rfl <;> trivial
        all_goals subst hev; trivial
      rw [e]
      exact ⟨_, ⟨(run_refines hl u.events h2 ht.rel).1, run_coh hl u.events h2 hsp ht.rel ht.coh, h1.1,
        hother u hu (fun a kw hu' => hc ⟨a, kw, hu'⟩) t ht.prop⟩, h1⟩

/-- Every call returns what the function returns without cache. -/
theorem recursive_coherent {cfg : Cfg V N E R} (hl : cfg.limit ≠ 0) {body : Body V N E R} {S : Nat × List N → Prop}
    (hop : DependsOnInputs cfg) (hone : OneSpelling cfg.ignore S)
    {P : List (Entry R) → Prop} {Q : List Nat → Prop} {ok : Except E R → Prop} (md : Mode cfg P Q ok)
    (sane : Sane cfg body S Q ok) (hP : P []) {us : List (UEv V N)} {s : St V R} (h : RHist cfg body us s)
    (hS : ∀ args kw, UEv.call args kw ∈ us → S (shape args kw) ∧ Q (combine cfg.ignore args kw))
    (hother : ∀ u ∈ us, (∀ args kw, u ≠ .call args kw) → ∀ t : Spec.St V R, P t.cache →
      P (Spec.run cfg t u.events).cache)
    {args : List Nat} {kw : List (N × Nat)} (q1 : S (shape args kw)) (q2 : Q (combine cfg.ignore args kw))
    {va : List V} {vk : List (N × V)} (hva : valsOf s.w args = some va) (hvk : kwValsOf s.w kw = some vk) :
    (∃ n o, rcall cfg body n s args kw = some o) ∧
      ∀ n o, rcall cfg body n s args kw = some o → o.res = lift (cfg.op va vk) := by
  obtain ⟨t, ht, -⟩ := h.sound hl hop hone md sane hP hS hother
  obtain ⟨m, hm⟩ := sane.means s.w args kw va vk q1 hva hvk
  obtain ⟨o', evs, last, k1, k2, -⟩ := rcall_flat hl hop hone md sane m s t args kw _ ht q1 q2 hm
  exact ⟨⟨m, o', k1⟩, fun n o ho => by rw [rcall_unique ho k1, k2]⟩

/-! ### The two modes -/

/-- Nothing has to be renewed. -/
theorem mode_fresh (cfg : Cfg V N E R) :
    Mode cfg (fun c => ∀ e ∈ c, e.stale = false) (fun _ => True) (fun _ => True) := by
  refine ⟨fun c l now hn hP _ => ?_, fun c l now hn hP _ _ e he hst => absurd (hP e he) (by rw [hst]; simp)⟩
  intro e he
  unfold Spec.cached at he
  split at he
  · split at he
    · split at he
      · simp only [List.mem_map] at he
        obtain ⟨x, hx, rfl⟩ := he
        split
        · rfl
        · exact hP x hx
      · simp at he
    · exact hP e he
  · split at he
    · unfold Spec.store at he
      rw [List.mem_append, List.mem_singleton] at he
      rcases he with he | rfl
      · split at he
        · exact hP e (List.mem_of_mem_tail he)
        · exact hP e he
      · rfl
    · simp at he

/-- Nothing is thrown out. -/
theorem mode_room (cfg : Cfg V N E R) {K : List Nat → Prop}
    (hK : cfg.limit < 0 ∨ ∃ ks : List (List Nat), (ks.length : Int) ≤ cfg.limit ∧ ∀ l, K l → l ∈ ks) :
    Mode cfg (fun c => ∀ e ∈ c, K e.args) K (fun now => ∃ v, now = .ok v) := by
  refine ⟨fun c l now hn hP hQ e he => ?_, fun c l now hn hP hQ hok e he hst hne => ?_⟩
  · rcases cached_mem he with h | h
    · exact hP e h
    · rw [h]; exact hQ
  · obtain ⟨v, rfl⟩ := hok
    unfold Spec.cached
    cases hf : c.find? (fun e => decide (e.args = l)) with
    | some e' =>
      simp only
      split
      · simp only [List.mem_map]
        exact ⟨e, he, by rw [if_neg hne]⟩
      · exact he
    | none =>
      simp only [Spec.store]
      have hlen : (c.length : Int) ≠ cfg.limit := by
        rcases hK with h | ⟨ks, h1, h2⟩
        · omega
        · have hnd : (l :: c.map Entry.args).Nodup := by
            refine List.nodup_cons.mpr ⟨fun hm => ?_, hn⟩
            obtain ⟨x, hx, hx'⟩ := List.mem_map.mp hm
            exact find_args_none.mp hf x hx hx'
          have hle : (l :: c.map Entry.args).length ≤ ks.length := by
            refine (List.subperm_of_subset hnd (fun x hx => ?_)).length_le
            rcases List.mem_cons.mp hx with rfl | hx
            · exact h2 _ hQ
            · obtain ⟨y, hy, rfl⟩ := List.mem_map.mp hx
              exact h2 _ (hP y hy)
          simp only [List.length_cons, List.length_map] at hle
          omega
      rw [if_neg hlen]
      exact List.mem_append_left _ he

end Paramz.Cache

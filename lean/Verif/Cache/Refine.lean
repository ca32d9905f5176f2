import Verif.Cache.Lemmas

/-! The cacher refines the first-in first-out list. -/

set_option linter.unusedSectionVars false
set_option linter.unusedSimpArgs false

namespace Paramz.Cache

open Spec (Entry)

variable {V N E R : Type} [LinearOrder N]

/-- What the caller sees of an event: for calls the result and whether the operation ran. -/
def outcome (cfg : Cfg V N E R) (s : St V R) : Ev V N → Option (Except (CErr E) R × Bool)
  | .call args kw => (call cfg s args kw).map (fun o => (o.res, o.ran))
  | _ => none

/-- What the caller sees of a history. -/
def trace (cfg : Cfg V N E R) : St V R → List (Ev V N) → List (Option (Except (CErr E) R × Bool))
  | _, [] => []
  | s, e :: r => outcome cfg s e :: trace cfg (step cfg s e) r

/-- Exceptions of the operation as exceptions of the cached call. -/
def lift : Except E R → Except (CErr E) R
  | .ok v => .ok v
  | .error e => .error (.op e)

/-- No observer lists shared between objects (no numpy views of observable arrays). -/
def NoShare : Ev V N → Prop
  | .alloc _ _ _ (some _) => False
  | _ => True

/-- The model state represents the specification state. -/
structure Rel (cfg : Cfg V N E R) (s : St V R) (t : Spec.St V R) : Prop where
  inv : Inv cfg s t.cache
  enabled : t.enabled = s.enabled
  heap : ∀ a, t.heap a = (s.w.cell a).map (fun o => ⟨o.kind, o.val, o.on⟩)

theorem Rel.init (cfg : Cfg V N E R) : Rel cfg (init : St V R) Spec.init :=
  ⟨Inv.init cfg, rfl, fun _ => rfl⟩

theorem Rel.kindAt {cfg : Cfg V N E R} {s : St V R} {t : Spec.St V R} (h : Rel cfg s t) (a : Nat) :
    Spec.kindAt t.heap a = kindAt s.w a := by
  unfold Spec.kindAt Cache.kindAt
  rw [h.heap]
  cases s.w.cell a <;> rfl

theorem Rel.vals {cfg : Cfg V N E R} {s : St V R} {t : Spec.St V R} (h : Rel cfg s t) (l : List Nat) :
    Spec.vals t.heap l = valsOf s.w l := by
  unfold Spec.vals valsOf
  congr 1
  funext a
  rw [h.heap]
  cases s.w.cell a <;> rfl

theorem Rel.kwVals {cfg : Cfg V N E R} {s : St V R} {t : Spec.St V R} (h : Rel cfg s t)
    (l : List (N × Nat)) : Spec.kwVals t.heap l = kwValsOf s.w l := by
  unfold Spec.kwVals kwValsOf
  congr 1
  funext a
  rw [h.heap]
  cases s.w.cell a.2 <;> rfl

theorem forced_iff (cfg : Cfg V N E R) (w : World V) (kw : List (N × Nat)) :
    forced cfg w kw = true ↔ ∃ n ∈ cfg.force, ∃ p ∈ kw, p.1 = n ∧ kindAt w p.2 ≠ .none := by
  simp [forced]

/-- Every object named by a call exists. -/
theorem mapM_some_mem {A B : Type} {f : A → Option B} : ∀ {l : List A} {m : List B},
    l.mapM f = some m → ∀ a ∈ l, ∃ b, f a = some b := by
  intro l
  induction l with
  | nil => intro m _ a ha; simp at ha
  | cons x l ih =>
    intro m h a ha
    rw [List.mapM_cons] at h
    cases hx : f x with
    | none => rw [hx] at h; simp at h
    | some b =>
      rw [hx] at h
      cases hl : l.mapM f with
      | none => rw [hl] at h; simp at h
      | some m' =>
        rcases List.mem_cons.mp ha with rfl | ha
        · exact ⟨b, hx⟩
        · exact ih hl a ha

theorem mapM_some_map {A B : Type} {f : A → Option B} : ∀ {l : List A} {m : List B},
    l.mapM f = some m → l.map f = m.map some := by
  intro l
  induction l with
  | nil => intro m h; simp at h; subst h; rfl
  | cons x l ih =>
    intro m h
    rw [List.mapM_cons] at h
    cases hx : f x with
    | none => rw [hx] at h; simp at h
    | some b =>
      rw [hx] at h
      cases hl : l.mapM f with
      | none => rw [hl] at h; simp at h
      | some m' =>
        rw [hl] at h
        simp at h
        subst h
        simp [hx, ih hl]

theorem mem_combine {A : Type} {ignore : List Nat} {args : List A} {kw : List (N × A)} {a : A}
    (h : a ∈ combine ignore args kw) : a ∈ args ∨ ∃ p ∈ kw, p.2 = a := by
  unfold combine at h
  obtain ⟨⟨x, i⟩, hx, rfl⟩ := List.mem_map.mp h
  have := List.fst_mem_of_mem_zipIdx (List.mem_filter.mp hx).1
  rcases List.mem_append.mp this with h1 | h1
  · exact Or.inl h1
  · obtain ⟨p, hp, hpe⟩ := List.mem_map.mp h1
    rw [List.mem_insertionSort] at hp
    exact Or.inr ⟨p, hp, hpe⟩

theorem live_of_vals {s : St V R} {args : List Nat} {kw : List (N × Nat)} {va : List V}
    {vk : List (N × V)} (h1 : valsOf s.w args = some va) (h2 : kwValsOf s.w kw = some vk)
    (ignore : List Nat) (a : Nat) (ha : a ∈ combine ignore args kw) : ∃ o, s.w.cell a = some o := by
  rcases mem_combine ha with h | ⟨p, hp, rfl⟩
  · obtain ⟨b, hb⟩ := mapM_some_mem h1 a h
    cases hc : s.w.cell a with
    | none => rw [hc] at hb; cases hb
    | some o => exact ⟨o, rfl⟩
  · obtain ⟨b, hb⟩ := mapM_some_mem h2 p hp
    cases hc : s.w.cell p.2 with
    | none => rw [hc] at hb; cases hb
    | some o => exact ⟨o, rfl⟩

/-- The cached branch refines its specification. -/
theorem cachedCall_refines {cfg : Cfg V N E R} {s : St V R} {c : List (Entry R)} (h : Inv cfg s c)
    (hl : cfg.limit ≠ 0) (l : List Nat) (now : Except E R)
    (hlive : ∀ a ∈ l, ∃ o, s.w.cell a = some o ∧ o.kind ≠ .other) :
    let o := cachedCall cfg s l now
    let r := Spec.cached cfg.limit c l now
    (o.res, o.ran) = (lift r.1.1, r.1.2) ∧ Inv cfg o.st r.2 ∧ o.st.w.cell = s.w.cell ∧
      o.st.w.dirty = s.w.dirty ∧ o.st.enabled = s.enabled := by
  intro o r
  simp only [o, r]
  simp only [cachedCall, Spec.cached]
  rw [← lk_prepareId, h.changed]
  cases hk : lk c (prepareId l) with
  | none =>
    simp only [Option.map_none]
    cases now with
    | error e =>
      obtain ⟨h1, h2, h3⟩ := h.reset
      exact ⟨rfl, h1, h2, h3, rfl⟩
    | ok v =>
      obtain ⟨s', e1, h1, h2, h3, h4⟩ := h.ensure hl
      simp only [e1]
      have hnew : lk (if (c.length : Int) = cfg.limit then c.tail else c) (prepareId l) = none := by
        rw [lk_none_iff] at hk ⊢
        intro e he
        refine hk e ?_
        split at he
        · exact List.mem_of_mem_tail he
        · exact he
      obtain ⟨g1, g2, g3, g4⟩ := h1.addToCache l v hnew (by rw [h2]; exact hlive) (by
        intro h0
        have := h.len h0
        by_cases hc : (c.length : Int) = cfg.limit
        · rw [if_pos hc, List.length_tail]
          have : 0 < c.length := by
            rcases Nat.eq_zero_or_pos c.length with h5 | h5
            · rw [h5] at hc; exact absurd hc.symm (by simpa using hl)
            · exact h5
          omega
        · rw [if_neg hc]; omega)
      exact ⟨rfl, g1, g2.trans h2, g3.trans h3, g4.trans h4⟩
  | some e =>
    have hargs : e.args = l := prepareId_injective _ _ (lk_key hk)
    have hout : dget s.outputs (prepareId l) = some e.out := by rw [h.outputs, hk]; rfl
    cases hst : e.stale with
    | false =>
      simp only [Option.map_some, hst, hout]
      exact ⟨rfl, h, by simp⟩
    | true =>
      simp only [Option.map_some, hst, if_true]
      cases now with
      | error er =>
        obtain ⟨h1, h2, h3⟩ := h.reset
        exact ⟨rfl, h1, h2, h3, rfl⟩
      | ok v =>
        refine ⟨rfl, ?_, rfl, rfl, rfl⟩
        refine h.map (fun x => if x.args = l then ⟨l, v, false⟩ else x) ?_ _ _ ?_ ?_
        · intro x
          split
          · rename_i hx; exact hx.symm
          · rfl
        · intro k
          rw [dget_dset, h.changed]
          by_cases hkl : k = prepareId l
          · subst hkl; simp [hk, hargs]
          · rw [if_neg hkl]
            cases hx : lk c k with
            | none => rfl
            | some x =>
              have : x.args ≠ l := by
                rintro rfl; exact hkl (lk_key hx).symm
              simp [this]
        · intro k
          rw [dget_dset, h.outputs]
          by_cases hkl : k = prepareId l
          · subst hkl; simp [hk, hargs]
          · rw [if_neg hkl]
            cases hx : lk c k with
            | none => rfl
            | some x =>
              have : x.args ≠ l := by
                rintro rfl; exact hkl (lk_key hx).symm
              simp [this]

/-- The invariant only looks at classes, lists and identities of objects. -/
theorem Inv.world {cfg : Cfg V N E R} {s : St V R} {c : List (Entry R)} (h : Inv cfg s c)
    (w' : World V) (hreg : w'.reg = s.w.reg) (hw : WInv w')
    (hfwd : ∀ a o, s.w.cell a = some o → (∃ e ∈ c, a ∈ e.args) →
      ∃ o', w'.cell a = some o' ∧ o'.kind = o.kind ∧ o'.uid = o.uid ∧ o'.list = o.list) :
    Inv cfg { s with w := w' } c := by
  have hk : ∀ a, (∃ e ∈ c, a ∈ e.args) → Cache.kindAt w' a = Cache.kindAt s.w a := by
    intro a ha
    obtain ⟨e, he, hae⟩ := ha
    obtain ⟨o, ho, _⟩ := h.live e he a hae
    obtain ⟨o', ho', hk, _⟩ := hfwd a o ho ⟨e, he, hae⟩
    rw [kindAt_of ho, kindAt_of ho', hk]
  refine ⟨h.order, h.nodup, h.inputs, h.outputs, h.changed, ?_, hw, ⟨?_, ?_, ?_, ?_⟩, h.len, h.keys⟩
  · intro e he a ha
    obtain ⟨o, ho, hko⟩ := h.live e he a ha
    obtain ⟨o', ho', hk', _⟩ := hfwd a o ho ⟨e, he, ha⟩
    exact ⟨o', ho', by rw [hk']; exact hko⟩
  · intro a hd k hm
    obtain ⟨e, he, ha, _⟩ := mem_inputsOf hm
    rw [hk a ⟨e, he, ha⟩]
    exact h.ids.none_ a hd k hm
  · intro a ref ks hd
    obtain ⟨⟨o, ho, hko, hr⟩, h2, h3⟩ := h.ids.some_ a ref ks hd
    have hm := ((h.ids_isSome a).mp (by simp [hd])).2
    obtain ⟨o', ho', hk', hu, _⟩ := hfwd a o ho hm
    exact ⟨⟨o', ho', by rw [hk']; exact hko, by rw [hr, hu]⟩, h2, h3⟩
  · intro a o' hd ho'
    have hm := ((h.ids_isSome a).mp hd).2
    obtain ⟨e, he, hae⟩ := hm
    obtain ⟨o, ho, _⟩ := h.live e he a hae
    obtain ⟨o'', ho'', _, _, hl⟩ := hfwd a o ho ⟨e, he, hae⟩
    rw [ho'] at ho''; cases ho''
    simp only [hreg]
    rw [hl]
    exact h.ids.reg_one a o hd ho
  · intro n hn
    simp only [hreg] at hn
    obtain ⟨a, o, ha, ho, hs⟩ := h.ids.reg_zero n hn
    have hm := ((h.ids_isSome a).mp hs).2
    obtain ⟨o', ho', _, _, hl⟩ := hfwd a o ha hm
    exact ⟨a, o', ho', hl.trans ho, hs⟩

theorem Inv.enabled {cfg : Cfg V N E R} {s : St V R} {c : List (Entry R)} (h : Inv cfg s c) (b : Bool) :
    Inv cfg { s with enabled := b } c :=
  ⟨h.order, h.nodup, h.inputs, h.outputs, h.changed, h.live, h.w, h.ids, h.len, h.keys⟩

theorem held_iff {cfg : Cfg V N E R} {s : St V R} {c : List (Entry R)} (h : Inv cfg s c)
    (a : Nat) : held s a = true ↔ ∃ e ∈ c, a ∈ e.args := by
  simp only [held, List.any_eq_true, decide_eq_true_eq]
  constructor
  · rintro ⟨⟨k, l⟩, hm, ha⟩
    have := dget_of_mem h.keys hm
    rw [h.inputs] at this
    cases hl : lk c k with
    | none => rw [hl] at this; cases this
    | some e =>
      rw [hl] at this
      simp only [Option.map_some, Option.some.injEq] at this
      exact ⟨e, lk_mem hl, by rw [this]; exact ha⟩
  · rintro ⟨e, he, ha⟩
    have : dget s.inputs (prepareId e.args) = some e.args := by
      rw [h.inputs, lk_of_mem h.nodup he]; rfl
    exact ⟨_, mem_of_dget this, ha⟩

/-- One event of the model is one event of the specification. -/
theorem step_refines {cfg : Cfg V N E R} {s : St V R} {t : Spec.St V R} (h : Rel cfg s t)
    (hl : cfg.limit ≠ 0) (ev : Ev V N) (hns : NoShare ev) :
    Rel cfg (step cfg s ev) (Spec.step cfg t ev).1 ∧
      outcome cfg s ev = (Spec.step cfg t ev).2.map (fun r => (lift r.1, r.2)) := by
  cases ev with
  | call args kw =>
    simp only [step, Spec.step, outcome, call]
    rw [h.vals, h.kwVals]
    cases hva : valsOf s.w args with
    | none => exact ⟨h, rfl⟩
    | some va =>
      cases hvk : kwValsOf s.w kw with
      | none => exact ⟨h, rfl⟩
      | some vk =>
        simp only
        have hbp : ∀ (r : Except E R),
            (bypass r s).st = s ∧ ((bypass r s).res, (bypass r s).ran) = (lift r, true) := by
          intro r; cases r <;> exact ⟨rfl, rfl⟩
        by_cases hcond : t.enabled = false ∨
            (∃ n ∈ cfg.force, ∃ p ∈ kw, p.1 = n ∧ Spec.kindAt t.heap p.2 ≠ .none) ∨
            (∃ a ∈ combine cfg.ignore args kw, Spec.kindAt t.heap a = .other)
        · rw [if_pos hcond]
          have hb : (if s.enabled = false then some (bypass (cfg.op va vk) s)
              else if forced cfg s.w kw = true then some (bypass (cfg.op va vk) s)
              else if ((combine cfg.ignore args kw).any fun a => decide (Cache.kindAt s.w a = .other)) = true
                then some (bypass (cfg.op va vk) s)
              else some (cachedCall cfg s (combine cfg.ignore args kw) (cfg.op va vk))) =
              some (bypass (cfg.op va vk) s) := by
            rw [h.enabled] at hcond
            simp only [h.kindAt] at hcond
            rcases hcond with h1 | h1 | h1
            · rw [if_pos h1]
            · rw [if_pos ((forced_iff cfg s.w kw).mpr h1)]
              split <;> rfl
            · have : ((combine cfg.ignore args kw).any
                  fun a => decide (Cache.kindAt s.w a = .other)) = true := by
                simpa using h1
              rw [if_pos this]
              split
              · rfl
              · split <;> rfl
          rw [hb]
          refine ⟨?_, ?_⟩
          · simp only [(hbp _).1]; exact h
          · simp only [Option.map_some, (hbp _).2]
        · rw [if_neg hcond]
          push Not at hcond
          obtain ⟨c1, c2, c3⟩ := hcond
          have e1 : ¬ s.enabled = false := by rw [← h.enabled]; exact c1
          have e2 : ¬ forced cfg s.w kw = true := by
            rw [forced_iff]
            rintro ⟨n, hn, p, hp, hpn, hpk⟩
            exact hpk (by rw [← h.kindAt]; exact c2 n hn p hp hpn)
          have e3 : ¬ ((combine cfg.ignore args kw).any
              fun a => decide (Cache.kindAt s.w a = .other)) = true := by
            simp only [List.any_eq_true, decide_eq_true_eq]
            rintro ⟨a, ha, hk⟩
            exact c3 a ha (by rw [h.kindAt]; exact hk)
          rw [if_neg e1, if_neg e2, if_neg e3]
          have hlive : ∀ a ∈ combine cfg.ignore args kw, ∃ o, s.w.cell a = some o ∧ o.kind ≠ .other := by
            intro a ha
            obtain ⟨o, ho⟩ := live_of_vals hva hvk cfg.ignore a ha
            refine ⟨o, ho, fun hk => ?_⟩
            exact c3 a ha (by rw [h.kindAt, kindAt_of ho]; exact hk)
          obtain ⟨g1, g2, g3, g4, g5⟩ := cachedCall_refines h.inv hl _ (cfg.op va vk) hlive
          refine ⟨⟨g2, h.enabled.trans g5.symm, fun a => ?_⟩, ?_⟩
          · simp only [g3]; exact h.heap a
          · simp only [Option.map_some, g1]
  | set a v =>
    simp only [step, Spec.step, outcome]
    rw [h.heap]
    cases hc : s.w.cell a with
    | none => exact ⟨h, rfl⟩
    | some o =>
      simp only [Option.map_some]
      by_cases hk : o.kind = .observable
      · rw [if_pos hk, if_pos hk]
        refine ⟨⟨?_, h.enabled, fun b => ?_⟩, rfl⟩
        · refine h.inv.world _ rfl ⟨?_, ?_⟩ ?_
          · intro x y p q hx hy hxy
            simp only [setCell] at hx hy
            by_cases hxa : x = a
            · by_cases hya : y = a
              · rw [hxa, hya]
              · rw [if_pos hxa] at hx; rw [if_neg hya] at hy
                cases hx
                rw [hxa]; exact h.inv.w.inj a y o q hc hy hxy
            · rw [if_neg hxa] at hx
              by_cases hya : y = a
              · rw [if_pos hya] at hy; cases hy
                rw [hya]; exact h.inv.w.inj x a p o hx hc hxy
              · rw [if_neg hya] at hy
                exact h.inv.w.inj x y p q hx hy hxy
          · intro x p hx
            simp only [setCell] at hx
            by_cases hxa : x = a
            · rw [if_pos hxa] at hx; cases hx
              exact h.inv.w.lt a o hc
            · rw [if_neg hxa] at hx; exact h.inv.w.lt x p hx
          · intro x p hx _
            simp only [setCell]
            by_cases hxa : x = a
            · subst hxa
              rw [hc] at hx; cases hx
              exact ⟨_, if_pos rfl, rfl, rfl, rfl⟩
            · exact ⟨p, by rw [if_neg hxa]; exact hx, rfl, rfl, rfl⟩
        · simp only [setCell]
          by_cases hb : b = a
          · simp [hb]
          · simp only [if_neg hb]; exact h.heap b
      · rw [if_neg hk, if_neg hk]; exact ⟨h, rfl⟩
  | notify a b =>
    simp only [step, Spec.step, outcome]
    rw [h.heap]
    cases hc : s.w.cell a with
    | none => exact ⟨h, rfl⟩
    | some o =>
      simp only [Option.map_some]
      by_cases hk : o.kind = .observable ∧ o.on = true
      · rw [if_pos hk, if_pos hk]
        have hreg : 0 < s.w.reg o.list ↔ ∃ e ∈ t.cache, a ∈ e.args := by
          constructor
          · intro h0
            obtain ⟨x, p, hx, hp, hs⟩ := h.inv.ids.reg_zero _ (Nat.ne_of_gt h0)
            have := h.inv.w.inj x a p o hx hc hp
            subst this
            exact ((h.inv.ids_isSome x).mp hs).2
          · intro h0
            have := (h.inv.ids_isSome a).mpr ⟨by rw [kindAt_of hc]; exact hk.1, h0⟩
            rw [h.inv.ids.reg_one a o this hc]; decide
        have hany : (t.cache.any fun e => decide (a ∈ e.args)) = true ↔ 0 < s.w.reg o.list := by
          rw [hreg]; simp
        refine ⟨?_, rfl⟩
        by_cases h0 : 0 < s.w.reg o.list
        · obtain ⟨g1, g2, g3⟩ := h.inv.onCacheChanged a b (by rw [kindAt_of hc]; exact hk.1)
          simp only [if_pos h0, Spec.announce, if_pos (hany.mpr h0)]
          refine ⟨?_, h.enabled.trans g3.symm, fun x => ?_⟩
          · have g4 := g1.world { (onCacheChanged s a b).w with
              dirty := (onCacheChanged s a b).w.dirty.filter (fun x => !decide (x = a)) } rfl
              (g1.w.cell_eq rfl rfl) (fun x p hx _ => ⟨p, hx, rfl, rfl, rfl⟩)
            convert g4 using 2
            funext e
            simp only [h.kindAt, decide_eq_true_eq]
          · simp only [g2]; exact h.heap x
        · have hn : ¬ (t.cache.any fun e => decide (a ∈ e.args)) = true := by rw [hany]; exact h0
          simp only [if_neg h0, Spec.announce, if_neg hn]
          exact ⟨h.inv.world _ rfl (h.inv.w.cell_eq rfl rfl) (fun x p hx _ => ⟨p, hx, rfl, rfl, rfl⟩),
            h.enabled, h.heap⟩
      · rw [if_neg hk, if_neg hk]; exact ⟨h, rfl⟩
  | setOn a v =>
    simp only [step, Spec.step, outcome]
    rw [h.heap]
    cases hc : s.w.cell a with
    | none => exact ⟨h, rfl⟩
    | some o =>
      simp only [Option.map_some]
      refine ⟨⟨?_, h.enabled, fun b => ?_⟩, rfl⟩
      · refine h.inv.world _ rfl ⟨?_, ?_⟩ ?_
        · intro x y p q hx hy hxy
          simp only [setCell] at hx hy
          by_cases hxa : x = a
          · by_cases hya : y = a
            · rw [hxa, hya]
            · rw [if_pos hxa] at hx; rw [if_neg hya] at hy
              cases hx
              rw [hxa]; exact h.inv.w.inj a y o q hc hy hxy
          · rw [if_neg hxa] at hx
            by_cases hya : y = a
            · rw [if_pos hya] at hy; cases hy
              rw [hya]; exact h.inv.w.inj x a p o hx hc hxy
            · rw [if_neg hya] at hy
              exact h.inv.w.inj x y p q hx hy hxy
        · intro x p hx
          simp only [setCell] at hx
          by_cases hxa : x = a
          · rw [if_pos hxa] at hx; cases hx
            exact h.inv.w.lt a o hc
          · rw [if_neg hxa] at hx; exact h.inv.w.lt x p hx
        · intro x p hx _
          simp only [setCell]
          by_cases hxa : x = a
          · subst hxa
            rw [hc] at hx; cases hx
            exact ⟨_, if_pos rfl, rfl, rfl, rfl⟩
          · exact ⟨p, by rw [if_neg hxa]; exact hx, rfl, rfl, rfl⟩
      · simp only [setCell]
        by_cases hb : b = a
        · simp [hb]
        · simp only [if_neg hb]; exact h.heap b
  | reset =>
    obtain ⟨g1, g2, _⟩ := h.inv.reset
    refine ⟨⟨g1, h.enabled, fun a => ?_⟩, rfl⟩
    simp only [step, Spec.step, g2]; exact h.heap a
  | disable =>
    obtain ⟨g1, g2, _⟩ := (h.inv.enabled false).reset
    refine ⟨⟨g1, rfl, fun a => ?_⟩, rfl⟩
    simp only [step, Spec.step, disable, g2]; exact h.heap a
  | enable => exact ⟨⟨h.inv.enabled true, rfl, h.heap⟩, rfl⟩
  | alloc a kind v share =>
    simp only [step, Spec.step, outcome]
    cases share with
    | some b => exact absurd hns (by simp [NoShare])
    | none =>
      rw [h.heap]
      cases hc : s.w.cell a with
      | some o => exact ⟨h, rfl⟩
      | none =>
        simp only [Option.map_none]
        refine ⟨⟨?_, h.enabled, fun b => ?_⟩, trivial⟩
        · refine h.inv.world _ rfl ⟨?_, ?_⟩ ?_
          · intro x y p q hx hy hxy
            simp only [setCell] at hx hy
            by_cases hxa : x = a
            · by_cases hya : y = a
              · rw [hxa, hya]
              · rw [if_pos hxa] at hx; rw [if_neg hya] at hy
                cases hx
                have := h.inv.w.lt y q hy
                simp only at hxy; omega
            · rw [if_neg hxa] at hx
              by_cases hya : y = a
              · rw [if_pos hya] at hy; cases hy
                have := h.inv.w.lt x p hx
                simp only at hxy; omega
              · rw [if_neg hya] at hy
                exact h.inv.w.inj x y p q hx hy hxy
          · intro x p hx
            simp only [setCell] at hx ⊢
            by_cases hxa : x = a
            · rw [if_pos hxa] at hx; cases hx
              simp
            · rw [if_neg hxa] at hx
              have := h.inv.w.lt x p hx
              omega
          · intro x p hx _
            simp only [setCell]
            have hxa : x ≠ a := by rintro rfl; rw [hc] at hx; cases hx
            exact ⟨p, by rw [if_neg hxa]; exact hx, rfl, rfl, rfl⟩
        · simp only [setCell]
          by_cases hb : b = a
          · simp [hb]
          · simp only [if_neg hb]; exact h.heap b
  | free a =>
    simp only [step, Spec.step, outcome]
    have hh := held_iff h.inv a
    by_cases h0 : held s a = true
    · rw [if_pos h0, if_pos (hh.mp h0)]; exact ⟨h, rfl⟩
    · have h1 : ¬ ∃ e ∈ t.cache, a ∈ e.args := fun h2 => h0 (hh.mpr h2)
      rw [if_neg h0, if_neg h1]
      refine ⟨⟨?_, h.enabled, fun b => ?_⟩, rfl⟩
      · refine h.inv.world _ rfl ⟨?_, ?_⟩ ?_
        · intro x y p q hx hy hxy
          simp only [setCell] at hx hy
          by_cases hxa : x = a
          · rw [if_pos hxa] at hx; cases hx
          · by_cases hya : y = a
            · rw [if_pos hya] at hy; cases hy
            · rw [if_neg hxa] at hx; rw [if_neg hya] at hy
              exact h.inv.w.inj x y p q hx hy hxy
        · intro x p hx
          simp only [setCell] at hx
          by_cases hxa : x = a
          · rw [if_pos hxa] at hx; cases hx
          · rw [if_neg hxa] at hx; exact h.inv.w.lt x p hx
        · intro x p hx hm
          have hxa : x ≠ a := by rintro rfl; exact h1 hm
          exact ⟨p, by simp only [setCell]; rw [if_neg hxa]; exact hx, rfl, rfl, rfl⟩
      · simp only [setCell]
        by_cases hb : b = a
        · simp [hb]
        · simp only [if_neg hb]; exact h.heap b

theorem run_refines {cfg : Cfg V N E R} (hl : cfg.limit ≠ 0) (evs : List (Ev V N))
    (hns : ∀ ev ∈ evs, NoShare ev) {s : St V R} {t : Spec.St V R} (h : Rel cfg s t) :
    Rel cfg (run cfg s evs) (Spec.run cfg t evs) ∧
      trace cfg s evs = (Spec.trace cfg t evs).map (Option.map (fun r => (lift r.1, r.2))) := by
  induction evs generalizing s t with
  | nil => exact ⟨h, rfl⟩
  | cons e r ih =>
    obtain ⟨h1, h2⟩ := step_refines h hl e (hns e (by simp))
    obtain ⟨h3, h4⟩ := ih (fun ev hev => hns ev (List.mem_cons_of_mem _ hev)) h1
    refine ⟨h3, ?_⟩
    simp only [trace, Spec.trace, List.map_cons, h2, h4]

end Paramz.Cache

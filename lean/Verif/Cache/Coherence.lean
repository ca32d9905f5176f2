import Verif.Cache.Refine

/-! Cached results are up to date. -/

set_option linter.unusedSectionVars false
set_option linter.unusedSimpArgs false

namespace Paramz.Cache

open Spec (Entry)

variable {V N E R : Type} [LinearOrder N]

/-- How a call is spelled: the number of positional arguments and the sorted keyword names. -/
def shape {A : Type} (args : List A) (kw : List (N × A)) : Nat × List N :=
  (args.length, (kw.insertionSort (fun x y => x.1 ≤ y.1)).map Prod.fst)

/-- How many inputs of a call spelled `σ` are not ignored. -/
def kept (ignore : List Nat) (σ : Nat × List N) : Nat :=
  ((List.range (σ.1 + σ.2.length)).filter (fun i => !decide (i ∈ ignore))).length

/-- The operation is a function of the contents of its non-ignored arguments. -/
def DependsOnInputs (cfg : Cfg V N E R) : Prop :=
  ∀ va (vk : List (N × V)) va' (vk' : List (N × V)), shape va vk = shape va' vk' →
    combine cfg.ignore va vk = combine cfg.ignore va' vk' → cfg.op va vk = cfg.op va' vk'

/-- Spellings with the same number of inputs are the same spelling. -/
def OneSpelling (ignore : List Nat) (S : Nat × List N → Prop) : Prop :=
  ∀ σ σ', S σ → S σ' → kept ignore σ = kept ignore σ' → σ = σ'

/-- Calls of a history are spelled as in `S`. -/
def Spelled (S : Nat × List N → Prop) : Ev V N → Prop
  | .call args kw => S (shape args kw)
  | _ => True

theorem zipIdx_filter_length {A : Type} (ignore : List Nat) (l : List A) (n : Nat) :
    ((l.zipIdx n).filter (fun p => !decide (p.2 ∈ ignore))).length =
      ((List.range' n l.length).filter (fun i => !decide (i ∈ ignore))).length := by
  induction l generalizing n with
  | nil => rfl
  | cons a l ih =>
    simp only [List.zipIdx_cons, List.length_cons, List.range'_succ, List.filter_cons]
    split <;> simp [ih (n + 1)]

theorem combine_length {A : Type} (ignore : List Nat) (args : List A) (kw : List (N × A)) :
    (combine ignore args kw).length = kept ignore (shape args kw) := by
  unfold combine kept shape
  rw [List.length_map, zipIdx_filter_length, List.range_eq_range']
  simp

theorem zipIdx_filter_map {A B : Type} (g : A → B) (q : Nat → Bool) (l : List A) (n : Nat) :
    (((l.map g).zipIdx n).filter (fun p => q p.2)).map Prod.fst =
      (((l.zipIdx n).filter (fun p => q p.2)).map Prod.fst).map g := by
  induction l generalizing n with
  | nil => rfl
  | cons a l ih =>
    simp only [List.map_cons, List.zipIdx_cons, List.filter_cons]
    split <;> simp [ih (n + 1)]

theorem sort_map {A B : Type} (g : A → B) (kw : List (N × A)) :
    (kw.map (fun p => (p.1, g p.2))).insertionSort (fun x y => x.1 ≤ y.1) =
      (kw.insertionSort (fun x y => x.1 ≤ y.1)).map (fun p => (p.1, g p.2)) := by
  rw [List.map_insertionSort (r := fun x y : N × A => x.1 ≤ y.1)
    (s := fun x y : N × B => x.1 ≤ y.1)]
  intro a _ b _
  rfl

theorem combine_map {A B : Type} (g : A → B) (ignore : List Nat) (args : List A) (kw : List (N × A)) :
    combine ignore (args.map g) (kw.map (fun p => (p.1, g p.2))) = (combine ignore args kw).map g := by
  simp only [combine]
  rw [sort_map, ← zipIdx_filter_map g (fun i => !decide (i ∈ ignore))]
  simp [List.map_map, Function.comp_def]

theorem shape_map {A B : Type} (g : A → B) (args : List A) (kw : List (N × A)) :
    shape (args.map g) (kw.map (fun p => (p.1, g p.2))) = shape args kw := by
  unfold shape
  rw [sort_map]
  simp [List.map_map, Function.comp_def]

/-- Contents of an address, if any. -/
def valAt (w : World V) (a : Nat) : Option V := (w.cell a).map Obj.val

theorem vals_map {w : World V} {args : List Nat} {va : List V} (h : valsOf w args = some va) :
    args.map (valAt w) = va.map some := mapM_some_map h

theorem kwVals_map {w : World V} {kw : List (N × Nat)} {vk : List (N × V)}
    (h : kwValsOf w kw = some vk) :
    kw.map (fun p => (p.1, valAt w p.2)) = vk.map (fun p => (p.1, some p.2)) := by
  unfold kwValsOf at h
  induction kw generalizing vk with
  | nil => simp at h; subst h; rfl
  | cons p kw ih =>
    rw [List.mapM_cons] at h
    cases hc : w.cell p.2 with
    | none => rw [hc] at h; simp at h
    | some o =>
      rw [hc] at h
      cases hm : kw.mapM (fun p => (w.cell p.2).map (fun o => (p.1, o.val))) with
      | none => rw [hm] at h; simp at h
      | some m =>
        rw [hm] at h
        simp at h
        subst h
        have := ih hm
        simp only [List.map_cons, this]
        simp [valAt, hc]

theorem combine_vals {w : World V} {args : List Nat} {kw : List (N × Nat)} {va : List V}
    {vk : List (N × V)} (h1 : valsOf w args = some va) (h2 : kwValsOf w kw = some vk)
    (ignore : List Nat) :
    (combine ignore va vk).map some = (combine ignore args kw).map (valAt w) ∧
      shape va vk = shape args kw := by
  constructor
  · rw [← combine_map, ← combine_map, ← vals_map h1, ← kwVals_map h2]
  · rw [← shape_map (some : V → Option V) va vk, ← vals_map h1, ← kwVals_map h2, shape_map]

/-- The entry's result is what the operation gives for the present contents of its inputs, for some
call spelled as in `S`. -/
def Good (cfg : Cfg V N E R) (S : Nat × List N → Prop) (w : World V) (e : Entry R) : Prop :=
  ∃ va vk, S (shape va vk) ∧ (combine cfg.ignore va vk).map some = e.args.map (valAt w) ∧
    cfg.op va vk = .ok e.out

/-- Every fresh entry none of whose inputs has an unannounced change is good. -/
def Coh (cfg : Cfg V N E R) (S : Nat × List N → Prop) (w : World V) (c : List (Entry R)) : Prop :=
  ∀ e ∈ c, e.stale = false → (∀ a ∈ e.args, a ∉ w.dirty) → Good cfg S w e

theorem Coh.world {cfg : Cfg V N E R} {S : Nat × List N → Prop} {w w' : World V} {c : List (Entry R)}
    (h : Coh cfg S w c) (hd : ∀ a, a ∈ w.dirty → (∃ e ∈ c, a ∈ e.args) → a ∈ w'.dirty)
    (hv : ∀ a, (∃ e ∈ c, a ∈ e.args) → a ∉ w'.dirty → valAt w' a = valAt w a) : Coh cfg S w' c := by
  intro e he hs hdirty
  obtain ⟨va, vk, h1, h2, h3⟩ := h e he hs (fun a ha hda => hdirty a ha (hd a hda ⟨e, he, ha⟩))
  refine ⟨va, vk, h1, ?_, h3⟩
  rw [h2]
  apply List.map_congr_left
  intro a ha
  exact (hv a ⟨e, he, ha⟩ (hdirty a ha)).symm

theorem Coh.nil {cfg : Cfg V N E R} {S : Nat × List N → Prop} {w : World V} : Coh cfg S w [] := by
  intro e he; simp at he

theorem step_coh {cfg : Cfg V N E R} {S : Nat × List N → Prop} {s : St V R} {t : Spec.St V R}
    (h : Rel cfg s t) (hc : Coh cfg S s.w t.cache) (hl : cfg.limit ≠ 0) (ev : Ev V N)
    (hns : NoShare ev) (hS : Spelled S ev) :
    Coh cfg S (step cfg s ev).w (Spec.step cfg t ev).1.cache := by
  cases ev with
  | call args kw =>
    simp only [step, Spec.step, call]
    rw [h.vals, h.kwVals]
    cases hva : valsOf s.w args with
    | none => exact hc
    | some va =>
      cases hvk : kwValsOf s.w kw with
      | none => exact hc
      | some vk =>
        simp only
        have hbp : ∀ (r : Except E R), (bypass r s).st = s := by intro r; cases r <;> rfl
        by_cases hcond : t.enabled = false ∨
            (∃ n ∈ cfg.force, ∃ p ∈ kw, p.1 = n ∧ Spec.kindAt t.heap p.2 ≠ .none) ∨
            (∃ a ∈ combine cfg.ignore args kw, Spec.kindAt t.heap a = .other)
        · rw [if_pos hcond]
          rw [h.enabled] at hcond
          simp only [h.kindAt] at hcond
          have hb : (if s.enabled = false then some (bypass (cfg.op va vk) s)
              else if forced cfg s.w kw = true then some (bypass (cfg.op va vk) s)
              else if ((combine cfg.ignore args kw).any fun a => decide (kindAt s.w a = .other)) = true
                then some (bypass (cfg.op va vk) s)
              else some (cachedCall cfg s (combine cfg.ignore args kw) (cfg.op va vk))) =
              some (bypass (cfg.op va vk) s) := by
            rcases hcond with h1 | h1 | h1
            · rw [if_pos h1]
            · rw [if_pos ((forced_iff cfg s.w kw).mpr h1)]
              split <;> rfl
            · have : ((combine cfg.ignore args kw).any fun a => decide (kindAt s.w a = .other)) = true := by
                simpa using h1
              rw [if_pos this]
              split
              · rfl
              · split <;> rfl
          rw [hb]
          simp only [hbp]
          exact hc
        · rw [if_neg hcond]
          push Not at hcond
          obtain ⟨c1, c2, c3⟩ := hcond
          have e1 : ¬ s.enabled = false := by rw [← h.enabled]; exact c1
          have e2 : ¬ forced cfg s.w kw = true := by
            rw [forced_iff]
            rintro ⟨n, hn, p, hp, hpn, hpk⟩
            exact hpk (by rw [← h.kindAt]; exact c2 n hn p hp hpn)
          have e3 : ¬ ((combine cfg.ignore args kw).any fun a => decide (kindAt s.w a = .other)) = true := by
            simp only [List.any_eq_true, decide_eq_true_eq]
            rintro ⟨a, ha, hk⟩
            exact c3 a ha (by rw [h.kindAt]; exact hk)
          rw [if_neg e1, if_neg e2, if_neg e3]
          simp only
          have hlive : ∀ a ∈ combine cfg.ignore args kw, ∃ o, s.w.cell a = some o ∧ o.kind ≠ .other := by
            intro a ha
            obtain ⟨o, ho⟩ := live_of_vals hva hvk cfg.ignore a ha
            refine ⟨o, ho, fun hk => ?_⟩
            exact c3 a ha (by rw [h.kindAt, kindAt_of ho]; exact hk)
          obtain ⟨_, _, g3, g4, _⟩ := cachedCall_refines h.inv hl _ (cfg.op va vk) hlive
          obtain ⟨v1, v2⟩ := combine_vals hva hvk cfg.ignore
          have hnew : ∀ v, cfg.op va vk = .ok v →
              Good cfg S s.w ⟨combine cfg.ignore args kw, v, false⟩ :=
            fun v hv => ⟨va, vk, by rw [v2]; exact hS, v1, hv⟩
          have key : Coh cfg S s.w
              (Spec.cached cfg.limit t.cache (combine cfg.ignore args kw) (cfg.op va vk)).2 := by
            unfold Spec.cached
            split
            · split
              · split
                · rename_i v hv
                  intro e he hs hd
                  obtain ⟨x, hx, rfl⟩ := List.mem_map.mp he
                  by_cases hxl : x.args = combine cfg.ignore args kw
                  · rw [if_pos hxl]
                    exact hnew v hv
                  · rw [if_neg hxl] at hs hd ⊢
                    exact hc x hx hs hd
                · exact Coh.nil
              · exact hc
            · split
              · rename_i v hv
                intro e he hs hd
                unfold Spec.store at he
                rcases List.mem_append.mp he with he | he
                · refine hc e ?_ hs hd
                  split at he
                  · exact List.mem_of_mem_tail he
                  · exact he
                · rw [List.mem_singleton.mp he]
                  exact hnew v hv
              · exact Coh.nil
          refine key.world ?_ ?_
          · intro a ha _; rw [g4]; exact ha
          · intro a _ _; simp only [valAt, g3]
  | set a v =>
    simp only [step, Spec.step]
    rw [h.heap]
    cases hca : s.w.cell a with
    | none => exact hc
    | some o =>
      simp only [Option.map_some]
      by_cases hk : o.kind = .observable
      · rw [if_pos hk, if_pos hk]
        refine hc.world ?_ ?_
        · intro b hb _; exact List.mem_cons_of_mem _ hb
        · intro b _ hb
          have : b ≠ a := by rintro rfl; exact hb (by simp)
          simp [valAt, setCell, this]
      · rw [if_neg hk, if_neg hk]; exact hc
  | notify a b =>
    simp only [step, Spec.step]
    rw [h.heap]
    cases hca : s.w.cell a with
    | none => exact hc
    | some o =>
      simp only [Option.map_some]
      by_cases hk : o.kind = .observable ∧ o.on = true
      · rw [if_pos hk, if_pos hk]
        have hw : (if 0 < s.w.reg o.list then onCacheChanged s a b else s).w = s.w := by
          split
          · exact (h.inv.onCacheChanged a b (by rw [kindAt_of hca]; exact hk.1)).2.1
          · rfl
        simp only [hw]
        unfold Spec.announce
        split
        · intro e he hs hd
          obtain ⟨x, hx, rfl⟩ := List.mem_map.mp he
          by_cases hm : a ∈ x.args ∨ b ∈ x.args ∧ decide (Spec.kindAt t.heap b = .observable) = true
          · rw [if_pos hm] at hs; simp at hs
          · rw [if_neg hm] at hs hd ⊢
            push Not at hm
            refine hc x hx hs (fun c hcx hcd => hd c hcx ?_)
            have : c ≠ a := by rintro rfl; exact hm.1 hcx
            simp [hcd, this]
        · rename_i hn
          refine Coh.world hc ?_ ?_
          · rintro c hcd ⟨e, he, hce⟩
            have : c ≠ a := by
              rintro rfl
              exact hn (by simp; exact ⟨e, he, hce⟩)
            simp [hcd, this]
          · intro c _ _; rfl
      · rw [if_neg hk, if_neg hk]; exact hc
  | setOn a v =>
    simp only [step, Spec.step]
    rw [h.heap]
    cases hca : s.w.cell a with
    | none => exact hc
    | some o =>
      simp only [Option.map_some]
      refine hc.world (fun b hb _ => hb) ?_
      intro b _ _
      by_cases hb : b = a
      · subst hb; simp [valAt, setCell, hca]
      · simp [valAt, setCell, hb]
  | reset => exact Coh.nil
  | disable => exact Coh.nil
  | enable => exact hc
  | alloc a kind v share =>
    simp only [step, Spec.step]
    rw [h.heap]
    cases hca : s.w.cell a with
    | some o => exact hc
    | none =>
      simp only [Option.map_none]
      have hna : ∀ b, (∃ e ∈ t.cache, b ∈ e.args) → b ≠ a := by
        rintro b ⟨e, he, hb⟩ rfl
        obtain ⟨o, ho, _⟩ := h.inv.live e he b hb
        rw [hca] at ho; cases ho
      refine hc.world ?_ ?_
      · intro b hb hm
        simp [hb, hna b hm]
      · intro b hm _
        simp [valAt, setCell, hna b hm]
  | free a =>
    simp only [step, Spec.step]
    have hh := held_iff h.inv a
    by_cases h0 : held s a = true
    · rw [if_pos h0, if_pos (hh.mp h0)]; exact hc
    · have h1 : ¬ ∃ e ∈ t.cache, a ∈ e.args := fun h2 => h0 (hh.mpr h2)
      rw [if_neg h0, if_neg h1]
      refine hc.world (fun b hb _ => hb) ?_
      intro b hm _
      have : b ≠ a := by rintro rfl; exact h1 hm
      simp [valAt, setCell, this]

theorem run_coh {cfg : Cfg V N E R} {S : Nat × List N → Prop} (hl : cfg.limit ≠ 0)
    (evs : List (Ev V N)) (hns : ∀ ev ∈ evs, NoShare ev) (hS : ∀ ev ∈ evs, Spelled S ev)
    {s : St V R} {t : Spec.St V R} (h : Rel cfg s t) (hc : Coh cfg S s.w t.cache) :
    Coh cfg S (run cfg s evs).w (Spec.run cfg t evs).cache := by
  induction evs generalizing s t with
  | nil => exact hc
  | cons e r ih =>
    exact ih (fun ev hev => hns ev (List.mem_cons_of_mem _ hev))
      (fun ev hev => hS ev (List.mem_cons_of_mem _ hev))
      (step_refines h hl e (hns e (by simp))).1
      (step_coh h hc hl e (hns e (by simp)) (hS e (by simp)))

end Paramz.Cache

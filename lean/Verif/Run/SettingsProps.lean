import Verif.Run.Settings

/-!
# Settings take effect, are refused, or warned about (C95)
-/

namespace Paramz.Run.Settings

open Lookup (Optimizer)

/-! ### Specification -/

/-- The values documented for settings that are not given: of `optimize` (model.py:65), of the constructors
(optimization.py:253, 280, 316-321) and of `SCG` (scg.py:58-63). -/
inductive Default : Optimizer → String → ℚ → Prop
  | iters {k : Optimizer} : Default k "max_iters" 1000
  | scg_x : Default .scg "xtol" (1/1000000)
  | scg_f : Default .scg "ftol" (1/1000000)
  | scg_g : Default .scg "gtol" (1/100000)
  | own {k : Optimizer} {s : String} {q : ℚ} : (s, q) ∈ ownArgs k → Default k s q

/-- The value the user wants for a setting: what they gave, or the default. -/
inductive Wanted (k : Optimizer) (l : Keywords) (s : String) : Value → Prop
  | given {q : ℚ} : Given l s (some q) → Wanted k l s (some (asHanded s q))
  | nothing : Given l s none → Wanted k l s none
  | default {q : ℚ} : (∀ q, ¬ Given l s (some q)) → Default k s q → Wanted k l s (some q)

/-! ### Lemmas -/

theorem bound_given {l : Keywords} (h : Distinct l) {s : String} {v : Value} (hg : Given l s v) (d : Value) :
    bound l s d = v := by
  unfold bound
  rw [lookup_of_mem h hg]

theorem bound_cases (l : Keywords) (s : String) (d : Value) :
    Given l s (bound l s d) ∨ ((∀ v, ¬ Given l s v) ∧ bound l s d = d) := by
  unfold bound
  cases hl : l.lookup s with
  | some v => exact .inl (mem_of_lookup hl)
  | none =>
    refine .inr ⟨fun v hv => ?_, rfl⟩
    induction l with
    | nil => cases hv
    | cons e l ih =>
      obtain ⟨t, u⟩ := e
      rw [List.lookup_cons] at hl
      by_cases hs : s = t
      · subst hs
        rw [beq_self_eq_true] at hl
        cases hl
      · rw [beq_eq_false_iff_ne.mpr hs] at hl
        rcases List.mem_cons.mp hv with he | hv'
        · cases he
          exact hs rfl
        · exact ih hl hv'

theorem asHanded_other {s : String} (h : s ≠ "max_iters") (q : ℚ) : asHanded s q = q := if_neg h

/-- What is stored for the own argument of an optimiser. -/
theorem mem_storeOwn {k : Optimizer} {l : Keywords} {a : String} {v : Value} (h : (a, v) ∈ storeOwn k l) :
    ∃ q, (a, q) ∈ ownArgs k ∧ (k = .adam ∧ a = "decay" ∨ v = bound l a (some q)) := by
  unfold storeOwn at h
  obtain ⟨e, he, h⟩ := List.mem_map.mp h
  obtain ⟨t, q⟩ := e
  by_cases hd : k = .adam ∧ t = "decay"
  · rw [if_pos hd] at h
    cases h
    exact ⟨q, he, .inl hd⟩
  · rw [if_neg hd] at h
    cases h
    exact ⟨q, he, .inr rfl⟩

theorem storeOwn_mem {k : Optimizer} {l : Keywords} {s : String} {q : ℚ} (h : (s, q) ∈ ownArgs k)
    (hn : ¬ Unheard k s) : (s, bound l s (some q)) ∈ storeOwn k l := by
  unfold storeOwn
  refine List.mem_map.mpr ⟨_, h, if_neg ?_⟩
  rintro ⟨rfl, hs⟩
  subst hs
  exact hn .decay

theorem own_ne {k : Optimizer} {s : String} {q : ℚ} (h : (s, q) ∈ ownArgs k) : s ∉ baseNames := by
  have key : ∀ e ∈ ownArgs k, e.1 ∉ baseNames := by cases k <;> decide
  exact key _ h

theorem own_climin {k : Optimizer} {s : String} {q : ℚ} (h : (s, q) ∈ ownArgs k) : needsClimin k = true := by
  cases k <;> first | rfl | cases h

theorem passed_mem {n : String} {v : Value} {a : String} {u : Value} :
    (a, u) ∈ passed n v ↔ a = n ∧ u = v ∧ v.isSome := by
  unfold passed
  split
  · rename_i h
    simp [h]
  · rename_i h
    simp [h]

/-- Settings other than those silently ignored are handed over under every name the routine has for them, or
named in a warning. -/
theorem handed {k : Optimizer} {l : Keywords} (hd : Distinct l) {s : String} {q : ℚ} (hg : Given l s (some q))
    (hk : Known k s) (hn : ¬ Unheard k s) {m : ℚ} (hm : bound l "max_iters" (some 1000) = some m) :
    s ∈ early k l ++ (handOver (objOf k l m)).1 ∨ (∃ a, Means k s a) ∧
      ∀ a, Means k s a → (a, some (asHanded s q)) ∈ (handOver (objOf k l m)).2 := by
  rcases hk with hb | ⟨d, ho⟩
  · have hi : s = "max_iters" → m = q := by
      rintro rfl
      have := bound_given hd hg (some 1000)
      rw [hm] at this
      exact Option.some.inj this
    have hv : ∀ d, bound l s d = some q := bound_given hd hg
    simp only [baseNames, List.mem_cons, List.not_mem_nil, or_false] at hb
    rcases hb with rfl | rfl | rfl | rfl | rfl | rfl | rfl
    · exact absurd .messages hn
    · by_cases hs : k = .scg
      · refine .inl (List.mem_append_left _ ?_)
        unfold early
        rw [if_pos ⟨hs, by rw [lookup_of_mem hd hg]; rfl⟩]
        exact List.mem_cons_self
      · exact absurd (.evals hs) hn
    · have := hi rfl
      subst this
      refine .inr ⟨?_, ?_⟩
      · cases k
        exacts [⟨_, .tnc_iters⟩, ⟨_, .simplex_iters⟩, ⟨_, .lbfgsb_iters⟩, ⟨_, .bfgs_iters⟩, ⟨_, .scg_iters⟩,
          ⟨_, .climin_iters rfl⟩, ⟨_, .climin_iters rfl⟩, ⟨_, .climin_iters rfl⟩]
      · intro a ha
        generalize hs : "max_iters" = s at ha
        cases ha <;> first
          | (exact absurd hs (by decide))
          | (subst hs; rename_i h; exact absurd (by decide) (own_ne h))
          | (simp [handOver, objOf, asHanded]; done)
          | (rename_i h; cases k <;> first | (cases h; done) | (simp [handOver, objOf, asHanded]; done))
    all_goals
      cases k <;> first
        | (exact absurd (by constructor; rfl) hn)
        | (exact absurd (by constructor; decide) hn)
        | (refine .inl (List.mem_append_right _ ?_)
           simp [handOver, objOf, hv, warning]
           done)
        | (refine .inr ⟨⟨_, by constructor⟩, ?_⟩
           intro a ha
           obtain ⟨s', hs, ha⟩ : ∃ s', s' = _ ∧ Means _ s' a := ⟨_, rfl, ha⟩
           cases ha <;> first
             | (exact absurd hs (by decide))
             | (rename_i h; cases h; done)
             | (simp [handOver, objOf, asHanded, hv, passed]; done))
  · have hc := own_climin ho
    have hv := bound_given hd hg (some d)
    have hne : s ≠ "max_iters" := by
      rintro rfl
      exact own_ne ho (by decide)
    refine .inr ⟨⟨s, .own ho⟩, ?_⟩
    have hmem : (s, some q) ∈ (handOver (objOf k l m)).2 := by
      have := storeOwn_mem (l := l) ho hn
      rw [hv] at this
      cases k <;> first | (cases hc; done) | exact List.mem_append_right _ this
    intro a ha
    rw [asHanded_other hne]
    cases ha with
    | own _ => exact hmem
    | climin_iters _ => exact absurd rfl hne
    | _ => cases hc

/-- Everything a routine is handed is what the user wants, or the default. -/
theorem handed_wanted {k : Optimizer} {l : Keywords} {m : ℚ} (hm : bound l "max_iters" (some 1000) = some m)
    (hd : Distinct l) {a : String} {v : Value} (h : (a, v) ∈ (handOver (objOf k l m)).2) (ha : a ≠ "max_f_eval")
    (hdec : ¬ (k = .adam ∧ a = "decay")) : ∃ s, Means k s a ∧ Wanted k l s v := by
  have hit : Wanted k l "max_iters" (some (toInt m : ℚ)) := by
    rcases bound_cases l "max_iters" (some 1000) with hg | ⟨hno, he⟩
    · rw [hm] at hg
      exact .given hg
    · rw [hm] at he
      cases he
      have h1 : ((toInt 1000 : Int) : ℚ) = 1000 := by
        have : toInt 1000 = 1000 := rfl
        rw [this]
        norm_num
      rw [h1]
      exact .default (fun q => hno _) .iters
  have htol : ∀ t n, t ≠ "max_iters" → (a, v) ∈ passed n (bound l t none) → a = n ∧ Wanted k l t v := by
    intro t n hne hp
    obtain ⟨h1, h2, h3⟩ := passed_mem.mp hp
    refine ⟨h1, ?_⟩
    rcases bound_cases l t none with hg | ⟨-, he⟩
    · obtain ⟨q, hq⟩ := Option.isSome_iff_exists.mp h3
      rw [hq] at hg
      rw [h2, hq, ← asHanded_other hne q]
      exact .given hg
    · rw [he] at h3
      cases h3
  have hscg : ∀ t d, t ≠ "max_iters" → Default k t d → Wanted k l t (some ((bound l t none).getD d)) := by
    intro t d hne hdef
    rcases bound_cases l t none with hg | ⟨hno, he⟩
    · cases hb : bound l t none with
      | some q =>
        rw [hb] at hg
        have := Wanted.given (k := k) hg
        rw [asHanded_other hne] at this
        exact this
      | none =>
        rw [hb] at hg
        refine .default (fun q hq => ?_) hdef
        have := bound_given hd hq none
        rw [hb] at this
        cases this
    · rw [he]
      exact .default (fun q => hno _) hdef
  have hown : (a, v) ∈ storeOwn k l → ∃ s, Means k s a ∧ Wanted k l s v := by
    intro h
    obtain ⟨q, hq, h2⟩ := mem_storeOwn h
    rcases h2 with h2 | h2
    · exact absurd h2 hdec
    · refine ⟨a, .own hq, ?_⟩
      have hne : a ≠ "max_iters" := by
        rintro rfl
        exact own_ne hq (by decide)
      rcases bound_cases l a (some q) with hg | ⟨hno, he⟩
      · rw [h2]
        cases hb : bound l a (some q) with
        | some p =>
          rw [hb] at hg
          have := Wanted.given (k := k) hg
          rw [asHanded_other hne] at this
          exact this
        | none =>
          rw [hb] at hg
          exact .nothing hg
      · rw [h2, he]
        exact .default (fun q => hno _) (.own hq)
  cases k with
  | tnc =>
    simp only [handOver, objOf, List.mem_append, List.mem_singleton] at h
    rcases h with ((h | h) | h) | h
    · cases h; exact ⟨_, .tnc_iters, hit⟩
    · obtain ⟨rfl, hw⟩ := htol _ _ (by decide) h; exact ⟨_, .tnc_x, hw⟩
    · obtain ⟨rfl, hw⟩ := htol _ _ (by decide) h; exact ⟨_, .tnc_f, hw⟩
    · obtain ⟨rfl, hw⟩ := htol _ _ (by decide) h; exact ⟨_, .tnc_g, hw⟩
  | simplex =>
    simp only [handOver, objOf, List.mem_append, List.mem_singleton] at h
    rcases h with (h | h) | h
    · cases h; exact ⟨_, .simplex_iters, hit⟩
    · obtain ⟨rfl, hw⟩ := htol _ _ (by decide) h; exact ⟨_, .simplex_x, hw⟩
    · obtain ⟨rfl, hw⟩ := htol _ _ (by decide) h; exact ⟨_, .simplex_f, hw⟩
  | lbfgsb =>
    simp only [handOver, objOf, List.mem_append, List.mem_cons, List.not_mem_nil, or_false] at h
    rcases h with ((h | h) | h) | h
    · cases h; exact ⟨_, .lbfgsb_evals, hit⟩
    · cases h; exact ⟨_, .lbfgsb_iters, hit⟩
    · obtain ⟨rfl, hw⟩ := htol _ _ (by decide) h; exact ⟨_, .lbfgsb_g, hw⟩
    · obtain ⟨rfl, hw⟩ := htol _ _ (by decide) h; exact ⟨_, .lbfgsb_factor, hw⟩
  | bfgs =>
    simp only [handOver, objOf, List.mem_append, List.mem_singleton] at h
    rcases h with h | h
    · cases h; exact ⟨_, .bfgs_iters, hit⟩
    · obtain ⟨rfl, hw⟩ := htol _ _ (by decide) h; exact ⟨_, .bfgs_g, hw⟩
  | scg =>
    simp only [handOver, objOf, List.mem_cons, List.not_mem_nil, or_false] at h
    rcases h with h | h | h | h | h
    · cases h; exact ⟨_, .scg_iters, hit⟩
    · cases h; exact absurd rfl ha
    · cases h; exact ⟨_, .scg_x, hscg _ _ (by decide) .scg_x⟩
    · cases h; exact ⟨_, .scg_f, hscg _ _ (by decide) .scg_f⟩
    · cases h; exact ⟨_, .scg_g, hscg _ _ (by decide) .scg_g⟩
  | adadelta | rprop | adam =>
    simp only [handOver, objOf, List.mem_append, List.mem_singleton] at h
    rcases h with h | h
    · cases h; exact ⟨_, .climin_iters rfl, hit⟩
    · exact hown h

/-! ### The claims -/

/-- `optimize` raises before it does anything iff a setting is not one of the optimiser, or `max_iters` is
`None`, or (only for the climin optimisers) climin is missing. -/
theorem refused_iff (climin : Bool) (l : Keywords) (hd : Distinct l) (k : Optimizer) :
    (∃ e, (optimize climin l (.named k)).outcome = .error e) ↔
      (∃ s v, Given l s v ∧ ¬ Known k s) ∨ Given l "max_iters" none ∨ (needsClimin k = true ∧ climin = false) := by
  rw [optimize_named, ← unknown_iff]
  dsimp only
  have hno : (bound l "max_iters" (some 1000) = none) ↔ Given l "max_iters" none := by
    constructor
    · intro h
      rcases bound_cases l "max_iters" (some 1000) with hg | ⟨-, he⟩
      · rw [h] at hg; exact hg
      · rw [h] at he; cases he
    · exact fun h => bound_given hd h _
  rw [← hno]
  cases unknown k l with
  | true => simp
  | false =>
    cases bound l "max_iters" (some 1000) with
    | none => simp
    | some m => cases h1 : needsClimin k <;> cases climin <;> simp

/-- Every setting given to `optimize` with the name of an optimiser leads to an exception, or is named in a
warning, or is handed to the routine with the value given, under each name the routine has for it. Missing
for the full claim: `unheard_fails`. -/
theorem heard_partial (climin : Bool) (l : Keywords) (hd : Distinct l) (k : Optimizer) (s : String) (q : ℚ)
    (hg : Given l s (some q)) (hn : ¬ Unheard k s) :
    (∃ e, (optimize climin l (.named k)).outcome = .error e) ∨ s ∈ (optimize climin l (.named k)).warned ∨
    ∃ args, (optimize climin l (.named k)).outcome = .ok (k, args) ∧ (∃ a, Means k s a) ∧
      ∀ a, Means k s a → (a, some (asHanded s q)) ∈ args := by
  cases hr : (optimize climin l (.named k)).outcome with
  | error e => exact .inl ⟨e, rfl⟩
  | ok r =>
    right
    have hnot : ¬ ∃ e, (optimize climin l (.named k)).outcome = .error e := by
      rintro ⟨e, he⟩
      rw [hr] at he
      cases he
    rw [refused_iff climin l hd k] at hnot
    have hk : Known k s := by
      by_contra hk
      exact hnot (.inl ⟨s, _, hg, hk⟩)
    have hu : unknown k l = false := by
      rw [← Bool.not_eq_true]
      exact fun h => hnot (.inl ((unknown_iff k l).mp h))
    have hc : (needsClimin k && !climin) = false := by
      rw [← Bool.not_eq_true]
      intro h
      rw [Bool.and_eq_true, Bool.not_eq_true'] at h
      exact hnot (.inr (.inr h))
    rw [optimize_named] at hr ⊢
    dsimp only at hr ⊢
    simp only [hu, hc, Bool.false_eq_true, if_false] at hr ⊢
    cases hm : bound l "max_iters" (some 1000) with
    | none =>
      rw [hm] at hr
      cases hr
    | some m =>
      rw [hm] at hr
      dsimp only at hr ⊢
      cases hr
      rcases handed hd hg hk hn hm with h | h
      · exact .inl h
      · exact .inr ⟨_, rfl, h⟩

/-- A routine is handed nothing else: every argument is a setting with the value given or its default.
Missing for the full claim: the argument `max_f_eval` of `SCG`, which it does not look at, and `decay` of Adam
(`unheard_fails`). -/
theorem nothing_else_partial (climin : Bool) (l : Keywords) (hd : Distinct l) (k k' : Optimizer) (args : Keywords)
    (h : (optimize climin l (.named k)).outcome = .ok (k', args)) : k' = k ∧
      ∀ a v, (a, v) ∈ args → a ≠ "max_f_eval" → ¬ (k = .adam ∧ a = "decay") →
        ∃ s, Means k s a ∧ Wanted k l s v := by
  rw [optimize_named] at h
  dsimp only at h
  split at h
  · cases h
  · split at h
    · cases h
    · rename_i m hm
      split at h
      · cases h
      · cases h
        exact ⟨rfl, fun a v hv ha hdec => handed_wanted hm hd hv ha hdec⟩

theorem bound_cons_ne {l : Keywords} {s t : String} (v d : Value) (h : t ≠ s) :
    bound ((s, v) :: l) t d = bound l t d := by
  unfold bound
  rw [List.lookup_cons, beq_eq_false_iff_ne.mpr h]

/-- The settings `Unheard` have no effect at all, and nothing is said about it: `max_f_eval` with every
optimiser but SCG, `bfgs_factor` with every optimiser but L-BFGS-B, the tolerances with the climin
optimisers, and `decay` with Adam. (`messages` is in fact an argument of `optimize` itself.) -/
theorem unheard_fails (climin : Bool) (k : Optimizer) (s : String) (h : Unheard k s) (l : Keywords) (v : Value) :
    optimize climin ((s, v) :: l) (.named k) = optimize climin l (.named k) := by
  have hs : s ≠ "max_iters" := by cases h <;> decide
  have hu : unknown k ((s, v) :: l) = unknown k l := by
    have : (baseNames ++ (ownArgs k).map (·.1)).contains s = true := by
      rw [contains_iff_known]
      cases h
      case decay => exact .inr ⟨0, by decide⟩
      all_goals exact .inl (by decide)
    unfold unknown
    rw [List.any_cons, this, Bool.not_true, Bool.false_or]
  have he : early k ((s, v) :: l) = early k l := by
    unfold early
    by_cases hk : k = .scg
    · have : "max_f_eval" ≠ s := by
        intro hs
        cases h with
        | evals h => exact h hk
        | _ => exact absurd hs (by decide)
      rw [List.lookup_cons, beq_eq_false_iff_ne.mpr this]
    · rw [if_neg (fun h => hk h.1), if_neg (fun h => hk h.1)]
  have ho : ∀ m, handOver (objOf k ((s, v) :: l) m) = handOver (objOf k l m) := by
    intro m
    have hst : ∀ t ∈ (ownArgs k).map (·.1), t = s → k = .adam ∧ t = "decay" := by
      rintro t ht rfl
      cases h
      case decay => exact ⟨rfl, rfl⟩
      all_goals
        exfalso
        obtain ⟨⟨a, b⟩, h1, h2⟩ := List.mem_map.mp ht
        refine own_ne h1 ?_
        rw [show a = _ from h2]
        decide
    have hown : storeOwn k ((s, v) :: l) = storeOwn k l := by
      unfold storeOwn
      apply List.map_congr_left
      rintro ⟨t, q⟩ ht
      dsimp only
      by_cases hts : t = s
      · have := hst t (List.mem_map_of_mem (f := (·.1)) ht) hts
        rw [if_pos this, if_pos this]
      · rw [bound_cons_ne v _ hts]
    unfold handOver objOf
    rw [hown]
    cases h with
    | evals _ => simp [bound_cons_ne]
    | decay => rfl
    | messages => simp [bound_cons_ne]
    | factor h =>
      cases k <;> first | exact absurd rfl h | simp [bound_cons_ne]
    | x h => cases k <;> first | (cases h; done) | rfl
    | f h => cases k <;> first | (cases h; done) | rfl
    | g h => cases k <;> first | (cases h; done) | rfl
  rw [optimize_named, optimize_named, hu, he, bound_cons_ne v _ (Ne.symm hs)]
  simp only [ho]

/-- With an optimiser object no setting given to `optimize` has an effect, nor is any refused. -/
theorem object_fails (climin : Bool) (o : Obj) (l : Keywords) :
    optimize climin l (.object o) = optimize climin [] (.object o) := rfl

/-- All restarts have the same settings. -/
theorem restarts_same (climin robust : Bool) (l : Keywords) (which : Which) (n : Nat) (r : Result)
    (h : r ∈ restarts climin robust l which n) : r = optimize climin l which := by
  induction n with
  | zero => cases h
  | succ n ih =>
    rw [restarts] at h
    split at h
    · rcases List.mem_cons.mp h with h | h
      · exact h
      · split at h
        · exact ih h
        · cases h
    · rcases List.mem_cons.mp h with h | h
      · exact h
      · exact ih h

/-- There are as many runs as asked for, unless a setting is refused: then the first run raises, or, if
`robust`, all of them do. -/
theorem restarts_count (climin robust : Bool) (l : Keywords) (which : Which) (n : Nat) :
    (robust = false → (∃ e, (optimize climin l which).outcome = .error e) →
      (restarts climin robust l which n).length = min n 1) ∧
    (robust = true ∨ (∃ r, (optimize climin l which).outcome = .ok r) →
      (restarts climin robust l which n).length = n) := by
  induction n with
  | zero => simp [restarts]
  | succ n ih =>
    rw [restarts]
    cases ho : (optimize climin l which).outcome with
    | error e =>
      cases robust with
      | true =>
        have := ih.2 (.inl rfl)
        simpa using this
      | false => simp
    | ok r =>
      have := ih.2 (.inr ⟨r, ho⟩)
      simpa using this

theorem climinLoop_eq (m : Int) (n : Nat) : climinLoop m n = max n m.toNat := by
  induction n using climinLoop.induct (m := m) with
  | case1 n h => rw [climinLoop, if_pos h]; omega
  | case2 n h ih => rw [climinLoop, if_neg h, ih]; omega

/-- Adadelta, RProp and Adam take `max_iters` steps, and at least one. -/
theorem climin_steps (m : Int) : climinLoop m 1 = max 1 m.toNat := climinLoop_eq m 1

/-! ### Examples -/

/-- `m.optimize('lbfgsb', max_iters=50.5, gtol=0.01, xtol=0.001)`. -/
def demoKeywords : Keywords := [("max_iters", some (101/2)), ("gtol", some (1/100)), ("xtol", some (1/1000))]

example : Distinct demoKeywords ∧ Given demoKeywords "gtol" (some (1/100)) := by
  constructor <;> simp [Distinct, Given, demoKeywords]

example : ¬ Unheard .lbfgsb "gtol" := by
  generalize hs : "gtol" = s
  intro h
  cases h with
  | g h => cases h
  | _ => exact absurd hs (by decide)

example : (optimize false demoKeywords (.named .lbfgsb)).warned = ["xtol"] ∧
    (optimize false demoKeywords (.named .lbfgsb)).outcome.toOption =
      some (.lbfgsb, [("maxfun", some 50), ("maxiter", some 50), ("pgtol", some (1/100))]) := by decide +kernel

/-- A misspelt setting is refused. -/
example : (optimize false [("max_iter", some 5)] (.named .scg)).outcome = .error .type := by rfl

/-- With an object made with `max_iters=1000`, `max_iters=5` is ignored, and `max_iter=5` too. -/
example : (optimize false [("max_iters", some 5), ("max_iter", some 5)] (.object (objOf .scg [] 1000))).outcome.toOption =
    some (.scg, [("maxiters", some 1000), ("max_f_eval", some 1000), ("xtol", some (1/1000000)),
      ("ftol", some (1/1000000)), ("gtol", some (1/100000))]) := by decide +kernel

/-- `m.optimize('adam', decay=0.5)`. -/
example : ((optimize true [("decay", some (1/2))] (.named .adam)).outcome.toOption.map
    (fun r => r.2.lookup "decay")) = some (some (some (1 - 1/100000000))) := by decide +kernel

example : Unheard .tnc "max_f_eval" := .evals (by decide)

/-- A misspelt setting in `optimize_restarts(robust=True)`: ten runs that all fail. -/
example : (restarts false true [("max_iter", some 5)] (.named .lbfgsb) 10).length = 10 :=
  (restarts_count _ _ _ _ _).2 (.inl rfl)

end Paramz.Run.Settings

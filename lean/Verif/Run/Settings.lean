import Verif.Run.Lookup
import Mathlib.Data.Rat.Defs
import Mathlib.Tactic.NormNum

/-!
# What becomes of the settings of an optimisation (C95)

Source: `paramz/optimization/optimization.py:28-355`, `paramz/model.py:44-190`.

Settings are keyword arguments whose values are numbers or `None`. Not modelled: `inf` and `nan` (for which
`int` raises), positional arguments, and what the routines of scipy and climin do with what they are handed.
-/

namespace Paramz.Run.Settings

open Lookup (Optimizer)

/-- A value: a number, or `none` for `None`. -/
abbrev Value := Option ℚ

/-- Keyword arguments. In a call of Python no name is given twice. -/
abbrev Keywords := List (String × Value)

/-- The value of the argument `s` when the keywords `l` are bound to a signature with this default. -/
def bound (l : Keywords) (s : String) (default : Value) : Value :=
  match l.lookup s with
  | some v => v
  | none => default

/-- The arguments of `Optimizer.__init__` (optimization.py:30-31). -/
def baseNames : List String := ["messages", "max_f_eval", "max_iters", "ftol", "gtol", "xtol", "bfgs_factor"]

/-- The arguments of the constructors of the climin optimisers, with defaults (optimization.py:253, 280, 316-321). -/
def ownArgs : Optimizer → List (String × ℚ)
  | .adadelta => [("step_rate", 1/10), ("decay", 9/10), ("momentum", 0)]
  | .rprop => [("step_shrink", 1/2), ("step_grow", 12/10), ("min_step", 1/1000000), ("max_step", 1),
      ("changes_max", 1/10)]
  | .adam => [("step_rate", 2/10000), ("decay", 0), ("decay_mom1", 1/10), ("decay_mom2", 1/1000),
      ("momentum", 0), ("offset", 1/100000000)]
  | _ => []

/-- Which optimisers need the package climin. -/
def needsClimin : Optimizer → Bool
  | .adadelta | .rprop | .adam => true
  | _ => false

/-- An optimiser object, as far as settings go. `own` are the attributes of the climin optimisers. -/
structure Obj where
  kind : Optimizer
  maxFEval : Int
  maxIters : Int
  ftol : Value
  gtol : Value
  xtol : Value
  bfgsFactor : Value
  own : Keywords
  deriving DecidableEq, Repr

/-- Why there is no optimisation: `TypeError` or `ImportError`. -/
inductive Refusal
  | type | climin
  deriving DecidableEq, Repr

/-- `int(q)` cuts off the decimal places. -/
def toInt (q : ℚ) : Int := q.num.tdiv q.den

/-- The attributes a constructor stores for its own arguments: as given, except `self.decay = 1-1e-8`
(optimization.py:324-329). -/
def storeOwn (k : Optimizer) (l : Keywords) : Keywords :=
  (ownArgs k).map (fun e =>
    if k = .adam ∧ e.1 = "decay" then (e.1, some (1 - 1/100000000)) else (e.1, bound l e.1 (some e.2)))

/-- The constructors (optimization.py:30-47, 71-73, 101-103, 135-137, 162-164, 223-228, 253-260, 280-289, 316-331). First the
settings named in warnings. `climin`: the package is installed. `max_f_eval` is set to `int(max_iters)`
(line 40), `int(None)` raises. -/
def construct (climin : Bool) (k : Optimizer) (l : Keywords) : List String × Except Refusal Obj :=
  (if k = .scg ∧ (l.lookup "max_f_eval").isSome then ["max_f_eval"] else [],
    if l.any (fun e => !(baseNames ++ (ownArgs k).map (·.1)).contains e.1) then .error .type
    else match bound l "max_iters" (some 1000) with
      | none => .error .type
      | some m =>
        if needsClimin k && !climin then .error .climin
        else .ok
          { kind := k, maxFEval := toInt m, maxIters := toInt m, ftol := bound l "ftol" none,
            gtol := bound l "gtol" none, xtol := bound l "xtol" none, bfgsFactor := bound l "bfgs_factor" none,
            own := storeOwn k l })

/-- `if value is not None: opt_dict[name] = value`. -/
def passed (name : String) (v : Value) : Keywords := if v.isSome then [(name, v)] else []

/-- `if value is not None: print("WARNING: ...")`. -/
def warning (name : String) (v : Value) : List String := if v.isSome then [name] else []

/-- `opt`: the settings named in warnings, and the arguments the routine is called with (besides functions,
start and display). `opt_tnc` 85-94, `opt_lbfgsb` 114-124, `opt_bfgs` 146-155, `opt_simplex` 173-182, `opt_SCG`
234-238 with the defaults of `SCG` (scg.py:58-63), climin 268, 298-301, 340-343. The loop of the climin
optimisers (270-274, 306-310, 348-352), which ends with the first step whose `n_iter` is at least `max_iters`, is
written as an argument `n_iter`. -/
def handOver (o : Obj) : List String × Keywords :=
  match o.kind with
  | .tnc => ([], [("maxfun", some (o.maxFEval : ℚ))] ++ passed "xtol" o.xtol ++ passed "ftol" o.ftol ++ passed "pgtol" o.gtol)
  | .lbfgsb => (warning "xtol" o.xtol ++ warning "ftol" o.ftol,
      [("maxfun", some (o.maxIters : ℚ)), ("maxiter", some (o.maxIters : ℚ))] ++ passed "pgtol" o.gtol ++
        passed "factr" o.bfgsFactor)
  | .bfgs => (warning "xtol" o.xtol ++ warning "ftol" o.ftol,
      [("maxiter", some (o.maxIters : ℚ))] ++ passed "gtol" o.gtol)
  | .simplex => (warning "gtol" o.gtol,
      [("maxfun", some (o.maxFEval : ℚ))] ++ passed "xtol" o.xtol ++ passed "ftol" o.ftol)
  | .scg => ([], [("maxiters", some (o.maxIters : ℚ)), ("max_f_eval", some (o.maxFEval : ℚ)), ("xtol", some (o.xtol.getD (1/1000000))),
      ("ftol", some (o.ftol.getD (1/1000000))), ("gtol", some (o.gtol.getD (1/100000)))])
  | .adadelta | .rprop | .adam => ([], [("n_iter", some (o.maxIters : ℚ))] ++ o.own)

/-- The optimiser given to `optimize`: a name, looked up as in C48, or an object. -/
inductive Which
  | named (k : Optimizer)
  | object (o : Obj)

/-- What comes of a call of `optimize`: the settings named in warnings, and a refusal or the routine with its
arguments. -/
structure Result where
  warned : List String
  outcome : Except Refusal (Optimizer × Keywords)

/-- `optimize(optimizer, **l)` (model.py:65-111), for a model with something to optimise. `l` are the settings;
the arguments `start`, `messages`, `ipython_notebook`, `clear_after_finish` of `optimize` itself are left out. -/
def optimize (climin : Bool) (l : Keywords) : Which → Result
  | .object o => ⟨(handOver o).1, .ok (o.kind, (handOver o).2)⟩
  | .named k =>
    match construct climin k (("max_iters", bound l "max_iters" (some 1000)) :: l.filter (fun e => e.1 != "max_iters")) with
    | (w, .error e) => ⟨w, .error e⟩
    | (w, .ok o) => ⟨w ++ (handOver o).1, .ok (o.kind, (handOver o).2)⟩

/-- The optimisations of `optimize_restarts(n, robust, **l)` (model.py:167-181 and, in several processes, 44-47 and
159): each with the same settings, up to the first refusal unless `robust`. -/
def restarts (climin robust : Bool) (l : Keywords) (which : Which) : Nat → List Result
  | 0 => []
  | n + 1 =>
    match (optimize climin l which).outcome with
    | .error _ => optimize climin l which :: if robust then restarts climin robust l which n else []
    | .ok _ => optimize climin l which :: restarts climin robust l which n

/-- The loop of the climin optimisers (optimization.py:270-274, 306-310, 348-352): `n` counts the steps taken, `m` is `max_iters`.
climin counts steps from 1 and never ends by itself. -/
def climinLoop (m : Int) (n : Nat) : Nat := if m ≤ n then n else climinLoop m (n + 1)
termination_by (m - n).toNat
decreasing_by omega

/-! ### Specification -/

/-- What a setting is called by the routine that is to heed it: the manuals of scipy and climin. -/
inductive Means : Optimizer → String → String → Prop
  | tnc_iters : Means .tnc "max_iters" "maxfun"
  | tnc_x : Means .tnc "xtol" "xtol"
  | tnc_f : Means .tnc "ftol" "ftol"
  | tnc_g : Means .tnc "gtol" "pgtol"
  | lbfgsb_evals : Means .lbfgsb "max_iters" "maxfun"
  | lbfgsb_iters : Means .lbfgsb "max_iters" "maxiter"
  | lbfgsb_g : Means .lbfgsb "gtol" "pgtol"
  | lbfgsb_factor : Means .lbfgsb "bfgs_factor" "factr"
  | bfgs_iters : Means .bfgs "max_iters" "maxiter"
  | bfgs_g : Means .bfgs "gtol" "gtol"
  | simplex_iters : Means .simplex "max_iters" "maxfun"
  | simplex_x : Means .simplex "xtol" "xtol"
  | simplex_f : Means .simplex "ftol" "ftol"
  | scg_iters : Means .scg "max_iters" "maxiters"
  | scg_x : Means .scg "xtol" "xtol"
  | scg_f : Means .scg "ftol" "ftol"
  | scg_g : Means .scg "gtol" "gtol"
  | climin_iters {k : Optimizer} : needsClimin k = true → Means k "max_iters" "n_iter"
  | own {k : Optimizer} {s : String} {q : ℚ} : (s, q) ∈ ownArgs k → Means k s s

/-- The value a routine gets for a setting: numbers of iterations are whole numbers. -/
def asHanded (s : String) (q : ℚ) : ℚ := if s = "max_iters" then (toInt q : ℚ) else q

/-- The settings an optimiser takes. -/
def Known (k : Optimizer) (s : String) : Prop := s ∈ baseNames ∨ ∃ q, (s, q) ∈ ownArgs k

/-- The settings that are accepted and have no effect, without a word (findings). -/
inductive Unheard : Optimizer → String → Prop
  | evals {k : Optimizer} : k ≠ .scg → Unheard k "max_f_eval"
  | factor {k : Optimizer} : k ≠ .lbfgsb → Unheard k "bfgs_factor"
  | x {k : Optimizer} : needsClimin k = true → Unheard k "xtol"
  | f {k : Optimizer} : needsClimin k = true → Unheard k "ftol"
  | g {k : Optimizer} : needsClimin k = true → Unheard k "gtol"
  | decay : Unheard .adam "decay"
  | messages {k : Optimizer} : Unheard k "messages"

/-- The settings that are given. -/
def Given (l : Keywords) (s : String) (v : Value) : Prop := (s, v) ∈ l

/-- No name twice. -/
def Distinct (l : Keywords) : Prop := (l.map (·.1)).Nodup

/-! ### Lemmas -/

theorem lookup_of_mem {l : Keywords} (h : Distinct l) {s : String} {v : Value} (hm : (s, v) ∈ l) :
    l.lookup s = some v := by
  induction l with
  | nil => cases hm
  | cons e l ih =>
    obtain ⟨t, u⟩ := e
    rw [Distinct, List.map_cons, List.nodup_cons] at h
    rw [List.lookup_cons]
    rcases List.mem_cons.mp hm with he | hm'
    · cases he; simp
    · have : (s == t) = false := by
        rw [beq_eq_false_iff_ne]
        rintro rfl
        exact h.1 (List.mem_map_of_mem (f := (·.1)) hm')
      rw [this]
      exact ih h.2 hm'

theorem mem_of_lookup {l : Keywords} {s : String} {v : Value} (h : l.lookup s = some v) : (s, v) ∈ l := by
  induction l with
  | nil => cases h
  | cons e l ih =>
    obtain ⟨t, u⟩ := e
    rw [List.lookup_cons] at h
    by_cases hs : s = t
    · subst hs
      rw [beq_self_eq_true] at h
      cases h
      exact List.mem_cons_self
    · rw [beq_eq_false_iff_ne.mpr hs] at h
      exact List.mem_cons_of_mem _ (ih h)

/-- What `optimize` gives to the constructor. -/
def toConstructor (l : Keywords) : Keywords :=
  ("max_iters", bound l "max_iters" (some 1000)) :: l.filter (fun e => e.1 != "max_iters")

theorem lookup_filter (l : Keywords) (s t : String) (h : s ≠ t) :
    (l.filter (fun e => e.1 != t)).lookup s = l.lookup s := by
  induction l with
  | nil => rfl
  | cons e l ih =>
    obtain ⟨u, v⟩ := e
    rw [List.filter_cons]
    by_cases hu : u = t
    · subst hu
      rw [if_neg (by simp), ih, List.lookup_cons, beq_eq_false_iff_ne.mpr h]
    · rw [if_pos (by simpa using hu), List.lookup_cons, List.lookup_cons, ih]

theorem bound_to (l : Keywords) (s : String) (d : Value) (h : s ≠ "max_iters") :
    bound (toConstructor l) s d = bound l s d := by
  unfold bound toConstructor
  rw [List.lookup_cons, beq_eq_false_iff_ne.mpr h]
  dsimp only
  rw [lookup_filter l s _ h]

theorem bound_to_iters (l : Keywords) (d : Value) :
    bound (toConstructor l) "max_iters" d = bound l "max_iters" (some 1000) := by
  simp [bound, toConstructor]

theorem lookup_to (l : Keywords) (s : String) (h : s ≠ "max_iters") : (toConstructor l).lookup s = l.lookup s := by
  unfold toConstructor
  rw [List.lookup_cons, beq_eq_false_iff_ne.mpr h]
  dsimp only
  rw [lookup_filter l s _ h]

/-- Settings an optimiser does not take. -/
def unknown (k : Optimizer) (l : Keywords) : Bool :=
  l.any (fun e => !(baseNames ++ (ownArgs k).map (·.1)).contains e.1)

theorem unknown_to (k : Optimizer) (l : Keywords) : unknown k (toConstructor l) = unknown k l := by
  have h1 : (baseNames ++ (ownArgs k).map (·.1)).contains "max_iters" = true := by
    rw [List.contains_iff_mem]
    exact List.mem_append_left _ (by decide)
  unfold unknown toConstructor
  rw [List.any_cons, h1, Bool.not_true, Bool.false_or]
  induction l with
  | nil => rfl
  | cons e l ih =>
    rw [List.filter_cons]
    by_cases he : e.1 = "max_iters"
    · rw [if_neg (by simpa using he), ih, List.any_cons, he, h1, Bool.not_true, Bool.false_or]
    · rw [if_pos (by simpa using he), List.any_cons, List.any_cons, ih]

theorem contains_iff_known (k : Optimizer) (s : String) :
    (baseNames ++ (ownArgs k).map (·.1)).contains s = true ↔ Known k s := by
  rw [List.contains_iff_mem, List.mem_append, List.mem_map]
  constructor
  · rintro (h | ⟨e, h, rfl⟩)
    · exact .inl h
    · exact .inr ⟨e.2, h⟩
  · rintro (h | ⟨q, h⟩)
    · exact .inl h
    · exact .inr ⟨_, h, rfl⟩

theorem unknown_iff (k : Optimizer) (l : Keywords) :
    unknown k l = true ↔ ∃ s v, Given l s v ∧ ¬ Known k s := by
  unfold unknown
  rw [List.any_eq_true]
  constructor
  · rintro ⟨e, he, h⟩
    refine ⟨e.1, e.2, he, fun hk => ?_⟩
    rw [(contains_iff_known k e.1).mpr hk] at h
    cases h
  · rintro ⟨s, v, hg, h⟩
    refine ⟨(s, v), hg, ?_⟩
    have : (baseNames ++ (ownArgs k).map (·.1)).contains s = false := by
      rw [← Bool.not_eq_true]
      exact fun hc => h ((contains_iff_known k s).mp hc)
    rw [this]
    rfl

/-- The object `optimize` makes. -/
def objOf (k : Optimizer) (l : Keywords) (m : ℚ) : Obj :=
  { kind := k, maxFEval := toInt m, maxIters := toInt m, ftol := bound l "ftol" none,
    gtol := bound l "gtol" none, xtol := bound l "xtol" none, bfgsFactor := bound l "bfgs_factor" none,
    own := storeOwn k l }

theorem storeOwn_to (k : Optimizer) (l : Keywords) : storeOwn k (toConstructor l) = storeOwn k l := by
  unfold storeOwn
  apply List.map_congr_left
  rintro ⟨s, q⟩ h
  have hs : s ≠ "max_iters" := by
    rintro rfl
    cases k <;> simp [ownArgs] at h
  simp only [bound_to l s _ hs]

/-- The warning of `opt_SCG.__init__`. -/
def early (k : Optimizer) (l : Keywords) : List String :=
  if k = .scg ∧ (l.lookup "max_f_eval").isSome then ["max_f_eval"] else []

theorem optimize_named (climin : Bool) (l : Keywords) (k : Optimizer) :
    optimize climin l (.named k) =
      ⟨early k l ++ (if unknown k l then [] else match bound l "max_iters" (some 1000) with
          | none => []
          | some m => if needsClimin k && !climin then [] else (handOver (objOf k l m)).1),
        if unknown k l then .error .type else match bound l "max_iters" (some 1000) with
          | none => .error .type
          | some m => if needsClimin k && !climin then .error .climin
            else .ok (k, (handOver (objOf k l m)).2)⟩ := by
  have h1 : construct climin k (toConstructor l) = (early k l,
      if unknown k l then .error .type else match bound l "max_iters" (some 1000) with
        | none => .error .type
        | some m => if needsClimin k && !climin then .error .climin else .ok (objOf k l m)) := by
    unfold construct early
    rw [lookup_to l _ (by decide), bound_to_iters, bound_to l "ftol" _ (by decide), bound_to l "gtol" _ (by decide),
      bound_to l "xtol" _ (by decide), bound_to l "bfgs_factor" _ (by decide), storeOwn_to]
    have := unknown_to k l
    unfold unknown at this
    rw [this]
    rfl
  unfold optimize
  dsimp only
  change (match construct climin k (toConstructor l) with
    | (w, .error e) => (⟨w, .error e⟩ : Result)
    | (w, .ok o) => ⟨w ++ (handOver o).1, .ok (o.kind, (handOver o).2)⟩) = _
  rw [h1]
  cases hu : unknown k l with
  | true => simp
  | false =>
    cases hb : bound l "max_iters" (some 1000) with
    | none => simp
    | some m =>
      cases hc : (needsClimin k && !climin) <;> simp [objOf]

end Paramz.Run.Settings

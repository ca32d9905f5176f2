import Verif.Run.Failures
import Mathlib.Order.Nat

/-!
# Random restarts (C46)

Source: `paramz/model.py:65-190` (not the parallel variant).
-/

namespace Paramz.Run

/-- A final objective value. -/
inductive Obj (F : Type)
  | num (f : F)
  | nan
  deriving DecidableEq, Repr

/-- `x_opt`: an array of its own, or the very array that `optimizer_array` gave as the start (without fixed
parameters this is the model's `_optimizer_copy_`, parameter_core.py:93). An optimiser that makes no step
may return its start, SCG does (`paramz/optimization/scg.py:120, 174`). -/
inductive Ref (P : Type)
  | own (p : P)
  | live
  deriving DecidableEq, Repr

/-- An entry of `optimization_runs`: `f_opt` and `x_opt`. -/
structure Opt (F P : Type) where
  f : Obj F
  x : Ref P
  deriving DecidableEq, Repr

/-- What one call of `optimize` (after `randomize` for all but the first) comes to. `start` is the content of
`optimizer_array` when it is read (model.py:98). `finished`: the optimiser returned, its `x_opt` was set
(model.py:113) and it was appended (115). `nothing`: all fixed or no parameters (model.py:89-91).
`failed`: an exception, leaving the parameters at `p`; `stop` stands for exceptions like
`KeyboardInterrupt` that `except Exception` does not catch. Simplified: parameters are known by their
values in optimiser space. -/
inductive Attempt (F P : Type)
  | finished (start : P) (r : Opt F P)
  | nothing (p : P)
  | failed (start : P) (e : Exc) (p : P)
  | stop (p : P)
  deriving DecidableEq, Repr

/-- How `optimize_restarts` ends early. -/
inductive Stop
  | raised (e : Exc)
  | noRuns
  | interrupted
  deriving DecidableEq, Repr

/-- `copy` is the content of `_optimizer_copy_`. -/
structure Mod (F P : Type) where
  params : P
  copy : P
  runs : List (Opt F P)

variable {F P : Type}

/-- Reading an `x_opt`. -/
def Ref.get (copy : P) : Ref P → P
  | .own p => p
  | .live => copy

/-- One pass of the loop (model.py:167-182). The message in verbose mode reads `optimization_runs[-1]`
(`IndexError`, here `noRuns`, if there is none). -/
def attempt (robust verbose : Bool) (m : Mod F P) (a : Attempt F P) : Except Stop (Mod F P) :=
  match a with
  | .finished s r => .ok ⟨r.x.get s, s, m.runs ++ [r]⟩
  | .nothing p =>
    if verbose && m.runs.isEmpty then (if robust then .ok ⟨p, m.copy, m.runs⟩ else .error .noRuns)
    else .ok ⟨p, m.copy, m.runs⟩
  | .failed s e p => if robust then .ok ⟨p, s, m.runs⟩ else .error (.raised e)
  | .stop _ => .error .interrupted

/-- `np.argmin` of a list: numpy takes the first `nan` if there is one. -/
def argminF [LinearOrder F] : List (Obj F) → Nat → Obj F → Nat → Nat
  | [], _, _, best => best
  | o :: l, i, cur, best =>
    match cur with
    | .nan => best
    | .num c =>
      match o with
      | .nan => i
      | .num f => if c ≤ f then argminF l (i + 1) (.num c) best else argminF l (i + 1) (.num f) i

def argmin [LinearOrder F] : List (Obj F) → Nat
  | [] => 0
  | o :: l => argminF l 1 o 0

/-- `optimize_restarts` (model.py:118-190). `attempts k p` is what happens in pass `k` when the parameters are
`p` before it. -/
def loop (robust verbose : Bool) (attempts : Nat → P → Attempt F P) : Nat → Nat → Mod F P → Except Stop (Mod F P)
  | 0, _, m => .ok m
  | n + 1, i, m => do
    let m ← attempt robust verbose m (attempts i m.params)
    loop robust verbose attempts n (i + 1) m

def restarts [LinearOrder F] (robust verbose : Bool) (attempts : Nat → P → Attempt F P) (n : Nat) (m : Mod F P) :
    Except Stop (Mod F P) := do
  let m' ← loop robust verbose attempts n 0 m
  match (m'.runs.drop m.runs.length)[argmin ((m'.runs.drop m.runs.length).map Opt.f)]? with
  | some r => pure { m' with params := r.x.get m'.copy }
  | none => pure { m' with params := m.params }

/-! ### Specification: what happens in the passes -/

/-- The parameters after a pass. -/
def Attempt.after : Attempt F P → P
  | .finished s r => r.x.get s
  | .nothing p => p
  | .failed _ _ p => p
  | .stop p => p

/-- The passes, one after the other, if none ends the loop. -/
def trace (attempts : Nat → P → Attempt F P) : Nat → Nat → P → List (Attempt F P)
  | 0, _, _ => []
  | n + 1, i, p => attempts i p :: trace attempts n (i + 1) (attempts i p).after

/-- The finished runs among them. -/
def finishedRuns (l : List (Attempt F P)) : List (Opt F P) :=
  l.filterMap (fun a => match a with | .finished _ r => some r | _ => none)

/-! ### Properties -/

theorem argminF_spec [LinearOrder F] : ∀ (l : List F) (pre : List F) (c : F) (best : Nat),
    pre[best]? = some c → (∀ x ∈ pre, c ≤ x) → (∀ k, k < best → ∀ x, pre[k]? = some x → c < x) →
    let b := argminF (l.map Obj.num) pre.length (.num c) best
    ∃ x, (pre ++ l)[b]? = some x ∧ (∀ y ∈ pre ++ l, x ≤ y) ∧ ∀ k, k < b → ∀ y, (pre ++ l)[k]? = some y → x < y
  | [], pre, c, best, h1, h2, h3 => by
    simp only [List.map_nil, argminF, List.append_nil]
    exact ⟨c, h1, h2, h3⟩
  | f :: l, pre, c, best, h1, h2, h3 => by
    simp only [List.map_cons, argminF]
    have e : pre ++ f :: l = (pre ++ [f]) ++ l := by simp
    have elen : pre.length + 1 = (pre ++ [f]).length := by simp
    rw [e, elen]
    obtain ⟨hb, -⟩ := List.getElem?_eq_some_iff.mp h1
    split
    · rename_i hcf
      refine argminF_spec l (pre ++ [f]) c best ?_ ?_ ?_
      · rw [List.getElem?_append_left hb]; exact h1
      · intro x hx
        rcases List.mem_append.mp hx with hx | hx
        · exact h2 x hx
        · rw [List.mem_singleton.mp hx]; exact hcf
      · intro k hk x hx
        rw [List.getElem?_append_left (by omega)] at hx
        exact h3 k hk x hx
    · rename_i hcf
      have hfc : f < c := lt_of_not_ge hcf
      refine argminF_spec l (pre ++ [f]) f pre.length ?_ ?_ ?_
      · simp
      · intro x hx
        rcases List.mem_append.mp hx with hx | hx
        · exact le_of_lt (lt_of_lt_of_le hfc (h2 x hx))
        · rw [List.mem_singleton.mp hx]
      · intro k hk x hx
        rw [List.getElem?_append_left hk] at hx
        exact lt_of_lt_of_le hfc (h2 x (List.mem_of_getElem? hx))

/-- Without `nan`, `argmin` gives the first position of the least value. -/
theorem argmin_spec [LinearOrder F] (l : List F) (hne : l ≠ []) :
    ∃ x, l[argmin (l.map Obj.num)]? = some x ∧ (∀ y ∈ l, x ≤ y) ∧
      ∀ k, k < argmin (l.map Obj.num) → ∀ y, l[k]? = some y → x < y := by
  cases l with
  | nil => exact absurd rfl hne
  | cons c l =>
    have := argminF_spec l [c] c 0 rfl (by simp) (fun k hk => by omega)
    exact this

/-- If the loop ends, the new runs are the finished passes, in order. -/
theorem loop_runs (robust verbose : Bool) (attempts : Nat → P → Attempt F P) : ∀ (n i : Nat) (m m' : Mod F P),
    loop robust verbose attempts n i m = .ok m' →
    m'.runs = m.runs ++ finishedRuns (trace attempts n i m.params)
  | 0, _, m, m', h => by cases h; simp [trace, finishedRuns]
  | n + 1, i, m, m', h => by
    rw [loop] at h
    cases ha : attempt robust verbose m (attempts i m.params) with
    | error e => rw [ha] at h; cases h
    | ok m1 =>
      rw [ha] at h
      have ih := loop_runs robust verbose attempts n (i + 1) m1 m' h
      rw [ih, trace]
      unfold attempt at ha
      cases hk : attempts i m.params with
      | finished st r =>
        rw [hk] at ha
        cases ha
        simp [finishedRuns, Attempt.after]
      | nothing p =>
        rw [hk] at ha
        simp only at ha
        have : m1 = ⟨p, m.copy, m.runs⟩ := by
          split at ha
          · split at ha
            · cases ha; rfl
            · cases ha
          · cases ha; rfl
        subst this
        simp [finishedRuns, Attempt.after]
      | failed st e p =>
        rw [hk] at ha
        simp only at ha
        have : m1 = ⟨p, st, m.runs⟩ := by
          split at ha
          · cases ha; rfl
          · cases ha
        subst this
        simp [finishedRuns, Attempt.after]
      | stop p => rw [hk] at ha; cases ha

/-- At least one run finished; `fs` lists their final objectives and parameters, no objective is `nan` and
every run has an array of its own for its result. Then the parameters are those of the first among the new
runs with the least objective, and the new runs are recorded. Missing for the full claim:
`best_run_nan_fails`, `best_run_shared_fails`. -/
theorem best_run_partial [LinearOrder F] (robust verbose : Bool) (attempts : Nat → P → Attempt F P) (n : Nat)
    (m m' : Mod F P) (h : restarts robust verbose attempts n m = .ok m') (fs : List (F × P))
    (hfs : finishedRuns (trace attempts n 0 m.params) = fs.map (fun e => ⟨.num e.1, .own e.2⟩))
    (hne : fs ≠ []) :
    m'.runs = m.runs ++ finishedRuns (trace attempts n 0 m.params) ∧
    ∃ (k : Nat) (e : F × P), fs[k]? = some e ∧ m'.params = e.2 ∧
      (∀ g ∈ fs, e.1 ≤ g.1) ∧ ∀ j, j < k → ∀ g, fs[j]? = some g → e.1 < g.1 := by
  unfold restarts at h
  cases hl : loop robust verbose attempts n 0 m with
  | error e => rw [hl] at h; cases h
  | ok m1 =>
    rw [hl] at h
    have hr := loop_runs robust verbose attempts n 0 m m1 hl
    have hd : m1.runs.drop m.runs.length = fs.map (fun e => ⟨.num e.1, .own e.2⟩) := by
      rw [hr, List.drop_left, hfs]
    have h : (match (m1.runs.drop m.runs.length)[argmin ((m1.runs.drop m.runs.length).map Opt.f)]? with
      | some r => pure { m1 with params := r.x.get m1.copy }
      | none => pure { m1 with params := m.params } : Except Stop (Mod F P)) = .ok m' := h
    have hm : (fs.map (fun e => (⟨.num e.1, .own e.2⟩ : Opt F P))).map Opt.f = (fs.map Prod.fst).map Obj.num := by
      simp
    rw [hd, hm] at h
    obtain ⟨f, h1, h2, h3⟩ := argmin_spec (fs.map Prod.fst) (by simpa using hne)
    rw [List.getElem?_map] at h1
    obtain ⟨e, he, rfl⟩ := Option.map_eq_some_iff.mp h1
    rw [List.getElem?_map, he] at h
    cases h
    refine ⟨hr, _, e, he, rfl, fun g hg => h2 _ (List.mem_map_of_mem hg), fun j hj g hg => h3 j hj _ ?_⟩
    rw [List.getElem?_map, hg]; rfl

/-- No run finished: the parameters are the ones from the beginning. -/
theorem all_failed [LinearOrder F] (robust verbose : Bool) (attempts : Nat → P → Attempt F P) (n : Nat)
    (m m' : Mod F P) (h : restarts robust verbose attempts n m = .ok m')
    (hne : finishedRuns (trace attempts n 0 m.params) = []) : m'.params = m.params ∧ m'.runs = m.runs := by
  unfold restarts at h
  cases hl : loop robust verbose attempts n 0 m with
  | error e => rw [hl] at h; cases h
  | ok m1 =>
    rw [hl] at h
    have hr := loop_runs robust verbose attempts n 0 m m1 hl
    have hd : m1.runs.drop m.runs.length = [] := by rw [hr, List.drop_left, hne]
    have h : (match (m1.runs.drop m.runs.length)[argmin ((m1.runs.drop m.runs.length).map Opt.f)]? with
      | some r => pure { m1 with params := r.x.get m1.copy }
      | none => pure { m1 with params := m.params } : Except Stop (Mod F P)) = .ok m' := h
    rw [hd] at h
    cases h
    exact ⟨rfl, by rw [hr, hne, List.append_nil]⟩

/-- With `robust`, exceptions do not get out (except those like `KeyboardInterrupt`). -/
theorem robust_finishes [LinearOrder F] (verbose : Bool) (attempts : Nat → P → Attempt F P)
    (hs : ∀ i p q, attempts i p ≠ .stop q) (n : Nat) (m : Mod F P) :
    ∃ m', restarts true verbose attempts n m = .ok m' := by
  have key : ∀ (n i : Nat) (m : Mod F P), ∃ m', loop true verbose attempts n i m = .ok m' := by
    intro n
    induction n with
    | zero => exact fun i m => ⟨m, rfl⟩
    | succ n ih =>
      intro i m
      rw [loop]
      have : ∃ m1, attempt true verbose m (attempts i m.params) = .ok m1 := by
        unfold attempt
        cases hk : attempts i m.params with
        | finished st r => exact ⟨_, rfl⟩
        | nothing p => simp only [if_true]; split <;> exact ⟨_, rfl⟩
        | failed st e p => exact ⟨_, rfl⟩
        | stop p => exact absurd hk (hs i _ p)
      obtain ⟨m1, h1⟩ := this
      rw [h1]
      exact ih (i + 1) m1
  obtain ⟨m1, h1⟩ := key n 0 m
  unfold restarts
  rw [h1]
  show ∃ m', (match (m1.runs.drop m.runs.length)[argmin ((m1.runs.drop m.runs.length).map Opt.f)]? with
      | some r => pure { m1 with params := r.x.get m1.copy }
      | none => pure { m1 with params := m.params } : Except Stop (Mod F P)) = .ok m'
  split <;> exact ⟨_, rfl⟩

/-- Without `robust`, the first failure gets out. -/
theorem first_failure_propagates [LinearOrder F] (verbose : Bool) (attempts : Nat → P → Attempt F P) (n : Nat)
    (m : Mod F P) (A B : List (Attempt F P)) (s : P) (e : Exc) (p : P)
    (ht : trace attempts n 0 m.params = A ++ .failed s e p :: B)
    (hA : ∀ a ∈ A, ∃ s r, a = .finished s r) :
    restarts false verbose attempts n m = .error (.raised e) := by
  have key : ∀ (n i : Nat) (m : Mod F P) (A : List (Attempt F P)),
      trace attempts n i m.params = A ++ .failed s e p :: B → (∀ a ∈ A, ∃ s r, a = .finished s r) →
      loop false verbose attempts n i m = .error (.raised e) := by
    intro n
    induction n with
    | zero => intro i m A ht _; rw [trace] at ht; cases A <;> cases ht
    | succ n ih =>
      intro i m A ht hA
      rw [trace] at ht
      rw [loop]
      cases A with
      | nil =>
        rw [List.nil_append, List.cons.injEq] at ht
        rw [ht.1]; rfl
      | cons a A =>
        rw [List.cons_append, List.cons.injEq] at ht
        obtain ⟨st, r, rfl⟩ := hA a List.mem_cons_self
        obtain ⟨ht1, ht2⟩ := ht
        rw [ht1] at ht2 ⊢
        exact ih (i + 1) ⟨r.x.get st, st, m.runs ++ [r]⟩ A ht2 (fun a ha => hA a (List.mem_cons_of_mem _ ha))
  unfold restarts
  rw [key n 0 m A ht hA]
  rfl

def demoAttempts : Nat → Nat → Attempt Nat Nat := fun i p =>
  [.finished p ⟨.num 7, .own 1⟩, .failed 3 .linAlg (p + 100), .finished 4 ⟨.num 3, .own (p + 1)⟩,
    .finished 6 ⟨.num 3, .own 5⟩].getD i (.nothing p)

def ofResult (r : Except Stop (Mod Nat Nat)) : Option (Nat × List (Opt Nat Nat)) := match r with
  | .ok m => some (m.params, m.runs)
  | .error _ => none

example : ofResult (restarts true true demoAttempts 6 ⟨0, 0, [⟨.num 1, .own 9⟩]⟩) =
    some (102, [⟨.num 1, .own 9⟩, ⟨.num 7, .own 1⟩, ⟨.num 3, .own 102⟩, ⟨.num 3, .own 5⟩]) := by decide +kernel

example : finishedRuns (trace demoAttempts 6 0 0) = [(7, 1), (3, 102), (3, 5)].map
    (fun e => ⟨.num e.1, .own e.2⟩) := by decide +kernel

example : trace demoAttempts 3 0 0 = [.finished 0 ⟨.num 7, .own 1⟩] ++ .failed 3 .linAlg 101 ::
    [.finished 4 ⟨.num 3, .own 102⟩] := by decide +kernel

/-- A run that ends with objective `nan` is preferred to all others. -/
theorem best_run_nan_fails : ofResult (restarts true true
    (fun i _ => if i = 1 then .finished 0 ⟨.nan, .own 8⟩ else .finished 0 ⟨.num 2, .own 4⟩) 3 ⟨0, 0, []⟩) =
    some (8, [⟨.num 2, .own 4⟩, ⟨.nan, .own 8⟩, ⟨.num 2, .own 4⟩]) := by decide +kernel

/-- The model is at the best point, `20`, with objective `1`, from where no step is made; a second run from
a random point `70` reaches `75` with objective `9`. The best run is found to be the first, but its result
is by now the start of the second: the parameters become `70`. -/
theorem best_run_shared_fails : ofResult (restarts false true
    (fun i p => if i = 0 then .finished p ⟨.num 1, .live⟩ else .finished 70 ⟨.num 9, .own 75⟩) 2 ⟨20, 20, []⟩) =
    some (70, [⟨.num 1, .live⟩, ⟨.num 9, .own 75⟩]) := by decide +kernel

end Paramz.Run

import Mathlib.Order.Basic
import Mathlib.Data.List.Induction

/-!
# Failed evaluations during optimisation (C45)

Source: `paramz/model.py:51-52, 225-282`.
-/

namespace Paramz.Run

/-- Exceptions: the three kinds that are handled, and all others. -/
inductive Exc
  | linAlg
  | zeroDivision
  | value
  | other (n : Nat)
  deriving DecidableEq, Repr

/-- `except (LinAlgError, ZeroDivisionError, ValueError)`. -/
def Exc.numerical : Exc → Bool
  | .other _ => false
  | _ => true

/-- What a call gives back. `clipped g`: the gradient computed again, clipped. -/
inductive Res (V G : Type)
  | objective (v : V)
  | grads (g : G)
  | both (v : V) (g : G)
  | infinite
  | clipped (g : G)
  | infClipped (g : G)
  | raised (e : Exc)
  deriving DecidableEq, Repr

/-- `_allowed_failures` (model.py:52). -/
def allowed : Nat := 10

variable {V G : Type}

/-- `_objective` (model.py:248-269): `body` is the outcome of setting the parameters and computing the
objective. The first component is `_fail_count`. -/
def objective (count : Nat) (body : Except Exc V) : Nat × Res V G :=
  match body with
  | .ok v => (0, .objective v)
  | .error e =>
    if e.numerical then
      if allowed ≤ count then (count, .raised e) else (count + 1, .infinite)
    else (count, .raised e)

/-- `_grads` (model.py:225-246): `again` is the outcome of computing the gradient in the handler. -/
def grads (count : Nat) (body again : Except Exc G) : Nat × Res V G :=
  match body with
  | .ok g => (0, .grads g)
  | .error e =>
    if e.numerical then
      if allowed ≤ count then (count, .raised e)
      else match again with
        | .ok g => (count + 1, .clipped g)
        | .error e' => (count + 1, .raised e')
    else (count, .raised e)

/-- `_objective_grads` (model.py:271-282). -/
def objectiveGrads (count : Nat) (body : Except Exc (V × G)) (again : Except Exc G) : Nat × Res V G :=
  match body with
  | .ok (v, g) => (0, .both v g)
  | .error e =>
    if e.numerical then
      if allowed ≤ count then (count, .raised e)
      else match again with
        | .ok g => (count + 1, .infClipped g)
        | .error e' => (count + 1, .raised e')
    else (count, .raised e)

/-- One call by the optimiser, with everything that happens in it. -/
inductive Call (V G : Type)
  | objective (body : Except Exc V)
  | grads (body again : Except Exc G)
  | both (body : Except Exc (V × G)) (again : Except Exc G)

def step (count : Nat) : Call V G → Nat × Res V G
  | .objective b => objective count b
  | .grads b a => grads count b a
  | .both b a => objectiveGrads count b a

/-- `_fail_count` after a history of calls on one model. -/
def countAfter (h : List (Call V G)) : Nat := h.foldl (fun c k => (step c k).1) 0

/-! ### Specification -/

/-- How an evaluation went: the exception, if any. -/
def Call.failure : Call V G → Option Exc
  | .objective (.ok _) => none
  | .objective (.error e) => some e
  | .grads (.ok _) _ => none
  | .grads (.error e) _ => some e
  | .both (.ok _) _ => none
  | .both (.error e) _ => some e

/-- What a tolerated failure gives: infinity for the objective, and the gradient (clipped) if it can be
computed. -/
def Call.tolerated : Call V G → Res V G
  | .objective _ => .infinite
  | .grads _ (.ok g) => .clipped g
  | .grads _ (.error e) => .raised e
  | .both _ (.ok g) => .infClipped g
  | .both _ (.error e) => .raised e

/-- The value of a successful evaluation. -/
def Call.value : Call V G → Option (Res V G)
  | .objective (.ok v) => some (.objective v)
  | .grads (.ok g) _ => some (.grads g)
  | .both (.ok (v, g)) _ => some (.both v g)
  | _ => none

/-- Does a call end with a success? -/
def Call.succeeds (k : Call V G) : Bool := k.failure.isNone

/-- The exceptions that are to be tolerated: `LinAlgError`, `ZeroDivisionError`, `ValueError`. -/
def Exc.Tolerable (e : Exc) : Prop := e = .linAlg ∨ e = .zeroDivision ∨ e = .value

instance (e : Exc) : Decidable e.Tolerable := inferInstanceAs (Decidable (_ ∨ _))

/-- Does a call fail with one of them? -/
def Call.failsNum (k : Call V G) : Bool := match k.failure with
  | none => false
  | some e => decide e.Tolerable

/-- The number of numerical failures since the last success. -/
def streak (h : List (Call V G)) : Nat :=
  ((h.reverse.takeWhile (fun k => !k.succeeds)).filter Call.failsNum).length

/-! ### Properties -/

theorem numerical_eq (e : Exc) : e.numerical = decide e.Tolerable := by
  rcases e with _ | _ | _ | n
  · rfl
  · rfl
  · rfl
  · show false = _
    simp [Exc.Tolerable]

theorem streak_append (h : List (Call V G)) (k : Call V G) :
    streak (h ++ [k]) = if k.succeeds then 0 else streak h + (if k.failsNum then 1 else 0) := by
  unfold streak
  rw [List.reverse_append, List.reverse_singleton, List.singleton_append, List.takeWhile_cons]
  cases hs : k.succeeds with
  | true => simp
  | false =>
    simp only [Bool.not_false, if_true, List.filter_cons]
    cases hf : k.failsNum <;> simp

/-- The step in terms of the specification. -/
theorem step_eq (c : Nat) (k : Call V G) : step c k =
    match k.failure with
    | none => (0, k.value.getD .infinite)
    | some e => if e.Tolerable then (if allowed ≤ c then (c, .raised e) else (c + 1, k.tolerated)) else (c, .raised e) := by
  have key : ∀ (α : Type) (e : Exc) (a b : α), (if e.numerical = true then a else b) =
      if e.Tolerable then a else b := by
    intro α e a b
    rw [numerical_eq]
    simp only [decide_eq_true_eq]
  rcases k with b | ⟨b, a⟩ | ⟨b, a⟩
  · cases b with
    | ok g => rfl
    | error e => exact key _ e _ _
  · cases b with
    | ok g => rfl
    | error e => cases a <;> exact key _ e _ _
  · cases b with
    | ok g => rfl
    | error e => cases a <;> exact key _ e _ _

theorem countAfter_eq (h : List (Call V G)) : countAfter h = min allowed (streak h) := by
  induction h using List.reverseRecOn with
  | nil => rfl
  | append_singleton h k ih =>
    unfold countAfter at ih ⊢
    rw [List.foldl_append, List.foldl_cons, List.foldl_nil, ih, step_eq, streak_append]
    unfold Call.succeeds Call.failsNum
    cases hk : k.failure with
    | none => rfl
    | some e =>
      simp only [Option.isNone_some, Bool.false_eq_true, if_false]
      by_cases hn : e.Tolerable
      · simp only [hn, if_true]
        split
        · rename_i hle
          show min allowed (streak h) = min allowed (streak h + 1)
          omega
        · rename_i hle
          show min allowed (streak h) + 1 = min allowed (streak h + 1)
          omega
      · simp [hn]

/-- A call after any history `h`: a success gives its value; another exception propagates; a numerical
failure is tolerated if fewer than ten such failures happened since the last success, else it is raised.
(`tolerated` for gradients: they are computed again. Missing for the full claim: if this fails too, its
exception is raised at once, see `gradient_failure_fails`.) -/
theorem failures_spec_partial (h : List (Call V G)) (k : Call V G) :
    (∀ r, k.value = some r → (step (countAfter h) k).2 = r) ∧
    (∀ e, k.failure = some e → ¬ e.Tolerable → (step (countAfter h) k).2 = .raised e) ∧
    (∀ e, k.failure = some e → e.Tolerable → streak h < 10 → (step (countAfter h) k).2 = k.tolerated) ∧
    (∀ e, k.failure = some e → e.Tolerable → 10 ≤ streak h → (step (countAfter h) k).2 = .raised e) := by
  rw [countAfter_eq]
  refine ⟨fun r hr => ?_, fun e he hn => ?_, fun e he hn hs => ?_, fun e he hn hs => ?_⟩
  · have hf : k.failure = none := by
      rcases k with b | ⟨b, a⟩ | ⟨b, a⟩ <;> cases b <;> first | rfl | cases hr
    rw [step_eq, hf, hr]; rfl
  · rw [step_eq, he]
    simp only [hn, if_false]
  · rw [step_eq, he]
    have : ¬ allowed ≤ min allowed (streak h) := by unfold allowed; omega
    simp only [hn, if_true, if_neg this]
  · rw [step_eq, he]
    have : allowed ≤ min allowed (streak h) := by unfold allowed; omega
    simp only [hn, if_true, if_pos this]

/-- For the objective alone the claim holds in full: infinity up to the tenth failure in a row. -/
theorem objective_failures (h : List (Call V G)) (e : Exc) (hn : e.Tolerable) :
    (step (countAfter h) (.objective (.error e) : Call V G)).2 = if streak h < 10 then .infinite else .raised e := by
  obtain ⟨-, -, h3, h4⟩ := failures_spec_partial h (.objective (.error e))
  split
  · rename_i hs; exact h3 e rfl hn hs
  · rename_i hs; exact h4 e rfl hn (by omega)

/-- Ten failures in a row after any history are tolerated, the eleventh is raised. -/
theorem eleventh_raises (h : List (Call V G)) (hs : h = [] ∨ ∃ h' k, h = h' ++ [k] ∧ k.succeeds = true) (e : Exc)
    (hn : e.Tolerable) (n : Nat) :
    (step (countAfter (h ++ List.replicate n (.objective (.error e) : Call V G)))
      (.objective (.error e) : Call V G)).2 =
      if n < 10 then .infinite else .raised e := by
  have h0 : streak h = 0 := by
    rcases hs with rfl | ⟨h', k, rfl, hk⟩
    · rfl
    · rw [streak_append, hk]; rfl
  have : streak (h ++ List.replicate n (.objective (.error e) : Call V G)) = n := by
    induction n with
    | zero => simpa using h0
    | succ n ih =>
      rw [List.replicate_succ', ← List.append_assoc, streak_append, ih]
      have h1 : (Call.objective (.error e) : Call V G).succeeds = false := rfl
      have h2 : (Call.objective (.error e) : Call V G).failsNum = true := decide_eq_true hn
      rw [h1, h2]; rfl
  rw [objective_failures _ _ hn, this]

example : (step (countAfter (List.replicate 10 (.objective (.error .linAlg)) : List (Call Nat Nat)))
      (.grads (.error .value) (.ok 3) : Call Nat Nat)).2 = .raised .value ∧
    (step (countAfter (List.replicate 9 (.objective (.error .linAlg)) : List (Call Nat Nat)))
      (.grads (.error .value) (.ok 3) : Call Nat Nat)).2 = .clipped 3 ∧
    (step (countAfter (List.replicate 12 (.objective (.error .linAlg)) ++ [.both (.ok (1, 2)) (.ok 2)] : List (Call Nat Nat)))
      (.objective (.error .value) : Call Nat Nat)).2 = .infinite ∧
    (step 0 (.objective (.error (.other 4)) : Call Nat Nat)).2 = .raised (.other 4) := by decide

/-- If computing the gradient is what fails, the first failure is raised. -/
theorem gradient_failure_fails : (step 0 (.grads (.error .linAlg) (.error .linAlg) : Call Nat Nat)).2 =
    .raised .linAlg := rfl

end Paramz.Run

import Verif.Run.SCGWorld
import Verif.Run.Failures

/-!
# Optimising a model that cannot be evaluated everywhere (C86)

Source: `paramz/model.py:65-116, 225-269`, `paramz/core/parameter_core.py:86-124, 143-152`,
`paramz/optimization/scg.py:44-174`.
-/

set_option linter.unusedSectionVars false

namespace Paramz.Run.Failing

open SCG (Val Oracle Result Status NotAbove)

/-! ### Model -/

/-- A model as the optimiser sees it; points are vectors for `optimizer_array`, `none` if they contain `nan`. -/
structure Mdl (K : Type) where
  /-- The exception that `parameters_changed` raises at a point. -/
  fails : Option (List K) → Option Exc
  /-- The gradient it computes otherwise. -/
  grad : Option (List K) → Option (List K)
  /-- What is in the gradient array after `parameters_changed` raised, from what was there before. -/
  partway : Option (List K) → Option (List K) → Option (List K)
  /-- `objective_function()`. -/
  value : Option (List K) → Except Exc (Val K)
  /-- The factors of the constraints (parameter_core.py:143-150). -/
  factors : Option (List K) → Option (List K) → Option (List K)
  /-- The entries of free elements (parameter_core.py:151). -/
  free : Option (List K) → Option (List K)
  /-- There are fixed parameters. -/
  fixes : Bool

/-- State of the model: the point set last, the gradient array, arrays handed out, `_fail_count`. `seen` is not part of the
code: the points evaluated, last one first. -/
structure World (K : Type) where
  x : Option (List K)
  grad : Option (List K)
  arrays : List (Option (List K))
  count : Nat
  seen : List (Option (List K))
  deriving DecidableEq, Repr

variable {K : Type} [Field K] [LinearOrder K]

/-- `self.optimizer_array = x` (parameter_core.py:94-124): the values are set, then `parameters_changed` is called. -/
def Mdl.set (M : Mdl K) (x : Option (List K)) (w : World K) : World K × Option Exc :=
  match M.fails x with
  | none => ({ w with x := x, grad := M.grad x }, none)
  | some e => ({ w with x := x, grad := M.partway x w.grad }, some e)

/-- Note that a point was evaluated. -/
def World.note (w : World K) (x : Option (List K)) : World K := { w with seen := x :: w.seen }

/-- `_objective` (model.py:248-269). -/
def Mdl.objective (M : Mdl K) (x : Option (List K)) (w : World K) : World K × Except Exc (Val K) :=
  let r := M.set x (w.note x)
  match (match r.2 with | some e => .error e | none => M.value x : Except Exc (Val K)) with
  | .ok v => ({ r.1 with count := 0 }, .ok v)
  | .error e =>
    if e.numerical then
      if allowed ≤ r.1.count then (r.1, .error e) else ({ r.1 with count := r.1.count + 1 }, .ok .pinf)
    else (r.1, .error e)

/-- `np.clip(g, -1e100, 1e100)`. -/
def clip (g : Option (List K)) : Option (List K) := g.map (fun l => l.map (fun y => max (-(10 ^ 100)) (min (10 ^ 100) y)))

/-- `_transform_gradients` changes the gradient array of the model in place (parameter_core.py:143-152). -/
def Mdl.transform (M : Mdl K) (w : World K) : World K := { w with grad := M.factors w.x w.grad }

/-- Hand out a new array. -/
def World.hand (w : World K) (g : Option (List K)) : World K × Option Nat :=
  ({ w with arrays := w.arrays ++ [g] }, some w.arrays.length)

/-- `_grads` (model.py:225-246), with the default `objective_function_gradients`. Without fixed parameters the array handed
out is the gradient array of the model (`none`), but `np.clip` makes a new one. -/
def Mdl.grads (M : Mdl K) (x : Option (List K)) (w : World K) : World K × Except Exc (Option Nat) :=
  let r := M.set x (w.note x)
  match r.2 with
  | none =>
    let w := { M.transform r.1 with count := 0 }
    if M.fixes then ((w.hand (M.free w.grad)).1, .ok (w.hand (M.free w.grad)).2) else (w, .ok none)
  | some e =>
    if e.numerical then
      if allowed ≤ r.1.count then (r.1, .error e)
      else
        let w := { M.transform r.1 with count := r.1.count + 1 }
        let g := clip (if M.fixes then M.free w.grad else w.grad)
        ((w.hand g).1, .ok (w.hand g).2)
    else (r.1, .error e)

/-- Read an array. -/
def World.read (w : World K) : Option Nat → Option (List K)
  | none => w.grad
  | some i => w.arrays[i]?.getD none

/-- `np.sqrt` and tolerances. -/
structure Tols (K : Type) where
  sqrt : K → K
  xtol : K
  ftol : K
  gtol : K

def Mdl.oracle (M : Mdl K) (t : Tols K) : Oracle (World K) (Option Nat) Exc K :=
  ⟨M.objective, M.grads, World.read, t.sqrt, t.xtol, t.ftol, t.gtol⟩

/-- `m.optimize('scg', max_iters=n)` (model.py:97-116) from `x0`, the values of the model. Simplified: updates are on,
nothing is shown. -/
def Mdl.optimize (M : Mdl K) (t : Tols K) (x0 : List K) (n : Nat) (w : World K) : World K × Except Exc (Result K) :=
  match SCG.wrun (M.oracle t) x0 n w with
  | (w, .error e) => (w, .error e)
  | (w, .ok r) =>
    match M.set (some r.x) (w.note (some r.x)) with
    | (w, some e) => (w, .error e)
    | (w, none) => (w, .ok r)

/-! ### Specification -/

/-- The exception raised when the objective is computed at a point. -/
def Mdl.obstacle (M : Mdl K) (x : Option (List K)) : Option Exc :=
  match M.fails x with
  | some e => some e
  | none => match M.value x with
    | .error e => some e
    | .ok _ => none

/-- The objective at a point; infinite where it cannot be computed. -/
def Mdl.at (M : Mdl K) (x : List K) : Val K :=
  match M.fails (some x) with
  | some _ => .pinf
  | none => match M.value (some x) with
    | .error _ => .pinf
    | .ok v => v

/-- The last `n` evaluations failed. -/
def InARow (M : Mdl K) (n : Nat) (seen : List (Option (List K))) : Prop :=
  n ≤ seen.length ∧ ∀ x ∈ seen.take n, M.obstacle x ≠ none

/-- `_fail_count` counts failures in a row. -/
def Counted (M : Mdl K) (w : World K) : Prop := InARow M w.count w.seen

/-! ### Lemmas -/

theorem InARow.succ {M : Mdl K} {n : Nat} {l : List (Option (List K))} (h : InARow M n l) {x : Option (List K)}
    (hx : M.obstacle x ≠ none) : InARow M (n + 1) (x :: l) := by
  refine ⟨by have := h.1; simp; omega, fun y hy => ?_⟩
  rw [List.take_succ_cons] at hy
  rcases List.mem_cons.mp hy with rfl | hy
  · exact hx
  · exact h.2 y hy

theorem InARow.mono {M : Mdl K} {n m : Nat} {l : List (Option (List K))} (h : InARow M n l) (hm : m ≤ n) :
    InARow M m l :=
  ⟨le_trans hm h.1, fun x hx => h.2 x ((List.take_subset_take_left l hm) hx)⟩

theorem InARow.zero (M : Mdl K) (l : List (Option (List K))) : InARow M 0 l := ⟨by simp, by simp⟩

theorem obstacle_fails {M : Mdl K} {x : Option (List K)} {e : Exc} (h : M.fails x = some e) : M.obstacle x = some e := by
  unfold Mdl.obstacle; rw [h]

/-- What is known when an evaluation raises. -/
def Raised (M : Mdl K) (e : Exc) (w : World K) : Prop :=
  M.obstacle w.x = some e ∧ (e.Tolerable → InARow M 11 w.seen)

theorem oracle_keeps (M : Mdl K) (t : Tols K) : SCG.Keeps (M.oracle t) (Counted M) (Raised M) := by
  have hf : ∀ x (w : World K), Counted M w → SCG.Good (Counted M) (Raised M) (M.objective x w) := by
    intro x w hw
    unfold Mdl.objective Mdl.set
    dsimp only
    cases hF : M.fails x with
    | some e =>
      have hx := obstacle_fails hF
      dsimp only
      split
      · split
        · rename_i hle
          refine ⟨hx, fun _ => (InARow.succ hw (by rw [hx]; simp)).mono ?_⟩
          have : allowed ≤ w.count := hle
          unfold allowed at this; omega
        · exact InARow.succ hw (by rw [hx]; simp)
      · rename_i hn
        exact ⟨hx, fun ht => absurd ht (by rw [numerical_eq] at hn; simpa using hn)⟩
    | none =>
      dsimp only
      cases hv : M.value x with
      | ok v => exact InARow.zero _ _
      | error e =>
        have hx : M.obstacle x = some e := by unfold Mdl.obstacle; rw [hF, hv]
        dsimp only
        split
        · split
          · rename_i hle
            refine ⟨hx, fun _ => (InARow.succ hw (by rw [hx]; simp)).mono ?_⟩
            have : allowed ≤ w.count := hle
            unfold allowed at this; omega
          · exact InARow.succ hw (by rw [hx]; simp)
        · rename_i hn
          exact ⟨hx, fun ht => absurd ht (by rw [numerical_eq] at hn; simpa using hn)⟩
  have hg : ∀ x (w : World K), Counted M w → SCG.Good (Counted M) (Raised M) (M.grads x w) := by
    intro x w hw
    unfold Mdl.grads Mdl.set
    dsimp only
    cases hF : M.fails x with
    | none =>
      dsimp only
      split
      · exact InARow.zero _ _
      · exact InARow.zero _ _
    | some e =>
      have hx := obstacle_fails hF
      dsimp only
      split
      · split
        · rename_i hle
          refine ⟨hx, fun _ => (InARow.succ hw (by rw [hx]; simp)).mono ?_⟩
          have : allowed ≤ w.count := hle
          unfold allowed at this; omega
        · exact InARow.succ hw (by rw [hx]; simp)
      · rename_i hn
        exact ⟨hx, fun ht => absurd ht (by rw [numerical_eq] at hn; simpa using hn)⟩
  refine ⟨fun x w w' v hw h => ?_, fun x w w' e hw h => ?_, fun x w w' r hw h => ?_, fun x w w' e hw h => ?_⟩
  · have := hf x w hw; rw [show M.objective x w = _ from h] at this; exact this
  · have := hf x w hw; rw [show M.objective x w = _ from h] at this; exact this
  · have := hg x w hw; rw [show M.grads x w = _ from h] at this; exact this
  · have := hg x w hw; rw [show M.grads x w = _ from h] at this; exact this

theorem oracle_answers (M : Mdl K) (t : Tols K) : SCG.Answers (M.oracle t) M.at := by
  intro x w w' v h
  have h : M.objective (some x) w = (w', .ok v) := h
  unfold Mdl.objective Mdl.set at h
  unfold Mdl.at
  cases hF : M.fails (some x) with
  | some e =>
    rw [hF] at h
    dsimp only at h ⊢
    split at h
    · split at h <;> cases h; rfl
    · cases h
  | none =>
    rw [hF] at h
    dsimp only at h ⊢
    cases hv : M.value (some x) with
    | ok u => rw [hv] at h; cases h; rfl
    | error e =>
      rw [hv] at h
      dsimp only at h ⊢
      split at h
      · split at h <;> cases h; rfl
      · cases h

/-! ### Properties -/

section
variable [IsStrictOrderedRing K]

/-- C86: if `optimize` returns, the model is at the point found, which can be evaluated; the gradient is the one there; the
objective is not above the one at the start (which counts as infinite if it cannot be computed); the trace goes from
the objective at the start to the objective at the end and never up. -/
theorem failing_run_returns (M : Mdl K) (t : Tols K) (x0 : List K) (n : Nat) {w w' : World K} {r : Result K}
    (h : M.optimize t x0 n w = (w', .ok r)) :
    w'.x = some r.x ∧ M.fails (some r.x) = none ∧ w'.grad = M.grad (some r.x) ∧
    NotAbove (M.at r.x) (M.at x0) ∧ r.log.head? = some (M.at x0) ∧ r.log.getLast? = some (M.at r.x) ∧
    r.log.IsChain (fun a b => NotAbove b a) ∧ r.log.length ≤ 1 + n := by
  unfold Mdl.optimize at h
  cases h1 : SCG.wrun (M.oracle t) x0 n w with
  | mk w1 r1 =>
    rw [h1] at h
    cases r1 with
    | error e => cases h
    | ok r1 =>
      obtain ⟨a1, a2, a3, a4, -, -, a7⟩ := SCG.wrun_spec (oracle_answers M t) h1
      dsimp only at h
      unfold Mdl.set at h
      cases hF : M.fails (some r1.x) with
      | some e => rw [hF] at h; cases h
      | none =>
        rw [hF] at h
        cases h
        exact ⟨rfl, hF, rfl, a7, a1, a2, a3, a4⟩

/-- C86 (partial): if `optimize` raises, the exception is the one of the point at which the model is left; if it is a
numerical one, the last eleven evaluations failed (counting earlier runs), or the start cannot be evaluated.
Missing for the full claim: the model is not at its values of before (`left_at_failure_fails`). -/
theorem failing_run_raises_partial (M : Mdl K) (t : Tols K) (x0 : List K) (n : Nat) {w w' : World K} {e : Exc}
    (hw : Counted M w) (h : M.optimize t x0 n w = (w', .error e)) :
    M.obstacle w'.x = some e ∧
    (e.Tolerable → InARow M 11 w'.seen ∨ w'.x = some x0 ∧ M.fails (some x0) = some e) := by
  unfold Mdl.optimize at h
  have hg := SCG.wrun_good (oracle_keeps M t) x0 n hw
  cases h1 : SCG.wrun (M.oracle t) x0 n w with
  | mk w1 r1 =>
    rw [h1] at h hg
    cases r1 with
    | error e' =>
      cases h
      exact ⟨hg.1, fun ht => .inl (hg.2 ht)⟩
    | ok r1 =>
      obtain ⟨-, -, -, -, -, a6, -⟩ := SCG.wrun_spec (oracle_answers M t) h1
      dsimp only at h
      unfold Mdl.set at h
      cases hF : M.fails (some r1.x) with
      | none => rw [hF] at h; cases h
      | some e' =>
        rw [hF] at h
        cases h
        refine ⟨obstacle_fails hF, fun _ => .inr ?_⟩
        rcases a6 with rfl | hne
        · exact ⟨rfl, hF⟩
        · exact absurd (by unfold Mdl.at; rw [hF]) hne

/-- C86: fewer than eleven failures in a row never stop a run that starts where the model can be evaluated. -/
theorem few_failures_return (M : Mdl K) (t : Tols K) (x0 : List K) (n : Nat) {w : World K} (hw : Counted M w)
    (h0 : M.fails (some x0) = none) (hnum : ∀ x e, M.obstacle x = some e → e.Tolerable)
    (hfew : ¬ InARow M 11 (M.optimize t x0 n w).1.seen) :
    ∃ r, (M.optimize t x0 n w).2 = .ok r := by
  cases h : M.optimize t x0 n w with
  | mk w' r =>
    rw [h] at hfew
    cases r with
    | ok r => exact ⟨r, rfl⟩
    | error e =>
      obtain ⟨a, b⟩ := failing_run_raises_partial M t x0 n hw h
      rcases b (hnum _ _ a) with hb | ⟨-, hb⟩
      · exact absurd hb hfew
      · rw [h0] at hb; cases hb

/-- C86: the next evaluation. A failure that is tolerated gives the value infinity and counts; a success starts the count
again. -/
theorem objective_tolerated (M : Mdl K) (x : List K) (w : World K) :
    (M.obstacle (some x) = none → (M.objective (some x) w).2 = .ok (M.at x) ∧ (M.objective (some x) w).1.count = 0) ∧
    (∀ e, M.obstacle (some x) = some e → e.Tolerable → w.count < 10 →
      (M.objective (some x) w).2 = .ok .pinf ∧ (M.objective (some x) w).1.count = w.count + 1) := by
  refine ⟨fun h => ?_, fun e h ht hc => ?_⟩
  · unfold Mdl.obstacle at h
    unfold Mdl.objective Mdl.set Mdl.at
    cases hF : M.fails (some x) with
    | some e => rw [hF] at h; cases h
    | none =>
      rw [hF] at h
      dsimp only at h ⊢
      cases hv : M.value (some x) with
      | ok v => exact ⟨rfl, rfl⟩
      | error e => rw [hv] at h; cases h
  · have hn : e.numerical = true := by rw [numerical_eq]; simpa using ht
    have hc' : ¬ allowed ≤ w.count := by unfold allowed; omega
    unfold Mdl.obstacle at h
    unfold Mdl.objective Mdl.set
    cases hF : M.fails (some x) with
    | some e' =>
      rw [hF] at h
      cases h
      dsimp only
      rw [if_pos hn, if_neg (show ¬ allowed ≤ (w.note (some x)).count from hc')]
      exact ⟨rfl, rfl⟩
    | none =>
      rw [hF] at h
      dsimp only at h ⊢
      cases hv : M.value (some x) with
      | ok v => rw [hv] at h; cases h
      | error e' =>
        rw [hv] at h
        cases h
        dsimp only
        rw [if_pos hn, if_neg (show ¬ allowed ≤ (w.note (some x)).count from hc')]
        exact ⟨rfl, rfl⟩

/-- C86: an exception that is not numerical, and the eleventh failure in a row, reach the optimiser. -/
theorem objective_refused (M : Mdl K) (x : List K) (w : World K) (e : Exc) (h : M.obstacle (some x) = some e)
    (he : ¬ e.Tolerable ∨ 10 ≤ w.count) : (M.objective (some x) w).2 = .error e := by
  have hx : ∀ w1 : World K, w1.count = w.count →
      (if e.numerical then
        if allowed ≤ w1.count then (w1, .error e) else ({ w1 with count := w1.count + 1 }, .ok .pinf)
      else (w1, .error e) : World K × Except Exc (Val K)).2 = .error e := by
    intro w1 h1
    rcases he with he | he
    · rw [if_neg (by rw [numerical_eq]; simpa using he)]
    · split
      · rw [if_pos (by unfold allowed; omega)]
      · rfl
  unfold Mdl.obstacle at h
  unfold Mdl.objective Mdl.set
  cases hF : M.fails (some x) with
  | some e' =>
    rw [hF] at h
    cases h
    exact hx _ rfl
  | none =>
    rw [hF] at h
    dsimp only at h ⊢
    cases hv : M.value (some x) with
    | ok v => rw [hv] at h; cases h
    | error e' =>
      rw [hv] at h
      cases h
      exact hx _ rfl

/-- C86: the gradient at a point. If the model can be evaluated there, it is the gradient with the factors of the constraints,
for the free elements, and the count starts again. If it cannot, a model without constraints that leaves its gradient array alone
when it fails gives the gradient of before, clipped, and the failure counts. Other exceptions and the eleventh failure
reach the optimiser. -/
theorem grads_answers (M : Mdl K) (x : List K) (w : World K) :
    (M.fails (some x) = none → ∃ r, (M.grads (some x) w).2 = .ok r ∧ (M.grads (some x) w).1.count = 0 ∧
      (M.grads (some x) w).1.read r = (if M.fixes then M.free (M.factors (some x) (M.grad (some x)))
        else M.factors (some x) (M.grad (some x)))) ∧
    (∀ e, M.fails (some x) = some e → e.Tolerable → w.count < 10 →
      ∃ r, (M.grads (some x) w).2 = .ok r ∧ (M.grads (some x) w).1.count = w.count + 1 ∧
        ((∀ g, M.factors (some x) g = g) → (∀ g, M.partway (some x) g = g) → M.fixes = false →
          (M.grads (some x) w).1.read r = clip w.grad ∧ (M.grads (some x) w).1.grad = w.grad)) ∧
    (∀ e, M.fails (some x) = some e → (¬ e.Tolerable ∨ 10 ≤ w.count) → (M.grads (some x) w).2 = .error e) := by
  refine ⟨fun hF => ?_, fun e hF ht hc => ?_, fun e hF he => ?_⟩
  · unfold Mdl.grads Mdl.set
    rw [hF]
    dsimp only
    by_cases hf : M.fixes = true
    · rw [if_pos hf, if_pos hf]
      refine ⟨_, rfl, rfl, ?_⟩
      show ((w.arrays ++ [_])[w.arrays.length]?).getD none = _
      rw [List.getElem?_append_right (le_refl _)]
      simp [Mdl.transform]
    · rw [if_neg hf, if_neg hf]
      exact ⟨_, rfl, rfl, rfl⟩
  · have hn : e.numerical = true := by rw [numerical_eq]; simpa using ht
    have hc' : ¬ allowed ≤ w.count := by unfold allowed; omega
    unfold Mdl.grads Mdl.set
    rw [hF]
    dsimp only
    rw [if_pos hn, if_neg (show ¬ allowed ≤ (w.note (some x)).count from hc')]
    refine ⟨_, rfl, rfl, fun h1 h2 h3 => ⟨?_, ?_⟩⟩
    · show ((w.arrays ++ [_])[w.arrays.length]?).getD none = _
      rw [List.getElem?_append_right (le_refl _)]
      simp [Mdl.transform, h1, h2, h3, World.note]
    · show M.factors (some x) (M.partway (some x) w.grad) = w.grad
      rw [h1, h2]
  · unfold Mdl.grads Mdl.set
    rw [hF]
    dsimp only
    rcases he with he | he
    · rw [if_neg (by rw [numerical_eq]; simpa using he)]
    · split
      · rw [if_pos (by show allowed ≤ w.count; unfold allowed; omega)]
      · rfl

end

/-! ### Examples and failures -/

/-- Tolerances for the examples; any positive number may stand for the square root. -/
def demoTols : Tols ℚ := ⟨fun _ => 1, 1 / 1000000, 1 / 1000000, 1 / 100000⟩

/-- `x²`, for `x` above 1 only. -/
def demoMdl : Mdl ℚ where
  fails x := match x with
    | some [y] => if 1 < y then none else some .linAlg
    | _ => some .value
  grad x := x.map (fun l => l.map (fun y => 2 * y))
  partway _ g := g
  value x := match x with
    | some [y] => .ok (.fin (y * y))
    | _ => .ok .nan
  factors _ g := g
  free g := g
  fixes := false

def fresh (x : List ℚ) : World ℚ := ⟨some x, none, [], 0, []⟩

/-- A case of `failing_run_returns` with a tolerated failure: the first step leads to where the model cannot be evaluated. -/
example : ((demoMdl.optimize demoTols [3] 3 (fresh [3])).2.toOption.map (fun r => (r.x != [3], r.log.length))) =
      some (true, 4) ∧
    (demoMdl.optimize demoTols [3] 3 (fresh [3])).1.seen.any (fun x => demoMdl.obstacle x != none) = true := by
  decide +kernel

example : Counted demoMdl (fresh [3]) := InARow.zero _ _

/-- A model that can be evaluated at `[3]` only. -/
def island : Mdl ℚ where
  fails x := if x = some [3] then none else some .linAlg
  grad _ := some [1]
  partway _ g := g
  value _ := .ok (.fin 5)
  factors _ g := g.map (fun l => l.map (fun y => 2 * y))
  free g := g
  fixes := true

/-- After eleven failures `optimize` raises; the model is left at a point where it cannot be evaluated, not at its start. -/
theorem left_at_failure_fails :
    (match (island.optimize demoTols [3] 20 (fresh [3])).2 with | .error e => some e | .ok _ => none) = some .linAlg ∧
    island.fails (some [3]) = none ∧ (island.optimize demoTols [3] 20 (fresh [3])).1.x ≠ some [3] ∧
    island.fails (island.optimize demoTols [3] 20 (fresh [3])).1.x = some .linAlg := by decide +kernel

/-- The gradient handed out at a point that cannot be evaluated is not the last good one (2): the factors of the constraints
are applied a second time (4), and with every further failure again. -/
theorem stale_gradient_fails :
    let w1 := (island.grads (some [3]) (fresh [3])).1
    let w2 := (island.grads (some [4]) w1).1
    let w3 := (island.grads (some [5]) w2).1
    w1.read (some 0) = some [2] ∧ w2.read (some 1) = some [4] ∧ w3.read (some 2) = some [8] := by decide +kernel

/-- `x²`, which can be computed everywhere but for `nan`. -/
def bowl : Mdl ℚ where
  fails x := match x with
    | some _ => none
    | none => some .linAlg
  grad x := x.map (fun l => l.map (fun y => 2 * y))
  partway _ g := g
  value x := match x with
    | some l => .ok (.fin ((l.map (fun y => y * y)).sum))
    | none => .ok .nan
  factors _ g := g
  free g := g
  fixes := false

/-- The start is the optimum: SCG divides by the length of the gradient, zero, and asks for the gradient and the objective at
`nan` until the model has failed too often. `optimize` raises and leaves the model at `nan`. -/
theorem optimum_raises_fails :
    bowl.grad (some [0]) = some [0] ∧ (∀ x, bowl.fails (some x) = none) ∧
    (match (bowl.optimize demoTols [0] 20 (fresh [0])).2 with | .error e => some e | .ok _ => none) = some .linAlg ∧
    (bowl.optimize demoTols [0] 20 (fresh [0])).1.x = none := by
  refine ⟨by decide +kernel, fun _ => rfl, by decide +kernel, by decide +kernel⟩

end Paramz.Run.Failing

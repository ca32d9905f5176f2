import Verif.Run.Restarts
import Mathlib.Data.Int.Order.Basic

/-!
# What a run records (C63)

Source: `paramz/optimization/optimization.py:28-355`, `paramz/model.py:65-190`. The routines of scipy and
climin are not modelled: what they return is an input. Points are in optimiser space.
-/

namespace Paramz.Run.Records

/-- The classes of optimisers. `climin` stands for Adadelta, RProp and Adam, which record the same way
(optimization.py:261-355). -/
inductive Kind
  | tnc | lbfgsb | bfgs | simplex | scg | climin
  deriving DecidableEq, Repr

/-- The results kept by an optimiser object (optimization.py:35-38); `none` is `None`. -/
structure Rec (F P : Type) where
  f : Option F
  x : Option P
  evals : Option Nat
  status : Option String
  deriving DecidableEq, Repr

/-- `Optimizer.__init__` (optimization.py:30-47). -/
def Rec.new {F P : Type} : Rec F P := ⟨none, none, none, none⟩

/-- What a routine returns: the point, the objective it found there (used for simplex and SCG), the number of
evaluations, the code, a text (the message of L-BFGS-B, the status of SCG), and the point evaluated last. -/
structure Out (F P : Type) where
  x : P
  f : F
  evals : Nat
  code : Int
  text : String
  last : P

/-- `l[i]` in Python; `none` is `IndexError`. -/
def pyIndex (l : List String) (i : Int) : Option String :=
  if 0 ≤ i then l[i.toNat]? else if i.natAbs ≤ l.length then l[l.length - i.natAbs]? else none

/-- The lists of messages (optimization.py:82-83, 111, 144, 173). -/
def messages : Kind → List String
  | .tnc => ["Local minimum", "Converged", "XConverged", "Maximum number of f evaluations reached",
      "Line search failed", "Function is constant"]
  | .lbfgsb => ["Converged", "Maximum number of f evaluations reached", "Error"]
  | .bfgs => ["", "Maximum number of iterations exceeded", "Gradient and/or function calls not changing"]
  | .simplex => ["Converged", "Maximum number of function evaluations made", "Maximum number of iterations reached"]
  | .scg => []
  | .climin => []

variable {F P : Type}

/-- `opt` after the routine returned; `false` is `IndexError`. `obj` is the objective as a function of the
parameters in optimiser space. Opt_tnc 97-101, opt_lbfgsb 124-131, opt_bfgs 157-160, opt_simplex 187-191,
opt_SCG 246-250, climin 281-286. -/
def finish (obj : P → F) (k : Kind) (o : Out F P) (r : Rec F P) : Rec F P × Bool :=
  match k with
  | .tnc | .bfgs =>
    let r := { r with x := some o.x, f := some (obj o.x), evals := some o.evals }
    match pyIndex (messages k) o.code with
    | some s => ({ r with status := some s }, true)
    | none => (r, false)
  | .lbfgsb =>
    let r := { r with x := some o.x, f := some (obj o.x), evals := some o.evals }
    match pyIndex (messages k) o.code with
    | some s => ({ r with status := some (if o.code = 2 then "Error" ++ o.text else s) }, true)
    | none => (r, false)
  | .simplex =>
    let r := { r with x := some o.x, f := some o.f, evals := some o.evals }
    match pyIndex (messages k) o.code with
    | some s => ({ r with status := some s }, true)
    | none => (r, false)
  | .scg => ({ f := some o.f, x := some o.x, evals := some o.evals, status := some o.text }, true)
  | .climin =>
    ({ r with x := some o.x, status := some "maximum number of function evaluations exceeded" }, true)

/-- Where the parameters are after `opt`, before `optimize` sets them: the objective was evaluated at `x_opt`
by TNC, L-BFGS-B and BFGS (`f_fp(self.x_opt)`). -/
def lastPoint (k : Kind) (o : Out F P) : P :=
  match k with
  | .tnc | .bfgs | .lbfgsb => o.x
  | _ => o.last

/-- A model and the optimiser objects there are: `runs` (`optimization_runs`) are positions in `objs`. -/
structure World (F P : Type) where
  params : P
  runs : List Nat
  objs : List (Kind × Rec F P)

/-- What the routine does: it returns, or raises with the parameters at `p`. -/
inductive Outcome (F P : Type)
  | returned (o : Out F P)
  | raised (p : P)

/-- `opt.run` and the rest of `optimize` (model.py:110-116) with the optimiser object `i`. `false`: an
exception is raised. -/
def optimizeWith (obj : P → F) (i : Nat) (k : Kind) (r : Rec F P) (out : Outcome F P) (w : World F P) :
    World F P × Bool :=
  match out with
  | .raised p => ({ w with params := p }, false)
  | .returned o =>
    match finish obj k o r with
    | (r, true) => (⟨o.x, w.runs ++ [i], w.objs.set i (k, r)⟩, true)
    | (r, false) => ({ w with params := lastPoint k o, objs := w.objs.set i (k, r) }, false)

/-- What a user does. `make`: an optimiser object; `named`: `optimize('...')`, which makes a new object
(model.py:107-108); `given`: `optimize(obj)` with an object made before (model.py:103-105). -/
inductive Call (F P : Type)
  | make (k : Kind)
  | named (k : Kind) (out : Outcome F P)
  | given (i : Nat) (out : Outcome F P)

/-- One call. The model is not fixed and has parameters (model.py:89-91). A `given` object has to exist. -/
def exec (obj : P → F) (w : World F P) : Call F P → World F P × Bool
  | .make k => ({ w with objs := w.objs ++ [(k, Rec.new)] }, true)
  | .named k out => optimizeWith obj w.objs.length k Rec.new out { w with objs := w.objs ++ [(k, Rec.new)] }
  | .given i out =>
    match w.objs[i]? with
    | some (k, r) => optimizeWith obj i k r out w
    | none => (w, false)

def execAll (obj : P → F) (w : World F P) (l : List (Call F P)) : World F P :=
  l.foldl (fun w c => (exec obj w c).1) w

/-! ### Specification -/

/-- The codes documented by scipy and what they mean (`fmin_tnc`, `fmin_l_bfgs_b`, `fmin_bfgs`, `fmin`). -/
inductive Documented : Kind → Int → String → Prop
  | tnc0 : Documented .tnc 0 "Local minimum"
  | tnc1 : Documented .tnc 1 "Converged"
  | tnc2 : Documented .tnc 2 "XConverged"
  | tnc3 : Documented .tnc 3 "Maximum number of f evaluations reached"
  | tnc4 : Documented .tnc 4 "Line search failed"
  | tnc5 : Documented .tnc 5 "Function is constant"
  | lbfgsb0 : Documented .lbfgsb 0 "Converged"
  | lbfgsb1 : Documented .lbfgsb 1 "Maximum number of f evaluations reached"
  | bfgs0 : Documented .bfgs 0 ""
  | bfgs1 : Documented .bfgs 1 "Maximum number of iterations exceeded"
  | bfgs2 : Documented .bfgs 2 "Gradient and/or function calls not changing"
  | simplex0 : Documented .simplex 0 "Converged"
  | simplex1 : Documented .simplex 1 "Maximum number of function evaluations made"
  | simplex2 : Documented .simplex 2 "Maximum number of iterations reached"

/-- What the run ended with, in words. -/
def Message (k : Kind) (o : Out F P) (s : String) : Prop :=
  match k with
  | .scg => s = o.text
  | .climin => s = "maximum number of function evaluations exceeded"
  | .lbfgsb => if o.code = 2 then s = "Error" ++ o.text else Documented .lbfgsb o.code s
  | k => Documented k o.code s

/-- Simplex and SCG report the objective at the point they return (for SCG: `scg_spec`, C47). -/
def Reports (obj : P → F) (k : Kind) (o : Out F P) : Prop := k = .simplex ∨ k = .scg → o.f = obj o.x

/-- Which object a call uses, its kind, and what the routine returns. -/
def Call.uses (w : World F P) : Call F P → Option (Nat × Kind × Out F P)
  | .named k (.returned o) => some (w.objs.length, k, o)
  | .given i (.returned o) => (w.objs[i]?).map (fun e => (i, e.1, o))
  | _ => none

/-! ### One call -/

theorem pyIndex_documented {k : Kind} {c : Int} {s : String} (h : Documented k c s) :
    pyIndex (messages k) c = some s := by
  cases h <;> rfl

/-- What `finish` records. -/
theorem finish_records (obj : P → F) (k : Kind) (o : Out F P) (r : Rec F P) (s : String) (hk : k ≠ .climin)
    (hr : Reports obj k o) (hm : Message k o s) :
    finish obj k o r = (⟨some (obj o.x), some o.x, some o.evals, some s⟩, true) := by
  cases k with
  | climin => exact absurd rfl hk
  | scg =>
    have hm : s = o.text := hm
    have := hr (Or.inr rfl)
    show (_, true) = _
    rw [this, hm]
  | simplex =>
    have hm : Documented .simplex o.code s := hm
    have h1 := pyIndex_documented hm
    have := hr (Or.inl rfl)
    simp only [finish, h1, this]
  | tnc =>
    have hm : Documented .tnc o.code s := hm
    simp only [finish, pyIndex_documented hm]
  | bfgs =>
    have hm : Documented .bfgs o.code s := hm
    simp only [finish, pyIndex_documented hm]
  | lbfgsb =>
    have hm : if o.code = 2 then s = "Error" ++ o.text else Documented .lbfgsb o.code s := hm
    by_cases h2 : o.code = 2
    · rw [if_pos h2] at hm
      have : pyIndex (messages .lbfgsb) 2 = some "Error" := rfl
      simp only [finish, h2, this, if_true, hm]
    · rw [if_neg h2] at hm
      simp only [finish, pyIndex_documented hm, h2, if_false]

theorem set_last {α : Type} (l : List α) (a b : α) : (l ++ [a]).set l.length b = l ++ [b] := by
  rw [List.set_append_right _ _ (le_refl _), Nat.sub_self]; rfl

theorem getElem?_of_lt' {α : Type} {l : List α} {i : Nat} {a : α} (h : l[i]? = some a) : i < l.length :=
  (List.getElem?_eq_some_iff.mp h).1

/-- A call whose routine returns with a documented code does not raise; the model is left at the point
returned; the object is recorded as the last of `optimization_runs`; and the record holds that point, the
objective there, the number of evaluations and the message. Missing for the full claim: `climin_fails`,
`undocumented_fails`. -/
theorem optimize_records_partial (obj : P → F) (w : World F P) (c : Call F P) (i : Nat) (k : Kind) (o : Out F P)
    (s : String) (hc : c.uses w = some (i, k, o)) (hk : k ≠ .climin) (hr : Reports obj k o) (hm : Message k o s) :
    (exec obj w c).2 = true ∧ (exec obj w c).1.params = o.x ∧ (exec obj w c).1.runs = w.runs ++ [i] ∧
    (exec obj w c).1.objs[i]? = some (k, ⟨some (obj o.x), some o.x, some o.evals, some s⟩) ∧
    ∀ j, j ≠ i → j < w.objs.length → (exec obj w c).1.objs[j]? = w.objs[j]? := by
  cases c with
  | make k => cases hc
  | named k' out =>
    cases out with
    | raised p => cases hc
    | returned o' =>
      cases hc
      simp only [exec, optimizeWith, finish_records obj k o Rec.new s hk hr hm, set_last]
      refine ⟨trivial, trivial, trivial, by simp, fun j _ hj => ?_⟩
      rw [List.getElem?_append_left hj]
  | given i' out =>
    cases out with
    | raised p => cases hc
    | returned o' =>
      have hc : (w.objs[i']?).map (fun e => (i', e.1, o')) = some (i, k, o) := hc
      cases hi : w.objs[i']? with
      | none => rw [hi] at hc; cases hc
      | some e =>
        rw [hi] at hc
        obtain ⟨k', r⟩ := e
        have hc := Option.some.inj hc
        obtain ⟨rfl, rfl, rfl⟩ : i' = i ∧ k' = k ∧ o' = o := by simpa using hc
        simp only [exec, hi, optimizeWith, finish_records obj k' o' r s hk hr hm]
        refine ⟨trivial, trivial, trivial, ?_, fun j hj _ => ?_⟩
        · rw [List.getElem?_set_self (getElem?_of_lt' hi)]
        · rw [List.getElem?_set_ne (Ne.symm hj)]

/-- A routine that raises leaves no record, and neither does a failure after the routine. -/
theorem no_record (obj : P → F) (w : World F P) (c : Call F P) (h : (exec obj w c).2 = false) :
    (exec obj w c).1.runs = w.runs := by
  have key : ∀ (i : Nat) (k : Kind) (r : Rec F P) (out : Outcome F P) (w : World F P),
      (optimizeWith obj i k r out w).2 = false → (optimizeWith obj i k r out w).1.runs = w.runs := by
    intro i k r out w h
    cases out with
    | raised p => rfl
    | returned o =>
      simp only [optimizeWith] at h ⊢
      cases hf : finish obj k o r with
      | mk r' b =>
        rw [hf] at h
        cases b
        · rfl
        · cases h
  cases c with
  | make k => cases h
  | named k out => exact key _ _ _ _ _ h
  | given i out =>
    simp only [exec] at h ⊢
    cases hi : w.objs[i]? with
    | none => rfl
    | some e =>
      rw [hi] at h
      exact key _ _ _ _ _ h

/-! ### Histories -/

/-- The runs that a list of calls finishes, in order: the object used, point, evaluations and message. -/
inductive Finished (obj : P → F) : World F P → List (Call F P) → List (Nat × Out F P × String) → Prop
  | nil (w : World F P) : Finished obj w [] []
  | run {w : World F P} {c : Call F P} {l : List (Call F P)} {i : Nat} {k : Kind} {o : Out F P} {s : String}
      {rs : List (Nat × Out F P × String)} :
      c.uses w = some (i, k, o) → k ≠ .climin → Reports obj k o → Message k o s →
      Finished obj (exec obj w c).1 l rs → Finished obj w (c :: l) ((i, o, s) :: rs)
  | other {w : World F P} {c : Call F P} {l : List (Call F P)} {rs : List (Nat × Out F P × String)} :
      c.uses w = none → Finished obj (exec obj w c).1 l rs → Finished obj w (c :: l) rs

/-- A call that uses no routine that returns changes no record. -/
theorem other_keeps (obj : P → F) (w : World F P) (c : Call F P) (h : c.uses w = none) :
    (exec obj w c).1.runs = w.runs ∧ ∀ (j : Nat) (e : Kind × Rec F P), w.objs[j]? = some e → (exec obj w c).1.objs[j]? = some e := by
  have hleft : ∀ (a : Kind × Rec F P) (j : Nat) (e : Kind × Rec F P), w.objs[j]? = some e → (w.objs ++ [a])[j]? = some e := by
    intro a j e hj
    rw [List.getElem?_append_left (getElem?_of_lt' hj)]; exact hj
  cases c with
  | make k => exact ⟨rfl, fun j e hj => hleft _ j e hj⟩
  | named k out =>
    cases out with
    | raised p => exact ⟨rfl, fun j e hj => hleft _ j e hj⟩
    | returned o => cases h
  | given i out =>
    cases out with
    | raised p =>
      simp only [exec]
      cases hi : w.objs[i]? with
      | none => exact ⟨rfl, fun _ _ hj => hj⟩
      | some e => exact ⟨rfl, fun _ _ hj => hj⟩
    | returned o =>
      have h : (w.objs[i]?).map (fun e => (i, e.1, o)) = none := h
      cases hi : w.objs[i]? with
      | some e => rw [hi] at h; cases h
      | none => simp only [exec, hi]; exact ⟨trivial, fun _ _ hj => hj⟩

/-- If no optimiser object is used for two runs, then after any number of calls `optimization_runs` holds one
entry for each finished run, in order, and each entry still holds what its run found: the point, the objective
there, and the message. Missing for the full claim: `reused_fails`, `climin_fails`, `undocumented_fails`. -/
theorem runs_history_partial (obj : P → F) : ∀ (l : List (Call F P)) (w : World F P)
    (rs : List (Nat × Out F P × String)), Finished obj w l rs → (rs.map (·.1)).Nodup →
    (execAll obj w l).runs = w.runs ++ rs.map (·.1) ∧
    (∀ i o s, (i, o, s) ∈ rs → ∃ k, (execAll obj w l).objs[i]? =
      some (k, ⟨some (obj o.x), some o.x, some o.evals, some s⟩)) ∧
    ∀ (j : Nat) (e : Kind × Rec F P), j ∉ rs.map (·.1) → w.objs[j]? = some e → (execAll obj w l).objs[j]? = some e := by
  intro l
  induction l with
  | nil =>
    intro w rs h _
    cases h
    exact ⟨by simp [execAll], (fun _ _ _ h => by cases h), fun _ _ _ h => h⟩
  | cons c l ih =>
    intro w rs h hn
    cases h with
    | other hu hf =>
      obtain ⟨h1, h2⟩ := other_keeps obj w c hu
      obtain ⟨h3, h4, h5⟩ := ih _ rs hf hn
      exact ⟨by rw [← h1]; exact h3, h4, fun j e hj he => h5 j e hj (h2 j e he)⟩
    | run hu hk hr hm hf =>
      rename_i i k o s rs
      rw [List.map_cons, List.nodup_cons] at hn
      obtain ⟨-, -, h1, h2, h3⟩ := optimize_records_partial obj w c i k o s hu hk hr hm
      obtain ⟨h4, h5, h6⟩ := ih _ rs hf hn.2
      refine ⟨?_, ?_, ?_⟩
      · show (execAll obj (exec obj w c).1 l).runs = _
        rw [h4, h1]; simp
      · intro i' o' s' hmem
        rcases List.mem_cons.mp hmem with he | hmem
        · cases he
          exact ⟨k, h6 i _ hn.1 h2⟩
        · exact h5 i' o' s' hmem
      · intro j e hj he
        rw [List.map_cons, List.mem_cons, not_or] at hj
        refine h6 j e hj.2 ?_
        rw [h3 j hj.1 (getElem?_of_lt' he)]
        exact he

/-! ### Examples -/

/-- The objective of the examples: `(x - 10)²`. -/
def demoObj (x : Int) : Int := (x - 10) * (x - 10)

def demoOut (x : Int) (code : Int) : Out Int Int := ⟨x, demoObj x, 5, code, "", 0⟩

def demoWorld : World Int Int := ⟨0, [], []⟩

def demoCalls : List (Call Int Int) :=
  [.named .lbfgsb (.returned (demoOut 9 0)), .make .tnc, .named .scg (.raised 4), .given 1 (.returned (demoOut 12 3))]

example : Finished demoObj demoWorld demoCalls
    [(0, demoOut 9 0, "Converged"), (1, demoOut 12 3, "Maximum number of f evaluations reached")] := by
  refine .run (k := .lbfgsb) rfl (by decide) (fun h => by rcases h with h | h <;> cases h) ?_ ?_
  · exact (if_neg (by decide) : (if (0 : Int) = 2 then "Converged" = "Error" ++ "" else
      Documented .lbfgsb 0 "Converged") = _).mpr .lbfgsb0
  · refine .other rfl (.other rfl (.run (k := .tnc) rfl (by decide) (fun h => by rcases h with h | h <;> cases h) ?_ (.nil _)))
    exact Documented.tnc3

example : (execAll demoObj demoWorld demoCalls).runs = [0, 1] ∧ (execAll demoObj demoWorld demoCalls).params = 12 := by
  decide +kernel

/-- One optimiser object used for two runs: the entry of the first run now holds the second. -/
theorem reused_fails : ((execAll demoObj demoWorld
      [.make .lbfgsb, .given 0 (.returned (demoOut 9 0)), .given 0 (.returned (demoOut 20 0))]).runs,
    (execAll demoObj demoWorld
      [.make .lbfgsb, .given 0 (.returned (demoOut 9 0)), .given 0 (.returned (demoOut 20 0))]).objs.map
        (fun e => (e.2.x, e.2.f))) = ([0, 0], [(some 20, some 100)]) := by decide +kernel

/-- Adadelta, RProp and Adam record no objective. -/
theorem climin_fails : (execAll demoObj demoWorld [.named .climin (.returned (demoOut 9 0))]).objs.map
    (fun e => (e.2.x, e.2.f)) = [(some 9, none)] := by decide +kernel

/-- TNC ends with code 6 (unable to progress) or BFGS with code 3 (`nan`): `optimize` raises `IndexError`,
although the point was found, and leaves no entry; with code -1 (infeasible) TNC is reported to have found
the function constant. -/
theorem undocumented_fails :
    (exec demoObj demoWorld (.named .tnc (.returned (demoOut 9 6)))).2 = false ∧
    (exec demoObj demoWorld (.named .tnc (.returned (demoOut 9 6)))).1.runs = [] ∧
    (exec demoObj demoWorld (.named .tnc (.returned (demoOut 9 6)))).1.params = 9 ∧
    (exec demoObj demoWorld (.named .bfgs (.returned (demoOut 9 3)))).2 = false ∧
    (exec demoObj demoWorld (.named .tnc (.returned (demoOut 9 (-1))))).1.objs.map (fun e => e.2.status) =
      [some "Function is constant"] := by
  decide +kernel

/-! ### Restarts -/

/-- `np.argmin([o.f_opt for o in ...])` (model.py:185); `none` is `TypeError`, from comparing `None`. -/
def argminRecs [LinearOrder F] (l : List (Option F)) : Option Nat :=
  if l.length ≤ 1 then some 0
  else (l.mapM id).map (fun fs => argmin (fs.map Obj.num))

/-- The end of `optimize_restarts` (model.py:183-189), for the objects `new` recorded in it. -/
def chooseBest [LinearOrder F] (w : World F P) (initial : P) (new : List Nat) : Option (World F P) :=
  if new = [] then some { w with params := initial }
  else do
    let k ← argminRecs (new.map (fun i => ((w.objs[i]?).map (fun e => e.2.f)).getD none))
    let i ← new[k]?
    let e ← w.objs[i]?
    let x ← e.2.x
    pure { w with params := x }

/-- `optimize_restarts` with `robust` (model.py:118-190): the calls, whose failures are ignored, and the
choice; `none` is an exception. Simplified: the calls already contain the random starts. -/
def restarts [LinearOrder F] (obj : P → F) (w : World F P) (l : List (Call F P)) : Option (World F P) :=
  chooseBest (execAll obj w l) w.params ((execAll obj w l).runs.drop w.runs.length)

theorem mapM_id_some : ∀ l : List F, (l.map some).mapM id = some l
  | [] => rfl
  | a :: l => by rw [List.map_cons, List.mapM_cons, mapM_id_some l]; rfl

/-- Restarts with a new object each (optimiser given by name): the model ends at a point found by one of the
finished runs, at which the objective is least among all of them. Missing for the full claim: `reused_best_fails`,
`climin_restarts_fails`, `best_run_nan_fails`, `best_run_shared_fails`. -/
theorem restarts_best_partial [LinearOrder F] (obj : P → F) (w : World F P) (l : List (Call F P))
    (rs : List (Nat × Out F P × String)) (h : Finished obj w l rs) (hn : (rs.map (·.1)).Nodup) (hne : rs ≠ []) :
    ∃ w' i o s, restarts obj w l = some w' ∧ (i, o, s) ∈ rs ∧ w'.params = o.x ∧
      ∀ i' o' s', (i', o', s') ∈ rs → obj w'.params ≤ obj o'.x := by
  obtain ⟨h1, h2, -⟩ := runs_history_partial obj l w rs h hn
  unfold restarts
  rw [h1, List.drop_left]
  generalize execAll obj w l = w1 at h2
  have hfs : (rs.map (·.1)).map (fun i => ((w1.objs[i]?).map (fun e => e.2.f)).getD none) =
      (rs.map (fun e => obj e.2.1.x)).map some := by
    rw [List.map_map, List.map_map]
    apply List.map_congr_left
    intro e he
    obtain ⟨i, o, s⟩ := e
    obtain ⟨k, hk⟩ := h2 i o s he
    show ((w1.objs[i]?).map (fun e => e.2.f)).getD none = some (obj o.x)
    rw [hk]; rfl
  have hidx : ∃ k e, rs[k]? = some e ∧ argminRecs ((rs.map (·.1)).map
      (fun i => ((w1.objs[i]?).map (fun e => e.2.f)).getD none)) = some k ∧
      ∀ e' ∈ rs, obj e.2.1.x ≤ obj e'.2.1.x := by
    rw [hfs]
    unfold argminRecs
    split
    · rename_i hle
      cases rs with
      | nil => exact absurd rfl hne
      | cons e rs =>
        cases rs with
        | nil =>
          refine ⟨0, e, rfl, rfl, fun e' he' => ?_⟩
          rw [List.mem_singleton.mp he']
        | cons e2 rs => simp at hle
    · rw [mapM_id_some]
      obtain ⟨x, hx, hmin, -⟩ := argmin_spec (rs.map (fun e => obj e.2.1.x)) (by simpa using hne)
      rw [List.getElem?_map] at hx
      obtain ⟨e, he, hex⟩ := Option.map_eq_some_iff.mp hx
      refine ⟨_, e, he, rfl, fun e' he' => ?_⟩
      rw [hex]
      exact hmin _ (List.mem_map_of_mem (f := fun e : Nat × Out F P × String => obj e.2.1.x) he')
  obtain ⟨k, e, hke, harg, hmin⟩ := hidx
  obtain ⟨i, o, s⟩ := e
  have hmem := List.mem_of_getElem? hke
  obtain ⟨kd, hkd⟩ := h2 i o s hmem
  refine ⟨{ w1 with params := o.x }, i, o, s, ?_, hmem, rfl, fun i' o' s' hm => hmin _ hm⟩
  unfold chooseBest
  rw [if_neg (by simpa using hne), harg]
  show (((rs.map (·.1))[k]?).bind _) = _
  rw [List.getElem?_map, hke]
  show ((w1.objs[i]?).bind _) = _
  rw [hkd]
  rfl

example : ((restarts demoObj demoWorld demoCalls).map (·.params)) = some 9 := by decide +kernel

/-- One optimiser object for all restarts: the model ends at the last run (20), not at the best (9). -/
theorem reused_best_fails : ((restarts demoObj ⟨0, [], [(.lbfgsb, Rec.new)]⟩
    [.given 0 (.returned (demoOut 9 0)), .given 0 (.returned (demoOut 20 0))]).map (·.params)) = some 20 := by
  decide +kernel

/-- Two restarts with Adadelta, RProp or Adam raise `TypeError` after all the work is done. -/
theorem climin_restarts_fails : ((restarts demoObj demoWorld
    [.named .climin (.returned (demoOut 9 0)), .named .climin (.returned (demoOut 20 0))]).map (·.params)) = none := by
  decide +kernel

end Paramz.Run.Records

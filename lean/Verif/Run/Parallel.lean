import Verif.Run.Restarts

/-!
# Random restarts in several processes (C85)

Source: `paramz/model.py:44-47, 118-190`, with `parallel=True`.
-/

namespace Paramz.Run

variable {F P : Type}

/-- What `opt_wrapper` (model.py:44-47) comes to in a worker: an optimiser with `f_opt` and `x_opt`, which are sent
back by value; `None`, if there is nothing to optimise (model.py:89-91); an exception. -/
inductive Job (F P : Type)
  | done (f : Obj F) (x : P)
  | nothing
  | raised (e : Exc)
  deriving DecidableEq, Repr

/-- What is sent back and put into `optimization_runs`: an optimiser or `None`. -/
def Job.back : Job F P → Option (Obj F × P)
  | .done f x => some (f, x)
  | _ => none

/-- How the block with the pool ends (model.py:154-165). `pool.map` raises the exception of one of the jobs if a job
raised one (which one depends on the order in which they end), otherwise it gives the results in order.
`KeyboardInterrupt` is caught, then there is no `jobs`. Simplified: it comes while `pool.map` runs. -/
inductive Pool (jobs : List (Job F P)) : Except Exc (Option (List (Option (Obj F × P)))) → Prop
  | all (h : ∀ j ∈ jobs, ∀ e, j ≠ .raised e) : Pool jobs (.ok (some (jobs.map Job.back)))
  | one {e : Exc} (h : .raised e ∈ jobs) : Pool jobs (.error e)
  | interrupt : Pool jobs (.ok none)

/-- The parameters of the model and `optimization_runs`. -/
structure PMod (F P : Type) where
  params : P
  runs : List (Option (Obj F × P))
  deriving DecidableEq, Repr

/-- How the call ends. -/
inductive PEnd
  | returned
  | raised (e : Exc)
  | noJobs
  | notAnOptimizer
  deriving DecidableEq, Repr

/-- The loop of `optimize_restarts` (model.py:167-182) with `parallel`: append, then print. `jobs[i]` raises
`UnboundLocalError` (here `noJobs`) without `jobs`; `f_opt` of `None` raises `AttributeError` (here
`notAnOptimizer`). -/
def ploop (robust verbose : Bool) : List (Option (Option (Obj F × P))) → PMod F P → PMod F P × PEnd
  | [], m => (m, .returned)
  | none :: l, m => if robust then ploop robust verbose l m else (m, .noJobs)
  | some j :: l, m =>
    let m := { m with runs := m.runs ++ [j] }
    if verbose && j.isNone && !robust then (m, .notAnOptimizer) else ploop robust verbose l m

/-- `optimize_restarts(num_restarts=n, parallel=True)` (model.py:118-190) after the pool has ended. -/
def parallel [LinearOrder F] (robust verbose : Bool) (n : Nat)
    (pool : Except Exc (Option (List (Option (Obj F × P))))) (m : PMod F P) : PMod F P × PEnd :=
  match pool with
  | .error e => (m, .raised e)
  | .ok jobs =>
    let js := match jobs with
      | some l => l.map some
      | none => List.replicate n none
    match ploop robust verbose js m with
    | (m', .returned) =>
      let new := m'.runs.drop m.runs.length
      if new.any Option.isNone then (m', .notAnOptimizer)
      else match (new.filterMap id)[argmin ((new.filterMap id).map Prod.fst)]? with
        | some r => ({ m' with params := r.2 }, .returned)
        | none => ({ m' with params := m.params }, .returned)
    | r => r

/-! ### Properties -/

theorem ploop_done (robust verbose : Bool) : ∀ (l : List (Obj F × P)) (m : PMod F P),
    ploop robust verbose (l.map (fun j => some (some j))) m = ({ m with runs := m.runs ++ l.map some }, .returned)
  | [], m => by simp [ploop]
  | j :: l, m => by
    rw [List.map_cons, ploop]
    simp only [Option.isNone_some, Bool.and_false, Bool.false_and, Bool.false_eq_true, if_false]
    rw [ploop_done robust verbose l]
    simp

/-- All jobs end with an optimiser and no objective is `nan`: the results are recorded in the order of the jobs, the
parameters become those of the first job with the least objective. -/
theorem parallel_best [LinearOrder F] (robust verbose : Bool) (jobs : List (Job F P)) (m : PMod F P)
    (fs : List (F × P)) (hfs : jobs = fs.map (fun e => .done (.num e.1) e.2)) (hne : fs ≠ [])
    (pool : Except Exc (Option (List (Option (Obj F × P))))) (hp : Pool jobs pool) (hi : pool ≠ .ok none) :
    ∃ m', parallel robust verbose jobs.length pool m = (m', .returned) ∧
      m'.runs = m.runs ++ fs.map (fun e => some (.num e.1, e.2)) ∧
      ∃ (k : Nat) (e : F × P), fs[k]? = some e ∧ m'.params = e.2 ∧
        (∀ g ∈ fs, e.1 ≤ g.1) ∧ ∀ j, j < k → ∀ g, fs[j]? = some g → e.1 < g.1 := by
  have hpool : pool = .ok (some (fs.map (fun e => some (Obj.num e.1, e.2)))) := by
    cases hp with
    | all h => rw [hfs, List.map_map]; rfl
    | one h =>
      rw [hfs] at h
      obtain ⟨e, -, he⟩ := List.mem_map.mp h
      cases he
    | interrupt => exact absurd rfl hi
  obtain ⟨f, h1, h2, h3⟩ := argmin_spec (fs.map Prod.fst) (by simpa using hne)
  rw [List.getElem?_map] at h1
  obtain ⟨e, he, rfl⟩ := Option.map_eq_some_iff.mp h1
  have hl : ((fs.map (fun e => some (Obj.num e.1, e.2))).map some : List (Option (Option (Obj F × P)))) =
      (fs.map (fun e => (Obj.num e.1, e.2))).map (fun j => some (some j)) := by simp [List.map_map]
  have hd : (m.runs ++ (fs.map (fun e => (Obj.num e.1, e.2))).map some).drop m.runs.length =
      (fs.map (fun e => (Obj.num e.1, e.2))).map some := List.drop_left
  have hf : ((fs.map (fun e => (Obj.num e.1, e.2))).map some).filterMap id =
      fs.map (fun e => ((Obj.num e.1, e.2) : Obj F × P)) := by
    rw [List.filterMap_map]; simp
  have hn : ((fs.map (fun e => ((Obj.num e.1, e.2) : Obj F × P))).map some).any Option.isNone = false := by
    simp
  have hm : (fs.map (fun e => ((Obj.num e.1, e.2) : Obj F × P))).map Prod.fst = (fs.map Prod.fst).map Obj.num := by
    simp
  refine ⟨⟨e.2, m.runs ++ fs.map (fun e => some (.num e.1, e.2))⟩, ?_, rfl, _, e, he, rfl,
    fun g hg => h2 _ (List.mem_map_of_mem hg), fun j hj g hg => h3 j hj _ (by rw [List.getElem?_map, hg]; rfl)⟩
  subst hpool
  unfold parallel
  simp only
  rw [hl, ploop_done]
  simp only
  rw [hd, hn, hf, hm, List.getElem?_map, he]
  simp

/-- An exception in one of the jobs: the call raises the exception of a job, also with `robust`; parameters and
records are as before. -/
theorem parallel_raises [LinearOrder F] (robust verbose : Bool) (jobs : List (Job F P)) (m : PMod F P)
    (h : ∃ e, .raised e ∈ jobs) (pool : Except Exc (Option (List (Option (Obj F × P))))) (hp : Pool jobs pool)
    (hi : pool ≠ .ok none) :
    ∃ e, .raised e ∈ jobs ∧ parallel robust verbose jobs.length pool m = (m, .raised e) := by
  obtain ⟨e, he⟩ := h
  cases hp with
  | all h => exact absurd rfl (h _ he e)
  | one h => exact ⟨_, h, rfl⟩
  | interrupt => exact absurd rfl hi

theorem ploop_none (verbose : Bool) : ∀ (n : Nat) (m : PMod F P),
    ploop true verbose (List.replicate n none) m = (m, .returned)
  | 0, _ => rfl
  | n + 1, m => by
    rw [List.replicate_succ, ploop]
    simp only [if_true]
    exact ploop_none verbose n m

/-- `Ctrl-C`: parameters and records are as before. With `robust` (or no restarts) the call returns, otherwise it
raises `UnboundLocalError`. -/
theorem parallel_interrupted [LinearOrder F] (robust verbose : Bool) (n : Nat) (m : PMod F P) :
    parallel robust verbose n (.ok none) m = (m, if robust || n == 0 then .returned else .noJobs) := by
  cases robust with
  | true =>
    unfold parallel
    simp only
    rw [ploop_none]
    simp
  | false =>
    cases n with
    | zero => simp [parallel, ploop]
    | succ n => simp [parallel, ploop, List.replicate_succ]

/-- Whatever happens: parameters and records change only if all jobs have ended without an exception; unless the
call returns the parameters are as before. -/
theorem parallel_keeps [LinearOrder F] (robust verbose : Bool) (jobs : List (Job F P)) (m m' : PMod F P)
    (pool : Except Exc (Option (List (Option (Obj F × P))))) (hp : Pool jobs pool) (r : PEnd)
    (h : parallel robust verbose jobs.length pool m = (m', r)) (hr : r ≠ .returned) : m'.params = m.params := by
  have key : ∀ (l : List (Option (Option (Obj F × P)))) (m : PMod F P),
      (ploop robust verbose l m).1.params = m.params := by
    intro l
    induction l with
    | nil => exact fun _ => rfl
    | cons j l ih =>
      intro m
      cases j with
      | none =>
        rw [ploop]
        split
        · exact ih m
        · rfl
      | some j =>
        rw [ploop]
        split
        · rfl
        · exact ih _
  unfold parallel at h
  split at h
  · cases h; rfl
  · rename_i jobs'
    generalize hjs : (match jobs' with
      | some l => l.map some
      | none => List.replicate jobs.length none) = js at h
    have hk := key js m
    dsimp only at h
    split at h
    · rename_i m1 he
      rw [he] at hk
      split at h
      · cases h; exact hk
      · split at h
        · cases h; exact absurd rfl hr
        · cases h; exact absurd rfl hr
    · rw [h] at hk; exact hk

/-- A job that ends with an exception, all others with an optimiser. -/
def demoJobs : List (Job Nat Nat) := [.done (.num 7) 1, .done (.num 3) 2, .raised .linAlg, .done (.num 3) 5]

example : ∃ e, Job.raised e ∈ demoJobs := ⟨.linAlg, by simp [demoJobs]⟩

example : Pool demoJobs (.error .linAlg) := .one (by simp [demoJobs])

/-- Three jobs, then the best. -/
example : parallel false true 3 (.ok (some [some (.num 7, 1), some (.num 3, 2), some (.num 3, 5)]))
    (⟨0, [some (.num 1, 9)]⟩ : PMod Nat Nat) =
    (⟨2, [some (.num 1, 9), some (.num 7, 1), some (.num 3, 2), some (.num 3, 5)]⟩, .returned) := by decide +kernel

/-- The docstring says that with `robust` exceptions are handled silently; in parallel one exception is enough to
lose all results and to raise. The serial variant keeps the three other runs. -/
theorem parallel_robust_fails :
    (∀ pool, Pool demoJobs pool → pool ≠ .ok none →
      parallel true true 4 pool ⟨0, []⟩ = (⟨0, []⟩, .raised .linAlg)) ∧
    ofResult (restarts true true (fun i p =>
      [.finished p ⟨.num 7, .own 1⟩, .finished p ⟨.num 3, .own 2⟩, .failed p .linAlg p,
        .finished p ⟨.num 3, .own 5⟩].getD i (.nothing p)) 4 ⟨0, 0, []⟩) =
      some (2, [⟨.num 7, .own 1⟩, ⟨.num 3, .own 2⟩, ⟨.num 3, .own 5⟩]) := by
  refine ⟨fun pool hp hi => ?_, by decide +kernel⟩
  obtain ⟨e, he, h⟩ := parallel_raises true true demoJobs ⟨0, []⟩ ⟨.linAlg, by simp [demoJobs]⟩ pool hp hi
  have : e = .linAlg := by simpa [demoJobs] using he
  rw [this] at h
  exact h

/-- A model whose parameters are all fixed: `None` is appended to `optimization_runs` and the call raises
`AttributeError`, with `robust` too; later calls of `optimize_restarts` leave it there. The serial variant returns
and changes nothing. -/
theorem parallel_nothing_fails :
    (∀ pool, Pool ([.nothing, .nothing] : List (Job Nat Nat)) pool → pool ≠ .ok none →
      parallel true false 2 pool ⟨4, []⟩ = (⟨4, [none, none]⟩, .notAnOptimizer) ∧
      parallel false true 2 pool ⟨4, []⟩ = (⟨4, [none]⟩, .notAnOptimizer)) ∧
    ofResult (restarts true true (fun _ p => .nothing p) 2 ⟨4, 4, []⟩) = some (4, []) := by
  refine ⟨fun pool hp hi => ?_, by decide +kernel⟩
  cases hp with
  | all h => decide +kernel
  | one h => simp at h
  | interrupt => exact absurd rfl hi

end Paramz.Run

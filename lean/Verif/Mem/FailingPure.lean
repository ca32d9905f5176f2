import Verif.Mem.FailingTwins

/-!
# C91: models that never fail

The two models of `optimize`, `State.optimize` (`Verif.Mem.Twins`, evaluations do not raise) and `Bench.optimize`
(`Verif.Mem.FailingTwins`), agree where both apply.
-/

set_option linter.unusedSectionVars false

namespace Paramz.Memory

open Hier (Id)
open Opt (Ops)
open Run (Exc Res)

/-- Objective and gradients of what was returned; `none` where an evaluation failed. -/
def returned {V W : Type} : Res W (List V) → Option W × Option (List V)
  | .objective v => (some v, none)
  | .grads g => (none, some g)
  | .both v g => (some v, some g)
  | _ => (none, none)

/-- An optimiser that is not prepared for failures. -/
def Prog.toF {V W : Type} : Prog V W → FProg V W
  | .done x => .done x
  | .ask c k => .ask c (fun a => (k ⟨(returned a.res).1, (returned a.res).2, a.own, a.array⟩).toF)

namespace Bench

variable {V T W : Type} [DecidableEq T] {spoil : Nat → Nat → V}

/-- An evaluation that does not raise: the model is at the point, and the objective and the gradients there are
returned. -/
theorem evaluate_pure {o : Ops V T} {u : Own V W} {F : List V → W} {g : List V → List V} (hF : ∀ v, u.F v = .ok (F v))
    (hg : ∀ v d, u.pc v d = (g v, none)) (r : Id) (b : Bench V T) (q : Query V) :
    (evaluate spoil o u r b q).1.st = b.st.setArray spoil o r q.point ∧
    (evaluate spoil o u r b q).1.count = 0 ∧
    raisedOf (evaluate spoil o u r b q).2 = none ∧
    (returned (evaluate spoil o u r b q).2).1 = ((b.st.setArray spoil o r q.point).answer o F g r q).value ∧
    (returned (evaluate spoil o u r b q).2).2 = ((b.st.setArray spoil o r q.point).answer o F g r q).grads ∧
    (evaluate spoil o u r b q).1.grad = ((b.st.setArray spoil o r q.point).answer o F g r q).array := by
  cases q <;>
    simp [evaluate, handle, arrayAfter, State.answer, Run.objective, Run.grads, Run.objectiveGrads, hF, hg, raisedOf,
      returned, Query.point, Except.map]

theorem run_pure {o : Ops V T} {u : Own V W} {F : List V → W} {g : List V → List V} (hF : ∀ v, u.F v = .ok (F v))
    (hg : ∀ v d, u.pc v d = (g v, none)) (r : Id) : ∀ (p : Prog V W) (b : Bench V T),
    (run spoil o u r p.toF b).1.st = (State.runProg spoil o F g r p b.st).1 ∧
    (run spoil o u r p.toF b).2.1.map (fun z => (z.1, returned z.2)) =
      (State.runProg spoil o F g r p b.st).2.1.map (fun z => (z.1, z.2.value, z.2.grads)) ∧
    (run spoil o u r p.toF b).2.2 = .ok (State.runProg spoil o F g r p b.st).2.2
  | .done x, b => by simp [Prog.toF, run, State.runProg, hg]
  | .ask c k, b => by
    obtain ⟨h1, -, h3, h4, h5, h6⟩ := evaluate_pure (spoil := spoil) (o := o) hF hg r b c
    have ho : ((b.st.setArray spoil o r c.point).answer o F g r c).own =
        !((b.st.setArray spoil o r c.point).optState r none).hasFixes := by cases c <;> rfl
    have ih := run_pure (o := o) hF hg r (k ((b.st.setArray spoil o r c.point).answer o F g r c))
      (evaluate spoil o u r b c).1
    simp only [Prog.toF, run, State.runProg]
    rw [h3]
    dsimp only
    rw [h4, h5, h6, h1, ← ho]
    rw [h1] at ih
    refine ⟨ih.1, ?_, ih.2.2⟩
    simp only [List.map_cons]
    rw [ih.2.1]
    congr 1
    rw [← h4, ← h5]

/-- **C91, C45.** If no evaluation of a model raises, counting failures makes no difference: `optimize` visits the same
points, is told the same objectives and gradients, and ends with the same parameters, whatever the number of failures
and the gradients were before. -/
theorem never_failing {o : Ops V T} {u : Own V W} {F : List V → W} {g : List V → List V} (hF : ∀ v, u.F v = .ok (F v))
    (hg : ∀ v d, u.pc v d = (g v, none)) (copy : Option (List V)) (junk : List V) (p : List V → Prog V W) (r : Id)
    (b : Bench V T) :
    (b.optimize spoil o u copy junk (fun x => (p x).toF) r).1.st = (b.st.optimize spoil o F g copy junk p r).1 ∧
    (b.optimize spoil o u copy junk (fun x => (p x).toF) r).2.map
        (fun z => (z.1.map (fun z => (z.1, returned z.2)), z.2)) =
      (b.st.optimize spoil o F g copy junk p r).2.map
        (fun z => (z.1.map (fun z => (z.1, z.2.value, z.2.grads)), .ok z.2)) := by
  simp only [optimize, State.optimize]
  split
  · exact ⟨rfl, rfl⟩
  · obtain ⟨h1, h2, h3⟩ := run_pure (spoil := spoil) (o := o) hF hg r (p (b.st.readArray o r copy junk)) b
    refine ⟨h1, ?_⟩
    simp only [Option.map_some]
    rw [h2, h3]

/-- **C91, C45.** An evaluation of the objective that fails is answered with infinity while fewer than ten in a row have
failed before it, and with the exception after that; either way the model is left at the point that was asked for. -/
theorem failing_objective {o : Ops V T} {u : Own V W} {r : Id} {b : Bench V T} {x : List V} {e : Exc}
    (hn : e.numerical = true)
    (he : (u.pc ((b.st.setArray spoil o r x).values r) b.grad).2 = some e ∨
      ((u.pc ((b.st.setArray spoil o r x).values r) b.grad).2 = none ∧
        u.F ((b.st.setArray spoil o r x).values r) = .error e)) :
    (evaluate spoil o u r b (.objective x)).1.st = b.st.setArray spoil o r x ∧
    (b.count < 10 → (evaluate spoil o u r b (.objective x)).2 = .infinite ∧
      (evaluate spoil o u r b (.objective x)).1.count = b.count + 1) ∧
    (10 ≤ b.count → (evaluate spoil o u r b (.objective x)).2 = .raised e) := by
  refine ⟨rfl, ?_, ?_⟩
  · intro h
    have h' : ¬ Run.allowed ≤ b.count := by unfold Run.allowed; omega
    rcases he with he | ⟨h1, h2⟩ <;>
      simp [evaluate, handle, Run.objective, Query.point, *]
  · intro h
    have h' : Run.allowed ≤ b.count := h
    rcases he with he | ⟨h1, h2⟩ <;>
      simp [evaluate, handle, Run.objective, Query.point, *]

/-! ### A case -/

/-- `touchy` without its temper. -/
def gentle : Own Nat Nat := ⟨fun v => .ok v.sum, fun v _ => (v.map (fun _ => 3), none), fun _ x => x⟩

/-- One step away from the start and back. -/
example :
    let p : List Nat → Prog Nat Nat := fun x => .ask (.both (x.map (· + 2))) (fun a =>
      .ask (.objective x) (fun c => .done (if c.value.getD 0 ≤ a.value.getD 0 then x else x.map (· + 2))))
    ((touchySeen.optimize State.demoSpoil timesOps gentle none [] (fun x => (p x).toF) 0).2.map (fun z => z.2)) =
      some (.ok [10, 4, 30, 32, 40, 42, 43]) := by decide +kernel

end Bench

end Paramz.Memory

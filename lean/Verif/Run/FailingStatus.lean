import Verif.Run.FailingRuns

/-!
# What the status of a run with failures says (C86)

Source: `paramz/optimization/scg.py:134-150`, `paramz/model.py:97-116, 225-246`.
-/

set_option linter.unusedSectionVars false

namespace Paramz.Run.SCG

variable {W R E K : Type} [Field K] [LinearOrder K]

/-- What a status says about a run that ends in the state `w` of the model at `x`, with `log`, last entry first. -/
def WSays (O : Oracle W R E K) (w : W) (x : List K) (log : List (Val K)) : Status → Prop
  | .gradient => ∃ w0 r g, O.gradf (some x) w0 = (w, .ok r) ∧ O.read w r = some g ∧ dot g g ≤ O.gtol
  | .objective => ∃ a b l, log = a :: b :: l ∧ (a.sub b).abs.lt O.ftol = true
  | _ => True

variable [IsStrictOrderedRing K] {O : Oracle W R E K} {F : List K → Val K} {x0 : List K}

theorem wpass_says (hA : Answers O F) {w w' : W} {s s' : WSt R K} {st : Status} (hs : WInv F x0 s)
    (h : wpass O s w = (w', .ok (s', some st))) : WSays O w' s'.x s'.log st := by
  unfold wpass at h
  cases hc : wcurvature O s w with
  | mk w1 r1 =>
    rw [hc] at h
    cases r1 with
    | error e => cases h
    | ok t =>
      obtain ⟨hm, hlog⟩ := wcurvature_mid hs hc
      dsimp only at h
      split at h
      · obtain ⟨-, hn, -⟩ := wstuck_spec hm hm.down h
        cases hn
      · split at h
        · unfold wlive at h
          dsimp only at h
          split at h
          · cases h
          · split at h
            · rename_i fnew hf hacc
              unfold waccept at h
              dsimp only at h
              split at h
              · rename_i hlt
                cases h
                cases hl : t.log with
                | nil => have := hm.head; rw [hl] at this; cases this
                | cons b l =>
                  have hb := hm.head
                  rw [hl] at hb
                  have hb : b = F t.x := Option.some.inj hb
                  rw [hm.fold, ← hb] at hlt
                  exact ⟨_, b, l, by simp [hl], hlt⟩
              · split at h
                · cases h; trivial
                · split at h
                  · cases h
                  · rename_i w3 r hg
                    split at h
                    · rename_i hfl
                      cases h
                      revert hfl
                      unfold wflat
                      split
                      · rename_i g hr
                        exact fun hfl => ⟨_, r, g, hg, hr, of_decide_eq_true hfl⟩
                      · intro hfl; cases hfl
                    · cases h
            · cases h
        · obtain ⟨-, hn, -⟩ := wstuck_spec hm hm.down h
          cases hn

theorem wloop_says (hA : Answers O F) : ∀ (n : Nat) (s s' : WSt R K) (w w' : W) (st : Status), WInv F x0 s →
    wloop O n s w = (w', .ok (s', st)) → WSays O w' s'.x s'.log st
  | 0, s, s', w, w', st, hs, h => by
    rw [wloop] at h
    cases h
    trivial
  | n + 1, s, s', w, w', st, hs, h => by
    rw [wloop] at h
    cases hp : wpass O s w with
    | mk w1 r1 =>
      rw [hp] at h
      cases r1 with
      | error e => cases h
      | ok p =>
        obtain ⟨s1, st1⟩ := p
        cases st1 with
        | some st1 =>
          cases h
          exact wpass_says hA hs hp
        | none => exact wloop_says hA n s1 s' w1 w' st ((wpass_spec hA hs hp).2.1 rfl) h

theorem wrun_says (hA : Answers O F) {n : Nat} {w w' : W} {r : Result K} (h : wrun O x0 n w = (w', .ok r)) :
    WSays O w' r.x r.log.reverse r.status := by
  unfold wrun at h
  cases h1 : wstart O x0 w with
  | mk w1 r1 =>
    rw [h1] at h
    cases r1 with
    | error e => cases h
    | ok s =>
      dsimp only at h
      cases h2 : wloop O n s w1 with
      | mk w2 r2 =>
        rw [h2] at h
        cases r2 with
        | error e => cases h
        | ok p =>
          obtain ⟨s2, st⟩ := p
          cases h
          have := wloop_says hA n s s2 w1 _ st (wstart_inv hA h1).1 h2
          show WSays O _ s2.x s2.log.reverse.reverse st
          rwa [List.reverse_reverse]

end Paramz.Run.SCG

namespace Paramz.Run.Failing

open SCG (Val Oracle Result Status NotAbove dot)

variable {K : Type} [Field K] [LinearOrder K] [IsStrictOrderedRing K]

/-- C86: what the status of a run says is true. `relative reduction in gradient`: the model can be evaluated at the point
returned, its gradient for the free elements, with the factors of the constraints, is there without `nan`, and its squared
length is at most `gtol`. `relative reduction in objective`: the objective of the point returned and that of the point before
differ by less than `ftol`. `maxiter exceeded`: all passes were made. -/
theorem failing_run_status (M : Mdl K) (t : Tols K) (x0 : List K) (n : Nat) {w w' : World K} {r : Result K}
    (h : M.optimize t x0 n w = (w', .ok r)) :
    (r.status = .gradient → M.fails (some r.x) = none ∧ ∃ g,
      (if M.fixes then M.free (M.factors (some r.x) (M.grad (some r.x))) else M.factors (some r.x) (M.grad (some r.x))) = some g ∧
      dot g g ≤ t.gtol) ∧
    (r.status = .objective → ∃ A b, r.log = A ++ [b, M.at r.x] ∧ ((M.at r.x).sub b).abs.lt t.ftol = true) ∧
    (r.status = .maxiter → r.log.length = 1 + n) := by
  have hret := failing_run_returns M t x0 n h
  unfold Mdl.optimize at h
  cases h1 : SCG.wrun (M.oracle t) x0 n w with
  | mk w1 r1 =>
    rw [h1] at h
    cases r1 with
    | error e => cases h
    | ok r1 =>
      have hsay := SCG.wrun_says (oracle_answers M t) h1
      obtain ⟨-, -, -, -, hmax, -, -⟩ := SCG.wrun_spec (oracle_answers M t) h1
      dsimp only at h
      unfold Mdl.set at h
      cases hF : M.fails (some r1.x) with
      | some e => rw [hF] at h; cases h
      | none =>
        rw [hF] at h
        cases h
        refine ⟨fun hs => ⟨hF, ?_⟩, fun hs => ?_, hmax⟩
        · rw [hs] at hsay
          obtain ⟨w0, ref, g, hg, hr, hle⟩ := hsay
          obtain ⟨ref', e1, -, e2⟩ := (grads_answers M r.x w0).1 hF
          have hg : M.grads (some r.x) w0 = (w1, .ok ref) := hg
          rw [hg] at e1 e2
          cases e1
          exact ⟨g, e2.symm.trans hr, hle⟩
        · rw [hs] at hsay
          obtain ⟨a, b, l, hl, hlt⟩ := hsay
          have hlog : r.log = l.reverse ++ [b, a] := by
            have := congrArg List.reverse hl
            rw [List.reverse_reverse] at this
            rw [this]; simp
          have ha : a = M.at r.x := by
            have := hret.2.2.2.2.2.1
            rw [hlog] at this
            simpa using this
          subst ha
          exact ⟨l.reverse, b, hlog, hlt⟩

/-- `x²` up to 1 and a straight line from there on, not below -1. -/
def notch : Mdl ℚ where
  fails x := match x with
    | some [y] => if y < -1 then some .linAlg else none
    | _ => some .value
  grad x := x.map (fun l => l.map (fun y => if 1 < y then 8 else 2 * y))
  partway _ g := g
  value x := match x with
    | some [y] => .ok (.fin (if 1 < y then 8 * y - 7 else y * y))
    | _ => .ok .nan
  factors _ g := g
  free g := g
  fixes := true

/-- A run that fails on the way and converges, by the gradient. -/
example : ((notch.optimize ⟨fun _ => 1, 0, 0, 1 / 100⟩ [3] 60 (fresh [3])).2.toOption.map
      (fun r => (r.status == .gradient, r.log.length))) = some (true, 6) ∧
    (notch.optimize ⟨fun _ => 1, 0, 0, 1 / 100⟩ [3] 60 (fresh [3])).1.seen.any (fun x => notch.obstacle x != none) = true := by
  decide +kernel

end Paramz.Run.Failing

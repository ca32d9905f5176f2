import Verif.Run.FailingRuns

/-!
# Without failures both models of SCG agree (C86)

`SCG.run` (`Verif/Run/SCG.lean`) asks functions, `SCG.wrun` (`Verif/Run/SCGWorld.lean`) a model with arrays.
-/

set_option linter.unusedSectionVars false

namespace Paramz.Run.Failing

open SCG

variable {K : Type} [Field K] [LinearOrder K]

/-- The model never fails, and what it computes is what the problem says. -/
structure Agrees (M : Mdl K) (t : Tols K) (P : Problem K) : Prop where
  fails : ∀ x, M.fails x = none
  value : ∀ x, M.value (some x) = .ok (P.f x)
  nan : ∃ v, M.value none = .ok v
  grad : P.shared = true → ∀ x, M.grad (some x) = some (P.left x)
  shared : P.shared = true → ∀ x, M.factors (some x) (M.grad (some x)) = some (P.gradf x)
  own : P.shared = false → ∀ x, M.free (M.factors (some x) (M.grad (some x))) = some (P.gradf x)
  fixes : M.fixes = !P.shared
  sqrt : t.sqrt = P.sqrt
  xtol : t.xtol = P.xtol
  ftol : t.ftol = P.ftol
  gtol : t.gtol = P.gtol

/-- The array `r` reads `g`. -/
def Holds (P : Problem K) (w : World K) (r : Option Nat) (g : List K) : Prop :=
  if P.shared then r = none ∧ w.grad = some g else ∃ i, r = some i ∧ w.arrays[i]? = some (some g)

theorem Holds.read {P : Problem K} {w : World K} {r : Option Nat} {g : List K} (h : Holds P w r g) : w.read r = some g := by
  unfold Holds at h
  split at h
  · obtain ⟨rfl, h⟩ := h; exact h
  · obtain ⟨i, rfl, h⟩ := h
    show (w.arrays[i]?).getD none = _
    rw [h]; rfl

variable {M : Mdl K} {t : Tols K} {P : Problem K}

theorem ask_f (h : Agrees M t P) (x : List K) (w : World K) :
    ∃ w', M.objective (some x) w = (w', .ok (P.f x)) ∧
      ∀ r g, Holds P w r g → Holds P w' r (if P.shared then P.left x else g) := by
  unfold Mdl.objective Mdl.set
  rw [h.fails]
  dsimp only
  rw [h.value]
  refine ⟨_, rfl, ?_⟩
  intro r g hr
  unfold Holds at hr ⊢
  split at hr
  · rename_i hs
    rw [if_pos hs, if_pos hs]
    exact ⟨hr.1, h.grad hs x⟩
  · rename_i hs
    rw [if_neg hs, if_neg hs]
    exact hr

theorem ask_f_nan (h : Agrees M t P) (w : World K) : ∃ w' v, M.objective none w = (w', .ok v) := by
  obtain ⟨v, hv⟩ := h.nan
  unfold Mdl.objective Mdl.set
  rw [h.fails]
  dsimp only
  rw [hv]
  exact ⟨_, v, rfl⟩

theorem ask_g (h : Agrees M t P) (x : List K) (w : World K) :
    ∃ w' r', M.grads (some x) w = (w', .ok r') ∧ Holds P w' r' (P.gradf x) ∧
      ∀ r g, Holds P w r g → Holds P w' r (if P.shared then P.gradf x else g) := by
  unfold Mdl.grads Mdl.set
  rw [h.fails, h.fixes]
  dsimp only
  cases hs : P.shared with
  | true =>
    refine ⟨_, _, if_neg (by simp), ?_, ?_⟩
    · unfold Holds
      rw [if_pos hs]
      exact ⟨rfl, h.shared hs x⟩
    · intro r g hr
      unfold Holds at hr ⊢
      rw [if_pos hs] at hr ⊢
      exact ⟨hr.1, h.shared hs x⟩
  | false =>
    have hs' : ¬ P.shared = true := by rw [hs]; simp
    refine ⟨_, _, if_pos (by simp), ?_, ?_⟩
    · unfold Holds
      rw [if_neg hs']
      refine ⟨_, rfl, ?_⟩
      show (w.arrays ++ [M.free (M.factors (some x) (M.grad (some x)))])[w.arrays.length]? = _
      rw [List.getElem?_append_right (le_refl _), h.own hs]
      simp
    · intro r g hr
      unfold Holds at hr ⊢
      rw [if_neg hs'] at hr ⊢
      obtain ⟨i, hi, hg⟩ := hr
      refine ⟨i, hi, ?_⟩
      show (w.arrays ++ [_])[i]? = _
      rw [List.getElem?_append_left (List.getElem?_eq_some_iff.mp hg).1]
      simpa using hg

theorem ask_g_nan (h : Agrees M t P) (w : World K) : ∃ w' r, M.grads none w = (w', .ok r) := by
  unfold Mdl.grads Mdl.set
  rw [h.fails]
  dsimp only
  split
  · exact ⟨_, _, rfl⟩
  · exact ⟨_, _, rfl⟩

/-- The variables agree; once everything is `nan` only those that matter. -/
structure Sim (P : Problem K) (s : St K) (u : WSt (Option Nat) K) (w : World K) : Prop where
  x : u.x = s.x
  fold : u.fold = s.fold
  success : u.success = s.success
  nsuccess : u.nsuccess = s.nsuccess
  dead : u.dead = s.dead
  log : u.log = s.log
  evals : u.evals = s.evals
  live : s.dead = false → u.d = some s.d ∧ u.mu = s.mu ∧ u.kappa = s.kappa ∧ u.theta = s.theta ∧ u.beta = s.beta ∧
    Holds P w u.gradnew s.gradnew ∧ Holds P w u.gradold s.gradold

theorem start_sim (h : Agrees M t P) (x : List K) (w : World K) :
    ∃ w' u, wstart (M.oracle t) x w = (w', .ok u) ∧ Sim P (start P x) u w' := by
  obtain ⟨w1, e1, -⟩ := ask_f h x w
  obtain ⟨w2, r, e2, e3, -⟩ := ask_g h x w1
  unfold wstart
  rw [show (M.oracle t).f (some x) w = _ from e1]
  dsimp only
  rw [show (M.oracle t).gradf (some x) w1 = _ from e2]
  refine ⟨w2, _, rfl, rfl, rfl, rfl, rfl, rfl, rfl, rfl, fun _ => ⟨?_, rfl, rfl, rfl, rfl, e3, e3⟩⟩
  show (w2.read r).map neg = _
  rw [e3.read]; rfl

theorem curvature_sim (h : Agrees M t P) {s : St K} {u : WSt (Option Nat) K} {w : World K} (hs : Sim P s u w)
    (hd : s.dead = true → s.success = false) :
    ∃ w' u', wcurvature (M.oracle t) u w = (w', .ok u') ∧ Sim P (curvature P s) u' w' := by
  unfold wcurvature curvature
  rw [hs.success]
  cases hsu : s.success with
  | false => exact ⟨w, u, if_neg (by simp), hs⟩
  | true =>
    have hdead : s.dead = false := by
      cases hx : s.dead with
      | false => rfl
      | true => rw [hd hx] at hsu; cases hsu
    obtain ⟨l1, l2, l3, l4, l5, l6, l7⟩ := hs.live hdead
    rw [if_pos rfl, if_pos rfl, l1, show (M.oracle t).read w u.gradnew = _ from l6.read]
    dsimp only
    have hdir : wdirection s.d s.gradnew = direction s := rfl
    rw [hdir]
    by_cases hk : dot (direction s) (direction s) = 0
    · rw [if_pos hk, if_pos hk]
      obtain ⟨w1, r, e1⟩ := ask_g_nan h w
      unfold wnan
      rw [show (M.oracle t).gradf none w = _ from e1]
      refine ⟨w1, _, rfl, hs.x, hs.fold, (by first | rfl | exact hs.success | exact hsu.symm), hs.nsuccess, rfl, hs.log, ?_, fun hx => by cases hx⟩
      show u.evals + 1 = s.evals + 1
      rw [hs.evals]
    · rw [if_neg hk, if_neg hk]
      obtain ⟨w1, r, e1, e2, e3⟩ := ask_g h (axpy s.x ((1 / 10000000) / P.sqrt (dot (direction s) (direction s)))
        (direction s)) w
      have hsq : (M.oracle t).sqrt = P.sqrt := h.sqrt
      unfold wprobe
      dsimp only
      rw [hsq, hs.x, show (M.oracle t).gradf _ w = _ from e1]
      dsimp only
      rw [show (M.oracle t).read w1 r = _ from e2.read,
        show (M.oracle t).read w1 u.gradnew = _ from (e3 _ _ l6).read]
      refine ⟨w1, _, rfl, rfl, hs.fold, hs.success, hs.nsuccess, hs.dead, hs.log, ?_, fun _ => ⟨rfl, rfl, rfl, rfl, l5,
        e3 _ _ l6, e3 _ _ l7⟩⟩
      show u.evals + 1 = s.evals + 1
      rw [hs.evals]

theorem redirect_sim {s : St K} {u : WSt (Option Nat) K} {w : World K} (hs : Sim P s u w)
    (hd : s.dead = true → s.success = false) :
    Sim P (redirect s) (wredirect (M.oracle t) w u) w ∧ ((redirect s).dead = true → (redirect s).success = false) := by
  unfold wredirect redirect
  rw [hs.nsuccess, hs.x, hs.success]
  by_cases hn : s.nsuccess = s.x.length
  · rw [if_pos hn, if_pos hn]
    refine ⟨⟨rfl, hs.fold, rfl, rfl, hs.dead, hs.log, hs.evals, fun hx => ?_⟩, hd⟩
    obtain ⟨l1, l2, l3, l4, l5, l6, l7⟩ := hs.live hx
    refine ⟨?_, l2, l3, l4, rfl, l6, l7⟩
    show (w.read u.gradnew).map neg = _
    rw [l6.read]; rfl
  · rw [if_neg hn, if_neg hn]
    cases hsu : s.success with
    | false => exact ⟨hs, hd⟩
    | true =>
      have hdead : s.dead = false := by
        cases hx : s.dead with
        | false => rfl
        | true => rw [hd hx] at hsu; cases hsu
      obtain ⟨l1, l2, l3, l4, l5, l6, l7⟩ := hs.live hdead
      rw [if_pos rfl, if_pos rfl]
      refine ⟨⟨rfl, hs.fold, rfl, rfl, hs.dead, hs.log, hs.evals,
        fun _ => ⟨?_, l2, l3, l4, l5, l6, l7⟩⟩,
        fun hx => by rw [show s.dead = true from hx] at hdead; cases hdead⟩
      dsimp only
      rw [l1, show (M.oracle t).read w u.gradold = _ from l7.read, show (M.oracle t).read w u.gradnew = _ from l6.read, l2]

theorem stuck_sim (h : Agrees M t P) {s : St K} {u : WSt (Option Nat) K} {w : World K} (hs : Sim P s u w)
    (hd : s.dead = true) :
    ∃ w' u', wstuck (M.oracle t) u w = (w', .ok (u', none)) ∧ Sim P (stuck s).1 u' w' ∧ (stuck s).2 = none ∧
      ((stuck s).1.dead = true → (stuck s).1.success = false) := by
  obtain ⟨w1, v, e1⟩ := ask_f_nan h w
  have h1 : Sim P { s with success := false, log := s.fold :: s.log, evals := s.evals + 1 }
      { u with success := false, log := u.fold :: u.log, evals := u.evals + 1 } w1 :=
    ⟨hs.x, hs.fold, rfl, hs.nsuccess, hs.dead, by show u.fold :: u.log = _; rw [hs.fold, hs.log],
      by show u.evals + 1 = _; rw [hs.evals], fun hx => by rw [show s.dead = false from hx] at hd; cases hd⟩
  obtain ⟨h2, h3⟩ := redirect_sim (M := M) (t := t) h1 (fun _ => rfl)
  refine ⟨w1, _, ?_, h2, rfl, h3⟩
  unfold wstuck
  rw [show (M.oracle t).f none w = _ from e1]

theorem live_sim (h : Agrees M t P) {s : St K} {u : WSt (Option Nat) K} {w : World K} (hs : Sim P s u w)
    (hd : s.dead = false) :
    ∃ w' u', wlive (M.oracle t) u s.d w = (w', .ok (u', (live P s).2)) ∧ Sim P (live P s).1 u' w' ∧
      ((live P s).1.dead = true → (live P s).1.success = false) := by
  obtain ⟨l1, l2, l3, l4, l5, l6, l7⟩ := hs.live hd
  have hal : walpha u = alphaOf s := by unfold walpha alphaOf wdelta deltaOf; rw [l2, l3, l4, l5]
  have hbe : wbeta u = betaOf s := by unfold wbeta betaOf; rw [l3, l4, l5]
  have hbe' : betaOf (touch P (P.left (axpy s.x (alphaOf s) s.d)) s) = betaOf s := rfl
  obtain ⟨w1, e1, e2⟩ := ask_f h (axpy s.x (alphaOf s) s.d) w
  unfold wlive live
  dsimp only
  rw [hal, hs.x, show (M.oracle t).f _ w = _ from e1]
  dsimp only
  rw [hs.fold, l2]
  have hmu : (touch P (P.left (axpy s.x (alphaOf s) s.d)) s).mu = s.mu := rfl
  have hfo : (touch P (P.left (axpy s.x (alphaOf s) s.d)) s).fold = s.fold := rfl
  rw [hmu, hfo]
  generalize hD : ((P.f (axpy s.x (alphaOf s) s.d)).sub s.fold).ratio (alphaOf s * s.mu) = D
  by_cases hge : D.ge 0 = true
  · rw [if_pos hge, if_pos hge]
    unfold waccept
    dsimp only
    rw [hal, hbe, hs.x, hs.fold, show (M.oracle t).ftol = P.ftol from h.ftol, show (M.oracle t).xtol = P.xtol from h.xtol]
    have hdd : ∀ v, (touch P v s).d = s.d := fun _ => rfl
    rw [hdd]
    split
    · refine ⟨w1, _, rfl, ⟨rfl, rfl, rfl, ?_, ?_, ?_, ?_, fun _ => ⟨l1, l2, l3, l4, rfl, e2 _ _ l6, e2 _ _ l7⟩⟩,
        fun hx => by rw [show s.dead = true from hx] at hd; cases hd⟩
      · show u.nsuccess + 1 = s.nsuccess + 1; rw [hs.nsuccess]
      · exact hs.dead
      · show _ :: u.log = _ :: s.log; rw [hs.log]
      · show u.evals + 1 = s.evals + 1; rw [hs.evals]
    · split
      · refine ⟨w1, _, rfl, ⟨rfl, rfl, rfl, ?_, ?_, ?_, ?_, fun _ => ⟨l1, l2, l3, l4, rfl, e2 _ _ l6, e2 _ _ l7⟩⟩,
          fun hx => by rw [show s.dead = true from hx] at hd; cases hd⟩
        · show u.nsuccess + 1 = s.nsuccess + 1; rw [hs.nsuccess]
        · exact hs.dead
        · show _ :: u.log = _ :: s.log; rw [hs.log]
        · show u.evals + 1 = s.evals + 1; rw [hs.evals]
      · obtain ⟨w2, r, f1, f2, f3⟩ := ask_g h (axpy s.x (alphaOf s) s.d) w1
        rw [show (M.oracle t).gradf _ w1 = _ from f1]
        dsimp only
        rw [show (M.oracle t).read w2 r = _ from f2.read]
        have hfl : wflat (M.oracle t) (some (P.gradf (axpy s.x (alphaOf s) s.d))) =
            decide (dot (P.gradf (axpy s.x (alphaOf s) s.d)) (P.gradf (axpy s.x (alphaOf s) s.d)) ≤ P.gtol) := by
          unfold wflat
          rw [show (M.oracle t).gtol = P.gtol from h.gtol]
        rw [hfl]
        simp only [decide_eq_true_eq]
        split
        · refine ⟨w2, _, rfl, ⟨rfl, rfl, rfl, ?_, ?_, ?_, ?_, fun _ => ⟨l1, l2, l3, l4, rfl, f2, f3 _ _ (e2 _ _ l6)⟩⟩,
            fun hx => by rw [show s.dead = true from hx] at hd; cases hd⟩
          · show u.nsuccess + 1 = s.nsuccess + 1; rw [hs.nsuccess]
          · exact hs.dead
          · show _ :: u.log = _ :: s.log; rw [hs.log]
          · show u.evals + 2 = s.evals + 1 + 1; rw [hs.evals]
        · refine ⟨w2, _, rfl, redirect_sim ⟨rfl, rfl, rfl, ?_, ?_, ?_, ?_,
            fun _ => ⟨l1, l2, l3, l4, rfl, f2, f3 _ _ (e2 _ _ l6)⟩⟩
            (fun hx => by rw [show s.dead = true from hx] at hd; cases hd)⟩
          · show u.nsuccess + 1 = s.nsuccess + 1; rw [hs.nsuccess]
          · exact hs.dead
          · show _ :: u.log = _ :: s.log; rw [hs.log]
          · show u.evals + 2 = s.evals + 1 + 1; rw [hs.evals]
  · rw [if_neg hge, if_neg hge]
    refine ⟨w1, _, rfl, redirect_sim ⟨rfl, rfl, rfl, hs.nsuccess, hs.dead, ?_, ?_,
      fun _ => ⟨l1, rfl, l3, l4, ?_, e2 _ _ l6, e2 _ _ l7⟩⟩ (fun _ => rfl)⟩
    · show s.fold :: u.log = s.fold :: s.log; rw [hs.log]
    · show u.evals + 1 = s.evals + 1; rw [hs.evals]
    · show scale (wbeta u) D = scale (betaOf s) D; rw [hbe]

theorem pass_sim (h : Agrees M t P) {s : St K} {u : WSt (Option Nat) K} {w : World K} (hs : Sim P s u w)
    (hd : s.dead = true → s.success = false) :
    ∃ w' u', wpass (M.oracle t) u w = (w', .ok (u', (pass P s).2)) ∧ Sim P (pass P s).1 u' w' ∧
      ((pass P s).1.dead = true → (pass P s).1.success = false) := by
  obtain ⟨w1, u1, e1, s1⟩ := curvature_sim h hs hd
  unfold wpass pass
  rw [e1]
  dsimp only
  rw [s1.dead]
  cases hx : (curvature P s).dead with
  | true =>
    rw [if_pos rfl, if_pos rfl]
    obtain ⟨w2, u2, e2, s2, e3, e4⟩ := stuck_sim h s1 hx
    exact ⟨w2, u2, by rw [e3]; exact e2, s2, e4⟩
  | false =>
    rw [if_neg (by simp), if_neg (by simp), (s1.live hx).1]
    exact live_sim h s1 hx

theorem loop_sim (h : Agrees M t P) : ∀ (n : Nat) (s : St K) (u : WSt (Option Nat) K) (w : World K), Sim P s u w →
    (s.dead = true → s.success = false) →
    ∃ w' u', wloop (M.oracle t) n u w = (w', .ok (u', (loop P n s).2)) ∧ Sim P (loop P n s).1 u' w'
  | 0, s, u, w, hs, _ => ⟨w, u, rfl, hs⟩
  | n + 1, s, u, w, hs, hd => by
    obtain ⟨w1, u1, e1, s1, d1⟩ := pass_sim h hs hd
    rw [wloop, loop, e1]
    cases hp : pass P s with
    | mk s' st =>
      rw [hp] at s1 d1
      cases st with
      | some st => exact ⟨w1, u1, rfl, s1⟩
      | none => exact loop_sim h n s' u1 w1 s1 d1

/-- C86: for a model that never fails, `optimize` returns what SCG finds with the functions the model computes. -/
theorem no_failures (h : Agrees M t P) (x0 : List K) (n : Nat) (w : World K) :
    (M.optimize t x0 n w).2 = .ok (run P x0 n) := by
  obtain ⟨w1, u1, e1, s1⟩ := start_sim h x0 w
  obtain ⟨w2, u2, e2, s2⟩ := loop_sim h n (start P x0) u1 w1 s1 (fun hx => by cases hx)
  have e3 : wrun (M.oracle t) x0 n w = (w2, .ok (run P x0 n)) := by
    unfold wrun run
    rw [e1]
    dsimp only
    rw [e2]
    dsimp only
    rw [s2.x, s2.log, s2.evals]
  unfold Mdl.optimize
  rw [e3]
  dsimp only
  unfold Mdl.set
  rw [h.fails]

/-- A case that meets the hypotheses: `x²` without and with fixed parameters, factor 1. -/
def smooth (fixes : Bool) : Mdl ℚ where
  fails _ := none
  grad x := x.map (fun l => l.map (fun y => 2 * y))
  partway _ g := g
  value x := match x with
    | some l => .ok (.fin ((l.map (fun y => y * y)).sum))
    | none => .ok .nan
  factors _ g := g
  free g := g
  fixes := fixes

example (b : Bool) : Agrees (smooth b) demoTols { square with shared := !b, left := square.gradf } := by
  refine ⟨fun _ => rfl, fun _ => rfl, ⟨_, rfl⟩, fun _ _ => rfl, fun _ _ => rfl, fun _ _ => rfl, by simp [smooth], rfl, rfl,
    rfl, rfl⟩

end Paramz.Run.Failing

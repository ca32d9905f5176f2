import Verif.Run.SCG

/-!
# Scaled conjugate gradients with a model that may fail (C86)

Source: `paramz/optimization/scg.py:44-174`, as in `Verif/Run/SCG.lean`, but objective and gradient are answered by a
model that changes with every question, may raise, and hands out references to arrays. A point or gradient is
`none` if it contains `nan`; gradients have no infinite entries.
-/

set_option linter.unusedSectionVars false

namespace Paramz.Run.SCG

/-- What SCG talks to: `W` are the states of the model, `R` the arrays handed out, `E` the exceptions. -/
structure Oracle (W R E K : Type) where
  f : Option (List K) → W → W × Except E (Val K)
  gradf : Option (List K) → W → W × Except E R
  read : W → R → Option (List K)
  sqrt : K → K
  xtol : K
  ftol : K
  gtol : K

/-- The variables of the loop (scg.py:65-85); `dead`: `alpha` is `nan` from now on. -/
structure WSt (R K : Type) where
  x : List K
  d : Option (List K)
  gradnew : R
  gradold : R
  mu : K
  kappa : K
  theta : K
  beta : K
  fold : Val K
  success : Bool
  nsuccess : Nat
  dead : Bool
  log : List (Val K)
  evals : Nat

variable {W R E K : Type} [Field K] [LinearOrder K]

/-- Before the loop (scg.py:65-85). Simplified: the first `gradold` is a copy, which is never read. -/
def wstart (O : Oracle W R E K) (x : List K) (w : W) : W × Except E (WSt R K) :=
  match O.f (some x) w with
  | (w, .error e) => (w, .error e)
  | (w, .ok v) =>
    match O.gradf (some x) w with
    | (w, .error e) => (w, .error e)
    | (w, .ok r) => (w, .ok
      { x := x, d := (O.read w r).map neg, gradnew := r, gradold := r, mu := 0, kappa := 0, theta := 0,
        beta := 1, fold := v, success := true, nsuccess := 0, dead := false, log := [v], evals := 2 })

/-- Everything is `nan`: the gradient is asked for at a point of `nan`s (scg.py:96-101). -/
def wnan (O : Oracle W R E K) (s : WSt R K) (w : W) : W × Except E (WSt R K) :=
  match O.gradf none w with
  | (w, .error e) => (w, .error e)
  | (w, .ok _) => (w, .ok { s with dead := true, evals := s.evals + 1 })

/-- The search direction (scg.py:92-95). -/
def wdirection (d g : List K) : List K := if 0 ≤ dot d g then neg g else d

/-- Derivatives along a direction that is not zero (scg.py:97-101). -/
def wprobe (O : Oracle W R E K) (s : WSt R K) (d : List K) (mu kappa : K) (w : W) : W × Except E (WSt R K) :=
  let sigma := (1 / 10000000) / O.sqrt kappa
  match O.gradf (some (axpy s.x sigma d)) w with
  | (w, .error e) => (w, .error e)
  | (w, .ok r) =>
    match O.read w r, O.read w s.gradnew with
    | some gp, some gn => (w, .ok { s with
        d := some d, mu := mu, kappa := kappa, theta := dot d (sub gp gn) / sigma, evals := s.evals + 1 })
    | _, _ => (w, .ok { s with d := some d, mu := mu, kappa := kappa, dead := true, evals := s.evals + 1 })

/-- First and second directional derivatives (scg.py:91-101). -/
def wcurvature (O : Oracle W R E K) (s : WSt R K) (w : W) : W × Except E (WSt R K) :=
  if s.success then
    match s.d, O.read w s.gradnew with
    | some d, some g =>
      if dot (wdirection d g) (wdirection d g) = 0 then wnan O { s with d := some (wdirection d g), mu := 0, kappa := 0 } w
      else wprobe O s (wdirection d g) (dot (wdirection d g) g) (dot (wdirection d g) (wdirection d g)) w
    | _, _ => wnan O s w
  else (w, .ok s)

/-- `delta` (scg.py:104-106). -/
def wdelta (s : WSt R K) : K := if s.theta + s.beta * s.kappa ≤ 0 then s.beta * s.kappa else s.theta + s.beta * s.kappa

/-- `beta` (scg.py:107). -/
def wbeta (s : WSt R K) : K := if s.theta + s.beta * s.kappa ≤ 0 then s.beta - s.theta / s.kappa else s.beta

/-- `alpha` (scg.py:109). -/
def walpha (s : WSt R K) : K := -s.mu / wdelta s

/-- The next search direction (scg.py:162-168). -/
def wredirect (O : Oracle W R E K) (w : W) (s : WSt R K) : WSt R K :=
  if s.nsuccess = s.x.length then { s with d := (O.read w s.gradnew).map neg, beta := 1, nsuccess := 0 }
  else if s.success then
    { s with d := match s.d, O.read w s.gradold, O.read w s.gradnew with
        | some d, some go, some gn => some (sub (d.map (fun y => dot (sub go gn) gn / s.mu * y)) gn)
        | _, _, _ => none }
  else s

/-- `current_grad <= gtol` (scg.py:146-149). -/
def wflat (O : Oracle W R E K) (g : Option (List K)) : Bool :=
  match g with
  | some g => decide (dot g g ≤ O.gtol)
  | none => false

/-- The rest of a pass in which a step was accepted (scg.py:126-168). -/
def waccept (O : Oracle W R E K) (s : WSt R K) (d : List K) (fnew Delta : Val K) (w : W) :
    W × Except E (WSt R K × Option Status) :=
  let alpha := walpha s
  let xnew := axpy s.x alpha d
  let t := { s with x := xnew, beta := wbeta s, success := true, nsuccess := s.nsuccess + 1, log := fnew :: s.log,
                    evals := s.evals + 1 }
  if (fnew.sub s.fold).abs.lt O.ftol then (w, .ok (t, some .objective))
  else if maxAbsLt alpha d O.xtol then (w, .ok (t, some .stepsize))
  else
    match O.gradf (some xnew) w with
    | (w, .error e) => (w, .error e)
    | (w, .ok r) =>
      let t := { t with gradold := s.gradnew, gradnew := r, evals := s.evals + 2, fold := fnew }
      if wflat O (O.read w r) then (w, .ok (t, some .gradient))
      else (w, .ok (wredirect O w { t with beta := scale t.beta Delta }, none))

/-- The rest of one pass when nothing is `nan` (scg.py:104-168). -/
def wlive (O : Oracle W R E K) (s : WSt R K) (d : List K) (w : W) : W × Except E (WSt R K × Option Status) :=
  let alpha := walpha s
  match O.f (some (axpy s.x alpha d)) w with
  | (w, .error e) => (w, .error e)
  | (w, .ok fnew) =>
    let Delta := (fnew.sub s.fold).ratio (alpha * s.mu)
    if Delta.ge 0 then waccept O s d fnew Delta w
    else (w, .ok (wredirect O w { s with
      beta := scale (wbeta s) Delta, success := false, log := s.fold :: s.log, evals := s.evals + 1 }, none))

/-- The rest of one pass when `alpha` is `nan` (scg.py:104-168): the objective is asked for at a point of `nan`s and
the answer is refused. -/
def wstuck (O : Oracle W R E K) (s : WSt R K) (w : W) : W × Except E (WSt R K × Option Status) :=
  match O.f none w with
  | (w, .error e) => (w, .error e)
  | (w, .ok _) => (w, .ok (wredirect O w
      { s with success := false, log := s.fold :: s.log, evals := s.evals + 1 }, none))

/-- One pass of the loop (scg.py:88-168). A direction with `nan`s without `dead` does not occur for arrays with at least
one element. -/
def wpass (O : Oracle W R E K) (s : WSt R K) (w : W) : W × Except E (WSt R K × Option Status) :=
  match wcurvature O s w with
  | (w, .error e) => (w, .error e)
  | (w, .ok s) =>
    if s.dead then wstuck O s w
    else match s.d with
      | some d => wlive O s d w
      | none => wstuck O s w

/-- The loop with `n` passes left. -/
def wloop (O : Oracle W R E K) : Nat → WSt R K → W → W × Except E (WSt R K × Status)
  | 0, s, w => (w, .ok (s, .maxiter))
  | n + 1, s, w =>
    match wpass O s w with
    | (w, .error e) => (w, .error e)
    | (w, .ok (s, some st)) => (w, .ok (s, st))
    | (w, .ok (s, none)) => wloop O n s w

/-- `SCG` (scg.py:44-174). -/
def wrun (O : Oracle W R E K) (x : List K) (maxiters : Nat) (w : W) : W × Except E (Result K) :=
  match wstart O x w with
  | (w, .error e) => (w, .error e)
  | (w, .ok s) =>
    match wloop O maxiters s w with
    | (w, .error e) => (w, .error e)
    | (w, .ok (s, st)) => (w, .ok ⟨s.x, s.log.reverse, s.evals, st⟩)

/-! ### What the states of the model have in common -/

/-- `I` holds before every question and after every answer; `Q` holds whenever a question raises. -/
structure Keeps (O : Oracle W R E K) (I : W → Prop) (Q : E → W → Prop) : Prop where
  f_ok : ∀ x w w' v, I w → O.f x w = (w', .ok v) → I w'
  f_err : ∀ x w w' e, I w → O.f x w = (w', .error e) → Q e w'
  g_ok : ∀ x w w' r, I w → O.gradf x w = (w', .ok r) → I w'
  g_err : ∀ x w w' e, I w → O.gradf x w = (w', .error e) → Q e w'

/-- The result of a part of the run. -/
def Good {α : Type} (I : W → Prop) (Q : E → W → Prop) (r : W × Except E α) : Prop :=
  match r with
  | (w, .ok _) => I w
  | (w, .error e) => Q e w

section
variable {O : Oracle W R E K} {I : W → Prop} {Q : E → W → Prop} (h : Keeps O I Q)
include h

theorem wstart_good (x : List K) {w : W} (hw : I w) : Good I Q (wstart O x w) := by
  unfold wstart
  cases h1 : O.f (some x) w with
  | mk w1 r1 =>
    cases r1 with
    | error e => exact h.f_err _ _ _ _ hw h1
    | ok v =>
      have i1 := h.f_ok _ _ _ _ hw h1
      dsimp only
      cases h2 : O.gradf (some x) w1 with
      | mk w2 r2 =>
        cases r2 with
        | error e => exact h.g_err _ _ _ _ i1 h2
        | ok r => exact h.g_ok _ _ _ _ i1 h2

theorem wnan_good (s : WSt R K) {w : W} (hw : I w) : Good I Q (wnan O s w) := by
  unfold wnan
  cases h2 : O.gradf none w with
  | mk w2 r2 =>
    cases r2 with
    | error e => exact h.g_err _ _ _ _ hw h2
    | ok r => exact h.g_ok _ _ _ _ hw h2

theorem wcurvature_good (s : WSt R K) {w : W} (hw : I w) : Good I Q (wcurvature O s w) := by
  unfold wcurvature
  split
  · split
    · split
      · exact wnan_good h _ hw
      · unfold wprobe
        dsimp only
        split
        · rename_i h2; exact h.g_err _ _ _ _ hw h2
        · rename_i h2
          have i := h.g_ok _ _ _ _ hw h2
          split <;> exact i
    · exact wnan_good h _ hw
  · exact hw

theorem waccept_good (s : WSt R K) (d : List K) (fnew Delta : Val K) {w : W} (hw : I w) :
    Good I Q (waccept O s d fnew Delta w) := by
  unfold waccept
  dsimp only
  split
  · exact hw
  · split
    · exact hw
    · split
      · rename_i h2; exact h.g_err _ _ _ _ hw h2
      · rename_i h2
        have i := h.g_ok _ _ _ _ hw h2
        split <;> exact i

theorem wstuck_good (s : WSt R K) {w : W} (hw : I w) : Good I Q (wstuck O s w) := by
  unfold wstuck
  split
  · rename_i h2; exact h.f_err _ _ _ _ hw h2
  · rename_i h2; exact h.f_ok _ _ _ _ hw h2

theorem wlive_good (s : WSt R K) (d : List K) {w : W} (hw : I w) : Good I Q (wlive O s d w) := by
  unfold wlive
  dsimp only
  split
  · rename_i h2; exact h.f_err _ _ _ _ hw h2
  · rename_i h2
    have i := h.f_ok _ _ _ _ hw h2
    split
    · exact waccept_good h _ _ _ _ i
    · exact i

theorem wpass_good (s : WSt R K) {w : W} (hw : I w) : Good I Q (wpass O s w) := by
  have h1 := wcurvature_good h s hw
  unfold wpass
  revert h1
  cases wcurvature O s w with
  | mk w1 r1 =>
    cases r1 with
    | error e => exact fun h1 => h1
    | ok s1 =>
      intro (h1 : I w1)
      dsimp only
      split
      · exact wstuck_good h _ h1
      · split
        · exact wlive_good h _ _ h1
        · exact wstuck_good h _ h1

theorem wloop_good : ∀ (n : Nat) (s : WSt R K) {w : W}, I w → Good I Q (wloop O n s w)
  | 0, _, _, hw => hw
  | n + 1, s, w, hw => by
    have h1 := wpass_good h s hw
    rw [wloop]
    revert h1
    cases wpass O s w with
    | mk w1 r1 =>
      cases r1 with
      | error e => exact fun h1 => h1
      | ok p =>
        obtain ⟨s1, st⟩ := p
        intro (h1 : I w1)
        cases st with
        | some st => exact h1
        | none => exact wloop_good n s1 h1

/-- What holds of the model throughout holds at the end; an exception is one of the model's. -/
theorem wrun_good (x : List K) (n : Nat) {w : W} (hw : I w) : Good I Q (wrun O x n w) := by
  have h1 := wstart_good h x hw
  unfold wrun
  revert h1
  cases wstart O x w with
  | mk w1 r1 =>
    cases r1 with
    | error e => exact fun h1 => h1
    | ok s =>
      intro (h1 : I w1)
      have h2 := wloop_good h n s h1
      dsimp only
      revert h2
      cases wloop O n s w1 with
      | mk w2 r2 =>
        cases r2 with
        | error e => exact fun h2 => h2
        | ok p => exact fun h2 => h2

end

/-! ### The points -/

section
variable [IsStrictOrderedRing K]

/-- The answers of the objective depend on the point only, apart from exceptions. -/
def Answers (O : Oracle W R E K) (F : List K → Val K) : Prop :=
  ∀ x w w' v, O.f (some x) w = (w', .ok v) → v = F x

/-- What holds before every pass. -/
structure WInv (F : List K → Val K) (x0 : List K) (s : WSt R K) : Prop where
  fold : s.fold = F s.x
  head : s.log.head? = some (F s.x)
  last : s.log.getLast? = some (F x0)
  chain : s.log.IsChain NotAbove
  moved : s.x = x0 ∨ F s.x ≠ .pinf
  beta : 0 < s.beta
  down : s.success = false → s.dead = false → s.mu < 0 ∧ 0 < s.kappa

/-- What holds at the end. -/
structure WDone (F : List K → Val K) (x0 : List K) (s : WSt R K) : Prop where
  head : s.log.head? = some (F s.x)
  last : s.log.getLast? = some (F x0)
  chain : s.log.IsChain NotAbove
  moved : s.x = x0 ∨ F s.x ≠ .pinf

theorem WInv.done {F : List K → Val K} {x0 : List K} {s : WSt R K} (h : WInv F x0 s) : WDone F x0 s :=
  ⟨h.head, h.last, h.chain, h.moved⟩

variable {O : Oracle W R E K} {F : List K → Val K} {x0 : List K}

theorem wstart_inv (hA : Answers O F) {w w' : W} {s : WSt R K} (h : wstart O x0 w = (w', .ok s)) :
    WInv F x0 s ∧ s.log.length = 1 := by
  unfold wstart at h
  cases h1 : O.f (some x0) w with
  | mk w1 r1 =>
    rw [h1] at h
    cases r1 with
    | error e => cases h
    | ok v =>
      dsimp only at h
      cases h2 : O.gradf (some x0) w1 with
      | mk w2 r2 =>
        rw [h2] at h
        cases r2 with
        | error e => cases h
        | ok r =>
          cases h
          have := hA _ _ _ _ h1
          subst this
          exact ⟨⟨rfl, rfl, rfl, List.IsChain.singleton _, .inl rfl, one_pos, fun h => by cases h⟩, rfl⟩

/-- After `wcurvature`. -/
structure WMid (F : List K → Val K) (x0 : List K) (s : WSt R K) : Prop where
  fold : s.fold = F s.x
  head : s.log.head? = some (F s.x)
  last : s.log.getLast? = some (F x0)
  chain : s.log.IsChain NotAbove
  moved : s.x = x0 ∨ F s.x ≠ .pinf
  beta : 0 < s.beta
  down : s.dead = false → s.mu < 0 ∧ 0 < s.kappa

theorem wnan_mid {w w' : W} {s s' : WSt R K} (hs : WInv F x0 s) (h : wnan O s w = (w', .ok s')) :
    WMid F x0 s' ∧ s'.log = s.log := by
  unfold wnan at h
  split at h
  · cases h
  · cases h
    exact ⟨⟨hs.fold, hs.head, hs.last, hs.chain, hs.moved, hs.beta, fun hd => by cases hd⟩, rfl⟩

theorem wdirection_down (d g : List K) (hk : dot (wdirection d g) (wdirection d g) ≠ 0) :
    dot (wdirection d g) g < 0 ∧ 0 < dot (wdirection d g) (wdirection d g) := by
  refine ⟨?_, lt_of_le_of_ne (dot_nonneg _) (Ne.symm hk)⟩
  unfold wdirection at hk ⊢
  split at hk
  · rename_i hm
    rw [if_pos hm, dot_neg]
    rw [dot_neg_neg] at hk
    have := lt_of_le_of_ne (dot_nonneg g) (Ne.symm hk)
    linarith
  · rename_i hm
    rw [if_neg hm]
    exact lt_of_not_ge hm

theorem wcurvature_mid {w w' : W} {s s' : WSt R K} (hs : WInv F x0 s) (h : wcurvature O s w = (w', .ok s')) :
    WMid F x0 s' ∧ s'.log = s.log := by
  unfold wcurvature at h
  split at h
  · rename_i hsu
    split at h
    · rename_i d g hd hg
      split at h
      · have hi : WInv F x0 { s with d := some (wdirection d g), mu := 0, kappa := 0 } :=
          ⟨hs.fold, hs.head, hs.last, hs.chain, hs.moved, hs.beta,
            fun hf => by rw [show s.success = true from hsu] at hf; cases hf⟩
        have := wnan_mid hi h
        exact this
      · rename_i hk
        have hdn := wdirection_down d g hk
        generalize wdirection d g = dd at *
        unfold wprobe at h
        dsimp only at h
        split at h
        · cases h
        · split at h
          · cases h
            exact ⟨⟨hs.fold, hs.head, hs.last, hs.chain, hs.moved, hs.beta, fun _ => hdn⟩, rfl⟩
          · cases h
            exact ⟨⟨hs.fold, hs.head, hs.last, hs.chain, hs.moved, hs.beta, fun hd => by cases hd⟩, rfl⟩
    · exact wnan_mid hs h
  · rename_i hsu
    cases h
    exact ⟨⟨hs.fold, hs.head, hs.last, hs.chain, hs.moved, hs.beta, fun hd => hs.down (by simpa using hsu) hd⟩, rfl⟩

theorem wredirect_inv (w : W) {s : WSt R K} (hs : WInv F x0 s) : WInv F x0 (wredirect O w s) := by
  unfold wredirect
  split
  · exact ⟨hs.fold, hs.head, hs.last, hs.chain, hs.moved, one_pos, hs.down⟩
  · split
    · exact ⟨hs.fold, hs.head, hs.last, hs.chain, hs.moved, hs.beta, hs.down⟩
    · exact hs

theorem wredirect_log (w : W) (s : WSt R K) : (wredirect O w s).log = s.log := by
  unfold wredirect
  split
  · rfl
  · split <;> rfl

/-- A step with a ratio that is not negative leads to a point with an objective that is not infinite. -/
theorem accept_ne {a b : Val K} {c : K} (hc : c < 0) (h : ((a.sub b).ratio c).ge 0 = true) : a ≠ .pinf := by
  have hc' : ¬ 0 < c := not_lt_of_gt hc
  rintro rfl
  cases b <;> simp [Val.sub, Val.ratio, hc', Val.ge] at h

theorem wstuck_spec {w w' : W} {s s' : WSt R K} {st : Option Status} (hm : WMid F x0 s)
    (hd' : s.dead = false → s.mu < 0 ∧ 0 < s.kappa) (h : wstuck O s w = (w', .ok (s', st))) :
    s'.log.length = s.log.length + 1 ∧ st = none ∧ WInv F x0 s' := by
  unfold wstuck at h
  split at h
  · cases h
  · cases h
    refine ⟨by rw [wredirect_log]; rfl, rfl, wredirect_inv _ ?_⟩
    exact ⟨hm.fold, (by show some s.fold = _; rw [hm.fold]), last_cons hm.last,
        chain_cons hm.head hm.chain (by rw [hm.fold]; exact NotAbove.rfl' _), hm.moved, hm.beta, fun _ => hd'⟩

theorem fin_none {s' : WSt R K} {n : Nat} (hi : WInv F x0 s') (hl : s'.log.length = n) :
    s'.log.length = n ∧ ((none : Option Status) = none → WInv F x0 s') ∧ WDone F x0 s' ∧
      (none : Option Status) ≠ some .maxiter :=
  ⟨hl, fun _ => hi, hi.done, by simp⟩

theorem wpass_spec (hA : Answers O F) {w w' : W} {s s' : WSt R K} {st : Option Status} (hs : WInv F x0 s)
    (h : wpass O s w = (w', .ok (s', st))) :
    s'.log.length = s.log.length + 1 ∧ (st = none → WInv F x0 s') ∧ WDone F x0 s' ∧ st ≠ some .maxiter := by
  unfold wpass at h
  cases hc : wcurvature O s w with
  | mk w1 r1 =>
    rw [hc] at h
    cases r1 with
    | error e => cases h
    | ok t =>
      obtain ⟨hm, hlog⟩ := wcurvature_mid hs hc
      have hlen : t.log.length = s.log.length := by rw [hlog]
      dsimp only at h
      split at h
      · rename_i hd
        obtain ⟨a, rfl, b⟩ := wstuck_spec hm hm.down h
        exact ⟨by omega, fun _ => b, b.done, by simp⟩
      · rename_i hd
        have hd : t.dead = false := by simpa using hd
        split at h
        · rename_i d hdd
          obtain ⟨hmu, hk⟩ := hm.down hd
          have hdp : 0 < wdelta t := by
            unfold wdelta
            split
            · exact mul_pos hm.beta hk
            · rename_i h; exact lt_of_not_ge h
          have hbp : 0 < wbeta t := by
            unfold wbeta
            split
            · rename_i h
              have : t.theta / t.kappa ≤ -t.beta := by
                rw [div_le_iff₀ hk]; linarith
              have := hm.beta
              linarith
            · exact hm.beta
          have hal : walpha t * t.mu < 0 := by
            unfold walpha
            have : 0 < -t.mu / wdelta t := div_pos (by linarith) hdp
            exact mul_neg_of_pos_of_neg this hmu
          unfold wlive at h
          dsimp only at h
          split at h
          · cases h
          · rename_i w2 fnew hf
            have hF := hA _ _ _ _ hf
            split at h
            · rename_i hacc
              have hna := accept hal hacc
              have hne := accept_ne hal hacc
              have hch : (fnew :: t.log).IsChain NotAbove :=
                chain_cons hm.head hm.chain (by rw [← hm.fold]; exact hna)
              unfold waccept at h
              dsimp only at h
              split at h
              · cases h
                exact ⟨by show t.log.length + 1 = _; rw [hlen], (fun hn => by cases hn),
                  ⟨by rw [hF]; rfl, last_cons hm.last, hch, .inr (by rw [← hF]; exact hne)⟩, by simp⟩
              · split at h
                · cases h
                  exact ⟨by show t.log.length + 1 = _; rw [hlen], (fun hn => by cases hn),
                    ⟨by rw [hF]; rfl, last_cons hm.last, hch, .inr (by rw [← hF]; exact hne)⟩, by simp⟩
                · split at h
                  · cases h
                  · rename_i w3 r hg
                    split at h
                    · cases h
                      exact ⟨by show t.log.length + 1 = _; rw [hlen], (fun hn => by cases hn),
                        ⟨by rw [hF]; rfl, last_cons hm.last, hch, .inr (by rw [← hF]; exact hne)⟩, by simp⟩
                    · cases h
                      refine fin_none (wredirect_inv _ ?_) ?_
                      rotate_left
                      · rw [wredirect_log]; show t.log.length + 1 = _; rw [hlen]
                      · exact ⟨hF, by rw [hF]; rfl, last_cons hm.last, hch, .inr (by rw [← hF]; exact hne),
                          scale_pos hbp _, fun hs => by cases hs⟩
            · cases h
              refine fin_none (wredirect_inv _ ?_) ?_
              rotate_left
              · rw [wredirect_log]; show t.log.length + 1 = _; rw [hlen]
              · exact ⟨hm.fold, (by show some t.fold = _; rw [hm.fold]), last_cons hm.last,
                  chain_cons hm.head hm.chain (by show NotAbove t.fold _; rw [hm.fold]; exact NotAbove.rfl' _),
                  hm.moved, scale_pos hbp _, fun _ _ => ⟨hmu, hk⟩⟩
        · obtain ⟨a, rfl, b⟩ := wstuck_spec hm hm.down h
          exact ⟨by omega, fun _ => b, b.done, by simp⟩

theorem wloop_spec (hA : Answers O F) : ∀ (n : Nat) (s s' : WSt R K) (w w' : W) (st : Status), WInv F x0 s →
    wloop O n s w = (w', .ok (s', st)) →
    WDone F x0 s' ∧ s'.log.length ≤ s.log.length + n ∧ (st = .maxiter → s'.log.length = s.log.length + n)
  | 0, s, s', w, w', st, hs, h => by
    rw [wloop] at h
    cases h
    exact ⟨hs.done, le_refl _, fun _ => rfl⟩
  | n + 1, s, s', w, w', st, hs, h => by
    rw [wloop] at h
    cases hp : wpass O s w with
    | mk w1 r1 =>
      rw [hp] at h
      cases r1 with
      | error e => cases h
      | ok p =>
        obtain ⟨s1, st1⟩ := p
        obtain ⟨h1, h2, h3, h4⟩ := wpass_spec hA hs hp
        cases st1 with
        | some st1 =>
          cases h
          exact ⟨h3, by omega, fun hst => absurd (by rw [hst]) h4⟩
        | none =>
          obtain ⟨h5, h6, h7⟩ := wloop_spec hA n s1 s' w1 w' st (h2 rfl) h
          exact ⟨h5, by omega, fun hst => by rw [h7 hst]; omega⟩

/-- SCG with a model that may fail: if it returns, the log starts with the objective at the start, never goes up and ends
with the objective at the point returned, which is the start or has an objective that is not infinite. -/
theorem wrun_spec (hA : Answers O F) {n : Nat} {w w' : W} {r : Result K} (h : wrun O x0 n w = (w', .ok r)) :
    r.log.head? = some (F x0) ∧ r.log.getLast? = some (F r.x) ∧ r.log.IsChain (fun a b => NotAbove b a) ∧
    r.log.length ≤ 1 + n ∧ (r.status = .maxiter → r.log.length = 1 + n) ∧ (r.x = x0 ∨ F r.x ≠ .pinf) ∧
    NotAbove (F r.x) (F x0) := by
  unfold wrun at h
  cases h1 : wstart O x0 w with
  | mk w1 r1 =>
    rw [h1] at h
    cases r1 with
    | error e => cases h
    | ok s =>
      dsimp only at h
      cases h2 : wloop O n s w1 with
      | mk w2 r2 =>
        rw [h2] at h
        cases r2 with
        | error e => cases h
        | ok p =>
          obtain ⟨s2, st⟩ := p
          cases h
          obtain ⟨i1, i2⟩ := wstart_inv hA h1
          obtain ⟨d1, d2, d3⟩ := wloop_spec hA n s s2 w1 _ st i1 h2
          have key : ∀ (l : List (Val K)) (a b : Val K), l.IsChain NotAbove → l.head? = some a → l.getLast? = some b →
              NotAbove a b := by
            intro l
            induction l with
            | nil => intro a b _ h; cases h
            | cons c l ih =>
              intro a b hc ha hb
              have ha : c = a := Option.some.inj ha
              subst ha
              cases l with
              | nil => have : c = b := Option.some.inj hb; rw [this]; exact NotAbove.rfl' _
              | cons d l =>
                rw [List.isChain_cons_cons] at hc
                rw [List.getLast?_cons_cons] at hb
                exact NotAbove.trans hc.1 (ih d b hc.2 rfl hb)
          refine ⟨?_, ?_, ?_, ?_, fun hs => ?_, d1.moved, key _ _ _ d1.chain d1.head d1.last⟩
          · show (s2.log.reverse).head? = _
            rw [List.head?_reverse]; exact d1.last
          · show (s2.log.reverse).getLast? = _
            rw [List.getLast?_reverse]; exact d1.head
          · show (s2.log.reverse).IsChain _
            rw [List.isChain_reverse]; exact d1.chain
          · show (s2.log.reverse).length ≤ _
            rw [List.length_reverse]; omega
          · show (s2.log.reverse).length = _
            rw [List.length_reverse, d3 hs, i2]

end

end Paramz.Run.SCG

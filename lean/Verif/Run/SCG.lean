import Mathlib.Algebra.Order.Field.Basic
import Mathlib.Algebra.BigOperators.Group.List.Basic
import Mathlib.Data.Rat.Defs
import Mathlib.Algebra.Order.Ring.Rat
import Mathlib.Tactic.Linarith
import Mathlib.Tactic.NormNum
import Mathlib.Tactic.Ring
import Mathlib.Data.List.Chain

set_option linter.unusedSectionVars false

/-!
# Scaled conjugate gradients (C47, C62)

Source: `paramz/optimization/scg.py:44-174`. Numbers of points and gradients are elements of an ordered
field, so rounding is left out; values of the objective may also be infinite or `nan`. When the search
direction vanishes, the code divides by zero and every later point is `nan`: this is modelled by the flag
`dead`; the value of the objective at such a point is not used. Arrays are lists; where they would have
different lengths numpy would raise.

The gradients come from `Model._grads` (`paramz/model.py:225-246`), which returns what `_transform_gradients`
returns (`paramz/core/parameter_core.py:143-152`): with fixed parameters a new array, without them the
gradient array of the model itself, which every later evaluation overwrites. In the latter case `gradnew`,
`gradold` and `gplus` are one array (`Problem.shared`, `touch`).
-/

namespace Paramz.Run.SCG

/-- A float: a number, plus or minus infinity, or `nan`. -/
inductive Val (K : Type)
  | fin (q : K)
  | pinf
  | ninf
  | nan
  deriving DecidableEq, Repr

variable {K : Type} [Field K] [LinearOrder K]

namespace Val

/-- `a - b`. -/
def sub : Val K → Val K → Val K
  | .fin a, .fin b => .fin (a - b)
  | .nan, _ => .nan
  | _, .nan => .nan
  | .pinf, .pinf => .nan
  | .ninf, .ninf => .nan
  | .pinf, _ => .pinf
  | .ninf, _ => .ninf
  | _, .pinf => .ninf
  | _, .ninf => .pinf

/-- `2. * a / c` for a number `c` that is not zero. -/
def ratio (a : Val K) (c : K) : Val K :=
  match a with
  | .fin q => .fin (2 * q / c)
  | .pinf => if 0 < c then .pinf else .ninf
  | .ninf => if 0 < c then .ninf else .pinf
  | .nan => .nan

/-- `a >= c`. -/
def ge (a : Val K) (c : K) : Bool :=
  match a with
  | .fin q => decide (c ≤ q)
  | .pinf => true
  | _ => false

/-- `a > c`. -/
def gt (a : Val K) (c : K) : Bool :=
  match a with
  | .fin q => decide (c < q)
  | .pinf => true
  | _ => false

/-- `a < c`. -/
def lt (a : Val K) (c : K) : Bool :=
  match a with
  | .fin q => decide (q < c)
  | .ninf => true
  | _ => false

/-- `np.abs(a)`. -/
def abs (a : Val K) : Val K :=
  match a with
  | .fin q => .fin |q|
  | .ninf => .pinf
  | a => a

end Val

/-! ### Vectors -/

/-- `np.dot(a, b)`. -/
def dot (a b : List K) : K := (List.zipWith (· * ·) a b).sum

/-- `a + c * b`. -/
def axpy (a : List K) (c : K) (b : List K) : List K := List.zipWith (fun x y => x + c * y) a b

/-- `-a`. -/
def neg (a : List K) : List K := a.map (fun x => -x)

/-- `a - b`. -/
def sub (a b : List K) : List K := List.zipWith (· - ·) a b

/-- `np.max(np.abs(c * a)) < t` for a nonempty array. -/
def maxAbsLt (c : K) (a : List K) (t : K) : Bool := a.all (fun x => decide (|c * x| < t))

/-- What SCG is given: the objective, its gradient, `np.sqrt`, tolerances (scg.py:58-63 has defaults). -/
structure Problem (K : Type) where
  f : List K → Val K
  gradf : List K → List K
  sqrt : K → K
  xtol : K
  ftol : K
  gtol : K
  /-- The gradients are the gradient array of the model (no fixed parameters). -/
  shared : Bool
  /-- What an evaluation of the objective leaves in the gradient array of the model: the gradient without the
  factors of the constraints (`_objective`, model.py:248-269, does not call `_transform_gradients`). -/
  left : List K → List K

inductive Status
  | objective | stepsize | gradient | maxiter
  deriving DecidableEq, Repr

/-- The variables of the loop. `log` is `flog`, last entry first; `evals` is `function_eval`. -/
structure St (K : Type) where
  x : List K
  d : List K
  gradnew : List K
  gradold : List K
  mu : K
  kappa : K
  theta : K
  beta : K
  fold : Val K
  success : Bool
  nsuccess : Nat
  dead : Bool
  log : List (Val K)
  evals : Nat

/-- An evaluation leaves `v` in the gradient array of the model: the gradients that SCG holds read `v` from now
on if they are that array. Simplified: the first `gradold` is a copy (scg.py:73), but it is never read before
line 143 replaces it. -/
def touch (P : Problem K) (v : List K) (s : St K) : St K :=
  { s with gradnew := if P.shared then v else s.gradnew, gradold := if P.shared then v else s.gradold }

/-- Before the loop (scg.py:65-85). `mu`, `kappa` and `theta` have no value yet. -/
def start (P : Problem K) (x : List K) : St K :=
  { x := x, d := neg (P.gradf x), gradnew := P.gradf x, gradold := P.gradf x, mu := 0, kappa := 0, theta := 0,
    beta := 1, fold := P.f x, success := true, nsuccess := 0, dead := false, log := [P.f x], evals := 2 }

/-- The search direction (scg.py:92-95). -/
def direction (s : St K) : List K := if 0 ≤ dot s.d s.gradnew then neg s.gradnew else s.d

/-- First and second directional derivatives (scg.py:91-101). A direction of length zero makes everything
`nan` from there on. -/
def curvature (P : Problem K) (s : St K) : St K :=
  if s.success then
    let d := direction s
    let mu := dot d s.gradnew
    let kappa := dot d d
    if kappa = 0 then { s with d := d, mu := mu, kappa := kappa, dead := true, evals := s.evals + 1 }
    else
      let sigma := (1 / 10000000) / P.sqrt kappa
      let gplus := P.gradf (axpy s.x sigma d)
      let s := touch P gplus s
      { s with d := d, mu := mu, kappa := kappa, theta := dot d (sub gplus s.gradnew) / sigma, evals := s.evals + 1 }
  else s

/-- `delta` (scg.py:104-106). -/
def deltaOf (s : St K) : K := if s.theta + s.beta * s.kappa ≤ 0 then s.beta * s.kappa else s.theta + s.beta * s.kappa

/-- `beta` (scg.py:107). -/
def betaOf (s : St K) : K := if s.theta + s.beta * s.kappa ≤ 0 then s.beta - s.theta / s.kappa else s.beta

/-- `alpha` (scg.py:109). -/
def alphaOf (s : St K) : K := -s.mu / deltaOf s

/-- The new scale from the comparison ratio (scg.py:155-158). -/
def scale (beta : K) (Delta : Val K) : K :=
  let b := if Delta.lt (1 / 4) then min (4 * beta) 1000000000000000 else beta
  if Delta.gt (3 / 4) then max (1 / 4 * b) (1 / 1000000000000000) else b

/-- The next search direction (scg.py:162-168). -/
def redirect (s : St K) : St K :=
  if s.nsuccess = s.x.length then { s with d := neg s.gradnew, beta := 1, nsuccess := 0 }
  else if s.success then
    let Gamma := dot (sub s.gradold s.gradnew) s.gradnew / s.mu
    { s with d := sub (s.d.map (fun y => Gamma * y)) s.gradnew }
  else s

/-- The rest of one pass when nothing is `nan` (scg.py:104-168). -/
def live (P : Problem K) (s : St K) : St K × Option Status :=
  let alpha := alphaOf s
  let beta := betaOf s
  let xnew := axpy s.x alpha s.d
  let fnew := P.f xnew
  let s := touch P (P.left xnew) s
  let Delta := (fnew.sub s.fold).ratio (alpha * s.mu)
  if Delta.ge 0 then
    let s := { s with x := xnew, beta := beta, success := true, nsuccess := s.nsuccess + 1, log := fnew :: s.log,
                      evals := s.evals + 1 }
    if (fnew.sub s.fold).abs.lt P.ftol then (s, some .objective)
    else if maxAbsLt alpha s.d P.xtol then (s, some .stepsize)
    else
      let s := touch P (P.gradf xnew) { s with gradold := s.gradnew }
      let s := { s with gradnew := P.gradf xnew, evals := s.evals + 1, fold := fnew }
      if dot s.gradnew s.gradnew ≤ P.gtol then (s, some .gradient)
      else (redirect { s with beta := scale s.beta Delta }, none)
  else
    let s := { s with beta := scale beta Delta, success := false, log := s.fold :: s.log, evals := s.evals + 1 }
    (redirect s, none)

/-- The rest of one pass after a direction of length zero (scg.py:104-168): `alpha` and `Delta` are `nan`
(`theta`, `delta` and `beta` may be too) and comparisons with them are false. -/
def stuck (s : St K) : St K × Option Status :=
  let s := { s with success := false, log := s.fold :: s.log, evals := s.evals + 1 }
  (redirect s, none)

/-- One pass of the loop (scg.py:88-168). -/
def pass (P : Problem K) (s : St K) : St K × Option Status :=
  let s := curvature P s
  if s.dead then stuck s else live P s

/-- The loop with `n` passes left. -/
def loop (P : Problem K) : Nat → St K → St K × Status
  | 0, s => (s, .maxiter)
  | n + 1, s =>
    match pass P s with
    | (s, some st) => (s, st)
    | (s, none) => loop P n s

/-- What SCG returns: the point, the log (first entry first), the number of evaluations and the status. -/
structure Result (K : Type) where
  x : List K
  log : List (Val K)
  evals : Nat
  status : Status
  deriving DecidableEq

/-- `SCG` (scg.py:44-174). `max_f_eval` is accepted and ignored. -/
def run (P : Problem K) (x : List K) (maxiters : Nat) : Result K :=
  let r := loop P maxiters (start P x)
  ⟨r.1.x, r.1.log.reverse, r.1.evals, r.2⟩

/-! ### Specification -/

/-- The first value is the second or less. -/
def NotAbove : Val K → Val K → Prop
  | .fin a, .fin b => a ≤ b
  | .ninf, .nan => False
  | .ninf, _ => True
  | .nan, .nan => True
  | .fin _, .pinf => True
  | .pinf, .pinf => True
  | _, _ => False

/-! ### Lemmas -/

section
variable [IsStrictOrderedRing K]

theorem dot_nonneg : ∀ a : List K, 0 ≤ dot a a
  | [] => le_refl _
  | x :: a => by
    have := dot_nonneg a
    unfold dot at this ⊢
    rw [List.zipWith_cons_cons, List.sum_cons]
    have := mul_self_nonneg x
    linarith

theorem dot_neg : ∀ a b : List K, dot (neg a) b = -dot a b
  | [], b => by simp [dot, neg]
  | _ :: _, [] => by simp [dot, neg]
  | x :: a, y :: b => by
    have := dot_neg a b
    unfold dot neg at this ⊢
    rw [List.map_cons, List.zipWith_cons_cons, List.sum_cons, List.zipWith_cons_cons, List.sum_cons, this]
    ring

theorem dot_neg_neg : ∀ a : List K, dot (neg a) (neg a) = dot a a
  | [] => rfl
  | x :: a => by
    have := dot_neg_neg a
    unfold dot neg at this ⊢
    rw [List.map_cons, List.zipWith_cons_cons, List.sum_cons, List.zipWith_cons_cons, List.sum_cons, this]
    ring

/-- A direction that is not zero goes down. -/
theorem direction_down (s : St K) (h : dot (direction s) (direction s) ≠ 0) : dot (direction s) s.gradnew < 0 := by
  unfold direction at h ⊢
  split at h
  · rename_i hm
    rw [if_pos hm, dot_neg]
    rw [dot_neg_neg] at h
    have := lt_of_le_of_ne (dot_nonneg s.gradnew) (Ne.symm h)
    linarith
  · rename_i hm
    rw [if_neg hm]
    exact lt_of_not_ge hm

theorem NotAbove.rfl' (a : Val K) : NotAbove a a := by
  cases a <;> simp [NotAbove]

/-- A step with a ratio that is not negative does not go up. -/
theorem accept {a b : Val K} {c : K} (hc : c < 0) (h : ((a.sub b).ratio c).ge 0 = true) : NotAbove a b := by
  have hc' : ¬ 0 < c := not_lt_of_gt hc
  cases a with
  | fin x =>
    cases b with
    | fin y =>
      have h : decide (0 ≤ 2 * (x - y) / c) = true := h
      have h := of_decide_eq_true h
      show x ≤ y
      by_contra hxy
      have hxy : y < x := lt_of_not_ge hxy
      have : 2 * (x - y) / c < 0 := div_neg_of_pos_of_neg (by linarith) hc
      linarith
    | pinf => trivial
    | ninf => simp [Val.sub, Val.ratio, hc', Val.ge] at h
    | nan => simp [Val.sub, Val.ratio, Val.ge] at h
  | pinf => cases b <;> simp [Val.sub, Val.ratio, hc', Val.ge] at h
  | ninf => cases b <;> simp [Val.sub, Val.ratio, hc', Val.ge] at h <;> trivial
  | nan => cases b <;> simp [Val.sub, Val.ratio, Val.ge] at h

/-- What holds before every pass. -/
structure Inv (P : Problem K) (x0 : List K) (s : St K) : Prop where
  fold : s.fold = P.f s.x
  head : s.log.head? = some (P.f s.x)
  last : s.log.getLast? = some (P.f x0)
  chain : s.log.IsChain NotAbove
  beta : 0 < s.beta
  evals : s.evals + 1 ≤ 3 * s.log.length
  down : s.success = false → s.dead = false → s.mu < 0 ∧ 0 < s.kappa

/-- What holds at the end. -/
structure Done (P : Problem K) (x0 : List K) (s : St K) : Prop where
  head : s.log.head? = some (P.f s.x)
  last : s.log.getLast? = some (P.f x0)
  chain : s.log.IsChain NotAbove
  evals : s.evals + 1 ≤ 3 * s.log.length

theorem Inv.done {P : Problem K} {x0 : List K} {s : St K} (h : Inv P x0 s) : Done P x0 s :=
  ⟨h.head, h.last, h.chain, h.evals⟩

theorem start_inv (P : Problem K) (x : List K) : Inv P x (start P x) :=
  ⟨rfl, rfl, rfl, List.IsChain.singleton _, one_pos, le_refl _, fun h => by cases h⟩

/-- `curvature` changes neither point nor log, and the direction goes down. -/
structure Mid (P : Problem K) (x0 : List K) (s : St K) : Prop where
  fold : s.fold = P.f s.x
  head : s.log.head? = some (P.f s.x)
  last : s.log.getLast? = some (P.f x0)
  chain : s.log.IsChain NotAbove
  beta : 0 < s.beta
  evals : s.evals ≤ 3 * s.log.length
  down : s.dead = false → s.mu < 0 ∧ 0 < s.kappa

theorem curvature_mid {P : Problem K} {x0 : List K} {s : St K} (h : Inv P x0 s) :
    Mid P x0 (curvature P s) ∧ (curvature P s).log = s.log := by
  unfold curvature
  have he := h.evals
  split
  · simp only
    split
    · rename_i hk
      exact ⟨⟨h.fold, h.head, h.last, h.chain, h.beta, (by show s.evals + 1 ≤ 3 * s.log.length; omega),
        fun hd => by cases hd⟩, rfl⟩
    · rename_i hk
      refine ⟨⟨h.fold, h.head, h.last, h.chain, h.beta, (by show s.evals + 1 ≤ 3 * s.log.length; omega),
        fun _ => ⟨direction_down s hk, ?_⟩⟩, rfl⟩
      exact lt_of_le_of_ne (dot_nonneg _) (Ne.symm hk)
  · rename_i hs
    exact ⟨⟨h.fold, h.head, h.last, h.chain, h.beta, (by omega),
      fun hd => h.down (by simpa using hs) hd⟩, rfl⟩

theorem deltaOf_pos {s : St K} (hb : 0 < s.beta) (hk : 0 < s.kappa) : 0 < deltaOf s := by
  unfold deltaOf
  split
  · exact mul_pos hb hk
  · rename_i h; exact lt_of_not_ge h

theorem betaOf_pos {s : St K} (hb : 0 < s.beta) (hk : 0 < s.kappa) : 0 < betaOf s := by
  unfold betaOf
  split
  · rename_i h
    have : s.theta / s.kappa ≤ -s.beta := by
      rw [div_le_iff₀ hk]; linarith
    linarith
  · exact hb

theorem alphaOf_mu {s : St K} (hb : 0 < s.beta) (hk : 0 < s.kappa) (hm : s.mu < 0) : alphaOf s * s.mu < 0 := by
  unfold alphaOf
  have : 0 < -s.mu / deltaOf s := div_pos (by linarith) (deltaOf_pos hb hk)
  exact mul_neg_of_pos_of_neg this hm

theorem scale_pos {b : K} (hb : 0 < b) (D : Val K) : 0 < scale b D := by
  unfold scale
  simp only
  have h1 : 0 < (if D.lt (1 / 4) = true then min (4 * b) 1000000000000000 else b) := by
    split
    · exact lt_min (by linarith) (by norm_num)
    · exact hb
  split
  · exact lt_max_of_lt_left (by linarith)
  · exact h1

theorem redirect_inv {P : Problem K} {x0 : List K} {s : St K} (h : Inv P x0 s) : Inv P x0 (redirect s) := by
  unfold redirect
  split
  · exact ⟨h.fold, h.head, h.last, h.chain, one_pos, h.evals, h.down⟩
  · split
    · exact ⟨h.fold, h.head, h.last, h.chain, h.beta, h.evals, h.down⟩
    · exact h

theorem redirect_log (s : St K) : (redirect s).log = s.log := by
  unfold redirect
  split
  · rfl
  · split <;> rfl

theorem chain_cons {l : List (Val K)} {a b : Val K} (hb : l.head? = some b) (hl : l.IsChain NotAbove)
    (h : NotAbove a b) : (a :: l).IsChain NotAbove := by
  cases l with
  | nil => cases hb
  | cons c l =>
    have : c = b := Option.some.inj hb
    rw [List.isChain_cons_cons, this]
    rw [this] at hl
    exact ⟨h, hl⟩

theorem last_cons {l : List (Val K)} {a b : Val K} (h : l.getLast? = some b) : (a :: l).getLast? = some b := by
  cases l with
  | nil => cases h
  | cons c l => rw [List.getLast?_cons_cons]; exact h

/-- What a status says. -/
def Says (P : Problem K) (s : St K) : Status → Prop
  | .gradient => dot (P.gradf s.x) (P.gradf s.x) ≤ P.gtol
  | .objective => ∃ a b, s.log[0]? = some a ∧ s.log[1]? = some b ∧ (a.sub b).abs.lt P.ftol = true
  | _ => True

theorem pass_spec {P : Problem K} {x0 : List K} {s : St K} (h : Inv P x0 s) :
    (pass P s).1.log.length = s.log.length + 1 ∧
    ((pass P s).2 = none → Inv P x0 (pass P s).1) ∧
    (∀ st, (pass P s).2 = some st → Done P x0 (pass P s).1 ∧ Says P (pass P s).1 st ∧ st ≠ .maxiter) := by
  obtain ⟨hm, hlog⟩ := curvature_mid h
  unfold pass
  simp only
  generalize curvature P s = t at hm hlog
  have hlen : t.log.length = s.log.length := by rw [hlog]
  have hev := hm.evals
  split
  · rename_i hd
    unfold stuck
    simp only
    have h1 : Inv P x0 { t with success := false, log := t.fold :: t.log, evals := t.evals + 1 } :=
      ⟨hm.fold, (by show some t.fold = _; rw [hm.fold]), last_cons hm.last,
        chain_cons hm.head hm.chain (by rw [hm.fold]; exact NotAbove.rfl' _), hm.beta,
        (by show t.evals + 1 + 1 ≤ 3 * (t.log.length + 1); omega),
        fun _ hd' => by rw [hd] at hd'; cases hd'⟩
    refine ⟨by rw [redirect_log]; show t.log.length + 1 = _; rw [hlen], fun _ => redirect_inv h1, (fun st hst => by cases hst)⟩
  · rename_i hd
    have hd : t.dead = false := by simpa using hd
    obtain ⟨hmu, hk⟩ := hm.down hd
    have hc := alphaOf_mu hm.beta hk hmu
    have hb := betaOf_pos hm.beta hk
    unfold live
    simp only
    split
    · rename_i hacc
      have hna := accept hc hacc
      have hch : (P.f (axpy t.x (alphaOf t) t.d) :: t.log).IsChain NotAbove :=
        chain_cons hm.head hm.chain (by rw [← hm.fold]; exact hna)
      have hev2 : t.evals + 1 + 1 ≤ 3 * (t.log.length + 1) := by omega
      have hev3 : t.evals + 1 + 1 + 1 ≤ 3 * (t.log.length + 1) := by omega
      split
      · rename_i hf
        refine ⟨(by show t.log.length + 1 = _; rw [hlen]), (fun hn => by cases hn), fun st hst => ?_⟩
        cases hst
        refine ⟨⟨rfl, last_cons hm.last, hch, hev2⟩, ⟨_, t.fold, rfl, ?_, hf⟩, by decide⟩
        show t.log[0]? = _
        rw [← List.head?_eq_getElem?, hm.head, hm.fold]
      · split
        · refine ⟨(by show t.log.length + 1 = _; rw [hlen]), (fun hn => by cases hn), fun st hst => ?_⟩
          cases hst
          exact ⟨⟨rfl, last_cons hm.last, hch, hev2⟩, trivial, by decide⟩
        · split
          · rename_i hg
            refine ⟨(by show t.log.length + 1 = _; rw [hlen]), (fun hn => by cases hn), fun st hst => ?_⟩
            cases hst
            exact ⟨⟨rfl, last_cons hm.last, hch, hev3⟩, hg, by decide⟩
          · refine ⟨by rw [redirect_log]; show t.log.length + 1 = _; rw [hlen], fun _ => redirect_inv ?_,
              (fun st hst => by cases hst)⟩
            exact ⟨rfl, rfl, last_cons hm.last, hch, scale_pos hb _, hev3, fun hs => by cases hs⟩
    · refine ⟨by rw [redirect_log]; show t.log.length + 1 = _; rw [hlen], fun _ => redirect_inv ?_,
        (fun st hst => by cases hst)⟩
      exact ⟨hm.fold, (by show some t.fold = _; rw [hm.fold]; rfl), last_cons hm.last,
        chain_cons hm.head hm.chain (by show NotAbove t.fold _; rw [hm.fold]; exact NotAbove.rfl' _), scale_pos hb _,
        (by show t.evals + 1 + 1 ≤ 3 * (t.log.length + 1); omega), fun _ _ => ⟨hmu, hk⟩⟩

theorem loop_spec {P : Problem K} {x0 : List K} : ∀ (n : Nat) (s : St K), Inv P x0 s →
    Done P x0 (loop P n s).1 ∧ (loop P n s).1.log.length ≤ s.log.length + n ∧ Says P (loop P n s).1 (loop P n s).2 ∧
    ((loop P n s).2 = .maxiter → (loop P n s).1.log.length = s.log.length + n)
  | 0, s, h => ⟨h.done, le_refl _, trivial, fun _ => rfl⟩
  | n + 1, s, h => by
    obtain ⟨h1, h2, h3⟩ := pass_spec h
    rw [loop]
    cases hp : pass P s with
    | mk t o =>
      rw [hp] at h1 h2 h3
      cases o with
      | some st =>
        obtain ⟨h4, h5, h6⟩ := h3 st rfl
        exact ⟨h4, (by show t.log.length ≤ _; have : t.log.length = _ := h1; omega), h5, fun hst => absurd hst h6⟩
      | none =>
        obtain ⟨h4, h5, h6, h7⟩ := loop_spec n t (h2 rfl)
        have h1 : t.log.length = s.log.length + 1 := h1
        exact ⟨h4, (by show (loop P n t).1.log.length ≤ _; omega), h6,
          fun hst => (by show (loop P n t).1.log.length = _; rw [h7 hst]; omega)⟩

/-! ### Properties -/

/-- SCG: the log starts with the objective at the start, never goes up, and ends with the objective at the
point returned; there are at most `maxiters` passes and at most three evaluations per pass after the first
two. The status `maxiter exceeded` means that all passes were done. -/
theorem scg_spec (P : Problem K) (x : List K) (maxiters : Nat) :
    (run P x maxiters).log.head? = some (P.f x) ∧
    (run P x maxiters).log.getLast? = some (P.f (run P x maxiters).x) ∧
    (run P x maxiters).log.IsChain (fun a b => NotAbove b a) ∧
    (run P x maxiters).log.length ≤ 1 + maxiters ∧
    (run P x maxiters).evals ≤ 2 + 3 * maxiters ∧
    ((run P x maxiters).status = .maxiter → (run P x maxiters).log.length = 1 + maxiters) := by
  obtain ⟨h1, h2, -, h4⟩ := loop_spec maxiters (start P x) (start_inv P x)
  have e : (start P x).log.length = 1 := rfl
  rw [e] at h2 h4
  refine ⟨?_, ?_, ?_, ?_, ?_, ?_⟩
  · show ((loop P maxiters (start P x)).1.log.reverse).head? = _
    rw [List.head?_reverse]; exact h1.last
  · show ((loop P maxiters (start P x)).1.log.reverse).getLast? = _
    rw [List.getLast?_reverse]; exact h1.head
  · show ((loop P maxiters (start P x)).1.log.reverse).IsChain _
    rw [List.isChain_reverse]; exact h1.chain
  · show ((loop P maxiters (start P x)).1.log.reverse).length ≤ _
    rw [List.length_reverse]; exact h2
  · show (loop P maxiters (start P x)).1.evals ≤ _
    have := h1.evals
    omega
  · intro hs
    show ((loop P maxiters (start P x)).1.log.reverse).length = _
    rw [List.length_reverse]; exact h4 hs

theorem NotAbove.trans {a b c : Val K} (h1 : NotAbove a b) (h2 : NotAbove b c) : NotAbove a c := by
  cases a <;> cases b <;> cases c <;> simp_all [NotAbove]
  exact le_trans h1 h2

/-- The point returned is not worse than the start. -/
theorem scg_not_worse (P : Problem K) (x : List K) (maxiters : Nat) :
    NotAbove (P.f (run P x maxiters).x) (P.f x) := by
  obtain ⟨h1, -, -, -⟩ := loop_spec maxiters (start P x) (start_inv P x)
  have key : ∀ (l : List (Val K)) (a b : Val K), l.IsChain NotAbove → l.head? = some a → l.getLast? = some b →
      NotAbove a b := by
    intro l
    induction l with
    | nil => intro a b _ h; cases h
    | cons c l ih =>
      intro a b hc ha hb
      have ha : c = a := Option.some.inj ha
      subst ha
      cases l with
      | nil => have : c = b := Option.some.inj hb; rw [this]; exact NotAbove.rfl' _
      | cons d l =>
        rw [List.isChain_cons_cons] at hc
        rw [List.getLast?_cons_cons] at hb
        exact NotAbove.trans hc.1 (ih d b hc.2 rfl hb)
  exact key _ _ _ h1.chain h1.head h1.last

/-- What the status says: with `relative reduction in gradient` the squared length of the gradient at the
point returned is at most `gtol`; with `relative reduction in objective` the last two entries of the log
differ by less than `ftol`. -/
theorem scg_status (P : Problem K) (x : List K) (maxiters : Nat) :
    ((run P x maxiters).status = .gradient →
      dot (P.gradf (run P x maxiters).x) (P.gradf (run P x maxiters).x) ≤ P.gtol) ∧
    ((run P x maxiters).status = .objective → ∃ A a b, (run P x maxiters).log = A ++ [b, a] ∧
      (a.sub b).abs.lt P.ftol = true) := by
  obtain ⟨-, -, h3, -⟩ := loop_spec maxiters (start P x) (start_inv P x)
  unfold run
  simp only
  generalize loop P maxiters (start P x) = r at h3
  obtain ⟨s, st⟩ := r
  refine ⟨fun hs => ?_, fun hs => ?_⟩
  · simp only at hs
    rw [hs] at h3
    exact h3
  · simp only at hs
    rw [hs] at h3
    obtain ⟨a, b, ha, hb, hlt⟩ := h3
    cases hl : s.log with
    | nil => rw [hl] at ha; cases ha
    | cons c l =>
      cases hl2 : l with
      | nil => rw [hl, hl2] at hb; cases hb
      | cons d l' =>
        rw [hl, hl2] at ha hb
        have ha : c = a := Option.some.inj ha
        have hb : d = b := Option.some.inj hb
        exact ⟨l'.reverse, a, b, by rw [ha, hb]; simp, hlt⟩

end

/-! ### Examples -/

/-- `f(x) = x²` with the default tolerances; any positive number may stand for the square root. -/
def square : Problem ℚ where
  f x := .fin ((x.map (fun y => y * y)).sum)
  gradf x := x.map (fun y => 2 * y)
  sqrt _ := 1
  xtol := 1 / 1000000
  ftol := 1 / 1000000
  gtol := 1 / 100000
  shared := false
  left := id

example : (run square [1, -2] 50).status = .gradient := by decide +kernel

/-- An objective that fails (infinity) away from the start: every step is refused. -/
def cliff : Problem ℚ where
  f x := if x = [3] then .fin 5 else .pinf
  gradf _ := [1]
  sqrt _ := 1
  xtol := 0
  ftol := 0
  gtol := 0
  shared := true
  left _ := [1]

example : run cliff [3] 3 = ⟨[3], [.fin 5, .fin 5, .fin 5, .fin 5], 6, .maxiter⟩ := by decide +kernel

/-- A start with gradient zero: nothing can move. -/
example : (run square [0] 4).x = [0] ∧ (run square [0] 4).log = List.replicate 5 (.fin 0) ∧
    (run square [0] 4).status = .maxiter := by decide +kernel

end Paramz.Run.SCG

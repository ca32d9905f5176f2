import Verif.Run.SCG

set_option linter.unusedSectionVars false

/-!
# Gradients given to the optimiser (C62)

Source: `paramz/model.py:206-282`, `paramz/core/parameter_core.py:143-152, 431-438`. Without fixed parameters
`_transform_gradients` returns the gradient array of the model itself, and every later evaluation writes the
new gradient into it; with fixed parameters `g[self._fixes_]` is a new array.
-/

namespace Paramz.Run.SCG

variable {K : Type}

/-! ### What the optimiser holds -/

/-- What the optimiser asks for: the objective (`_objective`, model.py:248-269) or the gradient (`_grads`,
225-246, or `_objective_grads`, 271-282) at a point. -/
inductive Ask (K : Type)
  | objective (x : List K)
  | gradient (x : List K)

def Ask.point : Ask K → List K
  | .objective x => x
  | .gradient x => x

/-- The gradient array of the model, and the arrays given to the optimiser so far: an array with contents of
its own, or `none` for the gradient array of the model. -/
structure Held (K : Type) where
  array : List K
  given : List (Option (List K))

/-- One evaluation. `raw x` is the gradient that the model writes when its parameters are set to `x`
(`optimizer_array.setter` → `parameters_changed`), `factors x` multiplies by the factors of the constraints in
place, `free` picks the free elements; `fixes` says whether there are fixed ones. -/
def ask (fixes : Bool) (raw : List K → List K) (factors : List K → List K → List K) (free : List K → List K)
    (h : Held K) : Ask K → Held K
  | .objective x => { h with array := raw x }
  | .gradient x =>
    let g := factors x (raw x)
    ⟨g, h.given ++ [if fixes then some (free g) else none]⟩

/-- What the optimiser reads in the `i`-th gradient. -/
def Held.read (h : Held K) (i : Nat) : Option (List K) := h.given[i]?.map (fun o => o.getD h.array)

def asks (fixes : Bool) (raw : List K → List K) (factors : List K → List K → List K) (free : List K → List K)
    (l : List (Ask K)) : Held K := l.foldl (ask fixes raw factors free) ⟨[], []⟩

/-- The points at which gradients were asked for. -/
def gradientPoints (l : List (Ask K)) : List (List K) :=
  l.filterMap (fun a => match a with | .gradient x => some x | .objective _ => none)

theorem asks_snoc (fixes : Bool) (raw : List K → List K) (factors : List K → List K → List K)
    (free : List K → List K) (l : List (Ask K)) (a : Ask K) :
    asks fixes raw factors free (l ++ [a]) = ask fixes raw factors free (asks fixes raw factors free l) a := by
  unfold asks; rw [List.foldl_append]; rfl

/-- With fixed parameters: after any evaluations the `i`-th gradient that the optimiser was given still reads
the (free elements of the) gradient at the point it was asked for. Missing for the full claim:
`given_fails`. -/
theorem given_partial (raw : List K → List K) (factors : List K → List K → List K) (free : List K → List K)
    (l : List (Ask K)) (i : Nat) :
    (asks true raw factors free l).read i = ((gradientPoints l)[i]?).map (fun x => free (factors x (raw x))) := by
  have key : (asks true raw factors free l).given =
      (gradientPoints l).map (fun x => some (free (factors x (raw x)))) := by
    induction l using List.reverseRecOn with
    | nil => rfl
    | append_singleton l a ih =>
      rw [asks_snoc]
      cases a with
      | objective x =>
        show (asks true raw factors free l).given = _
        rw [ih]; simp [gradientPoints]
      | gradient x =>
        show (asks true raw factors free l).given ++ _ = _
        rw [ih]; simp [gradientPoints]
  unfold Held.read
  rw [key, List.getElem?_map]
  cases (gradientPoints l)[i]? <;> rfl

/-- Without fixed parameters: all gradients that the optimiser was given read what the last evaluation left
behind — after an evaluation of the objective not even with the factors of the constraints. -/
theorem given_shared (raw : List K → List K) (factors : List K → List K → List K) (free : List K → List K)
    (l : List (Ask K)) (a : Ask K) (i : Nat) (hi : i < (gradientPoints (l ++ [a])).length) :
    (asks false raw factors free (l ++ [a])).read i =
      some (match a with | .objective x => raw x | .gradient x => factors x (raw x)) := by
  have key : ∀ l : List (Ask K), (asks false raw factors free l).given = (gradientPoints l).map (fun _ => none) := by
    intro l
    induction l using List.reverseRecOn with
    | nil => rfl
    | append_singleton l a ih =>
      rw [asks_snoc]
      cases a with
      | objective x =>
        show (asks false raw factors free l).given = _
        rw [ih]; simp [gradientPoints]
      | gradient x =>
        show (asks false raw factors free l).given ++ _ = _
        rw [ih]; simp [gradientPoints]
  unfold Held.read
  rw [key, List.getElem?_map, List.getElem?_eq_getElem hi, asks_snoc]
  cases a <;> rfl

/-- A model without fixed parameters and objective `x²`: the gradient at 3 reads 8 after the objective was
evaluated at 4. -/
theorem given_fails : ∃ (raw : List Int → List Int) (factors : List Int → List Int → List Int)
    (free : List Int → List Int) (l : List (Ask Int)),
    (asks false raw factors free l).read 0 ≠ ((gradientPoints l)[0]?).map (fun x => factors x (raw x)) :=
  ⟨List.map (2 * ·), fun _ g => g, id, [.gradient [3], .objective [4]], by decide +kernel⟩

example : (asks true (List.map (2 * ·)) (fun _ g => g) List.tail [.gradient [3, 5], .objective [4, 6]]).read 0 =
    some [(10 : Int)] := by decide +kernel

/-! ### What it does to SCG -/

variable [Field K] [LinearOrder K]

/-- With fixed parameters the run depends on nothing but the objective, the gradient and the tolerances.
Missing for the full claim: `shared_fails`. -/
theorem scg_own_partial (P Q : Problem K) (hP : P.shared = false) (hQ : Q.shared = false) (hf : P.f = Q.f)
    (hg : P.gradf = Q.gradf) (hs : P.sqrt = Q.sqrt) (hx : P.xtol = Q.xtol) (hft : P.ftol = Q.ftol)
    (hgt : P.gtol = Q.gtol) (x : List K) (n : Nat) : run P x n = run Q x n := by
  have ht : ∀ (P : Problem K) (v : List K) (s : St K), P.shared = false → touch P v s = s := by
    intro P v s h; unfold touch; rw [h]; rfl
  have hc : ∀ s, curvature P s = curvature Q s := by
    intro s; unfold curvature; simp only [ht _ _ _ hP, ht _ _ _ hQ, hg, hs]
  have hl : ∀ s, live P s = live Q s := by
    intro s; unfold live; simp only [ht _ _ _ hP, ht _ _ _ hQ, hg, hf, hft, hx, hgt]
  have hp : ∀ s, pass P s = pass Q s := by
    intro s; unfold pass; simp only [hc, hl]
  have hloop : ∀ n s, loop P n s = loop Q n s := by
    intro n
    induction n with
    | zero => intro s; rfl
    | succ n ih => intro s; rw [loop, loop, hp]; cases hq : pass Q s with | mk t o => cases o <;> simp [ih]
  unfold run start
  rw [hf, hg, hloop]

/-- `y` is reached from `x` with `n` steps, each of which stays or goes down along the gradient at the point
where it begins. -/
inductive Descent (gradf : List K → List K) : Nat → List K → List K → Prop
  | start (x : List K) : Descent gradf 0 x x
  | stay {n : Nat} {x y : List K} : Descent gradf n x y → Descent gradf (n + 1) x y
  | step {n : Nat} {x y : List K} (t : K) : Descent gradf n x y → 0 < t →
      Descent gradf (n + 1) x (axpy y t (neg (gradf y)))

theorem sub_self : ∀ a : List K, sub a a = a.map (fun _ => 0)
  | [] => rfl
  | x :: a => by
    have := sub_self a
    unfold sub at this ⊢
    rw [List.zipWith_cons_cons, List.map_cons, this, _root_.sub_self]

theorem dot_zero_right : ∀ a b : List K, dot a (b.map (fun _ => 0)) = 0
  | [], b => by simp [dot]
  | _ :: _, [] => by simp [dot]
  | x :: a, y :: b => by
    have := dot_zero_right a b
    unfold dot at this ⊢
    rw [List.map_cons, List.zipWith_cons_cons, List.sum_cons, this]; simp

theorem dot_zero_left : ∀ a b : List K, dot (a.map (fun _ => 0)) b = 0
  | [], b => by simp [dot]
  | _ :: _, [] => by simp [dot]
  | x :: a, y :: b => by
    have := dot_zero_left a b
    unfold dot at this ⊢
    rw [List.map_cons, List.zipWith_cons_cons, List.sum_cons, this]; simp

theorem sub_zero_mul : ∀ a b : List K, a.length = b.length → sub (a.map (fun y => (0 : K) * y)) b = neg b
  | [], [], _ => rfl
  | x :: a, y :: b, h => by
    have := sub_zero_mul a b (by simpa using h)
    unfold sub neg at this ⊢
    rw [List.map_cons, List.zipWith_cons_cons, List.map_cons, this]
    simp

theorem axpy_length (a : List K) (c : K) (b : List K) : (axpy a c b).length = min a.length b.length := by
  unfold axpy; rw [List.length_zipWith]

theorem neg_length (a : List K) : (neg a).length = a.length := by unfold neg; rw [List.length_map]

/-- The second derivative along the search direction is always found to be zero. -/
theorem shared_theta (P : Problem K) (hP : P.shared = true) (s : St K) (hs : s.success = true)
    (hk : dot (direction s) (direction s) ≠ 0) : (curvature P s).theta = 0 := by
  unfold curvature
  simp only [hs, if_true, hk, if_false, touch, hP]
  rw [sub_self, dot_zero_right, zero_div]

/-- What holds before every pass. -/
structure DInv (P : Problem K) (s : St K) : Prop where
  dir : s.dead = false → s.d = neg (P.gradf s.x) ∧ s.nsuccess ≠ s.x.length
  grad : s.dead = false → s.success = true → s.gradnew = P.gradf s.x

theorem start_dinv (P : Problem K) {x : List K} (hx : x ≠ []) : DInv P (start P x) :=
  ⟨fun _ => ⟨rfl, fun h => hx (List.eq_nil_of_length_eq_zero h.symm)⟩, fun _ _ => rfl⟩

variable [IsStrictOrderedRing K]

theorem direction_eq {s : St K} (h : s.d = neg s.gradnew) : direction s = neg s.gradnew := by
  unfold direction; split
  · rfl
  · exact h

theorem redirect_x (s : St K) : (redirect s).x = s.x := by
  unfold redirect; split
  · rfl
  · split <;> rfl

theorem redirect_dead (s : St K) : (redirect s).dead = s.dead := by
  unfold redirect; split
  · rfl
  · split <;> rfl

theorem curvature_dinv {P : Problem K} {s : St K} (h : DInv P s) :
    (curvature P s).x = s.x ∧ ((curvature P s).dead = false →
      (curvature P s).d = neg (P.gradf s.x) ∧
      (curvature P s).nsuccess ≠ s.x.length) := by
  unfold curvature
  split
  · rename_i hs
    simp only
    split
    · exact ⟨rfl, fun hd => by cases hd⟩
    · refine ⟨rfl, fun hd => ?_⟩
      have hd : s.dead = false := hd
      obtain ⟨h1, h2⟩ := h.dir hd
      refine ⟨?_, h2⟩
      show direction s = _
      rw [← h.grad hd hs] at h1 ⊢
      exact direction_eq h1
  · exact ⟨rfl, fun hd => h.dir hd⟩

theorem pass_dinv {P : Problem K} (hP : P.shared = true) (hlen : ∀ x, (P.gradf x).length = x.length) {x0 : List K}
    {s : St K} (hi : Inv P x0 s) (h : DInv P s) (hx0 : s.x ≠ []) :
    ((pass P s).2 = none → DInv P (pass P s).1) ∧ (pass P s).1.x ≠ [] ∧
    ((pass P s).1.x = s.x ∨ ∃ t, 0 < t ∧ (pass P s).1.x = axpy s.x t (neg (P.gradf s.x))) := by
  obtain ⟨hm, -⟩ := curvature_mid hi
  obtain ⟨hx, hdir⟩ := curvature_dinv h
  unfold pass
  simp only
  generalize curvature P s = t at hm hx hdir
  split
  · rename_i hd
    unfold stuck
    simp only
    refine ⟨fun _ => ⟨fun hf => ?_, fun hf => ?_⟩, by rw [redirect_x]; rw [← hx] at hx0; exact hx0, Or.inl ?_⟩
    · rw [redirect_dead] at hf; rw [hd] at hf; cases hf
    · rw [redirect_dead] at hf; rw [hd] at hf; cases hf
    · rw [redirect_x]; exact hx
  · rename_i hd
    have hd : t.dead = false := by simpa using hd
    obtain ⟨hmu, hk⟩ := hm.down hd
    obtain ⟨hdd, hns⟩ := hdir hd
    have halpha : 0 < alphaOf t := by
      unfold alphaOf
      exact div_pos (by linarith) (deltaOf_pos hm.beta hk)
    have hdlen : t.d.length = s.x.length := by rw [hdd, neg_length, hlen]
    have hstep : axpy t.x (alphaOf t) t.d = axpy s.x (alphaOf t) (neg (P.gradf s.x)) := by rw [hx, hdd]
    have hnlen : (axpy t.x (alphaOf t) t.d).length = s.x.length := by
      rw [axpy_length, hdlen, hx, Nat.min_self]
    have hne : axpy t.x (alphaOf t) t.d ≠ [] := by
      intro h0
      rw [h0] at hnlen
      exact hx0 (List.eq_nil_of_length_eq_zero hnlen.symm)
    unfold live
    simp only
    split
    · have hreach : ∃ c, 0 < c ∧ axpy t.x (alphaOf t) t.d = axpy s.x c (neg (P.gradf s.x)) := ⟨_, halpha, hstep⟩
      split
      · exact ⟨(fun hn => by cases hn), hne, Or.inr hreach⟩
      · split
        · exact ⟨(fun hn => by cases hn), hne, Or.inr hreach⟩
        · split
          · exact ⟨(fun hn => by cases hn), hne, Or.inr hreach⟩
          · refine ⟨fun _ => ?_, by rw [redirect_x]; exact hne, Or.inr (by rw [redirect_x]; exact hreach)⟩
            unfold redirect
            simp only [touch, hP, if_true]
            split
            · rename_i hsz
              refine ⟨fun _ => ⟨rfl, fun h0 => ?_⟩, fun _ _ => rfl⟩
              have h0 : 0 = (axpy t.x (alphaOf t) t.d).length := h0
              rw [hnlen] at h0
              exact hx0 (List.eq_nil_of_length_eq_zero h0.symm)
            · rename_i hsz
              refine ⟨fun _ => ⟨?_, hsz⟩, fun _ _ => rfl⟩
              show sub (t.d.map (fun y => dot (sub (P.gradf (axpy t.x (alphaOf t) t.d))
                (P.gradf (axpy t.x (alphaOf t) t.d))) (P.gradf (axpy t.x (alphaOf t) t.d)) / t.mu * y))
                (P.gradf (axpy t.x (alphaOf t) t.d)) = neg (P.gradf (axpy t.x (alphaOf t) t.d))
              rw [sub_self, dot_zero_left, zero_div]
              exact sub_zero_mul _ _ (by rw [hdlen, hlen, hnlen])
    · refine ⟨fun _ => ?_, by rw [redirect_x]; rw [← hx] at hx0; exact hx0, Or.inl (by rw [redirect_x]; exact hx)⟩
      have h0 : ∀ u : St K, u.x = t.x → u.nsuccess = t.nsuccess → u.success = false → u.d = t.d → u.dead = false →
          DInv P (redirect u) := by
        intro u ux un us ud udead
        unfold redirect
        split
        · rename_i hsz
          rw [un, ux, hx] at hsz
          exact absurd hsz hns
        · rw [us]
          simp only [Bool.false_eq_true, if_false]
          exact ⟨fun _ => ⟨by rw [ud, hdd, ux, hx], by rw [un, ux, hx]; exact hns⟩,
            fun _ hh => by rw [us] at hh; cases hh⟩
      exact h0 _ rfl rfl rfl rfl hd

theorem loop_descent {P : Problem K} (hP : P.shared = true) (hlen : ∀ x, (P.gradf x).length = x.length)
    {x0 : List K} : ∀ (n k : Nat) (s : St K), Inv P x0 s → DInv P s → s.x ≠ [] →
    Descent P.gradf k x0 s.x →
    Descent P.gradf (k + n) x0 (loop P n s).1.x
  | 0, k, s, _, _, _, h => h
  | n + 1, k, s, hi, hd, hx, h => by
    obtain ⟨h1, hx', h2⟩ := pass_dinv hP hlen hi hd hx
    obtain ⟨-, h3, -⟩ := pass_spec hi
    have hk : Descent P.gradf (k + 1) x0 (pass P s).1.x := by
      rcases h2 with h2 | ⟨t, ht, h2⟩
      · rw [h2]; exact .stay h
      · rw [h2]; exact .step t h ht
    rw [loop]
    cases hp : pass P s with
    | mk t o =>
      rw [hp] at h1 h3 hk hx'
      have e : k + (n + 1) = k + 1 + n := by omega
      rw [e]
      cases o with
      | none => exact loop_descent hP hlen n (k + 1) t (h3 rfl) (h1 rfl) hx' hk
      | some st =>
        show Descent P.gradf (k + 1 + n) x0 t.x
        generalize k + 1 = j at hk
        induction n with
        | zero => exact hk
        | succ n ih => exact .stay (ih (by omega))

/-- Without fixed parameters SCG is plain gradient descent: every point it reaches is reached by steps down
along the gradient (no conjugate directions), and by `shared_theta` their length does not depend on the
curvature of the objective. -/
theorem shared_descent (P : Problem K) (hP : P.shared = true) (hlen : ∀ x, (P.gradf x).length = x.length)
    (x : List K) (hx : x ≠ []) (n : Nat) : Descent P.gradf n x (run P x n).x := by
  have := loop_descent hP hlen n 0 (start P x) (start_inv P x) (start_dinv P hx) hx (.start x)
  rw [Nat.zero_add] at this
  exact this

/-- `f(a, b) = a² + 20 b²`, with and without fixed parameters elsewhere in the model. -/
def bowl (shared : Bool) : Problem ℚ where
  f x := match x with
    | [a, b] => .fin (a * a + 20 * b * b)
    | _ => .nan
  gradf x := match x with
    | [a, b] => [2 * a, 40 * b]
    | x => x
  sqrt _ := 1
  xtol := 1 / 1000000
  ftol := 1 / 1000000
  gtol := 1 / 100000
  shared := shared
  left x := match x with
    | [a, b] => [2 * a, 40 * b]
    | x => x

example : Descent (bowl true).gradf 6 [1, 1] (run (bowl true) [1, 1] 6).x :=
  shared_descent _ rfl (by intro x; unfold bowl; simp only; split <;> rfl) _ (by simp) _

example : (run (bowl true) [1, 1] 6).x ≠ [1, 1] := by decide +kernel

/-- The objective goes down to below 1/1000 in four passes if some other parameter of the model is fixed; if
none is, it is still above 3. -/
theorem shared_fails :
    (match (bowl false).f (run (bowl false) [1, 1] 4).x with | .fin q => decide (q < 1 / 1000) | _ => false) = true ∧
    (match (bowl true).f (run (bowl true) [1, 1] 4).x with | .fin q => decide (3 < q) | _ => false) = true := by
  constructor <;> decide +kernel

end Paramz.Run.SCG

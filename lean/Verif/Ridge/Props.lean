import Verif.Ridge.Model
import Mathlib.Analysis.Calculus.Deriv.Add
import Mathlib.Analysis.Calculus.Deriv.Mul
import Mathlib.Analysis.Calculus.Deriv.Pow
import Mathlib.Analysis.Calculus.Deriv.Abs

/-!
# Gradients of ridge regression (C64)
-/

namespace Paramz.Ridge

open Finset

variable {n d p D : Nat}

/-! ### Specification -/

/-- The objective: the squared errors of the predictions on the training data plus the penalty. -/
noncomputable def objective (M : Data n d p D) (w : Mat (D + 1) d) : ℝ :=
  (∑ s, ∑ c, (M.Y s c - predict M M.X w s) ^ 2) + M.lam * ∑ i, ∑ j, M.reg.penalty (w i j)

/-- `g` is the gradient of `f` at `w`: it gives the derivative in every direction. -/
def IsGradient (f : Mat (D + 1) d → ℝ) (w g : Mat (D + 1) d) : Prop :=
  ∀ v : Mat (D + 1) d, HasDerivAt (fun t : ℝ => f (fun i j => w i j + t * v i j)) (∑ i, ∑ j, g i j * v i j) 0

/-- The penalty has a derivative: always for ridge, for lasso away from zero. -/
def Smooth (M : Data n d p D) (w : Mat (D + 1) d) : Prop :=
  match M.reg with
  | .ridge => True
  | .lasso => ∀ i j, w i j ≠ 0

/-! ### Derivatives -/

theorem penalty_deriv (r : Reg) (x v : ℝ) (h : r = .lasso → x ≠ 0) :
    HasDerivAt (fun t : ℝ => r.penalty (x + t * v)) (r.slope x * v) 0 := by
  have h1 : HasDerivAt (fun t : ℝ => x + t * v) v 0 := by
    simpa using ((hasDerivAt_id (0 : ℝ)).mul_const v).const_add x
  cases r with
  | ridge =>
    have := h1.fun_pow 2
    simpa [Reg.penalty, Reg.slope] using this
  | lasso =>
    have hx := h rfl
    have h2 : HasDerivAt (fun y : ℝ => |y|) (Real.sign x) (x + 0 * v) := by
      rw [zero_mul, add_zero]
      rcases lt_or_gt_of_ne hx with hx | hx
      · rw [Real.sign_of_neg hx]; exact hasDerivAt_abs_neg hx
      · rw [Real.sign_of_pos hx]; exact hasDerivAt_abs_pos hx
    exact h2.comp (0 : ℝ) h1

theorem sum_swap {α β γ δ : Type} [Fintype α] [Fintype β] [Fintype γ] [Fintype δ] (f : α → β → γ → δ → ℝ) :
    ∑ s, ∑ c, ∑ i, ∑ j, f s c i j = ∑ i, ∑ j, ∑ s, ∑ c, f s c i j := by
  have h1 : ∀ s, ∑ c, ∑ i, ∑ j, f s c i j = ∑ i, ∑ j, ∑ c, f s c i j := fun s => by
    rw [Finset.sum_comm]
    exact Finset.sum_congr rfl fun i _ => Finset.sum_comm
  rw [Finset.sum_congr rfl fun s _ => h1 s, Finset.sum_comm]
  exact Finset.sum_congr rfl fun i _ => Finset.sum_comm

theorem outer_deriv (M : Data n d p D) (w v : Mat (D + 1) d) (s : Fin n) :
    HasDerivAt (fun t : ℝ => outer M M.X (fun i j => w i j + t * v i j) s)
      (∑ i, ∑ j, M.basis n M.X i s j * v i j) 0 := by
  unfold outer
  refine HasDerivAt.fun_sum fun i _ => HasDerivAt.fun_sum fun j _ => ?_
  have h1 : HasDerivAt (fun t : ℝ => w i j + t * v i j) (v i j) 0 := by
    simpa using ((hasDerivAt_id (0 : ℝ)).mul_const (v i j)).const_add (w i j)
  exact h1.const_mul _

/-- The derivative of the objective, for any number of outputs. -/
theorem objective_gradient (M : Data n d p D) (w : Mat (D + 1) d) (hs : Smooth M w) :
    IsGradient (objective M) w (fun i j => M.lam * M.reg.slope (w i j) -
      2 * ∑ s, ∑ c, resid M w s c * M.basis n M.X i s j) := by
  intro v
  unfold objective predict
  have h1 : HasDerivAt (fun t : ℝ => ∑ s, ∑ c, (M.Y s c - outer M M.X (fun i j => w i j + t * v i j) s) ^ 2)
      (∑ s, ∑ c, 2 * resid M w s c * -(∑ i, ∑ j, M.basis n M.X i s j * v i j)) 0 := by
    refine HasDerivAt.fun_sum fun s _ => HasDerivAt.fun_sum fun c _ => ?_
    have := ((outer_deriv M w v s).const_sub (M.Y s c)).fun_pow 2
    refine this.congr_deriv ?_
    simp [resid]
  have h2 : HasDerivAt (fun t : ℝ => M.lam * ∑ i, ∑ j, M.reg.penalty (w i j + t * v i j))
      (M.lam * ∑ i, ∑ j, M.reg.slope (w i j) * v i j) 0 := by
    refine HasDerivAt.const_mul _ (HasDerivAt.fun_sum fun i _ => HasDerivAt.fun_sum fun j _ => ?_)
    refine penalty_deriv _ _ _ fun hl => ?_
    unfold Smooth at hs
    rw [hl] at hs
    exact hs i j
  refine (h1.add h2).congr_deriv ?_
  simp only [sub_mul, sum_sub_distrib]
  have e1 : ∑ i, ∑ j, M.lam * M.reg.slope (w i j) * v i j = M.lam * ∑ i, ∑ j, M.reg.slope (w i j) * v i j := by
    simp only [mul_sum, mul_assoc]
  have e2 : ∑ s, ∑ c, 2 * resid M w s c * -(∑ i, ∑ j, M.basis n M.X i s j * v i j) =
      -∑ i, ∑ j, 2 * (∑ s, ∑ c, resid M w s c * M.basis n M.X i s j) * v i j := by
    simp only [mul_sum, sum_mul, mul_neg, sum_neg_distrib]
    rw [neg_inj, sum_swap]
    refine Finset.sum_congr rfl fun i _ => Finset.sum_congr rfl fun j _ => Finset.sum_congr rfl fun s _ =>
      Finset.sum_congr rfl fun c _ => ?_
    ring
  rw [e1, e2]
  ring

theorem penalty_above (r : Reg) (x y : ℝ) : r.penalty x + r.slope x * (y - x) ≤ r.penalty y := by
  cases r with
  | ridge =>
    show x ^ 2 + 2 * x * (y - x) ≤ y ^ 2
    nlinarith [sq_nonneg (y - x)]
  | lasso =>
    show |x| + Real.sign x * (y - x) ≤ |y|
    rcases lt_trichotomy x 0 with h | h | h
    · rw [Real.sign_of_neg h, abs_of_neg h]
      have := neg_le_abs y
      linarith
    · rw [h, Real.sign_zero]
      have := abs_nonneg y
      simpa using this
    · rw [Real.sign_of_pos h, abs_of_pos h]
      have := le_abs_self y
      linarith

theorem outer_sub (M : Data n d p D) (w w' : Mat (D + 1) d) (s : Fin n) :
    outer M M.X w' s - outer M M.X w s = ∑ i, ∑ j, M.basis n M.X i s j * (w' i j - w i j) := by
  unfold outer
  rw [← sum_sub_distrib]
  refine Finset.sum_congr rfl fun i _ => ?_
  rw [← sum_sub_distrib]
  refine Finset.sum_congr rfl fun j _ => ?_
  ring

/-- The objective lies above its tangent (at the corners of lasso: above the one with slope zero there). -/
theorem objective_above (M : Data n d p D) (hl : 0 ≤ M.lam) (w w' : Mat (D + 1) d) :
    objective M w + ∑ i, ∑ j, (M.lam * M.reg.slope (w i j) -
      2 * ∑ s, ∑ c, resid M w s c * M.basis n M.X i s j) * (w' i j - w i j) ≤ objective M w' := by
  have h1 : (∑ s, ∑ c, (M.Y s c - outer M M.X w s) ^ 2) + ∑ s, ∑ c, (-2 * resid M w s c *
      ∑ i, ∑ j, M.basis n M.X i s j * (w' i j - w i j)) ≤ ∑ s, ∑ c, (M.Y s c - outer M M.X w' s) ^ 2 := by
    rw [← sum_add_distrib]
    refine Finset.sum_le_sum fun s _ => ?_
    rw [← sum_add_distrib]
    refine Finset.sum_le_sum fun c _ => ?_
    rw [← outer_sub]
    unfold resid
    nlinarith [sq_nonneg (outer M M.X w' s - outer M M.X w s)]
  have h2 : M.lam * ∑ i, ∑ j, M.reg.penalty (w i j) + M.lam * ∑ i, ∑ j, M.reg.slope (w i j) * (w' i j - w i j) ≤
      M.lam * ∑ i, ∑ j, M.reg.penalty (w' i j) := by
    rw [← mul_add, ← sum_add_distrib]
    refine mul_le_mul_of_nonneg_left (Finset.sum_le_sum fun i _ => ?_) hl
    rw [← sum_add_distrib]
    exact Finset.sum_le_sum fun j _ => penalty_above _ _ _
  have e1 : ∑ i, ∑ j, (M.lam * M.reg.slope (w i j) - 2 * ∑ s, ∑ c, resid M w s c * M.basis n M.X i s j) *
      (w' i j - w i j) = M.lam * ∑ i, ∑ j, M.reg.slope (w i j) * (w' i j - w i j) +
      ∑ s, ∑ c, (-2 * resid M w s c * ∑ i, ∑ j, M.basis n M.X i s j * (w' i j - w i j)) := by
    have e2 : ∑ s, ∑ c, (-2 * resid M w s c * ∑ i, ∑ j, M.basis n M.X i s j * (w' i j - w i j)) =
        ∑ i, ∑ j, ∑ s, ∑ c, -2 * resid M w s c * (M.basis n M.X i s j * (w' i j - w i j)) := by
      rw [← sum_swap]
      simp only [mul_sum]
    rw [e2, mul_sum, ← sum_add_distrib]
    refine Finset.sum_congr rfl fun i _ => ?_
    rw [mul_sum, ← sum_add_distrib]
    refine Finset.sum_congr rfl fun j _ => ?_
    have e3 : ∑ s, ∑ c, -2 * resid M w s c * (M.basis n M.X i s j * (w' i j - w i j)) =
        -(2 * ∑ s, ∑ c, resid M w s c * M.basis n M.X i s j) * (w' i j - w i j) := by
      rw [mul_sum, ← sum_neg_distrib, sum_mul]
      refine Finset.sum_congr rfl fun s _ => ?_
      rw [mul_sum, ← sum_neg_distrib, sum_mul]
      refine Finset.sum_congr rfl fun c _ => ?_
      ring
    rw [e3]; ring
  rw [e1]
  unfold objective predict
  linarith

/-! ### Histories -/

/-- What the model shows is right for its weights. -/
structure Right (M : Data n d p D) (s : State d D) : Prop where
  obj : s.obj = objective M s.w
  grad : Smooth M s.w → IsGradient (objective M) s.w s.grad
  /-- If the gradient vanishes the weights are the best there are. -/
  best : 0 ≤ M.lam → (∀ i j, s.grad i j = 0) → ∀ w, s.obj ≤ objective M w

theorem penalty_sum (M : Data n d p D) (w : Mat (D + 1) d) :
    ∑ i, M.lam * ∑ j, M.reg.penalty (w i j) = M.lam * ∑ i, ∑ j, M.reg.penalty (w i j) := by
  rw [← mul_sum]

/-- An update of everything with one output. -/
theorem updateAll_right (M : Data n d 1 D) (s : State d D) :
    ∃ s', updateAll M s = some s' ∧ s'.w = s.w ∧ Right M s' := by
  unfold updateAll paramsChanged
  rw [if_pos (Or.inl rfl)]
  have e : (fun (i : Fin (D + 1)) (j : Fin d) => M.lam * M.reg.slope (s.w i j) - 2 * ∑ r, (match column 1 d j with
      | some c => resid M s.w r c * M.basis n M.X i r j
      | none => 0)) =
      fun i j => M.lam * M.reg.slope (s.w i j) - 2 * ∑ r, ∑ c, resid M s.w r c * M.basis n M.X i r j := by
    funext i j
    simp [column]
  have ho : (∑ r, ∑ c, resid M s.w r c ^ 2) + ∑ i, M.lam * ∑ j, M.reg.penalty (s.w i j) = objective M s.w := by
    rw [penalty_sum]; rfl
  refine ⟨_, rfl, rfl, ho, fun hs => ?_, fun hl hg w => ?_⟩
  · have := objective_gradient M s.w hs
    show IsGradient (objective M) s.w _
    rw [← e] at this
    exact this
  · have hg : ∀ i j, (fun (i : Fin (D + 1)) (j : Fin d) => M.lam * M.reg.slope (s.w i j) -
        2 * ∑ r, (match column 1 d j with
          | some c => resid M s.w r c * M.basis n M.X i r j
          | none => 0)) i j = 0 := hg
    rw [e] at hg
    have := objective_above M hl s.w w
    simp only [hg, zero_mul, sum_const_zero, add_zero] at this
    exact le_of_eq_of_le ho this

/-- The objective shown is right for any number of outputs for which there is no error. -/
theorem updateAll_obj (M : Data n d p D) (s s' : State d D) (h : updateAll M s = some s') :
    s'.w = s.w ∧ s'.obj = objective M s.w := by
  unfold updateAll paramsChanged at h
  split at h
  · cases h
    refine ⟨rfl, ?_⟩
    show (∑ r, ∑ c, resid M s.w r c ^ 2) + ∑ i, M.lam * ∑ j, M.reg.penalty (s.w i j) = _
    rw [penalty_sum]; rfl
  · cases h

/-- A new model with one output, for every basis and data: after any history that does not update the basis
alone, the weights are those set last, the objective is the objective at these weights, and the gradient is its
gradient; if it vanishes (and the factor of the penalty is not negative) no weights are better. Missing for the full claim: `basis_fails`, `outputs_fails`. -/
theorem ridge_gradient_partial (M : Data n d 1 D) (l : List (Op d D)) (hl : .triggerBasis ∉ l) :
    ∃ s, (new M).bind (fun s => run M s l) = some s ∧ Right M s ∧
      s.w = l.foldl (fun w o => match o with | .set w => w | _ => w) (initWeights M) := by
  obtain ⟨s0, h0, hw0, hr0⟩ := updateAll_right M ⟨initWeights M, fun _ _ => 0, fun _ => 0, 0⟩
  have key : ∀ (l : List (Op d D)) (s : State d D), .triggerBasis ∉ l → Right M s → ∃ s', run M s l = some s' ∧
      Right M s' ∧ s'.w = l.foldl (fun w o => match o with | .set w => w | _ => w) s.w := by
    intro l
    induction l with
    | nil => exact fun s _ h => ⟨s, rfl, h, rfl⟩
    | cons o l ih =>
      intro s hn h
      have hn' : .triggerBasis ∉ l := fun hm => hn (List.mem_cons_of_mem _ hm)
      cases o with
      | set w =>
        obtain ⟨s1, h1, h2, h3⟩ := updateAll_right M { s with w := w }
        obtain ⟨s2, h4, h5, h6⟩ := ih s1 hn' h3
        refine ⟨s2, ?_, h5, ?_⟩
        · rw [run]; simp only [step, h1, Option.bind_some]; exact h4
        · rw [h6, h2]; rfl
      | trigger =>
        obtain ⟨s1, h1, h2, h3⟩ := updateAll_right M s
        obtain ⟨s2, h4, h5, h6⟩ := ih s1 hn' h3
        refine ⟨s2, ?_, h5, ?_⟩
        · rw [run]; simp only [step, h1, Option.bind_some]; exact h4
        · rw [h6, h2]; rfl
      | triggerBasis => exact absurd List.mem_cons_self hn
  obtain ⟨s', h1, h2, h3⟩ := key l s0 hl hr0
  refine ⟨s', ?_, h2, ?_⟩
  · unfold new; rw [h0]; exact h1
  · rw [h3, hw0]

/-- `phi` adds up to the prediction. -/
theorem phi_sum (M : Data n d p D) {m : Nat} (X : Mat m d) (w : Mat (D + 1) d) (s : Fin m) :
    ∑ i, ∑ j, phi M X w i s j = predict M X w s := rfl

/-! ### Examples and faults -/

/-- One sample `x = 3`, `y = 7`, degree 1, penalty `w²`. -/
noncomputable def demo : Data 1 1 1 1 := ⟨fun _ _ => 3, fun _ _ => 7, polynomial 1 1, .ridge, 1⟩

/-- At weights 1 and 1 the prediction is 4, the error 3: objective `9 + 2`, gradient `2 - 6` and `2 - 18`. -/
theorem demo_state : ∃ s, (new demo).bind (fun s => run demo s [.set (fun _ _ => 1)]) = some s ∧ s.obj = 11 ∧
    s.grad 0 0 = -4 ∧ s.grad 1 0 = -16 := by
  refine ⟨_, rfl, ?_, ?_, ?_⟩ <;>
    norm_num [updateError, demo, resid, outer, polynomial, Reg.penalty, Reg.slope, column, Fin.sum_univ_succ]

theorem gradient_unique {f : Mat (D + 1) d → ℝ} {w g g' : Mat (D + 1) d} (h : IsGradient f w g)
    (h' : IsGradient f w g') : g = g' := by
  funext i j
  have := (h (fun a b => if a = i ∧ b = j then 1 else 0)).unique (h' (fun a b => if a = i ∧ b = j then 1 else 0))
  have key : ∀ g : Mat (D + 1) d, ∑ a, ∑ b, g a b * (if a = i ∧ b = j then 1 else 0) = g i j := by
    intro g
    rw [Finset.sum_eq_single i, Finset.sum_eq_single j]
    · simp
    · intro b _ hb; simp [hb]
    · intro h; exact absurd (mem_univ j) h
    · intro a _ ha; simp [ha]
    · intro h; exact absurd (mem_univ i) h
  rw [key, key] at this
  exact this

/-- `m.basis.trigger_update()` (nothing has changed): the gradient becomes wrong, since the model adds its part
to what is there. -/
theorem basis_fails : ∃ s, (new demo).bind (fun s => run demo s [.set (fun _ _ => 1), .triggerBasis]) = some s ∧
    s.grad 0 0 = -10 ∧ ¬ Right demo s := by
  have hw : ∀ s, (new demo).bind (fun s => run demo s [.set (fun _ _ => 1), .triggerBasis]) = some s →
      s.w = fun _ _ => 1 := by
    intro s h; cases h; rfl
  have hg : ∃ s, (new demo).bind (fun s => run demo s [.set (fun _ _ => 1), .triggerBasis]) = some s ∧
      s.grad 0 0 = -10 := by
    refine ⟨_, rfl, ?_⟩
    norm_num [updateError, demo, resid, outer, polynomial, Reg.penalty, Reg.slope, column, Fin.sum_univ_succ]
  obtain ⟨s, h1, h2⟩ := hg
  refine ⟨s, h1, h2, fun hr => ?_⟩
  have := gradient_unique (hr.grad trivial) (objective_gradient demo s.w trivial)
  rw [hw s h1] at this
  have := congrFun (congrFun this 0) 0
  rw [h2] at this
  norm_num [demo, resid, outer, polynomial, Reg.slope, Fin.sum_univ_succ] at this

/-- Two inputs and two outputs are accepted; one sample `(1, 1)`, outputs `1` and `0`, degree 0, no penalty. -/
noncomputable def demo2 : Data 1 2 2 0 := ⟨fun _ _ => 1, fun _ c => if c = 0 then 1 else 0, polynomial 0 2, .ridge, 0⟩

/-- With as many outputs as inputs (more than one) the gradient is wrong. -/
theorem outputs_fails : ∃ s, new demo2 = some s ∧ s.obj = objective demo2 s.w ∧ ¬ Right demo2 s := by
  have h1 : ∃ s, new demo2 = some s ∧ s.w = (fun _ _ => 0) ∧ s.grad 0 1 = 0 := by
    refine ⟨_, rfl, ?_, ?_⟩
    · funext i j
      show initWeights demo2 i j = 0
      simp [initWeights]
    · norm_num [updateError, demo2, resid, outer, polynomial, Reg.penalty, Reg.slope, column, Fin.sum_univ_succ,
        initWeights]
  obtain ⟨s, hs, hw, hg⟩ := h1
  refine ⟨s, hs, ?_, fun hr => ?_⟩
  · obtain ⟨e1, e2⟩ := updateAll_obj demo2 _ s hs
    rw [e2, e1]
  · have := gradient_unique (hr.grad trivial) (objective_gradient demo2 s.w trivial)
    rw [hw] at this
    have := congrFun (congrFun this 0) 1
    rw [hg] at this
    norm_num [demo2, resid, outer, polynomial, Reg.slope, Fin.sum_univ_succ] at this

end Paramz.Ridge

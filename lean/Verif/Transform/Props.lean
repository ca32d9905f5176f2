import Verif.Transform.Lemmas

/-!
# Properties of the transformations: C15 – C20
-/

noncomputable section

namespace Paramz.Transform

open Real Filter Topology

/-! ## C15 -/

/-- C15: every optimiser value is mapped to a value satisfying the constraint. -/
theorem transformed_in_domain (t : Tr) (ht : t.Valid) (x : ℝ) : t.f x ∈ Dom t := by
  cases t with
  | logexp => exact logexpF_pos x
  | exponent => exact exponentF_pos x
  | negLogexp => exact neg_lt_zero.mpr (logexpF_pos x)
  | negExponent => exact neg_lt_zero.mpr (exponentF_pos x)
  | square => exact sq_nonneg x
  | logistic l u => exact logisticF_mem ht x

example : (Tr.logistic 2 3).Valid := by norm_num [Tr.Valid]

/-! ## C16 -/

/-- C16 (partial). For every class but `NegativeExponent`, reading a value of the domain into optimiser
space gives a finite number and writing that back gives the value. Missing: `NegativeExponent`, for
which it is false (`negExponent_f_finv_fails`). -/
theorem f_finv_partial (t : Tr) (hne : t ≠ .negExponent) (y : ℝ) (hy : y ∈ Dom t)
    (hlim : InModelLimits t y) : ∃ x, t.finv y = some x ∧ t.f x = y := by
  cases t with
  | logexp => exact logexp_f_finv hlim
  | exponent =>
    refine ⟨log y, npLog_pos hy, ?_⟩
    have hy : 0 < y := hy
    simp only [Tr.f]
    rw [exponentF_in, exp_log hy]
    · rw [le_log_iff_exp_le hy]; exact hlim.1
    · rw [log_le_iff_le_exp hy]; exact hlim.2
  | negLogexp =>
    obtain ⟨x, h1, h2⟩ := logexp_f_finv (y := -y) hlim
    exact ⟨x, h1, by simp only [Tr.f, h2, neg_neg]⟩
  | negExponent => exact absurd rfl hne
  | square =>
    have hy : 0 ≤ y := hy
    exact ⟨√y, by simp [Tr.finv, npSqrt, hy], by simp only [Tr.f]; exact sq_sqrt hy⟩
  | logistic l u => exact logistic_f_finv hlim.1 hlim.2.1 hlim.2.2

/-- Instances: 5 is in the limits of `Logexp`; 1/2 in those of `Logistic(0,1)`. -/
example : (5 : ℝ) ∈ Dom .logexp ∧ InModelLimits .logexp 5 := by
  refine ⟨by simp [Dom], ?_⟩
  have : maxFloat⁻¹ ≤ 1 := inv_le_one_of_one_le₀ (le_trans (one_le_pow₀ (by norm_num)) maxFloat_ge)
  simp only [InModelLimits]; linarith

example : (1 / 2 : ℝ) ∈ Dom (.logistic 0 1) ∧ InModelLimits (.logistic 0 1) (1 / 2) := by
  have : exp (-300) ≤ 1 := exp_le_one_iff.mpr (by norm_num)
  refine ⟨by norm_num [Dom], by norm_num, by norm_num, by norm_num⟩

/-- The round trip of `Logexp` is off by less than the smallest normal step below its limit as well. -/
theorem logexp_f_finv_small (y : ℝ) (h : 0 < y) :
    ∃ x, Tr.logexp.finv y = some x ∧ |Tr.logexp.f x - y| < maxFloat⁻¹ := by
  by_cases hy : y < maxFloat⁻¹
  · exact logexp_f_finv_low h hy
  · obtain ⟨x, h1, h2⟩ := logexp_f_finv (not_lt.mp hy)
    refine ⟨x, h1, ?_⟩
    simp only [Tr.f, h2, sub_self, abs_zero]
    exact inv_pos.mpr maxFloat_pos

/-- C16 fails for `NegativeExponent`: writing back what was read turns `y` into `1 / y`. -/
theorem negExponent_f_finv_fails (y : ℝ) (hy : y ∈ Dom .negExponent) (hlim : InModelLimits .negExponent y) :
    ∃ x, Tr.negExponent.finv y = some x ∧ Tr.negExponent.f x = 1 / y := by
  have hy : 0 < -y := by simpa using neg_pos.mpr (show y < 0 from hy)
  refine ⟨-log (-y), by simp [Tr.finv, exponentFinv, npLog_pos hy], ?_⟩
  have h1 : -lim ≤ log (-y) := by rw [le_log_iff_exp_le hy]; exact hlim.1
  have h2 : log (-y) ≤ lim := by rw [log_le_iff_le_exp hy]; exact hlim.2
  simp only [Tr.f]
  rw [exponentF_in (by linarith) (by linarith), exp_neg, exp_log hy]
  rw [inv_neg, neg_neg, one_div]

/-- For instance -2 becomes -1/2. -/
example : (-2 : ℝ) ∈ Dom .negExponent ∧ InModelLimits .negExponent (-2) := by
  refine ⟨by norm_num [Dom], ?_, ?_⟩
  · have : exp (-lim) ≤ 1 := exp_le_one_iff.mpr (by norm_num [lim]); linarith
  · have := add_one_le_exp lim; unfold lim at this ⊢; linarith

/-- Outside the limits the round trip of `Exponent` moves the value to the limit. -/
theorem exponent_clips_fails (y : ℝ) (hy : exp lim < y) :
    ∃ x, Tr.exponent.finv y = some x ∧ Tr.exponent.f x = exp lim := by
  have h0 : 0 < y := lt_trans (exp_pos _) hy
  refine ⟨log y, npLog_pos h0, ?_⟩
  simp only [Tr.f, exponentF]
  rw [if_neg (not_lt.mpr ((le_log_iff_exp_le h0).mpr hy.le))]

/-! ## C17 -/

/-- The gap at the switch point of `Logexp`: `x` is below 36 but its image above. -/
def AtSwitch : Tr → ℝ → Prop
  | .logexp, x => x ≤ lim ∧ lim < Tr.logexp.f x
  | .negLogexp, x => x ≤ lim ∧ lim < -(Tr.negLogexp.f x)
  | _, _ => False

/-- The bounds kept by `Logistic.finv`. -/
def OffBounds : Tr → ℝ → Prop
  | .logistic l u, x => 1e-10 ≤ logisticF l u x - l ∧ 1e-10 ≤ u - logisticF l u x
  | _, _ => True

/-- C17 (partial). What the optimiser writes is what it reads back, exactly, or up to 2.4e-16 for
`Logexp` at its switch point. Missing: `NegativeExponent` (`negExponent_finv_f_fails`) and negative
optimiser values of `Square` (`square_finv_f_fails`). -/
theorem finv_f_partial (t : Tr) (ht : t.Valid) (hne : t ≠ .negExponent) (x : ℝ)
    (hsq : t = .square → 0 ≤ x) (hlim : InLimits t x) (hoff : OffBounds t x) :
    ∃ z, t.finv (t.f x) = some z ∧ |z - x| < 2.4e-16 ∧ (¬ AtSwitch t x → z = x) := by
  have exact' : ∀ {o : Option ℝ}, o = some x → ∃ z, o = some z ∧ |z - x| < 2.4e-16 ∧
      (¬ AtSwitch t x → z = x) := fun h => ⟨x, h, by norm_num, fun _ => rfl⟩
  cases t with
  | logexp =>
    obtain ⟨z, h1, h2, h3⟩ := logexp_finv_f (x := x) hlim
    refine ⟨z, h1, h2, fun hs => h3 ?_⟩
    by_contra hc
    push Not at hc
    exact hs hc
  | exponent =>
    apply exact'
    simp only [Tr.finv, Tr.f, exponentFinv]
    rw [exponentF_in hlim.1 hlim.2, npLog_pos (exp_pos _), log_exp]
  | negLogexp =>
    obtain ⟨z, h1, h2, h3⟩ := logexp_finv_f (x := x) hlim
    refine ⟨z, by simpa only [Tr.finv, Tr.f, neg_neg] using h1, h2, fun hs => h3 ?_⟩
    by_contra hc
    push Not at hc
    exact hs ⟨hc.1, by simpa only [Tr.f, neg_neg] using hc.2⟩
  | negExponent => exact absurd rfl hne
  | square =>
    apply exact'
    exact (npSqrt_sq x).trans (by rw [abs_of_nonneg (hsq rfl)])
  | logistic l u => exact exact' (logistic_finv_f ht hlim hoff.1 hoff.2)

/-- Instances, with the exact outcome. -/
example : InLimits .logexp 3 ∧ InLimits .exponent (-7) ∧ OffBounds (.logistic 0 1) 0 := by
  have := lim_lt_logLim
  have h0 : lim = 36 := rfl
  refine ⟨by simp only [InLimits]; linarith, ⟨by norm_num [lim], by norm_num [lim]⟩, ?_, ?_⟩ <;>
    rw [logisticF_in (by norm_num)] <;> norm_num

/-- C17 fails for `NegativeExponent`: the optimiser reads back the negative of what it wrote. -/
theorem negExponent_finv_f_fails (x : ℝ) (h : InLimits .negExponent x) :
    Tr.negExponent.finv (Tr.negExponent.f x) = some (-x) := by
  simp only [Tr.finv, Tr.f, neg_neg, exponentFinv]
  rw [exponentF_in h.1 h.2, npLog_pos (exp_pos _), log_exp]; rfl

/-- C17 fails for `Square` at negative values: the optimiser reads back the absolute value. -/
theorem square_finv_f_fails (x : ℝ) : Tr.square.finv (Tr.square.f x) = some |x| :=
  npSqrt_sq x

/-- At the switch point `Logexp.f` steps down, so it is not monotone there. -/
theorem logexp_step_fails : ∃ x z, x < z ∧ Tr.logexp.f z < Tr.logexp.f x := by
  have h := logexpF_le (x := lim) le_rfl (by linarith [lim_lt_logLim, show (0 : ℝ) < lim by norm_num [lim]])
  have h1 : lim < logexpF lim := by
    rw [h, lt_log_iff_exp_lt (by positivity)]; linarith
  refine ⟨lim, (lim + logexpF lim) / 2, by linarith, ?_⟩
  simp only [Tr.f]
  rw [logexpF_gt (x := (lim + logexpF lim) / 2) (by linarith)]
  linarith

/-! ## C18 -/

theorem inLimits_exponent {x : ℝ} (h : ∀ᶠ z in 𝓝 x, -lim ≤ z ∧ z ≤ lim) : -lim < x ∧ x < lim := by
  have : x ∈ interior (Set.Icc (-lim) lim) := mem_interior_iff_mem_nhds.mpr h
  rwa [interior_Icc] at this

theorem inLimits_ge {x a : ℝ} (h : ∀ᶠ z in 𝓝 x, a ≤ z) : a < x := by
  have : x ∈ interior (Set.Ici a) := mem_interior_iff_mem_nhds.mpr h
  rwa [interior_Ici] at this

theorem logexp_chain {x : ℝ} (hl : -logLim < x) (hx : x ≠ lim) (df : ℝ) :
    ∃ d, HasDerivAt logexpF d x ∧ |logexpGrad (logexpF x) df - df * d| ≤ |df| * 2.4e-16 ∧
      (¬ (x ≤ lim ∧ lim < logexpF x) → logexpGrad (logexpF x) df = df * d) := by
  rcases lt_or_gt_of_ne hx with h | h
  · refine ⟨_, logexp_deriv_lt h hl, ?_, ?_⟩
    · by_cases hy : logexpF x ≤ lim
      · rw [logexpGrad_exact h.le hl.le hy, sub_self, abs_zero]; positivity
      · push Not at hy
        have hf := logexpF_le h.le hl.le
        have he : 0 < 1 + exp x := by positivity
        unfold logexpGrad
        rw [if_pos hy, ← mul_sub, abs_mul]
        refine mul_le_mul_of_nonneg_left ?_ (abs_nonneg _)
        rw [hf] at hy
        have h1 : exp lim < 1 + exp x := by rw [← lt_log_iff_exp_lt he]; exact hy
        have h2 : 1 - exp x / (1 + exp x) = (1 + exp x)⁻¹ := by field_simp; ring
        rw [h2, abs_of_pos (by positivity)]
        rw [inv_le_comm₀ he (by norm_num)]
        have := exp_36_gt; unfold lim at h1; norm_num at this h1 ⊢; linarith
    · intro hs
      refine logexpGrad_exact h.le hl.le ?_ df
      by_contra hc
      exact hs ⟨h.le, not_le.mp hc⟩
  · refine ⟨1, logexp_deriv_gt h, ?_, ?_⟩ <;>
      simp only [logexpGrad, logexpF_gt h, if_pos h, mul_one, sub_self, abs_zero]
    · positivity
    · intro _; trivial

/-- C18 (partial). At every optimiser value with no limit hit nearby, `gradfactor` is the model gradient
times the derivative of `f` (up to 2.4e-16 relative to the model gradient in the gap of `Logexp` at 36,
and not at the step at 36 itself, where `f` has no derivative). Missing: `NegativeExponent`
(`negExponent_gradfactor_fails`), `Square` at negative values (`square_gradfactor_fails`). -/
theorem gradfactor_chain_rule_partial (t : Tr) (ht : t.Valid) (hne : t ≠ .negExponent) (x df : ℝ)
    (hsq : t = .square → 0 ≤ x) (hlim : ∀ᶠ z in 𝓝 x, InLimits t z)
    (hstep : t = .logexp ∨ t = .negLogexp → x ≠ lim) :
    ∃ d, HasDerivAt t.f d x ∧ ∃ g, t.gradfactor (t.f x) df = some g ∧
      |g - df * d| ≤ |df| * 2.4e-16 ∧ (¬ AtSwitch t x → g = df * d) := by
  have exact' : ∀ {o : Option ℝ} {d : ℝ}, HasDerivAt t.f d x → o = some (df * d) →
      ∃ d, HasDerivAt t.f d x ∧ ∃ g, o = some g ∧ |g - df * d| ≤ |df| * 2.4e-16 ∧
      (¬ AtSwitch t x → g = df * d) :=
    fun {o d} hd h => ⟨d, hd, _, h, by rw [sub_self, abs_zero]; positivity, fun _ => rfl⟩
  cases t with
  | logexp =>
    obtain ⟨d, h1, h2, h3⟩ := logexp_chain (inLimits_ge hlim) (hstep (Or.inl rfl)) df
    exact ⟨d, h1, _, rfl, h2, h3⟩
  | exponent =>
    obtain ⟨h1, h2⟩ := inLimits_exponent hlim
    refine exact' (exponent_deriv h1 h2) ?_
    simp only [Tr.gradfactor, Tr.f, exponentGrad, exponentF_in h1.le h2.le]
  | negLogexp =>
    obtain ⟨d, h1, h2, h3⟩ := logexp_chain (inLimits_ge hlim) (hstep (Or.inr rfl)) (-df)
    refine ⟨-d, h1.neg, _, rfl, ?_, ?_⟩
    · simp only [Tr.f, neg_neg]
      rw [abs_neg] at h2
      rwa [show df * -d = -df * d by ring]
    · intro hs
      simp only [Tr.f, neg_neg]
      rw [h3 (fun hc => hs ⟨hc.1, by simpa only [Tr.f, neg_neg] using hc.2⟩)]; ring
  | negExponent => exact absurd rfl hne
  | square =>
    refine exact' (square_deriv x) ?_
    simp only [Tr.gradfactor, Tr.f]
    rw [npSqrt_sq, abs_of_nonneg (hsq rfl)]
    rfl
  | logistic l u =>
    have h := inLimits_ge hlim
    refine exact' (logistic_deriv h) ?_
    simp only [Tr.gradfactor, Tr.f]
    rw [logisticGrad_exact ht h.le]

/-- The hypotheses hold for instance for `Logistic(0, 1)` at 2 and `Exponent` at -1. -/
example : (∀ᶠ z in 𝓝 (2 : ℝ), InLimits (.logistic 0 1) z) ∧ ∀ᶠ z in 𝓝 (-1 : ℝ), InLimits .exponent z := by
  constructor
  · filter_upwards [lt_mem_nhds (show (-300 : ℝ) < 2 by norm_num)] with z hz using hz.le
  · filter_upwards [lt_mem_nhds (show -lim < (-1 : ℝ) by norm_num [lim]),
      gt_mem_nhds (show (-1 : ℝ) < lim by norm_num [lim])] with z h1 h2 using ⟨h1.le, h2.le⟩

/-- C18 fails for `NegativeExponent`: the sign is wrong for every optimiser value and gradient. -/
theorem negExponent_gradfactor_fails (x df : ℝ) (hlim : ∀ᶠ z in 𝓝 x, InLimits .negExponent z) :
    ∃ d, HasDerivAt Tr.negExponent.f d x ∧ d ≠ 0 ∧
      Tr.negExponent.gradfactor (Tr.negExponent.f x) df = some (-(df * d)) := by
  obtain ⟨h1, h2⟩ := inLimits_exponent hlim
  refine ⟨_, (exponent_deriv h1 h2).neg, (neg_lt_zero.mpr (exp_pos x)).ne, ?_⟩
  simp only [Tr.gradfactor, Tr.f, exponentGrad, exponentF_in h1.le h2.le]

/-- C18 fails for `Square`: the sign is wrong for every negative optimiser value. -/
theorem square_gradfactor_fails (x df : ℝ) (hx : x < 0) :
    ∃ d, HasDerivAt Tr.square.f d x ∧ d ≠ 0 ∧
      Tr.square.gradfactor (Tr.square.f x) df = some (-(df * d)) := by
  refine ⟨2 * x, square_deriv x, by linarith, ?_⟩
  simp only [Tr.gradfactor, Tr.f]
  rw [npSqrt_sq, abs_of_neg hx]
  simp only [Option.map_some, Option.some.injEq]
  ring

/-! ## C19 -/

/-- C19: `initialize` lands in the closed domain, keeps valid values, and is idempotent. -/
theorem initialize_sound (t : Tr) (ht : t.Valid) (v : ℝ) :
    t.init v ∈ ClosedDom t ∧ (v ∈ ClosedDom t → t.init v = v) ∧ t.init (t.init v) = t.init v := by
  have key : t.init v ∈ ClosedDom t ∧ ∀ v, v ∈ ClosedDom t → t.init v = v := by
    cases t with
    | logexp => exact ⟨abs_nonneg v, fun v h => abs_of_nonneg h⟩
    | exponent => exact ⟨abs_nonneg v, fun v h => abs_of_nonneg h⟩
    | negLogexp =>
      refine ⟨show -|(-v)| ≤ 0 from neg_nonpos.mpr (abs_nonneg _), fun v h => ?_⟩
      simp only [Tr.init, logexpInit]
      rw [abs_neg, abs_of_nonpos h, neg_neg]
    | negExponent =>
      refine ⟨show -|v| ≤ 0 from neg_nonpos.mpr (abs_nonneg _), fun v h => ?_⟩
      simp only [Tr.init, exponentInit]
      rw [abs_of_nonpos h, neg_neg]
    | square => exact ⟨abs_nonneg v, fun v h => abs_of_nonneg h⟩
    | logistic l u =>
      constructor
      · simp only [Tr.init, logisticInit]
        split
        · obtain ⟨h1, h2⟩ := logisticF_mem ht 0; exact ⟨h1.le, h2.le⟩
        · rename_i h; push Not at h; exact h
      · intro v h
        simp only [Tr.init, logisticInit]
        rw [if_neg]; push Not; exact h
  exact ⟨key.1, key.2 v, key.2 _ key.1⟩

/-- An out-of-range value is moved to the middle of the bounds. -/
theorem initialize_logistic_middle (l u v : ℝ) (h : v < l ∨ v > u) :
    (Tr.logistic l u).init v = (l + u) / 2 := by
  simp only [Tr.init, logisticInit]
  rw [if_pos h, logisticF_in (by norm_num)]
  simp; ring

example : (Tr.logistic 2 4).init 7 = 3 := by
  rw [initialize_logistic_middle _ _ _ (by norm_num)]; norm_num

/-- The closed domain is too large for `Logexp` and `Exponent`: zero is kept, but has no finite
optimiser value. -/
theorem initialize_zero_fails :
    Tr.logexp.init 0 = 0 ∧ Tr.logexp.finv 0 = none ∧ Tr.exponent.init 0 = 0 ∧ Tr.exponent.finv 0 = none := by
  refine ⟨abs_zero, ?_, abs_zero, ?_⟩
  · simp [Tr.finv, logexpFinv, lim, npLog, expm1]
  · simp [Tr.finv, exponentFinv, npLog]

/-! ## C20 -/

/-- C20: for `Logexp` and `Exponent`, `log_jacobian` at the image of an optimiser value is the logarithm
of the derivative of `f` there (up to 2.4e-16 in the gap at 36). -/
theorem log_jacobian_exact (t : Tr) (ht : t = .logexp ∨ t = .exponent) (x : ℝ)
    (hlim : ∀ᶠ z in 𝓝 x, InLimits t z) (hstep : t = .logexp → x ≠ lim) :
    ∃ d j, HasDerivAt t.f d x ∧ 0 < d ∧ t.logJacobian (t.f x) = some j ∧
      |j - log d| ≤ 2.4e-16 ∧ (¬ AtSwitch t x → j = log d) := by
  rcases ht with rfl | rfl
  · have hl : -logLim < x := inLimits_ge hlim
    rcases lt_or_gt_of_ne (hstep rfl) with h | h
    · have he : 0 < 1 + exp x := by positivity
      have hf := logexpF_le h.le hl.le
      by_cases hy : logexpF x ≤ lim
      · refine ⟨_, log (exp x / (1 + exp x)), logexp_deriv_lt h hl, by positivity, ?_, by norm_num,
          fun _ => rfl⟩
        show logexpLogJac (logexpF x) = _
        unfold logexpLogJac
        rw [if_neg (not_lt.mpr hy), hf]
        unfold expm1
        rw [exp_log he, add_sub_cancel_left, npLog_pos (exp_pos _), log_div (exp_pos x).ne' he.ne']
        rfl
      · push Not at hy
        refine ⟨_, 0, logexp_deriv_lt h hl, by positivity, ?_, ?_, ?_⟩
        · show logexpLogJac (logexpF x) = _
          unfold logexpLogJac
          rw [if_pos hy, sub_self]
        · rw [hf] at hy
          have h1 : exp lim < 1 + exp x := by rw [← lt_log_iff_exp_lt he]; exact hy
          have h2 : 0 - log (exp x / (1 + exp x)) = log (1 + (exp x)⁻¹) := by
            rw [zero_sub, ← log_inv]; congr 1; field_simp; ring
          rw [h2, abs_of_nonneg (log_nonneg (by linarith [inv_pos.mpr (exp_pos x)]))]
          have h3 : log (1 + (exp x)⁻¹) ≤ (exp x)⁻¹ := by
            have := log_le_sub_one_of_pos (show 0 < 1 + (exp x)⁻¹ by positivity)
            linarith
          have h5 : (4.19e15 : ℝ) < exp x := by
            have := exp_36_gt; unfold lim at h1; norm_num at this h1 ⊢; linarith
          have h6 : (exp x)⁻¹ ≤ 2.4e-16 := by
            rw [inv_le_comm₀ (exp_pos _) (by norm_num)]
            refine le_trans ?_ h5.le; norm_num
          linarith
        · intro hs; exact absurd ⟨h.le, hy⟩ hs
    · refine ⟨1, 0, logexp_deriv_gt h, one_pos, ?_, by norm_num, fun _ => by rw [log_one]⟩
      simp only [Tr.logJacobian, Tr.f, logexpLogJac, logexpF_gt h, if_pos h, sub_self]
  · obtain ⟨h1, h2⟩ := inLimits_exponent hlim
    refine ⟨_, log (exp x), exponent_deriv h1 h2, exp_pos x, ?_, by norm_num, fun _ => rfl⟩
    simp only [Tr.logJacobian, Tr.f, exponentLogJac, exponentF_in h1.le h2.le]
    exact npLog_pos (exp_pos x)

/-- C20: for `Logexp` and `Exponent`, `log_jacobian_grad` is the derivative of `log_jacobian` with respect
to the model value (up to 2.4e-16 above the switch point). -/
theorem log_jacobian_grad_exact (t : Tr) (ht : t = .logexp ∨ t = .exponent) (y : ℝ) (hy : y ∈ Dom t)
    (hstep : t = .logexp → y ≠ lim) :
    ∃ g g', t.logJacobianGrad y = some g ∧ HasDerivAt (fun z => (t.logJacobian z).getD 0) g' y ∧
      |g - g'| ≤ 2.4e-16 ∧ (y < lim → g = g') := by
  rcases ht with rfl | rfl
  · have hy : 0 < y := hy
    have hp := expm1_pos hy
    rcases lt_or_gt_of_ne (hstep rfl) with h | h
    · refine ⟨1 / expm1 y, 1 / expm1 y, ?_, ?_, by norm_num, fun _ => rfl⟩
      · simp only [Tr.logJacobianGrad, logexpLogJacGrad, npDiv]; rw [if_neg hp.ne']
      · have h1 : HasDerivAt (fun z => log (exp z - 1) - z) (exp y / (exp y - 1) - 1) y :=
          (((hasDerivAt_exp y).sub_const 1).log hp.ne').sub (hasDerivAt_id y)
        have e : exp y / (exp y - 1) - 1 = 1 / expm1 y := by
          have : exp y - 1 ≠ 0 := hp.ne'
          unfold expm1; field_simp; ring
        rw [e] at h1
        refine h1.congr_of_eventuallyEq ?_
        filter_upwards [lt_mem_nhds hy, gt_mem_nhds h] with z h1 h2
        simp only [Tr.logJacobian, logexpLogJac]
        rw [if_neg (not_lt.mpr h2.le), npLog_pos (expm1_pos h1)]; rfl
    · refine ⟨1 / expm1 y, 0, ?_, ?_, ?_, fun h' => absurd h' (not_lt.mpr h.le)⟩
      · simp only [Tr.logJacobianGrad, logexpLogJacGrad, npDiv]; rw [if_neg hp.ne']
      · refine (hasDerivAt_const y 0).congr_of_eventuallyEq ?_
        filter_upwards [lt_mem_nhds h] with z hz
        simp only [Tr.logJacobian, logexpLogJac]
        rw [if_pos hz, sub_self]; rfl
      · rw [sub_zero, abs_of_pos (by positivity), one_div, inv_le_comm₀ hp (by norm_num)]
        have h1 : exp lim < exp y := exp_lt_exp.mpr h
        have := exp_36_gt; unfold expm1; unfold lim at h1; norm_num at this ⊢; linarith
  · have hy : 0 < y := hy
    refine ⟨1 / y, 1 / y, ?_, ?_, by norm_num, fun _ => rfl⟩
    · simp only [Tr.logJacobianGrad, exponentLogJacGrad, npDiv]; rw [if_neg hy.ne']
    · rw [one_div]
      refine (hasDerivAt_log hy.ne').congr_of_eventuallyEq ?_
      filter_upwards [lt_mem_nhds hy] with z hz
      simp only [Tr.logJacobian, exponentLogJac, npLog_pos hz]; rfl

/-- `NegativeExponent` inherits `log_jacobian` from `Exponent`: it is never a finite number. -/
theorem negExponent_log_jacobian_fails (y : ℝ) (hy : y ∈ Dom .negExponent) :
    Tr.negExponent.logJacobian y = none := by
  have hy : y < 0 := hy
  simp only [Tr.logJacobian, exponentLogJac, npLog]
  rw [if_neg (not_lt.mpr hy.le)]

end Paramz.Transform

import Verif.Transform.Spec

noncomputable section

namespace Paramz.Transform

open Real

theorem maxFloat_ge : (2 : ℝ) ^ 1023 ≤ maxFloat := by
  unfold maxFloat
  have h : (0 : ℝ) ≤ 2 ^ 1023 := by positivity
  exact le_mul_of_one_le_left h (by norm_num)

theorem maxFloat_pos : 0 < maxFloat := lt_of_lt_of_le (by positivity) maxFloat_ge

theorem exp_neg_logLim : exp (-logLim) = maxFloat⁻¹ := by
  rw [exp_neg, logLim, exp_log maxFloat_pos]

/-- `exp 36` is well below the largest float, so `36 < logLim`. -/
theorem lim_lt_logLim : lim < logLim := by
  unfold lim logLim
  rw [lt_log_iff_exp_lt maxFloat_pos]
  have h1 : exp 36 = (exp 1) ^ 36 := by rw [← exp_nat_mul]; norm_num
  rw [h1]
  have h2 : exp 1 < 4 := lt_trans exp_one_lt_d9 (by norm_num)
  calc (exp 1) ^ 36 < 4 ^ 36 := pow_lt_pow_left₀ h2 (exp_pos 1).le (by norm_num)
    _ = (2 : ℝ) ^ 72 := by norm_num
    _ ≤ 2 ^ 1023 := pow_le_pow_right₀ (by norm_num) (by norm_num)
    _ ≤ maxFloat := maxFloat_ge

theorem exp_36_gt : (4.2e15 : ℝ) < exp 36 := by
  have h1 : exp 36 = (exp 1) ^ 36 := by rw [← exp_nat_mul]; norm_num
  rw [h1]
  calc (4.2e15 : ℝ) < (2.7182818283 : ℝ) ^ 36 := by norm_num
    _ < (exp 1) ^ 36 := pow_lt_pow_left₀ exp_one_gt_d9 (by norm_num) (by norm_num)

theorem clip_mem {x a b : ℝ} (h1 : a ≤ x) (h2 : x ≤ b) : clip x a b = x := by
  unfold clip; rw [max_eq_left h1, min_eq_left h2]

theorem logexpF_gt {x : ℝ} (h : lim < x) : logexpF x = x := by
  unfold logexpF; rw [if_pos h]

theorem logexpF_le {x : ℝ} (h : x ≤ lim) (hl : -logLim ≤ x) : logexpF x = log (1 + exp x) := by
  unfold logexpF log1p; rw [if_neg (not_lt.mpr h), clip_mem hl h]

theorem logexpF_low {x : ℝ} (h : x < -logLim) : logexpF x = log (1 + exp (-logLim)) := by
  have := lim_lt_logLim
  have h0 : (0 : ℝ) < lim := by norm_num [lim]
  unfold logexpF log1p clip
  rw [if_neg (by linarith), max_eq_right h.le, min_eq_left (by linarith)]

theorem logexpF_pos (x : ℝ) : 0 < logexpF x := by
  unfold logexpF log1p
  split
  · rename_i h; exact lt_trans (by norm_num [lim]) h
  · exact log_pos (by linarith [exp_pos (clip x (-logLim) lim)])

theorem expm1_pos {y : ℝ} (h : 0 < y) : 0 < expm1 y := by
  unfold expm1; linarith [add_one_le_exp y]

theorem npLog_pos {y : ℝ} (h : 0 < y) : npLog y = some (log y) := if_pos h

theorem npSqrt_sq (x : ℝ) : npSqrt (x ^ 2) = some |x| := by
  unfold npSqrt; rw [if_pos (sq_nonneg x), sqrt_sq_eq_abs]

theorem square_deriv (x : ℝ) : HasDerivAt Tr.square.f (2 * x) x := by
  have hd : HasDerivAt (fun z : ℝ => z ^ 2) (2 * x) x := by simpa using hasDerivAt_pow 2 x
  exact hd

theorem exponentF_pos (x : ℝ) : 0 < exponentF x := by
  unfold exponentF; split
  · split <;> exact exp_pos _
  · exact exp_pos _

theorem exponentF_in {x : ℝ} (h1 : -lim ≤ x) (h2 : x ≤ lim) : exponentF x = exp x := by
  unfold exponentF
  split
  · split
    · rfl
    · rw [le_antisymm (not_lt.mp ‹_›) h1]
  · rw [le_antisymm h2 (not_lt.mp ‹_›)]

theorem logisticF_in {l u x : ℝ} (h : -300 ≤ x) :
    logisticF l u x = l + (u - l) / (1 + exp (-x)) := by
  unfold logisticF; simp only; rw [if_neg (not_lt.mpr h)]

theorem logisticF_mem {l u : ℝ} (h : l < u) (x : ℝ) : l < logisticF l u x ∧ logisticF l u x < u := by
  unfold logisticF
  simp only
  generalize (if x < -300 then (-300 : ℝ) else x) = z
  have h1 : 0 < exp (-z) := exp_pos _
  have h2 : 0 < u - l := by linarith
  constructor
  · have : 0 < (u - l) / (1 + exp (-z)) := by positivity
    linarith
  · have : (u - l) / (1 + exp (-z)) < u - l := by
      rw [div_lt_iff₀ (by positivity)]; nlinarith
    linarith

theorem logexp_f_finv {y : ℝ} (h : maxFloat⁻¹ ≤ y) :
    ∃ x, logexpFinv y = some x ∧ logexpF x = y := by
  have h0 : 0 < y := lt_of_lt_of_le (inv_pos.mpr maxFloat_pos) h
  unfold logexpFinv
  split
  · rename_i hy; exact ⟨y, rfl, logexpF_gt hy⟩
  · rename_i hy
    have hp := expm1_pos h0
    refine ⟨log (expm1 y), npLog_pos hp, ?_⟩
    rw [logexpF_le]
    · rw [exp_log hp]; unfold expm1; rw [add_sub_cancel, log_exp]
    · rw [log_le_iff_le_exp hp]
      have : exp y ≤ exp lim := exp_le_exp.mpr (not_lt.mp hy)
      unfold expm1; linarith
    · rw [le_log_iff_exp_le hp, exp_neg_logLim]
      unfold expm1; linarith [add_one_le_exp y]

/-- Below the smallest invertible value the error of a round trip is below `1 / maxFloat`. -/
theorem logexp_f_finv_low {y : ℝ} (h0 : 0 < y) (h : y < maxFloat⁻¹) :
    ∃ x, logexpFinv y = some x ∧ |logexpF x - y| < maxFloat⁻¹ := by
  have hm : maxFloat⁻¹ ≤ 1 := inv_le_one_of_one_le₀ (le_trans (one_le_pow₀ (by norm_num)) maxFloat_ge)
  have hy : y ≤ lim := by unfold lim; linarith
  have hp := expm1_pos h0
  refine ⟨log (expm1 y), by unfold logexpFinv; rw [if_neg (not_lt.mpr hy)]; exact npLog_pos hp, ?_⟩
  have hmp : 0 < maxFloat⁻¹ := inv_pos.mpr maxFloat_pos
  by_cases hl : -logLim ≤ log (expm1 y)
  · rw [logexpF_le _ hl]
    · rw [exp_log hp]; unfold expm1; rw [add_sub_cancel, log_exp]; simpa using maxFloat_pos
    · rw [log_le_iff_le_exp hp]
      have : exp y ≤ exp lim := exp_le_exp.mpr hy
      unfold expm1; linarith
  · rw [logexpF_low (not_le.mp hl), exp_neg_logLim]
    have h1 : log (1 + maxFloat⁻¹) ≤ maxFloat⁻¹ := by
      have := log_le_sub_one_of_pos (show 0 < 1 + maxFloat⁻¹ by positivity)
      linarith
    have h2 : y < log (1 + maxFloat⁻¹) := by
      rw [lt_log_iff_exp_lt (by positivity)]
      have := not_le.mp hl
      rw [log_lt_iff_lt_exp hp, exp_neg_logLim] at this
      unfold expm1 at this; linarith
    rw [abs_lt]; constructor <;> linarith

theorem logexp_finv_f {x : ℝ} (h : -logLim ≤ x) :
    ∃ z, logexpFinv (logexpF x) = some z ∧ |z - x| < 2.4e-16 ∧
      (lim < x ∨ logexpF x ≤ lim → z = x) := by
  by_cases hx : lim < x
  · refine ⟨x, ?_, by norm_num, fun _ => rfl⟩
    rw [logexpF_gt hx]; unfold logexpFinv; rw [if_pos hx]
  · push Not at hx
    have hf := logexpF_le hx h
    have he : 0 < 1 + exp x := by positivity
    by_cases hy : logexpF x ≤ lim
    · refine ⟨x, ?_, by norm_num, fun _ => rfl⟩
      unfold logexpFinv
      rw [if_neg (not_lt.mpr hy), hf]
      unfold expm1
      rw [exp_log he, add_sub_cancel_left, npLog_pos (exp_pos _), log_exp]
    · push Not at hy
      refine ⟨logexpF x, by unfold logexpFinv; rw [if_pos hy], ?_, ?_⟩
      · rw [hf] at hy ⊢
        have h1 : exp lim < 1 + exp x := by
          rw [← lt_log_iff_exp_lt he]; exact hy
        have h2 : log (1 + exp x) - x = log (1 + exp (-x)) := by
          have : 1 + exp x = exp x * (1 + exp (-x)) := by
            rw [mul_add, mul_one, ← exp_add, add_neg_cancel, exp_zero]; ring
          rw [this, log_mul (exp_pos _).ne' (by positivity), log_exp]; ring
        rw [h2]
        have h3 : 0 ≤ log (1 + exp (-x)) := log_nonneg (by linarith [exp_pos (-x)])
        rw [abs_of_nonneg h3]
        have h4 : log (1 + exp (-x)) ≤ exp (-x) := by
          have := log_le_sub_one_of_pos (show 0 < 1 + exp (-x) by positivity)
          linarith
        have h5 : (4.19e15 : ℝ) < exp x := by
          have := exp_36_gt; unfold lim at h1; norm_num at this h1 ⊢; linarith
        have h6 : exp (-x) < 2.4e-16 := by
          rw [exp_neg]
          rw [inv_lt_comm₀ (exp_pos _) (by norm_num)]
          refine lt_trans ?_ h5; norm_num
        linarith
      · rintro (h1 | h1)
        · exact absurd h1 (not_lt.mpr hx)
        · exact absurd hy (not_lt.mpr h1)

theorem logexp_deriv_gt {x : ℝ} (h : lim < x) : HasDerivAt logexpF 1 x := by
  refine (hasDerivAt_id x).congr_of_eventuallyEq ?_
  filter_upwards [lt_mem_nhds h] with z hz
  exact logexpF_gt hz

theorem logexp_deriv_lt {x : ℝ} (h : x < lim) (hl : -logLim < x) :
    HasDerivAt logexpF (exp x / (1 + exp x)) x := by
  have h1 : HasDerivAt (fun z => log (1 + exp z)) (exp x / (1 + exp x)) x :=
    ((hasDerivAt_exp x).const_add 1).log (by positivity)
  refine h1.congr_of_eventuallyEq ?_
  filter_upwards [lt_mem_nhds hl, gt_mem_nhds h] with z h1 h2
  exact logexpF_le h2.le h1.le

theorem logexpGrad_exact {x : ℝ} (h : x ≤ lim) (hl : -logLim ≤ x) (hy : logexpF x ≤ lim) (df : ℝ) :
    logexpGrad (logexpF x) df = df * (exp x / (1 + exp x)) := by
  have he : 0 < 1 + exp x := by positivity
  unfold logexpGrad
  rw [if_neg (not_lt.mpr hy), logexpF_le h hl]
  unfold expm1
  rw [exp_neg, exp_log he]
  field_simp
  ring

theorem exponent_deriv {x : ℝ} (h1 : -lim < x) (h2 : x < lim) : HasDerivAt exponentF (exp x) x := by
  refine (hasDerivAt_exp x).congr_of_eventuallyEq ?_
  filter_upwards [lt_mem_nhds h1, gt_mem_nhds h2] with z h1 h2
  exact exponentF_in h1.le h2.le

theorem logistic_deriv {l u x : ℝ} (h : -300 < x) :
    HasDerivAt (logisticF l u) ((u - l) * exp (-x) / (1 + exp (-x)) ^ 2) x := by
  have he : 1 + exp (-x) ≠ 0 := by positivity
  have h0 : HasDerivAt (fun z => exp (-z)) (-exp (-x)) x := by
    simpa using (hasDerivAt_neg x).exp
  have h1 : HasDerivAt (fun z => 1 + exp (-z)) (-exp (-x)) x := h0.const_add 1
  have h2 := ((hasDerivAt_const x (u - l)).div h1 he).const_add l
  have h3 : HasDerivAt (fun z => l + (u - l) / (1 + exp (-z)))
      ((u - l) * exp (-x) / (1 + exp (-x)) ^ 2) x := by
    have e : (u - l) * exp (-x) / (1 + exp (-x)) ^ 2 =
        (0 * (1 + exp (-x)) - (u - l) * -exp (-x)) / (1 + exp (-x)) ^ 2 := by ring
    rw [e]; exact h2
  refine h3.congr_of_eventuallyEq ?_
  filter_upwards [lt_mem_nhds h] with z hz
  exact logisticF_in hz.le

theorem logisticGrad_exact {l u x : ℝ} (h : l < u) (hx : -300 ≤ x) (df : ℝ) :
    logisticGrad l u (logisticF l u x) df = df * ((u - l) * exp (-x) / (1 + exp (-x)) ^ 2) := by
  have he : 0 < 1 + exp (-x) := by positivity
  have hd : u - l ≠ 0 := by linarith
  unfold logisticGrad
  rw [logisticF_in hx]
  field_simp
  ring

theorem logistic_f_finv {l u y : ℝ} (h1 : 1e-10 ≤ y - l) (h2 : 1e-10 ≤ u - y)
    (h3 : exp (-300) * (u - y) ≤ y - l) :
    ∃ x, logisticFinv l u y = some x ∧ logisticF l u x = y := by
  have p1 : 0 < y - l := lt_of_lt_of_le (by norm_num) h1
  have p2 : 0 < u - y := lt_of_lt_of_le (by norm_num) h2
  unfold logisticFinv clipBelow
  rw [max_eq_left h1, max_eq_left h2]
  have hq : 0 < (y - l) / (u - y) := by positivity
  refine ⟨_, npLog_pos hq, ?_⟩
  rw [logisticF_in, exp_neg, exp_log hq]
  · have : u - l ≠ 0 := by linarith
    field_simp
    ring
  · rw [le_log_iff_exp_le hq, le_div_iff₀ p2]; exact h3

theorem logistic_finv_f {l u x : ℝ} (h : l < u) (hx : -300 ≤ x)
    (h1 : 1e-10 ≤ logisticF l u x - l) (h2 : 1e-10 ≤ u - logisticF l u x) :
    logisticFinv l u (logisticF l u x) = some x := by
  have he : 0 < 1 + exp (-x) := by positivity
  have hd : u - l ≠ 0 := by linarith
  unfold logisticFinv clipBelow
  rw [max_eq_left h1, max_eq_left h2]
  have hq : (logisticF l u x - l) / (u - logisticF l u x) = exp x := by
    have hu : u - logisticF l u x ≠ 0 := by
      intro h0; rw [h0] at h2; norm_num at h2
    rw [div_eq_iff hu, logisticF_in hx, exp_neg]
    have := exp_pos x
    field_simp
    ring
  rw [hq, npLog_pos (exp_pos _), log_exp]

end Paramz.Transform

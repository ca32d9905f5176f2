import Verif.Opt.CheckGrad

/-!
# What `checkgrad` finds out (C58)
-/

set_option linter.unusedSectionVars false

namespace Paramz.Opt

open IndexOps (Arr)
open Hier (Heap Con Id)
open Hier.Heap (Target)
open Set

/-! ### Symmetric difference quotients -/

/-- A function that vanishes at zero and whose derivative is at most `K t ^ n`. -/
theorem growth {u u' : ℝ → ℝ} {h K : ℝ} (n : ℕ) (h0 : u 0 = 0)
    (hu : ∀ t ∈ Icc 0 h, HasDerivAt u (u' t) t) (hb : ∀ t ∈ Icc 0 h, |u' t| ≤ K * t ^ n) :
    ∀ t ∈ Icc 0 h, |u t| ≤ K / (n + 1) * t ^ (n + 1) := by
  intro t ht
  have hB : ∀ x : ℝ, HasDerivAt (fun x => K / (n + 1) * x ^ (n + 1)) (K * x ^ n) x := by
    intro x
    have := (hasDerivAt_pow (n + 1) x).const_mul (K / (n + 1))
    have hn : (n + 1 : ℝ) ≠ 0 := by positivity
    refine this.congr_deriv ?_
    rw [Nat.add_sub_cancel]
    push_cast
    rw [← mul_assoc, div_mul_cancel₀ _ hn]
  exact image_norm_le_of_norm_deriv_right_le_deriv_boundary
    (fun x hx => (hu x hx).continuousAt.continuousWithinAt)
    (fun x hx => (hu x (Ico_subset_Icc_self hx)).hasDerivWithinAt)
    (by simp [h0]) hB (fun x hx => hb x (Ico_subset_Icc_self hx)) ht

/-- `φ` is three times differentiable within `h` of `x`, its third derivative is at most `M` there and
its derivative at `x` is `d`. -/
def Smooth (φ : ℝ → ℝ) (x h M d : ℝ) : Prop :=
  ∃ φ1 φ2 φ3 : ℝ → ℝ, φ1 x = d ∧ ∀ z ∈ Icc (x - h) (x + h),
    HasDerivAt φ (φ1 z) z ∧ HasDerivAt φ1 (φ2 z) z ∧ HasDerivAt φ2 (φ3 z) z ∧ |φ3 z| ≤ M

/-- The error of the symmetric difference quotient. -/
theorem quotient_error {φ : ℝ → ℝ} {x h M d : ℝ} (hh : 0 < h) (hs : Smooth φ x h M d) :
    |(φ (x + h) - φ (x - h)) / (2 * h) - d| ≤ M * h ^ 2 / 6 := by
  obtain ⟨φ1, φ2, φ3, hd, hz⟩ := hs
  have hp : ∀ t ∈ Icc 0 h, x + t ∈ Icc (x - h) (x + h) := fun t ht => ⟨by linarith [ht.1], by linarith [ht.2]⟩
  have hm : ∀ t ∈ Icc 0 h, x - t ∈ Icc (x - h) (x + h) := fun t ht => ⟨by linarith [ht.2], by linarith [ht.1]⟩
  have plus : ∀ {f f' : ℝ → ℝ} {t : ℝ}, HasDerivAt f (f' (x + t)) (x + t) →
      HasDerivAt (fun t => f (x + t)) (f' (x + t)) t := fun hf => by
    simpa using hf.comp_const_add x _
  have minus : ∀ {f f' : ℝ → ℝ} {t : ℝ}, HasDerivAt f (f' (x - t)) (x - t) →
      HasDerivAt (fun t => f (x - t)) (- f' (x - t)) t := fun hf => by
    simpa using hf.comp_const_sub x _
  have s1 := growth (u := fun t => φ2 (x + t) - φ2 (x - t)) (u' := fun t => φ3 (x + t) + φ3 (x - t))
    (h := h) (K := 2 * M) 0 (by simp)
    (fun t ht => by
      exact ((plus (hz _ (hp t ht)).2.2.1).sub (minus (hz _ (hm t ht)).2.2.1)).congr_deriv (by ring))
    (fun t ht => by
      have h1 := (hz _ (hp t ht)).2.2.2
      have h2 := (hz _ (hm t ht)).2.2.2
      have := abs_add_le (φ3 (x + t)) (φ3 (x - t))
      simp only [pow_zero, mul_one]
      linarith)
  have s2 := growth (u := fun t => φ1 (x + t) + φ1 (x - t) - 2 * φ1 x)
    (u' := fun t => φ2 (x + t) - φ2 (x - t)) (h := h) (K := 2 * M) 1 (by simp; ring)
    (fun t ht => by
      exact (((plus (hz _ (hp t ht)).2.1).add (minus (hz _ (hm t ht)).2.1)).sub_const
        (2 * φ1 x)).congr_deriv (by ring))
    (fun t ht => by have := s1 t ht; simpa using this)
  have s3 := growth (u := fun t => φ (x + t) - φ (x - t) - 2 * φ1 x * t)
    (u' := fun t => φ1 (x + t) + φ1 (x - t) - 2 * φ1 x) (h := h) (K := M) 2 (by simp)
    (fun t ht => by
      exact (((plus (hz _ (hp t ht)).1).sub (minus (hz _ (hm t ht)).1)).sub
        ((hasDerivAt_id t).const_mul (2 * φ1 x))).congr_deriv (by ring))
    (fun t ht => by
      have := s2 t ht
      norm_num at this
      convert this using 1)
  have := s3 h ⟨hh.le, le_refl _⟩
  rw [show (φ (x + h) - φ (x - h)) / (2 * h) - d = (φ (x + h) - φ (x - h) - 2 * φ1 x * h) / (2 * h) by
    rw [hd]; field_simp, abs_div, abs_of_pos (show (0 : ℝ) < 2 * h by linarith), div_le_iff₀ (by linarith)]
  calc _ ≤ _ := this
    _ = _ := by push_cast; ring

/-! ### The individual check -/

variable {T : Type} [DecidableEq T]

section

variable (o : Ops (Option ℝ) T) (g : List (Option ℝ) → List (Option ℝ)) (F : List (Option ℝ) → ℝ)
  (step tol : ℝ)

/-- The objective as a function of the `k`-th entry of the vector `p`. -/
def line (s : State (Option ℝ) T) (p : List (Option ℝ)) (k : Nat) (z : ℝ) : ℝ :=
  (s.objective o g F (p.set k (some z))).2

theorem bump_eq {x : List (Option ℝ)} {k : Nat} {v : ℝ} (h : x[k]? = some (some v)) (d : ℝ) :
    bump x k d = x.set k (some (v + d)) := by
  apply List.ext_getElem?
  intro j
  simp only [bump, List.getElem?_modify]
  by_cases hj : k = j
  · subst hj
    rw [List.getElem?_set_self (List.getElem?_eq_some_iff.mp h).1, h]
    simp
  · rw [List.getElem?_set_ne hj]
    simp [hj]

/-- C58: the individual check accepts right gradients. If the objective is smooth enough around the
current vector for the step and the tolerance, and the gradient given is the derivative, it answers
yes. -/
theorem verbose_accepts {s : State (Option ℝ) T} (r : Ready s) (hc : Coherent o s) (hs : 0 < step)
    (ht : 0 < tol) (ht1 : tol ≤ 1) (junk : List (Option ℝ)) (y : Target)
    (h : ∀ k ∈ (s.readOpt o junk).1.raveledForTransformed y, ∃ x d M,
      (s.readOpt o junk).2[k]? = some (some x) ∧
      (s.grads o g (s.readOpt o junk).2).2[k]? = some (some d) ∧
      Smooth (line o g F s (s.readOpt o junk).2 k) x step M d ∧ M * step ^ 2 / 6 < tol) :
    (s.checkVerbose o g (fun v => some (F v)) step tol junk y).2 = true := by
  refine (verbose_answer o g _ step tol r hc hs.ne' ht ht1 junk y).mpr (fun k hk => ?_)
  obtain ⟨x, d, M, hx, hd, hsm, hM⟩ := h k hk
  refine ⟨line o g F s (s.readOpt o junk).2 k (x + step), line o g F s (s.readOpt o junk).2 k (x - step),
    d, ?_, ?_, hd, ?_⟩
  · rw [bump_eq hx]; rfl
  · rw [bump_eq hx, ← sub_eq_add_neg]; rfl
  · refine lt_of_le_of_lt (quotient_error hs hsm) (lt_of_lt_of_le hM ?_)
    exact le_mul_of_one_le_right ht.le (le_max_left _ _)

/-- C58: the individual check detects wrong gradients. If it answers yes, then for every free element of
the object the gradient given is the derivative up to the tolerance (relative to the gradient if that is
larger than one) and the error of the difference quotient. -/
theorem verbose_detects {s : State (Option ℝ) T} (r : Ready s) (hc : Coherent o s) (hs : 0 < step)
    (ht : 0 < tol) (ht1 : tol ≤ 1) (junk : List (Option ℝ)) (y : Target)
    (hans : (s.checkVerbose o g (fun v => some (F v)) step tol junk y).2 = true) {k : Nat}
    (hk : k ∈ (s.readOpt o junk).1.raveledForTransformed y) {x d M : ℝ}
    (hx : (s.readOpt o junk).2[k]? = some (some x))
    (hsm : Smooth (line o g F s (s.readOpt o junk).2 k) x step M d) :
    ∃ e, (s.grads o g (s.readOpt o junk).2).2[k]? = some (some e) ∧
      |d - e| < tol * max 1 |e| + M * step ^ 2 / 6 := by
  obtain ⟨a, b, e, ha, hb, he, hag⟩ := (verbose_answer o g _ step tol r hc hs.ne' ht ht1 junk y).mp hans k hk
  refine ⟨e, he, ?_⟩
  rw [bump_eq hx] at ha hb
  rw [← sub_eq_add_neg] at hb
  have ha : line o g F s (s.readOpt o junk).2 k (x + step) = a := Option.some.inj ha
  have hb : line o g F s (s.readOpt o junk).2 k (x - step) = b := Option.some.inj hb
  have hq := quotient_error hs hsm
  rw [ha, hb] at hq
  unfold Agree at hag
  have := abs_sub_le d ((a - b) / (2 * step)) e
  have h2 := abs_sub_comm d ((a - b) / (2 * step))
  linarith

end

/-! ### The quick check -/

section

variable (o : Ops (Option ℝ) T) (g : List (Option ℝ) → List (Option ℝ))
  (F : List (Option ℝ) → Option ℝ) (step tol : ℝ)

theorem Alike.grads {s s' : State (Option ℝ) T} (r : Ready s) (h : Alike s s') (hon : s.on = true)
    (hg : ∀ a, (g a).length = a.length) {p : List (Option ℝ)} (hp : p.length = (Opt.free s).length) :
    (s'.grads o g p).2 = (s.grads o g p).2 := by
  obtain ⟨l1, a1⟩ := gradient_at_point o g r hon hg p
  obtain ⟨l2, a2⟩ := gradient_at_point o g h.ready (by rw [h.on, hon]) hg p
  have hv : (s'.setOpt o g p).vals = (s.setOpt o g p).vals := by
    rw [setOpt_vals, setOpt_vals, h.setVals o r hp]
  apply List.ext_getElem?
  intro k
  show ((s'.setOpt o g p).optGrad o).2[k]? = ((s.setOpt o g p).optGrad o).2[k]?
  by_cases hk : k < (Opt.free s).length
  · have hk' := List.getElem?_eq_getElem hk
    obtain ⟨v1, d1, w1, b1, c1, e1, f1⟩ := a1 k _ hk'
    obtain ⟨v2, d2, w2, b2, c2, e2, f2⟩ := a2 k _ (by rw [h.free]; exact hk')
    rw [hv] at b2 c2
    rw [b1] at b2; cases b2
    rw [c1] at c2; cases c2
    rw [e1, e2, via_unique r (h.via.mp f2) f1]
  · rw [List.getElem?_eq_none (by rw [l2, h.free]; omega), List.getElem?_eq_none (by omega)]

/-- What the quick check compares: the objectives with all checked entries moved at once, in the
directions drawn, and the gradient of the checked entries. -/
theorem quick_answer {s : State (Option ℝ) T} (r : Ready s) (hc : Coherent o s) (hon : s.on = true)
    (hg : ∀ a, (g a).length = a.length) (signs : List ℝ) (junk : List (Option ℝ)) (y : Target) :
    let x := (s.readOpt o junk).2
    let idx := (s.readOpt o junk).1.raveledForTransformed y
    let dx := steps step signs x.length idx
    (s.checkQuick o g F step tol signs junk y).2 = true ↔ idx = [] ∨
      quickVerdict tol (s.objective o g F (shift x dx)).2 (s.objective o g F (shift x (dx.map (- ·)))).2
        (idx.map (fun k => dx.getD k 0))
        (collect (idx.map (fun k => ((s.grads o g x).2[k]?).getD none))) = true := by
  intro x idx dx
  have h0 := Alike.read o r junk
  have hl' : x.length = (free s).length := (readOpt_lists r hc junk).2.1
  have hdx : dx.length = x.length := by
    have : ∀ (L : List (Nat × Nat)) (a : List ℝ) (f : Nat × Nat → ℝ),
        (L.foldl (fun dx e => dx.set e.1 (f e)) a).length = a.length := by
      intro L
      induction L with
      | nil => intro a f; rfl
      | cons e L ih => intro a f; rw [List.foldl_cons, ih, List.length_set]
    show (steps step signs x.length idx).length = _
    unfold steps
    simp only
    rw [this, List.length_replicate]
  have hs1 : (shift x dx).length = (free s).length := by simp [shift, hdx, hl']
  have hs2 : (shift x (dx.map (- ·))).length = (free s).length := by simp [shift, hdx, hl']
  have a1 := h0.set o g (shift x dx)
  have a2 := a1.set o g (shift x (dx.map (- ·)))
  have e1 : ((s.readOpt o junk).1.setOpt o g (shift x dx)).vals = (s.setOpt o g (shift x dx)).vals := by
    rw [setOpt_vals, setOpt_vals, h0.setVals o r hs1]
  have e2 : (((s.readOpt o junk).1.setOpt o g (shift x dx)).setOpt o g (shift x (dx.map (- ·)))).vals =
      (s.setOpt o g (shift x (dx.map (- ·)))).vals := by
    rw [setOpt_vals, setOpt_vals, a1.setVals o r hs2]
  have e3 := a2.grads o g r hon hg hl'
  unfold State.checkQuick
  simp only
  split
  · rename_i he
    simp only [true_iff]
    exact Or.inl he
  · rename_i he
    rw [or_iff_right he]
    simp only [State.objective]
    show quickVerdict tol (F ((s.readOpt o junk).1.setOpt o g (shift x dx)).vals)
      (F (((s.readOpt o junk).1.setOpt o g (shift x dx)).setOpt o g (shift x (dx.map (- ·)))).vals)
      (idx.map (fun k => dx.getD k 0)) (collect (idx.map (fun k =>
        (((((s.readOpt o junk).1.setOpt o g (shift x dx)).setOpt o g (shift x (dx.map (- ·)))).grads o g x).2[k]?).getD none))) =
      true ↔ _
    rw [e1, e2, e3]

end

/-- What the quick check decides. It accepts gradients whose prediction `2 D` of the difference `f1 - f2`
is right up to the tolerance. Otherwise it accepts only if the difference itself is below the tolerance
and moreover the gradient vanishes in the direction drawn or is below the tolerance in every element. -/
theorem quickVerdict_spec {tol : ℝ} (ht : 1e-31 ≤ tol) (ht1 : tol ≤ 1) (f1 f2 : ℝ) (dx grad : List ℝ) :
    let D := (List.zipWith (· * ·) dx grad).sum
    (|(f1 - f2) - 2 * D| < tol * |2 * D| → quickVerdict tol (some f1) (some f2) dx (some grad) = true) ∧
    (quickVerdict tol (some f1) (some f2) dx (some grad) = true → |(f1 - f2) - 2 * D| < tol * |2 * D| ∨
      |f1 - f2| < tol ∧ (D = 0 ∨ ∀ v ∈ grad, |v| ≤ tol)) ∧
    (|f1 - f2| < tol → (∀ v ∈ grad, |v| ≤ tol) →
      quickVerdict tol (some f1) (some f2) dx (some grad) = true) := by
  intro D
  have key : 2 * D ≠ 0 → (|1 - (f1 - f2) / (2 * D)| < tol ↔ |(f1 - f2) - 2 * D| < tol * |2 * D|) := by
    intro h
    rw [show 1 - (f1 - f2) / (2 * D) = (2 * D - (f1 - f2)) / (2 * D) by rw [sub_div _ (f1 - f2), div_self h], abs_div,
      div_lt_iff₀ (abs_pos.mpr h), abs_sub_comm]
  refine ⟨fun h => ?_, fun h => ?_, fun h1 h2 => ?_⟩
  · have hD : 2 * D ≠ 0 := by
      intro h0
      rw [h0, abs_zero, mul_zero] at h
      exact absurd h (not_lt.mpr (abs_nonneg _))
    simp only [quickVerdict, Bool.or_eq_true, decide_eq_true_eq]
    left
    rw [if_neg (show ¬ 2 * (List.zipWith (· * ·) dx grad).sum = 0 from hD)]
    exact (key hD).mpr h
  · simp only [quickVerdict, Bool.or_eq_true, Bool.and_eq_true, decide_eq_true_eq] at h
    rcases h with h | h
    · by_cases hD : 2 * D = 0
      · right
        rw [if_pos (show 2 * (List.zipWith (· * ·) dx grad).sum = 0 from hD)] at h
        refine ⟨?_, Or.inl (by linarith)⟩
        rw [abs_lt] at h ⊢
        have e : (f1 - f2) = (f1 - f2) / 1e-32 * 1e-32 := by field_simp
        constructor <;> nlinarith [h.1, h.2]
      · left
        rw [if_neg (show ¬ 2 * (List.zipWith (· * ·) dx grad).sum = 0 from hD)] at h
        exact (key hD).mp h
    · exact Or.inr ⟨h.1, Or.inr h.2⟩
  · simp only [quickVerdict, Bool.or_eq_true, Bool.and_eq_true, decide_eq_true_eq]
    exact Or.inr ⟨h1, h2⟩

theorem collect_map {idx : List Nat} {G : List (Option ℝ)} {gs : List ℝ}
    (h : idx.map (fun k => G[k]?) = gs.map (fun d => some (some d))) :
    collect (idx.map (fun k => (G[k]?).getD none)) = some gs := by
  induction idx generalizing gs with
  | nil => cases gs with
    | nil => rfl
    | cons a gs => simp at h
  | cons k idx ih => cases gs with
    | nil => simp at h
    | cons a gs =>
      simp only [List.map_cons, List.cons.injEq] at h ⊢
      rw [h.1, Option.getD_some, collect, ih h.2, Option.map_some]

/-- C58 (partial), the quick check. Let `f1` and `f2` be the objectives with all checked entries moved by
`dx` and by `-dx`, and `gs` the gradient given for the checked entries. Gradients that predict `f1 - f2` up to
the tolerance are accepted, and so is everything if the difference and all of `gs` are below the tolerance;
what is accepted predicts `f1 - f2` up to the tolerance, or else `f1 - f2` is below the tolerance. Missing: this
says nothing about the elements one by one, for which it is false (`quick_two_fails`, `quick_zero_fails`,
`quick_right_fails`). -/
theorem quick_check_partial (o : Ops (Option ℝ) T) (g : List (Option ℝ) → List (Option ℝ))
    (F : List (Option ℝ) → ℝ) (step : ℝ) {tol : ℝ} (ht : 1e-31 ≤ tol) (ht1 : tol ≤ 1)
    {s : State (Option ℝ) T} (r : Ready s) (hc : Coherent o s) (hon : s.on = true)
    (hg : ∀ a, (g a).length = a.length) (signs : List ℝ) (junk : List (Option ℝ)) (y : Target)
    {x : List (Option ℝ)} (hx : x = (s.readOpt o junk).2) {idx : List Nat}
    (hidx : idx = (s.readOpt o junk).1.raveledForTransformed y) (hne : idx ≠ []) {dx gs : List ℝ}
    (hdx : dx = steps step signs x.length idx)
    (hgs : idx.map (fun k => (s.grads o g x).2[k]?) = gs.map (fun d => some (some d))) {f1 f2 D : ℝ}
    (h1 : f1 = (s.objective o g F (shift x dx)).2) (h2 : f2 = (s.objective o g F (shift x (dx.map (- ·)))).2)
    (hD : D = (List.zipWith (· * ·) (idx.map (fun k => dx.getD k 0)) gs).sum) :
    let answer := (s.checkQuick o g (fun v => some (F v)) step tol signs junk y).2
    (|(f1 - f2) - 2 * D| < tol * |2 * D| → answer = true) ∧
    (answer = true → |(f1 - f2) - 2 * D| < tol * |2 * D| ∨
      |f1 - f2| < tol ∧ (D = 0 ∨ ∀ v ∈ gs, |v| ≤ tol)) ∧
    (|f1 - f2| < tol → (∀ v ∈ gs, |v| ≤ tol) → answer = true) := by
  intro answer
  subst hidx hx
  have hq : answer = true ↔ quickVerdict tol (some f1) (some f2)
      (((s.readOpt o junk).1.raveledForTransformed y).map (fun k => dx.getD k 0)) (some gs) = true := by
    refine (quick_answer o g (fun v => some (F v)) step tol r hc hon hg signs junk y).trans ?_
    rw [or_iff_right hne, collect_map hgs, h1, h2, hdx]
    rfl
  rw [hq, hD]
  exact quickVerdict_spec ht ht1 f1 f2 _ gs

/-- How far the quick check moves the entries: the `j`-th checked one by `step` times the `j`-th sign (one if
two are checked), the others not at all. -/
theorem steps_spec (step : ℝ) (signs : List ℝ) (n : Nat) {idx : List Nat} (hnd : idx.Nodup)
    (hlt : ∀ k ∈ idx, k < n) : (steps step signs n idx).length = n ∧
    (∀ j k : Nat, idx[j]? = some k → (steps step signs n idx)[k]? =
      some (step * (if idx.length = 2 then 1 else signs.getD j 0))) ∧
    ∀ k, k < n → k ∉ idx → (steps step signs n idx)[k]? = some 0 := by
  have gen : ∀ (f : Nat → ℝ) (L : List Nat) (m : Nat) (a : List ℝ), a.length = n → L.Nodup → (∀ k ∈ L, k < n) →
      let b := (L.zip (List.range' m L.length)).foldl (fun dx e => dx.set e.1 (f e.2)) a
      b.length = n ∧ (∀ j k : Nat, L[j]? = some k → b[k]? = some (f (m + j))) ∧
        ∀ k, k ∉ L → b[k]? = a[k]? := by
    intro f L
    induction L with
    | nil => intro m a ha _ _; simp [ha]
    | cons c L ih =>
      intro m a ha hn hl
      rw [List.length_cons, List.range'_succ, List.zip_cons_cons]
      simp only [List.foldl_cons]
      obtain ⟨i1, i2, i3⟩ := ih (m + 1) (a.set c (f m)) (by rw [List.length_set, ha]) (List.nodup_cons.mp hn).2
        (fun k hk => hl k (List.mem_cons_of_mem _ hk))
      refine ⟨i1, fun j k hj => ?_, fun k hk => ?_⟩
      · cases j with
        | zero =>
          cases hj
          rw [i3 c (List.nodup_cons.mp hn).1, List.getElem?_set_self (by rw [ha]; exact hl c (by simp)), add_zero]
        | succ j =>
          rw [i2 j k (by simpa using hj)]
          congr 2; omega
      · rw [i3 k (fun h => hk (List.mem_cons_of_mem _ h)),
          List.getElem?_set_ne (fun h => hk (by rw [h]; simp))]
  obtain ⟨g1, g2, g3⟩ := gen (fun j => step * (if idx.length = 2 then 1 else signs.getD j 0)) idx 0
    (List.replicate n 0) (by simp) hnd hlt
  rw [← List.range_eq_range'] at g1 g2 g3
  refine ⟨g1, fun j k hj => ?_, fun k hk hn => ?_⟩
  · have := g2 j k hj
    rwa [zero_add] at this
  · exact (g3 k hn).trans (by rw [List.getElem?_replicate, if_pos hk])

/-! ### Wrong gradients that pass the quick check -/

section Plain

variable (o : Ops (Option ℝ) T) (g : List (Option ℝ) → List (Option ℝ))

/-- Nothing is constrained, nothing is fixed. -/
def Plain (s : State (Option ℝ) T) : Prop := ∀ c, s.cons c = []

variable {s : State (Option ℝ) T}

theorem Plain.free (h : Plain s) : Opt.free s = List.range s.size := by
  unfold Opt.free
  rw [h]
  exact List.filter_eq_self.mpr (by simp)

theorem Plain.via (h : Plain s) {φ : T → Option ℝ → Option ℝ} {i : Nat} {v w : Option ℝ}
    (hv : Via s φ i v w) : w = v := hv.2 (fun t => by rw [h]; simp)

theorem Plain.read (h : Plain s) (r : Ready s) (hc : Coherent o s) (junk : List (Option ℝ)) :
    (s.readOpt o junk).2 = s.vals := by
  obtain ⟨-, hl, ha⟩ := readOpt_lists r hc junk
  rw [h.free, List.length_range] at hl
  apply List.ext_getElem?
  intro k
  by_cases hk : k < s.size
  · obtain ⟨v, w, h1, h2, h3⟩ := ha k k (by rw [h.free, List.getElem?_range hk])
    rw [h1, h2, h.via h3]
  · rw [List.getElem?_eq_none (by omega), List.getElem?_eq_none (by rw [r.vals]; omega)]

theorem Plain.setOpt (h : Plain s) (r : Ready s) {p : List (Option ℝ)} (hp : p.length = s.size) :
    (s.setOpt o g p).vals = p := by
  have hl : (s.setOpt o g p).vals.length = s.size := by rw [setOpt_vals]; exact (setVals_spec o r p).1
  have hf : p.length = (Opt.free s).length := by rw [h.free, List.length_range, hp]
  apply List.ext_getElem?
  intro k
  by_cases hk : k < s.size
  · obtain ⟨v, w, h1, h2, h3⟩ := set_writes_free o g r hf
      (show (Opt.free s)[k]? = some k by rw [h.free, List.getElem?_range hk])
    rw [h1, h2, h.via h3]
  · rw [List.getElem?_eq_none (by omega), List.getElem?_eq_none (by omega)]

theorem Plain.grads (h : Plain s) (r : Ready s) (hon : s.on = true) (hg : ∀ a, (g a).length = a.length)
    {p : List (Option ℝ)} (hp : p.length = s.size) : (s.grads o g p).2 = g p := by
  obtain ⟨hl, ha⟩ := gradient_at_point o g r hon hg p
  rw [h.free, List.length_range] at hl
  rw [h.setOpt o g r hp] at ha
  apply List.ext_getElem?
  intro k
  show ((s.setOpt o g p).optGrad o).2[k]? = _
  by_cases hk : k < s.size
  · obtain ⟨v, d, w, h1, h2, h3, h4⟩ := ha k k (by rw [h.free, List.getElem?_range hk])
    rw [h3, h2, h.via h4]
  · rw [List.getElem?_eq_none (by omega), List.getElem?_eq_none (by rw [hg, hp]; omega)]

end Plain

/-- A model with one `Param` of two elements. -/
def twinHeap : Heap Nat := Heap.run Heap.empty
  [.newNode, .newParam 2, .link 0 1 none, .finishInit 0 true]

/-- Its state, with values `a` and `b`. -/
def twin (a b : ℝ) : State (Option ℝ) Nat where
  heap := twinHeap
  root := 0
  vals := [some a, some b]
  grad := [some 0, some 0]
  copy := none
  fresh := false
  on := true

theorem twin_ready (a b : ℝ) : Ready (twin a b) where
  reach := Hier.Heap.Reach.run (h := Heap.empty) .empty _ (by decide +kernel)
  lt := show 0 < twinHeap.next by decide +kernel
  root := show twinHeap.parent 0 = none by decide +kernel
  node := show twinHeap.leaf 0 = false by decide +kernel
  inInit := show twinHeap.inInit 0 = false by decide +kernel
  inited := show twinHeap.inited 0 = some true by decide +kernel
  vals := show 2 = twinHeap.size 0 by decide +kernel

theorem twin_plain (a b : ℝ) : Plain (twin a b) := by
  intro c
  show twinHeap.constraints 0 c = []
  unfold Hier.Heap.constraints
  rw [show twinHeap.iop 0 = (0, .base) by decide +kernel,
    show twinHeap.dicts 0 = [] by decide +kernel]
  rfl

theorem twin_idx (o : Ops (Option ℝ) Nat) (a b : ℝ) (junk : List (Option ℝ)) :
    ((twin a b).readOpt o junk).1.raveledForTransformed ⟨0, none⟩ = [0, 1] := by
  rw [readOpt_state (twin_ready a b)]
  show (State.mk twinHeap 0 (List.replicate 2 0) (List.replicate 2 0) none true true :
    State Nat Nat).raveledForTransformed ⟨0, none⟩ = [0, 1]
  decide +kernel

/-- A linear objective. -/
noncomputable def lin (a b : ℝ) : List (Option ℝ) → ℝ
  | [some x, some y] => a * x + b * y
  | _ => 0

/-- A model that says its gradient is `c` and `d` everywhere. -/
def claimed (c d : ℝ) : List (Option ℝ) → List (Option ℝ)
  | [_, _] => [some c, some d]
  | v => v

theorem claimed_length (c d : ℝ) (v : List (Option ℝ)) : (claimed c d v).length = v.length := by
  unfold claimed; split <;> rfl

/-- What the quick check of such a model compares. -/
theorem twin_quick (o : Ops (Option ℝ) Nat) (a b c d step tol : ℝ) (signs : List ℝ)
    (junk : List (Option ℝ)) (x y : ℝ) :
    ((twin x y).checkQuick o (claimed c d) (fun v => some (lin a b v)) step tol signs junk ⟨0, none⟩).2 = true ↔
    quickVerdict tol (some (a * (x + step) + b * (y + step))) (some (a * (x + -step) + b * (y + -step)))
      [step, step] (some [c, d]) = true := by
  have r := twin_ready x y
  have pl := twin_plain x y
  have hc : Coherent o (twin x y) := coherent_of_stale rfl
  have hsz : (twin x y).size = 2 := r.vals.symm
  have key := quick_answer o (claimed c d) (fun v => some (lin a b v)) step tol r hc rfl (claimed_length c d) signs
    junk ⟨0, none⟩
  simp only [twin_idx, pl.read o r hc] at key
  rw [key]
  have hv : (twin x y).vals = [some x, some y] := rfl
  have hdx : steps step signs (twin x y).vals.length [0, 1] = [step, step] := by
    rw [hv]; simp [steps, List.range_succ]
  rw [hdx]
  simp only [State.objective]
  rw [pl.setOpt o _ r (by rw [hsz]; rfl), pl.setOpt o _ r (by rw [hsz]; rfl),
    pl.grads o _ r rfl (claimed_length c d) (by rw [hsz]; rfl), hv]
  simp [shift, lin, claimed, collect]

/-- The derivatives of that objective. -/
theorem twin_deriv (o : Ops (Option ℝ) Nat) (g : List (Option ℝ) → List (Option ℝ)) (a b x y z : ℝ) :
    HasDerivAt (line o g (lin a b) (twin x y) [some x, some y] 0) a z ∧
    HasDerivAt (line o g (lin a b) (twin x y) [some x, some y] 1) b z := by
  have r := twin_ready x y
  have pl := twin_plain x y
  have hsz : (twin x y).size = 2 := r.vals.symm
  have e0 : line o g (lin a b) (twin x y) [some x, some y] 0 = fun z => a * z + b * y := by
    funext z
    show lin a b ((twin x y).setOpt o g [some z, some y]).vals = _
    rw [pl.setOpt o g r (by rw [hsz]; rfl)]; rfl
  have e1 : line o g (lin a b) (twin x y) [some x, some y] 1 = fun z => a * x + b * z := by
    funext z
    show lin a b ((twin x y).setOpt o g [some x, some z]).vals = _
    rw [pl.setOpt o g r (by rw [hsz]; rfl)]; rfl
  rw [e0, e1]
  exact ⟨(((hasDerivAt_id z).const_mul a).add_const _).congr_deriv (by ring),
    (((hasDerivAt_id z).const_mul b).const_add _).congr_deriv (by ring)⟩

/-- C58 fails for the quick check of two elements: both are moved in the same direction whatever signs
are drawn, so every gradient with the right sum passes. -/
theorem quick_two_fails (o : Ops (Option ℝ) Nat) (a b c d : ℝ) {step tol : ℝ} (hs : step ≠ 0) (ht : 0 < tol)
    (hsum : c + d = a + b) (hne : a + b ≠ 0) (signs : List ℝ) (junk : List (Option ℝ)) (x y : ℝ) :
    ((twin x y).checkQuick o (claimed c d) (fun v => some (lin a b v)) step tol signs junk ⟨0, none⟩).2 = true := by
  rw [twin_quick]
  have h1 : (2 * ([step * c, step * d] : List ℝ).sum) = 2 * step * (a + b) := by
    simp only [List.sum_cons, List.sum_nil, ← hsum]; ring
  have h2 : 2 * step * (a + b) ≠ 0 := mul_ne_zero (mul_ne_zero two_ne_zero hs) hne
  have h3 : (a * (x + step) + b * (y + step) - (a * (x + -step) + b * (y + -step))) / (2 * step * (a + b)) = 1 := by
    rw [div_eq_one_iff_eq h2]; ring
  simp only [quickVerdict, List.zipWith_cons_cons, List.zipWith_nil_right, h1, if_neg h2, h3]
  simp [ht]

/-- A gradient that is wrong by 1000 in both elements passes the quick check with any step and tolerance. -/
theorem quick_two_wrong_fails (o : Ops (Option ℝ) Nat) {step tol : ℝ} (hs : step ≠ 0) (ht : 0 < tol)
    (signs : List ℝ) (junk : List (Option ℝ)) (x y : ℝ) :
    ((twin x y).checkQuick o (claimed 1001 (-1000)) (fun v => some (lin 1 0 v)) step tol signs junk ⟨0, none⟩).2 = true ∧
    HasDerivAt (line o (claimed 1001 (-1000)) (lin 1 0) (twin x y) [some x, some y] 0) 1 x ∧
    ((twin x y).grads o (claimed 1001 (-1000)) [some x, some y]).2 = [some 1001, some (-1000)] :=
  ⟨quick_two_fails o 1 0 1001 (-1000) hs ht (by norm_num) (by norm_num) signs junk x y, (twin_deriv o _ 1 0 x y x).1,
    (twin_plain x y).grads o _ (twin_ready x y) rfl (claimed_length _ _) (twin_ready x y).vals⟩

/-- C58 fails for the quick check with its default step and tolerance: a model that says its gradient is
zero passes although the derivatives are 200. -/
theorem quick_zero_fails (o : Ops (Option ℝ) Nat) (signs : List ℝ) (junk : List (Option ℝ)) (x y : ℝ) :
    ((twin x y).checkQuick o (claimed 0 0) (fun v => some (lin 200 200 v)) 1e-6 1e-3 signs junk ⟨0, none⟩).2 = true ∧
    HasDerivAt (line o (claimed 0 0) (lin 200 200) (twin x y) [some x, some y] 0) 200 x ∧
    HasDerivAt (line o (claimed 0 0) (lin 200 200) (twin x y) [some x, some y] 1) 200 y ∧
    ((twin x y).grads o (claimed 0 0) [some x, some y]).2 = [some 0, some 0] := by
  refine ⟨?_, (twin_deriv o _ 200 200 x y x).1, (twin_deriv o _ 200 200 x y y).2,
    (twin_plain x y).grads o _ (twin_ready x y) rfl (claimed_length _ _) (twin_ready x y).vals⟩
  rw [twin_quick]
  have h1 : 200 * (x + 1e-6) + 200 * (y + 1e-6) - (200 * (x + -1e-6) + 200 * (y + -1e-6)) = (8e-4 : ℝ) := by
    ring_nf
  have h2 : |(8e-4 : ℝ)| < 1e-3 := by rw [abs_of_nonneg (by norm_num)]; norm_num
  simp only [quickVerdict, h1, h2]
  norm_num

/-- C58 fails the other way: the right gradient of the difference of two elements never passes the quick
check (whatever the step, and for every tolerance below one). -/
theorem quick_right_fails (o : Ops (Option ℝ) Nat) {step tol : ℝ} (ht : tol < 1) (signs : List ℝ)
    (junk : List (Option ℝ)) (x y : ℝ) :
    ((twin x y).checkQuick o (claimed 1 (-1)) (fun v => some (lin 1 (-1) v)) step tol signs junk ⟨0, none⟩).2 = false ∧
    HasDerivAt (line o (claimed 1 (-1)) (lin 1 (-1)) (twin x y) [some x, some y] 0) 1 x ∧
    HasDerivAt (line o (claimed 1 (-1)) (lin 1 (-1)) (twin x y) [some x, some y] 1) (-1) y ∧
    ((twin x y).grads o (claimed 1 (-1)) [some x, some y]).2 = [some 1, some (-1)] := by
  refine ⟨?_, (twin_deriv o _ 1 (-1) x y x).1, (twin_deriv o _ 1 (-1) x y y).2,
    (twin_plain x y).grads o _ (twin_ready x y) rfl (claimed_length _ _) (twin_ready x y).vals⟩
  rw [← Bool.not_eq_true, twin_quick, Bool.not_eq_true]
  have h1 : 1 * (x + step) + -1 * (y + step) - (1 * (x + -step) + -1 * (y + -step)) = 0 := by ring
  have h2 : 2 * ([step * 1, step * (-1)] : List ℝ).sum = 0 := by
    simp only [List.sum_cons, List.sum_nil]; ring
  simp only [quickVerdict, List.zipWith_cons_cons, List.zipWith_nil_right, h1, h2, if_pos, zero_div]
  simp only [sub_zero, abs_one, List.mem_cons, List.not_mem_nil, or_false, forall_eq_or_imp, forall_eq]
  rw [decide_eq_false (not_lt.mpr ht.le), decide_eq_false (fun h : (1 : ℝ) ≤ tol ∧ _ => by
    linarith [h.1])]
  simp

/-- The individual check of the same models answers no. -/
theorem verbose_catches (o : Ops (Option ℝ) Nat) (junk : List (Option ℝ)) (x y : ℝ) :
    ((twin x y).checkVerbose o (claimed 0 0) (fun v => some (lin 200 200 v)) 1e-6 1e-3 junk ⟨0, none⟩).2 = false := by
  by_contra h
  rw [Bool.not_eq_false] at h
  have r := twin_ready x y
  have pl := twin_plain x y
  have hc : Coherent o (twin x y) := coherent_of_stale rfl
  have hsz : (twin x y).size = 2 := r.vals.symm
  obtain ⟨a, b, e, h1, h2, h3, h4⟩ := (verbose_answer o _ _ 1e-6 1e-3 r hc (by norm_num) (by norm_num)
    (by norm_num) junk ⟨0, none⟩).mp h 0 (by rw [twin_idx]; simp)
  rw [pl.read o r hc] at h1 h2 h3
  rw [pl.grads o _ r rfl (claimed_length _ _) r.vals] at h3
  simp only [State.objective] at h1 h2
  rw [pl.setOpt o _ r (by rw [hsz]; rfl)] at h1 h2
  have h1 : 200 * (x + 1e-6) + 200 * y = a := Option.some.inj h1
  have h2 : 200 * (x + -1e-6) + 200 * y = b := Option.some.inj h2
  have h3 : (0 : ℝ) = e := Option.some.inj (Option.some.inj h3)
  subst h1 h2 h3
  unfold Agree at h4
  rw [show (200 * (x + 1e-6) + 200 * y - (200 * (x + -1e-6) + 200 * y)) / (2 * 1e-6) - 0 = (200 : ℝ) by ring_nf] at h4
  norm_num at h4

theorem twin_smooth (o : Ops (Option ℝ) Nat) (g : List (Option ℝ) → List (Option ℝ)) (a b x y z h : ℝ) :
    Smooth (line o g (lin a b) (twin x y) [some x, some y] 0) z h 0 a ∧
    Smooth (line o g (lin a b) (twin x y) [some x, some y] 1) z h 0 b :=
  ⟨⟨fun _ => a, fun _ => 0, fun _ => 0, rfl, fun z _ => ⟨(twin_deriv o g a b x y z).1, hasDerivAt_const _ _,
      hasDerivAt_const _ _, by simp⟩⟩,
    ⟨fun _ => b, fun _ => 0, fun _ => 0, rfl, fun z _ => ⟨(twin_deriv o g a b x y z).2, hasDerivAt_const _ _,
      hasDerivAt_const _ _, by simp⟩⟩⟩

/-- A model meeting the hypotheses of `verbose_accepts` and of `verbose_detects`. -/
example (o : Ops (Option ℝ) Nat) (junk : List (Option ℝ)) (x y : ℝ) :
    ((twin x y).checkVerbose o (claimed 3 5) (fun v => some (lin 3 5 v)) 1e-6 1e-3 junk ⟨0, none⟩).2 = true := by
  have r := twin_ready x y
  have pl := twin_plain x y
  have hc : Coherent o (twin x y) := coherent_of_stale rfl
  refine verbose_accepts o _ _ _ _ r hc (by norm_num) (by norm_num) (by norm_num) junk _ ?_
  intro k hk
  rw [twin_idx] at hk
  rw [pl.read o r hc, pl.grads o _ r rfl (claimed_length _ _) r.vals]
  have hk : k = 0 ∨ k = 1 := by simpa using hk
  rcases hk with rfl | rfl
  · exact ⟨x, 3, 0, rfl, rfl, (twin_smooth o (claimed 3 5) 3 5 x y x 1e-6).1, by norm_num⟩
  · exact ⟨y, 5, 0, rfl, rfl, (twin_smooth o (claimed 3 5) 3 5 x y y 1e-6).2, by norm_num⟩

end Paramz.Opt

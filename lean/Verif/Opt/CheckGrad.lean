import Verif.Opt.Deriv
import Mathlib.Analysis.Calculus.MeanValue

/-!
# `checkgrad` (C57, C58)

Source: `paramz/model.py:284-408`, `paramz/core/gradcheckable.py:43-70`.

Numbers that are not finite (`nan`, `inf`) are `none`; every comparison with one of them is taken to be
false, which is right for tolerances up to 1. The step is not zero.
-/

set_option linter.unusedSectionVars false

namespace Paramz.Opt

open IndexOps (Arr)
open Hier (Heap Con Id)
open Hier.Heap (Target)

variable {V T : Type} [DecidableEq T]

section Model

/-- `xx[k] += d`. -/
noncomputable def bump (x : List (Option ℝ)) (k : Nat) (d : ℝ) : List (Option ℝ) :=
  x.modify k (fun v => v.map (· + d))

/-- `x + dx`. -/
noncomputable def shift (x : List (Option ℝ)) (dx : List ℝ) : List (Option ℝ) :=
  List.zipWith (fun v d => v.map (· + d)) x dx

open Classical in
/-- The verdict on one element (model.py:382-395): `f1`, `f2` are the objectives on both sides, `g` the
gradient. (`df_ratio`, names and printing are left out.) -/
noncomputable def passes (step tol : ℝ) : Option ℝ → Option ℝ → Option ℝ → Bool
  | some f1, some f2, some g =>
    let ratio := if g = 0 then (if f1 - f2 = g then 1 else 0) else (f1 - f2) / (2 * step * g)
    let difference := |(f1 - f2) / (2 * step) - g|
    decide (|1 - ratio| < tol) || decide (|difference| < tol)
  | _, _, _ => false

variable (o : Ops (Option ℝ) T) (g : List (Option ℝ) → List (Option ℝ))
  (F : List (Option ℝ) → Option ℝ) (step tol : ℝ)

/-- The loop of the verbose check (model.py:370-395). -/
noncomputable def checkEach (x grad : List (Option ℝ)) :
    List Nat → State (Option ℝ) T → Bool → State (Option ℝ) T × Bool
  | [], s, ret => (s, ret)
  | k :: L, s, ret =>
    let a := s.objective o g F (bump x k step)
    let b := a.1.objective o g F (bump (bump x k step) k (-(2 * step)))
    checkEach x grad L b.1 (ret && passes step tol a.2 b.2 ((grad[k]?).getD none))

/-- `y.checkgrad(verbose=True)` for an object `y` of the model (model.py:310, 341-408): the state afterwards
and the answer. -/
noncomputable def State.checkVerbose (junk : List (Option ℝ)) (s : State (Option ℝ) T) (y : Target) :
    State (Option ℝ) T × Bool :=
  let r := s.readOpt o junk
  let idx := r.1.raveledForTransformed y
  if idx = [] then (r.1, true)
  else
    let gr := r.1.grads o g r.2
    let e := checkEach o g F step tol r.2 gr.2 idx gr.1 true
    (e.1.setOpt o g r.2, e.2)

/-- The steps of the quick check (model.py:323-325): `step` or `-step` by the signs drawn, but always
`step` if there are two elements. -/
noncomputable def steps (signs : List ℝ) (n : Nat) (idx : List Nat) : List ℝ :=
  let size := idx.length
  (idx.zip (List.range size)).foldl
    (fun dx e => dx.set e.1 (step * (if size = 2 then 1 else signs.getD e.2 0))) (List.replicate n 0)

/-- A list of finite numbers. -/
def collect : List (Option ℝ) → Option (List ℝ)
  | [] => some []
  | none :: _ => none
  | some v :: L => (collect L).map (v :: ·)

open Classical in
/-- The verdict of the quick check (model.py:332-340) from the objectives on both sides, the steps and the
gradient of the checked elements. -/
noncomputable def quickVerdict (f1 f2 : Option ℝ) (dx : List ℝ) (grad : Option (List ℝ)) : Bool :=
  match f1, f2, grad with
  | some f1, some f2, some grad =>
    let den := 2 * (List.zipWith (· * ·) dx grad).sum
    let ratio := (f1 - f2) / (if den = 0 then 1e-32 else den)
    let diff := decide (|f1 - f2| < tol) && decide (∀ v ∈ grad, |v| ≤ tol)
    decide (|1 - ratio| < tol) || diff
  | _, _, _ => false

/-- `y.checkgrad()` for an object `y` of the model (model.py:310-340). -/
noncomputable def State.checkQuick (signs : List ℝ) (junk : List (Option ℝ)) (s : State (Option ℝ) T)
    (y : Target) : State (Option ℝ) T × Bool :=
  let r := s.readOpt o junk
  let idx := r.1.raveledForTransformed y
  if idx = [] then (r.1, true)
  else
    let dx := steps step signs r.2.length idx
    let a := r.1.objective o g F (shift r.2 dx)
    let b := a.1.objective o g F (shift r.2 (dx.map (- ·)))
    let gr := b.1.grads o g r.2
    (gr.1, quickVerdict tol a.2 b.2 (idx.map (fun k => dx.getD k 0))
      (collect (idx.map (fun k => (gr.2[k]?).getD none))))

end Model

/-! ### States that differ in the free values only -/

/-- Same constraints and fixed values. -/
structure Alike (s s' : State V T) : Prop where
  ready : Ready s'
  cons : ∀ c, s'.cons c = s.cons c
  size : s'.size = s.size
  on : s'.on = s.on
  fixed : ∀ i, i ∈ s.cons .fixed → s'.vals[i]? = s.vals[i]?

theorem Alike.refl {s : State V T} (r : Ready s) : Alike s s := ⟨r, fun _ => rfl, rfl, rfl, fun _ _ => rfl⟩

theorem Alike.free {s s' : State V T} (h : Alike s s') : free s' = free s := by
  unfold Opt.free; rw [h.cons, h.size]

theorem Alike.set (o : Ops V T) (g : List V → List V) {s s' : State V T} (h : Alike s s') (p : List V) :
    Alike s (s'.setOpt o g p) where
  ready := setOpt_ready o g h.ready p
  cons c := by rw [setOpt_cons, h.cons]
  size := by rw [setOpt_size, h.size]
  on := by rw [← h.on]; simp [State.setOpt, State.notify]; split <;> rfl
  fixed i hi := by rw [set_keeps_fixed o g h.ready p (by rw [h.cons]; exact hi), h.fixed i hi]

theorem Alike.optGrad (o : Ops V T) {s s' : State V T} (h : Alike s s') : Alike s (s'.optGrad o).1 where
  ready := exec_ready (e := .optGrad) (g := id) h.ready trivial
  cons c := h.cons c
  size := h.size
  on := h.on
  fixed i hi := h.fixed i hi

theorem Alike.via {s s' : State V T} (h : Alike s s') {φ : T → V → V} {i : Nat} {v w : V} :
    Via s' φ i v w ↔ Via s φ i v w := by
  unfold Via; simp only [h.cons]

theorem Alike.setVals (o : Ops V T) {s s' : State V T} (r : Ready s) (h : Alike s s') {p : List V}
    (hp : p.length = (Opt.free s).length) : s'.setVals o p = s.setVals o p := by
  obtain ⟨l1, a1, b1⟩ := setVals_spec o r p
  obtain ⟨l2, a2, b2⟩ := setVals_spec o h.ready p
  apply List.ext_getElem?
  intro j
  by_cases hj : j < s.size
  · by_cases hfx : j ∈ s.cons .fixed
    · rw [a1 j hfx, a2 j (by rw [h.cons]; exact hfx), h.fixed j hfx]
    · obtain ⟨m, hm⟩ := List.mem_iff_getElem?.mp (mem_free.mpr ⟨hj, hfx⟩)
      obtain ⟨x1, w1, e1, f1, v1⟩ := b1 hp m j hm
      obtain ⟨x2, w2, e2, f2, v2⟩ := b2 (by rw [h.free, hp]) m j (by rw [h.free]; exact hm)
      rw [e1] at e2; cases e2
      rw [f1, f2, via_unique r (h.via.mp v2) v1]
  · rw [List.getElem?_eq_none (by rw [l2, h.size]; omega), List.getElem?_eq_none (by rw [l1]; omega)]

theorem setOpt_vals (o : Ops V T) (g : List V → List V) (s : State V T) (p : List V) :
    (s.setOpt o g p).vals = s.setVals o p := by simp [State.setOpt]

theorem Alike.read (o : Ops V T) {s : State V T} (r : Ready s) (junk : List V) :
    Alike s (s.readOpt o junk).1 := by
  have h := readOpt_state (o := o) r junk
  exact ⟨readOpt_ready o r junk, fun c => by rw [h]; rfl, by rw [h]; rfl, by rw [h], fun i _ => by rw [h]⟩

theorem Alike.trans {s s' s'' : State V T} (h : Alike s s') (h' : Alike s' s'') : Alike s s'' where
  ready := h'.ready
  cons c := by rw [h'.cons, h.cons]
  size := by rw [h'.size, h.size]
  on := by rw [h'.on, h.on]
  fixed i hi := by rw [h'.fixed i (by rw [h.cons]; exact hi), h.fixed i hi]

section Props

variable (o : Ops (Option ℝ) T) (g : List (Option ℝ) → List (Option ℝ))
  (F : List (Option ℝ) → Option ℝ) (step tol : ℝ)

theorem checkEach_alike {s : State (Option ℝ) T} (x grad : List (Option ℝ)) :
    ∀ (L : List Nat) (s' : State (Option ℝ) T) (ret : Bool), Alike s s' →
      Alike s (checkEach o g F step tol x grad L s' ret).1
  | [], _, _, h => h
  | k :: L, s', ret, h => by
    rw [checkEach]
    exact checkEach_alike x grad L _ _ ((h.set o g _).set o g _)

/-! ### C57 -/

/-- After `checkgrad` the model has been set to the vector read at the start, unless nothing was to be
checked. -/
theorem checkgrad_vals {s : State (Option ℝ) T} (r : Ready s) (hc : Coherent o s)
    (signs : List ℝ) (junk : List (Option ℝ)) (y : Target) :
    (s.checkVerbose o g F step tol junk y).1.vals =
      (if (s.readOpt o junk).1.raveledForTransformed y = [] then s.vals
        else s.setVals o (s.readOpt o junk).2) ∧
    (s.checkQuick o g F step tol signs junk y).1.vals =
      (if (s.readOpt o junk).1.raveledForTransformed y = [] then s.vals
        else s.setVals o (s.readOpt o junk).2) := by
  have h0 := Alike.read o r junk
  have hl : (s.readOpt o junk).2.length = (free s).length := (readOpt_lists r hc junk).2.1
  have hr : (s.readOpt o junk).1.vals = s.vals := by rw [readOpt_state (o := o) r junk]
  constructor
  · unfold State.checkVerbose
    simp only
    split
    · exact hr
    · rw [setOpt_vals]
      have ha : Alike s ((s.readOpt o junk).1.grads o g (s.readOpt o junk).2).1 :=
        (h0.set o g _).optGrad o
      rw [(checkEach_alike o g F step tol _ _ _ _ _ ha).setVals o r hl]
  · unfold State.checkQuick
    simp only
    split
    · exact hr
    · have ha : Alike s
          (((s.readOpt o junk).1.objective o g F (shift (s.readOpt o junk).2
            (steps step signs (s.readOpt o junk).2.length ((s.readOpt o junk).1.raveledForTransformed y)))).1.objective
            o g F (shift (s.readOpt o junk).2
            ((steps step signs (s.readOpt o junk).2.length ((s.readOpt o junk).1.raveledForTransformed y)).map
              (- ·)))).1 := (h0.set o g _).set o g _
      show (State.setOpt o g _ _).vals = _
      rw [setOpt_vals, ha.setVals o r hl]

/-- C57 (partial): after `checkgrad` every parameter has the value it had before, if every value of a free
constrained element survives `f (finv v)` (C16, C31) and the optimiser's copy is up to date (C32).
Missing: `NegativeExponent` (`checkgrad_keeps_values_fails`) and stale copies. -/
theorem checkgrad_keeps_values_partial {s : State (Option ℝ) T} (r : Ready s) (hc : Coherent o s)
    (signs : List ℝ) (junk : List (Option ℝ)) (y : Target)
    (hinv : ∀ i t v, i ∈ free s → i ∈ s.cons (.tr t) → s.vals[i]? = some v → o.f t (o.finv t v) = v) :
    (s.checkVerbose o g F step tol junk y).1.vals = s.vals ∧
    (s.checkQuick o g F step tol signs junk y).1.vals = s.vals := by
  have hback := read_then_set o g r hc junk hinv
  rw [setOpt_vals, (Alike.read o r junk).setVals o r (readOpt_lists r hc junk).2.1] at hback
  obtain ⟨h1, h2⟩ := checkgrad_vals o g F step tol r hc signs junk y
  rw [h1, h2, hback, ite_self]
  exact ⟨rfl, rfl⟩

/-- For the transformations of the package: values within the limits of C16 are kept. -/
theorem checkgrad_keeps_floats_partial (sem : T → Transform.Tr) {s : State (Option ℝ) T} (r : Ready s)
    (hc : Coherent (floatOps sem) s) (signs : List ℝ) (junk : List (Option ℝ)) (y : Target)
    (hlim : ∀ i t, i ∈ free s → i ∈ s.cons (.tr t) → ∃ v, s.vals[i]? = some (some v) ∧ WithinC16 (sem t) v) :
    (s.checkVerbose (floatOps sem) g F step tol junk y).1.vals = s.vals ∧
    (s.checkQuick (floatOps sem) g F step tol signs junk y).1.vals = s.vals := by
  refine checkgrad_keeps_values_partial _ g F step tol r hc signs junk y (fun i t v hi ht hv => ?_)
  obtain ⟨y, hy, l⟩ := hlim i t hi ht
  rw [hv] at hy; cases hy
  obtain ⟨x, hx, he⟩ := Transform.f_finv_partial (sem t) l.ne y l.dom l.limits
  show ((some y).bind (sem t).finv).map (sem t).f = some y
  rw [Option.bind_some, hx, Option.map_some, he]

/-- The model of the examples meets the hypotheses. -/
example (signs : List ℝ) (junk : List (Option ℝ)) (y : Target) :
    (demoReal.checkVerbose (floatOps fun _ => .exponent) g F step tol junk y).1.vals = demoReal.vals ∧
    (demoReal.checkQuick (floatOps fun _ => .exponent) g F step tol signs junk y).1.vals = demoReal.vals := by
  refine checkgrad_keeps_floats_partial g F step tol _ demoReal_ready (coherent_of_stale rfl) signs junk y
    (fun i t hi _ => ⟨1, ?_, by simp, by simp [Transform.Dom], ?_, ?_⟩)
  · have hi := (mem_free.mp hi).1
    have h8 : demoReal.size = 8 := demoReal_ready.vals.symm
    rw [h8] at hi
    show (List.replicate 8 (some (1 : ℝ)))[i]? = _
    rw [List.getElem?_replicate, if_pos hi]
  · rw [Real.exp_le_one_iff]; norm_num [Transform.lim]
  · rw [Real.one_le_exp_iff]; norm_num [Transform.lim]

/-- C57 fails for `NegativeExponent`: `checkgrad` of anything with a free element replaces every free value
constrained by it by its reciprocal. -/
theorem checkgrad_keeps_values_fails (sem : T → Transform.Tr) {s : State (Option ℝ) T} (r : Ready s)
    (hc : Coherent (floatOps sem) s) (signs : List ℝ) (junk : List (Option ℝ)) {y : Target}
    (hy : (s.readOpt (floatOps sem) junk).1.raveledForTransformed y ≠ []) {i : Nat} {t : T} {v : ℝ}
    (hi : i ∈ free s) (ht : i ∈ s.cons (.tr t)) (hv : s.vals[i]? = some (some v)) (hne : sem t = .negExponent)
    (hd : v ∈ Transform.Dom .negExponent) (hlim : Transform.InModelLimits .negExponent v) :
    (s.checkVerbose (floatOps sem) g F step tol junk y).1.vals[i]? = some (some (1 / v)) ∧
    (s.checkQuick (floatOps sem) g F step tol signs junk y).1.vals[i]? = some (some (1 / v)) := by
  obtain ⟨h1, h2⟩ := checkgrad_vals (floatOps sem) g F step tol r hc signs junk y
  rw [h1, h2, if_neg hy, and_self]
  obtain ⟨-, hl, ha⟩ := readOpt_lists r hc junk
  obtain ⟨k, hk⟩ := List.mem_iff_getElem?.mp hi
  obtain ⟨v', w, e1, e2, e3⟩ := ha k i hk
  rw [hv] at e1; cases e1
  obtain ⟨x, w', f1, f2, f3⟩ := (setVals_spec (floatOps sem) r (s.readOpt (floatOps sem) junk).2).2.2 hl k i hk
  rw [e2] at f1; cases f1
  obtain ⟨z, hz, hf⟩ := Transform.negExponent_f_finv_fails v hd hlim
  rw [f2, f3.1 t ht, e3.1 t ht]
  show some (((some v).bind (sem t).finv).map (sem t).f) = _
  rw [hne, Option.bind_some, hz, Option.map_some, hf]

/-- The model of the examples with all values -2. -/
noncomputable def demoNegative : State (Option ℝ) Nat :=
  { demo with vals := List.replicate 8 (some (-2)), grad := List.replicate 8 (some 1), copy := none }

theorem demoNegative_ready : Ready demoNegative :=
  ⟨⟨Hier.Heap.demo_reach, demo_ready.lt, demo_ready.vals⟩, demo_ready.root, demo_ready.node, demo_ready.inInit,
    demo_ready.inited⟩

/-- It meets the hypotheses: element 1 is -2 before and -1/2 after. -/
example (signs : List ℝ) (junk : List (Option ℝ)) : demoNegative.vals[1]? = some (some (-2 : ℝ)) ∧
    (demoNegative.checkVerbose (floatOps fun _ => .negExponent) g F step tol junk ⟨0, none⟩).1.vals[1]? =
      some (some (1 / (-2) : ℝ)) := by
  refine ⟨rfl, (checkgrad_keeps_values_fails g F step tol (fun _ => .negExponent) demoNegative_ready
    (coherent_of_stale rfl) signs junk ?_ (t := 7) ?_ ?_ rfl rfl ?_ ?_).1⟩
  · rw [readOpt_state demoNegative_ready]
    show (State.mk Hier.Heap.demo 0 (List.replicate 8 0) (List.replicate 8 0) none true true :
      State Nat Nat).raveledForTransformed ⟨0, none⟩ ≠ []
    decide +kernel
  · show 1 ∈ free demo
    decide +kernel
  · show 1 ∈ demo.cons (.tr 7)
    decide +kernel
  · show (-2 : ℝ) < 0
    norm_num
  · show Real.exp (-Transform.lim) ≤ - -2 ∧ - -2 ≤ Real.exp Transform.lim
    constructor
    · have : Real.exp (-Transform.lim) ≤ 1 := by rw [Real.exp_le_one_iff]; norm_num [Transform.lim]
      linarith
    · have := Real.add_one_le_exp Transform.lim
      have h : (1 : ℝ) ≤ Transform.lim := by norm_num [Transform.lim]
      linarith

/-! ### C58 -/

/-- The answer for one element: numerical and given derivative differ by less than the tolerance, or by
less than the tolerance relative to the given one. -/
def Agree (tol num ana : ℝ) : Prop := |num - ana| < tol * max 1 |ana|

theorem passes_iff {f1 f2 d : ℝ} (hs : step ≠ 0) (ht : 0 < tol) (ht1 : tol ≤ 1) :
    passes step tol (some f1) (some f2) (some d) = true ↔ Agree tol ((f1 - f2) / (2 * step)) d := by
  simp only [passes, abs_abs, Bool.or_eq_true, decide_eq_true_eq, Agree, mul_max_of_nonneg _ _ ht.le,
    mul_one, lt_max_iff]
  by_cases hd : d = 0
  · subst hd
    simp only [if_true, sub_zero, abs_zero, mul_zero]
    constructor
    · rintro (h | h)
      · left
        by_cases he : f1 - f2 = 0
        · simpa [he] using ht
        · rw [if_neg he, sub_zero, abs_one] at h
          linarith
      · exact Or.inl h
    · rintro (h | h)
      · exact Or.inr h
      · exact absurd h (not_lt.mpr (abs_nonneg _))
  · rw [if_neg hd, or_comm]
    refine or_congr_right ?_
    have hd' : 0 < |d| := abs_pos.mpr hd
    rw [show 1 - (f1 - f2) / (2 * step * d) = ((d - (f1 - f2) / (2 * step)) / d) by field_simp,
      abs_div, div_lt_iff₀ hd', abs_sub_comm]

theorem passes_some {f1 f2 d : Option ℝ} (h : passes step tol f1 f2 d = true) :
    ∃ a b e, f1 = some a ∧ f2 = some b ∧ d = some e := by
  cases f1 <;> cases f2 <;> cases d <;> simp_all [passes]

theorem bump_length (x : List (Option ℝ)) (k : Nat) (d : ℝ) : (bump x k d).length = x.length := by
  simp [bump]

theorem bump_bump (x : List (Option ℝ)) (k : Nat) (d e : ℝ) : bump (bump x k d) k e = bump x k (d + e) := by
  apply List.ext_getElem?
  intro j
  simp only [bump, List.getElem?_modify]
  by_cases h : k = j
  · subst h
    rcases x[k]? with _ | _ | v <;> simp [add_assoc]
  · simp [h]

theorem checkEach_answer {s : State (Option ℝ) T} (r : Ready s) (x grad : List (Option ℝ))
    (hx : x.length = (free s).length) :
    ∀ (L : List Nat) (s' : State (Option ℝ) T) (ret : Bool), Alike s s' →
      ((checkEach o g F step tol x grad L s' ret).2 = true ↔ ret = true ∧ ∀ k ∈ L,
        passes step tol (F (s.setVals o (bump x k step))) (F (s.setVals o (bump x k (-step))))
          ((grad[k]?).getD none) = true)
  | [], _, ret, _ => by simp [checkEach]
  | k :: L, s', ret, h => by
    rw [checkEach]
    simp only [State.objective]
    rw [checkEach_answer r x grad hx L _ _ ((h.set o g _).set o g _), Bool.and_eq_true, setOpt_vals,
      setOpt_vals, h.setVals o r (by rw [bump_length, hx]),
      (h.set o g _).setVals o r (by rw [bump_length, bump_length, hx]), bump_bump,
      show step + -(2 * step) = -step by ring]
    simp only [List.mem_cons, forall_eq_or_imp, and_assoc]

/-- C58, the individual check: it answers yes exactly if, for every position `k` of the vector that
belongs to a free element of the object, the given gradient agrees with the symmetric difference
quotient of the objective by the `k`-th entry. -/
theorem verbose_answer {s : State (Option ℝ) T} (r : Ready s) (hc : Coherent o s) (hs : step ≠ 0)
    (ht : 0 < tol) (ht1 : tol ≤ 1) (junk : List (Option ℝ)) (y : Target) :
    let x := (s.readOpt o junk).2
    (s.checkVerbose o g F step tol junk y).2 = true ↔
      ∀ k ∈ (s.readOpt o junk).1.raveledForTransformed y, ∃ a b d,
        (s.objective o g F (bump x k step)).2 = some a ∧ (s.objective o g F (bump x k (-step))).2 = some b ∧
        (s.grads o g x).2[k]? = some (some d) ∧ Agree tol ((a - b) / (2 * step)) d := by
  intro x
  have h0 := Alike.read o r junk
  have hl : x.length = (free (s.readOpt o junk).1).length := by
    rw [h0.free]; exact (readOpt_lists r hc junk).2.1
  have hl' : x.length = (free s).length := (readOpt_lists r hc junk).2.1
  have hobj : ∀ p : List (Option ℝ), p.length = x.length →
      F ((s.readOpt o junk).1.setVals o p) = (s.objective o g F p).2 := by
    intro p hp
    simp only [State.objective]
    rw [setOpt_vals, h0.setVals o r (by rw [hp, hl'])]
  have hgr : ((s.readOpt o junk).1.grads o g x).2 = (s.grads o g x).2 := by
    have hst := readOpt_state (o := o) r junk
    have e1 : ((s.readOpt o junk).1.setOpt o g x).vals = (s.setOpt o g x).vals := by
      rw [setOpt_vals, setOpt_vals, h0.setVals o r hl']
    simp only [State.grads, State.optGrad, State.transformGradients]
    rw [e1]
    have e2 : ((s.readOpt o junk).1.setOpt o g x).grad = (s.setOpt o g x).grad := by
      have e3 : (s.readOpt o junk).1.setVals o x = s.setVals o x := h0.setVals o r hl'
      have e4 : (s.readOpt o junk).1.on = s.on := h0.on
      have e5 : (s.readOpt o junk).1.grad = s.grad := by rw [hst]
      simp only [State.setOpt, State.notify]
      rw [e3, e4, e5]
      split <;> rfl
    have e6 : ((s.readOpt o junk).1.setOpt o g x).heap = (s.setOpt o g x).heap := by
      have : (s.readOpt o junk).1.heap = s.heap := by rw [hst]
      simp [State.setOpt, this]
    have e7 : ((s.readOpt o junk).1.setOpt o g x).root = (s.setOpt o g x).root := by
      have : (s.readOpt o junk).1.root = s.root := by rw [hst]
      simp [State.setOpt, this]
    have e8 : ((s.readOpt o junk).1.setOpt o g x).items = (s.setOpt o g x).items := by
      simp only [State.items]; rw [e6, e7]
    have e9 : ((s.readOpt o junk).1.setOpt o g x).hasFixes = (s.setOpt o g x).hasFixes := by
      have : ((s.readOpt o junk).1.setOpt o g x).cons .fixed = (s.setOpt o g x).cons .fixed := by
        simp only [State.cons]; rw [e6, e7]
      simp only [State.hasFixes, this]
    rw [e2, e6, e7, e8, e9]
  have key : ∀ k, passes step tol (F ((s.readOpt o junk).1.setVals o (bump x k step)))
      (F ((s.readOpt o junk).1.setVals o (bump x k (-step)))) (((s.grads o g x).2[k]?).getD none) = true ↔
      ∃ a b d, (s.objective o g F (bump x k step)).2 = some a ∧
        (s.objective o g F (bump x k (-step))).2 = some b ∧
        (s.grads o g x).2[k]? = some (some d) ∧ Agree tol ((a - b) / (2 * step)) d := by
    intro k
    rw [hobj _ (bump_length _ _ _), hobj _ (bump_length _ _ _)]
    constructor
    · intro h
      obtain ⟨a, b, d, e1, e2, e3⟩ := passes_some step tol h
      refine ⟨a, b, d, e1, e2, ?_, ?_⟩
      · revert e3
        cases (s.grads o g x).2[k]? with
        | none => simp
        | some v => intro e3; exact congrArg some e3
      · rw [e1, e2, e3] at h
        exact (passes_iff step tol hs ht ht1).mp h
    · rintro ⟨a, b, d, e1, e2, e3, h⟩
      rw [e1, e2, e3]
      exact (passes_iff step tol hs ht ht1).mpr h
  unfold State.checkVerbose
  simp only
  split
  · rename_i he
    rw [he]; simp
  · have ha : Alike (s.readOpt o junk).1 ((s.readOpt o junk).1.grads o g x).1 :=
      ((Alike.refl h0.ready).set o g _).optGrad o
    rw [checkEach_answer o g F step tol h0.ready x _ hl _ _ _ ha, hgr]
    simp only [true_and]
    exact forall₂_congr fun k _ => key k

end Props

end Paramz.Opt

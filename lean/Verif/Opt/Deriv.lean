import Verif.Opt.Props

/-!
# The gradient given to optimisers is the derivative of the objective given to optimisers (C56)

Optimisers work on vectors `p`: `_objective(p)` and `_grads(p)` (model.py:225-282) set `optimizer_array`
to `p` and return the objective and the transformed gradient.
-/

set_option linter.unusedSectionVars false

namespace Paramz.Opt

open IndexOps (Arr lookup)
open Hier (Heap Con Id)
open Topology

variable {V T : Type} [DecidableEq T]

/-- `_objective(p)` (model.py:248-269) of a model whose `objective_function` computes `F` from the
parameter values. -/
def State.objective {W : Type} (o : Ops V T) (g : List V → List V) (F : List V → W) (s : State V T)
    (p : List V) : State V T × W :=
  (s.setOpt o g p, F (s.setOpt o g p).vals)

/-- `_grads(p)` (model.py:225-246), without failures. -/
def State.grads (o : Ops V T) (g : List V → List V) (s : State V T) (p : List V) : State V T × List V :=
  (s.setOpt o g p).optGrad o

/-- The function of the transformation of element `i`. -/
theorem via_fun {s : State V T} (r : Ready s) (h : T → V → V) (i : Nat) :
    ∃ φ : V → V, (∀ v w, Via s h i v w ↔ w = φ v) ∧
      ((∃ t, i ∈ s.cons (.tr t) ∧ φ = h t) ∨ ((∀ t, i ∉ s.cons (.tr t)) ∧ φ = id)) := by
  by_cases hx : ∃ t, i ∈ s.cons (.tr t)
  · obtain ⟨t, ht⟩ := hx
    refine ⟨h t, fun v w => ⟨fun hv => hv.1 t ht, fun hv => ⟨fun u hu => ?_, fun hn => absurd ht (hn t)⟩⟩,
      Or.inl ⟨t, ht, rfl⟩⟩
    rw [r.single hu ht]; exact hv
  · have hx : ∀ t, i ∉ s.cons (.tr t) := fun t ht => hx ⟨t, ht⟩
    exact ⟨id, fun v w => ⟨fun hv => hv.2 hx, fun hv => ⟨fun t ht => absurd ht (hx t), fun _ => hv⟩⟩,
      Or.inr ⟨hx, rfl⟩⟩

/-- Changing one entry of the vector changes one value. -/
theorem setVals_set (o : Ops V T) {s : State V T} (r : Ready s) {p : List V}
    (hp : p.length = (free s).length) {k i : Nat} (hk : (free s)[k]? = some i) {y w : V}
    (hw : Via s o.f i y w) : s.setVals o (p.set k y) = (s.setVals o p).set i w := by
  obtain ⟨l1, a1, b1⟩ := setVals_spec o r p
  obtain ⟨l2, a2, b2⟩ := setVals_spec o r (p.set k y)
  have b1 := b1 hp
  have b2 := b2 (by rw [List.length_set, hp])
  have hi := mem_free.mp (List.mem_of_getElem? hk)
  have hkl : k < (free s).length := (List.getElem?_eq_some_iff.mp hk).1
  have hnd : (free s).Nodup := List.Nodup.filter _ List.nodup_range
  apply List.ext_getElem?
  intro j
  by_cases hj : j < s.size
  · by_cases hfx : j ∈ s.cons .fixed
    · have hne : i ≠ j := fun h => hi.2 (h ▸ hfx)
      rw [List.getElem?_set_ne hne, a1 j hfx, a2 j hfx]
    · obtain ⟨m, hm⟩ := List.mem_iff_getElem?.mp (mem_free.mpr ⟨hj, hfx⟩)
      obtain ⟨x1, w1, e1, f1, v1⟩ := b1 m j hm
      obtain ⟨x2, w2, e2, f2, v2⟩ := b2 m j hm
      by_cases hmk : m = k
      · subst hmk
        rw [hk] at hm; cases hm
        rw [List.getElem?_set_self (by rw [hp]; exact hkl)] at e2
        cases e2
        rw [List.getElem?_set_self (by rw [l1]; exact hj), f2, via_unique r v2 hw]
      · have hne : i ≠ j := by
          rintro rfl
          exact hmk ((List.getElem?_inj (List.getElem?_eq_some_iff.mp hm).1 hnd).mp (hm.trans hk.symm))
        rw [List.getElem?_set_ne (Ne.symm hmk), e1] at e2
        cases e2
        rw [List.getElem?_set_ne hne, f1, f2, via_unique r v2 v1]
  · rw [List.getElem?_eq_none (by omega), List.getElem?_eq_none (by rw [List.length_set, l1]; omega)]

/-- Optimiser values within the limits of C18. -/
structure WithinC18 (t : Transform.Tr) (x : ℝ) : Prop where
  valid : t.Valid
  ne : t ≠ .negExponent
  square : t = .square → 0 ≤ x
  limits : ∀ᶠ z in 𝓝 x, Transform.InLimits t z
  step : t = .logexp ∨ t = .negLogexp → x ≠ Transform.lim

/-- The objective as a function of the `k`-th entry of the vector `p`. -/
noncomputable def along (sem : T → Transform.Tr) (g : List (Option ℝ) → List (Option ℝ)) (F : List (Option ℝ) → ℝ)
    (s : State (Option ℝ) T) (p : List (Option ℝ)) (k : Nat) (z : ℝ) : ℝ :=
  (s.objective (floatOps sem) g F (p.set k (some z))).2

/-- The user computes the right gradient: where the values are `v` and element `i` has the value `w`,
the `i`-th entry of `g v` is the derivative `d` of the objective by that element. -/
structure RightAt (g : List (Option ℝ) → List (Option ℝ)) (F : List (Option ℝ) → ℝ) (v : List (Option ℝ))
    (i : Nat) (w d : ℝ) : Prop where
  val : v[i]? = some (some w)
  entry : (g v)[i]? = some (some d)
  deriv : HasDerivAt (fun y => F (v.set i (some y))) d w

/-- C56 (partial). At every vector `p`, the `k`-th entry of the gradient given to the optimiser is the
derivative of the objective given to the optimiser by the `k`-th entry of the vector, if the model
computes the right derivative by the parameter itself. (Up to 2.4e-16 relative to that derivative where
`Logexp` switches to its linear branch.) Missing: what is missing in C18. -/
theorem gradient_is_derivative_partial (sem : T → Transform.Tr) (g : List (Option ℝ) → List (Option ℝ))
    (F : List (Option ℝ) → ℝ) {s : State (Option ℝ) T} (r : Ready s) (hon : s.on = true)
    (hg : ∀ a, (g a).length = a.length) {p : List (Option ℝ)} (hp : p.length = (free s).length)
    {k i : Nat} (hk : (free s)[k]? = some i) {x w d : ℝ} (hx : p[k]? = some (some x))
    (hd : RightAt g F (s.setOpt (floatOps sem) g p).vals i w d)
    (hlim : ∀ t, i ∈ s.cons (.tr t) → WithinC18 (sem t) x) :
    ∃ e, (s.grads (floatOps sem) g p).2[k]? = some (some e) ∧
      ∃ d', HasDerivAt (along sem g F s p k) d' x ∧ |e - d'| ≤ |d| * 2.4e-16 ∧
        ((∀ t, i ∈ s.cons (.tr t) → ¬ Transform.AtSwitch (sem t) x) → e = d') := by
  obtain ⟨v, d0, e, hv, hd0, he, hvia⟩ := (gradient_at_point (floatOps sem) g r hon hg p).2 k i hk
  rw [hd.val] at hv; cases hv
  rw [hd.entry] at hd0; cases hd0
  have hval : ∀ z, (s.setOpt (floatOps sem) g z).vals = s.setVals (floatOps sem) z := fun z => by
    simp [State.setOpt]
  obtain ⟨x', w', hx', hw', hvia'⟩ := set_writes_free (floatOps sem) g r hp hk
  rw [hx] at hx'; cases hx'
  rw [hd.val] at hw'; cases hw'
  by_cases ht : ∃ t, i ∈ s.cons (.tr t)
  · obtain ⟨t, ht⟩ := ht
    have l := hlim t ht
    have hw : w = (sem t).f x := by have := hvia'.1 t ht; simpa [floatOps] using this
    have hal : along sem g F s p k =
        (fun y => F ((s.setOpt (floatOps sem) g p).vals.set i (some y))) ∘ (sem t).f := by
      funext z
      show F (s.setOpt (floatOps sem) g (p.set k (some z))).vals = _
      rw [hval, setVals_set (floatOps sem) r hp hk (y := some z) (w := some ((sem t).f z)), ← hval]
      · rfl
      · exact ⟨fun u hu => by rw [r.single hu ht]; rfl, fun hn => absurd ht (hn t)⟩
    obtain ⟨d1, hd1, e1, he1, hb, hs⟩ :=
      Transform.gradfactor_chain_rule_partial (sem t) l.valid l.ne x d l.square l.limits l.step
    have hee : e = some e1 := by
      rw [hvia.1 t ht]
      show (some w).bind (fun v => (some d).bind ((sem t).gradfactor v)) = some e1
      rw [Option.bind_some, Option.bind_some, hw, he1]
    subst hee
    refine ⟨e1, he, d * d1, ?_, hb, fun h => hs (h t ht)⟩
    rw [hal]
    exact HasDerivAt.comp x (hw ▸ hd.deriv) hd1
  · have ht : ∀ t, i ∉ s.cons (.tr t) := fun t h => ht ⟨t, h⟩
    have hw : w = x := by have := hvia'.2 ht; simpa using this
    have hal : along sem g F s p k =
        (fun y => F ((s.setOpt (floatOps sem) g p).vals.set i (some y))) := by
      funext z
      show F (s.setOpt (floatOps sem) g (p.set k (some z))).vals = _
      rw [hval, setVals_set (floatOps sem) r hp hk (y := some z) (w := some z), ← hval]
      exact ⟨fun u hu => absurd hu (ht u), fun _ => rfl⟩
    have hee : e = some d := hvia.2 ht
    subst hee
    refine ⟨d, he, d, ?_, by rw [sub_self, abs_zero]; positivity, fun _ => rfl⟩
    rw [hal]
    exact hw ▸ hd.deriv

/-- C56 fails for `NegativeExponent`: the gradient given to the optimiser is the negative of the
derivative, at every point within the limits, whatever the model computes. -/
theorem gradient_is_derivative_fails (sem : T → Transform.Tr) (g : List (Option ℝ) → List (Option ℝ))
    (F : List (Option ℝ) → ℝ) {s : State (Option ℝ) T} (r : Ready s) (hon : s.on = true)
    (hg : ∀ a, (g a).length = a.length) {p : List (Option ℝ)} (hp : p.length = (free s).length)
    {k i : Nat} (hk : (free s)[k]? = some i) {x w d : ℝ} (hx : p[k]? = some (some x))
    (hd : RightAt g F (s.setOpt (floatOps sem) g p).vals i w d) {t : T} (ht : i ∈ s.cons (.tr t))
    (hne : sem t = .negExponent) (hlim : ∀ᶠ z in 𝓝 x, Transform.InLimits .negExponent z) :
    ∃ d', HasDerivAt (along sem g F s p k) d' x ∧ (d ≠ 0 → d' ≠ 0) ∧
      (s.grads (floatOps sem) g p).2[k]? = some (some (-d')) := by
  obtain ⟨v, d0, e, hv, hd0, he, hvia⟩ := (gradient_at_point (floatOps sem) g r hon hg p).2 k i hk
  rw [hd.val] at hv; cases hv
  rw [hd.entry] at hd0; cases hd0
  have hval : ∀ z, (s.setOpt (floatOps sem) g z).vals = s.setVals (floatOps sem) z := fun z => by
    simp [State.setOpt]
  obtain ⟨x', w', hx', hw', hvia'⟩ := set_writes_free (floatOps sem) g r hp hk
  rw [hx] at hx'; cases hx'
  rw [hd.val] at hw'; cases hw'
  have hw : w = (sem t).f x := by have := hvia'.1 t ht; simpa [floatOps] using this
  have hal : along sem g F s p k =
      (fun y => F ((s.setOpt (floatOps sem) g p).vals.set i (some y))) ∘ (sem t).f := by
    funext z
    show F (s.setOpt (floatOps sem) g (p.set k (some z))).vals = _
    rw [hval, setVals_set (floatOps sem) r hp hk (y := some z) (w := some ((sem t).f z)), ← hval]
    · rfl
    · exact ⟨fun u hu => by rw [r.single hu ht]; rfl, fun hn => absurd ht (hn t)⟩
  obtain ⟨d1, hd1, hne1, he1⟩ := Transform.negExponent_gradfactor_fails x d hlim
  rw [← hne] at hd1 he1
  refine ⟨d * d1, ?_, fun h => mul_ne_zero h hne1, ?_⟩
  · rw [hal]
    exact HasDerivAt.comp x (hw ▸ hd.deriv) hd1
  · refine he.trans ?_
    rw [hvia.1 t ht]
    show some ((some w).bind (fun v => (some d).bind ((sem t).gradfactor v))) = _
    rw [Option.bind_some, Option.bind_some, hw, he1]

/-! An example: the objective is the sum of all values. -/

noncomputable def demoSum (v : List (Option ℝ)) : ℝ := (v.map (·.getD 0)).sum

theorem demoSum_set : ∀ (v : List (Option ℝ)) (i : Nat) (y : ℝ), i < v.length →
    demoSum (v.set i (some y)) = demoSum (v.set i (some 0)) + y
  | a :: v, 0, y, _ => by simp [demoSum, add_comm]
  | a :: v, i + 1, y, h => by
    have := demoSum_set v i y (by simpa using h)
    simp only [demoSum, List.set_cons_succ, List.map_cons, List.sum_cons] at this ⊢
    rw [this, add_assoc]
  | [], _, _, h => by simp at h

/-- The second entry of the vector belongs to element 1, which is constrained by `Exponent` here. -/
example : ∃ w d, RightAt (fun v => v.map fun _ => some 1) demoSum
      (demoReal.setOpt (floatOps (fun _ => .exponent)) (fun v => v.map fun _ => some 1)
        (List.replicate 5 (some 2))).vals 1 w d ∧ 1 ∈ demoReal.cons (.tr 7) ∧
      (free demoReal)[1]? = some 1 ∧ WithinC18 .exponent (2 : ℝ) := by
  have hf : free demoReal = [0, 1, 2, 3, 5] := show free demo = _ by decide +kernel
  have hc : 1 ∈ demoReal.cons (.tr 7) := show 1 ∈ demo.cons (.tr 7) by decide +kernel
  obtain ⟨x, w, h1, h2, h3⟩ := set_writes_free (floatOps (fun _ => .exponent))
    (fun v => v.map fun _ => some 1) demoReal_ready (p := List.replicate 5 (some 2)) (by rw [hf]; rfl)
    (show (free demoReal)[1]? = some 1 by rw [hf]; rfl)
  cases h1
  have h4 := h3.1 7 hc
  have hl : 1 < (demoReal.setOpt (floatOps (fun _ => .exponent)) (fun v => v.map fun _ => some 1)
    (List.replicate 5 (some 2))).vals.length := (List.getElem?_eq_some_iff.mp h2).1
  refine ⟨Transform.Tr.exponent.f 2, 1, ⟨by rw [h2, h4]; rfl, ?_, ?_⟩, hc, by rw [hf]; rfl,
    ⟨trivial, by simp, by simp, ?_, by simp⟩⟩
  · rw [List.getElem?_map, h2]; rfl
  · have : (fun y => demoSum ((demoReal.setOpt (floatOps (fun _ => .exponent))
        (fun v => v.map fun _ => some 1) (List.replicate 5 (some 2))).vals.set 1 (some y))) =
        fun y => demoSum ((demoReal.setOpt (floatOps (fun _ => .exponent))
        (fun v => v.map fun _ => some 1) (List.replicate 5 (some 2))).vals.set 1 (some 0)) + y :=
      funext fun y => demoSum_set _ 1 y hl
    rw [this]
    exact (hasDerivAt_id _).const_add _
  · have : Set.Icc (-Transform.lim) Transform.lim ∈ 𝓝 (2 : ℝ) :=
      Icc_mem_nhds (by norm_num [Transform.lim]) (by norm_num [Transform.lim])
    filter_upwards [this] with z hz using hz

end Paramz.Opt
